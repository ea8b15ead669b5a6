import Mathlib.Data.Nat.Prime.Basic
import Mathlib.Data.Nat.Sqrt
import Verif.Lib.M
import Verif.Model.Factorize
/- C41: the trial-division helper (tools/factorize.py). -/
namespace NDP

/-- `stop` is a value that `int(math.sqrt(x)+1)` can have: the exact value is `⌊√x⌋ + 1`; rounding may add one. -/
def StopFor (x stop : Nat) : Prop := Nat.sqrt x < stop ∧ stop ≤ Nat.sqrt x + 2

theorem trialFrom_factor {x : Nat} : ∀ {n lo i : Nat}, trialFrom x lo n = .factor i →
    i ∣ x ∧ lo ≤ i ∧ i < lo + 2 * n ∧ (i - lo) % 2 = 0 ∧ ∀ j, lo ≤ j → j < i → (j - lo) % 2 = 0 → ¬ j ∣ x := by
  intro n
  induction n with
  | zero => intro lo i h; simp [trialFrom] at h
  | succ n ih =>
    intro lo i h
    unfold trialFrom at h
    split at h
    · next hd =>
      have e : lo = i := by simpa using h
      subst e
      exact ⟨Nat.dvd_of_mod_eq_zero hd, Nat.le_refl _, by omega, by simp, fun j h1 h2 => by omega⟩
    · next hd =>
      obtain ⟨h1, h2, h3, h4, h5⟩ := ih h
      refine ⟨h1, by omega, by omega, by omega, fun j k1 k2 k3 => ?_⟩
      by_cases e : j = lo
      · subst e; exact fun hj => hd (Nat.mod_eq_zero_of_dvd hj)
      · exact h5 j (by omega) k2 (by omega)

theorem trialFrom_prime {x : Nat} : ∀ {n lo : Nat}, trialFrom x lo n = .isPrime →
    ∀ j, lo ≤ j → j < lo + 2 * n → (j - lo) % 2 = 0 → ¬ j ∣ x := by
  intro n
  induction n with
  | zero => intro lo _ j h1 h2; omega
  | succ n ih =>
    intro lo h
    unfold trialFrom at h
    split at h
    · simp at h
    · next hd =>
      intro j k1 k2 k3
      by_cases e : j = lo
      · subst e; exact fun hj => hd (Nat.mod_eq_zero_of_dvd hj)
      · exact ih h j (by omega) (by omega) (by omega)

theorem odd_of_dvd {x i : Nat} (hx : x % 2 = 1) (h : i ∣ x) : i % 2 = 1 := by
  obtain ⟨k, rfl⟩ := h
  rcases Nat.mod_two_eq_zero_or_one i with e | e
  · rw [Nat.mul_mod, e] at hx; simp at hx
  · exact e

/-- A number that is not prime has a factor up to its root. -/
theorem factor_le_sqrt {x : Nat} (hx : x % 2 = 1) (h3 : 3 ≤ x) (hp : ¬ x.Prime) :
    ∃ i, 3 ≤ i ∧ i ≤ Nat.sqrt x ∧ i ∣ x := by
  have hm := Nat.minFac_sq_le_self (by omega : 0 < x) hp
  have hd := Nat.minFac_dvd x
  have ho := odd_of_dvd hx hd
  have hprime := Nat.minFac_prime (by omega : x ≠ 1)
  have h2 := hprime.two_le
  exact ⟨x.minFac, by omega, Nat.le_sqrt'.2 hm, hd⟩

/-- **C41.** For every odd `x ≥ 3`: the helper returns a number exactly when `x` is composite, and then it is the smallest
factor of `x` above 1; it returns "is Prime" exactly when `x` is prime. -/
theorem C41_trial_division {x stop : Nat} (hx : x % 2 = 1) (h3 : 3 ≤ x) (hs : StopFor x stop) :
    (factorizeNum stop x = .isPrime ↔ x.Prime) ∧
    (∀ i, factorizeNum stop x = .factor i ↔ ¬ x.Prime ∧ i ∣ x ∧ 1 < i ∧ ∀ j, 1 < j → j ∣ x → i ≤ j) := by
  have hlt : Nat.sqrt x + 1 < x := by
    have : Nat.sqrt x < 2 ∨ 2 ≤ Nat.sqrt x := by omega
    rcases this with h | h
    · omega
    · have h1 := Nat.sqrt_le x
      have h2 := Nat.mul_le_mul_right (Nat.sqrt x) h
      omega
  have hA : ∀ i, factorizeNum stop x = .factor i → ¬ x.Prime ∧ i ∣ x ∧ 1 < i ∧ ∀ j, 1 < j → j ∣ x → i ≤ j := by
    intro i h
    obtain ⟨h1, h2, h3', h4, h5⟩ := trialFrom_factor h
    have hi : i < x := by
      have := hs.2
      omega
    refine ⟨fun hp => ?_, h1, by omega, fun j k1 k2 => ?_⟩
    · rcases (Nat.dvd_prime hp).1 h1 with e | e <;> omega
    · by_contra hc
      have ho := odd_of_dvd hx k2
      exact h5 j (by omega) (by omega) (by omega) k2
  have hB : factorizeNum stop x = .isPrime → x.Prime := by
    intro h
    by_contra hp
    obtain ⟨i, k1, k2, k3⟩ := factor_le_sqrt hx h3 hp
    have ho := odd_of_dvd hx k3
    have := hs.1
    exact trialFrom_prime h i k1 (by omega) (by omega) k3
  constructor
  · refine ⟨hB, fun hp => ?_⟩
    match h : factorizeNum stop x with
    | .isPrime => rfl
    | .factor i => exact absurd hp (hA i h).1
  · refine fun i => ⟨hA i, ?_⟩
    rintro ⟨k1, k2, k3, k4⟩
    match h : factorizeNum stop x with
    | .isPrime => exact absurd (hB h) k1
    | .factor j =>
      obtain ⟨_, m2, m3, m4⟩ := hA j h
      rw [Nat.le_antisymm (k4 j m3 m2) (m4 i k3 k2)]

/-- Non-vacuity: the exact value of the bound is allowed, for every `x`. -/
example (x : Nat) : StopFor x (Nat.sqrt x + 1) := ⟨by omega, by omega⟩

/-- The whole script, for odd composite numbers: it prints the smallest factor and its cofactor, verified. -/
theorem C41_script_composite {x stop : Nat} (hx : x % 2 = 1) (h3 : 3 ≤ x) (hs : StopFor x stop) (hp : ¬ x.Prime) :
    ∃ i, i ∣ x ∧ 1 < i ∧ i < x ∧ factorizeScript stop x = pure (i, x / i, true) := by
  match h : factorizeNum stop x with
  | .isPrime => exact absurd ((C41_trial_division hx h3 hs).1.1 h) hp
  | .factor i =>
    obtain ⟨_, k2, k3, k4⟩ := ((C41_trial_division hx h3 hs).2 i).1 h
    have hlt : i < x := by
      have hm := Nat.minFac_prime (by omega : x ≠ 1)
      have := k4 _ hm.one_lt (Nat.minFac_dvd x)
      have h4 : x.minFac < x := by
        rcases Nat.lt_or_ge x.minFac x with h | h
        · exact h
        · exact absurd (Nat.le_antisymm (Nat.minFac_le (by omega)) h ▸ hm) hp
      omega
    refine ⟨i, k2, k3, hlt, ?_⟩
    unfold factorizeScript
    rw [h]
    simp [Nat.mul_div_cancel' k2]

/-- **The script never reports primality**: for every odd prime it ends with a `TypeError` (a number is divided by the
text "The number ... is Prime!"). -/
theorem C41_script_prime_crashes {x stop : Nat} (hx : x % 2 = 1) (h3 : 3 ≤ x) (hs : StopFor x stop) (hp : x.Prime) :
    factorizeScript stop x = raise .typeError := by
  unfold factorizeScript
  rw [(C41_trial_division hx h3 hs).1.2 hp]

example : factorizeScript 10 91 = pure (7, 13, true) ∧ ¬ Nat.Prime 91 ∧ StopFor 91 10 := by
  refine ⟨rfl, fun h => ?_, ?_⟩
  · rcases (Nat.dvd_prime h).1 (⟨13, rfl⟩ : 7 ∣ 91) with e | e <;> omega
  · have : 9 = Nat.sqrt 91 := Nat.eq_sqrt.2 ⟨by omega, by omega⟩
    unfold StopFor
    omega

end NDP
