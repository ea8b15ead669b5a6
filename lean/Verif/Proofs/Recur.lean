import Verif.Proofs.Mult
/-
  Subtraction and the recursive multiplier.
-/
namespace NDP.Gen
open NDP.Spec

theorem nat_map_not (vs : List Bool) : natOfBits (vs.map not) + natOfBits vs + 1 = 2 ^ vs.length := by
  induction vs with
  | nil => rfl
  | cons v vs ih =>
    rw [List.map_cons, nat_cons, nat_cons, List.length_cons, pow_succ, ← ih]
    cases v <;> simp <;> ring

theorem run_subt {md : Md} (hmd : md.asserts = true) {n : Nat} {ρ : Assign} {xs ys : List Bit} {vx vy : List Bool} (hn : 0 < n)
    (hx : HasL md false n ρ xs vx) (hy : HasL md false n ρ ys vy) (hle : natOfBits vy ≤ natOfBits vx) :
    Run md (subt xs ys) n ρ fun n' ρ' r => ∃ vr, HasL md false n' ρ' r vr ∧ natOfBits vr = natOfBits vx - natOfBits vy := by
  unfold subt
  have h1 := run_mapC (md := md) (R := Has md false) (S := Has md false) (g := not) (f := not1) (stable_has md false)
    (stable_has md false) (fun n ρ x d _ h => run_not1 h) hn (has_padTo (max xs.length ys.length) hy)
  refine Run.bind h1 fun n1 ρ1 zs e1 hz => ?_
  have p1 := Nat.lt_of_lt_of_le hn e1.le
  refine Run.bind (run_not1 (has_low md false n1 ρ1)) fun n2 ρ2 c e2 hc => ?_
  have p2 := Nat.lt_of_lt_of_le p1 e2.le
  refine Run.bind (run_nAdderCarry p2 (has_padTo (max xs.length ys.length) (HasL.ext (e1.trans e2) hx)) (HasL.ext e2 hz) hc)
    fun n3 ρ3 r e3 hr => ?_
  obtain ⟨vs, vc, g1, h2, h3, h4⟩ := hr
  have lx := hx.length
  have ly := hy.length
  set k := max xs.length ys.length with hk
  have ex : natOfBits (vx.take k ++ List.replicate (k - vx.length) false) = natOfBits vx := nat_padTo (by omega)
  have ey : natOfBits (vy.take k ++ List.replicate (k - vy.length) false) = natOfBits vy := nat_padTo (by omega)
  have l1 : (vx.take k ++ List.replicate (k - vx.length) false).length = k := by simp; omega
  have l2 : (vy.take k ++ List.replicate (k - vy.length) false).length = k := by simp; omega
  have hnot := nat_map_not (vy.take k ++ List.replicate (k - vy.length) false)
  rw [l2, ey] at hnot
  rw [List.length_map, l1, l2, Nat.max_self] at h3 h4
  rw [ex] at h4
  simp only [Bool.not_false, b2n_true] at h4
  have b1 := nat_lt vs
  rw [h3] at b1
  have b2 := nat_lt (vx.take k ++ List.replicate (k - vx.length) false)
  rw [l1, ex] at b2
  have hvc : vc = true := by
    cases vc with
    | true => rfl
    | false => rw [b2n_false, Nat.mul_zero] at h4; omega
  subst hvc
  rw [b2n_true, Nat.mul_one] at h4
  refine Run.bind (run_assert1 hmd h2) fun n4 ρ4 _ e4 _ => ?_
  exact Run.pure ⟨vs, HasL.ext e4 g1, by omega⟩

theorem split_val {vs : List Bool} {k : Nat} (h : k ≤ vs.length) :
    natOfBits vs = natOfBits (vs.take k) + 2 ^ k * natOfBits (vs.drop k) := by
  conv => lhs; rw [← List.take_append_drop k vs]
  rw [nat_append, List.length_take, Nat.min_eq_left h]

theorem take_small {vs : List Bool} {k : Nat} (h : k ≤ vs.length) (hv : natOfBits vs < 2 ^ k) :
    natOfBits (vs.take k) = natOfBits vs := by
  have hs := split_val h
  rcases Nat.eq_zero_or_pos (natOfBits (vs.drop k)) with h0 | h0
  · rw [h0] at hs; omega
  · have : 2 ^ k * 1 ≤ 2 ^ k * natOfBits (vs.drop k) := Nat.mul_le_mul_left _ h0
    omega

theorem shift_ne {k : Nat} (h : 0 < k) {xs : List Bit} : shift k xs ≠ [] := by
  unfold shift
  intro e
  have := congrArg List.length e
  simp at this
  omega

theorem run_recursiveN {bnd : Nat} (hb : 3 ≤ bnd) {adder : Adder} (had : AdderOk adder) {md : Md} (hmd : md.asserts = true)
    (f : Nat) {n : Nat} {ρ : Assign} {xs ys : List Bit} {vx vy : List Bool} (hn : 0 < n)
    (hx : HasL md false n ρ xs vx) (hy : HasL md false n ρ ys vy) (hf : max xs.length ys.length ≤ f) :
    Run md (recursiveN bnd adder (f + 1) xs ys) n ρ fun n' ρ' r => ∃ vr, HasL md false n' ρ' r vr ∧
      natOfBits vr = natOfBits vx * natOfBits vy := by
  induction f generalizing n ρ xs ys vx vy with
  | zero =>
    unfold recursiveN
    simp only
    rw [if_pos (by omega)]
    exact run_wallace had hn hx hy
  | succ f ih =>
    unfold recursiveN
    simp only
    set m := max xs.length ys.length with hm
    set half := (m + 1) / 2 with hh
    by_cases hbm : bnd ≥ m
    · rw [if_pos hbm]; exact run_wallace had hn hx hy
    rw [if_neg hbm]
    have lx := hx.length
    have ly := hy.length
    have hex := has_padTo m hx
    have hey := has_padTo m hy
    have ex : natOfBits (vx.take m ++ List.replicate (m - vx.length) false) = natOfBits vx := nat_padTo (by omega)
    have ey : natOfBits (vy.take m ++ List.replicate (m - vy.length) false) = natOfBits vy := nat_padTo (by omega)
    have l1 : (vx.take m ++ List.replicate (m - vx.length) false).length = m := by simp; omega
    have l2 : (vy.take m ++ List.replicate (m - vy.length) false).length = m := by simp; omega
    generalize (vx.take m ++ List.replicate (m - vx.length) false) = wx at hex ex l1
    have l2' : (padTo m ys).length = m := length_padTo m ys
    have l1' : (padTo m xs).length = m := length_padTo m xs
    by_cases hcase : ys.length ≤ half
    · rw [if_pos hcase]
      have eyt : natOfBits ((vy.take m ++ List.replicate (m - vy.length) false).take half) = natOfBits vy := by
        rw [take_small (by omega) ?_, ey]
        rw [ey]
        exact Nat.lt_of_lt_of_le (nat_lt vy) (Nat.pow_le_pow_right (by omega) (by omega))
      generalize (vy.take m ++ List.replicate (m - vy.length) false) = wy at hey ey l2 eyt
      refine Run.bind (ih hn (List.forall₂_take half hex) (List.forall₂_take half hey) (by simp; omega)) fun n1 ρ1 p3 e1 h3 => ?_
      have q1 := Nat.lt_of_lt_of_le hn e1.le
      refine Run.bind (ih q1 (HasL.ext e1 (List.forall₂_drop half hex)) (HasL.ext e1 (List.forall₂_take half hey)) (by simp; omega))
        fun n2 ρ2 p2 e2 h2 => ?_
      have q2 := Nat.lt_of_lt_of_le q1 e2.le
      obtain ⟨v3, h3, h3'⟩ := h3
      obtain ⟨v2, h2, h2'⟩ := h2
      refine Run.mono (had q2 (has_shift half h2) (HasL.ext e2 h3) (Or.inl (shift_ne (by omega)))) ?_
      rintro n3 ρ3 r _ ⟨vr, k1, k2, _⟩
      refine ⟨vr, k1, ?_⟩
      rw [k2, nat_shift, h2', h3', eyt, ← ex, split_val (vs := wx) (k := half) (by omega)]
      ring
    · rw [if_neg hcase]
      generalize (vy.take m ++ List.replicate (m - vy.length) false) = wy at hey ey l2
      have hX := split_val (vs := wx) (k := half) (by omega)
      have hY := split_val (vs := wy) (k := half) (by omega)
      have ha := List.forall₂_drop half hex
      have hb := List.forall₂_take half hex
      have hc := List.forall₂_drop half hey
      have hd := List.forall₂_take half hey
      generalize wx.drop half = va at ha hX
      generalize wx.take half = vb at hb hX
      generalize wy.drop half = vc at hc hY
      generalize wy.take half = vd at hd hY
      have la : ((padTo m xs).drop half).length = m - half := by simp; omega
      have lb : ((padTo m xs).take half).length = half := by simp; omega
      have lc : ((padTo m ys).drop half).length = m - half := by simp; omega
      have ld : ((padTo m ys).take half).length = half := by simp; omega
      generalize (padTo m xs).drop half = A at *
      generalize (padTo m xs).take half = B at *
      generalize (padTo m ys).drop half = C at *
      generalize (padTo m ys).take half = D at *
      refine Run.bind (ih hn ha hc (by omega)) fun n1 ρ1 p1 e1 h1 => ?_
      obtain ⟨v1, h1, h1'⟩ := h1
      have q1 := Nat.lt_of_lt_of_le hn e1.le
      refine Run.bind (ih q1 (HasL.ext e1 hb) (HasL.ext e1 hd) (by omega)) fun n2 ρ2 p3 e2 h3 => ?_
      obtain ⟨v3, h3, h3'⟩ := h3
      have q2 := Nat.lt_of_lt_of_le q1 e2.le
      have e12 := e1.trans e2
      refine Run.bind (had q2 (HasL.ext e12 ha) (HasL.ext e12 hb) (Or.inl (by intro h; rw [h] at la; simp at la; omega)))
        fun n3 ρ3 ab e3 hab => ?_
      obtain ⟨vab, hab, hab', lab⟩ := hab
      have q3 := Nat.lt_of_lt_of_le q2 e3.le
      have e13 := e12.trans e3
      refine Run.bind (had q3 (HasL.ext e13 hc) (HasL.ext e13 hd) (Or.inl (by intro h; rw [h] at lc; simp at lc; omega)))
        fun n4 ρ4 cd e4 hcd => ?_
      obtain ⟨vcd, hcd, hcd', lcd⟩ := hcd
      have q4 := Nat.lt_of_lt_of_le q3 e4.le
      refine Run.bind (ih q4 (HasL.ext e4 hab) hcd (by rw [hab.length, hcd.length, lab, lcd]; omega)) fun n5 ρ5 p5 e5 h5 => ?_
      obtain ⟨v5, h5, h5'⟩ := h5
      have q5 := Nat.lt_of_lt_of_le q4 e5.le
      have e35 := e3.trans (e4.trans e5)
      have e25 := e2.trans e35
      have hprod : natOfBits v5 = natOfBits v1 + (natOfBits va * natOfBits vd + natOfBits vb * natOfBits vc) + natOfBits v3 := by
        rw [h5', hab', hcd', h1', h3']; ring
      refine Run.bind (run_subt hmd q5 h5 (HasL.ext e25 h1) (by omega)) fun n6 ρ6 p6 e6 h6 => ?_
      obtain ⟨v6, h6, h6'⟩ := h6
      have q6 := Nat.lt_of_lt_of_le q5 e6.le
      refine Run.bind (run_subt hmd q6 h6 (HasL.ext (e35.trans e6) h3) (by omega)) fun n7 ρ7 p7 e7 h7 => ?_
      obtain ⟨v7, h7, h7'⟩ := h7
      have q7 := Nat.lt_of_lt_of_le q6 e7.le
      refine Run.bind (had q7 (has_shift (half * 2) (HasL.ext (e25.trans (e6.trans e7)) h1)) (has_shift half h7)
        (Or.inl (shift_ne (by omega)))) fun n8 ρ8 s1 e8 h8 => ?_
      obtain ⟨v8, h8, h8', l8⟩ := h8
      refine Run.mono (had (Nat.lt_of_lt_of_le q7 e8.le) h8 (HasL.ext (e35.trans (e6.trans (e7.trans e8))) h3)
        (Or.inl (by intro h; have := h8.length; rw [h, l8] at this; simp at this))) ?_
      rintro n9 ρ9 r _ ⟨vr, k1, k2, _⟩
      refine ⟨vr, k1, ?_⟩
      have h7'' : natOfBits v7 = natOfBits va * natOfBits vd + natOfBits vb * natOfBits vc := by omega
      rw [k2, h8', nat_shift, nat_shift, h7'', h1', h3', ← ex, ← ey, hX, hY, Nat.mul_comm half 2, pow_mul', sq]
      ring

theorem run_recursive {bnd : Nat} (hb : 3 ≤ bnd) {adder : Adder} (had : AdderOk adder) {md : Md} (hmd : md.asserts = true)
    {n : Nat} {ρ : Assign} {xs ys : List Bit} {vx vy : List Bool} (hn : 0 < n)
    (hx : HasL md false n ρ xs vx) (hy : HasL md false n ρ ys vy) :
    Run md (recursive bnd adder xs ys) n ρ fun n' ρ' r => ∃ vr, HasL md false n' ρ' r vr ∧
      natOfBits vr = natOfBits vx * natOfBits vy := run_recursiveN hb had hmd _ hn hx hy (Nat.le_refl _)

end NDP.Gen
