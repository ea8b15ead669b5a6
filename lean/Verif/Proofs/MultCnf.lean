import Verif.Proofs.Recur
/-
  The formula of a multiplier circuit, and what its outputs are.
-/
namespace NDP.Gen
open NDP.Spec

variable {α β : Type}

/-! ### how the symbolic interpretation composes -/

theorem symbolic_pure (x : α) (n : Nat) : symbolic (pure x : Circ α) n = some (x, n, []) := rfl

theorem symbolic_bind (c : Circ α) (f : α → Circ β) (n : Nat) :
    symbolic (c >>= f) n = match symbolic c n with
      | none => none
      | some (x, n1, cls) => (symbolic (f x) n1).map fun r => (r.1, r.2.1, cls ++ r.2.2) := by
  show symbolic (Circ.bind c f) n = _
  induction c generalizing n with
  | ret x => simp only [Circ.bind, symbolic]; cases symbolic (f x) n <;> rfl
  | error => rfl
  | newVar k ih => simp only [Circ.bind, symbolic]; exact ih _ _
  | not1 a k ih => simp only [Circ.bind, symbolic]; exact ih _ _
  | and2 a b k ih =>
    simp only [Circ.bind, symbolic]; rw [ih]
    cases symbolic (k (symAnd n a b).1) (symAnd n a b).2.1 with
    | none => rfl
    | some r => simp only [Option.map_some, Option.map_map]; congr 1; funext r; simp
  | or2 a b k ih =>
    simp only [Circ.bind, symbolic]; rw [ih]
    cases symbolic (k (symOr n a b).1) (symOr n a b).2.1 with
    | none => rfl
    | some r => simp only [Option.map_some, Option.map_map]; congr 1; funext r; simp
  | xor2 a b k ih =>
    simp only [Circ.bind, symbolic]; rw [ih]
    cases symbolic (k (symXor n a b).1) (symXor n a b).2.1 with
    | none => rfl
    | some r => simp only [Option.map_some, Option.map_map]; congr 1; funext r; simp
  | mux3 s a b k ih =>
    simp only [Circ.bind, symbolic]; rw [ih]
    cases symbolic (k (symMux n s a b).1) (symMux n s a b).2.1 with
    | none => rfl
    | some r => simp only [Option.map_some, Option.map_map]; congr 1; funext r; simp
  | assert1 a b k ih =>
    cases a with
    | const x =>
      simp only [Circ.bind, symbolic]
      by_cases h : x = b
      · simp only [h, if_true]; exact ih n
      · simp only [h, if_false]
    | var v =>
      simp only [Circ.bind, symbolic]; rw [ih]
      cases symbolic k n with
      | none => rfl
      | some r => simp only [Option.map_some, Option.map_map]; congr 1; funext r; simp
    | nvar v =>
      simp only [Circ.bind, symbolic]; rw [ih]
      cases symbolic k n with
      | none => rfl
      | some r => simp only [Option.map_some, Option.map_map]; congr 1; funext r; simp

theorem symbolic_bind_of {c : Circ α} {f : α → Circ β} {n n1 : Nat} {x : α} {cls : List BCl}
    (h : symbolic c n = some (x, n1, cls)) {n2 : Nat} {y : β} {cls' : List BCl}
    (h' : symbolic (f x) n1 = some (y, n2, cls')) : symbolic (c >>= f) n = some (y, n2, cls ++ cls') := by
  rw [symbolic_bind, h]; simp only; rw [h']; rfl

/-- `k` variables starting with `n`. -/
def inputs (n k : Nat) : List Bit := (List.range k).map fun i => .var (n + i)

theorem inputs_succ (n k : Nat) : inputs n (k + 1) = .var n :: inputs (n + 1) k := by
  unfold inputs
  rw [List.range_succ_eq_map, List.map_cons, List.map_map]
  congr 1
  apply List.map_congr_left
  intro i _
  simp only [Function.comp]
  congr 1
  omega

theorem symbolic_inputs (l : List α) (n : Nat) :
    symbolic (Circ.mapC (fun (_ : α) => newBitVar) l) n = some (inputs n l.length, n + l.length, []) := by
  induction l generalizing n with
  | nil => rfl
  | cons x l ih =>
    have h := ih (n + 1)
    show symbolic (newBitVar >>= fun y => Circ.mapC (fun (_ : α) => newBitVar) l >>= fun ys => pure (y :: ys)) n = _
    have h1 : symbolic newBitVar n = some (.var n, n + 1, []) := rfl
    rw [symbolic_bind_of h1 (symbolic_bind_of (f := fun ys => pure (Bit.var n :: ys)) h (symbolic_pure _ _)),
      List.length_cons, inputs_succ]
    simp only [List.append_nil]
    congr 3
    omega

/-- The unit clauses asserting the outputs. -/
def assertClauses : List Bit → List Bool → List BCl
  | [], _ => []
  | b :: bs, [] => assertCls b false ++ assertClauses bs []
  | b :: bs, v :: vs => assertCls b v ++ assertClauses bs vs

theorem symbolic_assert1 {b : Bit} (h : keepBitVar b = true) (v : Bool) (n : Nat) :
    symbolic (assert1 b v) n = some ((), n, assertCls b v) := by
  cases b with
  | const => simp [keepBitVar] at h
  | var w => simp [assert1, symbolic]
  | nvar w => simp [assert1, symbolic]

theorem symbolic_assertN {bs : List Bit} (h : ∀ b ∈ bs, keepBitVar b = true) (vs : List Bool) (n : Nat) :
    symbolic (assertN bs vs) n = some ((), n, assertClauses bs vs) := by
  induction bs generalizing vs with
  | nil => cases vs <;> rfl
  | cons b bs ih =>
    have hb := h b (by simp)
    have ih := fun vs => ih (fun b hb => h b (by simp [hb])) vs
    cases vs with
    | nil => exact symbolic_bind_of (symbolic_assert1 hb false n) (ih [])
    | cons v vs => exact symbolic_bind_of (symbolic_assert1 hb v n) (ih vs)

theorem satB_assertCls (ρ : Assign) (b : Bit) (v : Bool) : SatB ρ (assertCls b v) ↔ val ρ b = v := by
  cases v <;> simp [SatB, assertCls]

/-- Padding with falses. -/
theorem satB_assertClauses (ρ : Assign) (bs : List Bit) (vs : List Bool) (h : vs.length ≤ bs.length) :
    SatB ρ (assertClauses bs vs) ↔ natOfBits (bs.map (val ρ)) = natOfBits vs := by
  induction bs generalizing vs with
  | nil =>
    cases vs with
    | nil => simp [assertClauses, SatB]
    | cons v vs => simp at h
  | cons b bs ih =>
    cases vs with
    | nil =>
      rw [assertClauses, SatB.append, satB_assertCls, ih [] (by simp), List.map_cons, nat_cons, nat_nil]
      cases val ρ b <;> simp
    | cons v vs =>
      rw [assertClauses, SatB.append, satB_assertCls, ih vs (by simpa using h), List.map_cons, nat_cons, nat_cons]
      cases val ρ b <;> cases v <;> simp <;> omega

/-! ### the multiplier without assertions -/

/-- Value of a list of bits. -/
def bitsVal (ρ : Assign) (bs : List Bit) : Nat := natOfBits (bs.map (val ρ))

/-- What is known about the formula of a multiplier with inputs `as`, `bs`, starting with variable `n`. -/
structure MultCnf (as bs : List Bit) (n : Nat) (asr pl : Bool) (out : List Bit) (n' : Nat) (cls : List BCl) : Prop where
  le : n ≤ n'
  sound : ∀ ρ : Assign, SatB ρ cls → bitsVal ρ out = bitsVal ρ as * bitsVal ρ bs
  complete : ∀ ρ : Assign, ∃ ρ' : Assign, (∀ v, v < n → ρ' v = ρ v) ∧ SatB ρ' cls
  shape : asr = false → ∀ c ∈ cls, GateCl n n' c
  lits : ∀ c ∈ cls, ∀ b ∈ c, 0 < bvar b ∧ bvar b < n'
  size : ∀ c ∈ cls, c ≠ [] ∧ c.length ≤ 3
  ok : ∀ b ∈ out, Ok ⟨false, asr⟩ n' b
  pl : pl = true → ∀ b ∈ out, Pl b

theorem hasL_of_ok {md : Md} {pl : Bool} {n : Nat} {ρ : Assign} {xs : List Bit} (h : ∀ b ∈ xs, Ok md n b)
    (h' : pl = true → ∀ b ∈ xs, Pl b) : HasL md pl n ρ xs (xs.map (val ρ)) := by
  induction xs with
  | nil => exact .nil
  | cons x xs ih =>
    exact .cons ⟨h x (by simp), rfl, fun e => h' e x (by simp)⟩ (ih (fun b hb => h b (by simp [hb])) fun e b hb => h' e b (by simp [hb]))

theorem HasL.vals {md : Md} {pl : Bool} {n : Nat} {ρ : Assign} {xs : List Bit} {vs : List Bool} (h : HasL md pl n ρ xs vs) :
    vs = xs.map (val ρ) := by
  induction h with
  | nil => rfl
  | cons h _ ih => rw [List.map_cons, ← ih, h.val]

theorem HasL.mem {md : Md} {pl : Bool} {n : Nat} {ρ : Assign} {xs : List Bit} {vs : List Bool} (h : HasL md pl n ρ xs vs) :
    ∀ b ∈ xs, Ok md n b ∧ (pl = true → Pl b) := by
  induction h with
  | nil => intro b hb; simp at hb
  | cons h _ ih =>
    intro b hb
    rcases List.mem_cons.1 hb with rfl | hb
    · exact ⟨h.ok, h.pl⟩
    · exact ih b hb

theorem multCnf_of {m : Multiplier} {as bs : List Bit} {n : Nat} {asr pl : Bool} (hn : 0 < n)
    (h : ∀ ρ, Run ⟨false, asr⟩ (m as bs) n ρ fun n' ρ' r => ∃ vr, HasL ⟨false, asr⟩ pl n' ρ' r vr ∧
      natOfBits vr = bitsVal ρ as * bitsVal ρ bs)
    (has : ∀ b ∈ as, Ok ⟨false, asr⟩ n b) (hbs : ∀ b ∈ bs, Ok ⟨false, asr⟩ n b) :
    ∃ out n' cls, symbolic (m as bs) n = some (out, n', cls) ∧ MultCnf as bs n asr pl out n' cls := by
  have key := fun ρ => Tot.symbolic hn (h ρ)
  obtain ⟨⟨out, n', cls⟩, hr, h0⟩ := key fun _ => false
  refine ⟨out, n', cls, hr, h0.le, ?_, ?_, h0.shape, h0.lits, h0.size, ?_, ?_⟩
  · intro ρ hs
    obtain ⟨r, hr', hk⟩ := key ρ
    rw [hr] at hr'
    injection hr' with hr'
    subst hr'
    obtain ⟨_, vr, h1, h2⟩ := hk.sound hs
    rw [h1.vals] at h2
    exact h2
  · intro ρ
    obtain ⟨r, hr', hk⟩ := key ρ
    rw [hr] at hr'
    injection hr' with hr'
    subst hr'
    obtain ⟨ρ', _, h2, h3⟩ := hk.complete
    exact ⟨ρ', h2, h3⟩
  · intro b hb
    obtain ⟨ρ', ⟨_, vr, h1, h2⟩, _⟩ := h0.complete
    exact (h1.mem b hb).1
  · intro e b hb
    obtain ⟨ρ', ⟨_, vr, h1, h2⟩, _⟩ := h0.complete
    exact (h1.mem b hb).2 e

/-- Values of fresh inputs are arbitrary. -/
theorem bitsVal_inputs (ρ : Assign) (n k : Nat) : bitsVal ρ (inputs n k) = natOfBits ((List.range k).map fun i => ρ (n + i)) := by
  unfold bitsVal inputs
  rw [List.map_map]; rfl

end NDP.Gen
