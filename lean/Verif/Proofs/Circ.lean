import Verif.Model.Generator
import Verif.Spec
import Mathlib.Data.List.Forall2
/-
  A small program logic for circuits: `Tot` says that a circuit runs without error from a given next variable and valuation
  and ends in a state satisfying a postcondition, the valuation being extended to the new variables by the gates' meaning.
  One proof of `Tot` gives the simulation, the soundness and the completeness of the clauses.
-/
namespace NDP.Gen
open NDP.Spec

variable {α β γ : Type}

/-- Value of a bit. -/
def val (ρ : Assign) : Bit → Bool
  | .const b => b
  | .var v => ρ v
  | .nvar v => !ρ v

/-- Variable of a bit, `0` for constants. -/
def bvar : Bit → Nat
  | .const _ => 0
  | .var v => v
  | .nvar v => v

@[simp] theorem bvar_notBit (b : Bit) : bvar (notBit b) = bvar b := by cases b <;> rfl
@[simp] theorem val_notBit (ρ : Assign) (b : Bit) : val ρ (notBit b) = !val ρ b := by cases b <;> simp [notBit, val]

@[simp] theorem val_var (ρ : Assign) (v : Nat) : val ρ (.var v) = ρ v := rfl
@[simp] theorem val_nvar (ρ : Assign) (v : Nat) : val ρ (.nvar v) = !ρ v := rfl
@[simp] theorem val_const (ρ : Assign) (b : Bool) : val ρ (.const b) = b := rfl

/-- The clauses hold. -/
def SatB (ρ : Assign) (cls : List BCl) : Prop := ∀ c ∈ cls, ∃ b ∈ c, val ρ b = true

/-- Which interpretation, and whether assertions may occur. -/
structure Md where
  std : Bool
  asserts : Bool

/-- A usable bit: a constant, or (symbolically) a variable already introduced. -/
def Ok (md : Md) (n : Nat) : Bit → Prop
  | .const _ => True
  | .var v => md.std = false ∧ 0 < v ∧ v < n
  | .nvar v => md.std = false ∧ 0 < v ∧ v < n

theorem Ok.mono {md : Md} {n n' : Nat} (h : n ≤ n') {b : Bit} (hb : Ok md n b) : Ok md n' b := by
  cases b with
  | const => trivial
  | var v => exact ⟨hb.1, hb.2.1, by have := hb.2.2; omega⟩
  | nvar v => exact ⟨hb.1, hb.2.1, by have := hb.2.2; omega⟩

theorem Ok.notBit {md : Md} {n : Nat} {b : Bit} (hb : Ok md n b) : Ok md n (notBit b) := by
  cases b <;> exact hb

theorem Ok.lt {md : Md} {n : Nat} {b : Bit} (hb : Ok md n b) (h : bvar b ≠ 0) : 0 < bvar b ∧ bvar b < n := by
  cases b with
  | const => exact absurd rfl h
  | var v => exact hb.2
  | nvar v => exact hb.2

/-- Valuation after a gate: the new variable, if there is one, gets the gate's value. -/
def upd (ρ : Assign) (n n' : Nat) (b : Bool) : Assign := fun v => if n' ≠ n ∧ v = n then b else ρ v

/-- `ρ'` agrees with `ρ` on the variables in use before. -/
structure Ext (n : Nat) (ρ : Assign) (n' : Nat) (ρ' : Assign) : Prop where
  le : n ≤ n'
  eq : ∀ v, v < n → ρ' v = ρ v

theorem Ext.refl (n : Nat) (ρ : Assign) : Ext n ρ n ρ := ⟨Nat.le_refl _, fun _ _ => rfl⟩

theorem Ext.trans {n n' n'' : Nat} {ρ ρ' ρ'' : Assign} (h : Ext n ρ n' ρ') (h' : Ext n' ρ' n'' ρ'') : Ext n ρ n'' ρ'' :=
  ⟨Nat.le_trans h.le h'.le, fun v hv => (h'.eq v (Nat.lt_of_lt_of_le hv h.le)).trans (h.eq v hv)⟩

theorem Ext.val {md : Md} {n n' : Nat} {ρ ρ' : Assign} (h : Ext n ρ n' ρ') {b : Bit} (hb : Ok md n b) :
    val ρ' b = val ρ b := by
  cases b with
  | const => rfl
  | var v => exact h.eq v hb.2.2
  | nvar v => show (!ρ' v) = !ρ v; rw [h.eq v hb.2.2]

/-- The constant `low` or a variable that is not negated. -/
def Pl : Bit → Prop
  | .const b => b = false
  | .var _ => True
  | .nvar _ => False

/-- A clause of a gate: three literals, the last one of a variable newer than the others. -/
def GateCl (lo hi : Nat) (c : BCl) : Prop :=
  ∃ x y z, c = [x, y, z] ∧ 0 < bvar x ∧ bvar x < bvar z ∧ 0 < bvar y ∧ bvar y < bvar z ∧ lo ≤ bvar z ∧ bvar z < hi

/-- What is known about the result `(r, n', cls)` of a gate with meaning `f`. -/
structure GateOk (md : Md) (n : Nat) (f : Assign → Bool) (g : Bit × Nat × List BCl) : Prop where
  le : n ≤ g.2.1
  le' : g.2.1 ≤ n + 1
  ok : Ok md g.2.1 g.1
  val : ∀ ρ, Gen.val (upd ρ n g.2.1 (f ρ)) g.1 = f ρ
  sat : ∀ ρ, SatB ρ g.2.2 ↔ (g.2.1 = n ∨ ρ n = f ρ)
  sat' : ∀ ρ, SatB (upd ρ n g.2.1 (f ρ)) g.2.2
  shape : ∀ c ∈ g.2.2, GateCl n g.2.1 c
  std : md.std = true → g.2.1 = n

theorem upd_same (ρ : Assign) (n : Nat) (b : Bool) : upd ρ n n b = ρ := by funext v; simp [upd]

theorem upd_ext (ρ : Assign) {n n' : Nat} (h : n ≤ n') (b : Bool) : Ext n ρ n' (upd ρ n n' b) :=
  ⟨h, fun v hv => by have : v ≠ n := by omega
                     simp [upd, this]⟩

/-- A gate that needs no new variable. -/
theorem GateOk.triv {md : Md} {n : Nat} {f : Assign → Bool} {r : Bit} (h : Ok md n r) (hv : ∀ ρ, Gen.val ρ r = f ρ) :
    GateOk md n f (r, n, []) where
  le := Nat.le_refl _
  le' := Nat.le_succ _
  ok := h
  val ρ := by rw [upd_same]; exact hv ρ
  sat ρ := by simp [SatB]
  sat' ρ := by simp [SatB]
  shape c hc := by simp at hc
  std _ := rfl

/-- A bit that is not a constant. -/
def IsVar (b : Bit) : Prop := bvar b ≠ 0

theorem GateOk.fresh {md : Md} {n : Nat} (hn : 0 < n) {f : Assign → Bool} {cls : List BCl} (hs : md.std = false)
    (hf : ∀ ρ b, f (upd ρ n (n + 1) b) = f ρ) (hsat : ∀ ρ, SatB ρ cls ↔ ρ n = f ρ) (hshape : ∀ c ∈ cls, GateCl n (n + 1) c) :
    GateOk md n f (.var n, n + 1, cls) where
  le := Nat.le_succ _
  le' := Nat.le_refl _
  ok := ⟨hs, hn, Nat.lt_succ_self _⟩
  val ρ := by simp [Gen.val, upd]
  sat ρ := by simp [hsat ρ]
  sat' ρ := by rw [hsat, hf]; simp [upd]
  shape := hshape
  std h := by simp [hs] at h

theorem gateCl_of {n : Nat} {x y z : Bit} {md : Md} (hx : Ok md n x) (hy : Ok md n y) (hx' : IsVar x) (hy' : IsVar y)
    (hz : bvar z = n) : GateCl n (n + 1) [x, y, z] :=
  ⟨x, y, z, rfl, (hx.lt hx').1, hz ▸ (hx.lt hx').2, (hy.lt hy').1, hz ▸ (hy.lt hy').2, by omega, by omega⟩

theorem IsVar.not {b : Bit} (h : IsVar b) : IsVar (notBit b) := by unfold IsVar at *; simpa using h

theorem gate_and_fresh {md : Md} {n : Nat} (hn : 0 < n) {a b : Bit} (ha : Ok md n a) (hb : Ok md n b)
    (ha' : IsVar a) (hb' : IsVar b) (hs : md.std = false) :
    GateOk md n (fun ρ => val ρ a && val ρ b) (.var n, n + 1, andCls n a b) := by
  refine .fresh hn hs (fun ρ b => by rw [(upd_ext ρ (Nat.le_succ n) b).val ha, (upd_ext ρ (Nat.le_succ n) b).val hb]) ?_ ?_
  · intro ρ
    simp only [SatB, andCls, List.forall_mem_cons, List.exists_mem_cons_iff, val_notBit, List.not_mem_nil, false_and,
      exists_false, or_false, val_var, val_nvar]
    cases ρ n <;> cases val ρ a <;> cases val ρ b <;> simp
  · intro c hc
    simp only [andCls, List.mem_cons, List.not_mem_nil, or_false] at hc
    rcases hc with rfl | rfl | rfl | rfl
    · exact gateCl_of ha hb ha' hb' rfl
    · exact gateCl_of ha hb.notBit ha' hb'.not rfl
    · exact gateCl_of ha.notBit hb ha'.not hb' rfl
    · exact gateCl_of ha.notBit hb.notBit ha'.not hb'.not rfl

theorem gate_and {md : Md} {n : Nat} (hn : 0 < n) {a b : Bit} (ha : Ok md n a) (hb : Ok md n b) :
    GateOk md n (fun ρ => val ρ a && val ρ b) (symAnd n a b) := by
  rcases a with (_ | _) | v | v <;> rcases b with (_ | _) | w | w <;>
    first
    | exact .triv trivial (fun ρ => by simp)
    | exact .triv ha (fun ρ => by simp)
    | exact .triv hb (fun ρ => by simp)
    | exact .triv ha.notBit (fun ρ => by simp)
    | exact .triv hb.notBit (fun ρ => by simp)
    | exact gate_and_fresh hn ha hb (Nat.ne_of_gt ha.2.1) (Nat.ne_of_gt hb.2.1) ha.1

theorem gate_or_fresh {md : Md} {n : Nat} (hn : 0 < n) {a b : Bit} (ha : Ok md n a) (hb : Ok md n b)
    (ha' : IsVar a) (hb' : IsVar b) (hs : md.std = false) :
    GateOk md n (fun ρ => val ρ a || val ρ b) (.var n, n + 1, orCls n a b) := by
  refine .fresh hn hs (fun ρ b => by rw [(upd_ext ρ (Nat.le_succ n) b).val ha, (upd_ext ρ (Nat.le_succ n) b).val hb]) ?_ ?_
  · intro ρ
    simp only [SatB, orCls, List.forall_mem_cons, List.exists_mem_cons_iff, val_notBit, List.not_mem_nil, false_and,
      exists_false, or_false, val_var, val_nvar]
    cases ρ n <;> cases val ρ a <;> cases val ρ b <;> simp
  · intro c hc
    simp only [orCls, List.mem_cons, List.not_mem_nil, or_false] at hc
    rcases hc with rfl | rfl | rfl | rfl
    · exact gateCl_of ha hb ha' hb' rfl
    · exact gateCl_of ha hb.notBit ha' hb'.not rfl
    · exact gateCl_of ha.notBit hb ha'.not hb' rfl
    · exact gateCl_of ha.notBit hb.notBit ha'.not hb'.not rfl

theorem gate_or {md : Md} {n : Nat} (hn : 0 < n) {a b : Bit} (ha : Ok md n a) (hb : Ok md n b) :
    GateOk md n (fun ρ => val ρ a || val ρ b) (symOr n a b) := by
  rcases a with (_ | _) | v | v <;> rcases b with (_ | _) | w | w <;>
    first
    | exact .triv trivial (fun ρ => by simp)
    | exact .triv ha (fun ρ => by simp)
    | exact .triv hb (fun ρ => by simp)
    | exact .triv ha.notBit (fun ρ => by simp)
    | exact .triv hb.notBit (fun ρ => by simp)
    | exact gate_or_fresh hn ha hb (Nat.ne_of_gt ha.2.1) (Nat.ne_of_gt hb.2.1) ha.1

theorem gate_xor_fresh {md : Md} {n : Nat} (hn : 0 < n) {a b : Bit} (ha : Ok md n a) (hb : Ok md n b)
    (ha' : IsVar a) (hb' : IsVar b) (hs : md.std = false) :
    GateOk md n (fun ρ => val ρ a != val ρ b) (.var n, n + 1, xorCls n a b) := by
  refine .fresh hn hs (fun ρ b => by rw [(upd_ext ρ (Nat.le_succ n) b).val ha, (upd_ext ρ (Nat.le_succ n) b).val hb]) ?_ ?_
  · intro ρ
    simp only [SatB, xorCls, List.forall_mem_cons, List.exists_mem_cons_iff, val_notBit, List.not_mem_nil, false_and,
      exists_false, or_false, val_var, val_nvar]
    cases ρ n <;> cases val ρ a <;> cases val ρ b <;> simp
  · intro c hc
    simp only [xorCls, List.mem_cons, List.not_mem_nil, or_false] at hc
    rcases hc with rfl | rfl | rfl | rfl
    · exact gateCl_of ha hb ha' hb' rfl
    · exact gateCl_of ha hb.notBit ha' hb'.not rfl
    · exact gateCl_of ha.notBit hb ha'.not hb' rfl
    · exact gateCl_of ha.notBit hb.notBit ha'.not hb'.not rfl

theorem gate_xor {md : Md} {n : Nat} (hn : 0 < n) {a b : Bit} (ha : Ok md n a) (hb : Ok md n b) :
    GateOk md n (fun ρ => val ρ a != val ρ b) (symXor n a b) := by
  rcases a with (_ | _) | v | v <;> rcases b with (_ | _) | w | w <;>
    first
    | exact .triv trivial (fun ρ => by simp)
    | exact .triv ha (fun ρ => by simp)
    | exact .triv hb (fun ρ => by simp)
    | exact .triv ha.notBit (fun ρ => by simp)
    | exact .triv hb.notBit (fun ρ => by simp)
    | exact gate_xor_fresh hn ha hb (Nat.ne_of_gt ha.2.1) (Nat.ne_of_gt hb.2.1) ha.1


theorem GateOk.congr {md : Md} {n : Nat} {f f' : Assign → Bool} {g : Bit × Nat × List BCl} (h : GateOk md n f g)
    (e : ∀ ρ, f ρ = f' ρ) : GateOk md n f' g := by
  have : f = f' := funext e
  rwa [← this]

theorem gate_mux_fresh {md : Md} {n : Nat} (hn : 0 < n) {s a b : Bit} (hs' : Ok md n s) (ha : Ok md n a) (hb : Ok md n b)
    (hs'' : IsVar s) (ha' : IsVar a) (hb' : IsVar b) (hs : md.std = false) :
    GateOk md n (fun ρ => if val ρ s then val ρ b else val ρ a) (.var n, n + 1, muxCls n s a b) := by
  refine .fresh hn hs (fun ρ b => by rw [(upd_ext ρ (Nat.le_succ n) b).val ha, (upd_ext ρ (Nat.le_succ n) b).val hb, (upd_ext ρ (Nat.le_succ n) b).val hs']) ?_ ?_
  · intro ρ
    simp only [SatB, muxCls, List.forall_mem_cons, List.exists_mem_cons_iff, val_notBit, List.not_mem_nil, false_and,
      exists_false, or_false, val_var, val_nvar]
    cases ρ n <;> cases val ρ a <;> cases val ρ b <;> cases val ρ s <;> simp
  · intro c hc
    simp only [muxCls, List.mem_cons, List.not_mem_nil, or_false] at hc
    rcases hc with rfl | rfl | rfl | rfl
    · exact gateCl_of hs' ha hs'' ha' rfl
    · exact gateCl_of hs' ha.notBit hs'' ha'.not rfl
    · exact gateCl_of hs'.notBit hb hs''.not hb' rfl
    · exact gateCl_of hs'.notBit hb.notBit hs''.not hb'.not rfl

theorem gate_mux {md : Md} {n : Nat} (hn : 0 < n) {s a b : Bit} (hs : Ok md n s) (ha : Ok md n a) (hb : Ok md n b) :
    GateOk md n (fun ρ => if val ρ s then val ρ b else val ρ a) (symMux n s a b) := by
  rcases s with (_ | _) | u | u <;> rcases a with (_ | _) | v | v <;> rcases b with (_ | _) | w | w <;>
    first
    | exact .triv trivial (fun ρ => by first | (simp; done) | (cases h : ρ u <;> simp [h]))
    | exact .triv ha (fun ρ => by first | (simp; done) | (cases h : ρ u <;> simp [h]))
    | exact .triv hb (fun ρ => by first | (simp; done) | (cases h : ρ u <;> simp [h]))
    | exact .triv hs (fun ρ => by first | (simp; done) | (cases h : ρ u <;> simp [h]))
    | exact .triv hs.notBit (fun ρ => by first | (simp; done) | (cases h : ρ u <;> simp [h]))
    | exact (gate_and hn hs hb).congr (fun ρ => by first | (simp; done) | (cases h : ρ u <;> simp [h]))
    | exact (gate_or hn hb hs.notBit).congr (fun ρ => by first | (simp; done) | (cases h : ρ u <;> simp [h]))
    | exact (gate_and hn hs.notBit ha).congr (fun ρ => by first | (simp; done) | (cases h : ρ u <;> simp [h]))
    | exact (gate_or hn ha hs).congr (fun ρ => by first | (simp; done) | (cases h : ρ u <;> simp [h]))
    | exact gate_mux_fresh hn hs ha hb (Nat.ne_of_gt hs.2.1) (Nat.ne_of_gt ha.2.1) (Nat.ne_of_gt hb.2.1) hs.1

/-! ### unnegated bits -/

theorem pl_and {n : Nat} {a b : Bit} (ha : Pl a) (hb : Pl b) : Pl (symAnd n a b).1 := by
  rcases a with (_ | _) | v | v <;> rcases b with (_ | _) | w | w <;> simp_all [Pl, symAnd]

theorem pl_or {n : Nat} {a b : Bit} (ha : Pl a) (hb : Pl b) : Pl (symOr n a b).1 := by
  rcases a with (_ | _) | v | v <;> rcases b with (_ | _) | w | w <;> simp_all [Pl, symOr]

theorem pl_xor {n : Nat} {a b : Bit} (ha : Pl a) (hb : Pl b) : Pl (symXor n a b).1 := by
  rcases a with (_ | _) | v | v <;> rcases b with (_ | _) | w | w <;> simp_all [Pl, symXor]

theorem pl_mux {n : Nat} {s a b : Bit} (hs : Pl s) (ha : Pl a) : Pl (symMux n s a b).1 := by
  rcases s with (_ | _) | u | u <;> rcases a with (_ | _) | v | v <;> rcases b with (_ | _) | w | w <;>
    simp_all [Pl, symMux, symAnd, symOr, notBit]

/-! ### the logic -/

/-- The circuit runs without error from `(n, ρ)` and its result satisfies `Q`. -/
def Tot (md : Md) : Circ α → Nat → Assign → (Nat → Assign → α → Prop) → Prop
  | .ret x, n, ρ, Q => Q n ρ x
  | .error, _, _, _ => False
  | .newVar k, n, ρ, Q => md.std = false ∧ Tot md (k (.var n)) (n + 1) ρ Q
  | .not1 a k, n, ρ, Q => Ok md n a ∧ Tot md (k (notBit a)) n ρ Q
  | .and2 a b k, n, ρ, Q => Ok md n a ∧ Ok md n b ∧
      Tot md (k (symAnd n a b).1) (symAnd n a b).2.1 (upd ρ n (symAnd n a b).2.1 (val ρ a && val ρ b)) Q
  | .or2 a b k, n, ρ, Q => Ok md n a ∧ Ok md n b ∧
      Tot md (k (symOr n a b).1) (symOr n a b).2.1 (upd ρ n (symOr n a b).2.1 (val ρ a || val ρ b)) Q
  | .xor2 a b k, n, ρ, Q => Ok md n a ∧ Ok md n b ∧
      Tot md (k (symXor n a b).1) (symXor n a b).2.1 (upd ρ n (symXor n a b).2.1 (val ρ a != val ρ b)) Q
  | .mux3 s a b k, n, ρ, Q => Ok md n s ∧ Ok md n a ∧ Ok md n b ∧
      Tot md (k (symMux n s a b).1) (symMux n s a b).2.1
        (upd ρ n (symMux n s a b).2.1 (if val ρ s then val ρ b else val ρ a)) Q
  | .assert1 a b k, n, ρ, Q => md.asserts = true ∧ Ok md n a ∧ val ρ a = b ∧ Tot md k n ρ Q

theorem Tot.mono {md : Md} {c : Circ α} {n : Nat} {ρ : Assign} {Q Q' : Nat → Assign → α → Prop} (h : Tot md c n ρ Q)
    (hQ : ∀ n ρ x, Q n ρ x → Q' n ρ x) : Tot md c n ρ Q' := by
  induction c generalizing n ρ with
  | ret x => exact hQ _ _ _ h
  | error => exact h
  | newVar k ih => exact ⟨h.1, ih _ h.2⟩
  | not1 a k ih => exact ⟨h.1, ih _ h.2⟩
  | and2 a b k ih => exact ⟨h.1, h.2.1, ih _ h.2.2⟩
  | or2 a b k ih => exact ⟨h.1, h.2.1, ih _ h.2.2⟩
  | xor2 a b k ih => exact ⟨h.1, h.2.1, ih _ h.2.2⟩
  | mux3 s a b k ih => exact ⟨h.1, h.2.1, h.2.2.1, ih _ h.2.2.2⟩
  | assert1 a b k ih => exact ⟨h.1, h.2.1, h.2.2.1, ih h.2.2.2⟩

theorem Tot.bind {md : Md} {c : Circ α} {f : α → Circ β} {n : Nat} {ρ : Assign} {Q : Nat → Assign → β → Prop}
    (h : Tot md c n ρ fun n ρ x => Tot md (f x) n ρ Q) : Tot md (c >>= f) n ρ Q := by
  show Tot md (Circ.bind c f) n ρ Q
  induction c generalizing n ρ with
  | ret x => exact h
  | error => exact h
  | newVar k ih => exact ⟨h.1, ih _ h.2⟩
  | not1 a k ih => exact ⟨h.1, ih _ h.2⟩
  | and2 a b k ih => exact ⟨h.1, h.2.1, ih _ h.2.2⟩
  | or2 a b k ih => exact ⟨h.1, h.2.1, ih _ h.2.2⟩
  | xor2 a b k ih => exact ⟨h.1, h.2.1, ih _ h.2.2⟩
  | mux3 s a b k ih => exact ⟨h.1, h.2.1, h.2.2.1, ih _ h.2.2.2⟩
  | assert1 a b k ih => exact ⟨h.1, h.2.1, h.2.2.1, ih h.2.2.2⟩

/-- Simulation. -/
theorem Tot.simulate {as : Bool} {c : Circ α} {n : Nat} {ρ : Assign} {Q : Nat → Assign → α → Prop} (hn : 0 < n)
    (h : Tot ⟨true, as⟩ c n ρ Q) : ∃ x, Gen.simulate c = some x ∧ Q n ρ x := by
  have ok : ∀ {b : Bit}, Ok ⟨true, as⟩ n b → ∃ x, b = .const x := by
    intro b hb
    cases b with
    | const x => exact ⟨x, rfl⟩
    | var v => exact absurd hb.1 (by simp)
    | nvar v => exact absurd hb.1 (by simp)
  induction c with
  | ret x => exact ⟨x, rfl, h⟩
  | error => exact h.elim
  | newVar k ih => exact absurd h.1 (by simp)
  | not1 a k ih =>
    obtain ⟨x, rfl⟩ := ok h.1
    exact ih _ h.2
  | and2 a b k ih =>
    obtain ⟨x, rfl⟩ := ok h.1
    obtain ⟨y, rfl⟩ := ok h.2.1
    have h := h.2.2
    cases x <;> cases y <;> (simp only [symAnd, upd_same] at h; exact ih _ h)
  | or2 a b k ih =>
    obtain ⟨x, rfl⟩ := ok h.1
    obtain ⟨y, rfl⟩ := ok h.2.1
    have h := h.2.2
    cases x <;> cases y <;> (simp only [symOr, upd_same] at h; exact ih _ h)
  | xor2 a b k ih =>
    obtain ⟨x, rfl⟩ := ok h.1
    obtain ⟨y, rfl⟩ := ok h.2.1
    have h := h.2.2
    cases x <;> cases y <;> (simp only [symXor, notBit, upd_same] at h; exact ih _ h)
  | mux3 s a b k ih =>
    obtain ⟨z, rfl⟩ := ok h.1
    obtain ⟨x, rfl⟩ := ok h.2.1
    obtain ⟨y, rfl⟩ := ok h.2.2.1
    have h := h.2.2.2
    cases z <;> (simp only [symMux, upd_same] at h; exact ih _ h)
  | assert1 a b k ih =>
    obtain ⟨x, rfl⟩ := ok h.2.1
    obtain ⟨y, hy, hq⟩ := ih h.2.2.2
    have e : x = b := h.2.2.1
    exact ⟨y, by rw [Gen.simulate, if_pos e, hy], hq⟩

/-- What a symbolic run that is `Tot` yields. -/
structure SymOk (md : Md) (n : Nat) (ρ : Assign) (Q : Nat → Assign → α → Prop) (r : α × Nat × List BCl) : Prop where
  le : n ≤ r.2.1
  sound : SatB ρ r.2.2 → Q r.2.1 ρ r.1
  complete : ∃ ρ', Q r.2.1 ρ' r.1 ∧ (∀ v, v < n → ρ' v = ρ v) ∧ SatB ρ' r.2.2
  shape : md.asserts = false → ∀ c ∈ r.2.2, GateCl n r.2.1 c
  lits : ∀ c ∈ r.2.2, ∀ b ∈ c, 0 < bvar b ∧ bvar b < r.2.1
  size : ∀ c ∈ r.2.2, c ≠ [] ∧ c.length ≤ 3

theorem SatB.append {ρ : Assign} {c d : List BCl} : SatB ρ (c ++ d) ↔ SatB ρ c ∧ SatB ρ d := by
  unfold SatB
  constructor
  · intro h
    exact ⟨fun x hx => h x (by simp [hx]), fun x hx => h x (by simp [hx])⟩
  · rintro ⟨h1, h2⟩ x hx
    rcases List.mem_append.1 hx with h | h
    · exact h1 x h
    · exact h2 x h

theorem GateCl.lt {lo hi : Nat} {c : BCl} (h : GateCl lo hi c) (b : Bit) (hb : b ∈ c) : 0 < bvar b ∧ bvar b < hi := by
  obtain ⟨x, y, z, rfl, h1, h2, h3, h4, h5, h6⟩ := h
  simp only [List.mem_cons, List.not_mem_nil, or_false] at hb
  rcases hb with rfl | rfl | rfl <;> constructor <;> omega

theorem val_below {n : Nat} {ρ ρ' : Assign} (h : ∀ v, v < n → ρ' v = ρ v) {b : Bit} (hb : 0 < bvar b ∧ bvar b < n) :
    val ρ' b = val ρ b := by
  cases b with
  | const => rfl
  | var v => exact h v hb.2
  | nvar v => show (!ρ' v) = !ρ v; rw [h v hb.2]

theorem symOk_gate {md : Md} {n : Nat} {f : Assign → Bool} {g : Bit × Nat × List BCl} (hg : GateOk md n f g) {ρ : Assign}
    {Q : Nat → Assign → α → Prop} {k : Bit → Circ α}
    (ih : ∃ r, symbolic (k g.1) g.2.1 = some r ∧ SymOk md g.2.1 (upd ρ n g.2.1 (f ρ)) Q r) :
    ∃ r, ((symbolic (k g.1) g.2.1).map fun r => (r.1, r.2.1, g.2.2 ++ r.2.2)) = some r ∧ SymOk md n ρ Q r := by
  obtain ⟨r, hr, h⟩ := ih
  refine ⟨(r.1, r.2.1, g.2.2 ++ r.2.2), by rw [hr]; rfl, ⟨Nat.le_trans hg.le h.le, ?_, ?_, ?_, ?_, ?_⟩⟩
  · intro hs
    obtain ⟨h1, h2⟩ := SatB.append.1 hs
    have e : upd ρ n g.2.1 (f ρ) = ρ := by
      rcases (hg.sat ρ).1 h1 with e | e
      · rw [e, upd_same]
      · funext v
        unfold upd
        split
        · rename_i hv; rw [hv.2, e]
        · rfl
    rw [e] at h
    exact h.sound h2
  · obtain ⟨ρ', hq, hext, hsat⟩ := h.complete
    refine ⟨ρ', hq, ?_, ?_⟩
    · intro v hv
      rw [hext v (Nat.lt_of_lt_of_le hv hg.le)]
      exact (upd_ext ρ hg.le _).eq v hv
    · apply SatB.append.2 ⟨?_, hsat⟩
      intro c hc
      obtain ⟨b, hb, hv⟩ := hg.sat' ρ c hc
      exact ⟨b, hb, by rw [val_below (fun v hv => hext v hv) ((hg.shape c hc).lt b hb)]; exact hv⟩
  · intro ha c hc
    rcases List.mem_append.1 hc with hc | hc
    · obtain ⟨x, y, z, e, h1, h2, h3, h4, h5, h6⟩ := hg.shape c hc
      exact ⟨x, y, z, e, h1, h2, h3, h4, h5, Nat.lt_of_lt_of_le h6 h.le⟩
    · obtain ⟨x, y, z, e, h1, h2, h3, h4, h5, h6⟩ := h.shape ha c hc
      exact ⟨x, y, z, e, h1, h2, h3, h4, Nat.le_trans hg.le h5, h6⟩
  · intro c hc b hb
    rcases List.mem_append.1 hc with hc | hc
    · have := (hg.shape c hc).lt b hb
      exact ⟨this.1, Nat.lt_of_lt_of_le this.2 h.le⟩
    · exact h.lits c hc b hb
  · intro c hc
    rcases List.mem_append.1 hc with hc | hc
    · obtain ⟨x, y, z, e, _⟩ := hg.shape c hc
      rw [e]; simp
    · exact h.size c hc

/-- Symbolic execution. -/
theorem Tot.symbolic {as : Bool} {c : Circ α} {n : Nat} {ρ : Assign} {Q : Nat → Assign → α → Prop} (hn : 0 < n)
    (h : Tot ⟨false, as⟩ c n ρ Q) : ∃ r, Gen.symbolic c n = some r ∧ SymOk ⟨false, as⟩ n ρ Q r := by
  induction c generalizing n ρ with
  | ret x => exact ⟨_, rfl, Nat.le_refl _, fun _ => h, ⟨ρ, h, fun _ _ => rfl, fun c hc => by simp at hc⟩, fun _ c hc => by simp at hc,
      fun c hc => by simp at hc, fun c hc => by simp at hc⟩
  | error => exact h.elim
  | newVar k ih =>
    obtain ⟨r, hr, h⟩ := ih _ (Nat.succ_pos n) h.2
    refine ⟨r, hr, by have := h.le; omega, h.sound, ?_, ?_, h.lits, h.size⟩
    · obtain ⟨ρ', h1, h2, h3⟩ := h.complete
      exact ⟨ρ', h1, fun v hv => h2 v (by omega), h3⟩
    · intro ha c hc
      obtain ⟨x, y, z, e, h1, h2, h3, h4, h5, h6⟩ := h.shape ha c hc
      exact ⟨x, y, z, e, h1, h2, h3, h4, by omega, h6⟩
  | not1 a k ih => exact ih _ hn h.2
  | and2 a b k ih =>
    have hg := gate_and hn h.1 h.2.1
    exact symOk_gate hg (ih _ (Nat.lt_of_lt_of_le hn hg.le) h.2.2)
  | or2 a b k ih =>
    have hg := gate_or hn h.1 h.2.1
    exact symOk_gate hg (ih _ (Nat.lt_of_lt_of_le hn hg.le) h.2.2)
  | xor2 a b k ih =>
    have hg := gate_xor hn h.1 h.2.1
    exact symOk_gate hg (ih _ (Nat.lt_of_lt_of_le hn hg.le) h.2.2)
  | mux3 s a b k ih =>
    have hg := gate_mux hn h.1 h.2.1 h.2.2.1
    exact symOk_gate hg (ih _ (Nat.lt_of_lt_of_le hn hg.le) h.2.2.2)
  | assert1 a b k ih =>
    obtain ⟨h1, h2, h3, h4⟩ := h
    obtain ⟨r, hr, h⟩ := ih hn h4
    have key : ∀ hv : IsVar a, ∃ r', ((Gen.symbolic k n).map fun r => (r.1, r.2.1, assertCls a b ++ r.2.2)) = some r' ∧
        SymOk ⟨false, as⟩ n ρ Q r' := by
      intro hv
      refine ⟨(r.1, r.2.1, assertCls a b ++ r.2.2), by rw [hr]; rfl, h.le, ?_, ?_, ?_, ?_, ?_⟩
      · intro hs; exact h.sound (SatB.append.1 hs).2
      · obtain ⟨ρ', h5, h6, h7⟩ := h.complete
        refine ⟨ρ', h5, h6, SatB.append.2 ⟨?_, h7⟩⟩
        have e := val_below h6 (h2.lt hv)
        intro c hc
        unfold assertCls at hc
        cases b
        · simp only [Bool.false_eq_true, if_false, List.mem_singleton] at hc
          subst hc
          exact ⟨notBit a, List.mem_singleton.2 rfl, by simp [e, h3]⟩
        · simp only [if_true, List.mem_singleton] at hc
          subst hc
          exact ⟨a, List.mem_singleton.2 rfl, by rw [e, h3]⟩
      · intro ha; rw [h1] at ha; cases ha
      · intro c hc l hl
        rcases List.mem_append.1 hc with hc | hc
        · have h8 := h2.lt hv
          have h9 := h.le
          have : bvar l = bvar a := by
            unfold assertCls at hc
            cases b
            · simp only [Bool.false_eq_true, if_false, List.mem_singleton] at hc
              subst hc
              rw [List.mem_singleton.1 hl, bvar_notBit]
            · simp only [if_true, List.mem_singleton] at hc
              subst hc
              rw [List.mem_singleton.1 hl]
          rw [this]
          exact ⟨h8.1, Nat.lt_of_lt_of_le h8.2 h9⟩
        · exact h.lits c hc l hl
      · intro c hc
        rcases List.mem_append.1 hc with hc | hc
        · unfold assertCls at hc
          cases b
          · simp only [Bool.false_eq_true, if_false, List.mem_singleton] at hc
            subst hc; simp
          · simp only [if_true, List.mem_singleton] at hc
            subst hc; simp
        · exact h.size c hc
    rcases a with x | v | v
    · refine ⟨r, ?_, h⟩
      have : x = b := h3
      rw [Gen.symbolic, if_pos this, hr]
    · exact key (Nat.ne_of_gt h2.2.1)
    · exact key (Nat.ne_of_gt h2.2.1)

end NDP.Gen
