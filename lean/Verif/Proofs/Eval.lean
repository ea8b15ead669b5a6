import Verif.Proofs.ToLo
import Verif.Proofs.Residual
/- Branching (`Set.evaluate`) and the invariant tying a node of the search to the input formula. -/
namespace NDP
open Spec

/-- One branch of a formula on variable `p`. -/
abbrev branch (p : Nat) (b : Bool) (F : Cnf) : Cnf := residual [((p : Int), b)] F

/-- Value of a child set: T when no clause is left, F when a clause became empty. -/
def childVal (G : Cnf) : Option Bool := if [] ∈ G then some false else if G = [] then some true else none

/-- The non-empty clauses of a formula. -/
abbrev nonempties (G : Cnf) : Cnf := G.filter fun c => decide (c ≠ [])

theorem erase_eq_filter {c : List Int} (h : Asc c) {l : Int} (hl : l ∈ c) :
    c.erase l = c.filter fun x => decide (x.natAbs ≠ l.natAbs) := by
  induction c with
  | nil => simp at hl
  | cons a c ih =>
    have ha : ∀ x ∈ c, a.natAbs < x.natAbs := (List.pairwise_cons.1 h).1
    have hc : Asc c := (List.pairwise_cons.1 h).2
    by_cases hal : a = l
    · subst hal
      rw [List.erase_cons_head, List.filter_cons]
      simp only [ne_eq, not_true_eq_false, decide_false, Bool.false_eq_true, if_false]
      symm
      rw [List.filter_eq_self]
      intro x hx
      have := ha x hx
      simp; omega
    · have hlc : l ∈ c := by
        rcases List.mem_cons.1 hl with e | e
        · exact absurd e.symm hal
        · exact e
      have hne : a.natAbs ≠ l.natAbs := by have := ha l hlc; omega
      rw [List.erase_cons_tail (by simpa using hal), List.filter_cons]
      simp [hne, ih hc hlc]

theorem openLits_single {p : Nat} {b : Bool} (c : List Int) :
    openLits [((p : Int), b)] c = c.filter fun x => decide (x.natAbs ≠ p) := by
  unfold openLits
  congr 1
  funext l
  simp only [partialVal_single]
  by_cases h : l.natAbs = p <;> simp [h]

theorem asc_eq_of_natAbs {c : List Int} (h : Asc c) {a b : Int} (ha : a ∈ c) (hb : b ∈ c)
    (e : a.natAbs = b.natAbs) : a = b := by
  obtain ⟨i, hi, ei⟩ := List.mem_iff_getElem.1 ha
  obtain ⟨j, hj, ej⟩ := List.mem_iff_getElem.1 hb
  have hh := List.pairwise_iff_getElem.1 h
  rcases Nat.lt_trichotomy i j with hij | hij | hij
  · have := hh i j hi hj hij
    rw [ei, ej] at this; omega
  · subst hij; rw [← ei, ← ej]
  · have := hh j i hj hi hij
    rw [ei, ej] at this; omega

theorem branch_one (p : Nat) (b : Bool) (c : List Int) :
    branch p b [c] = if undecided [((p : Int), b)] c then [openLits [((p : Int), b)] c] else [] := by
  unfold branch; rw [residual_cons]; rfl

theorem branch_one_pos {p : Nat} {c : List Int} (hc : Asc c) {l : Int} {b : Bool}
    (hl : l ∈ c) (hlp : l.natAbs = p) (hlb : decide (l < 0) = b) :
    branch p b [c] = [c.erase l] := by
  have hF : undecided [((p : Int), b)] c = true := by
    rw [undecided_iff]
    intro x hx
    rw [partialVal_single]
    split
    · next e =>
      have : x = l := asc_eq_of_natAbs hc hx hl (by omega)
      subst this
      by_cases hx0 : x < 0
      · simp [hx0] at hlb ⊢; exact hlb
      · simp [hx0] at hlb ⊢; exact hlb
    · simp
  rw [branch_one, hF, openLits_single, erase_eq_filter hc hl, hlp]
  rfl

theorem branch_one_neg {p : Nat} {c : List Int} {l : Int} {b : Bool}
    (hl : l ∈ c) (hlp : l.natAbs = p) (hlb : decide (l < 0) = !b) :
    branch p b [c] = [] := by
  have hT : undecided [((p : Int), b)] c = false := by
    rw [Bool.eq_false_iff]
    intro h
    have := undecided_iff.1 h _ hl
    rw [partialVal_single] at this
    apply this
    by_cases hx0 : l < 0
    · simp [hx0, hlp] at hlb ⊢; exact hlb
    · simp [hx0, hlp] at hlb ⊢; exact hlb
  rw [branch_one, hT]; rfl

theorem branch_one_free {p : Nat} {c : List Int} {b : Bool} (h : ∀ l ∈ c, l.natAbs ≠ p) :
    branch p b [c] = [c] := by
  have hF : undecided [((p : Int), b)] c = true := by
    rw [undecided_iff]
    intro x hx
    rw [partialVal_single]
    simp [h x hx]
  rw [branch_one, hF, openLits_single, if_pos rfl]
  congr 1
  rw [List.filter_eq_self]
  intro l hl; simpa using h l hl

/-- Effect of the loop body of `evaluate` on one clause, for the four accumulators. -/
theorem evalClause_ok {p : Nat} (hp : 1 ≤ p) (st : SetObj.EvalSt) {c : Clause} (hc : Asc c.raw)
    (hne : c.raw ≠ []) :
    raws (SetObj.evalClause (p : Int) st c).left =
        raws st.left ++ nonempties (branch p true [c.raw]) ∧
    raws (SetObj.evalClause (p : Int) st c).right =
        raws st.right ++ nonempties (branch p false [c.raw]) ∧
    (SetObj.evalClause (p : Int) st c).leftVal =
        (if [] ∈ branch p true [c.raw] then some false else st.leftVal) ∧
    (SetObj.evalClause (p : Int) st c).rightVal =
        (if [] ∈ branch p false [c.raw] then some false else st.rightVal) := by
  unfold SetObj.evalClause
  simp only [Clause.ofList_asc hc]
  by_cases h1 : (p : Int) ∈ c.raw
  · have e1 : branch p true [c.raw] = [] := branch_one_neg h1 (by omega) (by simp)
    have e2 : branch p false [c.raw] = [c.raw.erase (p : Int)] :=
      branch_one_pos hc h1 (by omega) (by simp)
    rw [e1, e2]
    simp only [h1, if_true]
    by_cases hE : c.raw.erase (p : Int) = []
    · simp [hE]
    · have : 0 < (c.raw.erase (p : Int)).length := List.length_pos_of_ne_nil hE
      have hE2 : ¬ [] = c.raw.erase (p : Int) := fun e => hE e.symm
      simp [hE, hE2, this]
  · by_cases h2 : -(p : Int) ∈ c.raw
    · have e1 : branch p false [c.raw] = [] := branch_one_neg h2 (by omega) (by simp; omega)
      have e2 : branch p true [c.raw] = [c.raw.erase (-(p : Int))] :=
        branch_one_pos hc h2 (by omega) (by simp; omega)
      rw [e1, e2]
      simp only [h1, h2, if_true, if_false]
      by_cases hE : c.raw.erase (-(p : Int)) = []
      · simp [hE]
      · have : 0 < (c.raw.erase (-(p : Int))).length := List.length_pos_of_ne_nil hE
        have hE2 : ¬ [] = c.raw.erase (-(p : Int)) := fun e => hE e.symm
        simp [hE, hE2, this]
    · have hf : ∀ l ∈ c.raw, l.natAbs ≠ p := by
        intro l hl e
        rcases Int.natAbs_eq l with e' | e'
        · rw [e] at e'; exact h1 (e' ▸ hl)
        · rw [e] at e'; exact h2 (e' ▸ hl)
      rw [branch_one_free hf, branch_one_free hf]
      have hne2 : ¬ [] = c.raw := fun e => hne e.symm
      simp [h1, h2, hne, hne2]

theorem branch_cons (p : Nat) (b : Bool) (c : List Int) (F : Cnf) :
    branch p b (c :: F) = branch p b [c] ++ branch p b F := by
  unfold branch
  rw [residual_cons, residual_cons]
  split <;> rfl

theorem foldl_evalClause {p : Nat} (hp : 1 ≤ p) (cls : List Clause) (h : ∀ c ∈ cls, Asc c.raw)
    (hne : ∀ c ∈ cls, c.raw ≠ []) (st : SetObj.EvalSt) :
    raws (cls.foldl (SetObj.evalClause (p : Int)) st).left =
        raws st.left ++ nonempties (branch p true (raws cls)) ∧
    raws (cls.foldl (SetObj.evalClause (p : Int)) st).right =
        raws st.right ++ nonempties (branch p false (raws cls)) ∧
    (cls.foldl (SetObj.evalClause (p : Int)) st).leftVal =
        (if [] ∈ branch p true (raws cls) then some false else st.leftVal) ∧
    (cls.foldl (SetObj.evalClause (p : Int)) st).rightVal =
        (if [] ∈ branch p false (raws cls) then some false else st.rightVal) := by
  induction cls generalizing st with
  | nil => simp [branch, residual]
  | cons c cls ih =>
    obtain ⟨a1, a2, a3, a4⟩ := evalClause_ok hp st (h c (by simp)) (hne c (by simp))
    obtain ⟨b1, b2, b3, b4⟩ := ih (fun c hc => h c (by simp [hc])) (fun c hc => hne c (by simp [hc]))
      (SetObj.evalClause (p : Int) st c)
    simp only [List.foldl_cons, raws, List.map_cons] at *
    rw [branch_cons, branch_cons p false]
    refine ⟨?_, ?_, ?_, ?_⟩
    · rw [b1, a1]; simp [nonempties]
    · rw [b2, a2]; simp [nonempties]
    · rw [b3, a3]
      by_cases x : [] ∈ branch p true [c.raw] <;> by_cases y : [] ∈ branch p true (cls.map (·.raw)) <;>
        simp [x, y]
    · rw [b4, a4]
      by_cases x : [] ∈ branch p false [c.raw] <;> by_cases y : [] ∈ branch p false (cls.map (·.raw)) <;>
        simp [x, y]

/-- A node as the search keeps it: non-empty ordered clauses over variables `1..n`, with complete name maps. -/
structure Node {H : Type} (s : SetObj H) : Prop where
  ne : s.clauses ≠ []
  cne : ∀ c ∈ s.clauses, c.raw ≠ []
  asc : ∀ c ∈ s.clauses, Asc c.raw
  vars : ∀ v ∈ varsOf (raws s.clauses), 1 ≤ v ∧ v ≤ s.finalNamesMap.length
  names : ∀ v ∈ varsOf (raws s.clauses), (s.originalValues.get? (bk s.finalNamesMap v)).isSome
  value : s.value = none

/-- The input name of a variable of a node: through the final-names map, then the original-values map. -/
def nameOf {H : Type} (s : SetObj H) (v : Nat) : Nat := (s.originalValues.get? (bk s.finalNamesMap v)).getD 0

/-- The variable a node is branched on: its very first one. -/
def pivotOf (F : Cnf) : Nat := match F with
  | (l :: _) :: _ => l.natAbs
  | _ => 0

theorem pivot_mem {F : Cnf} (h : F ≠ []) (hc : ∀ c ∈ F, c ≠ []) : pivotOf F ∈ varsOf F := by
  match F, h with
  | [] :: _, _ => exact absurd rfl (hc [] (by simp))
  | (l :: ls) :: F, _ =>
    rw [mem_varsOf]; exact ⟨l :: ls, by simp, l, by simp, rfl⟩

/-- What `evaluate` produces for value `b` of the pivot. -/
structure IsChild {H : Type} (s : SetObj H) (b : Bool) (ch : SetObj H) : Prop where
  clauses : raws ch.clauses = nonempties (branch (pivotOf (raws s.clauses)) b (raws s.clauses))
  value : ch.value = childVal (branch (pivotOf (raws s.clauses)) b (raws s.clauses))
  ov : ch.originalValues = (varsOf (raws ch.clauses)).map fun v => (v, nameOf s v)
  ev : ch.evaluatedVars = s.evaluatedVars.set (nameOf s (pivotOf (raws s.clauses)) : Int) b
  fnm : ch.finalNamesMap = []
  id : ch.id = none
  hash : ch.computedHash = none

theorem origName_ok {H : Type} {s : SetObj H} (h : Node s) {v : Nat} (hv : v ∈ varsOf (raws s.clauses)) :
    s.origName v = pure (nameOf s v) := by
  unfold SetObj.origName
  rw [pyIndex_pred (h.vars v hv).1 (h.vars v hv).2]
  obtain ⟨o, ho⟩ := Option.isSome_iff_exists.1 (h.names v hv)
  simp [nameOf, ho]

theorem getVariables_eq {H : Type} (s : SetObj H) : s.getVariables = varsOf (raws s.clauses) := by
  unfold SetObj.getVariables varsOf raws
  rw [List.flatMap_map]

theorem mem_vars_branch {p : Nat} {b : Bool} {F : Cnf} {v : Nat} (h : v ∈ varsOf (nonempties (branch p b F))) :
    v ∈ varsOf F ∧ v ≠ p := by
  have h' : v ∈ varsOf (branch p b F) := by
    rw [mem_varsOf] at h ⊢
    obtain ⟨c, hc, l, hl, e⟩ := h
    exact ⟨c, (List.mem_filter.1 hc).1, l, hl, e⟩
  refine ⟨(mem_vars_residual h').1, ?_⟩
  intro e
  have := (mem_vars_residual h').2
  simp [Dict.get?, e] at this

theorem childOriginals_ok {H : Type} {s : SetObj H} (h : Node s) {ch : SetObj H}
    (hv : ∀ v ∈ varsOf (raws ch.clauses), v ∈ varsOf (raws s.clauses)) :
    s.childOriginals ch = pure ((varsOf (raws ch.clauses)).map fun v => (v, nameOf s v)) := by
  unfold SetObj.childOriginals
  rw [getVariables_eq]
  apply mapM_pure
  intro v hm
  rw [origName_ok h (hv v hm)]
  rfl

theorem nonempties_eq_nil_iff {G : Cnf} (h : [] ∉ G) : nonempties G = [] ↔ G = [] := by
  have : nonempties G = G := by
    rw [List.filter_eq_self]
    intro c hc
    simp only [decide_eq_true_eq]
    rintro rfl; exact h hc
  rw [this]

theorem nonempties_eq {G : Cnf} (h : [] ∉ G) : nonempties G = G := by
  rw [List.filter_eq_self]
  intro c hc
  simp only [decide_eq_true_eq]
  rintro rfl; exact h hc

theorem side_ok {H : Type} (G : Cnf) (cls : List Clause) (v : Option Bool) (hc : raws cls = nonempties G)
    (hv : v = if [] ∈ G then some false else none) :
    ∃ ch : SetObj H, (if cls.length = 0 ∧ v = none then ({ clauses := cls, value := some true } : SetObj H)
        else { clauses := cls, value := v }) = ch ∧
      ch = { clauses := cls, value := childVal G } := by
  refine ⟨_, rfl, ?_⟩
  subst hv
  unfold childVal
  by_cases hn : [] ∈ G
  · simp [hn]
  · have e : nonempties G = G := nonempties_eq hn
    rw [e] at hc
    subst hc
    by_cases hG : cls = []
    · simp [hG]
    · have : cls.length ≠ 0 := by simpa using hG
      simp only [hn, if_false]
      simp [this, raws, hG]

/-- Branching never fails on a node and yields exactly the two branches. -/
theorem evaluate_ok {H : Type} {s : SetObj H} (h : Node s) :
    ∃ l r, s.evaluate = pure (some (l, r)) ∧ IsChild s true l ∧ IsChild s false r := by
  have hpm : pivotOf (raws s.clauses) ∈ varsOf (raws s.clauses) := by
    apply pivot_mem
    · simpa [raws] using h.ne
    · intro c hc
      obtain ⟨d, hd, rfl⟩ := List.mem_map.1 hc
      exact h.cne d hd
  have hp := (h.vars _ hpm).1
  obtain ⟨e1, e2, e3, e4⟩ := foldl_evalClause hp s.clauses h.asc h.cne {}
  unfold SetObj.evaluate
  split
  · next hs => exact absurd hs h.ne
  · next c0 cs hs =>
    split
    · next hr => exact absurd hr (h.cne c0 (by simp [hs]))
    · next l0 ls hr =>
      have hpe : l0.natAbs = pivotOf (raws s.clauses) := by rw [hs]; simp [raws, pivotOf, hr]
      rw [hpe]
      generalize hst : s.clauses.foldl (SetObj.evalClause ((pivotOf (raws s.clauses) : Nat) : Int)) {} = st at *
      simp only [raws, List.map_nil, List.nil_append] at e1 e2
      obtain ⟨L, hL, hL'⟩ := side_ok (H := H) _ st.left st.leftVal e1 e3
      obtain ⟨R, hR, hR'⟩ := side_ok (H := H) _ st.right st.rightVal e2 e4
      have h1 : s.childOriginals L = pure ((varsOf (raws L.clauses)).map fun v => (v, nameOf s v)) := by
        apply childOriginals_ok h
        intro v hv
        rw [hL'] at hv
        exact (mem_vars_branch (by rw [← e1]; exact hv)).1
      have h2 : s.childOriginals R = pure ((varsOf (raws R.clauses)).map fun v => (v, nameOf s v)) := by
        apply childOriginals_ok h
        intro v hv
        rw [hR'] at hv
        exact (mem_vars_branch (by rw [← e2]; exact hv)).1
      simp only [hst, hL, hR, h1, h2, origName_ok h hpm, M.pure_bind]
      refine ⟨_, _, rfl, ?_, ?_⟩
      · subst hL'
        exact ⟨e1, rfl, rfl, rfl, rfl, rfl, rfl⟩
      · subst hR'
        exact ⟨e2, rfl, rfl, rfl, rfl, rfl, rfl⟩

end NDP
