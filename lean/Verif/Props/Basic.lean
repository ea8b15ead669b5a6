import Verif.Proofs.Body
import Verif.Proofs.Residual
import Verif.Model.Solver
/-
  C15, C16, C25, C26, C27, C28: clauses, comparison, verification and output of solutions, serialised properties,
  substitution.
-/
namespace NDP
open Spec SetObj
variable {H : Type}

/-! ### C15 -/

/-- **C15** A clause with at most three different literals: what is built does not depend on order or repetition; it is
T exactly when some variable occurs with both signs; otherwise it stores each literal once, in ascending variable
order.  (`dedup` is `frozenset(...)`, which every reader applies.) -/
theorem C15_clause_canonical (c : List Int) (h3 : (dedup c).length ≤ 3) :
    (∀ d : List Int, (∀ l, l ∈ c ↔ l ∈ d) → Clause.ofList (dedup d) = Clause.ofList (dedup c)) ∧
    ((Clause.ofList (dedup c)).value = some true ↔ ∃ l ∈ c, l ≠ 0 ∧ -l ∈ c) ∧
    ((¬ ∃ l ∈ c, l ≠ 0 ∧ -l ∈ c) → (Clause.ofList (dedup c)).value = none ∧
      (∀ l, l ∈ (Clause.ofList (dedup c)).raw ↔ l ∈ c) ∧
      (Clause.ofList (dedup c)).raw.Pairwise fun a b => a.natAbs < b.natAbs) := by
  have key : ∀ d : List Int, (dedup d).length ≤ 3 →
      ((∃ l ∈ d, l ≠ 0 ∧ -l ∈ d) → Clause.ofList (dedup d) = { raw := [], value := some true }) ∧
      ((¬ ∃ l ∈ d, l ≠ 0 ∧ -l ∈ d) → Clause.ofList (dedup d) = { raw := sortAbs (dedup d) } ∧ Asc (sortAbs (dedup d))) := by
    intro d hd
    obtain ⟨h1, h2⟩ := Clause.ofList_le_three (dedup d) (nodup_dedup d) hd
    constructor
    · rintro ⟨l, hl, h0, hn⟩
      exact h1 ⟨l, by simpa using hl, by simpa using hn, h0⟩
    · intro hn
      have := h2 (by
        rintro ⟨l, hl, hnl, h0⟩
        exact hn ⟨l, by simpa using hl, h0, by simpa using hnl⟩)
      exact ⟨Clause.ofList_nodup this, asc_sortAbs this⟩
  refine ⟨?_, ?_, ?_⟩
  · intro d hd
    have hp : (dedup d).Perm (dedup c) := by
      rw [List.perm_ext_iff_of_nodup (nodup_dedup d) (nodup_dedup c)]
      intro l; simp [hd l]
    have hd3 : (dedup d).length ≤ 3 := by rw [hp.length_eq]; exact h3
    by_cases ht : ∃ l ∈ c, l ≠ 0 ∧ -l ∈ c
    · have ht' : ∃ l ∈ d, l ≠ 0 ∧ -l ∈ d := by
        obtain ⟨l, h1, h2, h3⟩ := ht
        exact ⟨l, (hd l).1 h1, h2, (hd _).1 h3⟩
      rw [(key c h3).1 ht, (key d hd3).1 ht']
    · have ht' : ¬ ∃ l ∈ d, l ≠ 0 ∧ -l ∈ d := by
        rintro ⟨l, h1, h2, h3⟩
        exact ht ⟨l, (hd l).2 h1, h2, (hd _).2 h3⟩
      obtain ⟨e1, a1⟩ := (key c h3).2 ht
      obtain ⟨e2, a2⟩ := (key d hd3).2 ht'
      rw [e1, e2, asc_ext a2 a1 (fun l => by simp [hd l])]
  · constructor
    · intro hv
      by_contra hn
      rw [((key c h3).2 hn).1] at hv
      simp at hv
    · intro ht; rw [(key c h3).1 ht]
  · intro hn
    obtain ⟨e1, a1⟩ := (key c h3).2 hn
    rw [e1]
    exact ⟨rfl, fun l => by simp, a1⟩

/-- Beyond three literals the recognition of tautologies is incomplete: `2` and `-2` in the middle are not seen. -/
theorem C15_four_literals_not_recognised :
    (Clause.ofList (dedup [1, 2, -2, 3])).value = none ∧ (Clause.ofList (dedup [1, 2, -2, 3])).raw = [1, 2, -2, 3] := by
  decide

example : (dedup [3, -1, 3, 2, 2]).length ≤ 3 ∧ Clause.ofList (dedup [3, -1, 3, 2, 2]) = { raw := [-1, 2, 3] } := by decide
example : (dedup [3, -1, -3, 3]).length ≤ 3 ∧ (Clause.ofList (dedup [3, -1, -3, 3])).value = some true := by decide

/-! ### C16 -/

/-- **C16** The clause comparison is a strict total order on literal lists, and sorting by it yields a permutation that
is in order and keeps clauses with the same literals in their original order. -/
theorem C16_clause_order :
    (∀ a : List Int, clauseLt a a = false) ∧
    (∀ a b c : List Int, clauseLt a b = true → clauseLt b c = true → clauseLt a c = true) ∧
    (∀ a b : List Int, clauseLt a b = true ∨ a = b ∨ clauseLt b a = true) ∧
    (∀ cls : List Clause, let sorted := isort (fun a b : Clause => clauseLt a.raw b.raw) cls
      sorted.Perm cls ∧
      (sorted.Pairwise fun a b => clauseLt a.raw b.raw = true ∨ a.raw = b.raw) ∧
      ∀ r : List Int, sorted.filter (fun c => decide (c.raw = r)) = cls.filter fun c => decide (c.raw = r)) := by
  refine ⟨clauseLt_irrefl, fun _ _ _ => clauseLt_trans, clauseLt_trichotomy, ?_⟩
  intro cls
  refine ⟨isort_perm _ _, ?_, ?_⟩
  · have := isort_sorted (lt := fun a b : Clause => clauseLt a.raw b.raw) (fun a b h => clauseLt_asymm h)
      (fun a b c h1 h2 => clauseLt_negtrans (a := a.raw) (b := b.raw) (c := c.raw) h1 h2) cls
    refine List.Pairwise.imp ?_ this
    intro a b h
    rcases clauseLt_trichotomy a.raw b.raw with h' | h' | h'
    · exact Or.inl h'
    · exact Or.inr h'
    · simp only [h'] at h; simp at h
  · intro r
    apply isort_filter
    intro a b ha hb
    simp only [decide_eq_true_eq] at ha hb
    rw [ha, hb, clauseLt_irrefl]

/-- The literal order behind it: smaller variable first, positive before negative. -/
theorem C16_literal_order (a b : Int) :
    clauseLt [a] [b] = true ↔ a.natAbs < b.natAbs ∨ (a.natAbs = b.natAbs ∧ b < a) := by
  simp only [clauseLt]
  split
  · next h => subst h; simp
  · split
    · next h1 h2 => simp [h2]
    · next h1 h2 => simp; omega

example : isort (fun a b : Clause => clauseLt a.raw b.raw)
    [{ raw := [2, 3], initialIndex := 1 }, { raw := [-1], initialIndex := 2 }, { raw := [1, 2], initialIndex := 3 },
     { raw := [-1], initialIndex := 4 }] =
    [{ raw := [1, 2], initialIndex := 3 }, { raw := [-1], initialIndex := 2 }, { raw := [-1], initialIndex := 4 },
     { raw := [2, 3], initialIndex := 1 }] := by decide

/-! ### C25 -/

/-- **C25** `verify_solution` answers true exactly when the solution makes a literal of every clause true (`0` is not a
literal; a Python dict has no repeated keys). -/
theorem C25_verify_exact (cls : List Clause) (h0 : ∀ c ∈ cls, (0 : Int) ∉ c.raw) (sol : Dict Int Bool)
    (hnd : sol.keys.Nodup) : verifySolution cls sol = true ↔ MakesTrue sol (raws cls) := by
  have hmem : ∀ (b : Bool) (k : Int), (∃ p ∈ sol, p.2 = b ∧ p.1 = k) ↔ sol.get? k = some b := by
    intro b k
    constructor
    · rintro ⟨p, hp, e1, e2⟩
      have : (k, b) ∈ sol := by rw [← e1, ← e2]; exact hp
      exact Dict.get?_of_mem hnd this
    · intro h
      exact ⟨(k, b), Dict.mem_of_get? h, rfl, rfl⟩
  have hlit : ∀ l : Int, l ≠ 0 → (((decide (0 < l) && decide (l ∈ (sol.filter fun p => p.2).map Prod.fst)) ||
      (decide (l < 0) && decide ((l.natAbs : Int) ∈ (sol.filter fun p => !p.2).map Prod.fst))) = true ↔
      partialVal sol l = some true) := by
    intro l hl
    have h1 : l ∈ (sol.filter fun p => p.2).map Prod.fst ↔ sol.get? l = some true := by
      rw [← hmem true l]
      simp
    have h2 : (l.natAbs : Int) ∈ (sol.filter fun p => !p.2).map Prod.fst ↔ sol.get? (l.natAbs : Int) = some false := by
      rw [← hmem false]
      simp
    simp only [Bool.or_eq_true, Bool.and_eq_true, decide_eq_true_eq, h1, h2]
    unfold partialVal
    rcases lt_or_gt_of_ne hl with hlt | hgt
    · simp only [hlt, if_true, true_and, not_lt_of_gt hlt, false_and, false_or]
      cases sol.get? (l.natAbs : Int) with
      | none => simp
      | some b => cases b <;> simp
    · have e : (l.natAbs : Int) = l := by omega
      simp only [hgt, not_lt_of_gt hgt, if_false, true_and, false_and, or_false, e]
      cases sol.get? l with
      | none => simp
      | some b => cases b <;> simp
  unfold verifySolution MakesTrue
  simp only [List.all_eq_true, List.any_eq_true]
  constructor
  · intro h d hd
    obtain ⟨c, hc, rfl⟩ := List.mem_map.1 hd
    obtain ⟨l, hl, hv⟩ := h c hc
    exact ⟨l, hl, (hlit l (by rintro rfl; exact h0 c hc hl)).1 hv⟩
  · intro h c hc
    obtain ⟨l, hl, hv⟩ := h c.raw (List.mem_map.2 ⟨c, hc, rfl⟩)
    exact ⟨l, hl, (hlit l (by rintro rfl; exact h0 c hc hl)).2 hv⟩

example : verifySolution [{ raw := [1, -2] }, { raw := [-1, 3] }] [(1, true), (3, true)] = true ∧
    verifySolution [{ raw := [1, -2] }, { raw := [-1, 3] }] [(1, true), (2, false)] = false := by decide

/-! ### C26 -/

/-- Reading a solution file: the numbers listed on the lines starting with `tag:`. -/
def listedUnder (tag : Char) (s : Str) : List Int :=
  (splitOn '\n' s).flatMap fun line =>
    match line with
    | t :: ':' :: rest => if t = tag then (splitOn ',' rest).filterMap parseInt else []
    | _ => []

theorem listed_join (ks : List Int) (h : ks ≠ []) :
    (splitOn ',' (joinWith [','] (ks.map intStr))).filterMap parseInt = ks := by
  rw [splitOn_joinWith ',' (ks.map intStr) (by simpa using h)]
  · rw [List.filterMap_map]
    have : (parseInt ∘ intStr) = some := by funext i; exact parseInt_intStr i
    rw [this]; simp
  · intro w hw
    obtain ⟨i, _, rfl⟩ := List.mem_map.1 hw
    exact not_mem_intStr (by decide) (by decide)

theorem nl_not_mem_join (ks : List Int) : '\n' ∉ joinWith [','] (ks.map intStr) :=
  joinWith_map_no (by decide) (fun i _ => not_mem_intStr (by decide) (by decide))

/-- **C26** The formatted solution lists under `T` exactly the variables assigned true, under `F` exactly those assigned
false, in the order of the assignment. -/
theorem C26_solution_file (sol : Dict Int Bool) :
    listedUnder 'T' (formatSolution sol) = (Dict.keys (sol.filter fun p => p.2)) ∧
    listedUnder 'F' (formatSolution sol) = (Dict.keys (sol.filter fun p => !p.2)) := by
  unfold formatSolution
  have e1 : ((sol.filter fun p => p.2).map fun p => intStr p.1) = (Dict.keys (sol.filter fun p => p.2)).map intStr := by
    simp [Dict.keys, Function.comp_def]
  have e2 : ((sol.filter fun p => !p.2).map fun p => intStr p.1) = (Dict.keys (sol.filter fun p => !p.2)).map intStr := by
    simp [Dict.keys, Function.comp_def]
  simp only [e1, e2]
  generalize (Dict.keys (sol.filter fun p => p.2)) = ts
  generalize (Dict.keys (sol.filter fun p => !p.2)) = fs
  have hT : ∀ rest, splitOn '\n' (['T', ':'] ++ joinWith [','] (ts.map intStr) ++ ['\n'] ++ rest) =
      (['T', ':'] ++ joinWith [','] (ts.map intStr)) :: splitOn '\n' rest := by
    intro rest
    have := splitOn_append_sep '\n' (['T', ':'] ++ joinWith [','] (ts.map intStr)) rest
      (by simp only [List.mem_append, not_or]; exact ⟨by decide, nl_not_mem_join ts⟩)
    simpa using this
  have hF : splitOn '\n' (['F', ':'] ++ joinWith [','] (fs.map intStr)) = [['F', ':'] ++ joinWith [','] (fs.map intStr)] :=
    splitOn_no_sep _ _ (by simp only [List.mem_append, not_or]; exact ⟨by decide, nl_not_mem_join fs⟩)
  by_cases h1 : ts = [] <;> by_cases h2 : fs = []
  · subst h1 h2; decide
  · subst h1
    have h2' : (fs.map intStr).isEmpty = false := by simpa using h2
    simp only [h2', List.map_nil, List.isEmpty_nil, if_true, List.nil_append, Bool.false_eq_true, if_false]
    unfold listedUnder
    rw [hF]
    simp [listed_join fs h2]
  · subst h2
    have h1' : (ts.map intStr).isEmpty = false := by simpa using h1
    simp only [h1', List.map_nil, List.isEmpty_nil, if_true, Bool.false_eq_true, if_false]
    unfold listedUnder
    rw [hT]
    simp [listed_join ts h1, splitOn]
  · have h2' : (fs.map intStr).isEmpty = false := by simpa using h2
    have h1' : (ts.map intStr).isEmpty = false := by simpa using h1
    simp only [h1', h2', Bool.false_eq_true, if_false]
    unfold listedUnder
    rw [hT, hF]
    simp [listed_join ts h1, listed_join fs h2]

/-- The same in terms of the assignment. -/
theorem C26_solution_file_get (sol : Dict Int Bool) (hnd : sol.keys.Nodup) (k : Int) :
    (k ∈ listedUnder 'T' (formatSolution sol) ↔ sol.get? k = some true) ∧
    (k ∈ listedUnder 'F' (formatSolution sol) ↔ sol.get? k = some false) := by
  obtain ⟨h1, h2⟩ := C26_solution_file sol
  rw [h1, h2]
  have hmem : ∀ b, (k, b) ∈ sol ↔ sol.get? k = some b := fun b => Dict.mem_iff_get? hnd
  constructor
  · rw [← hmem]; simp [Dict.keys]
  · rw [← hmem]; simp [Dict.keys]

example : formatSolution [(1, true), (2, false), (7, true)] = "T:1,7\nF:2".toList := by decide

/-! ### C27 -/

/-- **C27** The serialised properties of a node parse back to the same maps (as Python dicts, i.e. as finite maps for the
partial assignment, whose true entries come first after parsing), provided no assigned variable has a negative name. -/
theorem C27_properties_roundtrip (s t : SetObj H) (h1 : s.evaluatedVars.keys.Nodup)
    (h2 : ∀ k ∈ s.evaluatedVars.keys, 0 ≤ k) (h3 : s.originalValues.keys.Nodup) :
    ∃ t', t.deserializeProperties s.serializeProperties = pure t' ∧
      (∀ k, t'.evaluatedVars.get? k = s.evaluatedVars.get? k) ∧ t'.evaluatedVars.keys.Nodup ∧
      t'.originalValues = s.originalValues ∧ t'.finalNamesMap = s.finalNamesMap ∧
      t'.clauses = t.clauses ∧ t'.value = t.value ∧ t'.id = t.id := by
  refine ⟨_, properties_roundtrip s t h1 h2 h3, ?_, ?_, rfl, rfl, rfl, rfl, rfl⟩
  · exact fun k => get?_trueFirst h1 k
  · exact nodup_keys_trueFirst h1

/-- With a negative name (which the factorizer can produce) the string does not parse. -/
theorem C27_negative_name_fails :
    ({} : SetObj Unit).deserializeProperties
      ({ evaluatedVars := [(-3, true)] } : SetObj Unit).serializeProperties = raise .valueError := by
  rfl

example : ({ evaluatedVars := [(5, false), (2, true)], originalValues := [(1, 7), (2, 3)], finalNamesMap := [2, 1] } :
    SetObj Unit).serializeProperties = "2-5|{1: 7, 2: 3}|[2, 1]".toList := by decide

/-! ### C28 -/

theorem substClause_ok (vm : Dict Int Bool) (clVars : List Int) (vs : List Int) :
    ∀ (kept : List Int) (c : Clause), c.raw = kept ++ vs → (∀ l ∈ vs, l ≠ 0) →
      (∀ l ∈ vs, ((l.natAbs : Int) ∈ clVars ↔ (vm.get? (l.natAbs : Int)).isSome)) →
      (∀ l ∈ kept, (l.natAbs : Int) ∉ clVars) →
      substClause vm clVars c vs =
        if undecided vm vs then some { c with
          raw := kept ++ openLits vm vs
          value := if openLits vm vs ≠ vs ∧ kept ++ openLits vm vs = [] then some false else c.value }
        else none := by
  induction vs with
  | nil =>
    intro kept c hc _ _ _
    simp only [substClause, undecided, List.all_nil, if_true, openLits, List.filter_nil]
    simp at hc
    simp [← hc]
  | cons v vs ih =>
    intro kept c hc h0 hcl hk
    have hv0 : v ≠ 0 := h0 v (by simp)
    simp only [substClause]
    have hcase := hcl v (by simp)
    have pv : partialVal vm v = (vm.get? (v.natAbs : Int)).map fun b => if v < 0 then !b else b := rfl
    by_cases hin : (v.natAbs : Int) ∈ clVars
    · obtain ⟨b, hb⟩ := Option.isSome_iff_exists.1 (hcase.1 hin)
      by_cases htrue : partialVal vm v = some true
      · have hcond : (v.natAbs : Int) ∈ clVars ∧
            ((vm.get? (v.natAbs : Int) = some true ∧ 0 < v) ∨ (vm.get? (v.natAbs : Int) = some false ∧ v < 0)) := by
          refine ⟨hin, ?_⟩
          rw [pv, hb] at htrue
          rw [hb]
          by_cases hneg : v < 0
          · right; simpa [hneg] using htrue
          · left; exact ⟨by simpa [hneg] using htrue, by omega⟩
        rw [if_pos hcond]
        have : undecided vm (v :: vs) = false := by
          rw [Bool.eq_false_iff]
          intro h
          exact (undecided_iff.1 h) v (by simp) htrue
        simp [this]
      · have hcond : ¬ ((v.natAbs : Int) ∈ clVars ∧
            ((vm.get? (v.natAbs : Int) = some true ∧ 0 < v) ∨ (vm.get? (v.natAbs : Int) = some false ∧ v < 0))) := by
          rintro ⟨_, h | h⟩
          · apply htrue; rw [pv, h.1]; simp [not_lt_of_gt h.2]
          · apply htrue; rw [pv, h.1]; simp [h.2]
        rw [if_neg hcond, if_pos hin]
        have hvk : v ∉ kept := fun h => hk v h hin
        have herase : c.raw.erase v = kept ++ vs := by
          rw [hc, List.erase_append_right _ hvk, List.erase_cons_head]
        rw [ih kept _ (by simp [herase]) (fun l hl => h0 l (by simp [hl])) (fun l hl => hcl l (by simp [hl])) hk]
        have hu : undecided vm (v :: vs) = undecided vm vs := by
          unfold undecided
          simp [htrue]
        have ho : openLits vm (v :: vs) = openLits vm vs := by
          unfold openLits
          have : partialVal vm v ≠ none := by rw [pv, hb]; simp
          simp [this]
        rw [hu, ho]
        have hne : openLits vm vs ≠ v :: vs := by
          intro e
          have := congrArg List.length e
          have h2 : (openLits vm vs).length ≤ vs.length := List.length_filter_le _ _
          simp at this; omega
        split
        · congr 1
          simp only [Clause.mk.injEq, true_and]
          refine ⟨?_, trivial⟩
          simp only [herase]
          by_cases he : kept ++ openLits vm vs = []
          · simp only [he, hne, ne_eq, not_false_eq_true, and_self, if_true, and_true]
            split
            · rfl
            · next h =>
              have h : openLits vm vs = vs := by simpa using h
              rw [h] at he
              simp [he]
          · simp only [he, and_false, if_false]
            have : (kept ++ vs).length ≠ 0 := by
              intro h
              apply he
              have h' : kept ++ vs = [] := List.length_eq_zero_iff.1 h
              simp at h'
              simp [h'.1, h'.2, openLits]
            simp only [this, if_false]
        · rfl
    · have hnone : vm.get? (v.natAbs : Int) = none := by
        cases h : vm.get? (v.natAbs : Int) with
        | none => rfl
        | some b => exact absurd (hcase.2 (by simp [h])) hin
      have pvn : partialVal vm v = none := by rw [pv, hnone]; rfl
      rw [if_neg (by rintro ⟨h, _⟩; exact hin h), if_neg hin]
      rw [ih (kept ++ [v]) c (by simp [hc]) (fun l hl => h0 l (by simp [hl])) (fun l hl => hcl l (by simp [hl]))
        (by intro l hl; rcases List.mem_append.1 hl with h | h
            · exact hk l h
            · rw [List.mem_singleton] at h; rw [h]; exact hin)]
      have hu : undecided vm (v :: vs) = undecided vm vs := by
        unfold undecided; simp [pvn]
      have ho : openLits vm (v :: vs) = v :: openLits vm vs := by
        unfold openLits; simp [pvn]
      rw [hu, ho]
      simp

/-- What substitution does to one clause. -/
theorem substOne (vm : Dict Int Bool) (c : Clause) (h0 : (0 : Int) ∉ c.raw) :
    (let clVars := vm.keys.filter (· ∈ c.raw.map fun a => (a.natAbs : Int))
      if clVars.length = 0 then some c else substClause vm clVars c c.raw) =
    if undecided vm c.raw then some { c with
      raw := openLits vm c.raw
      value := if openLits vm c.raw ≠ c.raw ∧ openLits vm c.raw = [] then some false else c.value } else none := by
  have hmem : ∀ l ∈ c.raw, ((l.natAbs : Int) ∈ vm.keys.filter (· ∈ c.raw.map fun a => (a.natAbs : Int)) ↔
      (vm.get? (l.natAbs : Int)).isSome) := by
    intro l hl
    rw [List.mem_filter, Dict.mem_keys_iff]
    constructor
    · exact fun h => h.1
    · intro h; exact ⟨h, by simp only [decide_eq_true_eq]; exact List.mem_map.2 ⟨l, hl, rfl⟩⟩
  simp only
  split
  · next h =>
    have hnil := List.length_eq_zero_iff.1 h
    have hn : ∀ l ∈ c.raw, partialVal vm l = none := by
      intro l hl
      have := hmem l hl
      rw [hnil] at this
      simp at this
      unfold partialVal
      simp only [this, Option.map_none]
    have hu : undecided vm c.raw = true := undecided_iff.2 (fun l hl => by rw [hn l hl]; simp)
    have ho : openLits vm c.raw = c.raw := by
      unfold openLits
      rw [List.filter_eq_self]
      intro l hl; simp [hn l hl]
    simp [hu, ho]
  · have := substClause_ok vm _ c.raw [] c rfl (fun l hl e => h0 (e ▸ hl)) hmem (by simp)
    simpa using this

/-- **C28** Substitution is exact: the clauses left are exactly those not made true, each without its falsified literals,
in order; a clause is flagged false exactly when it becomes empty; every assignment agreeing with the substituted
values satisfies the result iff it satisfies the original.  (`0` is not a literal; no clause is empty beforehand.) -/
theorem C28_substitution_exact (vm : Dict Int Bool) (s : SetObj H)
    (h : ∀ c ∈ s.clauses, (0 : Int) ∉ c.raw ∧ c.raw ≠ [] ∧ c.value = none) :
    raws (s.substituteVars vm).clauses = residual vm (raws s.clauses) ∧
    (∀ c ∈ (s.substituteVars vm).clauses, c.value = some false ↔ c.raw = []) ∧
    (∀ α : Assign, (∀ (v : Nat) (b : Bool), vm.get? (v : Int) = some b → α v = b) →
      (Sat α (raws (s.substituteVars vm).clauses) ↔ Sat α (raws s.clauses))) ∧
    s.substituteVars vm = { s with clauses := (s.substituteVars vm).clauses } := by
  have hres : raws (s.substituteVars vm).clauses = residual vm (raws s.clauses) := by
    unfold substituteVars
    show raws (s.clauses.filterMap _) = _
    generalize s.clauses = cls at h ⊢
    induction cls with
    | nil => rfl
    | cons c cs ih =>
      have ih := ih (fun c hc => h c (by simp [hc]))
      rw [List.filterMap_cons, substOne vm c (h c (by simp)).1]
      have e : raws (c :: cs) = c.raw :: raws cs := rfl
      rw [e, residual_cons]
      cases hu : undecided vm c.raw
      · simpa using ih
      · simp only [if_true]
        show openLits vm c.raw :: raws _ = _
        rw [ih]
  refine ⟨hres, ?_, ?_, rfl⟩
  · intro c hc
    unfold substituteVars at hc
    obtain ⟨c0, hc0, e⟩ := List.mem_filterMap.1 hc
    obtain ⟨h1, h2, h3⟩ := h c0 hc0
    rw [substOne vm c0 h1] at e
    split at e
    · simp only [Option.some.injEq] at e
      subst e
      simp only [h3]
      by_cases ho : openLits vm c0.raw = []
      · simp [ho, Ne.symm h2]
      · simp [ho]
    · simp at e
  · intro α hα
    rw [hres]
    exact (sat_residual hα _).symm

example : (({ clauses := [{ raw := [1, 2] }, { raw := [-1, 3] }, { raw := [-1] }, { raw := [2, -4] }] } : SetObj Unit).substituteVars
    [(1, true), (4, true)]).clauses = [{ raw := [3] }, { raw := [], value := some false }, { raw := [2] }] := by decide

end NDP
