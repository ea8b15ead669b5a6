import Verif.Props.Graph
import Verif.Proofs.Recursion
/-
  C83: the statistics and Python's recursion limit.
-/
namespace NDP
open Spec SetObj
variable {H : Type} [DecidableEq H]

/-! ### formulas and sets of literals -/

/-- No literal together with its negation. -/
def Consistent (A : List Int) : Prop := ∀ l ∈ A, -l ∉ A

/-- Every clause of `F` has a literal of `A`. -/
def Hits (A : List Int) (F : Cnf) : Prop := ∀ c ∈ F, ∃ l ∈ c, l ∈ A

theorem Hits.congr {A : List Int} {F G : Cnf} (h : SameClauses F G) (hA : Hits A F) : Hits A G := by
  intro c hc
  obtain ⟨c', hc', hp⟩ := SameClauses.exists_perm h.symm hc
  obtain ⟨l, hl, hlA⟩ := hA c' hc'
  exact ⟨l, hp.symm.mem_iff.1 hl, hlA⟩

theorem normal_vars {mode : Mode} {F N : Cnf} (h : NormalForm mode F N) : (varsOf N).length ≤ (varsOf F).length := by
  obtain ⟨ρ, hinj, hs⟩ := h.rename
  have hnd : ((varsOf N).map ρ).Nodup := by
    apply List.Nodup.map_on (fun u hu v hv e => hinj u hu v hv e)
    exact nodup_dedup _
  have hsub : (varsOf N).map ρ ⊆ varsOf F := by
    intro v hv
    obtain ⟨u, hu, rfl⟩ := List.mem_map.1 hv
    rw [← SameClauses.mem_vars hs, varsOf_mapCnf]
    exact ⟨u, hu, rfl⟩
  have := (List.subperm_of_subset hnd hsub).length_le
  simpa using this

theorem normal_hits {mode : Mode} {F N : Cnf} (hF : ∀ c ∈ F, (0 : Int) ∉ c) (h : NormalForm mode F N) {A : List Int}
    (hA : Consistent A) (hh : Hits A N) : ∃ B, Consistent B ∧ Hits B F ∧ B.length ≤ A.length ∧
      ∀ l ∈ B, l.natAbs ∈ varsOf F := by
  obtain ⟨ρ, hinj, hs⟩ := h.rename
  have hvar : ∀ u ∈ varsOf N, ρ u ∈ varsOf F := by
    intro u hu
    rw [← SameClauses.mem_vars hs, varsOf_mapCnf]
    exact ⟨u, hu, rfl⟩
  have hnz : ∀ u ∈ varsOf N, ρ u ≠ 0 := by
    intro u hu e
    obtain ⟨c, hc, l, hl, e'⟩ := mem_varsOf.1 (hvar u hu)
    have : l = 0 := by omega
    exact hF c hc (this ▸ hl)
  let A' := A.filter fun l => decide (l.natAbs ∈ varsOf N)
  have hmem : ∀ l, l ∈ A' ↔ l ∈ A ∧ l.natAbs ∈ varsOf N := by intro l; simp [A']
  refine ⟨A'.map (mapLit ρ), ?_, ?_, ?_, ?_⟩
  · intro l hl hn
    obtain ⟨x, hx, rfl⟩ := List.mem_map.1 hl
    obtain ⟨y, hy, e⟩ := List.mem_map.1 hn
    rw [hmem] at hx hy
    have habs : ρ y.natAbs = ρ x.natAbs := by
      have := congrArg Int.natAbs e
      rwa [natAbs_mapLit, Int.natAbs_neg, natAbs_mapLit] at this
    have he := hinj _ hy.2 _ hx.2 habs
    have hx0 := hnz _ hx.2
    have hxy : y = x ∨ y = -x := by omega
    rcases hxy with rfl | rfl
    · have : (mapLit ρ y).natAbs = ρ y.natAbs := natAbs_mapLit _ _
      omega
    · exact hA x hx.1 hy.1
  · refine Hits.congr hs ?_
    intro c hc
    obtain ⟨c0, hc0, rfl⟩ := List.mem_map.1 hc
    obtain ⟨l, hl, hlA⟩ := hh c0 hc0
    exact ⟨mapLit ρ l, List.mem_map_of_mem hl,
      List.mem_map_of_mem ((hmem l).2 ⟨hlA, mem_varsOf.2 ⟨c0, hc0, l, hl, rfl⟩⟩)⟩
  · rw [List.length_map]; exact List.length_filter_le _ _
  · intro l hl
    obtain ⟨x, hx, rfl⟩ := List.mem_map.1 hl
    rw [natAbs_mapLit]
    exact hvar _ ((hmem x).1 hx).2

/-- The literal that is true when variable `p` has the value `b`. -/
def litFor (p : Nat) (b : Bool) : Int := if b then (p : Int) else -(p : Int)

theorem branch_hits {p : Nat} {b : Bool} {G : Cnf} (hp : 1 ≤ p) (h0 : ∀ c ∈ G, (0 : Int) ∉ c) {B : List Int} (hB : Consistent B)
    (hh : Hits B (branch p b G)) (hv : ∀ l ∈ B, l.natAbs ∈ varsOf (branch p b G)) :
    Consistent (litFor p b :: B) ∧ Hits (litFor p b :: B) G := by
  have hlit : (litFor p b).natAbs = p := by unfold litFor; split <;> simp
  have hnp : ∀ l ∈ B, l.natAbs ≠ p := by
    intro l hl e
    have := (mem_vars_residual (hv l hl)).2
    rw [e] at this
    simp [Dict.get?_cons] at this
  constructor
  · intro l hl hn
    rcases List.mem_cons.1 hl with rfl | hl
    · rcases List.mem_cons.1 hn with e | hn
      · omega
      · exact hnp _ hn (by rw [Int.natAbs_neg, hlit])
    · rcases List.mem_cons.1 hn with e | hn
      · exact hnp l hl (by rw [← hlit, ← e, Int.natAbs_neg])
      · exact hB l hl hn
  · intro c hc
    by_cases ht : ∀ l ∈ c, partialVal [((p : Int), b)] l ≠ some true
    · have hm : openLits [((p : Int), b)] c ∈ branch p b G := mem_residual.2 ⟨c, hc, ht, rfl⟩
      obtain ⟨l, hl, hlB⟩ := hh _ hm
      exact ⟨l, (mem_openLits.1 hl).1, by simp [hlB]⟩
    · push Not at ht
      obtain ⟨l, hl, e⟩ := ht
      refine ⟨l, hl, ?_⟩
      rw [partialVal_single] at e
      split at e
      · next hle =>
        have hl0 : l ≠ 0 := by rintro rfl; exact h0 c hc hl
        have : l = litFor p b := by
          unfold litFor
          cases b
          · simp at e; simp; omega
          · simp at e; simp; omega
        simp [this]
      · simp at e

/-! ### the nodes met by the search -/

variable {hash : Str → H} {a : Args} {im : Mode}

theorem child_normal {R : Cnf} (hR : Proper R) {s ch c : SetObj H} {b : Bool} (hs : Tracks R s) (hch : IsChild s b ch)
    (hv : ch.value = none) (hlo : ch.toLo im a.sortBySize a.thief = pure c) :
    NormalForm im (branch (pivotOf (raws s.clauses)) b (raws s.clauses)) (raws c.clauses) := by
  have hn : [] ∉ branch (pivotOf (raws s.clauses)) b (raws s.clauses) := by
    intro hm; rw [hch.value, childVal_false.2 hm] at hv; simp at hv
  have hcl : raws ch.clauses = branch (pivotOf (raws s.clauses)) b (raws s.clauses) := by
    rw [hch.clauses]; exact nonempties_eq hn
  have hnf := toLo_normalForm im _ _ (child_fresh hch hv) (by
    rw [hcl]
    apply residual_nodup
    intro c hc
    obtain ⟨c0, hc0, rfl⟩ := List.mem_map.1 hc
    exact asc_nodup (hs.node.asc c0 hc0)) hlo
  rwa [hcl] at hnf

theorem Tracks.no_zero {R : Cnf} {s : SetObj H} (h : Tracks R s) : ∀ c ∈ raws s.clauses, (0 : Int) ∉ c := by
  intro c hc h0
  have := h.node.vars 0 (mem_varsOf.2 ⟨c, hc, 0, h0, rfl⟩)
  omega

theorem Tracks.pivot_pos {R : Cnf} {s : SetObj H} (h : Tracks R s) : 1 ≤ pivotOf (raws s.clauses) :=
  (h.node.vars _ h.pivot_mem).1

/-- An edge of the graph: a node met, the branch and the node it leads to. -/
theorem graph_edge {R : Cnf} (hR : Proper R) {s0 : SetObj H} (h0 : Tracks R s0)
    {nc : Dict H (List H)} (hg : Graph hash a im s0 nc) {h k : H} (he : k ∈ kidsAt nc h) :
    ∃ s t b, Met hash a im s0 s ∧ Met hash a im s0 t ∧ hid hash s = h ∧ hid hash t = k ∧
      NormalForm im (branch (pivotOf (raws s.clauses)) b (raws s.clauses)) (raws t.clauses) := by
  unfold kidsAt at he
  match hk : nc.get? h with
  | none => rw [hk] at he; simp at he
  | some ks =>
    rw [hk] at he
    simp only [Option.getD_some] at he
    obtain ⟨s, hs, hid', hor⟩ := hg.node h ks hk
    rcases hor with rfl | ⟨l, r, hev, rfl⟩
    · simp at he
    have ht := hs.tracks hash a im hR h0
    obtain ⟨l', r', hev', hl, hr⟩ := evaluate_ok ht.node
    cases pure_inj_some (hev.symm.trans hev')
    have main : ∀ ch b, (ch = l ∨ ch = r) → IsChild s b ch → k ∈ kidsOf hash a im ch →
        ∃ s t b, Met hash a im s0 s ∧ Met hash a im s0 t ∧ hid hash s = h ∧ hid hash t = k ∧
          NormalForm im (branch (pivotOf (raws s.clauses)) b (raws s.clauses)) (raws t.clauses) := by
      intro ch b hor hch hm
      match hv : ch.value with
      | some v => unfold kidsOf at hm; rw [hv] at hm; simp at hm
      | none =>
        obtain ⟨c, hlo, htr, hsz, _⟩ := toLo_tracks hR im a.sortBySize a.thief (hch.pre ht hv)
        have hkc : k = hid hash c := by
          unfold kidsOf at hm; rw [hv, hlo] at hm
          simpa [pure, ExceptT.pure, ExceptT.mk] using hm
        refine ⟨s, _, b, hs, Met.child hs hev hor hv hlo, hid', ?_, ?_⟩
        · rw [hkc]
          exact hid_store hash (toLo_childItem_tracks hash a im hR ht hch hv hlo).node _
        · rw [raws_store]
          show NormalForm im _ (raws c.clauses)
          exact child_normal (a := a) hR ht hch hv hlo
    rcases List.mem_append.1 he with hm | hm
    · exact main l true (Or.inl rfl) hl hm
    · exact main r false (Or.inr rfl) hr hm

theorem branch_vars_lt {p : Nat} {b : Bool} {F : Cnf} (hp : p ∈ varsOf F) :
    (varsOf (branch p b F)).length < (varsOf F).length := by
  have hnd : (p :: varsOf (branch p b F)).Nodup := by
    rw [List.nodup_cons]
    refine ⟨fun hm => ?_, nodup_dedup _⟩
    have := (mem_vars_residual hm).2
    simp [Dict.get?_cons] at this
  have hsub : p :: varsOf (branch p b F) ⊆ varsOf F := by
    intro v hv
    rcases List.mem_cons.1 hv with rfl | hv
    · exact hp
    · exact (mem_vars_residual hv).1
  have := (List.subperm_of_subset hnd hsub).length_le
  rwa [List.length_cons] at this

/-- Number of variables of the formula with digest `h`. -/
theorem graph_vars {R : Cnf} (hR : Proper R) {s0 : SetObj H} (h0 : Tracks R s0) (hcoll : NoColl hash a im s0)
    {nc : Dict H (List H)} (hg : Graph hash a im s0 nc) :
    ∃ rank : H → Nat, (∀ n ∈ nc.keys, 0 < rank n ∧ rank n ≤ (varsOf (raws s0.clauses)).length) ∧
      ∀ h ks k, nc.get? h = some ks → k ∈ ks → rank k < rank h := by
  classical
  let rank : H → Nat := fun h => if hx : ∃ s, Met hash a im s0 s ∧ hid hash s = h then (varsOf (raws hx.choose.clauses)).length else 0
  have hrank : ∀ s, Met hash a im s0 s → rank (hid hash s) = (varsOf (raws s.clauses)).length := by
    intro s hs
    have hx : ∃ t, Met hash a im s0 t ∧ hid hash t = hid hash s := ⟨s, hs, rfl⟩
    simp only [rank, dif_pos hx]
    rw [hcoll _ _ hx.choose_spec.1 hs hx.choose_spec.2]
  have hmax : ∀ s, Met hash a im s0 s → (varsOf (raws s.clauses)).length ≤ (varsOf (raws s0.clauses)).length := by
    intro s hs
    induction hs with
    | root => rw [raws_store]
    | @child s l r ch c hs hev hor hv hlo ih =>
      have ht := hs.tracks hash a im hR h0
      obtain ⟨l', r', hev', hl, hr⟩ := evaluate_ok ht.node
      cases pure_inj_some (hev.symm.trans hev')
      rw [raws_store]
      show (varsOf (raws c.clauses)).length ≤ _
      rcases hor with rfl | rfl
      · have h1 := normal_vars (child_normal hR ht hl hv hlo)
        have h2 := branch_vars_lt (b := true) ht.pivot_mem
        omega
      · have h1 := normal_vars (child_normal hR ht hr hv hlo)
        have h2 := branch_vars_lt (b := false) ht.pivot_mem
        omega
  refine ⟨rank, ?_, ?_⟩
  · intro n hn
    obtain ⟨ks, hks⟩ := Dict.exists_get?_of_mem hn
    obtain ⟨s, hs, rfl, _⟩ := hg.node n ks hks
    rw [hrank s hs]
    exact ⟨List.length_pos_of_mem (hs.tracks hash a im hR h0).pivot_mem, hmax s hs⟩
  · intro h ks k hk hkk
    obtain ⟨s, t, b, hs, ht, rfl, rfl, hn⟩ := graph_edge hR h0 hg (h := h) (k := k) (by simp [kidsAt, hk, hkk])
    rw [hrank s hs, hrank t ht]
    have h1 := normal_vars hn
    have h2 := branch_vars_lt (b := b) (hs.tracks hash a im hR h0).pivot_mem
    omega

/-- Each edge saves at most one literal of a set of literals that meets all clauses. -/
theorem steps_hits {R : Cnf} (hR : Proper R) {s0 : SetObj H} (h0 : Tracks R s0) (hcoll : NoColl hash a im s0)
    {nc : Dict H (List H)} (hg : Graph hash a im s0 nc) {K : Nat}
    (hK : ∀ A, Consistent A → Hits A (raws s0.clauses) → K ≤ A.length) {j : Nat} {h : H}
    (hs : Steps nc (hid hash s0) j h) : ∀ t, Met hash a im s0 t → hid hash t = h → ∀ A, Consistent A →
      Hits A (raws t.clauses) → K ≤ A.length + j := by
  induction hs with
  | refl =>
    intro t ht e A hA hh
    have hroot : Met hash a im s0 (store a.useRuntimeDb s0) := Met.root
    have := hcoll t _ ht hroot (by rw [e, hid_store hash h0.node])
    rw [this, raws_store] at hh
    exact hK A hA hh
  | @tail n y z hy e ih =>
    intro t ht et A hA hh
    obtain ⟨s, t', b, hs, ht', es, et', hn⟩ := graph_edge hR h0 hg e
    have heq := hcoll t t' ht ht' (et.trans et'.symm)
    rw [heq] at hh
    have hst := hs.tracks hash a im hR h0
    have hz : ∀ c ∈ branch (pivotOf (raws s.clauses)) b (raws s.clauses), (0 : Int) ∉ c := by
      intro c hc h00
      obtain ⟨c0, hc0, _, rfl⟩ := mem_residual.1 hc
      exact hst.no_zero c0 hc0 (mem_openLits.1 h00).1
    obtain ⟨B, hB, hBh, hlen, hBv⟩ := normal_hits hz hn hA hh
    obtain ⟨h1, h2⟩ := branch_hits hst.pivot_pos hst.no_zero hB hBh hBv
    have := ih s hs es _ h1 h2
    simp only [List.length_cons] at this
    omega

/-- A satisfiable node that is recorded leads to a recorded node with a T child. -/
theorem reach_true {R : Cnf} (hR : Proper R) {s0 : SetObj H} (h0 : Tracks R s0) (hcoll : NoColl hash a im s0)
    {nc : Dict H (List H)} (hg : Graph hash a im s0 nc) (hfull : ∀ k ∈ nc.keys, Expanded hash a im s0 nc k) :
    ∀ (n : Nat) (s : SetObj H), size (raws s.clauses) ≤ n → Met hash a im s0 s → hid hash s ∈ nc.keys →
      Satisfiable (raws s.clauses) → ∃ t, Met hash a im s0 t ∧ TrueChild t ∧
        Relation.ReflTransGen (fun x y => y ∈ kidsAt nc x) (hid hash s) (hid hash t) := by
  intro n
  induction n with
  | zero =>
    intro s hn hm _ _
    have ht := hm.tracks hash a im hR h0
    have := size_branch_lt (b := true) ht.pivot_mem
    omega
  | succ n ih =>
    intro s hn hm hk hsat
    obtain ⟨ks, t, hks, htm, hte, l, r, hev, hkk⟩ := hfull _ hk
    have hraw := hcoll t s htm hm hte
    rw [← hraw] at hsat hn
    have ht := htm.tracks hash a im hR h0
    obtain ⟨l', r', hev', hl, hr⟩ := evaluate_ok ht.node
    cases pure_inj_some (hev.symm.trans hev')
    rcases sat_child hash a im hR ht hl hr hsat with h1 | h1 | ⟨ch, c, hor, hv, hlo, hkid, hsz, hcs⟩
    · exact ⟨t, htm, ⟨l, r, hev, Or.inl h1⟩, hte ▸ Relation.ReflTransGen.refl⟩
    · exact ⟨t, htm, ⟨l, r, hev, Or.inr h1⟩, hte ▸ Relation.ReflTransGen.refl⟩
    · have hnode : Node (childItem hash c) := by
        rcases hor with rfl | rfl
        · exact (toLo_childItem_tracks hash a im hR ht hl hv hlo).node
        · exact (toLo_childItem_tracks hash a im hR ht hr hv hlo).node
      have hidc : hid hash (store a.useRuntimeDb (childItem hash c)) = hid hash c := hid_store hash hnode _
      have hmem : hid hash c ∈ ks := by
        rw [hkk, List.mem_append]
        rcases hor with rfl | rfl
        · exact Or.inl hkid
        · exact Or.inr hkid
      have hrawc : raws (store a.useRuntimeDb (childItem hash c)).clauses = raws c.clauses := raws_store _ _
      obtain ⟨u, hu, hut, hur⟩ := ih _ (by rw [hrawc]; omega) (Met.child htm hev hor hv hlo)
        (by rw [hidc]; exact hg.closed _ ks _ hks hmem) (by rw [hrawc]; exact hcs)
      refine ⟨u, hu, hut, Relation.ReflTransGen.head ?_ hur⟩
      rw [hidc, kidsAt, hks]
      exact hmem

theorem trueChild_hits {R : Cnf} {t : SetObj H} (h : Tracks R t) (htc : TrueChild t) :
    ∃ l, Consistent [l] ∧ Hits [l] (raws t.clauses) := by
  obtain ⟨l, r, hev, hor⟩ := htc
  obtain ⟨l', r', hev', hl, hr⟩ := evaluate_ok h.node
  cases pure_inj_some (hev.symm.trans hev')
  have main : ∀ ch b, IsChild t b ch → ch.value = some true → ∃ l, Consistent [l] ∧ Hits [l] (raws t.clauses) := by
    intro ch b hch hv
    rw [hch.value, childVal_true] at hv
    have h1 := branch_hits (b := b) (B := []) h.pivot_pos h.no_zero (by intro l hl; simp at hl)
      (by rw [hv]; intro c hc; simp at hc) (by intro l hl; simp at hl)
    exact ⟨_, h1⟩
  rcases hor with h1 | h1
  · exact main l true hl h1
  · exact main r false hr h1

/-- The literals of a consistent list as a partial assignment. -/
theorem consistent_assign {A : List Int} (hA : Consistent A) (h0 : (0 : Int) ∉ A) :
    ∃ e : Dict Int Bool, e.keys.Nodup ∧ e.length ≤ A.length ∧ ∀ l ∈ A, partialVal e l = some true := by
  induction A with
  | nil => exact ⟨[], by simp, by simp, by simp⟩
  | cons x A ih =>
    obtain ⟨e, h1, h2, h3⟩ := ih (fun l hl hn => hA l (by simp [hl]) (by simp [hn])) (fun h => h0 (by simp [h]))
    have hx0 : x ≠ 0 := by rintro rfl; exact h0 (by simp)
    refine ⟨e.set (x.natAbs : Int) (decide (0 < x)), Dict.nodup_keys_set _ _ _ h1, ?_, ?_⟩
    · have : (e.set (x.natAbs : Int) (decide (0 < x))).length ≤ e.length + 1 := by
        rw [← Dict.length_keys, ← Dict.length_keys]
        by_cases hk : (x.natAbs : Int) ∈ e.keys
        · rw [Dict.keys_set_of_mem _ _ _ hk]; omega
        · rw [Dict.keys_set_of_not_mem _ _ _ hk]; simp
      simp only [List.length_cons]; omega
    · intro l hl
      rw [partialVal_set]
      by_cases e1 : l.natAbs = x.natAbs
      · rw [if_pos e1]
        have : l = x ∨ l = -x := by omega
        rcases this with rfl | rfl
        · by_cases hneg : l < 0
          · have : ¬ 0 < l := by omega
            simp [hneg, this]
          · have : 0 < l := by omega
            simp [hneg, this]
        · rcases List.mem_cons.1 hl with e2 | hl
          · omega
          · exact absurd (List.mem_cons_of_mem _ hl) (hA x (by simp))
      · rw [if_neg e1]
        rcases List.mem_cons.1 hl with rfl | hl
        · exact absurd rfl e1
        · exact h3 l hl

/-! ### C83 -/

/-- What `solve_set` does after the search, `d` frames left. -/
def finishL (d : Nat) (a : Args) (h : H) (ps : PS H) : M (Report H) := do
  if a.noStats then
    pure { isSat := ps.isSat, solution := ps.solution, nodesChildren := ps.nodesChildren,
           uniques := ps.uniques, redundants := 0, redundantHits := ps.redundantHits,
           foundInGdb := ps.foundInGdb, gdb := ps.gdb, stats := [] }
  else do
    let (stats, _) ← constructGraphStatsL d h ps.nodesChildren
    let rs := (stats.get? h).getD { unique := 0, redundants := 0, hits := 0 }
    pure { isSat := ps.isSat, solution := ps.solution, nodesChildren := ps.nodesChildren,
           uniques := rs.unique, redundants := rs.redundants, redundantHits := rs.hits,
           foundInGdb := ps.foundInGdb, gdb := ps.gdb, stats := stats }

theorem solveSetL_eq (d : Nat) (hg : a.useGlobalDb = false) (hm : a.gdbNoMem = false) {env : EnvChoice}
    (hf : a.useRuntimeDb = true → env.mainFails = false)
    (g : Gdb H) {R : Cnf} {root : SetObj H} (h : Loaded R root) {s : SetObj H}
    (hs : prepareRoot hash a root = pure (s, hid hash s)) :
    solveSetL hash d a env g root =
      runMain hash a (inputMode a) [] g (maxThreads env.cpu a) env.fails env.sched s >>= finishL d a (hid hash s) := by
  have ht : root.toStr = pure (bodyStr root.clauses) := toStr_ok h.value h.ne
  have hmf : ((a.useRuntimeDb || false) && env.mainFails) = false := by
    cases hd : a.useRuntimeDb
    · simp
    · simp [hf hd]
  unfold solveSetL
  simp only [ht, hs, M.pure_bind, hg, hm, Bool.false_and, Bool.false_eq_true, if_false, List.not_mem_nil,
    decide_false, Bool.not_false, if_true, hmf]
  rfl

/-- **C83, every run.** Whatever the options, the schedule, the tables and the depth of the call stack: a run ends as it
would with an unbounded stack, or with `RecursionError`. -/
theorem C83_limited_or_overflow (hash : Str → H) (d : Nat) (a : Args) (env : EnvChoice) (g : Gdb H) (root : SetObj H) :
    solveSetL hash d a env g root = solveSet hash a env g root ∨
      solveSetL hash d a env g root = raise .recursionError := by
  show Over _ _
  unfold solveSetL solveSet
  refine Over.bind (Over.refl _) fun _ => Over.bind (Over.refl _) fun p => ?_
  obtain ⟨r, h⟩ := p
  dsimp only
  refine Over.ite ?_ (Over.refl _)
  refine Over.ite (Over.bind (Over.refl _) fun ps => ?_) (Over.bind (Over.refl _) fun ps => ?_)
  · exact Over.ite (Over.refl _) (Over.bind (constructGraphStatsL_over d h ps.nodesChildren) fun _ => Over.refl _)
  · exact Over.ite (Over.refl _) (Over.bind (constructGraphStatsL_over d h ps.nodesChildren) fun _ => Over.refl _)

/-- **C83, without statistics.** With `-ns` the depth of the call stack does not matter. -/
theorem C83_no_stats (hash : Str → H) (d : Nat) {a : Args} (hns : a.noStats = true) (env : EnvChoice) (g : Gdb H)
    (root : SetObj H) : solveSetL hash d a env g root = solveSet hash a env g root := by
  unfold solveSetL solveSet
  simp only [hns, if_true]
  rfl

/-- **C83, enough frames.** For every formula with at most `d` variables, `d` frames suffice: the run (any options
without the global table, any schedule) ends exactly as it would with an unbounded stack. -/
theorem C83_enough_frames (ha : Local a) {env : EnvChoice}
    (hf : a.useRuntimeDb = true → env.mainFails = false) {g : Gdb H} {F : Cnf} (hF : Proper F) (hne : F ≠ [])
    {root : SetObj H} (h : Input F root) (hcoll : NoCollisions hash a root) {d : Nat} (hd : (varsOf F).length ≤ d) :
    solveSetL hash d a env g root = solveSet hash a env g root := by
  have hl := h.loaded hF hne
  obtain ⟨s, hs, hr, _, _, hsame⟩ := prepareRoot_ok hash a hF hl
  rw [solveSet_eq hash a ha.gdb ha.nomem hf g hl hs, solveSetL_eq d ha.gdb ha.nomem hf g hl hs]
  rcases M.cases (runMain hash a (inputMode a) [] g (maxThreads env.cpu a) env.fails env.sched s) with e | ⟨x, e⟩ | ⟨ps, e⟩
  · rw [e]; rfl
  · rw [e]; rfl
  · have hres := runMain_sound hash a (inputMode a) ha.gdb [] g (maxThreads env.cpu a) hF hr e
    rw [e, M.pure_bind, M.pure_bind]
    unfold finishL finish
    split
    · rfl
    · obtain ⟨rank, h1, h2⟩ := graph_vars hF hr.tracks (hcoll s _ hs) hres.graph
      rw [constructGraphStatsL_eq hres.graph.closed (fun n hn => (h1 n hn).1) h2 (fun n hn => ?_)]
      have hv : (varsOf (raws s.clauses)).length ≤ (varsOf F).length := by
        have hrun : ∃ rep, solveSet hash a env g root = pure rep := by
          obtain ⟨rep, hrep, _⟩ := finish_ok hash a hres
          exact ⟨rep, by rw [solveSet_eq hash a ha.gdb ha.nomem hf g hl hs, e]; exact hrep⟩
        obtain ⟨rep, hrun⟩ := hrun
        obtain ⟨s', ps', hs', _, _, _, hnf, _, _⟩ := solveSet_graph (ha := ha) hf hF hne h hrun
        have e' := (M.pure_inj _ _).1 (hs.symm.trans hs')
        simp only [Prod.mk.injEq] at e'
        rw [← e'.1] at hnf
        obtain ⟨ρ, k1, k2⟩ := hnf.rename
        exact normal_vars (mode := a.mode) ⟨⟨ρ, k1, k2.trans h.same⟩, hnf.vars, hnf.asc, hnf.lead⟩
      have := (h1 n hn).2
      omega

/-- **C83, refuted beyond the limit.** If every partial assignment that makes the satisfiable formula `F` true assigns more
than `d` variables, then a run with statistics and without `-e` on a stack with `d` frames left ends with
`RecursionError`: the search finds `F` satisfiable (`rep`, the report with an unbounded stack), but nothing is
reported. -/
theorem C83_deep_run_raises (ha : Local a) (hst : a.noStats = false) (hex : a.exitUponSolving = false) {env : EnvChoice}
    (hf : a.useRuntimeDb = true → env.mainFails = false) {g : Gdb H} {F : Cnf} (hF : Proper F) (hne : F ≠ [])
    {root : SetObj H} (h : Input F root) (hcoll : NoCollisions hash a root) (hsat : Satisfiable F) {d : Nat}
    (hdeep : ∀ e : Dict Int Bool, e.keys.Nodup → MakesTrue e F → d < e.length)
    {rep : Report H} (hrun : solveSet hash a env g root = pure rep) :
    rep.isSat = true ∧ solveSetL hash d a env g root = raise .recursionError := by
  have hsatrep : rep.isSat = true := by
    match hb : rep.isSat with
    | true => rfl
    | false => exact absurd hsat (C02_unsat_sound hash ha hf hF hne h hcoll hrun hb)
  refine ⟨hsatrep, ?_⟩
  obtain ⟨s', ps', hs', _, _, _, hnf, _, _⟩ := solveSet_graph (ha := ha) hf hF hne h hrun
  have hl := h.loaded hF hne
  obtain ⟨s, hs, hr, hsatiff, _, hsame⟩ := prepareRoot_ok hash a hF hl
  have e' := (M.pure_inj _ _).1 (hs.symm.trans hs')
  simp only [Prod.mk.injEq] at e'
  rw [← e'.1] at hnf
  have hnfF : NormalForm a.mode F (raws s.clauses) := by
    obtain ⟨ρ, k1, k2⟩ := hnf.rename
    exact ⟨⟨ρ, k1, k2.trans h.same⟩, hnf.vars, hnf.asc, hnf.lead⟩
  have hF0 : ∀ c ∈ F, (0 : Int) ∉ c := fun c hc => (hF c hc).2.2
  -- sets of literals that meet all clauses of the root
  have hK : ∀ A, Consistent A → Hits A (raws s.clauses) → d + 1 ≤ A.length := by
    intro A hA hh
    obtain ⟨B, hB, hBh, hlen, hBv⟩ := normal_hits hF0 hnfF hA hh
    have hB0 : (0 : Int) ∉ B := by
      intro h0
      obtain ⟨c, hc, l, hl, e⟩ := mem_varsOf.1 (hBv 0 h0)
      have : l = 0 := by simpa using e
      exact hF0 c hc (this ▸ hl)
    obtain ⟨e, h1, h2, h3⟩ := consistent_assign hB hB0
    have := hdeep e h1 (by
      intro c hc
      obtain ⟨l, hl, hlB⟩ := hBh c hc
      exact ⟨l, hl, h3 l hlB⟩)
    omega
  rw [solveSet_eq hash a ha.gdb ha.nomem hf g hl hs, M.bind_eq_pure] at hrun
  obtain ⟨ps, hps, _⟩ := hrun
  have hres := runMain_sound hash a (inputMode a) ha.gdb [] g (maxThreads env.cpu a) hF hr hps
  have hco := hcoll s _ hs
  rw [solveSetL_eq d ha.gdb ha.nomem hf g hl hs, hps, M.pure_bind]
  have hsatS : Satisfiable (raws s.clauses) := by
    rw [hsatiff]
    exact (SameClauses.satisfiable h.same).2 hsat
  have hmet : Met hash a (inputMode a) s (store a.useRuntimeDb s) := Met.root
  have hids : hid hash (store a.useRuntimeDb s) = hid hash s := hid_store hash hr.tracks.node _
  obtain ⟨t, ht, htc, hreach⟩ := reach_true hF hr.tracks hco hres.graph (hres.full (by simp [hex])) _ _ (Nat.le_refl _) hmet
    (by rw [hids]; exact hres.graph.rootMem) (by rw [raws_store]; exact hsatS)
  rw [hids] at hreach
  obtain ⟨l, hl1, hl2⟩ := trueChild_hits (ht.tracks hash a _ hF hr.tracks) htc
  have hover : constructGraphStatsL d (hid hash s) ps.nodesChildren = raise .recursionError := by
    apply constructGraphStatsL_raises hres.graph.closed hres.graph.nd _ hres.graph.rootMem hreach
    intro j hj
    have := steps_hits hF hr.tracks hco hres.graph hK hj t ht rfl [l] hl1 hl2
    simp only [List.length_singleton] at this
    omega
  unfold finishL
  rw [if_neg (by simp [hst]), hover]
  rfl

/-! ### a formula for every limit -/

/-- `n` unit clauses `[1], ..., [n]`. -/
def unitClauses (n : Nat) : Cnf := (List.range' 1 n).map fun i : Nat => [(i : Int)]

theorem mem_unitClauses {n : Nat} {c : List Int} : c ∈ unitClauses n ↔ ∃ i : Nat, 1 ≤ i ∧ i ≤ n ∧ c = [(i : Int)] := by
  unfold unitClauses
  rw [List.mem_map]
  constructor
  · rintro ⟨i, hi, rfl⟩
    rw [List.mem_range'_1] at hi
    exact ⟨i, by omega, by omega, rfl⟩
  · rintro ⟨i, h1, h2, rfl⟩
    exact ⟨i, List.mem_range'_1.2 (by omega), rfl⟩

theorem unitClauses_proper (n : Nat) : Proper (unitClauses n) := by
  intro c hc
  obtain ⟨i, h1, _, rfl⟩ := mem_unitClauses.1 hc
  refine ⟨by simp, by simp, ?_⟩
  simp
  omega

theorem unitClauses_sat (n : Nat) : Satisfiable (unitClauses n) := by
  refine ⟨fun _ => true, ?_⟩
  intro c hc
  obtain ⟨i, h1, _, rfl⟩ := mem_unitClauses.1 hc
  exact ⟨(i : Int), by simp, by simp [litVal]⟩

theorem unitClauses_deep {n : Nat} {e : Dict Int Bool} (h : MakesTrue e (unitClauses n)) : n ≤ e.length := by
  have hsub : (List.range' 1 n).map (fun i : Nat => (i : Int)) ⊆ e.keys := by
    intro k hk
    obtain ⟨i, hi, rfl⟩ := List.mem_map.1 hk
    rw [List.mem_range'_1] at hi
    obtain ⟨l, hl, hv⟩ := h [(i : Int)] (mem_unitClauses.2 ⟨i, by omega, by omega, rfl⟩)
    rw [List.mem_singleton] at hl
    subst hl
    unfold partialVal at hv
    simp only [Int.natAbs_natCast] at hv
    rw [Dict.mem_keys_iff]
    match hg : e.get? (i : Int) with
    | none => rw [hg] at hv; simp at hv
    | some _ => simp
  have hnd : ((List.range' 1 n).map fun i : Nat => (i : Int)).Nodup := by
    apply List.Nodup.map
    · intro x y e; exact Int.ofNat.inj e
    · exact List.nodup_range'
  have := (List.subperm_of_subset hnd hsub).length_le
  rw [Dict.length_keys] at this
  simpa using this

theorem unitClauses_vars (n : Nat) : (varsOf (unitClauses n)).length = n := by
  unfold varsOf unitClauses
  have : ((List.range' 1 n).map fun i : Nat => [(i : Int)]).flatMap (fun c => c.map Int.natAbs) = List.range' 1 n := by
    rw [List.flatMap_map]
    simp
  rw [this, dedup_of_nodup _ List.nodup_range', List.length_range']

/-- **C83, no limit is enough for all inputs, and the bound of `C83_enough_frames` is exact.** On the `d + 1` unit clauses
`[1], ..., [d + 1]`, every run of the default kind (any mode, sort option and number of processes, statistics on, no `-e`,
an injective digest) overflows a stack with `d` frames left, and needs no more than `d + 1`. -/
theorem C83_limit_exact (hinj : Function.Injective hash) (ha : Local a) (hst : a.noStats = false)
    (hex : a.exitUponSolving = false) {env : EnvChoice} (hf : Fair a env) (g : Gdb H) (d : Nat) :
    solveSetL hash d a env g (mkSet (unitClauses (d + 1))) = raise .recursionError ∧
    ∃ rep, solveSetL hash (d + 1) a env g (mkSet (unitClauses (d + 1))) = pure rep ∧ rep.isSat = true := by
  have hne : unitClauses (d + 1) ≠ [] := by simp [unitClauses, List.range'_succ]
  have hF := unitClauses_proper (d + 1)
  have hI := input_mkSet (H := H) hF hne
  have hc := noCollisions_of_injective (hash := hash) hinj a hI hF hne
  obtain ⟨rep, hrun⟩ := C03_terminates hash ha hf g hF hne hI
  obtain ⟨h1, h2⟩ := C83_deep_run_raises ha hst hex hf.main hF hne hI hc (unitClauses_sat _) (d := d)
    (fun e _ he => Nat.lt_of_succ_le (unitClauses_deep he)) hrun
  refine ⟨h2, rep, ?_, h1⟩
  rw [C83_enough_frames ha hf.main hF hne hI hc (by rw [unitClauses_vars])]
  exact hrun

/-- The hypotheses are met: default options, one process, the text itself as digest. -/
example : ∃ env : EnvChoice, solveSetL (fun s : Str => s) 1996 {} env [] (mkSet (unitClauses 1997)) = raise .recursionError := by
  obtain ⟨env, hf⟩ := fair_exists {}
  exact ⟨env, (C83_limit_exact (hash := fun s : Str => s) (fun _ _ h => h) ⟨rfl, rfl⟩ rfl rfl hf [] 1996).1⟩

end NDP
