import Verif.Proofs.ToLo
import Verif.Proofs.Residual
/-
  C09-C11: `to_lo_condition` (model: `SetObj.toLo mode sortBySize thief`).
-/
namespace NDP
open Spec SetObj
variable {H : Type}

/-- A set fresh from a reader or from branching: some clauses, none empty, no renaming recorded yet. -/
structure Fresh (s : SetObj H) : Prop where
  ne : s.clauses ≠ []
  cne : ∀ c ∈ s.clauses, c.raw ≠ []
  fnm : s.finalNamesMap = []

/-! ### C09 -/

/-- In lou and normal mode the loop of `to_lo_condition` ends at its first test: what is returned is exactly one
renaming of the (possibly size-sorted) clause list. -/
theorem toLo_once (mode : Mode) (hm : mode = .lou ∨ mode = .normal) (z th : Bool) {s : SetObj H} (h : Fresh s) :
    ∃ cls, cls.Perm s.clauses ∧ (z = false → th = false → cls = s.clauses) ∧
      s.toLo mode z th = ({ s with clauses := cls } : SetObj H).renameVars := by
  have hpre : ∃ cls, (let s1 := if th then s.sortByLenIdx else s
      if mode = .flop ∨ z = true then s1.sortByLength else s1) = { s with clauses := cls } ∧ cls.Perm s.clauses ∧
      (z = false → th = false → cls = s.clauses) := by
    have h1 : ∃ cls, (if th then s.sortByLenIdx else s) = { s with clauses := cls } ∧ cls.Perm s.clauses ∧
        (th = false → cls = s.clauses) := by
      split
      · exact ⟨_, rfl, isort_perm _ _, fun h => by simp_all⟩
      · exact ⟨s.clauses, rfl, List.Perm.refl _, fun _ => rfl⟩
    obtain ⟨cls, e1, p1, q1⟩ := h1
    simp only [e1]
    split
    · rename_i hz
      have hz : z = true := by rcases hm with rfl | rfl <;> simpa using hz
      unfold SetObj.sortByLength
      split
      · exact ⟨_, rfl, (isort_perm _ _).trans p1, fun h => by simp_all⟩
      · exact ⟨cls, rfl, p1, fun _ h => q1 h⟩
    · exact ⟨cls, rfl, p1, fun _ h => q1 h⟩
  obtain ⟨cls, e1, p1, q1⟩ := hpre
  refine ⟨cls, p1, q1, ?_⟩
  have hdef : s.toLo mode z th = (do
      let s' ← ({ s with clauses := cls } : SetObj H).renameVars
      pyWhile (SetObj.loStep mode) s') := by
    unfold SetObj.toLo
    simp only at e1
    simp only [e1]
  obtain ⟨s1, hs1, hN, hcv⟩ := renameVars_fresh s { s with clauses := cls } (raws s.clauses) rfl h.fnm
    (by intro e; exact h.ne (by have e : cls = [] := e
                                rw [e] at p1; exact List.nil_perm.1 p1))
    (fun c hc' => h.cne c (p1.mem_iff.1 hc')) (unordered_perm (p1.map _))
  rw [hdef, hs1, M.pure_bind]
  generalize (cvars ({ s with clauses := cls } : SetObj H).clauses).length = n at hN hcv
  obtain ⟨b, hb1, hb2⟩ := isInLo_ok mode s1 hN.ne hN.cne
  have hb : b = true := by
    apply hb2.2
    intro hnm
    refine ⟨by rw [hcv]; exact ascN_range' _ _, ?_, fun h2 => ?_⟩
    · rw [hcv]; intro v hv
      cases n with
      | zero => simp at hv
      | succ k => rw [List.range'_succ] at hv; simp at hv; omega
    · rcases hm with rfl | rfl
      · exact absurd rfl h2
      · exact absurd rfl hnm
  subst hb
  rw [pyWhile, SetObj.loStep, hb1]
  rfl

/-- **C09** Normalisation terminates on every set with non-empty clauses, in every mode and with every sorting
option, without an exception; in lou and normal mode it is exactly one renaming. -/
theorem C09_normalisation_terminates (mode : Mode) (z th : Bool) {s : SetObj H} (h : Fresh s) :
    (∃ s', s.toLo mode z th = pure s') ∧
    (mode = .lou ∨ mode = .normal → ∃ cls, cls.Perm s.clauses ∧ (z = false → th = false → cls = s.clauses) ∧
      s.toLo mode z th = ({ s with clauses := cls } : SetObj H).renameVars) := by
  obtain ⟨s', _, _, h1, _⟩ := toLo_ok mode z th s h.fnm h.ne h.cne
  exact ⟨⟨s', h1⟩, fun hm => toLo_once mode hm z th h⟩

/-! ### C10 -/

theorem LeadSorted.pairwise : ∀ {F : Cnf}, (∀ c ∈ F, c ≠ []) → LeadSorted F →
    F.Pairwise fun c d => ∀ a ∈ c.head?, ∀ b ∈ d.head?, a.natAbs ≤ b.natAbs
  | [], _, _ => List.Pairwise.nil
  | [c], _, _ => List.pairwise_singleton _ _
  | c :: d :: F, hne, h => by
    have ih := LeadSorted.pairwise (F := d :: F) (fun c hc => hne c (by simp [hc])) h.2
    refine List.pairwise_cons.2 ⟨?_, ih⟩
    intro e he a ha b hb
    rcases List.mem_cons.1 he with rfl | he'
    · exact h.1 a ha b hb
    · have hd := hne d (by simp)
      cases d with
      | nil => exact absurd rfl hd
      | cons x xs =>
        exact le_trans (h.1 a ha x (by simp)) ((List.pairwise_cons.1 ih).1 e he' x (by simp) b hb)

/-- **C10** After normalisation: the variables, in order of first occurrence, are exactly `1, 2, …, n`; the literals of
every clause are in ascending variable order (strictly, when the clause mentions no variable twice); and in flo, flop
and lo mode the clauses are ordered by leading variable. -/
theorem C10_normalised_order (mode : Mode) (z th : Bool) {s s' : SetObj H} (h : Fresh s)
    (hrun : s.toLo mode z th = pure s') :
    (∃ n, varsOf (raws s'.clauses) = List.range' 1 n) ∧
    (∀ c ∈ raws s'.clauses, c.Pairwise fun a b => a.natAbs ≤ b.natAbs) ∧
    ((∀ c ∈ raws s.clauses, (c.map Int.natAbs).Nodup) →
      ∀ c ∈ raws s'.clauses, c.Pairwise fun a b => a.natAbs < b.natAbs) ∧
    (mode = .flo ∨ mode = .flop ∨ mode = .lo →
      (raws s'.clauses).Pairwise fun c d => ∀ a ∈ c.head?, ∀ b ∈ d.head?, a.natAbs ≤ b.natAbs) := by
  obtain ⟨t, n, L, h1, hN, h3, h4⟩ := toLo_ok mode z th s h.fnm h.ne h.cne
  have e := (M.pure_inj _ _).1 (hrun.symm.trans h1)
  subst e
  have hle : ∀ c ∈ raws s'.clauses, c.Pairwise fun a b => a.natAbs ≤ b.natAbs := by
    intro c hc
    obtain ⟨c0, hc0, rfl⟩ := List.mem_map.1 hc
    rw [← hN.sorted c0 hc0]
    exact sortAbs_sorted _
  refine ⟨⟨n, by rw [← cvars_eq]; exact h3⟩, hle, ?_, ?_⟩
  · intro hnd c hc
    have hm : c.map (mapLit (bk s'.finalNamesMap)) ∈ mapCnf (bk s'.finalNamesMap) (raws s'.clauses) :=
      List.mem_map.2 ⟨c, hc, rfl⟩
    obtain ⟨c', hc', hp⟩ := SameClauses.exists_perm hN.same hm
    have h2 : ((c.map (mapLit (bk s'.finalNamesMap))).map Int.natAbs).Nodup :=
      ((hp.map Int.natAbs).nodup_iff).2 (hnd c' hc')
    rw [List.map_map] at h2
    have e : (Int.natAbs ∘ mapLit (bk s'.finalNamesMap)) = bk s'.finalNamesMap ∘ Int.natAbs := by
      funext l; exact natAbs_mapLit _ l
    rw [e, ← List.map_map] at h2
    have h3 : (c.map Int.natAbs).Nodup := List.Nodup.of_map _ h2
    have h5 := hle c hc
    have h6 : c.Pairwise fun a b => a.natAbs ≠ b.natAbs := by
      rw [List.Nodup, List.pairwise_map] at h3; exact h3
    exact h5.imp₂ (fun a b h1 h2 => lt_of_le_of_ne h1 h2) h6
  · intro hm
    apply LeadSorted.pairwise
    · intro c hc
      obtain ⟨c0, hc0, rfl⟩ := List.mem_map.1 hc
      exact hN.cne c0 hc0
    · apply h4 <;> rcases hm with rfl | rfl | rfl <;> simp

/-! ### C11 -/

/-- **C11** Normalisation only renames and reorders: through the recorded name map (new name `v` stands for the old
name at position `v-1`) the clauses of the result are those of the original, up to order of clauses and literals; the
map is injective; partial assignment, original names, value and identity are untouched. -/
theorem C11_normalisation_renames (mode : Mode) (z th : Bool) {s s' : SetObj H} (h : Fresh s)
    (hrun : s.toLo mode z th = pure s') :
    (∀ v ∈ varsOf (raws s'.clauses), 1 ≤ v ∧ v ≤ s'.finalNamesMap.length) ∧
    s'.finalNamesMap.Nodup ∧
    SameClauses (mapCnf (fun v => s'.finalNamesMap.getD (v - 1) 0) (raws s'.clauses)) (raws s.clauses) ∧
    s'.evaluatedVars = s.evaluatedVars ∧ s'.originalValues = s.originalValues ∧ s'.value = s.value ∧ s'.id = s.id := by
  obtain ⟨t, n, L, h1, hN, h3, h4⟩ := toLo_ok mode z th s h.fnm h.ne h.cne
  have e := (M.pure_inj _ _).1 (hrun.symm.trans h1)
  subst e
  refine ⟨fun v hv => ?_, hN.fnd, hN.same, ?_, ?_, ?_, ?_⟩
  · rw [← cvars_eq] at hv
    rw [hN.flen]
    exact (hN.vars v).1 hv
  all_goals rw [hN.frame]

/-! ### non-vacuity -/

/-- A set that needs both sorting and renaming, more than once. -/
def exMessy : SetObj Unit :=
  { clauses := [{ raw := [-7, 3, 5] }, { raw := [5, -9] }, { raw := [3] }, { raw := [-9, 7] }] }

example : Fresh exMessy := ⟨by decide, by decide, rfl⟩

/-- The hypotheses of C10 and C11 hold of a run on it in every mode; its clauses mention no variable twice. -/
example (mode : Mode) : ∃ s', exMessy.toLo mode true true = pure s' ∧
    (∀ c ∈ raws s'.clauses, c.Pairwise fun a b => a.natAbs < b.natAbs) := by
  have h : Fresh exMessy := ⟨by decide, by decide, rfl⟩
  obtain ⟨s', hs⟩ := (C09_normalisation_terminates mode true true h).1
  exact ⟨s', hs, (C10_normalised_order mode true true h hs).2.2.1 (by decide)⟩

end NDP
