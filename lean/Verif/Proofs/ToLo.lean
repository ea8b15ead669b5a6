import Verif.Proofs.LoTerm
/- Total correctness of `to_lo_condition`. -/
namespace NDP
open Spec

theorem sortAbs_idem (c : List Int) : sortAbs (sortAbs c) = sortAbs c := by
  apply isort_of_sorted
  refine List.Pairwise.imp ?_ (sortAbs_sorted c)
  intro a b h; simp; exact h

/-- What a normalised (or partially normalised) set looks like, relative to the set it came from. -/
structure Norm (n L m : Nat) (F0 : Cnf) {H : Type} (s0 s : SetObj H) : Prop where
  ne : s.clauses ≠ []
  cne : ∀ c ∈ s.clauses, c.raw ≠ []
  sorted : ∀ c ∈ s.clauses, sortAbs c.raw = c.raw
  len : ∀ c ∈ s.clauses, c.raw.length ≤ L
  count : s.clauses.length = m
  vars : ∀ v, v ∈ cvars s.clauses ↔ 1 ≤ v ∧ v ≤ n
  flen : s.finalNamesMap.length = n
  fnd : s.finalNamesMap.Nodup
  same : SameClauses (mapCnf (bk s.finalNamesMap) (raws s.clauses)) F0
  frame : s = { s0 with clauses := s.clauses, highestOccurringVar := s.highestOccurringVar,
                        finalNamesMap := s.finalNamesMap }

theorem cvars_perm {a b : List Clause} (h : a.Perm b) (v : Nat) : v ∈ cvars a ↔ v ∈ cvars b := by
  rw [mem_cvars_iff, mem_cvars_iff]
  simp only [h.mem_iff]

theorem Norm.perm {n L m : Nat} {F0 : Cnf} {H : Type} {s0 s : SetObj H} (h : Norm n L m F0 s0 s)
    {cls : List Clause} (hp : cls.Perm s.clauses) : Norm n L m F0 s0 { s with clauses := cls } := by
  refine ⟨?_, ?_, ?_, ?_, ?_, ?_, h.flen, h.fnd, ?_, ?_⟩
  · intro e; have e : cls = [] := e
    rw [e] at hp; exact h.ne (List.nil_perm.1 hp)
  · intro c hc; exact h.cne c (hp.mem_iff.1 hc)
  · intro c hc; exact h.sorted c (hp.mem_iff.1 hc)
  · intro c hc; exact h.len c (hp.mem_iff.1 hc)
  · show cls.length = m; rw [hp.length_eq, h.count]
  · intro v; rw [← h.vars]; exact cvars_perm hp v
  · refine SameClauses.trans ?_ h.same
    apply unordered_perm
    exact (hp.map _).map _
  · show ({ s with clauses := cls } : SetObj H) = _
    rw [h.frame]

theorem sortClauses_perm {H : Type} (s : SetObj H) :
    ∃ cls, s.sortClauses = { s with clauses := cls } ∧ cls.Perm s.clauses := by
  unfold SetObj.sortClauses
  split
  · exact ⟨_, rfl, isort_perm _ _⟩
  · exact ⟨s.clauses, rfl, List.Perm.refl _⟩

theorem mem_cvars_ne_nil {cls : List Clause} (hc : cls ≠ []) (hne : ∀ c ∈ cls, c.raw ≠ []) : cvars cls ≠ [] := by
  cases cls with
  | nil => exact absurd rfl hc
  | cons c cs =>
    intro e
    cases hr : c.raw with
    | nil => exact hne c (by simp) hr
    | cons l t =>
      have := mem_cvars (cls := c :: cs) (c := c) (l := l) (by simp) (by simp [hr])
      rw [e] at this; simp at this

/-- The first renaming of a fresh set. -/
theorem renameVars_fresh {H : Type} (s0 s : SetObj H) (F0 : Cnf)
    (hfr : s = { s0 with clauses := s.clauses }) (hf : s0.finalNamesMap = [])
    (hc : s.clauses ≠ []) (hne : ∀ c ∈ s.clauses, c.raw ≠ [])
    (hsame : SameClauses (raws s.clauses) F0) :
    ∃ s', s.renameVars = pure s' ∧
      Norm (cvars s.clauses).length (((raws s.clauses).map List.length).sum) s.clauses.length F0 s0 s' ∧
      cvars s'.clauses = List.range' 1 (cvars s.clauses).length := by
  have hf' : s.finalNamesMap = [] := by rw [hfr]; exact hf
  have hex : ∃ c ∈ s.clauses, c.raw ≠ [] := by
    cases h : s.clauses with
    | nil => exact absurd h hc
    | cons c cs => exact ⟨c, by simp, hne c (by simp [h])⟩
  obtain ⟨hov, h1⟩ := renameVars_ok s hex (Or.inl hf')
  refine ⟨_, h1, ?_, cvars_renamed _⟩
  have hmap : renamedMap s.finalNamesMap s.clauses = cvars s.clauses := by simp [renamedMap, hf']
  have hcv := mem_cvars_ne_nil hc hne
  refine ⟨?_, ?_, ?_, ?_, ?_, ?_, ?_, ?_, ?_, ?_⟩
  · show renamed s.clauses ≠ []
    unfold renamed; simp [hc]
  · intro c hc'
    have hc' : c ∈ renamed s.clauses := hc'
    unfold renamed at hc'
    rw [List.mem_map] at hc'
    obtain ⟨c0, h2, rfl⟩ := hc'
    intro e
    have := congrArg List.length e
    simp at this
    exact hne c0 h2 this
  · intro c hc'
    have hc' : c ∈ renamed s.clauses := hc'
    unfold renamed at hc'
    rw [List.mem_map] at hc'
    obtain ⟨c0, h2, rfl⟩ := hc'
    exact sortAbs_idem _
  · intro c hc'
    have hc' : c ∈ renamed s.clauses := hc'
    unfold renamed at hc'
    rw [List.mem_map] at hc'
    obtain ⟨c0, h2, rfl⟩ := hc'
    simp only [length_sortAbs, List.length_map]
    have : ∀ (l : List Nat) (x : Nat), x ∈ l → x ≤ l.sum := by
      intro l x hx
      induction l with
      | nil => simp at hx
      | cons y ys ih =>
        simp only [List.mem_cons] at hx
        rw [List.sum_cons]
        rcases hx with rfl | hx
        · omega
        · have := ih hx; omega
    apply this
    rw [List.mem_map]
    exact ⟨c0.raw, List.mem_map_of_mem h2, rfl⟩
  · show (renamed s.clauses).length = _
    simp [renamed]
  · intro v
    show v ∈ cvars (renamed s.clauses) ↔ _
    rw [cvars_renamed, List.mem_range'_1]; omega
  · show (renamedMap s.finalNamesMap s.clauses).length = _
    rw [hmap]
  · show (renamedMap s.finalNamesMap s.clauses).Nodup
    rw [hmap]; exact ext_nodup (by simp) _
  · have h := renamed_same s.finalNamesMap s.clauses hcv
    rw [hmap] at h
    have e1 : bkOr (cvars s.clauses) = bk (cvars s.clauses) := by
      unfold bkOr
      cases h : cvars s.clauses with
      | nil => exact absurd h hcv
      | cons _ _ => rfl
    have e2 : bkOr s.finalNamesMap = id := by simp [bkOr, hf']
    rw [e1, e2, mapCnf_id] at h
    show SameClauses (mapCnf (bk (renamedMap s.finalNamesMap s.clauses)) (raws (renamed s.clauses))) F0
    rw [hmap]
    exact h.trans hsame
  · show ({ s with clauses := _, highestOccurringVar := _, finalNamesMap := _ } : SetObj H) = _
    rw [hfr]

/-- A later renaming. -/
theorem Norm.rename {n L m : Nat} {F0 : Cnf} {H : Type} {s0 s : SetObj H} (h : Norm n L m F0 s0 s) :
    ∃ s', s.renameVars = pure s' ∧ Norm n L m F0 s0 s' ∧ s'.clauses = renamed s.clauses ∧
      cvars s'.clauses = List.range' 1 n := by
  have hcv := mem_cvars_ne_nil h.ne h.cne
  have hex : ∃ c ∈ s.clauses, c.raw ≠ [] := by
    cases hh : s.clauses with
    | nil => exact absurd hh h.ne
    | cons c cs => exact ⟨c, by simp, h.cne c (by simp [hh])⟩
  obtain ⟨hov, h1⟩ := renameVars_ok s hex (Or.inr (fun v hv => by rw [h.flen]; exact (h.vars v).1 hv))
  have hnd : (cvars s.clauses).Nodup := ext_nodup (by simp) _
  have hlen : (cvars s.clauses).length = n := by
    have hp : (cvars s.clauses).Perm (List.range' 1 n) := by
      rw [List.perm_ext_iff_of_nodup hnd List.nodup_range']
      intro v; rw [h.vars, List.mem_range'_1]; omega
    rw [hp.length_eq]; simp
  have hfe : s.finalNamesMap.isEmpty = false := by
    cases hf : s.finalNamesMap with
    | nil =>
      have := h.flen; rw [hf] at this; simp at this
      rw [← this] at hlen
      exact absurd (List.length_eq_zero_iff.1 hlen) hcv
    | cons _ _ => rfl
  have hmap : renamedMap s.finalNamesMap s.clauses = (cvars s.clauses).map (bk s.finalNamesMap) := by
    simp [renamedMap, hfe]
  have hcv' : cvars (renamed s.clauses) = List.range' 1 n := by rw [cvars_renamed, hlen]
  refine ⟨_, h1, ?_, rfl, hcv'⟩
  refine ⟨?_, ?_, ?_, ?_, ?_, ?_, ?_, ?_, ?_, ?_⟩
  · show renamed s.clauses ≠ []
    unfold renamed; simp [h.ne]
  · intro c hc'
    have hc' : c ∈ renamed s.clauses := hc'
    unfold renamed at hc'
    rw [List.mem_map] at hc'
    obtain ⟨c0, h2, rfl⟩ := hc'
    intro e
    have := congrArg List.length e
    simp at this
    exact h.cne c0 h2 this
  · intro c hc'
    have hc' : c ∈ renamed s.clauses := hc'
    unfold renamed at hc'
    rw [List.mem_map] at hc'
    obtain ⟨c0, h2, rfl⟩ := hc'
    exact sortAbs_idem _
  · intro c hc'
    have hc' : c ∈ renamed s.clauses := hc'
    unfold renamed at hc'
    rw [List.mem_map] at hc'
    obtain ⟨c0, h2, rfl⟩ := hc'
    simp only [length_sortAbs, List.length_map]
    exact h.len c0 h2
  · show (renamed s.clauses).length = _
    simp [renamed, h.count]
  · intro v
    show v ∈ cvars (renamed s.clauses) ↔ _
    rw [hcv', List.mem_range'_1]; omega
  · show (renamedMap s.finalNamesMap s.clauses).length = _
    rw [hmap]; simp [hlen]
  · show (renamedMap s.finalNamesMap s.clauses).Nodup
    rw [hmap]
    refine List.Nodup.map_on ?_ hnd
    intro a ha b hb e
    have ha := (h.vars a).1 ha
    have hb := (h.vars b).1 hb
    rw [← h.flen] at ha hb
    unfold bk at e
    have h1 : a - 1 < s.finalNamesMap.length := by omega
    have h2 : b - 1 < s.finalNamesMap.length := by omega
    simp only [List.getD, List.getElem?_eq_getElem h1, List.getElem?_eq_getElem h2, Option.getD_some] at e
    have := (h.fnd.getElem_inj_iff).1 e
    omega
  · have h' := renamed_same s.finalNamesMap s.clauses hcv
    have e1 : bkOr (renamedMap s.finalNamesMap s.clauses) = bk (renamedMap s.finalNamesMap s.clauses) := by
      unfold bkOr
      rw [hmap]
      cases h : cvars s.clauses with
      | nil => exact absurd h hcv
      | cons _ _ => rfl
    have e2 : bkOr s.finalNamesMap = bk s.finalNamesMap := by simp [bkOr, hfe]
    rw [e1, e2] at h'
    exact h'.trans h.same
  · show ({ s with clauses := _, highestOccurringVar := _, finalNamesMap := _ } : SetObj H) = _
    rw [h.frame]

theorem leadSorted_of_sorted (cls : List Clause)
    (h : SortedBy (fun a b : Clause => clauseLt a.raw b.raw) cls) : LeadSorted (raws cls) := by
  induction cls with
  | nil => trivial
  | cons c cs ih =>
    unfold SortedBy at h ih
    rw [List.pairwise_cons] at h
    cases cs with
    | nil => trivial
    | cons d ds =>
      refine ⟨?_, ih h.2⟩
      intro a ha b hb
      have hlt := h.1 d (by simp)
      simp only [Option.mem_def] at ha hb
      cases hc : c.raw with
      | nil => rw [hc] at ha; simp at ha
      | cons x xs =>
        cases hd : d.raw with
        | nil => rw [hd] at hb; simp at hb
        | cons y ys =>
          rw [hc] at ha; rw [hd] at hb
          simp at ha hb
          subst ha; subst hb
          simp only [hc, hd, clauseLt] at hlt
          split at hlt
          · omega
          · split at hlt
            · omega
            · simp at hlt; omega

/-- `to_lo_condition` always returns on a fresh set of non-empty clauses, and what it returns. -/
theorem toLo_ok {H : Type} (mode : Mode) (z th : Bool) (s : SetObj H) (hf : s.finalNamesMap = [])
    (hc : s.clauses ≠ []) (hne : ∀ c ∈ s.clauses, c.raw ≠ []) :
    ∃ s' n L, s.toLo mode z th = pure s' ∧ Norm n L s.clauses.length (raws s.clauses) s s' ∧
      cvars s'.clauses = List.range' 1 n ∧
      (mode ≠ .lou → mode ≠ .normal → LeadSorted (raws s'.clauses)) := by
  -- the two preliminary sorts
  have hpre : ∃ cls, (let s1 := if th then s.sortByLenIdx else s
      if mode = .flop ∨ z = true then s1.sortByLength else s1) = { s with clauses := cls } ∧ cls.Perm s.clauses := by
    have h1 : ∃ cls, (if th then s.sortByLenIdx else s) = { s with clauses := cls } ∧ cls.Perm s.clauses := by
      split
      · exact ⟨_, rfl, isort_perm _ _⟩
      · exact ⟨s.clauses, rfl, List.Perm.refl _⟩
    obtain ⟨cls, e1, p1⟩ := h1
    simp only [e1]
    split
    · unfold SetObj.sortByLength
      split
      · exact ⟨_, rfl, (isort_perm _ _).trans p1⟩
      · exact ⟨cls, rfl, p1⟩
    · exact ⟨cls, rfl, p1⟩
  obtain ⟨cls, e1, p1⟩ := hpre
  have hdef : s.toLo mode z th = (do
      let s' ← ({ s with clauses := cls } : SetObj H).renameVars
      pyWhile (SetObj.loStep mode) s') := by
    unfold SetObj.toLo
    simp only at e1
    simp only [e1]
  obtain ⟨s1, hs1, hN, hcv⟩ := renameVars_fresh s { s with clauses := cls } (raws s.clauses) rfl hf
    (by intro e; exact hc (by have e : cls = [] := e
                              rw [e] at p1; exact List.nil_perm.1 p1))
    (fun c hc' => hne c (p1.mem_iff.1 hc')) (unordered_perm (p1.map _))
  have hcount : cls.length = s.clauses.length := p1.length_eq
  rw [hdef, hs1, M.pure_bind]
  generalize hn : (cvars ({ s with clauses := cls } : SetObj H).clauses).length = n at hN hcv
  generalize hL : (((raws ({ s with clauses := cls } : SetObj H).clauses).map List.length).sum) = L at hN
  have hN : Norm n L s.clauses.length (raws s.clauses) s s1 := by
    have := hN.count; simp only [hcount] at hN; exact hN
  let B := 2 * n + 2
  have hterm := pyWhile_total (step := SetObj.loStep (H := H) mode)
    (Inv := fun t => Norm n L s.clauses.length (raws s.clauses) s t ∧ cvars t.clauses = List.range' 1 n)
    (Post := fun t => Norm n L s.clauses.length (raws s.clauses) s t ∧ cvars t.clauses = List.range' 1 n ∧
      (mode ≠ .lou → mode ≠ .normal → LeadSorted (raws t.clauses)))
    (μ := fun t => val B (code L (raws t.clauses))) ?_ s1 ⟨hN, hcv⟩
  · obtain ⟨r, h1, h2, h3, h4⟩ := hterm
    exact ⟨r, n, L, h1, h2, h3, h4⟩
  · rintro t ⟨hT, hTcv⟩
    have hn1 : 1 ≤ n := by
      rcases Nat.eq_zero_or_pos n with h | h
      · exfalso; subst h
        exact mem_cvars_ne_nil hT.ne hT.cne (by simpa using hTcv)
      · exact h
    have hhead : ∀ v ∈ (cvars t.clauses).head?, v ≤ 1 := by
      rw [hTcv]; intro v hv
      rw [show n = (n - 1) + 1 by omega, List.range'_succ] at hv
      simp at hv; omega
    obtain ⟨b, hb1, hb2⟩ := isInLo_ok mode t hT.ne hT.cne
    unfold SetObj.loStep
    rw [hb1, M.pure_bind]
    cases b with
    | true =>
      right
      refine ⟨t, by simp, hT, hTcv, ?_⟩
      intro h1 h2
      exact (hb2.1 rfl h2).2.2 h1
    | false =>
      simp only [Bool.false_eq_true, if_false]
      by_cases hmode : mode ≠ .lou ∧ mode ≠ .normal
      · rw [if_pos hmode]
        have hfn : SetObj.firstNonempty t.clauses = true := by
          cases hh : t.clauses with
          | nil => exact absurd hh hT.ne
          | cons c cs =>
            have := hT.cne c (by simp [hh])
            simp [SetObj.firstNonempty, List.length_pos_iff, this]
        have hsort : t.sortClauses = { t with clauses := isort (fun a b : Clause => clauseLt a.raw b.raw) t.clauses } := by
          simp [SetObj.sortClauses, hfn]
        rw [hsort]
        have hT2 := hT.perm (isort_perm (fun a b : Clause => clauseLt a.raw b.raw) t.clauses)
        have hlead : LeadSorted (raws (isort (fun a b : Clause => clauseLt a.raw b.raw) t.clauses)) :=
          leadSorted_of_sorted _ (isort_sorted (lt := fun a b : Clause => clauseLt a.raw b.raw)
            (fun a b h => clauseLt_asymm h)
            (fun a b c h1 h2 => clauseLt_negtrans (a := a.raw) (b := b.raw) (c := c.raw) h1 h2) _)
        obtain ⟨b', hb1', hb2'⟩ := isInLo_ok mode
          { t with clauses := isort (fun a b : Clause => clauseLt a.raw b.raw) t.clauses } hT2.ne hT2.cne
        rw [hb1', M.pure_bind]
        cases b' with
        | true =>
          right
          refine ⟨_, by simp, hT2, ?_, fun _ _ => hlead⟩
          have hA := (hb2'.1 rfl hmode.2).1
          exact ascN_ext hA (ascN_range' _ _) (fun v => by rw [hT2.vars, List.mem_range'_1]; omega)
        | false =>
          left
          simp only [Bool.false_eq_true, if_false]
          obtain ⟨u, hu1, hu2, hu3, hu4⟩ := hT2.rename
          refine ⟨u, by rw [hu1]; rfl, ⟨hu2, hu4⟩, ?_⟩
          have hz : ∀ (w : SetObj H), Norm n L s.clauses.length (raws s.clauses) s w →
              ∀ c ∈ w.clauses, ∀ l ∈ c.raw, l ≠ 0 := by
            intro w hw c hc' l hl e
            subst e
            have := (hw.vars 0).1 (by simpa using mem_cvars hc' hl)
            omega
          have hdig : ∀ (w : SetObj H), Norm n L s.clauses.length (raws s.clauses) s w →
              ∀ d ∈ code L (raws w.clauses), d < B := by
            intro w hw d hd
            simp only [code, List.mem_flatMap, List.mem_map, pad, List.mem_append, List.mem_replicate] at hd
            obtain ⟨_, ⟨c, hc', rfl⟩, hd⟩ := hd
            rcases hd with ⟨l, hl, rfl⟩ | ⟨_, rfl⟩
            · have := (hw.vars _).1 (mem_cvars hc' hl)
              simp only [B]; unfold digit; split <;> omega
            · simp only [B]; omega
          have hclen : ∀ (w : SetObj H), Norm n L s.clauses.length (raws s.clauses) s w →
              (code L (raws w.clauses)).length = s.clauses.length * L := by
            intro w hw
            rw [← hw.count]
            have : ∀ cls : List Clause, (∀ c ∈ cls, c.raw.length ≤ L) →
                (code L (raws cls)).length = cls.length * L := by
              intro cls h
              induction cls with
              | nil => simp [code]
              | cons c cs ih =>
                have := ih (fun c hc => h c (by simp [hc]))
                simp only [code, raws, List.map_cons, List.flatMap_cons, List.length_append,
                  length_pad (h c (by simp)), List.length_cons] at this ⊢
                rw [this, Nat.add_mul, Nat.one_mul, Nat.add_comm]
            exact this w.clauses hw.len
          -- the sort does not increase, the renaming strictly decreases
          have hren : code L (raws u.clauses) <
              code L (raws (isort (fun a b : Clause => clauseLt a.raw b.raw) t.clauses)) := by
            rw [hu3, raws_renamed]
            have key := rename_code L (raws (isort (fun a b : Clause => clauseLt a.raw b.raw) t.clauses)) 0 []
              (by intro c hc' l hl
                  obtain ⟨c0, h1, rfl⟩ := List.mem_map.1 hc'
                  exact hz _ hT2 c0 h1 l hl)
              (by intro c hc'
                  obtain ⟨c0, h1, rfl⟩ := List.mem_map.1 hc'
                  exact hT2.len c0 h1)
              (by intro c hc'
                  obtain ⟨c0, h1, rfl⟩ := List.mem_map.1 hc'
                  exact hT2.sorted c0 h1)
            simp only [List.range'_zero, List.append_nil] at key
            rcases key with ⟨_, k', hk'⟩ | key
            · exfalso
              have hA : AscN (cvars (isort (fun a b : Clause => clauseLt a.raw b.raw) t.clauses)) := by
                show AscN (ext [] _); rw [hk']; exact ascN_range' _ _
              have hkey : cvars (isort (fun a b : Clause => clauseLt a.raw b.raw) t.clauses) = List.range' 1 k' := hk'
              have : false = true := hb2'.2 (fun _ => ⟨hA, by
                intro v hv
                have hv : v ∈ (cvars (isort (fun a b : Clause => clauseLt a.raw b.raw) t.clauses)).head? := hv
                rw [hkey] at hv
                cases k' with
                | zero => simp at hv
                | succ k' => rw [List.range'_succ] at hv; simp at hv; omega, fun _ => hlead⟩)
              exact absurd this (by simp)
            · have e : (isort (fun a b : Clause => clauseLt a.raw b.raw) t.clauses).map (fun c =>
                  sortAbs (c.raw.map (ren (cvars (isort (fun a b : Clause => clauseLt a.raw b.raw) t.clauses)))))
                = (raws (isort (fun a b : Clause => clauseLt a.raw b.raw) t.clauses)).map (fun c =>
                  sortAbs (c.map (ren (cvars (isort (fun a b : Clause => clauseLt a.raw b.raw) t.clauses))))) := by
                simp [raws, Function.comp_def]
              show code L ((isort (fun a b : Clause => clauseLt a.raw b.raw) t.clauses).map _) < _
              rw [e]; exact key
          have hlt : code L (raws u.clauses) < code L (raws t.clauses) := by
            rcases sort_code L t.clauses (hz t hT) hT.len with e | h
            · rw [e] at hren; exact hren
            · exact List.lt_trans hren h
          exact val_lt_of_lex _ _ (by rw [hclen u hu2, hclen t hT]) (hdig u hu2) hlt
      · exfalso
        have : false = true := hb2.2 (fun hnm => ⟨by rw [hTcv]; exact ascN_range' _ _, hhead, fun hl => by
          exact absurd ⟨hl, hnm⟩ hmode⟩)
        exact absurd this (by simp)

end NDP
