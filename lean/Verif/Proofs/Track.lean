import Verif.Proofs.Eval
/- The invariant tying a node of the search to the input formula, through branching and normalisation. -/
namespace NDP
open Spec

/-- A set before normalisation, relative to the input formula `R`: through its name map its clauses are
what is left of `R` under its partial assignment. -/
structure Pre {H : Type} (R : Cnf) (s : SetObj H) : Prop where
  ne : s.clauses ≠ []
  cne : ∀ c ∈ s.clauses, c.raw ≠ []
  pos : ∀ v ∈ varsOf (raws s.clauses), 1 ≤ v
  names : ∀ v ∈ varsOf (raws s.clauses), (s.originalValues.get? v).isSome
  inj : ∀ u ∈ varsOf (raws s.clauses), ∀ v ∈ varsOf (raws s.clauses),
    (s.originalValues.get? u).getD 0 = (s.originalValues.get? v).getD 0 → u = v
  same : SameClauses (mapCnf (fun v => (s.originalValues.get? v).getD 0) (raws s.clauses))
    (residual s.evaluatedVars R)
  value : s.value = none
  fnm : s.finalNamesMap = []
  evnd : s.evaluatedVars.keys.Nodup
  ovnd : s.originalValues.keys.Nodup
  evp : ∀ k ∈ s.evaluatedVars.keys, 1 ≤ k

/-- A node of the search relative to the input formula `R`. -/
structure Tracks {H : Type} (R : Cnf) (s : SetObj H) : Prop where
  node : Node s
  pos : ∀ v ∈ varsOf (raws s.clauses), 1 ≤ nameOf s v
  inj : ∀ u ∈ varsOf (raws s.clauses), ∀ v ∈ varsOf (raws s.clauses), nameOf s u = nameOf s v → u = v
  same : SameClauses (mapCnf (nameOf s) (raws s.clauses)) (residual s.evaluatedVars R)
  evnd : s.evaluatedVars.keys.Nodup
  nvars : s.finalNamesMap.length = (varsOf (raws s.clauses)).length
  ovnd : s.originalValues.keys.Nodup
  evp : ∀ k ∈ s.evaluatedVars.keys, 1 ≤ k

theorem Proper.residual {R : Cnf} (h : Proper R) (d : Dict Int Bool) :
    ∀ c ∈ residual d R, (c.map Int.natAbs).Nodup ∧ (0 : Int) ∉ c := by
  intro c hc
  obtain ⟨c0, h0, _, rfl⟩ := mem_residual.1 hc
  obtain ⟨_, h2, h3⟩ := h c0 h0
  refine ⟨?_, fun hm => h3 (mem_openLits.1 hm).1⟩
  exact h2.sublist ((List.filter_sublist).map _)

theorem Proper.pos_vars {R : Cnf} (h : Proper R) {d : Dict Int Bool} {v : Nat}
    (hv : v ∈ varsOf (Spec.residual d R)) : 1 ≤ v := by
  obtain ⟨c, hc, l, hl, e⟩ := mem_varsOf.1 hv
  have := (Proper.residual h d c hc).2
  have : l ≠ 0 := by rintro rfl; exact this hl
  omega

theorem nodup_of_map_nodup {α β : Type} {f : α → β} {l : List α} (h : (l.map f).Nodup) : l.Nodup :=
  List.Nodup.of_map f h

/-- Clauses of a set that, through some renaming, is what is left of a proper formula mention every variable
once. -/
theorem nodup_of_same {ν : Nat → Nat} {F R : Cnf} {d : Dict Int Bool} (hR : Proper R)
    (h : SameClauses (mapCnf ν F) (Spec.residual d R)) : ∀ c ∈ F, (c.map Int.natAbs).Nodup := by
  intro c hc
  have hm : c.map (mapLit ν) ∈ mapCnf ν F := List.mem_map.2 ⟨c, hc, rfl⟩
  obtain ⟨c', hc', hp⟩ := SameClauses.exists_perm h hm
  have h1 := (Proper.residual hR d c' hc').1
  have h2 : ((c.map (mapLit ν)).map Int.natAbs).Nodup := ((hp.map Int.natAbs).nodup_iff).2 h1
  rw [List.map_map] at h2
  have e : (Int.natAbs ∘ mapLit ν) = ν ∘ Int.natAbs := by
    funext l; exact natAbs_mapLit ν l
  rw [e, ← List.map_map] at h2
  exact nodup_of_map_nodup h2

theorem bk_inj {fnm : List Nat} (h : fnm.Nodup) {u v : Nat} (hu : 1 ≤ u ∧ u ≤ fnm.length)
    (hv : 1 ≤ v ∧ v ≤ fnm.length) (e : bk fnm u = bk fnm v) : u = v := by
  unfold bk at e
  rw [List.getD_eq_getElem?_getD, List.getD_eq_getElem?_getD, List.getElem?_eq_getElem (by omega),
    List.getElem?_eq_getElem (by omega)] at e
  have := (List.Nodup.getElem_inj_iff h).1 e
  omega

theorem size_mapCnf (ν : Nat → Nat) (F : Cnf) : size (mapCnf ν F) = size F := by
  unfold size mapCnf
  rw [List.map_map]
  congr 1
  apply List.map_congr_left
  intro c _; simp

/-- Normalising a tracked set yields a tracked node over the same clauses, whatever the mode. -/
theorem toLo_tracks {H : Type} {R : Cnf} (hR : Proper R) (mode : Mode) (z th : Bool) {s : SetObj H}
    (h : Pre R s) :
    ∃ s', s.toLo mode z th = pure s' ∧ Tracks R s' ∧ size (raws s'.clauses) = size (raws s.clauses) ∧
      s'.evaluatedVars = s.evaluatedVars ∧ s'.clauses.length = s.clauses.length ∧
      SameClauses (mapCnf (bk s'.finalNamesMap) (raws s'.clauses)) (raws s.clauses) := by
  obtain ⟨s', n, L, h1, hN, h3, _⟩ := toLo_ok mode z th s h.fnm h.ne h.cne
  have hvars : ∀ v, v ∈ varsOf (raws s'.clauses) ↔ 1 ≤ v ∧ v ≤ n := by
    intro v; rw [← cvars_eq]; exact hN.vars v
  have hov : s'.originalValues = s.originalValues := by rw [hN.frame]
  have hev : s'.evaluatedVars = s.evaluatedVars := by rw [hN.frame]
  have hval : s'.value = s.value := by rw [hN.frame]
  -- old variable of a new one
  have hback : ∀ v ∈ varsOf (raws s'.clauses), bk s'.finalNamesMap v ∈ varsOf (raws s.clauses) := by
    intro v hv
    rw [← SameClauses.mem_vars hN.same, varsOf_mapCnf]
    exact ⟨v, hv, rfl⟩
  have hname : ∀ v, nameOf s' v = (s.originalValues.get? (bk s'.finalNamesMap v)).getD 0 := by
    intro v; unfold nameOf; rw [hov]
  have hcomp : mapCnf (nameOf s') (raws s'.clauses) =
      mapCnf (fun v => (s.originalValues.get? v).getD 0) (mapCnf (bk s'.finalNamesMap) (raws s'.clauses)) := by
    rw [mapCnf_comp]
    · exact mapCnf_congr fun v _ => hname v
    · intro v hv
      have := h.pos _ (hback v hv)
      omega
  have hsame : SameClauses (mapCnf (nameOf s') (raws s'.clauses)) (Spec.residual s'.evaluatedVars R) := by
    rw [hcomp, hev]
    exact (hN.same.mapCnf _).trans h.same
  refine ⟨s', h1, ⟨⟨hN.ne, hN.cne, ?_, ?_, ?_, by rw [hval, h.value]⟩, ?_, ?_, hsame, by rw [hev]; exact h.evnd, ?_,
    by rw [hov]; exact h.ovnd, by rw [hev]; exact h.evp⟩,
    ?_, hev, hN.count, hN.same⟩
  · intro c hc
    have := nodup_of_same hR hsame c.raw (List.mem_map.2 ⟨c, hc, rfl⟩)
    have ha := asc_sortAbs this
    rwa [hN.sorted c hc] at ha
  · intro v hv
    have := (hvars v).1 hv
    rw [hN.flen]; exact this
  · intro v hv
    rw [hov]; exact h.names _ (hback v hv)
  · intro v hv
    have hm : nameOf s' v ∈ varsOf (Spec.residual s'.evaluatedVars R) := by
      rw [← SameClauses.mem_vars hsame, varsOf_mapCnf]
      exact ⟨v, hv, rfl⟩
    exact Proper.pos_vars hR hm
  · intro u hu v hv e
    rw [hname, hname] at e
    have e2 := h.inj _ (hback u hu) _ (hback v hv) e
    apply bk_inj hN.fnd _ _ e2
    · rw [hN.flen]; exact (hvars u).1 hu
    · rw [hN.flen]; exact (hvars v).1 hv
  · rw [hN.flen, ← cvars_eq, h3]; simp
  · rw [← size_mapCnf (bk s'.finalNamesMap)]
    exact SameClauses.size hN.same

/-- One branch of a formula through a renaming. -/
theorem Tracks.branch {H : Type} {R : Cnf} {s : SetObj H} (h : Tracks R s) (b : Bool) {p : Nat}
    (hp : p ∈ varsOf (raws s.clauses)) :
    SameClauses (mapCnf (nameOf s) (branch p b (raws s.clauses)))
      (Spec.residual (s.evaluatedVars.set (nameOf s p : Int) b) R) := by
  have hm : nameOf s p ∈ varsOf (Spec.residual s.evaluatedVars R) := by
    rw [← SameClauses.mem_vars h.same, varsOf_mapCnf]
    exact ⟨p, hp, rfl⟩
  rw [← residual_residual (mem_vars_residual hm).2]
  have := (h.same.residual [((nameOf s p : Int), b)])
  rw [residual_mapCnf (fun v hv => by have := h.pos v hv; omega) (fun v hv e => h.inj v hv p hp e)] at this
  exact this

theorem mem_mapCnf_nil {ν : Nat → Nat} {F : Cnf} : [] ∈ mapCnf ν F ↔ [] ∈ F := by
  unfold mapCnf
  rw [List.mem_map]
  constructor
  · rintro ⟨c, hc, e⟩
    have : c = [] := by simpa using e
    exact this ▸ hc
  · intro h; exact ⟨[], h, rfl⟩

theorem SameClauses.nil_mem {F G : Cnf} (h : SameClauses F G) : [] ∈ F ↔ [] ∈ G := by
  constructor
  · intro hf
    obtain ⟨c, hc, hp⟩ := SameClauses.exists_perm h hf
    rwa [← hp.nil_eq] at hc
  · intro hf
    obtain ⟨c, hc, hp⟩ := SameClauses.exists_perm h.symm hf
    rwa [← hp.nil_eq] at hc

theorem SameClauses.eq_nil {F G : Cnf} (h : SameClauses F G) : F = [] ↔ G = [] := by
  have := SameClauses.length h
  constructor
  · rintro rfl; simpa using this.symm
  · rintro rfl; simpa using this

/-- The value of a formula survives renaming and reordering. -/
theorem childVal_congr {ν : Nat → Nat} {F G : Cnf} (h : SameClauses (mapCnf ν F) G) : childVal F = childVal G := by
  have h1 := SameClauses.nil_mem h
  have h2 := SameClauses.eq_nil h
  rw [mem_mapCnf_nil] at h1
  have h3 : mapCnf ν F = [] ↔ F = [] := by simp [mapCnf]
  rw [h3] at h2
  unfold childVal
  simp only [h1, h2]

theorem IsChild.vars {H : Type} {s ch : SetObj H} {b : Bool} (h : IsChild s b ch) {v : Nat}
    (hv : v ∈ varsOf (raws ch.clauses)) : v ∈ varsOf (raws s.clauses) ∧ v ≠ pivotOf (raws s.clauses) := by
  rw [h.clauses] at hv
  exact mem_vars_branch hv

theorem Tracks.pivot_mem {H : Type} {R : Cnf} {s : SetObj H} (h : Tracks R s) :
    pivotOf (raws s.clauses) ∈ varsOf (raws s.clauses) := by
  apply NDP.pivot_mem
  · simpa [raws] using h.node.ne
  · intro c hc
    obtain ⟨d, hd, rfl⟩ := List.mem_map.1 hc
    exact h.node.cne d hd

/-- Value of a child: what is left of the input under the child's partial assignment. -/
theorem IsChild.value_eq {H : Type} {R : Cnf} {s ch : SetObj H} {b : Bool} (ht : Tracks R s)
    (h : IsChild s b ch) : ch.value = childVal (Spec.residual ch.evaluatedVars R) := by
  rw [h.value, h.ev]
  exact childVal_congr (ht.branch b ht.pivot_mem)

/-- A child assigns positive names only. -/
theorem IsChild.evp {H : Type} {R : Cnf} {s ch : SetObj H} {b : Bool} (ht : Tracks R s)
    (h : IsChild s b ch) : ∀ k ∈ ch.evaluatedVars.keys, 1 ≤ k := by
  intro k hk
  rw [h.ev, Dict.mem_keys_set] at hk
  rcases hk with rfl | hk
  · have := ht.pos _ ht.pivot_mem
    omega
  · exact ht.evp k hk

/-- A child that is neither T nor F is tracked. -/
theorem IsChild.pre {H : Type} {R : Cnf} {s ch : SetObj H} {b : Bool} (ht : Tracks R s)
    (h : IsChild s b ch) (hv : ch.value = none) : Pre R ch := by
  have hval := h.value
  rw [hv] at hval
  have hn : [] ∉ branch (pivotOf (raws s.clauses)) b (raws s.clauses) := by
    intro hm; simp [childVal, hm] at hval
  have hne : branch (pivotOf (raws s.clauses)) b (raws s.clauses) ≠ [] := by
    intro hm; simp [childVal, hm] at hval
  have hcl : raws ch.clauses = branch (pivotOf (raws s.clauses)) b (raws s.clauses) := by
    rw [h.clauses, nonempties_eq hn]
  have hget : ∀ v ∈ varsOf (raws ch.clauses), ch.originalValues.get? v = some (nameOf s v) := by
    intro v hv'
    rw [h.ov, Dict.get?_map_self]
    simp [hv']
  refine ⟨?_, ?_, ?_, ?_, ?_, ?_, hv, h.fnm, ?_, ?_, ?_⟩
  · intro e; rw [e] at hcl; exact hne hcl.symm
  · intro c hc e
    apply hn
    rw [← hcl, ← e]
    exact List.mem_map.2 ⟨c, hc, rfl⟩
  · intro v hv'; exact (ht.node.vars v (h.vars hv').1).1
  · intro v hv'; rw [hget v hv']; rfl
  · intro u hu v hv' e
    rw [hget u hu, hget v hv'] at e
    exact ht.inj u (h.vars hu).1 v (h.vars hv').1 e
  · have : mapCnf (fun v => (ch.originalValues.get? v).getD 0) (raws ch.clauses) =
        mapCnf (nameOf s) (raws ch.clauses) := by
      apply mapCnf_congr
      intro v hv'; simp [hget v hv']
    rw [this, hcl, h.ev]
    exact ht.branch b ht.pivot_mem
  · rw [h.ev]; exact Dict.nodup_keys_set _ _ _ ht.evnd
  · rw [h.ov]
    have : Dict.keys ((varsOf (raws ch.clauses)).map fun v => (v, nameOf s v)) = varsOf (raws ch.clauses) := by
      simp [Dict.keys, List.map_map, Function.comp_def]
    rw [this]; exact nodup_dedup _
  · exact h.evp ht

theorem childVal_true {G : Cnf} : childVal G = some true ↔ G = [] := by
  unfold childVal
  split
  · next h => simp; rintro rfl; simp at h
  · split <;> simp [*]

theorem childVal_false {G : Cnf} : childVal G = some false ↔ [] ∈ G := by
  unfold childVal
  split
  · next h => simp [h]
  · next h => split <;> simp [h]

/-- A child with value T: its partial assignment makes every clause of the input true. -/
theorem IsChild.makesTrue {H : Type} {R : Cnf} {s ch : SetObj H} {b : Bool} (ht : Tracks R s)
    (h : IsChild s b ch) (hv : ch.value = some true) : MakesTrue ch.evaluatedVars R := by
  rw [h.value_eq ht, childVal_true] at hv
  exact residual_nil_iff.1 hv

theorem not_sat_of_nil_mem {F : Cnf} (h : [] ∈ F) : ¬ Satisfiable F := by
  rintro ⟨α, ha⟩
  obtain ⟨l, hl, _⟩ := ha [] h
  simp at hl

/-- Some child of a satisfiable node is satisfiable (or T). -/
theorem branch_children {F : Cnf} (p : Nat) (h : Satisfiable F) :
    ∃ b, [] ∉ branch p b F ∧ Satisfiable (branch p b F) := by
  rcases (satisfiable_branch p F).1 h with h | h
  · exact ⟨true, fun hm => not_sat_of_nil_mem hm h, h⟩
  · exact ⟨false, fun hm => not_sat_of_nil_mem hm h, h⟩

theorem size_cons (c : List Int) (F : Cnf) : size (c :: F) = c.length + size F := by
  simp [size]

theorem size_branch_le (p : Nat) (b : Bool) (F : Cnf) : size (branch p b F) ≤ size F := by
  induction F with
  | nil => simp [NDP.branch, Spec.residual]
  | cons c F ih =>
    unfold NDP.branch at *
    rw [residual_cons]
    have hl : (openLits [((p : Int), b)] c).length ≤ c.length := List.length_filter_le _ _
    split
    · rw [size_cons, size_cons]; omega
    · rw [size_cons]; omega

/-- Branching strictly shrinks a formula. -/
theorem size_branch_lt {p : Nat} {b : Bool} {F : Cnf} (hp : p ∈ varsOf F) :
    size (branch p b F) < size F := by
  induction F with
  | nil => simp [varsOf, dedup] at hp
  | cons c F ih =>
    by_cases hF : p ∈ varsOf F
    · have := ih hF
      unfold NDP.branch at *
      rw [residual_cons]
      have hl : (openLits [((p : Int), b)] c).length ≤ c.length := List.length_filter_le _ _
      split
      · rw [size_cons, size_cons]; omega
      · rw [size_cons]; omega
    · have hc : ∃ l ∈ c, l.natAbs = p := by
        obtain ⟨d, hd, l, hl, e⟩ := mem_varsOf.1 hp
        rcases List.mem_cons.1 hd with rfl | hd
        · exact ⟨l, hl, e⟩
        · exact absurd (mem_varsOf.2 ⟨d, hd, l, hl, e⟩) hF
      obtain ⟨l, hl, e⟩ := hc
      have h1 := size_branch_le p b F
      have hl' : (openLits [((p : Int), b)] c).length < c.length := by
        rw [openLits_single]
        rw [List.length_filter_lt_length_iff_exists]
        exact ⟨l, hl, by simp [e]⟩
      have : 0 < c.length := List.length_pos_of_mem hl
      unfold NDP.branch at *
      rw [residual_cons]
      split
      · rw [size_cons, size_cons]; omega
      · rw [size_cons]; omega

theorem size_nonempties (G : Cnf) : size (nonempties G) = size G := by
  induction G with
  | nil => rfl
  | cons c G ih =>
    unfold nonempties at *
    rw [List.filter_cons]
    by_cases h : c = []
    · subst h; simp only [ne_eq, not_true_eq_false, decide_false, Bool.false_eq_true, if_false]
      rw [ih, size_cons]; simp
    · simp only [ne_eq, h, not_false_eq_true, decide_true, if_true]
      rw [size_cons, size_cons, ih]

theorem IsChild.size_lt {H : Type} {R : Cnf} {s ch : SetObj H} {b : Bool} (ht : Tracks R s)
    (h : IsChild s b ch) : size (raws ch.clauses) < size (raws s.clauses) := by
  rw [h.clauses, size_nonempties]
  exact size_branch_lt ht.pivot_mem

end NDP
