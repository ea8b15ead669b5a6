import Verif.Proofs.Rename
import Verif.Proofs.Unordered
/- Normalisation: termination and result of `to_lo_condition`. -/
namespace NDP
open Spec

/-! ### renaming, seen through the name map -/

theorem bk_ren {ks : List Nat} {l : Int} (h : l.natAbs ∈ ks) : bk ks (ren ks l).natAbs = l.natAbs := by
  rw [natAbs_ren]
  unfold bk
  have hlt : ks.idxOf l.natAbs < ks.length := List.idxOf_lt_length_iff.2 h
  simp [List.getD, List.getElem?_eq_getElem hlt]

theorem bk_map_ren {ks : List Nat} (f : Nat → Nat) {l : Int} (h : l.natAbs ∈ ks) :
    bk (ks.map f) (ren ks l).natAbs = f l.natAbs := by
  rw [natAbs_ren]
  unfold bk
  have hlt : ks.idxOf l.natAbs < ks.length := List.idxOf_lt_length_iff.2 h
  simp [List.getD, List.getElem?_eq_getElem hlt]

theorem mapLit_ren {ks : List Nat} {l : Int} (h : l.natAbs ∈ ks) : mapLit (bk ks) (ren ks l) = l := by
  unfold mapLit
  rw [bk_ren h]
  by_cases hn : l < 0
  · rw [if_pos ((ren_neg_iff ks l).2 hn)]; omega
  · rw [if_neg (fun e => hn ((ren_neg_iff ks l).1 e))]; omega

theorem mapLit_map_ren {ks : List Nat} (f : Nat → Nat) {l : Int} (h : l.natAbs ∈ ks) :
    mapLit (bk (ks.map f)) (ren ks l) = mapLit f l := by
  unfold mapLit
  rw [bk_map_ren f h]
  by_cases hn : l < 0
  · rw [if_pos ((ren_neg_iff ks l).2 hn), if_pos hn]
  · rw [if_neg (fun e => hn ((ren_neg_iff ks l).1 e)), if_neg hn]

theorem mem_cvars {cls : List Clause} {c : Clause} {l : Int} (hc : c ∈ cls) (hl : l ∈ c.raw) :
    l.natAbs ∈ cvars cls := by
  unfold cvars
  rw [mem_ext]; right
  apply List.mem_map_of_mem
  rw [List.mem_flatten]
  exact ⟨c.raw, List.mem_map_of_mem hc, hl⟩

theorem mem_cvars_iff {cls : List Clause} {v : Nat} :
    v ∈ cvars cls ↔ ∃ c ∈ cls, ∃ l ∈ c.raw, l.natAbs = v := by
  rw [cvars_eq, mem_varsOf]
  simp [raws]

/-- The identity on names when there is no name map yet. -/
def bkOr (fnm : List Nat) : Nat → Nat := if fnm.isEmpty then id else bk fnm

theorem mapLit_id (l : Int) : mapLit id l = l := by unfold mapLit; split <;> simp <;> omega

theorem mapCnf_id (F : Cnf) : mapCnf id F = F := by
  unfold mapCnf
  conv => rhs; rw [← List.map_id F]
  apply List.map_congr_left
  intro c _
  conv => rhs; rw [id, ← List.map_id c]
  exact List.map_congr_left (fun l _ => mapLit_id l)

theorem raws_renamed (cls : List Clause) :
    raws (renamed cls) = cls.map fun c => sortAbs (c.raw.map (ren (cvars cls))) := by
  simp [raws, renamed, Function.comp_def]

/-- Renaming preserves the clauses as seen through the name map. -/
theorem renamed_same (fnm : List Nat) (cls : List Clause) (hne : cvars cls ≠ []) :
    SameClauses (mapCnf (bkOr (renamedMap fnm cls)) (raws (renamed cls))) (mapCnf (bkOr fnm) (raws cls)) := by
  unfold SameClauses
  rw [raws_renamed]
  unfold mapCnf raws
  rw [List.map_map, List.map_map]
  apply unordered_map_congr
  intro c hc
  simp only [Function.comp_apply]
  refine ((sortAbs_perm _).map _).trans ?_
  rw [List.map_map]
  have hemp : (cvars cls).isEmpty = false := by
    cases h : cvars cls with
    | nil => exact absurd h hne
    | cons _ _ => rfl
  have : c.raw.map (mapLit (bkOr (renamedMap fnm cls)) ∘ ren (cvars cls)) = c.raw.map (mapLit (bkOr fnm)) := by
    apply List.map_congr_left
    intro l hl
    have hm := mem_cvars hc hl
    simp only [Function.comp_apply]
    unfold renamedMap
    by_cases he : fnm.isEmpty
    · simp only [he, if_true]
      unfold bkOr
      rw [hemp, he]
      simp only [Bool.false_eq_true, if_false, if_true]
      rw [mapLit_ren hm, mapLit_id]
    · have he : fnm.isEmpty = false := by simpa using he
      simp only [he, Bool.false_eq_true, if_false]
      unfold bkOr
      have : (List.map (bk fnm) (cvars cls)).isEmpty = false := by
        cases h : cvars cls with
        | nil => exact absurd h hne
        | cons _ _ => rfl
      rw [this, he]
      simp only [Bool.false_eq_true, if_false]
      exact mapLit_map_ren _ hm
  rw [this]

/-! ### first-occurrence order after a renaming -/

/-- Strictly ascending naturals. -/
abbrev AscN (l : List Nat) : Prop := l.Pairwise (· < ·)

theorem ascN_ext {a b : List Nat} (ha : AscN a) (hb : AscN b) (h : ∀ v, v ∈ a ↔ v ∈ b) : a = b := by
  have hp : a.Perm b := by
    rw [List.perm_ext_iff_of_nodup (ha.imp (fun h => by omega)) (hb.imp (fun h => by omega))]
    exact h
  exact hp.eq_of_pairwise (fun a b _ _ h1 h2 => by omega) ha hb

theorem ascN_range' (s n : Nat) : AscN (List.range' s n) := List.pairwise_lt_range'

/-- Sorting each clause by variable does not change an ascending first-occurrence order. -/
theorem ext_sortAbs (cs : List (List Int)) (ks : List Nat) (h : AscN (ext ks cs.flatten)) :
    ext ks (cs.map sortAbs).flatten = ext ks cs.flatten := by
  induction cs generalizing ks with
  | nil => rfl
  | cons c cs ih =>
    simp only [List.map_cons, List.flatten_cons, ext_append] at h ⊢
    have h1 : ext ks (sortAbs c) = ext ks c := by
      obtain ⟨t, ht⟩ := ext_prefix (ext ks c) cs.flatten
      have hasc : AscN (ext ks c) := by
        rw [ht] at h; exact (List.pairwise_append.1 h).1
      rw [ext_eq, ext_eq]
      congr 1
      rw [ext_eq] at hasc
      have hA := (List.pairwise_append.1 hasc).2.1
      have hB : AscN ((dedup ((sortAbs c).map Int.natAbs)).filter (· ∉ ks)) := by
        refine List.Pairwise.filter _ ?_
        have hs : ((sortAbs c).map Int.natAbs).Pairwise (· ≤ ·) := by
          rw [List.pairwise_map]; exact sortAbs_sorted c
        have hsub : ∀ l : List Nat, (dedup l).Sublist l := by
          intro l
          induction l with
          | nil => exact List.Sublist.slnil
          | cons x xs ih => exact (List.Sublist.cons_cons x ((List.filter_sublist).trans ih))
        have h1 := List.Pairwise.sublist (hsub _) hs
        exact (h1.and (nodup_dedup _)).imp (fun h => by omega)
      apply ascN_ext hB hA
      intro v
      simp [(sortAbs_perm c).mem_iff]
    rw [h1]
    exact ih _ h

theorem dedup_map_inj {α β : Type} [DecidableEq α] [DecidableEq β] (f : α → β) (l : List α)
    (h : ∀ a ∈ l, ∀ b ∈ l, f a = f b → a = b) : dedup (l.map f) = (dedup l).map f := by
  induction l with
  | nil => rfl
  | cons x xs ih =>
    simp only [List.map_cons, dedup]
    rw [ih (fun a ha b hb => h a (by simp [ha]) b (by simp [hb]))]
    congr 1
    rw [List.filter_map]
    congr 1
    apply List.filter_congr
    intro a ha
    rw [mem_dedup] at ha
    simp only [Function.comp_apply, ne_eq, decide_not, Bool.not_eq_eq_eq_not, Bool.not_not]
    by_cases e : a = x
    · simp [e]
    · have : f a ≠ f x := fun e' => e (h a (by simp [ha]) x (by simp) e')
      simp [e, this]

theorem map_idxOf_self (K : List Nat) (h : K.Nodup) : K.map (fun v => K.idxOf v + 1) = List.range' 1 K.length := by
  apply List.ext_getElem
  · simp
  · intro i h1 h2
    simp only [List.length_map] at h1
    simp [List.getElem_range', h.idxOf_getElem i h1]
    omega

/-- After a renaming the variables are `1..n`, in order of first occurrence. -/
theorem cvars_renamed (cls : List Clause) : cvars (renamed cls) = List.range' 1 (cvars cls).length := by
  have hK : (cvars cls).Nodup := ext_nodup (by simp) _
  have h1 : ext [] ((raws cls).map (fun c => c.map (ren (cvars cls)))).flatten
      = List.range' 1 (cvars cls).length := by
    rw [ext_nil_eq, ← map_idxOf_self _ hK]
    have : (((raws cls).map (fun c => c.map (ren (cvars cls)))).flatten).map Int.natAbs
        = ((raws cls).flatten.map Int.natAbs).map (fun v => (cvars cls).idxOf v + 1) := by
      rw [← List.map_flatten, List.map_map, List.map_map]
      apply List.map_congr_left
      intro l _
      simp [natAbs_ren]
    rw [this, dedup_map_inj]
    · congr 1; rw [← ext_nil_eq]
    · intro a ha b hb e
      have ha' : a ∈ cvars cls := by unfold cvars; rw [mem_ext]; exact Or.inr ha
      have hb' : b ∈ cvars cls := by unfold cvars; rw [mem_ext]; exact Or.inr hb
      have e : (cvars cls).idxOf a = (cvars cls).idxOf b := by omega
      have h1 := List.idxOf_lt_length_iff.2 ha'
      have h2 := List.idxOf_lt_length_iff.2 hb'
      have := List.getElem_idxOf h1
      have h4 := List.getElem_idxOf h2
      rw [← this, ← h4]
      congr 1
  have h2 : raws (renamed cls) = ((raws cls).map (fun c => c.map (ren (cvars cls)))).map sortAbs := by
    rw [raws_renamed]; simp [raws, Function.comp_def]
  show ext [] (raws (renamed cls)).flatten = _
  rw [h2, ext_sortAbs _ _ (by rw [h1]; exact ascN_range' _ _), h1]

/-! ### what the l.o. test computes -/

theorem cond3_iff (ls : List Int) (m : Nat) (seen ks : List Nat) (hs : ∀ v, v ∈ seen ↔ v ∈ ks)
    (hm : m ∈ ks) (hmax : ∀ v ∈ ks, v ≤ m) (hks : AscN ks) :
    SetObj.cond3 m seen ls = true ↔ AscN (ext ks ls) := by
  induction ls generalizing m seen ks with
  | nil => simp [SetObj.cond3, hks]
  | cons l ls ih =>
    simp only [SetObj.cond3, ext_cons, hs]
    by_cases hv : l.natAbs ∈ ks
    · simp only [hv, not_true_eq_false, and_false, if_false, if_true]
      exact ih m seen ks hs hm hmax hks
    · by_cases hlt : l.natAbs < m
      · simp only [hv, hlt, not_false_eq_true, and_self, if_true, if_false]
        simp only [Bool.false_eq_true, false_iff]
        intro hA
        obtain ⟨t, ht⟩ := ext_prefix (ks ++ [l.natAbs]) ls
        rw [ht] at hA
        have := (List.pairwise_append.1 (List.pairwise_append.1 hA).1).2.2 m hm l.natAbs (by simp)
        omega
      · have hgt : m < l.natAbs := by
          rcases Nat.lt_or_ge m l.natAbs with h | h
          · exact h
          · have : l.natAbs = m := by omega
            rw [this] at hv; exact absurd hm hv
        simp only [hv, hlt, not_false_eq_true, and_true, if_true, if_false]
        apply ih
        · intro v; simp [hs, or_comm]
        · simp
        · intro v hv'
          simp only [List.mem_append, List.mem_singleton] at hv'
          rcases hv' with h | h
          · have := hmax v h; omega
          · omega
        · rw [AscN, List.pairwise_append]
          refine ⟨hks, by simp, ?_⟩
          intro a ha b hb
          simp only [List.mem_singleton] at hb
          have := hmax a ha; omega

/-- The leading variables never decrease. -/
def LeadSorted : Cnf → Prop
  | [] => True
  | [_] => True
  | c :: d :: F => (∀ a ∈ c.head?, ∀ b ∈ d.head?, a.natAbs ≤ b.natAbs) ∧ LeadSorted (d :: F)

theorem cond2_ok (cls : List Clause) (hne : ∀ c ∈ cls, c.raw ≠ []) (m : Nat) :
    ∃ b, SetObj.cond2 m cls = pure b ∧
      (b = true ↔ (∀ c ∈ cls.head?, ∀ a ∈ c.raw.head?, m ≤ a.natAbs) ∧ LeadSorted (raws cls)) := by
  induction cls generalizing m with
  | nil => exact ⟨true, rfl, by simp [LeadSorted]⟩
  | cons c cs ih =>
    cases hr : c.raw with
    | nil => exact absurd hr (hne c (by simp))
    | cons l t =>
      simp only [SetObj.cond2, hr]
      by_cases hlt : l.natAbs < m
      · refine ⟨false, by simp [hlt], ?_⟩
        simp [hr]; omega
      · simp only [if_neg hlt]
        obtain ⟨b, h1, h2⟩ := ih (fun c hc => hne c (by simp [hc])) l.natAbs
        refine ⟨b, h1, ?_⟩
        rw [h2]
        cases cs with
        | nil => simp [LeadSorted, hr]; omega
        | cons d ds =>
          simp [LeadSorted, hr]
          intro _ _; omega

/-- Result of the l.o. test on a non-empty set of non-empty clauses. -/
theorem isInLo_ok {H : Type} (mode : Mode) (s : SetObj H) (hc : s.clauses ≠ [])
    (hne : ∀ c ∈ s.clauses, c.raw ≠ []) :
    ∃ b, s.isInLoState mode = pure b ∧
      (b = true ↔ (mode ≠ .normal → AscN (cvars s.clauses) ∧ (∀ v ∈ (cvars s.clauses).head?, v ≤ 1) ∧
        (mode ≠ .lou → LeadSorted (raws s.clauses)))) := by
  unfold SetObj.isInLoState
  by_cases hm : mode = .normal
  · exact ⟨true, by simp [hm], by simp [hm]⟩
  · simp only [hm, if_false]
    cases hcl : s.clauses with
    | nil => exact absurd hcl hc
    | cons c cs =>
      cases hr : c.raw with
      | nil => exact absurd hr (hne c (by simp [hcl]))
      | cons l t =>
        simp only [hr]
        have hcv : cvars (c :: cs) = ext [l.natAbs] (raws (c :: cs)).flatten := by
          show ext [] (raws (c :: cs)).flatten = _
          simp [raws, hr, ext_cons]
        have hhead : (cvars (c :: cs)).head? = some l.natAbs := by
          obtain ⟨t, ht⟩ := ext_prefix [l.natAbs] (raws (c :: cs)).flatten
          rw [hcv, ht]; rfl
        have h3 := cond3_iff (raws (c :: cs)).flatten l.natAbs [l.natAbs] [l.natAbs] (by simp) (by simp)
          (by simp) (by simp [AscN])
        have hflat : List.flatMap (fun x => x.raw) (c :: cs) = (raws (c :: cs)).flatten := by
          simp [List.flatMap_def]
        rw [← hcv] at h3
        obtain ⟨b2, hb2, hb2'⟩ := cond2_ok (c :: cs) (by rw [← hcl]; exact hne) l.natAbs
        by_cases h5 : l.natAbs > MIN_LITERAL
        · refine ⟨false, by simp [h5], ?_⟩
          simp only [Bool.false_eq_true, false_iff]
          intro h
          have := (h hm).2.1 l.natAbs (by simp [hhead])
          simp [MIN_LITERAL] at h5; omega
        · rw [if_neg h5]
          have h5' : l.natAbs ≤ 1 := by simp [MIN_LITERAL] at h5; omega
          rw [hflat]
          by_cases hc3 : SetObj.cond3 l.natAbs [l.natAbs] (raws (c :: cs)).flatten = true
          · simp only [hc3, Bool.not_true, Bool.false_eq_true, if_false]
            by_cases hlou : mode = .lou
            · refine ⟨true, by simp [hlou], ?_⟩
              simp [hhead, h5', h3.1 hc3, hlou]
            · refine ⟨b2, by simp [hlou, hb2], ?_⟩
              rw [hb2']
              have hA := h3.1 hc3
              simp [hhead, h5', hlou, hm, hr, hA]
          · have hc3' : SetObj.cond3 l.natAbs [l.natAbs] (raws (c :: cs)).flatten = false := by simpa using hc3
            refine ⟨false, by rw [hc3']; rfl, ?_⟩
            simp only [Bool.false_eq_true, false_iff]
            intro h
            exact hc3 (h3.2 (h hm).1)

end NDP
