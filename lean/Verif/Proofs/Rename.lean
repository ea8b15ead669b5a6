import Verif.Model.SetObj
import Verif.Spec
import Verif.Lib.M
import Verif.Lib.Dict
import Verif.Lib.Sort
import Verif.Proofs.Clause
/- What one call of `rename_vars` computes. -/
namespace NDP
open Spec

/-- The literal lists of clause objects. -/
abbrev raws (cls : List Clause) : Cnf := cls.map (·.raw)

/-- Extend a list of seen variables by those of a list of literals, in order. -/
def ext (ks : List Nat) (ls : List Int) : List Nat :=
  ls.foldl (fun ks l => if l.natAbs ∈ ks then ks else ks ++ [l.natAbs]) ks

@[simp] theorem ext_nil (ks : List Nat) : ext ks [] = ks := rfl
theorem ext_cons (ks : List Nat) (l : Int) (ls : List Int) :
    ext ks (l :: ls) = ext (if l.natAbs ∈ ks then ks else ks ++ [l.natAbs]) ls := rfl
theorem ext_append (ks : List Nat) (a b : List Int) : ext ks (a ++ b) = ext (ext ks a) b := by
  simp [ext, List.foldl_append]

theorem ext_eq (ks : List Nat) (ls : List Int) :
    ext ks ls = ks ++ (dedup (ls.map Int.natAbs)).filter (· ∉ ks) := by
  induction ls generalizing ks with
  | nil => simp [dedup]
  | cons l ls ih =>
    rw [ext_cons, ih]
    simp only [List.map_cons, dedup]
    by_cases h : l.natAbs ∈ ks
    · simp only [h, if_true, List.filter_cons, not_true_eq_false, decide_false, Bool.false_eq_true, if_false]
      congr 1
      rw [List.filter_filter]
      apply List.filter_congr
      intro x _
      by_cases hx : x = l.natAbs
      · subst hx; simp [h]
      · simp [hx]
    · simp only [h, if_false, List.filter_cons, not_false_eq_true, decide_true, if_true]
      rw [List.append_assoc, List.singleton_append]
      congr 2
      rw [List.filter_filter]
      apply List.filter_congr
      intro x _
      by_cases hx : x = l.natAbs
      · subst hx; simp
      · simp [hx]

theorem ext_nil_eq (ls : List Int) : ext [] ls = dedup (ls.map Int.natAbs) := by
  rw [ext_eq]; simp

theorem ext_prefix (ks : List Nat) (ls : List Int) : ∃ t, ext ks ls = ks ++ t := ⟨_, ext_eq ks ls⟩

theorem mem_ext (ks : List Nat) (ls : List Int) (v : Nat) :
    v ∈ ext ks ls ↔ v ∈ ks ∨ v ∈ ls.map Int.natAbs := by
  rw [ext_eq]
  simp only [List.mem_append, List.mem_filter, mem_dedup, decide_eq_true_eq]
  by_cases h : v ∈ ks <;> simp [h]

theorem ext_nodup {ks : List Nat} (h : ks.Nodup) (ls : List Int) : (ext ks ls).Nodup := by
  rw [ext_eq, List.nodup_append]
  refine ⟨h, (nodup_dedup _).filter _, ?_⟩
  intro a ha b hb
  simp only [List.mem_filter, decide_eq_true_eq] at hb
  intro e; subst e; exact hb.2 ha

/-- New name of a literal when the seen variables are `ks`. -/
def ren (ks : List Nat) (l : Int) : Int := ((ks.idxOf l.natAbs + 1 : Nat) : Int) * (if l < 0 then -1 else 1)

theorem idxOf_append_of_mem {ks : List Nat} {v : Nat} (h : v ∈ ks) (t : List Nat) :
    (ks ++ t).idxOf v = ks.idxOf v := by
  rw [List.idxOf_append]; simp [h]

theorem ren_append {ks : List Nat} {l : Int} (h : l.natAbs ∈ ks) (t : List Nat) : ren (ks ++ t) l = ren ks l := by
  simp [ren, idxOf_append_of_mem h]

theorem ren_ext {ks : List Nat} {l : Int} (h : l.natAbs ∈ ks) (ls : List Int) : ren (ext ks ls) l = ren ks l := by
  obtain ⟨t, ht⟩ := ext_prefix ks ls
  rw [ht, ren_append h]

theorem natAbs_ren (ks : List Nat) (l : Int) : (ren ks l).natAbs = ks.idxOf l.natAbs + 1 := by
  unfold ren; split <;> simp <;> omega

theorem ren_neg_iff (ks : List Nat) (l : Int) : ren ks l < 0 ↔ l < 0 := by
  unfold ren; split <;> omega

/-- The loop state corresponds to the list of seen variables. -/
structure StOk (st : SetObj.RenameSt) (ks : List Nat) : Prop where
  next : st.nextId = ks.length + 1
  keys : st.names.keys = ks
  nodup : ks.Nodup
  get : ∀ k ∈ ks, st.names.get? k = some (ks.idxOf k + 1)

theorem StOk.init : StOk {} [] := ⟨rfl, rfl, by simp, by simp⟩

theorem renameLit_ok {st : SetObj.RenameSt} {ks : List Nat} (h : StOk st ks) (l : Int) :
    ∃ st', SetObj.renameLit st l = (st', ren (if l.natAbs ∈ ks then ks else ks ++ [l.natAbs]) l) ∧
      StOk st' (if l.natAbs ∈ ks then ks else ks ++ [l.natAbs]) ∧ st'.occ ≠ [] := by
  have hset : ∀ (d : Dict Int Nat) (k : Int) (v : Nat), d.set k v ≠ [] := by
    intro d k v; cases d with
    | nil => simp [Dict.set]
    | cons p d => obtain ⟨a, b⟩ := p; simp only [Dict.set]; split <;> simp
  by_cases hk : l.natAbs ∈ ks
  · simp only [hk, if_true]
    have e : SetObj.renameLit st l = 
        ({ st with occ := st.occ.set (ren ks l) ((st.occ.get? (ren ks l)).getD 0 + 1) }, ren ks l) := by
      unfold SetObj.renameLit
      rw [h.get _ hk]
      rfl
    exact ⟨_, e, ⟨h.next, h.keys, h.nodup, h.get⟩, hset _ _ _⟩
  · simp only [hk, if_false]
    have hn : st.names.get? l.natAbs = none := by
      rw [Dict.get?_eq_none_iff, h.keys]; exact hk
    have hidx : (ks ++ [l.natAbs]).idxOf l.natAbs = ks.length := by
      rw [List.idxOf_append]; simp [hk]
    have e : SetObj.renameLit st l = 
        ({ nextId := st.nextId + 1, names := st.names.set l.natAbs st.nextId,
           occ := st.occ.set (ren (ks ++ [l.natAbs]) l) ((st.occ.get? (ren (ks ++ [l.natAbs]) l)).getD 0 + 1) }, ren (ks ++ [l.natAbs]) l) := by
      unfold SetObj.renameLit
      rw [hn]
      simp only [ren, hidx, h.next]
    refine ⟨_, e, ?_, hset _ _ _⟩
    · refine ⟨?_, ?_, ?_, ?_⟩
      · show st.nextId + 1 = _; simp [h.next]
      · show (st.names.set l.natAbs st.nextId).keys = _
        rw [Dict.keys_set_of_not_mem _ _ _ (by rw [h.keys]; exact hk), h.keys]
      · rw [List.nodup_append]; refine ⟨h.nodup, by simp, ?_⟩
        intro a ha b hb; simp at hb; subst hb; rintro rfl; exact hk ha
      · intro k hk'
        show (st.names.set l.natAbs st.nextId).get? k = _
        rw [Dict.get?_set]
        by_cases e : l.natAbs = k
        · subst e
          simp only [if_true, h.next]
          rw [List.idxOf_append]; simp [hk]
        · have hm : k ∈ ks := by
            simp only [List.mem_append, List.mem_singleton] at hk'
            rcases hk' with h1 | h1
            · exact h1
            · exact absurd h1.symm e
          rw [if_neg e, h.get k hm, idxOf_append_of_mem hm]

theorem renameRaw_ok {st : SetObj.RenameSt} {ks : List Nat} (h : StOk st ks) (ls : List Int) :
    ∃ st', SetObj.renameRaw st ls = (st', ls.map (ren (ext ks ls))) ∧ StOk st' (ext ks ls) ∧
      ((st.occ ≠ [] ∨ ls ≠ []) → st'.occ ≠ []) := by
  induction ls generalizing st ks with
  | nil => exact ⟨st, rfl, h, by simp⟩
  | cons l ls ih =>
    obtain ⟨st1, h1, h2, h3⟩ := renameLit_ok h l
    obtain ⟨st2, h4, h5, h6⟩ := ih h2
    refine ⟨st2, ?_, ?_, fun _ => h6 (Or.inl h3)⟩
    · simp only [SetObj.renameRaw, h1, h4, List.map_cons, ext_cons]
      congr 2
      rw [ren_ext]
      split <;> simp [*]
    · rw [ext_cons]; exact h5

theorem renameCls_ok {st : SetObj.RenameSt} {ks : List Nat} (h : StOk st ks) (cls : List Clause) :
    ∃ st', SetObj.renameCls st cls =
        (st', cls.map fun c => { c with raw := c.raw.map (ren (ext ks (raws cls).flatten)) }) ∧
      StOk st' (ext ks (raws cls).flatten) ∧
      ((st.occ ≠ [] ∨ ∃ c ∈ cls, c.raw ≠ []) → st'.occ ≠ []) := by
  induction cls generalizing st ks with
  | nil => exact ⟨st, rfl, h, by simp⟩
  | cons c cs ih =>
    obtain ⟨st1, h1, h2, h3⟩ := renameRaw_ok h c.raw
    obtain ⟨st2, h4, h5, h6⟩ := ih h2
    have he : ext ks (raws (c :: cs)).flatten = ext (ext ks c.raw) (raws cs).flatten := by
      simp [ext_append]
    refine ⟨st2, ?_, ?_, ?_⟩
    · simp only [SetObj.renameCls, h1, h4, List.map_cons, he]
      have e : c.raw.map (ren (ext ks c.raw)) = c.raw.map (ren (ext (ext ks c.raw) (raws cs).flatten)) := by
        apply List.map_congr_left
        intro l hl
        exact (ren_ext (by rw [mem_ext]; right; exact List.mem_map_of_mem hl) _).symm
      rw [e]
      have he' : ext ks (c.raw :: List.map (fun x => x.raw) cs).flatten
          = ext (ext ks c.raw) (raws cs).flatten := he
      rw [he']
    · rw [he]; exact h5
    · rintro (h | ⟨c', hc', hne⟩)
      · exact h6 (Or.inl (h3 (Or.inl h)))
      · simp only [List.mem_cons] at hc'
        rcases hc' with rfl | hc'
        · exact h6 (Or.inl (h3 (Or.inr hne)))
        · exact h6 (Or.inr ⟨c', hc', hne⟩)

/-- Old name of variable `v` according to a name map. -/
def bk (fnm : List Nat) (v : Nat) : Nat := fnm.getD (v - 1) 0

theorem pyIndex_pred {fnm : List Nat} {v : Nat} (h1 : 1 ≤ v) (h2 : v ≤ fnm.length) :
    pyIndex fnm ((v : Int) - 1) = pure (bk fnm v) := by
  unfold pyIndex bk
  rw [if_pos (by omega)]
  have : ((v : Int) - 1).toNat = v - 1 := by omega
  rw [this]
  have hlt : v - 1 < fnm.length := by omega
  simp [List.getD, List.getElem?_eq_getElem hlt]

theorem mapM_pure {α β : Type} {f : α → M β} {g : α → β} (l : List α) (h : ∀ a ∈ l, f a = pure (g a)) :
    l.mapM f = pure (l.map g) := by
  induction l with
  | nil => rfl
  | cons a as ih =>
    rw [List.mapM_cons, h a (by simp), ih (fun x hx => h x (by simp [hx]))]
    rfl

/-- The variables of clause objects, in order of first occurrence. -/
abbrev cvars (cls : List Clause) : List Nat := ext [] (raws cls).flatten

theorem cvars_eq (cls : List Clause) : cvars cls = varsOf (raws cls) := by
  unfold cvars varsOf
  rw [ext_nil_eq]
  congr 1
  induction cls with
  | nil => rfl
  | cons c cs ih => simp [ih]

/-- The clauses after one renaming. -/
def renamed (cls : List Clause) : List Clause :=
  cls.map fun c => { c with raw := sortAbs (c.raw.map (ren (cvars cls))) }

/-- The name map after one renaming. -/
def renamedMap (fnm : List Nat) (cls : List Clause) : List Nat :=
  if fnm.isEmpty then cvars cls else (cvars cls).map (bk fnm)

/-- `rename_vars` returns as soon as there is a literal and the old name map covers the variables. -/
theorem renameVars_ok {H : Type} (s : SetObj H) (hne : ∃ c ∈ s.clauses, c.raw ≠ [])
    (hf : s.finalNamesMap = [] ∨ ∀ v ∈ cvars s.clauses, 1 ≤ v ∧ v ≤ s.finalNamesMap.length) :
    ∃ hov, s.renameVars = pure { s with
      clauses := renamed s.clauses, highestOccurringVar := hov,
      finalNamesMap := renamedMap s.finalNamesMap s.clauses } := by
  obtain ⟨st, h1, h2, h3⟩ := renameCls_ok StOk.init s.clauses
  have hocc := h3 (Or.inr hne)
  have hargmax : ∃ hov, SetObj.argmax st.occ = pure hov := by
    cases ho : st.occ with
    | nil => exact absurd ho hocc
    | cons p d => obtain ⟨a, b⟩ := p; exact ⟨_, rfl⟩
  obtain ⟨hov, hhov⟩ := hargmax
  refine ⟨hov, ?_⟩
  unfold SetObj.renameVars
  simp only [h1, hhov, M.pure_bind, h2.keys]
  have hs : SetObj.sortWithin (s.clauses.map fun c =>
      { c with raw := c.raw.map (ren (ext [] (raws s.clauses).flatten)) }) = renamed s.clauses := by
    simp [SetObj.sortWithin, renamed, Function.comp_def]
  rcases hf with hf | hf
  · simp [hf, renamedMap, hs]
  · by_cases he : s.finalNamesMap.isEmpty
    · simp [he, renamedMap, hs]
    · simp only [he, renamedMap]
      rw [if_neg (by simp), mapM_pure _ (fun v hv => pyIndex_pred (hf v hv).1 (hf v hv).2)]
      simp [hs]

end NDP
