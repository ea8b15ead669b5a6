import Verif.Cnfgen.Base
import Verif.Lib.Str
import Verif.Lib.M
import Mathlib.Logic.Function.Basic
import Mathlib.Data.List.Nodup
/-
  Lemmas on the `CNF` object: what the clauses stored in it mean.
-/
namespace NDP.Cnfgen
open NDP

section
variable {V : Type}

theorem clauseTrue_nil (α : V → Bool) : ¬ ClauseTrue α [] := by simp [ClauseTrue]
theorem clauseTrue_cons (α : V → Bool) (l : Lit V) (c : List (Lit V)) :
    ClauseTrue α (l :: c) ↔ α l.2 = l.1 ∨ ClauseTrue α c := by simp [ClauseTrue]
theorem clauseTrue_append (α : V → Bool) (c d : List (Lit V)) :
    ClauseTrue α (c ++ d) ↔ ClauseTrue α c ∨ ClauseTrue α d := by
  simp only [ClauseTrue, List.mem_append]
  constructor
  · rintro ⟨l, h | h, h2⟩
    · exact .inl ⟨l, h, h2⟩
    · exact .inr ⟨l, h, h2⟩
  · rintro (⟨l, h, h2⟩ | ⟨l, h, h2⟩)
    · exact ⟨l, .inl h, h2⟩
    · exact ⟨l, .inr h, h2⟩

theorem allTrue_nil (α : V → Bool) : AllTrue α [] := by simp [AllTrue]
theorem allTrue_cons (α : V → Bool) (c : List (Lit V)) (cs : List (List (Lit V))) :
    AllTrue α (c :: cs) ↔ ClauseTrue α c ∧ AllTrue α cs := by simp [AllTrue]
theorem allTrue_append (α : V → Bool) (cs ds : List (List (Lit V))) :
    AllTrue α (cs ++ ds) ↔ AllTrue α cs ∧ AllTrue α ds := by
  simp only [AllTrue, List.mem_append]
  exact ⟨fun h => ⟨fun c hc => h c (.inl hc), fun c hc => h c (.inr hc)⟩, fun h c hc => hc.elim (h.1 c) (h.2 c)⟩
theorem allTrue_flatMap {ι : Type} (α : V → Bool) (l : List ι) (f : ι → List (List (Lit V))) :
    AllTrue α (l.flatMap f) ↔ ∀ i ∈ l, AllTrue α (f i) := by
  simp only [AllTrue, List.mem_flatMap]
  exact ⟨fun h i hi c hc => h c ⟨i, hi, hc⟩, fun h c ⟨i, hi, hc⟩ => h i hi c hc⟩
theorem allTrue_map {ι : Type} (α : V → Bool) (l : List ι) (f : ι → List (Lit V)) :
    AllTrue α (l.map f) ↔ ∀ i ∈ l, ClauseTrue α (f i) := by
  simp [AllTrue]
theorem allTrue_ite (α : V → Bool) (b : Bool) (cs : List (List (Lit V))) :
    AllTrue α (if b then cs else []) ↔ (b = true → AllTrue α cs) := by
  cases b <;> simp [allTrue_nil]

/-- Any truth values of pairwise differently named variables can be assigned. -/
theorem exists_assign {ι : Type} {f : ι → V} (hf : Function.Injective f) (m : ι → Bool) :
    ∃ α : V → Bool, ∀ i, α (f i) = m i :=
  ⟨Function.extend f m (fun _ => false), fun i => hf.extend_apply m _ i⟩

end

namespace CNF
variable {V : Type} [DecidableEq V]

/-- The number standing for a literal. -/
def code (F : CNF V) (l : Lit V) : Int := (if l.1 then 1 else -1) * ((F.vars.idxOf l.2 : Int) + 1)

/-- `F` holds the clauses `cs`, over its variables. -/
structure Coh (F : CNF V) (cs : List (List (Lit V))) : Prop where
  nodup : F.vars.Nodup
  known : ∀ c ∈ cs, ∀ l ∈ c, l.2 ∈ F.vars
  clauses : F.clauses = cs.map (fun c => c.map F.code)

theorem coh_empty : Coh ({} : CNF V) [] := ⟨List.nodup_nil, by simp, rfl⟩

theorem mem_addVariable {F : CNF V} {v w : V} : w ∈ (F.addVariable v).vars ↔ w ∈ F.vars ∨ w = v := by
  unfold addVariable; split
  · constructor
    · exact .inl
    · rintro (h | rfl) <;> assumption
  · simp

theorem Coh.addVariable {F : CNF V} {cs : List (List (Lit V))} (h : F.Coh cs) (v : V) : (F.addVariable v).Coh cs := by
  unfold CNF.addVariable
  split
  · exact h
  · rename_i hv
    refine ⟨?_, fun c hc l hl => List.mem_append_left _ (h.known c hc l hl), ?_⟩
    · simp only
      rw [List.nodup_append]
      exact ⟨h.nodup, by simp, by intro a ha b hb; rw [List.mem_singleton.1 hb]; rintro rfl; exact hv ha⟩
    · simp only
      rw [h.clauses]
      refine List.map_congr_left fun c hc => List.map_congr_left fun l hl => ?_
      simp only [code]
      rw [List.idxOf_append_of_mem (h.known c hc l hl)]

theorem mem_addVariables {vs : List V} : ∀ {F : CNF V} {w : V}, w ∈ (F.addVariables vs).vars ↔ w ∈ F.vars ∨ w ∈ vs := by
  induction vs with
  | nil => intro F w; simp [CNF.addVariables]
  | cons v vs ih =>
    intro F w
    have := @ih (F.addVariable v) w
    unfold CNF.addVariables at this ⊢
    rw [List.foldl_cons, this, mem_addVariable, List.mem_cons, or_assoc]

theorem Coh.addVariables {vs : List V} : ∀ {F : CNF V} {cs : List (List (Lit V))}, F.Coh cs → (F.addVariables vs).Coh cs := by
  induction vs with
  | nil => intro F cs h; exact h
  | cons v vs ih => intro F cs h; exact ih (h.addVariable v)

/-- Adding different unknown variables appends them. -/
theorem addVariables_vars {vs : List V} : ∀ {F : CNF V}, vs.Nodup → (∀ v ∈ vs, v ∉ F.vars) → (F.addVariables vs).vars = F.vars ++ vs := by
  induction vs with
  | nil => intro F _ _; simp [CNF.addVariables]
  | cons v vs ih =>
    intro F hn hv
    rw [List.nodup_cons] at hn
    have h1 : F.addVariable v = { F with vars := F.vars ++ [v] } := by
      unfold addVariable; rw [if_neg (hv v (by simp))]
    have := @ih (F.addVariable v) hn.2 (by
      intro w hw; rw [mem_addVariable]; rintro (h | rfl)
      · exact hv w (by simp [hw]) h
      · exact hn.1 hw)
    unfold CNF.addVariables at this ⊢
    rw [List.foldl_cons, this, h1]; simp

theorem addVariables_clauses {vs : List V} : ∀ {F : CNF V}, (F.addVariables vs).clauses = F.clauses := by
  induction vs with
  | nil => intro F; rfl
  | cons v vs ih =>
    intro F
    have := @ih (F.addVariable v)
    unfold CNF.addVariables at this ⊢
    rw [List.foldl_cons, this]
    unfold addVariable; split <;> rfl

theorem compress_ok {F : CNF V} {c : List (Lit V)} (h : ∀ l ∈ c, l.2 ∈ F.vars) : F.compress c = pure (c.map F.code) := by
  unfold compress
  induction c with
  | nil => rfl
  | cons l c ih =>
    rw [List.mapM_cons, ih (fun l hl => h l (by simp [hl]))]
    have : F.index l.2 = pure ((F.vars.idxOf l.2 : Int) + 1) := by unfold index; rw [if_pos (h l (by simp))]
    rw [this]
    simp [code]

theorem addClauseUnsafe_ok {F : CNF V} {cs : List (List (Lit V))} (h : F.Coh cs) {c : List (Lit V)} (hc : ∀ l ∈ c, l.2 ∈ F.vars) :
    ∃ G, F.addClauseUnsafe c = pure G ∧ G.Coh (cs ++ [c]) ∧ G.vars = F.vars := by
  refine ⟨{ F with clauses := F.clauses ++ [c.map F.code] }, ?_, ⟨h.nodup, ?_, ?_⟩, rfl⟩
  · unfold addClauseUnsafe; rw [compress_ok hc]; rfl
  · intro d hd
    rcases List.mem_append.1 hd with hd | hd
    · exact h.known d hd
    · rw [List.mem_singleton.1 hd]; exact hc
  · simp only [List.map_append, List.map_cons, List.map_nil]; rw [h.clauses]; rfl

theorem addAllUnsafe_ok {ds : List (List (Lit V))} : ∀ {F : CNF V} {cs : List (List (Lit V))}, F.Coh cs →
    (∀ c ∈ ds, ∀ l ∈ c, l.2 ∈ F.vars) → ∃ G, F.addAllUnsafe ds = pure G ∧ G.Coh (cs ++ ds) ∧ G.vars = F.vars := by
  induction ds with
  | nil => intro F cs h _; exact ⟨F, rfl, by simpa using h, rfl⟩
  | cons d ds ih =>
    intro F cs h hd
    obtain ⟨G, h1, h2, h3⟩ := addClauseUnsafe_ok h (hd d (by simp))
    obtain ⟨K, k1, k2, k3⟩ := ih h2 (by intro c hc; rw [h3]; exact hd c (by simp [hc]))
    refine ⟨K, ?_, by simpa using k2, by rw [k3, h3]⟩
    unfold addAllUnsafe at k1 ⊢
    rw [List.foldlM_cons, h1, M.pure_bind, k1]

theorem addClause_ok {strict : Bool} {F : CNF V} {cs : List (List (Lit V))} (h : F.Coh cs) {c : List (Lit V)}
    (hn : (c.map Prod.snd).Nodup) (hc : strict = true → ∀ l ∈ c, l.2 ∈ F.vars) :
    ∃ G, F.addClause strict c = pure G ∧ G.Coh (cs ++ [c]) ∧ ∀ v, v ∈ G.vars ↔ v ∈ F.vars ∨ v ∈ c.map Prod.snd := by
  have hn1 : c.Nodup := List.Nodup.of_map _ hn
  have hn2 : ¬ ∃ l ∈ c, (!l.1, l.2) ∈ c := by
    rintro ⟨l, hl, hl2⟩
    have := List.inj_on_of_nodup_map hn hl hl2 rfl
    have h3 := congrArg Prod.fst this
    cases hb : l.1 <;> simp [hb] at h3
  unfold addClause
  rw [if_neg (not_not.2 hn1), if_neg hn2]
  by_cases hk : ∀ l ∈ c, l.2 ∈ F.vars
  · rw [if_pos hk]
    obtain ⟨G, h1, h2, h3⟩ := addClauseUnsafe_ok h hk
    refine ⟨G, h1, h2, fun v => ?_⟩
    rw [h3]; constructor
    · exact .inl
    · rintro (hv | hv)
      · exact hv
      · obtain ⟨l, hl, rfl⟩ := List.mem_map.1 hv; exact hk l hl
  · rw [if_neg hk]
    cases strict with
    | true => exact absurd (hc rfl) hk
    | false =>
      simp only [Bool.false_eq_true, if_false]
      obtain ⟨G, h1, h2, h3⟩ := addClauseUnsafe_ok (h.addVariables (vs := c.map Prod.snd)) (c := c) (by
        intro l hl; rw [mem_addVariables]; exact .inr (List.mem_map_of_mem hl))
      exact ⟨G, h1, h2, fun v => by rw [h3, mem_addVariables]⟩

theorem addAll_ok {strict : Bool} {ds : List (List (Lit V))} : ∀ {F : CNF V} {cs : List (List (Lit V))}, F.Coh cs →
    (∀ c ∈ ds, (c.map Prod.snd).Nodup) → (strict = true → ∀ c ∈ ds, ∀ l ∈ c, l.2 ∈ F.vars) →
    ∃ G, F.addAll strict ds = pure G ∧ G.Coh (cs ++ ds) ∧ ∀ v, v ∈ G.vars ↔ v ∈ F.vars ∨ ∃ c ∈ ds, v ∈ c.map Prod.snd := by
  induction ds with
  | nil => intro F cs h _ _; exact ⟨F, rfl, by simpa using h, by simp⟩
  | cons d ds ih =>
    intro F cs h hd hs
    obtain ⟨G, h1, h2, h3⟩ := addClause_ok (strict := strict) h (hd d (by simp)) (fun e => hs e d (by simp))
    obtain ⟨K, k1, k2, k3⟩ := ih h2 (fun c hc => hd c (by simp [hc])) (fun e c hc l hl => (h3 _).2 (.inl (hs e c (by simp [hc]) l hl)))
    refine ⟨K, ?_, by simpa using k2, fun v => ?_⟩
    · unfold addAll at k1 ⊢
      rw [List.foldlM_cons, h1, M.pure_bind, k1]
    · rw [k3, h3]; simp [or_assoc]

/-- The truth value of a stored literal. -/
theorem litVal_code {F : CNF V} (α : V → Bool) (β : Spec.Assign) (l : Lit V)
    (h : β (F.vars.idxOf l.2 + 1) = α l.2) : Spec.litVal β (F.code l) = true ↔ α l.2 = l.1 := by
  unfold Spec.litVal code
  have hn : ((F.vars.idxOf l.2 : Int) + 1).natAbs = F.vars.idxOf l.2 + 1 := by omega
  cases hb : l.1
  · simp only [Bool.false_eq_true, if_false, Int.neg_mul, Int.one_mul, Int.natAbs_neg, hn, h]
    rw [if_pos (by omega)]; simp
  · simp only [if_true, Int.one_mul, hn, h]
    rw [if_neg (by omega)]

theorem Coh.sat_iff_of {F : CNF V} {cs : List (List (Lit V))} (h : F.Coh cs) (α : V → Bool) (β : Spec.Assign)
    (hb : ∀ v ∈ F.vars, β (F.vars.idxOf v + 1) = α v) : Spec.Sat β F.clauses ↔ AllTrue α cs := by
  rw [h.clauses]
  constructor
  · intro hs c hc
    obtain ⟨k, hk, hkt⟩ := hs _ (List.mem_map_of_mem hc)
    obtain ⟨l, hl, rfl⟩ := List.mem_map.1 hk
    exact ⟨l, hl, (litVal_code α β l (hb _ (h.known c hc l hl))).1 hkt⟩
  · intro hs k hk
    obtain ⟨c, hc, rfl⟩ := List.mem_map.1 hk
    obtain ⟨l, hl, ht⟩ := hs c hc
    exact ⟨_, List.mem_map_of_mem hl, (litVal_code α β l (hb _ (h.known c hc l hl))).2 ht⟩

/-- The stored clauses are satisfiable exactly when the clauses added are. -/
theorem Coh.sat {F : CNF V} {cs : List (List (Lit V))} (h : F.Coh cs) :
    Spec.Satisfiable F.clauses ↔ ∃ α, AllTrue α cs := by
  constructor
  · rintro ⟨β, hb⟩
    exact ⟨fun v => β (F.vars.idxOf v + 1), (h.sat_iff_of _ β fun v _ => rfl).1 hb⟩
  · rintro ⟨α, ha⟩
    classical
    let β : Spec.Assign := fun n => (F.vars[n - 1]?.map α).getD false
    refine ⟨β, (h.sat_iff_of α β fun v hv => ?_).2 ha⟩
    show (Option.map α F.vars[F.vars.idxOf v + 1 - 1]?).getD false = α v
    rw [Nat.add_sub_cancel, List.getElem?_eq_getElem (List.idxOf_lt_length_of_mem hv), List.getElem_idxOf]
    rfl

/-- The clauses read back (`clauses()`) are the clauses added. -/
theorem Coh.uncompress {F : CNF V} {cs : List (List (Lit V))} (h : F.Coh cs) :
    F.clauses.mapM F.uncompress = pure cs := by
  have h1 : ∀ c : List (Lit V), (∀ l ∈ c, l.2 ∈ F.vars) → F.uncompress (c.map F.code) = pure c := by
    intro c
    induction c with
    | nil => intro _; rfl
    | cons l c ih =>
      intro hk
      have hl : l.2 ∈ F.vars := hk l (by simp)
      have ih := ih (fun l hl => hk l (by simp [hl]))
      unfold CNF.uncompress at ih ⊢
      rw [List.map_cons, List.mapM_cons, ih]
      have hn : (F.code l).natAbs - 1 = F.vars.idxOf l.2 := by
        unfold code; cases l.1 <;> simp <;> omega
      have hp : decide (0 < F.code l) = l.1 := by
        unfold code; cases l.1 <;> simp <;> omega
      rw [hn, List.getElem?_eq_getElem (List.idxOf_lt_length_of_mem hl), List.getElem_idxOf, hp]
      simp [orRaise]
  rw [h.clauses]
  have h2 : ∀ cs : List (List (Lit V)), (∀ c ∈ cs, ∀ l ∈ c, l.2 ∈ F.vars) →
      (cs.map fun c => c.map F.code).mapM F.uncompress = pure cs := by
    intro cs
    induction cs with
    | nil => intro _; rfl
    | cons c cs ih =>
      intro hk
      rw [List.map_cons, List.mapM_cons, h1 c (hk c (by simp)), ih (fun c hc => hk c (by simp [hc]))]
      simp
  exact h2 cs h.known

/-- The stored literals are the numbers of the variables, with a sign. -/
theorem Coh.range {F : CNF V} {cs : List (List (Lit V))} (h : F.Coh cs) :
    ∀ c ∈ F.clauses, ∀ l ∈ c, 1 ≤ l.natAbs ∧ l.natAbs ≤ F.vars.length := by
  rw [h.clauses]
  intro k hk l hl
  obtain ⟨c, hc, rfl⟩ := List.mem_map.1 hk
  obtain ⟨x, hx, rfl⟩ := List.mem_map.1 hl
  have := List.idxOf_lt_length_of_mem (h.known c hc x hx)
  have : (F.code x).natAbs = F.vars.idxOf x.2 + 1 := by unfold code; cases x.1 <;> simp <;> omega
  omega

end CNF
end NDP.Cnfgen
