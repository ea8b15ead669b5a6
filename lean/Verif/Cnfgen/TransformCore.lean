import Verif.Cnfgen.Transform
import Verif.Cnfgen.Mapping
/-
  Lemmas on substitutions.
-/
namespace NDP.Cnfgen
open NDP

theorem mapM_ok {A B : Type} {f : A → M B} {g : A → B} : ∀ {l : List A}, (∀ a ∈ l, f a = pure (g a)) → l.mapM f = pure (l.map g)
  | [], _ => rfl
  | a :: l, h => by
    rw [List.mapM_cons, h a (by simp), M.pure_bind, mapM_ok (l := l) fun a ha => h a (by simp [ha])]
    rfl

theorem product_map {A B : Type} (f : A → B) : ∀ ds : List (List A), product (ds.map fun d => d.map f) = (product ds).map fun t => t.map f
  | [] => rfl
  | d :: ds => by
    simp only [List.map_cons, product, product_map f ds, List.flatMap_map, List.map_flatMap, List.map_map]
    rfl

theorem mem_forall₂ {A : Type} {t : List A} {ds : List (List A)} (h : List.Forall₂ (fun x d => x ∈ d) t ds) {e : A} (he : e ∈ t) :
    ∃ x ∈ ds, e ∈ x := by
  induction h with
  | nil => simp at he
  | cons h _ ih =>
    rcases List.mem_cons.1 he with rfl | he
    · exact ⟨_, List.mem_cons_self, h⟩
    · obtain ⟨x, hx, h2⟩ := ih he; exact ⟨x, List.mem_cons_of_mem _ hx, h2⟩

section
variable {V W : Type} [DecidableEq V] [DecidableEq W]

theorem CNF.coherent_iff {F : CNF V} : F.coherent = true ↔ Proper F.vars F.clauses := by
  simp only [CNF.coherent, Proper, Bool.and_eq_true, decide_eq_true_eq, List.all_eq_true]
  rfl

theorem CNF.Coh.proper {F : CNF V} {cs : List (List (Lit V))} (h : F.Coh cs) : Proper F.vars F.clauses := ⟨h.nodup, h.range⟩

/-- The clauses of a proper formula, with names. -/
theorem Proper.coh {F : CNF V} (h : Proper F.vars F.clauses) : ∃ cs, F.Coh cs := by
  have h1 : ∀ l : Int, 1 ≤ l.natAbs → l.natAbs ≤ F.vars.length → ∃ m : Lit V, m.2 ∈ F.vars ∧ F.code m = l := by
    intro l hl hl2
    have hlt : l.natAbs - 1 < F.vars.length := by omega
    refine ⟨(decide (0 < l), F.vars[l.natAbs - 1]), List.getElem_mem _, ?_⟩
    simp only [CNF.code, h.1.idxOf_getElem _ hlt]
    by_cases hp : 0 < l
    · simp only [hp, decide_true, if_true]; omega
    · simp only [hp, decide_false, Bool.false_eq_true, if_false]; omega
  have h2 : ∀ c : List Int, (∀ l ∈ c, 1 ≤ l.natAbs ∧ l.natAbs ≤ F.vars.length) →
      ∃ d : List (Lit V), (∀ l ∈ d, l.2 ∈ F.vars) ∧ d.map F.code = c := by
    intro c
    induction c with
    | nil => intro _; exact ⟨[], by simp, rfl⟩
    | cons l c ih =>
      intro hc
      obtain ⟨d, hd, e⟩ := ih fun l hl => hc l (by simp [hl])
      obtain ⟨m, hm, e'⟩ := h1 l (hc l (by simp)).1 (hc l (by simp)).2
      exact ⟨m :: d, List.forall_mem_cons.2 ⟨hm, hd⟩, by simp [e, e']⟩
  have h3 : ∀ k : List (List Int), (∀ c ∈ k, ∀ l ∈ c, 1 ≤ l.natAbs ∧ l.natAbs ≤ F.vars.length) →
      ∃ cs : List (List (Lit V)), (∀ c ∈ cs, ∀ l ∈ c, l.2 ∈ F.vars) ∧ k = cs.map fun c => c.map F.code := by
    intro k
    induction k with
    | nil => intro _; exact ⟨[], by simp, rfl⟩
    | cons c k ih =>
      intro hk
      obtain ⟨cs, hcs, e⟩ := ih fun c hc => hk c (by simp [hc])
      obtain ⟨d, hd, e'⟩ := h2 c (hk c (by simp))
      exact ⟨d :: cs, List.forall_mem_cons.2 ⟨hd, hcs⟩, by simp [e, e']⟩
  obtain ⟨cs, hcs, e⟩ := h3 _ h.2
  exact ⟨cs, h.1, hcs, e⟩

/-- What `Holds` says, in terms of named clauses. -/
theorem CNF.Coh.holds {F : CNF V} {cs : List (List (Lit V))} (h : F.Coh cs) (α : V → Bool) : Holds F.vars F.clauses α ↔ AllTrue α cs := by
  have key : ∀ m : Lit V, m.2 ∈ F.vars → ((∃ v, F.code m ≠ 0 ∧ F.vars[(F.code m).natAbs - 1]? = some v ∧ α v = decide (0 < F.code m)) ↔
      α m.2 = m.1) := by
    rintro ⟨b, v⟩ hv
    have hlt := List.idxOf_lt_length_of_mem hv
    have e1 : (F.code (b, v)).natAbs - 1 = F.vars.idxOf v := by cases b <;> simp only [CNF.code] <;> simp <;> omega
    have e2 : F.code (b, v) ≠ 0 := by cases b <;> simp only [CNF.code] <;> simp <;> omega
    have e3 : decide (0 < F.code (b, v)) = b := by
      cases b <;> simp only [CNF.code] <;> simp <;> omega
    rw [e1, e3, List.getElem?_eq_getElem hlt]
    simp only [List.getElem_idxOf, Option.some.injEq]
    constructor
    · rintro ⟨w, _, rfl, hw⟩; exact hw
    · intro h; exact ⟨v, e2, rfl, h⟩
  unfold Holds AllTrue
  rw [h.clauses]
  simp only [List.mem_map, forall_exists_index, and_imp, forall_apply_eq_imp_iff₂, exists_exists_and_eq_and]
  refine forall_congr' fun c => forall_congr' fun hc => ?_
  constructor
  · rintro ⟨m, hm, h2⟩; exact ⟨m, hm, (key m (h.known c hc m hm)).1 h2⟩
  · rintro ⟨m, hm, h2⟩; exact ⟨m, hm, (key m (h.known c hc m hm)).2 h2⟩

/-- Satisfiability of the numbered clauses (`Spec.Satisfiable`, as for the solver) and of the named ones. -/
theorem Proper.sat {F : CNF V} (h : Proper F.vars F.clauses) : Spec.Satisfiable F.clauses ↔ ∃ α, Holds F.vars F.clauses α := by
  obtain ⟨cs, hc⟩ := h.coh
  rw [hc.sat, exists_congr hc.holds]

/-- The clauses of the substituted formula, with names. -/
def substClauses (F : CNF V) (cs : List (List (Lit V))) (pre : V → List (List (Lit W))) (tr : Bool → V → List (List (Lit W))) :
    List (List (Lit W)) :=
  (cs.flatMap fun c => (product (c.map fun l => tr l.1 l.2)).map List.flatten) ++ F.vars.flatMap pre

theorem allTrue_product (α : W → Bool) : ∀ ds : List (List (List (Lit W))),
    AllTrue α ((product ds).map List.flatten) ↔ ∃ d ∈ ds, AllTrue α d
  | [] => by simp [product, AllTrue, ClauseTrue]
  | d :: ds => by
    rw [allTrue_map]
    simp only [List.mem_cons, exists_eq_or_imp, ← allTrue_product α ds, product, List.mem_flatMap, List.mem_map, allTrue_map]
    constructor
    · intro h
      by_contra hc
      simp only [not_or, AllTrue, not_forall, exists_prop] at hc
      obtain ⟨⟨c, hc, hc'⟩, t, ht, ht'⟩ := hc
      have := h _ ⟨c, hc, t, ht, rfl⟩
      rw [List.flatten_cons, clauseTrue_append] at this
      tauto
    · rintro h _ ⟨c, hc, t, ht, rfl⟩
      rw [List.flatten_cons, clauseTrue_append]
      rcases h with h | h
      · exact .inl (h c hc)
      · exact .inr (h t ht)

theorem allTrue_substClauses {F : CNF V} {cs : List (List (Lit V))} (hk : ∀ c ∈ cs, ∀ l ∈ c, l.2 ∈ F.vars)
    {pre : V → List (List (Lit W))} {tr : Bool → V → List (List (Lit W))} (α : W → Bool) (g : V → Bool)
    (h : ∀ v ∈ F.vars, AllTrue α (pre v) → ∀ b, AllTrue α (tr b v) ↔ g v = b) :
    AllTrue α (substClauses F cs pre tr) ↔ (∀ v ∈ F.vars, AllTrue α (pre v)) ∧ AllTrue g cs := by
  unfold substClauses
  rw [allTrue_append, allTrue_flatMap, allTrue_flatMap, and_comm]
  refine and_congr_right fun hp => ?_
  simp only [allTrue_product, List.mem_map, exists_exists_and_eq_and]
  refine forall_congr' fun c => forall_congr' fun hc => ?_
  constructor
  · rintro ⟨l, hl, h2⟩; exact ⟨l, hl, (h _ (hk c hc l hl) (hp _ (hk c hc l hl)) _).1 h2⟩
  · rintro ⟨l, hl, h2⟩; exact ⟨l, hl, (h _ (hk c hc l hl) (hp _ (hk c hc l hl)) _).2 h2⟩

theorem baseSubst_coh {F : CNF V} {cs : List (List (Lit V))} (hF : F.Coh cs) {pre : V → List (List (Lit W))}
    {tr : Bool → V → List (List (Lit W))} {nv : Option (List W)}
    (hk : ∀ vs, nv = some vs → ∀ v ∈ F.vars, (∀ c ∈ pre v, ∀ l ∈ c, l.2 ∈ vs) ∧ ∀ b, ∀ c ∈ tr b v, ∀ l ∈ c, l.2 ∈ vs) :
    ∃ H, baseSubst F pre tr nv = pure H ∧ H.Coh (substClauses F cs pre tr) ∧
      ∀ w, w ∈ H.vars ↔ w ∈ nv.getD
        (F.vars.flatMap fun v => (pre v ++ tr true v ++ tr false v).flatMap fun (c : List (Lit W)) => c.map Prod.snd) := by
  unfold baseSubst
  rw [if_neg (by rw [CNF.coherent_iff.2 hF.proper]; simp)]
  obtain ⟨ws, hws⟩ : ∃ ws : List W, ws = nv.getD
    (F.vars.flatMap fun v => (pre v ++ tr true v ++ tr false v).flatMap fun (c : List (Lit W)) => c.map Prod.snd) := ⟨_, rfl⟩
  obtain ⟨G, hG⟩ : ∃ G, G = ({} : CNF W).addVariables ws := ⟨_, rfl⟩
  have hGv : ∀ w, w ∈ G.vars ↔ w ∈ ws := by intro w; rw [hG, CNF.mem_addVariables]; simp
  have hGc : G.Coh [] := by rw [hG]; exact CNF.coh_empty.addVariables
  have hmem : ∀ w, w ∈ ws ↔ match nv with
        | none => ∃ v ∈ F.vars, ∃ c ∈ pre v ++ tr true v ++ tr false v, ∃ l ∈ c, l.2 = w
        | some vs => w ∈ vs := by
    intro w
    cases nv with
    | none => simp only [hws, Option.getD_none, List.mem_flatMap, List.mem_map]
    | some vs => simp only [hws, Option.getD_some]
  have hkp : ∀ v ∈ F.vars, ∀ c ∈ pre v, ∀ l ∈ c, l.2 ∈ G.vars := by
    intro v hv c hc l hl
    rw [hGv, hmem]
    cases nv with
    | none => exact ⟨v, hv, c, by simp [hc], l, hl, rfl⟩
    | some vs => exact (hk vs rfl v hv).1 c hc l hl
  have hkt : ∀ b, ∀ v ∈ F.vars, ∀ c ∈ tr b v, ∀ l ∈ c, l.2 ∈ G.vars := by
    intro b v hv c hc l hl
    rw [hGv, hmem]
    cases nv with
    | none => exact ⟨v, hv, c, by cases b <;> simp [hc], l, hl, rfl⟩
    | some vs => exact (hk vs rfl v hv).2 b c hc l hl
  rw [← hws, ← hG]
  dsimp only
  rw [mapM_ok (g := fun v => (pre v).map fun (c : List (Lit W)) => c.map G.code)
    fun v hv => mapM_ok fun c hc => CNF.compress_ok (hkp v hv c hc), M.pure_bind]
  rw [mapM_ok (g := fun v => (tr true v).map fun (c : List (Lit W)) => c.map G.code)
    fun v hv => mapM_ok fun c hc => CNF.compress_ok (hkt true v hv c hc), M.pure_bind]
  rw [mapM_ok (g := fun v => (tr false v).map fun (c : List (Lit W)) => c.map G.code)
    fun v hv => mapM_ok fun c hc => CNF.compress_ok (hkt false v hv c hc), M.pure_bind]
  have hb : F.clauses.mapM (fun (c : List Int) => do
      let domains ← c.mapM fun (l : Int) => orRaise .indexError (if 0 < l then (F.vars.map fun v => (tr true v).map fun (c : List (Lit W)) => c.map G.code)[l.natAbs - 1]?
        else (F.vars.map fun v => (tr false v).map fun (c : List (Lit W)) => c.map G.code)[l.natAbs - 1]?)
      pure ((product domains).map List.flatten)) =
      pure (cs.map fun c => ((product (c.map fun l => tr l.1 l.2)).map List.flatten).map fun (c : List (Lit W)) => c.map G.code) := by
    have hl : ∀ m : Lit V, m.2 ∈ F.vars → orRaise .indexError (if 0 < F.code m then (F.vars.map fun v => (tr true v).map fun (c : List (Lit W)) => c.map G.code)[(F.code m).natAbs - 1]?
        else (F.vars.map fun v => (tr false v).map fun (c : List (Lit W)) => c.map G.code)[(F.code m).natAbs - 1]?) = pure ((tr m.1 m.2).map fun (c : List (Lit W)) => c.map G.code) := by
      rintro ⟨b, v⟩ hv
      have hlt := List.idxOf_lt_length_of_mem hv
      have e1 : (F.code (b, v)).natAbs - 1 = F.vars.idxOf v := by cases b <;> simp only [CNF.code] <;> simp <;> omega
      have e3 : 0 < F.code (b, v) ↔ b = true := by cases b <;> simp only [CNF.code] <;> simp <;> omega
      rw [e1]
      simp only [e3, List.getElem?_map, List.getElem?_eq_getElem hlt, List.getElem_idxOf, Option.map_some]
      cases b <;> rfl
    rw [hF.clauses]
    have : ∀ ds : List (List (Lit V)), (∀ c ∈ ds, ∀ l ∈ c, l.2 ∈ F.vars) → (ds.map fun c => c.map F.code).mapM (fun (c : List Int) => do
      let domains ← c.mapM fun (l : Int) => orRaise .indexError (if 0 < l then (F.vars.map fun v => (tr true v).map fun (c : List (Lit W)) => c.map G.code)[l.natAbs - 1]?
        else (F.vars.map fun v => (tr false v).map fun (c : List (Lit W)) => c.map G.code)[l.natAbs - 1]?)
      pure ((product domains).map List.flatten)) =
      (pure (ds.map fun c => ((product (c.map fun l => tr l.1 l.2)).map List.flatten).map fun (c : List (Lit W)) => c.map G.code) : M _) := by
      intro ds
      induction ds with
      | nil => intro _; rfl
      | cons c ds ih =>
        intro h
        rw [List.map_cons, List.mapM_cons, ih fun c hc => h c (by simp [hc]), List.map_cons]
        have hd : (c.map F.code).mapM (fun (l : Int) => orRaise .indexError (if 0 < l then (F.vars.map fun v => (tr true v).map fun (c : List (Lit W)) => c.map G.code)[l.natAbs - 1]?
            else (F.vars.map fun v => (tr false v).map fun (c : List (Lit W)) => c.map G.code)[l.natAbs - 1]?)) =
            (pure (c.map fun l => (tr l.1 l.2).map fun (c : List (Lit W)) => c.map G.code) : M _) := by
          have hc := h c (by simp)
          clear h ih
          induction c with
          | nil => rfl
          | cons l c ih =>
            rw [List.map_cons, List.mapM_cons, hl l (hc l (by simp)), M.pure_bind, ih fun l hl => hc l (by simp [hl])]
            rfl
        rw [hd, M.pure_bind]
        have := product_map (fun c : List (Lit W) => c.map G.code) (c.map fun l => tr l.1 l.2)
        rw [List.map_map] at this
        have e : (c.map fun l => (tr l.1 l.2).map fun (c : List (Lit W)) => c.map G.code) =
          c.map ((fun d : List (List (Lit W)) => d.map fun (c : List (Lit W)) => c.map G.code) ∘ fun l => tr l.1 l.2) := rfl
        rw [e, this, List.map_map, List.map_map]
        simp only [M.pure_bind]
        congr 2
        refine List.map_congr_left fun t _ => ?_
        simp [List.map_flatten]
    exact this cs hF.known
  rw [hb, M.pure_bind]
  have hcoh : CNF.Coh { G with clauses := (cs.map fun c => ((product (c.map fun l => tr l.1 l.2)).map List.flatten).map fun (c : List (Lit W)) => c.map G.code).flatten ++
      (F.vars.map fun v => (pre v).map fun (c : List (Lit W)) => c.map G.code).flatten } (substClauses F cs pre tr) := by
    refine ⟨hGc.nodup, ?_, ?_⟩
    · intro c hc
      unfold substClauses at hc
      rcases List.mem_append.1 hc with hc | hc
      · obtain ⟨d, hd, hc⟩ := List.mem_flatMap.1 hc
        obtain ⟨t, ht, rfl⟩ := List.mem_map.1 hc
        intro l hl
        obtain ⟨e, he, hl⟩ := List.mem_flatten.1 hl
        have := mem_product.1 ht
        obtain ⟨x, hx, hex⟩ : ∃ x ∈ d.map (fun l => tr l.1 l.2), e ∈ x := by
          exact mem_forall₂ this he
        obtain ⟨m, hm, rfl⟩ := List.mem_map.1 hx
        exact hkt _ _ (hF.known d hd m hm) e hex l hl
      · obtain ⟨v, hv, hc⟩ := List.mem_flatMap.1 hc
        exact hkp v hv c hc
    · unfold substClauses
      simp only [List.map_append, List.flatMap, List.map_flatten, List.map_map, Function.comp_def]
      rfl
  refine ⟨_, if_pos (CNF.coherent_iff.2 hcoh.proper), hcoh, fun w => ?_⟩
  rw [← hGv]

/-- The general fact about substitutions: with `g α v` the value which the substituted function takes. -/
theorem baseSubst_ok (F : CNF V) (hF : Proper F.vars F.clauses) {pre : V → List (List (Lit W))} {tr : Bool → V → List (List (Lit W))}
    {nv : Option (List W)} (g : (W → Bool) → V → Bool)
    (hk : ∀ vs, nv = some vs → ∀ v ∈ F.vars, (∀ c ∈ pre v, ∀ l ∈ c, l.2 ∈ vs) ∧ ∀ b, ∀ c ∈ tr b v, ∀ l ∈ c, l.2 ∈ vs)
    (h : ∀ α, ∀ v ∈ F.vars, AllTrue α (pre v) → ∀ b, AllTrue α (tr b v) ↔ g α v = b) :
    ∃ H, baseSubst F pre tr nv = pure H ∧ Proper H.vars H.clauses ∧
      ∀ α, Holds H.vars H.clauses α ↔ (∀ v ∈ F.vars, AllTrue α (pre v)) ∧ Holds F.vars F.clauses (g α) := by
  obtain ⟨cs, hc⟩ := hF.coh
  obtain ⟨H, hH, hcoh, _⟩ := baseSubst_coh hc hk
  refine ⟨H, hH, hcoh.proper, fun α => ?_⟩
  rw [hcoh.holds, hc.holds, allTrue_substClauses hc.known α (g α) (h α)]

end
end NDP.Cnfgen
