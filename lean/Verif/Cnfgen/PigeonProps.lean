import Verif.Cnfgen.Binary
/-
  C50: the pigeonhole formulas.
-/
namespace NDP.Cnfgen
open NDP

/-- **C50.** The pigeonhole formula is satisfiable exactly when the pigeons fit: at most as many as holes; when every hole must be
used, as many as holes if each pigeon sits in one hole, and at least one pigeon otherwise. -/
theorem C50_pigeonhole (pigeons holes : Nat) (functional onto : Bool) :
    ∃ F, pigeonhole pigeons holes functional onto = pure F ∧
      (Spec.Satisfiable F.clauses ↔ pigeons ≤ holes ∧
        (onto = true → if functional then pigeons = holes else (holes = 0 ∨ 0 < pigeons))) := by
  unfold pigeonhole
  obtain ⟨F, hF, hc, _⟩ := CNF.ofParts_ok (UnaryMapping.clauses_known (m := { UnaryMapping.full (oneTo pigeons) (oneTo holes) (fmt2 "p".toList) with
    injective := true, functional := functional, surjective := onto }) (fun r hr d hd => ⟨hd, hr⟩))
  refine ⟨F, hF, ?_⟩
  rw [hc.sat]
  have key := fun α : Str → Bool => UnaryMapping.C49_unary { UnaryMapping.full (oneTo pigeons) (oneTo holes) (fmt2 "p".toList) with
    injective := true, functional := functional, surjective := onto } (fun _ => oneTo_nodup _) (fun _ => oneTo_nodup _) α
  rw [exists_congr key]
  simp only [UnaryMapping.full, true_imp_iff, mem_oneTo, Bool.false_eq_true, false_imp_iff, and_true]
  constructor
  · rintro ⟨α, hcompl, hsurj, hinj, hfun⟩
    choose! f hf using hcompl
    have hle : pigeons ≤ holes := by
      have := Finset.card_le_card_of_injOn (s := Finset.Icc 1 pigeons) (t := Finset.Icc 1 holes) f
        (by intro i hi; simp only [Finset.coe_Icc, Set.mem_Icc, Finset.mem_coe, Finset.mem_Icc] at hi ⊢; exact (hf i hi).1)
        (by
          intro i hi j hj e
          simp only [Finset.coe_Icc, Set.mem_Icc] at hi hj
          exact hinj (f i) (hf i hi).1 i hi j hj (hf i hi).2 (e ▸ (hf j hj).2))
      simpa using this
    refine ⟨hle, fun ho => ?_⟩
    have hsurj := hsurj ho
    cases functional with
    | false =>
      simp only [Bool.false_eq_true, if_false]
      rcases Nat.eq_zero_or_pos holes with h | h
      · exact .inl h
      · obtain ⟨d, hd, _⟩ := hsurj 1 ⟨by omega, by omega⟩
        exact .inr (by omega)
    | true =>
      simp only [if_true]
      have hfun := hfun rfl
      choose! g hg using hsurj
      refine le_antisymm hle ?_
      have := Finset.card_le_card_of_injOn (s := Finset.Icc 1 holes) (t := Finset.Icc 1 pigeons) g
        (by intro i hi; simp only [Finset.coe_Icc, Set.mem_Icc, Finset.mem_coe, Finset.mem_Icc] at hi ⊢; exact (hg i hi).1)
        (by
          intro i hi j hj e
          simp only [Finset.coe_Icc, Set.mem_Icc] at hi hj
          exact hfun (g i) (hg i hi).1 i hi j hj (hg i hi).2 (e ▸ (hg j hj).2))
      simpa using this
  · rintro ⟨hle, ho⟩
    cases functional with
    | false =>
      obtain ⟨α, ha⟩ := exists_fmt2 "p".toList fun i j => i = min j pigeons
      refine ⟨α, fun i hi => ⟨i, by omega, (ha _ _).2 (by omega)⟩, fun h j hj => ?_, ?_, by simp⟩
      · have := ho h
        simp only [Bool.false_eq_true, if_false] at this
        exact ⟨min j pigeons, by omega, (ha _ _).2 rfl⟩
      · intro j hj i hi i' hi' h1 h2
        rw [ha] at h1 h2
        omega
    | true =>
      obtain ⟨α, ha⟩ := exists_fmt2 "p".toList fun i j => i = j
      refine ⟨α, fun i hi => ⟨i, by omega, (ha _ _).2 rfl⟩, fun h j hj => ?_, ?_, ?_⟩
      · have := ho h
        simp only [if_true] at this
        exact ⟨j, by omega, (ha _ _).2 rfl⟩
      · intro j hj i hi i' hi' h1 h2
        rw [ha] at h1 h2
        omega
      · intro _ j hj i hi i' hi' h1 h2
        rw [ha] at h1 h2
        omega

/-- Five pigeons and four holes: unsatisfiable.  Four and four: satisfiable in every variant. -/
example : (∃ F, pigeonhole 5 4 false false = pure F ∧ ¬ Spec.Satisfiable F.clauses) ∧
    ∃ F, pigeonhole 4 4 true true = pure F ∧ Spec.Satisfiable F.clauses := by
  obtain ⟨F, h1, h2⟩ := C50_pigeonhole 5 4 false false
  obtain ⟨G, h3, h4⟩ := C50_pigeonhole 4 4 true true
  exact ⟨⟨F, h1, by rw [h2]; omega⟩, G, h3, h4.2 (by simp)⟩

/-- Lists of sorted vertices have no repetition. -/
def BiGraph.Wf (g : BiGraph) : Prop := g.left.Nodup ∧ g.right.Nodup

/-- **C50.** The graph pigeonhole formula is satisfiable exactly when some set of edges covers every left vertex and no right
vertex twice (no left vertex twice if functional; every right vertex if onto). -/
theorem C50_graph_pigeonhole (g : BiGraph) (hg : g.Wf) (functional onto : Bool) :
    ∃ F, graphPigeonhole g functional onto = pure F ∧
      (Spec.Satisfiable F.clauses ↔ ∃ E : Nat → Nat → Prop,
        (∀ u ∈ g.left, ∃ v ∈ g.right, (u, v) ∈ g.edges ∧ E u v) ∧
        (∀ v ∈ g.right, ∀ u ∈ g.left, ∀ u' ∈ g.left, (u, v) ∈ g.edges → (u', v) ∈ g.edges → E u v → E u' v → u = u') ∧
        (functional = true → ∀ u ∈ g.left, ∀ v ∈ g.right, ∀ v' ∈ g.right, (u, v) ∈ g.edges → (u, v') ∈ g.edges → E u v → E u v' → v = v') ∧
        (onto = true → ∀ v ∈ g.right, ∃ u ∈ g.left, (u, v) ∈ g.edges ∧ E u v)) := by
  unfold graphPigeonhole
  obtain ⟨F, hF, hc, _⟩ := CNF.ofParts_ok (UnaryMapping.clauses_known (m := { UnaryMapping.sparse g (fmt2 "p".toList) with
    injective := true, functional := functional, surjective := onto }) (by
      intro r hr d hd
      simp only [UnaryMapping.sparse, BiGraph.nbrR, BiGraph.nbrL, List.mem_filter, decide_eq_true_eq] at *
      exact ⟨hd.1, hr, hd.2⟩))
  refine ⟨F, hF, ?_⟩
  rw [hc.sat]
  have key := fun α : Str → Bool => UnaryMapping.C49_unary { UnaryMapping.sparse g (fmt2 "p".toList) with
    injective := true, functional := functional, surjective := onto } (fun _ => hg.2.filter _) (fun _ => hg.1.filter _) α
  rw [exists_congr key]
  simp only [UnaryMapping.sparse, true_imp_iff, BiGraph.nbrR, BiGraph.nbrL, List.mem_filter, decide_eq_true_eq,
    Bool.false_eq_true, false_imp_iff, and_true]
  constructor
  · rintro ⟨α, h1, h2, h3, h4⟩
    refine ⟨fun u v => α (fmt2 "p".toList u v) = true, ?_, ?_, ?_, ?_⟩
    · intro u hu; obtain ⟨v, ⟨a, b⟩, c⟩ := h1 u hu; exact ⟨v, a, b, c⟩
    · intro v hv u hu u' hu' e e'; exact h3 v hv u ⟨hu, e⟩ u' ⟨hu', e'⟩
    · intro hf u hu v hv v' hv' e e'; exact h4 hf u hu v ⟨hv, e⟩ v' ⟨hv', e'⟩
    · intro ho v hv; obtain ⟨u, ⟨a, b⟩, c⟩ := h2 ho v hv; exact ⟨u, a, b, c⟩
  · rintro ⟨E, h1, h2, h3, h4⟩
    obtain ⟨α, ha⟩ := exists_fmt2 "p".toList E
    refine ⟨α, ?_, ?_, ?_, ?_⟩
    · intro u hu; obtain ⟨v, a, b, c⟩ := h1 u hu; exact ⟨v, ⟨a, b⟩, (ha _ _).2 c⟩
    · intro ho v hv; obtain ⟨u, a, b, c⟩ := h4 ho v hv; exact ⟨u, ⟨a, b⟩, (ha _ _).2 c⟩
    · rintro v hv u ⟨hu, e⟩ u' ⟨hu', e'⟩ x y; exact h2 v hv u hu u' hu' e e' ((ha _ _).1 x) ((ha _ _).1 y)
    · rintro hf u hu v ⟨hv, e⟩ v' ⟨hv', e'⟩ x y; exact h3 hf u hu v hv v' hv' e e' ((ha _ _).1 x) ((ha _ _).1 y)

/-- **C50.** Unless onto, it is satisfiable exactly when the graph has a matching of all left vertices. -/
theorem C50_graph_matching (g : BiGraph) (hg : g.Wf) (functional : Bool) :
    ∃ F, graphPigeonhole g functional false = pure F ∧
      (Spec.Satisfiable F.clauses ↔ ∃ f : Nat → Nat, (∀ u ∈ g.left, f u ∈ g.right ∧ (u, f u) ∈ g.edges) ∧
        ∀ u ∈ g.left, ∀ u' ∈ g.left, f u = f u' → u = u') := by
  obtain ⟨F, hF, h⟩ := C50_graph_pigeonhole g hg functional false
  refine ⟨F, hF, h.trans ?_⟩
  constructor
  · rintro ⟨E, h1, h2, _, _⟩
    choose! f hf using h1
    exact ⟨f, fun u hu => ⟨(hf u hu).1, (hf u hu).2.1⟩, fun u hu u' hu' e =>
      h2 (f u) (hf u hu).1 u hu u' hu' (hf u hu).2.1 (e ▸ (hf u' hu').2.1) (hf u hu).2.2 (e ▸ (hf u' hu').2.2)⟩
  · rintro ⟨f, h1, h2⟩
    refine ⟨fun u v => v = f u, fun u hu => ⟨f u, (h1 u hu).1, (h1 u hu).2, rfl⟩, ?_, ?_, by simp⟩
    · intro v hv u hu u' hu' _ _ a b; exact h2 u hu u' hu' (by rw [← a, ← b])
    · intro _ u hu v hv v' hv' _ _ a b; rw [a, b]

/-- Three pigeons that only fit in two holes, and two that fit. -/
example : (∃ F, graphPigeonhole ⟨[1, 2, 3], [4, 5, 6], [(1, 4), (1, 5), (2, 4), (2, 5), (3, 4)]⟩ false false = pure F ∧
      ¬ Spec.Satisfiable F.clauses) ∧
    ∃ F, graphPigeonhole ⟨[1, 2], [4, 5, 6], [(1, 4), (1, 5), (2, 4)]⟩ false false = pure F ∧ Spec.Satisfiable F.clauses := by
  obtain ⟨F, h1, h2⟩ := C50_graph_matching ⟨[1, 2, 3], [4, 5, 6], [(1, 4), (1, 5), (2, 4), (2, 5), (3, 4)]⟩ (by simp [BiGraph.Wf]) false
  obtain ⟨G, h3, h4⟩ := C50_graph_matching ⟨[1, 2], [4, 5, 6], [(1, 4), (1, 5), (2, 4)]⟩ (by simp [BiGraph.Wf]) false
  refine ⟨⟨F, h1, ?_⟩, G, h3, h4.2 ⟨fun u => if u = 1 then 5 else 4, by simp, by simp⟩⟩
  rw [h2]
  rintro ⟨f, hf, hi⟩
  simp only [List.mem_cons, List.not_mem_nil, or_false, forall_eq_or_imp, forall_eq, Prod.mk.injEq] at hf hi
  omega

theorem binVal_testBit {V : Type} (α : V → Bool) (name : Nat → V) (n : Nat) (h : ∀ k, α (name k) = n.testBit k) (k : Nat) :
    binVal α name k = n % 2 ^ k := by
  induction k with
  | zero => simp [binVal, Nat.mod_one]
  | succ k ih =>
    rw [binVal, ih, h, Nat.mod_pow_succ, Nat.testBit_eq_decide_div_mod_eq]
    rcases Nat.mod_two_eq_zero_or_one (n / 2 ^ k) with e | e <;> simp [e]

/-- **C50.** The binary pigeonhole formula is satisfiable exactly when the pigeons fit. -/
theorem C50_binary_pigeonhole (pigeons holes bits : Nat) (hh : 0 < holes) (hb : holes ≤ 2 ^ bits) :
    ∃ F, binaryPigeonhole pigeons holes bits = pure F ∧ (Spec.Satisfiable F.clauses ↔ pigeons ≤ holes) := by
  unfold binaryPigeonhole
  rw [if_neg (by omega)]
  obtain ⟨F, hF, hc, _⟩ := CNF.ofParts_ok (BinaryMapping.clauses_known (m := {
    domain := oneTo pigeons, range := oneTo holes, bits := bits, name := fmt2 "Y".toList, injective := true }))
  refine ⟨F, hF, ?_⟩
  rw [hc.sat]
  have key := fun α : Str → Bool => BinaryMapping.C49_binary {
    domain := oneTo pigeons, range := oneTo holes, bits := bits, name := fmt2 "Y".toList, injective := true }
    (by simpa [length_oneTo] using hb) (oneTo_nodup _) α
  rw [exists_congr key]
  simp only [true_imp_iff, Bool.false_eq_true, false_imp_iff, and_true, length_oneTo, mem_oneTo]
  have hsub : ∀ i j, [i, j].Sublist (oneTo pigeons) → i < j := by
    intro i j hs
    have := (oneTo_sorted pigeons).sublist hs
    simpa using this
  have hsub2 : ∀ i j, 1 ≤ i → i < j → j ≤ pigeons → [i, j].Sublist (oneTo pigeons) := by
    intro i j h1 h2 h3
    have : oneTo pigeons = (oneTo i) ++ ((List.range (pigeons - i)).map (i + ·)).map (· + 1) := by
      unfold oneTo; rw [← List.map_append, ← List.range_add]; congr 2; omega
    rw [this]
    refine List.Sublist.append (l₁ := [i]) (r₁ := [j]) (List.singleton_sublist.2 (mem_oneTo.2 ⟨h1, le_refl _⟩)) (List.singleton_sublist.2 ?_)
    simp only [List.mem_map, List.mem_range]
    exact ⟨j - 1, ⟨j - 1 - i, by omega, by omega⟩, by omega⟩
  constructor
  · rintro ⟨α, h1, h2⟩
    have := Finset.card_le_card_of_injOn (s := Finset.Icc 1 pigeons) (t := Finset.range holes)
      (fun i => binVal α (fmt2 "Y".toList i) bits)
      (by intro i hi; simp only [Finset.coe_Icc, Set.mem_Icc, Finset.mem_coe, Finset.mem_range] at hi ⊢; exact h1 i hi)
      (by
        intro i hi j hj e
        simp only [Finset.coe_Icc, Set.mem_Icc] at hi hj
        by_contra hne
        rcases Nat.lt_or_gt_of_ne hne with h | h
        · exact h2 i j (hsub2 i j hi.1 h hj.2) e
        · exact h2 j i (hsub2 j i hj.1 h hi.2) e.symm)
    simpa using this
  · intro hle
    obtain ⟨α, ha⟩ := exists_assign (fmt2_injective "Y".toList) (fun p => (p.1 - 1).testBit p.2)
    have hv : ∀ i, 1 ≤ i ∧ i ≤ pigeons → binVal α (fmt2 "Y".toList i) bits = i - 1 := by
      intro i hi
      rw [binVal_testBit α _ (i - 1) (fun k => ha (i, k)), Nat.mod_eq_of_lt (by omega)]
    refine ⟨α, fun i hi => by rw [hv i hi]; omega, fun i j hs => ?_⟩
    have hlt := hsub i j hs
    have hi := mem_oneTo.1 (hs.subset (show i ∈ [i, j] by simp))
    have hj := mem_oneTo.1 (hs.subset (show j ∈ [i, j] by simp))
    rw [hv i hi, hv j hj]; omega

example : (∃ F, binaryPigeonhole 6 5 3 = pure F ∧ ¬ Spec.Satisfiable F.clauses) ∧
    ∃ F, binaryPigeonhole 5 5 3 = pure F ∧ Spec.Satisfiable F.clauses := by
  obtain ⟨F, h1, h2⟩ := C50_binary_pigeonhole 6 5 3 (by omega) (by omega)
  obtain ⟨G, h3, h4⟩ := C50_binary_pigeonhole 5 5 3 (by omega) (by omega)
  exact ⟨⟨F, h1, by rw [h2]; omega⟩, G, h3, h4.2 (by omega)⟩

end NDP.Cnfgen
