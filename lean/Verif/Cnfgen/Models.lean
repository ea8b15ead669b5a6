import Verif.Cnfgen.WellFormed
import Verif.Cnfgen.PigeonProps
import Verif.Cnfgen.Ordering
import Verif.Cnfgen.Coloring
/-
  C67: the models of the generated formulas, one by one.  `Holds F.vars F.clauses α`: the clauses of the object returned are true when the
  variable with name `x` has the value `α x`.  Each theorem says, for every assignment, when this is the case, and which the variables are;
  that a formula is returned is C50-C54.
-/
namespace NDP.Cnfgen
open NDP

/-! ### The variables -/
section
variable {V : Type} [DecidableEq V]

theorem foldlM_inv {ι : Type} {f : CNF V → ι → M (CNF V)} {P : CNF V → Prop} (hf : ∀ {F G i}, P F → f F i = pure G → P G) (l : List ι) :
    ∀ {F G : CNF V}, P F → l.foldlM f F = pure G → P G := by
  induction l with
  | nil => intro F G h e; rw [← (M.pure_inj _ _).1 e]; exact h
  | cons i l ih =>
    intro F G h e
    rw [List.foldlM_cons] at e
    obtain ⟨K, h1, h2⟩ := M.bind_eq_pure.1 e
    exact ih (hf h h1) h2

theorem addClauseUnsafe_vars {F G : CNF V} {c : List (Lit V)} (h : F.addClauseUnsafe c = pure G) : G.vars = F.vars := by
  unfold CNF.addClauseUnsafe at h
  obtain ⟨k, _, hk⟩ := M.bind_eq_pure.1 h
  rw [← (M.pure_inj _ _).1 hk]

theorem addClause_vars {s : Bool} {F G : CNF V} {c : List (Lit V)} (h : F.addClause s c = pure G) :
    ∀ v, v ∈ G.vars ↔ v ∈ F.vars ∨ v ∈ c.map Prod.snd := by
  unfold CNF.addClause at h
  intro v
  split at h
  · cases h
  · split at h
    · cases h
    · split at h
      · rename_i hk
        rw [addClauseUnsafe_vars h]
        refine ⟨.inl, ?_⟩
        rintro (hv | hv)
        · exact hv
        · obtain ⟨l, hl, rfl⟩ := List.mem_map.1 hv
          exact hk l hl
      · split at h
        · cases h
        · rw [addClauseUnsafe_vars h, CNF.mem_addVariables]

theorem addClause_strict_vars {F G : CNF V} {c : List (Lit V)} (h : F.addClause true c = pure G) : G.vars = F.vars := by
  unfold CNF.addClause at h
  split at h
  · cases h
  · split at h
    · cases h
    · split at h
      · exact addClauseUnsafe_vars h
      · rw [if_pos rfl] at h; cases h

theorem ofParts_vars {vs : List V} {cs : List (List (Lit V))} {G : CNF V} (h : CNF.ofParts vs cs = pure G) : ∀ v, v ∈ G.vars ↔ v ∈ vs := by
  intro v
  have : G.vars = (({} : CNF V).addVariables vs).vars :=
    foldlM_inv (P := fun G : CNF V => G.vars = (({} : CNF V).addVariables vs).vars) (fun hP e => (addClauseUnsafe_vars e).trans hP) cs rfl h
  rw [this, CNF.mem_addVariables]; simp

theorem ofPartsStrict_vars {vs : List V} {cs : List (List (Lit V))} {G : CNF V} (h : CNF.ofPartsStrict vs cs = pure G) :
    ∀ v, v ∈ G.vars ↔ v ∈ vs := by
  intro v
  have : G.vars = (({} : CNF V).addVariables vs).vars :=
    foldlM_inv (P := fun G : CNF V => G.vars = (({} : CNF V).addVariables vs).vars) (fun hP e => (addClause_strict_vars e).trans hP) cs rfl h
  rw [this, CNF.mem_addVariables]; simp

theorem addMixed_vars {cs : List (Bool × List (Lit V))} {F G : CNF V} (h : F.addMixed cs = pure G) :
    ∀ v, v ∈ G.vars ↔ v ∈ F.vars ∨ ∃ c ∈ cs, v ∈ c.2.map Prod.snd := by
  intro v
  unfold CNF.addMixed at h
  induction cs generalizing F with
  | nil => rw [← (M.pure_inj _ _).1 h]; simp
  | cons c cs ih =>
    rw [List.foldlM_cons] at h
    obtain ⟨K, h1, h2⟩ := M.bind_eq_pure.1 h
    rw [ih h2, addClause_vars h1]
    simp only [List.mem_cons, exists_eq_or_imp, or_assoc]

theorem addAll_vars {s : Bool} {cs : List (List (Lit V))} {F G : CNF V} (h : F.addAll s cs = pure G) :
    ∀ v, v ∈ G.vars ↔ v ∈ F.vars ∨ ∃ c ∈ cs, v ∈ c.map Prod.snd := by
  intro v
  unfold CNF.addAll at h
  induction cs generalizing F with
  | nil => rw [← (M.pure_inj _ _).1 h]; simp
  | cons c cs ih =>
    rw [List.foldlM_cons] at h
    obtain ⟨K, h1, h2⟩ := M.bind_eq_pure.1 h
    rw [ih h2, addClause_vars h1]
    simp only [List.mem_cons, exists_eq_or_imp, or_assoc]

theorem equalTo_one_vars (vs : List V) (v : V) : (∃ c ∈ equalTo vs 1, v ∈ c.map Prod.snd) ↔ v ∈ vs := by
  constructor
  · rintro ⟨c, hc, hv⟩; exact (mem_equalTo hc).subset hv
  · intro hv
    refine ⟨vs.map fun v => (true, v), ?_, ?_⟩
    · unfold equalTo greaterOrEqual inequality
      refine List.mem_append_right _ ?_
      simp only [Int.sub_self, Int.sub_zero, if_true, gt_iff_lt, lt_self_iff_false, if_false, Int.toNat_natCast]
      rw [if_neg (by omega)]
      exact List.mem_map.2 ⟨vs, mem_combinations.2 ⟨List.Sublist.refl _, rfl⟩, rfl⟩
    · rw [List.map_map]; simpa using hv
end

/-! ### Pigeons -/

/-- **C67.** The models of the pigeonhole formula are the relations between pigeons and holes it is about. -/
theorem C67_pigeonhole {pigeons holes : Nat} {functional onto : Bool} {F : CNF Str} (h : pigeonhole pigeons holes functional onto = pure F) :
    (∀ x, x ∈ F.vars ↔ ∃ i j, (1 ≤ i ∧ i ≤ pigeons) ∧ (1 ≤ j ∧ j ≤ holes) ∧ x = fmt2 "p".toList i j) ∧
    ∀ α, Holds F.vars F.clauses α ↔
      (∀ i, 1 ≤ i ∧ i ≤ pigeons → ∃ j, (1 ≤ j ∧ j ≤ holes) ∧ α (fmt2 "p".toList i j) = true) ∧
      (onto = true → ∀ j, 1 ≤ j ∧ j ≤ holes → ∃ i, (1 ≤ i ∧ i ≤ pigeons) ∧ α (fmt2 "p".toList i j) = true) ∧
      (∀ j, 1 ≤ j ∧ j ≤ holes → ∀ i, 1 ≤ i ∧ i ≤ pigeons → ∀ i', 1 ≤ i' ∧ i' ≤ pigeons →
        α (fmt2 "p".toList i j) = true → α (fmt2 "p".toList i' j) = true → i = i') ∧
      (functional = true → ∀ i, 1 ≤ i ∧ i ≤ pigeons → ∀ j, 1 ≤ j ∧ j ≤ holes → ∀ j', 1 ≤ j' ∧ j' ≤ holes →
        α (fmt2 "p".toList i j) = true → α (fmt2 "p".toList i j') = true → j = j') := by
  unfold pigeonhole at h
  refine ⟨fun x => ?_, fun α => ?_⟩
  · rw [ofParts_vars h]
    simp only [UnaryMapping.allVars, UnaryMapping.full, List.mem_flatMap, List.mem_map, mem_oneTo]
    constructor
    · rintro ⟨i, hi, j, hj, rfl⟩; exact ⟨i, j, hi, hj, rfl⟩
    · rintro ⟨i, j, hi, hj, rfl⟩; exact ⟨i, hi, j, hj, rfl⟩
  · rw [(ofParts_coh h).holds, UnaryMapping.C49_unary _ (fun _ => oneTo_nodup _) (fun _ => oneTo_nodup _)]
    simp only [UnaryMapping.full, true_imp_iff, mem_oneTo, Bool.false_eq_true, false_imp_iff, and_true]

/-- **C67.** Graph pigeonhole formula. -/
theorem C67_graph_pigeonhole {g : BiGraph} (hg : g.Wf) {functional onto : Bool} {F : CNF Str} (h : graphPigeonhole g functional onto = pure F) :
    (∀ x, x ∈ F.vars ↔ ∃ u ∈ g.left, ∃ v ∈ g.right, (u, v) ∈ g.edges ∧ x = fmt2 "p".toList u v) ∧
    ∀ α, Holds F.vars F.clauses α ↔
      (∀ u ∈ g.left, ∃ v ∈ g.right, (u, v) ∈ g.edges ∧ α (fmt2 "p".toList u v) = true) ∧
      (onto = true → ∀ v ∈ g.right, ∃ u ∈ g.left, (u, v) ∈ g.edges ∧ α (fmt2 "p".toList u v) = true) ∧
      (∀ v ∈ g.right, ∀ u ∈ g.left, ∀ u' ∈ g.left, (u, v) ∈ g.edges → (u', v) ∈ g.edges →
        α (fmt2 "p".toList u v) = true → α (fmt2 "p".toList u' v) = true → u = u') ∧
      (functional = true → ∀ u ∈ g.left, ∀ v ∈ g.right, ∀ v' ∈ g.right, (u, v) ∈ g.edges → (u, v') ∈ g.edges →
        α (fmt2 "p".toList u v) = true → α (fmt2 "p".toList u v') = true → v = v') := by
  unfold graphPigeonhole at h
  refine ⟨fun x => ?_, fun α => ?_⟩
  · rw [ofParts_vars h]
    simp only [UnaryMapping.allVars, UnaryMapping.sparse, List.mem_flatMap, List.mem_map, BiGraph.nbrL, List.mem_filter, decide_eq_true_eq]
    constructor
    · rintro ⟨i, hi, j, ⟨hj, he⟩, rfl⟩; exact ⟨i, hi, j, hj, he, rfl⟩
    · rintro ⟨i, hi, j, hj, he, rfl⟩; exact ⟨i, hi, j, ⟨hj, he⟩, rfl⟩
  · rw [(ofParts_coh h).holds, UnaryMapping.C49_unary _ (fun _ => hg.2.filter _) (fun _ => hg.1.filter _)]
    simp only [UnaryMapping.sparse, true_imp_iff, Bool.false_eq_true, false_imp_iff, and_true, BiGraph.nbrL, BiGraph.nbrR,
      List.mem_filter, decide_eq_true_eq]
    refine and_congr ?_ (and_congr (imp_congr_right fun _ => ?_) (and_congr ?_ (imp_congr_right fun _ => ?_)))
    · simp only [and_assoc]
    · simp only [and_assoc]
    · exact forall₂_congr fun v _ => ⟨fun h u hu u' hu' e e' => h u ⟨hu, e⟩ u' ⟨hu', e'⟩, fun h u hu u' hu' => h u hu.1 u' hu'.1 hu.2 hu'.2⟩
    · exact forall₂_congr fun v _ => ⟨fun h u hu u' hu' e e' => h u ⟨hu, e⟩ u' ⟨hu', e'⟩, fun h u hu u' hu' => h u hu.1 u' hu'.1 hu.2 hu'.2⟩

/-- **C67.** Binary pigeonhole formula: variable `Y_{i,b}` is the bit of weight `2^b` of the hole (counted from 0) of pigeon `i`. -/
theorem C67_binary_pigeonhole {pigeons holes bits : Nat} (hb : holes ≤ 2 ^ bits) {F : CNF Str} (h : binaryPigeonhole pigeons holes bits = pure F) :
    (∀ x, x ∈ F.vars ↔ ∃ i b, (1 ≤ i ∧ i ≤ pigeons) ∧ b < bits ∧ x = fmt2 "Y".toList i b) ∧
    ∀ α, Holds F.vars F.clauses α ↔
      (∀ i, 1 ≤ i ∧ i ≤ pigeons → binVal α (fmt2 "Y".toList i) bits < holes) ∧
      ∀ i i', 1 ≤ i → i < i' → i' ≤ pigeons → binVal α (fmt2 "Y".toList i) bits ≠ binVal α (fmt2 "Y".toList i') bits := by
  unfold binaryPigeonhole at h
  split at h
  · cases h
  · refine ⟨fun x => ?_, fun α => ?_⟩
    · rw [ofParts_vars h]
      simp only [BinaryMapping.allVars, List.mem_flatMap, List.mem_map, List.mem_range, mem_oneTo]
      constructor
      · rintro ⟨i, hi, j, hj, rfl⟩; exact ⟨i, j, hi, hj, rfl⟩
      · rintro ⟨i, j, hi, hj, rfl⟩; exact ⟨i, hi, j, hj, rfl⟩
    · rw [(ofParts_coh h).holds, BinaryMapping.C49_binary _ (by simpa [length_oneTo] using hb) (oneTo_nodup _)]
      simp only [true_imp_iff, Bool.false_eq_true, false_imp_iff, and_true, length_oneTo, mem_oneTo, sorted_pair (oneTo_sorted pigeons)]
      refine and_congr_right fun _ => ?_
      exact forall₂_congr fun i i' => ⟨fun h h1 h2 h3 => h ⟨by omega, by omega, h2⟩, fun h ⟨h1, h2, h3⟩ => h h1.1 h3 h2.2⟩

/-! ### Orders -/

/-- The triples for which transitivity is demanded: all of them if the order is total (or `smart`); otherwise, in Knuth's variants, those
where the middle (variant 2) or the last (variant 3) element is the largest number. -/
def TripleUsed (total smart : Bool) (knuth : Int) (a b c : Nat) : Prop :=
  total = true ∨ smart = true ∨ ((knuth = 2 → a < b ∧ c < b) ∧ (knuth = 3 → a < c ∧ b < c))

/-- **C67.** Ordering formula: `u` before `v` is the variable `x_{u,v}` (if `smart`, `x_{u,v}` or the negation of `x_{v,u}`, whichever
is increasing). -/
theorem C67_graph_ordering {g : Graph} (hg : g.Wf) {total smart plant : Bool} {knuth : Int} {F : CNF Str}
    (h : graphOrdering g total smart plant knuth = pure F) :
    (∀ x, x ∈ F.vars ↔ ∃ u ∈ g.verts, ∃ v ∈ g.verts, u ≠ v ∧ (smart = true → u < v) ∧ x = xn u v) ∧
    ∀ α, Holds F.vars F.clauses α ↔
      (∀ v ∈ (if plant then g.verts.dropLast else g.verts), ∃ u ∈ g.verts, g.hasEdge v u = true ∧ ordLt smart α u v) ∧
      (∀ a ∈ g.verts, ∀ b ∈ g.verts, ∀ c ∈ g.verts, a ≠ b → b ≠ c → a ≠ c → TripleUsed total smart knuth a b c →
        ordLt smart α a b → ordLt smart α b c → ordLt smart α a c) ∧
      (∀ a ∈ g.verts, ∀ b ∈ g.verts, a ≠ b → ¬ (ordLt smart α a b ∧ ordLt smart α b a)) ∧
      (total = true → ∀ a ∈ g.verts, ∀ b ∈ g.verts, a ≠ b → ordLt smart α a b ∨ ordLt smart α b a) := by
  unfold graphOrdering at h
  refine ⟨fun x => ?_, fun α => ?_⟩
  · rw [ofPartsStrict_vars h]
    simp only [List.mem_map, Prod.exists]
    cases smart with
    | true =>
      simp only [if_true, mem_pairs_sorted hg.sorted, true_imp_iff]
      constructor
      · rintro ⟨u, v, ⟨hu, hv, hlt⟩, rfl⟩; exact ⟨u, hu, v, hv, by omega, hlt, rfl⟩
      · rintro ⟨u, hu, v, hv, _, hlt, rfl⟩; exact ⟨u, v, ⟨hu, hv, hlt⟩, rfl⟩
    | false =>
      simp only [Bool.false_eq_true, if_false, mem_permPairs hg.verts_nodup, false_imp_iff, true_and]
      constructor
      · rintro ⟨u, v, ⟨hu, hv, hlt⟩, rfl⟩; exact ⟨u, hu, v, hv, hlt, rfl⟩
      · rintro ⟨u, hu, v, hv, hlt, rfl⟩; exact ⟨u, v, ⟨hu, hv, hlt⟩, rfl⟩
  · rw [(ofPartsStrict_coh h).holds, allTrue_append, allTrue_append, allTrue_nonMin hg, and_assoc]
    refine and_congr Iff.rfl ?_
    cases smart with
    | true =>
      have hlt : ∀ {u v}, u < v → (ordLt true α u v ↔ α (xn u v) = true) := fun h => by simp [ordLt, h]
      have hgt : ∀ {u v}, u < v → (ordLt true α v u ↔ α (xn u v) = false) := fun h => by simp [ordLt, Nat.not_lt.2 h.le]
      simp only [ordTrans, ordTotal, if_true, allTrue_flatMap, allTrue_cons, allTrue_nil, clauseTrue_cons, clauseTrue_nil, or_false, and_true,
        Prod.forall, mem_triples_sorted hg.sorted]
      have hanti : ∀ a ∈ g.verts, ∀ b ∈ g.verts, a ≠ b → ¬ (ordLt true α a b ∧ ordLt true α b a) := by
        rintro a _ b _ hne ⟨h1, h2⟩
        rcases Nat.lt_or_gt_of_ne hne with h | h
        · rw [hlt h] at h1; rw [hgt h] at h2; simp [h1] at h2
        · rw [hgt h] at h1; rw [hlt h] at h2; simp [h1] at h2
      have htot : ∀ a ∈ g.verts, ∀ b ∈ g.verts, a ≠ b → ordLt true α a b ∨ ordLt true α b a := by
        intro a _ b _ hne
        rcases Nat.lt_or_gt_of_ne hne with h | h
        · rw [hlt h, hgt h]; cases α (xn a b) <;> simp
        · rw [hlt h, hgt h]; cases α (xn b a) <;> simp
      constructor
      · intro H
        refine ⟨?_, hanti, fun _ => htot⟩
        have H1 : ∀ a b c, a ∈ g.verts → b ∈ g.verts → c ∈ g.verts → a < b → b < c →
            (α (xn a b) = true ∨ α (xn b c) = true ∨ α (xn a c) = false) ∧ (α (xn a b) = false ∨ α (xn b c) = false ∨ α (xn a c) = true) :=
          fun a b c ha hb hc h1 h2 => H a b c ⟨ha, hb, hc, h1, h2⟩
        intro a ha b hb c hc hab hbc hac _ t1 t2
        rcases Nat.lt_or_gt_of_ne hab with l1 | l1 <;> rcases Nat.lt_or_gt_of_ne hbc with l2 | l2 <;>
          rcases Nat.lt_or_gt_of_ne hac with l3 | l3 <;> first | omega | skip
        · rw [hlt l1] at t1; rw [hlt l2] at t2; rw [hlt l3]
          have := (H1 a b c ha hb hc l1 l2).2; simp [t1, t2] at this; exact this
        · rw [hlt l1] at t1; rw [hgt l2] at t2; rw [hlt l3]
          have := (H1 a c b ha hc hb l3 l2).1; simp [t1, t2] at this; exact this
        · rw [hlt l1] at t1; rw [hgt l2] at t2; rw [hgt l3]
          have := (H1 c a b hc ha hb l3 l1).2; simp [t1, t2] at this; exact this
        · rw [hgt l1] at t1; rw [hlt l2] at t2; rw [hlt l3]
          have := (H1 b a c hb ha hc l1 l3).1; simp [t1, t2] at this; exact this
        · rw [hgt l1] at t1; rw [hlt l2] at t2; rw [hgt l3]
          have := (H1 b c a hb hc ha l2 l3).2; simp [t1, t2] at this; exact this
        · rw [hgt l1] at t1; rw [hgt l2] at t2; rw [hgt l3]
          have := (H1 c b a hc hb ha l2 l1).1; simp [t1, t2] at this; exact this
      · rintro ⟨H, _, _⟩ a b c ⟨ha, hb, hc, h1, h2⟩
        constructor
        · by_contra hcon
          simp only [not_or, Bool.not_eq_true, Bool.not_eq_false] at hcon
          have := H c hc b hb a ha (by omega) (by omega) (by omega) (.inr (.inl rfl)) ((hgt h2).2 hcon.2.1) ((hgt h1).2 hcon.1)
          rw [hgt (h1.trans h2), hcon.2.2] at this
          simp at this
        · by_contra hcon
          simp only [not_or, Bool.not_eq_true, Bool.not_eq_false] at hcon
          have := H a ha b hb c hc (by omega) (by omega) (by omega) (.inr (.inl rfl)) ((hlt h1).2 hcon.1) ((hlt h2).2 hcon.2.1)
          rw [hlt (h1.trans h2), hcon.2.2] at this
          simp at this
    | false =>
      have hl : ∀ {u v}, ordLt false α u v ↔ α (xn u v) = true := by simp [ordLt]
      simp only [hl]
      have hanti : AllTrue α ((pairs g.verts).map fun p => [(false, xn p.1 p.2), (false, xn p.2 p.1)]) ↔
          ∀ a ∈ g.verts, ∀ b ∈ g.verts, a ≠ b → ¬ (α (xn a b) = true ∧ α (xn b a) = true) := by
        simp only [allTrue_map, Prod.forall, mem_pairs_sorted hg.sorted, clauseTrue_cons, clauseTrue_nil, or_false]
        constructor
        · intro H a ha b hb hne
          rcases Nat.lt_or_gt_of_ne hne with h | h
          · have := H a b ⟨ha, hb, h⟩; rcases this with h | h <;> simp [h]
          · have := H b a ⟨hb, ha, h⟩; rcases this with h | h <;> simp [h]
        · rintro H a b ⟨ha, hb, h⟩
          have := H a ha b hb (by omega)
          cases h1 : α (xn a b) <;> cases h2 : α (xn b a) <;> simp_all
      have htot : AllTrue α ((pairs g.verts).map fun p => [(true, xn p.1 p.2), (true, xn p.2 p.1)]) ↔
          ∀ a ∈ g.verts, ∀ b ∈ g.verts, a ≠ b → (α (xn a b) = true ∨ α (xn b a) = true) := by
        simp only [allTrue_map, Prod.forall, mem_pairs_sorted hg.sorted, clauseTrue_cons, clauseTrue_nil, or_false]
        constructor
        · intro H a ha b hb hne
          rcases Nat.lt_or_gt_of_ne hne with h | h
          · exact H a b ⟨ha, hb, h⟩
          · exact (H b a ⟨hb, ha, h⟩).symm
        · rintro H a b ⟨ha, hb, h⟩
          exact H a ha b hb (by omega)
      unfold ordTotal ordTrans
      simp only [Bool.false_eq_true, if_false, allTrue_append, allTrue_ite, hanti, htot]
      cases total with
      | true =>
        simp only [if_true, true_imp_iff, allTrue_flatMap, allTrue_cons, allTrue_nil, clauseTrue_cons, clauseTrue_nil, or_false, and_true,
          Prod.forall, mem_triples_sorted hg.sorted]
        constructor
        · rintro ⟨H, ha', ht'⟩
          refine ⟨?_, ha', ht'⟩
          intro a ha b hb c hc hab hbc hac _ t1 t2
          by_contra hcon
          have hca := (ht' a ha c hc hac).resolve_left hcon
          rcases Nat.lt_or_gt_of_ne hab with l1 | l1 <;> rcases Nat.lt_or_gt_of_ne hbc with l2 | l2 <;>
            rcases Nat.lt_or_gt_of_ne hac with l3 | l3 <;> first | omega | skip
          · have := (H a b c ⟨ha, hb, hc, l1, l2⟩).1; simp [t1, t2, hca] at this
          · have := (H a c b ⟨ha, hc, hb, l3, l2⟩).2; simp [t1, t2, hca] at this
          · have := (H c a b ⟨hc, ha, hb, l3, l1⟩).1; simp [t1, t2, hca] at this
          · have := (H b a c ⟨hb, ha, hc, l1, l3⟩).2; simp [t1, t2, hca] at this
          · have := (H b c a ⟨hb, hc, ha, l2, l3⟩).1; simp [t1, t2, hca] at this
          · have := (H c b a ⟨hc, hb, ha, l2, l1⟩).2; simp [t1, t2, hca] at this
        · rintro ⟨H, ha', ht'⟩
          refine ⟨?_, ha', ht'⟩
          rintro a b c ⟨ha, hb, hc, h1, h2⟩
          constructor
          · by_contra hcon
            simp only [not_or, Bool.not_eq_false] at hcon
            have := H a ha b hb c hc (by omega) (by omega) (by omega) (.inl rfl) hcon.1 hcon.2.1
            exact ha' a ha c hc (by omega) ⟨this, hcon.2.2⟩
          · by_contra hcon
            simp only [not_or, Bool.not_eq_false] at hcon
            have := H a ha c hc b hb (by omega) (by omega) (by omega) (.inl rfl) hcon.1 hcon.2.1
            exact ha' a ha b hb (by omega) ⟨this, hcon.2.2⟩
      | false =>
        simp only [Bool.false_eq_true, if_false, false_imp_iff, and_true, allTrue_map, Prod.forall, List.mem_filter, mem_permTriples hg.verts_nodup,
          clauseTrue_cons, clauseTrue_nil, or_false, TripleUsed, false_or]
        refine and_congr_left fun _ => ?_
        constructor
        · intro H a ha b hb c hc hab hbc hac hk t1 t2
          have := H a b c ⟨⟨ha, hb, hc, hab, hbc, hac⟩, by
            simp only [Bool.and_eq_true, Bool.not_eq_true', Bool.and_eq_false_iff, decide_eq_false_iff_not, Bool.or_eq_false_iff]
            exact ⟨by by_cases e : knuth = 2
                      · have := hk.1 e; right; omega
                      · exact .inl e,
                   by by_cases e : knuth = 3
                      · have := hk.2 e; right; omega
                      · exact .inl e⟩⟩
          simpa [t1, t2] using this
        · rintro H a b c ⟨⟨ha, hb, hc, hab, hbc, hac⟩, hk⟩
          simp only [Bool.and_eq_true, Bool.not_eq_true', Bool.and_eq_false_iff, decide_eq_false_iff_not, Bool.or_eq_false_iff] at hk
          by_contra hcon
          simp only [not_or, Bool.not_eq_false] at hcon
          refine hcon.2.2 (H a ha b hb c hc hab hbc hac ⟨fun e => ?_, fun e => ?_⟩ hcon.1 hcon.2.1)
          · have := hk.1.resolve_left (not_not.2 e); omega
          · have := hk.2.resolve_left (not_not.2 e); omega

end NDP.Cnfgen
