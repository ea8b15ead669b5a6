import Verif.Cnfgen.Ramsey
/-
  C60: `families/cliquecoloring.py`.
-/
namespace NDP.Cnfgen
open NDP

/-! ### Names with different first letters -/

theorem fmt2c_inj {c c' : Char} {i j i' j' : Nat} (h : fmt2 [c] i j = fmt2 [c'] i' j') : c = c' ∧ i = i' ∧ j = j' := by
  have h0 : c = c' := by
    unfold fmt2 at h
    simp only [List.cons_append, List.nil_append, List.cons.injEq] at h
    exact h.1
  subst h0
  obtain ⟨h1, h2⟩ := fmt2_inj h
  exact ⟨rfl, h1, h2⟩

/-- The truth values of the variables `c_{i,j}` can be chosen freely. -/
theorem exists_fmt2c (m : Char → Nat → Nat → Prop) : ∃ α : Str → Bool, ∀ c i j, α (fmt2 [c] i j) = true ↔ m c i j := by
  classical
  obtain ⟨α, h⟩ := exists_assign (f := fun p : Char × Nat × Nat => fmt2 [p.1] p.2.1 p.2.2) (by
    rintro ⟨c, i, j⟩ ⟨c', i', j'⟩ h
    obtain ⟨rfl, rfl, rfl⟩ := fmt2c_inj h
    rfl) (fun p => decide (m p.1 p.2.1 p.2.2))
  exact ⟨α, fun c i j => by rw [h (c, i, j)]; simp⟩

/-- Exactly one. -/
theorem allTrue_exactlyOne {V ι : Type} (α : V → Bool) (l : List ι) (f : ι → V) (hn : l.Nodup) :
    AllTrue α (equalTo (l.map f) 1) ↔ (∃ x ∈ l, α (f x) = true) ∧ ∀ x ∈ l, ∀ y ∈ l, α (f x) = true → α (f y) = true → x = y := by
  rw [equalTo, allTrue_append, allTrue_geOne, allTrue_leOne α l f hn, and_comm]
  simp

/-! ### Model -/

/-- `families/cliquecoloring.py` 49-51 (`E`). -/
def ccE (u v : Nat) : Str := fmt2 ['e'] (min u v) (max u v)
/-- `families/cliquecoloring.py` 53-55 (`Q`). -/
def ccQ (i v : Nat) : Str := fmt2 ['q'] i v
/-- `families/cliquecoloring.py` 57-59 (`R`). -/
def ccR (v l : Nat) : Str := fmt2 ['r'] v l

/-- `families/cliquecoloring.py` 66-78: the variables. -/
def ccVars (n k c : Nat) : List Str :=
  (pairs (oneTo n)).map (fun e => ccE e.1 e.2) ++ ((oneTo k).flatMap fun i => (oneTo n).map fun v => ccQ i v) ++
    (oneTo n).flatMap fun v => (oneTo c).map fun l => ccR v l

/-- `families/cliquecoloring.py` 80-106: the clauses.  (Line 81 uses `k` for the loop; its last value is `k` again.) -/
def ccClauses (n k c : Nat) : List (List (Lit Str)) :=
  ((oneTo k).flatMap fun i => equalTo ((oneTo n).map fun v => ccQ i v) 1) ++
  ((oneTo n).flatMap fun v => (pairs (oneTo k)).map fun p => [(false, ccQ p.1 v), (false, ccQ p.2 v)]) ++
  ((pairs (oneTo n)).flatMap fun e => (permPairs (oneTo k)).map fun p =>
    [(true, ccE e.1 e.2), (false, ccQ p.1 e.1), (false, ccQ p.2 e.2)]) ++
  ((oneTo n).flatMap fun v => equalTo ((oneTo c).map fun l => ccR v l) 1) ++
  ((pairs (oneTo n)).flatMap fun e => (oneTo c).map fun l => [(false, ccE e.1 e.2), (false, ccR e.1 l), (false, ccR e.2 l)])

/-- `families/cliquecoloring.py` 14-107 (`CliqueColoring`). -/
def cliqueColoring (n k c : Nat) : M (CNF Str) := CNF.ofPartsStrict (ccVars n k c) (ccClauses n k c)

/-! ### Proof -/

theorem oneTo_pairs {n u v : Nat} : (u, v) ∈ pairs (oneTo n) ↔ u ∈ oneTo n ∧ v ∈ oneTo n ∧ u < v := mem_pairs_sorted (oneTo_sorted n)

theorem ccE_lt {u v : Nat} (h : u < v) : ccE u v = fmt2 ['e'] u v := by
  unfold ccE; rw [min_eq_left h.le, max_eq_right h.le]

theorem nodup2 {A : Type} {a b : A} (h1 : a ≠ b) : [a, b].Nodup := by simp [h1]

theorem map_nodup_sub {A B : Type} {f : A → B} (hf : Function.Injective f) {l : List A} (hl : l.Nodup) {m : List B} (h : m.Sublist (l.map f)) :
    m.Nodup := (List.Nodup.map hf hl).sublist h

theorem cc_ok (n k c : Nat) : ∀ d ∈ ccClauses n k c, (d.map Prod.snd).Nodup ∧ ∀ l ∈ d, l.2 ∈ ccVars n k c := by
  have hE : ∀ {u v}, (u, v) ∈ pairs (oneTo n) → ccE u v ∈ ccVars n k c := fun h =>
    List.mem_append_left _ (List.mem_append_left _ (List.mem_map.2 ⟨_, h, rfl⟩))
  have hQ : ∀ {i v}, i ∈ oneTo k → v ∈ oneTo n → ccQ i v ∈ ccVars n k c := fun h1 h2 =>
    List.mem_append_left _ (List.mem_append_right _ (List.mem_flatMap.2 ⟨_, h1, List.mem_map.2 ⟨_, h2, rfl⟩⟩))
  have hR : ∀ {v l}, v ∈ oneTo n → l ∈ oneTo c → ccR v l ∈ ccVars n k c := fun h1 h2 =>
    List.mem_append_right _ (List.mem_flatMap.2 ⟨_, h1, List.mem_map.2 ⟨_, h2, rfl⟩⟩)
  intro d hd
  unfold ccClauses at hd
  simp only [List.mem_append] at hd
  rcases hd with (((hd | hd) | hd) | hd) | hd
  · obtain ⟨i, hi, hd⟩ := List.mem_flatMap.1 hd
    have hs := mem_equalTo hd
    refine ⟨map_nodup_sub (fun a b e => (fmt2_inj e).2) (oneTo_nodup n) hs, fun l hl => ?_⟩
    obtain ⟨v, hv, e⟩ := List.mem_map.1 (hs.subset (List.mem_map_of_mem hl))
    rw [← e]; exact hQ hi hv
  · obtain ⟨v, hv, hd⟩ := List.mem_flatMap.1 hd
    obtain ⟨⟨i, j⟩, hp, rfl⟩ := List.mem_map.1 hd
    obtain ⟨hi, hj, hlt⟩ := oneTo_pairs.1 hp
    refine ⟨nodup2 fun e => ?_, ?_⟩
    · have := (fmt2_inj e).1; simp at this; omega
    · simp only [List.mem_cons, List.not_mem_nil, or_false, forall_eq_or_imp, forall_eq]
      exact ⟨hQ hi hv, hQ hj hv⟩
  · obtain ⟨⟨u, v⟩, he, hd⟩ := List.mem_flatMap.1 hd
    obtain ⟨⟨i, j⟩, hp, rfl⟩ := List.mem_map.1 hd
    obtain ⟨hi, hj, hne⟩ := (mem_permPairs (oneTo_nodup k)).1 hp
    obtain ⟨hu, hv, hlt⟩ := oneTo_pairs.1 he
    refine ⟨nodup3 (fun e => ?_) (fun e => ?_) (fun e => ?_), ?_⟩
    · exact absurd (fmt2c_inj e).1 (by decide)
    · exact absurd (fmt2c_inj e).1 (by decide)
    · exact hne (fmt2_inj e).1
    · simp only [List.mem_cons, List.not_mem_nil, or_false, forall_eq_or_imp, forall_eq]
      exact ⟨hE he, hQ hi hu, hQ hj hv⟩
  · obtain ⟨v, hv, hd⟩ := List.mem_flatMap.1 hd
    have hs := mem_equalTo hd
    refine ⟨map_nodup_sub (fun a b e => (fmt2_inj e).2) (oneTo_nodup c) hs, fun l hl => ?_⟩
    obtain ⟨x, hx, e⟩ := List.mem_map.1 (hs.subset (List.mem_map_of_mem hl))
    rw [← e]; exact hR hv hx
  · obtain ⟨⟨u, v⟩, he, hd⟩ := List.mem_flatMap.1 hd
    obtain ⟨l, hl, rfl⟩ := List.mem_map.1 hd
    obtain ⟨hu, hv, hlt⟩ := oneTo_pairs.1 he
    refine ⟨nodup3 (fun e => ?_) (fun e => ?_) (fun e => ?_), ?_⟩
    · exact absurd (fmt2c_inj e).1 (by decide)
    · exact absurd (fmt2c_inj e).1 (by decide)
    · have := (fmt2_inj e).1; simp at this; omega
    · simp only [List.mem_cons, List.not_mem_nil, or_false, forall_eq_or_imp, forall_eq]
      exact ⟨hE he, hR hu hl, hR hv hl⟩

/-- What the clauses say. -/
theorem cc_true (n k c : Nat) (α : Str → Bool) : AllTrue α (ccClauses n k c) ↔
    (∀ i ∈ oneTo k, (∃ v ∈ oneTo n, α (ccQ i v) = true) ∧ ∀ v ∈ oneTo n, ∀ w ∈ oneTo n, α (ccQ i v) = true → α (ccQ i w) = true → v = w) ∧
    (∀ v ∈ oneTo n, ∀ i ∈ oneTo k, ∀ j ∈ oneTo k, i < j → ¬ (α (ccQ i v) = true ∧ α (ccQ j v) = true)) ∧
    (∀ u ∈ oneTo n, ∀ v ∈ oneTo n, u < v → ∀ i ∈ oneTo k, ∀ j ∈ oneTo k, i ≠ j → α (ccQ i u) = true → α (ccQ j v) = true → α (ccE u v) = true) ∧
    (∀ v ∈ oneTo n, (∃ l ∈ oneTo c, α (ccR v l) = true) ∧ ∀ l ∈ oneTo c, ∀ m ∈ oneTo c, α (ccR v l) = true → α (ccR v m) = true → l = m) ∧
    (∀ u ∈ oneTo n, ∀ v ∈ oneTo n, u < v → ∀ l ∈ oneTo c, α (ccE u v) = true → ¬ (α (ccR u l) = true ∧ α (ccR v l) = true)) := by
  unfold ccClauses
  simp only [allTrue_append, and_assoc]
  refine and_congr ?_ (and_congr ?_ (and_congr ?_ (and_congr ?_ ?_)))
  · rw [allTrue_flatMap]
    exact forall₂_congr fun i _ => allTrue_exactlyOne α _ _ (oneTo_nodup n)
  · simp only [allTrue_flatMap, allTrue_map, Prod.forall, oneTo_pairs, clauseTrue_cons, clauseTrue_nil, or_false]
    refine forall₂_congr fun v _ => ?_
    constructor
    · intro h i hi j hj hlt
      have := h i j ⟨hi, hj, hlt⟩
      rintro ⟨h1, h2⟩; simp [h1, h2] at this
    · rintro h i j ⟨hi, hj, hlt⟩
      have := h i hi j hj hlt
      cases h1 : α (ccQ i v) <;> cases h2 : α (ccQ j v) <;> simp_all
  · simp only [allTrue_flatMap, allTrue_map, Prod.forall, oneTo_pairs, mem_permPairs (oneTo_nodup k), clauseTrue_cons, clauseTrue_nil, or_false]
    constructor
    · intro h u hu v hv hlt i hi j hj hne h1 h2
      have := h u v ⟨hu, hv, hlt⟩ i j ⟨hi, hj, hne⟩
      simpa [h1, h2] using this
    · rintro h u v ⟨hu, hv, hlt⟩ i j ⟨hi, hj, hne⟩
      have := h u hu v hv hlt i hi j hj hne
      cases h1 : α (ccQ i u) <;> cases h2 : α (ccQ j v) <;> simp_all
  · rw [allTrue_flatMap]
    exact forall₂_congr fun i _ => allTrue_exactlyOne α _ _ (oneTo_nodup c)
  · simp only [allTrue_flatMap, allTrue_map, Prod.forall, oneTo_pairs, clauseTrue_cons, clauseTrue_nil, or_false]
    constructor
    · intro h u hu v hv hlt l hl h0
      have := h u v ⟨hu, hv, hlt⟩ l hl
      rintro ⟨h1, h2⟩; simp [h0, h1, h2] at this
    · rintro h u v ⟨hu, hv, hlt⟩ l hl
      have := h u hu v hv hlt l hl
      cases h0 : α (ccE u v) <;> cases h1 : α (ccR u l) <;> cases h2 : α (ccR v l) <;> simp_all

/-- A graph on the vertices `1..n` (connected pairs: `E`) with a clique of `k` vertices and a proper coloring with colors `1..c`. -/
def HasCliqueAndColoring (n k c : Nat) : Prop :=
  ∃ E : Nat → Nat → Prop, (∀ u v, E u v → E v u) ∧
    (∃ S : Finset Nat, (∀ v ∈ S, 1 ≤ v ∧ v ≤ n) ∧ S.card = k ∧ ∀ u ∈ S, ∀ v ∈ S, u ≠ v → E u v) ∧
    ∃ color : Nat → Nat, (∀ v, 1 ≤ v → v ≤ n → 1 ≤ color v ∧ color v ≤ c) ∧
      ∀ u v, 1 ≤ u → u ≤ n → 1 ≤ v → v ≤ n → u ≠ v → E u v → color u ≠ color v

theorem hasCliqueAndColoring_iff (n k c : Nat) : HasCliqueAndColoring n k c ↔ k ≤ n ∧ k ≤ c ∧ (n = 0 ∨ 1 ≤ c) := by
  constructor
  · rintro ⟨E, _, ⟨S, h1, h2, h3⟩, color, h4, h5⟩
    have hS : S ⊆ Finset.Icc 1 n := fun v hv => Finset.mem_Icc.2 (h1 v hv)
    refine ⟨?_, ?_, ?_⟩
    · have := Finset.card_le_card hS
      rw [h2] at this; simpa using this
    · have : (S.image color).card = k := by
        rw [Finset.card_image_of_injOn, h2]
        intro u hu v hv e
        by_contra hne
        have h := h1 u hu
        have h' := h1 v hv
        exact h5 u v h.1 h.2 h'.1 h'.2 hne (h3 u hu v hv hne) e
      rw [← this]
      have hsub : S.image color ⊆ Finset.Icc 1 c := by
        intro x hx
        obtain ⟨v, hv, rfl⟩ := Finset.mem_image.1 hx
        exact Finset.mem_Icc.2 (h4 v (h1 v hv).1 (h1 v hv).2)
      simpa using Finset.card_le_card hsub
    · by_cases hn : n = 0
      · exact .inl hn
      · have := h4 1 (by omega) (by omega); exact .inr (by omega)
  · rintro ⟨h1, h2, h3⟩
    refine ⟨fun u v => 1 ≤ u ∧ u ≤ k ∧ 1 ≤ v ∧ v ≤ k, fun u v h => by omega, ⟨Finset.Icc 1 k, ?_, by simp, ?_⟩, fun v => if v ≤ k then v else 1, ?_, ?_⟩
    · intro v hv; have := Finset.mem_Icc.1 hv; omega
    · intro u hu v hv _; have := Finset.mem_Icc.1 hu; have := Finset.mem_Icc.1 hv; omega
    · intro v _ _; dsimp only; split <;> omega
    · intro u v _ _ _ _ hne h; dsimp only; rw [if_pos h.2.1, if_pos h.2.2.2]; exact hne

/-- **C60.** The clique-coloring formula is satisfiable exactly when a graph with `n` vertices has a clique of size `k` and a coloring with
`c` colors; that is, when `k` is at most `n` and `c` (and there is a color for the vertices).  In particular it is unsatisfiable for
`k = c + 1`. -/
theorem C60_clique_coloring (n k c : Nat) :
    ∃ F, cliqueColoring n k c = pure F ∧ (Spec.Satisfiable F.clauses ↔ HasCliqueAndColoring n k c) ∧
      (Spec.Satisfiable F.clauses ↔ k ≤ n ∧ k ≤ c ∧ (n = 0 ∨ 1 ≤ c)) := by
  obtain ⟨F, hF, hc⟩ := CNF.ofPartsStrict_ok (fun d hd => (cc_ok n k c d hd).1) (fun d hd => (cc_ok n k c d hd).2)
  have main : Spec.Satisfiable F.clauses ↔ HasCliqueAndColoring n k c := by
    rw [hc.sat]
    constructor
    · rintro ⟨α, ha⟩
      obtain ⟨h1, h2, h3, h4, h5⟩ := (cc_true n k c α).1 ha
      choose! q hq using fun i hi => (h1 i hi).1
      choose! r hr using fun v hv => (h4 v hv).1
      have hinj : ∀ i ∈ oneTo k, ∀ j ∈ oneTo k, i ≠ j → q i ≠ q j := by
        intro i hi j hj hne e
        rcases Nat.lt_or_gt_of_ne hne with h | h
        · exact h2 (q i) (hq i hi).1 i hi j hj h ⟨(hq i hi).2, e ▸ (hq j hj).2⟩
        · exact h2 (q i) (hq i hi).1 j hj i hi h ⟨e ▸ (hq j hj).2, (hq i hi).2⟩
      refine ⟨fun u v => α (ccE u v) = true, fun u v h => by show α _ = true; unfold ccE at h ⊢; rwa [min_comm, max_comm], ⟨(oneTo k).toFinset.image q, ?_, ?_, ?_⟩, r, ?_, ?_⟩
      · intro v hv
        obtain ⟨i, hi, rfl⟩ := Finset.mem_image.1 hv
        exact mem_oneTo.1 (hq i (by simpa using hi)).1
      · rw [Finset.card_image_of_injOn, List.toFinset_card_of_nodup (oneTo_nodup k), length_oneTo]
        intro i hi j hj e
        by_contra hne
        exact hinj i (by simpa using hi) j (by simpa using hj) hne e
      · intro u hu v hv hne
        obtain ⟨i, hi, rfl⟩ := Finset.mem_image.1 hu
        obtain ⟨j, hj, rfl⟩ := Finset.mem_image.1 hv
        have hi : i ∈ oneTo k := by simpa using hi
        have hj : j ∈ oneTo k := by simpa using hj
        have hij : i ≠ j := by rintro rfl; exact hne rfl
        show α (ccE (q i) (q j)) = true
        rcases Nat.lt_or_gt_of_ne hne with h | h
        · exact h3 _ (hq i hi).1 _ (hq j hj).1 h i hi j hj hij (hq i hi).2 (hq j hj).2
        · have := h3 _ (hq j hj).1 _ (hq i hi).1 h j hj i hi hij.symm (hq j hj).2 (hq i hi).2
          unfold ccE at this ⊢; rwa [min_comm, max_comm]
      · intro v h1 h2; exact mem_oneTo.1 (hr v (mem_oneTo.2 ⟨h1, h2⟩)).1
      · intro u v hu1 hu2 hv1 hv2 hne he heq
        have hu := hr u (mem_oneTo.2 ⟨hu1, hu2⟩)
        have hv := hr v (mem_oneTo.2 ⟨hv1, hv2⟩)
        rcases Nat.lt_or_gt_of_ne hne with h | h
        · exact h5 u (mem_oneTo.2 ⟨hu1, hu2⟩) v (mem_oneTo.2 ⟨hv1, hv2⟩) h (r u) hu.1 he ⟨hu.2, heq ▸ hv.2⟩
        · refine h5 v (mem_oneTo.2 ⟨hv1, hv2⟩) u (mem_oneTo.2 ⟨hu1, hu2⟩) h (r u) hu.1 ?_ ⟨heq ▸ hv.2, hu.2⟩
          unfold ccE at he ⊢; rwa [min_comm, max_comm]
    · intro h
      obtain ⟨h1, h2, h3⟩ := (hasCliqueAndColoring_iff n k c).1 h
      obtain ⟨α, ha⟩ := exists_fmt2c fun x i j => (x = 'q' ∧ i = j) ∨ (x = 'e' ∧ j ≤ k) ∨ (x = 'r' ∧ (if i ≤ k then i else 1) = j)
      have hQ : ∀ i v, α (ccQ i v) = true ↔ i = v := fun i v => by rw [ccQ, ha]; simp
      have hR : ∀ v l, α (ccR v l) = true ↔ (if v ≤ k then v else 1) = l := fun i v => by rw [ccR, ha]; simp
      have hE : ∀ u v, u < v → (α (ccE u v) = true ↔ v ≤ k) := fun u v h => by rw [ccE_lt h, ha]; simp
      refine ⟨α, (cc_true n k c α).2 ⟨?_, ?_, ?_, ?_, ?_⟩⟩
      · intro i hi
        rw [mem_oneTo] at hi
        refine ⟨⟨i, mem_oneTo.2 ⟨hi.1, by omega⟩, (hQ _ _).2 rfl⟩, fun v _ w _ e1 e2 => ?_⟩
        rw [hQ] at e1 e2; omega
      · intro v _ i _ j _ hlt; rw [hQ, hQ]; omega
      · intro u _ v hv hlt i hi j hj _; rw [hQ, hQ, hE u v hlt]
        rw [mem_oneTo] at hj; omega
      · intro v hv
        rw [mem_oneTo] at hv
        refine ⟨⟨if v ≤ k then v else 1, mem_oneTo.2 (by split <;> omega), (hR _ _).2 rfl⟩, fun l _ m _ e1 e2 => ?_⟩
        rw [hR] at e1 e2; omega
      · intro u _ v _ hlt l _ he
        rw [hR, hR]
        rw [hE u v hlt] at he
        rw [if_pos he, if_pos (by omega)]; omega
  exact ⟨F, hF, main, main.trans (hasCliqueAndColoring_iff n k c)⟩

/-- Five vertices, three colors: satisfiable with a triangle, not with four connected vertices. -/
example : (∃ F, cliqueColoring 5 3 3 = pure F ∧ Spec.Satisfiable F.clauses) ∧ ∃ F, cliqueColoring 5 4 3 = pure F ∧ ¬ Spec.Satisfiable F.clauses := by
  obtain ⟨F, h1, _, h2⟩ := C60_clique_coloring 5 3 3
  obtain ⟨G, h3, _, h4⟩ := C60_clique_coloring 5 4 3
  exact ⟨⟨F, h1, h2.2 (by decide)⟩, G, h3, fun h => absurd (h4.1 h) (by decide)⟩

end NDP.Cnfgen
