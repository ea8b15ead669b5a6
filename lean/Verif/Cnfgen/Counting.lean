import Verif.Cnfgen.Ordering
import Mathlib.Combinatorics.Enumerative.DoubleCounting
/-
  Model of `families/counting.py`, and C52.
-/
namespace NDP.Cnfgen
open NDP

/-- `families/counting.py` 34-35 (`var_name`; not a format string, so the braces stay doubled). -/
def tupleName (t : List Nat) : Str := "Y_{{".toList ++ joinWith [','] (t.map natStr) ++ "}}".toList

/-- `families/counting.py` 38-42: `incidence[el]`, the tuples containing `el`, in the order of `combinations`. -/
def incidence (M p el : Nat) : List (List Nat) := (combinations (List.range M) p).filter fun t => decide (el ∈ t)

/-- `families/counting.py` 17-51 (`CountingPrinciple`), for `p ≥ 0` (`combinations` refuses a negative size). -/
def counting (n p : Nat) : M (CNF Str) :=
  CNF.ofClauses ((List.range n).flatMap fun el => equalTo ((incidence n p el).map tupleName) 1)

/-- `families/counting.py` 75-79 (`var_name`). -/
def edgeName (u v : Nat) : Str := if u ≤ v then xn u v else xn v u

/-- `families/counting.py` 55-89 (`PerfectMatchingPrinciple`). -/
def perfectMatching (g : Graph) : M (CNF Str) :=
  CNF.ofClauses (g.verts.flatMap fun v => equalTo ((g.neighbors v).map fun u => edgeName u v) 1)

theorem combinations_nodup {A : Type} : ∀ {l : List A} {k : Nat}, l.Nodup → (combinations l k).Nodup
  | l, 0, _ => by rw [show combinations l 0 = [[]] by cases l <;> rfl]; simp
  | [], k + 1, _ => by simp [combinations]
  | x :: xs, k + 1, h => by
    rw [List.nodup_cons] at h
    simp only [combinations]
    rw [List.nodup_append]
    refine ⟨List.Nodup.map (fun a b e => by simpa using e) (combinations_nodup h.2), combinations_nodup h.2, ?_⟩
    intro a ha b hb e
    subst e
    obtain ⟨t, _, rfl⟩ := List.mem_map.1 ha
    exact h.1 ((mem_combinations.1 hb).1.subset (by simp))

theorem nodup_map_on {A B : Type} {f : A → B} {l : List A} (hn : l.Nodup) (h : ∀ a ∈ l, ∀ b ∈ l, f a = f b → a = b) :
    (l.map f).Nodup := List.Nodup.map_on (fun a ha b hb e => h a ha b hb e) hn

/-- Exactly one is true. -/
theorem allTrue_eqOne {V ι : Type} (α : V → Bool) (l : List ι) (f : ι → V) (hn : l.Nodup) :
    AllTrue α (equalTo (l.map f) 1) ↔ ∃ i ∈ l, α (f i) = true ∧ ∀ j ∈ l, α (f j) = true → j = i := by
  unfold equalTo
  rw [allTrue_append, allTrue_leOne α l f hn, allTrue_geOne]
  simp only [List.mem_map, exists_exists_and_eq_and]
  constructor
  · rintro ⟨h1, i, hi, ht⟩
    exact ⟨i, hi, ht, fun j hj h => h1 j hj i hi h ht⟩
  · rintro ⟨i, hi, ht, hu⟩
    exact ⟨fun a ha b hb h1 h2 => by rw [hu a ha h1, hu b hb h2], i, hi, ht⟩

theorem tupleName_inj {t s : List Nat} (h1 : t ≠ []) (h2 : s ≠ []) (h : tupleName t = tupleName s) : t = s := by
  unfold tupleName at h
  have h := List.append_cancel_left (List.append_cancel_right h)
  have e : ∀ t : List Nat, t ≠ [] → splitOn ',' (joinWith [','] (t.map natStr)) = t.map natStr := by
    intro t ht
    refine splitOn_joinWith ',' _ (by simpa using ht) ?_
    intro w hw
    obtain ⟨n, _, rfl⟩ := List.mem_map.1 hw
    exact not_mem_natStr (by decide)
  have := e t h1
  rw [h, e s h2] at this
  exact List.map_injective_iff.2 (fun a b => natStr_injective) this.symm

theorem incidence_nodup (M p el : Nat) : (incidence M p el).Nodup := (combinations_nodup List.nodup_range).filter _

theorem mem_incidence {M p el : Nat} {t : List Nat} :
    t ∈ incidence M p el ↔ t.Sublist (List.range M) ∧ t.length = p ∧ el ∈ t := by
  simp [incidence, mem_combinations, and_assoc]

theorem incidence_inj {M p el : Nat} {t s : List Nat} (ht : t ∈ incidence M p el) (hs : s ∈ incidence M p el)
    (e : tupleName t = tupleName s) : t = s :=
  tupleName_inj (List.ne_nil_of_mem (mem_incidence.1 ht).2.2) (List.ne_nil_of_mem (mem_incidence.1 hs).2.2) e

/-- **C52.** The counting principle is satisfiable exactly when `M` elements can be divided in parts of size `p`. -/
theorem C52_counting (M p : Nat) : ∃ F, counting M p = pure F ∧ (Spec.Satisfiable F.clauses ↔ p ∣ M) := by
  obtain ⟨F, hF, hc⟩ := CNF.ofClauses_ok (cs := (List.range M).flatMap fun el => equalTo ((incidence M p el).map tupleName) 1) (by
    intro c hc
    obtain ⟨el, _, hc⟩ := List.mem_flatMap.1 hc
    exact (mem_equalTo hc).nodup (nodup_map_on (incidence_nodup M p el) fun a ha b hb => incidence_inj ha hb))
  refine ⟨F, hF, ?_⟩
  rw [hc.sat]
  simp only [allTrue_flatMap, allTrue_eqOne _ _ _ (incidence_nodup M p _), List.mem_range]
  constructor
  · rintro ⟨α, h⟩
    let S : Finset (List Nat) := ((combinations (List.range M) p).filter fun t => α (tupleName t)).toFinset
    have hS : ∀ t, t ∈ S ↔ (t.Sublist (List.range M) ∧ t.length = p) ∧ α (tupleName t) = true := by
      intro t; simp [S, mem_combinations]
    have key := Finset.card_mul_eq_card_mul (s := Finset.range M) (t := S) (m := 1) (n := p) (fun a t => a ∈ t) ?_ ?_
    · rw [Finset.card_range, Nat.mul_one] at key
      exact ⟨_, by rw [key, Nat.mul_comm]⟩
    · intro el hel
      obtain ⟨t, ht, hat, hu⟩ := h el (Finset.mem_range.1 hel)
      rw [Finset.card_eq_one]
      refine ⟨t, ?_⟩
      ext s
      simp only [Finset.mem_bipartiteAbove, hS, Finset.mem_singleton]
      constructor
      · rintro ⟨⟨⟨h1, h2⟩, h3⟩, h4⟩
        exact hu s (mem_incidence.2 ⟨h1, h2, h4⟩) h3
      · rintro rfl
        obtain ⟨a, b, c⟩ := mem_incidence.1 ht
        exact ⟨⟨⟨a, b⟩, hat⟩, c⟩
    · intro t ht
      obtain ⟨⟨h1, h2⟩, _⟩ := (hS t).1 ht
      have : (Finset.range M).bipartiteBelow (fun a t => a ∈ t) t = t.toFinset := by
        ext a
        simp only [Finset.mem_bipartiteBelow, Finset.mem_range, List.mem_toFinset]
        exact ⟨fun h => h.2, fun h => ⟨List.mem_range.1 (h1.subset h), h⟩⟩
      rw [this, List.toFinset_card_of_nodup (h1.nodup List.nodup_range), h2]
  · rintro ⟨q, rfl⟩
    classical
    rcases Nat.eq_zero_or_pos p with hp | hp
    · subst hp
      exact ⟨fun _ => false, by simp⟩
    · let block (i : Nat) : List Nat := (List.range p).map (p * i + ·)
      have hbm : ∀ i x, x ∈ block i ↔ x / p = i := by
        intro i x
        simp only [block, List.mem_map, List.mem_range]
        constructor
        · rintro ⟨k, hk, rfl⟩
          rw [Nat.mul_add_div hp, Nat.div_eq_of_lt hk, Nat.add_zero]
        · rintro rfl
          exact ⟨x % p, Nat.mod_lt _ hp, Nat.div_add_mod x p⟩
      have hbne : ∀ i, block i ≠ [] := by
        intro i h
        have := congrArg List.length h
        simp [block] at this; omega
      refine ⟨fun n => decide (∃ i, n = tupleName (block i)), fun el hel => ?_⟩
      refine ⟨block (el / p), mem_incidence.2 ⟨?_, by simp [block], (hbm _ _).2 rfl⟩, decide_eq_true ⟨_, rfl⟩, ?_⟩
      · have hlt : el / p < q := Nat.div_lt_of_lt_mul hel
        have hd : p * q = p * (el / p) + (p + (p * q - p * (el / p) - p)) := by
          have : p * (el / p) + p ≤ p * q := by
            rw [← Nat.mul_succ]; exact Nat.mul_le_mul_left p hlt
          omega
        rw [hd, List.range_add, List.range_add, List.map_append]
        exact (List.sublist_append_left _ _).trans (List.sublist_append_right _ _)
      · intro s hs ht
        simp only [decide_eq_true_eq] at ht
        obtain ⟨i, hi⟩ := ht
        have e : s = block i := tupleName_inj (List.ne_nil_of_mem (mem_incidence.1 hs).2.2) (hbne i) hi
        have hm := (mem_incidence.1 hs).2.2
        rw [e, hbm] at hm
        rw [e, hm]

/-- Seven elements cannot be divided in pairs; six can be divided in threes. -/
example : (∃ F, counting 7 2 = pure F ∧ ¬ Spec.Satisfiable F.clauses) ∧ ∃ F, counting 6 3 = pure F ∧ Spec.Satisfiable F.clauses := by
  obtain ⟨F, h1, h2⟩ := C52_counting 7 2
  obtain ⟨G, h3, h4⟩ := C52_counting 6 3
  exact ⟨⟨F, h1, by rw [h2]; omega⟩, G, h3, h4.2 (by omega)⟩

theorem edgeName_comm (u v : Nat) : edgeName u v = edgeName v u := by
  unfold edgeName
  rcases Nat.lt_trichotomy u v with h | h | h
  · rw [if_pos (by omega), if_neg (by omega)]
  · rw [h]
  · rw [if_neg (by omega), if_pos (by omega)]

theorem edgeName_inj {u w v : Nat} (h : edgeName u v = edgeName w v) : u = w := by
  unfold edgeName at h
  split at h <;> split at h <;> have := xn_inj h <;> omega

/-- **C52.** The perfect matching formula is satisfiable exactly when the graph has a perfect matching: a partner for every vertex. -/
theorem C52_perfect_matching (g : Graph) (hg : g.Wf) : ∃ F, perfectMatching g = pure F ∧
    (Spec.Satisfiable F.clauses ↔ ∃ f : Nat → Nat, ∀ v ∈ g.verts, g.hasEdge v (f v) = true ∧ f (f v) = v) := by
  have hnn : ∀ v, (g.neighbors v).Nodup := fun v => hg.verts_nodup.filter _
  obtain ⟨F, hF, hc⟩ := CNF.ofClauses_ok (cs := g.verts.flatMap fun v => equalTo ((g.neighbors v).map fun u => edgeName u v) 1) (by
    intro c hc
    obtain ⟨v, _, hc⟩ := List.mem_flatMap.1 hc
    exact (mem_equalTo hc).nodup (nodup_map_on (hnn v) fun a _ b _ => edgeName_inj))
  refine ⟨F, hF, ?_⟩
  rw [hc.sat]
  simp only [allTrue_flatMap, allTrue_eqOne _ _ _ (hnn _), Graph.mem_neighbors]
  constructor
  · rintro ⟨α, h⟩
    choose! f hf using h
    refine ⟨f, fun v hv => ⟨by rw [Graph.hasEdge_comm]; exact (hf v hv).1.2, ?_⟩⟩
    obtain ⟨⟨h1, h2⟩, h3, _⟩ := hf v hv
    exact ((hf (f v) h1).2.2 v ⟨hv, by rw [Graph.hasEdge_comm]; exact h2⟩ (by rw [edgeName_comm]; exact h3)).symm
  · rintro ⟨f, hf⟩
    obtain ⟨α, ha⟩ := exists_fmt2 "x".toList fun i j => f i = j
    have ha : ∀ i j, α (xn i j) = true ↔ f i = j := ha
    have he : ∀ u v, u ∈ g.verts → v ∈ g.verts → (α (edgeName u v) = true ↔ f v = u) := by
      intro u v hu hv
      unfold edgeName
      split
      · rw [ha]
        exact ⟨fun h => h ▸ (hf u hu).2, fun h => h ▸ (hf v hv).2⟩
      · rw [ha]
    refine ⟨α, fun v hv => ?_⟩
    obtain ⟨h1, h2⟩ := hf v hv
    have hm := (hg.hasEdge_mem h1).2
    refine ⟨f v, ⟨hm, by rw [Graph.hasEdge_comm]; exact h1⟩, (he _ _ hm hv).2 rfl, ?_⟩
    rintro j ⟨hj, _⟩ h
    exact ((he _ _ hj hv).1 h).symm

/-- A path of four vertices has a perfect matching, a star of three leaves has none. -/
example : (∃ F, perfectMatching ⟨[1, 2, 3, 4], [(1, 2), (3, 2), (3, 4)]⟩ = pure F ∧ Spec.Satisfiable F.clauses) ∧
    ∃ F, perfectMatching ⟨[1, 2, 3, 4], [(1, 2), (1, 3), (1, 4)]⟩ = pure F ∧ ¬ Spec.Satisfiable F.clauses := by
  obtain ⟨F, h1, h2⟩ := C52_perfect_matching ⟨[1, 2, 3, 4], [(1, 2), (3, 2), (3, 4)]⟩ ⟨by simp, by simp, by simp, by simp⟩
  obtain ⟨G, h3, h4⟩ := C52_perfect_matching ⟨[1, 2, 3, 4], [(1, 2), (1, 3), (1, 4)]⟩ ⟨by simp, by simp, by simp, by simp⟩
  refine ⟨⟨F, h1, h2.2 ⟨fun v => if v % 2 = 1 then v + 1 else v - 1, ?_⟩⟩, G, h3, ?_⟩
  · simp [Graph.hasEdge]
  · rw [h4]
    rintro ⟨f, hf⟩
    simp only [List.mem_cons, List.not_mem_nil, or_false, forall_eq_or_imp, forall_eq, Graph.hasEdge, Prod.mk.injEq, decide_eq_true_eq] at hf
    have e3 : f 3 = 1 := by omega
    have e4 : f 4 = 1 := by omega
    rw [e3, e4] at hf
    omega

end NDP.Cnfgen
