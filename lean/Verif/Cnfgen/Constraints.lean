import Verif.Cnfgen.Core
/-
  C48: the constraint builders of `cnf.py` say exactly what they are documented to say.
-/
namespace NDP.Cnfgen
open NDP
variable {V : Type}

theorem mem_combinations {A : Type} : ∀ {l : List A} {k : Nat} {t : List A}, t ∈ combinations l k ↔ t.Sublist l ∧ t.length = k
  | l, 0, t => by
    rw [show combinations l 0 = [[]] by cases l <;> rfl]
    simp only [List.mem_singleton, List.length_eq_zero_iff]
    exact ⟨fun h => ⟨h ▸ List.nil_sublist _, h⟩, fun h => h.2⟩
  | [], k + 1, t => by
    simp only [combinations, List.not_mem_nil, List.sublist_nil, false_iff]
    rintro ⟨rfl, h⟩; simp at h
  | x :: xs, k + 1, t => by
    simp only [combinations, List.mem_append, List.mem_map, mem_combinations (l := xs)]
    constructor
    · rintro (⟨s, ⟨h1, h2⟩, rfl⟩ | ⟨h1, h2⟩)
      · exact ⟨h1.cons_cons x, by simp [h2]⟩
      · exact ⟨h1.cons x, h2⟩
    · rintro ⟨h1, h2⟩
      cases h1 with
      | cons _ h => exact .inr ⟨h, h2⟩
      | cons_cons _ h => exact .inl ⟨_, ⟨h, by simpa using h2⟩, rfl⟩

/-- How many variables have the value `b`. -/
theorem exists_comb_iff (α : V → Bool) (b : Bool) (vs : List V) (k : Nat) :
    (∃ t ∈ combinations vs k, ∀ v ∈ t, α v = b) ↔ k ≤ (vs.filter fun v => α v == b).length := by
  constructor
  · rintro ⟨t, ht, hb⟩
    obtain ⟨h1, rfl⟩ := mem_combinations.1 ht
    have := h1.filter (fun v => α v == b)
    rw [List.filter_eq_self.2 (by simpa using hb)] at this
    exact this.length_le
  · intro h
    refine ⟨(vs.filter fun v => α v == b).take k, mem_combinations.2 ⟨(List.take_sublist _ _).trans List.filter_sublist, by rw [List.length_take]; omega⟩, ?_⟩
    intro v hv
    have := List.mem_of_mem_take hv
    simpa using (List.mem_filter.1 this).2

theorem nFalse (α : V → Bool) (vs : List V) : (vs.filter fun v => α v == false).length = vs.length - nTrue α vs := by
  induction vs with
  | nil => rfl
  | cons v vs ih =>
    have : nTrue α vs ≤ vs.length := List.length_filter_le _ _
    simp only [nTrue, List.filter_cons] at *
    cases α v <;> simp_all <;> omega

theorem allTrue_combinations (α : V → Bool) (p : Bool) (vs : List V) (k : Nat) :
    AllTrue α ((combinations vs k).map fun t => t.map fun v => (p, v)) ↔ (vs.filter fun v => α v == !p).length < k := by
  rw [← not_le, ← exists_comb_iff, allTrue_map]
  push Not
  refine forall_congr' fun t => forall_congr' fun _ => ?_
  simp [ClauseTrue]

theorem nTrue_le (α : V → Bool) (vs : List V) : nTrue α vs ≤ vs.length := List.length_filter_le _ _

theorem allTrue_inequality_lt (α : V → Bool) (vs : List V) (k : Int) :
    AllTrue α (inequality vs k false) ↔ (nTrue α vs : Int) < k := by
  have := nTrue_le α vs
  unfold inequality
  simp only [Bool.false_eq_true, if_false]
  split
  · simp only [allTrue_nil, true_iff]; omega
  · split
    · simp [AllTrue, ClauseTrue]; omega
    · rw [allTrue_combinations]
      have : (vs.filter fun v => α v == !false).length = nTrue α vs := by simp [nTrue]
      rw [this]; omega

theorem allTrue_inequality_gt (α : V → Bool) (vs : List V) (k : Int) :
    AllTrue α (inequality vs k true) ↔ k < (nTrue α vs : Int) := by
  have := nTrue_le α vs
  unfold inequality
  simp only [if_true]
  split
  · simp only [allTrue_nil, true_iff]; omega
  · split
    · simp [AllTrue, ClauseTrue]; omega
    · rw [allTrue_combinations]
      have := nFalse α vs
      simp only [Bool.not_true]
      rw [this]; omega

theorem mem_product {A : Type} : ∀ {ds : List (List A)} {t : List A}, t ∈ product ds ↔ List.Forall₂ (fun x d => x ∈ d) t ds
  | [], t => by simp [product]
  | d :: ds, t => by
    simp only [product, List.mem_flatMap, List.mem_map, mem_product (ds := ds)]
    constructor
    · rintro ⟨x, hx, s, hs, rfl⟩; exact .cons hx hs
    · rintro (_ | ⟨hx, hs⟩); exact ⟨_, hx, _, hs, rfl⟩

/-- **C48.** -/
theorem C48_less_than (α : V → Bool) (vs : List V) (b : Int) : AllTrue α (lessThan vs b) ↔ (nTrue α vs : Int) < b :=
  allTrue_inequality_lt α vs b
theorem C48_less_or_equal (α : V → Bool) (vs : List V) (b : Int) : AllTrue α (lessOrEqual vs b) ↔ (nTrue α vs : Int) ≤ b := by
  unfold lessOrEqual; rw [allTrue_inequality_lt]; omega
theorem C48_greater_than (α : V → Bool) (vs : List V) (b : Int) : AllTrue α (greaterThan vs b) ↔ (nTrue α vs : Int) > b :=
  allTrue_inequality_gt α vs b
theorem C48_greater_or_equal (α : V → Bool) (vs : List V) (b : Int) : AllTrue α (greaterOrEqual vs b) ↔ (nTrue α vs : Int) ≥ b := by
  unfold greaterOrEqual; rw [allTrue_inequality_gt]; omega
theorem C48_equal_to (α : V → Bool) (vs : List V) (b : Int) : AllTrue α (equalTo vs b) ↔ (nTrue α vs : Int) = b := by
  unfold equalTo; rw [allTrue_append, C48_less_or_equal, C48_greater_or_equal]; omega
/-- At least as many true as false. -/
theorem C48_loose_majority (α : V → Bool) (vs : List V) :
    AllTrue α (looseMajority vs) ↔ nTrue (fun v => !α v) vs ≤ nTrue α vs := by
  have h := nFalse α vs
  have h2 := nTrue_le α vs
  unfold looseMajority; rw [C48_greater_or_equal]
  simp only [nTrue, beq_false] at *
  omega
theorem C48_loose_minority (α : V → Bool) (vs : List V) :
    AllTrue α (looseMinority vs) ↔ nTrue α vs ≤ nTrue (fun v => !α v) vs := by
  have h := nFalse α vs
  have h2 := nTrue_le α vs
  unfold looseMinority; rw [C48_less_or_equal]
  simp only [nTrue, beq_false] at *
  omega
/-- Exactly half true; when their number is odd, one more true than false. -/
theorem C48_exactly_half_ceil (α : V → Bool) (vs : List V) : AllTrue α (exactlyHalfCeil vs) ↔
    nTrue α vs = nTrue (fun v => !α v) vs ∨ nTrue α vs = nTrue (fun v => !α v) vs + 1 := by
  have h := nFalse α vs
  have h2 := nTrue_le α vs
  unfold exactlyHalfCeil; rw [C48_equal_to]
  simp only [nTrue, beq_false] at *
  omega
theorem C48_exactly_half_floor (α : V → Bool) (vs : List V) : AllTrue α (exactlyHalfFloor vs) ↔
    nTrue α vs = nTrue (fun v => !α v) vs ∨ nTrue α vs + 1 = nTrue (fun v => !α v) vs := by
  have h := nFalse α vs
  have h2 := nTrue_le α vs
  unfold exactlyHalfFloor; rw [C48_equal_to]
  simp only [nTrue, beq_false] at *
  omega

/-- The clause forbidding exactly the values of `α`. -/
theorem clauseTrue_product (α : V → Bool) : ∀ (vs : List V) (c : List (Lit V)),
    c ∈ product (vs.map fun v => [(true, v), (false, v)]) →
    ¬ ClauseTrue α c → c = vs.map fun v => (!α v, v)
  | [], c, h, _ => by simpa [product] using h
  | v :: vs, c, h, hf => by
    simp only [List.map_cons, product, List.mem_flatMap, List.mem_map] at h
    obtain ⟨x, hx, s, hs, rfl⟩ := h
    rw [clauseTrue_cons] at hf
    push Not at hf
    rw [List.map_cons, clauseTrue_product α vs s hs hf.2]
    have : x = (!α v, v) := by
      rcases List.mem_pair.1 hx with rfl | rfl <;> simp_all
    rw [this]

theorem mem_product_self (α : V → Bool) (vs : List V) : (vs.map fun v => (!α v, v)) ∈ product (vs.map fun v => [(true, v), (false, v)]) := by
  induction vs with
  | nil => simp [product]
  | cons v vs ih =>
    simp only [List.map_cons, product, List.mem_flatMap, List.mem_map]
    exact ⟨_, by cases α v <;> simp, _, ih, rfl⟩

theorem sum_neg (α : V → Bool) (vs : List V) :
    ((vs.map fun v => ((!α v, v) : Lit V)).map fun l => if l.1 then 0 else 1).sum = nTrue α vs := by
  induction vs with
  | nil => rfl
  | cons v vs ih =>
    simp only [List.map_cons, List.sum_cons, ih, nTrue, List.filter_cons]
    cases α v <;> simp <;> omega

theorem C48_parity (α : V → Bool) (vs : List V) (b : Nat) :
    AllTrue α (parityConstraint vs b) ↔ nTrue α vs % 2 = b := by
  unfold parityConstraint AllTrue
  simp only [List.mem_filter, decide_eq_true_eq]
  constructor
  · intro h
    by_contra hc
    obtain ⟨l, hl, ht⟩ := h _ ⟨mem_product_self α vs, by rw [sum_neg]; exact hc⟩
    obtain ⟨v, _, rfl⟩ := List.mem_map.1 hl
    simp at ht
  · rintro h c ⟨hc, hp⟩
    by_contra hf
    rw [clauseTrue_product α vs c hc hf, sum_neg] at hp
    exact hp h

/-- The variables of the builders' clauses. -/
theorem mem_inequality {vs : List V} {k : Int} {g : Bool} {c : List (Lit V)} (h : c ∈ inequality vs k g) :
    (c.map Prod.snd).Sublist vs := by
  have key : ∀ k : Int, c ∈ (if k > vs.length then [] else if k < 0 then [[]]
      else (combinations vs k.toNat).map fun tpl => tpl.map fun v => (g, v)) → (c.map Prod.snd).Sublist vs := by
    intro k h
    split at h
    · simp at h
    · split at h
      · simp at h; simp [h]
      · obtain ⟨t, ht, rfl⟩ := List.mem_map.1 h
        rw [List.map_map]
        have : (Prod.snd ∘ fun v => (g, v) : V → V) = id := rfl
        rw [this, List.map_id]
        exact (mem_combinations.1 ht).1
  exact key _ h

theorem mem_equalTo {vs : List V} {k : Int} {c : List (Lit V)} (h : c ∈ equalTo vs k) : (c.map Prod.snd).Sublist vs := by
  unfold equalTo at h
  rcases List.mem_append.1 h with h | h <;> exact mem_inequality h

theorem mem_parity {vs : List V} {k : Nat} {c : List (Lit V)} (h : c ∈ parityConstraint vs k) : c.map Prod.snd = vs := by
  replace h := (List.mem_filter.1 h).1
  clear k
  induction vs generalizing c with
  | nil => simp [product] at h; simp [h]
  | cons v vs ih =>
    simp only [List.map_cons, product, List.mem_flatMap, List.mem_map] at h
    obtain ⟨x, hx, s, hs, rfl⟩ := h
    rw [List.map_cons, ih hs]
    rcases List.mem_pair.1 hx with rfl | rfl <;> rfl

/-! ### Special cases used by the families -/

theorem allTrue_geOne (α : V → Bool) (vs : List V) : AllTrue α (greaterOrEqual vs 1) ↔ ∃ v ∈ vs, α v = true := by
  rw [C48_greater_or_equal]
  unfold nTrue
  rw [ge_iff_le, show (1 : Int) = ((1 : Nat) : Int) from rfl, Int.ofNat_le, Nat.one_le_iff_ne_zero, ← Nat.pos_iff_ne_zero,
    List.length_pos_iff_exists_mem]
  simp

theorem mem_pairs {A : Type} : ∀ {l : List A} {x y : A}, (x, y) ∈ pairs l ↔ [x, y].Sublist l
  | [], x, y => by simp [pairs]
  | z :: zs, x, y => by
    simp only [pairs, List.mem_append, List.mem_map, Prod.mk.injEq, mem_pairs (l := zs)]
    constructor
    · rintro (⟨w, hw, rfl, rfl⟩ | h)
      · exact (List.singleton_sublist.2 hw).cons_cons _
      · exact h.cons _
    · intro h
      cases h with
      | cons _ h => exact .inr h
      | cons_cons _ h => exact .inl ⟨y, List.singleton_sublist.1 h, rfl, rfl⟩

/-- At most one is true: no two positions are. -/
theorem nTrue_le_one (α : V → Bool) (vs : List V) :
    nTrue α vs ≤ 1 ↔ ∀ p ∈ pairs vs, ¬ (α p.1 = true ∧ α p.2 = true) := by
  have h := exists_comb_iff α true vs 2
  have e : (vs.filter fun v => α v == true).length = nTrue α vs := by simp [nTrue]
  rw [e] at h
  rw [← not_lt, show (1 < nTrue α vs) = (2 ≤ nTrue α vs) from rfl, ← h]
  push Not
  constructor
  · rintro h ⟨x, y⟩ hp hx
    have := h [x, y] (mem_combinations.2 ⟨mem_pairs.1 hp, rfl⟩)
    simp only at hx
    simp [hx] at this
    simp [this]
  · intro h t ht
    obtain ⟨h1, h2⟩ := mem_combinations.1 ht
    match t, h2 with
    | [x, y], _ =>
      have := h (x, y) (mem_pairs.2 h1)
      simp only at this
      cases hx : α x
      · exact ⟨x, by simp, by simp [hx]⟩
      · exact ⟨y, by simp, by simpa using this hx⟩

theorem allTrue_leOne {ι : Type} (α : V → Bool) (l : List ι) (f : ι → V) (hn : l.Nodup) :
    AllTrue α (lessOrEqual (l.map f) 1) ↔ ∀ i ∈ l, ∀ j ∈ l, α (f i) = true → α (f j) = true → i = j := by
  rw [C48_less_or_equal, show (1 : Int) = ((1 : Nat) : Int) from rfl, Int.ofNat_le]
  have e : nTrue α (l.map f) = nTrue (fun i => α (f i)) l := by
    unfold nTrue; rw [List.filter_map, List.length_map]; rfl
  rw [e, nTrue_le_one]
  constructor
  · intro h i hi j hj h1 h2
    by_contra hne
    have : [i, j].Sublist l ∨ [j, i].Sublist l := by
      clear h h1 h2 e
      induction l with
      | nil => simp at hi
      | cons x xs ih =>
        rcases List.mem_cons.1 hi with rfl | hi'
        · rcases List.mem_cons.1 hj with rfl | hj'
          · exact absurd rfl hne
          · exact .inl ((List.singleton_sublist.2 hj').cons_cons _)
        · rcases List.mem_cons.1 hj with rfl | hj'
          · exact .inr ((List.singleton_sublist.2 hi').cons_cons _)
          · rcases ih (List.nodup_cons.1 hn).2 hi' hj' with h | h
            · exact .inl (h.cons _)
            · exact .inr (h.cons _)
    rcases this with h3 | h3
    · exact h _ (mem_pairs.2 h3) ⟨h1, h2⟩
    · exact h _ (mem_pairs.2 h3) ⟨h2, h1⟩
  · rintro h ⟨i, j⟩ hp ⟨h1, h2⟩
    have hs := mem_pairs.1 hp
    have := h i (hs.subset (by simp)) j (hs.subset (by simp)) h1 h2
    subst this
    have := hs.nodup hn
    simp at this

end NDP.Cnfgen
