import Verif.Cnfgen.DominatingSet
import Verif.Cnfgen.Coloring
import Mathlib.Logic.Equiv.Nat
import Mathlib.Data.Nat.Pairing
/-
  C62: `families/subsetcardinality.py`.
-/
namespace NDP.Cnfgen
open NDP

/-! ### Model -/

/-- `families/subsetcardinality.py` 94-96: the variables. -/
def scVars (g : BiGraph) : List Str := g.left.flatMap fun u => (g.nbrL u).map fun v => edgeName u v

/-- `families/subsetcardinality.py` 98-106. -/
def scLeft (equalities : Bool) (g : BiGraph) : List (List (Lit Str)) :=
  g.left.flatMap fun u =>
    if equalities then exactlyHalfCeil ((g.nbrL u).map fun v => edgeName u v) else looseMajority ((g.nbrL u).map fun v => edgeName u v)

/-- `families/subsetcardinality.py` 108-116. -/
def scRight (equalities : Bool) (g : BiGraph) : List (List (Lit Str)) :=
  g.right.flatMap fun v =>
    if equalities then exactlyHalfFloor ((g.nbrR v).map fun u => edgeName u v) else looseMinority ((g.nbrR v).map fun u => edgeName u v)

/-- `families/subsetcardinality.py` 16-118 (`SubsetCardinalityFormula`). -/
def subsetCardinality (g : BiGraph) (equalities : Bool) : M (CNF Str) :=
  CNF.ofPartsStrict (scVars g) (scLeft equalities g ++ scRight equalities g)

/-! ### Specification -/

/-- A bipartite graph: two disjoint sides, listed in order; edges from left to right. -/
structure BiGraph.Ordered (g : BiGraph) : Prop where
  left_sorted : g.left.Pairwise (· < ·)
  right_sorted : g.right.Pairwise (· < ·)
  disjoint : ∀ v ∈ g.left, v ∉ g.right
  ends : ∀ e ∈ g.edges, e.1 ∈ g.left ∧ e.2 ∈ g.right

/-- How many edges at the left vertex `u` are chosen. -/
def BiGraph.chosenL (g : BiGraph) (s : Nat → Nat → Bool) (u : Nat) : Nat := ((g.nbrL u).filter fun v => s u v).length
/-- How many edges at the right vertex `v` are chosen. -/
def BiGraph.chosenR (g : BiGraph) (s : Nat → Nat → Bool) (v : Nat) : Nat := ((g.nbrR v).filter fun u => s u v).length

/-- Edges can be chosen as the documentation says: at least half of the edges at each left vertex, at most half of those at each right
vertex; with equations, exactly half, rounded up on the left and down on the right. -/
def HalfChoice (g : BiGraph) (equalities : Bool) : Prop :=
  ∃ s : Nat → Nat → Bool,
    (∀ u ∈ g.left, if equalities then g.chosenL s u = ((g.nbrL u).length + 1) / 2 else (g.nbrL u).length ≤ 2 * g.chosenL s u) ∧
    (∀ v ∈ g.right, if equalities then g.chosenR s v = (g.nbrR v).length / 2 else 2 * g.chosenR s v ≤ (g.nbrR v).length)

/-! ### Counting -/

theorem nTrue_map_sc (α : Str → Bool) (l : List Nat) (f : Nat → Str) : nTrue α (l.map f) = (l.filter fun x => α (f x)).length := by
  unfold nTrue; rw [List.filter_map, List.length_map]; rfl

/-- Double counting. -/
theorem sum_filter_swap (P : Nat → Nat → Bool) (l r : List Nat) :
    (l.map fun u => (r.filter fun v => P u v).length).sum = (r.map fun v => (l.filter fun u => P u v).length).sum := by
  induction l with
  | nil => induction r with
    | nil => rfl
    | cons v r ih => simpa using ih
  | cons u l ih =>
    rw [List.map_cons, List.sum_cons, ih]
    clear ih
    induction r with
    | nil => rfl
    | cons v r ih =>
      rw [List.map_cons, List.sum_cons, List.map_cons, List.sum_cons, ← ih]
      simp only [List.filter_cons]
      cases h : P u v
      · simp only [Bool.false_eq_true, if_false]; omega
      · simp only [if_true, List.length_cons]; omega

theorem sum_chosen (g : BiGraph) (s : Nat → Nat → Bool) : (g.left.map (g.chosenL s)).sum = (g.right.map (g.chosenR s)).sum := by
  have := sum_filter_swap (fun u v => decide ((u, v) ∈ g.edges) && s u v) g.left g.right
  have e1 : g.left.map (g.chosenL s) = g.left.map fun u => (g.right.filter fun v => decide ((u, v) ∈ g.edges) && s u v).length := by
    refine List.map_congr_left fun u _ => ?_
    unfold BiGraph.chosenL BiGraph.nbrL
    rw [List.filter_filter]
    congr 2
    funext v; exact Bool.and_comm _ _
  have e2 : g.right.map (g.chosenR s) = g.right.map fun v => (g.left.filter fun u => decide ((u, v) ∈ g.edges) && s u v).length := by
    refine List.map_congr_left fun u _ => ?_
    unfold BiGraph.chosenR BiGraph.nbrR
    rw [List.filter_filter]
    congr 2
    funext v; exact Bool.and_comm _ _
  rw [e1, e2, this]

theorem sum_degrees (g : BiGraph) : (g.left.map fun u => (g.nbrL u).length).sum = (g.right.map fun v => (g.nbrR v).length).sum :=
  sum_filter_swap (fun u v => decide ((u, v) ∈ g.edges)) g.left g.right

theorem sum_le_eq {l : List Nat} {f h : Nat → Nat} (hle : ∀ x ∈ l, f x ≤ h x) :
    (l.map f).sum ≤ (l.map h).sum ∧ ((l.map h).sum ≤ (l.map f).sum → ∀ x ∈ l, f x = h x) := by
  induction l with
  | nil => simp
  | cons a l ih =>
    obtain ⟨h1, h2⟩ := ih (fun x hx => hle x (by simp [hx]))
    have h3 := hle a (by simp)
    simp only [List.map_cons, List.sum_cons]
    refine ⟨by omega, fun h4 x hx => ?_⟩
    rcases List.mem_cons.1 hx with rfl | hx
    · omega
    · exact h2 (by omega) x hx

theorem sum_two_mul (l : List Nat) (f : Nat → Nat) : (l.map fun x => 2 * f x).sum = 2 * (l.map f).sum := by
  induction l with
  | nil => rfl
  | cons a l ih => simp only [List.map_cons, List.sum_cons, ih]; omega

theorem halfChoice_even {g : BiGraph} {e : Bool} (h : HalfChoice g e) :
    (∀ u ∈ g.left, (g.nbrL u).length % 2 = 0) ∧ ∀ v ∈ g.right, (g.nbrR v).length % 2 = 0 := by
  obtain ⟨s, h1, h2⟩ := h
  have hl : ∀ u ∈ g.left, (g.nbrL u).length ≤ 2 * g.chosenL s u := by
    intro u hu
    have := h1 u hu
    cases e
    · simpa using this
    · simp only [if_true] at this; omega
  have hr : ∀ v ∈ g.right, 2 * g.chosenR s v ≤ (g.nbrR v).length := by
    intro v hv
    have := h2 v hv
    cases e
    · simpa using this
    · simp only [if_true] at this; omega
  have a := sum_le_eq (f := fun u => (g.nbrL u).length) (h := fun u => 2 * g.chosenL s u) hl
  have b := sum_le_eq (f := fun v => 2 * g.chosenR s v) (h := fun v => (g.nbrR v).length) hr
  rw [sum_two_mul g.left fun u => g.chosenL s u] at a
  rw [sum_two_mul g.right fun v => g.chosenR s v] at b
  have c : (g.left.map fun u => g.chosenL s u).sum = (g.right.map fun v => g.chosenR s v).sum := sum_chosen g s
  have d := sum_degrees g
  exact ⟨fun u hu => by have := a.2 (by omega) u hu; omega, fun v hv => by have := b.2 (by omega) v hv; omega⟩

/-! ### Splitting edges evenly -/

/-- Two matchings together are two-colorable. -/
theorem two_matchings {E : Type} (code : E → Nat) (hcode : Function.Injective code) :
    ∀ (M1 : List (E × E)) (R : E → E → Prop), (M1.flatMap fun p => [p.1, p.2]).Nodup →
      (∀ x y, R x y → R y x) → (∀ x, ¬ R x x) → (∀ x y z, R x y → R x z → y = z) →
      ∃ s : E → Bool, (∀ p ∈ M1, s p.1 ≠ s p.2) ∧ ∀ x y, R x y → s x ≠ s y := by
  classical
  intro M1
  induction M1 with
  | nil =>
    intro R _ hs hi hu
    refine ⟨fun x => decide (∃ y, R x y ∧ code x < code y), by simp, fun x y hxy e => ?_⟩
    have hne : code x ≠ code y := fun h => hi x (hcode h ▸ hxy)
    simp only [decide_eq_decide] at e
    rcases Nat.lt_or_gt_of_ne hne with h | h
    · obtain ⟨z, hz, hlt⟩ := e.1 ⟨y, hxy, h⟩
      rw [hu y z x hz (hs _ _ hxy)] at hlt; omega
    · obtain ⟨z, hz, hlt⟩ := e.2 ⟨x, hs _ _ hxy, h⟩
      rw [hu x z y hz hxy] at hlt; omega
  | cons p M1 ih =>
    obtain ⟨x, y⟩ := p
    intro R hn hs hi hu
    rw [List.flatMap_cons] at hn
    simp only [List.cons_append, List.nil_append, List.nodup_cons, List.mem_cons, not_or] at hn
    obtain ⟨⟨hxy, hx⟩, hy, hn⟩ := hn
    have hx' : ∀ q ∈ M1, q.1 ≠ x ∧ q.2 ≠ x := fun q hq =>
      ⟨fun e => hx (List.mem_flatMap.2 ⟨q, hq, by simp [e]⟩), fun e => hx (List.mem_flatMap.2 ⟨q, hq, by simp [e]⟩)⟩
    have hy' : ∀ q ∈ M1, q.1 ≠ y ∧ q.2 ≠ y := fun q hq =>
      ⟨fun e => hy (List.mem_flatMap.2 ⟨q, hq, by simp [e]⟩), fun e => hy (List.mem_flatMap.2 ⟨q, hq, by simp [e]⟩)⟩
    -- the colors of the others
    by_cases hxp : ∃ p, R x p
    swap
    · obtain ⟨s, s1, s2⟩ := ih R hn hs hi hu
      refine ⟨fun z => if z = x then !s y else s z, ?_, ?_⟩
      · intro q hq
        rcases List.mem_cons.1 hq with rfl | hq
        · simp [Ne.symm hxy]
        · simp [hx' q hq, s1 q hq]
      · intro a b hab
        have ha : a ≠ x := fun e => hxp ⟨b, e ▸ hab⟩
        have hb : b ≠ x := fun e => hxp ⟨a, e ▸ hs _ _ hab⟩
        simp [ha, hb, s2 a b hab]
    by_cases hyq : ∃ q, R y q
    swap
    · obtain ⟨s, s1, s2⟩ := ih R hn hs hi hu
      refine ⟨fun z => if z = y then !s x else s z, ?_, ?_⟩
      · intro q hq
        rcases List.mem_cons.1 hq with rfl | hq
        · simp [hxy]
        · simp [hy' q hq, s1 q hq]
      · intro a b hab
        have ha : a ≠ y := fun e => hyq ⟨b, e ▸ hab⟩
        have hb : b ≠ y := fun e => hyq ⟨a, e ▸ hs _ _ hab⟩
        simp [ha, hb, s2 a b hab]
    obtain ⟨p, hp⟩ := hxp
    obtain ⟨q, hq⟩ := hyq
    by_cases hpy : p = y
    · subst hpy
      obtain ⟨s, s1, s2⟩ := ih (fun a b => R a b ∧ a ≠ x ∧ a ≠ p ∧ b ≠ x ∧ b ≠ p) hn (fun a b h => ⟨hs _ _ h.1, by tauto⟩)
        (fun a h => hi a h.1) (fun a b c h1 h2 => hu a b c h1.1 h2.1)
      refine ⟨fun z => if z = x then true else if z = p then false else s z, ?_, ?_⟩
      · intro q hq
        rcases List.mem_cons.1 hq with rfl | hq
        · simp [Ne.symm hxy]
        · simp [hx' q hq, hy' q hq, s1 q hq]
      · intro a b hab
        by_cases hax : a = x
        · subst hax; rw [hu _ _ _ hab hp]; simp [Ne.symm hxy]
        by_cases hap : a = p
        · subst hap; rw [hu _ _ _ hab (hs _ _ hp)]; simp [Ne.symm hxy]
        by_cases hbx : b = x
        · subst hbx; exact absurd (hu _ _ _ (hs _ _ hab) hp) hap
        by_cases hbp : b = p
        · subst hbp; exact absurd (hu _ _ _ (hs _ _ hab) (hs _ _ hp)) hax
        simp [hax, hap, hbx, hbp, s2 a b ⟨hab, hax, hap, hbx, hbp⟩]
    · have hpx : p ≠ x := fun e => hi x (e ▸ hp)
      have hqy : q ≠ y := fun e => hi y (e ▸ hq)
      have hqx : q ≠ x := fun e => hpy (hu x p y hp (hs _ _ (e ▸ hq)))
      have hpq : p ≠ q := fun e => hxy (hu p x y (hs _ _ hp) (e ▸ hs _ _ hq))
      obtain ⟨s, s1, s2⟩ := ih (fun a b => (R a b ∧ a ≠ x ∧ a ≠ y ∧ b ≠ x ∧ b ≠ y) ∨ (a = p ∧ b = q) ∨ (a = q ∧ b = p)) hn
        (by rintro a b (h | h | h)
            · exact .inl ⟨hs _ _ h.1, by tauto⟩
            · exact .inr (.inr ⟨h.2, h.1⟩)
            · exact .inr (.inl ⟨h.2, h.1⟩))
        (by rintro a (h | h | h)
            · exact hi a h.1
            · exact hpq (h.1 ▸ h.2)
            · exact hpq (h.2 ▸ h.1))
        (by
          have hno : ∀ c, (R p c → c = x) ∧ (R q c → c = y) := fun c =>
            ⟨fun h => hu p c x h (hs _ _ hp), fun h => hu q c y h (hs _ _ hq)⟩
          rintro a b c (h | h | h) (k | k | k)
          · exact hu a b c h.1 k.1
          · exact absurd ((hno b).1 (k.1 ▸ h.1)) h.2.2.2.1
          · exact absurd ((hno b).2 (k.1 ▸ h.1)) h.2.2.2.2
          · exact absurd ((hno c).1 (h.1 ▸ k.1)) k.2.2.2.1
          · rw [h.2, k.2]
          · exact absurd (h.1.symm.trans k.1) hpq
          · exact absurd ((hno c).2 (h.1 ▸ k.1)) k.2.2.2.2
          · exact absurd (k.1.symm.trans h.1) hpq
          · rw [h.2, k.2])
      have hspq : s p ≠ s q := s2 p q (.inr (.inl ⟨rfl, rfl⟩))
      refine ⟨fun z => if z = x then !s p else if z = y then !s q else s z, ?_, ?_⟩
      · intro r hr
        rcases List.mem_cons.1 hr with rfl | hr
        · simp [Ne.symm hxy, hspq]
        · simp [hx' r hr, hy' r hr, s1 r hr]
      · intro a b hab
        by_cases hax : a = x
        · subst hax; rw [hu _ _ _ hab hp]; simp [hpx, hpy]
        by_cases hay : a = y
        · subst hay; rw [hu _ _ _ hab hq]; simp [hax, hqx, hqy]
        by_cases hbx : b = x
        · subst hbx; rw [hu _ _ _ (hs _ _ hab) hp]; simp [hpx, hpy]
        by_cases hby : b = y
        · subst hby; rw [hu _ _ _ (hs _ _ hab) hq]; simp [hbx, hqx, hqy]
        simp [hax, hay, hbx, hby, s2 a b (.inl ⟨hab, hax, hay, hbx, hby⟩)]

/-- Consecutive pairs. -/
def pairUp {A : Type} : List A → List (A × A)
  | a :: b :: l => (a, b) :: pairUp l
  | _ => []

theorem pairUp_flat {A : Type} : ∀ (l : List A), l.length % 2 = 0 → (pairUp l).flatMap (fun p => [p.1, p.2]) = l
  | [], _ => rfl
  | [_], h => by simp at h
  | a :: b :: l, h => by
    simp only [pairUp, List.flatMap_cons, List.cons_append, List.nil_append]
    rw [pairUp_flat l (by simp only [List.length_cons] at h; omega)]

theorem pairUp_half {A : Type} (s : A → Bool) : ∀ (l : List A), l.length % 2 = 0 → (∀ p ∈ pairUp l, s p.1 ≠ s p.2) →
    2 * (l.filter s).length = l.length
  | [], _, _ => rfl
  | [_], h, _ => by simp at h
  | a :: b :: l, h, hp => by
    simp only [pairUp, List.mem_cons, forall_eq_or_imp] at hp
    have ih := pairUp_half s l (by simp only [List.length_cons] at h; omega) hp.2
    have := hp.1
    simp only [List.filter_cons, List.length_cons]
    cases ha : s a <;> cases hb : s b <;> simp_all <;> omega

theorem pairUp_uniq {A : Type} : ∀ (l : List A), l.Nodup →
    (∀ p ∈ pairUp l, p.1 ∈ l ∧ p.2 ∈ l ∧ p.1 ≠ p.2) ∧
    ∀ p ∈ pairUp l, ∀ q ∈ pairUp l, (p.1 = q.1 ∨ p.2 = q.2 → p = q) ∧ p.1 ≠ q.2
  | [], _ => by simp [pairUp]
  | [_], _ => by simp [pairUp]
  | a :: b :: l, hn => by
    simp only [List.nodup_cons, List.mem_cons, not_or] at hn
    obtain ⟨⟨hab, ha⟩, hb, hn⟩ := hn
    obtain ⟨h1, h2⟩ := pairUp_uniq l hn
    constructor
    · intro p hp
      simp only [pairUp, List.mem_cons] at hp
      rcases hp with rfl | hp
      · simp [hab]
      · have := h1 p hp; simp [this]
    · intro p hp q hq
      simp only [pairUp, List.mem_cons] at hp hq
      rcases hp with rfl | hp <;> rcases hq with rfl | hq
      · simp [hab]
      · have := h1 q hq
        exact ⟨by rintro (h | h)
                  · exact absurd (by rw [show a = q.1 from h]; exact this.1) ha
                  · exact absurd (by rw [show b = q.2 from h]; exact this.2.1) hb, fun h => ha (by rw [show a = q.2 from h]; exact this.2.1)⟩
      · have := h1 p hp
        exact ⟨by rintro (h | h)
                  · exact absurd (by rw [← show p.1 = a from h]; exact this.1) ha
                  · exact absurd (by rw [← show p.2 = b from h]; exact this.2.1) hb, fun h => hb (by rw [← show p.1 = b from h]; exact this.1)⟩
      · exact h2 p hp q hq

theorem nodup_flatMap_key {A : Type} (key : A → Nat) (f : Nat → List A) : ∀ (l : List Nat), l.Nodup → (∀ u, (f u).Nodup) →
    (∀ u, ∀ a ∈ f u, key a = u) → (l.flatMap f).Nodup
  | [], _, _, _ => by simp
  | u :: l, hn, h1, h2 => by
    rw [List.nodup_cons] at hn
    rw [List.flatMap_cons, List.nodup_append]
    refine ⟨h1 u, nodup_flatMap_key key f l hn.2 h1 h2, ?_⟩
    rintro a ha b hb rfl
    obtain ⟨w, hw, hb⟩ := List.mem_flatMap.1 hb
    have e1 := h2 u a ha
    have e2 := h2 w a hb
    exact hn.1 (e1 ▸ e2 ▸ hw)

/-- If all degrees are even, half of the edges at each vertex can be chosen. -/
theorem exists_half {g : BiGraph} (hg : g.Ordered) (hl : ∀ u ∈ g.left, (g.nbrL u).length % 2 = 0) (hr : ∀ v ∈ g.right, (g.nbrR v).length % 2 = 0) :
    ∃ s : Nat → Nat → Bool, (∀ u ∈ g.left, 2 * g.chosenL s u = (g.nbrL u).length) ∧ ∀ v ∈ g.right, 2 * g.chosenR s v = (g.nbrR v).length := by
  have nl : g.left.Nodup := hg.left_sorted.imp (fun h => Nat.ne_of_lt h)
  have nr : g.right.Nodup := hg.right_sorted.imp (fun h => Nat.ne_of_lt h)
  let el : Nat → List (Nat × Nat) := fun u => (g.nbrL u).map fun v => (u, v)
  let er : Nat → List (Nat × Nat) := fun v => (g.nbrR v).map fun u => (u, v)
  have nel : ∀ u, (el u).Nodup := fun u => List.Nodup.map (fun a b e => by simpa using e) (nr.filter _)
  have ner : ∀ v, (er v).Nodup := fun v => List.Nodup.map (fun a b e => by simpa using e) (nl.filter _)
  have kel : ∀ u, ∀ e ∈ el u, e.1 = u := by
    intro u e he; obtain ⟨v, _, rfl⟩ := List.mem_map.1 he; rfl
  have ker : ∀ v, ∀ e ∈ er v, e.2 = v := by
    intro u e he; obtain ⟨v, _, rfl⟩ := List.mem_map.1 he; rfl
  let R : Nat × Nat → Nat × Nat → Prop := fun a b => ∃ v ∈ g.right, (a, b) ∈ pairUp (er v) ∨ (b, a) ∈ pairUp (er v)
  obtain ⟨s, s1, s2⟩ := two_matchings (fun e : Nat × Nat => Nat.pair e.1 e.2) (by
      rintro ⟨a, b⟩ ⟨c, d⟩ h
      have := Nat.pair_eq_pair.1 h
      exact Prod.ext this.1 this.2)
    (g.left.flatMap fun u => pairUp (el u)) R
    (by
      have e1 : (g.left.flatMap fun u => pairUp (el u)).flatMap (fun p => [p.1, p.2]) = g.left.flatMap el := by
        rw [List.flatMap_assoc]
        refine List.flatMap_congr fun u hu => pairUp_flat _ (by simp only [el, List.length_map]; exact hl u hu)
      rw [e1]
      exact nodup_flatMap_key Prod.fst el _ nl nel kel)
    (fun a b ⟨v, hv, h⟩ => ⟨v, hv, h.symm⟩)
    (by
      rintro a ⟨v, hv, h⟩
      have := (pairUp_uniq _ (ner v)).1 (a, a) (by tauto)
      exact this.2.2 rfl)
    (by
      rintro a b c ⟨v, hv, h⟩ ⟨w, hw, k⟩
      have m := (pairUp_uniq _ (ner v)).1
      have m' := (pairUp_uniq _ (ner w)).1
      have e1 : a.2 = v := by
        rcases h with h | h
        · exact ker v a (m _ h).1
        · exact ker v a (m _ h).2.1
      have e2 : a.2 = w := by
        rcases k with k | k
        · exact ker w a (m' _ k).1
        · exact ker w a (m' _ k).2.1
      obtain rfl : v = w := e1.symm.trans e2
      have u := (pairUp_uniq _ (ner v)).2
      rcases h with h | h <;> rcases k with k | k
      · exact congrArg Prod.snd ((u _ h _ k).1 (.inl rfl))
      · exact absurd rfl (u _ h _ k).2
      · exact absurd rfl (u _ k _ h).2
      · exact congrArg Prod.fst ((u _ h _ k).1 (.inr rfl)))
  refine ⟨fun u v => s (u, v), fun u hu => ?_, fun v hv => ?_⟩
  · have := pairUp_half s (el u) (by simp only [el, List.length_map]; exact hl u hu) (fun p hp => s1 p (List.mem_flatMap.2 ⟨u, hu, hp⟩))
    simp only [el, List.length_map, List.filter_map] at this
    exact this
  · have := pairUp_half s (er v) (by simp only [er, List.length_map]; exact hr v hv) (fun p hp => s2 p.1 p.2 ⟨v, hv, .inl hp⟩)
    simp only [er, List.length_map, List.filter_map] at this
    exact this

theorem halfChoice_iff {g : BiGraph} (hg : g.Ordered) (e : Bool) :
    HalfChoice g e ↔ (∀ u ∈ g.left, (g.nbrL u).length % 2 = 0) ∧ ∀ v ∈ g.right, (g.nbrR v).length % 2 = 0 := by
  refine ⟨halfChoice_even, fun ⟨hl, hr⟩ => ?_⟩
  obtain ⟨s, h1, h2⟩ := exists_half hg hl hr
  refine ⟨s, fun u hu => ?_, fun v hv => ?_⟩
  · have := h1 u hu; have := hl u hu
    split <;> omega
  · have := h2 v hv; have := hr v hv
    split <;> omega

/-! ### The formula -/

theorem mem_nbrL {g : BiGraph} {u v : Nat} : v ∈ g.nbrL u ↔ v ∈ g.right ∧ (u, v) ∈ g.edges := by simp [BiGraph.nbrL]
theorem mem_nbrR {g : BiGraph} {u v : Nat} : u ∈ g.nbrR v ↔ u ∈ g.left ∧ (u, v) ∈ g.edges := by simp [BiGraph.nbrR]

theorem mem_scLeft {e : Bool} {g : BiGraph} {c : List (Lit Str)} (h : c ∈ scLeft e g) :
    ∃ u ∈ g.left, (c.map Prod.snd).Sublist ((g.nbrL u).map fun v => edgeName u v) := by
  obtain ⟨u, hu, h⟩ := List.mem_flatMap.1 h
  refine ⟨u, hu, ?_⟩
  split at h
  · exact mem_equalTo h
  · exact mem_inequality h

theorem mem_scRight {e : Bool} {g : BiGraph} {c : List (Lit Str)} (h : c ∈ scRight e g) :
    ∃ v ∈ g.right, (c.map Prod.snd).Sublist ((g.nbrR v).map fun u => edgeName u v) := by
  obtain ⟨u, hu, h⟩ := List.mem_flatMap.1 h
  refine ⟨u, hu, ?_⟩
  split at h
  · exact mem_equalTo h
  · exact mem_inequality h

theorem scLeft_true (equalities : Bool) (g : BiGraph) : ∀ α : Str → Bool, AllTrue α (scLeft equalities g) ↔ ∀ u ∈ g.left,
        if equalities then g.chosenL (fun u v => α (edgeName u v)) u = ((g.nbrL u).length + 1) / 2
        else (g.nbrL u).length ≤ 2 * g.chosenL (fun u v => α (edgeName u v)) u := by
      intro α
      unfold scLeft
      rw [allTrue_flatMap]
      refine forall₂_congr fun u _ => ?_
      cases equalities
      · simp only [Bool.false_eq_true, if_false]
        rw [looseMajority, C48_greater_or_equal, nTrue_map_sc, List.length_map]
        unfold BiGraph.chosenL; dsimp only; omega
      · simp only [if_true]
        rw [exactlyHalfCeil, C48_equal_to, nTrue_map_sc, List.length_map]
        unfold BiGraph.chosenL; dsimp only; omega

theorem scRight_true (equalities : Bool) (g : BiGraph) : ∀ α : Str → Bool, AllTrue α (scRight equalities g) ↔ ∀ v ∈ g.right,
        if equalities then g.chosenR (fun u v => α (edgeName u v)) v = (g.nbrR v).length / 2
        else 2 * g.chosenR (fun u v => α (edgeName u v)) v ≤ (g.nbrR v).length := by
      intro α
      unfold scRight
      rw [allTrue_flatMap]
      refine forall₂_congr fun u _ => ?_
      cases equalities
      · simp only [Bool.false_eq_true, if_false]
        rw [looseMinority, C48_less_or_equal, nTrue_map_sc, List.length_map]
        unfold BiGraph.chosenR; dsimp only; omega
      · simp only [if_true]
        rw [exactlyHalfFloor, C48_equal_to, nTrue_map_sc, List.length_map]
        unfold BiGraph.chosenR; dsimp only; omega

/-- **C62.** The subset cardinality formula of a bipartite graph is satisfiable exactly when the edges can be chosen as documented —
which, with or without equations, is exactly when every vertex has even degree. -/
theorem C62_subset_cardinality (g : BiGraph) (hg : g.Ordered) (equalities : Bool) :
    ∃ F, subsetCardinality g equalities = pure F ∧ (Spec.Satisfiable F.clauses ↔ HalfChoice g equalities) ∧
      (Spec.Satisfiable F.clauses ↔ (∀ u ∈ g.left, (g.nbrL u).length % 2 = 0) ∧ ∀ v ∈ g.right, (g.nbrR v).length % 2 = 0) := by
  have nl : g.left.Nodup := hg.left_sorted.imp (fun h => Nat.ne_of_lt h)
  have nr : g.right.Nodup := hg.right_sorted.imp (fun h => Nat.ne_of_lt h)
  obtain ⟨F, hF, hc⟩ := CNF.ofPartsStrict_ok (vs := scVars g) (cs := scLeft equalities g ++ scRight equalities g)
    (by
      intro c hc
      rcases List.mem_append.1 hc with hc | hc
      · obtain ⟨u, hu, hs⟩ := mem_scLeft hc
        refine hs.nodup (nodup_map_on (nr.filter _) fun a _ b _ e => ?_)
        exact edgeName_inj (by rw [edgeName_comm a u, edgeName_comm b u]; exact e)
      · obtain ⟨v, hv, hs⟩ := mem_scRight hc
        exact hs.nodup (nodup_map_on (nl.filter _) fun a _ b _ e => edgeName_inj e))
    (by
      intro c hc l hl
      rcases List.mem_append.1 hc with hc | hc
      · obtain ⟨u, hu, hs⟩ := mem_scLeft hc
        exact List.mem_flatMap.2 ⟨u, hu, hs.subset (List.mem_map_of_mem hl)⟩
      · obtain ⟨v, hv, hs⟩ := mem_scRight hc
        obtain ⟨u, hu, e⟩ := List.mem_map.1 (hs.subset (List.mem_map_of_mem hl))
        have := mem_nbrR.1 hu
        exact List.mem_flatMap.2 ⟨u, this.1, List.mem_map.2 ⟨v, mem_nbrL.2 ⟨hv, this.2⟩, e⟩⟩)
  have main : Spec.Satisfiable F.clauses ↔ HalfChoice g equalities := by
    have hL := scLeft_true equalities g
    have hR := scRight_true equalities g
    rw [hc.sat]
    simp only [allTrue_append, hL, hR]
    constructor
    · rintro ⟨α, h⟩; exact ⟨_, h⟩
    · rintro ⟨s, h1, h2⟩
      classical
      let α : Str → Bool := fun n => decide (∃ e ∈ g.edges, n = edgeName e.1 e.2 ∧ s e.1 e.2 = true)
      have ha : ∀ e ∈ g.edges, α (edgeName e.1 e.2) = s e.1 e.2 := by
        intro e he
        have : α (edgeName e.1 e.2) = true ↔ s e.1 e.2 = true := by
          simp only [α, decide_eq_true_eq]
          constructor
          · rintro ⟨e', he', hn, hs'⟩
            rcases edgeName_edge_inj hn with ⟨a, b⟩ | ⟨a, b⟩
            · rwa [a, b]
            · exact absurd (hg.ends _ he').2 (hg.disjoint _ (a ▸ (hg.ends _ he).1))
          · intro h; exact ⟨e, he, rfl, h⟩
        cases h1 : s e.1 e.2 <;> cases h2 : α (edgeName e.1 e.2) <;> simp_all
      have eL : ∀ u, g.chosenL (fun u v => α (edgeName u v)) u = g.chosenL s u := by
        intro u
        unfold BiGraph.chosenL
        rw [List.filter_congr fun v hv => ha (u, v) (mem_nbrL.1 hv).2]
      have eR : ∀ v, g.chosenR (fun u v => α (edgeName u v)) v = g.chosenR s v := by
        intro v
        unfold BiGraph.chosenR
        rw [List.filter_congr fun u hu => ha (u, v) (mem_nbrR.1 hu).2]
      refine ⟨α, ?_, ?_⟩
      · simpa only [eL] using h1
      · simpa only [eR] using h2
  exact ⟨F, hF, main, main.trans (halfChoice_iff hg equalities)⟩

/-- A square is satisfiable, a square with a chord-like extra edge to a fifth vertex is not. -/
example (e : Bool) : (∃ F, subsetCardinality ⟨[1, 2], [3, 4], [(1, 3), (1, 4), (2, 3), (2, 4)]⟩ e = pure F ∧ Spec.Satisfiable F.clauses) ∧
    ∃ F, subsetCardinality ⟨[1, 2], [3, 4, 5], [(1, 3), (1, 4), (2, 3), (2, 4), (2, 5)]⟩ e = pure F ∧ ¬ Spec.Satisfiable F.clauses := by
  obtain ⟨F, h1, _, h2⟩ := C62_subset_cardinality ⟨[1, 2], [3, 4], [(1, 3), (1, 4), (2, 3), (2, 4)]⟩ ⟨by decide, by decide, by decide, by decide⟩ e
  obtain ⟨G, h3, _, h4⟩ := C62_subset_cardinality ⟨[1, 2], [3, 4, 5], [(1, 3), (1, 4), (2, 3), (2, 4), (2, 5)]⟩ ⟨by decide, by decide, by decide, by decide⟩ e
  exact ⟨⟨F, h1, h2.2 (by decide)⟩, G, h3, fun h => absurd (h4.1 h) (by decide)⟩

end NDP.Cnfgen
