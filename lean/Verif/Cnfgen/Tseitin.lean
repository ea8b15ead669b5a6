import Verif.Cnfgen.Counting
import Verif.Lib.Sort
import Mathlib.Algebra.Order.BigOperators.Group.Finset
import Mathlib.Algebra.BigOperators.Group.List.Basic
/-
  Model of `families/tseitin.py`, and C53.
-/
namespace NDP.Cnfgen
open NDP

/-- `families/tseitin.py` 39-43: `edgename[(u,v)]`, with the direction `G.edges()` gives to the edge. -/
def tseName (g : Graph) (u v : Nat) : Str := if (u, v) ∈ g.edges then fmt2 "E".toList u v else fmt2 "E".toList v u

/-- `families/tseitin.py` 41: `sorted(graph.edges(), key=sorted)`. -/
def sortedEdges (g : Graph) : List (Nat × Nat) :=
  isort (fun a b => decide (min a.1 a.2 < min b.1 b.2 ∨ (min a.1 a.2 = min b.1 b.2 ∧ max a.1 a.2 < max b.1 b.2))) g.edges

/-- `families/tseitin.py` 28-34: the charges, one for each vertex at least. -/
def tseCharges (g : Graph) : Option (List Bool) → List Bool
  | none => let c := true :: List.replicate (g.verts.length - 1) false
            c ++ List.replicate (g.verts.length - c.length) false
  | some c => c ++ List.replicate (g.verts.length - c.length) false

/-- `families/tseitin.py` 16-53 (`TseitinFormula`). -/
def tseitin (g : Graph) (charges : Option (List Bool)) : M (CNF Str) :=
  CNF.ofPartsStrict ((sortedEdges g).map fun e => fmt2 "E".toList e.1 e.2)
    ((g.verts.zip (tseCharges g charges)).flatMap fun p =>
      parityConstraint ((g.neighbors p.1).map fun u => tseName g u p.1) (if p.2 then 1 else 0))

/-! ### Flipping a variable -/

theorem nTrue_flip {V : Type} [DecidableEq V] (α : V → Bool) (n : V) : ∀ vs : List V, vs.Nodup →
    nTrue (fun v => if v = n then !α v else α v) vs % 2 = (nTrue α vs + if n ∈ vs then 1 else 0) % 2
  | [], _ => by simp [nTrue]
  | v :: vs, h => by
    rw [List.nodup_cons] at h
    have ih := nTrue_flip α n vs h.2
    simp only [nTrue, List.filter_cons, List.mem_cons] at ih ⊢
    by_cases e : v = n
    · subst e
      rw [if_neg h.1] at ih
      simp only [if_true, true_or]
      cases hv : α v <;> simp <;> omega
    · have e' : ¬ n = v := fun h => e h.symm
      simp only [e, e', if_false, false_or]
      cases hv : α v <;> simp <;> omega

theorem tseName_comm {g : Graph} (hg : g.Wf) {u v : Nat} (h : g.hasEdge u v = true) : tseName g u v = tseName g v u := by
  unfold tseName
  rcases Graph.hasEdge_iff.1 h with h | h
  · rw [if_pos h, if_neg (hg.once _ h)]
  · rw [if_neg (hg.once _ h), if_pos h]

theorem tseName_edge {g : Graph} {u v : Nat} (h : g.hasEdge u v = true) :
    ∃ e ∈ g.edges, tseName g u v = fmt2 "E".toList e.1 e.2 ∧ (e = (u, v) ∨ e = (v, u)) := by
  unfold tseName
  split
  · exact ⟨_, by assumption, rfl, .inl rfl⟩
  · rename_i hn
    rcases Graph.hasEdge_iff.1 h with h | h
    · exact absurd h hn
    · exact ⟨_, h, rfl, .inr rfl⟩

theorem tseName_inj {g : Graph} {u v a b : Nat} (h : tseName g u v = tseName g a b) :
    (u = a ∧ v = b) ∨ (u = b ∧ v = a) := by
  unfold tseName at h
  split at h <;> split at h <;> have := fmt2_inj h <;> omega

/-- The edge variables at a vertex. -/
def tseVars (g : Graph) (v : Nat) : List Str := (g.neighbors v).map fun u => tseName g u v

theorem tseVars_nodup {g : Graph} (hg : g.Wf) (v : Nat) : (tseVars g v).Nodup :=
  nodup_map_on (hg.verts_nodup.filter _) fun a _ b _ e => by have := tseName_inj e; omega

theorem mem_tseVars {g : Graph} (hg : g.Wf) {a b v : Nat} (he : g.hasEdge a b = true) : tseName g a b ∈ tseVars g v ↔ v = a ∨ v = b := by
  unfold tseVars
  rw [List.mem_map]
  constructor
  · rintro ⟨u, _, e⟩
    have := tseName_inj e; omega
  · rintro (rfl | rfl)
    · exact ⟨b, Graph.mem_neighbors.2 ⟨(hg.hasEdge_mem he).2, by rw [Graph.hasEdge_comm]; exact he⟩, (tseName_comm hg he).symm⟩
    · exact ⟨a, Graph.mem_neighbors.2 ⟨(hg.hasEdge_mem he).1, he⟩, rfl⟩

/-- Changing the variables along a path changes the parity at its ends only. -/
theorem flip_path {g : Graph} (hg : g.Wf) {v w : Nat} (h : Relation.ReflTransGen (fun a b => g.hasEdge a b = true) v w)
    (α : Str → Bool) : ∃ β : Str → Bool, ∀ u, nTrue β (tseVars g u) % 2 =
      (nTrue α (tseVars g u) + (if u = v then 1 else 0) + (if u = w then 1 else 0)) % 2 := by
  induction h with
  | refl => exact ⟨α, fun u => by split <;> omega⟩
  | tail _ h ih =>
    rename_i b c _
    obtain ⟨β, hb⟩ := ih
    refine ⟨fun x => if x = tseName g b c then !β x else β x, fun u => ?_⟩
    rw [nTrue_flip β _ _ (tseVars_nodup hg u)]
    have hne := hg.hasEdge_ne h
    have := hb u
    simp only [mem_tseVars hg h]
    by_cases e1 : u = b
    · subst e1
      simp only [true_or, if_true, if_neg hne] at this ⊢
      omega
    · by_cases e2 : u = c
      · simp only [e1, e2, or_true, if_true, if_false] at this ⊢
        rw [← e2] at this ⊢
        simp only [e1, if_false] at this
        omega
      · simp only [e1, e2, or_self, if_false] at this ⊢
        omega

/-- The vertices with a path from `r`. -/
def Reach (g : Graph) (r v : Nat) : Prop := Relation.ReflTransGen (fun a b => g.hasEdge a b = true) r v

theorem Reach.symm {g : Graph} {a b : Nat} (h : Reach g a b) : Reach g b a := by
  induction h with
  | refl => exact .refl
  | tail _ h ih => exact Relation.ReflTransGen.head (by rw [Graph.hasEdge_comm]; exact h) ih

open Classical in
/-- In a component, the numbers of true edge variables at the vertices have an even sum. -/
theorem sum_even {g : Graph} (hg : g.Wf) (α : Str → Bool) (r : Nat) :
    2 ∣ ∑ v ∈ g.verts.toFinset.filter (Reach g r), nTrue α (tseVars g v) := by
  let C := g.verts.toFinset.filter (Reach g r)
  let S := g.edges.toFinset.filter fun e => α (fmt2 "E".toList e.1 e.2) = true ∧ Reach g r e.1
  have key := Finset.sum_card_bipartiteAbove_eq_sum_card_bipartiteBelow (s := C) (t := S) (fun v e => v = e.1 ∨ v = e.2)
  have h1 : ∀ v ∈ C, (S.bipartiteAbove (fun v e => v = e.1 ∨ v = e.2) v).card = nTrue α (tseVars g v) := by
    intro v hv
    have hv := Finset.mem_filter.1 hv
    have hvm : v ∈ g.verts := by simpa using hv.1
    have hvr := hv.2
    have e : nTrue α (tseVars g v) = ((g.neighbors v).toFinset.filter fun u => α (tseName g u v) = true).card := by
      unfold nTrue tseVars
      rw [List.filter_map, List.length_map, ← List.toFinset_filter, List.toFinset_card_of_nodup]
      · rfl
      · exact (hg.verts_nodup.filter _).filter _
    rw [e]
    symm
    refine Finset.card_bij (fun u _ => if (u, v) ∈ g.edges then (u, v) else (v, u)) ?_ ?_ ?_
    · intro u hu
      simp only [Finset.mem_filter, List.mem_toFinset, Graph.mem_neighbors] at hu
      obtain ⟨⟨hum, he⟩, ha⟩ := hu
      simp only [Finset.mem_bipartiteAbove, S, Finset.mem_filter, List.mem_toFinset]
      unfold tseName at ha
      split
      · rename_i h
        rw [if_pos h] at ha
        exact ⟨⟨h, ha, hvr.tail (by rw [Graph.hasEdge_comm]; exact he)⟩, .inr rfl⟩
      · rename_i h
        rw [if_neg h] at ha
        exact ⟨⟨(Graph.hasEdge_iff.1 he).resolve_left h, ha, hvr⟩, .inl rfl⟩
    · intro a ha b hb e
      simp only [Finset.mem_filter, List.mem_toFinset, Graph.mem_neighbors] at ha hb
      have na := hg.hasEdge_ne ha.1.2
      have nb := hg.hasEdge_ne hb.1.2
      split at e <;> split at e <;> simp only [Prod.mk.injEq] at e <;> omega
    · rintro ⟨a, b⟩ he
      simp only [Finset.mem_bipartiteAbove, S, Finset.mem_filter, List.mem_toFinset] at he
      obtain ⟨⟨hm, ha, _⟩, hv | hv⟩ := he
      · subst hv
        have hE : g.hasEdge b v = true := Graph.hasEdge_iff.2 (.inr hm)
        have hno : (b, v) ∉ g.edges := hg.once _ hm
        refine ⟨b, ?_, if_neg hno⟩
        simp only [Finset.mem_filter, List.mem_toFinset, Graph.mem_neighbors]
        refine ⟨⟨(hg.ends _ hm).2.1, hE⟩, ?_⟩
        unfold tseName; rw [if_neg hno]; exact ha
      · subst hv
        refine ⟨a, ?_, if_pos hm⟩
        simp only [Finset.mem_filter, List.mem_toFinset, Graph.mem_neighbors]
        refine ⟨⟨(hg.ends _ hm).1, Graph.hasEdge_iff.2 (.inl hm)⟩, ?_⟩
        unfold tseName; rw [if_pos hm]; exact ha
  have h2 : ∀ e ∈ S, (C.bipartiteBelow (fun v e => v = e.1 ∨ v = e.2) e).card = 2 := by
    rintro ⟨a, b⟩ he
    simp only [S, Finset.mem_filter, List.mem_toFinset] at he
    obtain ⟨hm, _, hr⟩ := he
    obtain ⟨ha, hb, hne⟩ := hg.ends _ hm
    have : C.bipartiteBelow (fun v e => v = e.1 ∨ v = e.2) (a, b) = {a, b} := by
      ext x
      simp only [Finset.mem_bipartiteBelow, C, Finset.mem_filter, List.mem_toFinset, Finset.mem_insert, Finset.mem_singleton]
      constructor
      · exact fun h => h.2
      · rintro (rfl | rfl)
        · exact ⟨⟨ha, hr⟩, .inl rfl⟩
        · exact ⟨⟨hb, hr.tail (Graph.hasEdge_iff.2 (.inl hm))⟩, .inr rfl⟩
    rw [this, Finset.card_pair hne]
  rw [Finset.sum_congr rfl h1, Finset.sum_congr rfl h2, Finset.sum_const] at key
  exact ⟨S.card, key.trans (Nat.mul_comm _ _)⟩

open Classical in
/-- Charges with an even sum in every component can be met. -/
theorem tse_solve {g : Graph} (hg : g.Wf) (ch : Nat → Nat) :
    ∀ (n : Nat) (α : Str → Bool), (g.verts.filter fun v => decide ((nTrue α (tseVars g v) + ch v) % 2 = 1)).length ≤ n →
    (∀ r ∈ g.verts, 2 ∣ ∑ v ∈ g.verts.toFinset.filter (Reach g r), ch v) →
    ∃ β : Str → Bool, ∀ v ∈ g.verts, (nTrue β (tseVars g v) + ch v) % 2 = 0 := by
  intro n
  induction n with
  | zero =>
    intro α h _
    refine ⟨α, fun v hv => ?_⟩
    by_contra hc
    have : v ∈ g.verts.filter fun v => decide ((nTrue α (tseVars g v) + ch v) % 2 = 1) := List.mem_filter.2 ⟨hv, by simp; omega⟩
    rw [List.length_eq_zero_iff.1 (Nat.le_zero.1 h)] at this
    simp at this
  | succ n ih =>
    intro α h hev
    by_cases hall : ∀ v ∈ g.verts, (nTrue α (tseVars g v) + ch v) % 2 = 0
    · exact ⟨α, hall⟩
    · push Not at hall
      obtain ⟨v, hv, hv1⟩ := hall
      -- another unbalanced vertex of the component
      have hw : ∃ w ∈ g.verts, Reach g v w ∧ w ≠ v ∧ (nTrue α (tseVars g w) + ch w) % 2 = 1 := by
        by_contra hno
        push Not at hno
        have h1 := sum_even hg α v
        have h2 := hev v hv
        have h3 := Nat.dvd_add h1 h2
        rw [← Finset.sum_add_distrib] at h3
        have hvC : v ∈ g.verts.toFinset.filter (Reach g v) := Finset.mem_filter.2 ⟨by simpa using hv, .refl⟩
        rw [← Finset.add_sum_erase _ _ hvC] at h3
        have h4 : 2 ∣ ∑ x ∈ (g.verts.toFinset.filter (Reach g v)).erase v, (nTrue α (tseVars g x) + ch x) := by
          refine Finset.dvd_sum fun x hx => ?_
          obtain ⟨hne, hx⟩ := Finset.mem_erase.1 hx
          obtain ⟨hx, hr⟩ := Finset.mem_filter.1 hx
          have := hno x (by simpa using hx) hr hne
          omega
        have := (Nat.dvd_add_left h4).1 h3
        omega
      obtain ⟨w, hwm, hr, hne, hw1⟩ := hw
      obtain ⟨β, hb⟩ := flip_path hg hr α
      refine ih β ?_ hev
      have hlt : (g.verts.filter fun u => decide ((nTrue β (tseVars g u) + ch u) % 2 = 1)).length <
          (g.verts.filter fun u => decide ((nTrue α (tseVars g u) + ch u) % 2 = 1)).length := by
        have hsub : (g.verts.filter fun u => decide ((nTrue β (tseVars g u) + ch u) % 2 = 1)).Sublist
            ((g.verts.filter fun u => decide ((nTrue α (tseVars g u) + ch u) % 2 = 1)).filter fun u => decide (u ≠ v)) := by
          rw [List.filter_filter]
          refine List.monotone_filter_right _ fun u hu => ?_
          have := hb u
          simp only [decide_eq_true_eq, Bool.and_eq_true] at hu ⊢
          by_cases e1 : u = v
          · subst e1
            rw [if_pos rfl, if_neg (fun e => hne e.symm)] at this
            omega
          · refine ⟨e1, ?_⟩
            by_cases e2 : u = w
            · subst e2; exact hw1
            · rw [if_neg e1, if_neg e2] at this
              omega
        refine Nat.lt_of_le_of_lt hsub.length_le ?_
        refine List.length_filter_lt_length_iff_exists.2 ⟨v, List.mem_filter.2 ⟨hv, by simp; omega⟩, by simp⟩
      omega

theorem tse_zip {g : Graph} (hg : g.Wf) (charges : List Bool) : ∀ p : Nat × Bool, p ∈ g.verts.zip (tseCharges g (some charges)) ↔ p.1 ∈ g.verts ∧ p.2 = charges.getD (g.verts.idxOf p.1) false := by
    rintro ⟨v, b⟩
    have hlen : g.verts.length ≤ (charges ++ List.replicate (g.verts.length - charges.length) false).length := by simp; omega
    have hg0 : ∀ i, (charges ++ List.replicate (g.verts.length - charges.length) false).getD i false = charges.getD i false := by
      intro i
      rw [List.getD_eq_getElem?_getD, List.getD_eq_getElem?_getD, List.getElem?_append]
      split
      · rfl
      · rename_i h
        rw [List.getElem?_eq_none (l := charges) (by omega)]
        rw [List.getElem?_replicate]
        split <;> rfl
    simp only [tseCharges]
    rw [List.mem_iff_getElem]
    simp only [List.length_zip, List.getElem_zip, Prod.mk.injEq]
    constructor
    · rintro ⟨i, hi, rfl, rfl⟩
      refine ⟨List.getElem_mem _, ?_⟩
      rw [hg.verts_nodup.idxOf_getElem, ← hg0, List.getD_eq_getElem?_getD, List.getElem?_eq_getElem]
      rfl
    · rintro ⟨hv, rfl⟩
      have hlt := List.idxOf_lt_length_of_mem hv
      refine ⟨g.verts.idxOf v, by omega, List.getElem_idxOf _, ?_⟩
      rw [← hg0, List.getD_eq_getElem?_getD, List.getElem?_eq_getElem (by omega)]
      rfl

open Classical in
/-- **C53.** The Tseitin formula is satisfiable exactly when every component of the graph has an even number of odd charges. -/
theorem C53_tseitin (g : Graph) (hg : g.Wf) (charges : List Bool) :
    ∃ F, tseitin g (some charges) = pure F ∧ (Spec.Satisfiable F.clauses ↔
      ∀ r ∈ g.verts, ∃ k, ((g.verts.zip charges).filter fun p => p.2 ∧ Reach g r p.1).length = 2 * k) := by
  obtain ⟨F, hF, hc⟩ := CNF.ofPartsStrict_ok (vs := (sortedEdges g).map fun e => fmt2 "E".toList e.1 e.2)
    (cs := (g.verts.zip (tseCharges g (some charges))).flatMap fun p =>
      parityConstraint ((g.neighbors p.1).map fun u => tseName g u p.1) (if p.2 then 1 else 0))
    (by
      intro c hc
      obtain ⟨p, _, hc⟩ := List.mem_flatMap.1 hc
      rw [mem_parity hc]; exact tseVars_nodup hg p.1)
    (by
      intro c hc l hl
      obtain ⟨p, _, hc⟩ := List.mem_flatMap.1 hc
      have := List.mem_map_of_mem (f := Prod.snd) hl
      rw [mem_parity hc] at this
      obtain ⟨u, hu, e⟩ := List.mem_map.1 this
      obtain ⟨e', he', hn, _⟩ := tseName_edge (Graph.mem_neighbors.1 hu).2
      rw [← e, hn]
      exact List.mem_map_of_mem (f := fun e : Nat × Nat => fmt2 "E".toList e.1 e.2) (by rw [sortedEdges, mem_isort]; exact he'))
  refine ⟨F, hF, ?_⟩
  rw [hc.sat]
  simp only [allTrue_flatMap, C48_parity]
  -- the charge of a vertex
  let ch : Nat → Nat := fun v => if charges.getD (g.verts.idxOf v) false then 1 else 0
  have hz := tse_zip hg charges
  have hcount : ∀ r, ((g.verts.zip charges).filter fun p => decide (p.2 = true ∧ Reach g r p.1)).length =
      ∑ v ∈ g.verts.toFinset.filter (Reach g r), ch v := by
    intro r
    rw [Finset.sum_filter, List.sum_toFinset _ hg.verts_nodup]
    have hn := hg.verts_nodup
    have key : ∀ (vs : List Nat) (cs : List Bool), vs.Nodup →
        ((vs.zip cs).filter fun p => decide (p.2 = true ∧ Reach g r p.1)).length =
        (vs.map fun v => if Reach g r v then (if cs.getD (vs.idxOf v) false then 1 else 0) else 0).sum := by
      intro vs
      induction vs with
      | nil => intro cs _; simp
      | cons v vs ih =>
        intro cs hn
        rw [List.nodup_cons] at hn
        have hcong : ∀ cs' : List Bool, ∀ c, (vs.map fun x => if Reach g r x then (if (c :: cs').getD ((v :: vs).idxOf x) false then 1 else 0) else 0) =
            vs.map fun x => if Reach g r x then (if cs'.getD (vs.idxOf x) false then 1 else 0) else 0 := by
          intro cs' c
          refine List.map_congr_left fun x hx => ?_
          have : v ≠ x := by rintro rfl; exact hn.1 hx
          rw [List.idxOf_cons_ne _ this, List.getD_cons_succ]
        cases cs with
        | nil =>
          have : ∀ l : List Nat, (l.map fun x => if Reach g r x then (if ([] : List Bool).getD ((v :: vs).idxOf x) false = true then 1 else 0) else 0).sum = 0 := by
            intro l; induction l with
            | nil => rfl
            | cons a l ih => rw [List.map_cons, List.sum_cons, ih]; simp
          rw [this]; simp
        | cons c cs =>
          rw [List.map_cons, List.sum_cons, hcong cs c, ← ih cs hn.2, List.zip_cons_cons, List.filter_cons]
          simp only [List.idxOf_cons_self, List.getD_cons_zero]
          by_cases h1 : Reach g r v <;> cases c <;> simp [h1]; omega
    exact key g.verts charges hn
  have hpar : ∀ α : Str → Bool, (∀ p ∈ g.verts.zip (tseCharges g (some charges)),
      nTrue α ((g.neighbors p.1).map fun u => tseName g u p.1) % 2 = if p.2 = true then 1 else 0) ↔
      ∀ v ∈ g.verts, (nTrue α (tseVars g v) + ch v) % 2 = 0 := by
    intro α
    constructor
    · intro h v hv
      have := h (v, charges.getD (g.verts.idxOf v) false) ((hz _).2 ⟨hv, rfl⟩)
      simp only [ch]
      simp only at this
      unfold tseVars
      split at this
      · rename_i hb; rw [if_pos hb]; omega
      · rename_i hb; rw [if_neg hb]; omega
    · intro h p hp
      obtain ⟨hv, hb⟩ := (hz p).1 hp
      have := h p.1 hv
      simp only [ch, ← hb, tseVars] at this
      split
      · rename_i hb; rw [if_pos hb] at this; omega
      · rename_i hb; rw [if_neg hb] at this; omega
  simp only [hpar, hcount]
  constructor
  · rintro ⟨α, h⟩ r hr
    have h1 := sum_even hg α r
    have h2 : 2 ∣ ∑ v ∈ g.verts.toFinset.filter (Reach g r), (nTrue α (tseVars g v) + ch v) :=
      Finset.dvd_sum fun x hx => by
        have := h x (by simpa using (Finset.mem_filter.1 hx).1)
        omega
    rw [Finset.sum_add_distrib] at h2
    obtain ⟨k, hk⟩ := (Nat.dvd_add_right h1).1 h2
    exact ⟨k, hk⟩
  · intro h
    exact tse_solve hg ch _ (fun _ => false) (le_refl _) (fun r hr => by obtain ⟨k, hk⟩ := h r hr; exact ⟨k, hk⟩)

open Classical in
/-- **C53.** With the default charges (odd on the first vertex only) the formula of a non-empty graph is unsatisfiable. -/
theorem C53_default (g : Graph) (hg : g.Wf) : ∃ F, tseitin g none = pure F ∧ (Spec.Satisfiable F.clauses ↔ g.verts = []) := by
  obtain ⟨F, hF, h⟩ := C53_tseitin g hg (true :: List.replicate (g.verts.length - 1) false)
  refine ⟨F, hF, h.trans ?_⟩
  cases hv : g.verts with
  | nil => simp
  | cons v vs =>
    simp only [reduceCtorEq, iff_false]
    intro hall
    obtain ⟨k, hk⟩ := hall v (by simp)
    have : (vs.zip (List.replicate ((v :: vs).length - 1) false)).filter (fun p => decide (p.2 = true ∧ Reach g v p.1)) = [] := by
      rw [List.filter_eq_nil_iff]
      rintro ⟨a, b⟩ hab
      have := (List.of_mem_zip hab).2
      rw [List.mem_replicate] at this
      simp [this.2]
    rw [List.zip_cons_cons, List.filter_cons, if_pos (by simp; exact .refl), this] at hk
    simp at hk
    omega

open Classical in
/-- Two triangles: an odd charge in each is unsatisfiable, two odd charges in one are satisfiable. -/
example : (∃ F, tseitin ⟨[1, 2, 3, 4, 5, 6], [(1, 2), (3, 2), (3, 1), (4, 5), (5, 6), (6, 4)]⟩ (some [true, false, false, true]) = pure F ∧
      ¬ Spec.Satisfiable F.clauses) ∧
    ∃ F, tseitin ⟨[1, 2, 3, 4, 5, 6], [(1, 2), (3, 2), (3, 1), (4, 5), (5, 6), (6, 4)]⟩ (some [true, true]) = pure F ∧
      Spec.Satisfiable F.clauses := by
  have hw : (⟨[1, 2, 3, 4, 5, 6], [(1, 2), (3, 2), (3, 1), (4, 5), (5, 6), (6, 4)]⟩ : Graph).Wf :=
    ⟨by simp, by simp, by simp, by simp⟩
  have hlow : ∀ r v, Reach ⟨[1, 2, 3, 4, 5, 6], [(1, 2), (3, 2), (3, 1), (4, 5), (5, 6), (6, 4)]⟩ r v → (r ≤ 3 ↔ v ≤ 3) := by
    intro r v h
    induction h with
    | refl => rfl
    | tail _ h ih =>
      rw [Graph.hasEdge_iff] at h
      simp at h
      omega
  obtain ⟨F, h1, h2⟩ := C53_tseitin _ hw [true, false, false, true]
  obtain ⟨G, h3, h4⟩ := C53_tseitin _ hw [true, true]
  refine ⟨⟨F, h1, ?_⟩, G, h3, h4.2 ?_⟩
  · rw [h2]
    intro h
    obtain ⟨k, hk⟩ := h 1 (by simp)
    have n4 : ¬ Reach ⟨[1, 2, 3, 4, 5, 6], [(1, 2), (3, 2), (3, 1), (4, 5), (5, 6), (6, 4)]⟩ 1 4 := fun h => by
      have := hlow _ _ h; omega
    have y1 : Reach ⟨[1, 2, 3, 4, 5, 6], [(1, 2), (3, 2), (3, 1), (4, 5), (5, 6), (6, 4)]⟩ 1 1 := .refl
    simp [List.filter_cons, n4, y1] at hk
    omega
  · intro r hr
    have e12 : ∀ r, Reach ⟨[1, 2, 3, 4, 5, 6], [(1, 2), (3, 2), (3, 1), (4, 5), (5, 6), (6, 4)]⟩ r 1 ↔
        Reach ⟨[1, 2, 3, 4, 5, 6], [(1, 2), (3, 2), (3, 1), (4, 5), (5, 6), (6, 4)]⟩ r 2 := by
      intro r
      exact ⟨fun h => h.tail (by decide), fun h => h.tail (by decide)⟩
    by_cases h : Reach ⟨[1, 2, 3, 4, 5, 6], [(1, 2), (3, 2), (3, 1), (4, 5), (5, 6), (6, 4)]⟩ r 1
    · have h' := (e12 r).1 h
      exact ⟨1, by simp [List.filter_cons, h, h']⟩
    · have h' := mt (e12 r).2 h
      exact ⟨0, by simp [List.filter_cons, h, h']⟩

end NDP.Cnfgen
