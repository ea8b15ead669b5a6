import Verif.Cnfgen.Pigeon
import Mathlib.Data.Finset.Card
import Mathlib.Order.Interval.Finset.Nat
/-
  C49: the mapping builders of `cnf.py` (`unary_mapping`, `binary_mapping`).
-/
namespace NDP.Cnfgen
open NDP

theorem CNF.ofParts_ok {V : Type} [DecidableEq V] {vs : List V} {cs : List (List (Lit V))} (h : ∀ c ∈ cs, ∀ l ∈ c, l.2 ∈ vs) :
    ∃ F, CNF.ofParts vs cs = pure F ∧ F.Coh cs ∧ (vs.Nodup → F.vars = vs) := by
  obtain ⟨G, h1, h2, h3⟩ := CNF.addAllUnsafe_ok (ds := cs) (CNF.coh_empty.addVariables (vs := vs))
    (fun c hc l hl => CNF.mem_addVariables.2 (.inr (h c hc l hl)))
  refine ⟨G, h1, by simpa using h2, fun hn => ?_⟩
  rw [h3, CNF.addVariables_vars hn (by simp)]; rfl

theorem mem_oneTo {n i : Nat} : i ∈ oneTo n ↔ 1 ≤ i ∧ i ≤ n := by
  unfold oneTo; simp only [List.mem_map, List.mem_range]
  constructor
  · rintro ⟨j, hj, rfl⟩; omega
  · rintro ⟨h1, h2⟩; exact ⟨i - 1, by omega, by omega⟩
theorem oneTo_nodup (n : Nat) : (oneTo n).Nodup := List.Nodup.map (fun _ _ h => by simpa using h) List.nodup_range
theorem oneTo_sorted (n : Nat) : (oneTo n).Pairwise (· < ·) := by
  unfold oneTo; rw [List.pairwise_map]
  exact List.pairwise_lt_range.imp (by intro a b h; omega)
theorem length_oneTo (n : Nat) : (oneTo n).length = n := by simp [oneTo]

namespace UnaryMapping
variable {D R V : Type} [DecidableEq R]

/-- **C49.** The clauses of a unary mapping hold exactly when the relation given by the variables is complete, surjective,
injective, functional, non-decreasing, as asked for. -/
theorem C49_unary (m : UnaryMapping D R V) (hi : ∀ d, (m.images d).Nodup) (hc : ∀ r, (m.counterimages r).Nodup) (α : V → Bool) :
    AllTrue α m.clauses ↔
      (m.complete = true → ∀ d ∈ m.domain, ∃ r ∈ m.images d, α (m.name d r) = true) ∧
      (m.surjective = true → ∀ r ∈ m.range, ∃ d ∈ m.counterimages r, α (m.name d r) = true) ∧
      (m.injective = true → ∀ r ∈ m.range, ∀ d ∈ m.counterimages r, ∀ d' ∈ m.counterimages r,
        α (m.name d r) = true → α (m.name d' r) = true → d = d') ∧
      (m.functional = true → ∀ d ∈ m.domain, ∀ r ∈ m.images d, ∀ r' ∈ m.images d,
        α (m.name d r) = true → α (m.name d r') = true → r = r') ∧
      (m.nondecreasing = true → ∀ d d', [d, d'].Sublist m.domain → ∀ r ∈ m.images d, ∀ r' ∈ m.images d',
        α (m.name d r) = true → α (m.name d' r') = true → m.range.idxOf r ≤ m.range.idxOf r') := by
  unfold clauses
  simp only [allTrue_append, allTrue_ite, allTrue_flatMap, and_assoc]
  refine and_congr (imp_congr_right fun _ => ?_) (and_congr (imp_congr_right fun _ => ?_) (and_congr (imp_congr_right fun _ => ?_)
    (and_congr (imp_congr_right fun _ => ?_) (imp_congr_right fun _ => ?_))))
  · refine forall₂_congr fun d _ => ?_
    rw [allTrue_geOne]; simp
  · refine forall₂_congr fun d _ => ?_
    rw [allTrue_geOne]; simp
  · exact forall₂_congr fun r _ => allTrue_leOne α _ _ (hc r)
  · exact forall₂_congr fun d _ => allTrue_leOne α _ _ (hi d)
  · simp only [allTrue_map, Prod.forall, mem_pairs, List.mem_filter, decide_eq_true_eq, clauseTrue_cons, clauseTrue_nil, or_false]
    refine forall₃_congr fun d d' _ => ?_
    constructor
    · intro h r hr r' hr' h1 h2
      by_contra hlt
      have := h r hr r' ⟨hr', by omega⟩
      simp [h1, h2] at this
    · rintro h r hr r' ⟨hr', hlt⟩
      have := h r hr r' hr'
      cases h1 : α (m.name d r)
      · exact .inl rfl
      · cases h2 : α (m.name d' r')
        · exact .inr rfl
        · have := this h1 h2; omega

/-- The mapping object is coherent: counter-images are the converse of images. -/
def Wf (m : UnaryMapping D R V) : Prop := ∀ r ∈ m.range, ∀ d ∈ m.counterimages r, d ∈ m.domain ∧ r ∈ m.images d

theorem mem_allVars {m : UnaryMapping D R V} {d : D} {r : R} (hd : d ∈ m.domain) (hr : r ∈ m.images d) : m.name d r ∈ m.allVars :=
  List.mem_flatMap.2 ⟨d, hd, List.mem_map_of_mem hr⟩

theorem clauses_known {m : UnaryMapping D R V} (hw : m.Wf) : ∀ c ∈ m.clauses, ∀ l ∈ c, l.2 ∈ m.allVars := by
  have h1 : ∀ d ∈ m.domain, ∀ k g, ∀ c ∈ inequality ((m.images d).map (m.name d)) k g, ∀ l ∈ c, l.2 ∈ m.allVars := by
    intro d hd k g c hc l hl
    obtain ⟨r, hr, e⟩ := List.mem_map.1 ((mem_inequality hc).subset (List.mem_map_of_mem hl))
    rw [← e]; exact mem_allVars hd hr
  have h2 : ∀ r ∈ m.range, ∀ k g, ∀ c ∈ inequality ((m.counterimages r).map fun d => m.name d r) k g, ∀ l ∈ c, l.2 ∈ m.allVars := by
    intro r hr k g c hc l hl
    obtain ⟨d, hd, e⟩ := List.mem_map.1 ((mem_inequality hc).subset (List.mem_map_of_mem hl))
    rw [← e]; exact mem_allVars (hw r hr d hd).1 (hw r hr d hd).2
  intro c hc
  unfold clauses at hc
  simp only [List.mem_append] at hc
  rcases hc with (((hc | hc) | hc) | hc) | hc
  · split at hc
    · obtain ⟨d, hd, hc⟩ := List.mem_flatMap.1 hc; exact h1 d hd _ _ c hc
    · simp at hc
  · split at hc
    · obtain ⟨d, hd, hc⟩ := List.mem_flatMap.1 hc; exact h2 d hd _ _ c hc
    · simp at hc
  · split at hc
    · obtain ⟨d, hd, hc⟩ := List.mem_flatMap.1 hc; exact h2 d hd _ _ c hc
    · simp at hc
  · split at hc
    · obtain ⟨d, hd, hc⟩ := List.mem_flatMap.1 hc; exact h1 d hd _ _ c hc
    · simp at hc
  · split at hc
    · obtain ⟨⟨a, b⟩, hab, hc⟩ := List.mem_flatMap.1 hc
      obtain ⟨i, hi, hc⟩ := List.mem_flatMap.1 hc
      obtain ⟨j, hj, rfl⟩ := List.mem_map.1 hc
      have hs := mem_pairs.1 hab
      simp only [List.mem_cons, List.not_mem_nil, or_false, forall_eq_or_imp, forall_eq]
      exact ⟨mem_allVars (hs.subset (by simp)) hi, mem_allVars (hs.subset (by simp)) (List.mem_filter.1 hj).1⟩
    · simp at hc

theorem wf_full {d : List D} {r : List R} {n : D → R → V} : (full d r n).Wf := fun _ hr _ hd => ⟨hd, hr⟩

end UnaryMapping
end NDP.Cnfgen
