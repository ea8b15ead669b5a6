import Verif.Spec
import Verif.Lib.Sort
import Mathlib.Algebra.BigOperators.Group.Multiset.Basic
import Mathlib.Data.Multiset.Filter
import Mathlib.Data.Multiset.MapFold
/- Formulas up to order. -/
namespace NDP.Spec

theorem unordered_perm {F G : Cnf} (h : F.Perm G) : unordered F = unordered G := by
  unfold unordered
  rw [Multiset.coe_eq_coe]
  exact h.map _

theorem unordered_map_congr {α : Type} (l : List α) (f g : α → List Int) (h : ∀ a ∈ l, (f a).Perm (g a)) :
    unordered (l.map f) = unordered (l.map g) := by
  unfold unordered
  rw [List.map_map, List.map_map]
  congr 1
  apply List.map_congr_left
  intro a ha
  exact Multiset.coe_eq_coe.2 (h a ha)

/-- Rename in the unordered view. -/
theorem unordered_mapCnf (ν : Nat → Nat) (F : Cnf) :
    unordered (mapCnf ν F) = (unordered F).map (Multiset.map (mapLit ν)) := by
  unfold unordered mapCnf
  rw [Multiset.map_coe, List.map_map, List.map_map]
  rfl

theorem SameClauses.mapCnf {F G : Cnf} (h : SameClauses F G) (ν : Nat → Nat) :
    SameClauses (mapCnf ν F) (mapCnf ν G) := by
  unfold SameClauses at *; rw [unordered_mapCnf, unordered_mapCnf, h]

theorem SameClauses.refl (F : Cnf) : SameClauses F F := rfl
theorem SameClauses.symm {F G : Cnf} (h : SameClauses F G) : SameClauses G F := Eq.symm h
theorem SameClauses.trans {F G K : Cnf} (h : SameClauses F G) (h2 : SameClauses G K) : SameClauses F K :=
  Eq.trans h h2

/-- Every clause of the one is, up to order, a clause of the other. -/
theorem SameClauses.exists_perm {F G : Cnf} (h : SameClauses F G) {c : List Int} (hc : c ∈ F) :
    ∃ c' ∈ G, c.Perm c' := by
  have : (c : Multiset Int) ∈ unordered F := by
    unfold unordered; rw [Multiset.mem_coe]; exact List.mem_map_of_mem hc
  rw [h] at this
  unfold unordered at this
  rw [Multiset.mem_coe, List.mem_map] at this
  obtain ⟨c', h1, h2⟩ := this
  exact ⟨c', h1, (Multiset.coe_eq_coe.1 h2).symm⟩

theorem SameClauses.length {F G : Cnf} (h : SameClauses F G) : F.length = G.length := by
  have := congrArg Multiset.card h
  simpa [unordered] using this

theorem SameClauses.size {F G : Cnf} (h : SameClauses F G) : size F = size G := by
  have : ∀ F : Cnf, Spec.size F = ((unordered F).map Multiset.card).sum := by
    intro F
    unfold Spec.size unordered
    rw [Multiset.map_coe, Multiset.sum_coe, List.map_map]
    congr 1
  rw [this, this, h]

theorem SameClauses.sat {F G : Cnf} (h : SameClauses F G) (α : Assign) : Sat α F ↔ Sat α G := by
  have key : ∀ {F G : Cnf}, SameClauses F G → Sat α F → Sat α G := by
    intro F G h hF c hc
    obtain ⟨c', h1, h2⟩ := h.symm.exists_perm hc
    obtain ⟨l, hl, hv⟩ := hF c' h1
    exact ⟨l, h2.mem_iff.2 hl, hv⟩
  exact ⟨key h, key h.symm⟩

theorem SameClauses.satisfiable {F G : Cnf} (h : SameClauses F G) : Satisfiable F ↔ Satisfiable G := by
  unfold Satisfiable; simp only [h.sat]

theorem SameClauses.proper {F G : Cnf} (h : SameClauses F G) (hp : Proper F) : Proper G := by
  intro c hc
  obtain ⟨c', h1, h2⟩ := h.symm.exists_perm hc
  have := hp c' h1
  refine ⟨?_, ?_, ?_⟩
  · rintro rfl; exact this.1 (List.nil_perm.1 h2)
  · exact (h2.map _).nodup_iff.2 this.2.1
  · rw [h2.mem_iff]; exact this.2.2

theorem SameClauses.mem_vars {F G : Cnf} (h : SameClauses F G) (v : Nat) : v ∈ varsOf F ↔ v ∈ varsOf G := by
  have key : ∀ {F G : Cnf}, SameClauses F G → v ∈ varsOf F → v ∈ varsOf G := by
    intro F G h hv
    simp only [varsOf, mem_dedup, List.mem_flatMap, List.mem_map] at hv ⊢
    obtain ⟨c, hc, l, hl, e⟩ := hv
    obtain ⟨c', h1, h2⟩ := h.exists_perm hc
    exact ⟨c', h1, l, h2.mem_iff.1 hl, e⟩
  exact ⟨key h, key h.symm⟩

theorem mem_varsOf {F : Cnf} {v : Nat} : v ∈ varsOf F ↔ ∃ c ∈ F, ∃ l ∈ c, l.natAbs = v := by
  simp only [varsOf, mem_dedup, List.mem_flatMap, List.mem_map]

end NDP.Spec
