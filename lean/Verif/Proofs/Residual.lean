import Verif.Proofs.Unordered
import Verif.Lib.Dict
/- Facts about partial assignments and residual formulas (pure specification level). -/
namespace NDP.Spec

/-- The clause is not made true by `d`. -/
def undecided (d : Dict Int Bool) (c : List Int) : Bool := c.all fun l => decide (partialVal d l ≠ some true)

/-- The unassigned literals of a clause. -/
def openLits (d : Dict Int Bool) (c : List Int) : List Int := c.filter fun l => decide (partialVal d l = none)

theorem residual_eq (d : Dict Int Bool) (F : Cnf) : residual d F = (F.filter (undecided d)).map (openLits d) := rfl

theorem residual_cons (d : Dict Int Bool) (c : List Int) (F : Cnf) :
    residual d (c :: F) = if undecided d c then openLits d c :: residual d F else residual d F := by
  rw [residual_eq, residual_eq, List.filter_cons]
  split <;> simp

theorem undecided_iff {d : Dict Int Bool} {c : List Int} :
    undecided d c = true ↔ ∀ l ∈ c, partialVal d l ≠ some true := by
  simp [undecided]

theorem mem_openLits {d : Dict Int Bool} {c : List Int} {l : Int} :
    l ∈ openLits d c ↔ l ∈ c ∧ partialVal d l = none := by simp [openLits]

theorem mem_residual {d : Dict Int Bool} {F : Cnf} {c : List Int} :
    c ∈ residual d F ↔ ∃ c0 ∈ F, (∀ l ∈ c0, partialVal d l ≠ some true) ∧ c = openLits d c0 := by
  rw [residual_eq]
  simp only [List.mem_map, List.mem_filter, undecided_iff]
  constructor
  · rintro ⟨c0, ⟨h1, h2⟩, h3⟩; exact ⟨c0, h1, h2, h3.symm⟩
  · rintro ⟨c0, h1, h2, h3⟩; exact ⟨c0, ⟨h1, h2⟩, h3.symm⟩

theorem residual_nil_iff {d : Dict Int Bool} {F : Cnf} : residual d F = [] ↔ MakesTrue d F := by
  rw [residual_eq, List.map_eq_nil_iff, List.filter_eq_nil_iff]
  unfold MakesTrue
  constructor
  · intro h c hc
    have := h c hc
    rw [undecided_iff] at this
    by_contra hcon
    apply this
    intro l hl e
    exact hcon ⟨l, hl, e⟩
  · intro h c hc hu
    obtain ⟨l, hl, e⟩ := h c hc
    exact undecided_iff.1 hu l hl e

/-- `α` agrees with the partial assignment `d`. -/
def Agrees (α : Assign) (d : Dict Int Bool) : Prop := ∀ (v : Nat) (b : Bool), d.get? (v : Int) = some b → α v = b

theorem litVal_of_partial {α : Assign} {d : Dict Int Bool} (h : Agrees α d) {l : Int} {b : Bool}
    (hl : partialVal d l = some b) : litVal α l = b := by
  unfold partialVal at hl
  cases hd : d.get? (l.natAbs : Int) with
  | none => simp [hd] at hl
  | some b' =>
    simp only [hd, Option.map_some, Option.some.injEq] at hl
    have := h _ _ hd
    unfold litVal
    rw [this]; exact hl

/-- An assignment agreeing with `d` satisfies `F` iff it satisfies what is left of `F` under `d`. -/
theorem sat_residual {α : Assign} {d : Dict Int Bool} (h : Agrees α d) (F : Cnf) :
    Sat α F ↔ Sat α (residual d F) := by
  constructor
  · intro hF c hc
    obtain ⟨c0, h1, h2, rfl⟩ := mem_residual.1 hc
    obtain ⟨l, hl, hv⟩ := hF c0 h1
    refine ⟨l, mem_openLits.2 ⟨hl, ?_⟩, hv⟩
    cases hp : partialVal d l with
    | none => rfl
    | some b =>
      have := litVal_of_partial h hp
      rw [hv] at this; subst this
      exact absurd hp (h2 l hl)
  · intro hR c hc
    by_cases hu : ∃ l ∈ c, partialVal d l = some true
    · obtain ⟨l, hl, e⟩ := hu
      exact ⟨l, hl, litVal_of_partial h e⟩
    · have hm : openLits d c ∈ residual d F :=
        mem_residual.2 ⟨c, hc, fun l hl e => hu ⟨l, hl, e⟩, rfl⟩
      obtain ⟨l, hl, hv⟩ := hR _ hm
      exact ⟨l, (mem_openLits.1 hl).1, hv⟩

/-- A partial assignment that makes every clause true extends to a satisfying assignment. -/
theorem MakesTrue.satisfiable {d : Dict Int Bool} {F : Cnf} (h : MakesTrue d F) : Satisfiable F := by
  let α : Assign := fun v => (d.get? (v : Int)).getD false
  have ha : Agrees α d := by intro v b hb; simp [α, hb]
  refine ⟨α, (sat_residual ha F).2 ?_⟩
  rw [residual_nil_iff.2 h]
  intro c hc; simp at hc

theorem undecided_perm {d : Dict Int Bool} {c c' : List Int} (h : c.Perm c') : undecided d c = undecided d c' := by
  rw [Bool.eq_iff_iff, undecided_iff, undecided_iff]
  simp only [h.mem_iff]

theorem unordered_cons (c : List Int) (F : Cnf) : unordered (c :: F) = (c : Multiset Int) ::ₘ unordered F := rfl

/-- Multiset version of `undecided`. -/
def undecidedM (d : Dict Int Bool) (c : Multiset Int) : Prop := ∀ l ∈ c, partialVal d l ≠ some true

instance (d : Dict Int Bool) (c : Multiset Int) : Decidable (undecidedM d c) := by
  unfold undecidedM; infer_instance

theorem unordered_residual (d : Dict Int Bool) (F : Cnf) :
    unordered (residual d F) =
      ((unordered F).filter (undecidedM d)).map (Multiset.filter fun l => partialVal d l = none) := by
  induction F with
  | nil => rfl
  | cons c F ih =>
    rw [residual_cons, unordered_cons]
    by_cases h : undecided d c = true
    · have h' : undecidedM d (c : Multiset Int) := by
        intro l hl; exact undecided_iff.1 h l (by simpa using hl)
      rw [if_pos h, unordered_cons, Multiset.filter_cons_of_pos _ h', Multiset.map_cons, ih]
      congr 1
    · have h' : ¬ undecidedM d (c : Multiset Int) := by
        intro h2; exact h (undecided_iff.2 (fun l hl => h2 l (by simpa using hl)))
      rw [if_neg h, Multiset.filter_cons_of_neg _ h', ih]

theorem SameClauses.residual {F G : Cnf} (h : SameClauses F G) (d : Dict Int Bool) :
    SameClauses (residual d F) (residual d G) := by
  unfold SameClauses at *
  rw [unordered_residual, unordered_residual, h]

theorem partialVal_set {d : Dict Int Bool} {v : Nat} {b : Bool} {l : Int} :
    partialVal (d.set (v : Int) b) l =
      if l.natAbs = v then some (if l < 0 then !b else b) else partialVal d l := by
  unfold partialVal
  rw [Dict.get?_set]
  by_cases h : l.natAbs = v
  · subst h; simp
  · have : ¬ (v : Int) = (l.natAbs : Int) := by omega
    simp [h, this]

theorem partialVal_single {v : Nat} {b : Bool} {l : Int} :
    partialVal [((v : Int), b)] l = if l.natAbs = v then some (if l < 0 then !b else b) else none := by
  have := partialVal_set (d := []) (v := v) (b := b) (l := l)
  simpa [partialVal, Dict.set] using this

/-- Assigning one more (unassigned) variable, in two steps or in one. -/
theorem residual_residual {d : Dict Int Bool} {v : Nat} {b : Bool} (hv : d.get? (v : Int) = none) (F : Cnf) :
    residual [((v : Int), b)] (residual d F) = residual (d.set (v : Int) b) F := by
  have hnone : ∀ l : Int, l.natAbs = v → partialVal d l = none := by
    intro l hl; unfold partialVal; rw [hl, hv]; rfl
  induction F with
  | nil => rfl
  | cons c F ih =>
    rw [residual_cons, residual_cons]
    have hopen : openLits [((v : Int), b)] (openLits d c) = openLits (d.set (v : Int) b) c := by
      unfold openLits
      rw [List.filter_filter]
      apply List.filter_congr
      intro l _
      rw [partialVal_single, partialVal_set]
      by_cases h : l.natAbs = v
      · simp [h]
      · simp [h]
    by_cases hu : undecided d c = true
    · rw [if_pos hu, residual_cons]
      have : undecided [((v : Int), b)] (openLits d c) = undecided (d.set (v : Int) b) c := by
        rw [Bool.eq_iff_iff, undecided_iff, undecided_iff]
        constructor
        · intro h l hl
          rw [partialVal_set]
          by_cases e : l.natAbs = v
          · have := h l (mem_openLits.2 ⟨hl, hnone l e⟩)
            rw [partialVal_single] at this
            simpa [e] using this
          · simpa [e] using undecided_iff.1 hu l hl
        · intro h l hl
          have hl := (mem_openLits.1 hl).1
          have := h l hl
          rw [partialVal_set] at this
          rw [partialVal_single]
          by_cases e : l.natAbs = v
          · simpa [e] using this
          · simp [e]
      rw [this, hopen, ih]
    · rw [if_neg hu, ih]
      have : ¬ undecided (d.set (v : Int) b) c = true := by
        intro h
        apply hu
        rw [undecided_iff] at h ⊢
        intro l hl e
        have h2 := h l hl
        rw [partialVal_set] at h2
        by_cases e2 : l.natAbs = v
        · rw [hnone l e2] at e; simp at e
        · simp [e2] at h2; exact h2 e
      rw [if_neg this]

theorem mem_vars_residual {d : Dict Int Bool} {F : Cnf} {v : Nat} (h : v ∈ varsOf (residual d F)) :
    v ∈ varsOf F ∧ d.get? (v : Int) = none := by
  rw [mem_varsOf] at h
  obtain ⟨c, hc, l, hl, rfl⟩ := h
  obtain ⟨c0, h1, _, rfl⟩ := mem_residual.1 hc
  have := mem_openLits.1 hl
  refine ⟨mem_varsOf.2 ⟨c0, h1, l, this.1, rfl⟩, ?_⟩
  have h2 := this.2
  unfold partialVal at h2
  simpa using h2

theorem residual_nil_dict (F : Cnf) : residual [] F = F := by
  have h : ∀ l : Int, partialVal [] l = none := by intro l; rfl
  induction F with
  | nil => rfl
  | cons c F ih =>
    rw [residual_cons, ih]
    have h1 : undecided [] c = true := by rw [undecided_iff]; intro l _; rw [h]; simp
    have h2 : openLits [] c = c := by
      unfold openLits; rw [List.filter_eq_self]; intro l _; simp [h]
    rw [if_pos h1, h2]

/-! ### renaming -/

theorem natAbs_mapLit (ν : Nat → Nat) (l : Int) : (mapLit ν l).natAbs = ν l.natAbs := by
  unfold mapLit; split <;> simp

theorem mapLit_neg_iff {ν : Nat → Nat} {l : Int} (h : ν l.natAbs ≠ 0) : mapLit ν l < 0 ↔ l < 0 := by
  unfold mapLit; split <;> omega

theorem mapLit_comp {f g : Nat → Nat} {l : Int} (h : g l.natAbs ≠ 0) :
    mapLit f (mapLit g l) = mapLit (f ∘ g) l := by
  unfold mapLit
  by_cases hl : l < 0
  · have : -((g l.natAbs : Nat) : Int) < 0 := by omega
    simp [hl]; omega
  · simp [hl]

theorem mapCnf_comp {f g : Nat → Nat} {F : Cnf} (h : ∀ v ∈ varsOf F, g v ≠ 0) :
    mapCnf f (mapCnf g F) = mapCnf (f ∘ g) F := by
  unfold mapCnf
  rw [List.map_map]
  apply List.map_congr_left
  intro c hc
  simp only [Function.comp_apply, List.map_map]
  apply List.map_congr_left
  intro l hl
  exact mapLit_comp (h _ (mem_varsOf.2 ⟨c, hc, l, hl, rfl⟩))

theorem mapCnf_congr {f g : Nat → Nat} {F : Cnf} (h : ∀ v ∈ varsOf F, f v = g v) : mapCnf f F = mapCnf g F := by
  unfold mapCnf
  apply List.map_congr_left
  intro c hc
  apply List.map_congr_left
  intro l hl
  unfold mapLit
  rw [h _ (mem_varsOf.2 ⟨c, hc, l, hl, rfl⟩)]

theorem varsOf_mapCnf {ν : Nat → Nat} {F : Cnf} {v : Nat} :
    v ∈ varsOf (mapCnf ν F) ↔ ∃ u ∈ varsOf F, ν u = v := by
  simp only [mem_varsOf, mapCnf, List.mem_map]
  constructor
  · rintro ⟨_, ⟨c, hc, rfl⟩, l, hl, rfl⟩
    rw [List.mem_map] at hl
    obtain ⟨l0, h0, rfl⟩ := hl
    exact ⟨l0.natAbs, ⟨c, hc, l0, h0, rfl⟩, (natAbs_mapLit ν l0).symm⟩
  · rintro ⟨u, ⟨c, hc, l, hl, rfl⟩, rfl⟩
    exact ⟨_, ⟨c, hc, rfl⟩, mapLit ν l, List.mem_map_of_mem hl, natAbs_mapLit ν l⟩

/-- Assigning a renamed variable = renaming what is left after assigning the variable. -/
theorem residual_mapCnf {ν : Nat → Nat} {F : Cnf} {p : Nat} {b : Bool}
    (h0 : ∀ v ∈ varsOf F, ν v ≠ 0) (hinj : ∀ v ∈ varsOf F, ν v = ν p → v = p) :
    residual [((ν p : Nat) , b)] (mapCnf ν F) = mapCnf ν (residual [((p : Int), b)] F) := by
  have hpv : ∀ l : Int, l.natAbs ∈ varsOf F →
      partialVal [((ν p : Nat) , b)] (mapLit ν l) = partialVal [((p : Int), b)] l := by
    intro l hl
    rw [partialVal_single, partialVal_single, natAbs_mapLit]
    by_cases e : l.natAbs = p
    · rw [if_pos (by rw [e]), if_pos e]
      by_cases hn : l < 0
      · rw [if_pos ((mapLit_neg_iff (h0 _ hl)).2 hn), if_pos hn]
      · rw [if_neg (fun x => hn ((mapLit_neg_iff (h0 _ hl)).1 x)), if_neg hn]
    · rw [if_neg (fun x => e (hinj _ hl x)), if_neg e]
  have hall : ∀ G : Cnf, (∀ c ∈ G, ∀ l ∈ c, l.natAbs ∈ varsOf F) →
      residual [((ν p : Nat) , b)] (mapCnf ν G) = mapCnf ν (residual [((p : Int), b)] G) := by
    intro G hG
    induction G with
    | nil => rfl
    | cons c G ih =>
      have hc := hG c (by simp)
      have h1 : undecided [((ν p : Nat) , b)] (c.map (mapLit ν)) = undecided [((p : Int), b)] c := by
        rw [Bool.eq_iff_iff, undecided_iff, undecided_iff]
        constructor
        · intro h l hl
          rw [← hpv l (hc l hl)]
          exact h _ (List.mem_map_of_mem hl)
        · intro h l hl
          rw [List.mem_map] at hl
          obtain ⟨l0, hl0, rfl⟩ := hl
          rw [hpv l0 (hc l0 hl0)]
          exact h l0 hl0
      have h2 : openLits [((ν p : Nat) , b)] (c.map (mapLit ν)) = (openLits [((p : Int), b)] c).map (mapLit ν) := by
        unfold openLits
        rw [List.filter_map]
        congr 1
        apply List.filter_congr
        intro l hl
        simp only [Function.comp_apply]
        rw [hpv l (hc l hl)]
      have ih := ih (fun c hc => hG c (by simp [hc]))
      have e : mapCnf ν (c :: G) = c.map (mapLit ν) :: mapCnf ν G := rfl
      rw [e, residual_cons, residual_cons, h1]
      split
      · rw [h2, ih]; rfl
      · rw [ih]
  exact hall F (fun c hc l hl => mem_varsOf.2 ⟨c, hc, l, hl, rfl⟩)

/-- Renaming variables injectively preserves satisfiability. -/
theorem satisfiable_mapCnf {ν : Nat → Nat} {F : Cnf} (h0 : ∀ v ∈ varsOf F, ν v ≠ 0)
    (hinj : ∀ u ∈ varsOf F, ∀ v ∈ varsOf F, ν u = ν v → u = v) :
    Satisfiable (mapCnf ν F) ↔ Satisfiable F := by
  have key : ∀ (α β : Assign), (∀ v ∈ varsOf F, β (ν v) = α v) → (Sat β (mapCnf ν F) ↔ Sat α F) := by
    intro α β hab
    have hlit : ∀ c ∈ F, ∀ l ∈ c, litVal β (mapLit ν l) = litVal α l := by
      intro c hc l hl
      have hm : l.natAbs ∈ varsOf F := mem_varsOf.2 ⟨c, hc, l, hl, rfl⟩
      unfold litVal
      rw [natAbs_mapLit, hab _ hm]
      by_cases hn : l < 0
      · rw [if_pos ((mapLit_neg_iff (h0 _ hm)).2 hn), if_pos hn]
      · rw [if_neg (fun x => hn ((mapLit_neg_iff (h0 _ hm)).1 x)), if_neg hn]
    constructor
    · intro h c hc
      obtain ⟨l, hl, hv⟩ := h (c.map (mapLit ν)) (List.mem_map_of_mem hc)
      rw [List.mem_map] at hl
      obtain ⟨l0, hl0, rfl⟩ := hl
      exact ⟨l0, hl0, by rw [← hlit c hc l0 hl0]; exact hv⟩
    · intro h c hc
      obtain ⟨c0, hc0, rfl⟩ := List.mem_map.1 hc
      obtain ⟨l, hl, hv⟩ := h c0 hc0
      exact ⟨mapLit ν l, List.mem_map_of_mem hl, by rw [hlit c0 hc0 l hl]; exact hv⟩
  constructor
  · rintro ⟨β, hβ⟩
    exact ⟨fun v => β (ν v), (key _ β (fun _ _ => rfl)).1 hβ⟩
  · rintro ⟨α, hα⟩
    classical
    let β : Assign := fun w => if h : ∃ v ∈ varsOf F, ν v = w then α h.choose else false
    refine ⟨β, (key α β ?_).2 hα⟩
    intro v hv
    have hex : ∃ u ∈ varsOf F, ν u = ν v := ⟨v, hv, rfl⟩
    show (if h : ∃ u ∈ varsOf F, ν u = ν v then α h.choose else false) = α v
    rw [dif_pos hex]
    have := hex.choose_spec
    rw [hinj _ this.1 _ hv this.2]

/-- Shannon expansion on one variable. -/
theorem satisfiable_branch (p : Nat) (F : Cnf) :
    Satisfiable F ↔ Satisfiable (residual [((p : Int), true)] F) ∨ Satisfiable (residual [((p : Int), false)] F) := by
  have hag : ∀ (α : Assign) (b : Bool), α p = b → Agrees α [((p : Int), b)] := by
    intro α b hb v b' h
    by_cases e : (p : Int) = (v : Int)
    · have e' : p = v := by omega
      simp [e'] at h; rw [← e', hb, h]
    · simp [e] at h
  constructor
  · rintro ⟨α, hα⟩
    cases hb : α p with
    | true => left; exact ⟨α, (sat_residual (hag α true hb) F).1 hα⟩
    | false => right; exact ⟨α, (sat_residual (hag α false hb) F).1 hα⟩
  · have back : ∀ b, Satisfiable (residual [((p : Int), b)] F) → Satisfiable F := by
      rintro b ⟨α, hα⟩
      let β : Assign := fun v => if v = p then b else α v
      have hβ : Sat β (residual [((p : Int), b)] F) := by
        intro c hc
        obtain ⟨l, hl, hv⟩ := hα c hc
        refine ⟨l, hl, ?_⟩
        obtain ⟨c0, _, _, rfl⟩ := mem_residual.1 hc
        have := (mem_openLits.1 hl).2
        rw [partialVal_single] at this
        have hne : l.natAbs ≠ p := by intro e; simp [e] at this
        unfold litVal at hv ⊢
        simp only [β, hne, if_false]; exact hv
      exact ⟨β, (sat_residual (hag β b (by simp [β])) F).2 hβ⟩
    rintro (h | h)
    · exact back true h
    · exact back false h

end NDP.Spec
