import Verif.Cnfgen.TransformCore
import Verif.Cnfgen.Graph
/-
  C55: substitutions.
-/
namespace NDP.Cnfgen
open NDP

section
variable {V : Type} [DecidableEq V] {sh : V → Str}

theorem nTrue_map {A B : Type} (α : B → Bool) (f : A → B) (l : List A) : nTrue α (l.map f) = nTrue (fun i => α (f i)) l := by
  unfold nTrue; rw [List.filter_map, List.length_map]; rfl

theorem nTrue_pos {A : Type} (α : A → Bool) (l : List A) : 0 < nTrue α l ↔ ∃ i ∈ l, α i = true := by
  unfold nTrue; rw [List.length_pos_iff_exists_mem]; simp

theorem nTrue_single {A : Type} [DecidableEq A] {l : List A} (hn : l.Nodup) {a : A} (ha : a ∈ l) (b : Bool) :
    nTrue (fun i => decide (i = a) && b) l = if b then 1 else 0 := by
  cases b
  · simp [nTrue]
  · simp only [Bool.and_true, if_true]
    unfold nTrue
    have : l.filter (fun i => decide (i = a)) = [a] := by
      induction l with
      | nil => cases ha
      | cons x xs ih =>
        rw [List.nodup_cons] at hn
        by_cases e : x = a
        · subst e
          rw [List.filter_cons_of_pos (by simp)]
          have : xs.filter (fun i => decide (i = x)) = [] := by
            rw [List.filter_eq_nil_iff]
            intro y hy; simp only [decide_eq_true_eq]; rintro rfl; exact hn.1 hy
          rw [this]
        · rw [List.filter_cons_of_neg (by simpa using e)]
          exact ih hn.2 ((List.mem_cons.1 ha).resolve_left (Ne.symm e))
    rw [this]; rfl

/-- Different variables or numbers, different names. -/
theorem subName_inj (hs : Function.Injective sh) {p : Str} {v w : V} {i j : Nat} (h : subName sh p v i = subName sh p w j) : v = w ∧ i = j := by
  unfold subName at h
  have h := List.append_cancel_left h
  injection h with _ h
  have hr := congrArg List.reverse h
  simp only [List.reverse_append, List.reverse_cons, List.append_assoc] at hr
  have nd : ∀ n, '^' ∉ (natStr n).reverse := by
    intro n hm
    rw [List.mem_reverse] at hm
    exact not_mem_natStr (by decide) hm
  have := sep_inj (c := '^') (nd i) (nd j) (by simpa using hr)
  refine ⟨?_, natStr_injective (by simpa using this.1)⟩
  have h2 := this.2
  injection h2 with _ h2
  exact hs (by simpa using h2)

theorem exists_sub (hs : Function.Injective sh) (p : Str) (m : V → Nat → Bool) : ∃ α : Str → Bool, ∀ v i, α (subName sh p v i) = m v i := by
  have : Function.Injective fun q : V × Nat => subName sh p q.1 q.2 := by
    rintro ⟨v, i⟩ ⟨w, j⟩ h
    exact Prod.ext (subName_inj hs h).1 (subName_inj hs h).2
  obtain ⟨α, ha⟩ := exists_assign this fun q => m q.1 q.2
  exact ⟨α, fun v i => ha (v, i)⟩

theorem mem_subNames {p : Str} {v : V} {k : Nat} {n : Str} : n ∈ subNames sh p v k ↔ ∃ i < k, subName sh p v i = n := by
  simp [subNames]

theorem subName_inj' {p : Str} {v : V} {i j : Nat} (h : subName sh p v i = subName sh p v j) : i = j := by
  unfold subName at h
  simpa using natStr_injective (by simpa using h)

theorem subNames_nodup {p : Str} {v : V} {k : Nat} : (subNames sh p v k).Nodup :=
  List.nodup_range.map fun _ _ h => subName_inj' h

/-- From the general fact to satisfiability. -/
theorem equisat {W : Type} [DecidableEq W] {F : CNF V} {H : CNF W} (hF : Proper F.vars F.clauses) (hH : Proper H.vars H.clauses) {P : (W → Bool) → Prop}
    {g : (W → Bool) → V → Bool} (h : ∀ α, Holds H.vars H.clauses α ↔ P α ∧ Holds F.vars F.clauses (g α))
    (hg : ∀ β : V → Bool, ∃ α, P α ∧ g α = β) : Spec.Satisfiable H.clauses ↔ Spec.Satisfiable F.clauses := by
  rw [hH.sat, hF.sat]
  constructor
  · rintro ⟨α, ha⟩; exact ⟨_, ((h α).1 ha).2⟩
  · rintro ⟨β, hb⟩
    obtain ⟨α, h1, rfl⟩ := hg β
    exact ⟨α, (h α).2 ⟨h1, hb⟩⟩

theorem base_simple {W : Type} [DecidableEq W] (F : CNF V) (hF : Proper F.vars F.clauses) {tr : Bool → V → List (List (Lit W))}
    (g : (W → Bool) → V → Bool) (h : ∀ α, ∀ v, ∀ b, AllTrue α (tr b v) ↔ g α v = b) :
    ∃ H, baseSubst F (fun _ => []) tr none = pure H ∧ Proper H.vars H.clauses ∧
      (∀ α, Holds H.vars H.clauses α ↔ Holds F.vars F.clauses (g α)) ∧
      ((∀ β : V → Bool, ∃ α, g α = β) → (Spec.Satisfiable H.clauses ↔ Spec.Satisfiable F.clauses)) := by
  obtain ⟨H, h1, h2, h3⟩ := baseSubst_ok F hF (pre := fun _ => []) (tr := tr) (nv := none) g (by simp) fun α v _ _ b => h α v b
  have h3' : ∀ α, Holds H.vars H.clauses α ↔ True ∧ Holds F.vars F.clauses (g α) := by
    intro α; rw [h3]; simp [allTrue_nil]
  exact ⟨H, h1, h2, fun α => by rw [h3' α]; simp, fun hg => equisat hF h2 (P := fun _ => True) h3' fun β => by simpa using hg β⟩

theorem nTrue_eq_one {A : Type} {l : List A} {γ : A → Bool} (hn : l.Nodup) (h : nTrue γ l = 1) : ∃ i ∈ l, ∀ j ∈ l, γ j = true ↔ j = i := by
  obtain ⟨i, e⟩ := List.length_eq_one_iff.1 h
  have hm : ∀ j, j ∈ l ∧ γ j = true ↔ j = i := by
    intro j; rw [← List.mem_filter, e, List.mem_singleton]
  exact ⟨i, ((hm i).2 rfl).1, fun j hj => ⟨fun h => (hm j).1 ⟨hj, h⟩, fun h => ((hm j).2 h).2⟩⟩

theorem one_iff (α : Str → Bool) (ns : List Str) :
    AllTrue α ((ns.map fun n => (true, n)) :: (pairs ns).map fun p => [(false, p.1), (false, p.2)]) ↔ nTrue α ns = 1 := by
  rw [allTrue_cons, allTrue_map]
  have e1 : ClauseTrue α (ns.map fun n => (true, n)) ↔ 0 < nTrue α ns := by
    rw [nTrue_pos]; simp [ClauseTrue]
  have e2 : (∀ p ∈ pairs ns, ClauseTrue α [(false, p.1), (false, p.2)]) ↔ nTrue α ns ≤ 1 := by
    rw [nTrue_le_one]
    refine forall_congr' fun p => forall_congr' fun _ => ?_
    simp only [clauseTrue_cons, clauseTrue_nil, or_false]
    cases α p.1 <;> cases α p.2 <;> simp
  rw [e1, e2]; omega

theorem notOne_iff (α : Str → Bool) {ns : List Str} (hn : ns.Nodup) :
    AllTrue α (ns.map fun n => (false, n) :: (ns.filter fun o => decide (o ≠ n)).map fun o => (true, o)) ↔ nTrue α ns ≠ 1 := by
  rw [allTrue_map]
  constructor
  · intro h h1
    obtain ⟨n, hn1, h2⟩ := nTrue_eq_one hn h1
    obtain ⟨l, hl, h3⟩ := h n hn1
    rcases List.mem_cons.1 hl with rfl | hl
    · rw [(h2 n hn1).2 rfl] at h3; exact absurd h3 (by simp)
    · obtain ⟨o, ho, rfl⟩ := List.mem_map.1 hl
      simp only [List.mem_filter, decide_eq_true_eq] at ho
      exact ho.2 ((h2 o ho.1).1 h3)
  · intro h n hn1
    by_cases hv : α n = true
    · by_contra hc
      refine h ?_
      have : ns.filter α = [n] := by
        have hu : ∀ o ∈ ns, α o = true → o = n := by
          intro o ho h2
          by_contra hne
          exact hc ⟨(true, o), by simp [ho, hne], h2⟩
        have h1 : (ns.filter α).Nodup := hn.filter _
        have h2 : ∀ o, o ∈ ns.filter α ↔ o = n := by
          intro o
          rw [List.mem_filter]
          exact ⟨fun h => hu o h.1 h.2, fun h => h ▸ ⟨hn1, hv⟩⟩
        cases hf : ns.filter α with
        | nil => have := (h2 n).2 rfl; rw [hf] at this; cases this
        | cons a t =>
          rw [hf] at h1 h2
          have ea := (h2 a).1 (by simp)
          subst ea
          cases t with
          | nil => rfl
          | cons b t =>
            have := (h2 b).1 (by simp)
            subst this
            simp at h1
      unfold nTrue; rw [this]; rfl
    · exact ⟨(false, n), by simp, by simpa using hv⟩

theorem eqLit_iff (k : Nat) (α : Str → Bool) (v : V) (b : Bool) : AllTrue α (eqLit sh k b v) ↔
    decide (∀ i < k, ∀ j < k, α (subName sh [] v i) = α (subName sh [] v j)) = b := by
  cases b
  · simp only [eqLit, Bool.false_eq_true, if_false, allTrue_cons, allTrue_nil, and_true, decide_eq_false_iff_not, ClauseTrue, List.mem_map,
      mem_subNames, exists_exists_and_eq_and]
    simp only [not_forall]
    constructor
    · rintro ⟨⟨i, hi, h1⟩, j, hj, h2⟩
      refine ⟨i, hi, j, hj, ?_⟩
      rw [h1, h2]; simp
    · rintro ⟨i, hi, j, hj, h⟩
      cases e1 : α (subName sh [] v i) <;> cases e2 : α (subName sh [] v j) <;> simp only [e1, e2, not_true_eq_false] at h
      · exact ⟨⟨i, hi, e1⟩, j, hj, e2⟩
      · exact ⟨⟨j, hj, e2⟩, i, hi, e1⟩
  · simp only [eqLit, if_true, allTrue_map, decide_eq_true_eq, clauseTrue_cons, clauseTrue_nil, or_false, Prod.forall,
      mem_permPairs subNames_nodup, mem_subNames]
    constructor
    · intro h i hi j hj
      by_cases e : i = j
      · rw [e]
      · have hne : subName sh [] v i ≠ subName sh [] v j := fun h => e (subName_inj' h)
        have h1 := h _ _ ⟨⟨i, hi, rfl⟩, ⟨j, hj, rfl⟩, hne⟩
        have h2 := h _ _ ⟨⟨j, hj, rfl⟩, ⟨i, hi, rfl⟩, hne.symm⟩
        cases e1 : α (subName sh [] v i) <;> cases e2 : α (subName sh [] v j) <;> simp_all
    · rintro h _ _ ⟨⟨i, hi, rfl⟩, ⟨j, hj, rfl⟩, _⟩
      rw [h i hi j hj]
      cases α (subName sh [] v j) <;> simp

theorem eq_onto (hs : Function.Injective sh) (k : Nat) (hk : 2 ≤ k) (β : V → Bool) :
    ∃ α : Str → Bool, (fun v => decide (∀ i < k, ∀ j < k, α (subName sh [] v i) = α (subName sh [] v j))) = β := by
  obtain ⟨α, ha⟩ := exists_sub hs [] fun v i => decide (i = 0) && !β v
  refine ⟨α, funext fun v => ?_⟩
  simp only [ha]
  cases β v
  · simp only [Bool.not_false, Bool.and_true, decide_eq_false_iff_not]
    intro h
    have := h 0 (by omega) 1 (by omega)
    simp at this
  · simp

/-- **C55.** OR: the new formula is true exactly when the old one is, each variable having the value of the OR of its copies; with
at least one copy it is satisfiable exactly when the old one is. -/
theorem C55_or (hs : Function.Injective sh) (F : CNF V) (hF : Proper F.vars F.clauses) (k : Nat) :
    ∃ H, orSubst sh F k = pure H ∧ Proper H.vars H.clauses ∧
      (∀ α, Holds H.vars H.clauses α ↔ Holds F.vars F.clauses fun v => decide (∃ i < k, α (subName sh [] v i) = true)) ∧
      (1 ≤ k → (Spec.Satisfiable H.clauses ↔ Spec.Satisfiable F.clauses)) := by
  obtain ⟨H, h1, h2, h3, h4⟩ := base_simple F hF (tr := orLit sh k) (fun α v => decide (∃ i < k, α (subName sh [] v i) = true)) (by
    intro α v b
    cases b
    · simp only [orLit, Bool.false_eq_true, if_false, allTrue_map, mem_subNames, ClauseTrue, decide_eq_false_iff_not]
      simp
    · simp only [orLit, if_true, AllTrue, ClauseTrue, decide_eq_true_eq]
      simp [mem_subNames])
  refine ⟨H, h1, h2, h3, fun hk => h4 fun β => ?_⟩
  obtain ⟨α, ha⟩ := exists_sub hs [] fun v _ => β v
  refine ⟨α, funext fun v => ?_⟩
  simp only [ha]
  cases β v <;> simp
  exact ⟨0, hk⟩

/-- **C55.** XOR: likewise, with the parity of the copies. -/
theorem C55_xor (hs : Function.Injective sh) (F : CNF V) (hF : Proper F.vars F.clauses) (k : Nat) :
    ∃ H, xorSubst sh F k = pure H ∧ Proper H.vars H.clauses ∧
      (∀ α, Holds H.vars H.clauses α ↔ Holds F.vars F.clauses fun v => decide (nTrue (fun i => α (subName sh [] v i)) (List.range k) % 2 = 1)) ∧
      (1 ≤ k → (Spec.Satisfiable H.clauses ↔ Spec.Satisfiable F.clauses)) := by
  obtain ⟨H, h1, h2, h3, h4⟩ := base_simple F hF (tr := xorLit sh k)
    (fun α v => decide (nTrue (fun i => α (subName sh [] v i)) (List.range k) % 2 = 1)) (by
    intro α v b
    rw [xorLit, C48_parity, subNames, nTrue_map]
    cases b
    · simp only [Bool.false_eq_true, if_false, decide_eq_false_iff_not]; omega
    · simp only [if_true, decide_eq_true_eq])
  refine ⟨H, h1, h2, h3, fun hk => h4 fun β => ?_⟩
  obtain ⟨α, ha⟩ := exists_sub hs [] fun v i => decide (i = 0) && β v
  refine ⟨α, funext fun v => ?_⟩
  simp only [ha]
  rw [nTrue_single List.nodup_range (List.mem_range.2 hk)]
  cases β v <;> simp

/-- **C55.** Majority: likewise, the value being true when at least as many copies are true as false. -/
theorem C55_maj (hs : Function.Injective sh) (F : CNF V) (hF : Proper F.vars F.clauses) (k : Nat) :
    ∃ H, majSubst sh F k = pure H ∧ Proper H.vars H.clauses ∧
      (∀ α, Holds H.vars H.clauses α ↔ Holds F.vars F.clauses fun v =>
        decide (nTrue (fun i => !α (subName sh [] v i)) (List.range k) ≤ nTrue (fun i => α (subName sh [] v i)) (List.range k))) ∧
      (1 ≤ k → (Spec.Satisfiable H.clauses ↔ Spec.Satisfiable F.clauses)) := by
  have hlen : ∀ (γ : Nat → Bool), nTrue (fun i => !γ i) (List.range k) = k - nTrue γ (List.range k) := by
    intro γ
    have := nFalse γ (List.range k)
    simp only [beq_false, List.length_range] at this
    exact this
  have hle : ∀ (γ : Nat → Bool), nTrue γ (List.range k) ≤ k := fun γ => (nTrue_le γ _).trans (by simp)
  obtain ⟨H, h1, h2, h3, h4⟩ := base_simple F hF (tr := majLit sh k)
    (fun α v => decide (nTrue (fun i => !α (subName sh [] v i)) (List.range k) ≤ nTrue (fun i => α (subName sh [] v i)) (List.range k))) (by
    intro α v b
    rw [hlen fun i => α (subName sh [] v i)]
    have := hle fun i => α (subName sh [] v i)
    cases b
    · simp only [majLit, Bool.false_eq_true, if_false, decide_eq_false_iff_not, C48_less_than, subNames, nTrue_map]; omega
    · simp only [majLit, if_true, decide_eq_true_eq, C48_greater_or_equal, subNames, nTrue_map]; omega)
  refine ⟨H, h1, h2, h3, fun hk => h4 fun β => ?_⟩
  obtain ⟨α, ha⟩ := exists_sub hs [] fun v _ => β v
  refine ⟨α, funext fun v => ?_⟩
  simp only [ha]
  cases β v
  · have : nTrue (fun _ => !false) (List.range k) = k := by simp [nTrue]
    rw [this]
    have : nTrue (fun _ => false) (List.range k) = 0 := by simp [nTrue]
    rw [this, decide_eq_false_iff_not]; omega
  · have : nTrue (fun _ => !true) (List.range k) = 0 := by simp [nTrue]
    rw [this]; simp

/-- **C55.** All equal: likewise; the function is not constant from two copies on. -/
theorem C55_all_equal (hs : Function.Injective sh) (F : CNF V) (hF : Proper F.vars F.clauses) (k : Nat) :
    ∃ H, eqSubst sh F k = pure H ∧ Proper H.vars H.clauses ∧
      (∀ α, Holds H.vars H.clauses α ↔ Holds F.vars F.clauses fun v =>
        decide (∀ i < k, ∀ j < k, α (subName sh [] v i) = α (subName sh [] v j))) ∧
      (2 ≤ k → (Spec.Satisfiable H.clauses ↔ Spec.Satisfiable F.clauses)) := by
  obtain ⟨H, h1, h2, h3, h4⟩ := base_simple F hF (tr := eqLit sh k)
    (fun α v => decide (∀ i < k, ∀ j < k, α (subName sh [] v i) = α (subName sh [] v j))) (eqLit_iff k)
  exact ⟨H, h1, h2, h3, fun hk => h4 fun β => eq_onto hs k hk β⟩

/-- **C55.** Not all equal: likewise. -/
theorem C55_not_all_equal (hs : Function.Injective sh) (F : CNF V) (hF : Proper F.vars F.clauses) (k : Nat) :
    ∃ H, neqSubst sh F k = pure H ∧ Proper H.vars H.clauses ∧
      (∀ α, Holds H.vars H.clauses α ↔ Holds F.vars F.clauses fun v =>
        decide (∃ i < k, ∃ j < k, α (subName sh [] v i) ≠ α (subName sh [] v j))) ∧
      (2 ≤ k → (Spec.Satisfiable H.clauses ↔ Spec.Satisfiable F.clauses)) := by
  have hneg : ∀ (α : Str → Bool) (v : V), decide (∃ i < k, ∃ j < k, α (subName sh [] v i) ≠ α (subName sh [] v j)) =
      !decide (∀ i < k, ∀ j < k, α (subName sh [] v i) = α (subName sh [] v j)) := by
    intro α v
    rw [← decide_not, decide_eq_decide]
    simp only [not_forall, exists_prop, ne_eq]
  obtain ⟨H, h1, h2, h3, h4⟩ := base_simple F hF (tr := neqLit sh k)
    (fun α v => decide (∃ i < k, ∃ j < k, α (subName sh [] v i) ≠ α (subName sh [] v j))) (by
    intro α v b
    rw [neqLit, eqLit_iff, hneg]
    cases b <;> simp)
  refine ⟨H, h1, h2, h3, fun hk => h4 fun β => ?_⟩
  obtain ⟨α, ha⟩ := eq_onto hs k hk fun v => !β v
  refine ⟨α, funext fun v => ?_⟩
  rw [hneg, congrFun ha v]; simp

/-- **C55.** If-then-else: likewise. -/
theorem C55_ite (hs : Function.Injective sh) (F : CNF V) (hF : Proper F.vars F.clauses) :
    ∃ H, iteSubst sh F = pure H ∧ Proper H.vars H.clauses ∧
      (∀ α, Holds H.vars H.clauses α ↔ Holds F.vars F.clauses fun v =>
        if α (subName sh [] v 0) then α (subName sh [] v 1) else α (subName sh [] v 2)) ∧
      (Spec.Satisfiable H.clauses ↔ Spec.Satisfiable F.clauses) := by
  obtain ⟨H, h1, h2, h3, h4⟩ := base_simple F hF (tr := iteLit sh)
    (fun α v => if α (subName sh [] v 0) then α (subName sh [] v 1) else α (subName sh [] v 2)) (by
    intro α v b
    simp only [iteLit, allTrue_cons, allTrue_nil, clauseTrue_cons, clauseTrue_nil, or_false, and_true]
    cases α (subName sh [] v 0) <;> simp)
  refine ⟨H, h1, h2, h3, h4 fun β => ?_⟩
  obtain ⟨α, ha⟩ := exists_sub hs [] fun v _ => β v
  exact ⟨α, funext fun v => by simp [ha]⟩

/-- **C55.** Exactly one: likewise. -/
theorem C55_one (hs : Function.Injective sh) (F : CNF V) (hF : Proper F.vars F.clauses) (k : Nat) :
    ∃ H, oneSubst sh F k = pure H ∧ Proper H.vars H.clauses ∧
      (∀ α, Holds H.vars H.clauses α ↔ Holds F.vars F.clauses fun v =>
        decide (nTrue (fun i => α (subName sh "X_".toList v i)) (List.range k) = 1)) ∧
      (1 ≤ k → (Spec.Satisfiable H.clauses ↔ Spec.Satisfiable F.clauses)) := by
  obtain ⟨H, h1, h2, h3, h4⟩ := base_simple F hF (tr := oneLit sh k)
    (fun α v => decide (nTrue (fun i => α (subName sh "X_".toList v i)) (List.range k) = 1)) (by
    intro α v b
    have e : nTrue (fun i => α (subName sh "X_".toList v i)) (List.range k) = nTrue α (subNames sh "X_".toList v k) := by
      rw [subNames, nTrue_map]
    rw [e]
    cases b
    · simp only [oneLit, Bool.false_eq_true, if_false, decide_eq_false_iff_not]
      exact notOne_iff α subNames_nodup
    · simp only [oneLit, if_true, decide_eq_true_eq]
      exact one_iff α _)
  refine ⟨H, h1, h2, h3, fun hk => h4 fun β => ?_⟩
  obtain ⟨α, ha⟩ := exists_sub hs "X_".toList fun v i => decide (i = 0) && β v
  refine ⟨α, funext fun v => ?_⟩
  simp only [ha]
  rw [nTrue_single List.nodup_range (List.mem_range.2 hk)]
  cases β v <;> simp

/-- **C55.** Lifting: the selectors of every variable have exactly one true, and the old formula is true when each variable has the
value selected. -/
theorem C55_lift (hs : Function.Injective sh) (F : CNF V) (hF : Proper F.vars F.clauses) (k : Nat) :
    ∃ H, liftSubst sh F k = pure H ∧ Proper H.vars H.clauses ∧
      (∀ α, Holds H.vars H.clauses α ↔
        (∀ v ∈ F.vars, nTrue (fun i => α (subName sh "Y_".toList v i)) (List.range k) = 1) ∧
        Holds F.vars F.clauses fun v => decide (∃ i < k, α (subName sh "X_".toList v i) = true ∧ α (subName sh "Y_".toList v i) = true)) ∧
      (1 ≤ k → (Spec.Satisfiable H.clauses ↔ Spec.Satisfiable F.clauses)) := by
  have hpre : ∀ (α : Str → Bool) v, AllTrue α (liftPre sh k v) ↔ nTrue (fun i => α (subName sh "Y_".toList v i)) (List.range k) = 1 := by
    intro α v
    rw [liftPre, one_iff, subNames, nTrue_map]
  obtain ⟨H, h1, h2, h3⟩ := baseSubst_ok F hF (pre := liftPre sh k) (tr := liftLit sh k) (nv := none)
    (fun α v => decide (∃ i < k, α (subName sh "X_".toList v i) = true ∧ α (subName sh "Y_".toList v i) = true)) (by simp) (by
    intro α v _ hp b
    rw [hpre] at hp
    obtain ⟨i, hi, hone⟩ := nTrue_eq_one List.nodup_range hp
    simp only [List.mem_range] at hi hone
    simp only [liftLit, allTrue_map, clauseTrue_cons, clauseTrue_nil, or_false, List.mem_range]
    have hone' : ∀ j < k, α (subName sh "Y_".toList v j) = true ↔ j = i := hone
    have e : (∃ j < k, α (subName sh "X_".toList v j) = true ∧ α (subName sh "Y_".toList v j) = true) ↔ α (subName sh "X_".toList v i) = true := by
      constructor
      · rintro ⟨j, hj, hx, hy⟩; rw [(hone' j hj).1 hy] at hx; exact hx
      · intro h; exact ⟨i, hi, h, (hone' i hi).2 rfl⟩
    have e2 : (∀ j < k, α (subName sh "Y_".toList v j) = false ∨ α (subName sh "X_".toList v j) = b) ↔ α (subName sh "X_".toList v i) = b := by
      constructor
      · intro h
        rcases h i hi with h | h
        · have := (hone' i hi).2 rfl; rw [h] at this; exact absurd this (by simp)
        · exact h
      · intro h j hj
        by_cases ej : j = i
        · subst ej; exact .inr h
        · refine .inl ?_
          have := (hone' j hj).not.2 ej
          simpa using this
    rw [e2]
    simp only [e]
    cases b <;> simp)
  have h3' : ∀ α, Holds H.vars H.clauses α ↔
        (∀ v ∈ F.vars, nTrue (fun i => α (subName sh "Y_".toList v i)) (List.range k) = 1) ∧
        Holds F.vars F.clauses fun v => decide (∃ i < k, α (subName sh "X_".toList v i) = true ∧ α (subName sh "Y_".toList v i) = true) := by
    intro α; rw [h3]; simp only [hpre]
  refine ⟨H, h1, h2, h3', fun hk => equisat hF h2 h3' fun β => ?_⟩
  have hinj : Function.Injective fun q : Bool × V × Nat => subName sh (if q.1 then "X_".toList else "Y_".toList) q.2.1 q.2.2 := by
    rintro ⟨b, v, i⟩ ⟨c, w, j⟩ h
    cases b <;> cases c
    · obtain ⟨rfl, rfl⟩ := subName_inj hs h; rfl
    · simp [subName] at h
    · simp [subName] at h
    · obtain ⟨rfl, rfl⟩ := subName_inj hs h; rfl
  obtain ⟨α, ha⟩ := exists_assign hinj fun q => if q.1 then β q.2.1 else decide (q.2.2 = 0)
  have hx : ∀ v i, α (subName sh "X_".toList v i) = β v := fun v i => ha (true, v, i)
  have hy : ∀ v i, α (subName sh "Y_".toList v i) = decide (i = 0) := fun v i => ha (false, v, i)
  refine ⟨α, fun v _ => ?_, funext fun v => ?_⟩
  · simp only [hy]
    have := nTrue_single (l := List.range k) List.nodup_range (List.mem_range.2 hk) true
    simpa using this
  · simp only [hx, hy]
    cases β v <;> simp
    exact hk

omit sh in
/-- **C55.** Flipping the polarity. -/
theorem C55_flip (F : CNF V) (hF : Proper F.vars F.clauses) :
    ∃ H, flipSubst F = pure H ∧ Proper H.vars H.clauses ∧
      (∀ α, Holds H.vars H.clauses α ↔ Holds F.vars F.clauses fun v => !α v) ∧
      (Spec.Satisfiable H.clauses ↔ Spec.Satisfiable F.clauses) := by
  obtain ⟨H, h1, h2, h3, h4⟩ := base_simple F hF (tr := flipLit) (fun α v => !α v) (by
    intro α v b
    simp only [flipLit, allTrue_cons, allTrue_nil, clauseTrue_cons, clauseTrue_nil, or_false, and_true]
    cases b <;> cases α v <;> simp)
  exact ⟨H, h1, h2, h3, h4 fun β => ⟨fun v => !β v, funext fun v => by simp⟩⟩

/-- **C55.** Compression: variable number `j` has the parity (majority) of the new variables at the neighbours of right vertex
number `j`; a graph with another number of right vertices is refused. -/
theorem C55_compression (F : CNF V) (hF : Proper F.vars F.clauses) (g : BiGraph) (xor : Bool) :
    (g.right.length ≠ F.vars.length → compSubst F g xor = raise .valueError) ∧
    (g.right.length = F.vars.length → ∃ H, compSubst F g xor = pure H ∧ Proper H.vars H.clauses ∧
      (∀ w, w ∈ H.vars ↔ ∃ i ∈ g.left, fmt1 "Y".toList i = w) ∧
      ∀ α, Holds H.vars H.clauses α ↔ Holds F.vars F.clauses fun v =>
        if xor then decide (nTrue (fun i => α (fmt1 "Y".toList i)) (g.nbrR (g.right.getD (F.vars.idxOf v) 0)) % 2 = 1)
        else decide (nTrue (fun i => !α (fmt1 "Y".toList i)) (g.nbrR (g.right.getD (F.vars.idxOf v) 0)) ≤
          nTrue (fun i => α (fmt1 "Y".toList i)) (g.nbrR (g.right.getD (F.vars.idxOf v) 0)))) := by
  unfold compSubst
  refine ⟨fun h => by rw [if_pos h], fun h => ?_⟩
  rw [if_neg (by simpa using h)]
  obtain ⟨cs, hc⟩ := hF.coh
  have hk : ∀ v : V, ∀ b, ∀ c ∈ compLit F g xor b v, ∀ l ∈ c, l.2 ∈ g.left.map (fmt1 "Y".toList) := by
    intro v b c hcc l hl
    have : l.2 ∈ (g.nbrR (g.right.getD (F.vars.idxOf v) 0)).map (fmt1 "Y".toList) := by
      unfold compLit at hcc
      cases xor
      · cases b
        · simp only [Bool.false_eq_true, if_false, lessThan] at hcc
          exact (mem_inequality hcc).subset (List.mem_map_of_mem hl)
        · simp only [Bool.false_eq_true, if_false, if_true, greaterOrEqual] at hcc
          exact (mem_inequality hcc).subset (List.mem_map_of_mem hl)
      · simp only [if_true] at hcc
        have := mem_parity hcc
        rw [← this]
        exact List.mem_map_of_mem hl
    obtain ⟨i, hi, e⟩ := List.mem_map.1 this
    rw [← e]
    exact List.mem_map_of_mem (List.mem_filter.1 hi).1
  have hk2 : ∀ vs, some (g.left.map (fmt1 "Y".toList)) = some vs → ∀ v ∈ F.vars, (∀ c ∈ ([] : List (List (Lit Str))), ∀ l ∈ c, l.2 ∈ vs) ∧
      ∀ b, ∀ c ∈ compLit F g xor b v, ∀ l ∈ c, l.2 ∈ vs := by
    rintro vs ⟨⟩ v _
    exact ⟨by simp, hk v⟩
  obtain ⟨H, h1, hcoh, h2⟩ := baseSubst_coh hc (pre := fun _ => []) hk2
  refine ⟨H, h1, hcoh.proper, fun w => by rw [h2]; simp, fun α => ?_⟩
  rw [hcoh.holds, hc.holds, allTrue_substClauses hc.known α (fun v =>
        if xor then decide (nTrue (fun i => α (fmt1 "Y".toList i)) (g.nbrR (g.right.getD (F.vars.idxOf v) 0)) % 2 = 1)
        else decide (nTrue (fun i => !α (fmt1 "Y".toList i)) (g.nbrR (g.right.getD (F.vars.idxOf v) 0)) ≤
          nTrue (fun i => α (fmt1 "Y".toList i)) (g.nbrR (g.right.getD (F.vars.idxOf v) 0))))]
  · simp [allTrue_nil]
  · intro v _ _ b
    have hlen := nFalse (fun i => α (fmt1 "Y".toList i)) (g.nbrR (g.right.getD (F.vars.idxOf v) 0))
    simp only [beq_false] at hlen
    have hlen : nTrue (fun i => !α (fmt1 "Y".toList i)) (g.nbrR (g.right.getD (F.vars.idxOf v) 0)) = _ := hlen
    have hle := nTrue_le (fun i => α (fmt1 "Y".toList i)) (g.nbrR (g.right.getD (F.vars.idxOf v) 0))
    rw [hlen]
    unfold compLit
    cases xor
    · cases b
      · simp only [Bool.false_eq_true, if_false, decide_eq_false_iff_not, C48_less_than, nTrue_map, List.length_map]; omega
      · simp only [Bool.false_eq_true, if_false, if_true, decide_eq_true_eq, C48_greater_or_equal, nTrue_map, List.length_map]; omega
    · simp only [if_true, C48_parity, nTrue_map]
      cases b
      · simp only [Bool.false_eq_true, if_false, decide_eq_false_iff_not]; omega
      · simp only [if_true, decide_eq_true_eq]
end

/-- Beside C55: one clause over two variables, XOR-ified with two copies, comes out as four clauses over four variables. -/
example : (∃ H, xorSubst id ({ vars := ["x".toList, "y".toList], clauses := [[1, -2]] } : CNF Str) 2 = pure H ∧
      H.vars = ["{x}^0".toList, "{x}^1".toList, "{y}^0".toList, "{y}^1".toList] ∧
      H.clauses = [[1, 2, 3, -4], [1, 2, -3, 4], [-1, -2, 3, -4], [-1, -2, -3, 4]]) ∧
    ∃ H, orSubst id ({ vars := ["x".toList, "y".toList], clauses := [[1, -2], [2], [-1]] } : CNF Str) 3 = pure H ∧ ¬ Spec.Satisfiable H.clauses := by
  refine ⟨⟨_, rfl, rfl, rfl⟩, ?_⟩
  obtain ⟨H, h1, _, _, h⟩ := C55_or (sh := id) (fun _ _ e => e) ({ vars := ["x".toList, "y".toList], clauses := [[1, -2], [2], [-1]] } : CNF Str)
    ⟨by decide, by decide⟩ 3
  refine ⟨H, h1, ?_⟩
  rw [h (by decide)]
  rintro ⟨α, ha⟩
  have h1 := ha [1, -2] (by simp)
  have h2 := ha [2] (by simp)
  have h3 := ha [-1] (by simp)
  simp [Spec.litVal] at h1 h2 h3
  simp_all

end NDP.Cnfgen
