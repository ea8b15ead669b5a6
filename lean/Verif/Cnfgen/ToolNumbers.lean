import Verif.Cnfgen.ToolProps
/-
  C81: the numbers of the variables of a transformed formula.
-/
namespace NDP.Cnfgen
open NDP

/-! ### Specification -/

/-- A substitution with a block of new variables for every variable. -/
def Trans.IsSubst : Trans → Prop
  | .comp .. | .shuffle .. => False
  | _ => True

/-- The length of a block. -/
def Trans.width : Trans → Nat
  | .ite => 3
  | .or n | .xor n | .eq n | .neq n | .maj n | .one n => n.toNat
  | .lift n => 2 * n.toNat
  | _ => 1

/-- The value of a variable, from the values of its block. -/
def Trans.value (β : Nat → Bool) : Trans → Bool
  | .flip => !β 0
  | .ite => if β 0 then β 1 else β 2
  | .or n => decide (∃ j < n.toNat, β j = true)
  | .xor n => decide (nTrue β (List.range n.toNat) % 2 = 1)
  | .eq n => decide (∀ i < n.toNat, ∀ j < n.toNat, β i = β j)
  | .neq n => decide (∃ i < n.toNat, ∃ j < n.toNat, β i ≠ β j)
  | .maj n => decide (nTrue (fun j => !β j) (List.range n.toNat) ≤ nTrue β (List.range n.toNat))
  | .one n => decide (nTrue β (List.range n.toNat) = 1)
  | .lift n => decide (∃ j < n.toNat, β j = true ∧ β (n.toNat + j) = true)
  | _ => β 0

/-- A condition on the values of a block: exactly one selector of a lifting is true. -/
def Trans.side (β : Nat → Bool) : Trans → Prop
  | .lift n => nTrue β (List.range n.toNat) = 1
  | _ => True

/-! ### The names of a block, in order -/

section
variable {A : Type} [DecidableEq A]

theorem firsts_prefix {l r : List A} (hl : l.Nodup) (hr : ∀ x ∈ r, x ∈ l) : firsts (l ++ r) = l := by
  rw [firsts_append, firsts_of_nodup hl, List.filter_eq_nil_iff.2, List.append_nil]
  intro x hx
  simp [hr x (mem_firsts.1 hx)]

theorem firsts_more {L r l : List A} (h : firsts L = l) (hr : ∀ x ∈ r, x ∈ l) : firsts (L ++ r) = l := by
  rw [firsts_append, h, List.filter_eq_nil_iff.2, List.append_nil]
  intro x hx
  have := hr x (mem_firsts.1 hx)
  rw [← h, mem_firsts] at this
  simp [this]

theorem firsts_filter (p : A → Bool) : ∀ l : List A, (firsts l).filter p = firsts (l.filter p)
  | [] => rfl
  | x :: l => by
    rw [firsts, List.filter_cons, List.filter_cons]
    have e : ((firsts l).filter fun y => decide (y ≠ x)).filter p = ((firsts l).filter p).filter fun y => decide (y ≠ x) := by
      rw [List.filter_filter, List.filter_filter]
      exact List.filter_congr fun y _ => Bool.and_comm _ _
    rw [e, firsts_filter p l]
    cases hp : p x
    · simp only [Bool.false_eq_true, if_false]
      refine List.filter_eq_self.2 fun y hy => ?_
      rw [mem_firsts, List.mem_filter] at hy
      simp only [decide_eq_true_eq]
      rintro rfl
      simp [hp] at hy
    · simp only [if_true]
      rfl

theorem firsts_cons (x : A) (l : List A) : firsts (x :: l) = x :: firsts (l.filter fun y => decide (y ≠ x)) := by
  rw [firsts, firsts_filter]

theorem filter_blocks (x : A) (l : List (List A)) : (l.flatMap (x :: ·)).filter (fun y => decide (y ≠ x)) = (l.flatMap id).filter fun y => decide (y ≠ x) := by
  induction l with
  | nil => rfl
  | cons a l ih => rw [List.flatMap_cons, List.flatMap_cons, List.filter_append, List.filter_append, ih, List.filter_cons_of_neg (by simp)]; rfl

/-- The combinations mention the elements in order. -/
theorem firsts_combinations : ∀ (l : List A) (k : Nat), l.Nodup → k + 1 ≤ l.length → firsts ((combinations l (k + 1)).flatMap id) = l
  | [], k, _, h => by simp at h
  | x :: l, k, hn, h => by
    rw [List.nodup_cons] at hn
    have hk : k ≤ l.length := by simpa using h
    rw [combinations, List.flatMap_append, List.flatMap_map]
    have hsub : ∀ j, ∀ y ∈ (combinations l j).flatMap id, y ∈ l := by
      intro j y hy
      obtain ⟨c, hc, hy⟩ := List.mem_flatMap.1 hy
      exact (mem_combinations.1 hc).1.subset hy
    have hself : ∀ j, ((combinations l j).flatMap id).filter (fun y => decide (y ≠ x)) = (combinations l j).flatMap id := by
      intro j
      refine List.filter_eq_self.2 fun y hy => ?_
      simp only [decide_eq_true_eq]
      rintro rfl
      exact hn.1 (hsub j _ hy)
    have hhead : ∃ r, (combinations l k).flatMap (fun a => id (x :: a)) = x :: r := by
      obtain ⟨c, cs, hc⟩ : ∃ c cs, combinations l k = c :: cs := by
        cases hc : combinations l k with
        | nil =>
          have : l.take k ∈ combinations l k := mem_combinations.2 ⟨List.take_sublist _ _, by simp [hk]⟩
          rw [hc] at this; cases this
        | cons c cs => exact ⟨c, cs, rfl⟩
      exact ⟨_, by rw [hc, List.flatMap_cons]; rfl⟩
    obtain ⟨r, hr⟩ := hhead
    have hfr : r.filter (fun y => decide (y ≠ x)) = (combinations l k).flatMap id := by
      rw [← hself k, ← filter_blocks, show (combinations l k).flatMap (x :: ·) = x :: r from hr, List.filter_cons_of_neg (by simp)]
    rw [hr, List.cons_append, firsts_cons, List.filter_append, hfr, hself]
    congr 1
    cases k with
    | zero =>
      have : combinations l 0 = [[]] := by cases l <;> rfl
      rw [this]
      simp only [List.flatMap_cons, List.flatMap_nil, id, List.nil_append]
      cases l with
      | nil => rfl
      | cons y l => exact firsts_combinations (y :: l) 0 hn.2 (by simp)
    | succ k =>
      exact firsts_more (firsts_combinations l k hn.2 hk) fun y hy => hsub _ y hy

theorem flatMap_pairs (x : A) (l : List A) (hx : x ∉ l) : (l.flatMap fun y => [x, y]).filter (fun y => decide (y ≠ x)) = l := by
  induction l with
  | nil => rfl
  | cons y l ih =>
    have hy : y ≠ x := fun h => hx (by simp [h])
    rw [List.flatMap_cons, List.filter_append, ih fun h => hx (by simp [h])]
    simp [hy]

/-- The pairs mention the elements in order, if there are at least two. -/
theorem firsts_permPairs (x y : A) (l : List A) (hn : (x :: y :: l).Nodup) :
    firsts ((permPairs (x :: y :: l)).flatMap fun p => [p.1, p.2]) = x :: y :: l := by
  have e : (permPairs (x :: y :: l)).flatMap (fun p => [p.1, p.2]) = ((y :: l).flatMap fun z => [x, z]) ++
      (((picks (y :: l)).map fun p => (p.1, x :: p.2)).flatMap fun p => p.2.map fun z => (p.1, z)).flatMap fun p => [p.1, p.2] := by
    rw [permPairs, picks, List.flatMap_cons, List.flatMap_append, List.flatMap_map]
  have hmem : ∀ z ∈ (permPairs (x :: y :: l)).flatMap (fun p => [p.1, p.2]), z ∈ x :: y :: l := by
    intro z hz
    obtain ⟨⟨a, b⟩, hp, hz⟩ := List.mem_flatMap.1 hz
    have := (mem_permPairs hn).1 hp
    simp only [List.mem_cons, List.not_mem_nil, or_false] at hz
    rcases hz with rfl | rfl
    · exact this.1
    · exact this.2.1
  rw [e] at hmem ⊢
  refine firsts_more ?_ fun z hz => hmem z (List.mem_append.2 (.inr hz))
  have hx := (List.nodup_cons.1 hn).1
  have e2 : ((y :: l).flatMap fun z => [x, z]) = x :: (y :: l.flatMap fun z => [x, z]) := rfl
  have e3 := flatMap_pairs x (y :: l) hx
  rw [e2, List.filter_cons_of_neg (by simp)] at e3
  rw [e2, firsts_cons, e3, firsts_of_nodup (List.nodup_cons.1 hn).2]
end

theorem copies_nodup (p : Str) (k : Nat) : (copies p k).Nodup :=
  List.Nodup.map (fun a b h => by simpa using h) List.nodup_range

theorem length_copies (p : Str) (k : Nat) : (copies p k).length = k := by simp [copies]

theorem mem_copies {p : Str} {k : Nat} {q : Str × Nat} : q ∈ copies p k ↔ q.1 = p ∧ q.2 < k := by
  obtain ⟨a, b⟩ := q
  simp only [copies, List.mem_map, List.mem_range, Prod.mk.injEq]
  constructor
  · rintro ⟨j, h, rfl, rfl⟩; exact ⟨rfl, h⟩
  · rintro ⟨rfl, h⟩; exact ⟨b, h, rfl, rfl⟩

theorem idxOf_copies {p : Str} {k j : Nat} (h : j < k) : (copies p k).idxOf (p, j) = j := by
  have h1 : j < (copies p k).length := by rw [length_copies]; exact h
  have := (copies_nodup p k).idxOf_getElem j h1
  have e : (copies p k)[j] = (p, j) := by simp [copies]
  rwa [e] at this

theorem names_or (k : Nat) : gnames [] (orG k true) (orG k false) = copies [] k := by
  unfold gnames orG
  simp only [if_true, Bool.false_eq_true, if_false, List.nil_append, List.flatMap_append, List.flatMap_cons, List.flatMap_nil, List.append_nil, List.map_map]
  rw [show (copies [] k).map (Prod.snd ∘ fun n => (true, n)) = copies [] k by simp [Function.comp_def]]
  refine firsts_prefix (copies_nodup _ _) fun x hx => ?_
  rw [List.flatMap_map] at hx
  simpa using hx

theorem names_xor (k : Nat) : gnames [] (xorG k true) (xorG k false) = copies [] k := by
  unfold gnames
  have hmem : ∀ b, ∀ x ∈ (xorG k b).flatMap (fun c => c.map Prod.snd), x ∈ copies [] k := by
    intro b x hx
    obtain ⟨c, hc, hx⟩ := List.mem_flatMap.1 hx
    rwa [mem_parity hc] at hx
  rw [List.nil_append, List.flatMap_append]
  refine firsts_more ?_ (hmem false)
  cases hp : xorG k true with
  | nil =>
    exfalso
    have := (C48_parity (fun _ => false) (copies [] k) 1).1 (by
      have : parityConstraint (copies [] k) 1 = [] := hp
      rw [this]; exact allTrue_nil _)
    simp [nTrue] at this
  | cons c cs =>
    have hm := hmem true
    rw [hp, List.flatMap_cons] at hm
    have hc : c.map Prod.snd = copies [] k := mem_parity (k := 1) (by
      have : c ∈ xorG k true := by rw [hp]; simp
      exact this)
    rw [List.flatMap_cons, hc] at *
    exact firsts_prefix (copies_nodup _ _) fun x hx => hm x (List.mem_append.2 (.inr hx))

theorem names_maj (k : Nat) : gnames [] (majG k true) (majG k false) = copies [] k := by
  unfold gnames
  have hmem : ∀ b, ∀ x ∈ (majG k b).flatMap (fun c => c.map Prod.snd), x ∈ copies [] k := by
    intro b x hx
    obtain ⟨c, hc, hx'⟩ := List.mem_flatMap.1 hx
    unfold majG greaterOrEqual lessThan at hc
    cases b
    · simp only [Bool.false_eq_true, if_false] at hc; exact (mem_inequality hc).subset hx'
    · simp only [if_true] at hc; exact (mem_inequality hc).subset hx'
  rw [List.nil_append, List.flatMap_append]
  refine firsts_more ?_ (hmem false)
  cases k with
  | zero => rfl
  | succ k =>
    have e : majG (k + 1) true = (combinations (copies [] (k + 1)) ((k + 1) / 2 + 1)).map fun tpl => tpl.map fun v => (true, v) := by
      unfold majG greaterOrEqual inequality
      simp only [if_true, length_copies]
      rw [if_neg (show ¬ (((k + 1 : Nat) : Int) - ((((k + 1 + 1) / 2 : Nat) : Int) - 1) > ((k + 1 : Nat) : Int)) by omega),
        if_neg (show ¬ (((k + 1 : Nat) : Int) - ((((k + 1 + 1) / 2 : Nat) : Int) - 1) < 0) by omega)]
      congr 2
      omega
    rw [e, List.flatMap_map]
    have e2 : (fun a : List (Str × Nat) => List.map Prod.snd (List.map (fun v => (true, v)) a)) = id := by
      funext a; simp [Function.comp_def]
    rw [e2]
    exact firsts_combinations _ _ (copies_nodup _ _) (by rw [length_copies]; omega)

theorem names_eq (k : Nat) : gnames [] (eqG k true) (eqG k false) = copies [] k := by
  unfold gnames
  have hf : (eqG k false).flatMap (fun c => c.map Prod.snd) = copies [] k ++ copies [] k := by
    unfold eqG; simp [Function.comp_def]
  have ht : (eqG k true).flatMap (fun c => c.map Prod.snd) = (permPairs (copies [] k)).flatMap fun p => [p.1, p.2] := by
    unfold eqG
    simp only [if_true, List.flatMap_map]
    rfl
  rw [List.nil_append, List.flatMap_append, hf, ht]
  cases hc : copies [] k with
  | nil => rfl
  | cons x l =>
    cases l with
    | nil => simp [permPairs, picks, firsts]
    | cons y l =>
      refine firsts_more (firsts_permPairs x y l (hc ▸ copies_nodup _ _)) fun z hz => ?_
      rcases List.mem_append.1 hz with hz | hz <;> exact hz

theorem names_neq (k : Nat) : gnames [] (eqG k (!true)) (eqG k (!false)) = copies [] k := by
  unfold gnames
  have hf : (eqG k (!true)).flatMap (fun c => c.map Prod.snd) = copies [] k ++ copies [] k := by
    unfold eqG; simp [Function.comp_def]
  rw [List.nil_append, List.flatMap_append, hf, List.append_assoc]
  refine firsts_prefix (copies_nodup _ _) fun x hx => ?_
  rcases List.mem_append.1 hx with hx | hx
  · exact hx
  · obtain ⟨c, hc, hx⟩ := List.mem_flatMap.1 hx
    unfold eqG at hc
    simp only [Bool.not_false, if_true] at hc
    obtain ⟨⟨a, b⟩, hp, rfl⟩ := List.mem_map.1 hc
    have := (mem_permPairs (copies_nodup [] k)).1 hp
    simp only [List.map_cons, List.map_nil, List.mem_cons, List.not_mem_nil, or_false] at hx
    rcases hx with rfl | rfl
    · exact this.1
    · exact this.2.1

theorem names_ite : gnames [] (iteG true) (iteG false) = copies [] 3 := by decide

theorem names_one (k : Nat) : gnames [] (oneG k true) (oneG k false) = copies "X_".toList k := by
  unfold gnames
  have ht : (oneG k true).flatMap (fun c => c.map Prod.snd) = copies "X_".toList k ++ (pairs (copies "X_".toList k)).flatMap fun p => [p.1, p.2] := by
    unfold oneG
    simp only [if_true, List.flatMap_cons, List.map_map, List.flatMap_map]
    rw [show (copies "X_".toList k).map (Prod.snd ∘ fun n => (true, n)) = copies "X_".toList k by simp [Function.comp_def]]
    rfl
  rw [List.nil_append, List.flatMap_append, ht, List.append_assoc]
  refine firsts_prefix (copies_nodup _ _) fun x hx => ?_
  rcases List.mem_append.1 hx with hx | hx
  · obtain ⟨⟨a, b⟩, hp, hx⟩ := List.mem_flatMap.1 hx
    have := (mem_pairs.1 hp).subset
    simp only [List.mem_cons, List.not_mem_nil, or_false] at hx
    rcases hx with rfl | rfl <;> exact this (by simp)
  · obtain ⟨c, hc, hx⟩ := List.mem_flatMap.1 hx
    unfold oneG at hc
    simp only [Bool.false_eq_true, if_false] at hc
    obtain ⟨n, hn, rfl⟩ := List.mem_map.1 hc
    simp only [List.map_cons, List.mem_cons, List.map_map, List.mem_map, List.mem_filter] at hx
    rcases hx with rfl | ⟨o, ho, rfl⟩
    · exact hn
    · exact ho.1

theorem names_lift (k : Nat) : gnames (liftPreG k) (liftG k true) (liftG k false) = copies "Y_".toList k ++ copies "X_".toList k := by
  unfold gnames
  have hp : (liftPreG k).flatMap (fun c => c.map Prod.snd) = copies "Y_".toList k ++ (pairs (copies "Y_".toList k)).flatMap fun p => [p.1, p.2] := by
    unfold liftPreG
    simp only [List.flatMap_cons, List.map_map, List.flatMap_map]
    rw [show (copies "Y_".toList k).map (Prod.snd ∘ fun n => (true, n)) = copies "Y_".toList k by simp [Function.comp_def]]
    rfl
  have hpm : ∀ x ∈ (pairs (copies "Y_".toList k)).flatMap (fun p => [p.1, p.2]), x ∈ copies "Y_".toList k := by
    intro x hx
    obtain ⟨⟨a, b⟩, hp, hx⟩ := List.mem_flatMap.1 hx
    have := (mem_pairs.1 hp).subset
    simp only [List.mem_cons, List.not_mem_nil, or_false] at hx
    rcases hx with rfl | rfl <;> exact this (by simp)
  have hl : ∀ b, (liftG k b).flatMap (fun c => c.map Prod.snd) = (List.range k).flatMap fun i => [("Y_".toList, i), ("X_".toList, i)] := by
    intro b; unfold liftG; rw [List.flatMap_map]; rfl
  have hY : ∀ q : Str × Nat, q ∈ (liftPreG k).flatMap (fun c => c.map Prod.snd) ↔ q.1 = "Y_".toList ∧ q.2 < k := by
    intro q
    rw [hp, List.mem_append, ← mem_copies]
    exact ⟨fun h => h.elim id (hpm q), .inl⟩
  rw [List.append_assoc, List.flatMap_append, firsts_append, firsts_filter]
  congr 1
  · rw [hp]; exact firsts_prefix (copies_nodup _ _) hpm
  · have hf : ∀ m, (((List.range m).flatMap fun i => [("Y_".toList, i), ("X_".toList, i)]).filter fun q => decide (q.1 ≠ "Y_".toList)) = copies "X_".toList m := by
      intro m
      induction m with
      | zero => rfl
      | succ m ih =>
        rw [List.range_succ, List.flatMap_append, List.filter_append, ih, List.flatMap_cons, List.flatMap_nil, List.append_nil,
          List.filter_cons_of_neg (by simp), List.filter_cons_of_pos (by simp)]
        simp [copies, List.range_succ]
    rw [List.filter_congr (q := fun q => decide (q.1 ≠ "Y_".toList)) ?_]
    · rw [List.flatMap_append, List.filter_append, hl, hl, hf k]
      exact firsts_prefix (copies_nodup _ _) fun x hx => hx
    · intro q hq
      have hlt : q.2 < k := by
        rw [List.flatMap_append, hl, hl] at hq
        have : q ∈ (List.range k).flatMap fun i => [("Y_".toList, i), ("X_".toList, i)] := by
          rcases List.mem_append.1 hq with hq | hq <;> exact hq
        obtain ⟨i, hi, hq⟩ := List.mem_flatMap.1 this
        simp only [List.mem_cons, List.not_mem_nil, or_false] at hq
        rw [List.mem_range] at hi
        rcases hq with rfl | rfl <;> exact hi
      rw [decide_eq_decide, hY]
      exact ⟨fun h h' => h ⟨h', hlt⟩, fun h h' => h h'.1⟩

/-! ### From names to numbers -/

section
variable {V : Type} [DecidableEq V]

omit [DecidableEq V] in
/-- Values of the numbers and of the names. -/
theorem holds_iff_sat {vs : List V} {cs : List (List Int)} (h : Cnfgen.Proper vs cs) {α : V → Bool} {τ : Nat → Bool}
    (he : ∀ i (hi : i < vs.length), τ (i + 1) = α vs[i]) : Holds vs cs α ↔ Spec.Sat τ cs := by
  refine forall_congr' fun c => forall_congr' fun hc => exists_congr fun l => and_congr_right fun hl => ?_
  obtain ⟨h1, h2⟩ := h.2 c hc l hl
  have hlt : l.natAbs - 1 < vs.length := by omega
  have hτ := he _ hlt
  rw [Nat.sub_add_cancel h1] at hτ
  rw [List.getElem?_eq_getElem hlt]
  unfold Spec.litVal
  rw [hτ]
  constructor
  · rintro ⟨v, h0, hv, hα⟩
    obtain rfl := Option.some.inj hv
    rw [hα]
    by_cases hn : l < 0
    · rw [if_pos hn]; simp; omega
    · rw [if_neg hn]; simp; omega
  · intro hv
    refine ⟨_, by omega, rfl, ?_⟩
    by_cases hn : l < 0
    · rw [if_pos hn] at hv
      rw [show decide (0 < l) = false by simp; omega]
      simpa using hv
    · rw [if_neg hn] at hv
      rw [hv]; symm; simp; omega

theorem subst_vars {sh : V → Str} (hs : Function.Injective sh) {F : CNF V} (hF : Cnfgen.Proper F.vars F.clauses) {pre : V → List (List (Lit Str))}
    {tr : Bool → V → List (List (Lit Str))} {preG : List (List (Lit (Str × Nat)))} {g : Bool → List (List (Lit (Str × Nat)))}
    (hp : ∀ v, pre v = gmap (copyName sh v) preG) (ht : ∀ b v, tr b v = gmap (copyName sh v) (g b)) (h1 : Named preG) (h2 : ∀ b, Named (g b))
    {H : CNF Str} (hH : baseSubst F pre tr none = pure H) {U : List (Str × Nat)} (hU : gnames preG (g true) (g false) = U) :
    H.vars.length = U.length * F.vars.length ∧ ∀ i (hi : i < F.vars.length), ∀ q ∈ U, H.vars.idxOf (copyName sh F.vars[i] q) = U.length * i + U.idxOf q := by
  rw [subst_closed hs hF hp ht h1 h2] at hH
  have hH := (M.pure_inj _ _).1 hH
  rw [← hH]
  unfold closed
  simp only []
  have hn : ∀ q ∈ U, Pfx q := by rw [← hU]; exact named_gnames h1 (h2 true) (h2 false)
  rw [hU]
  refine ⟨length_blocks _ _ _, fun i hi q hq => ?_⟩
  have hidx := idxOf_blocks (L := U) (nm := copyName sh) (vs := F.vars) (fun v _ w _ q hq r hr e => copyName_inj hs (hn q hq) (hn r hr) e)
    F.vars[i] (List.getElem_mem _) q hq
  rw [hF.1.idxOf_getElem i hi] at hidx
  convert hidx

/-- The values of the names, given values of the numbers. -/
def byNumber (H : CNF Str) (τ : Nat → Bool) (w : Str) : Bool := τ (H.vars.idxOf w + 1)

theorem byNumber_sat {H : CNF Str} (hH : Cnfgen.Proper H.vars H.clauses) (τ : Nat → Bool) : Holds H.vars H.clauses (byNumber H τ) ↔ Spec.Sat τ H.clauses :=
  holds_iff_sat hH fun i hi => by rw [byNumber, hH.1.idxOf_getElem i hi]

theorem nTrue_congr {A : Type} {α β : A → Bool} {l : List A} (h : ∀ x ∈ l, α x = β x) : nTrue α l = nTrue β l := by
  unfold nTrue; rw [List.filter_congr h]

/-- **C81.** The numbers: in the formula made by a substitution, the block of variable number `i+1` is `width*i+1, …, width*(i+1)`, and an assignment of
the new variables satisfies it exactly if the old formula is satisfied when each old variable has the value computed from its block (and, for the
lifting, each block selects exactly one). -/
theorem C81_numbers {sh : V → Str} (hs : Function.Injective sh) {F : CNF V} (hF : Cnfgen.Proper F.vars F.clauses) (T : Trans) (hT : T.IsSubst) :
    ∃ A, T.run sh F = pure (some A) ∧ AnyProper A ∧ anyVars A = T.width * F.vars.length ∧ ∀ τ : Nat → Bool, Spec.Sat τ (anyClauses A) ↔
      (∀ i < F.vars.length, T.side fun j => τ (T.width * i + j + 1)) ∧ Spec.Sat (fun v => T.value fun j => τ (T.width * (v - 1) + j + 1)) F.clauses := by
  have put : ∀ {m : M (CNF Str)} {H : CNF Str}, m = pure H → (do pure (some (Sum.inr (← m))) : M (Option (CNF V ⊕ CNF Str))) = pure (some (.inr H)) := same_pure
  have putl : ∀ {m : M (CNF V)} {H : CNF V}, m = pure H → (do pure (some (Sum.inl (← m))) : M (Option (CNF V ⊕ CNF Str))) = pure (some (.inl H)) := by
    intro m H h; rw [h, M.pure_bind]
  -- one kind of copies
  have simple : ∀ {p : Str} {k : Nat} {tr : Bool → V → List (List (Lit Str))} {g : Bool → List (List (Lit (Str × Nat)))} {H : CNF Str},
      (∀ b v, tr b v = gmap (copyName sh v) (g b)) → (∀ b, Named (g b)) → baseSubst F (fun _ => []) tr none = pure H →
      gnames [] (g true) (g false) = copies p k → Cnfgen.Proper H.vars H.clauses →
      ∀ (val : (Nat → Bool) → Bool) (φ : (Str → Bool) → V → Bool), (∀ α, Holds H.vars H.clauses α ↔ Holds F.vars F.clauses (φ α)) →
      (∀ α v (β : Nat → Bool), (∀ j < k, α (subName sh p v j) = β j) → φ α v = val β) →
      H.vars.length = k * F.vars.length ∧ ∀ τ : Nat → Bool, Spec.Sat τ H.clauses ↔ Spec.Sat (fun v => val fun j => τ (k * (v - 1) + j + 1)) F.clauses := by
    intro p k tr g H h2 h4 hH hU hp val φ hφ hv
    obtain ⟨e1, e2⟩ := subst_vars hs hF (pre := fun _ => []) (preG := []) (fun _ => rfl) h2 (by intro c hc; cases hc) h4 hH hU
    rw [length_copies] at e1 e2
    refine ⟨e1, fun τ => ?_⟩
    rw [← byNumber_sat hp, hφ]
    refine holds_iff_sat hF fun i hi => (hv _ _ _ fun j hj => ?_).symm
    unfold byNumber
    have := e2 i hi (p, j) (mem_copies.2 ⟨rfl, hj⟩)
    rw [idxOf_copies hj] at this
    simp only [copyName] at this
    rw [Nat.add_sub_cancel, ← this]
  cases T with
  | none =>
    refine ⟨.inl F, rfl, hF, by simp [Trans.width, anyVars], fun τ => ?_⟩
    simp only [Trans.side, Trans.value, Trans.width, anyClauses, implies_true, true_and, one_mul]
    rw [← holds_iff_sat hF (α := fun v => τ (F.vars.idxOf v + 1)) (τ := τ) (fun i hi => by rw [hF.1.idxOf_getElem i hi])]
    exact holds_iff_sat hF fun i hi => by rw [hF.1.idxOf_getElem i hi]; rfl
  | flip =>
    obtain ⟨H, e1, p1, hφ, _⟩ := C55_flip F hF
    have hv : H.vars = F.vars := by
      rw [flip_closed hF] at e1
      rw [← (M.pure_inj _ _).1 e1]
    refine ⟨.inl H, putl e1, p1, by simp [Trans.width, anyVars, hv], fun τ => ?_⟩
    simp only [Trans.side, Trans.value, Trans.width, anyClauses, implies_true, true_and, one_mul]
    rw [← holds_iff_sat p1 (α := fun v => τ (H.vars.idxOf v + 1)) (τ := τ) (fun i hi => by rw [p1.1.idxOf_getElem i hi]), hφ]
    exact holds_iff_sat hF fun i hi => by rw [hv, hF.1.idxOf_getElem i hi]; rfl
  | ite =>
    obtain ⟨H, e1, p1, hφ, _⟩ := C55_ite hs F hF
    obtain ⟨k1, k2⟩ := simple (iteLit_eq sh) named_ite e1 names_ite p1 (fun β => Trans.value β .ite) _ hφ (by
      intro α v β h
      simp only [Trans.value, h 0 (by decide), h 1 (by decide), h 2 (by decide)])
    exact ⟨.inr H, put e1, p1, k1, fun τ => (k2 τ).trans (by simp [Trans.side, Trans.width])⟩
  | or n =>
    obtain ⟨H, e1, p1, hφ, _⟩ := C55_or hs F hF n.toNat
    obtain ⟨k1, k2⟩ := simple (orLit_eq sh _) (named_or _) e1 (names_or _) p1 (fun β => Trans.value β (.or n)) _ hφ (by
      intro α v β h
      simp only [Trans.value, decide_eq_decide]
      exact exists_congr fun j => and_congr_right fun hj => by rw [h j hj])
    exact ⟨.inr H, put e1, p1, k1, fun τ => (k2 τ).trans (by simp [Trans.side, Trans.width])⟩
  | xor n =>
    obtain ⟨H, e1, p1, hφ, _⟩ := C55_xor hs F hF n.toNat
    obtain ⟨k1, k2⟩ := simple (xorLit_eq sh _) (named_xor _) e1 (names_xor _) p1 (fun β => Trans.value β (.xor n)) _ hφ (by
      intro α v β h
      simp only [Trans.value]
      rw [nTrue_congr (β := β) fun j hj => h j (List.mem_range.1 hj)])
    exact ⟨.inr H, put e1, p1, k1, fun τ => (k2 τ).trans (by simp [Trans.side, Trans.width])⟩
  | eq n =>
    obtain ⟨H, e1, p1, hφ, _⟩ := C55_all_equal hs F hF n.toNat
    obtain ⟨k1, k2⟩ := simple (eqLit_eq sh _) (named_eq _) e1 (names_eq _) p1 (fun β => Trans.value β (.eq n)) _ hφ (by
      intro α v β h
      simp only [Trans.value, decide_eq_decide]
      exact forall_congr' fun i => forall_congr' fun hi => forall_congr' fun j => forall_congr' fun hj => by rw [h i hi, h j hj])
    exact ⟨.inr H, put e1, p1, k1, fun τ => (k2 τ).trans (by simp [Trans.side, Trans.width])⟩
  | neq n =>
    obtain ⟨H, e1, p1, hφ, _⟩ := C55_not_all_equal hs F hF n.toNat
    obtain ⟨k1, k2⟩ := simple (g := fun b => eqG n.toNat (!b)) (fun b v => eqLit_eq sh _ _ v) (fun b => named_eq _ _) e1 (names_neq _) p1 (fun β => Trans.value β (.neq n)) _ hφ (by
      intro α v β h
      simp only [Trans.value, decide_eq_decide]
      exact exists_congr fun i => and_congr_right fun hi => exists_congr fun j => and_congr_right fun hj => by rw [h i hi, h j hj])
    exact ⟨.inr H, put e1, p1, k1, fun τ => (k2 τ).trans (by simp [Trans.side, Trans.width])⟩
  | maj n =>
    obtain ⟨H, e1, p1, hφ, _⟩ := C55_maj hs F hF n.toNat
    obtain ⟨k1, k2⟩ := simple (majLit_eq sh _) (named_maj _) e1 (names_maj _) p1 (fun β => Trans.value β (.maj n)) _ hφ (by
      intro α v β h
      simp only [Trans.value]
      rw [nTrue_congr (β := β) fun j hj => h j (List.mem_range.1 hj),
        nTrue_congr (β := fun j => !β j) fun j hj => by rw [h j (List.mem_range.1 hj)]])
    exact ⟨.inr H, put e1, p1, k1, fun τ => (k2 τ).trans (by simp [Trans.side, Trans.width])⟩
  | one n =>
    obtain ⟨H, e1, p1, hφ, _⟩ := C55_one hs F hF n.toNat
    obtain ⟨k1, k2⟩ := simple (oneLit_eq sh _) (named_one _) e1 (names_one _) p1 (fun β => Trans.value β (.one n)) _ hφ (by
      intro α v β h
      simp only [Trans.value]
      rw [nTrue_congr (β := β) fun j hj => h j (List.mem_range.1 hj)])
    exact ⟨.inr H, put e1, p1, k1, fun τ => (k2 τ).trans (by simp [Trans.side, Trans.width])⟩
  | lift n =>
    obtain ⟨H, e1, p1, hφ, _⟩ := C55_lift hs F hF n.toNat
    obtain ⟨k1, k2⟩ := subst_vars hs hF (liftPre_eq sh _) (liftLit_eq sh _) (named_liftPre _) (named_lift _) e1 (names_lift n.toNat)
    rw [List.length_append, length_copies, length_copies, ← two_mul] at k1 k2
    refine ⟨.inr H, put e1, p1, k1, fun τ => ?_⟩
    have hY : ∀ i (hi : i < F.vars.length), ∀ j < n.toNat, byNumber H τ (subName sh "Y_".toList F.vars[i] j) = τ (2 * n.toNat * i + j + 1) := by
      intro i hi j hj
      have hm : (("Y_".toList, j) : Str × Nat) ∈ copies "Y_".toList n.toNat := mem_copies.2 ⟨rfl, hj⟩
      have := k2 i hi ("Y_".toList, j) (List.mem_append.2 (.inl hm))
      rw [List.idxOf_append_of_mem hm, idxOf_copies hj] at this
      unfold byNumber
      rw [← this]
      rfl
    have hX : ∀ i (hi : i < F.vars.length), ∀ j < n.toNat, byNumber H τ (subName sh "X_".toList F.vars[i] j) = τ (2 * n.toNat * i + (n.toNat + j) + 1) := by
      intro i hi j hj
      have hm : (("X_".toList, j) : Str × Nat) ∉ copies "Y_".toList n.toNat := fun h => absurd (mem_copies.1 h).1 (by simp)
      have := k2 i hi ("X_".toList, j) (List.mem_append.2 (.inr (mem_copies.2 ⟨rfl, hj⟩)))
      rw [List.idxOf_append_of_notMem hm, length_copies, idxOf_copies hj] at this
      unfold byNumber
      rw [← this]
      rfl
    show Spec.Sat τ H.clauses ↔ _
    rw [← byNumber_sat p1, hφ]
    refine and_congr ?_ (holds_iff_sat hF fun i hi => ?_)
    · constructor
      · intro h i hi
        have := h F.vars[i] (List.getElem_mem _)
        rw [nTrue_congr (β := fun j => τ (2 * n.toNat * i + j + 1)) fun j hj => hY i hi j (List.mem_range.1 hj)] at this
        exact this
      · intro h v hv
        obtain ⟨i, hi, rfl⟩ := List.getElem_of_mem hv
        rw [nTrue_congr (β := fun j => τ (2 * n.toNat * i + j + 1)) fun j hj => hY i hi j (List.mem_range.1 hj)]
        exact h i hi
    · simp only [Trans.value, Trans.width, decide_eq_decide, Nat.add_sub_cancel]
      exact exists_congr fun j => and_congr_right fun hj => by rw [hY i hi j hj, hX i hi j hj, and_comm]
  | comp x B => exact hT.elim
  | shuffle p v c vs cs s => exact hT.elim

/-- **C81.** What `dimacstransform` prints, in numbers. -/
theorem C81_dimacstransform (verbose : Bool) {text h : Str} {F : CNF Nat} (e : dimacs2cnf text = pure (h, F))
    (hr : ∀ c ∈ F.clauses, ∀ l ∈ c, l.natAbs ≤ F.vars.length) (T : Trans) (hT : T.IsSubst) :
    ∃ out cs, dimacstransform verbose (.stdin text) .text (some T) = pure (some out) ∧ Prints out (T.width * F.vars.length) cs ∧
      ∀ τ : Nat → Bool, Spec.Sat τ cs ↔ (∀ i < F.vars.length, T.side fun j => τ (T.width * i + j + 1)) ∧
        Spec.Sat (fun v => T.value fun j => τ (T.width * (v - 1) + j + 1)) F.clauses := by
  obtain ⟨n, cs, _, hv, hc, hp, _⟩ := C70_reader_range e
  have hF : Cnfgen.Proper F.vars F.clauses := by
    refine hp fun c hc' l hl => ?_
    have := hr c (hc ▸ hc') l hl
    rwa [hv, length_oneTo] at this
  obtain ⟨A, k1, k2, k3, k4⟩ := C81_numbers (sh := natStr) (fun _ _ h => natStr_injective h) hF T hT
  obtain ⟨t, ht, hP⟩ := doc_prints verbose none (⟨T.title ++ h, A⟩ : Doc Nat) k2
  refine ⟨_, _, ?_, by rw [← k3]; exact hP, k4⟩
  unfold dimacstransform
  simp only [Input.open]
  rw [e, M.pure_bind]
  simp only [Doc.apply]
  rw [k1, M.pure_bind]
  simp only [Option.map_some]
  rw [M.pure_bind]
  simp only []
  rw [ht, M.pure_bind]
  rfl
end

/-! ### The solver -/

/-- **C78.** A whole run of the solver (without hash collisions) on a printed text with clauses of one to three literals says whether its formula
can be satisfied. -/
theorem C78_solver {H : Type} [DecidableEq H] (hash : Str → H) {ma : MainArgs} (ha : Local ma.args) (hfact : ma.args.factorize = false) (hm : ma.args.multiply = none)
    {env : EnvChoice} (hf : Fair ma.args env) (g : Gdb H) {text : Str} {n : Nat} {cs : List (List Int)} (hP : Prints text n cs)
    (h3 : ∀ c ∈ cs, c ≠ [] ∧ c.length ≤ 3) (ht : ∃ c ∈ cs, ¬ Spec.Tautology c) :
    ∃ root, readInput .dimacs text = pure root ∧ ((∀ k, NoCollisions hash ma.args { root with computedHash := some k }) →
      ∃ out rep, mainRun hash ma env g .dimacs text = some out ∧ out.report = some rep ∧ out.error = none ∧ (rep.isSat = true ↔ Spec.Satisfiable cs)) := by
  obtain ⟨root, h2, h4⟩ := C21_dimacs_faithful_partial (H := H) hP.layout hP.formula h3
  refine ⟨root, h2, fun hcoll => ?_⟩
  obtain ⟨out, rep, e1, e2, e3, e4, _⟩ := C24_main_verdict_partial hash ha hfact hm hf g h2 h4
    (fun c hc => ⟨(h3 c hc).1, fun h0 => by have := (hP.range c hc 0 h0).1; simp at this⟩) ht hcoll
  exact ⟨out, rep, e1, e2, e3, e4⟩

/-! ### Concrete cases -/

/-- The hypotheses of C78 and C81: an accepted text in range; what is printed. -/
example : dimacs2cnf "c hello\np cnf 2 2\n1 -2 0\n2 0\n".toList = pure ("hello\n".toList, ⟨[1, 2], [[1, -2], [2]]⟩) ∧
    (∀ c ∈ [[1, -2], [2]], ∀ l ∈ c, (l : Int).natAbs ≤ 2) ∧ (Trans.or 2).Faithful ∧ (Trans.or 2).Fits 2 ∧ (Trans.or 2).Chance ∧
    dimacstransform false (.stdin "c hello\np cnf 2 2\n1 -2 0\n2 0\n".toList) .text (some (.or 2)) =
      pure (some "p cnf 4 3\n1 2 -3 0\n1 2 -4 0\n3 4 0\n".toList) :=
  ⟨by rfl, by decide, by unfold Trans.Faithful; decide, trivial, fun _ _ => trivial, by rfl⟩

/-- A literal out of range. -/
example : dimacs2cnf "p cnf 1 1\n2 0\n".toList = pure ([], ⟨[1], [[2]]⟩) ∧ ∃ c ∈ [[(2 : Int)]], ∃ l ∈ c, 1 < l.natAbs := ⟨by rfl, by decide⟩

/-- A lifting with the header. -/
example : dimacstransform true (.stdin "c hello\np cnf 2 2\n1 -2 0\n2 0\n".toList) .text (some (.lift 1)) =
    pure (some "c Formula with lifting with selectors over 1 values\nc\nc hello\np cnf 4 4\n-1 2 -3 -4 0\n-3 4 0\n1 0\n3 0\n".toList) := by rfl

/-- Possible random choices: order and places reversed, all signs changed. -/
example : (Trans.shuffle false false false (fun n => (List.range n).reverse) (fun n => (List.range n).reverse) (fun n => List.replicate n (-1))).Chance :=
  fun n m => ⟨List.reverse_perm _, List.reverse_perm _, by simp, fun s hs => .inr (List.eq_of_mem_replicate hs)⟩

/-- `cnfshuffle` with such choices. -/
example : cnfshuffle true (.stdin "c hello\np cnf 2 2\n1 -2 0\n2 0\n".toList) .text false false false (fun n => (List.range n).reverse) List.range
    (fun n => List.replicate n (-1)) = pure (some "c Reshuffling of:\nc\nc hello\np cnf 2 2\n-2 1 0\n-1 0".toList) := by rfl

/-- A pyramid of three vertices. -/
example : kthlist2pebbling "dflt\n".toList true (.stdin "3\n1 : 0\n2 : 0\n3 : 1 2 0\n".toList) .text (some .none) =
    pure (some "c Pebbling formula of:\nc\nc dflt\np cnf 3 4\n1 0\n2 0\n-1 -2 3 0\n-3 0\n".toList) := by rfl

/-- `cnfgen -q x -T or 1 -T flip` and the pipe, for a generator of one clause. -/
example : ∃ (parse : List Str → Option (GenArgs Str)) (parseT : List Str → Option (Option Trans)),
    parse ["-q".toList, "x".toList] = some ⟨false, .text, pure ([], ⟨["a".toList], [[1]]⟩)⟩ ∧ parseT ["flip".toList] = some (some .flip) ∧
    cnfgen id parse parseT (cmdLine ["-q".toList, "x".toList] [["or".toList, "1".toList]]) = pure (some "p cnf 1 1\n1 0\n".toList) ∧
    cnfgen id parse parseT (cmdLine ["-q".toList, "x".toList] [["or".toList, "1".toList], ["flip".toList]]) = pure (some "p cnf 1 1\n-1 0\n".toList) ∧
    dimacstransform false (.stdin "p cnf 1 1\n1 0\n".toList) .text (some .flip) = pure (some "p cnf 1 1\n-1 0\n".toList) :=
  ⟨fun _ => some ⟨false, .text, pure ([], ⟨["a".toList], [[1]]⟩)⟩, fun l => if l = ["flip".toList] then some (some .flip) else some (some (.or 1)),
    rfl, by rfl, by rfl, by rfl, by rfl⟩

end NDP.Cnfgen
