import Verif.Cnfgen.Numbering
/-
  The transformations do not look at the names of the variables: the numbered clauses they give depend only on the numbered clauses
  and the number of variables.
-/
namespace NDP.Cnfgen
open NDP

section
variable {V W : Type} [DecidableEq V] [DecidableEq W]

/-- The same formula up to the names of the variables: as many variables, the same numbered clauses. -/
def Same (F : CNF V) (G : CNF W) : Prop := F.vars.length = G.vars.length ∧ F.clauses = G.clauses

/-- The number of variables. -/
def anyVars : CNF V ⊕ CNF Str → Nat
  | .inl F => F.vars.length
  | .inr F => F.vars.length

/-- The numbered clauses. -/
def anyClauses : CNF V ⊕ CNF Str → List (List Int)
  | .inl F => F.clauses
  | .inr F => F.clauses

/-- Different variables, and only their numbers in the clauses. -/
def AnyProper : CNF V ⊕ CNF Str → Prop
  | .inl F => Cnfgen.Proper F.vars F.clauses
  | .inr F => Cnfgen.Proper F.vars F.clauses

/-! ### Compression -/

/-- The clauses of a compressed variable, over the vertices of the left side. -/
def compG (g : BiGraph) (xor : Bool) (i : Nat) (b : Bool) : List (List (Lit Nat)) :=
  let names := g.nbrR (g.right.getD i 0)
  if xor then parityConstraint names (if b then 1 else 0)
  else if b then greaterOrEqual names (((names.length + 1) / 2 : Nat) : Int)
  else lessThan names (((names.length + 1) / 2 : Nat) : Int)

theorem compLit_eq (F : CNF V) (g : BiGraph) (xor b : Bool) (v : V) :
    compLit F g xor b v = gmap (fmt1 "Y".toList) (compG g xor (F.vars.idxOf v) b) := by
  unfold compLit compG greaterOrEqual lessThan
  simp only [List.length_map, parity_map, inequality_map]
  cases xor <;> cases b <;> rfl

theorem compG_left {g : BiGraph} {xor b : Bool} {i : Nat} : ∀ c ∈ compG g xor i b, ∀ l ∈ c, l.2 ∈ g.left := by
  intro c hc l hl
  have hsub : ∀ x ∈ g.nbrR (g.right.getD i 0), x ∈ g.left := fun x hx => (List.mem_filter.1 hx).1
  refine hsub _ ?_
  unfold compG greaterOrEqual lessThan at hc
  cases xor
  · cases b
    · exact (mem_inequality (by simpa using hc)).subset (List.mem_map.2 ⟨l, hl, rfl⟩)
    · exact (mem_inequality (by simpa using hc)).subset (List.mem_map.2 ⟨l, hl, rfl⟩)
  · exact (mem_parity (by simpa using hc)) ▸ (List.mem_map.2 ⟨l, hl, rfl⟩)

theorem idxOf_map_inj {A B : Type} [DecidableEq A] [DecidableEq B] {f : A → B} (hinj : ∀ x y, f x = f y → x = y) (l : List A) (x : A) :
    (l.map f).idxOf (f x) = l.idxOf x := by
  induction l with
  | nil => rfl
  | cons y l ih =>
    rw [List.map_cons, List.idxOf_cons, List.idxOf_cons, ih]
    by_cases e : y = x
    · subst e; simp
    · have : f y ≠ f x := fun h => e (hinj _ _ h)
      rw [beq_eq_false_iff_ne.2 e, beq_eq_false_iff_ne.2 this]

theorem comp_closed {F : CNF V} (hF : Cnfgen.Proper F.vars F.clauses) (g : BiGraph) (xor : Bool) (hg : g.right.length = F.vars.length) :
    compSubst F g xor = pure ⟨(firsts g.left).map (fmt1 "Y".toList),
      expand (fun i b => encode (fun u => (firsts g.left).idxOf u + 1) (compG g xor i b)) F.clauses⟩ := by
  unfold compSubst
  rw [if_neg (by simpa using hg)]
  obtain ⟨cs, hc⟩ := hF.coh
  have hinj : ∀ x y : Nat, fmt1 "Y".toList x = fmt1 "Y".toList y → x = y := fun x y h => fmt1_inj h
  obtain ⟨H, hH, hcoh, _⟩ := baseSubst_coh hc (pre := fun _ => []) (tr := compLit F g xor) (nv := some (g.left.map (fmt1 "Y".toList))) (by
    intro vs hvs v _
    obtain rfl := Option.some.inj hvs
    refine ⟨by simp, fun b c hc l hl => ?_⟩
    rw [compLit_eq] at hc
    obtain ⟨d, hd, rfl⟩ := List.mem_map.1 hc
    obtain ⟨m, hm, rfl⟩ := List.mem_map.1 hl
    exact List.mem_map.2 ⟨m.2, compG_left d hd m hm, rfl⟩)
  have hv : H.vars = (firsts g.left).map (fmt1 "Y".toList) := by
    rw [baseSubst_vars hH, Option.getD_some, firsts_map fun x _ y _ h => hinj x y h]
  rw [hH]
  congr 1
  have hcl := hcoh.clauses
  rw [map_substClauses hc H.code (P := fun _ => []) (T := fun i b => encode (fun u => (firsts g.left).idxOf u + 1) (compG g xor i b))
    (fun v _ => rfl) (fun b v _ => by
      rw [compLit_eq]
      unfold gmap encode
      rw [List.map_map]
      refine List.map_congr_left fun c _ => ?_
      simp only [Function.comp, List.map_map]
      refine List.map_congr_left fun l _ => ?_
      have e1 := idxOf_map_inj hinj (firsts g.left) l.2
      rw [← hv] at e1
      unfold CNF.code lmap
      dsimp only [Function.comp]
      rw [← e1]
      push_cast
      rfl)] at hcl
  cases H
  simp only at hv hcl
  rw [hv, hcl]
  simp

theorem flip_closed {F : CNF V} (hF : Cnfgen.Proper F.vars F.clauses) :
    flipSubst F = pure ⟨F.vars, expand (fun i b => [[(if b then -1 else 1) * ((i : Int) + 1)]]) F.clauses⟩ := by
  have e : flipSubst F = baseSubst F (fun v => gmap (fun (_ : Unit) => v) []) (fun b v => gmap (fun (_ : Unit) => v) [[(!b, ())]]) none := rfl
  rw [e, baseSubst_closed hF (fun v (_ : Unit) => v) [] (fun b => [[(!b, ())]]) (fun v _ w _ q _ r _ h => ⟨h, rfl⟩)]
  have hn : gnames ([] : List (List (Lit Unit))) [[(!true, ())]] [[(!false, ())]] = [()] := by decide
  congr 1
  rw [hn]
  simp only [List.map_cons, List.map_nil, List.flatMap_singleton', encode, List.flatMap_nil, CNF.mk.injEq]
  refine ⟨trivial, ?_⟩
  have hz : ((List.range F.vars.length).flatMap fun _ => ([] : List (List Int))) = [] := by simp
  rw [hz, List.append_nil]
  congr 1
  funext i b
  cases b <;> simp

/-! ### Shuffling -/

/-- The order of the variables chosen by `shuffleArgs`, as positions. -/
theorem shuffle_order {l : List V} (hn : l.Nodup) {o : List Nat} (ho : ∀ i ∈ o, i < l.length) {i : Nat} (hi : i < l.length) :
    (o.filterMap (l[·]?)).idxOf l[i] = o.idxOf i := by
  induction o with
  | nil => rfl
  | cons j o ih =>
    have hj := ho j (by simp)
    rw [List.filterMap_cons_some (List.getElem?_eq_getElem hj), List.idxOf_cons, List.idxOf_cons, ih fun i hi => ho i (by simp [hi])]
    by_cases e : j = i
    · subst e; simp
    · have : l[j] ≠ l[i] := fun h => e ((hn.getElem_inj_iff).1 h)
      rw [beq_eq_false_iff_ne.2 e, beq_eq_false_iff_ne.2 this]

theorem filterMap_range (l : List V) : (List.range l.length).filterMap (l[·]?) = l := by
  induction l with
  | nil => rfl
  | cons x l ih =>
    rw [List.length_cons, List.range_succ_eq_map, List.filterMap_cons_some (b := x) (by simp), List.filterMap_map]
    congr 1

/-- The legal choices of a shuffle of `n` variables and `m` clauses. -/
structure Legal (n m : Nat) (o : List Nat) (cp : List Nat) (flip : List Int) : Prop where
  order : o.Perm (List.range n)
  places : cp.Perm (List.range m)
  signs : flip.length = n ∧ ∀ s ∈ flip, s = 1 ∨ s = -1

theorem order_perm {l : List V} {o : List Nat} (ho : o.Perm (List.range l.length)) : (o.filterMap (l[·]?)).Perm l := by
  have := ho.filterMap (l[·]?)
  rwa [filterMap_range] at this

theorem shuffle_pos {F : CNF V} (hn : F.vars.Nodup) {o : List Nat} (ho : o.Perm (List.range F.vars.length)) (flip : List Int) (hf : flip.length = F.vars.length) :
    ((F.vars.zip flip).mapM fun p => do
      let i ← (({} : CNF V).addVariables (o.filterMap (F.vars[·]?))).index p.1
      pure (p.2 * i) : M (List Int)) =
    pure (((List.range F.vars.length).zip flip).map fun p => p.2 * ((o.idxOf p.1 : Int) + 1)) := by
  have hp := order_perm ho
  have hGv : (({} : CNF V).addVariables (o.filterMap (F.vars[·]?))).vars = o.filterMap (F.vars[·]?) := by
    rw [CNF.addVariables_vars (hp.nodup_iff.2 hn) (by simp)]; rfl
  rw [mapM_ok (g := fun p => p.2 * (((o.filterMap (F.vars[·]?)).idxOf p.1 : Int) + 1)) (by
    intro p hm
    have : p.1 ∈ o.filterMap (F.vars[·]?) := hp.mem_iff.2 (List.of_mem_zip hm).1
    unfold CNF.index
    rw [hGv, if_pos this]; rfl)]
  congr 1
  refine List.ext_getElem (by simp) fun i h1 h2 => ?_
  simp only [List.length_map, List.length_zip, hf, Nat.min_self] at h1
  simp only [List.getElem_map, List.getElem_zip, List.getElem_range]
  rw [shuffle_order hn (fun i hi => List.mem_range.1 (ho.mem_iff.1 hi)) h1]

theorem shuffle_closed {F : CNF V} (hF : Cnfgen.Proper F.vars F.clauses) {o cp : List Nat} {flip : List Int} (hl : Legal F.vars.length F.clauses.length o cp flip) :
    ∃ cls, shuffle F (o.filterMap (F.vars[·]?)) cp flip = pure ⟨o.filterMap (F.vars[·]?), cls⟩ ∧
      ∀ {W : Type} [DecidableEq W] (G : CNF W), G.vars.Nodup → G.vars.length = F.vars.length → G.clauses = F.clauses →
        shuffle G (o.filterMap (G.vars[·]?)) cp flip = pure ⟨o.filterMap (G.vars[·]?), cls⟩ := by
  have hp := order_perm hl.order
  obtain ⟨H, hH, hprop, hv, _⟩ := C56_shuffle F hF _ cp flip hp hl.places hl.signs.1 hl.signs.2
  obtain ⟨vs, cls⟩ := H
  simp only at hv hprop
  subst hv
  refine ⟨cls, hH, fun {W} _ G hn hlen hcl => ?_⟩
  have hpG : (o.filterMap (G.vars[·]?)).Perm G.vars := order_perm (by rw [hlen]; exact hl.order)
  unfold shuffle at hH ⊢
  rw [if_neg (by rw [hp.length_eq]; simp), if_neg (by rw [hl.signs.1]; simp), if_neg (by rw [hl.places.length_eq, List.length_range]; simp)] at hH
  rw [if_neg (by rw [hpG.length_eq]; simp), if_neg (by rw [hl.signs.1, hlen]; simp), if_neg (by rw [hl.places.length_eq, List.length_range, hcl]; simp)]
  dsimp only at hH ⊢
  rw [shuffle_pos hF.1 hl.order flip hl.signs.1, M.pure_bind] at hH
  rw [shuffle_pos hn (by rw [hlen]; exact hl.order) flip (by rw [hlen]; exact hl.signs.1), M.pure_bind, hlen, hcl]
  obtain ⟨out, h1, hH⟩ := M.bind_eq_pure.1 hH
  obtain ⟨cl, h2, hH⟩ := M.bind_eq_pure.1 hH
  rw [h1, M.pure_bind, h2, M.pure_bind]
  split at hH
  · have e := (M.pure_inj _ _).1 hH
    injection e with _ e
    subst e
    have hGv : (({} : CNF W).addVariables (o.filterMap (G.vars[·]?))).vars = o.filterMap (G.vars[·]?) := by
      rw [CNF.addVariables_vars (hpG.nodup_iff.2 hn) (by simp)]; rfl
    rw [hGv]
    refine if_pos (CNF.coherent_iff.2 ⟨hpG.nodup_iff.2 hn, fun c hc l hl' => ?_⟩)
    have := hprop.2 c hc l hl'
    rw [hp.length_eq] at this
    rw [hpG.length_eq, hlen]
    exact this
  · cases hH

/-! ### All transformations -/

/-- The draws of a transformation are possible for a formula with `n` variables and `m` clauses. -/
def Trans.Drawn (n m : Nat) : Trans → Prop
  | .shuffle _ _ _ vs cs signs => (vs n).Perm (List.range n) ∧ (cs m).Perm (List.range m) ∧ (signs n).length = n ∧ ∀ s ∈ signs n, s = 1 ∨ s = -1
  | _ => True

/-- The transformation fits the formula (a compression needs a graph with as many vertices on its right side as variables). -/
def Trans.Fits (n : Nat) : Trans → Prop
  | .comp _ B => B.right.length = n
  | _ => True

omit [DecidableEq V] in
theorem same_pure {m : M (CNF Str)} {H : CNF Str} (h : m = pure H) :
    (do pure (some (Sum.inr (← m))) : M (Option (CNF V ⊕ CNF Str))) = pure (some (.inr H)) := by
  rw [h, M.pure_bind]

theorem shuffleArgs_eq (p v c : Bool) (vs cs : Nat → List Nat) (signs : Nat → List Int) (F : CNF V) :
    shuffleArgs p v c vs cs signs F = shuffle F ((if v then List.range F.vars.length else vs F.vars.length).filterMap (F.vars[·]?))
      (if c then List.range F.clauses.length else cs F.clauses.length) (if p then List.replicate F.vars.length 1 else signs F.vars.length) := by
  unfold shuffleArgs
  cases v
  · rfl
  · simp only [if_true]
    rw [filterMap_range]

theorem length_blocks {A Q : Type} (U : List Q) (l : List A) (f : A → Q → Str) : (l.flatMap fun v => U.map (f v)).length = U.length * l.length := by
  induction l with
  | nil => simp
  | cons a l ih => rw [List.flatMap_cons, List.length_append, List.length_map, ih, List.length_cons, Nat.mul_succ]; omega

/-- Two results of a substitution with the same number of variables and the same numbered clauses. -/
def BothNumbered (m m' : M (CNF Str)) : Prop := ∃ A B : CNF Str, m = pure A ∧ m' = pure B ∧ A.vars.length = B.vars.length ∧ A.clauses = B.clauses

theorem same_simple {sh : V → Str} {sh' : W → Str} (hs : Function.Injective sh) (hs' : Function.Injective sh') {F : CNF V} {G : CNF W}
    (hF : Cnfgen.Proper F.vars F.clauses) (hG : Cnfgen.Proper G.vars G.clauses) (h : Same F G)
    {pre : V → List (List (Lit Str))} {tr : Bool → V → List (List (Lit Str))} {pre' : W → List (List (Lit Str))} {tr' : Bool → W → List (List (Lit Str))}
    {preG : List (List (Lit (Str × Nat)))} {g : Bool → List (List (Lit (Str × Nat)))}
    (h1 : ∀ v, pre v = gmap (copyName sh v) preG) (h2 : ∀ b v, tr b v = gmap (copyName sh v) (g b))
    (h3 : ∀ v, pre' v = gmap (copyName sh' v) preG) (h4 : ∀ b v, tr' b v = gmap (copyName sh' v) (g b)) (h5 : Named preG) (h6 : ∀ b, Named (g b)) :
    BothNumbered (baseSubst F pre tr Option.none) (baseSubst G pre' tr' Option.none) := by
  obtain ⟨hlen, hcl⟩ := h
  refine ⟨_, _, subst_closed hs hF h1 h2 h5 h6, subst_closed hs' hG h3 h4 h5 h6, ?_, ?_⟩
  · show (F.vars.flatMap _).length = (G.vars.flatMap _).length
    rw [length_blocks, length_blocks, hlen]
  · unfold closed; rw [hlen, hcl]

omit [DecidableEq V] [DecidableEq W] in
theorem same_fin {m m' : M (CNF Str)} (h1 : ∃ A, m = pure A ∧ Cnfgen.Proper A.vars A.clauses) (h2 : ∃ A, m' = pure A ∧ Cnfgen.Proper A.vars A.clauses)
    (h3 : BothNumbered m m') :
    ∃ (A : CNF V ⊕ CNF Str) (B : CNF W ⊕ CNF Str), (do pure (some (Sum.inr (← m))) : M (Option (CNF V ⊕ CNF Str))) = pure (some A) ∧
      (do pure (some (Sum.inr (← m'))) : M (Option (CNF W ⊕ CNF Str))) = pure (some B) ∧ AnyProper A ∧ AnyProper B ∧ anyVars A = anyVars B ∧ anyClauses A = anyClauses B := by
  obtain ⟨A1, h1, p1⟩ := h1
  obtain ⟨B1, h2, p2⟩ := h2
  obtain ⟨A, B, h3, h4, e1, e2⟩ := h3
  obtain rfl := (M.pure_inj _ _).1 (h1.symm.trans h3)
  obtain rfl := (M.pure_inj _ _).1 (h2.symm.trans h4)
  exact ⟨.inr A1, .inr B1, same_pure h1, same_pure h2, p1, p2, e1, e2⟩

/-- What a transformation makes of the numbers depends only on the numbers. -/
theorem run_same {sh : V → Str} {sh' : W → Str} (hs : Function.Injective sh) (hs' : Function.Injective sh') {F : CNF V} {G : CNF W}
    (hF : Cnfgen.Proper F.vars F.clauses) (hG : Cnfgen.Proper G.vars G.clauses) (h : Same F G) (T : Trans) (hd : T.Drawn F.vars.length F.clauses.length) :
    (¬ T.Fits F.vars.length ∧ T.run sh F = pure Option.none ∧ T.run sh' G = pure Option.none) ∨
    (T.Fits F.vars.length ∧ ∃ A B, T.run sh F = pure (some A) ∧ T.run sh' G = pure (some B) ∧ AnyProper A ∧ AnyProper B ∧ anyVars A = anyVars B ∧ anyClauses A = anyClauses B) := by
  have hsame := h
  obtain ⟨hlen, hcl⟩ := h
  have nil1 : ∀ v, (fun (_ : V) => ([] : List (List (Lit Str)))) v = gmap (copyName sh v) [] := fun _ => rfl
  have nil2 : ∀ v, (fun (_ : W) => ([] : List (List (Lit Str)))) v = gmap (copyName sh' v) [] := fun _ => rfl
  have nil3 : Named [] := by intro c hc; cases hc
  cases T with
  | none => exact .inr ⟨trivial, .inl F, .inl G, rfl, rfl, hF, hG, hlen, hcl⟩
  | flip =>
    obtain ⟨H, e1, p1, _⟩ := C55_flip F hF
    obtain ⟨H', e2, p2, _⟩ := C55_flip G hG
    refine .inr ⟨trivial, .inl H, .inl H', ?_, ?_, p1, p2, ?_⟩
    · unfold Trans.run; rw [e1, M.pure_bind]
    · unfold Trans.run; rw [e2, M.pure_bind]
    · rw [flip_closed hF] at e1
      rw [flip_closed hG] at e2
      rw [← (M.pure_inj _ _).1 e1, ← (M.pure_inj _ _).1 e2]
      exact ⟨hlen, by simp only [anyClauses]; rw [hcl]⟩
  | ite =>
    obtain ⟨H, e1, p1, _⟩ := C55_ite hs F hF
    obtain ⟨H', e2, p2, _⟩ := C55_ite hs' G hG
    exact .inr ⟨trivial, same_fin ⟨H, e1, p1⟩ ⟨H', e2, p2⟩ (same_simple hs hs' hF hG hsame nil1 (iteLit_eq sh) nil2 (iteLit_eq sh') nil3 named_ite)⟩
  | or n =>
    obtain ⟨H, e1, p1, _⟩ := C55_or hs F hF n.toNat
    obtain ⟨H', e2, p2, _⟩ := C55_or hs' G hG n.toNat
    exact .inr ⟨trivial, same_fin ⟨H, e1, p1⟩ ⟨H', e2, p2⟩ (same_simple hs hs' hF hG hsame nil1 (orLit_eq sh _) nil2 (orLit_eq sh' _) nil3 (named_or _))⟩
  | xor n =>
    obtain ⟨H, e1, p1, _⟩ := C55_xor hs F hF n.toNat
    obtain ⟨H', e2, p2, _⟩ := C55_xor hs' G hG n.toNat
    exact .inr ⟨trivial, same_fin ⟨H, e1, p1⟩ ⟨H', e2, p2⟩ (same_simple hs hs' hF hG hsame nil1 (xorLit_eq sh _) nil2 (xorLit_eq sh' _) nil3 (named_xor _))⟩
  | eq n =>
    obtain ⟨H, e1, p1, _⟩ := C55_all_equal hs F hF n.toNat
    obtain ⟨H', e2, p2, _⟩ := C55_all_equal hs' G hG n.toNat
    exact .inr ⟨trivial, same_fin ⟨H, e1, p1⟩ ⟨H', e2, p2⟩ (same_simple hs hs' hF hG hsame nil1 (eqLit_eq sh _) nil2 (eqLit_eq sh' _) nil3 (named_eq _))⟩
  | neq n =>
    obtain ⟨H, e1, p1, _⟩ := C55_not_all_equal hs F hF n.toNat
    obtain ⟨H', e2, p2, _⟩ := C55_not_all_equal hs' G hG n.toNat
    exact .inr ⟨trivial, same_fin ⟨H, e1, p1⟩ ⟨H', e2, p2⟩ (same_simple hs hs' hF hG hsame (g := fun b => eqG n.toNat (!b)) nil1 (fun b v => eqLit_eq sh _ _ v) nil2
      (fun b v => eqLit_eq sh' _ _ v) nil3 (fun b => named_eq _ _))⟩
  | maj n =>
    obtain ⟨H, e1, p1, _⟩ := C55_maj hs F hF n.toNat
    obtain ⟨H', e2, p2, _⟩ := C55_maj hs' G hG n.toNat
    exact .inr ⟨trivial, same_fin ⟨H, e1, p1⟩ ⟨H', e2, p2⟩ (same_simple hs hs' hF hG hsame nil1 (majLit_eq sh _) nil2 (majLit_eq sh' _) nil3 (named_maj _))⟩
  | one n =>
    obtain ⟨H, e1, p1, _⟩ := C55_one hs F hF n.toNat
    obtain ⟨H', e2, p2, _⟩ := C55_one hs' G hG n.toNat
    exact .inr ⟨trivial, same_fin ⟨H, e1, p1⟩ ⟨H', e2, p2⟩ (same_simple hs hs' hF hG hsame nil1 (oneLit_eq sh _) nil2 (oneLit_eq sh' _) nil3 (named_one _))⟩
  | lift n =>
    obtain ⟨H, e1, p1, _⟩ := C55_lift hs F hF n.toNat
    obtain ⟨H', e2, p2, _⟩ := C55_lift hs' G hG n.toNat
    exact .inr ⟨trivial, same_fin ⟨H, e1, p1⟩ ⟨H', e2, p2⟩ (same_simple hs hs' hF hG hsame (liftPre_eq sh _) (liftLit_eq sh _) (liftPre_eq sh' _) (liftLit_eq sh' _) (named_liftPre _) (named_lift _))⟩
  | comp x B =>
    by_cases hb : B.right.length = F.vars.length
    · obtain ⟨H, e1, p1, _⟩ := (C55_compression F hF B x).2 hb
      obtain ⟨H', e2, p2, _⟩ := (C55_compression G hG B x).2 (hb.trans hlen)
      refine .inr ⟨hb, ?_⟩
      have r1 : (Trans.comp x B).run sh F = (do pure (some (Sum.inr (← compSubst F B x)))) := by
        unfold Trans.run; exact if_neg (by simpa using hb)
      have r2 : (Trans.comp x B).run sh' G = (do pure (some (Sum.inr (← compSubst G B x)))) := by
        unfold Trans.run; exact if_neg (by simpa [hlen] using hb)
      rw [r1, r2]
      refine same_fin ⟨H, e1, p1⟩ ⟨H', e2, p2⟩ ⟨_, _, comp_closed hF B x hb, comp_closed hG B x (hb.trans hlen), rfl, ?_⟩
      rw [hcl]
    · refine .inl ⟨hb, ?_, ?_⟩
      · unfold Trans.run; exact if_pos hb
      · unfold Trans.run; exact if_pos (by rw [← hlen]; exact hb)
  | shuffle p v c vs cs signs =>
    refine .inr ⟨trivial, ?_⟩
    have hlegal : Legal F.vars.length F.clauses.length (if v then List.range F.vars.length else vs F.vars.length)
        (if c then List.range F.clauses.length else cs F.clauses.length) (if p then List.replicate F.vars.length 1 else signs F.vars.length) := by
      refine ⟨?_, ?_, ?_, ?_⟩
      · cases v
        · exact hd.1
        · exact .refl _
      · cases c
        · exact hd.2.1
        · exact .refl _
      · cases p
        · exact hd.2.2.1
        · simp
      · cases p
        · exact hd.2.2.2
        · intro s hs; simp only [if_true] at hs; exact .inl (List.eq_of_mem_replicate hs)
    obtain ⟨cls, e1, e2⟩ := shuffle_closed hF hlegal
    have e3 := e2 G hG.1 hlen.symm hcl.symm
    obtain ⟨H, h1, hp1, _⟩ := C56_shuffle F hF _ _ _ (order_perm hlegal.order) hlegal.places hlegal.signs.1 hlegal.signs.2
    have hlegal' : Legal G.vars.length G.clauses.length (if v then List.range F.vars.length else vs F.vars.length)
        (if c then List.range F.clauses.length else cs F.clauses.length) (if p then List.replicate F.vars.length 1 else signs F.vars.length) := by
      rw [← hlen, ← hcl]; exact hlegal
    obtain ⟨H', h2, hp2, _⟩ := C56_shuffle G hG _ _ _ (order_perm hlegal'.order) hlegal'.places hlegal'.signs.1 hlegal'.signs.2
    rw [e1] at h1
    rw [e3] at h2
    obtain rfl := (M.pure_inj _ _).1 h1
    obtain rfl := (M.pure_inj _ _).1 h2
    refine ⟨.inl _, .inl _, ?_, ?_, hp1, hp2, ?_, rfl⟩
    · show (do pure (some (Sum.inl (← shuffleArgs p v c vs cs signs F)))) = _; rw [shuffleArgs_eq, e1, M.pure_bind]
    · show (do pure (some (Sum.inl (← shuffleArgs p v c vs cs signs G)))) = _; rw [shuffleArgs_eq, ← hlen, ← hcl, e3, M.pure_bind]
    · simp only [anyVars]
      rw [(order_perm hlegal.order).length_eq, (order_perm (l := G.vars) (by rw [← hlen]; exact hlegal.order)).length_eq, hlen]
end
end NDP.Cnfgen
