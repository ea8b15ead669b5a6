import Verif.Cnfgen.Commands
/-
  From a sub-command of `cnfgen` to the text printed (C84), and to the verdict of the solver on that text (C85).
-/
namespace NDP.Cnfgen
open NDP

/-! ### C84: the text printed -/

/-- **C84.** `cnfgen <sub-command> -T t₁ -T t₂ …`, with transformations that cannot be refused and have enough variables: either a message is printed, or a DIMACS
file with a formula that can be satisfied exactly if what the sub-command stands for is true (`Cmd.Answers`).  Only `--addedges` can end in another error, a
`RuntimeError`. -/
theorem C84_cnfgen {c : Cmd} (hc : c.Legal) (parse : List Str → Option (GenArgs Str)) (parseT : List Str → Option (Option Trans))
    (gen : List Str) (ts : List (List Str)) (hg : "-T".toList ∉ gen) (ht : ∀ t ∈ ts, "-T".toList ∉ t) (verbose : Bool) (hdr : CNF Str → Str)
    (hp : parse gen = some (c.args verbose hdr)) {Ts : List Trans} (hT : List.Forall₂ (fun t T => parseT t = some (some T)) ts Ts)
    (hch : ∀ T ∈ Ts, T.Chance ∧ T.Faithful ∧ ¬ T.IsComp) :
    (cnfgen id parse parseT (cmdLine gen ts) = pure none ∧ c.Answers none) ∨
    (∃ out n cs P, cnfgen id parse parseT (cmdLine gen ts) = pure (some out) ∧ Prints out n cs ∧ c.Answers (some P) ∧ (Spec.Satisfiable cs ↔ P)) ∨
    (cnfgen id parse parseT (cmdLine gen ts) = raise .runtimeError ∧ c.AddsEdges) := by
  obtain ⟨h1, h2⟩ := C78_cnfgen (sh := id) Function.injective_id parse parseT gen ts hg ht hp hT (fun T h => (hch T h).1) rfl
  rcases C84_command hc with (⟨e, hq⟩ | ⟨F, P, e, hF, hq, hs⟩) | ⟨e, hq⟩
  · refine .inl ⟨?_, hq⟩
    have := h2 .valueError (by show (c.cnf >>= _) = _; rw [e, M.raise_bind])
    rw [this, if_pos (.inl rfl)]
  · rcases h1 (hdr F) F (by show (c.cnf >>= _) = _; rw [e, M.pure_bind]) hF with ⟨_, T, hT, hco⟩ | ⟨out, n, cs, k1, k2, _, k4⟩
    · exact absurd hco (hch T hT).2.2
    · exact .inr (.inl ⟨out, n, cs, P, k1, k2, hq, (k4 fun T hT => (hch T hT).2.1).trans hs⟩)
  · refine .inr (.inr ⟨?_, hq⟩)
    have := h2 .runtimeError (by show (c.cnf >>= _) = _; rw [e, M.raise_bind])
    rw [this, if_neg (by simp)]

/-! ### C85: the solver on the text -/

/-- The solver reads the text and, without hash collisions, says "SAT" exactly if `P`. -/
def Decides {H : Type} [DecidableEq H] (hash : Str → H) (ma : MainArgs) (env : EnvChoice) (g : Gdb H) (text : Str) (P : Prop) : Prop :=
  ∃ root, readInput .dimacs text = pure root ∧ ((∀ k, NoCollisions hash ma.args { root with computedHash := some k }) →
    ∃ out rep, mainRun hash ma env g .dimacs text = some out ∧ out.report = some rep ∧ out.error = none ∧ (rep.isSat = true ↔ P))

theorem code_neg {V : Type} [DecidableEq V] {F : CNF V} {l l' : Lit V} (h : l.2 ∈ F.vars) (h' : l'.2 ∈ F.vars) (e : F.code l' = -F.code l) : l' = (!l.1, l.2) := by
  obtain ⟨s, v⟩ := l
  obtain ⟨s', v'⟩ := l'
  simp only [CNF.code] at e
  have hi : F.vars.idxOf v = F.vars.idxOf v' := by
    cases s <;> cases s' <;> simp at e <;> omega
  have : v = v' := by
    have h1 := List.getElem_idxOf (List.idxOf_lt_length_of_mem h)
    have h2 := List.getElem_idxOf (List.idxOf_lt_length_of_mem h')
    dsimp only at h1 h2
    rw [← h1, ← h2]
    congr 1
  subst this
  cases s <;> cases s' <;> simp at e ⊢ <;> omega

/-- A command whose clauses have one to three literals. -/
theorem decides_of_coh {H : Type} [DecidableEq H] (hash : Str → H) {ma : MainArgs} (ha : Local ma.args) (hfact : ma.args.factorize = false) (hm : ma.args.multiply = none)
    {env : EnvChoice} (hf : Fair ma.args env) (g : Gdb H) {c : Cmd} (parse : List Str → Option (GenArgs Str)) (parseT : List Str → Option (Option Trans))
    (gen : List Str) (hg : "-T".toList ∉ gen) (verbose : Bool) (hdr : CNF Str → Str) (hp : parse gen = some (c.args verbose hdr))
    {F : CNF Str} {cs : List (List (Lit Str))} {P : Prop} (e : c.cnf = pure F) (hF : F.Coh cs) (hP : Spec.Satisfiable F.clauses ↔ P)
    (h3 : ∀ d ∈ cs, d ≠ [] ∧ d.length ≤ 3) (ht : ∃ d ∈ cs, ∀ l ∈ d, (!l.1, l.2) ∉ d) :
    ∃ out, cnfgen id parse parseT (cmdLine gen []) = pure (some out) ∧ Decides hash ma env g out P := by
  have heq := cnfgen_eq id parse parseT gen [] hg (by simp) hp (Ts := []) .nil
  have hb : reported (c.args verbose hdr).build = pure (some (hdr F, F)) := by
    have : (c.args verbose hdr).build = pure (hdr F, F) := by show (c.cnf >>= _) = _; rw [e, M.pure_bind]
    rw [this]; rfl
  rw [hb, M.pure_bind] at heq
  simp only [Doc.applyAll] at heq
  rw [M.pure_bind] at heq
  simp only [] at heq
  obtain ⟨t, ht', hPr⟩ := doc_prints (c.args verbose hdr).verbose (some ("COMMAND LINE: cnfgen ".toList ++ joinWith [' '] ((cmdLine gen []).drop 1) ++ ['\n']))
    (⟨hdr F, .inl F⟩ : Doc Str) hF.proper
  rw [ht', M.pure_bind] at heq
  have hPr : Prints (t ++ ['\n']) F.vars.length F.clauses := hPr
  refine ⟨_, heq, ?_⟩
  obtain ⟨root, k1, k2⟩ := C78_solver hash ha hfact hm hf g hPr (by
    rw [hF.clauses]
    intro d hd
    obtain ⟨d, hd', rfl⟩ := List.mem_map.1 hd
    have := h3 d hd'
    exact ⟨fun h => this.1 (List.map_eq_nil_iff.1 h), by rw [List.length_map]; exact this.2⟩) (by
    obtain ⟨d, hd, hn⟩ := ht
    refine ⟨d.map F.code, by rw [hF.clauses]; exact List.mem_map_of_mem hd, ?_⟩
    rintro ⟨l, hl, hl'⟩
    obtain ⟨l, hm, rfl⟩ := List.mem_map.1 hl
    obtain ⟨l', hl', e'⟩ := List.mem_map.1 hl'
    have := code_neg (hF.known d hd l hm) (hF.known d hd l' hl') e'
    exact hn l hm (this ▸ hl'))
  refine ⟨root, k1, fun hk => ?_⟩
  obtain ⟨out, rep, q1, q2, q3, q4⟩ := k2 hk
  exact ⟨out, rep, q1, q2, q3, q4.trans hP⟩

section
variable {H : Type} [DecidableEq H] (hash : Str → H) {ma : MainArgs} (ha : Local ma.args) (hfact : ma.args.factorize = false) (hm : ma.args.multiply = none)
  {env : EnvChoice} (hf : Fair ma.args env) (g : Gdb H) (parse : List Str → Option (GenArgs Str)) (parseT : List Str → Option (Option Trans))
  (gen : List Str) (hg : "-T".toList ∉ gen) (verbose : Bool) (hdr : CNF Str → Str)
include ha hfact hm hf hg

/-- **C85, coloring.** `cnfgen kcolor 3 <graph>` piped into the solver: the verdict is "SAT" exactly if the graph can be colored with three colors.  The graph has no random
edges added (`--addedges`) and at least one vertex. -/
theorem C85_three_coloring {a : GraphArgs} (hl : a.Legal) (hr : ¬ a.Refused) (hadd : a.addedges = none) (hne : ∀ G, a.Gives G → G.verts ≠ [])
    (hp : parse gen = some ((Cmd.kcolor 3 a).args verbose hdr)) :
    ∃ out G, a.Gives G ∧ cnfgen id parse parseT (cmdLine gen []) = pure (some out) ∧
      Decides hash ma env g out (∃ f : Nat → Nat, (∀ v ∈ G.verts, 1 ≤ f v ∧ f v ≤ 3) ∧ ∀ u v, G.hasEdge u v = true → f u ≠ f v) := by
  rcases C84_obtain_graph hl with ⟨h1, _⟩ | ⟨_, ⟨G, vs, h2, h3, h4⟩ | ⟨_, k, hk⟩⟩
  · exact absurd h1 hr
  · have hw := h3.toGraph_wf
    have e : (Cmd.kcolor 3 a).cnf = graphColoring G.toGraph (oneTo 3) true := by
      show (obtainGraph a >>= _) = _
      rw [h2, M.pure_bind]
    obtain ⟨F, k1, k2⟩ := C54_coloring G.toGraph hw (oneTo 3) ((nodup_oneTo_sorted 3).imp fun h => Nat.ne_of_lt h) true
    obtain ⟨out, q1, q2⟩ := decides_of_coh hash ha hfact hm hf g parse parseT gen hg verbose hdr hp (e.trans k1) (addMixed_coh k1)
      (P := ∃ f : Nat → Nat, (∀ v ∈ G.toGraph.verts, 1 ≤ f v ∧ f v ≤ 3) ∧ ∀ u v, G.toGraph.hasEdge u v = true → f u ≠ f v) (by
        refine k2.trans (exists_congr fun f => ?_)
        rw [edges_iff_hasEdge (Q := fun u v => f u ≠ f v) (fun u v h => h.symm)]
        simp only [mem_oneTo']) (by
        intro d hd
        obtain ⟨⟨b, d'⟩, hd0, rfl⟩ := List.mem_map.1 hd
        rcases List.mem_append.1 hd0 with hd | hd
        · obtain ⟨v, _, hd⟩ := List.mem_flatMap.1 hd
          rcases List.mem_cons.1 hd with hd | hd
          · obtain ⟨_, rfl⟩ := Prod.mk.inj hd
            exact ⟨by simp [oneTo, List.range_succ], by simp [oneTo]⟩
          · obtain ⟨p, _, hd⟩ := List.mem_map.1 hd
            obtain ⟨_, rfl⟩ := Prod.mk.inj hd
            exact ⟨by simp, by simp⟩
        · obtain ⟨v, _, hd⟩ := List.mem_flatMap.1 hd
          obtain ⟨p, _, hd⟩ := List.mem_map.1 hd
          obtain ⟨_, rfl⟩ := Prod.mk.inj hd
          exact ⟨by simp, by simp⟩) (by
        obtain ⟨v, hv⟩ := List.exists_mem_of_ne_nil _ (hne _ h4)
        refine ⟨(oneTo 3).map fun c => (true, xn v c), List.mem_map.2 ⟨_, List.mem_append_left _ (List.mem_flatMap.2 ⟨v, hv, List.mem_cons_self ..⟩), rfl⟩, ?_⟩
        intro l hl hl'
        obtain ⟨_, _, rfl⟩ := List.mem_map.1 hl
        obtain ⟨_, _, e⟩ := List.mem_map.1 hl'
        simp at e)
    exact ⟨out, _, h4, q1, q2⟩
  · rw [hadd] at hk
    exact absurd hk (by simp)

/-- **C85, random formulas.** `cnfgen randkcnf 3 n m` piped into the solver: the verdict is "SAT" exactly if some assignment satisfies the `m` different clauses
drawn.  Likewise for clauses of one or two literals. -/
theorem C85_random {rs : RandomSource} {k n m : Nat} (hk : 1 ≤ k) (hk3 : k ≤ 3) (hkn : k ≤ n) (hm1 : 1 ≤ m) (hrs : rs.Ok k n) (hmc : m ≤ {c | Candidate k n [] c}.ncard)
    (hp : parse gen = some ((Cmd.randkcnf rs k n m).args verbose hdr)) :
    ∃ out cs, cs.length = m ∧ cs.Nodup ∧ (∀ c ∈ cs, Candidate k n [] c) ∧ cnfgen id parse parseT (cmdLine gen []) = pure (some out) ∧
      Decides hash ma env g out (∃ α, AllTrue α cs) := by
  rcases sampleClauses_cases hrs m [] with ⟨_, cs, e, hn, hc, hl⟩ | ⟨hlt, _⟩
  · have hlen : ∀ c ∈ cs, c.length = k := by
      intro c h
      obtain ⟨⟨idx, _, h2, _, h4⟩, _⟩ := hc c h
      have := congrArg List.length h4
      simpa [h2] using this
    obtain ⟨F, cs', e1, _, h5, h6, h7, h8, h9, _⟩ := ((C68_random_kcnf rs []).2 k n m hkn hrs).2 hmc
    have e' := e1
    unfold randomKCNF at e'
    rw [if_neg (by omega), if_neg (by omega)] at e'
    simp only [Int.toNat_natCast] at e'
    rw [e, M.pure_bind] at e'
    have hcoh := ofPartsStrict_coh e'
    obtain ⟨out, q1, q2⟩ := decides_of_coh hash ha hfact hm hf g parse parseT gen hg verbose hdr hp e1 hcoh (P := ∃ α, AllTrue α cs) hcoh.sat
      (fun d hd => ⟨by
        rintro rfl
        have := hlen _ hd
        simp at this
        omega, by rw [hlen d hd]; omega⟩) (by
        obtain ⟨d, hd⟩ := List.exists_mem_of_length_pos (l := cs) (by omega)
        refine ⟨d, hd, fun l hl' hn' => ?_⟩
        have := List.inj_on_of_nodup_map (hc d hd).names_nodup hl' hn' rfl
        obtain ⟨b, v⟩ := l
        cases b <;> simp at this)
    exact ⟨out, cs, hl, hn, hc, q1, q2⟩
  · omega

omit ha hfact hm hf hg in
theorem preds_le_two {g : Digraph Str} (hg : g.Wf) (h2 : ∀ v, ∃ a b, ∀ p, (p, v) ∈ g.edges → p = a ∨ p = b) (v : Str) : (g.preds v).length ≤ 2 := by
  obtain ⟨a, b, h⟩ := h2 v
  have hn : (g.preds v).Nodup := hg.nodup.filter _
  have := (List.subperm_of_subset hn (l₂ := [a, b]) (fun p hp => by
    have := h p ((Digraph.mem_preds hg).1 hp)
    simpa using this)).length_le
  simpa using this

omit ha hfact hm hf hg in
theorem dag_preds (d : DagSource) (v : Str) : (d.get.preds v).length ≤ 2 := by
  refine preds_le_two (dag_ok d).1 (fun v => ?_) v
  cases d with
  | tree height =>
    by_cases hv : ∃ i : Nat, v = 'v' :: '_' :: natStr (i + 1)
    · obtain ⟨i, rfl⟩ := hv
      generalize hn : 2 * 2 ^ height - 1 - 1 = n
      refine ⟨'v' :: '_' :: natStr (n - 2 * (n - i) - 1 + 1), 'v' :: '_' :: natStr (n - 2 * (n - i) - 2 + 1), fun p hp => ?_⟩
      simp only [DagSource.get, binaryTree, Digraph.map, List.mem_map] at hp
      obtain ⟨⟨x, y⟩, hxy, e⟩ := hp
      obtain ⟨e1, e2⟩ := Prod.mk.inj e
      have hy := treeName_injective e2
      dsimp only at hy
      obtain ⟨j, hj, hxy⟩ := List.mem_flatMap.1 hxy
      rw [List.mem_range] at hj
      rw [hn] at hxy
      simp only [List.mem_cons, Prod.mk.injEq, List.not_mem_nil, or_false] at hxy
      rcases hxy with ⟨h1, h2⟩ | ⟨h1, h2⟩
      · left; rw [← e1, h1, show n - i = j by omega]
      · right; rw [← e1, h1, show n - i = j by omega]
    · refine ⟨[], [], fun p hp => ?_⟩
      simp only [DagSource.get, binaryTree, Digraph.map, List.mem_map] at hp
      obtain ⟨⟨x, y⟩, hxy, e⟩ := hp
      exact absurd ⟨y, (Prod.mk.inj e).2.symm⟩ hv
  | pyramid height =>
    by_cases hv : ∃ p : Nat × Nat, v = fmt2 ['x'] p.1 p.2
    · obtain ⟨⟨h, i⟩, rfl⟩ := hv
      refine ⟨fmt2 ['x'] (h - 1) i, fmt2 ['x'] (h - 1) (i + 1), fun p hp => ?_⟩
      simp only [DagSource.get, pyramid, Digraph.map, List.mem_map] at hp
      obtain ⟨⟨x, y⟩, hxy, e⟩ := hp
      obtain ⟨e1, e2⟩ := Prod.mk.inj e
      have hy := fmt2_pair_injective ['x'] (a₁ := y) (a₂ := (h, i)) e2
      obtain ⟨j, hj, hxy⟩ := List.mem_flatMap.1 hxy
      obtain ⟨j', hj', hxy⟩ := List.mem_flatMap.1 hxy
      simp only [List.mem_cons, Prod.mk.injEq, List.not_mem_nil, or_false] at hxy
      subst hy
      simp only [Prod.mk.injEq] at hxy
      rcases hxy with ⟨h1, h2, h3⟩ | ⟨h1, h2, h3⟩
      · left; rw [← e1, h1, h2, h3]
      · right; rw [← e1, h1, h2, h3]
    · refine ⟨[], [], fun p hp => ?_⟩
      simp only [DagSource.get, pyramid, Digraph.map, List.mem_map] at hp
      obtain ⟨⟨x, y⟩, hxy, e⟩ := hp
      exact absurd ⟨y, (Prod.mk.inj e).2.symm⟩ hv

/-- **C85, pebbling.** `cnfgen peb --tree h` and `cnfgen peb --pyramid h` piped into the solver: the verdict is "UNSAT". -/
theorem C85_pebbling (d : DagSource) (hp : parse gen = some ((Cmd.peb d).args verbose hdr)) :
    ∃ out, cnfgen id parse parseT (cmdLine gen []) = pure (some out) ∧ Decides hash ma env g out False := by
  obtain ⟨hw, hac⟩ := dag_ok d
  obtain ⟨F, h1, _, h2⟩ := (C64_pebbling d.get hw).2 hac
  have e := h1
  unfold pebbling at e
  rw [if_pos ((Digraph.isDag_iff hw).2 hac)] at e
  refine decides_of_coh hash ha hfact hm hf g parse parseT gen hg verbose hdr hp h1 (ofParts_coh e) (h2.trans (iff_of_false (dag_nonempty d) id)) ?_ ?_
  · intro c hc
    obtain ⟨v, _, hc⟩ := List.mem_flatMap.1 hc
    rcases List.mem_cons.1 hc with rfl | hc
    · refine ⟨by simp, ?_⟩
      have := dag_preds d v
      simp
      omega
    · split at hc
      · rw [List.mem_singleton.1 hc]; simp
      · simp at hc
  · obtain ⟨v, hv⟩ := List.exists_mem_of_ne_nil _ (dag_nonempty d)
    refine ⟨_, List.mem_flatMap.2 ⟨v, hv, List.mem_cons_self ..⟩, ?_⟩
    have hvv : v ∉ d.get.preds v := fun h => hac v (.single ((Digraph.mem_preds hw).1 h))
    rintro ⟨b, w⟩ hl hl'
    cases b
    · simp at hl hl'
      subst hl'
      exact hvv hl
    · simp at hl hl'
      subst hl
      exact hvv hl'

/-- **C85, Pythagorean triples.** `cnfgen ptn n` (`n ≥ 5`) piped into the solver: the verdict is "SAT" exactly if `1, …, n` can be colored with two colors without a
triple in one color. -/
theorem C85_pythagorean {isqrt : Nat → Nat} {n : Nat} (hn : 5 ≤ n) (hs : ∀ z ≤ n, isqrt (z ^ 2) = z) (hp : parse gen = some ((Cmd.ptn isqrt n).args verbose hdr)) :
    ∃ out, cnfgen id parse parseT (cmdLine gen []) = pure (some out) ∧ Decides hash ma env g out
      (∃ color : Nat → Bool, ∀ x y z, 1 ≤ x → 1 ≤ y → z ≤ n → x ^ 2 + y ^ 2 = z ^ 2 → ¬ (color x = color y ∧ color y = color z)) := by
  obtain ⟨F, h1, h2⟩ := C59_pythagorean isqrt n hs
  refine decides_of_coh hash ha hfact hm hf g parse parseT gen hg verbose hdr hp h1 (ofPartsStrict_coh h1) h2 ?_ ?_
  · intro c hc
    obtain ⟨p, _, hc⟩ := List.mem_flatMap.1 hc
    dsimp only at hc
    split at hc
    · simp only [List.mem_cons, List.not_mem_nil, or_false] at hc
      rcases hc with rfl | rfl <;> simp
    · simp at hc
  · have hs5 : isqrt (3 ^ 2 + 4 ^ 2) = 5 := hs 5 hn
    refine ⟨[(true, fmt1 "x".toList 3), (true, fmt1 "x".toList 4), (true, fmt1 "x".toList 5)], List.mem_flatMap.2 ⟨(3, 4), ?_, ?_⟩, ?_⟩
    · rw [oneTo_pairs, mem_oneTo', mem_oneTo']
      omega
    · dsimp only
      rw [hs5, if_pos ⟨hn, by norm_num⟩]
      exact List.mem_cons_self ..
    · intro l hl hl'
      simp only [List.mem_cons, List.not_mem_nil, or_false] at hl hl'
      rcases hl with rfl | rfl | rfl <;> simp at hl'

omit ha hfact hm hf hg in
theorem parity_nonempty {V : Type} [DecidableEq V] {vs : List V} (hn : vs.Nodup) (h0 : vs ≠ []) (k : Nat) (hk : k ≤ 1) : ∃ c, c ∈ parityConstraint vs k := by
  by_contra hc
  have h1 : ∀ α : V → Bool, nTrue α vs % 2 = k := by
    intro α
    have := (C48_parity α vs k).1 (fun c h => absurd ⟨c, h⟩ hc)
    omega
  obtain ⟨v, vs', rfl⟩ : ∃ v vs', vs = v :: vs' := by
    cases vs with
    | nil => exact absurd rfl h0
    | cons v vs' => exact ⟨v, vs', rfl⟩
  have h2 := h1 fun _ => false
  have h3 := h1 fun w => decide (w = v)
  have h4 : (vs'.filter fun w => decide (w = v)) = [] := by
    rw [List.filter_eq_nil_iff]
    intro w hw
    simp only [decide_eq_true_eq]
    rintro rfl
    exact (List.nodup_cons.1 hn).1 hw
  simp [nTrue, h4] at h2 h3
  omega

open Classical in
omit ha hfact hm hf hg in
theorem even_of_classes {A : Type} {R : A → A → Prop} (hR : Equivalence R) : ∀ (m : Nat) (L : List A), L.length ≤ m →
    (∀ r ∈ L, (L.filter fun x => R r x).length % 2 = 0) → L.length % 2 = 0
  | 0, L, hm, _ => by have : L.length = 0 := by omega
                      omega
  | m + 1, L, hm, h => by
    cases L with
    | nil => rfl
    | cons r L' =>
      have hsplit := List.length_eq_length_filter_add (l := r :: L') (fun x => decide (R r x))
      have h1 := h r (List.mem_cons_self ..)
      have h2 := even_of_classes hR m ((r :: L').filter fun x => !decide (R r x)) (by
        have : 1 ≤ ((r :: L').filter fun x => decide (R r x)).length :=
          List.length_pos_of_mem (List.mem_filter.2 ⟨List.mem_cons_self .., by simpa using hR.refl r⟩)
        omega) (by
        intro r' hr'
        obtain ⟨hm', hn⟩ := List.mem_filter.1 hr'
        have hn' : ¬ R r r' := by simpa using hn
        rw [List.filter_filter]
        rw [List.filter_congr (q := fun x => decide (R r' x))]
        · exact h r' hm'
        · intro x _
          by_cases hx : R r' x
          · have : ¬ R r x := fun h => hn' (hR.trans h (hR.symm hx))
            simp [hx, this]
          · simp [hx])
      omega

open Classical in
omit ha hfact hm hf hg in
/-- An odd number of odd charges cannot be even in every component. -/
theorem charges_even {G : Graph} {cs : List Bool} (hl : cs.length = G.verts.length)
    (h : ∀ v ∈ G.verts, ∃ k, ((G.verts.zip cs).filter fun p => p.2 ∧ Reach G v p.1).length = 2 * k) : (cs.filter id).length % 2 = 0 := by
  have h1 : ((G.verts.zip cs).filter fun p => p.2).length = (cs.filter id).length := by
    have e : cs = (G.verts.zip cs).map Prod.snd := (List.map_snd_zip (by omega)).symm
    conv_rhs => rw [e]
    rw [List.filter_map, List.length_map]
    rfl
  rw [← h1]
  refine even_of_classes (R := fun p q : Nat × Bool => Reach G p.1 q.1) ⟨fun _ => .refl, fun h => h.symm, fun h h' => h.trans h'⟩ _ _ (Nat.le_refl _) ?_
  intro p hp
  obtain ⟨hp1, _⟩ := List.mem_filter.1 hp
  obtain ⟨k, hk⟩ := h p.1 (List.of_mem_zip (show (p.1, p.2) ∈ _ from hp1)).1
  rw [List.filter_filter]
  rw [List.filter_congr (q := fun q => decide (q.2 = true ∧ Reach G p.1 q.1)) (by intro q _; rw [Bool.decide_and, Bool.and_comm]; simp)]
  rw [hk]
  omega

open Classical in
/-- **C85, Tseitin formulas.** `cnfgen tseitin --charge … <graph>` piped into the solver, for a graph in which every vertex has one to three neighbours: the verdict is "SAT" exactly if
every component has an even number of odd charges; so it is "UNSAT" for the charges `first` and `randomodd`, and "SAT" for `randomeven` if the graph is connected. -/
theorem C85_tseitin {ch : Charge} {coins : Nat → Bool} {a : GraphArgs} (hl : a.Legal) (hr : ¬ a.Refused) (hadd : a.addedges = none)
    (hne : ∀ G, a.Gives G → G.verts ≠ [] ∧ ∀ v ∈ G.verts, 1 ≤ (G.neighbors v).length ∧ (G.neighbors v).length ≤ 3)
    (hp : parse gen = some ((Cmd.tseitin ch coins a).args verbose hdr)) :
    ∃ out G cs, a.Gives G ∧ ChargesOK ch G.verts.length cs ∧ cnfgen id parse parseT (cmdLine gen []) = pure (some out) ∧
      Decides hash ma env g out (∀ v ∈ G.verts, ∃ k, ((G.verts.zip cs).filter fun p => p.2 ∧ Reach G v p.1).length = 2 * k) ∧
      (ch = .first ∨ ch = .randomodd → Decides hash ma env g out False) ∧ (ch = .randomeven → G.Connected → Decides hash ma env g out True) := by
  rcases C84_obtain_graph hl with ⟨h1, _⟩ | ⟨_, ⟨G, vs, h2, h3, h4⟩ | ⟨_, k, hk⟩⟩
  · exact absurd h1 hr
  · have hw := h3.toGraph_wf
    obtain ⟨hv0, hdeg⟩ := hne _ h4
    have hlen : G.nodes.length = G.toGraph.verts.length := by rw [h3.toNat_verts, h3.nodes.length_eq, List.length_map]
    rcases chargeVec_ok ch coins G.toGraph.verts.length with ⟨hz, _⟩ | ⟨hnz, cs, hcs, hok⟩
    · exact absurd (List.length_eq_zero_iff.1 hz) hv0
    have e : (Cmd.tseitin ch coins a).cnf = tseitin G.toGraph (some cs) := by
      show (obtainGraph a >>= _) = _
      rw [h2, M.pure_bind, hlen, hcs]
    obtain ⟨F, k1, k2⟩ := C53_tseitin G.toGraph hw cs
    obtain ⟨out, q1, q2⟩ := decides_of_coh hash ha hfact hm hf g parse parseT gen hg verbose hdr hp (e.trans k1) (ofPartsStrict_coh k1) k2 (by
        intro d hd
        obtain ⟨p, hp, hd⟩ := List.mem_flatMap.1 hd
        have hd := congrArg List.length (mem_parity hd)
        rw [List.length_map, List.length_map] at hd
        have := hdeg p.1 (List.of_mem_zip (show (p.1, p.2) ∈ _ from hp)).1
        refine ⟨?_, by omega⟩
        rintro rfl
        simp at hd
        omega) (by
        obtain ⟨v, hv⟩ := List.exists_mem_of_ne_nil _ hv0
        have hz : ∃ b, (v, b) ∈ G.toGraph.verts.zip (tseCharges G.toGraph (some cs)) := by
          obtain ⟨i, hi, rfl⟩ := List.getElem_of_mem hv
          have hlt : i < (tseCharges G.toGraph (some cs)).length := by
            simp only [tseCharges, List.length_append, List.length_replicate]; omega
          exact ⟨_, List.mem_iff_getElem.2 ⟨i, by simp; omega, List.getElem_zip ..⟩⟩
        obtain ⟨b, hb⟩ := hz
        obtain ⟨c, hc⟩ := parity_nonempty (tseVars_nodup hw v) (by
          have := (hdeg v hv).1
          intro h0
          have := congrArg List.length h0
          simp only [tseVars, List.length_map, List.length_nil] at this
          omega) (if b then 1 else 0) (by split <;> omega)
        refine ⟨c, List.mem_flatMap.2 ⟨_, hb, hc⟩, fun l hl' hn' => ?_⟩
        have hnd : (c.map Prod.snd).Nodup := by rw [mem_parity hc]; exact tseVars_nodup hw v
        have := List.inj_on_of_nodup_map hnd hl' hn' rfl
        obtain ⟨b, v⟩ := l
        cases b <;> simp at this)
    have hiff : ∀ {P Q : Prop}, (P ↔ Q) → Decides hash ma env g out P → Decides hash ma env g out Q := by
      rintro P Q h ⟨root, r1, r2⟩
      exact ⟨root, r1, fun hn => by obtain ⟨o, rep, s1, s2, s3, s4⟩ := r2 hn; exact ⟨o, rep, s1, s2, s3, s4.trans h⟩⟩
    refine ⟨out, _, cs, h4, hok, q1, q2, fun hch => hiff (iff_of_false (fun hev => ?_) id) q2, fun hch hcon => hiff (iff_of_true (fun v hv => ?_) trivial) q2⟩
    · have hev := charges_even hok.1 hev
      rcases hch with rfl | rfl
      · have hf1 := hok.2 hnz
        dsimp only at hf1
        have : cs = true :: List.replicate (G.toGraph.verts.length - 1) false := by
          refine List.ext_getElem? fun i => ?_
          by_cases hi : i < G.toGraph.verts.length
          · rw [hf1 i hi]
            cases i with
            | zero => rfl
            | succ i =>
              rw [List.getElem?_cons_succ, List.getElem?_replicate, if_pos (by omega)]
              simp
          · rw [List.getElem?_eq_none (by rw [hok.1]; omega), List.getElem?_eq_none (by simp; omega)]
        rw [this] at hev
        simp at hev
      · have := hok.2 hnz
        dsimp only at this
        omega
    · subst hch
      have hodd := hok.2 hnz
      dsimp only at hodd
      refine ⟨(cs.filter id).length / 2, ?_⟩
      have h1 : ((G.toGraph.verts.zip cs).filter fun p => p.2).length = (cs.filter id).length := by
        have e : cs = (G.toGraph.verts.zip cs).map Prod.snd := (List.map_snd_zip (by rw [hok.1])).symm
        conv_rhs => rw [e]
        rw [List.filter_map, List.length_map]
        rfl
      rw [List.filter_congr (q := fun p => p.2), h1]
      · omega
      · intro p hp
        have := hcon v hv p.1 (List.of_mem_zip (show (p.1, p.2) ∈ _ from hp)).1
        have : Reach G.toGraph v p.1 := this
        simp [this]
  · rw [hadd] at hk
    exact absurd hk (by simp)
end

/-! ### Concrete cases -/

/-- The complete graph on four vertices is not refused, and the hypotheses of C85 hold of it. -/
example : let a : GraphArgs := { source := .complete 4 }
    a.Legal ∧ ¬ a.Refused ∧ a.addedges = none ∧ (∀ G, a.Gives G → G.verts ≠ []) ∧ (Cmd.kcolor 3 a).Legal := by
  have hl : GraphArgs.Legal { source := .complete 4 } := ⟨trivial, fun _ h => by simp at h, fun _ h => by simp at h⟩
  refine ⟨hl, ?_, rfl, ?_, hl⟩
  · rintro (h | ⟨vs, E, h, ⟨k, hk, _⟩ | ⟨k, hk, _⟩⟩)
    · exact h (List.range 4) (fun u v => u < 4 ∧ v < 4 ∧ u ≠ v) ⟨rfl, fun _ _ => Iff.rfl⟩
    · simp at hk
    · simp at hk
  · rintro G ⟨vs, E, h, hd, _, _, _, hv, _⟩
    rw [hv, hd.1]
    decide

/-- A planted clique, and more edges than there is room for: refused. -/
example : (GraphArgs.Refused { source := .empty 3, plantclique := some 4 }) ∧ ∃ h : Graph, h.Wf ∧ h.verts = List.range 3 ∧
    GraphArgs.Refused { source := .empty 3, addedges := some 4 } := by
  refine ⟨.inr ⟨List.range 3, fun _ _ => False, ⟨rfl, fun _ _ h => h⟩, .inl ⟨4, rfl, by omega, by simp⟩⟩, ⟨List.range 3, []⟩, ?_, rfl, ?_⟩
  · exact ⟨List.pairwise_lt_range, by simp, by simp, by simp⟩
  · refine .inr ⟨List.range 3, fun _ _ => False, ⟨rfl, fun _ _ h => h⟩, .inr ⟨4, rfl, ⟨List.range 3, []⟩, ⟨List.pairwise_lt_range, by simp, by simp, by simp⟩, rfl, ?_, by simp⟩⟩
    intro u v
    simp [Graph.hasEdge]

/-- What is printed: `cnfgen -q php 2 1`, `cnfgen -q tseitin --complete 3 --charge first`, `cnfgen -q kcolor 2 --complete 2`, `cnfgen -q peb --pyramid 1`. -/
example (parseT : List Str → Option (Option Trans)) :
    cnfgen id (fun _ => some ((Cmd.php 2 1 false false).args false fun _ => [])) parseT (cmdLine ["php".toList] []) = pure (some "p cnf 2 3\n1 0\n2 0\n-1 -2 0\n".toList) ∧
    cnfgen id (fun _ => some ((Cmd.tseitin .first (fun _ => false) { source := .complete 3 }).args false fun _ => [])) parseT (cmdLine ["tseitin".toList] []) =
      pure (some "p cnf 3 6\n1 2 0\n-1 -2 0\n1 -3 0\n-1 3 0\n2 -3 0\n-2 3 0\n".toList) ∧
    cnfgen id (fun _ => some ((Cmd.peb (.pyramid 1)).args false fun _ => [])) parseT (cmdLine ["peb".toList] []) =
      pure (some "p cnf 3 4\n1 0\n2 0\n-1 -2 3 0\n-3 0\n".toList) :=
  ⟨by rfl, by rfl, by rfl⟩

/-- The other hypotheses: an isomorphism of two graphs, a random formula. -/
example : (Cmd.giso { source := .complete 3 } { source := .kthlist "3\n1 : 2 3 0\n2 : 3 0\n".toList }).cnf ≠ raise .valueError ∧ 1 ≤ 3 ∧
    8 ≤ {c | Candidate 3 3 [] c}.ncard ∧ (Cmd.ptn (fun z => Nat.sqrt z) 5).Legal := by
  refine ⟨by rintro ⟨⟩, by decide, by rw [C68_count]; decide, fun z _ => ?_⟩
  rw [Nat.pow_two]
  exact Nat.sqrt_eq z

end NDP.Cnfgen
