import Verif.Props.Verdict
/-
  C12-C14: branching, tracking of the partial assignment and of the names, merging of equal sets.
-/
namespace NDP
open Spec SetObj
variable {H : Type} [DecidableEq H]

/-! ### C12 -/

/-- What a child returned by `evaluate` means: T, F, or its clauses. -/
def Means (ch : SetObj H) (α : Assign) : Prop :=
  match ch.value with
  | some true => True
  | some false => False
  | none => Sat α (raws ch.clauses)

/-- The children of a node: `ch` is `F` with variable `p` set to `b`.  T exactly when no clause is left, F exactly when
some clause became empty, otherwise its clauses are exactly those left, each without its false literal, in order. -/
structure BranchOf (F : Cnf) (p : Nat) (b : Bool) (ch : SetObj H) : Prop where
  isTrue : ch.value = some true ↔ residual [((p : Int), b)] F = []
  isFalse : ch.value = some false ↔ [] ∈ residual [((p : Int), b)] F
  clauses : ch.value = none → raws ch.clauses = residual [((p : Int), b)] F
  meaning : ∀ α : Assign, α p = b → (Sat α F ↔ Means ch α)

theorem IsChild.branchOf {s ch : SetObj H} {b : Bool} (h : IsChild s b ch) :
    BranchOf (raws s.clauses) (pivotOf (raws s.clauses)) b ch := by
  have hT : ch.value = some true ↔ residual [((pivotOf (raws s.clauses) : Int), b)] (raws s.clauses) = [] := by
    rw [h.value]; exact childVal_true
  have hFa : ch.value = some false ↔ [] ∈ residual [((pivotOf (raws s.clauses) : Int), b)] (raws s.clauses) := by
    rw [h.value]; exact childVal_false
  have hC : ch.value = none → raws ch.clauses = residual [((pivotOf (raws s.clauses) : Int), b)] (raws s.clauses) := by
    intro hn
    rw [h.clauses]
    apply nonempties_eq
    intro hm
    rw [hFa.2 hm] at hn; simp at hn
  refine ⟨hT, hFa, hC, ?_⟩
  intro α hα
  have hag : Agrees α [((pivotOf (raws s.clauses) : Int), b)] := by
    intro v b' hv
    simp only [Dict.get?_cons, Dict.get?_nil] at hv
    split at hv
    · next e => have e : pivotOf (raws s.clauses) = v := by simpa using e
                rw [← e, hα]; simpa using hv
    · simp at hv
  rw [sat_residual hag]
  unfold Means
  match hv : ch.value with
  | some true => simp [hT.1 hv, Sat]
  | some false =>
    have := hFa.1 hv
    simp only [iff_false]
    intro hs
    obtain ⟨l, hl, _⟩ := hs [] this
    simp at hl
  | none => simp only [hC hv]

/-- **C12** Branching is exact: on every node (non-empty ordered clauses over named variables) `evaluate` returns two
children, the first for the leading variable of the first clause true, the second for it false, and each records that
choice under the variable's input name on top of the partial assignment of the node. -/
theorem C12_branching_exact {s : SetObj H} (h : Node s) :
    ∃ l r p, s.evaluate = pure (some (l, r)) ∧ (∃ x xs cs, raws s.clauses = (x :: xs) :: cs ∧ p = x.natAbs) ∧
      BranchOf (raws s.clauses) p true l ∧ BranchOf (raws s.clauses) p false r ∧
      l.evaluatedVars = s.evaluatedVars.set (nameOf s p : Int) true ∧
      r.evaluatedVars = s.evaluatedVars.set (nameOf s p : Int) false ∧
      (∀ v ∈ varsOf (raws l.clauses), l.originalValues.get? v = some (nameOf s v)) ∧
      (∀ v ∈ varsOf (raws r.clauses), r.originalValues.get? v = some (nameOf s v)) := by
  obtain ⟨l, r, hev, hl, hr⟩ := evaluate_ok h
  refine ⟨l, r, pivotOf (raws s.clauses), hev, ?_, hl.branchOf, hr.branchOf, hl.ev, hr.ev, ?_, ?_⟩
  · cases hc : s.clauses with
    | nil => exact absurd hc h.ne
    | cons c cs =>
      cases hr : c.raw with
      | nil => exact absurd hr (h.cne c (by simp [hc]))
      | cons x xs => exact ⟨x, xs, raws cs, by simp [raws, hr], by simp [raws, hr, pivotOf]⟩
  · intro v hv; rw [hl.ov, Dict.get?_map_self]; simp [hv]
  · intro v hv; rw [hr.ov, Dict.get?_map_self]; simp [hv]

/-! ### C13 -/

section
variable (hash : Str → H) (a : Args) (im : Mode) (seen : List H)

/-- The states a process goes through, from `ps0` on. -/
inductive Visits (ps0 : PS H) : PS H → Prop
  | start : Visits ps0 ps0
  | next {ps ps' : PS H} (h : Visits ps0 ps) (hk : keepGoing a ps = true)
      (hx : expand hash a im seen ps = pure ps') : Visits ps0 ps'

/-- `x` is taken off the queue at some point of the run started on the node `s`: by the process itself, or by a worker
process started on a node taken off the queue earlier. -/
inductive Popped : SetObj H → SetObj H → Prop
  | here {s x : SetObj H} {g : Gdb H} {u : Nat} {ps0 ps : PS H} {q : Queue H} (h0 : initPS hash a g u s = pure ps0)
      (hv : Visits hash a im seen ps0 ps) (hp : ps.queue.pop = pure (x, q)) : Popped s x
  | worker {s y x : SetObj H} (hy : Popped s y) (hx : Popped y x) : Popped s x

variable {hash a im seen}

theorem visits_inv (hg : a.useGlobalDb = false) {R : Cnf} (hR : Proper R) {s : SetObj H} (hs : Ready hash a R s)
    {g : Gdb H} {u : Nat} {ps0 ps : PS H} (h0 : initPS hash a g u s = pure ps0) (h : Visits hash a im seen ps0 ps) :
    ∃ l, Inv hash a im R s (hid hash s) ps l := by
  induction h with
  | start =>
    obtain ⟨ps0', h0', hinv, _⟩ := initPS_ok hash a im g u hs
    have e := (M.pure_inj _ _).1 (h0.symm.trans h0')
    subst e
    exact ⟨_, hinv⟩
  | @next ps ps' h hk hx ih =>
    obtain ⟨l, hi⟩ := ih
    rw [hi.keepGoing hash a im hs.tracks.ne_nil] at hk
    match l, hi with
    | [], _ => simp at hk
    | x :: l, hi =>
      obtain ⟨ps'', l', e1, e2, _⟩ := hi.step hash a im hg seen hR
      have e := (M.pure_inj _ _).1 (hx.symm.trans e1)
      subst e
      exact ⟨l', e2⟩

theorem pop_inv {R : Cnf} {s : SetObj H} {root : H} {ps : PS H} {l : List (SetObj H)} (hi : Inv hash a im R s root ps l)
    {x : SetObj H} {q : Queue H} (hp : ps.queue.pop = pure (x, q)) : ∃ l', l = x :: l' := by
  cases l with
  | nil =>
    have h1 := hi.rep
    unfold Rep at h1
    unfold Queue.pop at hp
    split at h1
    · next hd => simp [hd, h1.2.1] at hp
    · next hd => simp [hd, h1] at hp
  | cons y l =>
    obtain ⟨q', h1, _⟩ := hi.rep.pop
    have e := (M.pure_inj _ _).1 (hp.symm.trans h1)
    simp at e
    exact ⟨l, by rw [e.1]⟩

theorem Popped.ready (hg : a.useGlobalDb = false) {R : Cnf} (hR : Proper R) {s x : SetObj H} (hs : Ready hash a R s)
    (h : Popped hash a im seen s x) : Ready hash a R x ∧ Met hash a im s x := by
  induction h with
  | here h0 hv hp =>
    obtain ⟨l, hi⟩ := visits_inv hg hR hs h0 hv
    obtain ⟨l', rfl⟩ := pop_inv hi hp
    exact ⟨hi.ready hash a im hR hs (by simp), (hi.items _ (by simp)).2.1⟩
  | worker hy hx ih1 ih2 =>
    obtain ⟨h1, h2⟩ := ih1 hs
    obtain ⟨h3, h4⟩ := ih2 h1
    exact ⟨h3, h2.trans hash a im h4⟩

end

/-- **C13** Every node the search takes off its queue (in the main process or in a worker) is exactly the input under
the node's recorded partial assignment, translated through its name maps: new name `v` ↦ name before normalisation at
position `v-1` of the final-names map ↦ input name in the original-values map; distinct variables have distinct
input names, and no variable is recorded twice in the partial assignment. -/
theorem C13_tracking (hash : Str → H) {a : Args} (ha : Local a) (im : Mode) (seen : List H) {F : Cnf} (hF : Proper F)
    (hne : F ≠ []) {root : SetObj H} (h : Input F root) {s : SetObj H} {k : H}
    (hroot : prepareRoot hash a root = pure (s, k)) {x : SetObj H} (hx : Popped hash a im seen s x) :
    let name : Nat → Nat := fun v => (x.originalValues.get? (x.finalNamesMap.getD (v - 1) 0)).getD 0
    SameClauses (mapCnf name (raws x.clauses)) (residual x.evaluatedVars F) ∧
    (∀ u ∈ varsOf (raws x.clauses), ∀ v ∈ varsOf (raws x.clauses), name u = name v → u = v) ∧
    (∀ v ∈ varsOf (raws x.clauses), name v ∈ varsOf F) ∧
    x.evaluatedVars.keys.Nodup := by
  obtain ⟨s', hs', hr, _⟩ := prepareRoot_ok hash a hF (h.loaded hF hne)
  have e := (M.pure_inj _ _).1 (hroot.symm.trans hs')
  simp at e
  obtain ⟨rfl, _⟩ := e
  have ht := (hx.ready ha.gdb hF hr).1.tracks
  refine ⟨ht.same, ht.inj, ?_, ht.evnd⟩
  intro v hv
  have h1 : nameOf x v ∈ varsOf (mapCnf (nameOf x) (raws x.clauses)) := varsOf_mapCnf.2 ⟨v, hv, rfl⟩
  rw [SameClauses.mem_vars ht.same] at h1
  exact (mem_vars_residual h1).1

/-! ### C14 -/

/-- **C14** (serialised bodies) Two undecided sets with non-empty clauses have the same serialised body exactly when
they have the same clause list. -/
theorem C14_body_identity {s t : SetObj H} (hs : s.value = none) (ht : t.value = none)
    (hs1 : s.clauses ≠ []) (ht1 : t.clauses ≠ []) (hs2 : ∀ c ∈ s.clauses, c.raw ≠ []) (ht2 : ∀ c ∈ t.clauses, c.raw ≠ []) :
    s.toStr = t.toStr ↔ raws s.clauses = raws t.clauses := by
  rw [toStr_ok hs hs1, toStr_ok ht ht1, M.pure_inj]
  exact ⟨bodyStr_inj hs1 ht1 hs2 ht2, bodyStr_congr hs2 ht2⟩

/-- The body of an undecided set is never that of T or F. -/
theorem C14_body_not_const {s : SetObj H} (hs : s.value = none) (hs1 : s.clauses ≠ []) :
    s.toStr ≠ pure ['T'] ∧ s.toStr ≠ pure ['F'] := by
  rw [toStr_ok hs hs1]
  constructor <;> intro e
  · exact bodyStr_ne_const.1 ((M.pure_inj _ _).1 e)
  · exact bodyStr_ne_const.2 ((M.pure_inj _ _).1 e)

/-- Handling an undecided child: it is kept as a new node exactly when no node with its identity is in the graph. -/
theorem processChild_unique {hash : Str → H} {a : Args} {im : Mode} {R : Cnf} (hR : Proper R) {x ch ch' : SetObj H} {b : Bool}
    (hx : Tracks R x) (hch : IsChild x b ch) {pid : H} {ks : List H} {ps ps' : PS H}
    (hpid : ps.nodesChildren.get? pid = some ks) (hv : ch.value = none)
    (hrun : processChild hash a im false (some pid) ps ch = pure (ps', ch')) :
    ∃ c, ch.toLo im a.sortBySize a.thief = pure c ∧ Tracks R c ∧
      (ch'.status = some .unique ↔ hid hash c ∉ ps.nodesChildren.keys) ∧
      (∀ k, k ∈ ps'.nodesChildren.keys ↔ k = hid hash c ∨ k ∈ ps.nodesChildren.keys) ∧
      (∃ ks', ps'.nodesChildren.get? pid = some ks') := by
  obtain ⟨c, hlo, htr, _⟩ := toLo_tracks hR im a.sortBySize a.thief (hch.pre hx hv)
  refine ⟨c, hlo, htr, ?_⟩
  obtain ⟨ps2, ch2, news, h1, h2, _, _, h5⟩ := processChild_ok hash a im hR hx hch hpid
  have e := (M.pure_inj _ _).1 (hrun.symm.trans h1)
  simp at e
  obtain ⟨rfl, rfl⟩ := e
  cases h2 with
  | const v hv' => rw [hv] at hv'; simp at hv'
  | uniq c' ks' hv' hlo' hnew hpid' =>
    have e := (M.pure_inj _ _).1 (hlo.symm.trans hlo')
    subst e
    refine ⟨?_, ?_, ?_⟩
    · rcases h5 with ⟨h, _⟩ | ⟨_, h⟩
      · simp at h
      · simp only [h, true_iff]; exact (Dict.get?_eq_none_iff _ _).1 hnew
    · intro k
      have hm : pid ∈ ps.nodesChildren.keys := Dict.mem_keys_of_get? hpid
      simp only [Dict.mem_keys_set]
      constructor
      · rintro (rfl | h)
        · exact Or.inr hm
        · exact h
      · exact Or.inr
    · exact ⟨_, Dict.get?_set_self _ _ _⟩
  | red c' ks' rids hv' hlo' hold hpid' =>
    have e := (M.pure_inj _ _).1 (hlo.symm.trans hlo')
    subst e
    have hmem : hid hash c ∈ ps.nodesChildren.keys := (Dict.mem_keys_iff _ _).2 hold
    refine ⟨?_, ?_, ?_⟩
    · rcases h5 with ⟨_, h⟩ | ⟨h, _⟩
      · simp only [h, false_iff, not_not]; exact hmem
      · simp at h
    · intro k
      have hm : pid ∈ ps.nodesChildren.keys := Dict.mem_keys_of_get? hpid
      simp only [Dict.mem_keys_set]
      constructor
      · rintro (rfl | h)
        · exact Or.inr hm
        · exact Or.inr h
      · rintro (rfl | h)
        · exact Or.inr hmem
        · exact Or.inr h
    · exact ⟨_, Dict.get?_set_self _ _ _⟩

theorem processChild_const {hash : Str → H} {a : Args} {im : Mode} {R : Cnf} (hR : Proper R) {x ch ch' : SetObj H} {b : Bool}
    (hx : Tracks R x) (hch : IsChild x b ch) {pid : H} {ks : List H} {ps ps' : PS H}
    (hpid : ps.nodesChildren.get? pid = some ks) (hv : ch.value ≠ none)
    (hrun : processChild hash a im false (some pid) ps ch = pure (ps', ch')) :
    ch'.status ≠ some .unique ∧ ps'.nodesChildren = ps.nodesChildren := by
  obtain ⟨ps2, ch2, news, h1, h2, _, _, h5⟩ := processChild_ok hash a im hR hx hch hpid
  have e := (M.pure_inj _ _).1 (hrun.symm.trans h1)
  simp at e
  obtain ⟨rfl, rfl⟩ := e
  cases h2 with
  | const v hv' => exact ⟨by simpa using h5, rfl⟩
  | uniq c' ks' hv' => exact absurd hv' hv
  | red c' ks' rids hv' => exact absurd hv' hv

/-- **C14** (merging) At every point of the search, a child of the node being expanded is kept as a new node exactly
when no set with the same clauses is in the graph (`hid y` is the digest of `y`'s body, the key of `y` in the graph);
otherwise it is merged with that identical set.  Absent digest collisions. -/
theorem C14_merge_only_identical (hash : Str → H) {a : Args} (ha : Local a) (seen : List H) {F : Cnf} (hF : Proper F)
    (hne : F ≠ []) {root : SetObj H} (h : Input F root) (hcoll : NoCollisions hash a root) {s : SetObj H} {k : H}
    (hroot : prepareRoot hash a root = pure (s, k)) {g : Gdb H} {u : Nat} {ps0 ps ps1 ps2 : PS H} {q : Queue H}
    {x l r l' r' : SetObj H}
    (h0 : initPS hash a g u s = pure ps0) (hv : Visits hash a (inputMode a) seen ps0 ps)
    (hp : ps.queue.pop = pure (x, q)) (hev : x.evaluate = pure (some (l, r)))
    (hl : processChild hash a (inputMode a) false x.id { ps with queue := q } l = pure (ps1, l'))
    (hr : processChild hash a (inputMode a) false x.id ps1 r = pure (ps2, r')) :
    (l.value = none → ∃ c, l.toLo (inputMode a) a.sortBySize a.thief = pure c ∧
      (l'.status = some .unique ↔ ∀ y, Met hash a (inputMode a) s y → hid hash y ∈ ps.nodesChildren.keys →
        raws y.clauses ≠ raws c.clauses)) ∧
    (r.value = none → ∃ c, r.toLo (inputMode a) a.sortBySize a.thief = pure c ∧
      (r'.status = some .unique ↔ ∀ y, Met hash a (inputMode a) s y → hid hash y ∈ ps1.nodesChildren.keys →
        raws y.clauses ≠ raws c.clauses)) := by
  obtain ⟨s', hs', hrd, _⟩ := prepareRoot_ok hash a hF (h.loaded hF hne)
  have e := (M.pure_inj _ _).1 (hroot.symm.trans hs')
  simp at e
  obtain ⟨rfl, _⟩ := e
  have hcoll' := hcoll s k hroot
  obtain ⟨ls, hi⟩ := visits_inv ha.gdb hF hrd h0 hv
  obtain ⟨rest, rfl⟩ := pop_inv hi hp
  obtain ⟨hxt, hxm, hxp, hxi, hxn⟩ := hi.items x (by simp)
  obtain ⟨l0, r0, hev', hcl, hcr⟩ := evaluate_ok hxt.node
  cases pure_inj_some (hev.symm.trans hev')
  -- all keys of the graph are digests of nodes met
  have hkeys : ∀ k ∈ ps.nodesChildren.keys, ∃ y, Met hash a (inputMode a) s y ∧ hid hash y = k := by
    intro k hk
    obtain ⟨ks, hks⟩ := Dict.exists_get?_of_mem hk
    rcases hi.done k ks hks with ⟨y, hy, e⟩ | ⟨y, _, hm, e, _⟩
    · exact ⟨y, (hi.items y hy).2.1, e⟩
    · exact ⟨y, hm, e⟩
  have main : ∀ (keys : List H) (ch c : SetObj H), (∀ k ∈ keys, ∃ y, Met hash a (inputMode a) s y ∧ hid hash y = k) →
      (ch = l ∨ ch = r) → ch.value = none → ch.toLo (inputMode a) a.sortBySize a.thief = pure c → Tracks F c →
      (hid hash c ∉ keys ↔ ∀ y, Met hash a (inputMode a) s y → hid hash y ∈ keys → raws y.clauses ≠ raws c.clauses) := by
    intro keys ch c hk hch hv hlo htr
    have hm := Met.child (hash := hash) hxm hev hch hv hlo
    have hhid : hid hash (store a.useRuntimeDb (childItem hash c)) = hid hash c := by
      have : Node (childItem hash c) := { htr.node with }
      rw [hid_store hash this]; rfl
    have hraw : raws (store a.useRuntimeDb (childItem hash c)).clauses = raws c.clauses := by
      rw [raws_store]; rfl
    constructor
    · intro hn y hy hyk e
      apply hn
      rw [hid_congr hash htr.node.cne (hy.tracks hash a (inputMode a) hF hrd.tracks).node.cne e.symm]
      exact hyk
    · intro hall hin
      obtain ⟨y, hy, e⟩ := hk _ hin
      refine hall y hy (by rw [e]; exact hin) ?_
      rw [hcoll' y _ hy hm (by rw [e, hhid]), hraw]
  rw [hxi] at hl hr
  constructor
  · intro hv
    obtain ⟨c, h1, h2, h3, _⟩ := processChild_unique hF hxt hcl (ps := { ps with queue := q }) hxn hv hl
    exact ⟨c, h1, h3.trans (main ps.nodesChildren.keys l c hkeys (Or.inl rfl) hv h1 h2)⟩
  · intro hv
    have hkeys1 : (∀ k ∈ ps1.nodesChildren.keys, ∃ y, Met hash a (inputMode a) s y ∧ hid hash y = k) ∧
        ∃ ks', ps1.nodesChildren.get? (hid hash x) = some ks' := by
      by_cases hvl : l.value = none
      · obtain ⟨c, h1, h2, _, h4, h5⟩ := processChild_unique hF hxt hcl (ps := { ps with queue := q }) hxn hvl hl
        refine ⟨fun k hk => ?_, h5⟩
        rcases (h4 k).1 hk with rfl | hk
        · refine ⟨_, Met.child (hash := hash) hxm hev (Or.inl rfl) hvl h1, ?_⟩
          have : Node (childItem hash c) := { h2.node with }
          rw [hid_store hash this]; rfl
        · exact hkeys k hk
      · obtain ⟨_, h2⟩ := processChild_const hF hxt hcl (ps := { ps with queue := q }) hxn hvl hl
        rw [h2]
        exact ⟨hkeys, _, hxn⟩
    obtain ⟨ks', hks'⟩ := hkeys1.2
    obtain ⟨c, h1, h2, h3, _⟩ := processChild_unique hF hxt hcr hks' hv hr
    exact ⟨c, h1, h3.trans (main ps1.nodesChildren.keys r c hkeys1.1 (Or.inr rfl) hv h1 h2)⟩

/-! ### non-vacuity -/

/-- The root of the search on `exSat` is a node taken off the queue; it meets the hypotheses of C12 and C13. -/
example : ∃ s k x, prepareRoot (fun s : Str => s) { mode := .flop, useRuntimeDb := true } (mkSet exSat) = pure (s, k) ∧
    Popped (fun s : Str => s) { mode := .flop, useRuntimeDb := true } .flop [] s x ∧ Node x ∧
    (∃ ps0 q l r, initPS (fun s : Str => s) { mode := .flop, useRuntimeDb := true } [] 1 s = pure ps0 ∧
      ps0.queue.pop = pure (x, q) ∧ x.evaluate = pure (some (l, r))) := by
  have hI := input_mkSet (H := Str) exSat_proper (by simp [exSat])
  obtain ⟨s, hs, hr, _⟩ := prepareRoot_ok (fun s : Str => s) { mode := .flop, useRuntimeDb := true } exSat_proper
    (hI.loaded exSat_proper (by simp [exSat]))
  obtain ⟨ps0, h0, hinv, _⟩ := initPS_ok (fun s : Str => s) { mode := .flop, useRuntimeDb := true } .flop [] 1 hr
  obtain ⟨q, hq, _⟩ := hinv.rep.pop
  have hn := (hinv.items _ (List.mem_singleton.2 rfl)).1.node
  obtain ⟨l, r, hev, _⟩ := evaluate_ok hn
  exact ⟨s, _, _, hs, Popped.here h0 Visits.start hq, hn, ps0, q, l, r, h0, hq, hev⟩

end NDP
