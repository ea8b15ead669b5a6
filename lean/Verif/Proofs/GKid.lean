import Verif.Proofs.Gdb
import Verif.Props.Graph
/- One pass of the loop with the global table, whether the children are computed or pulled from the table. -/
namespace NDP
open Spec SetObj
variable {H : Type} [DecidableEq H] (hash : Str → H) (a : Args) (im : Mode)

/-- The outcome of one child: constant value, or a set to be linked. -/
structure Kid (H : Type) where
  value : Option Bool
  ev : Dict Int Bool
  item : SetObj H
  dig : H

def Kid.edges (k : Kid H) : List H :=
  match k.value with
  | some _ => []
  | none => [k.dig]

/-- Effect of handling the child `k` of the node `pid`; the last argument lists the nodes to be queued. -/
inductive GChild (pid : H) (k : Kid H) : PS H → PS H → List (SetObj H) → Prop
  | const (ps : PS H) (v : Bool) (hv : k.value = some v) :
      GChild pid k ps { ps with
        solution := if v = true ∧ ps.solution = none then some (sortItems k.ev) else ps.solution,
        isSat := ps.isSat || v } []
  | uniq (ps : PS H) (ks : List H) (hv : k.value = none)
      (hnew : ps.nodesChildren.get? k.dig = none) (hpid : ps.nodesChildren.get? pid = some ks) :
      GChild pid k ps { ps with
        uniques := ps.uniques + 1,
        nodesChildren := (ps.nodesChildren.set k.dig []).set pid (ks ++ [k.dig]) } [k.item]
  | red (ps : PS H) (ks : List H) (rids : List H) (hv : k.value = none)
      (hold : (ps.nodesChildren.get? k.dig).isSome) (hpid : ps.nodesChildren.get? pid = some ks) :
      GChild pid k ps { ps with
        redundantHits := ps.redundantHits + 1, redundantIds := rids,
        nodesChildren := ps.nodesChildren.set pid (ks ++ [k.dig]) } []

/-- The outcome of a child computed by branching. -/
def kidOf (ch : SetObj H) : Kid H :=
  { value := ch.value, ev := ch.evaluatedVars, dig := digestOf hash a im ch,
    item := match ch.toLo im a.sortBySize a.thief with
      | some (.ok c) => childItem hash c
      | _ => {} }

theorem kidOf_lo {ch c : SetObj H} (hv : ch.value = none) (hlo : ch.toLo im a.sortBySize a.thief = pure c) :
    kidOf hash a im ch = { value := none, ev := ch.evaluatedVars, dig := hid hash c, item := childItem hash c } := by
  unfold kidOf digestOf
  rw [hv, hlo]; rfl

theorem ChildStep.gchild {pid : H} {ps ps' : PS H} {ch : SetObj H} {news : List (SetObj H)}
    (h : ChildStep hash a im pid ps ch ps' news) : GChild pid (kidOf hash a im ch) ps ps' news := by
  cases h with
  | const v hv => exact GChild.const (k := kidOf hash a im ch) ps v hv
  | uniq c ks hv hlo hnew hpid =>
    have e := kidOf_lo hash a im hv hlo
    have := GChild.uniq (k := kidOf hash a im ch) (pid := pid) ps ks hv (by rw [e]; exact hnew) hpid
    rw [e] at this ⊢
    exact this
  | red c ks rids hv hlo hold hpid =>
    have e := kidOf_lo hash a im hv hlo
    have := GChild.red (k := kidOf hash a im ch) (pid := pid) ps ks rids hv (by rw [e]; exact hold) hpid
    rw [e] at this ⊢
    exact this

theorem kidsOf_eq {R : Cnf} (hR : Proper R) {x ch : SetObj H} {b : Bool} (hx : Tracks R x) (hch : IsChild x b ch) :
    (kidOf hash a im ch).edges = kidsOf hash a im ch := by
  unfold Kid.edges kidsOf
  match hv : ch.value with
  | some v => have : (kidOf hash a im ch).value = some v := hv
              rw [this]
  | none =>
    obtain ⟨c, hlo, _⟩ := toLo_tracks hR im a.sortBySize a.thief (hch.pre hx hv)
    rw [kidOf_lo hash a im hv hlo, hlo]
    rfl

/-- The graph after one child. -/
theorem GChild.graph {pid : H} {k : Kid H} {ps ps' : PS H} {news : List (SetObj H)}
    (h : GChild pid k ps ps' news) (hk : k.value = none → hid hash k.item = k.dig)
    {ks : List H} (hpid : ps.nodesChildren.get? pid = some ks) :
    ps'.nodesChildren.get? pid = some (ks ++ k.edges) ∧
    (∀ j, j ≠ pid → ps'.nodesChildren.get? j =
      if j ∈ news.map (hid hash) then some [] else ps.nodesChildren.get? j) ∧
    (∀ j ∈ k.edges, (ps'.nodesChildren.get? j).isSome) ∧
    (∀ n ∈ news, ps.nodesChildren.get? (hid hash n) = none) ∧
    (∀ n ∈ news, hid hash n ∈ k.edges ∧ n = k.item) ∧ news.length ≤ 1 ∧
    ps'.queue = ps.queue ∧ ps'.gdb = ps.gdb ∧ ps'.leaves = ps.leaves := by
  cases h with
  | const v hv => simp [Kid.edges, hv, hpid]
  | uniq ks' hv hnew hpid' =>
    have e : ks' = ks := by rw [hpid] at hpid'; simpa using hpid'.symm
    subst e
    have hi := hk hv
    have hne : k.dig ≠ pid := by rintro rfl; rw [hnew] at hpid; simp at hpid
    simp only [Kid.edges, hv, List.map_cons, List.map_nil, hi, List.mem_singleton, forall_eq]
    refine ⟨by rw [Dict.get?_set]; simp, ?_, ?_, hnew, ⟨trivial, trivial⟩, by simp, trivial, trivial, trivial⟩
    · intro j hj
      rw [Dict.get?_set_ne _ _ (Ne.symm hj), Dict.get?_set]
      by_cases e : j = k.dig
      · simp [e]
      · simp only [e, Ne.symm (a := j) e, if_false]
    · rw [Dict.get?_set_ne _ _ (Ne.symm hne), Dict.get?_set]; simp
  | red ks' rids hv hold hpid' =>
    have e : ks' = ks := by rw [hpid] at hpid'; simpa using hpid'.symm
    subst e
    simp only [Kid.edges, hv, List.map_nil, List.not_mem_nil, if_false, List.mem_singleton, forall_eq,
      false_implies, implies_true, and_true, true_and]
    refine ⟨by rw [Dict.get?_set]; simp, ?_, ?_, by simp⟩
    · intro j hj
      rw [Dict.get?_set_ne _ _ (Ne.symm hj)]
    · rw [Dict.get?_set]; split
      · rfl
      · exact hold

/-! ### what is on the queue -/

/-- A set as it can stand on the queue. -/
structure Shape (x : SetObj H) : Prop where
  sto : Storable x
  pos : ∀ v ∈ varsOf (raws x.clauses), 1 ≤ v

/-- A set without a map of names, as pulled from the table. -/
def Bare (x : SetObj H) : Prop := x.finalNamesMap = [] ∧ x.evaluatedVars = []

/-- Nodes on the queue are either tracked or bare. -/
def GItem (R : Cnf) (x : SetObj H) : Prop := Shape x ∧ (Tracks R x ∨ Bare x)

theorem Tracks.shape {R : Cnf} {x : SetObj H} (h : Tracks R x) : Shape x :=
  ⟨h.storable, fun v hv => (h.node.vars v hv).1⟩

theorem Tracks.gitem {R : Cnf} {x : SetObj H} (h : Tracks R x) : GItem R x := ⟨h.shape, Or.inl h⟩

theorem Storable.store {x : SetObj H} (h : Storable x) (db : Bool) : Storable (store db x) := by
  have hr := raws_store db x
  have hm : ∀ P : List Int → Prop, (∀ c ∈ x.clauses, P c.raw) → ∀ c ∈ (NDP.store db x).clauses, P c.raw := by
    intro P hP c hc
    have : c.raw ∈ raws x.clauses := by rw [← hr]; exact List.mem_map.2 ⟨c, hc, rfl⟩
    obtain ⟨d, hd, e⟩ := List.mem_map.1 this
    rw [← e]; exact hP d hd
  refine ⟨?_, hm (fun c => c ≠ []) h.cne, hm _ h.asc, ?_, ?_, ?_⟩
  · intro e
    rw [e] at hr
    have : x.clauses = [] := by simpa [raws] using hr.symm
    exact h.ne this
  · unfold NDP.store; split
    · rfl
    · exact h.value
  · unfold NDP.store; split
    · exact nodup_keys_trueFirst h.evnd
    · exact h.evnd
  · unfold NDP.store; split
    · exact h.ovnd
    · exact h.ovnd

theorem Shape.store {x : SetObj H} (h : Shape x) (db : Bool) : Shape (store db x) :=
  ⟨h.sto.store db, by rw [raws_store]; exact h.pos⟩

theorem Bare.store {x : SetObj H} (h : Bare x) (db : Bool) : Bare (store db x) := by
  unfold NDP.store
  split
  · exact ⟨h.1, by simp [decode, h.2, trueFirst]⟩
  · exact h

theorem GItem.store {R : Cnf} {x : SetObj H} (h : GItem R x) (db : Bool) : GItem R (store db x) :=
  ⟨h.1.store db, h.2.imp (fun t => t.store db) (fun b => b.store db)⟩

theorem Shape.hid_store {x : SetObj H} (h : Shape x) (db : Bool) : hid hash (NDP.store db x) = hid hash x :=
  hid_congr hash (h.sto.store db).cne h.sto.cne (raws_store db x)

theorem Bare.evPos {x : SetObj H} (h : Bare x) : EvPos x := by
  intro k hk; rw [h.2] at hk; simp at hk

theorem getHash_shape {x : SetObj H} (h : Shape x) (hc : x.computedHash = some (hid hash x) ∨ x.computedHash = none) :
    x.getHash hash false = pure (hid hash x, { x with computedHash := some (hid hash x) }) := by
  have hb : x.toStr = pure (bodyStr x.clauses) := toStr_ok h.sto.value h.sto.ne
  unfold getHash
  rcases hc with hc | hc
  · rw [hc]; simp only; rw [← hc]
  · rw [hc, hb]; rfl

theorem mem_ofList {c : List Int} {l : Int} (h : l ∈ (Clause.ofList c).raw) : l ∈ c := by
  unfold Clause.ofList at h
  simp only at h
  split at h
  · simp at h
  · split at h
    · simp at h
    · simpa using h

/-- Branching on a set without names raises `IndexError`. -/
theorem evaluate_bare {x : SetObj H} (h : Shape x) (hb : x.finalNamesMap = []) : x.evaluate = raise .indexError := by
  have hname : ∀ v, 1 ≤ v → x.origName v = raise .indexError := by
    intro v hv
    unfold SetObj.origName pyIndex
    rw [hb, if_pos (by omega)]
    rfl
  have horig : ∀ ch : SetObj H, (∀ v ∈ varsOf (raws ch.clauses), 1 ≤ v) →
      x.childOriginals ch = pure [] ∨ x.childOriginals ch = raise .indexError := by
    intro ch hpos
    unfold SetObj.childOriginals
    rw [getVariables_eq]
    match hm : varsOf (raws ch.clauses) with
    | [] => left; rfl
    | v :: vs =>
      right
      rw [List.mapM_cons, hname v (hpos v (by rw [hm]; simp))]
      rfl
  have hsub : ∀ (cls : List Clause) (st : EvalSt) (p : Int), (∀ c ∈ cls, ∀ l ∈ c.raw, l ≠ 0) →
      (∀ c ∈ st.left, ∀ l ∈ c.raw, l ≠ 0) → (∀ c ∈ st.right, ∀ l ∈ c.raw, l ≠ 0) →
      (∀ c ∈ (cls.foldl (evalClause p) st).left, ∀ l ∈ c.raw, l ≠ 0) ∧
      (∀ c ∈ (cls.foldl (evalClause p) st).right, ∀ l ∈ c.raw, l ≠ 0) := by
    intro cls
    induction cls with
    | nil => intro st p _ h1 h2; exact ⟨h1, h2⟩
    | cons c cs ih =>
      intro st p h0 h1 h2
      have hof : ∀ l ∈ (Clause.ofList c.raw).raw, l ≠ 0 := fun l hl => h0 c (by simp) l (mem_ofList hl)
      have hof2 : ∀ l ∈ (Clause.ofList (Clause.ofList c.raw).raw).raw, l ≠ 0 := fun l hl => hof l (mem_ofList hl)
      rw [List.foldl_cons]
      apply ih _ _ (fun d hd => h0 d (by simp [hd]))
      all_goals
        unfold evalClause
        simp only
        repeat' split
        all_goals first
          | exact h1
          | exact h2
          | (intro d hd l hl
             simp only [List.mem_append, List.mem_singleton] at hd
             rcases hd with hd | rfl
             · first
                | exact h1 d hd l hl
                | exact h2 d hd l hl
             · first
                | exact hof l hl
                | exact hof2 l hl
                | exact hof l (List.mem_of_mem_erase hl))
  have hx0 : ∀ c ∈ x.clauses, ∀ l ∈ c.raw, l ≠ 0 := by
    intro c hc l hl e
    have := h.pos l.natAbs (mem_varsOf.2 ⟨c.raw, List.mem_map.2 ⟨c, hc, rfl⟩, l, hl, rfl⟩)
    rw [e] at this; simp at this
  unfold SetObj.evaluate
  match hc : x.clauses with
  | [] => exact absurd hc h.sto.ne
  | c0 :: cs =>
    simp only
    match hr : c0.raw with
    | [] => exact absurd hr (h.sto.cne c0 (by simp [hc]))
    | l0 :: ls =>
      simp only
      have hl0 : 1 ≤ l0.natAbs := by
        have := hx0 c0 (by simp [hc]) l0 (by simp [hr])
        omega
      have hfold := hsub (c0 :: cs) {} (l0.natAbs : Int) (by rw [← hc]; exact hx0) (by simp) (by simp)
      generalize hst : (c0 :: cs).foldl (evalClause (l0.natAbs : Int)) {} = st at hfold ⊢
      have hvars : ∀ (cls : List Clause), (∀ c ∈ cls, ∀ l ∈ c.raw, l ≠ 0) → ∀ v ∈ varsOf (raws cls), 1 ≤ v := by
        intro cls hcls v hv
        obtain ⟨c, hc, l, hl, rfl⟩ := mem_varsOf.1 hv
        obtain ⟨d, hd, rfl⟩ := List.mem_map.1 hc
        have := hcls d hd l hl
        omega
      have key : ∀ L Rr : SetObj H, L.clauses = st.left → Rr.clauses = st.right → (do
          let lo ← x.childOriginals L
          let ro ← x.childOriginals Rr
          let pname ← x.origName l0.natAbs
          let left := { L with originalValues := lo, evaluatedVars := x.evaluatedVars.set pname true }
          let right := { Rr with originalValues := ro, evaluatedVars := x.evaluatedVars.set pname false }
          pure (some (left, right)) : M (Option (SetObj H × SetObj H))) = raise .indexError := by
        intro L Rr hL hRr
        rcases horig L (by rw [hL]; exact hvars _ hfold.1) with e1 | e1 <;>
        rcases horig Rr (by rw [hRr]; exact hvars _ hfold.2) with e2 | e2 <;>
        rw [e1] <;> (try rw [e2]) <;> (try rw [hname _ hl0]) <;> rfl
      apply key
      · split <;> rfl
      · split <;> rfl

end NDP
