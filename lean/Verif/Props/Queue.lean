import Verif.Proofs.Queue
import Verif.Model.UniqueQueue
/-
  C08, C38: the queue of nodes.
-/
namespace NDP
open Spec SetObj
variable {H : Type} [DecidableEq H]

/-! ### specification -/

/-- A use of a queue: put an item in, or take one out. -/
inductive QOp (α : Type) where
  | ins (x : α)
  | pop

/-- First in, first out: what is taken out and what is left (`none`: an attempt to take from an empty queue). -/
def fifo {α : Type} : List α → List (QOp α) → Option (List α × List α)
  | l, [] => some ([], l)
  | l, .ins x :: ops => fifo (l ++ [x]) ops
  | [], .pop :: _ => none
  | x :: l, .pop :: ops => (fifo l ops).map fun r => (x :: r.1, r.2)

/-- The items put in, in order. -/
def inserted {α : Type} : List (QOp α) → List α
  | [] => []
  | .ins x :: ops => x :: inserted ops
  | .pop :: ops => inserted ops

/-- The same node: same clauses, identity, partial assignment (as a finite map) and name maps. -/
structure SameNode (x y : SetObj H) : Prop where
  clauses : raws x.clauses = raws y.clauses
  id : x.id = y.id
  value : x.value = y.value
  ev : ∀ k, x.evaluatedVars.get? k = y.evaluatedVars.get? k
  ov : x.originalValues = y.originalValues
  fnm : x.finalNamesMap = y.finalNamesMap

/-! ### running a script on the model queue -/

/-- The items popped and the final queue. -/
def runQ : Queue H → List (QOp (SetObj H)) → M (List (SetObj H) × Queue H)
  | q, [] => pure ([], q)
  | q, .ins x :: ops => do
    let q ← q.insert x
    runQ q ops
  | q, .pop :: ops => do
    let (x, q) ← q.pop
    let (xs, q) ← runQ q ops
    pure (x :: xs, q)

theorem store_same {x : SetObj H} (hv : x.value = none) (hnd : x.evaluatedVars.keys.Nodup) (db : Bool) :
    SameNode (store db x) x := by
  cases db
  · exact ⟨rfl, rfl, rfl, fun _ => rfl, rfl, rfl⟩
  · refine ⟨raws_store true x, rfl, hv.symm, fun k => get?_trueFirst hnd k, rfl, rfl⟩

theorem runQ_ok (ops : List (QOp (SetObj H))) : ∀ (q : Queue H) (l l' : List (SetObj H)), Rep q l' →
    List.Forall₂ SameNode l' l →
    (∀ x ∈ inserted ops, Storable x ∧ (q.useDb = true → EvPos x)) →
    (q.useDb = true → (∀ x ∈ inserted ops, ∃ h, x.id = some h ∧ h ∉ q.table.rows.keys) ∧
      ((inserted ops).map (·.id)).Nodup) →
    match fifo l ops with
    | none => runQ q ops = raise .indexError
    | some (xs, rest) => ∃ ys q', runQ q ops = pure (ys, q') ∧ List.Forall₂ SameNode ys xs ∧ q'.size = rest.length := by
  induction ops with
  | nil =>
    intro q l l' hrep hs _ _
    simp only [fifo, runQ]
    exact ⟨[], q, rfl, List.Forall₂.nil, by rw [hrep.size, hs.length_eq]⟩
  | cons op ops ih =>
    intro q l l' hrep hs hst hid
    cases op with
    | ins x =>
      simp only [fifo, runQ]
      obtain ⟨hsx, hpx⟩ := hst x (by simp [inserted])
      by_cases hdb : q.useDb = true
      · obtain ⟨h1, h2⟩ := hid hdb
        obtain ⟨h, hx, hnew⟩ := h1 x (by simp [inserted])
        obtain ⟨q', hq, hrep', hdb', hrows⟩ := hrep.insert hx hsx hpx (fun _ => hnew)
        rw [hq, M.pure_bind]
        refine ih q' (l ++ [x]) _ hrep' ?_ ?_ ?_
        · exact List.rel_append hs (List.Forall₂.cons (store_same hsx.value hsx.evnd _) List.Forall₂.nil)
        · intro y hy
          rw [hdb']; exact hst y (by simp [inserted, hy])
        · intro _
          simp only [inserted, List.map_cons, List.nodup_cons] at h2
          refine ⟨fun y hy => ?_, h2.2⟩
          obtain ⟨k, hk1, hk2⟩ := h1 y (by simp [inserted, hy])
          refine ⟨k, hk1, fun hk => ?_⟩
          rcases hrows k hk with rfl | hk
          · exact h2.1 (List.mem_map.2 ⟨y, hy, by rw [hk1, hx]⟩)
          · exact hk2 hk
      · have hf : q.useDb = false := by simpa using hdb
        have hq : q.insert x = pure { q with objs := q.objs ++ [x] } := by
          unfold Queue.insert; simp [hf]
        rw [hq, M.pure_bind]
        have hrep' : Rep { q with objs := q.objs ++ [x] } (l' ++ [x]) := by
          unfold Rep at hrep ⊢
          simp only [hf, Bool.false_eq_true, if_false] at hrep ⊢
          rw [hrep]
        refine ih _ (l ++ [x]) _ hrep' ?_ ?_ ?_
        · refine List.rel_append hs (List.Forall₂.cons ?_ List.Forall₂.nil)
          exact ⟨rfl, rfl, rfl, fun _ => rfl, rfl, rfl⟩
        · intro y hy; exact hst y (by simp [inserted, hy])
        · intro h; simp [hf] at h
    | pop =>
      cases hs with
      | nil =>
        simp only [fifo, runQ]
        have : q.pop = raise .indexError := by
          unfold Rep at hrep
          unfold Queue.pop
          split at hrep
          · next hd => simp [hd, hrep.2.1]
          · next hd => simp [hd, hrep]
        rw [this]; rfl
      | @cons y x l' l h1 h2 =>
        simp only [fifo, runQ]
        obtain ⟨q', hq, hrep', hdb', htab⟩ := hrep.pop
        have := ih q' l l' hrep' h2 (by rw [hdb']; exact hst) (by rw [hdb', htab]; exact hid)
        rw [hq, M.pure_bind]
        cases hfi : fifo l ops with
        | none =>
          rw [hfi] at this
          simp only at this
          simp only [Option.map_none]
          rw [this]; rfl
        | some r =>
          obtain ⟨xs, rest⟩ := r
          rw [hfi] at this
          simp only at this
          obtain ⟨ys, q'', e1, e2, e3⟩ := this
          simp only [Option.map_some]
          exact ⟨y :: ys, q'', by rw [e1]; rfl, List.Forall₂.cons h1 e2, e3⟩

/-- What can be written to the runtime DB: an undecided node with non-empty ordered clauses and an identity, whose
partial assignment mentions no negative name. -/
structure Writable (x : SetObj H) : Prop where
  storable : Storable x
  pos : ∀ k ∈ x.evaluatedVars.keys, 0 ≤ k
  id : x.id.isSome

/-- **C08** The runtime-DB queue is transparent: whatever is done with it, as long as the inserted nodes have different
identities, it behaves as a first-in first-out queue and every node comes back as the same node. -/
theorem C08_db_queue_transparent (ops : List (QOp (SetObj H))) (hw : ∀ x ∈ inserted ops, Writable x)
    (hid : ((inserted ops).map (·.id)).Nodup) :
    match fifo [] ops with
    | none => runQ { useDb := true } ops = raise .indexError
    | some (xs, rest) => ∃ ys q, runQ { useDb := true } ops = pure (ys, q) ∧ List.Forall₂ SameNode ys xs ∧
        q.size = rest.length := by
  refine runQ_ok ops { useDb := true } [] [] (Rep.empty true) List.Forall₂.nil
    (fun x hx => ⟨(hw x hx).storable, fun _ => (hw x hx).pos⟩) (fun _ => ⟨fun x hx => ?_, hid⟩)
  obtain ⟨h, e⟩ := Option.isSome_iff_exists.1 (hw x hx).id
  exact ⟨h, e, by simp⟩

/-- Putting the same identity in twice breaks the queue (the insert fails, and the failed transaction makes every later
read fail): the reason why C08 asks for different identities. -/
theorem C08_reinsert_breaks (x : SetObj H) (hw : Writable x) :
    runQ { useDb := true } [.ins x, .ins x, .pop] = raise .typeError := by
  obtain ⟨h, e⟩ := Option.isSome_iff_exists.1 hw.id
  have ht := toStr_ok hw.storable.value hw.storable.ne
  simp [runQ, Queue.insert, Queue.pop, ht, e, RtTable.insertSet, RtTable.getSet, Dict.contains]
  rfl

/-! ### C38 -/

/-- **C38** (plain queue) The in-memory queue is exactly a first-in first-out queue of arbitrary objects. -/
theorem C38_memory_fifo (ops : List (QOp (SetObj H))) (l : List (SetObj H)) :
    match fifo l ops with
    | none => runQ { useDb := false, objs := l } ops = raise .indexError
    | some (xs, rest) => runQ { useDb := false, objs := l } ops = pure (xs, { useDb := false, objs := rest }) ∧
        ({ useDb := false, objs := rest } : Queue H).size = rest.length ∧
        ({ useDb := false, objs := rest } : Queue H).isEmpty = rest.isEmpty := by
  induction ops generalizing l with
  | nil =>
    simp only [fifo, runQ, Queue.size, Queue.isEmpty]
    refine ⟨by first | rfl | trivial, rfl, ?_⟩
    cases l <;> simp
  | cons op ops ih =>
    cases op with
    | ins x => simp only [fifo, runQ]; exact ih (l ++ [x])
    | pop =>
      cases l with
      | nil => simp only [fifo, runQ, Queue.pop]; rfl
      | cons y l =>
        have := ih l
        simp only [fifo, runQ, Queue.pop, Bool.false_eq_true, if_false, M.pure_bind]
        cases hf : fifo l ops with
        | none =>
          rw [hf] at this
          simp only at this
          simp only [Option.map_none]
          rw [this]; rfl
        | some r =>
          rw [hf] at this
          simp only at this
          simp only [Option.map_some]
          exact ⟨by rw [this.1]; rfl, this.2⟩

theorem fifo_inserted {α : Type} (ops : List (QOp α)) : ∀ (l xs rest : List α), fifo l ops = some (xs, rest) →
    xs ++ rest = l ++ inserted ops := by
  induction ops with
  | nil => intro l xs rest h; simp [fifo] at h; simp [inserted, h.1, h.2]
  | cons op ops ih =>
    intro l xs rest h
    cases op with
    | ins x => rw [ih _ xs rest h]; simp [inserted]
    | pop =>
      cases l with
      | nil => simp [fifo] at h
      | cons y l =>
        simp only [fifo, Option.map_eq_some_iff] at h
        obtain ⟨⟨xs', rest'⟩, h1, h2⟩ := h
        simp only [Prod.mk.injEq] at h2
        rw [← h2.1, ← h2.2, List.cons_append, ih l xs' rest' h1]; rfl

/-- Running a script on a unique queue without DB. -/
def runU {α : Type} [DecidableEq α] : UQueue α H → List (QOp α) → M (List α × UQueue α H)
  | q, [] => pure ([], q)
  | q, .ins x :: ops => runU (q.insert x none [] []) ops
  | q, .pop :: ops => do
    let (x, q) ← q.pop
    let (xs, q) ← runU q ops
    match x with
    | .inl x => pure (x :: xs, q)
    | .inr _ => raise .typeError

theorem dedup_append_single {α : Type} [DecidableEq α] (l : List α) (x : α) :
    dedup (l ++ [x]) = if x ∈ l then dedup l else dedup l ++ [x] := by
  induction l with
  | nil => simp [dedup]
  | cons y l ih =>
    simp only [List.cons_append, dedup, ih, List.mem_cons]
    by_cases hx : x ∈ l
    · simp [hx]
    · simp only [hx, if_false, or_false]
      by_cases hy : x = y
      · subst hy
        simp only [if_true, List.filter_append]
        simp
      · simp [hy, List.filter_append]

/-- What is popped, followed by what is left, is what was inserted, each item once, in order of first insertion. -/
theorem runU_ok {α : Type} [DecidableEq α] (ops : List (QOp α)) : ∀ (q : UQueue α H) (past taken ys : List α) (q' : UQueue α H),
    q.useDb = false → q.ids = (dedup past).map UKey.item → taken ++ q.objs = dedup past →
    runU q ops = pure (ys, q') →
    q'.useDb = false ∧ taken ++ ys ++ q'.objs = dedup (past ++ inserted ops) := by
  induction ops with
  | nil =>
    intro q past taken ys q' hdb hids hobj hrun
    simp only [runU, M.pure_inj, Prod.mk.injEq] at hrun
    obtain ⟨rfl, rfl⟩ := hrun
    simp [inserted, hobj, hdb]
  | cons op ops ih =>
    intro q past taken ys q' hdb hids hobj hrun
    cases op with
    | ins x =>
      simp only [runU] at hrun
      have hmem : (UKey.item x : UKey α H) ∈ q.ids ↔ x ∈ past := by
        rw [hids]; simp
      have hpast : past ++ inserted (.ins x :: ops) = (past ++ [x]) ++ inserted ops := by simp [inserted]
      rw [hpast]
      by_cases hx : x ∈ past
      · have : q.insert x none [] [] = q := by unfold UQueue.insert; rw [if_pos (hmem.2 hx)]
        rw [this] at hrun
        exact ih q (past ++ [x]) taken ys q' hdb (by rw [dedup_append_single, if_pos hx]; exact hids)
          (by rw [dedup_append_single, if_pos hx]; exact hobj) hrun
      · have hno : x ∉ q.objs := by
          intro h
          have : x ∈ dedup past := by rw [← hobj]; simp [h]
          exact hx (by simpa using this)
        have hins : q.insert x none [] [] = { q with ids := q.ids ++ [.item x], objs := q.objs ++ [x] } := by
          unfold UQueue.insert
          rw [if_neg (fun h => hx (hmem.1 h))]
          simp [hdb, UQueue.addLast, hno, hmem, hx]
        rw [hins] at hrun
        refine ih { q with ids := q.ids ++ [.item x], objs := q.objs ++ [x] } (past ++ [x]) taken ys q' hdb ?_ ?_ hrun
        · simp [dedup_append_single, hx, hids]
        · simp only [dedup_append_single, if_neg hx, ← hobj]; simp
    | pop =>
      simp only [runU] at hrun
      obtain ⟨⟨x, q1⟩, h1, h2⟩ := M.bind_eq_pure.1 hrun
      unfold UQueue.pop at h1
      simp only [hdb, Bool.false_eq_true, if_false] at h1
      cases hq : q.objs with
      | nil => rw [hq] at h1; simp at h1
      | cons y rest =>
        rw [hq] at h1
        simp only [M.pure_inj, Prod.mk.injEq] at h1
        obtain ⟨rfl, rfl⟩ := h1
        obtain ⟨⟨xs, q2⟩, h3, h4⟩ := M.bind_eq_pure.1 h2
        simp only [M.pure_inj, Prod.mk.injEq] at h4
        obtain ⟨rfl, rfl⟩ := h4
        have := ih (Sum.inl (β := H × Str × Str) y, ({ q with useDb := false, objs := rest } : UQueue α H)).2 past (taken ++ [y]) xs q2
          rfl hids (by rw [hq] at hobj; simpa using hobj) h3
        simpa [inserted] using this

/-- **C38** (unique queue, no DB) Whatever is done, the items returned so far followed by those still in the queue are the
inserted ones, each exactly once, in order of first insertion; size counts what is left. -/
theorem C38_unique_fifo {α : Type} [DecidableEq α] (ops : List (QOp α)) {ys : List α} {q : UQueue α H}
    (hrun : runU { useDb := false } ops = pure (ys, q)) :
    ys ++ q.objs = dedup (inserted ops) ∧ ys.Nodup ∧ q.size = q.objs.length := by
  obtain ⟨h1, h2⟩ := runU_ok ops { useDb := false } [] [] ys q rfl rfl rfl hrun
  simp only [List.nil_append] at h2
  refine ⟨h2, ?_, by simp [UQueue.size, h1]⟩
  have := nodup_dedup (inserted ops)
  rw [← h2] at this
  exact (List.nodup_append.1 this).1

/-- Taking from an empty unique queue raises IndexError; from a non-empty one it succeeds. -/
theorem C38_unique_pop {α : Type} [DecidableEq α] (q : UQueue α H) (hdb : q.useDb = false) :
    (q.isEmpty = true → q.pop = raise .indexError) ∧ (q.isEmpty = false → ∃ x q', q.pop = pure (.inl x, q')) := by
  unfold UQueue.isEmpty UQueue.size UQueue.pop
  cases hq : q.objs with
  | nil => simp [hdb]
  | cons y l => simp [hdb]

/-- **C38 is violated** with `unique_queue=True` and a runtime DB: one insert is counted twice, and the item cannot be
taken out again. -/
theorem C38_unique_db_broken {α : Type} [DecidableEq α] (x : α) (id : Option H) (body props : Str) :
    (({ useDb := true } : UQueue α H).insert x id body props).size = 2 ∧
    (({ useDb := true } : UQueue α H).insert x id body props).pop = raise .typeError := by
  constructor <;> simp [UQueue.insert, UQueue.addLast, UQueue.size, UQueue.pop]

/-! ### non-vacuity -/

/-- Two nodes with maps and different identities. -/
def exNode1 : SetObj Nat :=
  { clauses := [{ raw := [1, 2], initialIndex := 4 }, { raw := [-2, 3] }], id := some 10, evaluatedVars := [(5, false), (2, true)],
    originalValues := [(1, 7), (2, 3), (3, 9)], finalNamesMap := [2, 1, 3] }
def exNode2 : SetObj Nat := { clauses := [{ raw := [-1] }], id := some 11, originalValues := [(1, 1)], finalNamesMap := [1] }

theorem exNode1_writable : Writable exNode1 := ⟨⟨by decide, by decide, by unfold Asc; decide, rfl, by decide, by decide⟩, by decide, rfl⟩
theorem exNode2_writable : Writable exNode2 := ⟨⟨by decide, by decide, by unfold Asc; decide, rfl, by decide, by decide⟩, by decide, rfl⟩

example : (∀ x ∈ inserted [QOp.ins exNode1, .pop, .ins exNode2, .pop], Writable x) ∧
    ((inserted [QOp.ins exNode1, .pop, .ins exNode2, .pop]).map (·.id)).Nodup ∧
    fifo [] [QOp.ins exNode1, .pop, .ins exNode2, .pop] = some ([exNode1, exNode2], []) := by
  refine ⟨?_, by decide, rfl⟩
  intro x hx
  simp [inserted] at hx
  rcases hx with rfl | rfl
  · exact exNode1_writable
  · exact exNode2_writable

example : ∃ q : UQueue Nat Unit, runU { useDb := false } [.ins 3, .ins 4, .ins 3, .pop, .ins 3, .pop] = pure ([3, 4], q) := ⟨_, rfl⟩

end NDP
