import Verif.Proofs.Body
import Verif.Proofs.Track
/- The node queue, in memory or in the runtime DB, is a FIFO queue of nodes. -/
namespace NDP
open Spec SetObj
variable {H : Type}

/-- What a node can look like when it is put on the queue. -/
structure Storable (x : SetObj H) : Prop where
  ne : x.clauses ≠ []
  cne : ∀ c ∈ x.clauses, c.raw ≠ []
  asc : ∀ c ∈ x.clauses, Asc c.raw
  value : x.value = none
  evnd : x.evaluatedVars.keys.Nodup
  ovnd : x.originalValues.keys.Nodup

/-- The partial assignment can be written in the runtime DB (no negative names). -/
def EvPos (x : SetObj H) : Prop := ∀ k ∈ x.evaluatedVars.keys, 0 ≤ k

/-- A node as it comes back from the runtime DB. -/
def decode (x : SetObj H) : SetObj H :=
  { clauses := renumber 1 (raws x.clauses), evaluatedVars := trueFirst x.evaluatedVars,
    originalValues := x.originalValues, finalNamesMap := x.finalNamesMap, id := x.id }

/-- A node as it comes back from the queue. -/
def store (db : Bool) (x : SetObj H) : SetObj H := if db then decode x else x

theorem raws_store (db : Bool) (x : SetObj H) : raws (store db x).clauses = raws x.clauses := by
  unfold store; split
  · exact raws_renumber _ _
  · rfl

theorem id_store (db : Bool) (x : SetObj H) : (store db x).id = x.id := by
  unfold store; split <;> rfl

theorem keys_trueFirst_mem {d : Dict Int Bool} {k : Int} : k ∈ (trueFirst d).keys ↔ k ∈ d.keys := by
  have hp : (trueFirst d).Perm d := List.filter_append_perm _ d
  exact (hp.map Prod.fst).mem_iff

theorem EvPos.store {x : SetObj H} (h : EvPos x) (db : Bool) : EvPos (store db x) := by
  unfold NDP.store; split
  · intro k hk; exact h k (keys_trueFirst_mem.1 hk)
  · exact h

theorem partialVal_congr {d e : Dict Int Bool} (h : ∀ k, d.get? k = e.get? k) (l : Int) :
    partialVal d l = partialVal e l := by unfold partialVal; rw [h]

theorem residual_congr {d e : Dict Int Bool} (h : ∀ k, d.get? k = e.get? k) (F : Cnf) :
    residual d F = residual e F := by
  unfold residual; simp only [partialVal_congr h]

theorem node_store {x : SetObj H} (h : Node x) (db : Bool) : Node (store db x) := by
  have hv : (store db x).value = none := by unfold store; split; exact rfl; exact h.value
  have hr := raws_store db x
  have hm : ∀ P : List Int → Prop, (∀ c ∈ x.clauses, P c.raw) → ∀ c ∈ (store db x).clauses, P c.raw := by
    intro P hP c hc
    have : c.raw ∈ raws x.clauses := by rw [← hr]; exact List.mem_map.2 ⟨c, hc, rfl⟩
    obtain ⟨d, hd, e⟩ := List.mem_map.1 this
    rw [← e]; exact hP d hd
  have hf : (store db x).finalNamesMap = x.finalNamesMap := by unfold store; split <;> rfl
  have ho : (store db x).originalValues = x.originalValues := by unfold store; split <;> rfl
  refine ⟨?_, hm (fun c => c ≠ []) h.cne, hm _ h.asc, ?_, ?_, hv⟩
  · intro e
    rw [e] at hr
    have : x.clauses = [] := by simpa [raws] using hr.symm
    exact h.ne this
  · rw [hr, hf]; exact h.vars
  · rw [hr, hf, ho]; exact h.names

theorem nameOf_store (db : Bool) (x : SetObj H) : nameOf (store db x) = nameOf x := by
  unfold store; split
  · rfl
  · rfl

theorem Tracks.store {R : Cnf} {x : SetObj H} (h : Tracks R x) (db : Bool) : Tracks R (store db x) := by
  have hr := raws_store db x
  have hf : (NDP.store db x).finalNamesMap = x.finalNamesMap := by unfold NDP.store; split <;> rfl
  have ho : (NDP.store db x).originalValues = x.originalValues := by unfold NDP.store; split <;> rfl
  refine ⟨node_store h.node db, ?_, ?_, ?_, ?_, ?_, ?_, ?_⟩
  · rw [hr, nameOf_store]; exact h.pos
  · rw [hr, nameOf_store]; exact h.inj
  · rw [hr, nameOf_store]
    have : residual (NDP.store db x).evaluatedVars R = residual x.evaluatedVars R := by
      unfold NDP.store; split
      · exact residual_congr (get?_trueFirst h.evnd) R
      · rfl
    rw [this]; exact h.same
  · unfold NDP.store; split
    · exact nodup_keys_trueFirst h.evnd
    · exact h.evnd
  · rw [hf, hr]; exact h.nvars
  · rw [ho]; exact h.ovnd
  · unfold NDP.store; split
    · intro k hk; exact h.evp k (keys_trueFirst_mem.1 hk)
    · exact h.evp

theorem Tracks.storable {R : Cnf} {x : SetObj H} (h : Tracks R x) : Storable x :=
  ⟨h.node.ne, h.node.cne, h.node.asc, h.node.value, h.evnd, h.ovnd⟩

theorem decode_idem (x : SetObj H) : decode (decode x) = decode x := by
  unfold decode; simp [trueFirst_idem]

theorem store_idem (db : Bool) (x : SetObj H) : store db (store db x) = store db x := by
  unfold store; split
  · exact decode_idem x
  · rfl

theorem toStr_ok {x : SetObj H} (h1 : x.value = none) (h2 : x.clauses ≠ []) :
    x.toStr = pure (bodyStr x.clauses) := by
  unfold toStr; rw [h1]
  simp [h2]

variable [DecidableEq H]

/-- The queue `q` holds the nodes `l`, first out first (as they will come out). -/
def Rep (q : Queue H) (l : List (SetObj H)) : Prop :=
  if q.useDb then q.table.aborted = false ∧ q.ids = l.map (·.id) ∧
    ∀ x ∈ l, ∃ h y, x.id = some h ∧ x = decode y ∧ Storable y ∧ EvPos y ∧
      q.table.rows.get? h = some (bodyStr y.clauses, y.serializeProperties)
  else q.objs = l

theorem Rep.empty (db : Bool) : Rep ({ useDb := db } : Queue H) [] := by
  unfold Rep; cases db <;> simp

theorem Rep.size {q : Queue H} {l : List (SetObj H)} (h : Rep q l) : q.size = l.length := by
  unfold Rep at h; unfold Queue.size
  split at h
  · next e => simp [e, h.2.1]
  · next e => simp [e, h]

theorem Rep.insert {q : Queue H} {l : List (SetObj H)} (h : Rep q l) {x : SetObj H} {hx : H}
    (hid : x.id = some hx) (hs : Storable x) (hp : q.useDb = true → EvPos x)
    (hnew : q.useDb = true → hx ∉ q.table.rows.keys) :
    ∃ q', q.insert x = pure q' ∧ Rep q' (l ++ [store q.useDb x]) ∧ q'.useDb = q.useDb ∧
      ∀ k ∈ q'.table.rows.keys, k = hx ∨ k ∈ q.table.rows.keys := by
  unfold Queue.insert
  by_cases hdb : q.useDb = true
  · have hp := hp hdb
    have hnew := hnew hdb
    simp only [hdb, if_true, toStr_ok hs.value hs.ne, M.pure_bind]
    unfold Rep at h
    rw [if_pos hdb] at h
    have hget : q.table.rows.get? hx = none := (Dict.get?_eq_none_iff _ _).2 hnew
    have hins : q.table.insertSet x.id (bodyStr x.clauses) x.serializeProperties =
        { q.table with rows := q.table.rows.set hx (bodyStr x.clauses, x.serializeProperties) } := by
      unfold RtTable.insertSet
      simp [h.1, hid, Dict.contains, hget]
    rw [hins]
    refine ⟨_, rfl, ?_, rfl, ?_⟩
    · unfold Rep
      simp only [if_true]
      refine ⟨h.1, ?_, ?_⟩
      · simp [h.2.1, store, decode]
      · intro y hy
        rcases List.mem_append.1 hy with hy | hy
        · obtain ⟨k, z, a1, a2, a3, a4, a5⟩ := h.2.2 y hy
          refine ⟨k, z, a1, a2, a3, a4, ?_⟩
          rw [Dict.get?_set_ne, a5]
          rintro rfl
          exact hnew (Dict.mem_keys_of_get? a5)
        · rw [List.mem_singleton] at hy
          subst hy
          refine ⟨hx, x, ?_, rfl, hs, hp, ?_⟩
          · simp [store, decode, hid]
          · rw [Dict.get?_set]; simp
    · intro k hk
      exact (Dict.mem_keys_set _ _ _ _).1 hk
  · have hf : q.useDb = false := by simpa using hdb
    simp only [hf, Bool.false_eq_true, if_false]
    unfold Rep at h
    rw [if_neg hdb] at h
    refine ⟨_, rfl, ?_, ?_, fun k hk => Or.inr hk⟩
    · unfold Rep; simp [hf, h, store]
    · rfl

theorem Rep.pop {q : Queue H} {x : SetObj H} {l : List (SetObj H)} (h : Rep q (x :: l)) :
    ∃ q', q.pop = pure (x, q') ∧ Rep q' l ∧ q'.useDb = q.useDb ∧ q'.table = q.table := by
  unfold Queue.pop
  by_cases hdb : q.useDb = true
  · unfold Rep at h
    rw [if_pos hdb] at h
    obtain ⟨h1, h2, h3⟩ := h
    obtain ⟨k, y, a1, a2, a3, a4, a5⟩ := h3 x (by simp)
    simp only [hdb, if_true]
    have hids : q.ids = x.id :: l.map (·.id) := by simpa using h2
    rw [hids, a1]
    have hget : q.table.getSet (some k) = some (k, bodyStr y.clauses, y.serializeProperties) := by
      unfold RtTable.getSet; simp [h1, a5]
    simp only [hget]
    have hne : y.serializeProperties.isEmpty = false := by
      simp [serializeProperties]
    simp only [hne, Bool.false_eq_true, if_false, ofLine_bodyStr a3.ne a3.cne a3.asc,
      properties_roundtrip y _ a3.evnd a4 a3.ovnd, M.pure_bind]
    refine ⟨{ q with ids := l.map (·.id) }, ?_, ?_, hdb, rfl⟩
    · rw [M.pure_inj]
      have e : y.id = some k := by rw [a2] at a1; exact a1
      rw [a2]
      unfold decode
      rw [e, hdb]
    · unfold Rep
      simp only [hdb, if_true]
      exact ⟨h1, trivial, fun z hz => h3 z (by simp [hz])⟩
  · unfold Rep at h
    rw [if_neg hdb] at h
    have hf : q.useDb = false := by simpa using hdb
    simp only [hf, Bool.false_eq_true, if_false, h]
    exact ⟨_, rfl, by unfold Rep; simp [hf], by simp, rfl⟩

theorem Rep.cons_of_nonempty {q : Queue H} {l : List (SetObj H)} (h : Rep q l) (hq : q.isEmpty = false) :
    ∃ x l', l = x :: l' := by
  unfold Queue.isEmpty at hq
  rw [h.size] at hq
  match l with
  | [] => simp at hq
  | x :: l' => exact ⟨x, l', rfl⟩

end NDP
