import Verif.Cnfgen.WellFormed
import Verif.Cnfgen.Dimacs
import Verif.Cnfgen.TransformCore
/-
  The formula object itself (C100): `software/cnfgen/cnfformula/cnf.py`, class `CNF`, with its two tables, the flag `_coherent`, the fast internal methods and all
  flags of `add_clause`.  `CNF` of `Base.lean` is what the object stands for.
-/
namespace NDP.Cnfgen
open NDP

variable {V : Type} [DecidableEq V]

/-! ### Model -/

/-- `cnf.py` 85-104 (`__init__` without clauses).  `index2name` leaves out the `None` at place 0, `name2index` is the dictionary in the order of insertion.
Not modelled: the header and the descriptions of variables. -/
structure CnfObj (V : Type) where
  index2name : List V := []
  name2index : List (V × Nat) := []
  clauses : List (List Int) := []
  coherent : Bool := true

/-- What a call gives: nothing, a truth value, or an exception. -/
inductive Res where
  | done | bool (b : Bool) | err (e : PyErr)
  deriving DecidableEq

/-- The methods that change the object.  `stringy` says which names are strings. -/
inductive ObjCall (V : Type) where
  | addVariable (v : V)
  | addClause (c : List (Lit V)) (repetitions opposite auto strict : Bool)
  | addClauseUnsafe (c : List (Lit V))
  | addCompressed (cs : List (List Int))
  | check (force : Bool)

namespace CnfObj

/-- `_name2index[v]`; `none`: a `KeyError`. -/
def lookup (o : CnfObj V) (v : V) : Option Nat := o.name2index.lookup v

/-- `cnf.py` 158-185 (`_compress_clause`). -/
def compress (o : CnfObj V) (c : List (Lit V)) : Option (List Int) :=
  c.mapM fun l => (o.lookup l.2).map fun (i : Nat) => (if l.1 then 1 else -1) * (i : Int)

/-- `cnf.py` 455-461: the tables get a new name. -/
def name (o : CnfObj V) (v : V) : CnfObj V :=
  match o.lookup v with
  | some _ => o
  | none => { o with index2name := o.index2name ++ [v], name2index := o.name2index ++ [(v, (o.index2name ++ [v]).length)] }

/-- `cnf.py` 439-465 (`add_variable`). -/
def addVariable (o : CnfObj V) (v : V) : CnfObj V × Res :=
  if !o.coherent then (o, .err .assertionError) else (o.name v, .done)

/-- `cnf.py` 399-408: the clause is appended; new variables are added first if allowed. -/
def append (o : CnfObj V) (c : List (Lit V)) (auto : Bool) : CnfObj V × Res :=
  match o.compress c with
  | some k => ({ o with clauses := o.clauses ++ [k] }, .done)
  | none =>
    if !auto then (o, .err .valueError)
    else
      let p := c.foldl (fun o l => (o.addVariable l.2).1) o
      match p.compress c with
      | some k => ({ p with clauses := p.clauses ++ [k] }, .done)
      | none => (p, .err .keyError)

/-- `cnf.py` 311-408 (`add_clause`).  The message about opposite literals joins the names: with a name that is not a string this is a `TypeError` (395).  Clauses are
lists of pairs that can be hashed. -/
def addClause (stringy : V → Bool) (o : CnfObj V) (c : List (Lit V)) (repetitions opposite auto strict : Bool) : CnfObj V × Res :=
  if !o.coherent then (o, .err .assertionError)
  else if !(repetitions && !strict) && decide (c.dedup.length ≠ c.length) then (o, .err .valueError)
  else
    let both := (c.filter (·.1)).map (·.2) |>.filter fun v => decide (v ∈ (c.filter fun l => !l.1).map (·.2))
    if !(opposite && !strict) && decide (both ≠ []) then (o, .err (if both.all stringy then .valueError else .typeError))
    else o.append c (auto && !strict)

/-- `cnf.py` 410-437 (`add_clause_unsafe`): the flag is not looked at. -/
def addClauseUnsafe (o : CnfObj V) (c : List (Lit V)) : CnfObj V × Res :=
  match o.compress c with
  | some k => ({ o with clauses := o.clauses ++ [k] }, .done)
  | none => (o, .err .keyError)

/-- `cnf.py` 188-249 (`_add_compressed_clauses`). -/
def addCompressed (o : CnfObj V) (cs : List (List Int)) : CnfObj V := { o with coherent := false, clauses := o.clauses ++ cs }

/-- `cnf.py` 285-301: the tests.  Simplified: a name that is missing in the dictionary, which would be a `KeyError`, counts as a difference (there is none). -/
def tested (o : CnfObj V) : Bool :=
  let N := o.name2index.length
  decide (N = o.index2name.length) && ((List.range N).all fun i => decide (o.index2name[i]?.bind o.lookup = some (i + 1))) &&
    o.clauses.all fun c => c.all fun l => decide (0 < l.natAbs ∧ l.natAbs ≤ N)

/-- `cnf.py` 252-305 (`_check_coherence`). -/
def check (o : CnfObj V) (force : Bool) : CnfObj V × Res :=
  if !force && o.coherent then (o, .bool true)
  else if o.tested then ({ o with coherent := true }, .bool true)
  else (o, .bool false)

/-- A call. -/
def call (stringy : V → Bool) (o : CnfObj V) : ObjCall V → CnfObj V × Res
  | .addVariable v => o.addVariable v
  | .addClause c r p a s => o.addClause stringy c r p a s
  | .addClauseUnsafe c => o.addClauseUnsafe c
  | .addCompressed cs => (o.addCompressed cs, .done)
  | .check f => o.check f

/-- A history of calls, exceptions being caught, from a given object: the object and the results. -/
def run (stringy : V → Bool) (o : CnfObj V) : List (ObjCall V) → CnfObj V × List Res
  | [] => (o, [])
  | c :: cs =>
    let r := o.call stringy c
    let q := run stringy r.1 cs
    (q.1, r.2 :: q.2)

/-- `cnf.py` 471-478 (`list(F.variables())`). -/
def readVariables (o : CnfObj V) : M (List V) := if !o.coherent then raise .assertionError else pure o.index2name

/-- `cnf.py` 142-156 (`_uncompress_clause`): the name at place 0 is `None`. -/
def uncompress (o : CnfObj V) (c : List Int) : M (List (Bool × Option V)) :=
  c.mapM fun l => do
    let v ← orRaise .indexError ((none :: o.index2name.map some)[l.natAbs]?)
    pure (decide (0 < l), v)

/-- `cnf.py` 122-127, 480-483 (`list(F.clauses())`, `list(F)`; the first also looks at the flag if there is no clause). -/
def readClauses (o : CnfObj V) : M (List (List (Bool × Option V))) := if !o.coherent then raise .assertionError else o.clauses.mapM o.uncompress

/-- `cnf.py` 135-138 (`len(F)`): the flag is not looked at. -/
def len (o : CnfObj V) : Nat := o.clauses.length

/-- `cnf.py` 533-564 (`_dimacs_dump_clauses`). -/
def dimacs (header : Option (Str × Option Str)) (o : CnfObj V) : M Str :=
  if !o.coherent then raise .assertionError else
  pure (((headerPart header).flatMap fun l => l ++ ['\n']) ++
    ("p cnf ".toList ++ natStr o.index2name.length ++ " ".toList ++ natStr o.len) ++
    (if o.clauses.length = 0 then ['\n'] else []) ++
    o.clauses.flatMap fun c => '\n' :: joinWith [' '] ((c ++ [0]).map intStr))

end CnfObj

/-! ### Specification -/

/-- All numbers of the clauses stand for one of the first `n` variables. -/
def InTable (n : Nat) (cs : List (List Int)) : Prop := ∀ c ∈ cs, ∀ l ∈ c, 1 ≤ l.natAbs ∧ l.natAbs ≤ n

/-- The clauses in the numbers of the internal methods, with the names of the variables. -/
def decode (vs : List V) (c : List Int) : List (Bool × Option V) := c.map fun l => (decide (0 < l), vs[l.natAbs - 1]?)

/-- The clauses a call adds if it gives the result: named, or as numbers. -/
def ObjCall.adds (vs : List V) : ObjCall V → Res → List (List (Bool × Option V))
  | .addClause c _ _ _ _, .done => [c.map fun l => (l.1, some l.2)]
  | .addClauseUnsafe c, .done => [c.map fun l => (l.1, some l.2)]
  | .addCompressed cs, _ => cs.map (decode vs)
  | _, _ => []

/-- The variables a call introduces if it gives the result, in order. -/
def ObjCall.names : ObjCall V → Res → List V
  | .addVariable v, .done => [v]
  | .addClause c _ _ _ _, .done => c.map (·.2)
  | _, _ => []

/-- The exception of a call on an object with variables `vs`, if any. -/
def ObjCall.Raises (stringy : V → Bool) (usable : Bool) (vs : List V) : ObjCall V → PyErr → Prop
  | .addVariable _, e => usable = false ∧ e = .assertionError
  | .addClause c r p a s, e =>
    (usable = false ∧ e = .assertionError) ∨
    (usable = true ∧ (r = false ∨ s = true) ∧ ¬ c.Nodup ∧ e = .valueError) ∨
    (usable = true ∧ ¬ ((r = false ∨ s = true) ∧ ¬ c.Nodup) ∧ (p = false ∨ s = true) ∧ (∃ v, (true, v) ∈ c ∧ (false, v) ∈ c) ∧
      ((e = .valueError ∧ ∀ v, (true, v) ∈ c → (false, v) ∈ c → stringy v = true) ∨ (e = .typeError ∧ ∃ v, (true, v) ∈ c ∧ (false, v) ∈ c ∧ stringy v = false))) ∨
    (usable = true ∧ ¬ ((r = false ∨ s = true) ∧ ¬ c.Nodup) ∧ ¬ ((p = false ∨ s = true) ∧ ∃ v, (true, v) ∈ c ∧ (false, v) ∈ c) ∧ (a = false ∨ s = true) ∧
      (∃ l ∈ c, l.2 ∉ vs) ∧ e = .valueError)
  | .addClauseUnsafe c, e => (∃ l ∈ c, l.2 ∉ vs) ∧ e = .keyError
  | .addCompressed _, _ => False
  | .check _, _ => False

/-- The names in the order in which they are seen first, after those already known. -/
def firstSeen (vs names : List V) : List V := names.foldl (fun acc v => if v ∈ acc then acc else acc ++ [v]) vs

/-- The object can be used: after a call of the fast internal method, only once a check has said "true". -/
def usable : List (ObjCall V × Res) → Bool → Bool
  | [], b => b
  | (.addCompressed _, _) :: h, _ => usable h false
  | (.check _, .bool true) :: h, _ => usable h true
  | _ :: h, b => usable h b

/-! ### Proofs -/

theorem lookup_zipIdx (l : List V) (v : V) (k : Nat) : (l.zipIdx k).lookup v = if v ∈ l then some (l.idxOf v + k) else none := by
  induction l generalizing k with
  | nil => rfl
  | cons a l ih =>
    rw [List.zipIdx_cons, List.lookup_cons]
    by_cases h : v = a
    · subst h; simp
    · have hb : (v == a) = false := by simpa using h
      have hb' : (a == v) = false := by simpa using fun e => h e.symm
      simp only [hb, ih]
      rw [List.idxOf_cons, hb']
      simp only [List.mem_cons, h, false_or, cond_false]
      split
      · congr 1; omega
      · rfl

namespace CnfObj

structure Inv (o : CnfObj V) : Prop where
  nodup : o.index2name.Nodup
  table : o.name2index = o.index2name.zipIdx 1
  range : o.coherent = true → InTable o.index2name.length o.clauses

def code (vs : List V) (l : Lit V) : Int := (if l.1 then 1 else -1) * ((vs.idxOf l.2 + 1 : Nat) : Int)

theorem Inv.lookup {o : CnfObj V} (h : o.Inv) (v : V) : o.lookup v = if v ∈ o.index2name then some (o.index2name.idxOf v + 1) else none := by
  unfold CnfObj.lookup; rw [h.table, lookup_zipIdx]

theorem Inv.compress {o : CnfObj V} (h : o.Inv) (c : List (Lit V)) :
    o.compress c = if ∀ l ∈ c, l.2 ∈ o.index2name then some (c.map (code o.index2name)) else none := by
  unfold CnfObj.compress
  induction c with
  | nil => simp
  | cons a c ih =>
    rw [List.mapM_cons, ih, h.lookup]
    by_cases ha : a.2 ∈ o.index2name
    · by_cases hc : ∀ l ∈ c, l.2 ∈ o.index2name
      · have : ∀ l ∈ a :: c, l.2 ∈ o.index2name := by intro l hl; rcases List.mem_cons.1 hl with rfl | hl; exacts [ha, hc l hl]
        rw [if_pos hc, if_pos this]
        simp only [ha, if_true]
        rfl
      · have : ¬ ∀ l ∈ a :: c, l.2 ∈ o.index2name := fun hh => hc fun l hl => hh l (List.mem_cons_of_mem _ hl)
        rw [if_neg hc, if_neg this]
        simp only [ha, if_true]
        rfl
    · have : ¬ ∀ l ∈ a :: c, l.2 ∈ o.index2name := fun hh => ha (hh a List.mem_cons_self)
      simp only [ha, if_false]
      rw [if_neg this]
      rfl

theorem Inv.name {o : CnfObj V} (h : o.Inv) (v : V) :
    (o.name v).Inv ∧ (o.name v).index2name = firstSeen o.index2name [v] ∧ (o.name v).clauses = o.clauses ∧ (o.name v).coherent = o.coherent := by
  by_cases hv : v ∈ o.index2name
  · have e : o.name v = o := by unfold CnfObj.name; rw [h.lookup, if_pos hv]
    rw [e]
    exact ⟨h, by simp [firstSeen, hv], rfl, rfl⟩
  · have e : o.name v = { o with index2name := o.index2name ++ [v], name2index := o.name2index ++ [(v, (o.index2name ++ [v]).length)] } := by
      unfold CnfObj.name; rw [h.lookup, if_neg hv]
    rw [e]
    refine ⟨⟨?_, ?_, ?_⟩, by simp [firstSeen, hv], rfl, rfl⟩
    · show (o.index2name ++ [v]).Nodup
      rw [List.nodup_append]
      exact ⟨h.nodup, by simp, by rintro a ha b hb rfl; rw [List.mem_singleton] at hb; exact hv (hb ▸ ha)⟩
    · show o.name2index ++ _ = (o.index2name ++ [v]).zipIdx 1
      rw [h.table, List.zipIdx_append]
      simp [Nat.add_comm]
    · intro hc c hcm l hl
      have := h.range hc c hcm l hl
      refine ⟨this.1, this.2.trans ?_⟩
      show _ ≤ (o.index2name ++ [v]).length
      simp

theorem firstSeen_prefix (vs names : List V) : vs <+: firstSeen vs names := by
  unfold firstSeen
  induction names generalizing vs with
  | nil => exact List.prefix_rfl
  | cons a names ih =>
    rw [List.foldl_cons]
    refine List.IsPrefix.trans ?_ (ih _)
    split
    · exact List.prefix_rfl
    · exact List.prefix_append _ _

theorem mem_firstSeen (vs names : List V) (v : V) : v ∈ firstSeen vs names ↔ v ∈ vs ∨ v ∈ names := by
  unfold firstSeen
  induction names generalizing vs with
  | nil => simp
  | cons a names ih =>
    rw [List.foldl_cons, ih]
    split
    · rename_i h
      rw [List.mem_cons]
      constructor
      · rintro (h' | h')
        · exact .inl h'
        · exact .inr (.inr h')
      · rintro (h' | rfl | h')
        · exact .inl h'
        · exact .inl h
        · exact .inr h'
    · simp [or_assoc]

theorem firstSeen_known {vs names : List V} (h : ∀ v ∈ names, v ∈ vs) : firstSeen vs names = vs := by
  unfold firstSeen
  induction names with
  | nil => rfl
  | cons a names ih =>
    rw [List.foldl_cons, if_pos (h a (by simp))]
    exact ih fun v hv => h v (by simp [hv])

/-- The loop that adds the variables of a clause. -/
theorem Inv.loop (c : List (Lit V)) {o : CnfObj V} (h : o.Inv) (hc : o.coherent = true) :
    (c.foldl (fun o l => (o.addVariable l.2).1) o).Inv ∧ (c.foldl (fun o l => (o.addVariable l.2).1) o).index2name = firstSeen o.index2name (c.map (·.2)) ∧
      (c.foldl (fun o l => (o.addVariable l.2).1) o).clauses = o.clauses ∧ (c.foldl (fun o l => (o.addVariable l.2).1) o).coherent = true := by
  induction c generalizing o with
  | nil => exact ⟨h, rfl, rfl, hc⟩
  | cons a c ih =>
    rw [List.foldl_cons]
    have e : (o.addVariable a.2).1 = o.name a.2 := by simp [CnfObj.addVariable, hc]
    obtain ⟨h1, h2, h3, h4⟩ := h.name a.2
    rw [e]
    obtain ⟨k1, k2, k3, k4⟩ := ih h1 (h4.trans hc)
    exact ⟨k1, by rw [k2, h2]; rfl, k3.trans h3, k4⟩

theorem idxOf_prefix {vs ws : List V} (h : vs <+: ws) {v : V} (hv : v ∈ vs) : ws.idxOf v = vs.idxOf v := by
  obtain ⟨t, rfl⟩ := h
  rw [List.idxOf_append_of_mem hv]

/-- The numbers of a clause stand for its literals, also when variables are added later. -/
theorem decode_code {vs ws : List V} (h : vs <+: ws) {c : List (Lit V)} (hc : ∀ l ∈ c, l.2 ∈ vs) : decode ws (c.map (code vs)) = c.map fun l => (l.1, some l.2) := by
  unfold decode
  rw [List.map_map]
  apply List.map_congr_left
  intro l hl
  have hv := hc l hl
  have hlt := List.idxOf_lt_length_of_mem hv
  have hg : ws[vs.idxOf l.2]? = some l.2 := by
    obtain ⟨t, rfl⟩ := h
    rw [List.getElem?_append_left hlt, List.getElem?_eq_getElem hlt, List.getElem_idxOf]
  obtain ⟨b, v⟩ := l
  cases b
  · have e : code vs (false, v) = -((vs.idxOf v + 1 : Nat) : Int) := by simp [code]
    simp only [Function.comp_apply, e, Int.natAbs_neg, Int.natAbs_natCast, Nat.add_sub_cancel]
    rw [show ws[vs.idxOf v]? = some v from hg]
    congr 1
  · have e : code vs (true, v) = ((vs.idxOf v + 1 : Nat) : Int) := by simp [code]
    simp only [Function.comp_apply, e, Int.natAbs_natCast, Nat.add_sub_cancel]
    rw [show ws[vs.idxOf v]? = some v from hg]
    congr 1
    simp

theorem code_range {vs : List V} {l : Lit V} (h : l.2 ∈ vs) : 1 ≤ (code vs l).natAbs ∧ (code vs l).natAbs ≤ vs.length := by
  have := List.idxOf_lt_length_of_mem h
  unfold code
  cases l.1 <;> simp <;> omega

/-- What a call does (`o` before, `p` after). -/
structure Step (o p : CnfObj V) (c : ObjCall V) (r : Res) : Prop where
  inv : p.Inv
  vars : p.index2name = firstSeen o.index2name (c.names r)
  clauses : ∃ new, p.clauses = o.clauses ++ new ∧ ∀ ws, p.index2name <+: ws → new.map (decode ws) = c.adds ws r
  failed : (∃ e, r = .err e) → p = o
  flag : p.coherent = usable [(c, r)] o.coherent

theorem Step.refl {o : CnfObj V} (h : o.Inv) {c : ObjCall V} {r : Res} (hn : c.names r = []) (ha : ∀ ws, c.adds ws r = []) (hf : usable [(c, r)] o.coherent = o.coherent) :
    Step o o c r := ⟨h, by rw [hn]; rfl, ⟨[], by simp, fun ws _ => by rw [ha]; rfl⟩, fun _ => rfl, hf.symm⟩

theorem usable_err (c : ObjCall V) (e : PyErr) (b : Bool) (hc : ∀ cs, c ≠ .addCompressed cs) : usable [(c, .err e)] b = b := by
  cases c <;> first | rfl | exact absurd rfl (hc _)

/-- Appending a clause of known variables. -/
theorem Step.append {o p : CnfObj V} (h : p.Inv) {cl : List (Lit V)} {c : ObjCall V} (hcl : p.clauses = o.clauses) (hfl : p.coherent = o.coherent) (hv : ∀ l ∈ cl, l.2 ∈ p.index2name)
    (hn : p.index2name = firstSeen o.index2name (c.names .done)) (ha : ∀ ws, c.adds ws .done = [cl.map fun l => (l.1, some l.2)])
    (hf : ∀ b, usable [(c, .done)] b = b) :
    Step o { p with clauses := p.clauses ++ [cl.map (code p.index2name)] } c .done := by
  refine ⟨⟨h.nodup, h.table, ?_⟩, hn, ⟨[cl.map (code p.index2name)], by rw [← hcl], ?_⟩, by simp, ?_⟩
  · intro hc d hd l hl
    rcases List.mem_append.1 hd with hd | hd
    · exact h.range hc d hd l hl
    · obtain rfl := List.mem_singleton.1 hd
      obtain ⟨x, hx, rfl⟩ := List.mem_map.1 hl
      exact code_range (hv x hx)
  · intro ws hw
    rw [ha, List.map_singleton, decode_code hw hv]
  · show p.coherent = _
    rw [hf, hfl]

theorem mem_pos {c : List (Lit V)} {v : V} {b : Bool} : v ∈ (c.filter fun l => l.1 == b).map (·.2) ↔ (b, v) ∈ c := by
  simp

/-- The variables with both literals. -/
theorem both_iff (c : List (Lit V)) (v : V) :
    v ∈ (((c.filter (·.1)).map (·.2)).filter fun v => decide (v ∈ (c.filter fun l => !l.1).map (·.2))) ↔ (true, v) ∈ c ∧ (false, v) ∈ c := by
  simp

/-- What happens when a call is made. -/
theorem Inv.call {o : CnfObj V} (h : o.Inv) (stringy : V → Bool) (c : ObjCall V) :
    Step o (o.call stringy c).1 c (o.call stringy c).2 ∧ ∀ e, (o.call stringy c).2 = .err e ↔ c.Raises stringy o.coherent o.index2name e := by
  have hkn : ∀ cl : List (Lit V), ¬ (∀ l ∈ cl, l.2 ∈ o.index2name) ↔ ∃ l ∈ cl, l.2 ∉ o.index2name := by intro cl; push Not; rfl
  cases c with
  | addVariable v =>
    show Step o (o.addVariable v).1 _ (o.addVariable v).2 ∧ ∀ e, (o.addVariable v).2 = .err e ↔ _
    unfold CnfObj.addVariable
    cases hc : o.coherent with
    | false => exact ⟨.refl h rfl (fun _ => rfl) (usable_err _ _ _ (by simp)), fun e => by simp [ObjCall.Raises, eq_comm]⟩
    | true =>
      obtain ⟨h1, h2, h3, h4⟩ := h.name v
      exact ⟨⟨h1, h2, ⟨[], by simpa using h3, fun _ _ => rfl⟩, by simp, by simpa [usable] using h4⟩, fun e => by simp [ObjCall.Raises]⟩
  | addCompressed cs =>
    exact ⟨⟨⟨h.nodup, h.table, by simp [CnfObj.call, CnfObj.addCompressed]⟩, rfl, ⟨cs, rfl, fun ws _ => rfl⟩, by simp [CnfObj.call], rfl⟩, fun e => by simp [CnfObj.call, ObjCall.Raises]⟩
  | check f =>
    show Step o (o.check f).1 _ (o.check f).2 ∧ ∀ e, (o.check f).2 = .err e ↔ _
    unfold CnfObj.check
    split
    · rename_i hc
      simp only [Bool.and_eq_true] at hc
      exact ⟨.refl h rfl (fun _ => rfl) hc.2.symm, fun e => by simp [ObjCall.Raises]⟩
    · split
      · rename_i _ ht
        refine ⟨⟨⟨h.nodup, h.table, fun _ => ?_⟩, rfl, ⟨[], by simp, fun _ _ => rfl⟩, by simp, rfl⟩, fun e => by simp [ObjCall.Raises]⟩
        unfold CnfObj.tested at ht
        simp only [Bool.and_eq_true, List.all_eq_true, decide_eq_true_eq] at ht
        intro d hd l hl
        obtain ⟨⟨h1, _⟩, h2⟩ := ht
        have := h2 d hd l hl
        show _ ∧ _ ≤ o.index2name.length
        omega
      · exact ⟨.refl h rfl (fun _ => rfl) rfl, fun e => by simp [ObjCall.Raises]⟩
  | addClauseUnsafe cl =>
    show Step o (o.addClauseUnsafe cl).1 _ (o.addClauseUnsafe cl).2 ∧ ∀ e, (o.addClauseUnsafe cl).2 = .err e ↔ _
    unfold CnfObj.addClauseUnsafe
    rw [h.compress]
    by_cases hv : ∀ l ∈ cl, l.2 ∈ o.index2name
    · rw [if_pos hv]
      exact ⟨.append h rfl rfl hv rfl (fun _ => rfl) (fun _ => rfl), fun e => by
        simp only [ObjCall.Raises, reduceCtorEq, false_iff]
        rintro ⟨⟨l, hl, hl'⟩, _⟩
        exact hl' (hv l hl)⟩
    · rw [if_neg hv]
      exact ⟨.refl h rfl (fun _ => rfl) (usable_err _ _ _ (by simp)), fun e => by
        simp only [ObjCall.Raises, Res.err.injEq]
        exact ⟨fun e' => ⟨(hkn cl).1 hv, e'.symm⟩, fun e' => e'.2.symm⟩⟩
  | addClause cl r p a s =>
    show Step o (o.addClause stringy cl r p a s).1 _ (o.addClause stringy cl r p a s).2 ∧ ∀ e, (o.addClause stringy cl r p a s).2 = .err e ↔ _
    have herr : ∀ e, Step o o (.addClause cl r p a s) (.err e) := fun e => .refl h rfl (fun _ => rfl) (usable_err _ _ _ (by simp))
    unfold CnfObj.addClause
    cases hc : o.coherent with
    | false =>
      refine ⟨herr _, fun e => ?_⟩
      show Res.err PyErr.assertionError = Res.err e ↔ _
      unfold ObjCall.Raises
      constructor
      · intro e'; exact .inl ⟨rfl, (Res.err.inj e').symm⟩
      · rintro (⟨_, rfl⟩ | ⟨k, _⟩ | ⟨k, _⟩ | ⟨k, _⟩)
        · rfl
        all_goals simp at k
    | true =>
      simp only [Bool.not_true, Bool.false_eq_true, if_false]
      have hrep : (!(r && !s) && decide (cl.dedup.length ≠ cl.length)) = true ↔ (r = false ∨ s = true) ∧ ¬ cl.Nodup := by
        have : cl.dedup.length = cl.length ↔ cl.Nodup := by
          rw [← List.dedup_eq_self]
          constructor
          · intro e; exact (List.dedup_sublist cl).eq_of_length e
          · intro e; rw [e]
        cases r <;> cases s <;> simp [this]
      by_cases h1 : (!(r && !s) && decide (cl.dedup.length ≠ cl.length)) = true
      · rw [if_pos h1]
        rw [hrep] at h1
        refine ⟨herr _, fun e => ?_⟩
        rw [Res.err.injEq]
        unfold ObjCall.Raises
        constructor
        · rintro rfl; exact .inr (.inl ⟨rfl, h1.1, h1.2, rfl⟩)
        · rintro (⟨k, _⟩ | ⟨_, _, _, rfl⟩ | ⟨_, k, _⟩ | ⟨_, k, _⟩)
          · simp at k
          · rfl
          · exact absurd h1 k
          · exact absurd h1 k
      · rw [if_neg h1]
        rw [hrep] at h1
        set both := (((cl.filter (·.1)).map (·.2)).filter fun v => decide (v ∈ (cl.filter fun l => !l.1).map (·.2))) with hboth
        have hne : both ≠ [] ↔ ∃ v, (true, v) ∈ cl ∧ (false, v) ∈ cl := by
          rw [List.ne_nil_iff_exists_cons]
          constructor
          · rintro ⟨v, t, e⟩; exact ⟨v, (both_iff cl v).1 (by rw [← hboth, e]; simp)⟩
          · rintro ⟨v, hv⟩
            have := (both_iff cl v).2 hv
            rw [← hboth] at this
            cases hb : both with
            | nil => rw [hb] at this; simp at this
            | cons x t => exact ⟨x, t, rfl⟩
        have hopp : (!(p && !s) && decide (both ≠ [])) = true ↔ (p = false ∨ s = true) ∧ ∃ v, (true, v) ∈ cl ∧ (false, v) ∈ cl := by
          rw [← hne]
          cases p <;> cases s <;> simp
        by_cases h2 : (!(p && !s) && decide (both ≠ [])) = true
        · rw [if_pos h2]
          rw [hopp] at h2
          refine ⟨herr _, fun e => ?_⟩
          have hstr : both.all stringy = true ↔ ∀ v, (true, v) ∈ cl → (false, v) ∈ cl → stringy v = true := by
            rw [List.all_eq_true]
            constructor
            · intro hh v k1 k2; exact hh v ((both_iff cl v).2 ⟨k1, k2⟩)
            · intro hh v hv; obtain ⟨k1, k2⟩ := (both_iff cl v).1 hv; exact hh v k1 k2
          simp only [ObjCall.Raises, Res.err.injEq, h1, h2, not_true_eq_false, false_and, and_false, or_false, true_and, Bool.true_eq_false, false_or, not_false_eq_true]
          have h1' : ¬ (r = false ∨ s = true) ∨ cl.Nodup := by
            by_contra hh; push Not at hh; exact h1 ⟨by tauto, hh.2⟩
          cases hs : both.all stringy with
          | true =>
            simp only [if_true]
            constructor
            · rintro rfl; exact .inr (.inl ⟨rfl, hstr.1 hs⟩)
            · rintro (⟨k1, k2, _⟩ | ⟨rfl, _⟩ | ⟨_, v, k1, k2, k3⟩)
              · exact absurd ⟨k1, k2⟩ h1
              · rfl
              · rw [hstr.1 hs v k1 k2] at k3; simp at k3
          | false =>
            simp only [Bool.false_eq_true, if_false]
            have hex : ∃ v, (true, v) ∈ cl ∧ (false, v) ∈ cl ∧ stringy v = false := by
              by_contra hh
              push Not at hh
              have := hstr.2 fun v k1 k2 => by simpa using hh v k1 k2
              rw [hs] at this; simp at this
            constructor
            · rintro rfl; exact .inr (.inr ⟨rfl, hex⟩)
            · rintro (⟨k1, k2, _⟩ | ⟨_, k⟩ | ⟨rfl, _⟩)
              · exact absurd ⟨k1, k2⟩ h1
              · obtain ⟨v, k1, k2, k3⟩ := hex; rw [k v k1 k2] at k3; simp at k3
              · rfl
        · rw [if_neg h2]
          rw [hopp] at h2
          unfold CnfObj.append
          rw [h.compress]
          by_cases hv : ∀ l ∈ cl, l.2 ∈ o.index2name
          · rw [if_pos hv]
            refine ⟨.append h rfl rfl hv ?_ (fun _ => rfl) (fun _ => rfl), fun e => ?_⟩
            · show _ = firstSeen _ (cl.map (·.2))
              rw [firstSeen_known]
              intro v hv'
              obtain ⟨l, hl, rfl⟩ := List.mem_map.1 hv'
              exact hv l hl
            · simp only [ObjCall.Raises, reduceCtorEq, false_iff, Bool.true_eq_false, false_and, false_or]
              rintro (⟨_, k1, k2, _⟩ | ⟨_, _, k1, k2, _⟩ | ⟨_, _, _, _, ⟨l, hl, hl'⟩, _⟩)
              · exact h1 ⟨k1, k2⟩
              · exact h2 ⟨k1, k2⟩
              · exact hl' (hv l hl)
          · rw [if_neg hv]
            cases ha : (a && !s) with
            | false =>
              refine ⟨herr _, fun e => ?_⟩
              have ha' : a = false ∨ s = true := by revert ha; cases a <;> cases s <;> simp
              show Res.err PyErr.valueError = Res.err e ↔ _
              rw [Res.err.injEq]
              unfold ObjCall.Raises
              constructor
              · rintro rfl; exact .inr (.inr (.inr ⟨rfl, h1, h2, ha', (hkn cl).1 hv, rfl⟩))
              · rintro (⟨k, _⟩ | ⟨_, k1, k2, _⟩ | ⟨_, _, k1, k2, _⟩ | ⟨_, _, _, _, _, rfl⟩)
                · simp at k
                · exact absurd ⟨k1, k2⟩ h1
                · exact absurd ⟨k1, k2⟩ h2
                · rfl
            | true =>
              obtain ⟨k1, k2, k3, k4⟩ := h.loop cl hc
              have hall : ∀ l ∈ cl, l.2 ∈ (cl.foldl (fun o l => (o.addVariable l.2).1) o).index2name := by
                intro l hl
                rw [k2, mem_firstSeen]
                exact .inr (List.mem_map_of_mem hl)
              simp only [Bool.not_true, Bool.false_eq_true, if_false]
              rw [k1.compress, if_pos hall]
              refine ⟨.append k1 k3 (k4.trans hc.symm) hall k2 (fun _ => rfl) (fun _ => rfl), fun e => ?_⟩
              simp only [ObjCall.Raises, reduceCtorEq, false_iff, Bool.true_eq_false, false_and, false_or]
              rintro (⟨_, k1, k2, _⟩ | ⟨_, _, k1, k2, _⟩ | ⟨_, _, _, k, _⟩)
              · exact h1 ⟨k1, k2⟩
              · exact h2 ⟨k1, k2⟩
              · revert ha k; cases a <;> cases s <;> simp

theorem inv_new : (({} : CnfObj V)).Inv := ⟨List.nodup_nil, rfl, fun _ => by intro c hc; simp at hc⟩

theorem usable_append (h h' : List (ObjCall V × Res)) (b : Bool) : usable (h ++ h') b = usable h' (usable h b) := by
  induction h generalizing b with
  | nil => rfl
  | cons a h ih =>
    obtain ⟨c, r⟩ := a
    have key : ∀ h b, usable ((c, r) :: h) b = usable h (usable [(c, r)] b) := by
      intro h b
      cases c <;> cases r <;> first | rfl | (rename_i x; cases x <;> rfl)
    rw [List.cons_append, key, ih, key h]

theorem firstSeen_append (vs a b : List V) : firstSeen vs (a ++ b) = firstSeen (firstSeen vs a) b := List.foldl_append

/-- What a history does. -/
structure Steps (o p : CnfObj V) (h : List (ObjCall V × Res)) : Prop where
  inv : p.Inv
  vars : p.index2name = firstSeen o.index2name (h.flatMap fun x => x.1.names x.2)
  clauses : ∃ new, p.clauses = o.clauses ++ new ∧ ∀ ws, p.index2name <+: ws → new.map (decode ws) = h.flatMap fun x => x.1.adds ws x.2
  flag : p.coherent = usable h o.coherent

theorem Inv.run {o : CnfObj V} (h : o.Inv) (stringy : V → Bool) (cs : List (ObjCall V)) :
    (o.run stringy cs).2.length = cs.length ∧ Steps o (o.run stringy cs).1 (cs.zip (o.run stringy cs).2) := by
  induction cs generalizing o with
  | nil => exact ⟨rfl, h, rfl, ⟨[], by simp [CnfObj.run], fun _ _ => rfl⟩, rfl⟩
  | cons c cs ih =>
    obtain ⟨s, _⟩ := h.call stringy c
    obtain ⟨k0, k⟩ := ih s.inv
    have e : o.run stringy (c :: cs) = (((o.call stringy c).1.run stringy cs).1, (o.call stringy c).2 :: ((o.call stringy c).1.run stringy cs).2) := rfl
    rw [e]
    refine ⟨by simp [k0], k.inv, ?_, ?_, ?_⟩
    · rw [List.zip_cons_cons, List.flatMap_cons, firstSeen_append, ← s.vars]; exact k.vars
    · obtain ⟨n1, a1, b1⟩ := s.clauses
      obtain ⟨n2, a2, b2⟩ := k.clauses
      refine ⟨n1 ++ n2, by rw [a2, a1, List.append_assoc], fun ws hw => ?_⟩
      rw [List.map_append, List.zip_cons_cons, List.flatMap_cons, b2 ws hw, b1 ws (List.IsPrefix.trans ?_ hw)]
      rw [k.vars]
      exact firstSeen_prefix _ _
    · rw [List.zip_cons_cons, show ∀ (x : ObjCall V × Res) l, x :: l = [x] ++ l from fun _ _ => rfl, usable_append, ← s.flag]
      exact k.flag

theorem Inv.tested {o : CnfObj V} (h : o.Inv) : o.tested = true ↔ InTable o.index2name.length o.clauses := by
  have hl : o.name2index.length = o.index2name.length := by rw [h.table, List.length_zipIdx]
  unfold CnfObj.tested
  simp only [Bool.and_eq_true, List.all_eq_true, decide_eq_true_eq, hl, true_and]
  constructor
  · rintro ⟨_, h2⟩ c hc l hl; have := h2 c hc l hl; omega
  · intro h2
    refine ⟨fun i hi => ?_, fun c hc l hl => ?_⟩
    · have hi := List.mem_range.1 hi
      rw [List.getElem?_eq_getElem hi, Option.bind_some, h.lookup, if_pos (List.getElem_mem hi), h.nodup.idxOf_getElem]
    · have := h2 c hc l hl; omega

theorem Inv.check {o : CnfObj V} (h : o.Inv) (f : Bool) :
    ((o.check f).2 = .bool true ↔ InTable o.index2name.length o.clauses) ∧ ((o.check f).2 = .bool true ∨ ((o.check f).2 = .bool false ∧ (o.check f).1 = o)) := by
  unfold CnfObj.check
  split
  · rename_i hc
    simp only [Bool.and_eq_true] at hc
    exact ⟨iff_of_true rfl (h.range hc.2), .inl rfl⟩
  · split
    · rename_i _ ht; exact ⟨iff_of_true rfl (h.tested.1 ht), .inl rfl⟩
    · rename_i _ ht; exact ⟨iff_of_false (by simp) fun e => ht (h.tested.2 e), .inr ⟨rfl, rfl⟩⟩

theorem Inv.read {o : CnfObj V} (h : o.Inv) (hc : o.coherent = true) : o.readClauses = pure (o.clauses.map (decode o.index2name)) := by
  have hr := h.range hc
  unfold CnfObj.readClauses
  rw [hc]
  show o.clauses.mapM o.uncompress = _
  refine mapM_ok fun c hcm => ?_
  unfold CnfObj.uncompress decode
  refine mapM_ok fun l hl => ?_
  obtain ⟨h1, h2⟩ := hr c hcm l hl
  have e : (none :: o.index2name.map some)[l.natAbs]? = some (o.index2name[l.natAbs - 1]?) := by
    obtain ⟨k, hk⟩ : ∃ k, l.natAbs = k + 1 := ⟨l.natAbs - 1, by omega⟩
    rw [hk, List.getElem?_cons_succ, List.getElem?_map, Nat.add_sub_cancel, List.getElem?_eq_getElem (show k < o.index2name.length by omega)]
    rfl
  rw [e]
  rfl

end CnfObj

/-- **C100, reading back.** After any history of calls on a new object (exceptions being caught): if it can be used — no clauses were added by the fast internal method
since the last check that said "true" — then reading gives exactly the clauses of the calls that did not raise, in order, with the names of all variables in the order
they were first seen; the size is their number, every number in a clause stands for a variable.  Otherwise reading and printing raise an `AssertionError`. -/
theorem C100_read (stringy : V → Bool) (cs : List (ObjCall V)) : let o := (({} : CnfObj V).run stringy cs).1; let h := cs.zip (({} : CnfObj V).run stringy cs).2
    (usable h true = true → o.readVariables = pure (firstSeen [] (h.flatMap fun x => x.1.names x.2)) ∧ o.readVariables = pure o.index2name ∧ Proper o.index2name o.clauses ∧
      o.readClauses = pure (h.flatMap fun x => x.1.adds o.index2name x.2) ∧ o.len = (h.flatMap fun x => x.1.adds o.index2name x.2).length ∧
      ∀ header, o.dimacs header = dimacsText header ⟨o.index2name, o.clauses⟩) ∧
    (usable h true = false → o.readVariables = raise .assertionError ∧ o.readClauses = raise .assertionError ∧ ∀ header, o.dimacs header = raise .assertionError) := by
  intro o h
  obtain ⟨_, k⟩ := (CnfObj.inv_new (V := V)).run stringy cs
  have hfl : o.coherent = usable h true := k.flag
  constructor
  · intro hu
    rw [hu] at hfl
    obtain ⟨new, e, hd⟩ := k.clauses
    have e' : o.clauses.map (decode o.index2name) = h.flatMap fun x => x.1.adds o.index2name x.2 := by
      have e : o.clauses = new := e
      rw [e]; exact hd _ List.prefix_rfl
    have hp : Proper o.index2name o.clauses := ⟨k.inv.nodup, k.inv.range hfl⟩
    have hv : o.readVariables = pure o.index2name := by unfold CnfObj.readVariables; rw [hfl]; rfl
    refine ⟨hv.trans (congrArg pure k.vars), hv, hp, by rw [k.inv.read hfl, e'], by rw [← e', List.length_map]; rfl, fun header => ?_⟩
    have hco : (⟨o.index2name, o.clauses⟩ : CNF V).coherent = true := by
      unfold CNF.coherent
      simp only [Bool.and_eq_true, decide_eq_true_eq, List.all_eq_true]
      exact ⟨hp.1, fun c hc l hl => by have := hp.2 c hc l hl; exact ⟨by omega, this.2⟩⟩
    unfold CnfObj.dimacs dimacsText
    rw [hfl, hco]
    rfl
  · intro hu
    rw [hu] at hfl
    refine ⟨?_, ?_, fun header => ?_⟩
    · unfold CnfObj.readVariables; rw [hfl]; rfl
    · unfold CnfObj.readClauses; rw [hfl]; rfl
    · unfold CnfObj.dimacs; rw [hfl]; rfl

/-- **C100, a call.** After any history: a call raises exactly the exceptions described (`ObjCall.Raises`), and then nothing has changed, not even the variables;
otherwise the variables keep their numbers and the clauses their places. -/
theorem C100_call (stringy : V → Bool) (cs : List (ObjCall V)) (c : ObjCall V) :
    let o := (({} : CnfObj V).run stringy cs).1
    let h := cs.zip (({} : CnfObj V).run stringy cs).2
    (∀ e, (o.call stringy c).2 = .err e ↔ c.Raises stringy (usable h true) (firstSeen [] (h.flatMap fun x => x.1.names x.2)) e) ∧
    ((∃ e, (o.call stringy c).2 = .err e) → (o.call stringy c).1 = o) ∧ o.index2name <+: (o.call stringy c).1.index2name ∧ o.clauses <+: (o.call stringy c).1.clauses := by
  intro o h
  obtain ⟨_, k⟩ := (CnfObj.inv_new (V := V)).run stringy cs
  have hfl : o.coherent = usable h true := k.flag
  have hv : o.index2name = firstSeen [] (h.flatMap fun x => x.1.names x.2) := k.vars
  obtain ⟨s, hr⟩ := k.inv.call stringy c
  rw [← hfl, ← hv]
  obtain ⟨new, e, _⟩ := s.clauses
  exact ⟨hr, s.failed, by rw [s.vars]; exact CnfObj.firstSeen_prefix _ _, ⟨new, e.symm⟩⟩

/-- **C100, the check.** After any history, `_check_coherence` says "true" exactly if every number in a clause stands for a variable, with and without `force`. -/
theorem C100_check (stringy : V → Bool) (cs : List (ObjCall V)) (force : Bool) : let o := (({} : CnfObj V).run stringy cs).1
    ((o.check force).2 = .bool true ↔ InTable o.index2name.length o.clauses) ∧ ((o.check force).2 = .bool false ↔ ¬ InTable o.index2name.length o.clauses) := by
  intro o
  obtain ⟨_, k⟩ := (CnfObj.inv_new (V := V)).run stringy cs
  obtain ⟨h1, h2⟩ := k.inv.check force
  refine ⟨h1, ?_⟩
  have h1 : (o.check force).2 = .bool true ↔ InTable o.index2name.length o.clauses := h1
  rw [← h1]
  rcases h2 with h2 | ⟨h2, _⟩
  · have h2 : (o.check force).2 = .bool true := h2
    rw [h2]; simp
  · have h2 : (o.check force).2 = .bool false := h2
    rw [h2]; simp

/-- **C100, no way back.** Once a check has said "false", the object can never be used again: after any further calls every check says "false", reading and printing, adding a
variable or a clause in the safe way raise an `AssertionError`. -/
theorem C100_dead (stringy : V → Bool) (cs ds : List (ObjCall V)) (force : Bool) (h : ((({} : CnfObj V).run stringy cs).1.check force).2 = .bool false) :
    let o := (((({} : CnfObj V).run stringy cs).1.check force).1.run stringy ds).1
    (∀ f, (o.check f).2 = .bool false) ∧ o.readVariables = raise .assertionError ∧ o.readClauses = raise .assertionError ∧ (∀ header, o.dimacs header = raise .assertionError) ∧
    (∀ v, o.addVariable v = (o, .err .assertionError)) ∧ ∀ c r p a s, o.addClause stringy c r p a s = (o, .err .assertionError) := by
  obtain ⟨_, k⟩ := (CnfObj.inv_new (V := V)).run stringy cs
  have key : ∀ (ds : List (ObjCall V)) (o : CnfObj V), o.Inv → ¬ InTable o.index2name.length o.clauses →
      (o.run stringy ds).1.Inv ∧ ¬ InTable (o.run stringy ds).1.index2name.length (o.run stringy ds).1.clauses := by
    intro ds
    induction ds with
    | nil => exact fun o h1 h2 => ⟨h1, h2⟩
    | cons d ds ih =>
      intro o h1 h2
      obtain ⟨s, _⟩ := h1.call stringy d
      have hfalse : o.coherent = false := by
        cases e : o.coherent with
        | false => rfl
        | true => exact absurd (h1.range e) h2
      refine ih _ s.inv fun h3 => h2 ?_
      obtain ⟨new, e, _⟩ := s.clauses
      have hv : (o.call stringy d).1.index2name = o.index2name := by
        rw [s.vars]
        have : d.names (o.call stringy d).2 = [] := by
          cases d with
          | addVariable v => simp [CnfObj.call, CnfObj.addVariable, hfalse, ObjCall.names]
          | addClause c r p a s => simp [CnfObj.call, CnfObj.addClause, hfalse, ObjCall.names]
          | addClauseUnsafe c => rfl
          | addCompressed cs => rfl
          | check f => rfl
        rw [this]; rfl
      rw [hv] at h3
      intro c hc
      exact h3 c (by rw [e]; exact List.mem_append_left _ hc)
  obtain ⟨h1, h2⟩ := k.inv.check force
  have hno : ¬ InTable (({} : CnfObj V).run stringy cs).1.index2name.length (({} : CnfObj V).run stringy cs).1.clauses := by
    rw [← h1, h]; simp
  rcases h2 with h2 | ⟨_, h2⟩
  · rw [h2] at h; simp at h
  rw [h2]
  obtain ⟨k1, k2⟩ := key ds _ k.inv hno
  intro o
  have hfalse : o.coherent = false := by
    cases e : o.coherent with
    | false => rfl
    | true => exact absurd (k1.range e) k2
  refine ⟨fun f => ?_, ?_, ?_, fun header => ?_, fun v => ?_, fun c r p a s => ?_⟩
  · obtain ⟨h1, h2⟩ := k1.check f
    rcases h2 with h2 | ⟨h2, _⟩
    · exact absurd (h1.1 h2) k2
    · exact h2
  · unfold CnfObj.readVariables; rw [hfalse]; rfl
  · unfold CnfObj.readClauses; rw [hfalse]; rfl
  · unfold CnfObj.dimacs; rw [hfalse]; rfl
  · unfold CnfObj.addVariable; rw [hfalse]; rfl
  · unfold CnfObj.addClause; rw [hfalse]; rfl

/-! ### The object and the formula of `Base.lean` -/

/-- What the object stands for. -/
def CnfObj.formula (o : CnfObj V) : CNF V := ⟨o.index2name, o.clauses⟩

/-- The calls of C58, with the flags as all callers leave them. -/
def Call.obj : Call V → ObjCall V
  | .var v => .addVariable v
  | .clause s c => .addClause c false false true s
  | .raw c => .addClauseUnsafe c

/-- The formula after a call, an exception being caught. -/
def CNF.after (F : CNF V) (c : Call V) : CNF V :=
  match F.call c with
  | some (.ok G) => G
  | _ => F

theorem firstSeen_vars (F : CNF V) (vs : List V) : (F.addVariables vs).vars = firstSeen F.vars vs ∧ (F.addVariables vs).clauses = F.clauses := by
  unfold CNF.addVariables firstSeen
  induction vs generalizing F with
  | nil => exact ⟨rfl, rfl⟩
  | cons v vs ih =>
    rw [List.foldl_cons, List.foldl_cons]
    obtain ⟨h1, h2⟩ := ih (F.addVariable v)
    rw [h1, h2]
    unfold CNF.addVariable
    split <;> exact ⟨rfl, rfl⟩

theorem addUnsafe_known {F : CNF V} {c : List (Lit V)} (h : ∀ l ∈ c, l.2 ∈ F.vars) : F.addClauseUnsafe c = pure ⟨F.vars, F.clauses ++ [c.map (CnfObj.code F.vars)]⟩ := by
  unfold CNF.addClauseUnsafe
  rw [CNF.compress_ok h, M.pure_bind]
  have : F.code = CnfObj.code F.vars := by
    funext l; unfold CNF.code CnfObj.code; push_cast; rfl
  rw [this]

theorem addUnsafe_unknown {F : CNF V} {c : List (Lit V)} (h : ¬ ∀ l ∈ c, l.2 ∈ F.vars) : F.addClauseUnsafe c = raise .keyError := by
  unfold CNF.addClauseUnsafe
  have : F.compress c = raise .keyError := by
    unfold CNF.compress
    induction c with
    | nil => simp at h
    | cons l c ih =>
      rw [List.mapM_cons]
      by_cases hl : l.2 ∈ F.vars
      · have := ih fun hh => h fun x hx => by
          rcases List.mem_cons.1 hx with rfl | hx
          exacts [hl, hh x hx]
        rw [this]
        unfold CNF.index
        rw [if_pos hl]
        rfl
      · unfold CNF.index
        rw [if_neg hl]
        rfl
  rw [this, M.raise_bind]

theorem after_of_raise {F : CNF V} {c : Call V} {e : PyErr} (h : F.call c = raise e) : F.after c = F := by unfold CNF.after; rw [h]; rfl

theorem after_of_pure {F G : CNF V} {c : Call V} (h : F.call c = pure G) : F.after c = G := by unfold CNF.after; rw [h]; rfl

theorem obj_step {o : CnfObj V} (h : o.Inv) (hc : o.coherent = true) (stringy : V → Bool) (c : Call V) :
    (o.call stringy c.obj).1.formula = o.formula.after c ∧ (o.call stringy c.obj).1.coherent = true := by
  have hflag : (o.call stringy c.obj).1.coherent = true := by
    rw [(h.call stringy c.obj).1.flag, hc]
    cases c <;> simp only [Call.obj] <;> rfl
  refine ⟨?_, hflag⟩
  cases c with
  | var v =>
    show (o.addVariable v).1.formula = o.formula.addVariable v
    obtain ⟨_, h2, h3, _⟩ := h.name v
    unfold CnfObj.addVariable
    rw [hc]
    show (⟨(o.name v).index2name, (o.name v).clauses⟩ : CNF V) = _
    rw [h2, h3]
    obtain ⟨k1, k2⟩ := firstSeen_vars o.formula [v]
    exact congrArg₂ CNF.mk k1.symm k2.symm
  | raw cl =>
    show (o.addClauseUnsafe cl).1.formula = _
    unfold CnfObj.addClauseUnsafe
    rw [h.compress]
    by_cases hv : ∀ l ∈ cl, l.2 ∈ o.index2name
    · rw [if_pos hv, after_of_pure (F := o.formula) (c := .raw cl) (addUnsafe_known (F := o.formula) hv)]; rfl
    · rw [if_neg hv, after_of_raise (F := o.formula) (c := .raw cl) (addUnsafe_unknown (F := o.formula) hv)]
  | clause s cl =>
    show (o.addClause stringy cl false false true s).1.formula = _
    obtain ⟨st, hr⟩ := h.call stringy (.addClause cl false false true s)
    have hr : ∀ e, (o.addClause stringy cl false false true s).2 = .err e ↔ ObjCall.Raises stringy o.coherent o.index2name (.addClause cl false false true s) e := hr
    have hf : (∃ e, (o.addClause stringy cl false false true s).2 = .err e) → (o.addClause stringy cl false false true s).1 = o := st.failed
    rw [hc] at hr
    by_cases h1 : cl.Nodup
    swap
    · rw [hf ⟨.valueError, (hr _).2 (.inr (.inl ⟨rfl, .inl rfl, h1, rfl⟩))⟩, after_of_raise (e := .valueError)]
      show CNF.addClause s o.formula cl = _
      unfold CNF.addClause
      rw [if_pos h1]
    by_cases h2 : ∃ v, (true, v) ∈ cl ∧ (false, v) ∈ cl
    · rw [hf, after_of_raise (e := .valueError)]
      · show CNF.addClause s o.formula cl = _
        unfold CNF.addClause
        rw [if_neg (by simpa using h1), if_pos ((opp_iff cl).2 h2)]
      · by_cases hs : ∀ v, (true, v) ∈ cl → (false, v) ∈ cl → stringy v = true
        · exact ⟨_, (hr .valueError).2 (.inr (.inr (.inl ⟨rfl, fun k => k.2 h1, .inl rfl, h2, .inl ⟨rfl, hs⟩⟩)))⟩
        · push Not at hs
          obtain ⟨v, k1, k2, k3⟩ := hs
          exact ⟨_, (hr .typeError).2 (.inr (.inr (.inl ⟨rfl, fun k => k.2 h1, .inl rfl, h2, .inr ⟨rfl, v, k1, k2, by simpa using k3⟩⟩)))⟩
    have e : o.addClause stringy cl false false true s = o.append cl (true && !s) := by
      unfold CnfObj.addClause
      rw [hc]
      have hd : cl.dedup.length = cl.length := by rw [List.dedup_eq_self.2 h1]
      have hb : (((cl.filter (·.1)).map (·.2)).filter fun v => decide (v ∈ (cl.filter fun l => !l.1).map (·.2))) = [] := by
        rw [List.eq_nil_iff_forall_not_mem]
        intro v hv
        exact h2 ⟨v, (CnfObj.both_iff cl v).1 hv⟩
      simp only [hd, hb]
      simp
    have e' : o.formula.call (.clause s cl) = if ∀ l ∈ cl, l.2 ∈ o.index2name then o.formula.addClauseUnsafe cl else if s then raise .valueError else
        (o.formula.addVariables (cl.map Prod.snd)).addClauseUnsafe cl := by
      show CNF.addClause s o.formula cl = _
      unfold CNF.addClause
      rw [if_neg (by simpa using h1), if_neg (fun k => h2 ((opp_iff cl).1 k))]
      rfl
    rw [e]
    unfold CnfObj.append
    rw [h.compress]
    by_cases hv : ∀ l ∈ cl, l.2 ∈ o.index2name
    · rw [if_pos hv] at e' ⊢
      rw [after_of_pure (e'.trans (addUnsafe_known (F := o.formula) hv))]; rfl
    · rw [if_neg hv] at e' ⊢
      cases s with
      | true => rw [after_of_raise e']; rfl
      | false =>
        obtain ⟨k1, k2, k3, _⟩ := h.loop cl hc
        have hall : ∀ l ∈ cl, l.2 ∈ (cl.foldl (fun o l => (o.addVariable l.2).1) o).index2name := by
          intro l hl
          rw [k2, CnfObj.mem_firstSeen]
          exact .inr (List.mem_map_of_mem hl)
        obtain ⟨j1, j2⟩ := firstSeen_vars o.formula (cl.map Prod.snd)
        have hall' : ∀ l ∈ cl, l.2 ∈ (o.formula.addVariables (cl.map Prod.snd)).vars := by
          intro l hl
          rw [j1, CnfObj.mem_firstSeen]
          exact .inr (List.mem_map_of_mem hl)
        have e'' : o.formula.call (.clause false cl) = (o.formula.addVariables (cl.map Prod.snd)).addClauseUnsafe cl := e'
        rw [after_of_pure (e''.trans (addUnsafe_known hall'))]
        simp only [Bool.not_false, Bool.and_true, Bool.not_true, Bool.false_eq_true, if_false]
        rw [k1.compress, if_pos hall]
        show (⟨_, _ ++ [_]⟩ : CNF V) = _
        rw [k3, k2, j1, j2]
        rfl

/-- **C100, refinement.** For the calls of C58 the object with its tables and the formula of the other properties (`CNF`) go the same way, whatever the calls: the
variables and clauses are the same, and the object can always be used. -/
theorem C100_refines (stringy : V → Bool) (calls : List (Call V)) :
    let o := (({} : CnfObj V).run stringy (calls.map Call.obj)).1
    o.formula = (CNF.session calls.reverse).1 ∧ o.coherent = true := by
  have key : ∀ (calls : List (Call V)) (o : CnfObj V), o.Inv → o.coherent = true →
      (o.run stringy (calls.map Call.obj)).1.formula = calls.foldl CNF.after o.formula ∧ (o.run stringy (calls.map Call.obj)).1.coherent = true := by
    intro calls
    induction calls with
    | nil => exact fun o _ hc => ⟨rfl, hc⟩
    | cons c calls ih =>
      intro o h hc
      obtain ⟨k1, k2⟩ := obj_step h hc stringy c
      have := ih _ (h.call stringy c.obj).1.inv k2
      rw [List.foldl_cons, ← k1]
      exact this
  have hs : ∀ calls : List (Call V), (CNF.session calls).1 = calls.reverse.foldl CNF.after {} := by
    intro calls
    induction calls with
    | nil => rfl
    | cons c calls ih =>
      rw [List.reverse_cons, List.foldl_append, ← ih]
      show _ = CNF.after _ c
      have e : CNF.session (c :: calls) = (match (CNF.session calls).1.call c with
          | some (.ok G) => (G, (CNF.session calls).2 ++ c.added)
          | _ => ((CNF.session calls).1, (CNF.session calls).2)) := rfl
      rw [e]
      unfold CNF.after
      cases (CNF.session calls).1.call c with
      | none => rfl
      | some r => cases r <;> rfl
  obtain ⟨k1, k2⟩ := key calls {} CnfObj.inv_new rfl
  refine ⟨?_, k2⟩
  rw [hs, List.reverse_reverse]
  exact k1

/-! ### Instances -/

/-- A history with failures, raw clauses and a check: usable, and read back. -/
example : let cs : List (ObjCall String) := [.addClause [(true, "x"), (false, "y")] false false true false, .addClause [(true, "x"), (false, "x")] false false true false,
      .addClauseUnsafe [(true, "z")], .addCompressed [[-2, 1]], .addVariable "w", .check false, .addVariable "w"]
    let o := (({} : CnfObj String).run (fun _ => true) cs).1
    o.readVariables = pure ["x", "y", "w"] ∧ o.readClauses = pure [[(true, some "x"), (false, some "y")], [(false, some "y"), (true, some "x")]] ∧
    (({} : CnfObj String).run (fun _ => true) cs).2 = [.done, .err .valueError, .err .keyError, .done, .err .assertionError, .bool true, .done] :=
  ⟨rfl, rfl, rfl⟩

/-- A number without a variable: the check says "false". -/
example : ((({} : CnfObj String).run (fun _ => true) [.addVariable "x", .addCompressed [[1, 2]]]).1.check false).2 = .bool false := rfl

/-- Opposite literals of a variable that is not a string: a `TypeError`. -/
example : (({} : CnfObj Nat).addClause (fun _ => false) [(true, 1), (false, 1)] false false true false).2 = .err .typeError := rfl

end NDP.Cnfgen
