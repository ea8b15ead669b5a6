import Verif.Cnfgen.DimacsProps
import Verif.Cnfgen.DimacsReader
import Verif.Proofs.GenText
/-
  C77: `utils/solver.py` (`is_satisfiable`): calling an external SAT solver on a formula and reading its answer.
-/
namespace NDP.Cnfgen
open NDP NDP.Spec NDP.Gen

/-! ### Model -/

/-- The machine `is_satisfiable` runs on.  `installed name`: `Popen([name, '--help'])` works (`solver.py` 363-372).  `exec cmd text`: what the
command does when given the formula `text` (on standard input or in a file): `none` if it cannot be started (`OSError`), otherwise the bytes it
writes on standard output and the text it leaves in the output file (the empty text if it leaves none). -/
structure Machine where
  installed : Str → Bool
  exec : Str → Str → Option (List Nat × Str)

/-- The Python values compared in `line[0] == 's'` and in `line.split()[1] == 'SATISFIABLE'`: `output` is a `bytes` object (`communicate()` of a
pipe opened without `text=True`), so `line[0]` is an `int` and the words of a line are `bytes`.  Values of different types are different. -/
inductive PyVal where
  | int (n : Nat)
  | bytes (b : List Nat)
  | str (s : Str)
  deriving DecidableEq, Repr

/-- `bytes.splitlines()`, simplified: only the byte 10 ends a line. -/
def byteLines : List Nat → List (List Nat)
  | [] => []
  | 10 :: bs => [] :: byteLines bs
  | b :: bs => match byteLines bs with
    | [] => [[b]]
    | l :: ls => (b :: l) :: ls

/-- The ASCII text of some bytes (for `split` and `int`, which accept `bytes`). -/
def asText (b : List Nat) : Str := b.map Char.ofNat

/-- `F._index2name[i]`: index 0 holds `None` (`cnf.py` 91). -/
def nameAt {V : Type} (F : CNF V) (i : Nat) : M (Option V) := orRaise .indexError ((none :: F.vars.map some)[i]?)

/-- `{F._index2name[abs(v)]: v > 0 for v in witness}` (118, 224, 317). -/
def witnessDict {V : Type} [DecidableEq V] (F : CNF V) (w : List Int) : M (Dict (Option V) Bool) :=
  w.foldlM (fun d v => do let x ← nameAt F v.natAbs; pure (d.set x (decide (0 < v)))) []

/-- `(result, result and witness or None)` (129, 227, 320): an empty dictionary becomes `None`. -/
def answer {V : Type} (result : Bool) (w : Option (Dict (Option V) Bool)) : Bool × Option (Dict (Option V) Bool) :=
  (result, if result then w.bind fun d => if d = [] then none else some d else none)

/-- 89-129: what `_satsolve_filein_fileout` makes of the text in the output file. -/
def fileAnswer {V : Type} [DecidableEq V] (F : CNF V) (file : Str) : M (Bool × Option (Dict (Option V) Bool)) :=
  match splitWS file with
  | [] => raise .runtimeError
  | t :: ts =>
    if t = "SAT".toList then do
      let w ← orRaise .valueError (mapOpt parseInt (ts.filter fun v => decide (v ≠ ['0'])))
      let d ← witnessDict F w
      pure (answer true (some d))
    else if t = "UNSAT".toList then pure (answer false none)
    else raise .runtimeError

/-- 13-129 (`_satsolve_filein_fileout`).  If the command cannot be started `foutput` is never assigned.  Not modelled: messages, temporary
files, headers that are not ASCII. -/
def satFileFile {V : Type} [DecidableEq V] (W : Machine) (header : Str) (F : CNF V) (cmd : Str) : M (Bool × Option (Dict (Option V) Bool)) := do
  let text ← dimacsText (some (header, none)) F
  match W.exec cmd text with
  | none => raise .unboundLocalError
  | some (_, file) => fileAnswer F file

/-- 196-216, 290-310: one line of the standard output. -/
def outLine (st : Option Bool × List Int) (line : List Nat) : M (Option Bool × List Int) :=
  match line with
  | [] => pure st
  | b :: _ => do
    let st ← (if PyVal.int b = .str ['s'] then
        match (splitWS (asText line))[1]? with
        | none => raise .indexError
        | some w =>
          if PyVal.bytes (w.map Char.toNat) = .str "SATISFIABLE".toList then pure (some true, st.2)
          else if PyVal.bytes (w.map Char.toNat) = .str "UNSATISFIABLE".toList then pure (some false, st.2)
          else pure (none, st.2)
      else pure st : M (Option Bool × List Int))
    (if PyVal.int b = .str ['v'] then do
        let ws := (splitWS (asText line)).filter fun w => decide (PyVal.bytes (w.map Char.toNat) ≠ .str ['v'] ∧ PyVal.bytes (w.map Char.toNat) ≠ .str ['0'])
        let is ← orRaise .valueError (mapOpt parseInt ws)
        pure (st.1, st.2 ++ is)
      else pure st : M (Option Bool × List Int))

/-- 132-227 (`_satsolve_stdin_stdout`) and 230-320 (`_satsolve_filein_stdout`), which differ in how the formula is passed.  If the command cannot
be started `output` stays the empty string. -/
def satStdout {V : Type} [DecidableEq V] (W : Machine) (header : Str) (F : CNF V) (cmd : Str) : M (Bool × Option (Dict (Option V) Bool)) := do
  let text ← dimacsText (some (header, none)) F
  let st ← (byteLines ((W.exec cmd text).elim [] Prod.fst)).foldlM outLine (none, [])
  match st.1 with
  | none => raise .runtimeError
  | some r => do
    let d ← witnessDict F st.2
    pure (answer r (some d))

/-- 324-334 (`_SATSOLVER_INTERFACE`): the supported solvers in order; is the interface that of `minisat`? -/
def interfaces : List (Str × Bool) :=
  [("lingeling".toList, false), ("plingeling".toList, false), ("precosat".toList, false), ("picosat".toList, false), ("march".toList, false),
   ("cryptominisat".toList, false), ("minisat".toList, true), ("glucose".toList, false), ("sat4j".toList, false)]

/-- 337-342 (`supported_satsolvers`). -/
def supported : List Str := interfaces.map Prod.fst

/-- 483-491: calling one solver. -/
def callSolver {V : Type} [DecidableEq V] (W : Machine) (header : Str) (F : CNF V) (iface : Str) (cmd : Str) : M (Bool × Option (Dict (Option V) Bool)) :=
  match Dict.get? interfaces iface with
  | none => raise .keyError
  | some true => satFileFile W header F cmd
  | some false => satStdout W header F cmd

/-- 483-491: the loop.  `none`: no solver of the list is installed. -/
def trySolvers {V : Type} [DecidableEq V] (W : Machine) (header : Str) (F : CNF V) (sameas : Option Str) :
    List Str → M (Option (Bool × Option (Dict (Option V) Bool)))
  | [] => pure none
  | cmd :: cmds =>
    match (splitWS cmd)[0]? with
    | none => raise .indexError
    | some s =>
      if (Dict.get? interfaces (sameas.getD s)).isNone then raise .keyError
      else if !W.installed s then trySolvers W header F sameas cmds
      else do
        let r ← callSolver W header F (sameas.getD s) cmd
        pure (some r)

/-- 378-506 (`is_satisfiable`), also called by the method of the formula object (`cnf.py` 708-778). -/
def isSatisfiable {V : Type} [DecidableEq V] (W : Machine) (header : Str) (F : CNF V) (cmd sameas : Option Str) :
    M (Bool × Option (Dict (Option V) Bool)) :=
  if sameas.any fun s => decide (s ∉ supported) then raise .valueError
  else do
    let r ← (match cmd with
      | none => trySolvers W header F none supported
      | some c => match (splitWS c)[0]? with
        | none => trySolvers W header F none supported
        | some s => if s ∉ supported ∧ sameas = none then raise .runtimeError else trySolvers W header F sameas [c]
      : M (Option (Bool × Option (Dict (Option V) Bool))))
    orRaise .runtimeError r

/-! ### Specification -/

/-- The words of a `minisat` answer: `UNSAT`, or `SAT` and the literals of an assignment, ended by `0`. -/
def FileSays (file : Str) : Option (List Int) → Prop
  | none => splitWS file = ["UNSAT".toList]
  | some ls => splitWS file = "SAT".toList :: (ls ++ [0]).map intStr

/-- The literals are those of an assignment (of some of the variables `1..n`, none twice) that makes the clauses true. -/
structure IsModel (n : Nat) (cs : List (List Int)) (ls : List Int) : Prop where
  range : ∀ l ∈ ls, 1 ≤ l.natAbs ∧ l.natAbs ≤ n
  once : (ls.map Int.natAbs).Nodup
  sat : ∀ c ∈ cs, ∃ l ∈ c, l ∈ ls

/-- The solver called with the DIMACS text `text` answers rightly: what it says of the clauses of the text is true. -/
def Right (text : Str) (n : Nat) (file : Str) : Prop :=
  ∀ cs, dimacsFormula text = some cs →
    (FileSays file none ∧ ¬ Spec.Satisfiable cs) ∨ ∃ ls, FileSays file (some ls) ∧ IsModel n cs ls

/-! ### Proofs -/
section
variable {V : Type} [DecidableEq V]

theorem nameAt_ok (F : CNF V) {i : Nat} (h1 : 1 ≤ i) (h2 : i ≤ F.vars.length) : nameAt F i = pure (F.vars[i - 1]?) := by
  obtain ⟨j, rfl⟩ : ∃ j, i = j + 1 := ⟨i - 1, by omega⟩
  have hj : j < F.vars.length := by omega
  simp [nameAt, hj, orRaise]

/-- The entry of the dictionary for a literal. -/
def entry (F : CNF V) (l : Int) : Option V × Bool := (F.vars[l.natAbs - 1]?, decide (0 < l))

theorem entry_inj {F : CNF V} (hF : F.vars.Nodup) {a b : Int} (ha : 1 ≤ a.natAbs ∧ a.natAbs ≤ F.vars.length)
    (hb : 1 ≤ b.natAbs ∧ b.natAbs ≤ F.vars.length) (h : (entry F a).1 = (entry F b).1) : a.natAbs = b.natAbs := by
  simp only [entry] at h
  rw [List.getElem?_eq_getElem (by omega), List.getElem?_eq_getElem (by omega), Option.some.injEq] at h
  have := (hF.getElem_inj_iff).1 h
  omega

theorem witness_ok {F : CNF V} (hF : F.vars.Nodup) : ∀ (ls : List Int) (d : Dict (Option V) Bool),
    (∀ l ∈ ls, 1 ≤ l.natAbs ∧ l.natAbs ≤ F.vars.length) → (d.keys ++ ls.map fun l => (entry F l).1).Nodup →
    ls.foldlM (fun d v => do let x ← nameAt F v.natAbs; pure (d.set x (decide (0 < v)))) d = (pure (d ++ ls.map (entry F)) : M _)
  | [], d, _, _ => by simp
  | l :: ls, d, hr, hn => by
    have hl := hr l (by simp)
    have hnot : (entry F l).1 ∉ d.keys := by
      intro hm
      rw [List.nodup_append] at hn
      exact hn.2.2 _ hm _ (by simp) rfl
    rw [List.foldlM_cons, nameAt_ok F hl.1 hl.2, M.pure_bind, M.pure_bind, show F.vars[l.natAbs - 1]? = (entry F l).1 from rfl,
      Dict.set_of_not_mem _ _ _ hnot, witness_ok hF ls _ (fun x hx => hr x (by simp [hx]))]
    · simp [entry]
    · simpa [Dict.keys, entry, List.append_assoc] using hn

theorem witnessDict_ok {F : CNF V} (hF : F.vars.Nodup) {ls : List Int} (hr : ∀ l ∈ ls, 1 ≤ l.natAbs ∧ l.natAbs ≤ F.vars.length)
    (ho : (ls.map Int.natAbs).Nodup) : witnessDict F ls = pure (ls.map (entry F)) := by
  have := witness_ok hF ls [] hr (by
    simp only [Dict.keys_nil, List.nil_append]
    have h1 : ls.Pairwise fun a b => a.natAbs ≠ b.natAbs := by
      have := List.pairwise_map.1 ho; exact this
    refine List.pairwise_map.2 ((List.Pairwise.and_mem.1 h1).imp ?_)
    intro a b h e
    exact h.2.2 (entry_inj hF (hr a h.1) (hr b h.2.1) e))
  simpa [witnessDict] using this

theorem fileAnswer_unsat (F : CNF V) {file : Str} (h : FileSays file none) : fileAnswer F file = pure (false, none) := by
  unfold fileAnswer FileSays at *
  rw [h]
  have h1 : ¬ ("UNSAT".toList = "SAT".toList) := by decide
  simp only [h1, if_false, if_true]
  rfl

theorem fileAnswer_sat {F : CNF V} (hF : F.vars.Nodup) {file : Str} {cs : List (List Int)} {ls : List Int} (h : FileSays file (some ls))
    (hm : IsModel F.vars.length cs ls) : fileAnswer F file = pure (true, if ls = [] then none else some (ls.map (entry F))) := by
  unfold fileAnswer FileSays at *
  rw [h]
  have hf : ((ls ++ [0]).map intStr).filter (fun v => decide (v ≠ ['0'])) = ls.map intStr := by
    rw [List.map_append, List.filter_append]
    have h1 : (ls.map intStr).filter (fun v => decide (v ≠ ['0'])) = ls.map intStr := by
      rw [List.filter_eq_self]
      intro v hv
      obtain ⟨l, hl, rfl⟩ := List.mem_map.1 hv
      rw [decide_eq_true_eq]
      intro e
      have : l = 0 := intStr_injective (e.trans (by decide))
      have := (hm.range l hl).1
      omega
    rw [h1]
    have h2 : ([(0 : Int)].map intStr).filter (fun v => decide (v ≠ ['0'])) = [] := by decide
    rw [h2, List.append_nil]
  simp only [if_true]
  rw [hf, mapOpt_intStr]
  show ((pure ls : M _) >>= _) = _
  rw [M.pure_bind, witnessDict_ok hF hm.range hm.once, M.pure_bind]
  cases ls with
  | nil => rfl
  | cons l ls => simp [answer]

/-- One line of the output of a program never changes anything. -/
theorem outLine_eq (st : Option Bool × List Int) (line : List Nat) : outLine st line = pure st := by
  cases line with
  | nil => rfl
  | cons b bs =>
    simp only [outLine, reduceCtorEq, if_false]
    rw [M.pure_bind]

theorem outLines_eq (ls : List (List Nat)) (st : Option Bool × List Int) : ls.foldlM outLine st = (pure st : M _) := by
  induction ls with
  | nil => rfl
  | cons l ls ih => rw [List.foldlM_cons, outLine_eq, M.pure_bind, ih]

theorem satStdout_eq (W : Machine) (header : Str) {F : CNF V} (hF : Cnfgen.Proper F.vars F.clauses) (cmd : Str) :
    satStdout W header F cmd = raise .runtimeError := by
  obtain ⟨text, ht, _⟩ := C57_dimacs_standard (some (header, none)) F hF
  unfold satStdout
  rw [ht, M.pure_bind, outLines_eq, M.pure_bind]

end

/-! ### Properties -/
section
variable {V : Type} [DecidableEq V]

theorem found_bind {R : Type} (x : M R) : ((x >>= fun r => pure (some r)) >>= fun r => orRaise .runtimeError r) = x := by
  rw [bind_assoc]
  rcases M.cases x with e | ⟨x, e⟩ | ⟨x, e⟩ <;> rw [e]
  · rw [M.diverge_bind]
  · rw [M.raise_bind]
  · rw [M.pure_bind, M.pure_bind]; rfl

theorem supported_interface {s : Str} (h : s ∈ supported) : ∃ b, Dict.get? interfaces s = some b := by
  have : ∀ s ∈ supported, (Dict.get? interfaces s).isSome := by decide +kernel
  exact Option.isSome_iff_exists.1 (this s h)

theorem stdout_interface {s : Str} (h : s ∈ supported) (h' : s ≠ "minisat".toList) : Dict.get? interfaces s = some false := by
  have : ∀ s ∈ supported, s ≠ "minisat".toList → Dict.get? interfaces s = some false := by decide +kernel
  exact this s h h'

/-- A call naming one command. -/
theorem isSatisfiable_one (W : Machine) (header : Str) (F : CNF V) {cmd s : Str} {ws : List Str} {sameas : Option Str} (hc : splitWS cmd = s :: ws)
    (hs : ∀ a, sameas = some a → a ∈ supported) (hs' : sameas = none → s ∈ supported) :
    isSatisfiable W header F (some cmd) sameas =
      if W.installed s then callSolver W header F (sameas.getD s) cmd else raise .runtimeError := by
  have hi : ∃ b, Dict.get? interfaces (sameas.getD s) = some b := by
    cases sameas with
    | none => exact supported_interface (hs' rfl)
    | some a => exact supported_interface (hs a rfl)
  obtain ⟨b, hi⟩ := hi
  unfold isSatisfiable
  rw [if_neg (by cases sameas with
    | none => simp
    | some a => simpa using hs a rfl)]
  have hne : ¬ (s ∉ supported ∧ sameas = none) := fun h => h.1 (hs' h.2)
  have h0 : (splitWS cmd)[0]? = some s := by rw [hc]; rfl
  simp only [h0, if_neg hne, trySolvers, hi, Option.isNone_some, Bool.false_eq_true, if_false]
  cases hw : W.installed s with
  | false => simp only [Bool.not_false, if_true, Bool.false_eq_true, if_false]; rw [M.pure_bind]; rfl
  | true =>
    simp only [Bool.not_true, Bool.false_eq_true, if_false, if_true]
    exact found_bind _

/-- **C77.**  With a solver that is called like `minisat` and answers rightly, `is_satisfiable` tells the truth: it returns `(False, None)` for
an unsatisfiable formula, and for a satisfiable one `True` and a dictionary giving values to variables of the formula (each at most once) such that
every assignment with these values makes the formula true.  (`None` instead of the dictionary only for a formula without clauses.) -/
theorem C77_minisat_right (W : Machine) (header : Str) (F : CNF V) (hF : Cnfgen.Proper F.vars F.clauses) {cmd s : Str} {ws : List Str}
    {sameas : Option Str} (hc : splitWS cmd = s :: ws) (hs : sameas = some "minisat".toList ∨ sameas = none ∧ s = "minisat".toList)
    (hi : W.installed s = true) {text file : Str} {out : List Nat} (ht : dimacsText (some (header, none)) F = pure text)
    (he : W.exec cmd text = some (out, file)) (hr : Right text F.vars.length file) :
    (isSatisfiable W header F (some cmd) sameas = pure (false, none) ∧ ¬ ∃ α, Holds F.vars F.clauses α) ∨
    ∃ w, isSatisfiable W header F (some cmd) sameas = pure (true, w) ∧ (∃ α, Holds F.vars F.clauses α) ∧
      (∀ x b, (x, b) ∈ w.getD [] → ∃ v ∈ F.vars, x = some v) ∧ (w.getD []).keys.Nodup ∧
      (∀ α : V → Bool, (∀ v b, (some v, b) ∈ w.getD [] → α v = b) → Holds F.vars F.clauses α) ∧
      (w = none → F.clauses = []) := by
  have hone : isSatisfiable W header F (some cmd) sameas = fileAnswer F file := by
    have hm : "minisat".toList ∈ supported := by decide +kernel
    rw [isSatisfiable_one W header F hc (by
      rintro a rfl
      rcases hs with h | h
      · rw [Option.some.inj h]; exact hm
      · cases h.1) (by
      rintro rfl
      rcases hs with h | h
      · cases h
      · rw [h.2]; exact hm), if_pos hi]
    have : sameas.getD s = "minisat".toList := by rcases hs with h | ⟨h, h'⟩ <;> simp [h] <;> assumption
    unfold callSolver
    rw [this, show Dict.get? interfaces "minisat".toList = some true by decide +kernel]
    simp only [satFileFile]
    rw [ht, M.pure_bind, he]
  obtain ⟨text', ht', _, hcs⟩ := C57_dimacs_standard (some (header, none)) F hF
  rw [ht] at ht'
  obtain rfl := (M.pure_inj _ _).1 ht'
  rw [hone]
  rcases hr _ hcs with ⟨h1, h2⟩ | ⟨ls, h1, h2⟩
  · exact .inl ⟨fileAnswer_unsat F h1, fun h => h2 (hF.sat.2 h)⟩
  · right
    have hval : ∀ α : V → Bool, (∀ v b, (some v, b) ∈ ls.map (entry F) → α v = b) → Holds F.vars F.clauses α := by
      intro α ha c hcl
      obtain ⟨l, hl, hl'⟩ := h2.sat c hcl
      have hb := h2.range l hl'
      obtain ⟨v, hv⟩ : ∃ v, F.vars[l.natAbs - 1]? = some v := ⟨_, List.getElem?_eq_getElem (by omega)⟩
      refine ⟨l, hl, v, by omega, hv, ha v _ ?_⟩
      exact List.mem_map.2 ⟨l, hl', by simp [entry, hv]⟩
    have hw : (if ls = [] then none else some (ls.map (entry F))).getD [] = ls.map (entry F) := by
      split
      · rename_i h; simp [h]
      · rfl
    have hk : Dict.keys (ls.map (entry F)) = ls.map fun l => (entry F l).1 := by simp [Dict.keys]
    have hnd : (Dict.keys (ls.map (entry F))).Nodup := by
      rw [hk]
      have h1 : ls.Pairwise fun a b => a.natAbs ≠ b.natAbs := List.pairwise_map.1 h2.once
      refine List.pairwise_map.2 ((List.Pairwise.and_mem.1 h1).imp ?_)
      intro a b h e
      exact h.2.2 (entry_inj hF.1 (h2.range a h.1) (h2.range b h.2.1) e)
    refine ⟨_, fileAnswer_sat hF.1 h1 h2, ?_, ?_, ?_, ?_, ?_⟩
    · refine ⟨fun v => (Dict.get? (ls.map (entry F)) (some v)).getD false, hval _ ?_⟩
      intro v b hb
      rw [Dict.get?_of_mem hnd hb]; rfl
    · rw [hw]
      intro x b hx
      obtain ⟨l, hl, hx⟩ := List.mem_map.1 hx
      have hb := h2.range l hl
      refine ⟨F.vars[l.natAbs - 1]'(by omega), List.getElem_mem _, ?_⟩
      rw [← (Prod.mk.inj hx).1]
      exact List.getElem?_eq_getElem (by omega)
    · rw [hw]; exact hnd
    · rw [hw]; exact hval
    · intro h
      have : ls = [] := by by_contra h'; rw [if_neg h'] at h; cases h
      subst this
      rw [List.eq_nil_iff_forall_not_mem]
      intro c hc
      obtain ⟨l, _, hl⟩ := h2.sat c hc
      cases hl

/-- **C77.**  With any other interface (`lingeling`, `plingeling`, `precosat`, `picosat`, `march`, `cryptominisat`, `glucose`, `sat4j`, or a command
declared to be like one of these) `is_satisfiable` raises `RuntimeError` for every formula, whatever the solver answers: the output of the
program is `bytes` and is compared with `str`. -/
theorem C77_stdout_refuted (W : Machine) (header : Str) (F : CNF V) (hF : Cnfgen.Proper F.vars F.clauses) {cmd s : Str} {ws : List Str}
    {sameas : Option Str} (hc : splitWS cmd = s :: ws) (hs : sameas.getD s ∈ supported) (hm : sameas.getD s ≠ "minisat".toList) :
    isSatisfiable W header F (some cmd) sameas = raise .runtimeError := by
  rw [isSatisfiable_one W header F hc (by rintro a rfl; exact hs) (by rintro rfl; exact hs)]
  split
  · unfold callSolver
    rw [stdout_interface hs hm]
    exact satStdout_eq W header hF cmd
  · rfl

/-- **C77.**  Without a command: the first installed solver of the list is called; an answer is possible only if that is `minisat`. -/
theorem C77_no_command (W : Machine) (header : Str) (F : CNF V) (hF : Cnfgen.Proper F.vars F.clauses) (sameas : Option Str)
    (hs : ∀ a, sameas = some a → a ∈ supported) :
    isSatisfiable W header F none sameas =
      if ∃ s ∈ ["lingeling".toList, "plingeling".toList, "precosat".toList, "picosat".toList, "march".toList, "cryptominisat".toList],
          W.installed s = true then raise .runtimeError
      else isSatisfiable W header F (some "minisat".toList) none := by
  have hstd : ∀ s ∈ supported, s ≠ "minisat".toList → callSolver W header F s s = raise .runtimeError := by
    intro s h h'
    unfold callSolver
    rw [stdout_interface h h']
    exact satStdout_eq W header hF s
  have hw : ∀ s ∈ supported, (splitWS s)[0]? = some s := by decide +kernel
  have hstep : ∀ s ∈ supported, ∀ cmds, trySolvers W header F none (s :: cmds) =
      if W.installed s then (callSolver W header F s s >>= fun r => pure (some r)) else trySolvers W header F none cmds := by
    intro s h cmds
    obtain ⟨b, hb⟩ := supported_interface h
    rw [trySolvers]
    simp only [hw s h, Option.getD_none, hb, Option.isNone_some, Bool.false_eq_true, if_false]
    cases W.installed s <;> simp
  have hbad : ∀ (bad rest : List Str), (∀ s ∈ bad, s ∈ supported ∧ s ≠ "minisat".toList) → trySolvers W header F none (bad ++ rest) =
      if ∃ s ∈ bad, W.installed s = true then raise .runtimeError else trySolvers W header F none rest := by
    intro bad rest h
    induction bad with
    | nil => simp
    | cons s bad ih =>
      have hs := h s (by simp)
      rw [List.cons_append, hstep s hs.1, hstd s hs.1 hs.2, M.raise_bind, ih fun s hs => h s (by simp [hs])]
      by_cases hi : W.installed s = true
      · rw [if_pos hi, if_pos ⟨s, by simp, hi⟩]
      · rw [if_neg hi]
        by_cases he : ∃ s ∈ bad, W.installed s = true
        · rw [if_pos he, if_pos (by obtain ⟨t, ht, ht'⟩ := he; exact ⟨t, by simp [ht], ht'⟩)]
        · rw [if_neg he, if_neg]
          rintro ⟨t, ht, ht'⟩
          rcases List.mem_cons.1 ht with rfl | ht
          · exact hi ht'
          · exact he ⟨t, ht, ht'⟩
  have hmin : isSatisfiable W header F (some "minisat".toList) none =
      if W.installed "minisat".toList then callSolver W header F "minisat".toList "minisat".toList else raise .runtimeError :=
    isSatisfiable_one W header F (ws := []) (by decide +kernel) (by rintro a ⟨⟩) (fun _ => by decide +kernel)
  rw [hmin]
  unfold isSatisfiable
  rw [if_neg (by cases sameas with
    | none => simp
    | some a => simpa using hs a rfl)]
  show (trySolvers W header F none supported >>= _) = _
  have hsup : supported = ["lingeling".toList, "plingeling".toList, "precosat".toList, "picosat".toList, "march".toList, "cryptominisat".toList] ++
    ("minisat".toList :: (["glucose".toList, "sat4j".toList] ++ [])) := rfl
  rw [hsup, hbad _ _ (by decide +kernel)]
  split
  · rw [M.raise_bind]
  · rw [hstep _ (by decide +kernel)]
    split
    · exact found_bind _
    · rw [hbad _ _ (by decide +kernel)]
      split
      · rw [M.raise_bind]
      · rw [trySolvers, M.pure_bind]; rfl

/-- **C77.**  Wrong arguments: an unknown `sameas` is a `ValueError`, an unknown command without `sameas` a `RuntimeError`, and so is a solver that is
not installed. -/
theorem C77_arguments (W : Machine) (header : Str) (F : CNF V) :
    (∀ cmd a, a ∉ supported → isSatisfiable W header F cmd (some a) = raise .valueError) ∧
    (∀ cmd s ws, splitWS cmd = s :: ws → s ∉ supported → isSatisfiable W header F (some cmd) none = raise .runtimeError) ∧
    (∀ cmd s ws sameas, splitWS cmd = s :: ws → sameas.getD s ∈ supported → W.installed s = false →
      isSatisfiable W header F (some cmd) sameas = raise .runtimeError) := by
  refine ⟨fun cmd a h => ?_, fun cmd s ws hc h => ?_, fun cmd s ws sameas hc h hi => ?_⟩
  · unfold isSatisfiable
    rw [if_pos (by simpa using h)]
  · unfold isSatisfiable
    rw [if_neg (by simp)]
    have h0 : (splitWS cmd)[0]? = some s := by rw [hc]; rfl
    simp only [h0, h, not_false_eq_true, and_self, if_true]
    rw [M.raise_bind]
  · rw [isSatisfiable_one W header F hc (by rintro a rfl; exact h) (by rintro rfl; exact h), if_neg (by simp [hi])]

/-- **C77.**  A solver called like `minisat` that is found but cannot be started: no verdict, but a traceback (`UnboundLocalError`). -/
theorem C77_not_started (W : Machine) (header : Str) (F : CNF V) {cmd s : Str} {ws : List Str}
    {sameas : Option Str} (hc : splitWS cmd = s :: ws) (hs : sameas = some "minisat".toList ∨ sameas = none ∧ s = "minisat".toList)
    (hi : W.installed s = true) {text : Str} (ht : dimacsText (some (header, none)) F = pure text) (he : W.exec cmd text = none) :
    isSatisfiable W header F (some cmd) sameas = raise .unboundLocalError := by
  have hm : "minisat".toList ∈ supported := by decide +kernel
  rw [isSatisfiable_one W header F hc (by
    rintro a rfl
    rcases hs with h | h
    · rw [Option.some.inj h]; exact hm
    · cases h.1) (by
    rintro rfl
    rcases hs with h | h
    · cases h
    · rw [h.2]; exact hm), if_pos hi]
  have hg : sameas.getD s = "minisat".toList := by
    rcases hs with rfl | ⟨rfl, rfl⟩ <;> rfl
  rw [hg]
  unfold callSolver
  rw [show Dict.get? interfaces "minisat".toList = some true by decide +kernel]
  simp only [satFileFile]
  rw [ht, M.pure_bind, he]

/-- Two variables; the first is true, the second false. -/
def tinyF : CNF Str := ⟨["a".toList, "b".toList], [[1], [-2]]⟩

/-- A machine with `minisat` and `lingeling`, both giving the right answer for `tinyF`, each in its own way. -/
def tinyMachine : Machine :=
  ⟨fun s => decide (s = "minisat".toList ∨ s = "lingeling".toList), fun cmd _ =>
    if splitWS cmd = ["minisat".toList, "-no-pre".toList] then some ([], "SAT\n1 -2 0\n".toList)
    else some ("s SATISFIABLE\nv 1 -2 0\n".toList.map Char.toNat, [])⟩

/-- The hypotheses of `C77_minisat_right` hold of them; the answer is the dictionary `{a: True, b: False}`. -/
example : ∃ text, dimacsText (some ("h\n".toList, none)) tinyF = pure text ∧ Cnfgen.Proper tinyF.vars tinyF.clauses ∧
    tinyMachine.exec "minisat -no-pre".toList text = some ([], "SAT\n1 -2 0\n".toList) ∧ Right text 2 "SAT\n1 -2 0\n".toList ∧
    isSatisfiable tinyMachine "h\n".toList tinyF (some "minisat -no-pre".toList) none =
      pure (true, some [(some "a".toList, true), (some "b".toList, false)]) := by
  have hF : Cnfgen.Proper tinyF.vars tinyF.clauses := ⟨by decide +kernel, by decide +kernel⟩
  obtain ⟨text, h1, _, h3⟩ := C57_dimacs_standard (some ("h\n".toList, none)) tinyF hF
  refine ⟨text, h1, hF, by simp only [tinyMachine]; rw [if_pos (by decide +kernel)], ?_, ?_⟩
  · intro cs hcs
    rw [h3] at hcs
    obtain rfl := Option.some.inj hcs
    exact .inr ⟨[1, -2], by show _ = _; decide +kernel, by decide +kernel, by decide +kernel, by decide +kernel⟩
  · rw [isSatisfiable_one _ _ _ (s := "minisat".toList) (ws := ["-no-pre".toList]) (by decide +kernel) (by rintro a ⟨⟩) (fun _ => by decide +kernel),
      if_pos (by decide +kernel)]
    unfold callSolver
    rw [show Dict.get? interfaces ((none : Option Str).getD "minisat".toList) = some true by decide +kernel]
    simp only [satFileFile]
    rw [h1, M.pure_bind]
    rw [show tinyMachine.exec "minisat -no-pre".toList text = some ([], "SAT\n1 -2 0\n".toList) by
      simp only [tinyMachine]; rw [if_pos (by decide +kernel)]]
    exact fileAnswer_sat (file := "SAT\n1 -2 0\n".toList) (cs := tinyF.clauses) (ls := [1, -2]) hF.1 (by show _ = _; decide +kernel) ⟨by decide +kernel, by decide +kernel, by decide +kernel⟩

/-- The hypotheses of `C77_not_started` hold for a machine that starts nothing. -/
example : isSatisfiable ⟨fun _ => true, fun _ _ => none⟩ "h\n".toList tinyF (some "minisat".toList) none = raise .unboundLocalError := by
  obtain ⟨text, h1, _⟩ := C57_dimacs_standard (some ("h\n".toList, none)) tinyF ⟨by decide +kernel, by decide +kernel⟩
  exact C77_not_started _ _ _ (s := "minisat".toList) (ws := []) (by decide +kernel) (.inr ⟨rfl, rfl⟩) rfl h1 rfl

/-- `lingeling`'s correct answer on the same machine is not understood. -/
example : isSatisfiable tinyMachine "h\n".toList tinyF (some "lingeling".toList) none = raise .runtimeError :=
  C77_stdout_refuted _ _ _ ⟨by decide +kernel, by decide +kernel⟩ (s := "lingeling".toList) (ws := []) (by decide +kernel) (by decide +kernel) (by decide +kernel)

end
end NDP.Cnfgen
