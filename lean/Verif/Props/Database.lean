import Verif.Proofs.Database
/-
  C92: the data base over its whole life.  One table per mode; runs of any mode, killed or not, of one process or several,
  and the scripts that delete and create tables.  What a row must say: `SpecGdb.lean`; runs: `Props/Shared.lean`.
-/
namespace NDP
open Spec SetObj
variable {H : Type} [DecidableEq H] (hash : Str → H) {a : Args}

/-- What a `-gdb` run with the options `a` can do to its table, up to any moment: a run of one process that ends; one
killed (or ended by an exception) after any number of passes; any moment of any interleaving of several processes;
statistics being saved. -/
inductive RunOn (T : Str → Prop) (a : Args) : Gdb H → Gdb H → Prop
  | finished {env : EnvChoice} (ho : OneProcess a env) {F : Cnf} (hF : Proper F) (hne : F ≠ []) {root : SetObj H}
      (h : Input F root) {g : Gdb H} {rep : Report H} (hT : ∀ s k, prepareRoot hash a root = pure (s, k) → TextsBelow T s)
      (hrun : solveSet hash a env g root = pure rep) : RunOn T a g rep.gdb
  | killed (hg : a.useGlobalDb = true) {F : Cnf} (hF : Proper F) (hne : F ≠ []) {root : SetObj H} (h : Input F root)
      {g : Gdb H} {n : Nat} {s : SetObj H} {k : H} {ps : PS H} (hT : TextsBelow T s) (hk : KilledAt hash a g root n s k ps) :
      RunOn T a g ps.gdb
  | shared {F : Cnf} (hF : Proper F) (hne : F ≠ []) {root : SetObj H} (h : Input F root)
      {g : Gdb H} {s : SetObj H} {k : H} {S : Shared H} (hT : TextsBelow T s) (hs : SharedRun hash a g root s k S) :
      RunOn T a g S.gdb
  | saved (g : Gdb H) (stats : Dict H NodeStats) (red : Dict H Nat) : RunOn T a g (saveInGlobalDb g stats red)

/-- What can happen to the data base: a run (which creates the table of its mode if need be), `delete_gdb.py` with any
arguments, `gs_drop_all`, `tools/create_global_table.py`.  (Not modelled: a table dropped while a run uses it.) -/
inductive DbStep (T : Str → Prop) : Database H → Database H → Prop
  | run (a : Args) {db : Database H} {g : Gdb H} (h : RunOn hash T a (openTable db a.mode) g) : DbStep T db (closeTable db a.mode g)
  | delete (argv : List Str) (db : Database H) : DbStep T db (deleteGdb argv db)
  | dropAll (db : Database H) : DbStep T db (NDP.dropAll db)
  | create (db : Database H) : DbStep T db (createGlobalTable db)

/-- The data bases that can come about, starting with one without tables. -/
def DbHistory (T : Str → Prop) (db : Database H) : Prop := Relation.ReflTransGen (DbStep hash T) [] db

theorem RunOn.happens {T : Str → Prop} {g g' : Gdb H} (h : RunOn hash T a g g') : Happens hash T g g' := by
  cases h with
  | finished ho hF hne h hT hrun => exact .finished ho hF hne h hT hrun
  | killed hg hF hne h hT hk => exact .killed hg hF hne h hT hk
  | shared hF hne h hT hs => exact .shared hF hne h hT hs
  | saved => exact .saved _ _ _

theorem TableSoundIn.same {m : Mode} {g g' : Gdb H} (h : TableSoundIn hash m g) (hs : Gdb.same g g') : TableSoundIn hash m g' := by
  intro k r hr
  obtain ⟨m', hm'⟩ := (h.sound hash).same hash hs k r hr
  obtain ⟨r', hr', e⟩ := hs.symm.get hr
  refine (h k r' hr').swap hash hm' ?_ ?_ ?_
  · exact congrArg (fun p => p.1) e
  · exact congrArg (fun p => p.2.1) e
  · exact congrArg (fun p => p.2.2.1) e

theorem killed_shared {T : Str → Prop} (hcl : NoClash hash T) (ht : T ['T']) (hf : T ['F'])
    (hg : a.useGlobalDb = true) {F : Cnf} (hF : Proper F) (hne : F ≠ []) {root : SetObj H} (h : Input F root)
    {g : Gdb H} {n : Nat} {s : SetObj H} {k : H} {ps : PS H} (hT : TextsBelow T s) (hk : KilledAt hash a g root n s k ps)
    (hsound : TableSound hash g) (hb : ∀ h r, Dict.get? g h = some r → T r.body) :
    SharedRun hash a g root s k { gdb := ps.gdb, procs := [ps] } := by
  obtain ⟨_, hr, _⟩ := ready_of_prepare hash hF hne h hk.root
  have hC := seenAtStart_ctx hash hcl ht hf hg hr.tracks.shape.wf hT hsound hb
  obtain ⟨ps0, h0, hp⟩ := hk.run
  exact ⟨hg, hk.root, hp.reached hash hF hr hC h0⟩

theorem sharedRun_rowsIn {T : Str → Prop} (hcl : NoClash hash T) (ht : T ['T']) (hf : T ['F']) {F : Cnf} (hF : Proper F)
    (hne : F ≠ []) {root : SetObj H} (h : Input F root) {g : Gdb H} {s : SetObj H} {k : H} {S : Shared H} (hT : TextsBelow T s)
    (hs : SharedRun hash a g root s k S) (hsound : TableSoundIn hash (modeBelow a.mode) g)
    (hb : ∀ h r, Dict.get? g h = some r → T r.body) : TableSoundIn hash (modeBelow a.mode) S.gdb := by
  obtain ⟨_, _, L, hI⟩ := sharedRun_inv hash hcl ht hf hF hne h hT hs (hsound.sound hash) hb
  rw [← inputMode_eq] at hsound ⊢
  exact hI.rowsIn hash hF hcl hT hsound

/-- A run leaves a table of rows that are right in its mode. -/
theorem RunOn.rowsIn {T : Str → Prop} (hcl : NoClash hash T) (ht : T ['T']) (hf : T ['F']) {g g' : Gdb H}
    (hh : RunOn hash T a g g') (hsound : TableSoundIn hash (modeBelow a.mode) g)
    (hb : ∀ h r, Dict.get? g h = some r → T r.body) : TableSoundIn hash (modeBelow a.mode) g' := by
  cases hh with
  | finished ho hF hne h hT hrun =>
    rename_i env F root rep
    have hl := h.loaded hF hne
    obtain ⟨s, hs, _⟩ := prepareRoot_ok hash a hF hl
    rcases solveSet_cases hash ho hF hne h hs hrun with e | ⟨ps, h1, h2⟩
    · rw [e]; exact hsound
    · obtain ⟨ps0, n, h0, hp⟩ := runMain_passes hash h1
      have hk : KilledAt hash a g root n s _ ps := ⟨hs, ps0, h0, hp⟩
      have hsr := killed_shared hash hcl ht hf ho.gdb hF hne h (hT s _ hs) hk (hsound.sound hash) hb
      obtain ⟨_, _, e3⟩ := finishG_same h2
      exact (sharedRun_rowsIn hash hcl ht hf hF hne h (hT s _ hs) hsr hsound hb).same hash e3
  | killed hg hF hne h hT hk =>
    exact sharedRun_rowsIn hash hcl ht hf hF hne h hT
      (killed_shared hash hcl ht hf hg hF hne h hT hk (hsound.sound hash) hb) hsound hb
  | shared hF hne h hT hs => exact sharedRun_rowsIn hash hcl ht hf hF hne h hT hs hsound hb
  | saved => exact hsound.same hash (same_save g _ _)

theorem dropAll_get? {H : Type} (db : Database H) (k : Str) :
    Dict.get? (dropAll db) k = if k ∈ knownTables then none else Dict.get? db k := by
  have key : ∀ (l : List Str) (db : Database H), Dict.get? (l.foldl dropTable db) k = if k ∈ l then none else Dict.get? db k := by
    intro l
    induction l with
    | nil => intro db; simp
    | cons n l ih =>
      intro db
      rw [List.foldl_cons, ih, get?_dropTable]
      by_cases e : k ∈ l
      · simp [e]
      · by_cases e2 : n = k
        · subst e2; simp
        · have e3 : k ≠ n := fun h => e2 h.symm
          simp [e, e2, e3]
  exact key _ _

/-- The state of the data base that a step leaves, table by table: the same table, an empty new table, no table, or the
table of the mode of the run. -/
theorem DbStep.cases {T : Str → Prop} {db db' : Database H} (h : DbStep hash T db db') (n : Str) {g' : Gdb H}
    (hg : Dict.get? db' n = some g') : Dict.get? db n = some g' ∨ (g' = [] ∧ n = tableName .lo) ∨
      ∃ a : Args, n = tableName a.mode ∧ RunOn hash T a (openTable db a.mode) g' := by
  cases h with
  | run a hr =>
    rw [get?_closeTable] at hg
    split at hg
    · next e =>
      have e2 := Option.some.inj hg
      subst e2
      exact Or.inr (Or.inr ⟨a, e.symm, hr⟩)
    · exact Or.inl hg
  | delete argv =>
    left
    unfold deleteGdb at hg
    split at hg
    · split at hg
      · rw [get?_dropTable] at hg
        split at hg
        · simp at hg
        · exact hg
      · exact hg
    · exact hg
  | dropAll =>
    left
    rw [dropAll_get?] at hg
    split at hg
    · simp at hg
    · exact hg
  | create =>
    unfold createGlobalTable at hg
    rw [get?_createTable] at hg
    split at hg
    · next e =>
      have e2 := Option.some.inj hg
      cases hd : Dict.get? db n with
      | some g => rw [hd] at e2; exact Or.inl (by rw [← e2]; rfl)
      | none =>
        rw [hd] at e2
        exact Or.inr (Or.inl ⟨e2.symm, by rw [← e]; decide⟩)
    · exact Or.inl hg

theorem DbHistory.ok {T : Str → Prop} (hcl : NoClash hash T) (ht : T ['T']) (hf : T ['F']) {db : Database H}
    (h : DbHistory hash T db) : ∀ n g, Dict.get? db n = some g → ∃ m, n = tableName m ∧ TableSoundIn hash (modeBelow m) g ∧
      ∀ k r, Dict.get? g k = some r → T r.body := by
  unfold DbHistory at h
  induction h with
  | refl => intro n g hg; simp at hg
  | @tail db1 db2 _ hstep ih =>
    intro n g hg
    rcases hstep.cases hash n hg with h1 | ⟨rfl, h1⟩ | ⟨a, h1, hr⟩
    · exact ih n g h1
    · exact ⟨.lo, h1, fun k r hr => by simp at hr, fun k r hr => by simp at hr⟩
    · have hopen : TableSoundIn hash (modeBelow a.mode) (openTable db1 a.mode) ∧
          ∀ k r, Dict.get? (openTable db1 a.mode) k = some r → T r.body := by
        rw [openTable_eq]
        cases hd : Dict.get? db1 (tableName a.mode) with
        | none => exact ⟨fun k r hr => by simp at hr, fun k r hr => by simp at hr⟩
        | some g0 =>
          obtain ⟨m, e, h2, h3⟩ := ih _ _ hd
          rw [← tableName_inj e] at h2
          exact ⟨h2, h3⟩
      exact ⟨a.mode, h1, hr.rowsIn hash hcl ht hf hopen.1 hopen.2,
        ((hr.happens hash).ok hash hcl ht hf (hopen.1.sound hash) hopen.2).2.1⟩

/-- **C92, what the tables hold.** Over every history of the data base - runs in any modes, on any formulas, with any
other options, ended or killed at any moment, of one process or several; tables deleted and created in between - every
table is that of one mode, and every row of it is right *in that mode*: its children are the digests of normal forms of
the mode (for `lo`, whose nodes below the root are brought to `lou` form, of `lou`). -/
theorem C92_tables {T : Str → Prop} (hcl : NoClash hash T) (ht : T ['T']) (hf : T ['F']) {db : Database H}
    (h : DbHistory hash T db) :
    (∀ n ∈ Dict.keys db, ∃ m, n = tableName m) ∧
    ∀ m g, Dict.get? db (tableName m) = some g → ∀ k r, Dict.get? g k = some r → RowSound hash (modeBelow m) k r := by
  constructor
  · intro n hn
    obtain ⟨g, hg⟩ := Dict.exists_get?_of_mem hn
    obtain ⟨m, e, _⟩ := h.ok hash hcl ht hf n g hg
    exact ⟨m, e⟩
  · intro m g hg
    obtain ⟨m', e, h2, _⟩ := h.ok hash hcl ht hf _ g hg
    rw [← tableName_inj e] at h2
    exact h2

/-- **C92, the modes do not touch each other.** A run changes no table but that of its mode. -/
theorem C92_isolated (db : Database H) {m m' : Mode} (hm : m' ≠ m) (g : Gdb H) :
    Dict.get? (closeTable db m g) (tableName m') = Dict.get? db (tableName m') ∧
    openTable (closeTable db m g) m' = openTable db m' ∧ openTable (closeTable db m g) m = g := by
  have hne : tableName m ≠ tableName m' := fun e => hm (tableName_inj e).symm
  refine ⟨?_, ?_, ?_⟩
  · rw [get?_closeTable, if_neg hne]
  · rw [openTable_eq, openTable_eq, get?_closeTable, if_neg hne]
  · rw [openTable_eq, get?_closeTable, if_pos rfl]; rfl

/-- **C92, rows are kept.** As long as no table is deleted, no row of any table is lost or changed (but for statistics),
whatever runs. -/
theorem C92_rows_kept {T : Str → Prop} (hcl : NoClash hash T) (ht : T ['T']) (hf : T ['F']) {db db' : Database H}
    (h : DbHistory hash T db) {a : Args} {g : Gdb H} (hrun : RunOn hash T a (openTable db a.mode) g)
    (hdb : db' = closeTable db a.mode g) (m : Mode) : Gdb.le (openTable db m) (openTable db' m) := by
  subst hdb
  by_cases hm : m = a.mode
  · subst hm
    rw [(C92_isolated db (m := a.mode) (m' := if a.mode = .flo then .lou else .flo) (by cases a.mode <;> decide) g).2.2]
    cases hd : Dict.get? db (tableName a.mode) with
    | none =>
      intro k r hr
      rw [openTable_eq, hd] at hr
      simp at hr
    | some g0 =>
      obtain ⟨m', _, h2, h3⟩ := h.ok hash hcl ht hf _ _ hd
      have e : openTable db a.mode = g0 := by rw [openTable_eq, hd]; rfl
      rw [e] at hrun ⊢
      exact ((hrun.happens hash).ok hash hcl ht hf (h2.sound hash) h3).2.2
  · rw [(C92_isolated db hm g).2.1]
    exact Gdb.le_refl _

/-- **C92, the verdict.** Whatever has happened to the data base before, a `-gdb` run of one process that finds its root
not yet marked as solved and finishes gives the right verdict. -/
theorem C92_verdict {T : Str → Prop} (hcl : NoClash hash T) (ht : T ['T']) (hf : T ['F']) {db : Database H}
    (h : DbHistory hash T db) {env : EnvChoice} (ho : OneProcess a env) {F : Cnf} (hF : Proper F) (hne : F ≠ [])
    {root : SetObj H} (hI : Input F root) (hT : ∀ s k, prepareRoot hash a root = pure (s, k) → TextsBelow T s)
    (hns : ∀ s k, prepareRoot hash a root = pure (s, k) → ¬ MarkedSolved (openTable db a.mode) k) {rep : Report H}
    (hrun : solveSet hash a env (openTable db a.mode) root = pure rep) :
    (rep.isSat = true ↔ Satisfiable F) ∧ (∀ d, rep.solution = some d → d = [] ∨ MakesTrue d F) := by
  have hopen : TableSound hash (openTable db a.mode) ∧ ∀ k r, Dict.get? (openTable db a.mode) k = some r → T r.body := by
    rw [openTable_eq]
    cases hd : Dict.get? db (tableName a.mode) with
    | none => exact ⟨fun k r hr => by simp at hr, fun k r hr => by simp at hr⟩
    | some g0 =>
      obtain ⟨_, _, h2, h3⟩ := h.ok hash hcl ht hf _ _ hd
      exact ⟨h2.sound hash, h3⟩
  have hclash : NoTableClash hash a root (openTable db a.mode) := by
    intro s k hs t u h1 h2
    have key : ∀ t, RunTexts (Below (raws s.clauses)) (openTable db a.mode) t → T t := by
      rintro t (rfl | rfl | ⟨G, hG, rfl⟩ | ⟨k, r, hr, rfl⟩)
      · exact ht
      · exact hf
      · exact hT s k hs G hG
      · exact hopen.2 k r hr
    exact hcl t u (key t h1) (key u h2)
  obtain ⟨h1, _, h3, _⟩ := C35_resumed_verdict_partial hash ho hF hne hI hopen.1 hclash hns hrun
  exact ⟨h1, h3⟩

/-! ### deleting tables -/

/-- **C92, deleting.** `delete_gdb.py` with the name of the table of a mode other than `normal` removes that table and no
other one. -/
theorem C92_delete (db : Database H) {m : Mode} (hm : m ≠ .normal) (prog : Str) (rest : List Str) :
    Dict.get? (deleteGdb (prog :: tableName m :: rest) db) (tableName m) = none ∧
    ∀ n, n ≠ tableName m → Dict.get? (deleteGdb (prog :: tableName m :: rest) db) n = Dict.get? db n := by
  have hk : tableName m ∈ knownTables := by revert hm; cases m <;> decide
  unfold deleteGdb
  simp only [hk, if_true]
  constructor
  · rw [get?_dropTable, if_pos rfl]
  · intro n hn
    rw [get?_dropTable, if_neg (Ne.symm hn)]

/-- Any other use of the script changes nothing. -/
theorem C92_delete_else (db : Database H) (argv : List Str) (h : ∀ prog m rest, argv = prog :: tableName m :: rest → m = .normal) :
    deleteGdb argv db = db := by
  unfold deleteGdb
  split
  · next prog t rest =>
    split
    · next hk =>
      have : ∃ m, m ≠ Mode.normal ∧ t = tableName m := by
        have hk : t = tableName .lou ∨ t = tableName .lo ∨ t = tableName .flo ∨ t = tableName .flop := by
          have e : knownTables = [tableName .lou, tableName .lo, tableName .flo, tableName .flop] := by decide
          rw [e] at hk
          simpa only [List.mem_cons, List.not_mem_nil, or_false] using hk
        rcases hk with e | e | e | e
        · exact ⟨_, by decide, e⟩
        · exact ⟨_, by decide, e⟩
        · exact ⟨_, by decide, e⟩
        · exact ⟨_, by decide, e⟩
      obtain ⟨m, hm, rfl⟩ := this
      exact absurd (h prog m rest rfl) hm
    · rfl
  · rfl

/-- **C92, a fresh start.** After the table of a mode has been deleted, the next run in that mode is a run without the
global table, whatever had happened before: it ends, with the same verdict, solution, counts and graph. -/
theorem C92_delete_then_run (db : Database H) (prog : Str) (rest : List Str) {env : EnvChoice} (ho : OneProcess a env)
    (hm : a.mode ≠ .normal) {F : Cnf} (hF : Proper F) (hne : F ≠ []) {root : SetObj H} (hI : Input F root) :
    ∃ rep repl, solveSet hash a env (openTable (deleteGdb (prog :: tableName a.mode :: rest) db) a.mode) root = pure rep ∧
      solveSet hash (loc a) env [] root = pure repl ∧ repl = { rep with gdb := repl.gdb } := by
  have e : openTable (deleteGdb (prog :: tableName a.mode :: rest) db) a.mode = [] := by
    rw [openTable_eq, (C92_delete db hm prog rest).1]; rfl
  rw [e]
  exact gdb_run_is_local hash ho hF hne hI (freshFor_nil hash root)

/-- **C92 is false of the mode `normal`.** Neither `delete_gdb.py`, with any arguments, nor `gs_drop_all` removes the
table of this mode: it is not in their lists. -/
theorem C92_normal_table_stays (db : Database H) (argv : List Str) :
    Dict.get? (deleteGdb argv db) (tableName .normal) = Dict.get? db (tableName .normal) ∧
    Dict.get? (dropAll db) (tableName .normal) = Dict.get? db (tableName .normal) := by
  have hn : tableName .normal ∉ knownTables := by decide
  constructor
  · unfold deleteGdb
    split
    · next t _ =>
      split
      · next ht =>
        rw [get?_dropTable, if_neg]
        rintro rfl
        exact hn ht
      · rfl
    · rfl
  · rw [dropAll_get?, if_neg hn]

/-! ### examples, and one more thing that is false -/

/-- A run with bounded loops. -/
def boundedRun (a : Args) (n : Nat) (g : Gdb Str) (F : Cnf) : M (SetObj Str × Str × PS Str) := do
  let (s, k) ← prepareRootF (fun s => s) a n (mkSet F)
  let ps ← runMainF (fun s => s) a (inputMode a) n (seenAtStart a g s.clauses.length) g 0 (fun _ => false) [] s
  pure (s, k, ps)

theorem boundedRun_solves {a : Args} (hg : a.useGlobalDb = true) (ht : a.threads = 1) (hst : a.noStats = true) {n : Nat}
    {g : Gdb Str} (hm : ∀ p ∈ g, p.2.uniqueNodes = 0) {F : Cnf} (hF : Proper F) (hne : F ≠ []) {s : SetObj Str} {k : Str} {ps : PS Str}
    (h : boundedRun a n g F = pure (s, k, ps)) :
    ∃ rep, solveSet (fun s => s) a {} g (mkSet F) = pure rep ∧ rep.uniques = ps.uniques ∧ rep.gdb = ps.gdb := by
  unfold boundedRun at h
  obtain ⟨⟨s', k'⟩, h1, h⟩ := M.bind_eq_pure.1 h
  obtain ⟨ps', h2, h⟩ := M.bind_eq_pure.1 h
  have e := (M.pure_inj _ _).1 h
  cases e
  have hI := input_mkSet (H := Str) hF hne
  have h1 := (prepareRootF_le (fun s : Str => s) a n (mkSet F)).pure h1
  have h2 := runMainF_pure (fun s : Str => s) a (inputMode a) h2
  obtain ⟨rfl, _⟩ := ready_of_prepare (fun s : Str => s) hF hne hI h1
  have ho : OneProcess a {} := ⟨hg, ht, rfl⟩
  rw [solveSet_gdb (fun s : Str => s) a ho g (hI.loaded hF hne) h1 (by rintro ⟨r, hr, hu⟩; exact hu (hm _ hr))]
  rw [h2, M.pure_bind]
  unfold finishG
  rw [if_pos hst]
  exact ⟨_, rfl, rfl, rfl⟩

def exMix : Cnf := [[1, -2], [1], [4], [2, -4]]

/-- `-m flo -gdb -ns -t 1`; with `z`, also `-z`. -/
def exMixArgs (z : Bool) : Args := { mode := .flo, useGlobalDb := true, noStats := true, threads := 1, sortBySize := z }

def exMixRun : M (Nat × Nat × Nat × Bool) := do
  let (_, _, ps) ← boundedRun (exMixArgs false) 30 [] exMix
  let (_, _, psz) ← boundedRun (exMixArgs true) 30 [] exMix
  let (_, _, ps2) ← boundedRun (exMixArgs false) 30 psz.gdb exMix
  pure (ps.uniques, psz.uniques, ps2.uniques, psz.gdb.all fun p => p.2.uniqueNodes == 0)

set_option maxRecDepth 100000 in
theorem exMixRun_ok : (match exMixRun with | some (.ok r) => decide (r = (4, 3, 3, true)) | _ => false) = true := by decide

/-- **C92, sort options share a table.** The table is chosen by the mode alone, not by `-z` (or `-thief`), which also
change the nodes.  So a run can report other statistics than a run of the same command on an empty table: without
`-z`, `exMix` has four unique nodes, but three after a run with `-z`. -/
theorem C92_options_share_table : ∃ (F : Cnf) (a az : Args) (rep repz rep2 : Report Str), Proper F ∧
    az = { a with sortBySize := true } ∧ OneProcess a {} ∧ tableName az.mode = tableName a.mode ∧
    solveSet (fun s => s) a {} [] (mkSet F) = pure rep ∧
    solveSet (fun s => s) az {} [] (mkSet F) = pure repz ∧
    solveSet (fun s => s) a {} repz.gdb (mkSet F) = pure rep2 ∧ rep.uniques = 4 ∧ rep2.uniques = 3 := by
  have hF : Proper exMix := by unfold exMix Proper; decide
  have hok := exMixRun_ok
  rcases M.cases exMixRun with e | ⟨er, e⟩ | ⟨r, e⟩
  · rw [e] at hok; exact absurd hok (by decide)
  · rw [e] at hok; exact absurd hok (by intro h; cases h)
  · rw [e] at hok
    have hok : decide (r = (4, 3, 3, true)) = true := hok
    rw [decide_eq_true_eq] at hok
    unfold exMixRun at e
    obtain ⟨⟨s1, k1, ps1⟩, h1, e⟩ := M.bind_eq_pure.1 e
    obtain ⟨⟨s2, k2, ps2⟩, h2, e⟩ := M.bind_eq_pure.1 e
    obtain ⟨⟨s3, k3, ps3⟩, h3, e⟩ := M.bind_eq_pure.1 e
    have e := (M.pure_inj _ _).1 e
    rw [hok] at e
    simp only [Prod.mk.injEq, List.all_eq_true, beq_iff_eq] at e
    obtain ⟨rep, a1, b1, c1⟩ := boundedRun_solves (a := exMixArgs false) rfl rfl rfl (by simp) hF (by simp [exMix]) h1
    obtain ⟨repz, a2, b2, c2⟩ := boundedRun_solves (a := exMixArgs true) rfl rfl rfl (by simp) hF (by simp [exMix]) h2
    obtain ⟨rep2, a3, b3, c3⟩ := boundedRun_solves (a := exMixArgs false) rfl rfl rfl (fun p hp => e.2.2.2 p hp) hF (by simp [exMix]) h3
    exact ⟨exMix, exMixArgs false, exMixArgs true, rep, repz, rep2, hF, rfl, ⟨rfl, rfl, rfl⟩, rfl, a1, a2, by rw [c2]; exact a3,
      b1.trans e.1, b3.trans e.2.2.1⟩

set_option maxRecDepth 100000 in
theorem exKilledRun_rows : (match exKilledRun with | some (.ok (_, _, ps)) => ps.gdb.length == 3 | _ => false) = true := by decide

/-- A history that meets the hypotheses: a run in mode `flo` on `exKilled` killed after three passes, the table for `lo`
created by the script, the table for `lou` deleted; the table for `flo` then has three rows, that for `lo` none, and
deleting the table for `flo` leaves that for `lo`. -/
example : ∃ (db : Database Str) (g : Gdb Str), DbHistory (fun s => s) (fun _ => True) db ∧
    Dict.get? db (tableName .flo) = some g ∧ g.length = 3 ∧ Dict.get? db (tableName .lo) = some [] ∧
    (∀ k r, Dict.get? g k = some r → RowSound (fun s => s) .flo k r) ∧
    openTable (deleteGdb [[], tableName .flo] db) .flo = [] ∧
    Dict.get? (deleteGdb [[], tableName .flo] db) (tableName .lo) = some [] := by
  have hF : Proper exKilled := by unfold exKilled Proper; decide
  have hI := input_mkSet (H := Str) hF (by simp [exKilled])
  have hok := exKilledRun_rows
  rcases M.cases exKilledRun with e | ⟨er, e⟩ | ⟨⟨s, k, ps⟩, e⟩
  · rw [e] at hok; exact absurd hok (by decide)
  · rw [e] at hok; exact absurd hok (by intro h; cases h)
  · rw [e] at hok
    have hlen : (ps.gdb.length == 3) = true := hok
    unfold exKilledRun at e
    obtain ⟨⟨s', k'⟩, h1, e⟩ := M.bind_eq_pure.1 e
    obtain ⟨ps0, h2, e⟩ := M.bind_eq_pure.1 e
    obtain ⟨ps', h3, e⟩ := M.bind_eq_pure.1 e
    have e := (M.pure_inj _ _).1 e
    cases e
    have hk : KilledAt (fun s : Str => s) exGdbArgs [] (mkSet exKilled) 3 s k ps :=
      ⟨(prepareRootF_le (fun s : Str => s) exGdbArgs 50 (mkSet exKilled)).pure h1, ps0, h2, passesF_spec (fun s : Str => s) h3⟩
    have hrun : RunOn (fun s : Str => s) (fun _ => True) exGdbArgs (openTable [] .flo) ps.gdb :=
      .killed rfl hF (by simp [exKilled]) hI (fun _ _ => trivial) hk
    have hh : DbHistory (fun s : Str => s) (fun _ => True)
        (deleteGdb [[], tableName .lou] (createGlobalTable (closeTable [] .flo ps.gdb))) :=
      .tail (.tail (.tail .refl (.run exGdbArgs hrun)) (.create _)) (.delete _ _)
    have hd := fun n => (C92_delete (createGlobalTable (closeTable [] .flo ps.gdb)) (m := .lou) (by decide) [] []).2 n
    have hcl : NoClash (fun s : Str => s) (fun _ => True) := fun _ _ _ _ h => h
    have hlo : lower "GlobalSetsTable_lo".toList = tableName .lo := by decide
    have hflo : Dict.get? (deleteGdb [[], tableName .lou] (createGlobalTable (closeTable [] .flo ps.gdb))) (tableName .flo) = some ps.gdb := by
      rw [hd _ (by decide)]
      unfold createGlobalTable
      rw [get?_createTable, hlo, if_neg (by decide), get?_closeTable, if_pos rfl]
    have hlo' : Dict.get? (deleteGdb [[], tableName .lou] (createGlobalTable (closeTable [] .flo ps.gdb))) (tableName .lo) = some [] := by
      rw [hd _ (by decide)]
      unfold createGlobalTable
      rw [get?_createTable, hlo, if_pos rfl, get?_closeTable, if_neg (by decide)]
      rfl
    refine ⟨_, ps.gdb, hh, hflo, by simpa using hlen, hlo',
      (C92_tables (fun s : Str => s) hcl trivial trivial hh).2 .flo ps.gdb hflo, ?_, ?_⟩
    · rw [openTable_eq, (C92_delete _ (m := .flo) (by decide) [] []).1]; rfl
    · rw [(C92_delete _ (m := .flo) (by decide) [] []).2 _ (by decide)]; exact hlo'

end NDP
