import Verif.Model.Solver
/-
  The data base as a whole: one global table per mode, and the two scripts that work on the tables.
-/
namespace NDP
variable {H : Type}

/-- `main.py` 162-170: the values of `-m`. -/
def Mode.arg : Mode → Str
  | .flo => "flo".toList
  | .flop => "flop".toList
  | .lou => "lou".toList
  | .lo => "lo".toList
  | .normal => "normal".toList

/-- `configs.py` 39: `GLOBAL_SETS_TABLE_PREFIX`. -/
def tablePrefix : Str := "globalsetstable_".toList

/-- `str.lower` on ASCII text; also what PostgreSQL does to a table name written without quotes. -/
def lower (s : Str) : Str := s.map Char.toLower

/-- `PatternSolver.py` 115-116: `GLOBAL_SETS_TABLE_PREFIX + args.mode.lower()`. -/
def tableName (m : Mode) : Str := tablePrefix ++ lower m.arg

/-- The tables of the data base, by name. (Simplification: the tables of the runtime queues are not among them; they are
part of the state of a run, `Model/Db.lean`.) -/
abbrev Database (H : Type) := Dict Str (Gdb H)

/-- `DbAdaptor.py` 59-100 (`gs_create_table`): CREATE TABLE IF NOT EXISTS; the name is put into the command without
quotes, so PostgreSQL reads it in lower case. (Simplification: the indices are left out, they change no result; the
command does not fail.) -/
def createTable (db : Database H) (name : Str) : Database H :=
  if Dict.contains db (lower name) then db else Dict.set db (lower name) []

/-- `DbAdaptor.py` 244-254 (`gs_drop_table`): DROP TABLE IF EXISTS; the name is quoted, so it is taken as it is. -/
def dropTable (db : Database H) (name : Str) : Database H := db.filter fun t => t.1 ≠ name

/-- `delete_gdb.py` 27, `DbAdaptor.py` 231: the tables that the two functions know. -/
def knownTables : List Str :=
  ["globalsetstable_lou".toList, "globalsetstable_lo".toList, "globalsetstable_flo".toList, "globalsetstable_flop".toList]

/-- `delete_gdb.py` 24-32: `argv` is `sys.argv`. -/
def deleteGdb (argv : List Str) (db : Database H) : Database H :=
  match argv with
  | _ :: t :: _ => if t ∈ knownTables then dropTable db t else db
  | _ => db

/-- `DbAdaptor.py` 229-241 (`gs_drop_all`). -/
def dropAll (db : Database H) : Database H := knownTables.foldl dropTable db

/-- `tools/create_global_table.py` 7-9. -/
def createGlobalTable (db : Database H) : Database H := createTable db "GlobalSetsTable_lo".toList

/-- What a run in mode `m` finds after `PatternSolver.py` 501 has created its table if need be. -/
def openTable (db : Database H) (m : Mode) : Gdb H := (Dict.get? (createTable db (tableName m)) (tableName m)).getD []

/-- The data base after a run in mode `m` that leaves the table `g` (every query and command of a run names
`self.global_table_name`: `PatternSolver.py` 149, 152, 162, 174, 192, 199, 220, 265, 269, 563). -/
def closeTable (db : Database H) (m : Mode) (g : Gdb H) : Database H :=
  Dict.set (createTable db (tableName m)) (tableName m) g

end NDP
