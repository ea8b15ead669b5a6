import Verif.Props.Graph
import Verif.Model.Shared
/-
  Specification vocabulary for the global table: what a row must say.  `textOf`, `NormalForm`, `residual` are the
  definitions used for the node graph (`Props/Graph.lean`, `Spec.lean`).
-/
namespace NDP
open Spec
variable {H : Type} [DecidableEq H]

/-- `k` is the right digest for the branch `p := b` of `G`: that of `T` when the branch has no clause left, that of `F`
when it has an empty clause, else the digest of a normal form of the branch. -/
inductive LinkFor (hash : Str → H) (mode : Mode) (G : Cnf) (p : Nat) (b : Bool) : H → Prop
  | isT (h : residual [((p : Int), b)] G = []) : LinkFor hash mode G p b (hash ['T'])
  | isF (h : [] ∈ residual [((p : Int), b)] G) : LinkFor hash mode G p b (hash ['F'])
  | node (N : Cnf) (h1 : residual [((p : Int), b)] G ≠ []) (h2 : [] ∉ residual [((p : Int), b)] G)
      (hN : NormalForm mode (residual [((p : Int), b)] G) N) : LinkFor hash mode G p b (hash (textOf N))

/-- The variable of the last literal of the last clause. -/
def lastVar (G : Cnf) : Nat :=
  match G.getLast? with
  | none => 0
  | some c => match c.getLast? with
    | none => 0
    | some l => l.natAbs

/-- The row `r` stored under the digest `h` is right: its body is the text of a formula `G` (ascending clauses over
variables ≥ 1) with digest `h`, its two children are the branches of `G` on its leading variable, and it records the number of clauses of `G`
and its last variable; the variables of `G` are `1..n` in some order. -/
def RowSound (hash : Str → H) (mode : Mode) (h : H) (r : Row H) : Prop :=
  ∃ (G : Cnf) (x : Int) (xs : List Int) (cs : Cnf), G = (x :: xs) :: cs ∧
    (∀ c ∈ G, c ≠ [] ∧ (0 : Int) ∉ c ∧ c.Pairwise fun a b => a.natAbs < b.natAbs) ∧
    r.body = textOf G ∧ h = hash r.body ∧ r.numClauses = G.length ∧
    LinkFor hash mode G x.natAbs true r.cid1 ∧ LinkFor hash mode G x.natAbs false r.cid2 ∧
    r.numVars = lastVar G ∧ ∀ v, v ∈ varsOf G ↔ 1 ≤ v ∧ v ≤ (varsOf G).length

/-- Every row of the table is right (for the mode it was computed in). -/
def TableSound (hash : Str → H) (g : Gdb H) : Prop := ∀ h r, Dict.get? g h = some r → ∃ mode, RowSound hash mode h r

/-- The digest does not collide on the texts in `S`. -/
def NoClash (hash : Str → H) (S : Str → Prop) : Prop := ∀ s t, S s → S t → hash s = hash t → s = t

/-- `G1` is `G` up to the names of the variables, the order of the clauses and the order inside the clauses. -/
def Renamed (G G1 : Cnf) : Prop :=
  ∃ ρ : Nat → Nat, (∀ u ∈ varsOf G, ∀ v ∈ varsOf G, ρ u = ρ v → u = v) ∧ SameClauses (mapCnf ρ G) G1

/-- The row of `h` names the (non-constant) child `k`. -/
def Links (hash : Str → H) (g : Gdb H) (h k : H) : Prop :=
  ∃ r, Dict.get? g h = some r ∧ (k = r.cid1 ∨ k = r.cid2) ∧ k ≠ hash ['T'] ∧ k ≠ hash ['F']

/-- The table has the node `h` and its children. -/
def Stored (hash : Str → H) (g : Gdb H) (h : H) : Prop := h ∈ Dict.keys g ∧ ∀ k, Links hash g h k → k ∈ Dict.keys g

/-- The table has `h` and everything below it. -/
def CompleteBelow (hash : Str → H) (g : Gdb H) (h : H) : Prop :=
  ∀ k, Relation.ReflTransGen (Links hash g) h k → k ∈ Dict.keys g

/-- A `-gdb` run of one process (`-t 1`) whose connection to the data base works. -/
structure OneProcess (a : Args) (env : EnvChoice) : Prop where
  gdb : a.useGlobalDb = true
  threads : a.threads = 1
  conn : env.mainFails = false

/-- The digests loaded into memory at the start of a run on the table `g` for a root of `n` clauses (`seen_sets`). -/
def seenAtStart (a : Args) (g : Gdb H) (n : Nat) : List H :=
  if a.useGlobalDb && !a.gdbNoMem then g.loadUnsolved n ++ g.loadSolved n else []

/-- The row of `h` carries statistics, i.e. `h` counts as solved. -/
def MarkedSolved (g : Gdb H) (h : H) : Prop := ∃ r, (h, r) ∈ g ∧ r.uniqueNodes ≠ 0

/-- `n` passes of the loop of a process lead from `ps` to `ps'`. -/
inductive Passes (hash : Str → H) (a : Args) (im : Mode) (seen : List H) : Nat → PS H → PS H → Prop
  | refl (ps : PS H) : Passes hash a im seen 0 ps ps
  | step {n : Nat} {ps ps1 ps2 : PS H} (h : Passes hash a im seen n ps ps1) (hgo : keepGoing a ps1 = true)
      (he : expand hash a im seen ps1 = pure ps2) : Passes hash a im seen (n + 1) ps ps2

/-- `ps` is the state of a run on `root` with the table `g` when it is killed after `n` passes; `s` is the normalised
root, `h` its digest.  The table left behind is `ps.gdb`. -/
structure KilledAt (hash : Str → H) (a : Args) (g : Gdb H) (root : SetObj H) (n : Nat) (s : SetObj H) (h : H) (ps : PS H) : Prop where
  root : prepareRoot hash a root = pure (s, h)
  run : ∃ ps0, initPS hash a g 1 s = pure ps0 ∧
    Passes hash a (inputMode a) (seenAtStart a g s.clauses.length) n ps0 ps

/-- `S` is a state of a `-gdb` run on `root` with several processes that started with the table `g`; `s` is the
normalised root, `h` its digest. -/
structure SharedRun (hash : Str → H) (a : Args) (g : Gdb H) (root : SetObj H) (s : SetObj H) (h : H) (S : Shared H) : Prop where
  gdb : a.useGlobalDb = true
  root : prepareRoot hash a root = pure (s, h)
  run : Shared.Reached hash a (inputMode a) (seenAtStart a g s.clauses.length) g s S

/-- Some process of `S` has the node `k` in its queue. -/
def Pending (S : Shared H) (k : H) : Prop :=
  ∃ ps ∈ S.procs, ∃ nodes q x, popMany ps.queue.size ps.queue = pure (nodes, q) ∧ x ∈ nodes ∧ x.id = some k

/-- The texts whose digests matter for a run below the normalised root `s` on the table `g`. -/
def RunTexts (below : Cnf → Prop) (g : Gdb H) (t : Str) : Prop :=
  t = ['T'] ∨ t = ['F'] ∨ (∃ G, below G ∧ t = textOf G) ∨ ∃ h r, Dict.get? g h = some r ∧ t = r.body

end NDP
