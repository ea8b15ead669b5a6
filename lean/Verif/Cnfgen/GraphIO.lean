import Verif.Cnfgen.Random
import Verif.Cnfgen.DimacsProps
/-
  Model of the graph files of the formula generator (`graphs.py`): the kthlist and dimacs formats, reading and writing, and the
  specification used by C71-C73.  Paths relative to `software/cnfgen/cnfformula`.  Graphs are simple or directed, without parallel edges
  (`multi_edges=False`); files are given as their text, with line breaks `\n` only.
-/
namespace NDP.Cnfgen
open NDP

/-! ### networkx graphs -/

/-- What is used of a networkx `Graph` or `DiGraph` (library, version 1): nodes in order of insertion, edges, the node attribute `bipartite`
(`false` for 0, `true` for 1), the attribute `topologically_sorted` set by the project. -/
structure Nx (V : Type) where
  directed : Bool
  name : Str := []
  nodes : List V := []
  edges : List (V × V) := []
  color : V → Option Bool := fun _ => none
  topo : Bool := false

namespace Nx
variable {V : Type} [DecidableEq V]

/-- `G.has_edge(u,v)`. -/
def hasEdge (G : Nx V) (u v : V) : Bool := decide ((u, v) ∈ G.edges) || (!G.directed && decide ((v, u) ∈ G.edges))

/-- `G.add_node(v)`. -/
def addNode (G : Nx V) (v : V) : Nx V := if v ∈ G.nodes then G else { G with nodes := G.nodes ++ [v] }

/-- `G.add_nodes_from(vs)`. -/
def addNodes (G : Nx V) (vs : List V) : Nx V := vs.foldl addNode G

/-- `G.add_edge(u,v)`: missing nodes are added. -/
def addEdge (G : Nx V) (u v : V) : Nx V :=
  let G := (G.addNode u).addNode v
  if G.hasEdge u v then G else { G with edges := G.edges ++ [(u, v)] }

/-- `G.node[v]['bipartite'] = b`. -/
def setColor (G : Nx V) (v : V) (b : Bool) : Nx V := { G with color := fun x => if x = v then some b else G.color x }

/-- `G.predecessors(v)` of a directed graph, `G.adj[v].keys()` of an undirected one. -/
def preds (G : Nx V) (v : V) : List V := G.nodes.filter fun w => G.hasEdge w v

/-- `networkx.algorithms.is_directed_acyclic_graph(G)`. -/
def isAcyclic (G : Nx V) : Bool := (⟨G.nodes, G.edges⟩ : Digraph V).isDag

end Nx

/-- The graph types of `readGraph` and `writeGraph` (`graphs.py` 23-28). -/
inductive GType where
  | simple | digraph | dag | bipartite
  deriving DecidableEq, Repr

/-- `graphs.py` 161-174: the class of the graph read. -/
def GType.directed : GType → Bool
  | .simple => false
  | .bipartite => false
  | .digraph => true
  | .dag => true

/-! ### kthlist: reading -/

/-- What a line of a kthlist file is. -/
inductive KthItem where
  | comment
  | blank
  | spec (n : Int)
  | adj (target : Int) (sources : List Int)
  deriving DecidableEq, Repr

/-- `graphs.py` 522-564: the line alone; `none` is a `ValueError`.  (The number of vertices may still be refused because it is the second
one or negative, vertices because they are out of range: `kthStep`.  All refusals are `ValueError`s, so their order is not observable.) -/
def kthParse (l : Str) : Option KthItem :=
  if startsWith 'c' l then some .comment
  else if strip l = [] then some .blank
  else if ':' ∉ l then (parseInt (strip l)).map .spec
  else match splitOn ':' l with
    | [t, s] => match parseInt (strip t), mapOpt parseInt (splitWS s) with
      | some t, some ss => if ss.getLast? = some 0 then some (.adj t ss.dropLast) else none
      | _, _ => none
    | _ => none

/-- The state of the loop: `nvertex`, the graph, `topologically_sorted_input`. -/
structure KthSt where
  n : Int := -1
  G : Nx Int
  topo : Bool := true

/-- `range(1, n+1)`. -/
def intsTo (n : Nat) : List Int := (oneTo n).map Int.ofNat

/-- `graphs.py` 592: `0 if len(colors)==0 else 1-colors[0]`. -/
def defaultColor : List Bool → Bool
  | [] => false
  | c :: _ => !c

/-- `graphs.py` 583-597: the greedy bicoloring of one line. -/
def recolor (G : Nx Int) (t : Int) (ss : List Int) : M (Nx Int) :=
  let colors := ss.filterMap G.color ++ (G.color t).toList.map (!·)
  if ∃ a ∈ colors, ∃ b ∈ colors, a ≠ b then raise .valueError
  else
    let d := defaultColor colors
    pure (ss.foldl (fun G s => G.setColor s (!d)) (G.setColor t d))

/-- `graphs.py` 577-602: coloring, order flag and edges of one line. -/
def adjStep (bip : Bool) (st : KthSt) (t : Int) (ss : List Int) : M KthSt := do
  let G ← (if bip then recolor st.G t ss else pure st.G : M (Nx Int))
  pure { st with G := ss.foldl (fun G s => G.addEdge s t) G, topo := st.topo && ss.all fun s => decide (t < s) }

/-- `graphs.py` 520-602: one turn of the loop. -/
def kthStep (bip : Bool) (st : KthSt) : KthItem → M KthSt
  | .comment => pure st
  | .blank => pure st
  | .spec n => if st.n ≥ 0 ∨ n < 0 then raise .valueError else pure { st with n := n, G := st.G.addNodes (intsTo n.toNat) }
  | .adj t ss =>
    if t < 1 ∨ t > st.n then raise .valueError
    else if ∃ x ∈ ss, x < 1 ∨ x > st.n then raise .valueError
    else adjStep bip st t ss

/-- The turn for a line. -/
def kthLine (bip : Bool) (st : KthSt) (l : Str) : M KthSt := do
  let i ← orRaise .valueError (kthParse l)
  kthStep bip st i

/-- The name read: the comments without their first two characters (`graphs.py` 523-525). -/
def commentText (lines : List Str) : Str := (lines.filter (startsWith 'c')).flatMap (·.drop 2)

/-- `graphs.py` 480-610 (`_read_graph_kthlist_format`). -/
def kthGraph (ty : GType) (text : Str) : M (Nx Int) := do
  let bip := decide (ty = .bipartite)
  let st ← (readlines text).foldlM (kthLine bip) { G := { directed := ty.directed } }
  let G := { st.G with name := commentText (readlines text), topo := st.topo }
  let G := if bip then { G with color := fun v => if v ∈ G.nodes then some ((G.color v).getD true) else G.color v } else G
  if st.n ≠ (G.nodes.length : Int) then raise .valueError else pure G

/-- `graphs.py` 377-399 (`is_dag`) on a graph just read: with the attribute `topologically_sorted`, being acyclic is asserted.  (The other
assertions compare `ordered_vertices`, here always the nodes, with the nodes.) -/
def isDagCheck (G : Nx Int) : M Bool :=
  if G.topo then (if G.isAcyclic then pure true else raise .assertionError) else pure G.isAcyclic

/-- `graphs.py` 194-296 (`readGraph`) with `file_format='kthlist'`. -/
def readKth (ty : GType) (text : Str) : M (Nx Int) := do
  let G ← kthGraph ty text
  match ty with
  | .dag => do
    let ok ← isDagCheck G
    if ok then pure G else raise .valueError
  | .bipartite => if ∀ v ∈ G.nodes, (G.color v).isSome then pure G else raise .valueError
  | _ => pure G

/-! ### kthlist: writing -/
section
variable {V : Type} [DecidableEq V]

/-- `graphs.py` 806-808: a line. -/
def kthLineText (i : Nat) (ns : List Nat) : Str := natStr i ++ " : ".toList ++ joinWith [' '] (ns.map natStr) ++ " 0\n".toList

/-- `graphs.py` 769-812 (`_write_graph_kthlist_format`).  `ord` is what `enumerate_vertices` gives (some order of the nodes), `left` the first
list of `bipartite_sets` (the nodes labelled 0, in some order). -/
def writeKth (G : Nx V) (ord left : List V) (bip : Bool) : Str :=
  "c ".toList ++ G.name ++ ['\n'] ++ (natStr G.nodes.length ++ ['\n']) ++
  ((if bip then left else ord).flatMap fun v =>
    kthLineText (ord.idxOf v + 1) (isort (fun a b => decide (a < b)) ((G.preds v).map fun w => ord.idxOf w + 1))) ++ ['\n']
end

/-! ### dimacs -/

/-- The state of the loop of `_read_graph_dimacs_format`. -/
structure GdimSt where
  n : Int := -1
  m : Int := -1
  cnt : Int := 0
  G : Nx Int

/-- `graphs.py` 638-664: one line. -/
def gdimLine (st : GdimSt) (l : Str) : M GdimSt :=
  if startsWith 'c' l then pure st
  else if startsWith 'p' l then
    if st.n ≥ 0 then raise .valueError else
    match splitWS l with
    | [_, fmt, nstr, mstr] =>
      if fmt ≠ "edge".toList then raise .valueError else do
        let n ← orRaise .valueError (parseInt nstr)
        let m ← orRaise .valueError (parseInt mstr)
        pure { st with n := n, m := m, G := st.G.addNodes (intsTo n.toNat) }
    | _ => raise .valueError
  else if startsWith 'e' l then
    match splitWS l with
    | [_, v, w] => do
      let v ← orRaise .valueError (parseInt v)
      let w ← orRaise .valueError (parseInt w)
      pure { st with cnt := st.cnt + 1, G := st.G.addEdge v w }
    | _ => raise .valueError
  else pure st

/-- `graphs.py` 612-669 (`_read_graph_dimacs_format`), for the types `simple` and `digraph`. -/
def readGdim (directed : Bool) (text : Str) : M (Nx Int) := do
  let st ← (readlines text).foldlM gdimLine { G := { directed := directed } }
  if st.m ≠ st.cnt then raise .valueError else pure { st.G with name := commentText (readlines text) }

/-- `graphs.py` 815-833 (`_write_graph_dimacs_format`).  `edges` is what `G.edges()` gives: every edge once, in some order, an edge of an
undirected graph in one of its two directions. -/
def writeGdim {V : Type} [DecidableEq V] (G : Nx V) (edges : List (V × V)) : Str :=
  strip ("c ".toList ++ G.name) ++ ['\n'] ++
  ("p edge ".toList ++ natStr G.nodes.length ++ " ".toList ++ natStr edges.length ++ ['\n']) ++
  edges.flatMap fun e => "e ".toList ++ natStr (G.nodes.idxOf e.1 + 1) ++ " ".toList ++ natStr (G.nodes.idxOf e.2 + 1) ++ ['\n']

/-! ### Specification -/

/-- The lines of a kthlist text that are neither comments nor blank. -/
def dataLines (text : Str) : List Str := (splitOn '\n' text).filter fun l => !startsWith 'c' l && decide (strip l ≠ [])

/-- The line `t : s1 … sk 0`. -/
def AdjLine (l : Str) (a : Int × List Int) : Prop :=
  ∃ x y, l = x ++ ':' :: y ∧ ':' ∉ x ∧ ':' ∉ y ∧ parseInt x = some a.1 ∧ mapOpt parseInt (splitWS y) = some (a.2 ++ [0])

/-- A kthlist text: the number of vertices, then adjacency lines with vertices between 1 and this number. -/
def KthText (text : Str) (n : Nat) (adj : List (Int × List Int)) : Prop :=
  ∃ l ls, dataLines text = l :: ls ∧ ':' ∉ l ∧ parseInt l = some (n : Int) ∧ List.Forall₂ AdjLine ls adj ∧
    ∀ a ∈ adj, (1 ≤ a.1 ∧ a.1 ≤ n) ∧ ∀ s ∈ a.2, 1 ≤ s ∧ s ≤ n

/-- The lines say that there is an edge from `s` to `t`. -/
def Listed (adj : List (Int × List Int)) (s t : Int) : Prop := ∃ a ∈ adj, a.1 = t ∧ s ∈ a.2

/-- No cycle of edges. -/
def NoCycle {V : Type} (E : V → V → Prop) : Prop := ∀ v, ¬ Relation.TransGen E v v

/-- The nodes of a graph are different and the ends of its edges are nodes. -/
structure Nx.Wf {V : Type} (G : Nx V) : Prop where
  nodup : G.nodes.Nodup
  ends : ∀ e ∈ G.edges, e.1 ∈ G.nodes ∧ e.2 ∈ G.nodes

end NDP.Cnfgen
