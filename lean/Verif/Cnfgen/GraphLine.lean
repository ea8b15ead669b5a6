import Verif.Cnfgen.GraphCommand
/-
  C97: every documented command line of a family over simple graphs is understood as documented, and leads to the formula; the others are refused.
-/
namespace NDP.Cnfgen
open NDP

/-! ### Specification: documented command lines -/

/-- How a graph is given: on the standard input, or by a construction. -/
inductive Source where
  | stdin (long : Bool) | gnp (n : Nat) (p : Str) | gnm (n m : Nat) | gnd (n d : Nat) | complete (n : Nat) | empty (n : Nat)

/-- What stands after the name of the family, in any order.  `second`: about the second graph. -/
inductive GItem where
  | number (i : Int) | flag (long : Bool) (f : Flag) | alternative (long : Bool) | charge (c : Charge)
  | source (second : Bool) (s : Source) | plantclique (second : Bool) (k : Nat) | addedges (second : Bool) (k : Nat) | kthlist (second long : Bool)

/-- The options of the two graphs of `giso` end in `1` and `2`, those of the second graph of `subgraph` in `T`. -/
def SFam.suffix : SFam → Bool → Str
  | .giso, false => "1".toList
  | .giso, true => "2".toList
  | .subgraph, true => "T".toList
  | _, _ => []

def Charge.word : Charge → Str
  | .first => "first".toList
  | .random => "random".toList
  | .randomodd => "randomodd".toList
  | .randomeven => "randomeven".toList

/-- The number as it is written. -/
def num (n : Nat) : Str := intStr (n : Int)

def Source.words (sfx : Str) : Source → List Str
  | .stdin l => [(if l then "--input".toList else "-i".toList) ++ sfx, "-".toList]
  | .gnp n p => ["--gnp".toList ++ sfx, num n, p]
  | .gnm n m => ["--gnm".toList ++ sfx, num n, num m]
  | .gnd n d => ["--gnd".toList ++ sfx, num n, num d]
  | .complete n => ["--complete".toList ++ sfx, num n]
  | .empty n => ["--empty".toList ++ sfx, num n]

def GItem.words (f : SFam) : GItem → List Str
  | .number i => [intStr i]
  | .flag l fl => [fl.word l]
  | .alternative l => [if l then "--alternative".toList else "-a".toList]
  | .charge c => ["--charge".toList, c.word]
  | .source b s => s.words (f.suffix b)
  | .plantclique b k => ["--plantclique".toList ++ f.suffix b, num k]
  | .addedges b k => ["--addedges".toList ++ f.suffix b, num k]
  | .kthlist b l => [(if l then "--graphformat".toList else "-gf".toList) ++ f.suffix b, "kthlist".toList]

/-- The documented name of a family. -/
def SFam.word : SFam → Str
  | .gop => "gop".toList
  | .matching => "matching".toList
  | .tseitin => "tseitin".toList
  | .kcolor => "kcolor".toList
  | .ec => "ec".toList
  | .domset => "domset".toList
  | .giso => "giso".toList
  | .gauto => "gauto".toList
  | .subgraph => "subgraph".toList
  | .kclique => "kclique".toList
  | .kcliquebin => "kcliquebin".toList
  | .ramlb => "ramlb".toList

structure GRequest where
  gen : List GOpt
  fam : SFam
  items : List GItem

/-- The words after the name of the family, and all words. -/
def GRequest.tail (r : GRequest) : List Str := r.items.flatMap (GItem.words r.fam)
def GRequest.words (r : GRequest) : List Str := r.gen.flatMap GOpt.words ++ r.fam.word :: r.tail

def GRequest.numbers (r : GRequest) : List Int := r.items.filterMap fun | .number i => some i | _ => none
def GRequest.flags (r : GRequest) : List Flag := r.items.filterMap fun | .flag _ f => some f | _ => none
def GRequest.charges (r : GRequest) : List Charge := r.items.filterMap fun | .charge c => some c | _ => none
def GRequest.sources (r : GRequest) (b : Bool) : List Source := r.items.filterMap fun | .source b' s => if b' = b then some s else none | _ => none
def GRequest.plants (r : GRequest) (b : Bool) : List Nat := r.items.filterMap fun | .plantclique b' k => if b' = b then some k else none | _ => none
def GRequest.adds (r : GRequest) (b : Bool) : List Nat := r.items.filterMap fun | .addedges b' k => if b' = b then some k else none | _ => none
def GRequest.hasFormat (r : GRequest) (b : Bool) : Prop := ∃ l, GItem.kthlist b l ∈ r.items

/-- The numbers of an option are positive; a probability is one, and does not look like an option.  For a degree that is not smaller than the number of vertices networkx ends in a
traceback. -/
def Source.Ok (env : GraphEnv) : Source → Prop
  | .stdin _ => True
  | .gnp n p => 0 < n ∧ (∃ x, env.flt p = some x ∧ x.Unit) ∧ p.head? ≠ some '-'
  | .gnm n m => 0 < n ∧ 0 < m
  | .gnd n d => 0 < n ∧ 0 < d ∧ d < n
  | .complete n => 0 < n
  | .empty n => 0 < n

/-- The options belong to the family. -/
def GItem.Ok (env : GraphEnv) (f : SFam) : GItem → Prop
  | .number _ => True
  | .flag _ fl => f = .gop ∧ fl ∈ [Flag.total, .smart, .knuth2, .knuth3, .plant]
  | .alternative _ => f = .domset
  | .charge _ => f = .tseitin
  | .source b s => (b = true → f = .giso ∨ f = .subgraph) ∧ s.Ok env
  | .plantclique b k => (b = true → f = .giso ∨ f = .subgraph) ∧ 0 < k
  | .addedges b k => (b = true → f = .giso ∨ f = .subgraph) ∧ 0 < k
  | .kthlist b _ => b = true → f = .giso ∨ f = .subgraph

structure GRequest.Ok (env : GraphEnv) (r : GRequest) : Prop where
  gen : GenOk r.gen
  items : ∀ x ∈ r.items, x.Ok env r.fam

/-- Two of the ways to give a graph are different. -/
def Source.Same : Source → Source → Prop
  | .stdin _, .stdin _ => True
  | .gnp _ _, .gnp _ _ => True
  | .gnm _ _, .gnm _ _ => True
  | .gnd _ _, .gnd _ _ => True
  | .complete _, .complete _ => True
  | .empty _, .empty _ => True
  | _, _ => False

/-- The graph that is asked for: there is at most one way to give it, the last numbers count; otherwise it is on the standard input (once), in the format said. -/
structure GRequest.GraphIs (env : GraphEnv) (r : GRequest) (b : Bool) (text : Str) (a : GraphArgs) : Prop where
  one : ∀ s ∈ r.sources b, ∀ t ∈ r.sources b, s.Same t
  source : match (r.sources b).getLast? with
    | some (.gnp n _) => a.source = .gnp n (env.choices (genSeed r.gen) r.fam r.tail b).graph
    | some (.gnm n m) => a.source = .gnm n m (env.choices (genSeed r.gen) r.fam r.tail b).graph
    | some (.gnd n d) => a.source = .gnd n d (env.choices (genSeed r.gen) r.fam r.tail b).graph
    | some (.complete n) => a.source = .complete n
    | some (.empty n) => a.source = .empty n
    | _ => r.hasFormat b ∧ a.source = .kthlist text
  plantclique : a.plantclique = (r.plants b).getLast?
  addedges : a.addedges = (r.adds b).getLast?
  clique : a.clique = (env.choices (genSeed r.gen) r.fam r.tail b).clique
  ord : a.ord = (env.choices (genSeed r.gen) r.fam r.tail b).ord
  pos : a.pos = (env.choices (genSeed r.gen) r.fam r.tail b).pos
  draw : a.draw = (env.choices (genSeed r.gen) r.fam r.tail b).draw

/-- For the families with two graphs both are given explicitly; the standard input is empty after the first graph has been read from it. -/
def GRequest.Both (env : GraphEnv) (r : GRequest) (a b : GraphArgs) : Prop :=
  r.sources false ≠ [] ∧ r.sources true ≠ [] ∧ r.GraphIs env false env.stdin a ∧
  r.GraphIs env true (match (r.sources false).getLast? with | some (.stdin _) => [] | _ => env.stdin) b

/-- The formula that is asked for. -/
def GRequest.Asks (env : GraphEnv) (r : GRequest) (c : ICmd) : Prop :=
  match r.fam, r.numbers with
  | .gop, [] => (∀ f ∈ r.flags, ∀ g ∈ r.flags, f ≠ g → f ∈ [Flag.total, .smart, .knuth2, .knuth3] → g ∉ [Flag.total, .smart, .knuth2, .knuth3]) ∧
      ∃ a k, r.GraphIs env false env.stdin a ∧ c = .other (.gop a (decide (Flag.total ∈ r.flags)) (decide (Flag.smart ∈ r.flags)) (decide (Flag.plant ∈ r.flags)) k) ∧
        (Flag.knuth2 ∈ r.flags → k = 2) ∧ (Flag.knuth3 ∈ r.flags → k = 3) ∧ (Flag.knuth2 ∉ r.flags → Flag.knuth3 ∉ r.flags → k = 0)
  | .matching, [] => ∃ a, r.GraphIs env false env.stdin a ∧ c = .other (.matching a)
  | .tseitin, [] => ∃ a, r.GraphIs env false env.stdin a ∧ c = .other (.tseitin (r.charges.getLast?.getD .first) (env.coins (genSeed r.gen) r.tail) a)
  | .kcolor, [k] => ∃ a, r.GraphIs env false env.stdin a ∧ c = .kcolor k a
  | .ec, [] => ∃ a, r.GraphIs env false env.stdin a ∧ c = .other (.ec a)
  | .domset, [d] => ∃ a alt, r.GraphIs env false env.stdin a ∧ c = .domset alt d a ∧ (alt = true ↔ ∃ l, GItem.alternative l ∈ r.items)
  | .giso, [] => ∃ a b, r.Both env a b ∧ c = .other (.giso a b)
  | .gauto, [] => ∃ a, r.GraphIs env false env.stdin a ∧ c = .other (.gauto a)
  | .subgraph, [] => ∃ a b, r.Both env a b ∧ c = .other (.subgraph a b)
  | .kclique, [k] => ∃ a, r.GraphIs env false env.stdin a ∧ c = .kclique k a
  | .kcliquebin, [k] => ∃ a, r.GraphIs env false env.stdin a ∧ c = .kcliquebin k (env.bits a) a
  | .ramlb, [k, s] => ∃ a, r.GraphIs env false env.stdin a ∧ c = .ramlb k s a
  | _, _ => False

/-- An option of a graph with a value that is not documented, in words: a file name (Python 3 refuses to open it), a number that is not positive or no number, an unknown format.
`--gnp` is in C91: there the message itself fails. -/
inductive BadValue (env : GraphEnv) : List Str → Prop
  | input (long : Bool) (f : Str) : f ≠ "-".toList → BadValue env [if long then "--input".toList else "-i".toList, f]
  | one (k : Str) (a : Str) : k ∈ ["--complete".toList, "--empty".toList, "--plantclique".toList, "--addedges".toList] → (∀ n, ¬ IsPos a n) → BadValue env [k, a]
  | two (k : Str) (a b : Str) : k ∈ ["--gnm".toList, "--gnd".toList] → (¬ ∃ n m, IsPos a n ∧ IsPos b m) → BadValue env [k, a, b]
  | format (long : Bool) (f : Str) : ¬ Supported env.dot .simple f → BadValue env [if long then "--graphformat".toList else "-gf".toList, f]

/-- The option of the graph `b`, with its values. -/
def withSuffix (f : SFam) (b : Bool) : List Str → List Str
  | k :: vals => (k ++ f.suffix b) :: vals
  | [] => []

/-! ### Proofs -/

/-- The option of an item, with its values. -/
def Source.kind : Source → GKind
  | .stdin _ => .input
  | .gnp _ _ => .gnp
  | .gnm _ _ => .gnm
  | .gnd _ _ => .gnd
  | .complete _ => .complete
  | .empty _ => .empty

def Source.vals : Source → List Str
  | .stdin _ => ["-".toList]
  | .gnp n p => [num n, p]
  | .gnm n m => [num n, num m]
  | .gnd n d => [num n, num d]
  | .complete n => [num n]
  | .empty n => [num n]

def GItem.occ : GItem → Option (SOpt × List Str)
  | .number _ => none
  | .flag _ f => some (.flag f, [])
  | .alternative _ => some (.alternative, [])
  | .charge c => some (.charge, [c.word])
  | .source b s => some (.graph b s.kind, s.vals)
  | .plantclique b k => some (.graph b .plantclique, [num k])
  | .addedges b k => some (.graph b .addedges, [num k])
  | .kthlist b _ => some (.graph b .format, ["kthlist".toList])

theorem sfam_options_ok (f : SFam) : okNames f.options = true := by cases f <;> decide

theorem same_kind (s t : Source) : s.Same t ↔ s.kind = t.kind := by cases s <;> cases t <;> simp [Source.Same, Source.kind]

/-- The options as they are written. -/
theorem classify_graph (f : SFam) (b : Bool) (hb : b = true → f = .giso ∨ f = .subgraph) :
    classify f.options ("--input".toList ++ f.suffix b) = .opt (.graph b .input) true none ∧
    classify f.options ("-i".toList ++ f.suffix b) = .opt (.graph b .input) false none ∧
    classify f.options ("--gnp".toList ++ f.suffix b) = .opt (.graph b .gnp) true none ∧
    classify f.options ("--gnm".toList ++ f.suffix b) = .opt (.graph b .gnm) true none ∧
    classify f.options ("--gnd".toList ++ f.suffix b) = .opt (.graph b .gnd) true none ∧
    classify f.options ("--complete".toList ++ f.suffix b) = .opt (.graph b .complete) true none ∧
    classify f.options ("--empty".toList ++ f.suffix b) = .opt (.graph b .empty) true none ∧
    classify f.options ("--plantclique".toList ++ f.suffix b) = .opt (.graph b .plantclique) true none ∧
    classify f.options ("--addedges".toList ++ f.suffix b) = .opt (.graph b .addedges) true none ∧
    classify f.options ("--graphformat".toList ++ f.suffix b) = .opt (.graph b .format) true none ∧
    classify f.options ("-gf".toList ++ f.suffix b) = .opt (.graph b .format) false none := by
  cases b with
  | false => cases f <;> decide
  | true => rcases hb rfl with rfl | rfl <;> decide

theorem classify_dash (f : SFam) : classify f.options "-".toList = .arg := by cases f <;> decide

/-- The number of values, if it is fixed. -/
def Arity.fixed : Arity → Option Nat
  | .zero => some 0
  | .one => some 1
  | .two => some 2
  | .three => some 3
  | .many => none
  | .any => none

theorem optWords_vals {α : Type} {os : List (Str × α)} {arity : α → Arity} {vals : List Str} (hv : ∀ v ∈ vals, classify os v = .arg) {ws : List Str}
    {lead later : List Str} {occ : List (α × List Str)} (h : optWords os arity ws = some (lead, later, occ)) :
    optWords os arity (vals ++ ws) = some (vals ++ lead, later, occ) := by
  induction vals with
  | nil => exact h
  | cons v vals ih =>
    rw [List.cons_append, optWords, ih fun x hx => hv x (by simp [hx])]
    simp only [hv v (by simp)]
    rfl

/-- An option word followed by its values. -/
theorem optWords_opt {α : Type} {os : List (Str × α)} {arity : α → Arity} {w : Str} {o : α} {long : Bool} (hw : classify os w = .opt o long none) {vals : List Str}
    (hv : ∀ v ∈ vals, classify os v = .arg) (hl : (arity o).fixed = some vals.length) {ws : List Str}
    {lead later : List Str} {occ : List (α × List Str)} (h : optWords os arity ws = some (lead, later, occ)) :
    optWords os arity (w :: (vals ++ ws)) = some ([], lead ++ later, (o, vals) :: occ) := by
  rw [optWords, optWords_vals hv h]
  simp only [hw, optExpand, List.getLast?_singleton, List.dropLast_singleton, List.map_nil, List.nil_append]
  have : giveValues (arity o) none (vals ++ lead) = some (vals, lead) := by
    match e : arity o, vals, hl with
    | .zero, [], _ => rfl
    | .one, [_], _ => rfl
    | .two, [_, _], _ => rfl
    | .three, [_, _, _], _ => rfl
    | .zero, _ :: _, hl => simp [e, Arity.fixed] at hl
    | .one, [], hl => simp [e, Arity.fixed] at hl
    | .one, _ :: _ :: _, hl => simp [e, Arity.fixed] at hl
    | .two, [], hl => simp [e, Arity.fixed] at hl
    | .two, [_], hl => simp [e, Arity.fixed] at hl
    | .two, _ :: _ :: _ :: _, hl => simp [e, Arity.fixed] at hl
    | .three, [], hl => simp [e, Arity.fixed] at hl
    | .three, [_], hl => simp [e, Arity.fixed] at hl
    | .three, [_, _], hl => simp [e, Arity.fixed] at hl
    | .three, _ :: _ :: _ :: _ :: _, hl => simp [e, Arity.fixed] at hl
    | .many, _, hl => simp [e, Arity.fixed] at hl
    | .any, _, hl => simp [e, Arity.fixed] at hl
  rw [this]

theorem classify_num (f : SFam) (n : Nat) : classify f.options (num n) = .arg := classify_int (sfam_options_ok f) _

theorem charge_plain (c : Charge) : c.word.head? ≠ some '-' := by cases c <;> decide

/-- All words of the items are understood, whatever is understood after them. -/
theorem optWords_items_app {env : GraphEnv} (f : SFam) (items : List GItem) (h : ∀ x ∈ items, x.Ok env f) {post : List Str} {lead0 later0 : List Str}
    {occ0 : List (SOpt × List Str)} (h0 : optWords f.options SOpt.arity post = some (lead0, later0, occ0)) :
    ∃ lead later, optWords f.options SOpt.arity (items.flatMap (GItem.words f) ++ post) = some (lead, later, items.filterMap GItem.occ ++ occ0) ∧
      lead ++ later = (items.filterMap fun | .number i => some i | _ => none).map intStr ++ (lead0 ++ later0) := by
  induction items with
  | nil => exact ⟨lead0, later0, h0, rfl⟩
  | cons x items ih =>
    obtain ⟨lead, later, h1, h2⟩ := ih fun y hy => h y (by simp [hy])
    have hx := h x (by simp)
    rw [List.flatMap_cons, List.append_assoc]
    have key : ∀ {w : Str} {o : SOpt} {long : Bool} {vals : List Str}, x.words f = w :: vals → x.occ = some (o, vals) → classify f.options w = .opt o long none →
        (∀ v ∈ vals, classify f.options v = .arg) → o.arity.fixed = some vals.length →
        ∃ lead' later', optWords f.options SOpt.arity (x.words f ++ (items.flatMap (GItem.words f) ++ post)) = some (lead', later', (x :: items).filterMap GItem.occ ++ occ0) ∧
          lead' ++ later' = (items.filterMap fun | .number i => some i | _ => none).map intStr ++ (lead0 ++ later0) := by
      intro w o long vals e1 e2 e3 e4 e6
      refine ⟨[], lead ++ later, ?_, h2⟩
      rw [e1, List.cons_append, optWords_opt e3 e4 e6 h1, List.filterMap_cons, e2]
      rfl
    cases x with
    | number i =>
      refine ⟨intStr i :: lead, later, ?_, ?_⟩
      · rw [show (GItem.number i).words f = [intStr i] from rfl, List.cons_append, List.nil_append, optWords, h1]
        simp only [classify_int (sfam_options_ok f)]
        rfl
      · rw [List.filterMap_cons]
        simp only [List.map_cons, List.cons_append, h2]
    | flag l fl =>
      obtain ⟨rfl, hfl⟩ := hx
      have hc : ∃ long, classify SFam.gop.options (fl.word l) = .opt (.flag fl) long none := by
        revert hfl
        cases fl <;> intro hfl <;> first | (exfalso; revert hfl; decide) | (cases l <;> exact ⟨_, rfl⟩)
      obtain ⟨long, hc⟩ := hc
      exact key (w := fl.word l) rfl rfl hc (by simp) rfl
    | alternative l =>
      obtain rfl := hx
      cases l
      · exact key (w := "-a".toList) (long := false) rfl rfl (by decide) (by simp) rfl
      · exact key (w := "--alternative".toList) (long := true) rfl rfl (by decide) (by simp) rfl
    | charge c =>
      obtain rfl := hx
      exact key (w := "--charge".toList) (long := true) rfl rfl (by decide) (by
        intro v hv
        obtain rfl := List.mem_singleton.1 hv
        exact classify_plain _ (charge_plain c)) rfl
    | source b s =>
      obtain ⟨c1, c2, c3, c4, c5, c6, c7, _⟩ := classify_graph f b hx.1
      have hnum : ∀ ns : List Nat, ∀ v ∈ ns.map num, classify f.options v = .arg := by
        intro ns v hv
        obtain ⟨n, _, rfl⟩ := List.mem_map.1 hv
        exact classify_num f n
      cases s with
      | stdin l =>
        have hd : ∀ v ∈ ["-".toList], classify f.options v = .arg := by
          intro v hv
          obtain rfl := List.mem_singleton.1 hv
          exact classify_dash f
        cases l
        · exact key (w := "-i".toList ++ f.suffix b) rfl rfl c2 hd rfl
        · exact key (w := "--input".toList ++ f.suffix b) rfl rfl c1 hd rfl
      | gnp n p =>
        exact key (w := "--gnp".toList ++ f.suffix b) rfl rfl c3 (by
          intro v hv
          simp only [List.mem_cons, List.not_mem_nil, or_false] at hv
          rcases hv with rfl | rfl
          · exact classify_num f n
          · exact classify_plain _ hx.2.2.2) rfl
      | gnm n m => exact key (w := "--gnm".toList ++ f.suffix b) rfl rfl c4 (hnum [n, m]) rfl
      | gnd n d => exact key (w := "--gnd".toList ++ f.suffix b) rfl rfl c5 (hnum [n, d]) rfl
      | complete n => exact key (w := "--complete".toList ++ f.suffix b) rfl rfl c6 (hnum [n]) rfl
      | empty n => exact key (w := "--empty".toList ++ f.suffix b) rfl rfl c7 (hnum [n]) rfl
    | plantclique b k =>
      obtain ⟨_, _, _, _, _, _, _, c8, c9, c10, c11⟩ := classify_graph f b hx.1
      exact key (w := "--plantclique".toList ++ f.suffix b) rfl rfl c8 (by
        intro v hv
        obtain rfl := List.mem_singleton.1 hv
        exact classify_num f k) rfl
    | addedges b k =>
      obtain ⟨_, _, _, _, _, _, _, c8, c9, c10, c11⟩ := classify_graph f b hx.1
      exact key (w := "--addedges".toList ++ f.suffix b) rfl rfl c9 (by
        intro v hv
        obtain rfl := List.mem_singleton.1 hv
        exact classify_num f k) rfl
    | kthlist b l =>
      obtain ⟨_, _, _, _, _, _, _, c8, c9, c10, c11⟩ := classify_graph f b hx
      have hd : ∀ v ∈ ["kthlist".toList], classify f.options v = .arg := by
        intro v hv
        obtain rfl := List.mem_singleton.1 hv
        exact classify_plain _ (by decide)
      cases l
      · exact key (w := "-gf".toList ++ f.suffix b) rfl rfl c11 hd rfl
      · exact key (w := "--graphformat".toList ++ f.suffix b) rfl rfl c10 hd rfl

theorem optWords_items {env : GraphEnv} (f : SFam) (items : List GItem) (h : ∀ x ∈ items, x.Ok env f) :
    ∃ lead later, optWords f.options SOpt.arity (items.flatMap (GItem.words f)) = some (lead, later, items.filterMap GItem.occ) ∧
      lead ++ later = (items.filterMap fun | .number i => some i | _ => none).map intStr := by
  obtain ⟨lead, later, h1, h2⟩ := optWords_items_app f items h (post := []) (lead0 := []) (later0 := []) (occ0 := []) rfl
  exact ⟨lead, later, by simpa using h1, by simpa using h2⟩

/-- The values of an option, from the items. -/
theorem values_items {ι α β : Type} [DecidableEq α] (occ : ι → Option (α × List Str)) (items : List ι) (g : ι → Option β) (v : β → List Str) (o : α)
    (h : ∀ x, ((occ x).bind fun e => if e.1 = o then some e.2 else none) = (g x).map v) :
    valuesOf (items.filterMap occ) o = (items.filterMap g).map v := by
  unfold valuesOf
  induction items with
  | nil => rfl
  | cons x items ih =>
    have hx := h x
    cases e : occ x with
    | none =>
      rw [e] at hx
      have : g x = none := by
        cases e2 : g x with
        | none => rfl
        | some y => rw [e2] at hx; simp at hx
      rw [List.filterMap_cons, List.filterMap_cons, e, this]
      exact ih
    | some q =>
      rw [e] at hx
      rw [List.filterMap_cons, List.filterMap_cons, e]
      simp only [Option.bind_some] at hx
      by_cases hq : q.1 = o
      · rw [if_pos hq] at hx
        obtain ⟨y, hy, hv⟩ := Option.map_eq_some_iff.1 hx.symm
        rw [hy]
        simp only
        rw [List.filter_cons_of_pos (by simpa using hq), List.map_cons, ih, List.map_cons, hv]
      · rw [if_neg hq] at hx
        have : g x = none := by
          cases e2 : g x with
          | none => rfl
          | some y => rw [e2] at hx; simp at hx
        rw [this]
        simp only
        rw [List.filter_cons_of_neg (by simpa using hq), ih]

def GRequest.occ (r : GRequest) : List (SOpt × List Str) := r.items.filterMap GItem.occ

theorem values_plants (r : GRequest) (b : Bool) : valuesOf r.occ (.graph b .plantclique) = (r.plants b).map fun k => [num k] := by
  refine values_items _ _ _ _ _ fun x => ?_
  cases x with
  | source b' s => cases s <;> simp [GItem.occ, Source.kind]
  | plantclique b' k => by_cases h : b' = b <;> simp [GItem.occ, h]
  | _ => simp [GItem.occ]

theorem values_adds (r : GRequest) (b : Bool) : valuesOf r.occ (.graph b .addedges) = (r.adds b).map fun k => [num k] := by
  refine values_items _ _ _ _ _ fun x => ?_
  cases x with
  | source b' s => cases s <;> simp [GItem.occ, Source.kind]
  | addedges b' k => by_cases h : b' = b <;> simp [GItem.occ, h]
  | _ => simp [GItem.occ]

theorem values_charges (r : GRequest) : valuesOf r.occ .charge = r.charges.map fun c => [c.word] := by
  refine values_items _ _ _ _ _ fun x => ?_
  cases x <;> simp [GItem.occ]

theorem values_alternative (r : GRequest) : valuesOf r.occ .alternative ≠ [] ↔ ∃ l, GItem.alternative l ∈ r.items := by
  have : valuesOf r.occ .alternative = (r.items.filterMap fun | .alternative l => some l | _ => none).map fun _ => [] := by
    refine values_items _ _ _ _ _ fun x => ?_
    cases x <;> simp [GItem.occ]
  rw [this]
  constructor
  · intro h
    obtain ⟨x, hx⟩ := List.exists_mem_of_ne_nil _ h
    obtain ⟨l, hl, _⟩ := List.mem_map.1 hx
    obtain ⟨y, hy, e⟩ := List.mem_filterMap.1 hl
    cases y <;> simp at e
    exact ⟨_, hy⟩
  · rintro ⟨l, hl⟩ h
    have : l ∈ (r.items.filterMap fun | .alternative l => some l | _ => none) := List.mem_filterMap.2 ⟨_, hl, rfl⟩
    rw [List.map_eq_nil_iff] at h
    rw [h] at this
    simp at this

theorem values_format (r : GRequest) (b : Bool) : lastValue r.occ (.graph b .format) = none ∧ ¬ r.hasFormat b ∨ (∃ v, lastValue r.occ (.graph b .format) = some v) ∧ r.hasFormat b := by
  have : valuesOf r.occ (.graph b .format) = (r.items.filterMap fun | .kthlist b' l => if b' = b then some l else none | _ => none).map fun _ => ["kthlist".toList] := by
    refine values_items _ _ _ _ _ fun x => ?_
    cases x with
    | source b' s => cases s <;> simp [GItem.occ, Source.kind]
    | kthlist b' k => by_cases h : b' = b <;> simp [GItem.occ, h]
    | _ => simp [GItem.occ]
  have hm : ∀ l, l ∈ (r.items.filterMap fun | .kthlist b' l => if b' = b then some l else none | _ => none) ↔ GItem.kthlist b l ∈ r.items := by
    intro l
    rw [List.mem_filterMap]
    constructor
    · rintro ⟨y, hy, e⟩
      cases y <;> simp at e
      obtain ⟨rfl, rfl⟩ := e
      exact hy
    · intro h
      exact ⟨_, h, by simp⟩
  unfold lastValue
  rw [this]
  generalize (r.items.filterMap fun | .kthlist b' l => if b' = b then some l else none | _ => none) = ls at hm
  rcases List.eq_nil_or_concat ls with rfl | ⟨ls, l, rfl⟩
  · left
    refine ⟨rfl, ?_⟩
    rintro ⟨l, hl⟩
    exact absurd ((hm l).2 hl) (by simp)
  · right
    exact ⟨⟨["kthlist".toList], by simp⟩, l, (hm l).1 (by simp)⟩

theorem values_source (r : GRequest) (b : Bool) (k : GKind) (hk : k ∈ sourceKinds) :
    valuesOf r.occ (.graph b k) = ((r.sources b).filter fun s => decide (s.kind = k)).map Source.vals := by
  have h1 : (r.sources b).filter (fun s => decide (s.kind = k)) = r.items.filterMap fun | .source b' s => if b' = b ∧ s.kind = k then some s else none | _ => none := by
    unfold GRequest.sources
    rw [← List.filterMap_eq_filter, List.filterMap_filterMap]
    congr 1
    funext x
    cases x with
    | source b' s => by_cases h1 : b' = b <;> by_cases h2 : s.kind = k <;> simp [h1, h2, Option.guard]
    | _ => rfl
  rw [h1]
  refine values_items _ _ _ _ _ fun x => ?_
  have hne : k ≠ .plantclique ∧ k ≠ .addedges ∧ k ≠ .format := by
    revert hk; cases k <;> decide
  cases x with
  | source b' s => by_cases h1 : b' = b <;> by_cases h2 : s.kind = k <;> simp [GItem.occ, h1, h2]
  | plantclique b' n => simp [GItem.occ, hne.1.symm]
  | addedges b' n => simp [GItem.occ, hne.2.1.symm]
  | kthlist b' n => simp [GItem.occ, hne.2.2.symm]
  | _ => simp [GItem.occ]

theorem kind_mem (s : Source) : s.kind ∈ sourceKinds := by cases s <;> simp [Source.kind, sourceKinds]

theorem mem_given (r : GRequest) (b : Bool) (k : GKind) : k ∈ givenKinds r.occ b ↔ ∃ s ∈ r.sources b, s.kind = k := by
  unfold givenKinds
  rw [List.mem_filter]
  constructor
  · rintro ⟨h1, h2⟩
    rw [values_source r b k h1] at h2
    obtain ⟨x, hx⟩ := List.exists_mem_of_ne_nil _ (of_decide_eq_true h2)
    obtain ⟨s, hs, _⟩ := List.mem_map.1 hx
    obtain ⟨h3, h4⟩ := List.mem_filter.1 hs
    exact ⟨s, h3, of_decide_eq_true h4⟩
  · rintro ⟨s, hs, rfl⟩
    refine ⟨kind_mem s, decide_eq_true ?_⟩
    rw [values_source r b _ (kind_mem s)]
    intro h
    have : s ∈ (r.sources b).filter fun t => decide (t.kind = s.kind) := List.mem_filter.2 ⟨hs, by simp⟩
    rw [List.map_eq_nil_iff.1 h] at this
    simp at this

theorem given_nodup (occ : List (SOpt × List Str)) (b : Bool) : (givenKinds occ b).Nodup := List.Nodup.filter _ (by decide)

theorem given_one (r : GRequest) (b : Bool) : ¬ 1 < (givenKinds r.occ b).length ↔ ∀ s ∈ r.sources b, ∀ t ∈ r.sources b, s.Same t := by
  constructor
  · intro h s hs t ht
    rw [same_kind]
    have h1 := (mem_given r b _).2 ⟨s, hs, rfl⟩
    have h2 := (mem_given r b _).2 ⟨t, ht, rfl⟩
    match e : givenKinds r.occ b, h, h1, h2 with
    | [k], _, h1, h2 => rw [List.mem_singleton.1 h1, List.mem_singleton.1 h2]
    | _ :: _ :: _, h, _, _ => exact absurd (by simp) h
  · intro h hl
    have hnd := given_nodup r.occ b
    match e : givenKinds r.occ b, hl, hnd with
    | k :: l :: _, _, hnd =>
      obtain ⟨s, hs, e1⟩ := (mem_given r b k).1 (by rw [e]; simp)
      obtain ⟨t, ht, e2⟩ := (mem_given r b l).1 (by rw [e]; simp)
      have := (same_kind s t).1 (h s hs t ht)
      rw [e1, e2] at this
      simp [this] at hnd

theorem given_none (r : GRequest) (b : Bool) : givenKinds r.occ b = [] ↔ r.sources b = [] := by
  constructor
  · intro h
    by_contra hs
    obtain ⟨s, hs⟩ := List.exists_mem_of_ne_nil _ hs
    have := (mem_given r b _).2 ⟨s, hs, rfl⟩
    rw [h] at this
    simp at this
  · intro h
    by_contra hs
    obtain ⟨k, hk⟩ := List.exists_mem_of_ne_nil _ hs
    obtain ⟨s, hs, _⟩ := (mem_given r b k).1 hk
    rw [h] at hs
    simp at hs

theorem last_source {r : GRequest} {b : Bool} (h : ∀ s ∈ r.sources b, ∀ t ∈ r.sources b, s.Same t) (k : GKind) (hk : k ∈ sourceKinds) :
    lastValue r.occ (.graph b k) = match (r.sources b).getLast? with | some s => if s.kind = k then some s.vals else none | none => none := by
  unfold lastValue
  rw [values_source r b k hk]
  rcases List.eq_nil_or_concat (r.sources b) with e | ⟨ls, s, e⟩
  · rw [e]; rfl
  · rw [List.concat_eq_append] at e
    rw [e, List.getLast?_concat]
    simp only
    by_cases hs : s.kind = k
    · rw [if_pos hs, List.filter_append, List.filter_cons_of_pos (by simpa using hs)]
      simp
    · rw [if_neg hs, List.filter_eq_nil_iff.2]
      · rfl
      · intro t ht
        rw [← e] at ht
        have := (same_kind t s).1 (h t ht s (by rw [e]; simp))
        simp [this, hs]

theorem positive_num {n : Nat} (h : 0 < n) : positiveInt (num n) = some n := by
  unfold positiveInt num
  rw [parseInt_intStr]
  simp only
  rw [if_neg (by omega)]
  rfl

theorem pos2_num {n m : Nat} (hn : 0 < n) (hm : 0 < m) : pos2 (num n) (num m) = some (n, m) := by
  unfold pos2
  rw [positive_num hn, positive_num hm]
  rfl

theorem gnp_num {env : GraphEnv} {n : Nat} {p : Str} (hn : 0 < n) (hp : ∃ x, env.flt p = some x ∧ x.Unit) : ∃ x, optGnp env.flt (num n) p = .ok (n, x) := by
  obtain ⟨x, h1, h2⟩ := hp
  refine ⟨x, ?_⟩
  unfold optGnp
  rw [positive_num hn, h1]
  have : (PyFloat.lt (.fin 1) x || PyFloat.lt x (.fin 0)) = false := by
    rw [Bool.eq_false_iff]
    intro h
    exact (lt_one_zero.1 h) (.inl h2)
  simp only [bind, Option.bind, this, Bool.false_eq_true, if_false, checked]

theorem gsource_ok {env : GraphEnv} {r : GRequest} (h : r.Ok env) {b : Bool} {s : Source} (hs : s ∈ r.sources b) : s.Ok env := by
  obtain ⟨x, hx, e⟩ := List.mem_filterMap.1 hs
  cases x <;> simp at e
  obtain ⟨rfl, rfl⟩ := e
  exact (h.items _ hx).2

theorem plants_ok {env : GraphEnv} {r : GRequest} (h : r.Ok env) {b : Bool} {k : Nat} (hs : k ∈ r.plants b) : 0 < k := by
  obtain ⟨x, hx, e⟩ := List.mem_filterMap.1 hs
  cases x <;> simp at e
  obtain ⟨rfl, rfl⟩ := e
  exact (h.items _ hx).2

theorem adds_ok {env : GraphEnv} {r : GRequest} (h : r.Ok env) {b : Bool} {k : Nat} (hs : k ∈ r.adds b) : 0 < k := by
  obtain ⟨x, hx, e⟩ := List.mem_filterMap.1 hs
  cases x <;> simp at e
  obtain ⟨rfl, rfl⟩ := e
  exact (h.items _ hx).2

theorem lastNumber_of {r : GRequest} {o : SOpt} {ks : List Nat} (h : valuesOf r.occ o = ks.map fun k => [num k]) (hp : ∀ k ∈ ks, 0 < k) : lastNumber r.occ o = ks.getLast? := by
  unfold lastNumber lastValue
  rw [h]
  rcases List.eq_nil_or_concat ks with rfl | ⟨ls, k, rfl⟩
  · rfl
  · rw [List.concat_eq_append] at hp ⊢
    rw [List.map_append]
    simp [positive_num (hp k (by simp))]

theorem slotArgs_iff {env : GraphEnv} {r : GRequest} (h : r.Ok env) {b : Bool} (hone : ∀ s ∈ r.sources b, ∀ t ∈ r.sources b, s.Same t) (text : Str) (a : GraphArgs) :
    slotArgs env (env.choices (genSeed r.gen) r.fam r.tail b) text r.occ b = some a ↔ r.GraphIs env b text a := by
  have hl := fun k hk => last_source hone k hk
  have hp := lastNumber_of (values_plants r b) fun k hk => plants_ok h hk
  have ha := lastNumber_of (values_adds r b) fun k hk => adds_ok h hk
  unfold slotArgs
  rw [Option.map_eq_some_iff]
  have key : ∀ s, slotSource env (env.choices (genSeed r.gen) r.fam r.tail b) text r.occ b = some s ↔ (match (r.sources b).getLast? with
    | some (.gnp n _) => s = .gnp n (env.choices (genSeed r.gen) r.fam r.tail b).graph
    | some (.gnm n m) => s = .gnm n m (env.choices (genSeed r.gen) r.fam r.tail b).graph
    | some (.gnd n d) => s = .gnd n d (env.choices (genSeed r.gen) r.fam r.tail b).graph
    | some (.complete n) => s = .complete n
    | some (.empty n) => s = .empty n
    | _ => r.hasFormat b ∧ s = .kthlist text) := by
    intro s
    unfold slotSource
    rw [hl .gnd (by decide), hl .gnp (by decide), hl .gnm (by decide), hl .complete (by decide), hl .empty (by decide)]
    have hfmt : (match lastValue r.occ (.graph b .format) with | some _ => some (GraphSource.kthlist text) | none => none) = some s ↔ r.hasFormat b ∧ s = .kthlist text := by
      rcases values_format r b with ⟨h1, h2⟩ | ⟨⟨v, h1⟩, h2⟩
      · rw [h1]; simp [h2]
      · rw [h1]
        simp only [Option.some.injEq, h2, true_and]
        exact eq_comm
    cases e : (r.sources b).getLast? with
    | none => exact hfmt
    | some t =>
      have ht := gsource_ok h (List.mem_of_getLast? e)
      cases t with
      | stdin l => exact hfmt
      | gnp n p =>
        obtain ⟨x, hx⟩ := gnp_num ht.1 ht.2.1
        simp only [Source.kind, Source.vals, reduceCtorEq, if_false, if_true, hx, Option.some.injEq]
        exact eq_comm
      | gnm n m =>
        simp only [Source.kind, Source.vals, reduceCtorEq, if_false, if_true, pos2_num ht.1 ht.2, Option.map_some, Option.some.injEq]
        exact eq_comm
      | gnd n d =>
        simp only [Source.kind, Source.vals, if_true, pos2_num ht.1 ht.2.1, Option.map_some, Option.some.injEq]
        exact eq_comm
      | complete n =>
        simp only [Source.kind, Source.vals, reduceCtorEq, if_false, if_true, positive_num ht, Option.map_some, Option.some.injEq]
        exact eq_comm
      | empty n =>
        simp only [Source.kind, Source.vals, reduceCtorEq, if_false, if_true, positive_num ht, Option.map_some, Option.some.injEq]
        exact eq_comm
  constructor
  · rintro ⟨s, hs, rfl⟩
    exact ⟨hone, (key s).1 hs, hp, ha, rfl, rfl, rfl, rfl⟩
  · intro g
    refine ⟨a.source, (key _).2 g.source, ?_⟩
    rw [hp, ha, ← g.plantclique, ← g.addedges, ← g.clique, ← g.ord, ← g.pos, ← g.draw]

theorem find_sfam (f : SFam) : (SFam.all.find? fun g => decide (g.name = f.name)) = some f := by cases f <;> decide

theorem accepts_items {env : GraphEnv} {r : GRequest} (h : r.Ok env) : (r.occ.any fun o => !o.1.accepts env o.2) = false := by
  rw [List.any_eq_false]
  intro o ho
  obtain ⟨x, hx, e⟩ := List.mem_filterMap.1 ho
  have hx := h.items x hx
  cases x with
  | number i => simp [GItem.occ] at e
  | flag l fl => obtain rfl := (Option.some.inj e).symm; simp [SOpt.accepts]
  | alternative l => obtain rfl := (Option.some.inj e).symm; simp [SOpt.accepts]
  | charge c => obtain rfl := (Option.some.inj e).symm; cases c <;> simp [SOpt.accepts] <;> decide
  | plantclique b k => obtain rfl := (Option.some.inj e).symm; simp [SOpt.accepts, positive_num hx.2]
  | addedges b k => obtain rfl := (Option.some.inj e).symm; simp [SOpt.accepts, positive_num hx.2]
  | kthlist b l =>
    obtain rfl := (Option.some.inj e).symm
    simp only [SOpt.accepts]
    cases env.dot <;> decide
  | source b s =>
    obtain rfl := (Option.some.inj e).symm
    have hs := hx.2
    cases s with
    | stdin l => simp [SOpt.accepts, Source.kind, Source.vals]
    | gnp n p =>
      obtain ⟨x, hx⟩ := gnp_num hs.1 hs.2.1
      simp [SOpt.accepts, Source.kind, Source.vals, hx]
    | gnm n m => simp [SOpt.accepts, Source.kind, Source.vals, pos2_num hs.1 hs.2]
    | gnd n d => simp [SOpt.accepts, Source.kind, Source.vals, pos2_num hs.1 hs.2.1]
    | complete n => simp [SOpt.accepts, Source.kind, Source.vals, positive_num hs]
    | empty n => simp [SOpt.accepts, Source.kind, Source.vals, positive_num hs]

theorem elsewhere_items (r : GRequest) : r.occ.any SOpt.elsewhere = false := by
  rw [List.any_eq_false]
  intro o ho
  obtain ⟨x, hx, e⟩ := List.mem_filterMap.1 ho
  cases x with
  | number i => simp [GItem.occ] at e
  | source b s => obtain rfl := (Option.some.inj e).symm; cases s <;> simp [SOpt.elsewhere, Source.kind]
  | _ => obtain rfl := (Option.some.inj e).symm; simp [SOpt.elsewhere]

theorem flags_items (r : GRequest) : r.occ.filterMap SOpt.flagOf = r.flags := by
  unfold GRequest.occ GRequest.flags
  rw [List.filterMap_filterMap]
  congr 1
  funext x
  cases x <;> rfl

theorem exclusive_iff (fs : List Flag) : exclusive fs = true ↔
    ∀ f ∈ fs, ∀ g ∈ fs, f ≠ g → f ∈ [Flag.total, .smart, .knuth2, .knuth3] → g ∉ [Flag.total, .smart, .knuth2, .knuth3] := by
  unfold exclusive
  rw [decide_eq_true_eq]
  have hnd : ([Flag.total, .smart, .knuth2, .knuth3].filter fun f => decide (f ∈ fs)).Nodup := List.Nodup.filter _ (by decide)
  have hm : ∀ f, f ∈ ([Flag.total, .smart, .knuth2, .knuth3].filter fun f => decide (f ∈ fs)) ↔ f ∈ [Flag.total, .smart, .knuth2, .knuth3] ∧ f ∈ fs := by
    intro f; rw [List.mem_filter, decide_eq_true_eq]
  generalize ([Flag.total, .smart, .knuth2, .knuth3].filter fun f => decide (f ∈ fs)) = l at hnd hm
  constructor
  · intro hl f hf g hg hne h1 h2
    have a1 := (hm f).2 ⟨h1, hf⟩
    have a2 := (hm g).2 ⟨h2, hg⟩
    match l, hl, a1, a2 with
    | [x], _, a1, a2 => exact hne ((List.mem_singleton.1 a1).trans (List.mem_singleton.1 a2).symm)
  · intro h
    match l, hnd, hm with
    | [], _, _ => simp
    | [_], _, _ => simp
    | a :: b :: l, hnd, hm =>
      obtain ⟨a1, a2⟩ := (hm a).1 (by simp)
      obtain ⟨b1, b2⟩ := (hm b).1 (by simp)
      exact absurd b1 (h a a2 b b2 (by intro e; simp [e] at hnd) a1)

theorem flags_fam {env : GraphEnv} {r : GRequest} (h : r.Ok env) {f : Flag} (hf : f ∈ r.flags) : r.fam = .gop ∧ f ∈ [Flag.total, .smart, .knuth2, .knuth3, .plant] := by
  obtain ⟨x, hx, e⟩ := List.mem_filterMap.1 hf
  cases x <;> simp at e
  obtain rfl := e
  exact h.items _ hx

theorem sources_fam {env : GraphEnv} {r : GRequest} (h : r.Ok env) (hf : r.fam.two = false) : r.sources true = [] := by
  by_contra hs
  obtain ⟨s, hs⟩ := List.exists_mem_of_ne_nil _ hs
  obtain ⟨x, hx, e⟩ := List.mem_filterMap.1 hs
  cases x <;> simp at e
  obtain ⟨rfl, rfl⟩ := e
  rcases (h.items _ hx).1 rfl with e | e <;> rw [e] at hf <;> exact absurd hf (by decide)

/-- The checks before the graph is made. -/
theorem graphCommand_checks {env : GraphEnv} {r : GRequest} (h : r.Ok env) (c : ICmd) :
    graphCommand env (genSeed r.gen) r.fam.name r.tail = some c ↔ exclusive r.flags = true ∧ (∀ b, ∀ s ∈ r.sources b, ∀ t ∈ r.sources b, s.Same t) ∧
      ¬ (r.fam.two = true ∧ (r.sources false = [] ∨ r.sources true = [])) ∧ r.numbers.length = r.fam.count ∧
      (match slotArgs env (env.choices (genSeed r.gen) r.fam r.tail false) env.stdin r.occ false with
        | none => none
        | some a =>
          if r.fam.two then
            match slotArgs env (env.choices (genSeed r.gen) r.fam r.tail true) (if readsInput a.source then [] else env.stdin) r.occ true with
            | none => none
            | some b => r.fam.buildTwo a b r.numbers
          else r.fam.build env (genSeed r.gen) r.tail r.occ a r.numbers) = some c := by
  obtain ⟨lead, later, h1, h2⟩ := optWords_items r.fam r.items h.items
  have h1 : optWords r.fam.options SOpt.arity r.tail = some (lead, later, r.occ) := h1
  unfold graphCommand
  rw [find_sfam]
  simp only [h1]
  have hns : mapOpt parseInt (lead ++ later) = some r.numbers := by
    rw [h2]
    exact Gen.mapOpt_intStr _
  have hhelp : Flag.help ∉ r.flags := fun hh => absurd (flags_fam h hh).2 (by decide)
  simp only [hns, flags_items, accepts_items h, elsewhere_items, Bool.false_eq_true, if_false, hhelp, false_or, given_none]
  by_cases e1 : exclusive r.flags = true
  · rw [if_neg (by simp [e1])]
    by_cases e2 : ∀ b, ∀ s ∈ r.sources b, ∀ t ∈ r.sources b, s.Same t
    · rw [if_neg (by
        rintro (h | h)
        · exact (given_one r false).2 (e2 false) h
        · exact (given_one r true).2 (e2 true) h)]
      by_cases e3 : r.fam.two = true ∧ (r.sources false = [] ∨ r.sources true = [])
      · rw [if_pos e3]
        simp [e3]
      · rw [if_neg e3]
        by_cases e4 : r.numbers.length = r.fam.count
        · rw [if_neg (by simp [e4])]
          exact ⟨fun hh => ⟨e1, e2, e3, e4, hh⟩, fun hh => hh.2.2.2.2⟩
        · rw [if_pos e4]
          simp [e4]
    · rw [if_pos]
      · simp only [reduceCtorEq, false_iff]
        exact fun hh => e2 hh.2.1
      · by_contra hh
        rw [not_or] at hh
        refine e2 fun b => ?_
        cases b
        · exact (given_one r false).1 hh.1
        · exact (given_one r true).1 hh.2
  · rw [if_pos (by simpa using e1)]
    simp [e1]

theorem graphCommand_one {env : GraphEnv} {r : GRequest} (h : r.Ok env) (hf : r.fam.two = false) (c : ICmd) :
    graphCommand env (genSeed r.gen) r.fam.name r.tail = some c ↔ exclusive r.flags = true ∧ r.numbers.length = r.fam.count ∧
      ∃ a, r.GraphIs env false env.stdin a ∧ r.fam.build env (genSeed r.gen) r.tail r.occ a r.numbers = some c := by
  rw [graphCommand_checks h]
  simp only [hf, Bool.false_eq_true, if_false, false_and, not_false_eq_true, true_and]
  constructor
  · rintro ⟨h1, h2, h3, h4⟩
    refine ⟨h1, h3, ?_⟩
    cases e : slotArgs env (env.choices (genSeed r.gen) r.fam r.tail false) env.stdin r.occ false with
    | none => rw [e] at h4; simp at h4
    | some a =>
      rw [e] at h4
      exact ⟨a, (slotArgs_iff h (h2 false) _ _).1 e, h4⟩
  · rintro ⟨h1, h3, a, h4, h5⟩
    refine ⟨h1, ?_, h3, ?_⟩
    · intro b
      cases b
      · exact h4.one
      · rw [sources_fam h hf]; simp
    · rw [(slotArgs_iff h h4.one _ _).2 h4]
      exact h5

theorem readsInput_iff {env : GraphEnv} {r : GRequest} (hs : r.sources false ≠ []) {a : GraphArgs} (ha : r.GraphIs env false env.stdin a) :
    (if readsInput a.source then [] else env.stdin) = (match (r.sources false).getLast? with | some (.stdin _) => [] | _ => env.stdin) := by
  have := ha.source
  cases e : (r.sources false).getLast? with
  | none => exact absurd (List.getLast?_eq_none_iff.1 e) hs
  | some s =>
    rw [e] at this
    cases s with
    | stdin l => rw [this.2]; simp [readsInput]
    | _ => rw [this]; simp [readsInput]

theorem graphCommand_two {env : GraphEnv} {r : GRequest} (h : r.Ok env) (hf : r.fam.two = true) (c : ICmd) :
    graphCommand env (genSeed r.gen) r.fam.name r.tail = some c ↔ exclusive r.flags = true ∧ r.numbers.length = r.fam.count ∧
      ∃ a b, r.Both env a b ∧ r.fam.buildTwo a b r.numbers = some c := by
  rw [graphCommand_checks h]
  simp only [hf, if_true, true_and, not_or]
  constructor
  · rintro ⟨h1, h2, ⟨hs1, hs2⟩, h3, h4⟩
    refine ⟨h1, h3, ?_⟩
    cases e : slotArgs env (env.choices (genSeed r.gen) r.fam r.tail false) env.stdin r.occ false with
    | none => rw [e] at h4; simp at h4
    | some a =>
      rw [e] at h4
      simp only at h4
      have ha := (slotArgs_iff h (h2 false) _ _).1 e
      rw [readsInput_iff hs1 ha] at h4
      cases e2 : slotArgs env (env.choices (genSeed r.gen) r.fam r.tail true) (match (r.sources false).getLast? with | some (.stdin _) => [] | _ => env.stdin) r.occ true with
      | none => rw [e2] at h4; simp at h4
      | some b =>
        rw [e2] at h4
        exact ⟨a, b, ⟨hs1, hs2, ha, (slotArgs_iff h (h2 true) _ _).1 e2⟩, h4⟩
  · rintro ⟨h1, h3, a, b, ⟨hs1, hs2, ha, hb⟩, h5⟩
    refine ⟨h1, ?_, ⟨hs1, hs2⟩, h3, ?_⟩
    · intro b
      cases b
      · exact ha.one
      · exact hb.one
    · rw [(slotArgs_iff h ha.one _ _).2 ha]
      simp only
      rw [readsInput_iff hs1 ha, (slotArgs_iff h hb.one _ _).2 hb]
      exact h5

theorem last_charge (r : GRequest) : (((lastValue r.occ .charge).bind fun v => v.head?.bind chargeOf).getD .first) = r.charges.getLast?.getD .first := by
  unfold lastValue
  rw [values_charges]
  rcases List.eq_nil_or_concat r.charges with e | ⟨ls, k, e⟩
  · rw [e]; rfl
  · rw [List.concat_eq_append] at e
    rw [e, List.map_append]
    have : chargeOf k.word = some k := by cases k <;> rfl
    simp [this]

theorem exclusive_other {env : GraphEnv} {r : GRequest} (h : r.Ok env) (hf : r.fam ≠ .gop) : exclusive r.flags = true := by
  have : r.flags = [] := by
    by_contra hs
    obtain ⟨s, hs⟩ := List.exists_mem_of_ne_nil _ hs
    exact hf (flags_fam h hs).1
  rw [this]; decide

theorem nil_of_length {A : Type} {l : List A} (h : l.length = 0) : l = [] := List.length_eq_zero_iff.1 h

/-- **C97** (the sub-command)  Exactly: the formula asked for, and none if there is no such formula. -/
theorem graphCommand_iff {env : GraphEnv} {r : GRequest} (h : r.Ok env) (c : ICmd) : graphCommand env (genSeed r.gen) r.fam.name r.tail = some c ↔ r.Asks env c := by
  have two : r.fam.two = true → (graphCommand env (genSeed r.gen) r.fam.name r.tail = some c ↔ r.numbers.length = r.fam.count ∧ ∃ a b, r.Both env a b ∧
      r.fam.buildTwo a b r.numbers = some c) := by
    intro hf
    rw [graphCommand_two h hf]
    have := exclusive_other h (by intro e; rw [e] at hf; exact absurd hf (by decide))
    simp only [this, true_and]
  have one : r.fam.two = false → r.fam ≠ .gop → (graphCommand env (genSeed r.gen) r.fam.name r.tail = some c ↔ r.numbers.length = r.fam.count ∧ ∃ a, r.GraphIs env false env.stdin a ∧
      r.fam.build env (genSeed r.gen) r.tail r.occ a r.numbers = some c) := by
    intro hf hg
    rw [graphCommand_one h hf]
    simp only [exclusive_other h hg, true_and]
  have gop := fun hf => graphCommand_one h (r := r) hf c
  rw [exclusive_iff] at gop
  generalize graphCommand env (genSeed r.gen) r.fam.name r.tail = res at one two gop
  unfold GRequest.Asks
  generalize r.fam = f at one two gop
  generalize r.numbers = ns at one two gop
  cases f with
  | gop =>
    rw [gop rfl]
    match ns with
    | [] =>
      simp only [List.length_nil, SFam.count, true_and, SFam.build, Option.some.injEq, flags_items]
      constructor
      · rintro ⟨h1, a, h3, rfl⟩
        refine ⟨h1, a, _, h3, rfl, fun h => if_pos h, fun hk => ?_, fun h h' => by rw [if_neg h, if_neg h']⟩
        rw [if_neg, if_pos hk]
        intro h2
        exact h1 _ h2 _ hk (by simp) (by simp) (by simp)
      · rintro ⟨h1, a, k, h3, rfl, k2, k3, k4⟩
        refine ⟨h1, a, h3, ?_⟩
        congr 2
        by_cases e2 : Flag.knuth2 ∈ r.flags
        · rw [if_pos e2, k2 e2]
        · rw [if_neg e2]
          by_cases e3 : Flag.knuth3 ∈ r.flags
          · rw [if_pos e3, k3 e3]
          · rw [if_neg e3, k4 e2 e3]
    | _ :: _ => simp [SFam.count]
  | tseitin =>
    rw [one rfl (by simp)]
    match ns with
    | [] => simp only [List.length_nil, SFam.count, true_and, SFam.build, Option.some.injEq, last_charge, eq_comm (b := c)]
    | _ :: _ => simp [SFam.count]
  | domset =>
    rw [one rfl (by simp)]
    match ns with
    | [] => simp [SFam.count]
    | [d] =>
      simp only [List.length_singleton, SFam.count, true_and, SFam.build, Option.some.injEq, eq_comm (b := c)]
      constructor
      · rintro ⟨a, h1, rfl⟩
        exact ⟨a, _, h1, rfl, by rw [decide_eq_true_eq]; exact values_alternative r⟩
      · rintro ⟨a, alt, h1, rfl, h2⟩
        refine ⟨a, h1, ?_⟩
        congr 1
        rw [Bool.eq_iff_iff, h2, decide_eq_true_eq]
        exact (values_alternative r).symm
    | _ :: _ :: _ => simp [SFam.count]
  | giso =>
    rw [two rfl]
    match ns with
    | [] => simp only [List.length_nil, SFam.count, true_and, SFam.buildTwo, Option.some.injEq, eq_comm (b := c)]
    | _ :: _ => simp [SFam.count]
  | subgraph =>
    rw [two rfl]
    match ns with
    | [] => simp only [List.length_nil, SFam.count, true_and, SFam.buildTwo, Option.some.injEq, eq_comm (b := c)]
    | _ :: _ => simp [SFam.count]
  | matching | ec | gauto =>
    rw [one rfl (by simp)]
    match ns with
    | [] => simp only [List.length_nil, SFam.count, true_and, SFam.build, Option.some.injEq, eq_comm (b := c)]
    | _ :: _ => simp [SFam.count]
  | kcolor | kclique | kcliquebin =>
    rw [one rfl (by simp)]
    match ns with
    | [] => simp [SFam.count]
    | [k] => simp only [List.length_singleton, SFam.count, true_and, SFam.build, Option.some.injEq, eq_comm (b := c)]
    | _ :: _ :: _ => simp [SFam.count]
  | ramlb =>
    rw [one rfl (by simp)]
    match ns with
    | [] => simp [SFam.count]
    | [_] => simp [SFam.count]
    | [k, s] => simp only [List.length_cons, List.length_nil, SFam.count, true_and, SFam.build, Option.some.injEq, eq_comm (b := c), Nat.reduceAdd]
    | _ :: _ :: _ :: _ => simp [SFam.count]

theorem clear_plain {w : Str} (h : w.head? ≠ some '-') : Clear w := by
  unfold Clear
  rw [classify_plain _ h]
  simp

theorem clear_num (n : Nat) : Clear (num n) := by
  unfold Clear num
  rw [classify_int main_options_ok]
  simp

theorem clear_graph (f : SFam) (b : Bool) : ∀ w ∈ ["--input".toList ++ f.suffix b, "-i".toList ++ f.suffix b, "--gnp".toList ++ f.suffix b, "--gnm".toList ++ f.suffix b,
    "--gnd".toList ++ f.suffix b, "--grid".toList ++ f.suffix b, "--torus".toList ++ f.suffix b, "--complete".toList ++ f.suffix b, "--empty".toList ++ f.suffix b,
    "--plantclique".toList ++ f.suffix b, "--addedges".toList ++ f.suffix b, "--graphformat".toList ++ f.suffix b, "-gf".toList ++ f.suffix b, "-".toList],
    Clear w ∧ w ≠ "-T".toList := by
  unfold Clear
  cases b <;> cases f <;> decide

theorem num_noT (n : Nat) : num n ≠ "-T".toList := intStr_noT _

theorem plain_noT {w : Str} (h : w.head? ≠ some '-') : w ≠ "-T".toList := by
  rintro rfl
  exact h (by decide)

/-- No word of an item disturbs the parser above. -/
theorem clear_gitem {env : GraphEnv} {f : SFam} {x : GItem} (h : x.Ok env f) : ∀ w ∈ x.words f, Clear w ∧ w ≠ "-T".toList := by
  intro w hw
  have hg := clear_graph f
  cases x with
  | number i =>
    obtain rfl := List.mem_singleton.1 hw
    exact ⟨clear_item (.number i), intStr_noT i⟩
  | flag l fl =>
    obtain rfl := List.mem_singleton.1 hw
    exact ⟨clear_flag fl l, by cases fl <;> cases l <;> decide⟩
  | alternative l =>
    obtain rfl := List.mem_singleton.1 hw
    unfold Clear
    cases l <;> decide
  | charge c =>
    simp only [GItem.words, List.mem_cons, List.not_mem_nil, or_false] at hw
    rcases hw with rfl | rfl
    · unfold Clear; decide
    · exact ⟨clear_plain (charge_plain c), plain_noT (charge_plain c)⟩
  | plantclique b k =>
    simp only [GItem.words, List.mem_cons, List.not_mem_nil, or_false] at hw
    rcases hw with rfl | rfl
    · exact hg b _ (by simp)
    · exact ⟨clear_num k, num_noT k⟩
  | addedges b k =>
    simp only [GItem.words, List.mem_cons, List.not_mem_nil, or_false] at hw
    rcases hw with rfl | rfl
    · exact hg b _ (by simp)
    · exact ⟨clear_num k, num_noT k⟩
  | kthlist b l =>
    simp only [GItem.words, List.mem_cons, List.not_mem_nil, or_false] at hw
    rcases hw with rfl | rfl
    · cases l
      · exact hg b _ (by simp)
      · exact hg b _ (by simp)
    · exact ⟨clear_plain (by decide), by decide⟩
  | source b s =>
    have hs := h.2
    cases s with
    | stdin l =>
      simp only [GItem.words, Source.words, List.mem_cons, List.not_mem_nil, or_false] at hw
      rcases hw with rfl | rfl
      · cases l
        · exact hg b _ (by simp)
        · exact hg b _ (by simp)
      · exact hg b _ (by simp)
    | gnp n p =>
      simp only [GItem.words, Source.words, List.mem_cons, List.not_mem_nil, or_false] at hw
      rcases hw with rfl | rfl | rfl
      · exact hg b _ (by simp)
      · exact ⟨clear_num _, num_noT _⟩
      · exact ⟨clear_plain hs.2.2, plain_noT hs.2.2⟩
    | gnm n m =>
      simp only [GItem.words, Source.words, List.mem_cons, List.not_mem_nil, or_false] at hw
      rcases hw with rfl | rfl | rfl
      · exact hg b _ (by simp)
      · exact ⟨clear_num _, num_noT _⟩
      · exact ⟨clear_num _, num_noT _⟩
    | gnd n m =>
      simp only [GItem.words, Source.words, List.mem_cons, List.not_mem_nil, or_false] at hw
      rcases hw with rfl | rfl | rfl
      · exact hg b _ (by simp)
      · exact ⟨clear_num _, num_noT _⟩
      · exact ⟨clear_num _, num_noT _⟩
    | complete n =>
      simp only [GItem.words, Source.words, List.mem_cons, List.not_mem_nil, or_false] at hw
      rcases hw with rfl | rfl
      · exact hg b _ (by simp)
      · exact ⟨clear_num _, num_noT _⟩
    | empty n =>
      simp only [GItem.words, Source.words, List.mem_cons, List.not_mem_nil, or_false] at hw
      rcases hw with rfl | rfl
      · exact hg b _ (by simp)
      · exact ⟨clear_num _, num_noT _⟩

theorem clear_tail {env : GraphEnv} {r : GRequest} (h : r.Ok env) : ∀ w ∈ r.tail, Clear w ∧ w ≠ "-T".toList := by
  intro w hw
  obtain ⟨x, hx, hw⟩ := List.mem_flatMap.1 hw
  exact clear_gitem (h.items x hx) w hw

theorem sfam_word (f : SFam) : f.word = f.name := by cases f <;> rfl

theorem grequest_words (r : GRequest) : r.words = r.gen.flatMap GOpt.words ++ r.fam.name :: r.tail := by rw [GRequest.words, sfam_word]

theorem clear_sname (f : SFam) : classify mainOptions f.name = .arg := by cases f <;> rfl

theorem sname_other (f : SFam) (env : CmdEnv) (seed : Option Str) (ws : List Str) : subCommand env seed f.name ws = env.other seed f.name ws := by
  unfold subCommand
  have : (Fam.all.find? fun g => decide (g.name = f.name)) = none := by cases f <;> decide
  rw [this]

theorem line_noT {gen : List GOpt} (h : GenOk gen) {f : SFam} {ws : List Str} (hw : ∀ w ∈ ws, Clear w ∧ w ≠ "-T".toList) : "-T".toList ∉ gen.flatMap GOpt.words ++ f.name :: ws := by
  intro hm
  rcases List.mem_append.1 hm with hm | hm
  · exact gen_noT h hm
  · rcases List.mem_cons.1 hm with e | hm
    · revert e; cases f <;> decide
    · exact (hw _ hm).2 rfl

/-- A sub-command that is refused. -/
theorem line_refused (env : CmdEnv) {gen : List GOpt} (h : GenOk gen) {f : SFam} {ws : List Str} (hw : ∀ w ∈ ws, Clear w ∧ w ≠ "-T".toList)
    (hc : env.other (genSeed gen) f.name ws = none) (ts : List (List Str)) (ht : ∀ t ∈ ts, "-T".toList ∉ t) :
    cnfgenMain env (cmdLine (gen.flatMap GOpt.words ++ f.name :: ws) ts) = pure none := by
  unfold cnfgenMain cnfgen
  rw [splitlist_cmdLine _ _ (line_noT h hw) ht]
  have : (readMain env (((("cnfgen".toList :: (gen.flatMap GOpt.words ++ f.name :: ws)) :: ts).headD []).drop 1)) = none := by
    show readMain env (gen.flatMap GOpt.words ++ f.name :: ws) = none
    rw [readMain_gen env h (clear_sname f) (fun w h => (hw w h).1), sname_other, hc]
    rfl
  simp only [this, Option.map_none]

/-- **C97** (parsing)  Every documented command line of a family over simple graphs is understood: the numbers in their order, the options and their values in any place. -/
theorem C97_understood (env : CmdEnv) {genv : GraphEnv} (hg : env.other = graphCommand genv) {r : GRequest} (h : r.Ok genv) {c : ICmd} (hc : r.Asks genv c) :
    readMain env r.words = some ⟨!genQuiet r.gen, env.dash, false, some c⟩ := by
  rw [grequest_words, readMain_gen env h.gen (clear_sname _) (fun w hw => (clear_tail h w hw).1), sname_other, hg, (graphCommand_iff h c).2 hc]
  rfl

/-- **C97** (refused)  A command line made of the documented options that asks for no formula prints no formula, whatever the transformations. -/
theorem C97_refused (env : CmdEnv) {genv : GraphEnv} (hg : env.other = graphCommand genv) {r : GRequest} (h : r.Ok genv) (hc : ∀ c, ¬ r.Asks genv c)
    (ts : List (List Str)) (ht : ∀ t ∈ ts, "-T".toList ∉ t) : cnfgenMain env (cmdLine r.words ts) = pure none := by
  rw [grequest_words]
  refine line_refused env h.gen (clear_tail h) ?_ ts ht
  rw [hg]
  by_contra hn
  obtain ⟨c, e⟩ := Option.ne_none_iff_exists'.1 hn
  exact hc c ((graphCommand_iff h c).1 e)

theorem asks_one {env : GraphEnv} {r : GRequest} {c : ICmd} (h : r.Asks env c) : ∀ s ∈ r.sources false, ∀ t ∈ r.sources false, s.Same t := by
  unfold GRequest.Asks at h
  split at h
  case h_1 => obtain ⟨_, a, k, h, _⟩ := h; exact h.one
  case h_6 => obtain ⟨a, k, h, _⟩ := h; exact h.one
  case h_7 => obtain ⟨a, k, h, _⟩ := h; exact h.2.2.1.one
  case h_9 => obtain ⟨a, k, h, _⟩ := h; exact h.2.2.1.one
  case h_13 => exact h.elim
  all_goals obtain ⟨a, h, _⟩ := h; exact h.one

/-- **C97** (two graphs at once)  Two different ways to give the graph are refused. -/
theorem C97_two_sources (env : CmdEnv) {genv : GraphEnv} (hg : env.other = graphCommand genv) {r : GRequest} (h : r.Ok genv) {s t : Source} (hs : s ∈ r.sources false)
    (ht : t ∈ r.sources false) (hne : ¬ s.Same t) (ts : List (List Str)) (hts : ∀ t ∈ ts, "-T".toList ∉ t) : cnfgenMain env (cmdLine r.words ts) = pure none :=
  C97_refused env hg h (fun _ hc => hne (asks_one hc s hs t ht)) ts hts

/-- **C97** (a graph is missing)  `giso` and `subgraph` are refused unless both graphs are given; the others, unless the graph is given or the format of the standard input. -/
theorem C97_needs_graph (env : CmdEnv) {genv : GraphEnv} (hg : env.other = graphCommand genv) {r : GRequest} (h : r.Ok genv)
    (hn : ((r.fam = .giso ∨ r.fam = .subgraph) ∧ ∃ b, r.sources b = []) ∨ (r.sources false = [] ∧ ¬ r.hasFormat false))
    (ts : List (List Str)) (hts : ∀ t ∈ ts, "-T".toList ∉ t) : cnfgenMain env (cmdLine r.words ts) = pure none := by
  refine C97_refused env hg h (fun c hc => ?_) ts hts
  have hboth : ∀ a b, r.Both genv a b → False := by
    intro a b hb
    rcases hn with ⟨_, b', e⟩ | ⟨e, _⟩
    · cases b'
      · exact hb.1 e
      · exact hb.2.1 e
    · exact hb.1 e
  have hone : r.fam ≠ .giso → r.fam ≠ .subgraph → ∀ a, r.GraphIs genv false genv.stdin a → False := by
    intro h1 h2 a ha
    rcases hn with ⟨e | e, _⟩ | ⟨e, hf⟩
    · exact h1 e
    · exact h2 e
    · have := ha.source
      rw [e] at this
      exact hf this.1
  unfold GRequest.Asks at hc
  split at hc
  case h_1 e _ => obtain ⟨_, a, k, hc, _⟩ := hc; exact hone (by simp [e]) (by simp [e]) a hc
  case h_6 e _ => obtain ⟨a, k, hc, _⟩ := hc; exact hone (by simp [e]) (by simp [e]) a hc
  case h_7 => obtain ⟨a, k, hc, _⟩ := hc; exact hboth _ _ hc
  case h_9 => obtain ⟨a, k, hc, _⟩ := hc; exact hboth _ _ hc
  case h_13 => exact hc
  all_goals rename_i e _; obtain ⟨a, hc, _⟩ := hc; exact hone (by simp [e]) (by simp [e]) a hc

/-- **C97**  The whole way from the words, for the families over simple graphs: if networkx and the random choices keep their promises (`Cmd.Legal`), the documented command line with any
transformations is refused if a number is bad or there is no such graph or formula, and otherwise prints a DIMACS formula that can be satisfied exactly if the one asked for can.
Only `--addedges` can fail otherwise. -/
theorem C97_cnfgen {env : CmdEnv} (he : env.Ok) {genv : GraphEnv} (hg : env.other = graphCommand genv) {r : GRequest} (h : r.Ok genv) {c : ICmd} (hc : r.Asks genv c)
    (hleg : c.floor.Legal) (ts : List TReq) (ht : ∀ t ∈ ts, t.Ok ∧ t.Sensible) :
    (cnfgenMain env (cmdLine r.words (ts.map TReq.words)) = pure none ∧ (c.BadNumber ∨ c.floor.Answers none)) ∨
    (¬ c.BadNumber ∧ ∃ out n cs P, cnfgenMain env (cmdLine r.words (ts.map TReq.words)) = pure (some out) ∧ Prints out n cs ∧ c.floor.Answers (some P) ∧
      (Spec.Satisfiable cs ↔ P)) ∨
    (cnfgenMain env (cmdLine r.words (ts.map TReq.words)) = raise .runtimeError ∧ c.floor.AddsEdges) := by
  have hT : "-T".toList ∉ r.words := by
    rw [grequest_words]
    exact line_noT h.gen (clear_tail h)
  have hTs : ∀ t ∈ ts.map TReq.words, "-T".toList ∉ t := by
    intro t hm
    obtain ⟨t, _, rfl⟩ := List.mem_map.1 hm
    exact treq_noT t
  obtain ⟨Ts, h1, h2⟩ := treqs_read he (genSeed r.gen) ts ht
  have hp : (fun ws => (readMain env ws).map (MainLine.args env)) r.words = some (c.args false (!genQuiet r.gen) (env.header c)) := by
    simp only [C97_understood env hg h hc, Option.map_some, MainLine.args, he.dash]
    rfl
  have hsplit : ((splitlist (cmdLine r.words (ts.map TReq.words)) "-T".toList).headD []).drop 1 = r.words := by
    rw [splitlist_cmdLine _ _ hT hTs]
    rfl
  unfold cnfgenMain
  rw [hsplit]
  have hseed : runSeed r.words = genSeed r.gen := by
    rw [grequest_words]
    exact runSeed_gen h.gen (clear_sname _) (fun w hw => (clear_tail h w hw).1)
  rw [hseed]
  exact C93_cnfgen hleg (fun ws => (readMain env ws).map (MainLine.args env)) (readTrans env (genSeed r.gen)) r.words (ts.map TReq.words) hT hTs _ (env.header c) hp h1 h2

theorem optWords_args {f : SFam} {vals : List Str} (hv : ∀ v ∈ vals, classify f.options v = .arg) : optWords f.options SOpt.arity vals = some (vals, [], []) := by
  induction vals with
  | nil => rfl
  | cons v vals ih =>
    rw [optWords, ih fun x hx => hv x (by simp [hx])]
    simp only [hv v (by simp)]

/-- **C97** (a trap)  `--grid` and `--torus` take all the numbers that follow: with the numbers of the family after them (`cnfgen kcolor --grid 3 3 4`), the command line is refused. -/
theorem C97_grid_swallows (env : CmdEnv) {genv : GraphEnv} (hg : env.other = graphCommand genv) {gen : List GOpt} (h : GenOk gen)
    {f : SFam} (hf : f ∈ [SFam.kcolor, .domset, .kclique, .kcliquebin, .ramlb]) (torus : Bool) (ns : List Int) (ts : List (List Str)) (ht : ∀ t ∈ ts, "-T".toList ∉ t) :
    cnfgenMain env (cmdLine (gen.flatMap GOpt.words ++ f.word :: (if torus then "--torus".toList else "--grid".toList) :: ns.map intStr) ts) = pure none := by
  rw [sfam_word]
  have hsfx : f.suffix false = [] := by revert hf; cases f <;> decide
  refine line_refused env h ?_ ?_ ts ht
  · intro w hw
    rcases List.mem_cons.1 hw with rfl | hw
    · have := clear_graph f false
      rw [hsfx] at this
      cases torus
      · exact this "--grid".toList (by simp)
      · exact this "--torus".toList (by simp)
    · obtain ⟨i, _, rfl⟩ := List.mem_map.1 hw
      exact ⟨clear_item (.number i), intStr_noT i⟩
  · rw [hg]
    unfold graphCommand
    rw [find_sfam]
    have hv : ∀ v ∈ ns.map intStr, classify f.options v = .arg := by
      intro v hv
      obtain ⟨i, _, rfl⟩ := List.mem_map.1 hv
      exact classify_int (sfam_options_ok f) i
    have hw : ∃ k, SOpt.arity k = .many ∧ classify f.options (if torus then "--torus".toList else "--grid".toList) = .opt k true none := by
      cases torus
      · exact ⟨.graph false .grid, rfl, by revert hf; cases f <;> decide⟩
      · exact ⟨.graph false .torus, rfl, by revert hf; cases f <;> decide⟩
    obtain ⟨k, hk, hw⟩ := hw
    have ho : optWords f.options SOpt.arity ((if torus then "--torus".toList else "--grid".toList) :: ns.map intStr) = none ∨
        ∃ occ, optWords f.options SOpt.arity ((if torus then "--torus".toList else "--grid".toList) :: ns.map intStr) = some ([], [], occ) := by
      rw [optWords, optWords_args hv]
      simp only [hw, optExpand, List.getLast?_singleton, hk]
      cases ns.map intStr with
      | nil => exact .inl rfl
      | cons v vs => exact .inr ⟨_, rfl⟩
    have hcount : (0 : Nat) ≠ f.count := by revert hf; cases f <;> decide
    rcases ho with e | ⟨occ, e⟩
    · simp only [e]
    · simp only [e, List.append_nil, mapOpt, List.length_nil, ne_eq, hcount, not_false_eq_true, if_true]
      split
      · rfl
      · split
        · rfl
        · split
          · rfl
          · split <;> rfl

/-- **C97** (bad values)  A documented option of a graph with a bad value is refused, wherever it stands among the others. -/
theorem C97_bad_value (env : CmdEnv) {genv : GraphEnv} (hg : env.other = graphCommand genv) {gen : List GOpt} (h : GenOk gen) {f : SFam} {before after : List GItem}
    (hi : ∀ x ∈ before ++ after, x.Ok genv f) {b : Bool} (hb : b = true → f = .giso ∨ f = .subgraph) {bad : List Str} (hbad : BadValue genv bad)
    (hw : ∀ w ∈ bad.tail, w.head? ≠ some '-' ∨ ∃ i, w = intStr i) (ts : List (List Str)) (ht : ∀ t ∈ ts, "-T".toList ∉ t) :
    cnfgenMain env (cmdLine (gen.flatMap GOpt.words ++
      f.word :: (before.flatMap (GItem.words f) ++ withSuffix f b bad ++ after.flatMap (GItem.words f))) ts) = pure none := by
  have hc1 : ∀ w ∈ bad.tail, classify f.options w = .arg := by
    intro w hm
    rcases hw w hm with h | ⟨i, rfl⟩
    · exact classify_plain _ h
    · exact classify_int (sfam_options_ok f) i
  have hc2 : ∀ w ∈ bad.tail, Clear w ∧ w ≠ "-T".toList := by
    intro w hm
    rcases hw w hm with h | ⟨i, rfl⟩
    · exact ⟨clear_plain h, plain_noT h⟩
    · exact ⟨clear_item (.number i), intStr_noT i⟩
  obtain ⟨c1, c2, c3, c4, c5, c6, c7, c8, c9, c10, c11⟩ := classify_graph f b hb
  have hcg := clear_graph f b
  have key : ∃ k vals o long, bad = k :: vals ∧ classify f.options (k ++ f.suffix b) = .opt o long none ∧
      o.arity.fixed = some vals.length ∧ o.accepts genv vals = false ∧ Clear (k ++ f.suffix b) ∧ k ++ f.suffix b ≠ "-T".toList := by
    cases hbad with
    | input long w hne =>
      have ha : (SOpt.graph b .input).accepts genv [w] = false := by simp only [SOpt.accepts]; exact decide_eq_false hne
      cases long
      · exact ⟨_, _, _, _, rfl, c2, rfl, ha, hcg _ (by simp)⟩
      · exact ⟨_, _, _, _, rfl, c1, rfl, ha, hcg _ (by simp)⟩
    | one k a hk hn =>
      have hp : positiveInt a = none := by
        cases e : positiveInt a with
        | none => rfl
        | some n => exact absurd (positiveInt_iff.1 e) (hn n)
      simp only [List.mem_cons, List.not_mem_nil, or_false] at hk
      rcases hk with rfl | rfl | rfl | rfl
      · exact ⟨_, _, _, _, rfl, c6, rfl, by simp [SOpt.accepts, hp], hcg _ (by simp)⟩
      · exact ⟨_, _, _, _, rfl, c7, rfl, by simp [SOpt.accepts, hp], hcg _ (by simp)⟩
      · exact ⟨_, _, _, _, rfl, c8, rfl, by simp [SOpt.accepts, hp], hcg _ (by simp)⟩
      · exact ⟨_, _, _, _, rfl, c9, rfl, by simp [SOpt.accepts, hp], hcg _ (by simp)⟩
    | two k a b' hk hn =>
      have hp : pos2 a b' = none := by
        cases e : pos2 a b' with
        | none => rfl
        | some n => exact absurd ⟨_, _, pos2_iff.1 e⟩ hn
      simp only [List.mem_cons, List.not_mem_nil, or_false] at hk
      rcases hk with rfl | rfl
      · exact ⟨_, _, _, _, rfl, c4, rfl, by simp [SOpt.accepts, hp], hcg _ (by simp)⟩
      · exact ⟨_, _, _, _, rfl, c5, rfl, by simp [SOpt.accepts, hp], hcg _ (by simp)⟩
    | format long w hne =>
      have ha : (SOpt.graph b .format).accepts genv [w] = false := by
        simp only [SOpt.accepts]
        exact decide_eq_false fun hm => hne ((mem_formats _ _ _).1 hm)
      cases long
      · exact ⟨_, _, _, _, rfl, c11, rfl, ha, hcg _ (by simp)⟩
      · exact ⟨_, _, _, _, rfl, c10, rfl, ha, hcg _ (by simp)⟩
  obtain ⟨k, vals, o, long, rfl, k1, k3, k4, k5⟩ := key
  rw [sfam_word]
  refine line_refused env h ?_ ?_ ts ht
  · intro w hm
    rcases List.mem_append.1 hm with hm | hm
    · rcases List.mem_append.1 hm with hm | hm
      · obtain ⟨x, hx, hw⟩ := List.mem_flatMap.1 hm
        exact clear_gitem (hi x (by simp [hx])) w hw
      · rcases List.mem_cons.1 hm with rfl | hm
        · exact k5
        · exact hc2 w hm
    · obtain ⟨x, hx, hw⟩ := List.mem_flatMap.1 hm
      exact clear_gitem (hi x (by simp [hx])) w hw
  · rw [hg]
    obtain ⟨lead, later, h1, h2⟩ := optWords_items f after fun x hx => hi x (by simp [hx])
    have h3 := optWords_opt k1 hc1 k3 h1
    obtain ⟨lead', later', h4, h5⟩ := optWords_items_app f before (fun x hx => hi x (by simp [hx])) h3
    have h6 : optWords f.options SOpt.arity (before.flatMap (GItem.words f) ++ withSuffix f b (k :: vals) ++ after.flatMap (GItem.words f)) =
        some (lead', later', before.filterMap GItem.occ ++ (o, vals) :: after.filterMap GItem.occ) := by
      rw [List.append_assoc]
      exact h4
    unfold graphCommand
    rw [find_sfam]
    simp only [h6]
    have : ((before.filterMap GItem.occ ++ (o, vals) :: after.filterMap GItem.occ).any fun o => !o.1.accepts genv o.2) = true := by
      rw [List.any_eq_true]
      exact ⟨(o, vals), by simp, by simp [k4]⟩
    simp only [this, if_true, ite_self]

/-- **C97** (help)  With `-h` or `--help` among the words of the sub-command no formula is printed, wherever it stands. -/
theorem C97_help (env : CmdEnv) {genv : GraphEnv} (hg : env.other = graphCommand genv) {gen : List GOpt} (h : GenOk gen) {f : SFam} {before after : List GItem}
    (hi : ∀ x ∈ before ++ after, x.Ok genv f) {w : Str} (hw : w = "-h".toList ∨ w = "--help".toList) (ts : List (List Str)) (ht : ∀ t ∈ ts, "-T".toList ∉ t) :
    cnfgenMain env (cmdLine (gen.flatMap GOpt.words ++ f.word :: (before.flatMap (GItem.words f) ++ w :: after.flatMap (GItem.words f))) ts) = pure none := by
  obtain ⟨long, k1⟩ : ∃ long, classify f.options w = .opt (.flag .help) long none := by
    rcases hw with rfl | rfl <;> cases f <;> exact ⟨_, rfl⟩
  have k2 : Clear w ∧ w ≠ "-T".toList := by rcases hw with rfl | rfl <;> (unfold Clear; decide)
  rw [sfam_word]
  refine line_refused env h ?_ ?_ ts ht
  · intro v hm
    rcases List.mem_append.1 hm with hm | hm
    · obtain ⟨x, hx, hw⟩ := List.mem_flatMap.1 hm
      exact clear_gitem (hi x (by simp [hx])) v hw
    · rcases List.mem_cons.1 hm with rfl | hm
      · exact k2
      · obtain ⟨x, hx, hw⟩ := List.mem_flatMap.1 hm
        exact clear_gitem (hi x (by simp [hx])) v hw
  · rw [hg]
    obtain ⟨lead, later, h1, h2⟩ := optWords_items f after fun x hx => hi x (by simp [hx])
    have h3 := optWords_opt (vals := []) k1 (fun v hv => by simp at hv) rfl h1
    obtain ⟨lead', later', h4, h5⟩ := optWords_items_app f before (fun x hx => hi x (by simp [hx])) h3
    unfold graphCommand
    rw [find_sfam]
    have : Flag.help ∈ (before.filterMap GItem.occ ++ (SOpt.flag .help, []) :: after.filterMap GItem.occ).filterMap SOpt.flagOf := by
      rw [List.mem_filterMap]
      exact ⟨(.flag .help, []), by simp, rfl⟩
    rw [List.nil_append] at h4
    simp only [h4, this, true_or, if_true]

/-! ### Examples -/

/-- A machine where `0.5` is the only decimal number, a text on the standard input, and no luck. -/
def exGraphEnv : GraphEnv :=
  ⟨fun s => if s = "0.5".toList then some (.fin (1/2)) else none, false, "2\n1 : 2 : 0\n2 : 1 : 0\n".toList,
   fun _ _ _ _ => ⟨{ directed := false, nodes := intsBelow 4, edges := [(0, 1), (2, 3)] }, [0, 2], [], [], fun _ => (0, 0)⟩, fun _ _ _ => true, fun _ => 3, fun _ _ _ => none⟩

/-- `cnfgen -q kcolor --gnp 4 0.5 3 --plantclique 2`. -/
def exGraphLine : GRequest := ⟨[.quiet false], .kcolor, [.source false (.gnp 4 "0.5".toList), .number 3, .plantclique false 2]⟩

def exGraphArgs : GraphArgs :=
  { source := .gnp 4 { directed := false, nodes := intsBelow 4, edges := [(0, 1), (2, 3)] }, plantclique := some 2, clique := [0, 2] }

example : exGraphLine.words = ["-q", "kcolor", "--gnp", "4", "0.5", "3", "--plantclique", "2"].map String.toList := by decide

theorem exGraphLine_ok : exGraphLine.Ok exGraphEnv ∧ exGraphLine.Asks exGraphEnv (.kcolor 3 exGraphArgs) := by
  refine ⟨⟨⟨?_, ?_⟩, ?_⟩, exGraphArgs, ⟨?_, ?_, rfl, rfl, rfl, rfl, rfl, ?_⟩, rfl⟩
  · intro a b h1 h2
    simp [exGraphLine] at h2
  · intro a s h1
    simp [exGraphLine] at h1
  · intro x hx
    simp only [exGraphLine, List.mem_cons, List.not_mem_nil, or_false] at hx
    rcases hx with rfl | rfl | rfl
    · refine ⟨by simp, by decide, ⟨.fin (1/2), rfl, ?_⟩, by decide⟩
      unfold PyFloat.Unit
      norm_num
    · trivial
    · exact ⟨by simp, by decide⟩
  · intro s hs t ht
    have : exGraphLine.sources false = [.gnp 4 "0.5".toList] := rfl
    rw [this, List.mem_singleton] at hs ht
    rw [hs, ht]
    trivial
  · rfl
  · rfl

example : (ICmd.kcolor 3 exGraphArgs).floor.Legal := by
  refine ⟨?_, ?_, ?_⟩
  · refine ⟨rfl, List.Perm.refl _, ?_, ?_, fun _ => rfl⟩
    · simp [EdgesDistinct]
    · intro e he
      revert e
      decide
  · intro k hk h1 G hG hk2
    obtain rfl := (Option.some.inj hk).symm
    obtain rfl := (M.pure_inj _ _).1 hG
    exact ⟨by decide, rfl, by decide⟩
  · intro k hk
    simp [exGraphArgs] at hk

/-- `cnfgen kcolor 3 --complete 0`, `cnfgen kcolor 3 --gnd 4 x`, `cnfgen kcolor 3 -i graph.gml`. -/
example : BadValue exGraphEnv (["--complete", "0"].map String.toList) ∧ BadValue exGraphEnv (["--gnd", "4", "x"].map String.toList) ∧
    BadValue exGraphEnv (["-i", "graph.gml"].map String.toList) := by
  refine ⟨.one _ _ (by decide) ?_, .two _ _ _ (by decide) ?_, .input false _ (by decide)⟩
  · rintro n ⟨h1, h2⟩
    have : parseInt "0".toList = some 0 := by decide
    rw [this] at h1
    have := Option.some.inj h1
    omega
  · rintro ⟨n, m, _, h2, _⟩
    have : parseInt "x".toList = none := by decide
    rw [this] at h2
    simp at h2

/-- `giso`, with the numbers of both graphs; and what is refused: two ways to give the graph, a missing graph, a missing number, the number after `--grid`, an ambiguous abbreviation. -/
example : (graphCommand exGraphEnv none "giso".toList (["--complete1", "3", "--empty2", "3"].map String.toList)).isSome = true := by decide
example : (graphCommand exGraphEnv none "giso".toList (["--complete1", "3", "-i2", "-", "-gf2=kthlist"].map String.toList)).isSome = true := by decide
example : (graphCommand exGraphEnv none "kcolor".toList (["3", "--complete", "4", "--empty", "4"].map String.toList)).isNone = true := by decide
example : (graphCommand exGraphEnv none "giso".toList (["--complete1", "3"].map String.toList)).isNone = true := by decide
example : (graphCommand exGraphEnv none "kcolor".toList (["--complete", "4"].map String.toList)).isNone = true := by decide
example : (graphCommand exGraphEnv none "kcolor".toList (["--grid", "2", "2", "3"].map String.toList)).isNone = true := by decide
example : (graphCommand exGraphEnv none "kcolor".toList (["--gn", "4", "2", "3"].map String.toList)).isNone = true := by decide
example : (graphCommand exGraphEnv none "kcolor".toList (["--comp=4", "3"].map String.toList)).isSome = true := by decide

end NDP.Cnfgen
