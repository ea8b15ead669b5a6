import Verif.Cnfgen.BipCommand
/-
  C98: every documented command line of a family over bipartite or directed acyclic graphs is understood as documented, and leads to the formula; the others are refused.
-/
namespace NDP.Cnfgen
open NDP

/-! ### Specification: documented command lines -/

/-- How a bipartite graph is given: on the standard input, or by a construction. -/
inductive BSource where
  | stdin (long : Bool) | bp (l r : Nat) (p : Str) | bm (l r m : Nat) | bd (l r d : Nat) | bregular (l r d : Nat) | bshift (N K : Nat) (pattern : List Nat) | bcomplete (l r : Nat)

/-- What stands after the name of the family, in any order. -/
inductive BItem where
  | number (i : Int) | functional | onto | equal (long : Bool) | source (s : BSource) | plantbiclique (l r : Nat) | addedges (k : Nat) | kthlist (long : Bool)
  | tree (h : Nat) | pyramid (h : Nat)

/-- The options of the bipartite graph of `stonesparse` end in `_mapping`. -/
def BFam.suffix : BFam → Str
  | .stonesparse => "_mapping".toList
  | _ => []

def BSource.words (sfx : Str) : BSource → List Str
  | .stdin l => [(if l then "--input".toList else "-i".toList) ++ sfx, "-".toList]
  | .bp l r p => ["--bp".toList ++ sfx, num l, num r, p]
  | .bm l r m => ["--bm".toList ++ sfx, num l, num r, num m]
  | .bd l r d => ["--bd".toList ++ sfx, num l, num r, num d]
  | .bregular l r d => ["--bregular".toList ++ sfx, num l, num r, num d]
  | .bshift N K q => ("--bshift".toList ++ sfx) :: num N :: num K :: q.map num
  | .bcomplete l r => ["--bcomplete".toList ++ sfx, num l, num r]

def BItem.words (f : BFam) : BItem → List Str
  | .number i => [intStr i]
  | .functional => ["--functional".toList]
  | .onto => ["--onto".toList]
  | .equal l => [if l then "--equal".toList else "-e".toList]
  | .source s => s.words f.suffix
  | .plantbiclique l r => ["--plantbiclique".toList ++ f.suffix, num l, num r]
  | .addedges k => ["--addedges".toList ++ f.suffix, num k]
  | .kthlist l => [(if l then "--graphformat".toList else "-gf".toList) ++ f.suffix, "kthlist".toList]
  | .tree h => ["--tree".toList, num h]
  | .pyramid h => ["--pyramid".toList, num h]

/-- The documented name of a family. -/
def BFam.word : BFam → Str
  | .gphp => "gphp".toList
  | .subsetcard => "subsetcard".toList
  | .stonesparse => "stonesparse".toList
  | .peb => "peb".toList
  | .stone => "stone".toList

structure BRequest where
  gen : List GOpt
  fam : BFam
  items : List BItem

/-- The words after the name of the family, and all words. -/
def BRequest.tail (r : BRequest) : List Str := r.items.flatMap (BItem.words r.fam)
def BRequest.words (r : BRequest) : List Str := r.gen.flatMap GOpt.words ++ r.fam.word :: r.tail

def BRequest.numbers (r : BRequest) : List Int := r.items.filterMap fun | .number i => some i | _ => none
def BRequest.sources (r : BRequest) : List BSource := r.items.filterMap fun | .source s => some s | _ => none
def BRequest.plants (r : BRequest) : List (Nat × Nat) := r.items.filterMap fun | .plantbiclique l r => some (l, r) | _ => none
def BRequest.adds (r : BRequest) : List Nat := r.items.filterMap fun | .addedges k => some k | _ => none
def BRequest.dags (r : BRequest) : List DagSource := r.items.filterMap fun | .tree h => some (.tree h) | .pyramid h => some (.pyramid h) | _ => none
def BRequest.hasFormat (r : BRequest) : Prop := ∃ l, BItem.kthlist l ∈ r.items

/-- The numbers are positive and in the ranges that are documented; a probability is one, and does not look like an option; the pattern of `--bshift` has no repetitions. -/
def BSource.Ok (env : BipEnv) : BSource → Prop
  | .stdin _ => True
  | .bp l r p => 0 < l ∧ 0 < r ∧ (∃ x, env.flt p = some x ∧ x.Unit) ∧ p.head? ≠ some '-'
  | .bm l r m => 0 < l ∧ 0 < r ∧ 0 < m ∧ m ≤ l * r
  | .bd l r d => 0 < l ∧ 0 < r ∧ 0 < d ∧ d ≤ r
  | .bregular l r d => 0 < l ∧ 0 < r ∧ 0 < d ∧ d ≤ r ∧ r ∣ l * d
  | .bshift N K q => 0 < N ∧ 0 < K ∧ q.Nodup ∧ ∀ x ∈ q, 1 ≤ x ∧ x ≤ K
  | .bcomplete l r => 0 < l ∧ 0 < r

/-- The options belong to the family. -/
def BItem.Ok (env : BipEnv) (f : BFam) : BItem → Prop
  | .number _ => f = .peb ∨ f = .stone
  | .functional => f = .gphp
  | .onto => f = .gphp
  | .equal _ => f = .subsetcard
  | .source s => f ∈ [BFam.gphp, .subsetcard, .stonesparse] ∧ s.Ok env
  | .plantbiclique l r => f ∈ [BFam.gphp, .subsetcard, .stonesparse] ∧ 0 < l ∧ 0 < r
  | .addedges k => f ∈ [BFam.gphp, .subsetcard, .stonesparse] ∧ 0 < k
  | .kthlist _ => f ∈ [BFam.gphp, .subsetcard, .stonesparse]
  | .tree h => f ∈ [BFam.stonesparse, .peb, .stone] ∧ 0 < h
  | .pyramid h => f ∈ [BFam.stonesparse, .peb, .stone] ∧ 0 < h

structure BRequest.Ok (env : BipEnv) (r : BRequest) : Prop where
  gen : GenOk r.gen
  items : ∀ x ∈ r.items, x.Ok env r.fam

/-- The same way to give a graph. -/
def BSource.Same : BSource → BSource → Prop
  | .stdin _, .stdin _ => True
  | .bp _ _ _, .bp _ _ _ => True
  | .bm _ _ _, .bm _ _ _ => True
  | .bd _ _ _, .bd _ _ _ => True
  | .bregular _ _ _, .bregular _ _ _ => True
  | .bshift _ _ _, .bshift _ _ _ => True
  | .bcomplete _ _, .bcomplete _ _ => True
  | _, _ => False

def BRequest.choices (env : BipEnv) (r : BRequest) : BChoices := env.choices (genSeed r.gen) r.fam r.tail

/-- The bipartite graph that is asked for: there is at most one way to give it, the last numbers count, the order of the pattern does not; otherwise it is on the standard input, in the
format said. -/
structure BRequest.GraphIs (env : BipEnv) (r : BRequest) (a : BipArgs) : Prop where
  one : ∀ s ∈ r.sources, ∀ t ∈ r.sources, s.Same t
  source : match r.sources.getLast? with
    | some (.bp l k _) => a.source = .bp l k (r.choices env).graph
    | some (.bm l k m) => a.source = .bm l k m (r.choices env).graph
    | some (.bd l k d) => a.source = .bd l k d (r.choices env).smp
    | some (.bregular l k d) => a.source = .bregular l k d (r.choices env).pick (r.choices env).depth
    | some (.bshift N K q) => ∃ q', q'.Perm q ∧ q'.Pairwise (· < ·) ∧ a.source = .bshift N K q'
    | some (.bcomplete l k) => a.source = .bcomplete l k
    | _ => r.hasFormat ∧ a.source = .kthlist env.stdin
  plantbiclique : a.plantbiclique = r.plants.getLast?
  addedges : a.addedges = r.adds.getLast?
  left : a.left = (r.choices env).left
  right : a.right = (r.choices env).right
  ord : a.ord = (r.choices env).ord
  pos : a.pos = (r.choices env).pos
  draw : a.draw = (r.choices env).draw

/-- The directed graph that is asked for: a tree or a pyramid, not both; the last height counts. -/
def BRequest.DagIs (r : BRequest) (d : DagSource) : Prop :=
  r.dags.getLast? = some d ∧ ¬ ((∃ h, DagSource.tree h ∈ r.dags) ∧ ∃ h, DagSource.pyramid h ∈ r.dags)

/-- The formula that is asked for. -/
def BRequest.Asks (env : BipEnv) (r : BRequest) (c : ICmd ⊕ BipCmd) : Prop :=
  match r.fam, r.numbers with
  | .gphp, _ => ∃ a f o, r.GraphIs env a ∧ (f = true ↔ BItem.functional ∈ r.items) ∧ (o = true ↔ BItem.onto ∈ r.items) ∧ c = .inr (.gphp f o a)
  | .subsetcard, _ => ∃ a e, r.GraphIs env a ∧ (e = true ↔ ∃ l, BItem.equal l ∈ r.items) ∧ c = .inr (.subsetcard e a)
  | .stonesparse, _ => ∃ d a, r.DagIs d ∧ r.GraphIs env a ∧ c = .inr (.stonesparse d a)
  | .peb, [] => ∃ d, r.DagIs d ∧ c = .inl (.other (.peb d))
  | .stone, [s] => ∃ d, r.DagIs d ∧ c = .inl (.other (.stone s d))
  | _, _ => False

/-- An option of a graph with a value that is not documented, in words.  `dag`: of the directed graph. -/
inductive BadB (env : BipEnv) : Bool → List Str → Prop
  | input (dag long : Bool) (f : Str) : f ≠ "-".toList → BadB env dag [if long then "--input".toList else "-i".toList, f]
  | bp (a b c : Str) : (¬ ∃ l r p, IsPos a l ∧ IsPos b r ∧ env.flt c = some p ∧ p.Unit) → BadB env false ["--bp".toList, a, b, c]
  | bm (a b c : Str) : (¬ ∃ l r m, IsPos a l ∧ IsPos b r ∧ IsPos c m ∧ m ≤ l * r) → BadB env false ["--bm".toList, a, b, c]
  | bd (a b c : Str) : (¬ ∃ l r d, IsPos a l ∧ IsPos b r ∧ IsPos c d ∧ d ≤ r) → BadB env false ["--bd".toList, a, b, c]
  | bregular (a b c : Str) : (¬ ∃ l r d, IsPos a l ∧ IsPos b r ∧ IsPos c d ∧ d ≤ r ∧ r ∣ l * d) → BadB env false ["--bregular".toList, a, b, c]
  | bshift (as : List Str) : (¬ ∃ N K ns, ShiftOK as N K ns) → BadB env false ("--bshift".toList :: as)
  | two (k a b : Str) : k ∈ ["--bcomplete".toList, "--plantbiclique".toList] → (¬ ∃ l r, IsPos a l ∧ IsPos b r) → BadB env false [k, a, b]
  | addedges (a : Str) : (∀ n, ¬ IsPos a n) → BadB env false ["--addedges".toList, a]
  | height (k a : Str) : k ∈ ["--tree".toList, "--pyramid".toList] → (∀ n, ¬ IsPos a n) → BadB env true [k, a]
  | format (dag long : Bool) (f : Str) : ¬ Supported env.dot (if dag then .dag else .bipartite) f → BadB env dag [if long then "--graphformat".toList else "-gf".toList, f]

/-- The option with its values, in the family. -/
def withMapping (f : BFam) (dag : Bool) : List Str → List Str
  | k :: vals => (k ++ (if dag then [] else f.suffix)) :: vals
  | [] => []

/-! ### Proofs -/

def BSource.kind : BSource → BKind
  | .stdin _ => .input
  | .bp _ _ _ => .bp
  | .bm _ _ _ => .bm
  | .bd _ _ _ => .bd
  | .bregular _ _ _ => .bregular
  | .bshift _ _ _ => .bshift
  | .bcomplete _ _ => .bcomplete

def BSource.vals : BSource → List Str
  | .stdin _ => ["-".toList]
  | .bp l r p => [num l, num r, p]
  | .bm l r m => [num l, num r, num m]
  | .bd l r m => [num l, num r, num m]
  | .bregular l r m => [num l, num r, num m]
  | .bshift N K q => num N :: num K :: q.map num
  | .bcomplete l r => [num l, num r]

def BItem.occ : BItem → Option (BOpt × List Str)
  | .number _ => none
  | .functional => some (.flag .functional, [])
  | .onto => some (.flag .onto, [])
  | .equal _ => some (.equal, [])
  | .source s => some (.bip s.kind, s.vals)
  | .plantbiclique l r => some (.bip .plantbiclique, [num l, num r])
  | .addedges k => some (.bip .addedges, [num k])
  | .kthlist _ => some (.bip .format, ["kthlist".toList])
  | .tree h => some (.dag .tree, [num h])
  | .pyramid h => some (.dag .pyramid, [num h])

theorem bfam_options_ok (f : BFam) : okNames f.options = true := by cases f <;> decide

theorem bsame_kind (s t : BSource) : s.Same t ↔ s.kind = t.kind := by cases s <;> cases t <;> simp [BSource.Same, BSource.kind]

/-- The words of an item: the option and its values. -/
theorem bitem_words {env : BipEnv} {f : BFam} {x : BItem} (hx : x.Ok env f) :
    (∃ i, x = .number i) ∨ ∃ w o long vals, x.words f = w :: vals ∧ x.occ = some (o, vals) ∧ classify f.options w = .opt o long none ∧ Clear w ∧ w ≠ "-T".toList ∧
      (∀ v ∈ vals, classify f.options v = .arg ∧ Clear v ∧ v ≠ "-T".toList) ∧ (o.arity.fixed = some vals.length ∨ (o.arity = .any ∧ f ≠ .peb ∧ f ≠ .stone)) := by
  have hnum : ∀ n : Nat, classify f.options (num n) = .arg ∧ Clear (num n) ∧ num n ≠ "-T".toList :=
    fun n => ⟨classify_int (bfam_options_ok f) _, clear_num n, num_noT n⟩
  have hnums : ∀ ns : List Nat, ∀ v ∈ ns.map num, classify f.options v = .arg ∧ Clear v ∧ v ≠ "-T".toList := by
    intro ns v hv
    obtain ⟨n, _, rfl⟩ := List.mem_map.1 hv
    exact hnum n
  have hdash : classify f.options "-".toList = .arg ∧ Clear "-".toList ∧ "-".toList ≠ "-T".toList := by
    refine ⟨by cases f <;> decide, ?_, by decide⟩
    unfold Clear; decide
  have hplain : ∀ s : Str, s.head? ≠ some '-' → classify f.options s = .arg ∧ Clear s ∧ s ≠ "-T".toList := fun s h => ⟨classify_plain _ h, clear_plain h, plain_noT h⟩
  cases x with
  | number i => exact .inl ⟨i, rfl⟩
  | functional => obtain rfl := hx; exact .inr ⟨_, _, true, [], rfl, rfl, by decide, by unfold Clear; decide, by decide, by simp, .inl rfl⟩
  | onto => obtain rfl := hx; exact .inr ⟨_, _, true, [], rfl, rfl, by decide, by unfold Clear; decide, by decide, by simp, .inl rfl⟩
  | equal l =>
    obtain rfl := hx
    cases l
    · exact .inr ⟨_, _, false, [], rfl, rfl, by decide, by unfold Clear; decide, by decide, by simp, .inl rfl⟩
    · exact .inr ⟨_, _, true, [], rfl, rfl, by decide, by unfold Clear; decide, by decide, by simp, .inl rfl⟩
  | plantbiclique l r =>
    obtain ⟨hf, _⟩ := hx
    simp only [List.mem_cons, List.not_mem_nil, or_false] at hf
    refine .inr ⟨_, _, true, [num l, num r], rfl, rfl, ?_, ?_, ?_, hnums [l, r], .inl rfl⟩
    · rcases hf with rfl | rfl | rfl <;> decide
    · rcases hf with rfl | rfl | rfl <;> (unfold Clear; decide)
    · rcases hf with rfl | rfl | rfl <;> decide
  | addedges k =>
    obtain ⟨hf, _⟩ := hx
    simp only [List.mem_cons, List.not_mem_nil, or_false] at hf
    refine .inr ⟨_, _, true, [num k], rfl, rfl, ?_, ?_, ?_, hnums [k], .inl rfl⟩
    · rcases hf with rfl | rfl | rfl <;> decide
    · rcases hf with rfl | rfl | rfl <;> (unfold Clear; decide)
    · rcases hf with rfl | rfl | rfl <;> decide
  | kthlist l =>
    have hf : f ∈ [BFam.gphp, .subsetcard, .stonesparse] := hx
    simp only [List.mem_cons, List.not_mem_nil, or_false] at hf
    refine .inr ⟨_, _, l, ["kthlist".toList], rfl, rfl, ?_, ?_, ?_, ?_, .inl rfl⟩
    · rcases hf with rfl | rfl | rfl <;> cases l <;> decide
    · rcases hf with rfl | rfl | rfl <;> cases l <;> (unfold Clear; decide)
    · rcases hf with rfl | rfl | rfl <;> cases l <;> decide
    · intro v hv
      obtain rfl := List.mem_singleton.1 hv
      exact hplain _ (by decide)
  | tree k =>
    obtain ⟨hf, _⟩ := hx
    simp only [List.mem_cons, List.not_mem_nil, or_false] at hf
    refine .inr ⟨_, _, true, [num k], rfl, rfl, ?_, by unfold Clear; decide, by decide, hnums [k], .inl rfl⟩
    rcases hf with rfl | rfl | rfl <;> decide
  | pyramid k =>
    obtain ⟨hf, _⟩ := hx
    simp only [List.mem_cons, List.not_mem_nil, or_false] at hf
    refine .inr ⟨_, _, true, [num k], rfl, rfl, ?_, by unfold Clear; decide, by decide, hnums [k], .inl rfl⟩
    rcases hf with rfl | rfl | rfl <;> decide
  | source s =>
    obtain ⟨hf, hs⟩ := hx
    simp only [List.mem_cons, List.not_mem_nil, or_false] at hf
    have hpeb : f ≠ .peb ∧ f ≠ .stone := by rcases hf with rfl | rfl | rfl <;> decide
    cases s with
    | stdin l =>
      refine .inr ⟨_, _, l, ["-".toList], rfl, rfl, ?_, ?_, ?_, ?_, .inl rfl⟩
      · rcases hf with rfl | rfl | rfl <;> cases l <;> decide
      · rcases hf with rfl | rfl | rfl <;> cases l <;> (unfold Clear; decide)
      · rcases hf with rfl | rfl | rfl <;> cases l <;> decide
      · intro v hv
        obtain rfl := List.mem_singleton.1 hv
        exact hdash
    | bp l r p =>
      refine .inr ⟨_, _, true, [num l, num r, p], rfl, rfl, ?_, ?_, ?_, ?_, .inl rfl⟩
      · simp only [BSource.kind]
        rcases hf with rfl | rfl | rfl <;> decide
      · rcases hf with rfl | rfl | rfl <;> (unfold Clear; decide)
      · rcases hf with rfl | rfl | rfl <;> decide
      · intro v hv
        simp only [List.mem_cons, List.not_mem_nil, or_false] at hv
        rcases hv with rfl | rfl | rfl
        · exact hnum _
        · exact hnum _
        · exact hplain _ hs.2.2.2
    | bshift N K q =>
      refine .inr ⟨_, _, true, num N :: num K :: q.map num, rfl, rfl, ?_, ?_, ?_, ?_, .inr ⟨rfl, hpeb⟩⟩
      · simp only [BSource.kind]
        rcases hf with rfl | rfl | rfl <;> decide
      · rcases hf with rfl | rfl | rfl <;> (unfold Clear; decide)
      · rcases hf with rfl | rfl | rfl <;> decide
      · intro v hv
        simp only [List.mem_cons, List.mem_map] at hv
        rcases hv with rfl | rfl | ⟨n, _, rfl⟩
        · exact hnum _
        · exact hnum _
        · exact hnum _
    | bcomplete l r =>
      refine .inr ⟨_, _, true, [num l, num r], rfl, rfl, ?_, ?_, ?_, hnums [l, r], .inl rfl⟩
      · simp only [BSource.kind]
        rcases hf with rfl | rfl | rfl <;> decide
      · rcases hf with rfl | rfl | rfl <;> (unfold Clear; decide)
      · rcases hf with rfl | rfl | rfl <;> decide
    | bm l r m | bd l r m | bregular l r m =>
      refine .inr ⟨_, _, true, [num l, num r, num m], rfl, rfl, ?_, ?_, ?_, hnums [l, r, m], .inl rfl⟩
      · simp only [BSource.kind]
        rcases hf with rfl | rfl | rfl <;> decide
      · rcases hf with rfl | rfl | rfl <;> (unfold Clear; decide)
      · rcases hf with rfl | rfl | rfl <;> decide

/-- An option that takes all words up to the next option. -/
theorem optWords_any {α : Type} {os : List (Str × α)} {arity : α → Arity} {w : Str} {o : α} {long : Bool} (hw : classify os w = .opt o long none) {vals : List Str}
    (hv : ∀ v ∈ vals, classify os v = .arg) (hl : arity o = .any) {ws : List Str} {lead later : List Str} {occ : List (α × List Str)}
    (h : optWords os arity ws = some (lead, later, occ)) :
    optWords os arity (w :: (vals ++ ws)) = some ([], later, (o, vals ++ lead) :: occ) := by
  rw [optWords, optWords_vals hv h]
  simp only [hw, optExpand, List.getLast?_singleton, List.dropLast_singleton, List.map_nil, List.nil_append]
  rw [hl]
  rfl

def bnumbers (items : List BItem) : List Int := items.filterMap fun | .number i => some i | _ => none

theorem bnumbers_nil {env : BipEnv} {f : BFam} {items : List BItem} (h : ∀ x ∈ items, x.Ok env f) (hf : f ≠ .peb ∧ f ≠ .stone) : bnumbers items = [] := by
  by_contra hs
  obtain ⟨s, hs⟩ := List.exists_mem_of_ne_nil _ hs
  obtain ⟨x, hx, e⟩ := List.mem_filterMap.1 hs
  cases x <;> simp at e
  rcases h _ hx with e | e
  · exact hf.1 e
  · exact hf.2 e

/-- All words of the items are understood, whatever is understood after them. -/
theorem optWords_bitems_app {env : BipEnv} (f : BFam) (items : List BItem) (h : ∀ x ∈ items, x.Ok env f) {post : List Str} {lead0 later0 : List Str}
    {occ0 : List (BOpt × List Str)} (h0 : optWords f.options BOpt.arity post = some (lead0, later0, occ0)) (hz : f ≠ .peb ∧ f ≠ .stone → lead0 ++ later0 = []) :
    ∃ lead later, optWords f.options BOpt.arity (items.flatMap (BItem.words f) ++ post) = some (lead, later, items.filterMap BItem.occ ++ occ0) ∧
      lead ++ later = (bnumbers items).map intStr ++ (lead0 ++ later0) := by
  induction items with
  | nil => exact ⟨lead0, later0, h0, rfl⟩
  | cons x items ih =>
    obtain ⟨lead, later, h1, h2⟩ := ih fun y hy => h y (by simp [hy])
    rw [List.flatMap_cons, List.append_assoc]
    rcases bitem_words (h x (by simp)) with ⟨i, rfl⟩ | ⟨w, o, long, vals, e1, e2, e3, _, _, e4, e5⟩
    · refine ⟨intStr i :: lead, later, ?_, ?_⟩
      · rw [show (BItem.number i).words f = [intStr i] from rfl, List.cons_append, List.nil_append, optWords, h1]
        simp only [classify_int (bfam_options_ok f)]
        rfl
      · simp only [bnumbers, List.filterMap_cons, List.map_cons, List.cons_append, h2]
    · have hn : bnumbers (x :: items) = bnumbers items := by
        cases x with
        | number i => simp [BItem.occ] at e2
        | _ => rfl
      rw [hn, e1, List.cons_append, List.filterMap_cons, e2]
      rcases e5 with e5 | ⟨e5, hf⟩
      · exact ⟨[], lead ++ later, optWords_opt e3 (fun v hv => (e4 v hv).1) e5 h1, h2⟩
      · have h3 := bnumbers_nil (items := items) (fun y hy => h y (by simp [hy])) hf
        rw [h3, hz hf] at h2
        obtain ⟨rfl, rfl⟩ := List.append_eq_nil_iff.1 h2
        refine ⟨[], [], ?_, by rw [h3, hz hf]; rfl⟩
        rw [optWords_any e3 (fun v hv => (e4 v hv).1) e5 h1, List.append_nil]
        rfl

theorem optWords_bitems {env : BipEnv} (f : BFam) (items : List BItem) (h : ∀ x ∈ items, x.Ok env f) :
    ∃ lead later, optWords f.options BOpt.arity (items.flatMap (BItem.words f)) = some (lead, later, items.filterMap BItem.occ) ∧
      lead ++ later = (bnumbers items).map intStr := by
  obtain ⟨lead, later, h1, h2⟩ := optWords_bitems_app f items h (post := []) (lead0 := []) (later0 := []) (occ0 := []) rfl fun _ => rfl
  exact ⟨lead, later, by simpa using h1, by simpa using h2⟩

def BRequest.occ (r : BRequest) : List (BOpt × List Str) := r.items.filterMap BItem.occ

/-! The values of the options, from the items. -/

theorem bvalues_plants (r : BRequest) : valuesOf r.occ (.bip .plantbiclique) = r.plants.map fun p => [num p.1, num p.2] := by
  refine values_items _ _ _ _ _ fun x => ?_
  cases x with
  | source s => cases s <;> simp [BItem.occ, BSource.kind]
  | _ => simp [BItem.occ]

theorem bvalues_adds (r : BRequest) : valuesOf r.occ (.bip .addedges) = r.adds.map fun k => [num k] := by
  refine values_items _ _ _ _ _ fun x => ?_
  cases x with
  | source s => cases s <;> simp [BItem.occ, BSource.kind]
  | _ => simp [BItem.occ]

theorem bvalues_equal (r : BRequest) : valuesOf r.occ .equal ≠ [] ↔ ∃ l, BItem.equal l ∈ r.items := by
  have : valuesOf r.occ .equal = (r.items.filterMap fun | .equal l => some l | _ => none).map fun _ => [] := by
    refine values_items _ _ _ _ _ fun x => ?_
    cases x <;> simp [BItem.occ]
  rw [this]
  constructor
  · intro h
    obtain ⟨x, hx⟩ := List.exists_mem_of_ne_nil _ h
    obtain ⟨l, hl, _⟩ := List.mem_map.1 hx
    obtain ⟨y, hy, e⟩ := List.mem_filterMap.1 hl
    cases y <;> simp at e
    exact ⟨_, hy⟩
  · rintro ⟨l, hl⟩ h
    have : l ∈ (r.items.filterMap fun | .equal l => some l | _ => none) := List.mem_filterMap.2 ⟨_, hl, rfl⟩
    rw [List.map_eq_nil_iff] at h
    rw [h] at this
    simp at this

theorem bvalues_format (r : BRequest) : lastValue r.occ (.bip .format) = none ∧ ¬ r.hasFormat ∨ (∃ v, lastValue r.occ (.bip .format) = some v) ∧ r.hasFormat := by
  have : valuesOf r.occ (.bip .format) = (r.items.filterMap fun | .kthlist l => some l | _ => none).map fun _ => ["kthlist".toList] := by
    refine values_items _ _ _ _ _ fun x => ?_
    cases x with
    | source s => cases s <;> simp [BItem.occ, BSource.kind]
    | _ => simp [BItem.occ]
  have hm : ∀ l, l ∈ (r.items.filterMap fun | .kthlist l => some l | _ => none) ↔ BItem.kthlist l ∈ r.items := by
    intro l
    rw [List.mem_filterMap]
    constructor
    · rintro ⟨y, hy, e⟩
      cases y <;> simp at e
      subst e
      exact hy
    · intro h
      exact ⟨_, h, rfl⟩
  unfold lastValue
  rw [this]
  generalize (r.items.filterMap fun | .kthlist l => some l | _ => none) = ls at hm
  rcases List.eq_nil_or_concat ls with rfl | ⟨ls, l, rfl⟩
  · left
    refine ⟨rfl, ?_⟩
    rintro ⟨l, hl⟩
    exact absurd ((hm l).2 hl) (by simp)
  · right
    exact ⟨⟨["kthlist".toList], by simp⟩, l, (hm l).1 (by simp)⟩

theorem bvalues_dagformat (r : BRequest) : valuesOf r.occ (.dag .format) = [] := by
  unfold valuesOf BRequest.occ
  rw [List.map_eq_nil_iff, List.filter_eq_nil_iff]
  intro o ho
  obtain ⟨x, _, e⟩ := List.mem_filterMap.1 ho
  cases x <;> simp [BItem.occ] at e <;> subst e <;> simp

theorem bvalues_source (r : BRequest) (k : BKind) (hk : k ∈ bipKinds) : valuesOf r.occ (.bip k) = (r.sources.filter fun s => decide (s.kind = k)).map BSource.vals := by
  have h1 : r.sources.filter (fun s => decide (s.kind = k)) = r.items.filterMap fun | .source s => if s.kind = k then some s else none | _ => none := by
    unfold BRequest.sources
    rw [← List.filterMap_eq_filter, List.filterMap_filterMap]
    congr 1
    funext x
    cases x with
    | source s => by_cases h2 : s.kind = k <;> simp [h2, Option.guard]
    | _ => rfl
  rw [h1]
  refine values_items _ _ _ _ _ fun x => ?_
  have hne : k ≠ .plantbiclique ∧ k ≠ .addedges ∧ k ≠ .format := by
    revert hk; cases k <;> decide
  cases x with
  | source s => by_cases h2 : s.kind = k <;> simp [BItem.occ, h2]
  | plantbiclique l n => simp [BItem.occ, hne.1.symm]
  | addedges n => simp [BItem.occ, hne.2.1.symm]
  | kthlist n => simp [BItem.occ, hne.2.2.symm]
  | _ => simp [BItem.occ]

theorem bkind_mem (s : BSource) : s.kind ∈ bipKinds := by cases s <;> simp [BSource.kind, bipKinds]

theorem mem_givenBip (r : BRequest) (k : BKind) : k ∈ givenBip r.occ ↔ ∃ s ∈ r.sources, s.kind = k := by
  unfold givenBip
  rw [List.mem_filter]
  constructor
  · rintro ⟨h1, h2⟩
    rw [bvalues_source r k h1] at h2
    obtain ⟨x, hx⟩ := List.exists_mem_of_ne_nil _ (of_decide_eq_true h2)
    obtain ⟨s, hs, _⟩ := List.mem_map.1 hx
    obtain ⟨h3, h4⟩ := List.mem_filter.1 hs
    exact ⟨s, h3, of_decide_eq_true h4⟩
  · rintro ⟨s, hs, rfl⟩
    refine ⟨bkind_mem s, decide_eq_true ?_⟩
    rw [bvalues_source r _ (bkind_mem s)]
    intro h
    have : s ∈ r.sources.filter fun t => decide (t.kind = s.kind) := List.mem_filter.2 ⟨hs, by simp⟩
    rw [List.map_eq_nil_iff.1 h] at this
    simp at this

/-- At most one member of a list without repetitions. -/
theorem one_member {A : Type} {l : List A} (hn : l.Nodup) : ¬ 1 < l.length ↔ ∀ a ∈ l, ∀ b ∈ l, a = b := by
  match l, hn with
  | [], _ => simp
  | [x], _ => simp
  | x :: y :: t, hn =>
    simp only [List.length_cons, Nat.lt_add_left_iff_pos, Nat.zero_lt_succ, not_true_eq_false, false_iff]
    intro h
    have := h x (by simp) y (by simp)
    simp [this] at hn

theorem givenBip_one (r : BRequest) : ¬ 1 < (givenBip r.occ).length ↔ ∀ s ∈ r.sources, ∀ t ∈ r.sources, s.Same t := by
  rw [one_member (show (givenBip r.occ).Nodup from List.Nodup.filter _ (by decide))]
  constructor
  · intro h s hs t ht
    rw [bsame_kind]
    exact h _ ((mem_givenBip r _).2 ⟨s, hs, rfl⟩) _ ((mem_givenBip r _).2 ⟨t, ht, rfl⟩)
  · intro h k hk l hl
    obtain ⟨s, hs, rfl⟩ := (mem_givenBip r k).1 hk
    obtain ⟨t, ht, rfl⟩ := (mem_givenBip r l).1 hl
    exact (bsame_kind s t).1 (h s hs t ht)

theorem last_bsource {r : BRequest} (h : ∀ s ∈ r.sources, ∀ t ∈ r.sources, s.Same t) (k : BKind) (hk : k ∈ bipKinds) :
    lastValue r.occ (.bip k) = match r.sources.getLast? with | some s => if s.kind = k then some s.vals else none | none => none := by
  unfold lastValue
  rw [bvalues_source r k hk]
  rcases List.eq_nil_or_concat r.sources with e | ⟨ls, s, e⟩
  · rw [e]; rfl
  · rw [List.concat_eq_append] at e
    rw [e, List.getLast?_concat]
    simp only
    by_cases hs : s.kind = k
    · rw [if_pos hs, List.filter_append, List.filter_cons_of_pos (by simpa using hs)]
      simp
    · rw [if_neg hs, List.filter_eq_nil_iff.2]
      · rfl
      · intro t ht
        rw [← e] at ht
        have := (bsame_kind t s).1 (h t ht s (by rw [e]; simp))
        simp [this, hs]

theorem isPos_num {n : Nat} (h : 0 < n) : IsPos (num n) n := ⟨parseInt_intStr _, h⟩

theorem arePos_num {ns : List Nat} (h : ∀ n ∈ ns, 0 < n) : ArePos (ns.map num) ns := by
  induction ns with
  | nil => exact .nil
  | cons n ns ih => exact .cons (isPos_num (h n (by simp))) (ih fun x hx => h x (by simp [hx]))

theorem bsource_ok {env : BipEnv} {r : BRequest} (h : r.Ok env) {s : BSource} (hs : s ∈ r.sources) : s.Ok env := by
  obtain ⟨x, hx, e⟩ := List.mem_filterMap.1 hs
  cases x <;> simp at e
  subst e
  exact (h.items _ hx).2

theorem shift_num {N K : Nat} {q : List Nat} (h : 0 < N ∧ 0 < K ∧ q.Nodup ∧ ∀ x ∈ q, 1 ≤ x ∧ x ≤ K) :
    ∃ q', q'.Perm q ∧ q'.Pairwise (· < ·) ∧ optBshift (num N :: num K :: q.map num) = .ok (N, K, q') := by
  obtain ⟨h1, h2, h3, h4⟩ := h
  have hp := isort_perm (fun a b => decide (a < b)) q
  have hs : (isort (fun a b => decide (a < b)) q).Pairwise (· < ·) := by
    refine ((isort_nat_sorted q).and (hp.nodup_iff.2 h3)).imp fun h => ?_
    simp at h
    omega
  refine ⟨_, hp, hs, ((C91_bshift _).1 _ _ _).2 ⟨hs, q, hp, ?_, h3, fun p hp => (h4 p hp).2⟩⟩
  exact arePos_num (ns := N :: K :: q) (by
    intro n hn
    simp only [List.mem_cons] at hn
    rcases hn with rfl | rfl | hn
    · exact h1
    · exact h2
    · exact (h4 n hn).1)

theorem lastPair_of {env : BipEnv} {r : BRequest} (h : r.Ok env) : lastPair r.occ = r.plants.getLast? := by
  have hp : ∀ p ∈ r.plants, 0 < p.1 ∧ 0 < p.2 := by
    intro p hp
    obtain ⟨x, hx, e⟩ := List.mem_filterMap.1 hp
    cases x <;> simp at e
    subst e
    exact (h.items _ hx).2
  unfold lastPair lastValue
  rw [bvalues_plants]
  rcases List.eq_nil_or_concat r.plants with e | ⟨ls, k, e⟩
  · rw [e]; rfl
  · rw [List.concat_eq_append] at e
    rw [e] at hp
    rw [e, List.map_append]
    have := hp k (by simp)
    simp [pos2_num this.1 this.2]

theorem lastAdd_of {env : BipEnv} {r : BRequest} (h : r.Ok env) : lastAdd r.occ = r.adds.getLast? := by
  have hp : ∀ p ∈ r.adds, 0 < p := by
    intro p hp
    obtain ⟨x, hx, e⟩ := List.mem_filterMap.1 hp
    cases x <;> simp at e
    subst e
    exact (h.items _ hx).2
  unfold lastAdd lastValue
  rw [bvalues_adds]
  rcases List.eq_nil_or_concat r.adds with e | ⟨ls, k, e⟩
  · rw [e]; rfl
  · rw [List.concat_eq_append] at e
    rw [e] at hp
    rw [e, List.map_append]
    simp [positive_num (hp k (by simp))]

theorem bipArgs_iff {env : BipEnv} {r : BRequest} (h : r.Ok env) (hone : ∀ s ∈ r.sources, ∀ t ∈ r.sources, s.Same t) (a : BipArgs) :
    bipArgs env (r.choices env) r.occ = some a ↔ r.GraphIs env a := by
  have hl := fun k hk => last_bsource hone k hk
  unfold bipArgs
  rw [Option.map_eq_some_iff]
  have key : ∀ s, bipSource env (r.choices env) r.occ = some s ↔ (match r.sources.getLast? with
    | some (.bp l k _) => s = .bp l k (r.choices env).graph
    | some (.bm l k m) => s = .bm l k m (r.choices env).graph
    | some (.bd l k d) => s = .bd l k d (r.choices env).smp
    | some (.bregular l k d) => s = .bregular l k d (r.choices env).pick (r.choices env).depth
    | some (.bshift N K q) => ∃ q', q'.Perm q ∧ q'.Pairwise (· < ·) ∧ s = .bshift N K q'
    | some (.bcomplete l k) => s = .bcomplete l k
    | _ => r.hasFormat ∧ s = .kthlist env.stdin) := by
    intro s
    unfold bipSource
    rw [hl .bp (by decide), hl .bm (by decide), hl .bd (by decide), hl .bregular (by decide), hl .bshift (by decide), hl .bcomplete (by decide)]
    have hfmt : (match lastValue r.occ (.bip .format) with | some _ => some (BipSource.kthlist env.stdin) | none => none) = some s ↔ r.hasFormat ∧ s = .kthlist env.stdin := by
      rcases bvalues_format r with ⟨h1, h2⟩ | ⟨⟨v, h1⟩, h2⟩
      · rw [h1]; simp [h2]
      · rw [h1]
        simp only [Option.some.injEq, h2, true_and]
        exact eq_comm
    cases e : r.sources.getLast? with
    | none => exact hfmt
    | some t =>
      have ht := bsource_ok h (List.mem_of_getLast? e)
      cases t with
      | stdin l => exact hfmt
      | bp l k p =>
        obtain ⟨h1, h2, ⟨x, h3, h4⟩, _⟩ := ht
        have := ((C91_bp env.flt (num l) (num k) p).1 l k x).2 ⟨isPos_num h1, isPos_num h2, h3, h4⟩
        simp only [BSource.kind, BSource.vals, if_true, this, Parsed.get?, Option.map_some, Option.some.injEq]
        exact eq_comm
      | bm l k m =>
        obtain ⟨h1, h2, h3, h4⟩ := ht
        have := ((C91_bm (num l) (num k) (num m)).1 l k m).2 ⟨isPos_num h1, isPos_num h2, isPos_num h3, h4⟩
        simp only [BSource.kind, BSource.vals, reduceCtorEq, if_false, if_true, this, Parsed.get?, Option.map_some, Option.some.injEq]
        exact eq_comm
      | bd l k m =>
        obtain ⟨h1, h2, h3, h4⟩ := ht
        have := ((C91_bd (num l) (num k) (num m)).1 l k m).2 ⟨isPos_num h1, isPos_num h2, isPos_num h3, h4⟩
        simp only [BSource.kind, BSource.vals, reduceCtorEq, if_false, if_true, this, Parsed.get?, Option.map_some, Option.some.injEq]
        exact eq_comm
      | bregular l k m =>
        obtain ⟨h1, h2, h3, h4⟩ := ht
        have := ((C91_bregular (num l) (num k) (num m)).1 l k m).2 ⟨isPos_num h1, isPos_num h2, isPos_num h3, h4⟩
        simp only [BSource.kind, BSource.vals, reduceCtorEq, if_false, if_true, this, Parsed.get?, Option.map_some, Option.some.injEq]
        exact eq_comm
      | bshift N K q =>
        obtain ⟨q', h1, h2, h3⟩ := shift_num ht
        simp only [BSource.kind, BSource.vals, reduceCtorEq, if_false, if_true, h3, Parsed.get?, Option.map_some, Option.some.injEq]
        constructor
        · rintro rfl
          exact ⟨q', h1, h2, rfl⟩
        · rintro ⟨q'', h4, h5, rfl⟩
          rw [← isort_nat_perm (h4.trans h1.symm) h2, isort_nat_perm (List.Perm.refl _) h5]
      | bcomplete l k =>
        simp only [BSource.kind, BSource.vals, reduceCtorEq, if_false, if_true, pos2_num ht.1 ht.2, Option.map_some, Option.some.injEq]
        exact eq_comm
  constructor
  · rintro ⟨s, hs, rfl⟩
    exact ⟨hone, (key s).1 hs, lastPair_of h, lastAdd_of h, rfl, rfl, rfl, rfl, rfl⟩
  · intro g
    refine ⟨a.source, (key _).2 g.source, ?_⟩
    rw [lastPair_of h, lastAdd_of h, ← g.plantbiclique, ← g.addedges, ← g.left, ← g.right, ← g.ord, ← g.pos, ← g.draw]

/-! The directed graph. -/

def DagSource.kind : DagSource → DKind
  | .tree _ => .tree
  | .pyramid _ => .pyramid

def DagSource.vals : DagSource → List Str
  | .tree h => [num h]
  | .pyramid h => [num h]

theorem bvalues_dag (r : BRequest) (k : DKind) (hk : k ∈ dagKinds) : valuesOf r.occ (.dag k) = (r.dags.filter fun s => decide (s.kind = k)).map DagSource.vals := by
  have h1 : r.dags.filter (fun s => decide (s.kind = k)) = r.items.filterMap fun
      | .tree h => if k = .tree then some (.tree h) else none
      | .pyramid h => if k = .pyramid then some (.pyramid h) else none
      | _ => none := by
    unfold BRequest.dags
    rw [← List.filterMap_eq_filter, List.filterMap_filterMap]
    congr 1
    funext x
    cases x with
    | tree h => by_cases h2 : k = .tree <;> simp [DagSource.kind, h2, Ne.symm, eq_comm, Option.guard]
    | pyramid h => by_cases h2 : k = .pyramid <;> simp [DagSource.kind, h2, Ne.symm, eq_comm, Option.guard]
    | _ => rfl
  rw [h1]
  refine values_items _ _ _ _ _ fun x => ?_
  cases x with
  | tree h => by_cases h2 : k = .tree <;> simp [BItem.occ, DagSource.vals, h2, eq_comm]
  | pyramid h => by_cases h2 : k = .pyramid <;> simp [BItem.occ, DagSource.vals, h2, eq_comm]
  | _ => simp [BItem.occ]

theorem mem_givenDag (r : BRequest) (k : DKind) : k ∈ givenDag r.occ ↔ ∃ s ∈ r.dags, s.kind = k := by
  unfold givenDag
  rw [List.mem_filter]
  constructor
  · rintro ⟨h1, h2⟩
    rw [bvalues_dag r k h1] at h2
    obtain ⟨x, hx⟩ := List.exists_mem_of_ne_nil _ (of_decide_eq_true h2)
    obtain ⟨s, hs, _⟩ := List.mem_map.1 hx
    obtain ⟨h3, h4⟩ := List.mem_filter.1 hs
    exact ⟨s, h3, of_decide_eq_true h4⟩
  · rintro ⟨s, hs, rfl⟩
    have hk : s.kind ∈ dagKinds := by cases s <;> simp [DagSource.kind, dagKinds]
    refine ⟨hk, decide_eq_true ?_⟩
    rw [bvalues_dag r _ hk]
    intro h
    have : s ∈ r.dags.filter fun t => decide (t.kind = s.kind) := List.mem_filter.2 ⟨hs, by simp⟩
    rw [List.map_eq_nil_iff.1 h] at this
    simp at this

theorem givenDag_one (r : BRequest) : ¬ 1 < (givenDag r.occ).length ↔ ¬ ((∃ h, DagSource.tree h ∈ r.dags) ∧ ∃ h, DagSource.pyramid h ∈ r.dags) := by
  rw [one_member (show (givenDag r.occ).Nodup from List.Nodup.filter _ (by decide))]
  constructor
  · rintro h ⟨⟨a, ha⟩, b, hb⟩
    have := h _ ((mem_givenDag r _).2 ⟨_, ha, rfl⟩) _ ((mem_givenDag r _).2 ⟨_, hb, rfl⟩)
    simp [DagSource.kind] at this
  · intro h k hk l hl
    obtain ⟨s, hs, rfl⟩ := (mem_givenDag r k).1 hk
    obtain ⟨t, ht, rfl⟩ := (mem_givenDag r l).1 hl
    cases s with
    | tree a =>
      cases t with
      | tree b => rfl
      | pyramid b => exact absurd ⟨⟨_, hs⟩, _, ht⟩ h
    | pyramid a =>
      cases t with
      | tree b => exact absurd ⟨⟨_, ht⟩, _, hs⟩ h
      | pyramid b => rfl

theorem dag_ok' {env : BipEnv} {r : BRequest} (h : r.Ok env) {d : DagSource} (hd : d ∈ r.dags) : (∃ k, 0 < k ∧ d = .tree k) ∨ ∃ k, 0 < k ∧ d = .pyramid k := by
  obtain ⟨x, hx, e⟩ := List.mem_filterMap.1 hd
  cases x <;> simp at e
  · subst e; exact .inl ⟨_, (h.items _ hx).2, rfl⟩
  · subst e; exact .inr ⟨_, (h.items _ hx).2, rfl⟩

theorem dagSource_last {env : BipEnv} {r : BRequest} (h : r.Ok env) (hone : ¬ ((∃ h, DagSource.tree h ∈ r.dags) ∧ ∃ h, DagSource.pyramid h ∈ r.dags)) :
    dagSource r.occ = r.dags.getLast? := by
  unfold dagSource lastValue
  rw [bvalues_dag r .tree (by decide), bvalues_dag r .pyramid (by decide)]
  have hok := fun d hd => dag_ok' h (d := d) hd
  generalize r.dags = ds at hone hok
  rcases List.eq_nil_or_concat ds with rfl | ⟨ls, d, rfl⟩
  · rfl
  · rw [List.concat_eq_append] at *
    rw [List.getLast?_concat]
    rcases hok d (by simp) with ⟨k, hk, rfl⟩ | ⟨k, hk, rfl⟩
    · rw [List.filter_append, List.filter_cons_of_pos (by rfl)]
      simp [DagSource.vals, positive_num hk]
    · have h1 : (ls ++ [DagSource.pyramid k]).filter (fun s => decide (s.kind = .tree)) = [] := by
        rw [List.filter_eq_nil_iff]
        intro t ht
        cases t with
        | tree n => exact absurd ⟨⟨n, ht⟩, k, by simp⟩ hone
        | pyramid n => simp [DagSource.kind]
      rw [h1, List.filter_append, List.filter_cons_of_pos (by rfl)]
      simp [DagSource.vals, positive_num hk]

/-! The sub-command. -/

theorem find_bfam (f : BFam) : (BFam.all.find? fun g => decide (g.name = f.name)) = some f := by cases f <;> decide

theorem accepts_bitems {env : BipEnv} {r : BRequest} (h : r.Ok env) : (r.occ.any fun o => !o.1.accepts env o.2) = false := by
  rw [List.any_eq_false]
  intro o ho
  obtain ⟨x, hx, e⟩ := List.mem_filterMap.1 ho
  have hx := h.items x hx
  cases x with
  | number i => simp [BItem.occ] at e
  | functional => obtain rfl := (Option.some.inj e).symm; simp [BOpt.accepts]
  | onto => obtain rfl := (Option.some.inj e).symm; simp [BOpt.accepts]
  | equal l => obtain rfl := (Option.some.inj e).symm; simp [BOpt.accepts]
  | plantbiclique l k => obtain rfl := (Option.some.inj e).symm; simp [BOpt.accepts, pos2_num hx.2.1 hx.2.2]
  | addedges k => obtain rfl := (Option.some.inj e).symm; simp [BOpt.accepts, positive_num hx.2]
  | tree k => obtain rfl := (Option.some.inj e).symm; simp [BOpt.accepts, positive_num hx.2]
  | pyramid k => obtain rfl := (Option.some.inj e).symm; simp [BOpt.accepts, positive_num hx.2]
  | kthlist l =>
    obtain rfl := (Option.some.inj e).symm
    simp only [BOpt.accepts]
    cases env.dot <;> decide
  | source s =>
    obtain rfl := (Option.some.inj e).symm
    have ht := hx.2
    cases s with
    | stdin l => simp [BOpt.accepts, BSource.kind, BSource.vals]
    | bp l k p =>
      obtain ⟨h1, h2, ⟨x, h3, h4⟩, _⟩ := ht
      have := ((C91_bp env.flt (num l) (num k) p).1 l k x).2 ⟨isPos_num h1, isPos_num h2, h3, h4⟩
      simp [BOpt.accepts, BSource.kind, BSource.vals, this, Parsed.isOk]
    | bm l k m =>
      obtain ⟨h1, h2, h3, h4⟩ := ht
      have := ((C91_bm (num l) (num k) (num m)).1 l k m).2 ⟨isPos_num h1, isPos_num h2, isPos_num h3, h4⟩
      simp [BOpt.accepts, BSource.kind, BSource.vals, this, Parsed.isOk]
    | bd l k m =>
      obtain ⟨h1, h2, h3, h4⟩ := ht
      have := ((C91_bd (num l) (num k) (num m)).1 l k m).2 ⟨isPos_num h1, isPos_num h2, isPos_num h3, h4⟩
      simp [BOpt.accepts, BSource.kind, BSource.vals, this, Parsed.isOk]
    | bregular l k m =>
      obtain ⟨h1, h2, h3, h4⟩ := ht
      have := ((C91_bregular (num l) (num k) (num m)).1 l k m).2 ⟨isPos_num h1, isPos_num h2, isPos_num h3, h4⟩
      simp [BOpt.accepts, BSource.kind, BSource.vals, this, Parsed.isOk]
    | bshift N K q =>
      obtain ⟨q', h1, h2, h3⟩ := shift_num ht
      simp [BOpt.accepts, BSource.kind, BSource.vals, h3, Parsed.isOk]
    | bcomplete l k => simp [BOpt.accepts, BSource.kind, BSource.vals, pos2_num ht.1 ht.2]

theorem elsewhere_bitems (r : BRequest) : r.occ.any BOpt.elsewhere = false := by
  rw [List.any_eq_false]
  intro o ho
  obtain ⟨x, hx, e⟩ := List.mem_filterMap.1 ho
  cases x with
  | number i => simp [BItem.occ] at e
  | source s => obtain rfl := (Option.some.inj e).symm; cases s <;> simp [BOpt.elsewhere, BSource.kind]
  | _ => obtain rfl := (Option.some.inj e).symm; simp [BOpt.elsewhere]

theorem bflags_items (r : BRequest) (f : Flag) : f ∈ r.occ.filterMap BOpt.flagOf ↔ (f = .functional ∧ BItem.functional ∈ r.items) ∨ (f = .onto ∧ BItem.onto ∈ r.items) := by
  unfold BRequest.occ
  rw [List.filterMap_filterMap, List.mem_filterMap]
  constructor
  · rintro ⟨x, hx, e⟩
    cases x <;> simp [BItem.occ, BOpt.flagOf] at e
    · exact .inl ⟨e.symm, hx⟩
    · exact .inr ⟨e.symm, hx⟩
  · rintro (⟨rfl, h⟩ | ⟨rfl, h⟩)
    · exact ⟨_, h, rfl⟩
    · exact ⟨_, h, rfl⟩

theorem bsources_fam {env : BipEnv} {r : BRequest} (h : r.Ok env) (hf : r.fam = .peb ∨ r.fam = .stone) : r.sources = [] := by
  by_contra hs
  obtain ⟨s, hs⟩ := List.exists_mem_of_ne_nil _ hs
  obtain ⟨x, hx, e⟩ := List.mem_filterMap.1 hs
  cases x <;> simp at e
  have := (h.items _ hx).1
  rcases hf with e | e <;> rw [e] at this <;> exact absurd this (by decide)

theorem bdags_fam {env : BipEnv} {r : BRequest} (h : r.Ok env) (hf : r.fam = .gphp ∨ r.fam = .subsetcard) : r.dags = [] := by
  by_contra hs
  obtain ⟨s, hs⟩ := List.exists_mem_of_ne_nil _ hs
  obtain ⟨x, hx, e⟩ := List.mem_filterMap.1 hs
  cases x <;> simp at e
  all_goals
    have := (h.items _ hx).1
    rcases hf with e | e <;> rw [e] at this <;> exact absurd this (by decide)

/-- The checks before the graph is made. -/
theorem bipCommand_checks {cenv : CmdEnv} {env : BipEnv} {r : BRequest} (h : r.Ok env) (c : ICmd ⊕ BipCmd) :
    bipCommand cenv env (genSeed r.gen) r.fam.name r.tail = some c ↔ (∀ s ∈ r.sources, ∀ t ∈ r.sources, s.Same t) ∧
      ¬ ((∃ h, DagSource.tree h ∈ r.dags) ∧ ∃ h, DagSource.pyramid h ∈ r.dags) ∧ r.numbers.length = r.fam.count ∧
      r.fam.build env (r.choices env) r.occ r.numbers = some c := by
  obtain ⟨lead, later, h1, h2⟩ := optWords_bitems r.fam r.items h.items
  have h1 : optWords r.fam.options BOpt.arity r.tail = some (lead, later, r.occ) := h1
  unfold bipCommand
  rw [find_bfam]
  simp only [h1]
  have hns : mapOpt parseInt (lead ++ later) = some r.numbers := by
    rw [h2]
    exact Gen.mapOpt_intStr _
  have hhelp : Flag.help ∉ r.occ.filterMap BOpt.flagOf := by rw [bflags_items]; simp
  simp only [hns, accepts_bitems h, elsewhere_bitems, bvalues_dagformat, Bool.false_eq_true, if_false, hhelp, ne_eq, not_true_eq_false, and_false]
  by_cases e2 : ∀ s ∈ r.sources, ∀ t ∈ r.sources, s.Same t
  · by_cases e3 : ¬ ((∃ h, DagSource.tree h ∈ r.dags) ∧ ∃ h, DagSource.pyramid h ∈ r.dags)
    · rw [if_neg (by
        rintro (h | h)
        · exact (givenBip_one r).2 e2 h
        · exact (givenDag_one r).2 e3 h)]
      by_cases e4 : r.numbers.length = r.fam.count
      · rw [if_neg (by simp [e4])]
        exact ⟨fun hh => ⟨e2, e3, e4, hh⟩, fun hh => hh.2.2.2⟩
      · rw [if_pos e4]
        simp [e4]
    · rw [if_pos (.inr (by
        by_contra hh
        exact e3 ((givenDag_one r).1 hh)))]
      simp only [reduceCtorEq, false_iff]
      exact fun hh => e3 hh.2.1
  · rw [if_pos (.inl (by
      by_contra hh
      exact e2 ((givenBip_one r).1 hh)))]
    simp only [reduceCtorEq, false_iff]
    exact fun hh => e2 hh.1

/-- **C98** (the sub-command)  Exactly: the formula asked for, and none if there is no such formula. -/
theorem bipCommand_iff {cenv : CmdEnv} {env : BipEnv} {r : BRequest} (h : r.Ok env) (c : ICmd ⊕ BipCmd) :
    bipCommand cenv env (genSeed r.gen) r.fam.name r.tail = some c ↔ r.Asks env c := by
  rw [bipCommand_checks h]
  have hnum : r.fam ≠ .peb ∧ r.fam ≠ .stone → r.numbers = [] := fun hf => bnumbers_nil h.items hf
  have hdag := dagSource_last h
  have hbip := fun hone a => bipArgs_iff h hone a
  have hsrc := bsources_fam h
  have hdags := bdags_fam h
  have hfun : ∀ b : Bool, (b = true ↔ BItem.functional ∈ r.items) ↔ decide (Flag.functional ∈ r.occ.filterMap BOpt.flagOf) = b := by
    intro b
    have := bflags_items r .functional
    cases b <;> simp [this]
  have honto : ∀ b : Bool, (b = true ↔ BItem.onto ∈ r.items) ↔ decide (Flag.onto ∈ r.occ.filterMap BOpt.flagOf) = b := by
    intro b
    have := bflags_items r .onto
    cases b <;> simp [this]
  have hequal : ∀ b : Bool, (b = true ↔ ∃ l, BItem.equal l ∈ r.items) ↔ decide (valuesOf r.occ .equal ≠ []) = b := by
    intro b
    rw [← bvalues_equal]
    cases b <;> simp
  unfold BRequest.Asks BRequest.DagIs
  cases e : r.fam with
  | gphp =>
    rw [hnum (by simp [e])]
    simp only [BFam.count, List.length_nil, true_and, BFam.build, Option.map_eq_some_iff]
    constructor
    · rintro ⟨h1, _, a, h3, rfl⟩
      exact ⟨a, _, _, (hbip h1 a).1 h3, (hfun _).2 rfl, (honto _).2 rfl, rfl⟩
    · rintro ⟨a, f, o, h1, h2, h3, rfl⟩
      refine ⟨h1.one, by rw [hdags (.inl e)]; simp, a, (hbip h1.one a).2 h1, ?_⟩
      rw [(hfun _).1 h2, (honto _).1 h3]
  | subsetcard =>
    rw [hnum (by simp [e])]
    simp only [BFam.count, List.length_nil, true_and, BFam.build, Option.map_eq_some_iff]
    constructor
    · rintro ⟨h1, _, a, h3, rfl⟩
      exact ⟨a, _, (hbip h1 a).1 h3, (hequal _).2 rfl, rfl⟩
    · rintro ⟨a, f, h1, h2, rfl⟩
      refine ⟨h1.one, by rw [hdags (.inr e)]; simp, a, (hbip h1.one a).2 h1, ?_⟩
      rw [(hequal _).1 h2]
  | stonesparse =>
    rw [hnum (by simp [e])]
    simp only [BFam.count, List.length_nil, true_and, BFam.build, Option.map_eq_some_iff, Option.bind_eq_some_iff]
    constructor
    · rintro ⟨h1, h2, d, h3, a, h4, rfl⟩
      exact ⟨d, a, ⟨by rw [← hdag h2, h3], h2⟩, (hbip h1 a).1 h4, rfl⟩
    · rintro ⟨d, a, ⟨h1, h2⟩, h3, rfl⟩
      exact ⟨h3.one, h2, d, by rw [hdag h2, h1], a, (hbip h3.one a).2 h3, rfl⟩
  | peb =>
    match hn : r.numbers with
    | [] =>
      simp only [BFam.count, List.length_nil, true_and, BFam.build, Option.map_eq_some_iff]
      constructor
      · rintro ⟨h1, h2, d, h3, rfl⟩
        exact ⟨d, ⟨by rw [← hdag h2, h3], h2⟩, rfl⟩
      · rintro ⟨d, ⟨h1, h2⟩, rfl⟩
        exact ⟨by rw [hsrc (.inl e)]; simp, h2, d, by rw [hdag h2, h1], rfl⟩
    | _ :: _ => simp [BFam.count]
  | stone =>
    match hn : r.numbers with
    | [] => simp [BFam.count]
    | [s] =>
      simp only [BFam.count, List.length_singleton, true_and, BFam.build, Option.map_eq_some_iff]
      constructor
      · rintro ⟨h1, h2, d, h3, rfl⟩
        exact ⟨d, ⟨by rw [← hdag h2, h3], h2⟩, rfl⟩
      · rintro ⟨d, ⟨h1, h2⟩, rfl⟩
        exact ⟨by rw [hsrc (.inr e)]; simp, h2, d, by rw [hdag h2, h1], rfl⟩
    | _ :: _ :: _ => simp [BFam.count]

/-! The whole command line. -/

theorem bfam_word (f : BFam) : f.word = f.name := by cases f <;> rfl

theorem brequest_words (r : BRequest) : r.words = r.gen.flatMap GOpt.words ++ r.fam.name :: r.tail := by rw [BRequest.words, bfam_word]

theorem clear_bname (f : BFam) : classify mainOptions f.name = .arg := by cases f <;> rfl

theorem clear_bitem {env : BipEnv} {f : BFam} {x : BItem} (h : x.Ok env f) : ∀ w ∈ x.words f, Clear w ∧ w ≠ "-T".toList := by
  intro w hw
  rcases bitem_words h with ⟨i, rfl⟩ | ⟨w', o, long, vals, e1, _, _, e2, e3, e4, _⟩
  · obtain rfl := List.mem_singleton.1 hw
    exact ⟨clear_item (.number i), intStr_noT i⟩
  · rw [e1] at hw
    rcases List.mem_cons.1 hw with rfl | hw
    · exact ⟨e2, e3⟩
    · exact (e4 w hw).2

theorem clear_btail {env : BipEnv} {r : BRequest} (h : r.Ok env) : ∀ w ∈ r.tail, Clear w ∧ w ≠ "-T".toList := by
  intro w hw
  obtain ⟨x, hx, hw⟩ := List.mem_flatMap.1 hw
  exact clear_bitem (h.items x hx) w hw

theorem bline_noT {gen : List GOpt} (h : GenOk gen) {f : BFam} {ws : List Str} (hw : ∀ w ∈ ws, Clear w ∧ w ≠ "-T".toList) : "-T".toList ∉ gen.flatMap GOpt.words ++ f.name :: ws := by
  intro hm
  rcases List.mem_append.1 hm with hm | hm
  · exact gen_noT h hm
  · rcases List.mem_cons.1 hm with e | hm
    · revert e; cases f <;> decide
    · exact (hw _ hm).2 rfl

/-- A sub-command that is refused. -/
theorem bline_refused (cenv : CmdEnv) (env : BipEnv) {gen : List GOpt} (h : GenOk gen) {f : BFam} {ws : List Str} (hw : ∀ w ∈ ws, Clear w ∧ w ≠ "-T".toList)
    (hc : bipCommand cenv env (genSeed gen) f.name ws = none) (ts : List (List Str)) (ht : ∀ t ∈ ts, "-T".toList ∉ t) :
    cnfgenAll cenv env (cmdLine (gen.flatMap GOpt.words ++ f.name :: ws) ts) = pure none := by
  unfold cnfgenAll cnfgen
  rw [splitlist_cmdLine _ _ (bline_noT h hw) ht]
  have : (readLine cenv (bipCommand cenv env) (((("cnfgen".toList :: (gen.flatMap GOpt.words ++ f.name :: ws)) :: ts).headD []).drop 1)) = none := by
    show readLine cenv (bipCommand cenv env) (gen.flatMap GOpt.words ++ f.name :: ws) = none
    rw [readLine_gen cenv _ h (clear_bname f) (fun w h => (hw w h).1), hc]
    rfl
  simp only [this, Option.map_none]

/-- **C98** (parsing)  Every documented command line of these families is understood: the numbers, the options and their values in any place. -/
theorem C98_understood (cenv : CmdEnv) {env : BipEnv} {r : BRequest} (h : r.Ok env) {c : ICmd ⊕ BipCmd} (hc : r.Asks env c) :
    readLine cenv (bipCommand cenv env) r.words = some ⟨!genQuiet r.gen, cenv.dash, false, some c⟩ := by
  rw [brequest_words, readLine_gen cenv _ h.gen (clear_bname _) (fun w hw => (clear_btail h w hw).1), (bipCommand_iff h c).2 hc]
  rfl

/-- **C98** (refused)  A command line made of the documented options that asks for no formula prints no formula, whatever the transformations. -/
theorem C98_refused (cenv : CmdEnv) {env : BipEnv} {r : BRequest} (h : r.Ok env) (hc : ∀ c, ¬ r.Asks env c) (ts : List (List Str)) (ht : ∀ t ∈ ts, "-T".toList ∉ t) :
    cnfgenAll cenv env (cmdLine r.words ts) = pure none := by
  rw [brequest_words]
  refine bline_refused cenv env h.gen (clear_btail h) ?_ ts ht
  by_contra hn
  obtain ⟨c, e⟩ := Option.ne_none_iff_exists'.1 hn
  exact hc c ((bipCommand_iff h c).1 e)

/-- **C98** (conflicts and omissions)  Refused: two different ways to give the bipartite graph; a tree and a pyramid; no bipartite graph where one is needed (nor the format of the standard
input); no directed graph where one is needed; not exactly one number for `stone`, or a number for `peb`. -/
theorem C98_conflict (cenv : CmdEnv) {env : BipEnv} {r : BRequest} (h : r.Ok env)
    (hc : (∃ s ∈ r.sources, ∃ t ∈ r.sources, ¬ s.Same t) ∨ ((∃ h, BItem.tree h ∈ r.items) ∧ ∃ h, BItem.pyramid h ∈ r.items) ∨
      (r.fam ∈ [BFam.gphp, .subsetcard, .stonesparse] ∧ r.sources = [] ∧ ¬ r.hasFormat) ∨ (r.fam ∈ [BFam.stonesparse, .peb, .stone] ∧ r.dags = []) ∨
      (r.fam = .stone ∧ r.numbers.length ≠ 1) ∨ (r.fam = .peb ∧ r.numbers ≠ []))
    (ts : List (List Str)) (ht : ∀ t ∈ ts, "-T".toList ∉ t) : cnfgenAll cenv env (cmdLine r.words ts) = pure none := by
  refine C98_refused cenv h (fun c ha => ?_) ts ht
  have hck := (bipCommand_checks (cenv := cenv) h c).1 ((bipCommand_iff h c).2 ha)
  obtain ⟨h1, h2, h3, _⟩ := hck
  rcases hc with ⟨s, hs, t, ht, hne⟩ | ⟨⟨a, ha⟩, b, hb⟩ | ⟨hf, hs, hfmt⟩ | ⟨hf, hd⟩ | ⟨hf, hn⟩ | ⟨hf, hn⟩
  · exact hne (h1 s hs t ht)
  · exact h2 ⟨⟨a, List.mem_filterMap.2 ⟨_, ha, rfl⟩⟩, b, List.mem_filterMap.2 ⟨_, hb, rfl⟩⟩
  · have key : ∀ a, r.GraphIs env a → False := by
      intro a ha
      have := ha.source
      rw [hs] at this
      exact hfmt this.1
    unfold BRequest.Asks at ha
    simp only [List.mem_cons, List.not_mem_nil, or_false] at hf
    rcases hf with hf | hf | hf <;> rw [hf] at ha
    · obtain ⟨a, _, _, ha, _⟩ := ha; exact key a ha
    · obtain ⟨a, _, ha, _⟩ := ha; exact key a ha
    · obtain ⟨_, a, _, ha, _⟩ := ha; exact key a ha
  · have key : ∀ d, r.DagIs d → False := by
      intro d ha
      have := ha.1
      rw [hd] at this
      simp at this
    unfold BRequest.Asks at ha
    simp only [List.mem_cons, List.not_mem_nil, or_false] at hf
    rcases hf with hf | hf | hf <;> rw [hf] at ha
    · obtain ⟨d, _, ha, _⟩ := ha; exact key d ha
    · split at ha <;> first | contradiction | (obtain ⟨d, ha, _⟩ := ha; exact key d ha)
    · split at ha <;> first | contradiction | (obtain ⟨d, ha, _⟩ := ha; exact key d ha)
  · rw [hf] at h3; exact hn h3
  · rw [hf] at h3; exact hn (List.length_eq_zero_iff.1 h3)

theorem bline_setup {cenv : CmdEnv} {env : BipEnv} {r : BRequest} (h : r.Ok env) (ts : List TReq) :
    "-T".toList ∉ r.words ∧ (∀ t ∈ ts.map TReq.words, "-T".toList ∉ t) ∧
    cnfgenAll cenv env (cmdLine r.words (ts.map TReq.words)) =
      cnfgen id (fun ws => (readLine cenv (bipCommand cenv env) ws).map (lineArgs cenv env)) (readTrans cenv (genSeed r.gen)) (cmdLine r.words (ts.map TReq.words)) := by
  have hT : "-T".toList ∉ r.words := by
    rw [brequest_words]
    exact bline_noT h.gen (clear_btail h)
  have hTs : ∀ t ∈ ts.map TReq.words, "-T".toList ∉ t := by
    intro t hm
    obtain ⟨t, _, rfl⟩ := List.mem_map.1 hm
    exact treq_noT t
  refine ⟨hT, hTs, ?_⟩
  have hsplit : ((splitlist (cmdLine r.words (ts.map TReq.words)) "-T".toList).headD []).drop 1 = r.words := by
    rw [splitlist_cmdLine _ _ hT hTs]
    rfl
  unfold cnfgenAll
  rw [hsplit]
  have hseed : runSeed r.words = genSeed r.gen := by
    rw [brequest_words]
    exact runSeed_gen h.gen (clear_bname _) (fun w hw => (clear_btail h w hw).1)
  rw [hseed]

/-- **C98**  The whole way from the words, for `gphp`, `subsetcard` and `stonesparse`: if networkx and the random choices keep their promises, the documented command line with any
transformations is refused if there is no such graph or formula, and otherwise prints a DIMACS formula that can be satisfied exactly if the one asked for can.  Only `--addedges` and
`--bregular` can fail otherwise. -/
theorem C98_cnfgen {cenv : CmdEnv} (he : cenv.Ok) {env : BipEnv} {r : BRequest} (h : r.Ok env) {c : BipCmd} (hc : r.Asks env (.inr c)) (hleg : c.graph.Legal)
    (ts : List TReq) (ht : ∀ t ∈ ts, t.Ok ∧ t.Sensible) :
    (cnfgenAll cenv env (cmdLine r.words (ts.map TReq.words)) = pure none ∧ c.Answers none) ∨
    (∃ out n cs P, cnfgenAll cenv env (cmdLine r.words (ts.map TReq.words)) = pure (some out) ∧ Prints out n cs ∧ c.Answers (some P) ∧ (Spec.Satisfiable cs ↔ P)) ∨
    (cnfgenAll cenv env (cmdLine r.words (ts.map TReq.words)) = raise .runtimeError ∧ c.graph.addedges ≠ none) ∨
    (cnfgenAll cenv env (cmdLine r.words (ts.map TReq.words)) = raise .recursionError ∧ c.graph.source.IsRegular) := by
  obtain ⟨hT, hTs, hm⟩ := bline_setup (cenv := cenv) h ts
  obtain ⟨Ts, h1, h2⟩ := treqs_read he (genSeed r.gen) ts ht
  have hp : (fun ws => (readLine cenv (bipCommand cenv env) ws).map (lineArgs cenv env)) r.words = some (c.args (!genQuiet r.gen) (env.header c)) := by
    simp only [C98_understood cenv h hc, Option.map_some, lineArgs, he.dash]
    rfl
  rw [hm]
  exact C86_cnfgen hleg (fun ws => (readLine cenv (bipCommand cenv env) ws).map (lineArgs cenv env)) (readTrans cenv (genSeed r.gen)) r.words (ts.map TReq.words) hT hTs _ (env.header c) hp h1 h2

/-- **C98**  For `peb` and `stone`: a documented command line with any transformations prints a DIMACS formula that cannot be satisfied, unless the number of stones is negative: then it is
refused. -/
theorem C98_pebbling {cenv : CmdEnv} (he : cenv.Ok) {env : BipEnv} {r : BRequest} (h : r.Ok env) {c : ICmd} (hc : r.Asks env (.inl c))
    (ts : List TReq) (ht : ∀ t ∈ ts, t.Ok ∧ t.Sensible) :
    ((∃ s d, c = .other (.stone s d) ∧ s < 0) ∧ cnfgenAll cenv env (cmdLine r.words (ts.map TReq.words)) = pure none) ∨
    ((∀ s d, c = .other (.stone s d) → 0 ≤ s) ∧
      ∃ out n cs, cnfgenAll cenv env (cmdLine r.words (ts.map TReq.words)) = pure (some out) ∧ Prints out n cs ∧ ¬ Spec.Satisfiable cs) := by
  obtain ⟨hT, hTs, hm⟩ := bline_setup (cenv := cenv) h ts
  obtain ⟨Ts, h1, h2⟩ := treqs_read he (genSeed r.gen) ts ht
  have hp : (fun ws => (readLine cenv (bipCommand cenv env) ws).map (lineArgs cenv env)) r.words = some (c.args false (!genQuiet r.gen) (cenv.header c)) := by
    simp only [C98_understood cenv h hc, Option.map_some, lineArgs, he.dash]
    rfl
  rw [hm]
  have hcase : (∃ d, c = .other (.peb d)) ∨ ∃ s d, c = .other (.stone s d) := by
    unfold BRequest.Asks at hc
    split at hc
    · obtain ⟨_, _, _, _, _, _, e⟩ := hc; cases e
    · obtain ⟨_, _, _, _, e⟩ := hc; cases e
    · obtain ⟨_, _, _, _, e⟩ := hc; cases e
    · obtain ⟨d, _, e⟩ := hc; exact .inl ⟨d, Sum.inl.inj e⟩
    · obtain ⟨d, _, e⟩ := hc; exact .inr ⟨_, d, Sum.inl.inj e⟩
    · exact hc.elim
  have hleg : c.floor.Legal := by rcases hcase with ⟨d, rfl⟩ | ⟨s, d, rfl⟩ <;> trivial
  have hbad : ¬ c.BadNumber := by rcases hcase with ⟨d, rfl⟩ | ⟨s, d, rfl⟩ <;> exact fun h => h
  have hadd : ¬ c.floor.AddsEdges := by rcases hcase with ⟨d, rfl⟩ | ⟨s, d, rfl⟩ <;> exact fun h => h
  have := C93_cnfgen hleg (fun ws => (readLine cenv (bipCommand cenv env) ws).map (lineArgs cenv env)) (readTrans cenv (genSeed r.gen)) r.words (ts.map TReq.words) hT hTs _ (cenv.header c) hp h1 h2
  rcases this with ⟨e, hb | ha⟩ | ⟨_, out, n, cs, P, e1, e2, e3, e4⟩ | ⟨_, ha⟩
  · exact absurd hb hbad
  · rcases hcase with ⟨d, rfl⟩ | ⟨s, d, rfl⟩
    · cases (show none = some False from ha)
    · rcases (show (s < 0 ∧ none = none) ∨ (0 ≤ s ∧ none = some False) from ha) with ⟨h1, _⟩ | ⟨_, h1⟩
      · exact .inl ⟨⟨s, d, rfl, h1⟩, e⟩
      · cases h1
  · rcases hcase with ⟨d, rfl⟩ | ⟨s, d, rfl⟩
    · have hP : some P = some False := e3
      refine .inr ⟨fun _ _ e => (by cases e), out, n, cs, e1, e2, fun hs => ?_⟩
      have := e4.1 hs
      rwa [Option.some.inj hP] at this
    · rcases (show (s < 0 ∧ some P = none) ∨ (0 ≤ s ∧ some P = some False) from e3) with ⟨_, h1⟩ | ⟨h0, h1⟩
      · cases h1
      · refine .inr ⟨fun _ _ e => (by cases e; exact h0), out, n, cs, e1, e2, fun hs => ?_⟩
        have := e4.1 hs
        rwa [Option.some.inj h1] at this
  · exact absurd ha hadd

/-- A bad option is understood as an option, and its values are not accepted. -/
theorem badB_words {env : BipEnv} {f : BFam} {dag : Bool} (hf : if dag then f ∈ [BFam.stonesparse, .peb, .stone] else f ∈ [BFam.gphp, .subsetcard, .stonesparse])
    {bad : List Str} (hbad : BadB env dag bad) :
    ∃ k vals o long, bad = k :: vals ∧ classify f.options (k ++ (if dag then [] else f.suffix)) = .opt o long none ∧ Clear (k ++ (if dag then [] else f.suffix)) ∧
      k ++ (if dag then [] else f.suffix) ≠ "-T".toList ∧ (o.arity.fixed = some vals.length ∨ (o.arity = .any ∧ f ≠ .peb ∧ f ≠ .stone)) ∧ o.accepts env vals = false := by
  have hpos : ∀ a, (∀ n, ¬ IsPos a n) → positiveInt a = none := by
    intro a hn
    cases e : positiveInt a with
    | none => rfl
    | some n => exact absurd (positiveInt_iff.1 e) (hn n)
  have hnok : ∀ {α : Type} {p : Parsed α}, (∀ a, p ≠ .ok a) → p.isOk = false := by
    intro α p h
    cases p with
    | ok a => exact absurd rfl (h a)
    | usage => rfl
    | crash e => rfl
  cases hbad with
  | input dag long w hne =>
    cases dag
    · simp only [Bool.false_eq_true, if_false, List.mem_cons, List.not_mem_nil, or_false] at hf
      refine ⟨_, _, .bip .input, long, rfl, ?_, ?_, ?_, .inl rfl, by simp only [BOpt.accepts]; exact decide_eq_false hne⟩
      · rcases hf with rfl | rfl | rfl <;> cases long <;> decide
      · rcases hf with rfl | rfl | rfl <;> cases long <;> (unfold Clear; decide)
      · rcases hf with rfl | rfl | rfl <;> cases long <;> decide
    · simp only [if_true, List.mem_cons, List.not_mem_nil, or_false] at hf
      refine ⟨_, _, .dag .input, long, rfl, ?_, ?_, ?_, .inl rfl, by simp only [BOpt.accepts]; exact decide_eq_false hne⟩
      · rcases hf with rfl | rfl | rfl <;> cases long <;> decide
      · rcases hf with rfl | rfl | rfl <;> cases long <;> (unfold Clear; decide)
      · rcases hf with rfl | rfl | rfl <;> cases long <;> decide
  | format dag long w hne =>
    cases dag
    · simp only [Bool.false_eq_true, if_false, List.mem_cons, List.not_mem_nil, or_false] at hf hne
      refine ⟨_, _, .bip .format, long, rfl, ?_, ?_, ?_, .inl rfl, by simp only [BOpt.accepts]; exact decide_eq_false fun hm => hne ((mem_formats _ _ _).1 hm)⟩
      · rcases hf with rfl | rfl | rfl <;> cases long <;> decide
      · rcases hf with rfl | rfl | rfl <;> cases long <;> (unfold Clear; decide)
      · rcases hf with rfl | rfl | rfl <;> cases long <;> decide
    · simp only [if_true, List.mem_cons, List.not_mem_nil, or_false] at hf hne
      refine ⟨_, _, .dag .format, long, rfl, ?_, ?_, ?_, .inl rfl, by simp only [BOpt.accepts]; exact decide_eq_false fun hm => hne ((mem_formats _ _ _).1 hm)⟩
      · rcases hf with rfl | rfl | rfl <;> cases long <;> decide
      · rcases hf with rfl | rfl | rfl <;> cases long <;> (unfold Clear; decide)
      · rcases hf with rfl | rfl | rfl <;> cases long <;> decide
  | height k a hk hn =>
    simp only [if_true, List.mem_cons, List.not_mem_nil, or_false] at hf hk
    rcases hk with rfl | rfl
    · refine ⟨_, _, .dag .tree, true, rfl, ?_, ?_, ?_, .inl rfl, by simp [BOpt.accepts, hpos a hn]⟩
      · rcases hf with rfl | rfl | rfl <;> decide
      · rcases hf with rfl | rfl | rfl <;> (unfold Clear; decide)
      · rcases hf with rfl | rfl | rfl <;> decide
    · refine ⟨_, _, .dag .pyramid, true, rfl, ?_, ?_, ?_, .inl rfl, by simp [BOpt.accepts, hpos a hn]⟩
      · rcases hf with rfl | rfl | rfl <;> decide
      · rcases hf with rfl | rfl | rfl <;> (unfold Clear; decide)
      · rcases hf with rfl | rfl | rfl <;> decide
  | addedges a hn =>
    simp only [Bool.false_eq_true, if_false, List.mem_cons, List.not_mem_nil, or_false] at hf
    refine ⟨_, _, .bip .addedges, true, rfl, ?_, ?_, ?_, .inl rfl, by simp [BOpt.accepts, hpos a hn]⟩
    · rcases hf with rfl | rfl | rfl <;> decide
    · rcases hf with rfl | rfl | rfl <;> (unfold Clear; decide)
    · rcases hf with rfl | rfl | rfl <;> decide
  | two k a b hk hn =>
    simp only [Bool.false_eq_true, if_false, List.mem_cons, List.not_mem_nil, or_false] at hf hk
    have hp : pos2 a b = none := by
      cases e : pos2 a b with
      | none => rfl
      | some n => exact absurd ⟨_, _, pos2_iff.1 e⟩ hn
    rcases hk with rfl | rfl
    · refine ⟨_, _, .bip .bcomplete, true, rfl, ?_, ?_, ?_, .inl rfl, by simp [BOpt.accepts, hp]⟩
      · rcases hf with rfl | rfl | rfl <;> decide
      · rcases hf with rfl | rfl | rfl <;> (unfold Clear; decide)
      · rcases hf with rfl | rfl | rfl <;> decide
    · refine ⟨_, _, .bip .plantbiclique, true, rfl, ?_, ?_, ?_, .inl rfl, by simp [BOpt.accepts, hp]⟩
      · rcases hf with rfl | rfl | rfl <;> decide
      · rcases hf with rfl | rfl | rfl <;> (unfold Clear; decide)
      · rcases hf with rfl | rfl | rfl <;> decide
  | bshift as hn =>
    simp only [Bool.false_eq_true, if_false, List.mem_cons, List.not_mem_nil, or_false] at hf
    refine ⟨_, _, .bip .bshift, true, rfl, ?_, ?_, ?_, .inr ⟨rfl, by rcases hf with rfl | rfl | rfl <;> decide⟩, ?_⟩
    · rcases hf with rfl | rfl | rfl <;> decide
    · rcases hf with rfl | rfl | rfl <;> (unfold Clear; decide)
    · rcases hf with rfl | rfl | rfl <;> decide
    · simp only [BOpt.accepts]
      refine hnok fun ⟨N, K, q⟩ e => hn ?_
      obtain ⟨_, ns, _, h⟩ := ((C91_bshift as).1 _ _ _).1 e
      exact ⟨N, K, ns, h⟩
  | bp a b c hn =>
    simp only [Bool.false_eq_true, if_false, List.mem_cons, List.not_mem_nil, or_false] at hf
    refine ⟨_, _, .bip .bp, true, rfl, ?_, ?_, ?_, .inl rfl, ?_⟩
    · rcases hf with rfl | rfl | rfl <;> decide
    · rcases hf with rfl | rfl | rfl <;> (unfold Clear; decide)
    · rcases hf with rfl | rfl | rfl <;> decide
    · simp only [BOpt.accepts]
      exact hnok fun ⟨l, r, p⟩ e => hn ⟨l, r, p, ((C91_bp env.flt a b c).1 _ _ _).1 e⟩
  | bm a b c hn =>
    simp only [Bool.false_eq_true, if_false, List.mem_cons, List.not_mem_nil, or_false] at hf
    refine ⟨_, _, .bip .bm, true, rfl, ?_, ?_, ?_, .inl rfl, ?_⟩
    · rcases hf with rfl | rfl | rfl <;> decide
    · rcases hf with rfl | rfl | rfl <;> (unfold Clear; decide)
    · rcases hf with rfl | rfl | rfl <;> decide
    · simp only [BOpt.accepts]
      exact hnok fun ⟨l, r, p⟩ e => hn ⟨l, r, p, ((C91_bm a b c).1 _ _ _).1 e⟩
  | bd a b c hn =>
    simp only [Bool.false_eq_true, if_false, List.mem_cons, List.not_mem_nil, or_false] at hf
    refine ⟨_, _, .bip .bd, true, rfl, ?_, ?_, ?_, .inl rfl, ?_⟩
    · rcases hf with rfl | rfl | rfl <;> decide
    · rcases hf with rfl | rfl | rfl <;> (unfold Clear; decide)
    · rcases hf with rfl | rfl | rfl <;> decide
    · simp only [BOpt.accepts]
      exact hnok fun ⟨l, r, p⟩ e => hn ⟨l, r, p, ((C91_bd a b c).1 _ _ _).1 e⟩
  | bregular a b c hn =>
    simp only [Bool.false_eq_true, if_false, List.mem_cons, List.not_mem_nil, or_false] at hf
    refine ⟨_, _, .bip .bregular, true, rfl, ?_, ?_, ?_, .inl rfl, ?_⟩
    · rcases hf with rfl | rfl | rfl <;> decide
    · rcases hf with rfl | rfl | rfl <;> (unfold Clear; decide)
    · rcases hf with rfl | rfl | rfl <;> decide
    · simp only [BOpt.accepts]
      exact hnok fun ⟨l, r, p⟩ e => hn ⟨l, r, p, ((C91_bregular a b c).1 _ _ _).1 e⟩

/-- **C98** (bad values)  With a documented option of a graph that has a bad value no formula is printed, wherever the option stands among the others.  (What is printed instead is in C91.) -/
theorem C98_bad_value (cenv : CmdEnv) (env : BipEnv) {gen : List GOpt} (h : GenOk gen) {f : BFam} {before after : List BItem} (hi : ∀ x ∈ before ++ after, x.Ok env f)
    {dag : Bool} (hf : if dag then f ∈ [BFam.stonesparse, .peb, .stone] else f ∈ [BFam.gphp, .subsetcard, .stonesparse]) {bad : List Str} (hbad : BadB env dag bad)
    (hw : ∀ w ∈ bad.tail, w.head? ≠ some '-' ∨ ∃ i, w = intStr i) (ts : List (List Str)) (ht : ∀ t ∈ ts, "-T".toList ∉ t) :
    cnfgenAll cenv env (cmdLine (gen.flatMap GOpt.words ++
      f.word :: (before.flatMap (BItem.words f) ++ withMapping f dag bad ++ after.flatMap (BItem.words f))) ts) = pure none := by
  have hc : ∀ w ∈ bad.tail, classify f.options w = .arg ∧ Clear w ∧ w ≠ "-T".toList := by
    intro w hm
    rcases hw w hm with h | ⟨i, rfl⟩
    · exact ⟨classify_plain _ h, clear_plain h, plain_noT h⟩
    · exact ⟨classify_int (bfam_options_ok f) i, clear_item (.number i), intStr_noT i⟩
  obtain ⟨k, vals, o, long, rfl, k1, k2, k3, k4, k5⟩ := badB_words hf hbad
  rw [bfam_word]
  refine bline_refused cenv env h ?_ ?_ ts ht
  · intro w hm
    rcases List.mem_append.1 hm with hm | hm
    · rcases List.mem_append.1 hm with hm | hm
      · obtain ⟨x, hx, hw⟩ := List.mem_flatMap.1 hm
        exact clear_bitem (hi x (by simp [hx])) w hw
      · rcases List.mem_cons.1 hm with rfl | hm
        · exact ⟨k2, k3⟩
        · exact (hc w hm).2
    · obtain ⟨x, hx, hw⟩ := List.mem_flatMap.1 hm
      exact clear_bitem (hi x (by simp [hx])) w hw
  · obtain ⟨lead, later, h1, h2⟩ := optWords_bitems f after fun x hx => hi x (by simp [hx])
    have hnil : f ≠ .peb ∧ f ≠ .stone → lead ++ later = [] := by
      intro hf
      rw [h2, bnumbers_nil (items := after) (fun y hy => hi y (by simp [hy])) hf]
      rfl
    have h3 : ∃ later', optWords f.options BOpt.arity (withMapping f dag (k :: vals) ++ after.flatMap (BItem.words f)) =
        some ([], later', (o, vals) :: after.filterMap BItem.occ) ∧ (f ≠ .peb ∧ f ≠ .stone → later' = []) := by
      rcases k4 with k4 | ⟨k4, hf'⟩
      · exact ⟨_, optWords_opt k1 (fun v hv => (hc v hv).1) k4 h1, hnil⟩
      · obtain ⟨rfl, rfl⟩ := List.append_eq_nil_iff.1 (hnil hf')
        have := optWords_any k1 (fun v hv => (hc v hv).1) k4 h1
        rw [List.append_nil] at this
        exact ⟨_, this, fun _ => rfl⟩
    obtain ⟨later', h3, hl⟩ := h3
    obtain ⟨lead'', later'', h4, h5⟩ := optWords_bitems_app f before (fun x hx => hi x (by simp [hx])) h3 (fun hf => by rw [hl hf]; rfl)
    rw [← List.append_assoc] at h4
    unfold bipCommand
    rw [find_bfam]
    simp only [h4]
    have : ((before.filterMap BItem.occ ++ (o, vals) :: after.filterMap BItem.occ).any fun o => !o.1.accepts env o.2) = true := by
      rw [List.any_eq_true]
      exact ⟨(o, vals), by simp, by simp [k5]⟩
    simp only [this, if_true, ite_self]

/-- **C98** (help)  With `-h` or `--help` among the words of the sub-command no formula is printed, wherever it stands. -/
theorem C98_help (cenv : CmdEnv) (env : BipEnv) {gen : List GOpt} (h : GenOk gen) {f : BFam} {before after : List BItem} (hi : ∀ x ∈ before ++ after, x.Ok env f) {w : Str}
    (hw : w = "-h".toList ∨ w = "--help".toList) (ts : List (List Str)) (ht : ∀ t ∈ ts, "-T".toList ∉ t) :
    cnfgenAll cenv env (cmdLine (gen.flatMap GOpt.words ++ f.word :: (before.flatMap (BItem.words f) ++ w :: after.flatMap (BItem.words f))) ts) = pure none := by
  obtain ⟨long, k1⟩ : ∃ long, classify f.options w = .opt (.flag .help) long none := by
    rcases hw with rfl | rfl <;> cases f <;> exact ⟨_, rfl⟩
  have k2 : Clear w ∧ w ≠ "-T".toList := by rcases hw with rfl | rfl <;> (unfold Clear; decide)
  rw [bfam_word]
  refine bline_refused cenv env h ?_ ?_ ts ht
  · intro v hm
    rcases List.mem_append.1 hm with hm | hm
    · obtain ⟨x, hx, hw⟩ := List.mem_flatMap.1 hm
      exact clear_bitem (hi x (by simp [hx])) v hw
    · rcases List.mem_cons.1 hm with rfl | hm
      · exact k2
      · obtain ⟨x, hx, hw⟩ := List.mem_flatMap.1 hm
        exact clear_bitem (hi x (by simp [hx])) v hw
  · obtain ⟨lead, later, h1, h2⟩ := optWords_bitems f after fun x hx => hi x (by simp [hx])
    have h3 := optWords_opt (vals := []) k1 (fun v hv => by simp at hv) rfl h1
    obtain ⟨lead'', later'', h4, h5⟩ := optWords_bitems_app f before (fun x hx => hi x (by simp [hx])) h3 (fun hf => by
      rw [List.nil_append, h2, bnumbers_nil (items := after) (fun y hy => hi y (by simp [hy])) hf]
      rfl)
    unfold bipCommand
    rw [find_bfam]
    have : Flag.help ∈ (before.filterMap BItem.occ ++ (BOpt.flag .help, []) :: after.filterMap BItem.occ).filterMap BOpt.flagOf := by
      rw [List.mem_filterMap]
      exact ⟨(.flag .help, []), by simp, rfl⟩
    rw [List.nil_append] at h4
    simp only [h4, this, if_true]

/-- **C98** (the other families)  A command line whose sub-command is none of these is treated as in C96 and C97. -/
theorem C98_others (cenv : CmdEnv) (env : BipEnv) {gen : List GOpt} (h : GenOk gen) {name : Str} (hn : name.head? ≠ some '-') {ws : List Str} (hw : ∀ w ∈ ws, Clear w ∧ w ≠ "-T".toList)
    (hne : ∀ f : BFam, f.word ≠ name) (ts : List (List Str)) (ht : ∀ t ∈ ts, "-T".toList ∉ t) :
    cnfgenAll cenv env (cmdLine (gen.flatMap GOpt.words ++ name :: ws) ts) = cnfgenMain cenv (cmdLine (gen.flatMap GOpt.words ++ name :: ws) ts) := by
  have hT : "-T".toList ∉ gen.flatMap GOpt.words ++ name :: ws := by
    intro hm
    rcases List.mem_append.1 hm with hm | hm
    · exact gen_noT h hm
    · rcases List.mem_cons.1 hm with e | hm
      · rw [← e] at hn; exact hn rfl
      · exact (hw _ hm).2 rfl
  have hfind : (BFam.all.find? fun f => decide (f.name = name)) = none := by
    rw [List.find?_eq_none]
    intro f _
    simp only [decide_eq_true_eq]
    rw [← bfam_word]
    exact hne f
  have hb : bipCommand cenv env (genSeed gen) name ws = (subCommand cenv (genSeed gen) name ws).map .inl := by
    unfold bipCommand
    rw [hfind]
  have hcls := classify_plain mainOptions hn
  unfold cnfgenAll cnfgenMain cnfgen
  rw [splitlist_cmdLine _ _ hT ht]
  have e : (readLine cenv (bipCommand cenv env) (((("cnfgen".toList :: (gen.flatMap GOpt.words ++ name :: ws)) :: ts).headD []).drop 1)).map (lineArgs cenv env) =
      (readMain cenv (((("cnfgen".toList :: (gen.flatMap GOpt.words ++ name :: ws)) :: ts).headD []).drop 1)).map (MainLine.args cenv) := by
    show (readLine cenv (bipCommand cenv env) (gen.flatMap GOpt.words ++ name :: ws)).map (lineArgs cenv env) = (readMain cenv (gen.flatMap GOpt.words ++ name :: ws)).map (MainLine.args cenv)
    rw [readLine_gen cenv _ h hcls (fun w h => (hw w h).1), readMain_gen cenv h hcls (fun w h => (hw w h).1), hb]
    cases subCommand cenv (genSeed gen) name ws <;> rfl
  simp only [e]

/-! ### Examples -/

/-- A machine where `0.5` is the only decimal number, and no luck. -/
def exBipEnv : BipEnv :=
  ⟨fun s => if s = "0.5".toList then some (.fin (1/2)) else none, false, [],
   fun _ _ _ => ⟨{ directed := false, nodes := [], edges := [] }, fun _ => [], fun _ _ _ => (0, 0), 0, [], [], [], [], fun _ => (0, 0)⟩, fun _ _ => [], fun _ _ _ => none⟩

/-- `cnfgen -q gphp --functional --bshift 4 3 2 1`. -/
def exBipLine : BRequest := ⟨[.quiet false], .gphp, [.functional, .source (.bshift 4 3 [2, 1])]⟩

example : exBipLine.words = ["-q", "gphp", "--functional", "--bshift", "4", "3", "2", "1"].map String.toList := by decide

theorem exBipLine_ok : exBipLine.Ok exBipEnv ∧ exBipLine.Asks exBipEnv (.inr (.gphp true false { source := .bshift 4 3 [1, 2] })) := by
  refine ⟨⟨⟨?_, ?_⟩, ?_⟩, { source := .bshift 4 3 [1, 2] }, true, false, ⟨?_, ⟨[1, 2], ?_, by decide, rfl⟩, rfl, rfl, rfl, rfl, rfl, rfl, ?_⟩, ?_, ?_, rfl⟩
  · intro a b h1 h2
    simp [exBipLine] at h2
  · intro a s h1
    simp [exBipLine] at h1
  · intro x hx
    simp only [exBipLine, List.mem_cons, List.not_mem_nil, or_false] at hx
    rcases hx with rfl | rfl
    · rfl
    · exact ⟨by decide, by decide, by decide, by decide, by decide⟩
  · intro s hs t ht
    have : exBipLine.sources = [.bshift 4 3 [2, 1]] := rfl
    rw [this, List.mem_singleton] at hs ht
    rw [hs, ht]
    trivial
  · decide
  · rfl
  · simp [exBipLine]
  · simp [exBipLine]

example : (BipCmd.gphp true false { source := .bshift 4 3 [1, 2] }).graph.Legal := by
  refine ⟨?_, ?_, ?_⟩
  · show (BipSource.bshift 4 3 [1, 2]).Legal
    simp [BipSource.Legal]
  · intro p hp
    simp [BipCmd.graph] at hp
  · intro k hk
    simp [BipCmd.graph] at hk

/-- `stone` with a pyramid, `stonesparse` with both graphs; and what is refused: no graph, two ways to give it, a number after the pattern of `--bshift` that is too large. -/
example : (bipCommand exEnv exBipEnv none "stone".toList (["3", "--pyramid", "2"].map String.toList)).isSome = true := by decide
example : (bipCommand exEnv exBipEnv none "stonesparse".toList (["--tree", "2", "--bcomplete_mapping", "7", "3"].map String.toList)).isSome = true := by decide
example : (bipCommand exEnv exBipEnv none "stonesparse".toList (["--tree", "2", "--bcomplete", "7", "3"].map String.toList)).isSome = true := by decide
example : (bipCommand exEnv exBipEnv none "stonesparse".toList (["--tree", "2"].map String.toList)).isNone = true := by decide
example : (bipCommand exEnv exBipEnv none "peb".toList (["--tree", "2", "--pyramid", "2"].map String.toList)).isNone = true := by decide
example : (bipCommand exEnv exBipEnv none "gphp".toList (["--bshift", "4", "3", "2", "5"].map String.toList)).isNone = true := by decide
example : (bipCommand exEnv exBipEnv none "subsetcard".toList (["-e", "--bregular", "4", "4", "3"].map String.toList)).isSome = true := by decide

/-- `cnfgen gphp --bm 2 2 5`, `cnfgen peb --tree 0`. -/
example : BadB exBipEnv false (["--bm", "2", "2", "5"].map String.toList) ∧ BadB exBipEnv true (["--tree", "0"].map String.toList) := by
  refine ⟨.bm _ _ _ ?_, .height _ _ (by decide) ?_⟩
  · rintro ⟨l, r, m, ⟨h1, _⟩, ⟨h2, _⟩, ⟨h3, _⟩, h4⟩
    have e1 : parseInt "2".toList = some 2 := by decide
    have e2 : parseInt "5".toList = some 5 := by decide
    rw [e1] at h1 h2
    rw [e2] at h3
    have h1 := Option.some.inj h1
    have h2 := Option.some.inj h2
    have h3 := Option.some.inj h3
    obtain rfl : l = 2 := by omega
    obtain rfl : r = 2 := by omega
    obtain rfl : m = 5 := by omega
    omega
  · rintro n ⟨h1, h2⟩
    have : parseInt "0".toList = some 0 := by decide
    rw [this] at h1
    have := Option.some.inj h1
    omega

end NDP.Cnfgen
