import Verif.Cnfgen.GraphDimacs
import Verif.Cnfgen.GraphRound
/-
  Model of `readGraph` and `writeGraph` (`graphs.py` 144-375) and of the matrix format, and C89.
-/
namespace NDP.Cnfgen
open NDP

/-- `graphs.py` 22-27 (`_graphformats`).  `dot`: the library for the dot format was found (86-91). -/
def formats (dot : Bool) : GType → List Str
  | .dag => ["kthlist".toList, "gml".toList] ++ if dot then ["dot".toList] else []
  | .digraph => ["kthlist".toList, "gml".toList] ++ (if dot then ["dot".toList] else []) ++ ["dimacs".toList]
  | .simple => ["kthlist".toList, "gml".toList] ++ (if dot then ["dot".toList] else []) ++ ["dimacs".toList]
  | .bipartite => ["kthlist".toList, "matrix".toList, "gml".toList] ++ if dot then ["dot".toList] else []

/-- The keys of `_graphformats`. -/
def gtypeOf (s : Str) : Option GType :=
  if s = "dag".toList then some .dag else if s = "digraph".toList then some .digraph
  else if s = "simple".toList then some .simple else if s = "bipartite".toList then some .bipartite else none

/-- An argument that should be a file: is it one, has it a name, what is in it. -/
structure Stream where
  isFile : Bool := true
  name : Option Str := none
  text : Str := []

/-- `os.path.splitext(name)[-1][1:]`: what is after the last dot of the last part of the path, if there is something else than dots before it. -/
def extension (name : Str) : Str :=
  let r := name.reverse
  let e := r.takeWhile fun c => c != '.' && c != '/'
  match r.drop e.length with
  | '.' :: b => if (b.takeWhile (· != '/')).all (· == '.') then [] else e.reverse
  | _ => []

/-- `graphs.py` 144-191 (`_process_graph_io_arguments`), with `multi_edges=False`.  Where the code adds a list to a string (161, 188) there is a TypeError. -/
def chooseFormat (dot : Bool) (s : Stream) (ty fmt : Str) : M (GType × Str) :=
  if s.isFile = false then raise .valueError
  else match gtypeOf ty with
    | none => raise .typeError
    | some t =>
      if fmt = "autodetect".toList then
        match s.name with
        | none => raise .valueError
        | some n => if extension n ∈ formats dot t then pure (t, extension n) else raise .valueError
      else if fmt ∈ formats dot t then pure (t, fmt) else raise .typeError

/-- `graphs.py` 671-764 (`_read_graph_matrix_format`): generators have no method `next` (729) in Python 3; the `except` clause around it is for
`StopIteration` only. -/
def readMatrix (_ : Str) : M (Nx Int) := raise .attributeError

/-- `graphs.py` 194-296 (`readGraph`).  `lib` is what networkx makes of the text (gml and dot), already checked by 288-292. -/
def readGraph (dot : Bool) (lib : GType → Str → Str → M (Nx Int)) (s : Stream) (ty fmt : Str) : M (Nx Int) := do
  let (t, f) ← chooseFormat dot s ty fmt
  if f = "kthlist".toList then readKth t s.text
  else if f = "dimacs".toList then readGdimType t s.text
  else if f = "matrix".toList then readMatrix s.text
  else lib t f s.text

/-- `graphs.py` 424-427 (`bipartite_sets`). -/
def bipSets (G : Nx Int) : M (List Int × List Int) :=
  if ∀ v ∈ G.nodes, (G.color v).isSome then
    pure (isort (fun a b => decide (a < b)) (G.nodes.filter fun v => G.color v = some false),
      isort (fun a b => decide (a < b)) (G.nodes.filter fun v => G.color v = some true))
  else raise .keyError

/-- `graphs.py` 851-861: a row of the matrix. -/
def matrixRow (G : Nx Int) (right : List Int) (u : Int) : Str :=
  joinWith [' '] (right.map fun v => if G.hasEdge u v then ['1'] else ['0']) ++ ['\n']

/-- `graphs.py` 836-861 (`_write_graph_matrix_format`). -/
def writeMatrix (G : Nx Int) : M Str := do
  let (left, right) ← bipSets G
  pure (natStr left.length ++ ' ' :: natStr right.length ++ ['\n'] ++ left.flatMap (matrixRow G right))

/-- `graphs.py` 299-372 (`writeGraph`).  `ord` is what `enumerate_vertices` gives, `edges` what `G.edges()` gives. -/
def writeGraph (dot : Bool) (lib : GType → Str → M Str) (G : Nx Int) (ord : List Int) (edges : List (Int × Int)) (s : Stream) (ty fmt : Str) : M Str := do
  let (t, f) ← chooseFormat dot s ty fmt
  if f = "kthlist".toList then
    if t = .bipartite then do
      let lr ← bipSets G
      pure (writeKth G ord lr.1 true)
    else pure (writeKth G ord [] false)
  else if f = "dimacs".toList then pure (writeGdim G edges)
  else if f = "matrix".toList then writeMatrix G
  else lib t f

/-! ### Specification -/

/-- `e` is the extension of the file name: the last part of the path is `b.e`, where `b` is not only dots. -/
def HasExt (name e : Str) : Prop :=
  ∃ d b, name = d ++ b ++ '.' :: e ∧ (d = [] ∨ ∃ d', d = d' ++ ['/']) ∧ '/' ∉ b ∧ (∃ c ∈ b, c ≠ '.') ∧ '.' ∉ e ∧ '/' ∉ e

/-- The formats that exist for a type of graphs. -/
inductive Supported (dot : Bool) : GType → Str → Prop
  | kthlist (t) : Supported dot t "kthlist".toList
  | gml (t) : Supported dot t "gml".toList
  | dot (t) (h : dot = true) : Supported dot t "dot".toList
  | dimacs (t) (h : t = .simple ∨ t = .digraph) : Supported dot t "dimacs".toList
  | matrix : Supported dot .bipartite "matrix".toList

/-- The names of the types. -/
def GType.key : GType → Str
  | .dag => "dag".toList | .digraph => "digraph".toList | .simple => "simple".toList | .bipartite => "bipartite".toList

/-- `vs` are the nodes with the label `b`, in increasing order. -/
def IsSide (G : Nx Int) (b : Bool) (vs : List Int) : Prop := vs.Pairwise (· < ·) ∧ ∀ v, v ∈ vs ↔ v ∈ G.nodes ∧ G.color v = some b

/-- The matrix of `G` as text: the sizes of the sides, then for each vertex on the left a line with a digit for each vertex on the right. -/
def MatrixText (G : Nx Int) (left right : List Int) (t : Str) : Prop :=
  t = natStr left.length ++ " ".toList ++ natStr right.length ++ "\n".toList ++
    left.flatMap fun u => joinWith " ".toList (right.map fun v => if G.hasEdge u v = true then "1".toList else "0".toList) ++ "\n".toList

/-! ### Proofs -/

theorem key_gtypeOf (t : GType) : gtypeOf t.key = some t := by cases t <;> decide

theorem gtypeOf_iff (s : Str) (t : GType) : gtypeOf s = some t ↔ s = t.key := by
  constructor
  · unfold gtypeOf
    intro h
    by_cases h1 : s = "dag".toList
    · rw [if_pos h1] at h; cases h; exact h1
    · rw [if_neg h1] at h
      by_cases h2 : s = "digraph".toList
      · rw [if_pos h2] at h; cases h; exact h2
      · rw [if_neg h2] at h
        by_cases h3 : s = "simple".toList
        · rw [if_pos h3] at h; cases h; exact h3
        · rw [if_neg h3] at h
          by_cases h4 : s = "bipartite".toList
          · rw [if_pos h4] at h; cases h; exact h4
          · rw [if_neg h4] at h; cases h
  · rintro rfl; exact key_gtypeOf t

theorem mem_formats (dot : Bool) (t : GType) (f : Str) : f ∈ formats dot t ↔ Supported dot t f := by
  constructor
  · revert f
    cases t <;> cases dot <;>
      simp only [formats, Bool.false_eq_true, if_false, if_true, List.append_nil, List.cons_append, List.nil_append, List.forall_mem_cons, List.not_mem_nil,
        false_imp_iff, implies_true, and_true]
    all_goals refine ⟨?_, ?_⟩
    all_goals try refine ⟨?_, ?_⟩
    all_goals try refine ⟨?_, ?_⟩
    all_goals first | exact .kthlist _ | exact .gml _ | exact .dot _ rfl | exact .dimacs _ (by decide) | exact .matrix
  · intro h
    cases h with
    | kthlist => cases t <;> exact List.mem_cons_self
    | gml => cases t <;> cases dot <;> decide
    | dot _ h => subst h; cases t <;> decide
    | dimacs _ h => rcases h with rfl | rfl <;> cases dot <;> decide
    | matrix => cases dot <;> decide

/-! #### File names -/

theorem takeWhile_append_stop {p : Char → Bool} {a b : Str} {c : Char} (h : ∀ x ∈ a, p x = true) (hc : p c = false) :
    (a ++ c :: b).takeWhile p = a := by
  induction a with
  | nil => simp [hc]
  | cons x a ih =>
    rw [List.cons_append, List.takeWhile_cons, if_pos (h x (by simp)), ih fun y hy => h y (by simp [hy])]

theorem takeWhile_all {p : Char → Bool} {a : Str} (h : ∀ x ∈ a, p x = true) : a.takeWhile p = a := by
  induction a with
  | nil => rfl
  | cons x a ih => rw [List.takeWhile_cons, if_pos (h x (by simp)), ih fun y hy => h y (by simp [hy])]

theorem split_at (p : Char → Bool) (r : Str) : (∃ e c b, r = e ++ c :: b ∧ (∀ x ∈ e, p x = true) ∧ p c = false) ∨ ∀ x ∈ r, p x = true := by
  induction r with
  | nil => right; simp
  | cons x r ih =>
    by_cases hx : p x = true
    · rcases ih with ⟨e, c, b, rfl, h1, h2⟩ | h
      · exact Or.inl ⟨x :: e, c, b, rfl, by simpa [hx] using h1, h2⟩
      · exact Or.inr (by simpa [hx] using h)
    · exact Or.inl ⟨[], x, r, rfl, by simp, by simpa using hx⟩

theorem base_last (b : Str) : ∃ d m, b = m ++ d ∧ '/' ∉ m ∧ b.takeWhile (· != '/') = m ∧ (d = [] ∨ ∃ d', d = '/' :: d') := by
  rcases split_at (· != '/') b with ⟨e, c, b', rfl, h1, h2⟩ | h
  · refine ⟨c :: b', e, rfl, fun hx => by simpa using h1 _ hx, takeWhile_append_stop h1 h2, Or.inr ⟨b', ?_⟩⟩
    have : c = '/' := by simpa using h2
    rw [this]
  · exact ⟨[], b, by simp, fun hx => by simpa using h _ hx, takeWhile_all h, Or.inl rfl⟩

/-- The extension is found. -/
theorem HasExt.found {name e : Str} (h : HasExt name e) : extension name = e := by
  obtain ⟨d, b, hn, hd, hb, ⟨x, hxb, hxd⟩, he1, he2⟩ := h
  have hr : name.reverse = e.reverse ++ '.' :: (b.reverse ++ d.reverse) := by rw [hn]; simp [List.append_assoc]
  have hall : ∀ x ∈ e.reverse, (x != '.' && x != '/') = true := by
    intro x hx
    rw [List.mem_reverse] at hx
    simp only [Bool.and_eq_true, bne_iff_ne, ne_eq]
    exact ⟨fun h => he1 (h ▸ hx), fun h => he2 (h ▸ hx)⟩
  have ht : name.reverse.takeWhile (fun c => c != '.' && c != '/') = e.reverse := by rw [hr]; exact takeWhile_append_stop hall (by decide)
  have hdp : name.reverse.drop e.reverse.length = '.' :: (b.reverse ++ d.reverse) := by rw [hr]; exact List.drop_left
  have hall' : ∀ x ∈ b.reverse, (x != '/') = true := by
    intro x hx; rw [List.mem_reverse] at hx
    simp only [bne_iff_ne, ne_eq]; exact fun h => hb (h ▸ hx)
  have htw : (b.reverse ++ d.reverse).takeWhile (· != '/') = b.reverse := by
    rcases hd with rfl | ⟨d'', rfl⟩
    · rw [List.reverse_nil, List.append_nil]; exact takeWhile_all hall'
    · rw [List.reverse_append]; exact takeWhile_append_stop hall' (by decide)
  unfold extension
  simp only
  rw [ht, hdp]
  simp only
  rw [htw, if_neg, List.reverse_reverse]
  intro ha
  rw [List.all_eq_true] at ha
  exact hxd (by simpa using ha x (List.mem_reverse.2 hxb))

theorem HasExt.unique {name e e' : Str} (h : HasExt name e) (h' : HasExt name e') : e = e' := by
  rw [← h.found, ← h'.found]

theorem extension_some (name : Str) : HasExt name (extension name) ∨ extension name = [] := by
  unfold extension
  simp only
  rcases split_at (fun c => c != '.' && c != '/') name.reverse with ⟨e, c, b, hr, h1, h2⟩ | hall
  · have ht : name.reverse.takeWhile (fun c => c != '.' && c != '/') = e := by rw [hr]; exact takeWhile_append_stop h1 h2
    have hd : name.reverse.drop e.length = c :: b := by rw [hr]; exact List.drop_left
    rw [ht, hd]
    have hec : '.' ∉ e ∧ '/' ∉ e := by
      constructor <;> intro hm <;> have := h1 _ hm <;> simp at this
    by_cases hc : c = '.'
    · subst hc
      simp only
      obtain ⟨d, m, rfl, hm, htw, hdd⟩ := base_last b
      rw [htw]
      by_cases ha : m.all (· == '.') = true
      · rw [if_pos ha]; exact Or.inr rfl
      · rw [if_neg ha]
        left
        have hn : name = d.reverse ++ m.reverse ++ '.' :: e.reverse := by
          have := congrArg List.reverse hr
          rw [List.reverse_reverse] at this
          rw [this]; simp [List.append_assoc]
        refine ⟨d.reverse, m.reverse, hn, ?_, by simpa using hm, ?_, by simpa using hec.1, by simpa using hec.2⟩
        · rcases hdd with rfl | ⟨d', rfl⟩
          · left; rfl
          · right; exact ⟨d'.reverse, by simp⟩
        · rw [List.all_eq_true] at ha
          push_neg at ha
          obtain ⟨x, hx1, hx2⟩ := ha
          exact ⟨x, List.mem_reverse.2 hx1, by simpa using hx2⟩
    · right
      split
      · rename_i b' heq
        simp only [List.cons.injEq] at heq
        exact absurd heq.1 hc
      · rfl
  · have ht : name.reverse.takeWhile (fun c => c != '.' && c != '/') = name.reverse := takeWhile_all hall
    rw [ht, List.drop_length]
    exact Or.inr rfl

theorem formats_ne (dot : Bool) (t : GType) : [] ∉ formats dot t ∧ "autodetect".toList ∉ formats dot t := by
  cases dot <;> cases t <;> decide

/-! ### Choosing the format -/

section
variable (dot : Bool) (lib : GType → Str → Str → M (Nx Int)) (t : GType)

/-- **C89, reading.** A file of a supported format, given by its name: kthlist and dimacs texts are read as C71 and C73 describe (the checks of the type
included); a matrix is never read, the call ends in an AttributeError; the rest is left to networkx. -/
theorem C89_read (s : Stream) (hs : s.isFile = true) {f : Str} (hf : Supported dot t f) :
    readGraph dot lib s t.key f =
      if f = "kthlist".toList then readKth t s.text else if f = "dimacs".toList then readGdimType t s.text
      else if f = "matrix".toList then raise .attributeError else lib t f s.text := by
  have hm := (mem_formats dot t f).2 hf
  have hne : f ≠ "autodetect".toList := fun h => (formats_ne dot t).2 (h ▸ hm)
  unfold readGraph chooseFormat
  rw [if_neg (by rw [hs]; simp), key_gtypeOf]
  simp only
  rw [if_neg hne, if_pos hm, M.pure_bind]
  rfl

/-- **C89, guessing the format.** Without a format, a file whose name has an extension that is a supported format is read as if that format had been
given; every other file is refused with a ValueError. -/
theorem C89_autodetect (s : Stream) (hs : s.isFile = true) :
    (∀ n f, s.name = some n → HasExt n f → Supported dot t f → readGraph dot lib s t.key "autodetect".toList = readGraph dot lib s t.key f) ∧
    ((∀ n f, s.name = some n → HasExt n f → ¬ Supported dot t f) → readGraph dot lib s t.key "autodetect".toList = raise .valueError) := by
  constructor
  · intro n f hn he hf
    rw [C89_read dot lib t s hs hf]
    have hm := (mem_formats dot t f).2 hf
    unfold readGraph chooseFormat
    rw [if_neg (by rw [hs]; simp), key_gtypeOf]
    simp only
    rw [if_pos True.intro, hn]
    simp only
    rw [he.found, if_pos hm, M.pure_bind]
    rfl
  · intro h
    unfold readGraph chooseFormat
    rw [if_neg (by rw [hs]; simp), key_gtypeOf]
    simp only
    rw [if_pos True.intro]
    cases hn : s.name with
    | none => rfl
    | some n =>
      simp only
      have : extension n ∉ formats dot t := by
        intro hm
        rcases extension_some n with he | he
        · exact h n _ hn he ((mem_formats dot t _).1 hm)
        · exact (formats_ne dot t).1 (he ▸ hm)
      rw [if_neg this, M.raise_bind]

/-- **C89, wrong choices.** Documented is a ValueError.  A thing that is no file gives one; an unknown type of graphs, and a format that is not supported
for the type, give a TypeError. -/
theorem C89_wrong_choice (s : Stream) :
    (s.isFile = false → ∀ ty f, readGraph dot lib s ty f = raise .valueError) ∧
    (s.isFile = true → ∀ ty f, (∀ t : GType, ty ≠ t.key) → readGraph dot lib s ty f = raise .typeError) ∧
    (s.isFile = true → ∀ f, ¬ Supported dot t f → f ≠ "autodetect".toList → readGraph dot lib s t.key f = raise .typeError) := by
  refine ⟨?_, ?_, ?_⟩
  · intro hs ty f
    unfold readGraph chooseFormat
    rw [if_pos hs, M.raise_bind]
  · intro hs ty f ht
    unfold readGraph chooseFormat
    rw [if_neg (by rw [hs]; simp)]
    cases e : gtypeOf ty with
    | none => rfl
    | some t => exact absurd ((gtypeOf_iff ty t).1 e) (ht t)
  · intro hs f hf hne
    unfold readGraph chooseFormat
    rw [if_neg (by rw [hs]; simp), key_gtypeOf]
    simp only
    rw [if_neg hne, if_neg (fun h => hf ((mem_formats dot t f).1 h)), M.raise_bind]
end

/-! ### The matrix format -/

theorem isort_side (G : Nx Int) (hnd : G.nodes.Nodup) (b : Bool) :
    IsSide G b (isort (fun a b => decide (a < b)) (G.nodes.filter fun v => G.color v = some b)) := by
  constructor
  · have h1 : SortedBy (fun a b : Int => decide (a < b)) (isort (fun a b => decide (a < b)) (G.nodes.filter fun v => G.color v = some b)) := by
      apply isort_sorted
      · intro a b h; simp only [decide_eq_true_eq, decide_eq_false_iff_not] at h ⊢; omega
      · intro a b c h1 h2; simp only [decide_eq_true_eq, decide_eq_false_iff_not] at h1 h2 ⊢; omega
    have h2 : (isort (fun a b => decide (a < b)) (G.nodes.filter fun v => G.color v = some b)).Nodup :=
      (isort_perm _ _).nodup_iff.2 (hnd.filter _)
    unfold SortedBy at h1
    refine (h1.and h2).imp ?_
    intro a b h
    simp only [decide_eq_false_iff_not] at h
    omega
  · intro v
    simp

theorem bipSets_sides {G : Nx Int} {l r : List Int} (hnd : G.nodes.Nodup) (h : bipSets G = pure (l, r)) :
    IsSide G false l ∧ IsSide G true r := by
  unfold bipSets at h
  split at h
  · have := (M.pure_inj _ _).1 h
    simp only [Prod.mk.injEq] at this
    rw [← this.1, ← this.2]
    exact ⟨isort_side G hnd false, isort_side G hnd true⟩
  · simp at h

theorem IsSide.unique {G : Nx Int} {b : Bool} {l l' : List Int} (h : IsSide G b l) (h' : IsSide G b l') : l = l' :=
  List.Perm.eq_of_pairwise (le := fun a b : Int => a < b) (fun a b _ _ h1 h2 => by omega) h.1 h'.1
    ((List.perm_ext_iff_of_nodup (h.1.imp fun h => by omega) (h'.1.imp fun h => by omega)).2 fun v => (h.2 v).trans (h'.2 v).symm)

/-- **C89, writing a matrix.** A graph whose nodes all have a side is written as its matrix, the vertices of both sides in increasing order; if some
node has no side, the call ends in a KeyError. -/
theorem C89_matrix_write (G : Nx Int) (hnd : G.nodes.Nodup) {left right : List Int} (hl : IsSide G false left) (hr : IsSide G true right) :
    ((∀ v ∈ G.nodes, (G.color v).isSome = true) → ∃ t, MatrixText G left right t ∧ writeMatrix G = pure t) ∧
    ((∃ v ∈ G.nodes, G.color v = none) → writeMatrix G = raise .keyError) := by
  constructor
  · intro hc
    refine ⟨_, rfl, ?_⟩
    unfold writeMatrix bipSets
    rw [if_pos hc, M.pure_bind]
    simp only
    rw [(isort_side G hnd false).unique hl, (isort_side G hnd true).unique hr]
    simp only [List.append_assoc, matrixRow]
    rfl
  · rintro ⟨v, hv, hn⟩
    unfold writeMatrix bipSets
    rw [if_neg, M.raise_bind]
    intro h
    have := h v hv
    rw [hn] at this
    cases this

/-- **C89, a matrix shows everything.** Graphs with the same matrix text have sides of the same sizes and edges at the same positions. -/
theorem C89_matrix_determined {G H : Nx Int} {left right left' right' : List Int} {t : Str} (h : MatrixText G left right t)
    (h' : MatrixText H left' right' t) : left.length = left'.length ∧ right.length = right'.length ∧
      ∀ (i j : Nat) (u v u' v' : Int), left[i]? = some u → right[j]? = some v → left'[i]? = some u' → right'[j]? = some v' → G.hasEdge u v = H.hasEdge u' v' := by
  have hsp : " ".toList = [' '] := by decide
  have hnl : "\n".toList = ['\n'] := by decide
  let row : Nx Int → List Int → Int → Str := fun G right u => joinWith [' '] (right.map fun v => if G.hasEdge u v = true then ['1'] else ['0'])
  let lines : Nx Int → List Int → List Int → List Str := fun G left right => (natStr left.length ++ ' ' :: natStr right.length) :: left.map (row G right)
  have hnr : ∀ G right u, '\n' ∉ row G right u := by
    intro G right u hx
    have : ∀ ws : List Str, (∀ w ∈ ws, '\n' ∉ w) → '\n' ∉ joinWith [' '] ws := by
      intro ws
      induction ws with
      | nil => intro _ h; cases h
      | cons w ws ih =>
        intro hw hx
        cases ws with
        | nil => exact hw w (by simp) hx
        | cons w' ws =>
          have hx : '\n' ∈ w ++ [' '] ++ joinWith [' '] (w' :: ws) := hx
          simp only [List.mem_append, List.mem_singleton] at hx
          rcases hx with (hx | hx) | hx
          · exact hw w (by simp) hx
          · exact absurd hx (by decide)
          · exact ih (fun x hx => hw x (by simp [hx])) hx
    refine this _ ?_ hx
    intro w hw
    obtain ⟨v, -, rfl⟩ := List.mem_map.1 hw
    split <;> decide
  have hln : ∀ G left right, ∀ l ∈ lines G left right, '\n' ∉ l := by
    intro G left right l hl
    rcases List.mem_cons.1 hl with rfl | hl
    · intro hx
      rcases List.mem_append.1 hx with hx | hx
      · exact not_mem_natStr (by decide) hx
      · rcases List.mem_cons.1 hx with hx | hx
        · exact absurd hx (by decide)
        · exact not_mem_natStr (by decide) hx
    · obtain ⟨u, -, rfl⟩ := List.mem_map.1 hl
      exact hnr G right u
  have htext : ∀ (G : Nx Int) (left right : List Int) (t : Str), MatrixText G left right t → t = (lines G left right).flatMap fun l => l ++ ['\n'] := by
    intro G left right t h
    rw [h, hsp, hnl, List.flatMap_cons, List.flatMap_map]
    simp only [List.append_assoc, List.singleton_append, List.cons_append]
    rfl
  have e1 := splitOn_flat _ (hln G left right)
  have e2 := splitOn_flat _ (hln H left' right')
  rw [← htext G left right t h] at e1
  rw [← htext H left' right' t h', e1] at e2
  have e2 : (natStr left.length ++ ' ' :: natStr right.length) :: left.map (row G right) =
    (natStr left'.length ++ ' ' :: natStr right'.length) :: left'.map (row H right') := e2
  simp only [List.cons.injEq] at e2
  obtain ⟨eh, er⟩ := e2
  have sp := congrArg (splitOn ' ') eh
  rw [splitOn_append_sep ' ' _ _ (not_mem_natStr (by decide)), splitOn_append_sep ' ' _ _ (not_mem_natStr (by decide)),
    splitOn_no_sep ' ' _ (not_mem_natStr (by decide)), splitOn_no_sep ' ' _ (not_mem_natStr (by decide))] at sp
  simp only [List.cons.injEq, and_true] at sp
  refine ⟨natStr_injective sp.1, natStr_injective sp.2, ?_⟩
  intro i j u v u' v' hu hv hu' hv'
  have := congrArg (fun l : List Str => l[i]?) er
  simp only [List.getElem?_map, hu, hu', Option.map_some, Option.some.injEq] at this
  have hne : ∀ (G : Nx Int) (right : List Int) (u v : Int), right[j]? = some v →
      splitOn ' ' (row G right u) = right.map fun v => if G.hasEdge u v = true then ['1'] else ['0'] := by
    intro G right u v hv
    refine splitOn_joinWith ' ' _ ?_ ?_
    · intro h
      rw [List.map_eq_nil_iff] at h
      subst h; simp at hv
    · intro w hw
      obtain ⟨x, -, rfl⟩ := List.mem_map.1 hw
      split <;> decide
  have := congrArg (fun s : Str => (splitOn ' ' s)[j]?) this
  simp only [hne G right u v hv, hne H right' u' v' hv', List.getElem?_map, hv, hv', Option.map_some, Option.some.injEq] at this
  cases h1 : G.hasEdge u v <;> cases h2 : H.hasEdge u' v'
  · rfl
  · rw [h1, h2] at this; exact absurd this (by decide)
  · rw [h1, h2] at this; exact absurd this (by decide)
  · rfl

/-! ### Round trips through files -/

/-- `H` is `G` with its vertices numbered by `num`, different vertices by different numbers. -/
def SameGraph (G H : Nx Int) (num : Int → Nat) : Prop :=
  H.directed = G.directed ∧ (∀ i, i ∈ H.nodes ↔ i ∈ intsTo G.nodes.length) ∧
  (∀ u ∈ G.nodes, (num u : Int) ∈ intsTo G.nodes.length ∧ ∀ v ∈ G.nodes, num u = num v → u = v) ∧ ∀ u ∈ G.nodes, ∀ v ∈ G.nodes, H.hasEdge (num u) (num v) = G.hasEdge u v

theorem numOf_good {G : Nx Int} {ord : List Int} (hord : ord.Perm G.nodes) :
    ∀ u ∈ G.nodes, ((numOf ord u : Nat) : Int) ∈ intsTo G.nodes.length ∧ ∀ v ∈ G.nodes, numOf ord u = numOf ord v → u = v := by
  intro u hu
  have hu' := hord.mem_iff.2 hu
  have := numOf_range hu'
  rw [hord.length_eq] at this
  refine ⟨List.mem_map.2 ⟨numOf ord u, mem_oneTo.2 this, rfl⟩, fun v _ e => numOf_inj hu' e⟩

/-- **C89, round trip.** A simple or directed graph whose name has one line, written to a file and read again, the format guessed both times from the name
`n` of the file with the extension `kthlist` or `dimacs`, is the same graph with its vertices numbered. -/
theorem C89_roundtrip (dot : Bool) (lib : GType → Str → Str → M (Nx Int)) (libw : GType → Str → M Str) {t : GType} (ht : t = .simple ∨ t = .digraph)
    (G : Nx Int) (hw : G.Wf) (hd : G.directed = t.directed) {ord : List Int} (hord : ord.Perm G.nodes) {es : List (Int × Int)}
    (hes : ∀ u v, G.hasEdge u v = true ↔ (u, v) ∈ es ∨ (G.directed = false ∧ (v, u) ∈ es)) (hn : '\n' ∉ G.name)
    {n f : Str} (he : HasExt n f) (hf : f = "kthlist".toList ∨ f = "dimacs".toList) :
    ∃ text H num, writeGraph dot libw G ord es ⟨true, some n, []⟩ t.key "autodetect".toList = pure text ∧
      readGraph dot lib ⟨true, some n, text⟩ t.key "autodetect".toList = pure H ∧ SameGraph G H num := by
  have hsup : Supported dot t f := by
    rcases hf with rfl | rfl
    · exact .kthlist _
    · exact .dimacs _ ht
  have hm := (mem_formats dot t f).2 hsup
  have hwrite : writeGraph dot libw G ord es ⟨true, some n, []⟩ t.key "autodetect".toList =
      pure (if f = "kthlist".toList then writeKth G ord [] false else writeGdim G es) := by
    unfold writeGraph chooseFormat
    rw [if_neg (by simp), key_gtypeOf]
    simp only
    rw [if_pos True.intro, he.found, if_pos hm, M.pure_bind]
    simp only
    by_cases h : f = "kthlist".toList
    · rw [if_pos h, if_pos h, if_neg]
      rcases ht with rfl | rfl <;> decide
    · rw [if_neg h, if_neg h, if_pos (hf.resolve_left h)]
  have hread : ∀ text, readGraph dot lib ⟨true, some n, text⟩ t.key "autodetect".toList =
      if f = "kthlist".toList then readKth t text else readGdimType t text := by
    intro text
    rw [(C89_autodetect dot lib t ⟨true, some n, text⟩ rfl).1 n f rfl he hsup, C89_read dot lib t _ rfl hsup]
    by_cases h : f = "kthlist".toList
    · rw [if_pos h, if_pos h]
    · rw [if_neg h, if_neg h, if_pos (hf.resolve_left h)]
  rcases hf with rfl | rfl
  · have hok : NameOK G.name := by
      unfold NameOK
      rw [splitOn_no_sep '\n' _ hn]
      simp
    have : ∃ H, readKth t (writeKth G ord [] false) = pure H ∧ H.directed = G.directed ∧ H.nodes = intsTo G.nodes.length ∧
        ∀ u ∈ G.nodes, ∀ v ∈ G.nodes, H.hasEdge (numOf ord u) (numOf ord v) = G.hasEdge u v := by
      rcases ht with rfl | rfl
      · rw [hd]; exact C72_kth_simple G hw hd hord hok
      · rw [hd]; exact C72_kth_digraph G hw hord hok
    obtain ⟨H, h1, h2, h3, h4⟩ := this
    refine ⟨_, H, numOf ord, hwrite, ?_, h2, fun i => by rw [h3], numOf_good hord, h4⟩
    rw [hread, if_pos rfl, if_pos rfl]
    exact h1
  · obtain ⟨H, h1, h2, h3, h4⟩ := C73_dimacs_roundtrip G hw hn (Or.inl rfl) hes
    have hne : "dimacs".toList ≠ "kthlist".toList := by decide
    refine ⟨_, H, numOf G.nodes, hwrite, ?_, h2, h3, numOf_good (List.Perm.refl _), h4⟩
    rw [hread, if_neg hne, if_neg hne]
    unfold readGdimType
    rw [← hd, h1, M.pure_bind, if_neg]
    rcases ht with rfl | rfl <;> simp

/-- The format is `f`, given or guessed from the extension of the name `n`. -/
def FormatIs (n fmt f : Str) : Prop := fmt = f ∨ (fmt = "autodetect".toList ∧ HasExt n f)

theorem chooseFormat_is (dot : Bool) {n fmt f : Str} (h : FormatIs n fmt f) (t : GType) (hs : Supported dot t f) (text : Str) :
    chooseFormat dot ⟨true, some n, text⟩ t.key fmt = pure (t, f) := by
  have hm := (mem_formats dot t f).2 hs
  unfold chooseFormat
  rw [if_neg (by simp), key_gtypeOf]
  simp only
  rcases h with rfl | ⟨rfl, he⟩
  · have hne : fmt ≠ "autodetect".toList := fun h => (formats_ne dot t).2 (h ▸ hm)
    rw [if_neg hne, if_pos hm]
  · rw [if_pos rfl, he.found, if_pos hm]

/-- **C89, round trip of bipartite graphs.** A graph all of whose vertices have a side and whose edges join different sides, written to a `kthlist` file
and read again, is the same graph, sides included. -/
theorem C89_roundtrip_bipartite (dot : Bool) (lib : GType → Str → Str → M (Nx Int)) (libw : GType → Str → M Str) (G : Nx Int) (hw : G.Wf)
    (hd : G.directed = false) (hc : ∀ v ∈ G.nodes, (G.color v).isSome = true) (hcross : ∀ e ∈ G.edges, G.color e.1 ≠ G.color e.2)
    {ord : List Int} (hord : ord.Perm G.nodes) (es : List (Int × Int)) (hn : '\n' ∉ G.name) {n fmt : Str} (hf : FormatIs n fmt "kthlist".toList) :
    ∃ text H num, writeGraph dot libw G ord es ⟨true, some n, []⟩ "bipartite".toList fmt = pure text ∧
      readGraph dot lib ⟨true, some n, text⟩ "bipartite".toList fmt = pure H ∧ SameGraph G H num ∧
      ∀ v ∈ G.nodes, H.color (num v) = G.color v := by
  have hok : NameOK G.name := by
    unfold NameOK
    rw [splitOn_no_sep '\n' _ hn]
    simp
  have hside := isort_side G hw.nodup false
  obtain ⟨H, h1, h2, h3, h4, h5⟩ := C72_kth_bipartite G hw hd hord (fun v => hside.2 v) hc hcross hok
  refine ⟨writeKth G ord (isort (fun a b => decide (a < b)) (G.nodes.filter fun v => G.color v = some false)) true, H, numOf ord, ?_, ?_,
    ⟨by rw [h2, hd], fun i => by rw [h3], numOf_good hord, h4⟩, h5⟩
  · unfold writeGraph
    rw [show "bipartite".toList = GType.bipartite.key from rfl, chooseFormat_is dot hf .bipartite (.kthlist _) _, M.pure_bind]
    simp only
    rw [if_pos True.intro, if_pos True.intro]
    unfold bipSets
    rw [if_pos hc, M.pure_bind]
  · unfold readGraph
    rw [show "bipartite".toList = GType.bipartite.key from rfl, chooseFormat_is dot hf .bipartite (.kthlist _) _, M.pure_bind]
    simp only
    rw [if_pos True.intro]
    exact h1

/-- **C89, round trip of acyclic graphs.** An acyclic graph written as such to a `kthlist` file is read again as the same graph; a graph with a cycle is
written, but the file is refused. -/
theorem C89_roundtrip_dag (dot : Bool) (lib : GType → Str → Str → M (Nx Int)) (libw : GType → Str → M Str) (G : Nx Int) (hw : G.Wf)
    (hd : G.directed = true) {ord : List Int} (hord : ord.Perm G.nodes) (es : List (Int × Int)) (hn : '\n' ∉ G.name) {n fmt : Str}
    (hf : FormatIs n fmt "kthlist".toList) :
    ∃ text, writeGraph dot libw G ord es ⟨true, some n, []⟩ "dag".toList fmt = pure text ∧
      ((∀ v, ¬ Relation.TransGen (fun a b => G.hasEdge a b = true) v v) →
        ∃ H num, readGraph dot lib ⟨true, some n, text⟩ "dag".toList fmt = pure H ∧ SameGraph G H num) ∧
      ((∃ v, Relation.TransGen (fun a b => G.hasEdge a b = true) v v) →
        readGraph dot lib ⟨true, some n, text⟩ "dag".toList fmt = raise .valueError) := by
  have hok : NameOK G.name := by
    unfold NameOK
    rw [splitOn_no_sep '\n' _ hn]
    simp
  obtain ⟨hyes, hno⟩ := C72_kth_dag G hw (left := []) hord hok
  have hread : ∀ text, readGraph dot lib ⟨true, some n, text⟩ "dag".toList fmt = readKth .dag text := by
    intro text
    unfold readGraph
    rw [show "dag".toList = GType.dag.key from rfl, chooseFormat_is dot hf .dag (.kthlist _) _, M.pure_bind]
    simp only
    rw [if_pos True.intro]
  refine ⟨writeKth G ord [] false, ?_, ?_, ?_⟩
  · unfold writeGraph
    rw [show "dag".toList = GType.dag.key from rfl, chooseFormat_is dot hf .dag (.kthlist _) _, M.pure_bind]
    simp only
    rw [if_pos True.intro, if_neg (by decide)]
  · intro hac
    obtain ⟨H, h1, h2, h3, h4⟩ := hyes hac
    exact ⟨H, numOf ord, by rw [hread]; exact h1, by rw [h2, hd], fun i => by rw [h3], numOf_good hord, h4⟩
  · rintro ⟨v, hv⟩
    rw [hread]
    exact hno fun hac => hac v hv

/-- **C89, wrong choices when writing.** As for reading. -/
theorem C89_wrong_choice_write (dot : Bool) (lib : GType → Str → M Str) (t : GType) (G : Nx Int) (ord : List Int) (es : List (Int × Int)) (s : Stream) :
    (s.isFile = false → ∀ ty f, writeGraph dot lib G ord es s ty f = raise .valueError) ∧
    (s.isFile = true → ∀ ty f, (∀ t : GType, ty ≠ t.key) → writeGraph dot lib G ord es s ty f = raise .typeError) ∧
    (s.isFile = true → ∀ f, ¬ Supported dot t f → f ≠ "autodetect".toList → writeGraph dot lib G ord es s t.key f = raise .typeError) ∧
    (s.isFile = true → (∀ n f, s.name = some n → HasExt n f → ¬ Supported dot t f) →
      writeGraph dot lib G ord es s t.key "autodetect".toList = raise .valueError) := by
  refine ⟨?_, ?_, ?_, ?_⟩
  · intro hs ty f
    unfold writeGraph chooseFormat
    rw [if_pos hs, M.raise_bind]
  · intro hs ty f ht
    unfold writeGraph chooseFormat
    rw [if_neg (by rw [hs]; simp)]
    cases e : gtypeOf ty with
    | none => rfl
    | some t' => exact absurd ((gtypeOf_iff ty t').1 e) (ht t')
  · intro hs f hf hne
    unfold writeGraph chooseFormat
    rw [if_neg (by rw [hs]; simp), key_gtypeOf]
    simp only
    rw [if_neg hne, if_neg (fun h => hf ((mem_formats dot t f).1 h)), M.raise_bind]
  · intro hs hno
    have hch : chooseFormat dot s t.key "autodetect".toList = raise .valueError := by
      unfold chooseFormat
      rw [if_neg (by rw [hs]; simp), key_gtypeOf]
      simp only
      rw [if_pos True.intro]
      cases hn : s.name with
      | none => rfl
      | some n =>
        simp only
        rw [if_neg]
        intro hm
        rcases extension_some n with h | h
        · exact hno n _ hn h ((mem_formats dot t _).1 hm)
        · rw [h] at hm
          exact (formats_ne dot t).1 hm
    unfold writeGraph
    rw [hch, M.raise_bind]

/-- **C89, matrices cannot be read back.** Whatever is written in the matrix format, reading it gives an AttributeError. -/
theorem C89_matrix_unreadable (dot : Bool) (lib : GType → Str → Str → M (Nx Int)) (name : Option Str) (text : Str) :
    readGraph dot lib ⟨true, name, text⟩ "bipartite".toList "matrix".toList = raise .attributeError :=
  C89_read dot lib .bipartite ⟨true, name, text⟩ rfl .matrix

/-! ### Examples -/

example : HasExt "/tmp/a.b/my.graph.kthlist".toList "kthlist".toList :=
  ⟨"/tmp/a.b/".toList, "my.graph".toList, by decide, Or.inr ⟨"/tmp/a.b".toList, by decide⟩, by decide, ⟨'m', by decide, by decide⟩, by decide, by decide⟩

/-- A hidden file has no extension. -/
example : ∀ e, ¬ HasExt "dir/.kthlist".toList e := by
  intro e he
  have h1 := he.found
  have h2 : extension "dir/.kthlist".toList = [] := by decide
  rw [h2] at h1
  subst h1
  obtain ⟨d, b, h, -⟩ := he
  have := congrArg List.getLast? h
  rw [List.getLast?_append] at this
  have h3 : "dir/.kthlist".toList.getLast? = some 't' := by decide
  rw [h3] at this
  exact absurd (Option.some.inj this) (by decide)

/-- A bipartite graph and its matrix. -/
def exBip : Nx Int := { directed := false, nodes := [3, 1, 2], edges := [(3, 1)], color := fun v => some (decide (v = 3)) }

example : writeMatrix exBip = pure "2 1\n1\n0\n".toList ∧ IsSide exBip false [1, 2] ∧ IsSide exBip true [3] := by
  have h0 := bipSets_sides (G := exBip) (l := [1, 2]) (r := [3]) (by decide) rfl
  exact ⟨rfl, h0.1, h0.2⟩

end NDP.Cnfgen
