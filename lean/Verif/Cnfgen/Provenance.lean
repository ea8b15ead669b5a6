import Verif.Cnfgen.CmdInts
import Verif.Cnfgen.LatexProps
import Mathlib.Data.Nat.Log
import Mathlib.Data.Nat.Sqrt
/-
  C94: what a file printed by `cnfgen` says about itself in its comments, and the output format `latex`.
  The headers of the families (`families/*.py`) that depend on numbers only; those of the families over graphs contain the name networkx gives to the graph, and are not modelled.
-/
namespace NDP.Cnfgen
open NDP

/-! ### Model -/

/-- The header of the formula: `pigeonhole.py` 65-80, 182-183; `counting.py` 31-32; `ramsey.py` 46-51, 83-86; `cliquecoloring.py` 65-67; `randomformulas.py` 110;
`simple.py` 39-40, 72-73, 98, 121.  `dflt` is the standard header (`cnf.py` 30-31).  `none`: not modelled. -/
def ICmd.header (dflt : Str) : ICmd → Option Str
  | .php p h f o => some ((if f then if o then "Matching".toList else "Functional pigeonhole principle".toList
      else if o then "Onto pigeonhole principle".toList else "Pigeonhole principle".toList) ++ " formula for ".toList ++ intStr p ++ " pigeons and ".toList ++ intStr h ++ " holes\n".toList ++ dflt)
  | .bphp p h _ => some ("Binary Pigeonhole Principle for ".toList ++ intStr p ++ " pigeons and ".toList ++ intStr h ++ " holes\n".toList ++ dflt)
  | .parity n => some ("Counting Principle: ".toList ++ intStr n ++ " divided in parts of size ".toList ++ intStr 2 ++ ".\n".toList ++ dflt)
  | .count m p => some ("Counting Principle: ".toList ++ intStr m ++ " divided in parts of size ".toList ++ intStr p ++ ".\n".toList ++ dflt)
  | .ptn _ n => some ("\nIt is possible to bicolor the numbers from\n1 to ".toList ++ intStr n ++
      " so that there  is no monochromatic triplets\n(x,y,z) such that x^2+y^2=z^2\n\n".toList ++ dflt)
  | .ram s k n => some ("CNF encoding of the claim that there is a graph of ".toList ++ intStr n ++ " vertices\nwith no independent set of size ".toList ++ intStr s ++
      " and no clique of size ".toList ++ intStr k ++ "\n".toList ++ dflt)
  | .cliquecoloring n k c => some ("There is a graph of ".toList ++ intStr n ++ " vertices with a ".toList ++ intStr k ++ "-clique and a ".toList ++ intStr c ++ "-coloring\n\n".toList ++ dflt)
  | .randkcnf _ k n m => some ("Random ".toList ++ intStr k ++ "-CNF over ".toList ++ intStr n ++ " variables and ".toList ++ intStr m ++ " clauses\n".toList ++ dflt)
  | .or p n => some ("Clause with ".toList ++ intStr p ++ " positive and ".toList ++ intStr n ++ " negative literals\n\n".toList ++ dflt)
  | .and p n => some ("Singleton clauses: ".toList ++ intStr p ++ " positive and ".toList ++ intStr n ++ " negative\n\n".toList ++ dflt)
  | .other .empty => some dflt
  | .other .emptyclause => some dflt
  | _ => none

/-- `cnfgen.py` 110-122 (`search_cmdline_input_file`) on the names of the options of each parsed command line: `isinstance(f,file)` is evaluated for the first name that does not
begin with `_`; Python 3 (which `setup.py` 30 asks for) has no `file`. -/
def searchInputFiles : List (List Str) → M (List Str)
  | [] => raise .unboundLocalError
  | [l] => if l.all fun k => startsWith '_' k then pure [] else raise .nameError
  | l :: ls => if l.all fun k => startsWith '_' k then searchInputFiles ls else raise .nameError

/-- The options `setup_command_line_args` declares (`cnfgen.py` 60-94). -/
def generalOptions : List Str := ["output".toList, "output_format".toList, "seed".toList, "verbose".toList]

/-- `cnfgen.py` 198-265 for `-of latex`, for formulas with strings as names.  `more` and `tNames` are the names of the other options of the generator and of those of the
transformations, `docstring` that of the generator.  The input files are not read here: `searchInputFiles` does not get that far. -/
def cnfgenLatex (parse : List Str → Option (GenArgs Str)) (parseT : List Str → Option (Option Trans)) (more : List Str) (tNames : List (List Str)) (docstring : Option Str)
    (argv : List Str) : M (Option Str) :=
  let chunks := splitlist argv "-T".toList
  match parse ((chunks.headD []).drop 1), mapOpt parseT chunks.tail with
  | some args, some ts => do
    match ← reported args.build with
    | Option.none => pure Option.none
    | some (h, F) =>
      match ← Doc.applyAll id ts ⟨h, .inl F⟩ with
      | Option.none => pure Option.none
      | some D => do
        let _ ← searchInputFiles ((generalOptions ++ more) :: tNames)
        let descr := ["\\noindent\\textbf{Command line:}".toList, "\\begin{lstlisting}[breaklines]".toList, "$ cnfgen ".toList ++ joinWith [' '] (argv.drop 1), "\\end{lstlisting}".toList] ++
          (match docstring with
            | none => []
            | some d => ["\\noindent\\textbf{Docstring:}".toList, "\\begin{lstlisting}[breaklines,basicstyle=\\small]".toList, d, "\\end{lstlisting}".toList]) ++ [['\n']]
        args.sink.print (← latexText id some args.verbose D.header (some (joinWith ['\n'] descr)) true (D.cnf.elim id id))
  | _, _ => pure Option.none

/-! ### Specification -/

/-- What is written about a transformation. -/
def Trans.says : Trans → List Str
  | .none => []
  | .flip => ["Polarity variables has been flipped".toList, []]
  | .ite => ["If-Then-Else substituted formula".toList, []]
  | .or n => ["OR ".toList ++ intStr n ++ " substituted formula".toList, []]
  | .xor n => ["XOR ".toList ++ intStr n ++ " substituted formula".toList, []]
  | .eq n => ["EQ ".toList ++ intStr n ++ " substituted formula".toList, []]
  | .neq n => ["NEQ ".toList ++ intStr n ++ " substituted formula".toList, []]
  | .maj n => ["Majority ".toList ++ intStr n ++ " substituted formula".toList, []]
  | .one n => ["Formula transformed by \"exactly one\" substitution over ".toList ++ intStr n ++ " values".toList, []]
  | .lift n => ["Formula with lifting with selectors over ".toList ++ intStr n ++ " values".toList, []]
  | .comp true B => ["Variable xor-compression from ".toList ++ natStr B.right.length ++ " to ".toList ++ natStr B.left.length ++ " variables".toList, []]
  | .comp false B => ["Variable maj-compression from ".toList ++ natStr B.right.length ++ " to ".toList ++ natStr B.left.length ++ " variables".toList, []]
  | .shuffle .. => ["Reshuffling of:".toList, []]

/-- `t` is the comment for `l`: "c ", the text, without the blanks at the end. -/
def CommentFor (l t : Str) : Prop := ∃ blanks, 'c' :: ' ' :: l = t ++ blanks ∧ (∀ c ∈ blanks, isPySpace c = true) ∧ ∃ s c, t = s ++ [c] ∧ isPySpace c = false

/-- The file begins with the comments `ls`, one to a line, and has no others. -/
def Comments (text : Str) (ls : List Str) : Prop :=
  ∃ ts rest, splitOn '\n' text = ts ++ rest ∧ List.Forall₂ CommentFor ls ts ∧ ∀ r ∈ rest, r.head? ≠ some 'c'

/-- The families whose formula depends on the numbers alone; the logarithm and the square root are exact. -/
def ICmd.Fixed : ICmd → Prop
  | .php .. | .parity _ | .count .. | .ram .. | .cliquecoloring .. | .or .. | .and .. => True
  | .bphp _ h bits => bits = Nat.clog 2 h.toNat
  | .ptn isqrt _ => isqrt = Nat.sqrt
  | _ => False

/-! ### Proofs -/

theorem title_eq (T : Trans) : T.title = T.says.flatMap fun l => l ++ ['\n'] := by
  have e1 : " substituted formula\n\n".toList = " substituted formula".toList ++ ['\n', '\n'] := by decide
  have e2 : " values\n\n".toList = " values".toList ++ ['\n', '\n'] := by decide
  have e3 : " variables\n\n".toList = " variables".toList ++ ['\n', '\n'] := by decide
  have e4 : "Variable ".toList ++ "xor".toList ++ "-compression from ".toList = "Variable xor-compression from ".toList := by decide
  have e5 : "Variable ".toList ++ "maj".toList ++ "-compression from ".toList = "Variable maj-compression from ".toList := by decide
  have fl : ∀ a : Str, [a, []].flatMap (fun l => l ++ ['\n']) = a ++ ['\n', '\n'] := fun a => by
    simp only [List.flatMap_cons, List.flatMap_nil, List.append_nil, List.nil_append, List.append_assoc, List.singleton_append]
  cases T with
  | none => rfl
  | flip =>
    show "Polarity variables has been flipped\n\n".toList = ["Polarity variables has been flipped".toList, []].flatMap fun l => l ++ ['\n']
    decide
  | ite =>
    show "If-Then-Else substituted formula\n\n".toList = ["If-Then-Else substituted formula".toList, []].flatMap fun l => l ++ ['\n']
    decide
  | shuffle =>
    show "Reshuffling of:\n\n".toList = ["Reshuffling of:".toList, []].flatMap fun l => l ++ ['\n']
    decide
  | comp x B =>
    cases x
    · show "Variable ".toList ++ "maj".toList ++ "-compression from ".toList ++ natStr B.right.length ++ " to ".toList ++ natStr B.left.length ++ " variables\n\n".toList =
        ["Variable maj-compression from ".toList ++ natStr B.right.length ++ " to ".toList ++ natStr B.left.length ++ " variables".toList, []].flatMap fun l => l ++ ['\n']
      rw [fl, e3, e5]
      simp only [List.append_assoc]
    · show "Variable ".toList ++ "xor".toList ++ "-compression from ".toList ++ natStr B.right.length ++ " to ".toList ++ natStr B.left.length ++ " variables\n\n".toList =
        ["Variable xor-compression from ".toList ++ natStr B.right.length ++ " to ".toList ++ natStr B.left.length ++ " variables".toList, []].flatMap fun l => l ++ ['\n']
      rw [fl, e3, e4]
      simp only [List.append_assoc]
  | or n =>
    show "OR ".toList ++ intStr n ++ " substituted formula\n\n".toList = ["OR ".toList ++ intStr n ++ " substituted formula".toList, []].flatMap fun l => l ++ ['\n']
    rw [fl, e1]; simp only [List.append_assoc]
  | xor n =>
    show "XOR ".toList ++ intStr n ++ " substituted formula\n\n".toList = ["XOR ".toList ++ intStr n ++ " substituted formula".toList, []].flatMap fun l => l ++ ['\n']
    rw [fl, e1]; simp only [List.append_assoc]
  | eq n =>
    show "EQ ".toList ++ intStr n ++ " substituted formula\n\n".toList = ["EQ ".toList ++ intStr n ++ " substituted formula".toList, []].flatMap fun l => l ++ ['\n']
    rw [fl, e1]; simp only [List.append_assoc]
  | neq n =>
    show "NEQ ".toList ++ intStr n ++ " substituted formula\n\n".toList = ["NEQ ".toList ++ intStr n ++ " substituted formula".toList, []].flatMap fun l => l ++ ['\n']
    rw [fl, e1]; simp only [List.append_assoc]
  | maj n =>
    show "Majority ".toList ++ intStr n ++ " substituted formula\n\n".toList = ["Majority ".toList ++ intStr n ++ " substituted formula".toList, []].flatMap fun l => l ++ ['\n']
    rw [fl, e1]; simp only [List.append_assoc]
  | one n =>
    show "Formula transformed by \"exactly one\" substitution over ".toList ++ intStr n ++ " values\n\n".toList = ["Formula transformed by \"exactly one\" substitution over ".toList ++ intStr n ++ " values".toList, []].flatMap fun l => l ++ ['\n']
    rw [fl, e2]; simp only [List.append_assoc]
  | lift n =>
    show "Formula with lifting with selectors over ".toList ++ intStr n ++ " values\n\n".toList = ["Formula with lifting with selectors over ".toList ++ intStr n ++ " values".toList, []].flatMap fun l => l ++ ['\n']
    rw [fl, e2]; simp only [List.append_assoc]

theorem nl_intStr (n : Int) : '\n' ∉ intStr n := not_mem_intStr (by decide) (by decide)
theorem nl_natStr (n : Nat) : '\n' ∉ natStr n := not_mem_natStr (by decide)

theorem says_nl (T : Trans) : ∀ l ∈ T.says, '\n' ∉ l := by
  cases T with
  | comp x B => cases x <;> simp [Trans.says, nl_natStr]
  | _ => simp [Trans.says, nl_intStr]

theorem dropWhile_first {A : Type} {p : A → Bool} : ∀ {l : List A} {c : A} {r : List A}, l.dropWhile p = c :: r → p c = false
  | [], _, _, h => by simp at h
  | x :: l, c, r, h => by
    by_cases hx : p x = true
    · rw [List.dropWhile_cons_of_pos hx] at h
      exact dropWhile_first h
    · rw [List.dropWhile_cons_of_neg hx] at h
      rw [← (List.cons.inj h).1]
      simpa using hx

theorem rstrip_comment (l : Str) : CommentFor l (commentLine l) := by
  unfold commentLine rstrip
  have h := List.takeWhile_append_dropWhile (p := isPySpace) (l := ('c' :: ' ' :: l).reverse)
  refine ⟨((('c' :: ' ' :: l).reverse).takeWhile isPySpace).reverse, ?_, ?_, ?_⟩
  · rw [← List.reverse_append, h, List.reverse_reverse]
  · intro c hc
    exact NDP.mem_takeWhile_imp (List.mem_reverse.1 hc)
  · have hne : (('c' :: ' ' :: l).reverse).dropWhile isPySpace ≠ [] := by
      intro e
      have hc : 'c' ∈ (('c' :: ' ' :: l).reverse).takeWhile isPySpace := by
        rw [e, List.append_nil] at h
        rw [h]; simp
      exact absurd (NDP.mem_takeWhile_imp hc) (by decide)
    obtain ⟨c, r, e⟩ := List.exists_cons_of_ne_nil hne
    refine ⟨r.reverse, c, by rw [e, List.reverse_cons], ?_⟩
    exact dropWhile_first e

theorem applyAll_header {V : Type} [DecidableEq V] {sh : V → Str} (Ts : List Trans) : ∀ (D D' : Doc V), Doc.applyAll sh (Ts.map some) D = pure (some D') →
    D'.header = ((Ts.reverse.flatMap Trans.says).flatMap fun l => l ++ ['\n']) ++ D.header := by
  induction Ts with
  | nil =>
    intro D D' h
    obtain rfl := Option.some.inj ((M.pure_inj _ _).1 h)
    rfl
  | cons T Ts ih =>
    intro D D' h
    rw [List.map_cons, Doc.applyAll] at h
    obtain ⟨r, h1, h2⟩ := (M.bind_eq_pure ..).1 h
    cases r with
    | none => exact absurd ((M.pure_inj _ _).1 h2) (by simp)
    | some D1 =>
      have e1 : D1.header = T.title ++ D.header := by
        obtain ⟨h0, F | F⟩ := D
        all_goals
          simp only [Doc.apply] at h1
          obtain ⟨G, _, h3⟩ := (M.bind_eq_pure ..).1 h1
          have h3 := (M.pure_inj _ _).1 h3
          cases G with
          | none => exact absurd h3 (by simp)
          | some G => rw [← Option.some.inj h3]
      rw [ih _ _ h2, e1, title_eq]
      simp

theorem head_clauseLine (c : List Int) : (clauseLine c).head? ≠ some 'c' := by
  intro h
  rcases mem_joinWith (List.mem_of_head? h) with h | ⟨w, hw, h⟩
  · simp at h
  · obtain ⟨i, _, rfl⟩ := List.mem_map.1 hw
    exact not_mem_intStr (by decide) (by decide) h

theorem comments_file (hdr : Option (Str × Option Str)) (n : Nat) (cs : List (List Int)) :
    Comments (joinWith ['\n'] (fileLines hdr n cs) ++ ['\n']) (keptHeader hdr) := by
  refine ⟨(keptHeader hdr).map commentLine, (specLine n cs.length :: (if cs = [] then [[]] else cs.map clauseLine)) ++ [[]], ?_, ?_, ?_⟩
  · rw [splitOn_append_sep', splitOn_joinWith _ _ (by simp [fileLines]) (fileLines_nl hdr n cs), fileLines]
    simp [splitOn]
  · rw [List.forall₂_map_right_iff]
    exact List.forall₂_same.2 fun l _ => rstrip_comment l
  · intro r hr
    rcases List.mem_append.1 hr with hr | hr
    · rcases List.mem_cons.1 hr with rfl | hr
      · simp [specLine]
      · split at hr
        · simp at hr; simp [hr]
        · obtain ⟨c, _, rfl⟩ := List.mem_map.1 hr
          exact head_clauseLine c
    · simp at hr; simp [hr]

/-- **C94.**  The comments of a file `cnfgen` prints are, from top to bottom: a line for each transformation, the last first; the header of the formula; the command line. -/
theorem C94_comments {V : Type} [DecidableEq V] {sh : V → Str} (hs : Function.Injective sh) (parse : List Str → Option (GenArgs V)) (parseT : List Str → Option (Option Trans))
    (gen : List Str) (ts : List (List Str)) (hg : "-T".toList ∉ gen) (ht : ∀ t ∈ ts, "-T".toList ∉ t) {verbose : Bool} {k : Sink} {hl : List Str} {F : CNF V}
    (hp : parse gen = some ⟨verbose, k, pure (hl.flatMap (· ++ ['\n']), F)⟩) (hF : Cnfgen.Proper F.vars F.clauses) (hnl : ∀ l ∈ hl, '\n' ∉ l)
    {Ts : List Trans} (hT : List.Forall₂ (fun t T => parseT t = some (some T)) ts Ts) (hc : ∀ T ∈ Ts, T.Chance)
    (hw : ∀ w ∈ (cmdLine gen ts).drop 1, '\n' ∉ w) {out : Str} (ho : cnfgen sh parse parseT (cmdLine gen ts) = pure (some out)) :
    Comments out (if verbose then Ts.reverse.flatMap Trans.says ++ hl ++ ["COMMAND LINE: cnfgen ".toList ++ joinWith [' '] ((cmdLine gen ts).drop 1), []] else []) := by
  have hT' : List.Forall₂ (fun t T => parseT t = some T) ts (Ts.map some) := by
    rw [List.forall₂_map_right_iff]; exact hT
  rw [cnfgen_eq sh parse parseT gen ts hg ht hp hT'] at ho
  rw [show reported (pure (hl.flatMap (· ++ ['\n']), F) : M (Str × CNF V)) = pure (some (hl.flatMap (· ++ ['\n']), F)) from rfl, M.pure_bind] at ho
  obtain ⟨r, h1, h2⟩ := (M.bind_eq_pure ..).1 ho
  obtain ⟨r', h1', _, h3⟩ := applyAll_made hs Ts hc ⟨hl.flatMap (· ++ ['\n']), .inl F⟩ hF
  obtain rfl : r = r' := (M.pure_inj _ _).1 (h1.symm.trans h1')
  cases r with
  | none => exact absurd ((M.pure_inj _ _).1 h2) (by simp)
  | some D =>
    have hh := applyAll_header Ts _ _ h1
    obtain ⟨hD, _⟩ := h3 D rfl
    have hcl : '\n' ∉ "COMMAND LINE: cnfgen ".toList ++ joinWith [' '] ((cmdLine gen ts).drop 1) := by
      intro h
      rcases List.mem_append.1 h with h | h
      · exact absurd h (by decide)
      · rcases mem_joinWith h with h | ⟨w, h3, h4⟩
        · simp at h
        · exact hw w h3 h4
    generalize ("COMMAND LINE: cnfgen ".toList ++ joinWith [' '] ((cmdLine gen ts).drop 1)) = cl at h2 hcl ⊢
    have e1 : D.dimacs verbose (some (cl ++ ['\n'])) =
        pure (joinWith ['\n'] (fileLines (if verbose then some (D.header, some (cl ++ ['\n'])) else none) (anyVars D.cnf) (anyClauses D.cnf))) := by
      obtain ⟨h0, G | G⟩ := D
      all_goals exact dimacsText_eq _ hD
    have e2 : keptHeader (if verbose then some (D.header, some (cl ++ ['\n'])) else none) = if verbose then Ts.reverse.flatMap Trans.says ++ hl ++ [cl, []] else [] := by
      cases verbose with
      | false => rfl
      | true =>
        have e3 : (splitOn '\n' D.header).dropLast = Ts.reverse.flatMap Trans.says ++ hl := by
          rw [hh, ← List.flatMap_append, splitOn_flat]
          intro l hl'
          rcases List.mem_append.1 hl' with h | h
          · obtain ⟨T, _, h⟩ := List.mem_flatMap.1 h
            exact says_nl T l h
          · exact hnl l h
        simp only [if_true, keptHeader, e3, splitOn_append_sep', splitOn_no_sep _ _ hcl]
        simp [splitOn]
    have h2 : (D.dimacs verbose (some (cl ++ ['\n'])) >>= k.print) = pure (some out) := h2
    rw [e1, M.pure_bind] at h2
    cases k with
    | binary => exact absurd h2 (M.raise_ne_pure _ _)
    | text =>
      have h2 := Option.some.inj ((M.pure_inj _ _).1 h2)
      rw [← h2, ← e2]
      exact comments_file _ _ _

/-! ### The output format `latex` -/

theorem searchInputFiles_fails (more : List Str) (tNames : List (List Str)) : searchInputFiles ((generalOptions ++ more) :: tNames) = raise .nameError := by
  have : ((generalOptions ++ more).all fun k => startsWith '_' k) = false := by
    rw [List.all_append]
    simp only [Bool.and_eq_false_imp]
    intro h
    exact absurd h (by decide)
  cases tNames with
  | nil => rw [searchInputFiles, this]; rfl
  | cons _ _ => rw [searchInputFiles, this]; rfl; simp

/-- **C94, refuted.**  With the documented option `-of latex`, `cnfgen` prints no formula; -/
theorem C94_latex_refuted (parse : List Str → Option (GenArgs Str)) (parseT : List Str → Option (Option Trans)) (more : List Str) (tNames : List (List Str)) (docstring : Option Str)
    (argv : List Str) (out : Str) : cnfgenLatex parse parseT more tNames docstring argv ≠ pure (some out) := by
  unfold cnfgenLatex
  simp only [searchInputFiles_fails, M.raise_bind]
  intro h
  split at h
  · obtain ⟨r, _, h⟩ := (M.bind_eq_pure ..).1 h
    cases r with
    | none => exact absurd ((M.pure_inj _ _).1 h) (by simp)
    | some hF =>
      obtain ⟨r, _, h⟩ := (M.bind_eq_pure ..).1 h
      cases r with
      | none => exact absurd ((M.pure_inj _ _).1 h) (by simp)
      | some D => exact absurd h (M.raise_ne_pure _ _)
  · exact absurd ((M.pure_inj _ _).1 h) (by simp)

/-- it ends with a `NameError` whenever it has the formula. -/
theorem C94_latex_error (parse : List Str → Option (GenArgs Str)) (parseT : List Str → Option (Option Trans)) (more : List Str) (tNames : List (List Str)) (docstring : Option Str)
    (gen : List Str) (ts : List (List Str)) (hg : "-T".toList ∉ gen) (ht : ∀ t ∈ ts, "-T".toList ∉ t) {verbose : Bool} {k : Sink} {h : Str} {F : CNF Str}
    (hp : parse gen = some ⟨verbose, k, pure (h, F)⟩) (hF : Cnfgen.Proper F.vars F.clauses)
    {Ts : List Trans} (hT : List.Forall₂ (fun t T => parseT t = some (some T)) ts Ts) (hc : ∀ T ∈ Ts, T.Chance ∧ ¬ T.IsComp) :
    cnfgenLatex parse parseT more tNames docstring (cmdLine gen ts) = raise .nameError := by
  have hT' : mapOpt parseT ts = some (Ts.map some) := by
    induction hT with
    | nil => rfl
    | cons h1 _ ih =>
      rw [mapOpt, h1]
      simp [ih (fun t h => ht t (by simp [h])) fun T h => hc T (by simp [h])]
  unfold cnfgenLatex
  rw [splitlist_cmdLine gen ts hg ht]
  simp only [List.headD_cons, List.drop_succ_cons, List.drop_zero, List.tail_cons, hp, hT', searchInputFiles_fails, M.raise_bind]
  rw [show reported (pure (h, F) : M (Str × CNF Str)) = pure (some (h, F)) from rfl, M.pure_bind]
  obtain ⟨r, h1, h2, _⟩ := applyAll_made (sh := id) Function.injective_id Ts (fun T h => (hc T h).1) ⟨h, .inl F⟩ hF
  simp only [h1, M.pure_bind]
  cases r with
  | none =>
    obtain ⟨T, h3, h4⟩ := h2 rfl
    exact absurd h4 (hc T h3).2
  | some D => rfl

/-! ### What the header tells -/

theorem headD_natStr (n : Nat) (x : Str) : ∃ c r, natStr n ++ x = c :: r ∧ c ≠ '-' := by
  cases e : natStr n with
  | nil => exact absurd e (natStr_ne_nil n)
  | cons c r =>
    refine ⟨c, r ++ x, rfl, ?_⟩
    rintro rfl
    exact not_mem_natStr (n := n) (c := '-') (by decide) (by rw [e]; simp)

theorem append_inj_of {A : Type} {p : A → Prop} : ∀ {a b : List A} {c d : A} {x y : List A}, (∀ z ∈ a, p z) → (∀ z ∈ b, p z) → ¬ p c → ¬ p d →
    a ++ c :: x = b ++ d :: y → a = b ∧ c :: x = d :: y
  | [], [], _, _, _, _, _, _, _, _, h => ⟨rfl, h⟩
  | [], b :: _, c, _, _, _, _, hb, hc, _, h => by
    rw [List.nil_append, List.cons_append] at h
    exact absurd (hb c (by rw [(List.cons.inj h).1]; simp)) hc
  | a :: _, [], _, d, _, _, ha, _, _, hd, h => by
    rw [List.nil_append, List.cons_append] at h
    exact absurd (ha d (by rw [← (List.cons.inj h).1]; simp)) hd
  | a :: as, b :: bs, c, d, x, y, ha, hb, hc, hd, h => by
    rw [List.cons_append, List.cons_append] at h
    obtain ⟨h1, h2⟩ := List.cons.inj h
    obtain ⟨h3, h4⟩ := append_inj_of (fun z h => ha z (by simp [h])) (fun z h => hb z (by simp [h])) hc hd h2
    exact ⟨by rw [h1, h3], h4⟩

/-- A number at the beginning of a text, with something else than a digit after it. -/
theorem intStr_append {a b : Int} {c d : Char} {x y : Str} (hc : ¬ IsDig c) (hd : ¬ IsDig d) (h : intStr a ++ c :: x = intStr b ++ d :: y) : a = b ∧ c :: x = d :: y := by
  have key : ∀ m n : Nat, natStr m ++ c :: x = natStr n ++ d :: y → m = n ∧ c :: x = d :: y := fun m n h => by
    obtain ⟨h1, h2⟩ := append_inj_of (p := IsDig) (natStr_dig m) (natStr_dig n) hc hd h
    exact ⟨natStr_injective h1, h2⟩
  unfold intStr at h
  split at h <;> split at h
  · obtain ⟨h1, h2⟩ := key _ _ (List.cons.inj h).2
    exact ⟨by omega, h2⟩
  · obtain ⟨z, r, e, hz⟩ := headD_natStr b.natAbs (d :: y)
    rw [e] at h
    exact absurd (List.cons.inj h).1.symm hz
  · obtain ⟨z, r, e, hz⟩ := headD_natStr a.natAbs (c :: x)
    rw [e] at h
    exact absurd (List.cons.inj h).1 hz
  · obtain ⟨h1, h2⟩ := key _ _ h
    exact ⟨by omega, h2⟩

/-- The first three letters of the header. -/
def ICmd.letters : ICmd → Str
  | .php _ _ true true => "Mat".toList
  | .php _ _ true false => "Fun".toList
  | .php _ _ false true => "Ont".toList
  | .php _ _ false false => "Pig".toList
  | .bphp .. => "Bin".toList
  | .parity _ => "Cou".toList
  | .count _ _ => "Cou".toList
  | .ptn _ _ => "\nIt".toList
  | .ram .. => "CNF".toList
  | .cliquecoloring .. => "The".toList
  | .or .. => "Cla".toList
  | .and .. => "Sin".toList
  | _ => []

theorem header_letters {d h : Str} {c : ICmd} (hf : c.Fixed) (hh : c.header d = some h) : h.take 3 = c.letters := by
  cases c with
  | php p h' f o => cases f <;> cases o <;> (rw [← Option.some.inj hh]; rfl)
  | bphp | parity | count | ptn | ram | cliquecoloring | or | and => rw [← Option.some.inj hh]; rfl
  | _ => exact absurd hf id

theorem number_then {a b : Int} {l x y : Str} (hl : (l.head?.any fun c => (digitVal? c).isNone) = true) (h : intStr a ++ (l ++ x) = intStr b ++ (l ++ y)) : a = b ∧ x = y := by
  cases l with
  | nil => simp at hl
  | cons c l =>
    have hc : ¬ IsDig c := by
      intro h1
      unfold IsDig at h1
      simp only [List.head?_cons, Option.any_some] at hl
      cases h2 : digitVal? c with
      | none => simp [h2] at h1
      | some _ => simp [h2] at hl
    obtain ⟨h1, h2⟩ := intStr_append hc hc h
    exact ⟨h1, List.append_cancel_left (List.cons.inj h2).2⟩

/-- **C94.**  Two command lines of number-only families with the same header are for the same formula. -/
theorem C94_header (strict : Bool) {d h : Str} {c c' : ICmd} (hf : c.Fixed) (hf' : c'.Fixed) (hh : c.header d = some h) (hh' : c'.header d = some h) :
    c.cnf strict = c'.cnf strict := by
  have hl := (header_letters hf hh).symm.trans (header_letters hf' hh')
  rw [← hh'] at hh
  cases c with
  | php p q f o =>
    cases c' with
    | php p' q' f' o' =>
      obtain ⟨rfl, rfl⟩ : f = f' ∧ o = o' := by
        revert hl; cases f <;> cases o <;> cases f' <;> cases o' <;> simp only [ICmd.letters] <;> decide
      have h0 := Option.some.inj hh
      simp only [List.append_assoc, List.append_cancel_left_eq] at h0
      obtain ⟨rfl, h1⟩ := number_then (by decide) h0
      obtain ⟨rfl, h2⟩ := number_then (by decide) h1
      rfl
    | bphp | parity | count | ptn | ram | cliquecoloring | or | and => exact absurd hl (by cases f <;> cases o <;> simp only [ICmd.letters] <;> decide)
    | _ => exact absurd hf' id
  | bphp p q b =>
    cases c' with
    | bphp p' q' b' =>
      have h0 := Option.some.inj hh
      simp only [List.append_assoc, List.append_cancel_left_eq] at h0
      obtain ⟨rfl, h1⟩ := number_then (by decide) h0
      obtain ⟨rfl, h2⟩ := number_then (by decide) h1
      obtain rfl : b = b' := hf.trans hf'.symm
      rfl
    | php p q f o => exact absurd hl (by cases f <;> cases o <;> simp only [ICmd.letters] <;> decide)
    | parity | count | ptn | ram | cliquecoloring | or | and => exact absurd hl (by simp only [ICmd.letters]; decide)
    | _ => exact absurd hf' id
  | parity n =>
    cases c' with
    | parity n' =>
      have h0 := Option.some.inj hh
      simp only [List.append_assoc, List.append_cancel_left_eq] at h0
      obtain ⟨rfl, h1⟩ := number_then (by decide) h0
      rfl
    | count n' p' =>
      have h0 := Option.some.inj hh
      simp only [List.append_assoc, List.append_cancel_left_eq] at h0
      obtain ⟨rfl, h1⟩ := number_then (by decide) h0
      obtain ⟨rfl, h2⟩ := number_then (by decide) h1
      rfl
    | php p q f o => exact absurd hl (by cases f <;> cases o <;> simp only [ICmd.letters] <;> decide)
    | bphp | ptn | ram | cliquecoloring | or | and => exact absurd hl (by simp only [ICmd.letters]; decide)
    | _ => exact absurd hf' id
  | count n p =>
    cases c' with
    | parity n' =>
      have h0 := Option.some.inj hh
      simp only [List.append_assoc, List.append_cancel_left_eq] at h0
      obtain ⟨rfl, h1⟩ := number_then (by decide) h0
      obtain ⟨rfl, h2⟩ := number_then (by decide) h1
      rfl
    | count n' p' =>
      have h0 := Option.some.inj hh
      simp only [List.append_assoc, List.append_cancel_left_eq] at h0
      obtain ⟨rfl, h1⟩ := number_then (by decide) h0
      obtain ⟨rfl, h2⟩ := number_then (by decide) h1
      rfl
    | php p q f o => exact absurd hl (by cases f <;> cases o <;> simp only [ICmd.letters] <;> decide)
    | bphp | ptn | ram | cliquecoloring | or | and => exact absurd hl (by simp only [ICmd.letters]; decide)
    | _ => exact absurd hf' id
  | ptn q n =>
    cases c' with
    | ptn q' n' =>
      have h0 := Option.some.inj hh
      simp only [List.append_assoc, List.append_cancel_left_eq] at h0
      obtain ⟨rfl, h1⟩ := number_then (by decide) h0
      obtain rfl : q = q' := hf.trans hf'.symm
      rfl
    | php p q f o => exact absurd hl (by cases f <;> cases o <;> simp only [ICmd.letters] <;> decide)
    | bphp | parity | count | ram | cliquecoloring | or | and => exact absurd hl (by simp only [ICmd.letters]; decide)
    | _ => exact absurd hf' id
  | ram s k n =>
    cases c' with
    | ram s' k' n' =>
      have h0 := Option.some.inj hh
      simp only [List.append_assoc, List.append_cancel_left_eq] at h0
      obtain ⟨rfl, h1⟩ := number_then (by decide) h0
      obtain ⟨rfl, h2⟩ := number_then (by decide) h1
      obtain ⟨rfl, h3⟩ := number_then (by decide) h2
      rfl
    | php p q f o => exact absurd hl (by cases f <;> cases o <;> simp only [ICmd.letters] <;> decide)
    | bphp | parity | count | ptn | cliquecoloring | or | and => exact absurd hl (by simp only [ICmd.letters]; decide)
    | _ => exact absurd hf' id
  | cliquecoloring n k l =>
    cases c' with
    | cliquecoloring n' k' l' =>
      have h0 := Option.some.inj hh
      simp only [List.append_assoc, List.append_cancel_left_eq] at h0
      obtain ⟨rfl, h1⟩ := number_then (by decide) h0
      obtain ⟨rfl, h2⟩ := number_then (by decide) h1
      obtain ⟨rfl, h3⟩ := number_then (by decide) h2
      rfl
    | php p q f o => exact absurd hl (by cases f <;> cases o <;> simp only [ICmd.letters] <;> decide)
    | bphp | parity | count | ptn | ram | or | and => exact absurd hl (by simp only [ICmd.letters]; decide)
    | _ => exact absurd hf' id
  | or p n =>
    cases c' with
    | or p' n' =>
      have h0 := Option.some.inj hh
      simp only [List.append_assoc, List.append_cancel_left_eq] at h0
      obtain ⟨rfl, h1⟩ := number_then (by decide) h0
      obtain ⟨rfl, h2⟩ := number_then (by decide) h1
      rfl
    | php p q f o => exact absurd hl (by cases f <;> cases o <;> simp only [ICmd.letters] <;> decide)
    | bphp | parity | count | ptn | ram | cliquecoloring | and => exact absurd hl (by simp only [ICmd.letters]; decide)
    | _ => exact absurd hf' id
  | and p n =>
    cases c' with
    | and p' n' =>
      have h0 := Option.some.inj hh
      simp only [List.append_assoc, List.append_cancel_left_eq] at h0
      obtain ⟨rfl, h1⟩ := number_then (by decide) h0
      obtain ⟨rfl, h2⟩ := number_then (by decide) h1
      rfl
    | php p q f o => exact absurd hl (by cases f <;> cases o <;> simp only [ICmd.letters] <;> decide)
    | bphp | parity | count | ptn | ram | cliquecoloring | or => exact absurd hl (by simp only [ICmd.letters]; decide)
    | _ => exact absurd hf' id
  | _ => exact absurd hf id

/-- **C94, refuted.**  `cnfgen empty` and `cnfgen emptyclause` give the same header to a formula that is satisfiable and to one that is not. -/
theorem C94_header_refuted (d : Str) : (ICmd.other .empty).header d = (ICmd.other .emptyclause).header d ∧
    ∃ F F', (ICmd.other .empty).cnf false = pure F ∧ (ICmd.other .emptyclause).cnf false = pure F' ∧ Spec.Satisfiable F.clauses ∧ ¬ Spec.Satisfiable F'.clauses := by
  refine ⟨rfl, _, _, rfl, rfl, ?_, ?_⟩
  · exact ⟨fun _ => true, by simp [Spec.Sat, emptyFormula]⟩
  · rintro ⟨α, h⟩
    obtain ⟨l, hl, _⟩ := h [] (by simp [emptyClauseFormula])
    simp at hl

/-! ### Examples -/

set_option maxRecDepth 20000 in
/-- `cnfgen or 1 1 -T flip -T or 2`, with a short standard header. -/
example : (cnfgen id (fun _ => some ((ICmd.or 1 1).args false true fun _ => ((ICmd.or 1 1).header "(C)\n".toList).getD []))
      (fun t => some (if t = ["flip".toList] then Trans.flip else Trans.or 2)) (cmdLine ["or".toList, "1".toList, "1".toList] [["flip".toList], ["or".toList, "2".toList]])) =
    pure (some ("c OR 2 substituted formula\nc\nc Polarity variables has been flipped\nc\nc Clause with 1 positive and 1 negative literals\nc\nc (C)\n" ++
      "c COMMAND LINE: cnfgen or 1 1 -T flip -T or 2\nc\np cnf 4 2\n-1 3 4 0\n-2 3 4 0\n").toList) := by rfl

/-- The hypotheses of `C94_comments` and `C94_latex_error` for it. -/
example : Cnfgen.Proper ["x_0".toList, "y_0".toList] [[1, -2]] ∧ (∀ T ∈ [Trans.flip, Trans.or 2], T.Chance ∧ ¬ T.IsComp) ∧
    (ICmd.or 1 1).cnf false = pure ⟨["x_0".toList, "y_0".toList], [[1, -2]]⟩ ∧
    (ICmd.or 1 1).header "(C)\n".toList = some (["Clause with 1 positive and 1 negative literals".toList, [], "(C)".toList].flatMap (· ++ ['\n'])) ∧
    (ICmd.parity 4).header [] = (ICmd.count 4 2).header [] ∧ (ICmd.parity 4).Fixed ∧ (ICmd.ptn Nat.sqrt 5).Fixed ∧ (ICmd.bphp 3 4 2).Fixed := by
  refine ⟨?_, ?_, rfl, rfl, rfl, trivial, rfl, ?_⟩
  · exact ⟨by decide, by decide⟩
  · simp [Trans.Chance, Trans.IsComp, Trans.Drawn]
  · show 2 = Nat.clog 2 4
    decide

end NDP.Cnfgen
