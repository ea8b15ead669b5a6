import Verif.Cnfgen.DimacsProps
/-
  Model of `CNF.latex` (`cnf.py` 566-706), and C88: what the LaTeX text shows.
-/
namespace NDP.Cnfgen
open NDP

/-- `name.find("_")`. -/
def findUnderscore (name : Str) : Int := if '_' ∈ name then (name.idxOf '_' : Int) else -1

/-- `name[:k]` for the results of `find`. -/
def sliceTo (name : Str) (k : Int) : Str := if k < 0 then name.take (name.length - k.natAbs) else name.take k.toNat

/-- `name[k:]` for the results of `find`. -/
def sliceFrom (name : Str) (k : Int) : Str := if k < 0 then name.drop (name.length - k.natAbs) else name.drop k.toNat

section
variable {V : Type} [DecidableEq V] (sh : V → Str) (asStr : V → Option Str)

/-- `cnf.py` 655-663 (`map_literals`).  `sh` is `str`; `asStr` gives the name itself when it is a string (only strings have
the method `find`). -/
def mapLiteral (F : CNF V) (l : Int) : M Str :=
  if l = 0 then raise .assertionError
  else do
    let v ← orRaise .indexError (F.vars[l.natAbs - 1]?)
    if l > 0 then pure ("           {".toList ++ sh v ++ "}".toList)
    else do
      let name ← orRaise .attributeError (asStr v)
      pure ("{\\overline{".toList ++ sliceTo name (findUnderscore name) ++ "}".toList ++
        sliceFrom name (findUnderscore name) ++ "}".toList)

/-- `cnf.py` 665-679 (`write_clause`). -/
def writeClause (F : CNF V) (c : List Int) (first full : Bool) : M Str := do
  let start := (if first then "\n&".toList else " \\\\\n&".toList) ++ (if full || first then "       ".toList else " \\land ".toList)
  if c.length = 0 then pure (start ++ "\\square".toList)
  else do
    let ls ← c.mapM (mapLiteral sh asStr F)
    if full then pure (start ++ joinWith " \\lor ".toList ls)
    else pure (start ++ ("\\left( ".toList ++ joinWith " \\lor ".toList ls ++ " \\right)".toList))

/-- `cnf.py` 692-698: the body of the loop over the clauses. -/
def writeNth (F : CNF V) (full : Bool) (p : List Int × Nat) : M Str :=
  if p.2 % 40 = 0 ∧ p.2 ≠ 0 ∧ full = true then do
    let t ← writeClause sh asStr F p.1 true full
    pure ("\n\\end{align}\\pagebreak".toList ++ "\n\\begin{align}".toList ++ t)
  else writeClause sh asStr F p.1 (p.2 == 0) full

/-- `cnf.py` 622-627. -/
def latexPreamble : Str :=
  "%\n\\documentclass[10pt,a4paper]{article}\n\\usepackage[margin=1in]{geometry}\n\\usepackage{amsmath}\n\\usepackage{listings}\n".toList

/-- `title.replace("_","\_")`. -/
def escapeUnderscore (t : Str) : Str := t.flatMap fun c => if c = '_' then ['\\', '_'] else [c]

/-- `cnf.py` 632-653: what comes before the formula. -/
def latexStart (exportHeader : Bool) (header : Str) (extra : Option Str) (full : Bool) : Str :=
  (if exportHeader then (splitOn '\n' header).dropLast.flatMap fun s => rstrip ('%' :: ' ' :: s) ++ ['\n'] else []) ++
  (if full then latexPreamble ++ "\\begin{document}\n".toList ++
      "\\title{".toList ++ escapeUnderscore ((splitOn '\n' header).headD []) ++ "}\n".toList ++
      "\\author{CNFgen formula generator}\n".toList ++ "\\maketitle\n".toList ++
      "\\noindent\\textbf{Formula header:}\n".toList ++ "\\begin{lstlisting}[breaklines]\n".toList ++ header ++
      "\\end{lstlisting}\n".toList ++ "\\bigskip\n".toList ++ extra.getD []
    else [])

/-- `cnf.py` 689-698: the rows. -/
def latexRows (full : Bool) (F : CNF V) : M Str :=
  if F.clauses.length = 0 then pure "\n   \\top".toList
  else do
    let ts ← F.clauses.zipIdx.mapM (writeNth sh asStr F full)
    pure ts.flatten

/-- `cnf.py` 566-706 (`latex`). -/
def latexText (exportHeader : Bool) (header : Str) (extra : Option Str) (full : Bool) (F : CNF V) : M Str :=
  if !F.coherent then raise .assertionError else do
  let rows ← latexRows sh asStr full F
  pure (latexStart exportHeader header extra full ++
    (if full then "\\noindent\\textbf{CNF with ".toList ++ natStr F.vars.length ++ " variables and and ".toList ++
      natStr F.clauses.length ++ " clauses:}\n".toList else []) ++
    "\\begin{align}".toList ++ rows ++ "\n\\end{align}".toList ++ (if full then "\n\\end{document}".toList else []))

end

/-! ### Specification -/

/-- A literal as it is shown: a positive one is the name in braces; of a negative one the part before the first underscore has a
bar.  Without an underscore, everything but the last character has the bar. -/
inductive ShowsLit : Lit Str → Str → Prop
  | pos (n : Str) : ShowsLit (true, n) ("           {".toList ++ n ++ "}".toList)
  | neg (h i : Str) (hh : '_' ∉ h) : ShowsLit (false, h ++ '_' :: i) ("{\\overline{".toList ++ h ++ "}".toList ++ '_' :: i ++ "}".toList)
  | negPlain (h : Str) (c : Char) (hh : '_' ∉ h) (hc : c ≠ '_') :
      ShowsLit (false, h ++ [c]) ("{\\overline{".toList ++ h ++ "}".toList ++ c :: "}".toList)
  | negEmpty : ShowsLit (false, []) ("{\\overline{}}".toList)

/-- A clause as it is shown in its row. -/
inductive ShowsRow (full : Bool) : List (Lit Str) → Str → Prop
  | empty : ShowsRow full [] "\\square".toList
  | lits {c : List (Lit Str)} {ts : List Str} (hc : c ≠ []) (h : List.Forall₂ ShowsLit c ts) :
      ShowsRow full c (if full then joinWith " \\lor ".toList ts else "\\left( ".toList ++ joinWith " \\lor ".toList ts ++ " \\right)".toList)

/-- The rows of one page. -/
def pageText (full : Bool) (rows : List Str) : Str :=
  "\n&       ".toList ++ joinWith (if full then " \\\\\n&       ".toList else " \\\\\n& \\land ".toList) rows

/-- The formula as it is shown: all clauses, in order, one per row, cut into pages. -/
inductive ShowsClauses (full : Bool) : List (List (Lit Str)) → Str → Prop
  | none : ShowsClauses full [] "\\begin{align}\n   \\top\n\\end{align}".toList
  | pages {cs : List (List (Lit Str))} {rows : List Str} {pages : List (List Str)} (hc : cs ≠ [])
      (h : List.Forall₂ (ShowsRow full) cs rows) (hp : pages.flatten = rows) (hne : ∀ p ∈ pages, p ≠ [])
      (hcut : full = false → pages.length = 1) (h40 : full = true → (∀ p ∈ pages.dropLast, p.length = 40) ∧ ∀ p ∈ pages, p.length ≤ 40) :
      ShowsClauses full cs ("\\begin{align}".toList ++
        joinWith "\n\\end{align}\\pagebreak\n\\begin{align}".toList (pages.map (pageText full)) ++ "\n\\end{align}".toList)

end NDP.Cnfgen
