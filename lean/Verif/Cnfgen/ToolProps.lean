import Verif.Cnfgen.Renaming
import Verif.Cnfgen.GraphRound
import Verif.Cnfgen.Tools
import Verif.Cnfgen.WellFormed
/-
  C78: the command line tools: what they print, and when they refuse.
-/
namespace NDP.Cnfgen
open NDP NDP.Spec

/-! ### Specification -/

/-- The random choices of a transformation are possible ones. -/
def Trans.Chance (T : Trans) : Prop := ∀ n m, T.Drawn n m

/-- The transformations that give a formula which can be satisfied exactly if the given one can: the substitutions over at least one
variable (for equality: two), not the compressions. -/
def Trans.Faithful : Trans → Prop
  | .or n | .xor n | .maj n | .one n | .lift n => 1 ≤ n
  | .eq n | .neq n => 2 ≤ n
  | .comp .. => False
  | _ => True

/-- A compression. -/
def Trans.IsComp : Trans → Prop
  | .comp .. => True
  | _ => False

/-- `text` is a DIMACS file with the clauses `cs` over `n` variables: in the layout the solver reads, and accepted by the DIMACS reader. -/
structure Prints (text : Str) (n : Nat) (cs : List (List Int)) : Prop where
  layout : GoodDimacs text
  formula : dimacsFormula text = some cs
  reader : ∃ h, dimacs2cnf text = pure (h, ⟨oneTo n, cs⟩)
  range : ∀ c ∈ cs, ∀ l ∈ c, 1 ≤ l.natAbs ∧ l.natAbs ≤ n

/-! ### A newline at the end -/

theorem goodDimacs_nl {t : Str} (h : GoodDimacs t) : GoodDimacs (t ++ ['\n']) := by
  obtain ⟨a, b, c, h1, h2, h3, h4⟩ := h
  refine ⟨a, b, c ++ [[]], ?_, h2, h3, ?_⟩
  · rw [splitOn_append_sep', h1]; simp [splitOn]
  · intro l hl
    rcases List.mem_append.1 hl with hl | hl
    · exact h4 l hl
    · rw [List.mem_singleton.1 hl]; rfl

theorem dimacsFormula_nl (t : Str) : dimacsFormula (t ++ ['\n']) = dimacsFormula t := by
  unfold dimacsFormula dimacsTokens
  rw [splitOn_append_sep', List.flatMap_append]
  have : (splitOn '\n' ([] : Str)).flatMap (fun l => if isComment l || isProblem l then [] else splitWS l) = [] := by decide
  rw [this, List.append_nil]

section
variable {V : Type} [DecidableEq V]

theorem dimacs2cnf_nl (hdr : Option (Str × Option Str)) {n : Nat} {cs : List (List Int)} (h0 : ∀ c ∈ cs, (0 : Int) ∉ c) :
    dimacs2cnf (joinWith ['\n'] (fileLines hdr n cs) ++ ['\n']) =
      pure ((keptHeader hdr).flatMap (fun l => rstrip l ++ ['\n']), ⟨oneTo n, cs⟩) := by
  have hsp : splitOn '\n' (joinWith ['\n'] (fileLines hdr n cs) ++ ['\n']) = fileLines hdr n cs ++ [[]] := by
    rw [splitOn_append_sep', split_text]; rfl
  have hr : readlines (joinWith ['\n'] (fileLines hdr n cs) ++ ['\n']) = (fileLines hdr n cs).map (· ++ ['\n']) := by
    unfold readlines
    rw [hsp, List.dropLast_concat]
    have : (fileLines hdr n cs ++ [[]]).getLastD [] = [] := by simp [List.getLastD_eq_getLast?]
    rw [this, if_pos rfl, List.append_nil]
  have hl : (fileLines hdr n cs).map (· ++ ['\n']) = ((keptHeader hdr).map fun l => commentLine l ++ ['\n']) ++
      (specLine n cs.length ++ ['\n']) :: ((if cs = [] then [] else cs.map fun c => clauseLine c ++ ['\n']) ++ if cs = [] then [['\n']] else []) := by
    unfold fileLines
    by_cases hc : cs = []
    · simp [hc, Function.comp_def]
    · simp [hc, Function.comp_def]
  have hcl : ∀ st : DimSt, st.buffer = [] →
      ((if cs = [] then [] else cs.map fun c => clauseLine c ++ ['\n']) ++ if cs = [] then [['\n']] else []).foldlM dimLine st = pure { st with clauses := st.clauses ++ cs } := by
    intro st hb
    by_cases hc : cs = []
    · subst hc
      simp only [if_true, List.nil_append, List.foldlM_cons, List.foldlM_nil, List.append_nil]
      rfl
    · rw [if_neg hc, if_neg hc, List.append_nil, dimLine_clauses cs h0 _ ?_ st hb]
      rw [List.forall₂_map_left_iff]
      exact List.forall₂_same.2 fun c _ => .inr rfl
  unfold dimacs2cnf dimacs2compressed
  rw [hr, hl, List.foldlM_append, dimLine_comments, M.pure_bind, List.foldlM_cons, dimLine_spec _ (show (-1 : Int) < 0 by decide), M.pure_bind,
    hcl _ rfl, M.pure_bind]
  simp only [List.length_nil, Nat.lt_irrefl, if_false, List.nil_append, ne_eq, not_true_eq_false]
  rw [M.pure_bind]
  simp only [Int.toNat_natCast, addVariables_oneTo, List.nil_append]

/-- What is printed is DIMACS, with the clauses. -/
theorem prints_nl (hdr : Option (Str × Option Str)) {F : CNF V} (hF : Cnfgen.Proper F.vars F.clauses) :
    ∃ text, dimacsText hdr F = pure text ∧ Prints (text ++ ['\n']) F.vars.length F.clauses := by
  obtain ⟨text, h1, h2, h3⟩ := C57_dimacs_standard hdr F hF
  refine ⟨text, h1, goodDimacs_nl h2, by rw [dimacsFormula_nl, h3], ?_, hF.2⟩
  rw [dimacsText_eq hdr hF] at h1
  obtain rfl := (M.pure_inj _ _).1 h1
  exact ⟨_, dimacs2cnf_nl hdr hF.noZero⟩

theorem prints (hdr : Option (Str × Option Str)) {F : CNF V} (hF : Cnfgen.Proper F.vars F.clauses) :
    ∃ text, dimacsText hdr F = pure text ∧ Prints text F.vars.length F.clauses := by
  obtain ⟨text, h1, h2, h3⟩ := C57_dimacs_standard hdr F hF
  obtain ⟨text', h1', h4, _⟩ := C57_dimacs_roundtrip hdr F hF
  obtain rfl := (M.pure_inj _ _).1 (h1.symm.trans h1')
  exact ⟨text, h1, h2, h3, ⟨_, h4⟩, hF.2⟩

/-! ### One transformation -/

/-- What is known about the result of a transformation. -/
structure Made (T : Trans) (n : Nat) (cs : List (List Int)) (A : CNF V ⊕ CNF Str) : Prop where
  proper : AnyProper A
  sound : Spec.Satisfiable (anyClauses A) → Spec.Satisfiable cs
  exact_ : T.Faithful → (Spec.Satisfiable (anyClauses A) ↔ Spec.Satisfiable cs)

theorem sound_of_holds {W : Type} [DecidableEq W] {F : CNF V} {H : CNF W} (hF : Cnfgen.Proper F.vars F.clauses) (hH : Cnfgen.Proper H.vars H.clauses) (φ : (W → Bool) → V → Bool)
    (h : ∀ α, Holds H.vars H.clauses α → Holds F.vars F.clauses (φ α)) : Spec.Satisfiable H.clauses → Spec.Satisfiable F.clauses := by
  rw [hF.sat, hH.sat]
  rintro ⟨α, ha⟩
  exact ⟨_, h α ha⟩

theorem run_made {sh : V → Str} (hs : Function.Injective sh) {F : CNF V} (hF : Cnfgen.Proper F.vars F.clauses) (T : Trans) (hd : T.Drawn F.vars.length F.clauses.length) :
    (¬ T.Fits F.vars.length ∧ T.run sh F = pure Option.none) ∨
    (T.Fits F.vars.length ∧ ∃ A, T.run sh F = pure (some A) ∧ Made T F.vars.length F.clauses A) := by
  have put : ∀ {m : M (CNF Str)} {H : CNF Str}, m = pure H → (do pure (some (Sum.inr (← m))) : M (Option (CNF V ⊕ CNF Str))) = pure (some (.inr H)) := same_pure
  have putl : ∀ {m : M (CNF V)} {H : CNF V}, m = pure H → (do pure (some (Sum.inl (← m))) : M (Option (CNF V ⊕ CNF Str))) = pure (some (.inl H)) := by
    intro m H h; rw [h, M.pure_bind]
  cases T with
  | none => exact .inr ⟨trivial, .inl F, rfl, hF, id, fun _ => Iff.rfl⟩
  | flip =>
    obtain ⟨H, e1, p1, _, h⟩ := C55_flip F hF
    exact .inr ⟨trivial, .inl H, putl e1, p1, h.1, fun _ => h⟩
  | ite =>
    obtain ⟨H, e1, p1, _, h⟩ := C55_ite hs F hF
    exact .inr ⟨trivial, .inr H, put e1, p1, h.1, fun _ => h⟩
  | or n =>
    obtain ⟨H, e1, p1, h1, h⟩ := C55_or hs F hF n.toNat
    exact .inr ⟨trivial, .inr H, put e1, p1, sound_of_holds hF p1 _ fun α => (h1 α).1, fun hk => h (by simp only [Trans.Faithful] at hk; omega)⟩
  | xor n =>
    obtain ⟨H, e1, p1, h1, h⟩ := C55_xor hs F hF n.toNat
    exact .inr ⟨trivial, .inr H, put e1, p1, sound_of_holds hF p1 _ fun α => (h1 α).1, fun hk => h (by simp only [Trans.Faithful] at hk; omega)⟩
  | eq n =>
    obtain ⟨H, e1, p1, h1, h⟩ := C55_all_equal hs F hF n.toNat
    exact .inr ⟨trivial, .inr H, put e1, p1, sound_of_holds hF p1 _ fun α => (h1 α).1, fun hk => h (by simp only [Trans.Faithful] at hk; omega)⟩
  | neq n =>
    obtain ⟨H, e1, p1, h1, h⟩ := C55_not_all_equal hs F hF n.toNat
    exact .inr ⟨trivial, .inr H, put e1, p1, sound_of_holds hF p1 _ fun α => (h1 α).1, fun hk => h (by simp only [Trans.Faithful] at hk; omega)⟩
  | maj n =>
    obtain ⟨H, e1, p1, h1, h⟩ := C55_maj hs F hF n.toNat
    exact .inr ⟨trivial, .inr H, put e1, p1, sound_of_holds hF p1 _ fun α => (h1 α).1, fun hk => h (by simp only [Trans.Faithful] at hk; omega)⟩
  | one n =>
    obtain ⟨H, e1, p1, h1, h⟩ := C55_one hs F hF n.toNat
    exact .inr ⟨trivial, .inr H, put e1, p1, sound_of_holds hF p1 _ fun α => (h1 α).1, fun hk => h (by simp only [Trans.Faithful] at hk; omega)⟩
  | lift n =>
    obtain ⟨H, e1, p1, h1, h⟩ := C55_lift hs F hF n.toNat
    exact .inr ⟨trivial, .inr H, put e1, p1, sound_of_holds hF p1 _ fun α ha => ((h1 α).1 ha).2, fun hk => h (by simp only [Trans.Faithful] at hk; omega)⟩
  | comp x B =>
    by_cases hb : B.right.length = F.vars.length
    · obtain ⟨H, e1, p1, _, h1⟩ := (C55_compression F hF B x).2 hb
      refine .inr ⟨hb, .inr H, ?_, p1, sound_of_holds hF p1 _ fun α => (h1 α).1, fun hk => hk.elim⟩
      unfold Trans.run
      rw [← put e1]
      exact if_neg (by simpa using hb)
    · refine .inl ⟨hb, ?_⟩
      unfold Trans.run; exact if_pos hb
  | shuffle p v c vs cs signs =>
    obtain ⟨h1, h2, h3, h4⟩ := hd
    have hvp : (if v = true then F.vars else (vs F.vars.length).filterMap (F.vars[·]?)).Perm F.vars := by
      cases v
      · exact order_perm h1
      · exact .refl _
    have hcp : (if c = true then List.range F.clauses.length else cs F.clauses.length).Perm (List.range F.clauses.length) := by
      cases c
      · exact h2
      · exact .refl _
    obtain ⟨H, e1, p1, _, _, _, _, h⟩ := C56_shuffle F hF _ _ (if p = true then List.replicate F.vars.length 1 else signs F.vars.length) hvp hcp
      (by cases p <;> simp [h3]) (by
        cases p
        · exact h4
        · intro s hs; simp only [if_true] at hs; exact .inl (List.eq_of_mem_replicate hs))
    exact .inr ⟨trivial, .inl H, putl e1, p1, h.1, fun _ => h⟩

theorem apply_made {sh : V → Str} (hs : Function.Injective sh) (D : Doc V) (hD : AnyProper D.cnf) (T : Trans) (hd : T.Drawn (anyVars D.cnf) (anyClauses D.cnf).length) :
    (¬ T.Fits (anyVars D.cnf) ∧ D.apply sh (some T) = pure Option.none) ∨
    (T.Fits (anyVars D.cnf) ∧ ∃ D' : Doc V, D.apply sh (some T) = pure (some D') ∧ D'.header = T.title ++ D.header ∧ Made T (anyVars D.cnf) (anyClauses D.cnf) D'.cnf) := by
  obtain ⟨h, F | F⟩ := D
  · rcases run_made hs hD T hd with ⟨h1, h2⟩ | ⟨h1, A, h2, h3⟩
    · refine .inl ⟨h1, ?_⟩
      simp only [Doc.apply]; rw [h2, M.pure_bind]; rfl
    · refine .inr ⟨h1, ⟨T.title ++ h, A⟩, ?_, rfl, h3⟩
      simp only [Doc.apply]; rw [h2, M.pure_bind]; rfl
  · rcases run_made (sh := id) Function.injective_id hD T hd with ⟨h1, h2⟩ | ⟨h1, A, h2, h3⟩
    · refine .inl ⟨h1, ?_⟩
      simp only [Doc.apply]; rw [h2, M.pure_bind]; rfl
    · refine .inr ⟨h1, ⟨T.title ++ h, .inr (A.elim id id)⟩, ?_, rfl, ?_⟩
      · simp only [Doc.apply]; rw [h2, M.pure_bind]; rfl
      · cases A <;> exact ⟨h3.1, h3.2, h3.3⟩

theorem doc_prints (v : Bool) (extra : Option Str) (D : Doc V) (hD : AnyProper D.cnf) :
    ∃ text, D.dimacs v extra = pure text ∧ Prints (text ++ ['\n']) (anyVars D.cnf) (anyClauses D.cnf) := by
  obtain ⟨h, F | F⟩ := D
  · exact prints_nl _ hD
  · exact prints_nl _ hD

/-- A text without the header depends only on the numbers. -/
theorem doc_quiet {W : Type} [DecidableEq W] (D : Doc V) (D' : Doc W) (hD : AnyProper D.cnf) (hD' : AnyProper D'.cnf) (e1 : anyVars D.cnf = anyVars D'.cnf)
    (e2 : anyClauses D.cnf = anyClauses D'.cnf) (x y : Option Str) : D.dimacs false x = D'.dimacs false y := by
  have key : ∀ {U : Type} [DecidableEq U] (D : Doc U) (hD : AnyProper D.cnf) (x : Option Str), D.dimacs false x = pure (joinWith ['\n'] (fileLines Option.none (anyVars D.cnf) (anyClauses D.cnf))) := by
    intro U _ D hD x
    obtain ⟨h, F | F⟩ := D
    · exact dimacsText_eq Option.none hD
    · exact dimacsText_eq Option.none hD
  rw [key D hD, key D' hD', e1, e2]

theorem doc_unproper (v : Bool) (extra : Option Str) (D : Doc V) (hD : ¬ AnyProper D.cnf) : D.dimacs v extra = raise .assertionError := by
  obtain ⟨h, F | F⟩ := D
  · exact notProper_dimacs _ F hD
  · exact notProper_dimacs _ F hD

/-! ### Chains of transformations -/

theorem applyAll_made {sh : V → Str} (hs : Function.Injective sh) (Ts : List Trans) (hc : ∀ T ∈ Ts, T.Chance) : ∀ (D : Doc V), AnyProper D.cnf →
    ∃ r, Doc.applyAll sh (Ts.map some) D = pure r ∧ (r = Option.none → ∃ T ∈ Ts, T.IsComp) ∧
      ∀ D', r = some D' → AnyProper D'.cnf ∧ (Spec.Satisfiable (anyClauses D'.cnf) → Spec.Satisfiable (anyClauses D.cnf)) ∧
        ((∀ T ∈ Ts, T.Faithful) → (Spec.Satisfiable (anyClauses D'.cnf) ↔ Spec.Satisfiable (anyClauses D.cnf))) := by
  induction Ts with
  | nil =>
    intro D hD
    exact ⟨some D, rfl, by simp, fun D' h => by obtain rfl := Option.some.inj h; exact ⟨hD, id, fun _ => Iff.rfl⟩⟩
  | cons T Ts ih =>
    intro D hD
    rw [List.map_cons, Doc.applyAll]
    rcases apply_made hs D hD T (hc T (by simp) _ _) with ⟨h1, h2⟩ | ⟨_, D1, h2, _, h3⟩
    · rw [h2, M.pure_bind]
      refine ⟨Option.none, rfl, fun _ => ⟨T, by simp, ?_⟩, by simp⟩
      cases T <;> first | exact trivial | exact absurd trivial h1
    · rw [h2, M.pure_bind]
      obtain ⟨r, e, hn, hr⟩ := ih (fun T hT => hc T (by simp [hT])) D1 h3.proper
      refine ⟨r, e, fun h => ?_, fun D' hD' => ?_⟩
      · obtain ⟨T', hT', hx⟩ := hn h; exact ⟨T', by simp [hT'], hx⟩
      · obtain ⟨k1, k2, k3⟩ := hr D' hD'
        exact ⟨k1, fun h => h3.sound (k2 h), fun h => (k3 fun T hT => h T (by simp [hT])).trans (h3.exact_ (h T (by simp)))⟩
end

/-! ### C78: dimacstransform -/

/-- **C78.** `dimacstransform` on a DIMACS text whose literals are in range: a compression over a graph of the wrong size is refused;
otherwise a DIMACS file is printed whose formula can be satisfied only if the given one can, and exactly then for the other transformations
(with at least one variable per block). -/
theorem C78_dimacstransform (verbose : Bool) {text h : Str} {F : CNF Nat} (e : dimacs2cnf text = pure (h, F))
    (hr : ∀ c ∈ F.clauses, ∀ l ∈ c, l.natAbs ≤ F.vars.length) (T : Trans) (hT : T.Chance) :
    (¬ T.Fits F.vars.length → dimacstransform verbose (.stdin text) .text (some T) = pure none) ∧
    (T.Fits F.vars.length → ∃ out n cs, dimacstransform verbose (.stdin text) .text (some T) = pure (some out) ∧ Prints out n cs ∧
      (Spec.Satisfiable cs → Spec.Satisfiable F.clauses) ∧ (T.Faithful → (Spec.Satisfiable cs ↔ Spec.Satisfiable F.clauses))) := by
  obtain ⟨n, cs, _, hv, hc, hp, _⟩ := C70_reader_range e
  have hF : Cnfgen.Proper F.vars F.clauses := by
    refine hp fun c hc' l hl => ?_
    have := hr c (hc ▸ hc') l hl
    rwa [hv, length_oneTo] at this
  have hdt : dimacstransform verbose (.stdin text) .text (some T) = (Doc.apply natStr ⟨h, .inl F⟩ (some T) >>= fun
      | none => pure none
      | some D => do Sink.text.print (← D.dimacs verbose none)) := by
    unfold dimacstransform
    simp only [Input.open]
    rw [e, M.pure_bind]
    rfl
  rcases apply_made (fun _ _ h => natStr_injective h) (⟨h, .inl F⟩ : Doc Nat) hF T (hT _ _) with ⟨h1, h2⟩ | ⟨h1, D', h2, _, h3⟩
  · refine ⟨fun _ => ?_, fun h => absurd h h1⟩
    rw [hdt, h2, M.pure_bind]
  · refine ⟨fun h => absurd h1 h, fun _ => ?_⟩
    obtain ⟨t, ht, hP⟩ := doc_prints verbose none D' h3.proper
    refine ⟨_, _, _, ?_, hP, h3.sound, h3.exact_⟩
    rw [hdt, h2, M.pure_bind]
    simp only []
    rw [ht, M.pure_bind]
    rfl

/-- The transformation ends with a failed assertion if a literal is out of range, but for shuffling. -/
theorem run_unproper {V : Type} [DecidableEq V] (sh : V → Str) {F : CNF V} (hF : ¬ Cnfgen.Proper F.vars F.clauses) (T : Trans) (hT : ∀ p v c vs cs s, T ≠ .shuffle p v c vs cs s)
    (hn : T ≠ .none) : (¬ T.Fits F.vars.length ∧ T.run sh F = pure Option.none) ∨ (T.Fits F.vars.length ∧ T.run sh F = raise .assertionError) := by
  have base : ∀ {W : Type} [DecidableEq W] (pre : V → List (List (Lit W))) (tr : Bool → V → List (List (Lit W))) (nv : Option (List W)),
      baseSubst F pre tr nv = raise .assertionError := by
    intro W _ pre tr nv
    unfold baseSubst
    have : F.coherent = false := by
      cases hc : F.coherent
      · rfl
      · exact absurd (CNF.coherent_iff.1 hc) hF
    rw [this]
    rfl
  have put : ∀ {m : M (CNF Str)}, m = raise .assertionError → (do pure (some (Sum.inr (← m))) : M (Option (CNF V ⊕ CNF Str))) = raise .assertionError := by
    intro m h; rw [h, M.raise_bind]
  cases T with
  | none => exact absurd rfl hn
  | flip =>
    refine .inr ⟨trivial, ?_⟩
    show (do pure (some (Sum.inl (← flipSubst F)))) = _
    unfold flipSubst
    rw [base, M.raise_bind]
  | ite => exact .inr ⟨trivial, put (base _ _ _)⟩
  | or n => exact .inr ⟨trivial, put (base _ _ _)⟩
  | xor n => exact .inr ⟨trivial, put (base _ _ _)⟩
  | eq n => exact .inr ⟨trivial, put (base _ _ _)⟩
  | neq n => exact .inr ⟨trivial, put (base _ _ _)⟩
  | maj n => exact .inr ⟨trivial, put (base _ _ _)⟩
  | one n => exact .inr ⟨trivial, put (base _ _ _)⟩
  | lift n => exact .inr ⟨trivial, put (base _ _ _)⟩
  | comp x B =>
    by_cases hb : B.right.length = F.vars.length
    · refine .inr ⟨hb, ?_⟩
      have : compSubst F B x = raise .assertionError := by
        unfold compSubst; rw [if_neg (by simpa using hb), base]
      rw [← put this]
      unfold Trans.run; exact if_neg (by simpa using hb)
    · refine .inl ⟨hb, ?_⟩
      unfold Trans.run; exact if_pos hb
  | shuffle p v c vs cs s => exact absurd rfl (hT _ _ _ _ _ _)

/-- **C78.** With a literal out of range every transformation but shuffling ends with a failed assertion (or the refusal of the
graph): nothing is printed. -/
theorem C78_out_of_range (verbose : Bool) {text h : Str} {F : CNF Nat} (e : dimacs2cnf text = pure (h, F))
    (hr : ∃ c ∈ F.clauses, ∃ l ∈ c, F.vars.length < l.natAbs) (T : Trans) (hT : ∀ p v c vs cs s, T ≠ .shuffle p v c vs cs s) :
    (¬ T.Fits F.vars.length ∧ dimacstransform verbose (.stdin text) .text (some T) = pure none) ∨
    (T.Fits F.vars.length ∧ dimacstransform verbose (.stdin text) .text (some T) = raise .assertionError) := by
  have hF : ¬ Cnfgen.Proper F.vars F.clauses := by
    rintro ⟨_, h2⟩
    obtain ⟨c, hc, l, hl, hlt⟩ := hr
    have := h2 c hc l hl
    omega
  have hdt : dimacstransform verbose (.stdin text) .text (some T) = (Doc.apply natStr ⟨h, .inl F⟩ (some T) >>= fun
      | none => pure none
      | some D => do Sink.text.print (← D.dimacs verbose none)) := by
    unfold dimacstransform
    simp only [Input.open]
    rw [e, M.pure_bind]
    rfl
  by_cases hn : T = .none
  · subst hn
    refine .inr ⟨trivial, ?_⟩
    have ha : Doc.apply natStr (⟨h, .inl F⟩ : Doc Nat) (some .none) = pure (some ⟨h, .inl F⟩) := rfl
    rw [hdt, ha, M.pure_bind]
    simp only []
    rw [doc_unproper verbose none ⟨h, .inl F⟩ hF, M.raise_bind]
  · rcases run_unproper natStr hF T hT hn with ⟨h1, h2⟩ | ⟨h1, h2⟩
    · refine .inl ⟨h1, ?_⟩
      have ha : Doc.apply natStr (⟨h, .inl F⟩ : Doc Nat) (some T) = pure none := by
        simp only [Doc.apply]; rw [h2, M.pure_bind]; rfl
      rw [hdt, ha, M.pure_bind]
    · refine .inr ⟨h1, ?_⟩
      have ha : Doc.apply natStr (⟨h, .inl F⟩ : Doc Nat) (some T) = raise .assertionError := by
        simp only [Doc.apply]; rw [h2, M.raise_bind]
      rw [hdt, ha, M.raise_bind]

/-- **C78.** No tool reads a file given by `-i`; a text that is not DIMACS gives a traceback; so does a command line without a transformation, and
every result written to a binary file (`-o`). -/
theorem C78_dimacstransform_refusals (verbose : Bool) (k : Sink) (T : Option Trans) (text : Str) :
    dimacstransform verbose (.file text) k T = pure none ∧
    (∀ err, dimacs2cnf text = raise err → dimacstransform verbose (.stdin text) k T = raise err) ∧
    ((∃ r, dimacs2cnf text = pure r) → dimacstransform verbose (.stdin text) k none = raise .attributeError) ∧
    ∀ out, dimacstransform verbose (.stdin text) .binary T ≠ pure (some out) := by
  refine ⟨rfl, fun err e => ?_, fun ⟨r, e⟩ => ?_, fun out => ?_⟩
  · unfold dimacstransform
    simp only [Input.open]
    rw [e, M.raise_bind]
  · unfold dimacstransform
    simp only [Input.open]
    rw [e, M.pure_bind]
    simp only [Doc.apply]
    rw [M.raise_bind]
  · intro h
    unfold dimacstransform at h
    simp only [Input.open] at h
    obtain ⟨⟨h', F⟩, _, h⟩ := M.bind_eq_pure.1 h
    obtain ⟨D, _, h⟩ := M.bind_eq_pure.1 h
    cases D with
    | none => cases h
    | some D =>
      obtain ⟨t, _, h⟩ := M.bind_eq_pure.1 h
      simp only [Sink.print, Sink.write] at h
      cases h

/-! ### The command line -/

section
variable {A : Type} [DecidableEq A]

/-- The words of a command line: pieces with the key between them. -/
def joinKey (key : A) : List (List A) → List A
  | [] => []
  | [p] => p
  | p :: ps => p ++ key :: joinKey key ps

theorem splitlist_go (key : A) (L : List A) : ∀ (acc : List (List A)) (buf : List A),
    (L.foldl (fun (p : List (List A) × List A) e => if e = key then (p.1 ++ [p.2], []) else (p.1, p.2 ++ [e])) (acc, buf)) =
      (acc ++ (L.foldl (fun (p : List (List A) × List A) e => if e = key then (p.1 ++ [p.2], []) else (p.1, p.2 ++ [e])) ([], buf)).1,
       (L.foldl (fun (p : List (List A) × List A) e => if e = key then (p.1 ++ [p.2], []) else (p.1, p.2 ++ [e])) ([], buf)).2) := by
  induction L with
  | nil => simp
  | cons x L ih =>
    intro acc buf
    simp only [List.foldl_cons]
    by_cases hx : x = key
    · simp only [if_pos hx]
      rw [ih (acc ++ [buf]) [], ih ([] ++ [buf]) []]
      simp
    · simp only [if_neg hx]
      rw [ih acc (buf ++ [x])]

theorem splitlist_piece (key : A) (p : List A) (hp : key ∉ p) : ∀ (acc : List (List A)) (buf : List A),
    (p.foldl (fun (p : List (List A) × List A) e => if e = key then (p.1 ++ [p.2], []) else (p.1, p.2 ++ [e])) (acc, buf)) = (acc, buf ++ p) := by
  induction p with
  | nil => simp
  | cons x p ih =>
    intro acc buf
    rw [List.foldl_cons]
    simp only [if_neg (show ¬ x = key from fun h => hp (by simp [h]))]
    rw [ih (fun h => hp (by simp [h]))]
    simp

theorem splitlist_single {key : A} {p : List A} (hp : key ∉ p) : splitlist p key = [p] := by
  unfold splitlist
  rw [splitlist_piece key p hp]
  simp

theorem splitlist_append (L : List A) (key : A) {p : List A} (hp : key ∉ p) : splitlist (L ++ key :: p) key = splitlist L key ++ [p] := by
  unfold splitlist
  rw [List.foldl_append, List.foldl_cons]
  simp only [if_true]
  rw [splitlist_piece key p hp]
  simp

/-- **C79.** The pieces of the command line: joined with the key they are the command line, and none contains the key; and they are the only such
pieces. -/
theorem C79_splitlist (L : List A) (key : A) :
    splitlist L key ≠ [] ∧ joinKey key (splitlist L key) = L ∧ (∀ p ∈ splitlist L key, key ∉ p) ∧
    ∀ ps, ps ≠ [] → joinKey key ps = L → (∀ p ∈ ps, key ∉ p) → ps = splitlist L key := by
  have hj : ∀ (ps : List (List A)), ps ≠ [] → ∀ p, joinKey key (ps ++ [p]) = joinKey key ps ++ key :: p := by
    intro ps
    induction ps with
    | nil => intro h; exact absurd rfl h
    | cons a ps ih =>
      intro _ p
      cases ps with
      | nil => rfl
      | cons b ps =>
        have := ih (by simp) p
        simp only [List.cons_append, joinKey] at this ⊢
        rw [this]
        simp
  have hsp : ∀ (ps : List (List A)), ps ≠ [] → (∀ p ∈ ps, key ∉ p) → splitlist (joinKey key ps) key = ps := by
    intro ps
    induction ps using List.reverseRecOn with
    | nil => intro h; exact absurd rfl h
    | append_singleton ps p ih =>
      intro _ hk
      by_cases hps : ps = []
      · subst hps
        exact splitlist_single (hk p (by simp))
      · rw [hj ps hps, splitlist_append _ _ (hk p (by simp)), ih hps fun q hq => hk q (by simp [hq])]
  have hmain : ∀ L : List A, splitlist L key ≠ [] ∧ joinKey key (splitlist L key) = L ∧ ∀ p ∈ splitlist L key, key ∉ p := by
    intro L
    induction L using List.reverseRecOn with
    | nil => exact ⟨by simp [splitlist], rfl, by simp [splitlist]⟩
    | append_singleton L x ih =>
      obtain ⟨h1, h2, h3⟩ := ih
      by_cases hx : x = key
      · subst hx
        rw [show L ++ [x] = L ++ x :: [] from rfl, splitlist_append L x (by simp)]
        refine ⟨by simp, ?_, ?_⟩
        · rw [hj _ h1, h2]
        · intro p hp
          rcases List.mem_append.1 hp with hp | hp
          · exact h3 p hp
          · rw [List.mem_singleton.1 hp]; simp
      · obtain ⟨ps, p, hps⟩ : ∃ ps p, splitlist L key = ps ++ [p] := ⟨_, _, (List.dropLast_append_getLast h1).symm⟩
        have hk : key ∉ p ++ [x] := by
          have := h3 p (by rw [hps]; simp)
          simp only [List.mem_append, List.mem_singleton, not_or]
          exact ⟨this, fun h => hx h.symm⟩
        have hk' : ∀ q ∈ ps ++ [p ++ [x]], key ∉ q := by
          intro q hq
          rcases List.mem_append.1 hq with hq | hq
          · exact h3 q (by rw [hps]; simp [hq])
          · rw [List.mem_singleton.1 hq]; exact hk
        have hL : joinKey key (ps ++ [p ++ [x]]) = L ++ [x] := by
          rw [← h2, hps]
          by_cases hp0 : ps = []
          · subst hp0; rfl
          · rw [hj _ hp0, hj _ hp0]; simp
        rw [← hL, hsp _ (by simp) hk']
        exact ⟨by simp, rfl, hk'⟩
  obtain ⟨h1, h2, h3⟩ := hmain L
  exact ⟨h1, h2, h3, fun ps k1 k2 k3 => by rw [← k2, hsp ps k1 k3]⟩
end

/-! ### C78: cnfgen -/

section
variable {V : Type} [DecidableEq V]

/-- A command line of `cnfgen`: the words of the generator, then the words of every transformation. -/
def cmdLine (gen : List Str) (ts : List (List Str)) : List Str := "cnfgen".toList :: (gen ++ ts.flatMap fun t => "-T".toList :: t)

theorem splitlist_cmdLine (gen : List Str) (ts : List (List Str)) (hg : "-T".toList ∉ gen) (ht : ∀ t ∈ ts, "-T".toList ∉ t) :
    splitlist (cmdLine gen ts) "-T".toList = ("cnfgen".toList :: gen) :: ts := by
  induction ts using List.reverseRecOn with
  | nil =>
    simp only [cmdLine, List.flatMap_nil, List.append_nil]
    exact splitlist_single (by
      intro h
      rcases List.mem_cons.1 h with h | h
      · exact absurd h (by decide)
      · exact hg h)
  | append_singleton ts t ih =>
    have e : cmdLine gen (ts ++ [t]) = cmdLine gen ts ++ "-T".toList :: t := by simp [cmdLine]
    rw [e, splitlist_append _ _ (ht t (by simp)), ih fun t ht' => ht t (by simp [ht'])]
    rfl

theorem mapOpt_all {A B : Type} {f : A → Option B} {l : List A} {r : List B} (h : List.Forall₂ (fun a b => f a = some b) l r) : mapOpt f l = some r := by
  induction h with
  | nil => rfl
  | cons h1 _ ih => simp [mapOpt, h1, ih]

/-- `cnfgen` on a command line that is parsed. -/
theorem cnfgen_eq (sh : V → Str) (parse : List Str → Option (GenArgs V)) (parseT : List Str → Option (Option Trans)) (gen : List Str) (ts : List (List Str))
    (hg : "-T".toList ∉ gen) (ht : ∀ t ∈ ts, "-T".toList ∉ t) {args : GenArgs V} (hp : parse gen = some args) {Ts : List (Option Trans)}
    (hT : List.Forall₂ (fun t T => parseT t = some T) ts Ts) :
    cnfgen sh parse parseT (cmdLine gen ts) = (reported args.build >>= fun
      | none => pure none
      | some (h, F) => Doc.applyAll sh Ts ⟨h, .inl F⟩ >>= fun
        | none => pure none
        | some D => D.dimacs args.verbose (some ("COMMAND LINE: cnfgen ".toList ++ joinWith [' '] ((cmdLine gen ts).drop 1) ++ ['\n'])) >>= args.sink.print) := by
  unfold cnfgen
  rw [splitlist_cmdLine gen ts hg ht]
  simp only [List.headD_cons, List.tail_cons, List.drop_succ_cons, List.drop_zero]
  rw [hp, mapOpt_all hT]
  rfl

/-- **C78.** `cnfgen gen -T t₁ -T t₂ …`: if the generator makes the proper formula `F`, and the transformations are possible, then a DIMACS file
is printed; its formula can be satisfied only if `F` can, and exactly then if no transformation is a compression or has too few variables.  Only a
compression can be refused.  A `ValueError` or `AttributeError` of the generator is reported; other errors are not caught. -/
theorem C78_cnfgen {sh : V → Str} (hs : Function.Injective sh) (parse : List Str → Option (GenArgs V)) (parseT : List Str → Option (Option Trans))
    (gen : List Str) (ts : List (List Str)) (hg : "-T".toList ∉ gen) (ht : ∀ t ∈ ts, "-T".toList ∉ t)
    {args : GenArgs V} (hp : parse gen = some args) {Ts : List Trans} (hT : List.Forall₂ (fun t T => parseT t = some (some T)) ts Ts)
    (hc : ∀ T ∈ Ts, T.Chance) (hk : args.sink = .text) :
    (∀ h F, args.build = pure (h, F) → Cnfgen.Proper F.vars F.clauses →
      (cnfgen sh parse parseT (cmdLine gen ts) = pure none ∧ ∃ T ∈ Ts, T.IsComp) ∨
      ∃ out n cs, cnfgen sh parse parseT (cmdLine gen ts) = pure (some out) ∧ Prints out n cs ∧
        (Spec.Satisfiable cs → Spec.Satisfiable F.clauses) ∧ ((∀ T ∈ Ts, T.Faithful) → (Spec.Satisfiable cs ↔ Spec.Satisfiable F.clauses))) ∧
    (∀ e, args.build = raise e → cnfgen sh parse parseT (cmdLine gen ts) =
      if e = .valueError ∨ e = .attributeError then pure none else raise e) := by
  have hT' : List.Forall₂ (fun t T => parseT t = some T) ts (Ts.map some) := by
    rw [List.forall₂_map_right_iff]; exact hT
  have heq := cnfgen_eq sh parse parseT gen ts hg ht hp hT'
  constructor
  · intro h F hb hF
    have hrep : reported args.build = pure (some (h, F)) := by rw [hb]; rfl
    rw [heq, hrep, M.pure_bind]
    simp only []
    obtain ⟨r, e, hn, hr⟩ := applyAll_made hs Ts hc ⟨h, .inl F⟩ hF
    rw [e, M.pure_bind]
    cases r with
    | none => exact .inl ⟨rfl, hn rfl⟩
    | some D =>
      obtain ⟨k1, k2, k3⟩ := hr D rfl
      obtain ⟨t, ht', hP⟩ := doc_prints args.verbose (some ("COMMAND LINE: cnfgen ".toList ++ joinWith [' '] ((cmdLine gen ts).drop 1) ++ ['\n'])) D k1
      refine .inr ⟨_, _, _, ?_, hP, k2, k3⟩
      simp only []
      rw [ht', M.pure_bind, hk]
      rfl
  · intro e hb
    have hrep : reported args.build = if e = .valueError ∨ e = .attributeError then pure none else raise e := by rw [hb]; rfl
    rw [heq, hrep]
    split
    · rw [M.pure_bind]
    · rw [M.raise_bind]

/-! ### C79: pipes -/

theorem apply_same {sh : V → Str} (hs : Function.Injective sh) (D : Doc V) (hD : AnyProper D.cnf) {G : CNF Nat} (hG : Cnfgen.Proper G.vars G.clauses)
    (e1 : anyVars D.cnf = G.vars.length) (e2 : anyClauses D.cnf = G.clauses) (T : Trans) (hT : T.Chance) (h : Str) :
    (¬ T.Fits G.vars.length ∧ D.apply sh (some T) = pure none ∧ Doc.apply natStr ⟨h, .inl G⟩ (some T) = pure none) ∨
    (T.Fits G.vars.length ∧ ∃ (D1 : Doc V) (D2 : Doc Nat), D.apply sh (some T) = pure (some D1) ∧ Doc.apply natStr ⟨h, .inl G⟩ (some T) = pure (some D2) ∧
      AnyProper D1.cnf ∧ AnyProper D2.cnf ∧ anyVars D1.cnf = anyVars D2.cnf ∧ anyClauses D1.cnf = anyClauses D2.cnf) := by
  have hN : Function.Injective natStr := fun _ _ h => natStr_injective h
  obtain ⟨h0, F | F⟩ := D
  · rcases run_same hs hN hD hG ⟨e1, e2⟩ T (hT _ _) with ⟨h1, h2, h3⟩ | ⟨h1, A, B, h2, h3, h4, h5, h6, h7⟩
    · refine .inl ⟨by rw [← e1]; exact h1, ?_, ?_⟩
      · simp only [Doc.apply]; rw [h2, M.pure_bind]; rfl
      · simp only [Doc.apply]; rw [h3, M.pure_bind]; rfl
    · refine .inr ⟨by rw [← e1]; exact h1, ⟨T.title ++ h0, A⟩, ⟨T.title ++ h, B⟩, ?_, ?_, h4, h5, h6, h7⟩
      · simp only [Doc.apply]; rw [h2, M.pure_bind]; rfl
      · simp only [Doc.apply]; rw [h3, M.pure_bind]; rfl
  · rcases run_same (sh := id) Function.injective_id hN hD hG ⟨e1, e2⟩ T (hT _ _) with ⟨h1, h2, h3⟩ | ⟨h1, A, B, h2, h3, h4, h5, h6, h7⟩
    · refine .inl ⟨by rw [← e1]; exact h1, ?_, ?_⟩
      · simp only [Doc.apply]; rw [h2, M.pure_bind]; rfl
      · simp only [Doc.apply]; rw [h3, M.pure_bind]; rfl
    · refine .inr ⟨by rw [← e1]; exact h1, ⟨T.title ++ h0, .inr (A.elim id id)⟩, ⟨T.title ++ h, B⟩, ?_, ?_, ?_, h5, ?_, ?_⟩
      · simp only [Doc.apply]; rw [h2, M.pure_bind]; rfl
      · simp only [Doc.apply]; rw [h3, M.pure_bind]; rfl
      · cases A <;> exact h4
      · cases A <;> exact h6
      · cases A <;> exact h7

theorem applyAll_append (sh : V → Str) (Ts : List (Option Trans)) (T : Option Trans) (D : Doc V) :
    Doc.applyAll sh (Ts ++ [T]) D = (Doc.applyAll sh Ts D >>= fun
      | none => pure none
      | some D' => D'.apply sh T) := by
  induction Ts generalizing D with
  | nil =>
    rw [List.nil_append, Doc.applyAll, Doc.applyAll, M.pure_bind]
    simp only []
    rcases M.cases (D.apply sh T) with hd | ⟨e, he⟩ | ⟨r, hr⟩
    · rw [hd, M.diverge_bind]
    · rw [he, M.raise_bind]
    · rw [hr, M.pure_bind]; cases r <;> rfl
  | cons T' Ts ih =>
    rw [List.cons_append, Doc.applyAll, Doc.applyAll]
    rcases M.cases (D.apply sh T') with hd | ⟨e, he⟩ | ⟨r, hr⟩
    · rw [hd, M.diverge_bind, M.diverge_bind, M.diverge_bind]
    · rw [he, M.raise_bind, M.raise_bind, M.raise_bind]
    · rw [hr, M.pure_bind, M.pure_bind]
      cases r with
      | none => rw [M.pure_bind]
      | some D' => exact ih D'

/-- **C79.** Piping is the same as a further `-T`: if `cnfgen gen -T t₁ … -T tₙ` prints `mid`, then `cnfgen gen -T t₁ … -T tₙ -T t` and
`dimacstransform t` on `mid` both refuse, or print the same clauses over as many variables — the same text if both are quiet. -/
theorem C79_pipe {sh : V → Str} (hs : Function.Injective sh) (parse : List Str → Option (GenArgs V)) (parseT : List Str → Option (Option Trans))
    (gen : List Str) (ts : List (List Str)) (t : List Str) (hg : "-T".toList ∉ gen) (ht : ∀ t ∈ ts, "-T".toList ∉ t) (ht' : "-T".toList ∉ t)
    {args : GenArgs V} (hp : parse gen = some args) {Ts : List (Option Trans)} (hT : List.Forall₂ (fun t T => parseT t = some T) ts Ts)
    {T : Trans} (hT' : parseT t = some (some T)) (hc : T.Chance) {mid : Str} (hm : cnfgen sh parse parseT (cmdLine gen ts) = pure (some mid)) (verbose : Bool) :
    (cnfgen sh parse parseT (cmdLine gen (ts ++ [t])) = pure none ∧ dimacstransform verbose (.stdin mid) .text (some T) = pure none) ∨
    ∃ out out' n cs, cnfgen sh parse parseT (cmdLine gen (ts ++ [t])) = pure (some out) ∧ dimacstransform verbose (.stdin mid) .text (some T) = pure (some out') ∧
      Prints out n cs ∧ Prints out' n cs ∧ (args.verbose = false → verbose = false → out = out') := by
  rw [cnfgen_eq sh parse parseT gen ts hg ht hp hT] at hm
  have hT2 : List.Forall₂ (fun t T => parseT t = some T) (ts ++ [t]) (Ts ++ [some T]) :=
    List.rel_append hT (.cons hT' .nil)
  rw [cnfgen_eq sh parse parseT gen (ts ++ [t]) hg (by
    intro u hu
    rcases List.mem_append.1 hu with hu | hu
    · exact ht u hu
    · rw [List.mem_singleton.1 hu]; exact ht') hp hT2]
  obtain ⟨r, hr, hm⟩ := M.bind_eq_pure.1 hm
  rw [hr, M.pure_bind]
  cases r with
  | none => cases hm
  | some p =>
    obtain ⟨h, F⟩ := p
    simp only [] at hm ⊢
    obtain ⟨r, hr2, hm⟩ := M.bind_eq_pure.1 hm
    cases r with
    | none => cases hm
    | some D =>
      simp only [] at hm
      obtain ⟨txt, htxt, hm⟩ := M.bind_eq_pure.1 hm
      have hk : args.sink = .text := by
        cases hk : args.sink
        · rfl
        · rw [hk] at hm; simp only [Sink.print, Sink.write] at hm; cases hm
      rw [hk] at hm ⊢
      have hmid : mid = txt ++ ['\n'] := by
        simp only [Sink.print, Sink.write] at hm
        exact (Option.some.inj ((M.pure_inj _ _).1 hm)).symm
      have hD : AnyProper D.cnf := by
        by_contra hD
        rw [doc_unproper _ _ _ hD] at htxt
        cases htxt
      obtain ⟨txt', e1, hP⟩ := doc_prints args.verbose (some ("COMMAND LINE: cnfgen ".toList ++ joinWith [' '] ((cmdLine gen ts).drop 1) ++ ['\n'])) D hD
      obtain rfl := (M.pure_inj _ _).1 (htxt.symm.trans e1)
      rw [← hmid] at hP
      obtain ⟨hd, hread⟩ := hP.reader
      have hG : Cnfgen.Proper (⟨oneTo (anyVars D.cnf), anyClauses D.cnf⟩ : CNF Nat).vars (⟨oneTo (anyVars D.cnf), anyClauses D.cnf⟩ : CNF Nat).clauses :=
        ⟨oneTo_nodup _, by rw [length_oneTo]; exact hP.range⟩
      have hdt : dimacstransform verbose (.stdin mid) .text (some T) = (Doc.apply natStr ⟨hd, .inl ⟨oneTo (anyVars D.cnf), anyClauses D.cnf⟩⟩ (some T) >>= fun
          | none => pure none
          | some D => do Sink.text.print (← D.dimacs verbose none)) := by
        unfold dimacstransform
        simp only [Input.open]
        rw [hread, M.pure_bind]
        rfl
      rw [applyAll_append, hr2, M.pure_bind, hdt]
      simp only []
      rcases apply_same hs D hD hG (length_oneTo _).symm rfl T hc hd with ⟨_, h2, h3⟩ | ⟨_, D1, D2, h2, h3, p1, p2, e1, e2⟩
      · rw [h2, h3, M.pure_bind, M.pure_bind]
        exact .inl ⟨rfl, rfl⟩
      · rw [h2, h3, M.pure_bind, M.pure_bind]
        obtain ⟨t1, k1, k2⟩ := doc_prints args.verbose (some ("COMMAND LINE: cnfgen ".toList ++ joinWith [' '] ((cmdLine gen (ts ++ [t])).drop 1) ++ ['\n'])) D1 p1
        obtain ⟨t2, k3, k4⟩ := doc_prints verbose none D2 p2
        refine .inr ⟨t1 ++ ['\n'], t2 ++ ['\n'], anyVars D1.cnf, anyClauses D1.cnf, ?_, ?_, k2, by rw [e1, e2]; exact k4, ?_⟩
        · simp only []; rw [k1, M.pure_bind]; rfl
        · simp only []; rw [k3, M.pure_bind]; rfl
        · intro v1 v2
          rw [v1] at k1
          rw [v2] at k3
          rw [doc_quiet D1 D2 p1 p2 e1 e2 _ none] at k1
          rw [(M.pure_inj _ _).1 (k1.symm.trans k3)]
end

/-! ### C80: the other tools -/

/-- **C80.** `cnfshuffle` on a DIMACS text whose literals are in range prints a DIMACS file with as many clauses and variables, whose formula can be
satisfied exactly if the given one can. -/
theorem C80_cnfshuffle (verbose p v c : Bool) (vs cs : Nat → List Nat) (signs : Nat → List Int) (hT : (Trans.shuffle p v c vs cs signs).Chance)
    {text h : Str} {F : CNF Nat} (e : dimacs2cnf text = pure (h, F)) (hr : ∀ c ∈ F.clauses, ∀ l ∈ c, l.natAbs ≤ F.vars.length) :
    ∃ out ds, cnfshuffle verbose (.stdin text) .text p v c vs cs signs = pure (some out) ∧ Prints out F.vars.length ds ∧ ds.length = F.clauses.length ∧
      (Spec.Satisfiable ds ↔ Spec.Satisfiable F.clauses) := by
  obtain ⟨n, cls, _, hv, hc, hp, _⟩ := C70_reader_range e
  have hF : Cnfgen.Proper F.vars F.clauses := by
    refine hp fun c hc' l hl => ?_
    have := hr c (hc ▸ hc') l hl
    rwa [hv, length_oneTo] at this
  obtain ⟨h1, h2, h3, h4⟩ := hT F.vars.length F.clauses.length
  have hvp : (if v = true then F.vars else (vs F.vars.length).filterMap (F.vars[·]?)).Perm F.vars := by
    cases v
    · exact order_perm h1
    · exact .refl _
  have hcp : (if c = true then List.range F.clauses.length else cs F.clauses.length).Perm (List.range F.clauses.length) := by
    cases c
    · exact h2
    · exact .refl _
  obtain ⟨H, e1, p1, hHv, hlen, _, _, hsat⟩ := C56_shuffle F hF _ _ (if p = true then List.replicate F.vars.length 1 else signs F.vars.length) hvp hcp
    (by cases p <;> simp [h3]) (by
      cases p
      · exact h4
      · intro s hs; simp only [if_true] at hs; exact .inl (List.eq_of_mem_replicate hs))
  obtain ⟨out, k1, k2⟩ := prints (if verbose then some ("Reshuffling of:\n\n".toList ++ h, none) else none) p1
  refine ⟨out, H.clauses, ?_, ?_, hlen, hsat⟩
  · unfold cnfshuffle shuffleArgs
    simp only [Input.open]
    rw [e, M.pure_bind]
    simp only []
    rw [e1, M.pure_bind, k1, M.pure_bind]
    rfl
  · rw [hHv, hvp.length_eq] at k2; exact k2

theorem shuffle_result {V : Type} [DecidableEq V] {F H : CNF V} {vp : List V} {cp : List Nat} {flip : List Int} (hn : vp.Nodup) (h : shuffle F vp cp flip = pure H) :
    Cnfgen.Proper H.vars H.clauses ∧ H.vars = vp := by
  unfold shuffle at h
  split at h
  · cases h
  split at h
  · cases h
  split at h
  · cases h
  obtain ⟨_, _, h⟩ := M.bind_eq_pure.1 h
  obtain ⟨_, _, h⟩ := M.bind_eq_pure.1 h
  obtain ⟨_, _, h⟩ := M.bind_eq_pure.1 h
  simp only [] at h
  split at h
  · rename_i hco
    have hH := (M.pure_inj _ _).1 h
    rw [← hH]
    refine ⟨CNF.coherent_iff.1 hco, ?_⟩
    show (({} : CNF V).addVariables _).vars = vp
    rw [CNF.addVariables_vars hn (by simp)]
    rfl
  · cases h

/-- **C80 (refuted for literals out of range).** There is a DIMACS text, accepted by the reader, whose formula can be satisfied, and which `cnfshuffle`
turns into a text whose formula cannot, whatever the random choices. -/
theorem C80_cnfshuffle_refuted (verbose p v c : Bool) (vs cs : Nat → List Nat) (signs : Nat → List Int) (hT : (Trans.shuffle p v c vs cs signs).Chance) :
    dimacsFormula "p cnf 1 2\n1 0\n2 0\n".toList = some [[1], [2]] ∧ Spec.Satisfiable [[1], [2]] ∧
    ∃ out ds, cnfshuffle verbose (.stdin "p cnf 1 2\n1 0\n2 0\n".toList) .text p v c vs cs signs = pure (some out) ∧ Prints out 1 ds ∧ ¬ Spec.Satisfiable ds := by
  obtain ⟨h1, h2, h3, h4⟩ := hT 1 2
  have hvp : (if v = true then [1] else (vs 1).filterMap ([1][·]?)).Perm [1] := by
    cases v
    · exact order_perm (l := [1]) h1
    · exact .refl _
  have hcp : (if c = true then List.range 2 else cs 2).Perm [0, 1] := by
    cases c
    · exact h2
    · exact .refl _
  have hfl : (if p = true then List.replicate 1 1 else signs 1) = [1] ∨ (if p = true then List.replicate 1 1 else signs 1) = [-1] := by
    cases p
    · simp only [Bool.false_eq_true, if_false]
      match hs : signs 1, h3, h4 with
      | [s], _, h4 => rcases h4 s (by simp) with h | h <;> simp [h]
    · exact .inl rfl
  obtain ⟨e, hsat, H, k1, k2⟩ := C56_out_of_range_refuted _ _ _ hvp hcp hfl
  have hp := shuffle_result (hvp.nodup_iff.2 (by simp)) k1
  have hp : Cnfgen.Proper H.vars H.clauses ∧ H.vars.length = 1 := ⟨hp.1, by rw [hp.2, hvp.length_eq]; rfl⟩
  obtain ⟨out, k3, k4⟩ := prints (if verbose then some ("Reshuffling of:\n\n".toList ++ [], none) else none) hp.1
  refine ⟨by decide, hsat, out, H.clauses, ?_, by rw [hp.2] at k4; exact k4, k2⟩
  unfold cnfshuffle shuffleArgs
  simp only [Input.open]
  rw [e, M.pure_bind]
  simp only [List.length_cons, List.length_nil, Nat.zero_add, Nat.reduceAdd]
  rw [k1, M.pure_bind, k3, M.pure_bind]
  rfl

/-- **C80.** `kthlist2pebbling` on a text that lists the predecessors of `n` vertices: a cycle gives a `ValueError`; without a cycle, and with a
transformation that fits, a DIMACS file is printed, and for `n ≠ 0` its formula cannot be satisfied — whatever the transformation. -/
theorem C80_kthlist2pebbling (dflt : Str) (verbose : Bool) {text : Str} {n : Nat} {adj : List (Int × List Int)} (h : KthText text n adj) (T : Trans) (hT : T.Chance) :
    (¬ NoCycle (Listed adj) → kthlist2pebbling dflt verbose (.stdin text) .text (some T) = raise .valueError) ∧
    (NoCycle (Listed adj) → ¬ T.Fits n → kthlist2pebbling dflt verbose (.stdin text) .text (some T) = pure none) ∧
    (NoCycle (Listed adj) → T.Fits n → ∃ out m cs, kthlist2pebbling dflt verbose (.stdin text) .text (some T) = pure (some out) ∧ Prints out m cs ∧
      (n ≠ 0 → ¬ Spec.Satisfiable cs)) := by
  obtain ⟨k1, k2⟩ := C71_kth_dag h
  have main : NoCycle (Listed adj) → ∃ (hd : Str) (F : CNF Int), kthlist2pebbling dflt verbose (.stdin text) .text (some T) =
      (Doc.apply intStr ⟨hd, .inl F⟩ (some T) >>= fun
        | none => pure none
        | some D => do Sink.text.print (← D.dimacs verbose none)) ∧ Cnfgen.Proper F.vars F.clauses ∧ F.vars.length = n ∧ (n ≠ 0 → ¬ Spec.Satisfiable F.clauses) := by
    intro hc
    obtain ⟨G, e, _, hv, hw, hE⟩ := k1 hc
    have hdw : (⟨G.nodes, G.edges⟩ : Digraph Int).Wf := ⟨hw.nodup, hw.ends⟩
    have hac : (⟨G.nodes, G.edges⟩ : Digraph Int).Acyclic := by
      intro v hcy
      refine hc v (Relation.TransGen.mono (fun a b hab => (hE a b).1 ?_) v v hcy)
      unfold Nx.hasEdge
      simpa using Or.inl hab
    obtain ⟨F, hF, hFv, hsat⟩ := (C64_pebbling _ hdw).2 hac
    refine ⟨"Pebbling formula of: ".toList ++ G.name ++ "\n\n".toList ++ dflt, F, ?_, ?_, ?_, ?_⟩
    · unfold kthlist2pebbling
      simp only [Input.open]
      rw [e, M.pure_bind, hF, M.pure_bind]
      rfl
    · unfold pebbling at hF
      split at hF
      · exact (ofParts_coh hF).proper
      · cases hF
    · rw [hFv]; show G.nodes.length = n; rw [hv, intsTo, List.length_map, length_oneTo]
    · intro hn hs
      have := hsat.1 hs
      have : G.nodes.length = 0 := by rw [show G.nodes = [] from this]; rfl
      rw [hv, intsTo, List.length_map, length_oneTo] at this
      exact hn this
  refine ⟨fun hc => ?_, fun hc hf => ?_, fun hc hf => ?_⟩
  · unfold kthlist2pebbling
    simp only [Input.open]
    rw [k2 hc, M.raise_bind]
  · obtain ⟨hd, F, e, hF, hn, _⟩ := main hc
    rcases apply_made (fun _ _ h => intStr_injective h) (⟨hd, .inl F⟩ : Doc Int) hF T (hT _ _) with ⟨_, h2⟩ | ⟨h1, _⟩
    · rw [e, h2, M.pure_bind]
    · exact absurd (hn ▸ h1) hf
  · obtain ⟨hd, F, e, hF, hn, hu⟩ := main hc
    rcases apply_made (fun _ _ h => intStr_injective h) (⟨hd, .inl F⟩ : Doc Int) hF T (hT _ _) with ⟨h1, _⟩ | ⟨_, D', h2, _, h3⟩
    · exact absurd (show T.Fits F.vars.length from hn ▸ hf) h1
    · obtain ⟨t, ht, hP⟩ := doc_prints verbose none D' h3.proper
      refine ⟨_, _, _, ?_, hP, fun hn hs => hu hn (h3.sound hs)⟩
      rw [e, h2, M.pure_bind]
      simp only []
      rw [ht, M.pure_bind]
      rfl

end NDP.Cnfgen
