import Verif.Cnfgen.DimacsProps
import Verif.Cnfgen.TransformProps
import Verif.Cnfgen.PigeonProps
import Verif.Cnfgen.Ordering
import Verif.Cnfgen.Counting
import Verif.Cnfgen.Tseitin
import Verif.Cnfgen.Coloring
/-
  C58: a formula object after any history of calls; every family makes a well-formed formula.
-/
namespace NDP.Cnfgen
open NDP

section
variable {V : Type} [DecidableEq V]

/-- A call of the public interface of `CNF`: `add_variable`, `add_clause` (with `strict`), `add_clause_unsafe`. -/
inductive Call (V : Type) where
  | var (v : V)
  | clause (strict : Bool) (c : List (Lit V))
  | raw (c : List (Lit V))

/-- The clause a call adds. -/
def Call.added : Call V → List (List (Lit V))
  | .var _ => []
  | .clause _ c => [c]
  | .raw c => [c]

/-- The variables a call names. -/
def Call.named : Call V → List V
  | .var v => [v]
  | .clause _ c => c.map Prod.snd
  | .raw c => c.map Prod.snd

/-- The call on an object. -/
def CNF.call (F : CNF V) : Call V → M (CNF V)
  | .var v => pure (F.addVariable v)
  | .clause s c => F.addClause s c
  | .raw c => F.addClauseUnsafe c

/-- A history of calls, the exceptions being caught.  Each exception of `cnf.py` 372-408 and 437 is raised before the object is
changed, so a failed call leaves it as it was.  The second part lists the clauses of the calls that did not fail. -/
def CNF.session : List (Call V) → CNF V × List (List (Lit V))
  | [] => ({}, [])
  | c :: cs =>
    let (F, ds) := CNF.session cs
    match F.call c with
    | some (.ok G) => (G, ds ++ c.added)
    | _ => (F, ds)

/-- What is refused: a repeated literal, opposite literals, and, with `strict` or the unsafe call, an unknown variable. -/
def Refused (known : List V) : Call V → Prop
  | .var _ => False
  | .clause s c => ¬ c.Nodup ∨ (∃ v, (true, v) ∈ c ∧ (false, v) ∈ c) ∨ (s = true ∧ ∃ l ∈ c, l.2 ∉ known)
  | .raw c => ∃ l ∈ c, l.2 ∉ known

theorem opp_iff (c : List (Lit V)) : (∃ l ∈ c, (!l.1, l.2) ∈ c) ↔ ∃ v, (true, v) ∈ c ∧ (false, v) ∈ c := by
  constructor
  · rintro ⟨⟨b, v⟩, h1, h2⟩
    cases b
    · exact ⟨v, h2, h1⟩
    · exact ⟨v, h1, h2⟩
  · rintro ⟨v, h1, h2⟩; exact ⟨_, h1, h2⟩

theorem addUnsafe_cases {F : CNF V} {cs : List (List (Lit V))} (h : F.Coh cs) (c : List (Lit V)) :
    (∃ l ∈ c, l.2 ∉ F.vars) ∧ (∃ e, F.addClauseUnsafe c = raise e) ∨
    (¬ ∃ l ∈ c, l.2 ∉ F.vars) ∧ ∃ G, F.addClauseUnsafe c = pure G ∧ G.Coh (cs ++ [c]) ∧ G.vars = F.vars := by
  by_cases hk : ∃ l ∈ c, l.2 ∉ F.vars
  · refine Or.inl ⟨hk, ?_⟩
    have : ∃ e, F.compress c = raise e := by
      unfold CNF.compress
      clear h
      induction c with
      | nil => simp at hk
      | cons l c ih =>
        rw [List.mapM_cons]
        by_cases hl : l.2 ∈ F.vars
        · obtain ⟨e, he⟩ := ih (by
            obtain ⟨x, hx, hx2⟩ := hk
            rcases List.mem_cons.1 hx with rfl | hx
            · exact absurd hl hx2
            · exact ⟨x, hx, hx2⟩)
          refine ⟨e, ?_⟩
          have hi : F.index l.2 = pure ((F.vars.idxOf l.2 : Int) + 1) := if_pos hl
          rw [he, hi]; rfl
        · have hi : F.index l.2 = raise .keyError := if_neg hl
          exact ⟨.keyError, by rw [hi]; rfl⟩
    obtain ⟨e, he⟩ := this
    exact ⟨e, by unfold CNF.addClauseUnsafe; rw [he]; rfl⟩
  · exact Or.inr ⟨hk, CNF.addClauseUnsafe_ok h (by push Not at hk; exact hk)⟩

theorem call_cases {F : CNF V} {cs : List (List (Lit V))} (h : F.Coh cs) (c : Call V) :
    Refused F.vars c ∧ (∃ e, F.call c = raise e) ∨
    ¬ Refused F.vars c ∧ ∃ G, F.call c = pure G ∧ G.Coh (cs ++ c.added) ∧ F.vars <+: G.vars ∧ ∀ v, v ∈ G.vars ↔ v ∈ F.vars ∨ v ∈ c.named := by
  have pfx : ∀ (vs : List V) (F : CNF V), F.vars <+: (F.addVariables vs).vars := by
    intro vs
    induction vs with
    | nil => intro F; exact List.prefix_rfl
    | cons v vs ih =>
      intro F
      refine List.IsPrefix.trans ?_ (ih (F.addVariable v))
      unfold CNF.addVariable
      split
      · exact List.prefix_rfl
      · exact List.prefix_append _ _
  cases c with
  | var v =>
    exact Or.inr ⟨id, F.addVariable v, rfl, by simpa [Call.added] using h.addVariable v, pfx [v] F, fun w => by
      rw [CNF.mem_addVariable]; simp [Call.named]⟩
  | raw c =>
    rcases addUnsafe_cases h c with h1 | ⟨h1, G, h2, h3, h4⟩
    · exact Or.inl h1
    · refine Or.inr ⟨h1, G, h2, h3, h4 ▸ List.prefix_rfl, fun w => ?_⟩
      rw [h4]
      constructor
      · exact Or.inl
      · rintro (hw | hw)
        · exact hw
        · obtain ⟨l, hl, rfl⟩ := List.mem_map.1 hw
          by_contra hc; exact h1 ⟨l, hl, hc⟩
  | clause s c =>
    show (Refused F.vars (.clause s c) ∧ ∃ e, F.addClause s c = raise e) ∨ _
    by_cases hn : c.Nodup
    · by_cases ho : ∃ l ∈ c, (!l.1, l.2) ∈ c
      · left
        refine ⟨Or.inr (Or.inl ((opp_iff c).1 ho)), .valueError, ?_⟩
        unfold CNF.addClause; rw [if_neg (not_not.2 hn), if_pos ho]
      · by_cases hs : s = true ∧ ∃ l ∈ c, l.2 ∉ F.vars
        · left
          refine ⟨Or.inr (Or.inr hs), .valueError, ?_⟩
          unfold CNF.addClause; rw [if_neg (not_not.2 hn), if_neg ho, if_neg (by push Not; exact hs.2), if_pos hs.1]
        · right
          refine ⟨?_, ?_⟩
          · rintro (h1 | h1 | h1)
            · exact h1 hn
            · exact ho ((opp_iff c).2 h1)
            · exact hs h1
          have hnv : (c.map Prod.snd).Nodup := by
            rw [List.nodup_map_iff_inj_on hn]
            rintro ⟨b, v⟩ h1 ⟨b', v'⟩ h2 e
            simp only at e
            subst e
            by_contra hne
            have : b' = !b := by cases b <;> cases b' <;> simp_all
            exact ho ⟨_, h1, by simpa [this] using h2⟩
          obtain ⟨G, h1, h2, h3⟩ := CNF.addClause_ok (strict := s) h hnv (by
            intro e l hl; by_contra hc; exact hs ⟨e, l, hl, hc⟩)
          refine ⟨G, h1, h2, ?_, h3⟩
          unfold CNF.addClause at h1
          rw [if_neg (not_not.2 hn), if_neg ho] at h1
          have key : ∀ (F : CNF V), F.addClauseUnsafe c = pure G → G.vars = F.vars := by
            intro F hF
            unfold CNF.addClauseUnsafe at hF
            obtain ⟨k, _, hk⟩ := M.bind_eq_pure.1 hF
            rw [← (M.pure_inj _ _).1 hk]
          split at h1
          · rw [key _ h1]
          · split at h1
            · cases h1
            · rw [key _ h1]; exact pfx _ _
    · left
      refine ⟨Or.inl hn, .valueError, ?_⟩
      unfold CNF.addClause; rw [if_pos hn]

/-- Formulas along a history: the object stays well-formed and its clauses are the accepted ones. -/
theorem session_coh (cs : List (Call V)) : (CNF.session cs).1.Coh (CNF.session cs).2 := by
  induction cs with
  | nil => exact CNF.coh_empty
  | cons c cs ih =>
    unfold CNF.session
    rcases call_cases ih c with ⟨_, e, he⟩ | ⟨_, G, hG, hc, _⟩
    · simp only [he]
      exact ih
    · simp only [hG]
      exact hc

/-- **C58.** After any history of calls (last call first, failed calls included): the object is well-formed; the clauses it gives back
are the clauses of the calls that did not fail, in order; the next call fails exactly when the rules refuse it, and otherwise it keeps the
number of every variable, and the known variables are the old ones and the ones it names. -/
theorem C58_session (cs : List (Call V)) (c : Call V) :
    Proper (CNF.session cs).1.vars (CNF.session cs).1.clauses ∧
    (CNF.session cs).1.clauses.mapM (CNF.session cs).1.uncompress = pure (CNF.session cs).2 ∧
    (Refused (CNF.session cs).1.vars c → CNF.session (c :: cs) = CNF.session cs) ∧
    (¬ Refused (CNF.session cs).1.vars c → (CNF.session (c :: cs)).2 = (CNF.session cs).2 ++ c.added ∧
      (CNF.session cs).1.vars <+: (CNF.session (c :: cs)).1.vars ∧
      ∀ v, v ∈ (CNF.session (c :: cs)).1.vars ↔ v ∈ (CNF.session cs).1.vars ∨ v ∈ c.named) := by
  have h := session_coh cs
  refine ⟨h.proper, h.uncompress, fun hr => ?_, fun hr => ?_⟩
  · rcases call_cases h c with ⟨_, e, he⟩ | ⟨hn, _⟩
    · show (match (CNF.session cs).1.call c with
        | some (.ok G) => (G, (CNF.session cs).2 ++ c.added)
        | _ => ((CNF.session cs).1, (CNF.session cs).2)) = _
      rw [he]; rfl
    · exact absurd hr hn
  · rcases call_cases h c with ⟨hn, _⟩ | ⟨_, G, hG, _, h2, h3⟩
    · exact absurd hn hr
    · have e : CNF.session (c :: cs) = (G, (CNF.session cs).2 ++ c.added) := by
        show (match (CNF.session cs).1.call c with
          | some (.ok G) => (G, (CNF.session cs).2 ++ c.added)
          | _ => ((CNF.session cs).1, (CNF.session cs).2)) = _
        rw [hG]; rfl
      rw [e]
      exact ⟨rfl, h2, h3⟩

/-- A history with a refused clause (opposite literals), a refused unsafe call (unknown variable) and two accepted clauses. -/
example : CNF.session [Call.raw [(true, "z")], .clause true [(false, "y")], .clause false [(true, "x"), (false, "x")],
    .clause false [(true, "x"), (false, "y")]] = (⟨["x", "y"], [[1, -2], [-2]]⟩, [[(true, "x"), (false, "y")], [(false, "y")]]) := by
  rfl

end

/-! ### Families -/
section
variable {V : Type} [DecidableEq V]

theorem addClauseUnsafe_coh {F G : CNF V} {cs} (h : F.Coh cs) {c : List (Lit V)} (hG : F.addClauseUnsafe c = pure G) : G.Coh (cs ++ [c]) := by
  rcases addUnsafe_cases h c with ⟨_, e, he⟩ | ⟨_, K, hK, hc, _⟩
  · rw [he] at hG; cases hG
  · rw [hK] at hG; rw [← (M.pure_inj _ _).1 hG]; exact hc

theorem addClause_coh {F G : CNF V} {cs} (h : F.Coh cs) {s : Bool} {c : List (Lit V)} (hG : F.addClause s c = pure G) : G.Coh (cs ++ [c]) := by
  rcases call_cases h (.clause s c) with ⟨_, e, he⟩ | ⟨_, K, hK, hc, _⟩
  · have he : F.addClause s c = raise e := he
    rw [he] at hG; cases hG
  · have hK : F.addClause s c = pure K := hK
    rw [hK] at hG; rw [← (M.pure_inj _ _).1 hG]; exact hc

theorem foldlM_coh {ι : Type} {f : CNF V → ι → M (CNF V)} {g : ι → List (List (Lit V))}
    (hf : ∀ {F G cs i}, F.Coh cs → f F i = pure G → G.Coh (cs ++ g i)) (l : List ι) :
    ∀ {F G : CNF V} {cs}, F.Coh cs → l.foldlM f F = pure G → G.Coh (cs ++ l.flatMap g) := by
  induction l with
  | nil => intro F G cs h e; rw [← (M.pure_inj _ _).1 e]; simpa using h
  | cons i l ih =>
    intro F G cs h e
    rw [List.foldlM_cons] at e
    obtain ⟨K, h1, h2⟩ := M.bind_eq_pure.1 e
    have := ih (hf h h1) h2
    simpa using this

theorem ofParts_coh {vs : List V} {cs : List (List (Lit V))} {G : CNF V} (h : CNF.ofParts vs cs = pure G) : G.Coh cs := by
  have := foldlM_coh (f := CNF.addClauseUnsafe) (g := fun c => [c]) (fun h e => addClauseUnsafe_coh h e) cs
    (CNF.coh_empty.addVariables (vs := vs)) h
  simpa using this

theorem ofPartsStrict_coh {vs : List V} {cs : List (List (Lit V))} {G : CNF V} (h : CNF.ofPartsStrict vs cs = pure G) : G.Coh cs := by
  have := foldlM_coh (f := CNF.addClause true) (g := fun c => [c]) (fun h e => addClause_coh h e) cs
    (CNF.coh_empty.addVariables (vs := vs)) h
  simpa using this

theorem ofClauses_coh {cs : List (List (Lit V))} {G : CNF V} (h : CNF.ofClauses cs = pure G) : G.Coh cs := by
  have := foldlM_coh (f := CNF.addClause false) (g := fun c => [c]) (fun h e => addClause_coh h e) cs CNF.coh_empty h
  simpa using this

theorem addMixed_coh {cs : List (Bool × List (Lit V))} {G : CNF V} (h : ({} : CNF V).addMixed cs = pure G) : G.Coh (cs.map Prod.snd) := by
  have := foldlM_coh (f := fun F (c : Bool × List (Lit V)) => CNF.addClause c.1 F c.2) (g := fun c => [c.2]) (fun h e => addClause_coh h e) cs
    CNF.coh_empty h
  have e : cs.flatMap (fun c => [c.2]) = cs.map Prod.snd := by
    rw [← List.flatMap_singleton' (cs.map Prod.snd), List.flatMap_map]
  rw [e] at this
  simpa using this
end

/-- **C58.** Whatever a family generator returns is well-formed (so it can be transformed, shuffled and printed: C55, C56, C57). -/
theorem C58_families_proper {F : CNF Str}
    (h : (∃ p h' f o, pigeonhole p h' f o = pure F) ∨ (∃ g f o, graphPigeonhole g f o = pure F) ∨ (∃ p h' b, binaryPigeonhole p h' b = pure F) ∨
      (∃ g t s p k, graphOrdering g t s p k = pure F) ∨ (∃ n p, counting n p = pure F) ∨ (∃ g, perfectMatching g = pure F) ∨
      (∃ g c, tseitin g c = pure F) ∨ (∃ g c f, graphColoring g c f = pure F) ∨ (∃ g, evenColoring g = pure F)) :
    Proper F.vars F.clauses := by
  rcases h with ⟨_, _, _, _, h⟩ | ⟨_, _, _, h⟩ | ⟨_, _, _, h⟩ | ⟨_, _, _, _, _, h⟩ | ⟨_, _, h⟩ | ⟨_, h⟩ | ⟨_, _, h⟩ | ⟨_, _, _, h⟩ | ⟨_, h⟩
  · exact (ofParts_coh h).proper
  · exact (ofParts_coh h).proper
  · unfold binaryPigeonhole at h
    split at h
    · cases h
    · exact (ofParts_coh h).proper
  · exact (ofPartsStrict_coh h).proper
  · exact (ofClauses_coh h).proper
  · exact (ofClauses_coh h).proper
  · exact (ofPartsStrict_coh h).proper
  · exact (addMixed_coh h).proper
  · unfold evenColoring at h
    split at h
    · cases h
    · exact (ofPartsStrict_coh h).proper

/-- Beside C55, C57, C58: the pigeonhole formula with more pigeons than holes, every variable replaced by a parity of `k` new ones,
printed: the text stands for clauses that cannot be satisfied. -/
example (p h k : Nat) (hp : h < p) (hk : 1 ≤ k) (f o : Bool) :
    ∃ F H text cs, pigeonhole p h f o = pure F ∧ xorSubst id F k = pure H ∧ dimacsText none H = pure text ∧
      Spec.dimacsFormula text = some cs ∧ ¬ Spec.Satisfiable cs := by
  obtain ⟨F, h1, h2⟩ := C50_pigeonhole p h f o
  have hF := C58_families_proper (F := F) (.inl ⟨_, _, _, _, h1⟩)
  obtain ⟨H, h3, h4, _, h5⟩ := C55_xor (sh := id) (fun _ _ e => e) F hF k
  obtain ⟨text, h6, _, h7⟩ := C57_dimacs_standard none H h4
  refine ⟨F, H, text, _, h1, h3, h6, h7, ?_⟩
  rw [h5 hk]
  intro hc
  have := (h2.1 hc).1
  omega

end NDP.Cnfgen
