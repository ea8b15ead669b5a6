import Verif.Proofs.FactRun
import Verif.Proofs.Lead
import Mathlib.Data.Nat.Prime.Basic
import Mathlib.Tactic.NormNum.Prime
/-
  C29, C31, C33: factorization runs (`-fact`) on the formulas of the bundled generator.
  `genText a m N` is the text the generator prints for the number `N` with adder `a` and multiplier `m`; `PlainMult m N`
  excludes the recursive multiplier from 2^21 on, except on the numbers below 2^40 with an even number of binary digits: the
  preprocessing misreads the other formulas of the recursive multiplier (`C29_exact`).
-/
namespace NDP
open Spec SetObj Gen
variable {H : Type}

theorem composite_iff {N : Nat} (hN : 4 ≤ N) : (∃ x y, 1 < x ∧ 1 < y ∧ x * y = N) ↔ ¬ N.Prime := by
  constructor
  · rintro ⟨x, y, hx, hy, rfl⟩ hp
    exact Nat.not_prime_mul (by omega) (by omega) hp
  · intro hp
    obtain ⟨x, hx, h1, h2⟩ := Nat.exists_dvd_of_not_prime2 (by omega) hp
    obtain ⟨y, rfl⟩ := hx
    refine ⟨x, y, by omega, ?_, rfl⟩
    by_contra hy
    have : y = 0 ∨ y = 1 := by omega
    rcases this with rfl | rfl <;> omega

/-! ### C32, the printed text -/

/-- **C32** (text) For every `N ≥ 4`, adder and multiplier, the text the generator prints is a well formed DIMACS file of its
formula, and reading it gives a set saying exactly that. -/
theorem C32_text (a : AdderName) (m : MultName) {N : Nat} (hN : 4 ≤ N) :
    ∃ (text : Str) (F : Cnf) (root : SetObj H), genText a m N = some text ∧ genCnf a m N = some F ∧ GoodDimacs text ∧
      dimacsFormula text = some F ∧ (∀ c ∈ F, c ≠ [] ∧ c.length ≤ 3 ∧ (0 : Int) ∉ c) ∧
      readInput .dimacs text = pure root ∧ ReadsAs root F := by
  obtain ⟨text, _, out, n', cls, h1, _, h3, h4, _, h6, h7, _⟩ := gen_read_any (H := H) a m hN rfl rfl
  rw [h6] at h4
  obtain ⟨root, r1, r2⟩ := C21_dimacs_faithful_partial (H := H) h3 h4 fun c hc => ⟨(h7 c hc).1, (h7 c hc).2.1⟩
  exact ⟨text, _, root, h1, h6, h3, h4, h7, r1, r2⟩

theorem not_all_tautologies (a : AdderName) (m : MultName) {N : Nat} (hN : 4 ≤ N) {F : Cnf} (hF : genCnf a m N = some F)
    (h0 : ∀ c ∈ F, (0 : Int) ∉ c) : ∃ c ∈ F, ¬ Tautology c := by
  by_contra hn
  have hall : ∀ c ∈ F, Tautology c := fun c hc => by
    by_contra h; exact hn ⟨c, hc, h⟩
  obtain ⟨F', h1, h2⟩ := C32_formula a m N hN
  rw [hF] at h1
  obtain rfl : F = F' := by simpa using h1
  have := (h2 _ _ rfl rfl (fun _ => false)).1 ⟨fun _ => false, fun _ _ _ => rfl, fun c hc => sat_of_tautology (h0 c hc) (hall c hc) _⟩
  have z : ∀ s k, natOfBits ((List.range k).map fun _ => false) = s → s = 0 := by
    rintro _ k rfl
    rw [List.map_const', List.length_range]
    induction k with
    | zero => rfl
    | succ k ih => simp [List.replicate_succ, natOfBits, ih]
  rw [z _ _ rfl, Nat.zero_mul] at this
  omega

/-- **C32** (solving) For every `N ≥ 4`, adder and multiplier, running `Main` without task options on the printed text reports
satisfiable exactly when `N` is not a prime. -/
theorem C32_main_verdict [DecidableEq H] (hash : Str → H) {ma : MainArgs} (ha : Local ma.args)
    (hfact : ma.args.factorize = false) (hmul : ma.args.multiply = none) {env : EnvChoice} (hf : Fair ma.args env) (g : Gdb H)
    (a : AdderName) (m : MultName) {N : Nat} (hN : 4 ≤ N) {text : Str} (hgen : genText a m N = some text)
    (hcoll : ∀ root, readInput .dimacs text = pure root → ∀ k, NoCollisions hash ma.args { root with computedHash := some k }) :
    ∃ out rep, mainRun hash ma env g .dimacs text = some out ∧ out.report = some rep ∧ out.error = none ∧
      (rep.isSat = true ↔ ¬ N.Prime) := by
  obtain ⟨text', F, root, h1, h2, h3, h4, h5, h6, h7⟩ := C32_text (H := H) a m hN
  rw [hgen] at h1
  obtain rfl : text = text' := by simpa using h1
  obtain ⟨out, rep, e1, e2, e3, e4, _⟩ := C24_main_verdict_partial hash ha hfact hmul hf g h6 h7
    (fun c hc => ⟨(h5 c hc).1, (h5 c hc).2.2⟩) (not_all_tautologies a m hN h2 fun c hc => (h5 c hc).2.2) (hcoll root h6)
  refine ⟨out, rep, e1, e2, e3, ?_⟩
  obtain ⟨F', f1, f2⟩ := C32_satisfiable a m N hN
  rw [h2] at f1
  obtain rfl : F = F' := by simpa using f1
  rw [e4, f2, composite_iff hN]

/-! ### C29 -/

/-- **C29** (any formula) Whatever the formula, preprocessing leaves exactly what the recorded values leave of it, so every
model of the result extends, with these values, to a model of the original formula. -/
theorem C29_substitution {root root' : SetObj H} {info : FactInfo}
    (h : ∀ c ∈ root.clauses, (0 : Int) ∉ c.raw ∧ c.raw ≠ [] ∧ c.value = none)
    (hp : factPreprocess root = some (info, root')) :
    raws root'.clauses = residual root'.evaluatedVars (raws root.clauses) ∧
    (∀ α : Assign, (∀ (v : Nat) (b : Bool), root'.evaluatedVars.get? (v : Int) = some b → α v = b) →
      Sat α (raws root'.clauses) → Sat α (raws root.clauses)) ∧
    (Satisfiable (raws root'.clauses) → Satisfiable (raws root.clauses)) := by
  have main : raws root'.clauses = residual root'.evaluatedVars (raws root.clauses) := by
    unfold factPreprocess at hp
    split at hp
    · simp at hp
    · split at hp
      · simp only [Option.some.injEq, Prod.mk.injEq] at hp
        obtain ⟨_, rfl⟩ := hp
        generalize (if (factUnits [] 0 0 root.clauses).2 % 2 = 1 then _ else _ : Dict Int Bool) = vm
        obtain ⟨s1, _, _, s4⟩ := C28_substitution_exact vm ({ root with evaluatedVars := vm } : SetObj H) h
        rw [s1, s4]
      · simp at hp
  refine ⟨main, ?_, ?_⟩
  · intro α ha hs
    rw [main] at hs
    exact (sat_residual ha _).2 hs
  · intro hs
    rw [main] at hs
    exact satisfiable_residual hs

/-- **C29** (generated formulas, `_partial`: the recursive multiplier is left out on the numbers of `C29_recursive_misread`) The generator prints a text
that is read as a set; preprocessing it finds the number and the widths of the factors, and an assignment is a model of the
original formula exactly when it has the recorded values and is a model of the preprocessed formula, so satisfiability is
kept. -/
theorem C29_factorizer_partial (a : AdderName) {m : MultName} {N : Nat} (hm : PlainMult m N) (hN : 4 ≤ N) :
    ∃ (text : Str) (root : SetObj H) (info : FactInfo) (root' : SetObj H), genText a m N = some text ∧
      readInput .dimacs text = pure root ∧ factPreprocess root = some (info, root') ∧
      info.number = N ∧ info.len1 = (Nat.log2 N : Int) ∧ info.len2 = ((Nat.log2 N + 2) / 2 : Nat) ∧
      raws root'.clauses = residual root'.evaluatedVars (raws root.clauses) ∧
      (∀ α : Assign, Sat α (raws root.clauses) ↔
        (∀ (v : Nat) (b : Bool), root'.evaluatedVars.get? (v : Int) = some b → α v = b) ∧ Sat α (raws root'.clauses)) ∧
      (Satisfiable (raws root.clauses) ↔ Satisfiable (raws root'.clauses)) := by
  obtain ⟨text, root, out, n', cls, h1, h2, h3, h4⟩ := gen_read (H := H) a hm hN rfl rfl
  have hlen := int2bits_length (n := N) (by omega)
  have hlog : 2 ≤ Nat.log2 N := (Nat.le_log2 (by omega)).2 (by omega)
  have hb : (int2bits N).length ≤ Nat.log2 N + (Nat.log2 N + 2) / 2 := by omega
  obtain ⟨info, root', h5, h6⟩ := factPreprocess_ok h4 hb
  refine ⟨text, root, info, root', h1, h2, h5, ?_, h6.len1, h6.len2, h6.eqn, fact_models h4 hb h6, fact_satisfiable h4 hb h6⟩
  rw [h6.number, natOfBits_int2bits]

theorem not_plain {N : Nat} (hN : 4 ≤ N) (hm : ¬ PlainMult .recursive N) :
    (Nat.log2 N % 2 = 0 ∧ 22 ≤ Nat.log2 N) ∨ 41 ≤ Nat.log2 N := by
  have h1 : 21 ≤ Nat.log2 N := by
    by_contra h
    exact hm (Or.inr (Or.inl ((Nat.log2_lt (by omega)).1 (by omega))))
  have h2 : ¬ (Nat.log2 N % 2 = 1 ∧ Nat.log2 N < 40) := by
    rintro ⟨e, h⟩
    exact hm (Or.inr (Or.inr ⟨e, (Nat.log2_lt (by omega)).1 h⟩))
  omega

/-- The first clause of the formula of the recursive multiplier, when it splits the second factor. -/
theorem recursive_first_clause (a : AdderName) {N : Nat} (hN : 4 ≤ N) (hm : ¬ PlainMult .recursive N) :
    ∃ (text : Str) (root : SetObj H) (c0 : Clause) (cs : List Clause) (p q : Nat), genText a .recursive N = some text ∧
      readInput .dimacs text = pure root ∧ root.clauses = c0 :: cs ∧
      c0.raw = [(p : Int), (q : Int), -((Nat.log2 N + (Nat.log2 N + 2) / 2 + 1 : Nat) : Int)] ∧
      p < q ∧ q < Nat.log2 N + (Nat.log2 N + 2) / 2 + 1 ∧ q ≠ Nat.log2 N + 1 ∧
      (Nat.log2 N % 2 = 0 → Nat.log2 N ≤ 82 → q = Nat.log2 N + (Nat.log2 N + 2) / 2) ∧
      ∀ c ∈ root.clauses, (0 : Int) ∉ c.raw ∧ c.raw ≠ [] ∧ c.value = none := by
  obtain ⟨text, root, out, n', cls, g1, g2, g3, g4, g5, g6, g7, g8, _, _, _, g9⟩ :=
    gen_read_any (H := H) a .recursive hN rfl rfl
  obtain ⟨p, q, l1, l2, l3, l4, l5, l6, l7, hc⟩ := lead_recursive a (m := Nat.log2 N) rfl (not_plain hN hm)
    (n := Nat.log2 N + (Nat.log2 N + 2) / 2 + 1) (by omega)
  obtain ⟨rest, hr⟩ := hc.first g5
  rw [hr] at g8
  generalize hv : Nat.log2 N + (Nat.log2 N + 2) / 2 + 1 = v at *
  have hfirst : ∃ r, raws root.clauses = [((min p q : Nat) : Int), ((max p q : Nat) : Int), -(v : Int)] :: r := by
    have hs : sortAbs (dedup [(p : Int), (q : Int), -(v : Int)]) = [((min p q : Nat) : Int), ((max p q : Nat) : Int), -(v : Int)] := by
      rw [dedup_of_nodup _ (by simp; omega)]
      simp only [sortAbs, isort, insertBy]
      rw [if_neg (by simp; omega)]
      rcases Nat.lt_or_gt_of_ne l5 with h | h
      · rw [min_eq_left h.le, max_eq_right h.le]
        simp only [insertBy]
        rw [if_neg (by simp; omega)]
      · rw [min_eq_right h.le, max_eq_left h.le]
        simp only [insertBy]
        rw [if_pos (by simp; omega), if_neg (by simp; omega)]
    rw [g8]
    simp only [List.cons_append, List.map_cons, readCls, List.map_nil, bitInt]
    rw [List.filter_cons, if_pos]
    · rw [List.map_cons, hs]
      exact ⟨_, rfl⟩
    · apply decide_eq_true
      rintro ⟨x, hx, hn⟩
      simp only [List.mem_cons, List.not_mem_nil, or_false] at hx hn
      omega
  obtain ⟨r, hr'⟩ := hfirst
  have hopen : ∀ c ∈ root.clauses, (0 : Int) ∉ c.raw ∧ c.raw ≠ [] ∧ c.value = none := by
    intro c hc
    have hm : c.raw ∈ raws root.clauses := List.mem_map.2 ⟨c, hc, rfl⟩
    rw [g8, ← hr] at hm
    have := readCls_proper (fun c hc => ⟨(g7 c hc).1, (g7 c hc).2.2⟩) _ hm
    exact ⟨this.2.2, this.1, g9 c hc⟩
  cases hcl : root.clauses with
  | nil => rw [hcl] at hr'; simp [raws] at hr'
  | cons c0 cs =>
    rw [hcl] at hr'
    have hraw : c0.raw = [((min p q : Nat) : Int), ((max p q : Nat) : Int), -(v : Int)] := by
      have : c0.raw :: raws cs = _ := hr'
      rw [List.cons.injEq] at this
      exact this.1
    refine ⟨text, root, c0, cs, min p q, max p q, g1, g2, hcl, hraw, by omega, by omega, l6, fun h1 h2 => ?_, ?_⟩
    · have := l7 h1 h2; omega
    · exact hopen

/-- **C29** fails for the recursive multiplier on every number left out of `C29_factorizer_partial`: the generated formula starts
with a gate of two other input bits, and preprocessing takes the first factor to be of another width than it is.  With an odd
number of binary digits, up to 83 of them, it takes the second factor to be of one bit. -/
theorem C29_recursive_misread (a : AdderName) {N : Nat} (hN : 4 ≤ N) (hm : ¬ PlainMult .recursive N) :
    ∃ (text : Str) (root : SetObj H) (info : FactInfo) (root' : SetObj H), genText a .recursive N = some text ∧
      readInput .dimacs text = pure root ∧ factPreprocess root = some (info, root') ∧
      info.len1 ≠ (Nat.log2 N : Int) ∧ info.len1 + info.len2 = (Nat.log2 N + (Nat.log2 N + 2) / 2 : Nat) ∧
      (Nat.log2 N % 2 = 0 → Nat.log2 N ≤ 82 → info.len2 = 1) := by
  obtain ⟨text, root, c0, cs, p, q, g1, g2, hcl, hraw, b1, b2, b3, b4, _⟩ := recursive_first_clause (H := H) a hN hm
  generalize hv : Nat.log2 N + (Nat.log2 N + 2) / 2 + 1 = v at *
  have key : ∃ r, factPreprocess root = some r ∧ r.1.len1 = (q : Int) - 1 ∧ r.1.len2 = ((-(v : Int)).natAbs : Int) - (q : Int) := by
    unfold factPreprocess
    rw [hcl]
    simp only
    rw [hraw]
    exact ⟨_, rfl, rfl, rfl⟩
  obtain ⟨⟨info, root'⟩, k1, k2, k3⟩ := key
  refine ⟨text, root, info, root', g1, g2, k1, ?_, ?_, fun h1 h2 => ?_⟩
  · rw [k2]; omega
  · rw [k2, k3]; omega
  · have := b4 h1 h2
    rw [k3]; omega

/-- The smallest such number, and the next ones with 42 and with 101 binary digits. -/
example : ¬ PlainMult .recursive (2 ^ 22) ∧ ¬ PlainMult .recursive (2 ^ 41) ∧ ¬ PlainMult .recursive (2 ^ 100) := by
  unfold PlainMult
  simp only [Nat.log2_two_pow]
  decide

/-- **C29** exactly: the widths of the factors are found in the formula of a number if and only if the multiplier is not the
recursive one, or the number is below 2^21, or it is below 2^40 and has an even number of binary digits. -/
theorem C29_exact (a : AdderName) (m : MultName) {N : Nat} (hN : 4 ≤ N) :
    ∃ (text : Str) (root : SetObj H) (info : FactInfo) (root' : SetObj H), genText a m N = some text ∧
      readInput .dimacs text = pure root ∧ factPreprocess root = some (info, root') ∧
      ((info.len1 = (Nat.log2 N : Int) ∧ info.len2 = ((Nat.log2 N + 2) / 2 : Nat)) ↔
        (m ≠ .recursive ∨ N < 2 ^ 21 ∨ (Nat.log2 N % 2 = 1 ∧ N < 2 ^ 40))) := by
  by_cases hm : PlainMult m N
  · obtain ⟨text, root, info, root', h1, h2, h3, _, h4, h5, _⟩ := C29_factorizer_partial (H := H) a hm hN
    exact ⟨text, root, info, root', h1, h2, h3, fun _ => hm, fun _ => ⟨h4, h5⟩⟩
  · have hr : m = .recursive := by
      by_contra h
      exact hm (Or.inl h)
    subst hr
    obtain ⟨text, root, info, root', h1, h2, h3, h4, _⟩ := C29_recursive_misread (H := H) a hN hm
    exact ⟨text, root, info, root', h1, h2, h3, fun h => absurd h.1 h4, fun h => absurd h hm⟩

/-! ### C31 -/

/-- **C31** (any formula, any solution) A reported factorization is one: the printed factors multiply to the printed
number, which is the number read from the formula. -/
theorem C31_reported (info : Option FactInfo) (sol : Option (Dict Int Bool)) {n x y : Nat}
    (h : decodeFact info sol = pure (.factors n x y)) : n = x * y ∧ ∃ i, info = some i ∧ i.number = n := by
  unfold decodeFact at h
  split at h
  · exact absurd h (M.raise_ne_pure _ _)
  · rename_i i
    split at h
    · obtain ⟨u, _, h⟩ := M.bind_eq_pure.1 h
      obtain ⟨w, _, h⟩ := M.bind_eq_pure.1 h
      have h := (M.pure_inj _ _).1 h
      split at h
      · rename_i e
        simp only [TaskMsg.factors.injEq] at h
        obtain ⟨rfl, rfl, rfl⟩ := h
        exact ⟨e, _, rfl, rfl⟩
      · simp at h
    · have h := (M.pure_inj _ _).1 h
      simp at h

theorem proper_factors {N x y : Nat} (hN : 4 ≤ N) (hx : x < 2 ^ Nat.log2 N) (hy : y < 2 ^ ((Nat.log2 N + 2) / 2))
    (he : x * y = N) : 1 < x ∧ 1 < y := by
  have hlo : 2 ^ Nat.log2 N ≤ N := Nat.log2_self_le (by omega)
  have hlog : 2 ≤ Nat.log2 N := (Nat.le_log2 (by omega)).2 (by omega)
  have hy' : y < 2 ^ Nat.log2 N := Nat.lt_of_lt_of_le hy (Nat.pow_le_pow_right (by omega) (by omega))
  constructor
  · rcases Nat.lt_or_ge 1 x with h | h
    · exact h
    · interval_cases x <;> omega
  · rcases Nat.lt_or_ge 1 y with h | h
    · exact h
    · interval_cases y <;> omega

theorem numAt_lt (α : Assign) (s k : Nat) : numAt α s k < 2 ^ k := by
  have := nat_lt ((List.range k).map fun i => α (s + i))
  simpa [numAt] using this

/-- **C31** (generated formulas, `_partial`: the recursive multiplier is left out on the numbers of `C29_recursive_misread`) In every solution of the
formula, listed in increasing order of the variables, all factor bits are assigned, and decoding it reports the numbers
these bits spell: two factors greater than 1 whose product is `N`.  The "Something is wrong" branch is never taken. -/
theorem C31_decoded_partial (a : AdderName) {m : MultName} {N : Nat} (hm : PlainMult m N) (hN : 4 ≤ N) {text : Str}
    (hgen : genText a m N = some text) {root root' : SetObj H} (hread : readInput .dimacs text = pure root)
    {info : FactInfo} (hpre : factPreprocess root = some (info, root')) {d : Dict Int Bool} (hk : SolKeys d)
    (hd : MakesTrue d (raws root.clauses)) :
    (∀ v, 1 ≤ v → v ≤ Nat.log2 N + (Nat.log2 N + 2) / 2 → (d.get? (v : Int)).isSome = true) ∧
    ∀ α : Assign, (∀ (v : Nat) (b : Bool), d.get? (v : Int) = some b → α v = b) →
      ∀ x y, x = numAt α 1 (Nat.log2 N) → y = numAt α (Nat.log2 N + 1) ((Nat.log2 N + 2) / 2) →
        decodeFact (some info) (some d) = pure (.factors N x y) ∧ x * y = N ∧ 1 < x ∧ 1 < y := by
  obtain ⟨text', root₀, out, n', cls, h1, h2, h3, h4⟩ := gen_read (H := H) a hm hN rfl rfl
  rw [hgen] at h1
  obtain rfl : text = text' := by simpa using h1
  rw [hread] at h2
  obtain rfl : root = root₀ := (M.pure_inj _ _).1 h2
  have hlen := int2bits_length (n := N) (by omega)
  have hlog : 2 ≤ Nat.log2 N := (Nat.le_log2 (by omega)).2 (by omega)
  have hb : (int2bits N).length ≤ Nat.log2 N + (Nat.log2 N + 2) / 2 := by omega
  obtain ⟨info', root₁, h5, h6⟩ := factPreprocess_ok h4 hb
  rw [hpre] at h5
  simp only [Option.some.injEq, Prod.mk.injEq] at h5
  obtain ⟨rfl, rfl⟩ := h5
  have hpos : 0 < natOfBits (int2bits N) := by rw [natOfBits_int2bits]; omega
  have hasg : ∀ v, 1 ≤ v → v ≤ Nat.log2 N + (Nat.log2 N + 2) / 2 → (d.get? (v : Int)).isSome = true :=
    fun v hv1 hv2 => inputs_assigned h4 hb hpos hd hv1 hv2
  refine ⟨hasg, ?_⟩
  rintro α ha x y rfl rfl
  have heq : ∀ v, 1 ≤ v → v ≤ Nat.log2 N + (Nat.log2 N + 2) / 2 → α v = complete d v := by
    intro v hv1 hv2
    obtain ⟨b, hb⟩ := Option.isSome_iff_exists.1 (hasg v hv1 hv2)
    rw [ha v b hb, agrees_complete d v b hb]
  have e1 : numAt α 1 (Nat.log2 N) = numAt (complete d) 1 (Nat.log2 N) :=
    numAt_congr fun i hi => heq _ (by omega) (by omega)
  have e2 : numAt α (Nat.log2 N + 1) ((Nat.log2 N + 2) / 2) = numAt (complete d) (Nat.log2 N + 1) ((Nat.log2 N + 2) / 2) :=
    numAt_congr fun i hi => heq _ (by omega) (by omega)
  have hprod := ((h4.sat_iff hb _).1 (makesTrue_sat hd (agrees_complete d))).2
  have hdec := decodeFact_ok h4 hb hpos h6 hk hd
  rw [natOfBits_int2bits] at hprod hdec
  rw [e1, e2]
  exact ⟨hdec, hprod, proper_factors hN (numAt_lt _ _ _) (numAt_lt _ _ _) hprod⟩

/-! ### C33 -/

/-- No two different sets met while factorizing the input `text` have the same digest. -/
def NoFactCollisions [DecidableEq H] (hash : Str → H) (a : Args) (text : Str) : Prop :=
  ∀ (root root' : SetObj H) (info : FactInfo), readInput .dimacs text = pure root →
    factPreprocess root = some (info, root') → ∀ k, NoCollisions hash a { root' with computedHash := some k }

/-- Non-vacuity of `NoCollisions` on prepared sets. -/
theorem noCollisions_loaded [DecidableEq H] {hash : Str → H} (hinj : Function.Injective hash) (a : Args) {R : Cnf}
    {root : SetObj H} (h : Loaded R root) (hR : Proper R) : NoCollisions hash a root := by
  intro s k hs x y hx hy e
  obtain ⟨s', hs', hr, _⟩ := prepareRoot_ok hash a hR h
  rw [hs] at hs'
  have : s = s' := by
    have := (M.pure_inj _ _).1 hs'
    exact congrArg Prod.fst this
  subst this
  have h1 := hx.tracks hash a (inputMode a) hR hr.tracks
  have h2 := hy.tracks hash a (inputMode a) hR hr.tracks
  exact bodyStr_inj h1.node.ne h2.node.ne h1.node.cne h2.node.cne (hinj e)

theorem noFactCollisions_of_injective [DecidableEq H] {hash : Str → H} (hinj : Function.Injective hash) (ar : Args)
    (a : AdderName) {m : MultName} {N : Nat} (hm : PlainMult m N) (hN : 4 ≤ N) {text : Str}
    (hgen : genText a m N = some text) : NoFactCollisions hash ar text := by
  intro root root' info hread hpre k
  obtain ⟨text', root₀, out, n', cls, h1, h2, h3, h4⟩ := gen_read (H := H) a hm hN rfl rfl
  rw [hgen] at h1
  obtain rfl : text = text' := by simpa using h1
  rw [hread] at h2
  obtain rfl : root = root₀ := (M.pure_inj _ _).1 h2
  have hlen := int2bits_length (n := N) (by omega)
  have hlog : 2 ≤ Nat.log2 N := (Nat.le_log2 (by omega)).2 (by omega)
  obtain ⟨info', root₁, h5, h6⟩ := factPreprocess_ok h4 (by omega)
  rw [hpre] at h5
  simp only [Option.some.injEq, Prod.mk.injEq] at h5
  obtain ⟨rfl, rfl⟩ := h5
  exact noCollisions_loaded hinj ar ((fact_loaded a hN rfl rfl h3 h4 h6).withHash _) h4.proper

/-- **C33** (Wallace and carry-save multipliers, and the recursive one where `C29_exact` allows; the digests do not collide) Factorization end
to end, for every number `N ≥ 4`, adder, multiplier, mode, number of workers and schedule: the generator prints a formula
for `N`, and running `Main` with `-fact` on that text ends with the report of a true factorization when `N` is composite
(with the solution verified when asked for), and with "`N` is prime" when it is prime. -/
theorem C33_factorization [DecidableEq H] (hash : Str → H) {ma : MainArgs} (ha : Local ma.args)
    (hfact : ma.args.factorize = true) (hmul : ma.args.multiply = none) {env : EnvChoice} (hf : Fair ma.args env) (g : Gdb H)
    (a : AdderName) {m : MultName} {N : Nat} (hm : PlainMult m N) (hN : 4 ≤ N) :
    ∃ text, genText a m N = some text ∧ (NoFactCollisions hash ma.args text →
      ∃ out rep, mainRun hash ma env g .dimacs text = some out ∧ out.report = some rep ∧ out.error = none ∧
        (¬ N.Prime → rep.isSat = true ∧ (∃ x y, 1 < x ∧ 1 < y ∧ x * y = N ∧ out.task = [.factors N x y]) ∧
          (ma.verify = true → out.verified = some true)) ∧
        (N.Prime → rep.isSat = false ∧ out.task = [.prime N])) := by
  obtain ⟨text, root, out, n', cls, h1, h2, h3, h4⟩ := gen_read (H := H) a hm hN rfl rfl
  refine ⟨text, h1, fun hcoll => ?_⟩
  have hlen := int2bits_length (n := N) (by omega)
  have hlog : 2 ≤ Nat.log2 N := (Nat.le_log2 (by omega)).2 (by omega)
  have hb : (int2bits N).length ≤ Nat.log2 N + (Nat.log2 N + 2) / 2 := by omega
  have hpos : 0 < natOfBits (int2bits N) := by rw [natOfBits_int2bits]; omega
  obtain ⟨info, root', h5, h6⟩ := factPreprocess_ok h4 hb
  have hload := fact_loaded a hN rfl rfl h3 h4 h6
  obtain ⟨k, hk⟩ := getHash_false hash hload.value hload.ne
  have hloadk := hload.withHash (some k)
  obtain ⟨rep, hrep⟩ := solveSet_ok hash ma.args ha.gdb ha.nomem hf g h4.proper hloadk
  obtain ⟨v1, v2, v3⟩ := solveSet_loaded hash ha hf.main h4.proper hloadk hrep
  have v3 := v3 (hcoll root root' info h2 h5 k)
  have hdec : ∃ msg, decodeFact (some info) rep.solution = pure msg ∧
      (¬ N.Prime → rep.isSat = true ∧ ∃ x y, 1 < x ∧ 1 < y ∧ x * y = N ∧ msg = .factors N x y) ∧
      (N.Prime → rep.isSat = false ∧ msg = .prime N) := by
    cases hs : rep.solution with
    | none =>
      have hns : rep.isSat = false := by
        cases h : rep.isSat
        · rfl
        · rw [hs] at v1; simp [h] at v1
      have hun := v3 hns
      have hprime : N.Prime := by
        by_contra hp
        obtain ⟨x, y, hx, hy, he⟩ := (composite_widths hN).1 ((composite_iff hN).2 hp)
        obtain ⟨α, c1, c2, c3, c4, _⟩ := h4.form.run hx hy
        exact hun ((fact_satisfiable h4 hb h6).1
          ⟨α, (h4.sat_iff hb α).2 ⟨c1, by rw [c3, c4, he, natOfBits_int2bits]⟩⟩)
      refine ⟨.prime N, ?_, fun h => absurd hprime h, fun _ => ⟨hns, rfl⟩⟩
      unfold decodeFact
      simp only
      rw [h6.number, natOfBits_int2bits]
    | some d =>
      obtain ⟨hd, hkeys⟩ := v2 d hs
      have hst : rep.isSat = true := v1.2 (by rw [hs]; rfl)
      obtain ⟨_, hall⟩ := C31_decoded_partial a hm hN h1 h2 h5 hkeys hd
      obtain ⟨e1, e2, e3, e4⟩ := hall (complete d) (agrees_complete d) _ _ rfl rfl
      refine ⟨_, e1, fun _ => ⟨hst, _, _, e3, e4, e2, rfl⟩, fun hp => ?_⟩
      exact absurd hp ((composite_iff hN).1 ⟨_, _, e3, e4, e2⟩)
  obtain ⟨msg, hmsg, p1, p2⟩ := hdec
  have hrun : mainRun hash ma env g .dimacs text = some ({
      report := some rep, task := [msg],
      solutionFile := (if ma.outputSolution && truthy rep.solution
        then some (formatSolution (rep.solution.getD [])) else none : Option Str),
      verified := (if ma.verify && truthy rep.solution
        then some (verifySolution root'.clauses (rep.solution.getD [])) else none : Option Bool) } : MainOut H) := by
    have hp : 0 < root'.clauses.length ∨ root'.value ≠ none := Or.inl (List.length_pos_iff.2 hload.ne)
    unfold mainRun mainBody
    rw [h2]
    simp only [M.pure_bind, hfact, if_true, h5, hmul]
    unfold mainSolve
    rw [if_pos hp, hk]
    simp only [M.pure_bind]
    unfold solveTask
    rw [hrep]
    simp only [M.pure_bind, hfact, if_true, hmsg, hmul, reduceCtorEq, decide_false, Bool.and_false, Bool.false_eq_true, if_false]
    rfl
  refine ⟨_, rep, hrun, rfl, rfl, ?_, ?_⟩
  · intro hp
    obtain ⟨q1, x, y, q2, q3, q4, q5⟩ := p1 hp
    refine ⟨q1, ⟨x, y, q2, q3, q4, by rw [q5]⟩, ?_⟩
    intro hv
    obtain ⟨d, hd⟩ := Option.isSome_iff_exists.1 (v1.1 q1)
    obtain ⟨hmt, hkeys⟩ := v2 d hd
    have htr : truthy rep.solution = true := by
      rw [hd]
      cases d with
      | nil =>
        obtain ⟨c, hc⟩ := List.exists_mem_of_ne_nil _ (show raws root.clauses ≠ [] by
          obtain ⟨r, hr⟩ := h4.form.first
          rw [h4.eqn, hr]; simp)
        obtain ⟨l, _, hl⟩ := hmt c hc
        simp [partialVal] at hl
      | cons p d => rfl
    show (if (ma.verify && truthy rep.solution) = true then _ else _) = _
    rw [hv, htr]
    simp only [Bool.and_self, if_true, hd, Option.getD_some, Option.some.injEq]
    refine (C25_verify_exact root'.clauses (fun c hc => ?_) d (SolKeys.nodup hkeys)).2 ?_
    · exact (hload.proper c.raw (List.mem_map.2 ⟨c, hc, rfl⟩)).2.2
    · intro c hc
      rw [h6.eqn] at hc
      obtain ⟨c0, hc0, rfl⟩ := List.mem_map.1 hc
      obtain ⟨hc1, hc2⟩ := List.mem_filter.1 hc0
      obtain ⟨l, hl, hlv⟩ := hmt c0 hc1
      refine ⟨l, List.mem_filter.2 ⟨hl, ?_⟩, hlv⟩
      have hag := h4.agrees hb h6.map (makesTrue_sat hmt (agrees_complete d))
      cases hpv : partialVal root'.evaluatedVars l with
      | none => simp
      | some b =>
        exfalso
        have e1 := litVal_of_partial hag hpv
        have e2 := litVal_of_partial (agrees_complete d) hlv
        rw [e1] at e2
        subst e2
        have := (List.all_eq_true.1 hc2) l hl
        simp [hpv] at this
  · intro hp
    obtain ⟨q1, q2⟩ := p2 hp
    exact ⟨q1, by rw [q2]⟩

/-- Non-vacuity: with an injective digest every number meets the hypotheses, with any number of workers; here two numbers
end to end. -/
example : ∃ text out, genText .fast .wallace 15 = some text ∧
    mainRun (H := Str) id { args := { factorize := true, threads := 3 } } { sched := [true, false, true, true] } [] .dimacs text
      = some out ∧ ∃ x y, 1 < x ∧ 1 < y ∧ x * y = 15 ∧ out.task = [.factors 15 x y] := by
  obtain ⟨text, h1, h2⟩ := C33_factorization (H := Str) id (ma := { args := { factorize := true, threads := 3 } })
    ⟨rfl, rfl⟩ rfl rfl (env := { sched := [true, false, true, true] }) ⟨fun _ => rfl, fun _ _ => rfl, by decide⟩ [] .fast
    (m := .wallace) (N := 15) (Or.inl (by decide)) (by omega)
  obtain ⟨out, rep, e1, _, _, e2, _⟩ :=
    h2 (noFactCollisions_of_injective Function.injective_id _ _ (Or.inl (by decide)) (by omega) h1)
  exact ⟨text, out, h1, e1, (e2 (by norm_num)).2.1⟩

example : ∃ text out, genText .nbit .carrySave 13 = some text ∧
    mainRun (H := Str) id { args := { factorize := true } } {} [] .dimacs text = some out ∧ out.task = [.prime 13] := by
  obtain ⟨text, h1, h2⟩ := C33_factorization (H := Str) id (ma := { args := { factorize := true } })
    ⟨rfl, rfl⟩ rfl rfl (env := {}) ⟨fun _ => rfl, fun _ _ => rfl, by decide⟩ [] .nbit
    (m := .carrySave) (N := 13) (Or.inl (by decide)) (by omega)
  obtain ⟨out, rep, e1, _, _, _, e2⟩ :=
    h2 (noFactCollisions_of_injective Function.injective_id _ _ (Or.inl (by decide)) (by omega) h1)
  exact ⟨text, out, h1, e1, (e2 (by norm_num)).2⟩

end NDP
