import Verif.Cnfgen.Models3
import Mathlib.Data.Set.Card
import Mathlib.Data.Nat.Choose.Basic
/-
  Model of `families/randomformulas.py` (random k-CNF) and `families/simple.py`, with C68 and C69.  Paths relative to `software/cnfgen/cnfformula`.

  Random numbers: what `random.sample`, `random.choice` return and the order in which Python goes through a set are arbitrary, only
  constrained by the contracts of the library (`RandomSource.Ok`).  The theorems hold for all of them.  Nothing is said about their distribution.
-/
namespace NDP.Cnfgen
open NDP

/-! ### The model -/

/-- `'x_{0}'.format(i)`. -/
def rvar (i : Nat) : Str := 'x' :: '_' :: natStr i

/-- `'y_{}'.format(i)`. -/
def yvar (i : Nat) : Str := 'y' :: '_' :: natStr i

/-- Where the random choices come from.  `draw t` are the variables sampled and the polarities chosen in turn `t` of the loop of
`sample_clauses`; `sample l m` is `random.sample(l, m)`; `iter s` is the order in which Python goes through the set `s`. -/
structure RandomSource where
  draw : Nat → List Nat × List Bool
  sample : List (List (Lit Str)) → Nat → List (List (Lit Str))
  iter : List (List (Lit Str)) → List (List (Lit Str))

/-- A partial assignment (`dict`). -/
abbrev Partial := Str → Option Bool

/-- `families/randomformulas.py` 16-31 (`clause_satisfied`). -/
def clauseSatisfied (c : List (Lit Str)) (planted : List Partial) : Bool :=
  planted.all fun a => c.any fun l => decide (a l.2 = some l.1)

/-- `families/randomformulas.py` 39-40: the clause of one turn. -/
def drawnClause (d : List Nat × List Bool) : List (Lit Str) :=
  List.zipWith (fun b i => (b, rvar i)) d.2 (d.1.mergeSort (fun a b => decide (a ≤ b)))

/-- `families/randomformulas.py` 33-43: the loop, with `left` turns left before `t` reaches `10*m`. -/
def sampleLoop (rs : RandomSource) (m : Nat) (planted : List Partial) : Nat → Nat → List (List (Lit Str)) → List (List (Lit Str))
  | 0, _, cs => cs
  | left + 1, t, cs =>
    if cs.length < m then
      let c := drawnClause (rs.draw t)
      sampleLoop rs m planted left (t + 1) (if clauseSatisfied c planted && decide (c ∉ cs) then cs ++ [c] else cs)
    else cs

/-- `families/randomformulas.py` 49-56 (`all_clauses`). -/
def allClauses (k n : Nat) (planted : List Partial) : List (List (Lit Str)) :=
  (combinations (oneTo n) k).flatMap fun dom =>
    ((product (List.replicate k [true, false])).map fun pol => List.zip pol (dom.map rvar)).filter fun c => clauseSatisfied c planted

/-- `families/randomformulas.py` 59-60 (`sample_clauses_dense`); `random.sample` fails if more is asked than there is. -/
def sampleDense (rs : RandomSource) (k n m : Nat) (planted : List Partial) : M (List (List (Lit Str))) :=
  if m ≤ (allClauses k n planted).length then pure (rs.sample (allClauses k n planted) m) else raise .valueError

/-- `families/randomformulas.py` 33-47 (`sample_clauses`), the set given in the order in which it is iterated. -/
def sampleClauses (rs : RandomSource) (k n m : Nat) (planted : List Partial) : M (List (List (Lit Str))) :=
  let cs := sampleLoop rs m planted (10 * m) 0 []
  if cs.length < m then sampleDense rs k n m planted else pure (rs.iter cs)

/-- `families/randomformulas.py` 63-117 (`RandomKCNF`).  The `except` clause turns a `ValueError` into another one. -/
def randomKCNF (rs : RandomSource) (k n m : Int) (planted : List Partial) : M (CNF Str) :=
  if n < 0 ∨ m < 0 ∨ k < 0 then raise .valueError
  else if k > n then raise .valueError
  else do
    let cs ← sampleClauses rs k.toNat n.toNat m.toNat planted
    CNF.ofPartsStrict ((oneTo n.toNat).map rvar) cs

/-- `families/simple.py` 30-42 (`or`): `range` of a negative number is empty. -/
def orFormula (p n : Int) : M (CNF Str) :=
  CNF.ofClauses [(List.range p.toNat).map (fun i => (true, rvar i)) ++ (List.range n.toNat).map (fun i => (false, yvar i))]

/-- `families/simple.py` 64-76 (`and`). -/
def andFormula (p n : Int) : M (CNF Str) :=
  CNF.ofClauses ((List.range p.toNat).map (fun i => [(true, rvar i)]) ++ (List.range n.toNat).map (fun i => [(false, yvar i)]))

/-- `families/simple.py` 91-100 (`empty`). -/
def emptyFormula : M (CNF Str) := CNF.ofClauses []

/-- `families/simple.py` 114-122 (`emptyclause`). -/
def emptyClauseFormula : M (CNF Str) := CNF.ofClauses [[]]

/-! ### Specification -/

/-- What the library promises of the random choices: `random.sample(indices, k)` gives `k` different indices; there is one polarity for each;
`random.sample(l, m)` gives `m` elements of different positions of `l`; going through a set gives each element once. -/
structure RandomSource.Ok (rs : RandomSource) (k n : Nat) : Prop where
  draw : ∀ t, (rs.draw t).1.Nodup ∧ (∀ i ∈ (rs.draw t).1, 1 ≤ i ∧ i ≤ n) ∧ (rs.draw t).1.length = k ∧ (rs.draw t).2.length = k
  sample : ∀ l m, m ≤ l.length → (rs.sample l m).length = m ∧ (rs.sample l m).Subperm l
  iter : ∀ s, (rs.iter s).Perm s

/-- The clauses that may be picked: `k` different variables among `x_1 … x_n` in increasing order, and each planted assignment makes one of
the literals true. -/
def Candidate (k n : Nat) (planted : List Partial) (c : List (Lit Str)) : Prop :=
  (∃ idx : List Nat, idx.Pairwise (· < ·) ∧ idx.length = k ∧ (∀ i ∈ idx, 1 ≤ i ∧ i ≤ n) ∧ c.map Prod.snd = idx.map rvar) ∧
  ∀ a ∈ planted, ∃ l ∈ c, a l.2 = some l.1

/-! ### Proofs -/

theorem rvar_inj {i j : Nat} (h : rvar i = rvar j) : i = j := by
  unfold rvar at h; simp only [List.cons.injEq, true_and] at h; exact natStr_injective h

theorem yvar_inj {i j : Nat} (h : yvar i = yvar j) : i = j := by
  unfold yvar at h; simp only [List.cons.injEq, true_and] at h; exact natStr_injective h

theorem clauseSatisfied_iff (c : List (Lit Str)) (planted : List Partial) :
    clauseSatisfied c planted = true ↔ ∀ a ∈ planted, ∃ l ∈ c, a l.2 = some l.1 := by
  simp [clauseSatisfied]

theorem zipWith_snd (f : Nat → Str) : ∀ (bs : List Bool) (is : List Nat), bs.length = is.length →
    (List.zipWith (fun b i => ((b, f i) : Lit Str)) bs is).map Prod.snd = is.map f
  | [], [], _ => rfl
  | b :: bs, i :: is, h => by simp [zipWith_snd f bs is (by simpa using h)]

theorem zipWith_fst (f : Nat → Str) : ∀ (bs : List Bool) (is : List Nat), bs.length = is.length →
    (List.zipWith (fun b i => ((b, f i) : Lit Str)) bs is).map Prod.fst = bs
  | [], [], _ => rfl
  | b :: bs, i :: is, h => by simp [zipWith_fst f bs is (by simpa using h)]

theorem zip_map_eq (f : Nat → Str) : ∀ (bs : List Bool) (is : List Nat),
    List.zip bs (is.map f) = List.zipWith (fun b i => ((b, f i) : Lit Str)) bs is
  | [], _ => by simp
  | _ :: _, [] => by simp
  | b :: bs, i :: is => by simp [zip_map_eq f bs is]

theorem sorted_sample {l : List Nat} (h : l.Nodup) : (l.mergeSort (fun a b => decide (a ≤ b))).Pairwise (· < ·) := by
  have h1 := List.pairwise_mergeSort (le := fun a b : Nat => decide (a ≤ b)) (by intro a b c; simp; omega) (by intro a b; simp; omega) l
  have h2 : (l.mergeSort (fun a b => decide (a ≤ b))).Nodup := (List.mergeSort_perm l _).nodup_iff.2 h
  have h3 := h1.and h2
  exact h3.imp (fun ⟨a, b⟩ => by simp at a; omega)

theorem drawn_candidate {k n : Nat} {d : List Nat × List Bool} (h : d.1.Nodup ∧ (∀ i ∈ d.1, 1 ≤ i ∧ i ≤ n) ∧ d.1.length = k ∧ d.2.length = k)
    {planted : List Partial} (hs : clauseSatisfied (drawnClause d) planted = true) : Candidate k n planted (drawnClause d) := by
  refine ⟨⟨d.1.mergeSort (fun a b => decide (a ≤ b)), sorted_sample h.1, by simp [h.2.2.1], ?_, ?_⟩, (clauseSatisfied_iff _ _).1 hs⟩
  · intro i hi; exact h.2.1 i (List.mem_mergeSort.1 hi)
  · exact zipWith_snd rvar _ _ (by simp [h.2.2.1, h.2.2.2])

/-- Sorted lists of numbers within 1..n are the sublists of 1..n. -/
theorem sublist_oneTo {n : Nat} {idx : List Nat} : idx.Sublist (oneTo n) ↔ idx.Pairwise (· < ·) ∧ ∀ i ∈ idx, 1 ≤ i ∧ i ≤ n := by
  constructor
  · intro h
    exact ⟨(oneTo_sorted n).sublist h, fun i hi => mem_oneTo.1 (h.subset hi)⟩
  · rintro ⟨h1, h2⟩
    exact List.sublist_of_subperm_of_pairwise (r := (· < ·))
      (List.subperm_of_subset (h1.imp (fun h => Nat.ne_of_lt h)) (fun i hi => mem_oneTo.2 (h2 i hi))) h1 (oneTo_sorted n)

theorem mem_bools : ∀ {k : Nat} {t : List Bool}, t ∈ product (List.replicate k [true, false]) ↔ t.length = k
  | 0, t => by simp [product]
  | k + 1, [] => by simp [product, List.replicate_succ]
  | k + 1, b :: t => by
    have := @mem_bools k t
    simp [product, List.replicate_succ, this]
    cases b <;> simp

theorem nodup_bools : ∀ k : Nat, (product (List.replicate k [true, false])).Nodup
  | 0 => by simp [product]
  | k + 1 => by
    have := nodup_bools k
    simp only [List.replicate_succ, product, List.flatMap_cons, List.flatMap_nil, List.append_nil]
    rw [List.nodup_append]
    exact ⟨this.map (fun a b e => by simpa using e), this.map (fun a b e => by simpa using e), by
      intro a ha b hb e
      obtain ⟨x, _, rfl⟩ := List.mem_map.1 ha
      obtain ⟨y, _, rfl⟩ := List.mem_map.1 hb
      simp at e⟩

theorem length_bools : ∀ k : Nat, (product (List.replicate k [true, false])).length = 2 ^ k
  | 0 => rfl
  | k + 1 => by
    have := length_bools k
    simp [List.replicate_succ, product, this, pow_succ]; omega

theorem length_combinations {A : Type} : ∀ (l : List A) (k : Nat), (combinations l k).length = l.length.choose k
  | l, 0 => by rw [show combinations l 0 = [[]] by cases l <;> rfl]; simp
  | [], k + 1 => by simp [combinations]
  | x :: xs, k + 1 => by simp [combinations, length_combinations xs k, length_combinations xs (k + 1), Nat.choose_succ_succ]

theorem rvars_inj {l l' : List Nat} (h : l.map rvar = l'.map rvar) : l = l' :=
  (List.map_injective_iff.2 (fun _ _ e => rvar_inj e)) h

theorem mem_allClauses {k n : Nat} {planted : List Partial} {c : List (Lit Str)} :
    c ∈ allClauses k n planted ↔ Candidate k n planted c := by
  unfold allClauses Candidate
  simp only [List.mem_flatMap, List.mem_filter, List.mem_map, mem_combinations, clauseSatisfied_iff, sublist_oneTo, mem_bools]
  constructor
  · rintro ⟨dom, ⟨⟨h1, h2⟩, h3⟩, ⟨pol, hp, rfl⟩, hs⟩
    refine ⟨⟨dom, h1, h3, h2, ?_⟩, hs⟩
    rw [zip_map_eq, zipWith_snd _ _ _ (by rw [hp, h3])]
  · rintro ⟨⟨idx, h1, h3, h2, he⟩, hs⟩
    refine ⟨idx, ⟨⟨h1, h2⟩, h3⟩, ⟨c.map Prod.fst, ?_, ?_⟩, hs⟩
    · have := congrArg List.length he
      simp at this; simp [this, h3]
    · rw [← he]; exact (List.zip_of_prod rfl rfl).symm

theorem allClauses_nodup (k n : Nat) (planted : List Partial) : (allClauses k n planted).Nodup := by
  unfold allClauses
  rw [List.nodup_flatMap]
  refine ⟨fun dom hdom => List.Nodup.filter _ ?_, ?_⟩
  · refine nodup_map_on (nodup_bools k) ?_
    intro a ha b hb e
    rw [zip_map_eq, zip_map_eq] at e
    have := congrArg (List.map Prod.fst) e
    rw [mem_bools] at ha hb
    have hl := (mem_combinations.1 hdom).2
    rwa [zipWith_fst _ _ _ (by omega), zipWith_fst _ _ _ (by omega)] at this
  · refine ((combinations_nodup (oneTo_nodup n)).imp_of_mem ?_)
    intro d e hd he hne
    show List.Disjoint _ _
    intro c h1 h2
    obtain ⟨a, ha, rfl⟩ := List.mem_map.1 (List.mem_filter.1 h1).1
    obtain ⟨b, hb, hab⟩ := List.mem_map.1 (List.mem_filter.1 h2).1
    rw [mem_bools] at ha hb
    have := congrArg (List.map Prod.snd) hab
    rw [zip_map_eq, zip_map_eq, zipWith_snd _ _ _ (by rw [hb, (mem_combinations.1 he).2]),
      zipWith_snd _ _ _ (by rw [ha, (mem_combinations.1 hd).2])] at this
    exact hne (rvars_inj this).symm

/-- The number of candidates. -/
theorem ncard_candidates (k n : Nat) (planted : List Partial) : {c | Candidate k n planted c}.ncard = (allClauses k n planted).length := by
  have : {c | Candidate k n planted c} = ((allClauses k n planted).toFinset : Set (List (Lit Str))) := by
    ext c; simp [mem_allClauses]
  rw [this, Set.ncard_coe_finset, List.toFinset_card_of_nodup (allClauses_nodup k n planted)]

theorem sampleLoop_ok {rs : RandomSource} {k n : Nat} (h : rs.Ok k n) (m : Nat) (planted : List Partial) : ∀ (left t : Nat) (cs : List (List (Lit Str))),
    cs.Nodup → (∀ c ∈ cs, Candidate k n planted c) → cs.length ≤ m →
    (sampleLoop rs m planted left t cs).Nodup ∧ (∀ c ∈ sampleLoop rs m planted left t cs, Candidate k n planted c) ∧
      (sampleLoop rs m planted left t cs).length ≤ m
  | 0, t, cs, h1, h2, h3 => ⟨h1, h2, h3⟩
  | left + 1, t, cs, h1, h2, h3 => by
    unfold sampleLoop
    split
    · dsimp only
      split
      · rename_i hs
        simp only [Bool.and_eq_true, decide_eq_true_eq] at hs
        refine sampleLoop_ok h m planted left (t + 1) _ ?_ ?_ (by simp; omega)
        · rw [List.nodup_append]
          exact ⟨h1, by simp, by intro a ha b hb e; rw [List.mem_singleton] at hb; subst hb; subst e; exact hs.2 ha⟩
        · intro c hc
          rcases List.mem_append.1 hc with hc | hc
          · exact h2 c hc
          · rw [List.mem_singleton.1 hc]; exact drawn_candidate (h.draw t) hs.1
      · exact sampleLoop_ok h m planted left (t + 1) _ h1 h2 h3
    · exact ⟨h1, h2, h3⟩

theorem Candidate.names_nodup {k n : Nat} {planted : List Partial} {c : List (Lit Str)} (h : Candidate k n planted c) : (c.map Prod.snd).Nodup := by
  obtain ⟨⟨idx, h1, _, _, he⟩, _⟩ := h
  rw [he]
  exact List.Nodup.map (fun _ _ e => rvar_inj e) (h1.imp (fun h => Nat.ne_of_lt h))

theorem sampleClauses_cases {rs : RandomSource} {k n : Nat} (h : rs.Ok k n) (m : Nat) (planted : List Partial) :
    (m ≤ {c | Candidate k n planted c}.ncard ∧ ∃ cs, sampleClauses rs k n m planted = pure cs ∧ cs.Nodup ∧ (∀ c ∈ cs, Candidate k n planted c) ∧
      cs.length = m) ∨
    ({c | Candidate k n planted c}.ncard < m ∧ sampleClauses rs k n m planted = raise .valueError) := by
  rw [ncard_candidates]
  obtain ⟨h1, h2, h3⟩ := sampleLoop_ok h m planted (10 * m) 0 [] List.nodup_nil (by simp) (by simp)
  have hle : (sampleLoop rs m planted (10 * m) 0 []).length ≤ (allClauses k n planted).length :=
    (List.subperm_of_subset h1 (fun c hc => mem_allClauses.2 (h2 c hc))).length_le
  unfold sampleClauses
  dsimp only
  split
  · unfold sampleDense
    split
    · rename_i hm
      obtain ⟨h4, h5⟩ := h.sample _ m hm
      refine .inl ⟨hm, _, rfl, ?_, fun c hc => mem_allClauses.1 (h5.subset hc), h4⟩
      obtain ⟨l, hl1, hl2⟩ := h5
      exact hl1.nodup_iff.1 ((allClauses_nodup k n planted).sublist hl2)
    · exact .inr ⟨by omega, rfl⟩
  · have hm : (sampleLoop rs m planted (10 * m) 0 []).length = m := by omega
    refine .inl ⟨by omega, _, rfl, ?_, ?_, ?_⟩
    · exact (h.iter _).nodup_iff.2 h1
    · intro c hc; exact h2 c ((h.iter _).mem_iff.1 hc)
    · rw [(h.iter _).length_eq, hm]

/-- **C68.** For all random choices.  Negative parameters or `k > n`: refused.  Otherwise, if there are `m` possible clauses, the formula has the
variables `x_1 … x_n` (numbered so), `m` different clauses, each of `k` variables and true under every planted assignment; if there are fewer,
the call is refused. -/
theorem C68_random_kcnf (rs : RandomSource) (planted : List Partial) :
    (∀ k n m : Int, n < 0 ∨ m < 0 ∨ k < 0 ∨ k > n → randomKCNF rs k n m planted = raise .valueError) ∧
    ∀ k n m : Nat, k ≤ n → rs.Ok k n →
      ({c | Candidate k n planted c}.ncard < m → randomKCNF rs k n m planted = raise .valueError) ∧
      (m ≤ {c | Candidate k n planted c}.ncard → ∃ F cs, randomKCNF rs k n m planted = pure F ∧ F.vars = (oneTo n).map rvar ∧
        F.clauses.mapM F.uncompress = pure cs ∧ cs.length = m ∧ cs.Nodup ∧ (∀ c ∈ cs, Candidate k n planted c) ∧
        (∀ α, Holds F.vars F.clauses α ↔ AllTrue α cs) ∧
        ∀ a ∈ planted, ∀ α : Str → Bool, (∀ x b, a x = some b → α x = b) → Holds F.vars F.clauses α) := by
  constructor
  · intro k n m h
    unfold randomKCNF
    split
    · rfl
    · rw [if_pos (by omega)]
  · intro k n m hkn h
    unfold randomKCNF
    rw [if_neg (by omega), if_neg (by omega)]
    simp only [Int.toNat_natCast]
    rcases sampleClauses_cases h m planted with ⟨hm, cs, e, hn, hc, hl⟩ | ⟨hm, e⟩
    · refine ⟨fun hlt => by omega, fun _ => ?_⟩
      rw [e, M.pure_bind]
      have hv : ((oneTo n).map rvar).Nodup := (oneTo_nodup n).map (fun _ _ e => rvar_inj e)
      obtain ⟨F, hF, hcoh⟩ := CNF.ofPartsStrict_ok (vs := (oneTo n).map rvar) (cs := cs) (fun c hcc => (hc c hcc).names_nodup) (by
        intro c hcc l hl
        obtain ⟨⟨idx, _, _, hb, he⟩, _⟩ := hc c hcc
        have : l.2 ∈ idx.map rvar := by rw [← he]; exact List.mem_map_of_mem hl
        obtain ⟨i, hi, e⟩ := List.mem_map.1 this
        rw [← e]; exact List.mem_map_of_mem (mem_oneTo.2 (hb i hi)))
      refine ⟨F, cs, hF, ?_, hcoh.uncompress, hl, hn, hc, hcoh.holds, ?_⟩
      · unfold CNF.ofPartsStrict at hF
        rw [addAll_strict_vars hF, CNF.addVariables_vars hv (by simp)]; rfl
      · intro a ha α hα
        rw [hcoh.holds]
        intro c hcc
        obtain ⟨l, hl, hal⟩ := (hc c hcc).2 a ha
        exact ⟨l, hl, hα _ _ hal⟩
    · exact ⟨fun _ => by rw [e]; rfl, fun hle => by omega⟩

/-- Without planted assignments there are `2^k * (n choose k)` possible clauses. -/
theorem C68_count (k n : Nat) : {c | Candidate k n [] c}.ncard = n.choose k * 2 ^ k := by
  rw [ncard_candidates]
  unfold allClauses
  have : ∀ c : List (Lit Str), clauseSatisfied c [] = true := by intro c; rfl
  simp only [this, List.filter_true, List.length_flatMap, List.length_map, length_bools]
  rw [List.map_const', List.sum_replicate, length_combinations, length_oneTo]; simp

/-- Any `m` different possible clauses, in any order, are the result for some random choices. -/
theorem C68_all_possible {k n : Nat} (hkn : k ≤ n) (planted : List Partial) {cs : List (List (Lit Str))} (hn : cs.Nodup)
    (hc : ∀ c ∈ cs, Candidate k n planted c) :
    ∃ rs : RandomSource, rs.Ok k n ∧ ∃ F, randomKCNF rs k n cs.length planted = pure F ∧ F.clauses.mapM F.uncompress = pure cs := by
  classical
  have hch : ∀ c : {c // c ∈ cs}, ∃ d : List Nat × List Bool,
      (d.1.Nodup ∧ (∀ i ∈ d.1, 1 ≤ i ∧ i ≤ n) ∧ d.1.length = k ∧ d.2.length = k) ∧ drawnClause d = c.1 := by
    rintro ⟨c, hcc⟩
    obtain ⟨⟨idx, h1, h2, h3, h4⟩, _⟩ := hc c hcc
    have hl : c.length = k := by have := congrArg List.length h4; simpa [h2] using this
    refine ⟨(idx, c.map Prod.fst), ⟨h1.imp (fun h => Nat.ne_of_lt h), h3, h2, by simp [hl]⟩, ?_⟩
    unfold drawnClause
    dsimp only
    rw [List.mergeSort_of_pairwise (h1.imp (fun h => by simp; omega)), ← zip_map_eq, ← h4]
    exact (List.zip_of_prod rfl rfl).symm
  choose dr hdr hde using hch
  let df : List Nat × List Bool := (oneTo k, List.replicate k true)
  have hdf : df.1.Nodup ∧ (∀ i ∈ df.1, 1 ≤ i ∧ i ≤ n) ∧ df.1.length = k ∧ df.2.length = k :=
    ⟨oneTo_nodup k, fun i hi => by have := mem_oneTo.1 hi; omega, length_oneTo k, by simp [df]⟩
  let rs : RandomSource :=
    { draw := fun t => if h : t < cs.length then dr ⟨cs[t], List.getElem_mem h⟩ else df
      sample := fun l m => l.take m
      iter := id }
  have hok : rs.Ok k n := by
    refine ⟨fun t => ?_, fun l m hm => ⟨by simp [rs, hm], ?_⟩, fun s => List.Perm.refl _⟩
    · show ((if h : t < cs.length then dr ⟨cs[t], List.getElem_mem h⟩ else df).1.Nodup ∧ _)
      dsimp only [rs]
      split
      · exact hdr _
      · exact hdf
    · exact (List.take_sublist m l).subperm
  have hloop : ∀ left t : Nat, t ≤ cs.length → cs.length ≤ t + left → sampleLoop rs cs.length planted left t (cs.take t) = cs := by
    intro left
    induction left with
    | zero => intro t h1 h2; unfold sampleLoop; exact List.take_of_length_le (by omega)
    | succ left ih =>
      intro t h1 h2
      unfold sampleLoop
      by_cases ht : t < cs.length
      · rw [if_pos (by simp; omega)]
        have e : drawnClause (rs.draw t) = cs[t] := by
          dsimp only [rs]; rw [dif_pos ht]; exact hde _
        dsimp only
        rw [e]
        have hs : clauseSatisfied cs[t] planted = true := (clauseSatisfied_iff _ _).2 (hc _ (List.getElem_mem ht)).2
        have hnot : cs[t] ∉ cs.take t := by
          intro hm
          obtain ⟨i, hi, he⟩ := List.mem_iff_getElem.1 hm
          rw [List.getElem_take] at he
          have := (List.nodup_iff_injective_getElem.1 hn) (a₁ := ⟨i, by simp at hi; omega⟩) (a₂ := ⟨t, ht⟩) he
          simp at this; simp at hi; omega
        rw [hs]
        simp only [Bool.true_and, decide_eq_true hnot, if_true]
        have : cs.take t ++ [cs[t]] = cs.take (t + 1) := by simp
        rw [this]
        exact ih (t + 1) (by omega) (by omega)
      · rw [if_neg (by simp; omega)]
        exact List.take_of_length_le (by omega)
  have hs : sampleClauses rs k n cs.length planted = pure cs := by
    unfold sampleClauses
    have := hloop (10 * cs.length) 0 (by omega) (by omega)
    rw [List.take_zero] at this
    dsimp only
    rw [this, if_neg (by omega)]; rfl
  have hle : cs.length ≤ {c | Candidate k n planted c}.ncard := by
    rw [ncard_candidates]
    exact (List.subperm_of_subset hn (fun c hcc => mem_allClauses.2 (hc c hcc))).length_le
  obtain ⟨F, ds, hF, _, hu, hl, _⟩ := ((C68_random_kcnf rs planted).2 k n cs.length hkn hok).2 hle
  refine ⟨rs, hok, F, hF, ?_⟩
  unfold randomKCNF at hF
  rw [if_neg (by omega), if_neg (by omega)] at hF
  simp only [Int.toNat_natCast] at hF
  rw [hs, M.pure_bind] at hF
  exact (ofPartsStrict_coh hF).uncompress

/-- **C69.** The formulas `or` and `and` of `P` positive and `N` negative literals, the empty formula and the contradiction. -/
theorem C69_simple (p n : Nat) :
    (∃ F, orFormula p n = pure F ∧ F.clauses.length = 1 ∧
      ∀ α, Holds F.vars F.clauses α ↔ (∃ i < p, α (rvar i) = true) ∨ ∃ i < n, α (yvar i) = false) ∧
    (∃ F, andFormula p n = pure F ∧ F.clauses.length = p + n ∧
      ∀ α, Holds F.vars F.clauses α ↔ (∀ i < p, α (rvar i) = true) ∧ ∀ i < n, α (yvar i) = false) ∧
    (∃ F, emptyFormula = pure F ∧ F.vars = [] ∧ F.clauses = [] ∧ ∀ α, Holds F.vars F.clauses α) ∧
    (∃ F, emptyClauseFormula = pure F ∧ F.vars = [] ∧ F.clauses = [[]] ∧ ∀ α, ¬ Holds F.vars F.clauses α) := by
  refine ⟨?_, ?_, ⟨{}, rfl, rfl, rfl, by simp [Holds]⟩, ⟨{ clauses := [[]] }, rfl, rfl, rfl, by simp [Holds]⟩⟩
  · obtain ⟨F, hF, hc⟩ := CNF.ofClauses_ok
      (cs := [(List.range p).map (fun i => (true, rvar i)) ++ (List.range n).map (fun i => (false, yvar i))]) (by
        intro c hc
        rw [List.mem_singleton.1 hc, List.map_append, List.map_map, List.map_map, List.nodup_append]
        refine ⟨List.nodup_range.map (fun _ _ e => rvar_inj e), List.nodup_range.map (fun _ _ e => yvar_inj e), ?_⟩
        intro a ha b hb e
        obtain ⟨i, _, rfl⟩ := List.mem_map.1 ha
        obtain ⟨j, _, rfl⟩ := List.mem_map.1 hb
        simp [rvar, yvar] at e)
    refine ⟨F, by simpa [orFormula] using hF, by rw [hc.clauses]; simp, fun α => ?_⟩
    rw [hc.holds, allTrue_cons, clauseTrue_append]
    simp [ClauseTrue, allTrue_nil]
  · obtain ⟨F, hF, hc⟩ := CNF.ofClauses_ok
      (cs := (List.range p).map (fun i => [(true, rvar i)]) ++ (List.range n).map (fun i => [(false, yvar i)])) (by
        intro c hc
        rcases List.mem_append.1 hc with hc | hc <;> obtain ⟨i, _, rfl⟩ := List.mem_map.1 hc <;> simp)
    refine ⟨F, by simpa [andFormula] using hF, by rw [hc.clauses]; simp, fun α => ?_⟩
    rw [hc.holds, allTrue_append, allTrue_map, allTrue_map]
    simp [ClauseTrue]

/-- A case of C68: 3 clauses of width 2 over 3 variables with the planted assignment `x_1 = true`; the hypotheses are met, there are enough clauses. -/
example : ∃ rs : RandomSource, rs.Ok 2 3 ∧ (3 ≤ {c | Candidate 2 3 [fun x => if x = rvar 1 then some true else none] c}.ncard) := by
  refine ⟨{ draw := fun _ => ([2, 1], [true, false]), sample := fun l m => l.take m, iter := id },
    ⟨fun _ => by simp, fun l m hm => ⟨by simp [hm], (List.take_sublist m l).subperm⟩, fun _ => List.Perm.refl _⟩, ?_⟩
  rw [ncard_candidates]
  decide

end NDP.Cnfgen
