import Verif.Proofs.FactLoad
import Verif.Props.Verdict
import Verif.Props.Circuit
/- Runs on preprocessed formulas: verdict, assigned input bits, decoding. -/
namespace NDP
open Spec SetObj Gen
variable {H : Type}

/-- Any completion of a solution is a model. -/
theorem makesTrue_sat {d : Dict Int Bool} {F : Cnf} (h : MakesTrue d F) {α : Assign} (ha : Agrees α d) : Sat α F := by
  intro c hc
  obtain ⟨l, hl, hv⟩ := h c hc
  exact ⟨l, hl, litVal_of_partial ha hv⟩

/-- A model of what is left extends to the whole formula. -/
theorem satisfiable_residual {d : Dict Int Bool} {F : Cnf} (h : Satisfiable (residual d F)) : Satisfiable F := by
  obtain ⟨α, hα⟩ := h
  let β : Assign := fun v => (d.get? (v : Int)).getD (α v)
  have ha : Agrees β d := by intro v b hb; simp [β, hb]
  refine ⟨β, (sat_residual ha F).2 ?_⟩
  intro c hc
  obtain ⟨l, hl, hv⟩ := hα c hc
  refine ⟨l, hl, ?_⟩
  obtain ⟨e, _, rfl⟩ := List.mem_map.1 hc
  have hn : partialVal d l = none := by simpa using (List.mem_filter.1 hl).2
  unfold partialVal at hn
  have hn : d.get? (l.natAbs : Int) = none := by simpa using hn
  have e : β l.natAbs = α l.natAbs := by
    show (d.get? ((l.natAbs : Nat) : Int)).getD _ = _
    rw [hn]; rfl
  unfold litVal at hv ⊢
  rw [e]; exact hv

/-- The completion by false. -/
def complete (d : Dict Int Bool) : Assign := fun v => (d.get? (v : Int)).getD false

theorem agrees_complete (d : Dict Int Bool) : Agrees (complete d) d := by
  intro v b h; simp [complete, h]

/-- Setting one unassigned variable. -/
theorem agrees_update {d : Dict Int Bool} {v : Nat} (hv : d.get? (v : Int) = none) (b : Bool) {α : Assign} (h : Agrees α d) :
    Agrees (fun w => if w = v then b else α w) d := by
  intro w c hw
  by_cases e : w = v
  · subst e; rw [hv] at hw; simp at hw
  · simp only [if_neg e]; exact h w c hw

theorem natOfBits_inj {l k : List Bool} (hl : l.length = k.length) (h : natOfBits l = natOfBits k) : l = k := by
  induction l generalizing k with
  | nil => cases k with
    | nil => rfl
    | cons => simp at hl
  | cons b l ih =>
    cases k with
    | nil => simp at hl
    | cons c k =>
      simp only [natOfBits] at h
      have hbc : b = c := by
        cases b <;> cases c <;> simp at h ⊢ <;> omega
      subst hbc
      rw [ih (by simpa using hl) (by omega)]

theorem numAt_congr {α β : Assign} {s k : Nat} (h : ∀ i < k, α (s + i) = β (s + i)) : numAt α s k = numAt β s k := by
  unfold numAt
  congr 1
  apply List.map_congr_left
  intro i hi
  exact h i (List.mem_range.1 hi)

theorem numAt_inj {α β : Assign} {s k : Nat} (h : numAt α s k = numAt β s k) {i : Nat} (hi : i < k) :
    α (s + i) = β (s + i) := by
  have := natOfBits_inj (by simp) h
  rw [List.map_inj_left] at this
  exact this i (List.mem_range.2 hi)

theorem bitsValue_eq (l : List Bool) : bitsValue l = natOfBits l := by
  induction l with
  | nil => rfl
  | cons b l ih => simp [bitsValue, natOfBits, ih]

/-- A solution in which the variables `s, …, s+k-1` are all assigned starts with their values. -/
theorem values_take {d : Dict Int Bool} {s k : Nat} (hp : d.keys.Pairwise (· < ·)) (hs : ∀ x ∈ d.keys, (s : Int) ≤ x)
    (ha : ∀ i < k, (d.get? ((s + i : Nat) : Int)).isSome = true) :
    d.values.take k = (List.range k).map fun i => complete d (s + i) := by
  induction k generalizing d s with
  | zero => simp
  | succ k ih =>
    cases d with
    | nil => have := ha 0 (by omega); simp [Dict.get?] at this
    | cons p d =>
      obtain ⟨x, b⟩ := p
      simp only [Dict.keys, List.map_cons, List.pairwise_cons] at hp
      have hx : x = (s : Int) := by
        have h0 := ha 0 (by omega)
        have hmem : (s : Int) ∈ Dict.keys ((x, b) :: d) := by
          obtain ⟨c, hc⟩ := Option.isSome_iff_exists.1 h0
          simpa using Dict.mem_keys_of_get? hc
        simp only [Dict.keys, List.map_cons, List.mem_cons] at hmem
        rcases hmem with h | h
        · exact h.symm
        · have h1 := hp.1 _ h
          have h2 := hs x (by simp [Dict.keys])
          omega
      subst hx
      have hne : ∀ i, ¬ ((s : Int) = ((s + 1 + i : Nat) : Int)) := by intro i; push_cast; omega
      have hget : ∀ i, Dict.get? (((s : Int), b) :: d) ((s + 1 + i : Nat) : Int) = Dict.get? d ((s + 1 + i : Nat) : Int) := by
        intro i; rw [Dict.get?, if_neg (hne i)]
      have ih := ih (d := d) (s := s + 1) hp.2 (by
        intro x hx
        have := hp.1 x hx
        push_cast; omega) (by
        intro i hi
        have := ha (i + 1) (by omega)
        rw [show s + (i + 1) = s + 1 + i by omega, hget] at this
        exact this)
      rw [List.range_succ_eq_map, List.map_cons, List.map_map]
      simp only [Dict.values, List.map_cons, List.take_succ_cons]
      congr 1
      · simp [complete, Dict.get?]
      · simp only [Dict.values] at ih
        rw [ih]
        apply List.map_congr_left
        intro i _
        simp only [complete, Function.comp_apply]
        rw [show s + (i + 1) = s + 1 + i by omega, hget]

/-- Every bit of the factors is assigned in a solution: otherwise it could be flipped. -/
theorem inputs_assigned {f1 f2 : Nat} {vs : List Nat} {G : Cnf} {bs : List Bool} {root : SetObj H}
    (h : MultSet f1 f2 vs G bs root) (hb : bs.length ≤ f1 + f2) (hpos : 0 < natOfBits bs) {d : Dict Int Bool}
    (hd : MakesTrue d (raws root.clauses)) {v : Nat} (h1 : 1 ≤ v) (h2 : v ≤ f1 + f2) : (d.get? (v : Int)).isSome = true := by
  by_contra hn
  have hn : d.get? (v : Int) = none := by simpa using hn
  have key : ∀ b, numAt (fun w => if w = v then b else complete d w) 1 f1 *
      numAt (fun w => if w = v then b else complete d w) (f1 + 1) f2 = natOfBits bs := fun b =>
    ((h.sat_iff hb _).1 (makesTrue_sat hd (agrees_update hn b (agrees_complete d)))).2
  have kt := key true
  have kf := key false
  by_cases hv : v ≤ f1
  · have e2 : numAt (fun w => if w = v then true else complete d w) (f1 + 1) f2 =
        numAt (fun w => if w = v then false else complete d w) (f1 + 1) f2 := by
      apply numAt_congr
      intro i _
      rw [if_neg (by omega), if_neg (by omega)]
    rw [e2] at kt
    have hne : numAt (fun w => if w = v then false else complete d w) (f1 + 1) f2 ≠ 0 := by
      intro e; rw [e, Nat.mul_zero] at kf; omega
    have e1 := Nat.eq_of_mul_eq_mul_right (Nat.pos_of_ne_zero hne) (kt.trans kf.symm)
    have := numAt_inj e1 (i := v - 1) (by omega)
    simp only [show 1 + (v - 1) = v by omega, if_true] at this
    simp at this
  · have e2 : numAt (fun w => if w = v then true else complete d w) 1 f1 =
        numAt (fun w => if w = v then false else complete d w) 1 f1 := by
      apply numAt_congr
      intro i _
      rw [if_neg (by omega), if_neg (by omega)]
    rw [e2] at kt
    have hne : numAt (fun w => if w = v then false else complete d w) 1 f1 ≠ 0 := by
      intro e; rw [e, Nat.zero_mul] at kf; omega
    have e1 := Nat.eq_of_mul_eq_mul_left (Nat.pos_of_ne_zero hne) (kt.trans kf.symm)
    have := numAt_inj e1 (i := v - (f1 + 1)) (by omega)
    simp only [show f1 + 1 + (v - (f1 + 1)) = v by omega, if_true] at this
    simp at this

theorem pySlice_nat {α : Type} (l : List α) (i j : Nat) (hj : j ≤ l.length) (hij : i ≤ j) :
    pySlice l (i : Int) (j : Int) = (l.take j).drop i := by
  unfold pySlice
  simp only
  rw [if_neg (by omega), if_neg (by omega)]
  simp only [Int.toNat_natCast]
  rw [Nat.min_eq_left hj, Nat.min_eq_left (by omega)]

/-- Decoding a solution of a preprocessed generated formula. -/
theorem decodeFact_ok {f1 f2 : Nat} {vs : List Nat} {G : Cnf} {bs : List Bool} {root : SetObj H}
    (h : MultSet f1 f2 vs G bs root) (hb : bs.length ≤ f1 + f2) (hpos : 0 < natOfBits bs) {info : FactInfo}
    {root' : SetObj H} (hp : FactPre f1 f2 vs bs root info root') {d : Dict Int Bool} (hk : SolKeys d)
    (hd : MakesTrue d (raws root.clauses)) :
    decodeFact (some info) (some d) =
      pure (.factors (natOfBits bs) (numAt (complete d) 1 f1) (numAt (complete d) (f1 + 1) f2)) := by
  have w1 := h.form.w1
  have w2 := h.form.w2
  have hall : ∀ i < f1 + f2, (d.get? ((1 + i : Nat) : Int)).isSome = true :=
    fun i hi => inputs_assigned h hb hpos hd (by omega) (by omega)
  have hv := values_take (s := 1) (k := f1 + f2) hk.1 (by simpa using hk.2) hall
  have hlen : f1 + f2 ≤ d.values.length := by
    have := congrArg List.length hv
    simp only [List.length_take, List.length_map, List.length_range] at this
    omega
  have hprod := ((h.sat_iff hb _).1 (makesTrue_sat hd (agrees_complete d))).2
  cases d with
  | nil => simp [Dict.values] at hlen; omega
  | cons p d =>
    have henough := hp.enough
    have hl2 : f1 + f2 ≤ ((Dict.values (p :: d)).take info.numBits.length).length := by
      rw [List.length_take]; omega
    have htk : ∀ j, j ≤ f1 + f2 → ((Dict.values (p :: d)).take info.numBits.length).take j =
        ((List.range (f1 + f2)).map fun i => complete (p :: d) (1 + i)).take j := by
      intro j hj
      rw [← hv, List.take_take, List.take_take]
      congr 1
      omega
    have s1 : pySlice ((Dict.values (p :: d)).take info.numBits.length) 0 info.len1 =
        (List.range f1).map fun i => complete (p :: d) (1 + i) := by
      have := pySlice_nat ((Dict.values (p :: d)).take info.numBits.length) 0 f1 (by omega) (by omega)
      rw [hp.len1]
      simp only [Nat.cast_zero] at this
      rw [this, List.drop_zero, htk _ (by omega), ← List.map_take, List.take_range, Nat.min_eq_left (by omega)]
    have s2 : pySlice ((Dict.values (p :: d)).take info.numBits.length) info.len1 (info.len1 + info.len2) =
        (List.range f2).map fun i => complete (p :: d) (f1 + 1 + i) := by
      have := pySlice_nat ((Dict.values (p :: d)).take info.numBits.length) f1 (f1 + f2) (by omega) (by omega)
      rw [hp.len1, hp.len2]
      push_cast at this
      rw [this, htk _ (by omega), ← List.map_take, List.take_range, Nat.min_self, List.range_add, List.map_append,
        List.drop_left' (by simp), List.map_map]
      apply List.map_congr_left
      intro i _
      simp only [Function.comp_apply]
      congr 1
      omega
    unfold decodeFact
    simp only [s1, s2]
    have d1 : decodeBits ((List.range f1).map fun i => complete (p :: d) (1 + i)) = pure (numAt (complete (p :: d)) 1 f1) := by
      unfold decodeBits
      rw [if_neg (by cases f1 <;> simp at w1 ⊢), bitsValue_eq]; rfl
    have d2 : decodeBits ((List.range f2).map fun i => complete (p :: d) (f1 + 1 + i)) =
        pure (numAt (complete (p :: d)) (f1 + 1) f2) := by
      unfold decodeBits
      rw [if_neg (by cases f2 <;> simp at w2 ⊢), bitsValue_eq]; rfl
    rw [d1, d2]
    simp only [M.pure_bind, hp.number, hprod, if_true]

/-- Verdict of a run on a set prepared for the formula `R`. -/
theorem solveSet_loaded [DecidableEq H] (hash : Str → H) {a : Args} (ha : Local a) {env : EnvChoice}
    (hf : a.useRuntimeDb = true → env.mainFails = false) {g : Gdb H} {R : Cnf} (hR : Proper R)
    {root : SetObj H} (h : Loaded R root) {rep : Report H} (hrun : solveSet hash a env g root = pure rep) :
    (rep.isSat = true ↔ rep.solution.isSome) ∧
    (∀ d, rep.solution = some d → MakesTrue d R ∧ SolKeys d) ∧
    (NoCollisions hash a root → rep.isSat = false → ¬ Satisfiable (raws root.clauses)) := by
  obtain ⟨s, ps, hs, hr, hsat, hres, hrep⟩ := solveSet_sound hash a ha.gdb ha.nomem hf hR h hrun
  refine ⟨by rw [hrep.isSat, hrep.solution]; exact hres.sat, by rw [hrep.solution]; exact hres.sol, ?_⟩
  intro hcoll hns
  rw [hrep.isSat] at hns
  have := hres.unsat (hcoll s _ hs) hns
  rwa [hsat] at this

/-- A set's digest can be computed. -/
theorem getHash_false [DecidableEq H] (hash : Str → H) {root : SetObj H} (hval : root.value = none) (hne : root.clauses ≠ []) :
    ∃ k, root.getHash hash false = pure (k, { root with computedHash := some k }) := by
  unfold SetObj.getHash
  have := toStr_ok hval hne
  cases hc : root.computedHash with
  | none => exact ⟨hash (bodyStr root.clauses), by rw [this]; rfl⟩
  | some k => exact ⟨k, by simp only; rw [← hc]⟩

theorem Loaded.withHash {R : Cnf} {root : SetObj H} (h : Loaded R root) (k : Option H) :
    Loaded R { root with computedHash := k } := ⟨h.ne, h.proper, h.value, h.fnm, h.evnd, h.evpos, h.same⟩

/-- Models of the formula: the fixed values together with models of the preprocessed formula. -/
theorem fact_models {f1 f2 : Nat} {vs : List Nat} {G : Cnf} {bs : List Bool} {root : SetObj H}
    (h : MultSet f1 f2 vs G bs root) (hb : bs.length ≤ f1 + f2) {info : FactInfo}
    {root' : SetObj H} (hp : FactPre f1 f2 vs bs root info root') (α : Assign) :
    Sat α (raws root.clauses) ↔ Agrees α root'.evaluatedVars ∧ Sat α (raws root'.clauses) := by
  constructor
  · intro hs
    have := h.agrees hb hp.map hs
    exact ⟨this, by rw [hp.eqn]; exact (sat_residual this _).1 hs⟩
  · rintro ⟨ha, hs⟩
    rw [hp.eqn] at hs
    exact (sat_residual ha _).2 hs

theorem fact_satisfiable {f1 f2 : Nat} {vs : List Nat} {G : Cnf} {bs : List Bool} {root : SetObj H}
    (h : MultSet f1 f2 vs G bs root) (hb : bs.length ≤ f1 + f2) {info : FactInfo}
    {root' : SetObj H} (hp : FactPre f1 f2 vs bs root info root') :
    Satisfiable (raws root.clauses) ↔ Satisfiable (raws root'.clauses) := by
  constructor
  · rintro ⟨α, hα⟩
    exact ⟨α, ((fact_models h hb hp α).1 hα).2⟩
  · intro hs
    rw [hp.eqn] at hs
    exact satisfiable_residual hs

end NDP
