import Verif.Proofs.Form
import Verif.Model.Task
import Verif.Props.Basic
/- The factorizer's preprocessing of a set read from a generated formula. -/
namespace NDP
open Spec SetObj Gen
variable {H : Type}

/-- The output variables with the bits asserted of them. -/
def outPairs : List Nat → List Bool → List (Int × Bool)
  | [], _ => []
  | v :: vs, [] => ((v : Int), false) :: outPairs vs []
  | v :: vs, b :: bs => ((v : Int), b) :: outPairs vs bs

theorem mem_outPairs {vs : List Nat} {bs : List Bool} {p : Int × Bool} :
    p ∈ outPairs vs bs ↔ ∃ i, ∃ h : i < vs.length, p = ((vs[i] : Int), bs.getD i false) := by
  induction vs generalizing bs with
  | nil => cases bs <;> simp [outPairs]
  | cons v vs ih =>
    have key : ∀ (b : Bool) (bs bs' : List Bool), bs'.getD 0 false = b → (∀ i, bs'.getD (i + 1) false = bs.getD i false) →
        (p ∈ ((v : Int), b) :: outPairs vs bs ↔ ∃ i, ∃ h : i < (v :: vs).length, p = (((v :: vs)[i] : Int), bs'.getD i false)) := by
      intro b bs bs' e0 e1
      rw [List.mem_cons, ih]
      constructor
      · rintro (rfl | ⟨i, hi, rfl⟩)
        · exact ⟨0, by simp, by rw [e0]; rfl⟩
        · exact ⟨i + 1, by simpa using hi, by rw [e1]; rfl⟩
      · rintro ⟨i, hi, rfl⟩
        cases i with
        | zero => left; rw [e0]; rfl
        | succ i => right; exact ⟨i, by simpa using hi, by rw [e1]; rfl⟩
    cases bs with
    | nil => exact key false [] [] rfl fun _ => rfl
    | cons b bs => exact key b bs (b :: bs) rfl fun _ => rfl

/-- The dict after storing all the pairs. -/
def setAll (d : Dict Int Bool) (l : List (Int × Bool)) : Dict Int Bool := l.foldl (fun d p => Dict.set d p.1 p.2) d

theorem setAll_keys (l : List (Int × Bool)) (d : Dict Int Bool) (k : Int) :
    k ∈ (setAll d l).keys ↔ k ∈ d.keys ∨ ∃ p ∈ l, p.1 = k := by
  induction l generalizing d with
  | nil => simp [setAll]
  | cons p l ih =>
    show k ∈ (setAll (d.set p.1 p.2) l).keys ↔ _
    rw [ih, Dict.mem_keys_set]
    simp only [List.exists_mem_cons_iff]
    constructor
    · rintro ((rfl | h) | h)
      · exact Or.inr (Or.inl rfl)
      · exact Or.inl h
      · exact Or.inr (Or.inr h)
    · rintro (h | rfl | h)
      · exact Or.inl (Or.inr h)
      · exact Or.inl (Or.inl rfl)
      · exact Or.inr h

theorem setAll_nodup (l : List (Int × Bool)) (d : Dict Int Bool) (h : d.keys.Nodup) : (setAll d l).keys.Nodup := by
  induction l generalizing d with
  | nil => exact h
  | cons p l ih => exact ih _ (Dict.nodup_keys_set _ _ _ h)

theorem setAll_get (l : List (Int × Bool)) (d : Dict Int Bool) (hc : ∀ p ∈ l, ∀ q ∈ l, p.1 = q.1 → p.2 = q.2)
    {p : Int × Bool} (hp : p ∈ l) : (setAll d l).get? p.1 = some p.2 := by
  induction l generalizing d p with
  | nil => simp at hp
  | cons q l ih =>
    show (setAll (d.set q.1 q.2) l).get? p.1 = _
    by_cases hm : ∃ r ∈ l, r.1 = p.1
    · obtain ⟨r, hr, e⟩ := hm
      have := ih (d.set q.1 q.2) (fun a ha b hb => hc a (by simp [ha]) b (by simp [hb])) hr
      rw [← e, this]
      congr 1
      exact hc r (by simp [hr]) p hp e
    · rcases List.mem_cons.1 hp with rfl | hp
      · unfold setAll
        rw [Dict.foldl_set_get?]
        have : Dict.get? (l.reverse : Dict Int Bool) p.1 = none := by
          rw [Dict.get?_eq_none_iff]
          intro hk
          obtain ⟨r, hr, e⟩ := List.mem_map.1 hk
          exact hm ⟨r, by simpa using hr, e⟩
        rw [this]; simp
      · exact absurd ⟨p, hp, rfl⟩ hm

/-! ### reading the assertions -/

theorem factUnits_gates {cls : List Clause} (h : ∀ c ∈ cls, 2 ≤ c.raw.length) (vm : Dict Int Bool) (num i : Nat)
    (rest : List Clause) : factUnits vm num i (cls ++ rest) = factUnits vm num i rest := by
  induction cls with
  | nil => rfl
  | cons c cls ih =>
    have ih := ih fun c hc => h c (by simp [hc])
    have hc := h c (by simp)
    rw [List.cons_append, factUnits]
    split
    · next e => rw [e] at hc; simp at hc
    · exact ih

theorem factUnits_units {cls : List Clause} {vs : List Nat} {bs : List Bool} (hr : raws cls = unitsOf vs bs)
    (hv : ∀ v ∈ vs, 0 < v) (hl : bs.length ≤ vs.length) (vm : Dict Int Bool) (num i : Nat) :
    factUnits vm num i cls = (setAll vm (outPairs vs bs), num + natOfBits bs * 2 ^ i) := by
  induction vs generalizing cls bs vm num i with
  | nil =>
    have hb : bs = [] := by simpa using hl
    subst hb
    have : cls = [] := by simpa [raws, unitsOf] using hr
    subst this
    simp [factUnits, outPairs, setAll, natOfBits]
  | cons v vs ih =>
    have hv0 := hv v (by simp)
    have hv' : ∀ v ∈ vs, 0 < v := fun w hw => hv w (by simp [hw])
    have key : ∀ (b : Bool) (bs' : List Bool), raws cls = [if b then (v : Int) else -(v : Int)] :: unitsOf vs bs' →
        bs'.length ≤ vs.length →
        factUnits vm num i cls = (setAll vm (((v : Int), b) :: outPairs vs bs'),
          num + ((if b then 1 else 0) + 2 * natOfBits bs') * 2 ^ i) := by
      intro b bs' hr hl
      cases cls with
      | nil => simp [raws] at hr
      | cons c cls =>
        have hr' : c.raw :: raws cls = [if b then (v : Int) else -(v : Int)] :: unitsOf vs bs' := hr
        rw [List.cons.injEq] at hr'
        rw [factUnits, hr'.1]
        simp only
        rw [ih hr'.2 hv' hl]
        have e1 : (((if b then (v : Int) else -(v : Int)).natAbs : Nat) : Int) = (v : Int) := by cases b <;> simp
        have e2 : decide (0 < (if b then (v : Int) else -(v : Int))) = b := by
          cases b
          · simp only [Bool.false_eq_true, if_false, decide_eq_false_iff_not]; omega
          · simp only [if_true, decide_eq_true_eq]; omega
        have e3 : (0 < (if b then (v : Int) else -(v : Int))) ↔ b = true := by
          cases b
          · simp only [Bool.false_eq_true, if_false, iff_false]; omega
          · simp only [if_true, iff_true]; omega
        rw [e1, e2]
        simp only [e3]
        refine Prod.ext rfl ?_
        simp only
        rw [pow_succ]
        ring
    cases bs with
    | nil => exact key false [] hr (by simp)
    | cons b bs => exact key b bs hr (by simpa using hl)

/-- The values read off the assertions: the output variables get the bits of the number. -/
structure OutMap (vs : List Nat) (bs : List Bool) (vm : Dict Int Bool) : Prop where
  nd : vm.keys.Nodup
  keys : ∀ k, k ∈ vm.keys ↔ ∃ v ∈ vs, k = (v : Int)
  get : ∀ i (h : i < vs.length), vm.get? (vs[i] : Int) = some (bs.getD i false)

theorem outMap_of {f1 f2 : Nat} {vs : List Nat} {G : Cnf} (hf : MultForm f1 f2 vs G) {bs : List Bool} (hb : bs.length ≤ f1 + f2) :
    OutMap vs bs (setAll [] (outPairs vs bs)) := by
  have hlen := hf.length
  have idx : ∀ i (h : i < vs.length), i < f1 + f2 → vs[i] ∈ vs.take (f1 + f2) := by
    intro i h hi
    rw [List.mem_iff_getElem]
    exact ⟨i, by simp; omega, by rw [List.getElem_take]⟩
  have idx' : ∀ i (h : i < vs.length), f1 + f2 ≤ i → vs[i] ∈ vs.drop (f1 + f2) := by
    intro i h hi
    rw [List.mem_iff_getElem]
    refine ⟨i - (f1 + f2), by simp; omega, ?_⟩
    rw [List.getElem_drop]
    congr 1
    omega
  have hi' : ∀ i, f1 + f2 ≤ i → bs.getD i false = false := by
    intro i hi
    rw [List.getD_eq_getElem?_getD, List.getElem?_eq_none (by omega)]
    rfl
  have hcons : ∀ p ∈ outPairs vs bs, ∀ q ∈ outPairs vs bs, p.1 = q.1 → p.2 = q.2 := by
    intro p hp q hq e
    obtain ⟨i, hi, rfl⟩ := mem_outPairs.1 hp
    obtain ⟨j, hj, rfl⟩ := mem_outPairs.1 hq
    have e : vs[i] = vs[j] := by simpa using e
    simp only
    by_cases h1 : i < f1 + f2
    · by_cases h2 : j < f1 + f2
      · have : i = j := by
          have hn := hf.low
          have e' : (vs.take (f1 + f2))[i]'(by simp; omega) = (vs.take (f1 + f2))[j]'(by simp; omega) := by
            rw [List.getElem_take, List.getElem_take]; exact e
          exact (List.Nodup.getElem_inj_iff hn).1 e'
        rw [this]
      · exact absurd (idx i hi h1) (e ▸ hf.high _ (idx' j hj (by omega)))
    · by_cases h2 : j < f1 + f2
      · exact absurd (idx j hj h2) (e ▸ hf.high _ (idx' i hi (by omega)))
      · rw [hi' i (by omega), hi' j (by omega)]
  refine ⟨setAll_nodup _ _ (by simp), ?_, ?_⟩
  · intro k
    rw [setAll_keys]
    simp only [Dict.keys_nil, List.not_mem_nil, false_or]
    constructor
    · rintro ⟨p, hp, rfl⟩
      obtain ⟨i, hi, rfl⟩ := mem_outPairs.1 hp
      exact ⟨vs[i], List.getElem_mem hi, rfl⟩
    · rintro ⟨v, hv, rfl⟩
      obtain ⟨i, hi, rfl⟩ := List.mem_iff_getElem.1 hv
      exact ⟨_, mem_outPairs.2 ⟨i, hi, rfl⟩, rfl⟩
  · intro i hi
    exact setAll_get _ _ hcons (mem_outPairs.2 ⟨i, hi, rfl⟩)

theorem OutMap.count {f1 f2 : Nat} {vs : List Nat} {G : Cnf} (hf : MultForm f1 f2 vs G) {bs : List Bool} {vm : Dict Int Bool}
    (h : OutMap vs bs vm) : f1 + f2 ≤ vm.keys.length := by
  have hn : ((vs.take (f1 + f2)).map fun v : Nat => (v : Int)).Nodup := hf.low.map (fun a b h => by simpa using h)
  have hs : ((vs.take (f1 + f2)).map fun v : Nat => (v : Int)) ⊆ vm.keys := by
    intro k hk
    obtain ⟨v, hv, rfl⟩ := List.mem_map.1 hk
    exact (h.keys _).2 ⟨v, List.mem_of_mem_take hv, rfl⟩
  have := (hn.subperm hs).length_le
  rw [List.length_map, List.length_take, Nat.min_eq_left hf.length] at this
  exact this

/-- Everything the factorizer fixes. -/
structure FactMap (f1 : Nat) (vs : List Nat) (bs : List Bool) (odd : Prop) (vm : Dict Int Bool) : Prop where
  nd : vm.keys.Nodup
  keys : ∀ k, k ∈ vm.keys ↔ (∃ v ∈ vs, k = (v : Int)) ∨ (odd ∧ (k = 1 ∨ k = (f1 : Int) + 1))
  get : ∀ i (h : i < vs.length), vm.get? (vs[i] : Int) = some (bs.getD i false)
  one : odd → vm.get? 1 = some true
  two : odd → vm.get? ((f1 : Int) + 1) = some true

theorem factMap_of {f1 f2 : Nat} {vs : List Nat} {G : Cnf} (hf : MultForm f1 f2 vs G) {bs : List Bool} {vm : Dict Int Bool}
    (h : OutMap vs bs vm) (odd : Prop) [Decidable odd] :
    FactMap f1 vs bs odd (if odd then (vm.set 1 true).set ((f1 : Int) + 1) true else vm) := by
  have h1 := hf.w1
  by_cases ho : odd
  · rw [if_pos ho]
    refine ⟨Dict.nodup_keys_set _ _ _ (Dict.nodup_keys_set _ _ _ h.nd), ?_, ?_, ?_, ?_⟩
    · intro k
      rw [Dict.mem_keys_set, Dict.mem_keys_set, h.keys]
      simp only [ho, true_and]
      generalize (∃ v ∈ vs, k = (v : Int)) = P
      tauto
    · intro i hi
      have := hf.fresh _ (List.getElem_mem hi)
      have : (f1 : Int) + 1 ≠ (vs[i] : Int) := by have := hf.w2; omega
      have : (1 : Int) ≠ (vs[i] : Int) := by omega
      rw [Dict.get?_set_ne _ _ (by assumption), Dict.get?_set_ne _ _ (by assumption)]
      exact h.get i hi
    · intro _
      rw [Dict.get?_set_ne _ _ (by omega), Dict.get?_set_self]
    · intro _
      rw [Dict.get?_set_self]
  · rw [if_neg ho]
    exact ⟨h.nd, fun k => by rw [h.keys]; simp [ho], h.get, fun h => absurd h ho, fun h => absurd h ho⟩

theorem raws_split {cls : List Clause} {A B : Cnf} (h : raws cls = A ++ B) :
    ∃ c1 c2, cls = c1 ++ c2 ∧ raws c1 = A ∧ raws c2 = B := by
  unfold raws at *
  obtain ⟨c1, c2, h1, h2, h3⟩ := List.map_eq_append_iff.1 h
  exact ⟨c1, c2, h1, h2, h3⟩

theorem Gen.MultSet.proper {f1 f2 : Nat} {vs : List Nat} {G : Cnf} {bs : List Bool} {root : SetObj H}
    (h : MultSet f1 f2 vs G bs root) : Proper (raws root.clauses) := by
  rw [h.eqn]
  intro c hc
  rcases List.mem_append.1 hc with hc | hc
  · exact h.form.proper c hc
  · obtain ⟨v, hv, hcv⟩ := unitsOf_mem hc
    have := h.form.fresh v hv
    rcases hcv with rfl | rfl
    · refine ⟨by simp, by simp, ?_⟩
      rw [List.mem_singleton]; omega
    · refine ⟨by simp, by simp, ?_⟩
      rw [List.mem_singleton]; omega

/-- The values the factorizer fixes. -/
def fixedVars (f1 : Nat) (vs : List Nat) (bs : List Bool) : Dict Int Bool :=
  if natOfBits bs % 2 = 1 then ((setAll [] (outPairs vs bs)).set 1 true).set ((f1 : Int) + 1) true
  else setAll [] (outPairs vs bs)

/-- What the factorizer's preprocessing does to a set read from a generated formula. -/
structure FactPre (f1 f2 : Nat) (vs : List Nat) (bs : List Bool) (root : SetObj H) (info : FactInfo) (root' : SetObj H) : Prop where
  number : info.number = natOfBits bs
  len1 : info.len1 = f1
  len2 : info.len2 = f2
  enough : f1 + f2 ≤ info.numBits.length
  map : FactMap f1 vs bs (natOfBits bs % 2 = 1) root'.evaluatedVars
  eqn : raws root'.clauses = residual root'.evaluatedVars (raws root.clauses)
  ev : root'.evaluatedVars = fixedVars f1 vs bs
  value : root'.value = none
  fnm : root'.finalNamesMap = []

theorem factPreprocess_ok {f1 f2 : Nat} {vs : List Nat} {G : Cnf} {bs : List Bool} {root : SetObj H}
    (h : MultSet f1 f2 vs G bs root) (hb : bs.length ≤ f1 + f2) :
    ∃ info root', factPreprocess root = some (info, root') ∧ FactPre f1 f2 vs bs root info root' := by
  obtain ⟨rest, hG⟩ := h.form.first
  have hlen := h.form.length
  obtain ⟨c1, c2, e0, e1, e2⟩ := raws_split h.eqn
  have hu : factUnits [] 0 0 root.clauses = (setAll [] (outPairs vs bs), natOfBits bs) := by
    rw [e0, factUnits_gates, factUnits_units e2 (fun v hv => by have := h.form.fresh v hv; omega) (by omega)]
    · simp
    · intro c hc
      exact (h.form.long c.raw (by rw [← e1]; exact List.mem_map.2 ⟨c, hc, rfl⟩)).1
  have hc0 : ∃ c cs, root.clauses = c :: cs ∧ c.raw = [1, (f1 : Int) + 1, -((f1 : Int) + (f2 : Int) + 1)] := by
    have hr := h.eqn
    rw [hG] at hr
    cases hcl : root.clauses with
    | nil => rw [hcl] at hr; simp [NDP.raws] at hr
    | cons c cs =>
      rw [hcl] at hr
      refine ⟨c, cs, rfl, ?_⟩
      have : c.raw :: NDP.raws cs = _ := hr
      rw [List.cons_append, List.cons.injEq] at this
      exact this.1
  obtain ⟨c0, cs, hcl, hc0⟩ := hc0
  have hom := outMap_of h.form hb
  have hfm := factMap_of h.form hom (natOfBits bs % 2 = 1)
  have hopen : ∀ c ∈ root.clauses, (0 : Int) ∉ c.raw ∧ c.raw ≠ [] ∧ c.value = none := by
    intro c hc
    have := h.proper c.raw (List.mem_map.2 ⟨c, hc, rfl⟩)
    exact ⟨this.2.2, this.1, h.open_ c hc⟩
  have hpre : ∀ vm, fixedVars f1 vs bs = vm → factPreprocess root = some (FactInfo.mk (natOfBits bs)
        (setAll [] (outPairs vs bs)).keys f1 f2, ({ root with evaluatedVars := vm } : SetObj H).substituteVars vm) := by
    rintro _ rfl
    unfold factPreprocess
    rw [hcl]
    simp only
    rw [hc0]
    simp only
    rw [← hcl, hu]
    have l1 : (f1 : Int) + 1 - 1 = f1 := by omega
    have l2 : ((-((f1 : Int) + (f2 : Int) + 1)).natAbs : Int) - ((f1 : Int) + 1) = f2 := by omega
    simp only [l1, l2]
    rfl
  have hfm : FactMap f1 vs bs (natOfBits bs % 2 = 1) (fixedVars f1 vs bs) := hfm
  generalize hvm : fixedVars f1 vs bs = vm at hpre hfm
  have hpre := hpre vm rfl
  obtain ⟨s1, s2, s3, s4⟩ := C28_substitution_exact vm ({ root with evaluatedVars := vm } : SetObj H) hopen
  refine ⟨_, _, hpre, rfl, rfl, rfl, hom.count h.form, ?_, ?_, ?_, ?_, ?_⟩
  · rw [s4]; exact hfm
  · rw [s1, s4]
  · rw [s4]; exact hvm.symm
  · rw [s4]; exact h.value
  · rw [s4]; exact h.fnm

/-! ### models -/

theorem sat_unitsOf {vs : List Nat} (hv : ∀ v ∈ vs, 0 < v) {bs : List Bool} (hl : bs.length ≤ vs.length) (α : Assign) :
    Sat α (unitsOf vs bs) ↔ natOfBits (vs.map α) = natOfBits bs := by
  rw [← assertClauses_units, sat_map, satB_assertClauses _ _ _ (by simpa using hl), List.map_map]
  · rfl
  · intro c hc b hb
    have := assertClauses_lits (n := (vs.foldr max 0) + 1) (bs := vs.map Bit.var) (by
      intro b hb
      obtain ⟨v, hv', rfl⟩ := List.mem_map.1 hb
      refine ⟨hv v hv', ?_⟩
      have : v ≤ vs.foldr max 0 := by
        clear hv hl hb hc
        induction vs with
        | nil => simp at hv'
        | cons w vs ih =>
          rw [List.foldr_cons]
          rcases List.mem_cons.1 hv' with rfl | h
          · exact Nat.le_max_left _ _
          · exact le_trans (ih h) (Nat.le_max_right _ _)
      show v < _
      omega) bs c hc b hb
    exact this.1

theorem Gen.MultSet.sat_iff {f1 f2 : Nat} {vs : List Nat} {G : Cnf} {bs : List Bool} {root : SetObj H}
    (h : MultSet f1 f2 vs G bs root) (hb : bs.length ≤ f1 + f2) (α : Assign) :
    Sat α (raws root.clauses) ↔ Sat α G ∧ numAt α 1 f1 * numAt α (f1 + 1) f2 = natOfBits bs := by
  have hlen := h.form.length
  rw [h.eqn]
  have happ : Sat α (G ++ unitsOf vs bs) ↔ Sat α G ∧ Sat α (unitsOf vs bs) := by
    unfold Sat; simp only [List.forall_mem_append]
  rw [happ, sat_unitsOf (fun v hv => by have := h.form.fresh v hv; omega) (by omega)]
  refine and_congr_right fun hs => ?_
  rw [h.form.sound α hs]

theorem numAt_zero_odd {α : Assign} {s k : Nat} (h : numAt α s k % 2 = 1) : α s = true := by
  unfold numAt at h
  cases k with
  | zero => simp [natOfBits] at h
  | succ k =>
    rw [List.range_succ_eq_map, List.map_cons, natOfBits] at h
    cases hv : α s with
    | true => rfl
    | false => simp only [Nat.add_zero, hv, Bool.false_eq_true, if_false] at h; omega

/-- The models of the formula have the values the factorizer fixes. -/
theorem Gen.MultSet.agrees {f1 f2 : Nat} {vs : List Nat} {G : Cnf} {bs : List Bool} {root : SetObj H}
    (h : MultSet f1 f2 vs G bs root) (hb : bs.length ≤ f1 + f2) {vm : Dict Int Bool}
    (hm : FactMap f1 vs bs (natOfBits bs % 2 = 1) vm) {α : Assign} (hs : Sat α (raws root.clauses)) : Agrees α vm := by
  obtain ⟨h1, h2⟩ := (h.sat_iff hb α).1 hs
  have h3 := h.form.sound α h1
  intro v b hv
  have hk := (hm.keys _).1 (Dict.mem_keys_of_get? hv)
  by_cases hvs : v ∈ vs
  · obtain ⟨i, hi, rfl⟩ := List.mem_iff_getElem.1 hvs
    rw [hm.get i hi] at hv
    have e := testBit_natOfBits (vs.map α) i
    rw [h3, h2, testBit_natOfBits, List.getD_eq_getElem?_getD (l := vs.map α), List.getElem?_map, List.getElem?_eq_getElem hi] at e
    simp only [Option.map_some, Option.getD_some] at e
    rw [← e]; simpa using hv
  · rcases hk with ⟨w, hw, e⟩ | ⟨ho, hk⟩
    · have : v = w := by omega
      exact absurd (this ▸ hw) hvs
    · rw [← h2, Nat.mul_mod] at ho
      have o1 : numAt α 1 f1 % 2 = 1 := by
        rcases Nat.mod_two_eq_zero_or_one (numAt α 1 f1) with h | h
        · simp [h] at ho
        · exact h
      have o2 : numAt α (f1 + 1) f2 % 2 = 1 := by
        rcases Nat.mod_two_eq_zero_or_one (numAt α (f1 + 1) f2) with h | h
        · simp [h] at ho
        · exact h
      have ho' : natOfBits bs % 2 = 1 := by rw [← h2, Nat.mul_mod, o1, o2]
      rcases hk with hk | hk
      · have : v = 1 := by omega
        subst this
        have := hm.one ho'
        rw [show ((1 : Nat) : Int) = 1 from rfl, this] at hv
        rw [numAt_zero_odd o1]; simpa using hv
      · have : v = f1 + 1 := by omega
        subst this
        have := hm.two ho'
        rw [show ((f1 + 1 : Nat) : Int) = (f1 : Int) + 1 by omega, this] at hv
        rw [numAt_zero_odd o2]; simpa using hv

end NDP
