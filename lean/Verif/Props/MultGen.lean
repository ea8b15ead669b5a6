import Verif.Proofs.MultRun
import Verif.Props.FactGen
/-
  C30, C42: multiplication runs (`-mult a b`).
-/
namespace NDP
open Spec SetObj Gen
variable {H : Type}

/-! ### C30 -/

theorem multPreprocess_eq {root : SetObj H} {cl : Clause} {cls : List Clause} {l b c : Int} (hcl : root.clauses = cl :: cls)
    (hraw : cl.raw = [l, b, c]) (x y : Nat) {w1 w2 : Int} (e1 : w1 = b - 1) (e2 : w2 = (c.natAbs : Int) - b) :
    multPreprocess root x y =
      if w1 < ((binRjust (max x y) w1).length : Int) ∨ w2 < ((binRjust (min x y) w2).length : Int) then none
      else some ((root.clauses.filter fun cl => decide (cl.raw.length = 1)).filterMap fun cl =>
          cl.raw.head?.map fun l => (l.natAbs : Int),
        ({ root with clauses := root.clauses.filter fun cl => decide (cl.raw.length ≠ 1),
                     evaluatedVars := numberBits 1 (binRjust (max x y) w1 ++ binRjust (min x y) w2) } : SetObj H).substituteVars
          (numberBits 1 (binRjust (max x y) w1 ++ binRjust (min x y) w2))) := by
  have hsw : (if x < y then (y, x) else (x, y)) = (max x y, min x y) := by
    split
    · rw [Nat.max_eq_right (by omega), Nat.min_eq_left (by omega)]
    · rw [Nat.max_eq_left (by omega), Nat.min_eq_right (by omega)]
  generalize hX : max x y = X at *
  generalize hY : min x y = Y at *
  unfold multPreprocess
  rw [hcl]
  simp only
  rw [hraw]
  simp only [hsw, ← e1, ← e2]

/-- **C30** Preprocessing a formula for the multiplication of `x` and `y`.  If the first clause has other than three literals it
is refused.  Otherwise, with `[_, b, c]` the first clause, the widths are `w1 = b - 1` and `w2 = |c| - b`; the larger number
must fit the first width and the smaller one the second, else it is refused; the result fixes exactly the variables
`1 … w1 + w2`, to the binary digits of the larger number and then of the smaller one; the clauses of one literal are taken
out, and the remaining clauses are what these values leave of them; the result bits are the variables of the clauses taken
out, in order. -/
theorem C30_multiply {root : SetObj H} (h : ∀ c ∈ root.clauses, (0 : Int) ∉ c.raw ∧ c.raw ≠ [] ∧ c.value = none)
    (x y : Nat) :
    (∀ cl cls, root.clauses = cl :: cls → cl.raw.length ≠ 3 → multPreprocess root x y = none) ∧
    ∀ cl cls l b c, root.clauses = cl :: cls → cl.raw = [l, b, c] → ∀ w1 w2 : Int, w1 = b - 1 → w2 = (c.natAbs : Int) - b →
      (multPreprocess root x y = none ↔ ¬ (1 ≤ w1 ∧ max x y < 2 ^ w1.toNat ∧ 1 ≤ w2 ∧ min x y < 2 ^ w2.toNat)) ∧
      ∀ bits root', multPreprocess root x y = some (bits, root') →
        (∀ k : Int, root'.evaluatedVars.get? k =
          if 1 ≤ k ∧ k ≤ w1 then some ((max x y).testBit (k - 1).toNat)
          else if w1 < k ∧ k ≤ w1 + w2 then some ((min x y).testBit (k - 1 - w1).toNat) else none) ∧
        raws root'.clauses = residual root'.evaluatedVars ((raws root.clauses).filter fun c => decide (c.length ≠ 1)) ∧
        bits = ((raws root.clauses).filter fun c => decide (c.length = 1)).flatMap fun c => c.map fun l => (l.natAbs : Int) := by
  constructor
  · intro cl cls hcl hlen
    unfold multPreprocess
    rw [hcl]
    simp only
    split
    · rename_i e; rw [e] at hlen; simp at hlen
    · rfl
  · rintro cl cls l b c hcl hraw w1 w2 e1 e2
    have hunf := multPreprocess_eq hcl hraw x y e1 e2
    generalize hX : max x y = X at *
    generalize hY : min x y = Y at *
    have f1 := binRjust_fits X w1
    have f2 := binRjust_fits Y w2
    rw [hunf]
    by_cases hfit : w1 < ((binRjust X w1).length : Int) ∨ w2 < ((binRjust Y w2).length : Int)
    · rw [if_pos hfit]
      refine ⟨⟨fun _ hh => ?_, fun _ => rfl⟩, fun bits root' he => by simp at he⟩
      rcases hfit with hc | hc
      · exact (f1.2 ⟨hh.1, hh.2.1⟩) hc
      · exact (f2.2 ⟨hh.2.2.1, hh.2.2.2⟩) hc
    · rw [if_neg hfit]
      rw [not_or] at hfit
      obtain ⟨p1, p2⟩ := f1.1 hfit.1
      obtain ⟨p3, p4⟩ := f2.1 hfit.2
      have l1 := binRjust_length hfit.1
      have l2 := binRjust_length hfit.2
      refine ⟨⟨fun he => by simp at he, fun hh => absurd ⟨p1, p2, p3, p4⟩ hh⟩, ?_⟩
      intro bits root' he
      simp only [Option.some.injEq, Prod.mk.injEq] at he
      obtain ⟨rfl, rfl⟩ := he
      obtain ⟨s1, _, _, s4⟩ := C28_substitution_exact (numberBits 1 (binRjust X w1 ++ binRjust Y w2))
        ({ root with clauses := root.clauses.filter fun cl => decide (cl.raw.length ≠ 1),
                     evaluatedVars := numberBits 1 (binRjust X w1 ++ binRjust Y w2) } : SetObj H)
        (fun c hc => h c (List.mem_filter.1 hc).1)
      refine ⟨?_, ?_, ?_⟩
      · intro k
        rw [s4]
        show Dict.get? (numberBits 1 (binRjust X w1 ++ binRjust Y w2)) k = _
        rw [numberBits_get, List.length_append]
        push_cast
        rw [l1, l2]
        have vx := binRjust_val X w1
        have vy := binRjust_val Y w2
        by_cases c1 : 1 ≤ k ∧ k ≤ w1
        · rw [if_pos (by omega), if_pos c1, ← vx, natOfBits_testBit, vx, List.getD_append _ _ _ _ (by omega)]
        · rw [if_neg c1]
          by_cases c2 : w1 < k ∧ k ≤ w1 + w2
          · rw [if_pos (by omega), if_pos c2, ← vy, natOfBits_testBit, vy, List.getD_append_right _ _ _ _ (by omega)]
            congr 2
            omega
          · rw [if_neg (by omega), if_neg c2]
      · rw [s1, s4]
        congr 1
        simp only [raws, List.filter_map]
        rfl
      · simp only [raws, List.filter_map]
        generalize root.clauses = cs
        induction cs with
        | nil => rfl
        | cons c cs ih =>
          rw [List.filter_cons, List.filter_cons]
          by_cases hc : c.raw.length = 1
          · rw [if_pos (by simpa using hc), if_pos (by simpa using hc)]
            obtain ⟨u, hu⟩ := List.length_eq_one_iff.1 hc
            simp only [List.filterMap_cons, List.map_cons, List.flatMap_cons, hu, List.head?_cons, Option.map_some,
              List.map_nil, List.singleton_append]
            rw [ih]
          · rw [if_neg (by simpa using hc), if_neg (by simpa using hc), ih]

/-- Non-vacuity of C30: with the first clause `[1, 4, -7]` the widths are 3 and 3. -/
example : (multPreprocess (mkSet (H := Str) [[1, 4, -7], [-1, 7], [7], [-8]]) 3 5).map Prod.fst = some [7, 8] := by
  decide +kernel

/-! ### C42 -/

/-- A generated formula prepared for multiplying: inputs fixed to the digits of `X` and `Y`, assertions taken out. -/
structure MultPre (f1 f2 : Nat) (vs : List Nat) (G : Cnf) (X Y : Nat) (bits : List Int) (root' : SetObj H) : Prop where
  bits : bits = vs.map fun v : Nat => (v : Int)
  get : ∀ v : Nat, root'.evaluatedVars.get? (v : Int) = if 1 ≤ v ∧ v ≤ f1 + f2 then some (inpAssign f1 X Y v) else none
  keys : ∀ k ∈ root'.evaluatedVars.keys, 1 ≤ k
  nd : root'.evaluatedVars.keys.Nodup
  eqn : raws root'.clauses = residual root'.evaluatedVars G
  flags : ∀ c ∈ root'.clauses, c.value = some false → c.raw = []
  value : root'.value = none
  fnm : root'.finalNamesMap = []

theorem multPreprocess_gen {f1 f2 : Nat} {vs : List Nat} {G : Cnf} {bs : List Bool} {root : SetObj H}
    (h : MultSet f1 f2 vs G bs root) {x y : Nat} (hx : max x y < 2 ^ f1) (hy : min x y < 2 ^ f2) :
    ∃ bits root', multPreprocess root x y = some (bits, root') ∧ MultPre f1 f2 vs G (max x y) (min x y) bits root' := by
  have w1 := h.form.w1
  have w2 := h.form.w2
  obtain ⟨rest, hG⟩ := h.form.first
  have hc0 : ∃ c cs, root.clauses = c :: cs ∧ c.raw = [1, (f1 : Int) + 1, -((f1 : Int) + (f2 : Int) + 1)] := by
    have hr := h.eqn
    rw [hG] at hr
    cases hcl : root.clauses with
    | nil => rw [hcl] at hr; simp [NDP.raws] at hr
    | cons c cs =>
      rw [hcl] at hr
      refine ⟨c, cs, rfl, ?_⟩
      have : c.raw :: NDP.raws cs = _ := hr
      rw [List.cons_append, List.cons.injEq] at this
      exact this.1
  obtain ⟨c0, cs, hcl, hraw⟩ := hc0
  have hopen : ∀ c ∈ root.clauses, (0 : Int) ∉ c.raw ∧ c.raw ≠ [] ∧ c.value = none := by
    intro c hc
    have := h.proper c.raw (List.mem_map.2 ⟨c, hc, rfl⟩)
    exact ⟨this.2.2, this.1, h.open_ c hc⟩
  obtain ⟨_, h30⟩ := C30_multiply hopen x y
  obtain ⟨hn, hs⟩ := h30 c0 cs _ _ _ hcl hraw f1 f2 (by omega) (by omega)
  have hns : multPreprocess root x y ≠ none := by
    intro e
    exact hn.1 e ⟨by omega, by simpa using hx, by omega, by simpa using hy⟩
  obtain ⟨⟨bits, root'⟩, hp⟩ := Option.ne_none_iff_exists'.1 hns
  obtain ⟨g1, g2, g3⟩ := hs bits root' hp
  have hunits : ∀ c ∈ unitsOf vs bs, c.length = 1 := by
    intro c hc
    obtain ⟨v, _, e⟩ := unitsOf_mem hc
    rcases e with rfl | rfl <;> rfl
  have hF1 : ((raws root.clauses).filter fun c => decide (c.length ≠ 1)) = G := by
    rw [h.eqn, List.filter_append, List.filter_eq_self.2, List.filter_eq_nil_iff.2, List.append_nil]
    · intro c hc; simp [hunits c hc]
    · intro c hc
      have := (h.form.long c hc).1
      simp; omega
  have hF2 : ((raws root.clauses).filter fun c => decide (c.length = 1)) = unitsOf vs bs := by
    rw [h.eqn, List.filter_append, List.filter_eq_nil_iff.2, List.filter_eq_self.2, List.nil_append]
    · intro c hc; simp [hunits c hc]
    · intro c hc
      have := (h.form.long c hc).1
      simp; omega
  have hU : ∀ (vs : List Nat) (bs : List Bool), (unitsOf vs bs).flatMap (fun c => c.map fun l => (l.natAbs : Int)) = vs.map fun v : Nat => (v : Int) := by
    intro vs
    induction vs with
    | nil => intro bs; cases bs <;> rfl
    | cons v vs ih =>
      intro bs
      cases bs with
      | nil => rw [unitsOf, List.flatMap_cons, ih]; simp
      | cons b bs => rw [unitsOf, List.flatMap_cons, ih]; cases b <;> simp
  have hmp : ∃ vm : Dict Int Bool, vm.keys.Nodup ∧ (∀ k ∈ vm.keys, 1 ≤ k) ∧ ∃ cls, (∀ c ∈ cls, c ∈ root.clauses) ∧
      root' = ({ root with clauses := cls, evaluatedVars := vm } : SetObj H).substituteVars vm := by
    rw [multPreprocess_eq hcl hraw x y rfl rfl] at hp
    split at hp
    · simp at hp
    · simp only [Option.some.injEq, Prod.mk.injEq] at hp
      obtain ⟨_, rfl⟩ := hp
      generalize (binRjust _ _ ++ binRjust _ _) = l
      refine ⟨numberBits 1 l, ?_, ?_, _, ?_, rfl⟩
      · rw [numberBits_keys]
        apply List.Nodup.map _ List.nodup_range
        intro i j hij
        have : ((1 + i : Nat) : Int) = ((1 + j : Nat) : Int) := hij
        omega
      · rw [numberBits_keys]
        intro k hk
        obtain ⟨i, _, rfl⟩ := List.mem_map.1 hk
        push_cast; omega
      · intro c hc
        exact (List.mem_filter.1 hc).1
  obtain ⟨vm, m1, m2, cls, m3, rfl⟩ := hmp
  obtain ⟨s1, s2, _, s4⟩ := C28_substitution_exact vm ({ root with clauses := cls, evaluatedVars := vm } : SetObj H)
    (fun c hc => hopen c (m3 c hc))
  have hev : (({ root with clauses := cls, evaluatedVars := vm } : SetObj H).substituteVars vm).evaluatedVars = vm := by rw [s4]
  refine ⟨bits, _, hp, ?_, ?_, ?_, ?_, ?_, ?_, ?_, ?_⟩
  · rw [g3, hF2, hU]
  · intro v
    rw [g1]
    by_cases c1 : 1 ≤ v ∧ v ≤ f1 + f2
    · rw [if_pos c1]
      by_cases c2 : v ≤ f1
      · rw [if_pos (by omega)]
        unfold inpAssign
        rw [if_pos (by omega)]
        congr 2; omega
      · rw [if_neg (by omega), if_pos (by omega)]
        unfold inpAssign
        rw [if_neg (by omega)]
        congr 2; omega
    · rw [if_neg c1, if_neg (by omega), if_neg (by omega)]
  · rw [hev]; exact m2
  · rw [hev]; exact m1
  · rw [g2, hF1]
  · intro c hc he
    exact (s2 c hc).1 he
  · rw [s4]; exact h.value
  · rw [s4]; exact h.fnm

/-- The values of the inputs as clauses. -/
def inputUnits (f1 f2 X Y : Nat) : Cnf :=
  (List.range (f1 + f2)).map fun i => [if inpAssign f1 X Y (i + 1) then ((i + 1 : Nat) : Int) else -((i + 1 : Nat) : Int)]

theorem sat_inputUnits {f1 f2 X Y : Nat} {d : Dict Int Bool} :
    MakesTrue d (inputUnits f1 f2 X Y) ↔ ∀ v, 1 ≤ v → v ≤ f1 + f2 → d.get? (v : Int) = some (inpAssign f1 X Y v) := by
  have key : ∀ v : Nat, 1 ≤ v → (partialVal d (if inpAssign f1 X Y v then (v : Int) else -(v : Int)) = some true ↔
      d.get? (v : Int) = some (inpAssign f1 X Y v)) := by
    intro v hv
    unfold partialVal
    cases inpAssign f1 X Y v with
    | true =>
      simp only [if_true, Int.natAbs_natCast]
      simp [show ¬ ((v : Int) < 0) by omega]
    | false =>
      simp only [Bool.false_eq_true, if_false, Int.natAbs_neg, Int.natAbs_natCast]
      have : -(v : Int) < 0 := by omega
      simp only [this, if_true]
      cases d.get? (v : Int) <;> simp
  constructor
  · intro h v h1 h2
    obtain ⟨l, hl, hv⟩ := h _ (List.mem_map.2 ⟨v - 1, List.mem_range.2 (by omega), rfl⟩)
    rw [List.mem_singleton] at hl
    rw [Nat.sub_add_cancel h1] at hl
    subst hl
    exact (key v h1).1 hv
  · intro h c hc
    obtain ⟨i, hi, rfl⟩ := List.mem_map.1 hc
    exact ⟨_, List.mem_singleton.2 rfl, (key (i + 1) (by omega)).2 (h _ (by omega) (by have := List.mem_range.1 hi; omega))⟩

theorem map_update_ne {vs : List Nat} {G : Cnf} {f1 f2 : Nat} (hf : MultForm f1 f2 vs G) {d : Dict Int Bool}
    (hd : MakesTrue d G) {v : Nat} (hv : v ∈ vs) :
    (d.get? (v : Int)).isSome = true := by
  by_contra hn
  have hn : d.get? (v : Int) = none := by simpa using hn
  have hfr := hf.fresh v hv
  have key : ∀ b, natOfBits (vs.map fun w => if w = v then b else complete d w) =
      numAt (complete d) 1 f1 * numAt (complete d) (f1 + 1) f2 := by
    intro b
    have := hf.sound _ (makesTrue_sat hd (agrees_update hn b (agrees_complete d)))
    rw [this]
    congr 1
    · apply numAt_congr; intro i hi; rw [if_neg (by omega)]
    · apply numAt_congr; intro i hi; rw [if_neg (by omega)]
  have := natOfBits_inj (by simp) ((key true).trans (key false).symm)
  rw [List.map_inj_left] at this
  have := this v hv
  simp at this

theorem residual_append (d : Dict Int Bool) (F G : Cnf) : residual d (F ++ G) = residual d F ++ residual d G := by
  simp [residual]

theorem mult_loaded {f1 f2 : Nat} {vs : List Nat} {G : Cnf} {X Y : Nat} {bits : List Int} {root' : SetObj H}
    (hf : MultForm f1 f2 vs G) (h : MultPre f1 f2 vs G X Y bits root') (hX : X < 2 ^ f1) (hY : Y < 2 ^ f2) :
    Proper (G ++ inputUnits f1 f2 X Y) ∧ Loaded (G ++ inputUnits f1 f2 X Y) root' ∧ Satisfiable (raws root'.clauses) := by
  have hmt : MakesTrue root'.evaluatedVars (inputUnits f1 f2 X Y) :=
    sat_inputUnits.2 fun v h1 h2 => by rw [h.get, if_pos ⟨h1, h2⟩]
  have hprop : Proper (G ++ inputUnits f1 f2 X Y) := by
    intro c hc
    rcases List.mem_append.1 hc with hc | hc
    · exact hf.proper c hc
    · obtain ⟨i, _, rfl⟩ := List.mem_map.1 hc
      refine ⟨by simp, by simp, ?_⟩
      intro h0
      rw [List.mem_singleton] at h0
      split at h0 <;> omega
  obtain ⟨α, r1, r2, r3, r4, _⟩ := hf.run hX hY
  have hag : Agrees α root'.evaluatedVars := by
    intro v b hv
    rw [h.get] at hv
    split at hv
    · rename_i hr
      rw [r2 v hr.2]; simpa using hv
    · simp at hv
  have hsat : Sat α (raws root'.clauses) := by
    rw [h.eqn]; exact (sat_residual hag _).1 r1
  have hne : raws root'.clauses ≠ [] := by
    intro e
    rw [h.eqn, residual_nil_iff] at e
    have hlen := hf.length
    have w1 := hf.w1
    obtain ⟨v, hv⟩ : ∃ v, v ∈ vs := List.exists_mem_of_length_pos (by omega)
    have := map_update_ne hf e hv
    rw [h.get, if_neg (by have := hf.fresh v hv; omega)] at this
    simp at this
  refine ⟨hprop, ⟨?_, ?_, h.value, h.fnm, h.nd, h.keys, ?_⟩, α, hsat⟩
  · intro e; apply hne; rw [e]; rfl
  · intro c hc
    refine ⟨?_, ?_⟩
    · rintro rfl
      obtain ⟨l, hl, _⟩ := hsat [] hc
      simp at hl
    · rw [h.eqn] at hc
      exact Proper.residual hf.proper _ c hc
  · rw [h.eqn, residual_append, residual_nil_iff.2 hmt, List.append_nil]
    exact SameClauses.refl _

theorem decodeMult_ok {f1 f2 : Nat} {vs : List Nat} {G : Cnf} {x y : Nat} {bits : List Int} {root' : SetObj H}
    (hf : MultForm f1 f2 vs G) (h : MultPre f1 f2 vs G (max x y) (min x y) bits root') (hX : max x y < 2 ^ f1)
    (hY : min x y < 2 ^ f2) {d : Dict Int Bool} (hd : MakesTrue d (G ++ inputUnits f1 f2 (max x y) (min x y))) :
    decodeMult x y bits (some d) = pure (.product x y (x * y)) := by
  have hdG : MakesTrue d G := fun c hc => hd c (List.mem_append_left _ hc)
  have hdU := sat_inputUnits.1 (fun c hc => hd c (List.mem_append_right _ hc) : MakesTrue d (inputUnits f1 f2 (max x y) (min x y)))
  have w1 := hf.w1
  have hlen := hf.length
  have hout : ∀ v ∈ vs, d.get? (v : Int) = some (complete d v) := by
    intro v hv
    obtain ⟨b, hb⟩ := Option.isSome_iff_exists.1
      (map_update_ne hf hdG hv)
    rw [hb, agrees_complete d v b hb]
  have hprod : natOfBits (vs.map (complete d)) = x * y := by
    have hs := hf.sound _ (makesTrue_sat hdG (agrees_complete d))
    obtain ⟨e1, e2⟩ := numAt_inp (f1 := f1) (f2 := f2) hX hY (α := fun v => if v = 0 then inpAssign f1 (max x y) (min x y) 0 else complete d v) (by
      intro v hv
      by_cases h0 : v = 0
      · rw [if_pos h0, h0]
      · rw [if_neg h0]
        exact agrees_complete d v _ (hdU v (by omega) hv))
    have e1' : numAt (complete d) 1 f1 = max x y := by
      rw [← e1]; apply numAt_congr; intro i _; rw [if_neg (by omega)]
    have e2' : numAt (complete d) (f1 + 1) f2 = min x y := by
      rw [← e2]; apply numAt_congr; intro i _; rw [if_neg (by omega)]
    rw [hs, e1', e2', max_mul_min]
  have hmap : ∀ (l : List Nat), (∀ v ∈ l, v ∈ vs) →
      ((l.map fun v : Nat => (v : Int)).mapM fun v => orRaise .keyError (Dict.get? d v) : M (List Bool)) = pure (l.map (complete d)) := by
    intro l hl
    induction l with
    | nil => rfl
    | cons v l ih =>
      rw [List.map_cons, List.mapM_cons, hout v (hl v (by simp)), ih fun w hw => hl w (by simp [hw])]
      rfl
  have hdec : decodeBits (vs.map (complete d)) = pure (x * y) := by
    unfold decodeBits
    rw [if_neg, bitsValue_eq, hprod]
    cases vs with
    | nil => simp at hlen; omega
    | cons => simp
  cases d with
  | nil =>
    have := hdU 1 (by omega) (by omega)
    simp [Dict.get?] at this
  | cons p d =>
    unfold decodeMult
    simp only [h.bits]
    rw [hmap vs fun _ h => h]
    simp only [M.pure_bind, hdec, if_true]

/-- No two different sets met while multiplying with the input `text` have the same digest. -/
def NoMultCollisions [DecidableEq H] (hash : Str → H) (a : Args) (text : Str) (x y : Nat) : Prop :=
  ∀ (root root' : SetObj H) (bits : List Int), readInput .dimacs text = pure root →
    multPreprocess root x y = some (bits, root') → ∀ k, NoCollisions hash a { root' with computedHash := some k }

theorem noMultCollisions_of_injective [DecidableEq H] {hash : Str → H} (hinj : Function.Injective hash) (ar : Args)
    (a : AdderName) {m : MultName} {N : Nat} (hm : PlainMult m N) (hN : 4 ≤ N) {text : Str}
    (hgen : genText a m N = some text) {x y : Nat} (hx : max x y < 2 ^ Nat.log2 N) (hy : min x y < 2 ^ ((Nat.log2 N + 2) / 2)) :
    NoMultCollisions hash ar text x y := by
  intro root root' bits hread hpre k
  obtain ⟨text', root₀, out, n', cls, h1, h2, h3, h4⟩ := gen_read (H := H) a hm hN rfl rfl
  rw [hgen] at h1
  obtain rfl : text = text' := by simpa using h1
  rw [hread] at h2
  obtain rfl : root = root₀ := (M.pure_inj _ _).1 h2
  obtain ⟨bits', root₁, h5, h6⟩ := multPreprocess_gen h4 hx hy
  rw [hpre] at h5
  simp only [Option.some.injEq, Prod.mk.injEq] at h5
  obtain ⟨rfl, rfl⟩ := h5
  obtain ⟨p1, p2, _⟩ := mult_loaded h4.form h6 hx hy
  exact noCollisions_loaded hinj ar (p2.withHash _) p1

/-- **C42** (`_partial`: the recursive multiplier is left out on the numbers of `C29_recursive_misread`) Multiplication end to end.  For every `N ≥ 4` the
generator prints a formula with factors of `log2 N` and `(log2 N + 2) / 2` bits; for all numbers `x`, `y` of which the larger
fits the first and the smaller the second width, running `Main` with `-mult x y` on that text ends reporting the product
`x * y` (and the solution verified, when asked for); if they do not fit, the run refuses and stops. -/
theorem C42_multiplication_partial [DecidableEq H] (hash : Str → H) {ma : MainArgs} (ha : Local ma.args)
    (hfact : ma.args.factorize = false) {x y : Nat} (hmul : ma.args.multiply = some (x, y)) {env : EnvChoice}
    (hf : Fair ma.args env) (g : Gdb H) (a : AdderName) {m : MultName} {N : Nat} (hm : PlainMult m N) (hN : 4 ≤ N)
    {w1 w2 : Nat} (e1 : w1 = Nat.log2 N) (e2 : w2 = (Nat.log2 N + 2) / 2) :
    ∃ text, genText a m N = some text ∧
      (max x y < 2 ^ w1 ∧ min x y < 2 ^ w2 → NoMultCollisions hash ma.args text x y →
        ∃ out rep, mainRun hash ma env g .dimacs text = some out ∧ out.report = some rep ∧ out.error = none ∧
          out.exited = false ∧ rep.isSat = true ∧ out.task = [.product x y (x * y)] ∧
          (ma.verify = true → out.verified = some true)) ∧
      (¬ (max x y < 2 ^ w1 ∧ min x y < 2 ^ w2) → mainRun hash ma env g .dimacs text = some { exited := true }) := by
  obtain ⟨text, root, out, n', cls, h1, h2, h3, h4⟩ := gen_read (H := H) a hm hN e1 (f2 := w2) (by rw [e2, e1])
  refine ⟨text, h1, ?_, ?_⟩
  · rintro ⟨hx, hy⟩ hcoll
    obtain ⟨bits, root', h5, h6⟩ := multPreprocess_gen h4 hx hy
    obtain ⟨hprop, hload, hsat⟩ := mult_loaded h4.form h6 hx hy
    obtain ⟨k, hk⟩ := getHash_false hash hload.value hload.ne
    have hloadk := hload.withHash (some k)
    obtain ⟨rep, hrep⟩ := solveSet_ok hash ma.args ha.gdb ha.nomem hf g hprop hloadk
    obtain ⟨v1, v2, v3⟩ := solveSet_loaded hash ha hf.main hprop hloadk hrep
    have v3 := v3 (hcoll root root' bits h2 h5 k)
    have hst : rep.isSat = true := by
      cases hs : rep.isSat
      · exact absurd hsat (v3 hs)
      · rfl
    obtain ⟨d, hd⟩ := Option.isSome_iff_exists.1 (v1.1 hst)
    obtain ⟨hmt, hkeys⟩ := v2 d hd
    have hmsg := decodeMult_ok h4.form h6 hx hy hmt
    have hnofalse : (root'.clauses.any fun cl => decide (cl.value = some false)) = false := by
      rw [List.any_eq_false]
      intro c hc he
      have := h6.flags c hc (by simpa using he)
      exact (hload.proper c.raw (List.mem_map.2 ⟨c, hc, rfl⟩)).1 this
    have hrun : mainRun hash ma env g .dimacs text = some ({
        report := some rep, task := [.product x y (x * y)],
        solutionFile := (if ma.outputSolution && truthy rep.solution
          then some (formatSolution (rep.solution.getD [])) else none : Option Str),
        verified := (if ma.verify && truthy rep.solution
          then some (verifySolution root'.clauses (rep.solution.getD [])) else none : Option Bool) } : MainOut H) := by
      have hp : 0 < root'.clauses.length ∨ root'.value ≠ none := Or.inl (List.length_pos_iff.2 hload.ne)
      unfold mainRun mainBody
      rw [h2]
      simp only [M.pure_bind, hfact, Bool.false_eq_true, if_false, hmul, h5, hnofalse]
      unfold mainSolve
      rw [if_pos hp, hk]
      simp only [M.pure_bind]
      unfold solveTask
      rw [hrep]
      simp only [M.pure_bind, hfact, Bool.false_eq_true, if_false, hmul, hd, hmsg, reduceCtorEq, decide_false, Bool.and_false]
      rfl
    refine ⟨_, rep, hrun, rfl, rfl, rfl, hst, rfl, ?_⟩
    intro hv
    have htr : truthy rep.solution = true := by
      rw [hd]
      cases d with
      | nil =>
        obtain ⟨r, hr⟩ := h4.form.first
        obtain ⟨l, _, hl⟩ := hmt [1, (w1 : Int) + 1, -((w1 : Int) + (w2 : Int) + 1)] (by rw [hr]; simp)
        simp [partialVal] at hl
      | cons p d => rfl
    show (if (ma.verify && truthy rep.solution) = true then _ else _) = _
    rw [hv, htr]
    simp only [Bool.and_self, if_true, hd, Option.getD_some, Option.some.injEq]
    refine (C25_verify_exact root'.clauses (fun c hc => ?_) d (SolKeys.nodup hkeys)).2 ?_
    · exact (hload.proper c.raw (List.mem_map.2 ⟨c, hc, rfl⟩)).2.2
    · have hdU := sat_inputUnits.1 (fun c hc => hmt c (List.mem_append_right _ hc) : MakesTrue d (inputUnits w1 w2 (max x y) (min x y)))
      intro c hc
      rw [h6.eqn] at hc
      obtain ⟨c0, hc0, rfl⟩ := List.mem_map.1 hc
      obtain ⟨hc1, hc2⟩ := List.mem_filter.1 hc0
      obtain ⟨l, hl, hlv⟩ := hmt c0 (List.mem_append_left _ hc1)
      refine ⟨l, List.mem_filter.2 ⟨hl, ?_⟩, hlv⟩
      cases hpv : partialVal root'.evaluatedVars l with
      | none => simp
      | some b =>
        exfalso
        have : partialVal d l = some b := by
          unfold partialVal at hpv ⊢
          rw [h6.get] at hpv
          by_cases hr : 1 ≤ l.natAbs ∧ l.natAbs ≤ w1 + w2
          · rw [if_pos hr] at hpv
            rw [hdU _ hr.1 hr.2]; exact hpv
          · rw [if_neg hr] at hpv
            simp at hpv
        rw [this] at hlv
        obtain rfl : b = true := by simpa using hlv
        have := (List.all_eq_true.1 hc2) l hl
        simp [hpv] at this
  · intro hn
    have hnone : multPreprocess root x y = none := by
      obtain ⟨rest, hG⟩ := h4.form.first
      have hc0 : ∃ c cs, root.clauses = c :: cs ∧ c.raw = [1, (w1 : Int) + 1, -((w1 : Int) + (w2 : Int) + 1)] := by
        have hr := h4.eqn
        rw [hG] at hr
        cases hcl : root.clauses with
        | nil => rw [hcl] at hr; simp [NDP.raws] at hr
        | cons c cs =>
          rw [hcl] at hr
          refine ⟨c, cs, rfl, ?_⟩
          have : c.raw :: NDP.raws cs = _ := hr
          rw [List.cons_append, List.cons.injEq] at this
          exact this.1
      obtain ⟨c0, cs, hcl, hraw⟩ := hc0
      have hopen : ∀ c ∈ root.clauses, (0 : Int) ∉ c.raw ∧ c.raw ≠ [] ∧ c.value = none := by
        intro c hc
        have := h4.proper c.raw (List.mem_map.2 ⟨c, hc, rfl⟩)
        exact ⟨this.2.2, this.1, h4.open_ c hc⟩
      obtain ⟨hnn, _⟩ := (C30_multiply hopen x y).2 c0 cs _ _ _ hcl hraw w1 w2 (by omega) (by omega)
      rw [hnn]
      rintro ⟨_, q1, _, q2⟩
      exact hn ⟨by simpa using q1, by simpa using q2⟩
    unfold mainRun mainBody
    rw [h2]
    simp only [M.pure_bind, hfact, Bool.false_eq_true, if_false, hmul, hnone]
    rfl

/-- Non-vacuity: 3 × 5 on the formula of a four digit number. -/
example : ∃ text out, genText .nbit .wallace 15 = some text ∧
    mainRun (H := Str) id { args := { multiply := some (3, 5) } } {} [] .dimacs text = some out ∧ out.task = [.product 3 5 15] := by
  obtain ⟨text, h1, h2, _⟩ := C42_multiplication_partial (H := Str) id (ma := { args := { multiply := some (3, 5) } })
    ⟨rfl, rfl⟩ rfl rfl (env := {}) ⟨fun _ => rfl, fun _ _ => rfl, by decide⟩ [] .nbit (m := .wallace) (N := 15)
    (Or.inl (by decide)) (by omega) rfl rfl
  have hl : Nat.log2 15 = 3 := by decide +kernel
  obtain ⟨out, rep, q1, _, _, _, _, q2, _⟩ := h2 (by rw [hl]; decide) (noMultCollisions_of_injective Function.injective_id _ _
    (Or.inl (by decide)) (by omega) h1 (by rw [hl]; decide) (by rw [hl]; decide))
  exact ⟨text, out, h1, q1, q2⟩

/-- **C42** fails for the recursive multiplier: on the formula of a number of `2 k + 1` binary digits (`11 ≤ k ≤ 41`), which has
room for factors of `2 k` and `k + 1` bits, `-mult x y` is refused for all `x, y > 1`. -/
theorem C42_recursive_refused [DecidableEq H] (hash : Str → H) {ma : MainArgs} (hfact : ma.args.factorize = false)
    {x y : Nat} (hx : 1 < x) (hy : 1 < y) (hmul : ma.args.multiply = some (x, y)) (env : EnvChoice) (g : Gdb H)
    (a : AdderName) {N k : Nat} (h1 : 11 ≤ k) (h2 : k ≤ 41) (hN : Nat.log2 N = 2 * k) :
    ∃ text, genText a .recursive N = some text ∧ mainRun hash ma env g .dimacs text = some { exited := true } := by
  have h0 : N ≠ 0 := by rintro rfl; simp at hN; omega
  have hbig : 2 ^ 22 ≤ N := by
    have := Nat.log2_self_le h0
    rw [hN] at this
    exact Nat.le_trans (Nat.pow_le_pow_right (by omega) (by omega)) this
  have hm : ¬ PlainMult .recursive N := by
    rintro (h | h | ⟨h, _⟩)
    · exact h rfl
    · omega
    · omega
  obtain ⟨text, root, c0, cs, p, q, g1, g2, hcl, hraw, _, b2, _, b4, hopen⟩ := recursive_first_clause (H := H) a (by omega) hm
  rw [hN] at hraw b2 b4
  have hq := b4 (by omega) (by omega)
  have hnone : multPreprocess root x y = none := by
    obtain ⟨hn, _⟩ := (C30_multiply hopen x y).2 c0 cs _ _ _ hcl hraw (3 * k) 1 (by omega) (by omega)
    rw [hn]
    rintro ⟨_, _, _, q⟩
    simp at q
    omega
  refine ⟨text, g1, ?_⟩
  unfold mainRun mainBody
  rw [g2]
  simp only [M.pure_bind, hfact, Bool.false_eq_true, if_false, hmul, hnone]
  rfl

/-! ### what the messages say, for any input -/

/-- Where the messages of a run come from. -/
theorem mainRun_task [DecidableEq H] {hash : Str → H} {ma : MainArgs} {env : EnvChoice} {g : Gdb H} {ty : InputType} {text : Str}
    {out : MainOut H} (h : mainRun hash ma env g ty text = some out) :
    (out.task = [] ∧ out.report = none) ∨ ∃ info bits root a rep, solveTask hash a env g info bits root = pure (rep, out.task) ∧
      out.report = some rep ∧ a.multiply = ma.args.multiply ∧ (a.factorize = true → ma.args.factorize = true) := by
  have hsolve : ∀ (ma' : MainArgs) info bits (cnf : SetObj H) (o : MainOut H), mainSolve hash ma' ty env g info bits cnf = pure o →
      (o.task = [] ∧ o.report = none) ∨ ∃ info bits root a rep, solveTask hash a env g info bits root = pure (rep, o.task) ∧
        o.report = some rep ∧ a = ma'.args := by
    intro ma' info bits cnf o ho
    unfold mainSolve at ho
    split at ho
    · obtain ⟨⟨k, cnf'⟩, _, ho⟩ := M.bind_eq_pure.1 ho
      obtain ⟨⟨rep, msgs⟩, hs, ho⟩ := M.bind_eq_pure.1 ho
      right
      simp only at ho
      split at ho
      · have e := (M.pure_inj _ _).1 ho
        rw [← e]
        exact ⟨info, bits, cnf', _, rep, hs, rfl, rfl⟩
      · have e := (M.pure_inj _ _).1 ho
        rw [← e]
        exact ⟨info, bits, cnf', _, rep, hs, rfl, rfl⟩
    · have e := (M.pure_inj _ _).1 ho
      rw [← e]
      exact Or.inl ⟨rfl, rfl⟩
  unfold mainRun at h
  split at h
  · simp at h
  · next o hb =>
    simp only [Option.some.injEq] at h
    subst h
    have hb : mainBody hash ma env g ty text = pure o := hb
    unfold mainBody at hb
    obtain ⟨cnf, _, hb⟩ := M.bind_eq_pure.1 hb
    have key : ∀ (info : Option FactInfo) (c : SetObj H) (ar : Args), ar.multiply = ma.args.multiply →
        (ar.factorize = true → ma.args.factorize = true) →
        (match ar.multiply with
          | none => mainSolve hash { ma with args := ar } ty env g info [] c
          | some (x, y) => match multPreprocess c x y with
            | none => pure { exited := true }
            | some (bits, c) => if c.clauses.any fun cl => decide (cl.value = some false) then pure { exited := true }
              else mainSolve hash { ma with args := ar } ty env g info bits c) = pure o →
        (o.task = [] ∧ o.report = none) ∨ ∃ info bits root a rep, solveTask hash a env g info bits root = pure (rep, o.task) ∧
          o.report = some rep ∧ a.multiply = ma.args.multiply ∧ (a.factorize = true → ma.args.factorize = true) := by
      intro info c ar h1 h2 hb
      have fin : ∀ bits (c : SetObj H), mainSolve hash { ma with args := ar } ty env g info bits c = pure o →
          (o.task = [] ∧ o.report = none) ∨ ∃ info bits root a rep, solveTask hash a env g info bits root = pure (rep, o.task) ∧
          o.report = some rep ∧ a.multiply = ma.args.multiply ∧ (a.factorize = true → ma.args.factorize = true) := by
        intro bits c hb
        rcases hsolve _ _ _ _ _ hb with hn | ⟨i, bs, r, a, rep, e1, e2, rfl⟩
        · exact Or.inl hn
        · exact Or.inr ⟨i, bs, r, _, rep, e1, e2, h1, h2⟩
      split at hb
      · exact fin _ _ hb
      · split at hb
        · have e := (M.pure_inj _ _).1 hb
          rw [← e]; exact Or.inl ⟨rfl, rfl⟩
        · split at hb
          · have e := (M.pure_inj _ _).1 hb
            rw [← e]; exact Or.inl ⟨rfl, rfl⟩
          · exact fin _ _ hb
    generalize hp : (if ma.args.factorize = true then
        match factPreprocess cnf with
        | some (i, s) => (some i, s, ma.args)
        | none => (none, cnf, { ma.args with factorize := false })
      else (none, cnf, ma.args) : Option FactInfo × SetObj H × Args) = trip at hb
    obtain ⟨info, c, ar⟩ := trip
    refine key info c ar ?_ ?_ hb
    · split at hp
      · split at hp <;> (simp only [Prod.mk.injEq] at hp; rw [← hp.2.2])
      · simp only [Prod.mk.injEq] at hp; rw [← hp.2.2]
    · intro har
      by_contra hc
      rw [if_neg hc] at hp
      simp only [Prod.mk.injEq] at hp
      rw [← hp.2.2] at har
      exact hc har
  · simp only [Option.some.injEq] at h
    rw [← h]
    exact Or.inl ⟨rfl, rfl⟩

theorem solveTask_task [DecidableEq H] {hash : Str → H} {a : Args} {env : EnvChoice} {g : Gdb H} {info : Option FactInfo}
    {bits : List Int} {root : SetObj H} {rep : Report H} {msgs : List TaskMsg}
    (h : solveTask hash a env g info bits root = pure (rep, msgs)) :
    ∃ m1 m2, msgs = m1 ++ m2 ∧
      ((a.factorize = false ∧ m1 = []) ∨ (a.factorize = true ∧ ∃ m, decodeFact info rep.solution = pure m ∧ m1 = [m])) ∧
      ((a.multiply = none ∧ m2 = []) ∨
        ∃ x y, a.multiply = some (x, y) ∧ ∃ m, decodeMult x y bits rep.solution = pure m ∧ m2 = [m]) := by
  unfold solveTask at h
  obtain ⟨rep', _, h⟩ := M.bind_eq_pure.1 h
  have last : ∀ m1, (match a.multiply with
      | some (x, y) => do
        let m ← decodeMult x y bits rep'.solution
        let m2 ← pure [m]
        pure (rep', m1 ++ m2)
      | none => do
        let m2 ← pure []
        pure (rep', m1 ++ m2)) = (pure (rep, msgs) : M (Report H × List TaskMsg)) →
      rep' = rep ∧ ∃ m2, msgs = m1 ++ m2 ∧ ((a.multiply = none ∧ m2 = []) ∨
        ∃ x y, a.multiply = some (x, y) ∧ ∃ m, decodeMult x y bits rep'.solution = pure m ∧ m2 = [m]) := by
    intro m1 h
    split at h
    · next x y he =>
      obtain ⟨m, hm, h⟩ := M.bind_eq_pure.1 h
      rw [M.pure_bind] at h
      have e := (M.pure_inj _ _).1 h
      simp only [Prod.mk.injEq] at e
      exact ⟨e.1, [m], e.2.symm, Or.inr ⟨x, y, he, m, hm, rfl⟩⟩
    · next he =>
      rw [M.pure_bind] at h
      have e := (M.pure_inj _ _).1 h
      simp only [Prod.mk.injEq] at e
      exact ⟨e.1, [], e.2.symm, Or.inl ⟨he, rfl⟩⟩
  simp only at h
  split at h
  · next hf =>
    obtain ⟨m, hm, h⟩ := M.bind_eq_pure.1 h
    rw [M.pure_bind] at h
    obtain ⟨rfl, m2, e1, e2⟩ := last [m] h
    exact ⟨[m], m2, e1, Or.inr ⟨hf, m, hm, rfl⟩, e2⟩
  · next hf =>
    rw [M.pure_bind] at h
    obtain ⟨rfl, m2, e1, e2⟩ := last [] h
    exact ⟨[], m2, e1, Or.inl ⟨by simpa using hf, rfl⟩, e2⟩

/-- A run found a solution it can decode. -/
def Found (rep : Report H) : Prop := ∃ d, rep.solution = some d ∧ d ≠ []

theorem decodeMult_cases {x y : Nat} {bits : List Int} {sol : Option (Dict Int Bool)} {m : TaskMsg}
    (h : decodeMult x y bits sol = pure m) :
    (m = .product x y (x * y) ∧ ∃ d, sol = some d ∧ d ≠ []) ∨
    (∃ r, r ≠ x * y ∧ m = .productWrong x y r ∧ ∃ d, sol = some d ∧ d ≠ []) ∨
    (m = .cantMultiply x y ∧ ¬ ∃ d, sol = some d ∧ d ≠ []) := by
  unfold decodeMult at h
  split at h
  · obtain ⟨u, _, h⟩ := M.bind_eq_pure.1 h
    obtain ⟨r, _, h⟩ := M.bind_eq_pure.1 h
    have h := (M.pure_inj _ _).1 h
    split at h
    · next e => subst e; exact Or.inl ⟨h.symm, _, rfl, by simp⟩
    · next e => exact Or.inr (Or.inl ⟨r, e, h.symm, _, rfl, by simp⟩)
  · next hno =>
    refine Or.inr (Or.inr ⟨((M.pure_inj _ _).1 h).symm, ?_⟩)
    rintro ⟨d, rfl, hd⟩
    cases d with
    | nil => exact hd rfl
    | cons p d => exact hno p d rfl

theorem decodeFact_cases {info : Option FactInfo} {sol : Option (Dict Int Bool)} {m : TaskMsg}
    (h : decodeFact info sol = pure m) :
    (∃ n u v, m = .factors n u v ∧ n = u * v ∧ ∃ d, sol = some d ∧ d ≠ []) ∨
    (∃ n u v, m = .factorsWrong n u v ∧ n ≠ u * v ∧ ∃ d, sol = some d ∧ d ≠ []) ∨
    (∃ n, m = .prime n ∧ ¬ ∃ d, sol = some d ∧ d ≠ []) := by
  unfold decodeFact at h
  split at h
  · exact absurd h (M.raise_ne_pure _ _)
  · split at h
    · obtain ⟨u, _, h⟩ := M.bind_eq_pure.1 h
      obtain ⟨w, _, h⟩ := M.bind_eq_pure.1 h
      have h := (M.pure_inj _ _).1 h
      split at h
      · next e => exact Or.inl ⟨_, _, _, h.symm, e, _, rfl, by simp⟩
      · next e => exact Or.inr (Or.inl ⟨_, _, _, h.symm, e, _, rfl, by simp⟩)
    · next hno =>
      refine Or.inr (Or.inr ⟨_, ((M.pure_inj _ _).1 h).symm, ?_⟩)
      rintro ⟨d, rfl, hd⟩
      cases d with
      | nil => exact hd rfl
      | cons p d => exact hno p d rfl

/-- **C42** (any input text, any options) What `-mult` prints is true: a printed product is the product of the two numbers
asked for and comes from a solution, "wrong" is only said of a number that is not the product, and the numbers are
said not to be multipliable exactly when the run printed its report without having found a solution. -/
theorem C42_messages_true [DecidableEq H] {hash : Str → H} {ma : MainArgs} {env : EnvChoice} {g : Gdb H} {ty : InputType}
    {text : Str} {out : MainOut H} (h : mainRun hash ma env g ty text = some out) (x y : Nat) :
    (∀ r, TaskMsg.product x y r ∈ out.task → r = x * y ∧ ma.args.multiply = some (x, y) ∧
      ∃ rep, out.report = some rep ∧ Found rep) ∧
    (∀ r, TaskMsg.productWrong x y r ∈ out.task → r ≠ x * y) ∧
    (TaskMsg.cantMultiply x y ∈ out.task ↔ ma.args.multiply = some (x, y) ∧ ∃ rep, out.report = some rep ∧ ¬ Found rep) := by
  rcases mainRun_task h with ⟨h1, h2⟩ | ⟨info, bits, root, a, rep, h1, h2, h3, h4⟩
  · rw [h1, h2]; simp
  obtain ⟨m1, m2, e, hm1, hm2⟩ := solveTask_task h1
  rw [e, h2, ← h3]
  have n1 : ∀ m ∈ m1, (∀ x y r, m ≠ .product x y r) ∧ (∀ x y r, m ≠ .productWrong x y r) ∧ ∀ x y, m ≠ .cantMultiply x y := by
    rcases hm1 with ⟨_, rfl⟩ | ⟨_, m, hm, rfl⟩
    · simp
    · intro m' hm'
      rw [List.mem_singleton] at hm'
      subst hm'
      rcases decodeFact_cases hm with ⟨_, _, _, rfl, _⟩ | ⟨_, _, _, rfl, _⟩ | ⟨_, rfl, _⟩ <;> simp
  have q1 : ∀ r, TaskMsg.product x y r ∉ m1 := fun r hm => (n1 _ hm).1 x y r rfl
  have q2 : ∀ r, TaskMsg.productWrong x y r ∉ m1 := fun r hm => (n1 _ hm).2.1 x y r rfl
  have q3 : TaskMsg.cantMultiply x y ∉ m1 := fun hm => (n1 _ hm).2.2 x y rfl
  simp only [List.mem_append, q1, q2, q3, false_or, Option.some.injEq]
  rcases hm2 with ⟨e0, rfl⟩ | ⟨x', y', e0, m, hm, rfl⟩
  · rw [e0]; simp
  rw [e0]
  simp only [List.mem_singleton, Option.some.injEq, Prod.mk.injEq, exists_eq_left']
  unfold Found
  rcases decodeMult_cases hm with ⟨rfl, hd⟩ | ⟨r', hr, rfl, hd⟩ | ⟨rfl, hd⟩
  · refine ⟨?_, by simp, by simp [hd]⟩
    intro r hr
    simp only [TaskMsg.product.injEq] at hr
    obtain ⟨rfl, rfl, rfl⟩ := hr
    exact ⟨rfl, ⟨rfl, rfl⟩, hd⟩
  · refine ⟨by simp, ?_, by simp [hd]⟩
    intro r hr2
    simp only [TaskMsg.productWrong.injEq] at hr2
    obtain ⟨rfl, rfl, rfl⟩ := hr2
    exact hr
  · refine ⟨by simp, by simp, ?_⟩
    simp only [TaskMsg.cantMultiply.injEq]
    constructor
    · rintro ⟨rfl, rfl⟩; exact ⟨⟨rfl, rfl⟩, hd⟩
    · rintro ⟨⟨rfl, rfl⟩, _⟩; exact ⟨rfl, rfl⟩

/-- **C31** (any input text, any options) What `-fact` prints is true as far as it goes: printed factors multiply to the
printed number, "wrong" is only said when they do not, and "prime" is printed exactly by a run that found no solution. -/
theorem C31_messages_true [DecidableEq H] {hash : Str → H} {ma : MainArgs} {env : EnvChoice} {g : Gdb H} {ty : InputType}
    {text : Str} {out : MainOut H} (h : mainRun hash ma env g ty text = some out) (n : Nat) :
    (∀ u v, TaskMsg.factors n u v ∈ out.task → n = u * v ∧ ma.args.factorize = true ∧ ∃ rep, out.report = some rep ∧ Found rep) ∧
    (∀ u v, TaskMsg.factorsWrong n u v ∈ out.task → n ≠ u * v) ∧
    (TaskMsg.prime n ∈ out.task → ma.args.factorize = true ∧ ∃ rep, out.report = some rep ∧ ¬ Found rep) := by
  rcases mainRun_task h with ⟨h1, h2⟩ | ⟨info, bits, root, a, rep, h1, h2, h3, h4⟩
  · rw [h1]; simp
  obtain ⟨m1, m2, e, hm1, hm2⟩ := solveTask_task h1
  rw [e, h2]
  have n2 : ∀ m ∈ m2, (∀ n u v, m ≠ .factors n u v) ∧ (∀ n u v, m ≠ .factorsWrong n u v) ∧ ∀ n, m ≠ .prime n := by
    rcases hm2 with ⟨_, rfl⟩ | ⟨_, _, _, m, hm, rfl⟩
    · simp
    · intro m' hm'
      rw [List.mem_singleton] at hm'
      subst hm'
      rcases decodeMult_cases hm with ⟨rfl, _⟩ | ⟨_, _, rfl, _⟩ | ⟨rfl, _⟩ <;> simp
  have q1 : ∀ u v, TaskMsg.factors n u v ∉ m2 := fun u v hm => (n2 _ hm).1 n u v rfl
  have q2 : ∀ u v, TaskMsg.factorsWrong n u v ∉ m2 := fun u v hm => (n2 _ hm).2.1 n u v rfl
  have q3 : TaskMsg.prime n ∉ m2 := fun hm => (n2 _ hm).2.2 n rfl
  simp only [List.mem_append, q1, q2, q3, or_false, Option.some.injEq, exists_eq_left']
  unfold Found
  rcases hm1 with ⟨_, rfl⟩ | ⟨hfa, m, hm, rfl⟩
  · simp
  have hfa := h4 hfa
  simp only [List.mem_singleton]
  rcases decodeFact_cases hm with ⟨n', u', v', rfl, hn, hd⟩ | ⟨n', u', v', rfl, hn, hd⟩ | ⟨n', rfl, hd⟩
  · refine ⟨?_, by simp, by simp⟩
    intro u v he
    simp only [TaskMsg.factors.injEq] at he
    obtain ⟨rfl, rfl, rfl⟩ := he
    exact ⟨hn, hfa, hd⟩
  · refine ⟨by simp, ?_, by simp⟩
    intro u v he
    simp only [TaskMsg.factorsWrong.injEq] at he
    obtain ⟨rfl, rfl, rfl⟩ := he
    exact hn
  · exact ⟨by simp, by simp, fun _ => ⟨hfa, hd⟩⟩

/-- **C28** With `-fact` on a text that is not a factorization formula (the preprocessing refuses it) the run is exactly the
run without `-fact`. -/
theorem C28_refused_is_plain [DecidableEq H] (hash : Str → H) (ma : MainArgs) (env : EnvChoice) (g : Gdb H) {ty : InputType}
    {text : Str} {root : SetObj H} (hread : readInput ty text = pure root) (href : factPreprocess root = none) :
    mainRun hash ma env g ty text =
      mainRun hash { ma with args := { ma.args with factorize := false } } env g ty text := by
  unfold mainRun mainBody
  rw [hread]
  simp only [M.pure_bind, href]
  cases hf : ma.args.factorize
  · simp only [Bool.false_eq_true, if_false]
    rw [show ({ ma.args with factorize := false } : Args) = ma.args from by cases h : ma.args; simp_all]
  · simp only [if_true, Bool.false_eq_true, if_false]

/-- A formula the preprocessing refuses. -/
example : ∃ root : SetObj Str, readInput .slf "1|-2&2|3".toList = pure root ∧ factPreprocess root = none := by
  refine ⟨SetObj.ofLine "1|-2&2|3".toList, ?_, by decide +kernel⟩
  rfl

end NDP
