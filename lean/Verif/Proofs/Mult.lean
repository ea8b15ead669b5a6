import Verif.Proofs.Adders
/-
  The fast adder, the row adder and the multipliers.
-/
namespace NDP.Gen
open NDP.Spec

variable {α β γ : Type}

/-! ### the fast adder -/

theorem listby2_rel {δ : Type} {R : α → δ → Prop} : ∀ {xs : List α} {ds : List δ}, List.Forall₂ R xs ds →
    List.Forall₂ (fun p q => R p.1 q.1 ∧ R p.2 q.2) (listby2 xs).1 (listby2 ds).1 ∧
    List.Forall₂ R (listby2 xs).2 (listby2 ds).2
  | _, _, .nil => ⟨.nil, .nil⟩
  | _, _, .cons h .nil => ⟨.nil, .cons h .nil⟩
  | _, _, .cons h (.cons h' t) => by
    obtain ⟨i1, i2⟩ := listby2_rel t
    exact ⟨.cons ⟨h, h'⟩ i1, i2⟩

theorem listby2_flatten : ∀ (xs : List (List α)),
    (((listby2 xs).1.map fun p => p.1 ++ p.2) ++ (listby2 xs).2).flatten = xs.flatten
  | [] => rfl
  | [_] => rfl
  | a :: b :: l => by
    have := listby2_flatten l
    simp only [listby2, List.map_cons, List.cons_append, List.flatten_cons, List.append_assoc] at this ⊢
    rw [this]

theorem listby2_length : ∀ (xs : List α), 2 * (listby2 xs).1.length + (listby2 xs).2.length = xs.length ∧
    (listby2 xs).2.length ≤ 1
  | [] => by simp [listby2]
  | [_] => by simp [listby2]
  | a :: b :: l => by
    have := listby2_length l
    simp only [listby2, List.length_cons]
    omega

theorem run_applyStages {md : Md} {pl : Bool} {f : Nat} {us : List FUnit} {zss : List (List (Bool × Bool))} {n : Nat}
    {ρ : Assign} (hn : 0 < n) (h : List.Forall₂ (FOk md pl n ρ) us zss) (hne : us ≠ []) (hf : us.length ≤ f + 1) :
    Run md (applyStages f us) n ρ fun n' ρ' u => FOk md pl n' ρ' u zss.flatten := by
  induction f generalizing us zss n ρ with
  | zero =>
    match us, zss, h with
    | [], _, _ => exact absurd rfl hne
    | [u], [z], .cons hu .nil => exact Run.pure (by simpa using hu)
    | _ :: _ :: _, _, _ => simp at hf
  | succ f ih =>
    match us, zss, h with
    | [], _, _ => exact absurd rfl hne
    | [u], [z], .cons hu .nil => exact Run.pure (by simpa using hu)
    | u :: u' :: us, zss, h =>
      obtain ⟨h1, h2⟩ := listby2_rel h
      have hstage := run_mapC (md := md) (R := fun n ρ (p : FUnit × FUnit) (q : List (Bool × Bool) × List (Bool × Bool)) =>
          FOk md pl n ρ p.1 q.1 ∧ FOk md pl n ρ p.2 q.2) (S := FOk md pl) (g := fun q => q.1 ++ q.2) (f := fastStage)
        (fun he h => ⟨stable_fOk md pl he h.1, stable_fOk md pl he h.2⟩) (stable_fOk md pl)
        (fun n ρ x d hn h => run_fastStage hn h.1 h.2) hn h1
      show Run md (Circ.mapC fastStage (listby2 (u :: u' :: us)).1 >>= fun wss =>
        applyStages f (wss ++ (listby2 (u :: u' :: us)).2)) n ρ _
      refine Run.bind hstage fun n1 ρ1 ws e1 hws => ?_
      have hlen := listby2_length (u :: u' :: us)
      have hl := hws.length_eq
      have hl' := h1.length_eq
      simp only [List.length_map] at hl
      simp only [List.length_cons] at hlen hf
      refine Run.mono (ih (Nat.lt_of_lt_of_le hn e1.le)
        (List.rel_append hws (h2.imp fun _ _ => stable_fOk md pl e1)) ?_ ?_) ?_
      · intro e
        have := congrArg List.length e
        simp only [List.length_append, List.length_nil] at this
        omega
      · rw [List.length_append]; omega
      · intro n2 ρ2 x _ hx
        rwa [listby2_flatten] at hx

theorem fastAdder_ok : AdderOk fastAdder := by
  intro md pl n ρ as bs va vb hn ha hb hne
  have h1 := run_mapC (md := md) (R := Has2 md pl) (S := FOk md pl) (g := fun v => [v]) (f := fastAdderUnit)
    (stable_has2 md pl) (stable_fOk md pl) (fun n ρ x d hn h => run_fastUnit hn h) hn (has_zipPad ha hb)
  have hlen : (zipPadB va vb).length = max as.length bs.length := by rw [length_zipPadB, ha.length, hb.length]
  refine Run.bind h1 fun n1 ρ1 us e1 hus => ?_
  have hl : us.length = max as.length bs.length := by rw [hus.length_eq, List.length_map, hlen]
  refine Run.bind (run_applyStages (Nat.lt_of_lt_of_le hn e1.le) hus ?_ (Nat.le_succ _)) fun n2 ρ2 u e2 hu => ?_
  · intro e
    rw [e] at hl
    rcases hne with h | h <;> (have := List.length_pos_iff.2 h; simp at hl; omega)
  · have e : ((zipPadB va vb).map fun v => [v]).flatten = zipPadB va vb := by
      induction zipPadB va vb with
      | nil => rfl
      | cons x l ih => simp [ih]
    rw [e] at hu
    obtain ⟨vs, vt, vg, vp, h1, h2, h3, h4, h5, h6, h7, h8⟩ := hu
    refine Run.pure ⟨vs ++ [vg], List.rel_append h1 (.cons h3 .nil), ?_, ?_⟩
    · rw [nat_append, nat_singleton, h5, h7, colSum_zipPadB]
    · simp [h5, hlen]

theorem adder_ok (a : AdderName) : AdderOk a.adder := by
  cases a
  · exact nAdder_ok
  · exact fastAdder_ok

/-! ### padding -/

theorem has_padTo {md : Md} {pl : Bool} {n : Nat} {ρ : Assign} {xs : List Bit} {vs : List Bool} (k : Nat)
    (h : HasL md pl n ρ xs vs) :
    HasL md pl n ρ (padTo k xs) (vs.take k ++ List.replicate (k - vs.length) false) := by
  unfold padTo
  rw [h.length]
  refine List.rel_append (List.forall₂_take k h) ?_
  generalize k - vs.length = m
  induction m with
  | zero => exact .nil
  | succ m ih => exact .cons (has_low md pl n ρ) ih

theorem nat_padTo {vs : List Bool} {k : Nat} (h : vs.length ≤ k) :
    natOfBits (vs.take k ++ List.replicate (k - vs.length) false) = natOfBits vs := by
  rw [nat_append, nat_replicate_false, List.take_of_length_le h]; simp

theorem length_padTo (k : Nat) (l : List Bit) : (padTo k l).length = k := by
  unfold padTo; simp; omega

/-! ### rows of bits -/

/-- Value of the carries and sums of a row. -/
def rowSum : List (Bool × Bool × Bool) → Nat
  | [] => 0
  | (a, b, c) :: l => b2n a + b2n b + b2n c + 2 * rowSum l

theorem rowSum_full3 (l : List (Bool × Bool × Bool)) :
    natOfBits ((l.map full3).map Prod.snd) + 2 * natOfBits ((l.map full3).map Prod.fst) = rowSum l := by
  induction l with
  | nil => rfl
  | cons t l ih =>
    obtain ⟨c, a, b⟩ := t
    have := full3_eq c a b
    simp only [List.map_cons, nat_cons, rowSum]
    omega

theorem rowSum_zip : ∀ (xs ys zs : List Bool), xs.length = ys.length → ys.length = zs.length →
    rowSum (xs.zip (ys.zip zs)) = natOfBits xs + natOfBits ys + natOfBits zs
  | [], [], [], _, _ => rfl
  | x :: xs, y :: ys, z :: zs, h1, h2 => by
    have := rowSum_zip xs ys zs (by simpa using h1) (by simpa using h2)
    simp only [List.zip_cons_cons, rowSum, nat_cons, this]
    omega

theorem has_zip {md : Md} {pl : Bool} {n : Nat} {ρ : Assign} {xs ys : List Bit} {vx vy : List Bool}
    (hx : HasL md pl n ρ xs vx) (hy : HasL md pl n ρ ys vy) :
    List.Forall₂ (Has2 md pl n ρ) (xs.zip ys) (vx.zip vy) := by
  induction hx generalizing ys vy with
  | nil => exact .nil
  | cons h _ ih =>
    cases hy with
    | nil => exact .nil
    | cons h' hy => exact List.Forall₂.cons (R := Has2 md pl n ρ) ⟨h, h'⟩ (ih hy)

theorem has_zip3 {md : Md} {pl : Bool} {n : Nat} {ρ : Assign} {xs ys zs : List Bit} {vx vy vz : List Bool}
    (hx : HasL md pl n ρ xs vx) (hy : HasL md pl n ρ ys vy) (hz : HasL md pl n ρ zs vz) :
    List.Forall₂ (Has3 md pl n ρ) (xs.zip (ys.zip zs)) (vx.zip (vy.zip vz)) := by
  induction hx generalizing ys vy zs vz with
  | nil => exact .nil
  | cons h _ ih =>
    cases hy with
    | nil => exact .nil
    | cons h' hy =>
      cases hz with
      | nil => exact .nil
      | cons h'' hz => exact List.Forall₂.cons (R := Has3 md pl n ρ) ⟨h, h', h''⟩ (ih hy hz)

theorem hasL_fst {md : Md} {pl : Bool} {n : Nat} {ρ : Assign} {xs : List (Bit × Bit)} {vs : List (Bool × Bool)}
    (h : List.Forall₂ (Has2 md pl n ρ) xs vs) : HasL md pl n ρ (xs.map Prod.fst) (vs.map Prod.fst) := by
  induction h with
  | nil => exact .nil
  | cons h _ ih => exact .cons h.1 ih

theorem hasL_snd {md : Md} {pl : Bool} {n : Nat} {ρ : Assign} {xs : List (Bit × Bit)} {vs : List (Bool × Bool)}
    (h : List.Forall₂ (Has2 md pl n ρ) xs vs) : HasL md pl n ρ (xs.map Prod.snd) (vs.map Prod.snd) := by
  induction h with
  | nil => exact .nil
  | cons h _ ih => exact .cons h.2 ih

theorem run_w3Unit {md : Md} {pl : Bool} {n : Nat} {ρ : Assign} {g : List Bit × List Bit × List Bit}
    {v : List Bool × List Bool × List Bool} (hn : 0 < n)
    (h : HasL md pl n ρ g.1 v.1 ∧ HasL md pl n ρ g.2.1 v.2.1 ∧ HasL md pl n ρ g.2.2 v.2.2) :
    Run md (w3Unit g) n ρ fun n' ρ' r => ∃ vc vs, HasL md pl n' ρ' r.1 vc ∧ HasL md pl n' ρ' r.2 vs ∧
      natOfBits vs + 2 * natOfBits vc = natOfBits v.1 + natOfBits v.2.1 + natOfBits v.2.2 := by
  obtain ⟨h1, h2, h3⟩ := h
  unfold w3Unit zip3Pad
  have hm := run_mapC (md := md) (R := Has3 md pl) (S := Has2 md pl) (g := full3)
    (f := fun (p : Bit × Bit × Bit) => fullAdd p.1 p.2.1 p.2.2)
    (stable_has3 md pl) (stable_has2 md pl) (fun n ρ x d hn h => run_fullAdd hn h.1 h.2.1 h.2.2) hn
    (has_zip3 (has_padTo (max g.1.length (max g.2.1.length g.2.2.length)) h1)
      (has_padTo (max g.1.length (max g.2.1.length g.2.2.length)) h2)
      (has_padTo (max g.1.length (max g.2.1.length g.2.2.length)) h3))
  refine Run.bind hm fun n1 ρ1 r e1 hr => ?_
  refine Run.pure ⟨_, _, hasL_fst hr, hasL_snd hr, ?_⟩
  rw [rowSum_full3, rowSum_zip, nat_padTo, nat_padTo, nat_padTo]
  · rw [h3.length]; omega
  · rw [h2.length]; omega
  · rw [h1.length]; omega
  · simp; omega
  · simp; omega

/-- Sum of the rows. -/
def rows (l : List (List Bool)) : Nat := (l.map natOfBits).sum

theorem rows_append (a b : List (List Bool)) : rows (a ++ b) = rows a + rows b := by simp [rows]

theorem listby3_rel {δ : Type} {R : α → δ → Prop} : ∀ {xs : List α} {ds : List δ}, List.Forall₂ R xs ds →
    List.Forall₂ (fun p q => R p.1 q.1 ∧ R p.2.1 q.2.1 ∧ R p.2.2 q.2.2) (listby3 xs).1 (listby3 ds).1 ∧
    List.Forall₂ R (listby3 xs).2 (listby3 ds).2
  | _, _, .nil => ⟨.nil, .nil⟩
  | _, _, .cons h .nil => ⟨.nil, .cons h .nil⟩
  | _, _, .cons h (.cons h' .nil) => ⟨.nil, .cons h (.cons h' .nil)⟩
  | _, _, .cons h (.cons h' (.cons h'' t)) => by
    obtain ⟨i1, i2⟩ := listby3_rel t
    exact ⟨.cons ⟨h, h', h''⟩ i1, i2⟩

theorem listby3_rows : ∀ (xs : List (List Bool)),
    ((listby3 xs).1.map fun p => natOfBits p.1 + natOfBits p.2.1 + natOfBits p.2.2).sum + rows (listby3 xs).2 = rows xs
  | [] => rfl
  | [_] => by simp [listby3]
  | [_, _] => by simp [listby3]
  | a :: b :: c :: l => by
    have := listby3_rows l
    simp only [listby3, List.map_cons, List.sum_cons, rows] at this ⊢
    omega

theorem listby3_length : ∀ (xs : List α), 3 * (listby3 xs).1.length + (listby3 xs).2.length = xs.length ∧
    (listby3 xs).2.length ≤ 2
  | [] => by simp [listby3]
  | [_] => by simp [listby3]
  | [_, _] => by simp [listby3]
  | a :: b :: c :: l => by
    have := listby3_length l
    simp only [listby3, List.length_cons]
    omega

/-- Carries and sums with the value of the three rows they come from. -/
def WOk (md : Md) (pl : Bool) (n : Nat) (ρ : Assign) (r : List Bit × List Bit) (t : Nat) : Prop :=
  ∃ vc vs, HasL md pl n ρ r.1 vc ∧ HasL md pl n ρ r.2 vs ∧ natOfBits vs + 2 * natOfBits vc = t

theorem stable_wOk (md : Md) (pl : Bool) : Stable (WOk md pl) := by
  rintro n ρ n' ρ' r t he ⟨vc, vs, h1, h2, h3⟩
  exact ⟨vc, vs, HasL.ext he h1, HasL.ext he h2, h3⟩

theorem wOk_rows {md : Md} {pl : Bool} {n : Nat} {ρ : Assign} {rs : List (List Bit × List Bit)} {ts : List Nat}
    (h : List.Forall₂ (WOk md pl n ρ) rs ts) :
    ∃ vcs vss, List.Forall₂ (HasL md pl n ρ) (rs.map fun p => low :: p.1) vcs ∧
      List.Forall₂ (HasL md pl n ρ) (rs.map Prod.snd) vss ∧ rows vcs + rows vss = ts.sum := by
  induction h with
  | nil => exact ⟨[], [], .nil, .nil, rfl⟩
  | cons h _ ih =>
    obtain ⟨vc, vs, h1, h2, h3⟩ := h
    obtain ⟨vcs, vss, i1, i2, i3⟩ := ih
    refine ⟨(false :: vc) :: vcs, vs :: vss, .cons (.cons (has_low md pl n ρ) h1) i1, .cons h2 i2, ?_⟩
    simp only [rows, List.map_cons, List.sum_cons, nat_cons, b2n_false] at i3 ⊢
    omega

theorem run_two {adder : Adder} (had : AdderOk adder) {md : Md} {pl : Bool} {n : Nat} {ρ : Assign} (hn : 0 < n)
    {as bs : List Bit} {va vb : List Bool} (ha : HasL md pl n ρ as va) (hb : HasL md pl n ρ bs vb)
    (hne : ∃ r ∈ [as, bs], r ≠ []) :
    Run md (adder as bs) n ρ fun n' ρ' r => ∃ vr, HasL md pl n' ρ' r vr ∧ natOfBits vr = rows [va, vb] := by
  refine Run.mono (had hn ha hb ?_) ?_
  · obtain ⟨r, hr, hr'⟩ := hne
    simp only [List.mem_cons, List.not_mem_nil, or_false] at hr
    rcases hr with rfl | rfl
    · exact Or.inl hr'
    · exact Or.inr hr'
  · rintro n' ρ' r _ ⟨vr, h1, h2, _⟩
    exact ⟨vr, h1, by simp [h2, rows]⟩

theorem run_wAdderN {adder : Adder} (had : AdderOk adder) {md : Md} {pl : Bool} {f : Nat} {xss : List (List Bit)}
    {vss : List (List Bool)} {n : Nat} {ρ : Assign} (hn : 0 < n) (h : List.Forall₂ (HasL md pl n ρ) xss vss)
    (hf : xss.length ≤ f + 2) (hne : xss.length = 2 → ∃ r ∈ xss, r ≠ []) :
    Run md (wAdderN adder f xss) n ρ fun n' ρ' r => ∃ vr, HasL md pl n' ρ' r vr ∧ natOfBits vr = rows vss := by
  induction f generalizing xss vss n ρ with
  | zero =>
    match xss, vss, h with
    | [], _, .nil => exact Run.pure ⟨[], .nil, rfl⟩
    | [as], [va], .cons ha .nil => exact Run.pure ⟨va, ha, by simp [rows]⟩
    | [as, bs], [va, vb], .cons ha (.cons hb .nil) => exact run_two had hn ha hb (hne rfl)
    | _ :: _ :: _ :: _, _, _ => simp at hf
  | succ f ih =>
    match xss, vss, h with
    | [], _, .nil => exact Run.pure ⟨[], .nil, rfl⟩
    | [as], [va], .cons ha .nil => exact Run.pure ⟨va, ha, by simp [rows]⟩
    | [as, bs], [va, vb], .cons ha (.cons hb .nil) => exact run_two had hn ha hb (hne rfl)
    | x :: y :: z :: l, vss, h =>
      obtain ⟨h1, h2⟩ := listby3_rel h
      have hm := run_mapC (md := md)
        (R := fun n ρ (g : List Bit × List Bit × List Bit) (v : List Bool × List Bool × List Bool) =>
          HasL md pl n ρ g.1 v.1 ∧ HasL md pl n ρ g.2.1 v.2.1 ∧ HasL md pl n ρ g.2.2 v.2.2)
        (S := WOk md pl) (g := fun p => natOfBits p.1 + natOfBits p.2.1 + natOfBits p.2.2) (f := w3Unit)
        (fun he h => ⟨HasL.ext he h.1, HasL.ext he h.2.1, HasL.ext he h.2.2⟩) (stable_wOk md pl)
        (fun n ρ x d hn h => run_w3Unit hn h) hn h1
      show Run md (Circ.mapC w3Unit (listby3 (x :: y :: z :: l)).1 >>= fun ng =>
        wAdderN adder f ((ng.map fun p => low :: p.1) ++ ng.map Prod.snd ++ (listby3 (x :: y :: z :: l)).2)) n ρ _
      refine Run.bind hm fun n1 ρ1 ng e1 hng => ?_
      obtain ⟨vcs, vss', i1, i2, i3⟩ := wOk_rows hng
      have hlen := listby3_length (x :: y :: z :: l)
      have hl := hng.length_eq
      have hl' := h1.length_eq
      simp only [List.length_map] at hl
      simp only [List.length_cons] at hlen hf
      refine Run.mono (ih (Nat.lt_of_lt_of_le hn e1.le)
        (List.rel_append (List.rel_append i1 i2) (h2.imp fun _ _ => HasL.ext e1)) ?_ ?_) ?_
      · simp only [List.length_append, List.length_map]; omega
      · intro _
        match ng, hl with
        | [], hl => exfalso; simp at hl; omega
        | p :: ng, _ => exact ⟨low :: p.1, by simp, by simp⟩
      · rintro n2 ρ2 r _ ⟨vr, h1, h2⟩
        refine ⟨vr, h1, ?_⟩
        rw [h2, rows_append, rows_append, i3, listby3_rows]

/-! ### the wallace multiplier -/

/-- `shiftRows` on values. -/
def shiftRowsB (i : Nat) : List (List Bool) → List (List Bool)
  | [] => []
  | r :: rs => (List.replicate i false ++ r) :: shiftRowsB (i + 1) rs

theorem has_replicate (md : Md) (pl : Bool) (n : Nat) (ρ : Assign) (k : Nat) :
    HasL md pl n ρ (List.replicate k low) (List.replicate k false) := by
  induction k with
  | zero => exact .nil
  | succ m ih => exact .cons (has_low md pl n ρ) ih

theorem has_shift {md : Md} {pl : Bool} {n : Nat} {ρ : Assign} {xs : List Bit} {vs : List Bool} (k : Nat)
    (h : HasL md pl n ρ xs vs) : HasL md pl n ρ (shift k xs) (List.replicate k false ++ vs) :=
  List.rel_append (has_replicate md pl n ρ k) h

theorem nat_shift (k : Nat) (vs : List Bool) : natOfBits (List.replicate k false ++ vs) = 2 ^ k * natOfBits vs := by
  rw [nat_append, nat_replicate_false]; simp

theorem has_shiftRows {md : Md} {pl : Bool} {n : Nat} {ρ : Assign} {xss : List (List Bit)} {vss : List (List Bool)} (i : Nat)
    (h : List.Forall₂ (HasL md pl n ρ) xss vss) : List.Forall₂ (HasL md pl n ρ) (shiftRows i xss) (shiftRowsB i vss) := by
  induction h generalizing i with
  | nil => exact .nil
  | cons h _ ih => exact .cons (has_shift i h) (ih (i + 1))

theorem nat_map_and (va : List Bool) (b : Bool) : natOfBits (va.map fun a => a && b) = natOfBits va * b2n b := by
  induction va with
  | nil => simp [nat_nil]
  | cons a va ih => rw [List.map_cons, nat_cons, nat_cons, ih]; cases a <;> cases b <;> simp

theorem rows_shiftRows (va : List Bool) (i : Nat) (vb : List Bool) :
    rows (shiftRowsB i (vb.map fun b => va.map fun a => a && b)) = 2 ^ i * (natOfBits va * natOfBits vb) := by
  induction vb generalizing i with
  | nil => simp [shiftRowsB, rows, nat_nil]
  | cons b vb ih =>
    have := ih (i + 1)
    simp only [rows, List.map_cons, shiftRowsB, List.sum_cons, nat_shift, nat_map_and] at this ⊢
    rw [this, nat_cons, pow_succ]; ring

/-- What a multiplier does (on non-empty arguments; `ok` restricts the modes and widths). -/
def MultOk (ok : Md → Bool → Nat → Nat → Prop) (m : Multiplier) : Prop :=
  ∀ {md : Md} {pl : Bool} {n : Nat} {ρ : Assign} {as bs : List Bit} {va vb : List Bool}, 0 < n →
    ok md pl as.length bs.length → HasL md pl n ρ as va → HasL md pl n ρ bs vb → as ≠ [] → bs ≠ [] →
    Run md (m as bs) n ρ fun n' ρ' r => ∃ vr, HasL md pl n' ρ' r vr ∧ natOfBits vr = natOfBits va * natOfBits vb

theorem shiftRows_length (i : Nat) (l : List (List Bit)) : (shiftRows i l).length = l.length := by
  induction l generalizing i with
  | nil => rfl
  | cons x l ih => simp [shiftRows, ih]

theorem run_wallace {adder : Adder} (had : AdderOk adder) {md : Md} {pl : Bool} {n : Nat} {ρ : Assign} {as bs : List Bit}
    {va vb : List Bool} (hn : 0 < n) (ha : HasL md pl n ρ as va) (hb : HasL md pl n ρ bs vb) :
    Run md (wallace adder as bs) n ρ fun n' ρ' r => ∃ vr, HasL md pl n' ρ' r vr ∧
      natOfBits vr = natOfBits va * natOfBits vb := by
  have row : ∀ n ρ b vb, 0 < n → (HasL md pl n ρ as va ∧ Has md pl n ρ b vb) →
      Run md (Circ.mapC (fun a => and2 a b) as) n ρ fun n' ρ' r => HasL md pl n' ρ' r (va.map fun a => a && vb) := by
    intro n ρ b vb hn h
    have h2 : List.Forall₂ (fun x v => Has md pl n ρ x v ∧ Has md pl n ρ b vb) as va := h.1.imp fun _ _ h' => ⟨h', h.2⟩
    exact run_mapC (md := md) (R := fun n ρ x v => Has md pl n ρ x v ∧ Has md pl n ρ b vb) (S := Has md pl)
      (g := fun a => a && vb) (f := fun a => and2 a b) (fun he h => ⟨h.1.ext he, h.2.ext he⟩) (stable_has md pl)
      (fun n ρ x d hn h => run_and2 hn h.1 h.2) hn h2
  have hm := run_mapC (md := md) (R := fun n ρ b vb => HasL md pl n ρ as va ∧ Has md pl n ρ b vb)
    (S := HasL md pl) (g := fun b => va.map fun a => a && b) (f := fun b => Circ.mapC (fun a => and2 a b) as)
    (fun he h => ⟨HasL.ext he h.1, h.2.ext he⟩) (stable_hasL md pl) row hn (hb.imp fun _ _ h => ⟨ha, h⟩)
  refine Run.bind hm fun n1 ρ1 rs e1 hrs => ?_
  refine Run.mono (run_wAdderN had (Nat.lt_of_lt_of_le hn e1.le) (has_shiftRows 0 hrs) (by omega) ?_) ?_
  · intro h2
    rw [shiftRows_length] at h2
    match rs, h2 with
    | [r, r'], _ => exact ⟨shift 1 r', by simp [shiftRows], by simp [shift]⟩
  · rintro n2 ρ2 r _ ⟨vr, h1, h2⟩
    exact ⟨vr, h1, by rw [h2, rows_shiftRows]; simp⟩

/-! ### the carry-save multiplier -/

/-- A row of blocks: `sums + 2 * carries` grows by the row's product. -/
theorem run_csRow {md : Md} {pl : Bool} {n : Nat} {ρ : Assign} {b : Bit} {vb : Bool} {as : List Bit} {va : List Bool}
    {cs ss : List Bit} {vc vs : List Bool} (hn : 0 < n) (hb : Has md pl n ρ b vb) (ha : HasL md pl n ρ as va)
    (hc : HasL md pl n ρ cs vc) (hs : HasL md pl n ρ ss vs) (hl1 : as.length = cs.length) (hl2 : as.length = ss.length) :
    Run md (csRow b as (cs.zip ss)) n ρ fun n' ρ' r => ∃ vr, List.Forall₂ (Has2 md pl n' ρ') r vr ∧
      vr.length = as.length ∧
      natOfBits (vr.map Prod.snd) + 2 * natOfBits (vr.map Prod.fst) = natOfBits vc + natOfBits vs + natOfBits va * b2n vb := by
  have hm := run_mapC (md := md) (R := fun n ρ x v => Has3 md pl n ρ x v ∧ Has md pl n ρ b vb) (S := Has2 md pl)
    (g := fun v => full3 (v.2.1, v.2.2, v.1 && vb)) (f := fun (p : Bit × Bit × Bit) => block p.1 b p.2.1 p.2.2)
    (fun he h => ⟨stable_has3 md pl he h.1, h.2.ext he⟩) (stable_has2 md pl)
    (fun n ρ x d hn h => Run.bind (run_and2 hn h.1.1 h.2) fun n1 ρ1 xy e1 hxy =>
      run_fullAdd (Nat.lt_of_lt_of_le hn e1.le) (h.1.2.1.ext e1) (h.1.2.2.ext e1) hxy) hn
    ((has_zip3 ha hc hs).imp fun _ _ h => ⟨h, hb⟩)
  refine Run.mono hm ?_
  intro n' ρ' r _ hr
  have l1 := ha.length
  have l2 := hc.length
  have l3 := hs.length
  refine ⟨_, hr, by simp; omega, ?_⟩
  have e : ((va.zip (vc.zip vs)).map fun v => full3 (v.2.1, v.2.2, v.1 && vb)) =
      ((va.zip (vc.zip vs)).map fun v => (v.2.1, v.2.2, v.1 && vb)).map full3 := by simp
  rw [e, rowSum_full3]
  have e2 : ((va.zip (vc.zip vs)).map fun v => (v.2.1, v.2.2, v.1 && vb)) = vc.zip (vs.zip (va.map fun a => a && vb)) := by
    have k1 : va.length = vc.length := by omega
    have k2 : va.length = vs.length := by omega
    clear hm hr ha hc hs e l1 l2 l3 hl1 hl2
    induction va generalizing vc vs with
    | nil =>
      cases vc with
      | nil => rfl
      | cons => simp at k1
    | cons a va ih =>
      cases vc with
      | nil => simp at k1
      | cons c vc =>
        cases vs with
        | nil => simp at k2
        | cons s vs =>
          have := ih (by simpa using k1) (by simpa using k2)
          simp only [List.zip_cons_cons, List.map_cons, this]
  rw [e2, rowSum_zip, nat_map_and]
  · omega
  · simp; omega

theorem run_csLoop {md : Md} {pl : Bool} {as : List Bit} {va : List Bool} {bs : List Bit} {vb : List Bool} {n : Nat}
    {ρ : Assign} {cs : List Bit} {vcs : List Bool} {prev : List (Bit × Bit)} {vp : List (Bool × Bool)} (hn : 0 < n)
    (hne : as ≠ []) (ha : HasL md pl n ρ as va) (hb : HasL md pl n ρ bs vb) (hcs : HasL md pl n ρ cs vcs)
    (hp : List.Forall₂ (Has2 md pl n ρ) prev vp) (hl : prev.length = as.length) :
    Run md (csLoop as cs prev bs) n ρ fun n' ρ' r => ∃ vcs' vl, HasL md pl n' ρ' r.1 vcs' ∧
      List.Forall₂ (Has2 md pl n' ρ') r.2 vl ∧ r.2.length = as.length ∧
      natOfBits vcs' + 2 ^ vcs'.length * (natOfBits (vl.map Prod.snd) + 2 * natOfBits (vl.map Prod.fst)) =
        natOfBits vcs + 2 ^ vcs.length * (natOfBits (vp.map Prod.snd) + 2 * natOfBits (vp.map Prod.fst) +
          2 * (natOfBits va * natOfBits vb)) := by
  induction bs generalizing n ρ cs vcs prev vp vb with
  | nil =>
    cases hb
    exact Run.pure ⟨vcs, vp, hcs, hp, hl, by simp [nat_nil]⟩
  | cons b bs ih =>
    cases hb with
    | @cons _ v _ vb hb1 hb =>
      have hsnd := hasL_snd hp
      have hfst := hasL_fst hp
      unfold csLoop
      match hps : prev.map Prod.snd, hpv : vp.map Prod.snd with
      | [], _ =>
        exfalso
        have := congrArg List.length hps
        simp only [List.length_map, List.length_nil] at this
        rw [this] at hl
        exact hne (List.length_eq_zero_iff.1 hl.symm)
      | s :: ss, [] => rw [hps, hpv] at hsnd; cases hsnd
      | s :: ss, vs :: vss =>
        rw [hps, hpv] at hsnd
        cases hsnd with
        | cons hs hss =>
          have hlen := congrArg List.length hps
          simp only [List.length_map, List.length_cons] at hlen
          have hrow := run_csRow hn hb1 ha hfst (List.rel_append hss (.cons (has_low md pl n ρ) .nil))
            (by simp [hl]) (by simp; omega)
          refine Run.bind hrow fun n1 ρ1 cur e1 hcur => ?_
          obtain ⟨vr, c1, c2, c3⟩ := hcur
          refine Run.mono (ih (Nat.lt_of_lt_of_le hn e1.le) (HasL.ext e1 ha) (HasL.ext e1 hb)
            (List.rel_append (HasL.ext e1 hcs) (.cons (hs.ext e1) .nil)) c1 (by rw [c1.length_eq, c2])) ?_
          rintro n2 ρ2 r _ ⟨vcs', vl, d1, d2, d3, d4⟩
          refine ⟨vcs', vl, d1, d2, d3, ?_⟩
          rw [d4, nat_append, nat_singleton, c3, List.length_append, List.length_singleton, pow_succ, nat_append,
            nat_singleton, b2n_false, nat_cons vs vss, nat_cons v vb]
          ring

theorem run_carrySave {adder : Adder} (had : AdderOk adder) {md : Md} {pl : Bool} {n : Nat} {ρ : Assign} {as bs : List Bit}
    {va vb : List Bool} (hn : 0 < n) (ha : HasL md pl n ρ as va) (hb : HasL md pl n ρ bs vb) (hane : as ≠ []) (hbne : bs ≠ []) :
    Run md (carrySave adder as bs) n ρ fun n' ρ' r => ∃ vr, HasL md pl n' ρ' r vr ∧
      natOfBits vr = natOfBits va * natOfBits vb := by
  cases hb with
  | nil => exact absurd rfl hbne
  | @cons b v bs vb hb1 hb =>
    have hrow := run_csRow (cs := List.replicate as.length low) (ss := List.replicate as.length low) hn hb1 ha
      (has_replicate md pl n ρ as.length) (has_replicate md pl n ρ as.length) (by simp) (by simp)
    have e : (List.replicate as.length low).zip (List.replicate as.length low) = as.map fun _ => (low, low) := by
      rw [List.zip_replicate', List.map_const']
    rw [e] at hrow
    unfold carrySave
    refine Run.bind hrow fun n1 ρ1 first e1 hf => ?_
    obtain ⟨vf, f1, f2, f3⟩ := hf
    have p1 := Nat.lt_of_lt_of_le hn e1.le
    refine Run.bind (run_csLoop p1 hane (HasL.ext e1 ha) (HasL.ext e1 hb) .nil f1 (by rw [f1.length_eq, f2])) fun n2 ρ2 r e2 hr => ?_
    obtain ⟨vcs, vl, g1, g2, g3, g4⟩ := hr
    obtain ⟨cs, last⟩ := r
    have hsnd := hasL_snd g2
    have hfst := hasL_fst g2
    simp only at g1 g3 hsnd hfst ⊢
    match hps : last.map Prod.snd, hpv : vl.map Prod.snd with
    | [], _ =>
      exfalso
      have := congrArg List.length hps
      simp only [List.length_map, List.length_nil] at this
      rw [this] at g3
      exact hane (List.length_eq_zero_iff.1 g3.symm)
    | s :: ss, [] => rw [hps, hpv] at hsnd; cases hsnd
    | s :: ss, vs :: vss =>
      rw [hps, hpv] at hsnd
      cases hsnd with
      | cons hs hss =>
        simp only
        refine Run.bind (had (Nat.lt_of_lt_of_le p1 e2.le) hfst (List.rel_append hss (.cons (has_low md pl n2 ρ2) .nil))
          (Or.inr (by simp))) fun n3 ρ3 rest e3 hrest => ?_
        obtain ⟨vr, k1, k2, _⟩ := hrest
        refine Run.pure ⟨vcs ++ [vs] ++ vr, List.rel_append (List.rel_append (HasL.ext e3 g1) (.cons (hs.ext e3) .nil)) k1, ?_⟩
        rw [hpv] at g4
        rw [nat_append, nat_append, nat_singleton, List.length_append, List.length_singleton, pow_succ, k2, nat_append,
          nat_singleton, b2n_false]
        rw [f3, nat_replicate_false, nat_cons, nat_nil] at g4
        simp only [List.length_nil, pow_zero, zero_add, one_mul] at g4
        rw [nat_cons v vb]
        linarith

end NDP.Gen
