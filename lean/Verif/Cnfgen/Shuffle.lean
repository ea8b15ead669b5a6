import Verif.Cnfgen.TransformProps
import Verif.Cnfgen.Dimacs
/-
  C56: shuffling a formula.
-/
namespace NDP.Cnfgen
open NDP

/-- Filling a list at different places. -/
theorem fill_ok {A B : Type} {f : A → M B} {g : A → B} : ∀ (ps : List (Nat × A)) (out : List (Option B)),
    (∀ p ∈ ps, f p.2 = pure (g p.2)) → (ps.map Prod.fst).Nodup → (∀ p ∈ ps, p.1 < out.length) →
    ∃ out', ps.foldlM (fun (out : List (Option B)) (p : Nat × A) => do
        let c ← f p.2
        if p.1 < out.length then pure (out.set p.1 (some c)) else raise .indexError) out = (pure out' : M _) ∧
      out'.length = out.length ∧ (∀ p ∈ ps, out'[p.1]? = some (some (g p.2))) ∧ ∀ n, n ∉ ps.map Prod.fst → out'[n]? = out[n]?
  | [], out, _, _, _ => ⟨out, rfl, rfl, by simp, by simp⟩
  | p :: ps, out, hf, hn, hl => by
    rw [List.map_cons, List.nodup_cons] at hn
    obtain ⟨out', h1, h2, h3, h4⟩ := fill_ok ps (out.set p.1 (some (g p.2))) (fun q hq => hf q (by simp [hq])) hn.2
      (fun q hq => by rw [List.length_set]; exact hl q (by simp [hq]))
    refine ⟨out', ?_, by rw [h2, List.length_set], ?_, ?_⟩
    · rw [List.foldlM_cons, hf p (by simp), M.pure_bind, if_pos (hl p (by simp)), M.pure_bind]
      exact h1
    · intro q hq
      rcases List.mem_cons.1 hq with rfl | hq
      · rw [h4 _ hn.1]
        simp [hl q (by simp)]
      · exact h3 q hq
    · intro n hn'
      rw [List.map_cons, List.mem_cons, not_or] at hn'
      rw [h4 n hn'.2, List.getElem?_set_ne (Ne.symm hn'.1)]

/-- The literals of the formula are looked up where the loop put them. -/
theorem shuffleLit_in {pos : List Int} {l : Int} (h1 : 1 ≤ l.natAbs) (h2 : l.natAbs ≤ pos.length) :
    shuffleLit pos l = pure (if 0 < l then pos.getD (l.natAbs - 1) 0 else -pos.getD (l.natAbs - 1) 0) := by
  unfold shuffleLit
  have hlen : (none :: (pos.map some ++ (pos.map fun x => some (-x)).reverse)).length = 2 * pos.length + 1 := by
    simp only [List.length_cons, List.length_append, List.length_map, List.length_reverse]; omega
  simp only [hlen]
  have hp : l.natAbs - 1 < pos.length := by omega
  by_cases h : 0 < l
  · rw [if_neg (show ¬ l < 0 by omega), if_neg (by omega), if_pos h]
    have e : l.toNat = (l.natAbs - 1) + 1 := by omega
    rw [e, List.getElem?_cons_succ, List.getElem?_append_left (by simpa using hp), List.getElem?_map, List.getElem?_eq_getElem hp]
    simp only [Option.map_some, orRaise_some, M.pure_bind, List.getD_eq_getElem?_getD, List.getElem?_eq_getElem hp, Option.getD_some]
  · rw [if_pos (show l < 0 by omega), if_neg (by omega), if_neg h]
    have e : (l + (2 * pos.length + 1 : Nat)).toNat = (2 * pos.length - l.natAbs) + 1 := by omega
    rw [e, List.getElem?_cons_succ, List.getElem?_append_right (by simp; omega), List.length_map,
      List.getElem?_reverse (by simp; omega), List.length_map, List.getElem?_map]
    have e2 : pos.length - 1 - (2 * pos.length - l.natAbs - pos.length) = l.natAbs - 1 := by omega
    rw [e2, List.getElem?_eq_getElem hp]
    simp only [Option.map_some, orRaise_some, M.pure_bind, List.getD_eq_getElem?_getD, List.getElem?_eq_getElem hp, Option.getD_some]

section
variable {V : Type} [DecidableEq V]

/-- The value of a variable before the signs are flipped. -/
def unflip (F : CNF V) (flip : List Int) (α : V → Bool) (v : V) : Bool := if flip.getD (F.vars.idxOf v) 1 = -1 then !α v else α v

/-- **C56.** Whatever the random choices (an order of the variables, new places of the clauses, signs), shuffling gives a formula over the
same variables in the chosen order whose clause at the new place of a clause is true exactly when that clause is, up to the signs;
it is satisfiable exactly when the old one is. -/
theorem C56_shuffle (F : CNF V) (hF : Proper F.vars F.clauses) (vp : List V) (cp : List Nat) (flip : List Int)
    (hvp : vp.Perm F.vars) (hcp : cp.Perm (List.range F.clauses.length)) (hfl : flip.length = F.vars.length)
    (hs : ∀ s ∈ flip, s = 1 ∨ s = -1) :
    ∃ H, shuffle F vp cp flip = pure H ∧ Proper H.vars H.clauses ∧ H.vars = vp ∧ H.clauses.length = F.clauses.length ∧
      (∀ (i n : Nat) (c : List Int), cp[i]? = some n → F.clauses[i]? = some c → ∃ d, H.clauses[n]? = some d ∧ d.length = c.length ∧
        ∀ α, Holds H.vars [d] α ↔ Holds F.vars [c] (unflip F flip α)) ∧
      (∀ α, Holds H.vars H.clauses α ↔ Holds F.vars F.clauses (unflip F flip α)) ∧
      (Spec.Satisfiable H.clauses ↔ Spec.Satisfiable F.clauses) := by
  have hnd : vp.Nodup := hvp.nodup_iff.2 hF.1
  have hcl : cp.length = F.clauses.length := by rw [hcp.length_eq, List.length_range]
  unfold shuffle
  rw [if_neg (by rw [hvp.length_eq]; simp), if_neg (by rw [hfl]; simp), if_neg (by omega)]
  obtain ⟨G, hG⟩ : ∃ G, G = ({} : CNF V).addVariables vp := ⟨_, rfl⟩
  have hGv : G.vars = vp := by
    rw [hG, CNF.addVariables_vars hnd (by simp)]; rfl
  rw [← hG]
  dsimp only
  rw [mapM_ok (g := fun p => p.2 * ((vp.idxOf p.1 : Int) + 1)) (by
    intro p hp
    have : p.1 ∈ vp := hvp.mem_iff.2 (List.of_mem_zip hp).1
    unfold CNF.index
    rw [hGv, if_pos this]; rfl), M.pure_bind]
  obtain ⟨pos, hpos⟩ : ∃ pos, pos = (F.vars.zip flip).map fun p => p.2 * ((vp.idxOf p.1 : Int) + 1) := ⟨_, rfl⟩
  rw [← hpos]
  have hpl : pos.length = F.vars.length := by rw [hpos, List.length_map, List.length_zip, hfl, Nat.min_self]
  -- the new literal
  obtain ⟨ren, hren⟩ : ∃ ren : Int → Int, ∀ l, ren l = if 0 < l then pos.getD (l.natAbs - 1) 0 else -pos.getD (l.natAbs - 1) 0 := ⟨_, fun _ => rfl⟩
  have hlit : ∀ l : Int, 1 ≤ l.natAbs → l.natAbs ≤ F.vars.length → ∃ x, pos[l.natAbs - 1]? = some x ∧
      (1 ≤ (ren l).natAbs ∧ (ren l).natAbs ≤ vp.length) ∧
      ∀ α : V → Bool, (∃ v, ren l ≠ 0 ∧ vp[(ren l).natAbs - 1]? = some v ∧ α v = decide (0 < ren l)) ↔
        ∃ v, l ≠ 0 ∧ F.vars[l.natAbs - 1]? = some v ∧ unflip F flip α v = decide (0 < l) := by
    intro l h1 h2
    have hlt : l.natAbs - 1 < F.vars.length := by omega
    have hlf : l.natAbs - 1 < flip.length := by omega
    obtain ⟨v, hv⟩ : ∃ v, v = F.vars[l.natAbs - 1] := ⟨_, rfl⟩
    obtain ⟨s, hsg⟩ : ∃ s, s = flip[l.natAbs - 1] := ⟨_, rfl⟩
    have hs1 : s = 1 ∨ s = -1 := hs s (hsg ▸ List.getElem_mem _)
    have hx : pos[l.natAbs - 1]? = some (s * ((vp.idxOf v : Int) + 1)) := by
      rw [hpos, List.getElem?_map, List.getElem?_eq_getElem (by rw [List.length_zip]; omega), List.getElem_zip, ← hv, ← hsg]
      rfl
    have hvm : v ∈ vp := hvp.mem_iff.2 (hv ▸ List.getElem_mem _)
    have hil := List.idxOf_lt_length_of_mem hvm
    have hr : ren l = (if 0 < l then 1 else -1) * (s * ((vp.idxOf v : Int) + 1)) := by
      rw [hren, List.getD_eq_getElem?_getD, hx]
      simp only [Option.getD_some]
      split <;> omega
    have hab : (ren l).natAbs = vp.idxOf v + 1 := by
      rw [hr]
      rcases hs1 with e | e <;> rw [e] <;> split <;> omega
    have hpo : decide (0 < ren l) = (decide (0 < l) == decide (s = 1)) := by
      rw [hr]
      by_cases hp : 0 < l
      · rcases hs1 with e | e <;> simp [e, hp] <;> omega
      · rcases hs1 with e | e <;> simp [e, hp] <;> omega
    refine ⟨_, hx, ⟨by omega, by omega⟩, fun α => ?_⟩
    have e1 : vp[(ren l).natAbs - 1]? = some v := by
      rw [hab, Nat.add_sub_cancel, List.getElem?_eq_getElem hil, List.getElem_idxOf]
    have e2 : F.vars[l.natAbs - 1]? = some v := by rw [List.getElem?_eq_getElem hlt, hv]
    have e3 : unflip F flip α v = if s = -1 then !α v else α v := by
      unfold unflip
      have : F.vars.idxOf v = l.natAbs - 1 := by rw [hv]; exact hF.1.idxOf_getElem _ hlt
      rw [this, List.getD_eq_getElem?_getD, List.getElem?_eq_getElem hlf, ← hsg]
      rfl
    have n1 : ren l ≠ 0 := by intro h; rw [h] at hab; simp at hab
    have n2 : l ≠ 0 := by intro h; rw [h] at h1; simp at h1
    simp only [e1, e2, Option.some.injEq, n1, n2, ne_eq, not_false_eq_true, true_and, exists_eq_left', hpo, e3]
    rcases hs1 with e | e <;> subst e <;> simp <;> cases α v <;> cases decide (0 < l) <;> simp
  have hclause : ∀ c ∈ F.clauses, c.mapM (shuffleLit pos) = (pure (c.map ren) : M _) := by
    intro c hc
    refine mapM_ok fun l hl => ?_
    obtain ⟨x, hx, _⟩ := hlit l (hF.2 c hc l hl).1 (hF.2 c hc l hl).2
    have h12 := hF.2 c hc l hl
    rw [shuffleLit_in h12.1 (by rw [hpl]; exact h12.2), hren]
  have hholds : ∀ c ∈ F.clauses, ∀ α, Holds vp [c.map ren] α ↔ Holds F.vars [c] (unflip F flip α) := by
    intro c hc α
    unfold Holds
    simp only [List.mem_singleton, forall_eq, List.mem_map, exists_exists_and_eq_and]
    refine exists_congr fun l => and_congr_right fun hl => ?_
    obtain ⟨x, _, _, h⟩ := hlit l (hF.2 c hc l hl).1 (hF.2 c hc l hl).2
    exact h α
  have hfst : (cp.zip F.clauses).map Prod.fst = cp := List.map_fst_zip (by omega)
  obtain ⟨out, h1, h2, h3, _⟩ := fill_ok (f := fun c : List Int => c.mapM (shuffleLit pos)) (g := fun c => c.map ren) (cp.zip F.clauses) (List.replicate F.clauses.length none)
    (fun p hp => hclause _ (List.of_mem_zip hp).2) (by rw [hfst]; exact hcp.nodup_iff.2 List.nodup_range)
    (fun p hp => by
      rw [List.length_replicate]; exact List.mem_range.1 (hcp.mem_iff.1 (List.of_mem_zip hp).1))
  rw [List.length_replicate] at h2
  have hplace : ∀ (i n : Nat) (c : List Int), cp[i]? = some n → F.clauses[i]? = some c → out[n]? = some (some (c.map ren)) := by
    intro i n c e1 e2
    exact h3 (n, c) (List.mem_iff_getElem?.2 ⟨i, by rw [List.getElem?_zip_eq_some]; exact ⟨e1, e2⟩⟩)
  have hall : ∀ n (hn : n < out.length), ∃ c ∈ F.clauses, out[n] = some (c.map ren) := by
    intro n hn
    obtain ⟨i, hi⟩ := List.mem_iff_getElem?.1 (hcp.mem_iff.2 (List.mem_range.2 (h2 ▸ hn)))
    have hic : i < F.clauses.length := by
      rw [← hcl]; exact (List.getElem?_eq_some_iff.1 hi).1
    have := hplace i n _ hi (List.getElem?_eq_getElem hic)
    rw [List.getElem?_eq_getElem hn] at this
    exact ⟨_, List.getElem_mem hic, Option.some.inj this⟩
  have hsome : ∀ o ∈ out, orRaise .typeError o = (pure (o.getD []) : M _) := by
    intro o ho
    obtain ⟨n, hn, rfl⟩ := List.mem_iff_getElem.1 ho
    obtain ⟨c, _, e⟩ := hall n hn
    rw [e]; rfl
  rw [h1, M.pure_bind, mapM_ok hsome, M.pure_bind]
  have hmem : ∀ d, d ∈ out.map (fun o => o.getD []) ↔ ∃ c ∈ F.clauses, d = c.map ren := by
    intro d
    constructor
    · intro hd
      obtain ⟨o, ho, rfl⟩ := List.mem_map.1 hd
      obtain ⟨n, hn, rfl⟩ := List.mem_iff_getElem.1 ho
      obtain ⟨c, hc, e⟩ := hall n hn
      exact ⟨c, hc, by rw [e]; rfl⟩
    · rintro ⟨c, hc, rfl⟩
      obtain ⟨i, hi, rfl⟩ := List.mem_iff_getElem.1 hc
      have := hplace i _ _ (List.getElem?_eq_getElem (hcl ▸ hi)) (List.getElem?_eq_getElem hi)
      exact List.mem_map.2 ⟨_, List.mem_iff_getElem?.2 ⟨_, this⟩, rfl⟩
  have hprop : Proper vp (out.map fun o => o.getD []) := by
    refine ⟨hnd, fun d hd l hl => ?_⟩
    obtain ⟨c, hc, rfl⟩ := (hmem d).1 hd
    obtain ⟨m, hm, rfl⟩ := List.mem_map.1 hl
    obtain ⟨x, _, h, _⟩ := hlit m (hF.2 c hc m hm).1 (hF.2 c hc m hm).2
    exact h
  have hH : ∀ α, Holds vp (out.map fun o => o.getD []) α ↔ Holds F.vars F.clauses (unflip F flip α) := by
    intro α
    constructor
    · intro h c hc
      have := (hholds c hc α).1 (by
        intro d hd
        rw [List.mem_singleton] at hd
        exact h d ((hmem d).2 ⟨c, hc, hd⟩))
      exact this c (by simp)
    · intro h d hd
      obtain ⟨c, hc, rfl⟩ := (hmem d).1 hd
      have := (hholds c hc α).2 (by
        intro d hd
        rw [List.mem_singleton] at hd
        exact h d (hd ▸ hc))
      exact this _ (by simp)
  refine ⟨⟨vp, out.map fun o => o.getD []⟩, ?_, hprop, rfl, by simp [h2], ?_, hH, ?_⟩
  · rw [hGv]
    exact if_pos (CNF.coherent_iff.2 hprop)
  · intro i n c e1 e2
    have hc : c ∈ F.clauses := List.mem_iff_getElem?.2 ⟨i, e2⟩
    exact ⟨c.map ren, by simp [hplace i n c e1 e2], by simp, hholds c hc⟩
  · rw [Proper.sat (F := ⟨vp, out.map fun o => o.getD []⟩) hprop, hF.sat]
    constructor
    · rintro ⟨α, h⟩; exact ⟨_, (hH α).1 h⟩
    · rintro ⟨β, h⟩
      refine ⟨unflip F flip β, (hH _).2 ?_⟩
      have : unflip F flip (unflip F flip β) = β := by
        funext v; unfold unflip; split <;> simp
      rw [this]; exact h

/-- What becomes of a literal with a number above the number `n` of variables: it counts from the other end of the list. -/
def wrapLit (n : Nat) (l : Int) : Int := if (n : Int) < l then l - (2 * n + 1) else if l < -(n : Int) then l + (2 * n + 1) else l

omit [DecidableEq V] in
theorem shuffleLit_wrap {pos : List Int} {l : Int} (h1 : 1 ≤ l.natAbs) (h2 : l.natAbs ≤ 2 * pos.length) :
    shuffleLit pos l = shuffleLit pos (wrapLit pos.length l) := by
  have hlen : (none :: (pos.map some ++ (pos.map fun x => some (-x)).reverse)).length = 2 * pos.length + 1 := by
    simp only [List.length_cons, List.length_append, List.length_map, List.length_reverse]; omega
  have hi : (if l < 0 then l + ((2 * pos.length + 1 : Nat) : Int) else l) =
      if wrapLit pos.length l < 0 then wrapLit pos.length l + ((2 * pos.length + 1 : Nat) : Int) else wrapLit pos.length l := by
    unfold wrapLit; split_ifs <;> push_cast <;> omega
  unfold shuffleLit
  simp only [hlen]
  rw [hi]

/-- **C56, false for literals out of range.** `Shuffle` does not look whether the numbers in the clauses belong to variables (`dimacs2cnf` lets
them pass): a number up to twice the number of variables is silently taken for the negation of some variable. -/
theorem C56_out_of_range (F : CNF V) (vp : List V) (cp : List Nat) (flip : List Int)
    (h : ∀ c ∈ F.clauses, ∀ l ∈ c, 1 ≤ l.natAbs ∧ l.natAbs ≤ 2 * F.vars.length) (hvp : vp.Perm F.vars) (hfl : flip.length = F.vars.length) (hn : F.vars.Nodup) :
    shuffle F vp cp flip = shuffle { F with clauses := F.clauses.map fun c => c.map (wrapLit F.vars.length) } vp cp flip := by
  have hnd : vp.Nodup := hvp.nodup_iff.2 hn
  unfold shuffle
  simp only [List.length_map]
  rw [if_neg (by rw [hvp.length_eq]; simp), if_neg (by rw [hfl]; simp)]
  split
  · rw [if_neg (by rw [hvp.length_eq]; simp), if_neg (by rw [hfl]; simp)]
  rw [if_neg (by rw [hvp.length_eq]; simp), if_neg (by rw [hfl]; simp)]
  have hGv : (({} : CNF V).addVariables vp).vars = vp := by
    rw [CNF.addVariables_vars hnd (by simp)]; rfl
  have hidx : ((F.vars.zip flip).mapM fun p => do let i ← (({} : CNF V).addVariables vp).index p.1; pure (p.2 * i) : M _) =
      pure ((F.vars.zip flip).map fun p => p.2 * ((vp.idxOf p.1 : Int) + 1)) := mapM_ok (by
    intro p hp
    have : p.1 ∈ vp := hvp.mem_iff.2 (List.of_mem_zip hp).1
    unfold CNF.index
    rw [hGv, if_pos this]; rfl)
  rw [hidx, M.pure_bind, M.pure_bind]
  have hpl : ((F.vars.zip flip).map fun p => p.2 * ((vp.idxOf p.1 : Int) + 1)).length = F.vars.length := by
    rw [List.length_map, List.length_zip, hfl, Nat.min_self]
  generalize ((F.vars.zip flip).map fun p => p.2 * ((vp.idxOf p.1 : Int) + 1)) = pos at hpl
  have hfold : ∀ (cs : List (List Int)), (∀ c ∈ cs, ∀ l ∈ c, 1 ≤ l.natAbs ∧ l.natAbs ≤ 2 * F.vars.length) → ∀ (cp : List Nat) (out : List (Option (List Int))),
      (cp.zip cs).foldlM (fun (out : List (Option (List Int))) (p : Nat × List Int) => do
          let c ← p.2.mapM (shuffleLit pos)
          if p.1 < out.length then pure (out.set p.1 (some c)) else raise .indexError) out =
      ((cp.zip (cs.map fun c => c.map (wrapLit F.vars.length))).foldlM (fun (out : List (Option (List Int))) (p : Nat × List Int) => do
          let c ← p.2.mapM (shuffleLit pos)
          if p.1 < out.length then pure (out.set p.1 (some c)) else raise .indexError) out : M _) := by
    intro cs
    induction cs with
    | nil => intro _ cp out; simp
    | cons c cs ih =>
      intro hc cp out
      cases cp with
      | nil => simp
      | cons n cp =>
        have hm : c.mapM (shuffleLit pos) = (c.map (wrapLit F.vars.length)).mapM (shuffleLit pos) := by
          rw [List.mapM_map]
          have : ∀ ls : List Int, (∀ l ∈ ls, 1 ≤ l.natAbs ∧ l.natAbs ≤ 2 * F.vars.length) →
              ls.mapM (shuffleLit pos) = (ls.mapM (shuffleLit pos ∘ wrapLit F.vars.length) : M _) := by
            intro ls
            induction ls with
            | nil => intro _; rfl
            | cons l ls ihl =>
              intro hl
              rw [List.mapM_cons, List.mapM_cons, ihl (fun x hx => hl x (by simp [hx])), Function.comp, ← hpl,
                ← shuffleLit_wrap (hl l (by simp)).1 (by rw [hpl]; exact (hl l (by simp)).2)]
          exact this c (hc c (by simp))
        rw [List.map_cons, List.zip_cons_cons, List.zip_cons_cons, List.foldlM_cons, List.foldlM_cons]
        simp only
        rw [← hm]
        congr 1
        funext out'
        exact ih (fun c' h' => hc c' (by simp [h'])) cp out'
  rw [hfold F.clauses h cp]

/-- **C56, refuted for literals out of range.** Whatever is chosen, the clauses `x` and `y` announced as a formula in one variable become
`x` and `not x`. -/
theorem C56_out_of_range_refuted (vp : List Nat) (cp : List Nat) (flip : List Int) (hvp : vp.Perm [1]) (hcp : cp.Perm [0, 1])
    (hfl : flip = [1] ∨ flip = [-1]) :
    dimacs2cnf "p cnf 1 2\n1 0\n2 0\n".toList = pure ([], ⟨[1], [[1], [2]]⟩) ∧ Spec.Satisfiable [[1], [2]] ∧
    ∃ H, shuffle (⟨[1], [[1], [2]]⟩ : CNF Nat) vp cp flip = pure H ∧ ¬ Spec.Satisfiable H.clauses := by
  have hl : flip.length = 1 := by rcases hfl with h | h <;> rw [h] <;> rfl
  refine ⟨by rfl, ⟨fun _ => true, by simp [Spec.Sat, Spec.litVal]⟩, ?_⟩
  have hs : ∀ s ∈ flip, s = 1 ∨ s = -1 := by rcases hfl with h | h <;> rw [h] <;> simp
  rw [C56_out_of_range (⟨[1], [[1], [2]]⟩ : CNF Nat) vp cp flip (by decide) hvp hl (by decide)]
  obtain ⟨H, e, _, _, _, _, _, h⟩ := C56_shuffle (⟨[1], [[1], [-1]]⟩ : CNF Nat) ⟨by decide, by decide⟩ vp cp flip hvp hcp hl hs
  refine ⟨H, e, fun hsat => ?_⟩
  obtain ⟨τ, hτ⟩ := h.1 hsat
  simp [Spec.Sat, Spec.litVal] at hτ

/-- Two clauses over two variables, swapped, with the first sign flipped. -/
example : shuffle (⟨["x", "y"], [[1, -2], [2]]⟩ : CNF String) ["y", "x"] [1, 0] [-1, 1] = pure ⟨["y", "x"], [[1], [-2, -1]]⟩ ∧
    ∃ H, shuffle (⟨["x", "y"], [[1, -2], [2]]⟩ : CNF String) ["y", "x"] [1, 0] [-1, 1] = pure H ∧ Spec.Satisfiable H.clauses := by
  refine ⟨by rfl, ?_⟩
  obtain ⟨H, h1, _, _, _, _, _, h⟩ := C56_shuffle (⟨["x", "y"], [[1, -2], [2]]⟩ : CNF String) ⟨by decide, by decide⟩ ["y", "x"] [1, 0] [-1, 1]
    (by decide) (by decide) rfl (by decide)
  exact ⟨H, h1, h.2 ⟨fun _ => true, by simp [Spec.Sat, Spec.litVal]⟩⟩
end
end NDP.Cnfgen
