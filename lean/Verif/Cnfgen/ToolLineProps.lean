import Verif.Cnfgen.ToolLineSpec
import Verif.Cnfgen.CommandLine
/-
  C102: the text tools of cnfgen from the words of their command lines.
-/
namespace NDP.Cnfgen
open NDP

/-! ### specification -/

/-- The documented names (`--help`). -/
def ToolOpt.names : ToolOpt → List Str
  | .help => ["--help".toList, "-h".toList]
  | .output => ["--output".toList, "-o".toList]
  | .seed => ["--seed".toList, "-S".toList]
  | .input => ["--input".toList, "-i".toList]
  | .noFlips => ["--no-polarity-flips".toList, "-p".toList]
  | .noVars => ["--no-variables-permutation".toList, "-v".toList]
  | .noClauses => ["--no-clauses-permutation".toList, "-c".toList]
  | .quiet => ["--quiet".toList, "-q".toList]

/-- The options of `cnfshuffle`: all. -/
def ShuffleName (n : Str) (o : ToolOpt) : Prop := n ∈ o.names

/-- The options of `dimacstransform` and `kthlist2pebbling`. -/
def TextName (n : Str) (o : ToolOpt) : Prop := n ∈ o.names ∧ (o = .help ∨ o = .input ∨ o = .output ∨ o = .quiet)

/-- The options with a value. -/
def WantsValue (o : ToolOpt) : Prop := o = .output ∨ o = .seed ∨ o = .input

/-- The option is among the given ones. -/
def Given (o : ToolOpt) (is : List (ToolOpt × Str)) : Prop := ∃ v, (o, v) ∈ is

/-- The last value given for an option. -/
def lastGiven (o : ToolOpt) : List (ToolOpt × Str) → Option Str
  | [] => none
  | (o', v) :: is => match lastGiven o is with
    | some u => some u
    | none => if o' = o then some v else none

/-- No help is asked for, no file is to be read, and the files to be written can be opened. -/
structure FilesOk (env : CmdEnv) (is : List (ToolOpt × Str)) : Prop where
  help : ¬ Given .help is
  input : ∀ v, (ToolOpt.input, v) ∈ is → v = "-".toList
  output : ∀ v, (ToolOpt.output, v) ∈ is → v = "-".toList ∨ env.canOpen v = true

/-- The result goes to the standard output. -/
def ToStdout (is : List (ToolOpt × Str)) : Prop := ∀ v, lastGiven .output is = some v → v = "-".toList

open Classical in
/-- Where the result goes. -/
noncomputable def sinkAsked (env : CmdEnv) (is : List (ToolOpt × Str)) : Sink := if ToStdout is then env.dash else .binary

/-- The seed that counts: the last one; the empty one is none. -/
def seedAsked (is : List (ToolOpt × Str)) : Option Str := match lastGiven .seed is with
  | some [] => none
  | s => s

/-! ### shuffling, exactly -/

section
variable {V : Type} [DecidableEq V]

/-- What shuffling does to clauses and literals. -/
theorem shuffle_exact (F : CNF V) (hF : Proper F.vars F.clauses) (vp : List V) (cp : List Nat) (flip : List Int)
    (hvp : vp.Perm F.vars) (hcp : cp.Perm (List.range F.clauses.length)) (hfl : flip.length = F.vars.length) (hs : ∀ s ∈ flip, s = 1 ∨ s = -1) :
    ∃ H, shuffle F vp cp flip = pure H ∧ Proper H.vars H.clauses ∧ H.vars = vp ∧ H.clauses.length = F.clauses.length ∧ (Spec.Satisfiable H.clauses ↔ Spec.Satisfiable F.clauses) ∧
      ∃ ren : Int → Int, (∀ (i n : Nat) (c : List Int), cp[i]? = some n → F.clauses[i]? = some c → H.clauses[n]? = some (c.map ren)) ∧
        ∀ (l s : Int) (v : V), F.vars[l.natAbs - 1]? = some v → flip[l.natAbs - 1]? = some s → ren l = (if 0 < l then 1 else -1) * (s * ((vp.idxOf v : Int) + 1)) := by
  obtain ⟨H, e, h1, h2, h3, _, _, h6⟩ := C56_shuffle F hF vp cp flip hvp hcp hfl hs
  refine ⟨H, e, h1, h2, h3, h6, ?_⟩
  have hnd : vp.Nodup := hvp.nodup_iff.2 hF.1
  have hcl : cp.length = F.clauses.length := by rw [hcp.length_eq, List.length_range]
  unfold shuffle at e
  rw [if_neg (by rw [hvp.length_eq]; simp), if_neg (by rw [hfl]; simp), if_neg (by omega)] at e
  obtain ⟨G, hG⟩ : ∃ G, G = ({} : CNF V).addVariables vp := ⟨_, rfl⟩
  have hGv : G.vars = vp := by
    rw [hG, CNF.addVariables_vars hnd (by simp)]; rfl
  rw [← hG] at e
  dsimp only at e
  rw [mapM_ok (g := fun p => p.2 * ((vp.idxOf p.1 : Int) + 1)) (by
    intro p hp
    have : p.1 ∈ vp := hvp.mem_iff.2 (List.of_mem_zip hp).1
    unfold CNF.index
    rw [hGv, if_pos this]; rfl), M.pure_bind] at e
  obtain ⟨pos, hpos⟩ : ∃ pos, pos = (F.vars.zip flip).map fun p => p.2 * ((vp.idxOf p.1 : Int) + 1) := ⟨_, rfl⟩
  rw [← hpos] at e
  have hpl : pos.length = F.vars.length := by rw [hpos, List.length_map, List.length_zip, hfl, Nat.min_self]
  obtain ⟨ren, hren⟩ : ∃ ren : Int → Int, ∀ l, ren l = if 0 < l then pos.getD (l.natAbs - 1) 0 else -pos.getD (l.natAbs - 1) 0 := ⟨_, fun _ => rfl⟩
  have hclause : ∀ c ∈ F.clauses, c.mapM (shuffleLit pos) = (pure (c.map ren) : M _) := by
    intro c hc
    refine mapM_ok fun l hl => ?_
    have h12 := hF.2 c hc l hl
    rw [shuffleLit_in h12.1 (by rw [hpl]; exact h12.2), hren]
  have hfst : (cp.zip F.clauses).map Prod.fst = cp := List.map_fst_zip (by omega)
  obtain ⟨out, k1, k2, k3, _⟩ := fill_ok (f := fun c : List Int => c.mapM (shuffleLit pos)) (g := fun c => c.map ren) (cp.zip F.clauses) (List.replicate F.clauses.length none)
    (fun p hp => hclause _ (List.of_mem_zip hp).2) (by rw [hfst]; exact hcp.nodup_iff.2 List.nodup_range)
    (fun p hp => by
      rw [List.length_replicate]; exact List.mem_range.1 (hcp.mem_iff.1 (List.of_mem_zip hp).1))
  rw [List.length_replicate] at k2
  have hplace : ∀ (i n : Nat) (c : List Int), cp[i]? = some n → F.clauses[i]? = some c → out[n]? = some (some (c.map ren)) := by
    intro i n c e1 e2
    exact k3 (n, c) (List.mem_iff_getElem?.2 ⟨i, by rw [List.getElem?_zip_eq_some]; exact ⟨e1, e2⟩⟩)
  have hsome : ∀ o ∈ out, orRaise .typeError o = (pure (o.getD []) : M _) := by
    intro o ho
    obtain ⟨n, hn, rfl⟩ := List.mem_iff_getElem.1 ho
    obtain ⟨i, hi⟩ := List.mem_iff_getElem?.1 (hcp.mem_iff.2 (List.mem_range.2 (k2 ▸ hn)))
    have hic : i < F.clauses.length := by
      rw [← hcl]; exact (List.getElem?_eq_some_iff.1 hi).1
    have := hplace i n _ hi (List.getElem?_eq_getElem hic)
    rw [List.getElem?_eq_getElem hn] at this
    rw [Option.some.inj this]; rfl
  rw [k1, M.pure_bind, mapM_ok hsome, M.pure_bind] at e
  have hHc : H.clauses = out.map fun o => o.getD [] := by
    split at e
    · have := (M.pure_inj _ _).1 e
      rw [← this]
    · cases e
  refine ⟨ren, ?_, ?_⟩
  · intro i n c e1 e2
    rw [hHc, List.getElem?_map, hplace i n c e1 e2]
    rfl
  · intro l s v e1 e2
    have hx : pos[l.natAbs - 1]? = some (s * ((vp.idxOf v : Int) + 1)) := by
      rw [hpos, List.getElem?_map, (List.getElem?_zip_eq_some (z := (v, s))).2 ⟨e1, e2⟩]
      rfl
    rw [hren, List.getD_eq_getElem?_getD, hx]
    simp only [Option.getD_some]
    split <;> omega
end

/-- The number of a variable in the standard numbering. -/
theorem oneTo_at {n i : Nat} (h : i < n) : (oneTo n)[i]? = some (i + 1) := by
  simp [oneTo, List.getElem?_map, h]

theorem oneTo_idx {n i : Nat} (h : i < n) : (oneTo n).idxOf (i + 1) = i := by
  have hnd : (oneTo n).Nodup := by
    unfold oneTo
    exact List.nodup_range.map fun a b hab => by simpa using hab
  have h1 : (oneTo n)[i]? = some (i + 1) := oneTo_at h
  obtain ⟨h2, h3⟩ := List.getElem?_eq_some_iff.1 h1
  conv_lhs => rw [← h3]
  exact hnd.idxOf_getElem _ h2

/-- `ds` is the list `cs` of clauses over `n` variables with the clauses in other places and the variables renamed and negated throughout. -/
structure Reshuffled (n : Nat) (noFlips noVars noClauses : Prop) (cs ds : List (List Int)) (place : List Nat) (ren : Int → Int) : Prop where
  perm : place.Perm (List.range cs.length)
  length : ds.length = cs.length
  /-- every clause is in its new place, with the literals renamed, in the old order -/
  clause : ∀ (i k : Nat) (c : List Int), place[i]? = some k → cs[i]? = some c → ds[k]? = some (c.map ren)
  range : ∀ l : Int, 1 ≤ l.natAbs → l.natAbs ≤ n → 1 ≤ (ren l).natAbs ∧ (ren l).natAbs ≤ n
  neg : ∀ l : Int, 1 ≤ l.natAbs → l.natAbs ≤ n → ren (-l) = -ren l
  inj : ∀ l m : Int, 1 ≤ l.natAbs → l.natAbs ≤ n → 1 ≤ m.natAbs → m.natAbs ≤ n → ren l = ren m → l = m
  /-- without polarity flips -/
  flips : noFlips → ∀ l : Int, 1 ≤ l.natAbs → l.natAbs ≤ n → (0 < ren l ↔ 0 < l)
  /-- without permutation of the variables -/
  vars : noVars → ∀ l : Int, 1 ≤ l.natAbs → l.natAbs ≤ n → (ren l).natAbs = l.natAbs
  /-- without permutation of the clauses -/
  clauses : noClauses → place = List.range cs.length

/-- Without any of the three changes the formula stays as it is. -/
theorem Reshuffled.same {n : Nat} {a b c : Prop} {cs ds : List (List Int)} {place : List Nat} {ren : Int → Int} (h : Reshuffled n a b c cs ds place ren) (ha : a) (hb : b) (hc : c)
    (hr : ∀ c ∈ cs, ∀ l ∈ c, 1 ≤ l.natAbs ∧ l.natAbs ≤ n) : ds = cs := by
  have hren : ∀ l : Int, 1 ≤ l.natAbs → l.natAbs ≤ n → ren l = l := by
    intro l h1 h2
    have e1 := h.flips ha l h1 h2
    have e2 := h.vars hb l h1 h2
    omega
  refine List.ext_getElem h.length fun i h1 h2 => ?_
  have := h.clause i i cs[i] (by rw [h.clauses hc]; simp [h2]) (List.getElem?_eq_getElem h2)
  rw [List.getElem?_eq_getElem h1] at this
  rw [Option.some.inj this]
  have hid : cs[i].map ren = cs[i].map id := List.map_congr_left fun l hl => hren l (hr _ (List.getElem_mem h2) l hl).1 (hr _ (List.getElem_mem h2) l hl).2
  rw [hid, List.map_id]

/-- **C102** (what `cnfshuffle` changes)  The formula printed has the clauses of the given one in new places, with the variables renamed and negated throughout, and each of the three
flags keeps what it names. -/
theorem C102_changes (verbose p v c : Bool) (vs cs : Nat → List Nat) (signs : Nat → List Int) (hT : (Trans.shuffle p v c vs cs signs).Chance)
    {text h : Str} {F : CNF Nat} (e : dimacs2cnf text = pure (h, F)) (hr : ∀ c ∈ F.clauses, ∀ l ∈ c, l.natAbs ≤ F.vars.length) :
    ∃ out ds place ren, cnfshuffle verbose (.stdin text) .text p v c vs cs signs = pure (some out) ∧ Prints out F.vars.length ds ∧
      (Spec.Satisfiable ds ↔ Spec.Satisfiable F.clauses) ∧ Reshuffled F.vars.length (p = true) (v = true) (c = true) F.clauses ds place ren ∧
      (∀ c ∈ F.clauses, ∀ l ∈ c, 1 ≤ l.natAbs) := by
  obtain ⟨n, cls, _, hv, hc, hp, _⟩ := C70_reader_range e
  have hF : Cnfgen.Proper F.vars F.clauses := by
    refine hp fun c hc' l hl => ?_
    have := hr c (hc ▸ hc') l hl
    rwa [hv, length_oneTo] at this
  obtain ⟨h1, h2, h3, h4⟩ := hT F.vars.length F.clauses.length
  obtain ⟨vp, hvpd⟩ : ∃ vp, vp = (if v = true then F.vars else (vs F.vars.length).filterMap (F.vars[·]?)) := ⟨_, rfl⟩
  obtain ⟨fl, hfld⟩ : ∃ fl, fl = (if p = true then List.replicate F.vars.length 1 else signs F.vars.length) := ⟨_, rfl⟩
  obtain ⟨cp, hcpd⟩ : ∃ cp, cp = (if c = true then List.range F.clauses.length else cs F.clauses.length) := ⟨_, rfl⟩
  have hvp : vp.Perm F.vars := by
    rw [hvpd]
    cases v
    · exact order_perm h1
    · exact .refl _
  have hcp : cp.Perm (List.range F.clauses.length) := by
    rw [hcpd]
    cases c
    · exact h2
    · exact .refl _
  have hfl : fl.length = F.vars.length := by rw [hfld]; cases p <;> simp [h3]
  have hfs : ∀ s ∈ fl, s = 1 ∨ s = -1 := by
    rw [hfld]
    cases p
    · exact h4
    · intro s hs; simp only [if_true] at hs; exact .inl (List.eq_of_mem_replicate hs)
  obtain ⟨H, e1, p1, hHv, hlen, hsat, ren, hr1, hr2⟩ := shuffle_exact F hF _ _ _ hvp hcp hfl hfs
  obtain ⟨out, k1, k2⟩ := prints (if verbose then some ("Reshuffling of:\n\n".toList ++ h, none) else none) p1
  have hn : F.vars.length = n.toNat := by rw [hv, length_oneTo]
  -- the sign and the place of a variable
  have key : ∀ l : Int, 1 ≤ l.natAbs → l.natAbs ≤ F.vars.length → ∃ s : Int, (s = 1 ∨ s = -1) ∧ (p = true → s = 1) ∧
      fl[l.natAbs - 1]? = some s ∧
      ren l = (if 0 < l then 1 else -1) * (s * ((vp.idxOf l.natAbs : Int) + 1)) ∧
      vp.idxOf l.natAbs < F.vars.length := by
    intro l l1 l2
    have hlt : l.natAbs - 1 < fl.length := by rw [hfl]; omega
    have hvl : F.vars[l.natAbs - 1]? = some l.natAbs := by
      rw [hv, oneTo_at (by omega)]
      congr 1; omega
    refine ⟨_, hfs _ (List.getElem_mem hlt), ?_, List.getElem?_eq_getElem hlt, hr2 l _ _ hvl (List.getElem?_eq_getElem hlt), ?_⟩
    · rintro rfl
      simp [hfld]
    · rw [← hvp.length_eq]
      exact List.idxOf_lt_length_of_mem (hvp.mem_iff.2 (List.mem_iff_getElem?.2 ⟨_, hvl⟩))
  refine ⟨out, H.clauses, cp, ren, ?_, ?_, hsat, ?_, fun c hc l hl => (hF.2 c hc l hl).1⟩
  · unfold cnfshuffle shuffleArgs
    simp only [Input.open]
    rw [e, M.pure_bind]
    simp only []
    rw [← hvpd, ← hfld, ← hcpd, e1, M.pure_bind, k1, M.pure_bind]
    rfl
  · rw [hHv, hvp.length_eq] at k2; exact k2
  · refine ⟨hcp, hlen, hr1, ?_, ?_, ?_, ?_, ?_, ?_⟩
    · intro l l1 l2
      obtain ⟨s, s1, _, _, s2, s3⟩ := key l l1 l2
      have : (ren l).natAbs = vp.idxOf l.natAbs + 1 := by
        rw [s2]; rcases s1 with rfl | rfl <;> split <;> omega
      omega
    · intro l l1 l2
      obtain ⟨s, s1, _, s4, s2, s3⟩ := key l l1 l2
      obtain ⟨s', t1, _, t4, t2, t3⟩ := key (-l) (by omega) (by omega)
      rw [Int.natAbs_neg] at t4 t2
      obtain rfl : s' = s := Option.some.inj (t4.symm.trans s4)
      rw [s2, t2]
      rcases s1 with rfl | rfl <;> split <;> split <;> omega
    · intro l m l1 l2 m1 m2 heq
      obtain ⟨s, s1, _, s4, s2, s3⟩ := key l l1 l2
      obtain ⟨s', t1, _, t4, t2, t3⟩ := key m m1 m2
      have hab : vp.idxOf l.natAbs =
          vp.idxOf m.natAbs := by
        have a1 : (ren l).natAbs = vp.idxOf l.natAbs + 1 := by
          rw [s2]; rcases s1 with rfl | rfl <;> split <;> omega
        have a2 : (ren m).natAbs = vp.idxOf m.natAbs + 1 := by
          rw [t2]; rcases t1 with rfl | rfl <;> split <;> omega
        rw [heq] at a1
        omega
      have hmem : l.natAbs ∈ vp := by
        rw [← hvp.length_eq] at s3
        exact List.idxOf_lt_length_iff.1 s3
      have hlm : l.natAbs = m.natAbs := (List.idxOf_inj hmem).1 hab
      rw [hlm] at s4 s2 
      obtain rfl : s' = s := Option.some.inj (t4.symm.trans s4)
      rw [s2, t2] at heq
      rcases s1 with rfl | rfl <;> split at heq <;> split at heq <;> omega
    · intro hpp l l1 l2
      obtain ⟨s, _, s0, _, s2, s3⟩ := key l l1 l2
      rw [s2, s0 hpp]
      split <;> omega
    · intro hvv l l1 l2
      obtain ⟨s, s1, _, _, s2, s3⟩ := key l l1 l2
      rw [if_pos hvv] at hvpd
      rw [s2, hvpd, hv]
      have : (oneTo n.toNat).idxOf l.natAbs = l.natAbs - 1 := by
        have := oneTo_idx (n := n.toNat) (i := l.natAbs - 1) (by omega)
        rwa [show l.natAbs - 1 + 1 = l.natAbs by omega] at this
      rw [this]
      rcases s1 with rfl | rfl <;> split <;> omega
    · intro hcc
      rw [hcpd, if_pos hcc]

/-! ### the tables -/

theorem wants_eq : (fun o => ToolOpt.takes o = true) = WantsValue := by
  funext o
  cases o <;> simp [ToolOpt.takes, WantsValue]

theorem shuffle_mem (n : Str) (o : ToolOpt) : ShuffleName n o ↔ (n, o) ∈ shuffleToolOptions := by
  cases o <;> simp [ShuffleName, ToolOpt.names, shuffleToolOptions, or_comm]

theorem text_mem (n : Str) (o : ToolOpt) : TextName n o ↔ (n, o) ∈ textToolOptions := by
  cases o <;> simp [TextName, ToolOpt.names, textToolOptions, or_comm]

theorem tidy_shape {α : Type} {l : List (Str × α)} (h : (l.all fun o => match o.1 with
    | ['-', c] => decide (c ≠ '-' ∧ c ≠ '=')
    | '-' :: '-' :: _ :: _ => decide ('=' ∉ o.1)
    | _ => false) = true) : ∀ o ∈ l, (∃ c, o.1 = ['-', c] ∧ c ≠ '-' ∧ c ≠ '=') ∨ (∃ c t, o.1 = '-' :: '-' :: c :: t ∧ '=' ∉ o.1) := by
  intro o ho
  have := List.all_eq_true.1 h o ho
  split at this
  · rename_i c e
    exact .inl ⟨c, e, by simpa using this⟩
  · rename_i e
    exact .inr ⟨_, _, e, by simpa using this⟩
  · cases this

theorem shuffle_tidy : Tidy shuffleToolOptions ShuffleName := ⟨shuffle_mem, tidy_shape (by decide), by decide⟩
theorem text_tidy : Tidy textToolOptions TextName := ⟨text_mem, tidy_shape (by decide), by decide⟩

theorem given_spec (o : ToolOpt) (is : List (ToolOpt × Str)) : toolGiven o is = true ↔ Given o is := by
  unfold toolGiven Given
  rw [List.any_eq_true]
  constructor
  · rintro ⟨⟨o', v⟩, h1, h2⟩
    exact ⟨v, (of_decide_eq_true h2 : o' = o) ▸ h1⟩
  · rintro ⟨v, h⟩
    exact ⟨_, h, by simp⟩

theorem values_spec (o : ToolOpt) (is : List (ToolOpt × Str)) (v : Str) : v ∈ toolValues o is ↔ (o, v) ∈ is := by
  unfold toolValues
  rw [List.mem_map]
  constructor
  · rintro ⟨⟨o', v'⟩, h1, rfl⟩
    obtain ⟨h1, h2⟩ := List.mem_filter.1 h1
    exact (of_decide_eq_true h2 : o' = o) ▸ h1
  · intro h
    exact ⟨_, List.mem_filter.2 ⟨h, by simp⟩, rfl⟩

theorem last_spec (o : ToolOpt) : ∀ is : List (ToolOpt × Str), (toolValues o is).getLast? = lastGiven o is
  | [] => rfl
  | (o', v) :: is => by
    have ih := last_spec o is
    rw [lastGiven, ← ih]
    unfold toolValues at *
    by_cases h : o' = o
    · rw [List.filter_cons_of_pos (by simp [h]), List.map_cons, List.getLast?_cons, if_pos h]
      cases ((is.filter fun e => decide (e.1 = o)).map (·.2)).getLast? <;> rfl
    · rw [List.filter_cons_of_neg (by simp [h]), if_neg h]
      cases ((is.filter fun e => decide (e.1 = o)).map (·.2)).getLast? <;> rfl

theorem seed_spec (is : List (ToolOpt × Str)) : toolSeed is = seedAsked is := by
  unfold toolSeed seedAsked
  rw [last_spec]
  cases lastGiven .seed is with
  | none => rfl
  | some s => cases s <;> rfl

open Classical in
theorem files_spec (env : CmdEnv) (is : List (ToolOpt × Str)) : toolFiles env is = if FilesOk env is then some (sinkAsked env is) else none := by
  have hf : FilesOk env is ↔ toolGiven .help is = false ∧ ((toolValues .input is).any fun v => decide (v ≠ "-".toList)) = false ∧
      ((toolValues .output is).any fun v => decide (v ≠ "-".toList) && !env.canOpen v) = false := by
    constructor
    · rintro ⟨h1, h2, h3⟩
      refine ⟨Bool.eq_false_iff.2 fun h => h1 ((given_spec _ _).1 h), List.any_eq_false.2 fun v hv => ?_, List.any_eq_false.2 fun v hv => ?_⟩
      · simpa using h2 v ((values_spec _ _ _).1 hv)
      · rcases h3 v ((values_spec _ _ _).1 hv) with h | h <;> simp [h]
    · rintro ⟨h1, h2, h3⟩
      refine ⟨fun h => ?_, fun v hv => ?_, fun v hv => ?_⟩
      · rw [(given_spec _ _).2 h] at h1; cases h1
      · have := List.any_eq_false.1 h2 v ((values_spec _ _ _).2 hv)
        simpa using this
      · have := List.any_eq_false.1 h3 v ((values_spec _ _ _).2 hv)
        by_cases hv : v = "-".toList
        · exact .inl hv
        · right
          have hv' : decide (v ≠ "-".toList) = true := by simpa using hv
          rw [hv'] at this
          simpa using this
  have hsink : (if (toolValues .output is).getLast?.getD "-".toList = "-".toList then env.dash else .binary) = sinkAsked env is := by
    unfold sinkAsked ToStdout
    rw [last_spec]
    cases lastGiven .output is with
    | none => simp
    | some v => simp
  unfold toolFiles
  rw [hsink]
  by_cases hok : FilesOk env is
  · obtain ⟨h1, h2, h3⟩ := hf.1 hok
    rw [if_pos hok, h1, h2, h3]
    rfl
  · rw [if_neg hok]
    split
    · rfl
    · rename_i h1
      split
      · rfl
      · rename_i h2
        split
        · rfl
        · rename_i h3
          exact absurd (hf.2 ⟨by simpa using h1, Bool.eq_false_iff.2 h2, Bool.eq_false_iff.2 h3⟩) hok

/-! ### cnfshuffle -/

/-- **C102** (a command line has at most one reading) -/
theorem C102_unique {ws rest rest' : List Str} {is is' : List (ToolOpt × Str)} :
    (ReadsAs ShuffleName WantsValue ws is rest → ReadsAs ShuffleName WantsValue ws is' rest' → is = is' ∧ rest = rest') ∧
    (ReadsAs TextName WantsValue ws is rest → ReadsAs TextName WantsValue ws is' rest' → is = is' ∧ rest = rest') := by
  constructor
  · intro h1 h2
    rw [← wants_eq] at h1 h2
    have := ((shuffle_tidy.leading_iff ws is rest).2 h1).symm.trans ((shuffle_tidy.leading_iff ws is' rest').2 h2)
    simpa using this
  · intro h1 h2
    rw [← wants_eq] at h1 h2
    have := ((text_tidy.leading_iff ws is rest).2 h1).symm.trans ((text_tidy.leading_iff ws is' rest').2 h2)
    simpa using this

open Classical in
/-- **C102** (the command line of `cnfshuffle`)  Words that can be read as options (in any order, with any of the spellings) with nothing left over, without `-h`, without a file to read
and with files that can be opened, run the tool with the options they give; all other words print a message and nothing else. -/
theorem C102_cnfshuffle (env : CmdEnv) (stdin : Str) (ws : List Str) (_ : "--".toList ∉ ws) :
    (∀ is, ReadsAs ShuffleName WantsValue ws is [] → FilesOk env is → cnfshuffleMain env stdin ws =
      cnfshuffle (decide (¬ Given .quiet is)) (.stdin stdin) (sinkAsked env is) (decide (Given .noFlips is)) (decide (Given .noVars is)) (decide (Given .noClauses is))
        (env.vs (seedAsked is)) (env.cs (seedAsked is)) (env.signs (seedAsked is))) ∧
    ((∀ is, ReadsAs ShuffleName WantsValue ws is [] → ¬ FilesOk env is) → cnfshuffleMain env stdin ws = pure none) := by
  have hg : ∀ o is, toolGiven o is = decide (Given o is) := fun o is => by
    by_cases h : Given o is
    · rw [(given_spec o is).2 h, decide_eq_true h]
    · rw [decide_eq_false h]
      exact Bool.eq_false_iff.2 fun h' => h ((given_spec o is).1 h')
  constructor
  · intro is hr hf
    have hp : parseMain shuffleToolOptions ToolOpt.takes ws = some (is, []) := (shuffle_tidy.parse_iff ws is []).2 ⟨wants_eq ▸ hr, by simp⟩
    unfold cnfshuffleMain
    rw [hp]
    simp only [ne_eq, not_true_eq_false, if_false]
    rw [files_spec, if_pos hf]
    simp only [hg, seed_spec, decide_not]
  · intro h
    unfold cnfshuffleMain
    split
    · rfl
    · rename_i is rest hp
      split
      · rfl
      · rename_i hne
        obtain rfl : rest = [] := by simpa using hne
        have hr := ((shuffle_tidy.parse_iff ws is []).1 hp).1
        rw [wants_eq] at hr
        rw [files_spec, if_neg (h is hr)]

/-- **C102** (what `cnfshuffle` prints)  On a DIMACS text whose literals are in range, every accepted command line that writes to the standard output prints a DIMACS file with the clauses of
the formula in new places and the variables renamed and negated throughout, satisfiable exactly if the formula is, and each flag on the command line keeps what it names. -/
theorem C102_cnfshuffle_prints {env : CmdEnv} (he : env.Ok) {stdin h : Str} {F : CNF Nat} (e : dimacs2cnf stdin = pure (h, F)) (hr : ∀ c ∈ F.clauses, ∀ l ∈ c, l.natAbs ≤ F.vars.length)
    {ws : List Str} (hd : "--".toList ∉ ws) {is : List (ToolOpt × Str)} (hw : ReadsAs ShuffleName WantsValue ws is []) (hf : FilesOk env is) (ho : ToStdout is) :
    ∃ out ds place ren, cnfshuffleMain env stdin ws = pure (some out) ∧ Prints out F.vars.length ds ∧ (Spec.Satisfiable ds ↔ Spec.Satisfiable F.clauses) ∧
      Reshuffled F.vars.length (Given .noFlips is) (Given .noVars is) (Given .noClauses is) F.clauses ds place ren ∧
      (Given .noFlips is → Given .noVars is → Given .noClauses is → ds = F.clauses) := by
  classical
  have hk : sinkAsked env is = .text := by unfold sinkAsked; rw [if_pos ho, he.dash]
  obtain ⟨out, ds, place, ren, h1, h2, h3, h4, h5⟩ := C102_changes (decide (¬ Given .quiet is)) (decide (Given .noFlips is)) (decide (Given .noVars is)) (decide (Given .noClauses is))
    (env.vs (seedAsked is)) (env.cs (seedAsked is)) (env.signs (seedAsked is)) (fun n m => he.shuffle _ n m) e hr
  simp only [decide_eq_true_eq] at h4
  refine ⟨out, ds, place, ren, ?_, h2, h3, h4, fun a b c => h4.same a b c fun c hc l hl => ⟨h5 c hc l hl, hr c hc l hl⟩⟩
  rw [(C102_cnfshuffle env stdin ws hd).1 is hw hf, hk]
  exact h1

/-! ### dimacstransform and kthlist2pebbling -/

open Classical in
/-- **C102** (the command lines of `dimacstransform` and `kthlist2pebbling`)  Exactly the words that can be read as options (in any order, with any of the spellings), without `-h`, without
a file to read and with files that can be opened, followed by the words of a transformation none of which is ambiguous, are accepted; and this is what is run. -/
theorem C102_text_line (env : CmdEnv) (ws : List Str) (_ : "--".toList ∉ ws) (verbose : Bool) (k : Sink) (T : Option Trans) :
    textToolLine env ws = some (verbose, k, T) ↔ ∃ is rest, ReadsAs TextName WantsValue ws is rest ∧ (∀ w ∈ rest, ¬ TwoNames TextName w) ∧ FilesOk env is ∧
      readTrans env none rest = some T ∧ verbose = decide (¬ Given .quiet is) ∧ k = sinkAsked env is := by
  have hg : ∀ o is, toolGiven o is = decide (Given o is) := fun o is => by
    by_cases h : Given o is
    · rw [(given_spec o is).2 h, decide_eq_true h]
    · rw [decide_eq_false h]
      exact Bool.eq_false_iff.2 fun h' => h ((given_spec o is).1 h')
  unfold textToolLine
  constructor
  · intro e
    split at e
    · cases e
    · rename_i is rest hp
      obtain ⟨hr, ht⟩ := (text_tidy.parse_iff ws is rest).1 hp
      rw [wants_eq] at hr
      rw [files_spec] at e
      by_cases hf : FilesOk env is
      · rw [if_pos hf] at e
        obtain ⟨T', h1, h2⟩ := Option.map_eq_some_iff.1 e
        simp only [Prod.mk.injEq] at h2
        obtain ⟨h2, h3, rfl⟩ := h2
        refine ⟨is, rest, hr, ht, hf, h1, ?_, h3.symm⟩
        rw [← h2, hg, decide_not]
      · rw [if_neg hf] at e; cases e
  · rintro ⟨is, rest, hr, ht, hf, h1, rfl, rfl⟩
    rw [(text_tidy.parse_iff ws is rest).2 ⟨wants_eq ▸ hr, ht⟩]
    simp only
    rw [files_spec, if_pos hf]
    simp only [h1, Option.map_some, hg, decide_not]

/-- Options followed by an argument. -/
theorem ReadsAs.then {α : Type} {N : Str → α → Prop} {tk : α → Prop} {pre ws rest : List Str} {is : List (α × Str)} (h : ReadsAs N tk pre is rest) (hr : rest = []) {w : Str}
    (hw : ArgWord N w) : ReadsAs N tk (pre ++ w :: ws) is (w :: ws) := by
  induction h with
  | nil => exact .rest hw
  | rest _ => cases hr
  | word h1 h2 _ ih => exact .word h1 h2 (ih hr)
  | value h1 h2 h3 _ ih => exact .value h1 h2 h3 (ih hr)

theorem treq_first (t : TReq) : ∃ name args, t.words = name :: args ∧ name.head? ≠ some '-' ∧ ∀ w ∈ t.words, classify textToolOptions w ≠ .ambiguous := by
  have hplain : ∀ w : Str, w.head? ≠ some '-' → classify textToolOptions w ≠ .ambiguous := fun w h => by rw [classify_plain _ h]; simp
  cases t with
  | none => exact ⟨_, [], rfl, by decide, fun w hw => hplain w (by rw [List.mem_singleton.1 hw]; decide)⟩
  | flip => exact ⟨_, [], rfl, by decide, fun w hw => hplain w (by rw [List.mem_singleton.1 hw]; decide)⟩
  | ite => exact ⟨_, [], rfl, by decide, fun w hw => hplain w (by rw [List.mem_singleton.1 hw]; decide)⟩
  | shuffle fs =>
    refine ⟨_, _, rfl, by decide, fun w hw => ?_⟩
    rcases List.mem_cons.1 hw with rfl | hw
    · exact hplain _ (by decide)
    · obtain ⟨⟨l, fl⟩, _, rfl⟩ := List.mem_map.1 hw
      cases fl <;> cases l <;> decide
  | number t n =>
    have ht : t.word.head? ≠ some '-' := by cases t <;> decide
    refine ⟨_, _, rfl, ht, fun w hw => ?_⟩
    rcases List.mem_cons.1 hw with rfl | hw
    · exact hplain _ ht
    · cases n with
      | none => simp at hw
      | some i =>
        obtain rfl : w = intStr i := by simpa using hw
        rw [classify_int (by decide)]; simp

open Classical in
/-- **C102** (options and a transformation)  Every documented transformation after the options is the one that is applied. -/
theorem C102_transformation (env : CmdEnv) {pre : List Str} {is : List (ToolOpt × Str)} (hp : ReadsAs TextName WantsValue pre is []) (hf : FilesOk env is) {t : TReq} (ht : t.Ok)
    {T : Trans} (ha : t.Asks env none T) (stdin dflt : Str) :
    dimacstransformMain env stdin (pre ++ t.words) = dimacstransform (decide (¬ Given .quiet is)) (.stdin stdin) (sinkAsked env is) (some T) ∧
    kthlist2pebblingMain dflt env stdin (pre ++ t.words) = kthlist2pebbling dflt (decide (¬ Given .quiet is)) (.stdin stdin) (sinkAsked env is) (some T) := by
  obtain ⟨name, args, e, hn, hw⟩ := treq_first t
  have hr : ReadsAs TextName WantsValue (pre ++ t.words) is t.words := by
    rw [e]; exact hp.then rfl (.inl hn)
  have hl : textToolLine env (pre ++ t.words) = some (decide (¬ Given .quiet is), sinkAsked env is, some T) := by
    have hg : ∀ o is, toolGiven o is = decide (Given o is) := fun o is => by
      by_cases h : Given o is
      · rw [(given_spec o is).2 h, decide_eq_true h]
      · rw [decide_eq_false h]
        exact Bool.eq_false_iff.2 fun h' => h ((given_spec o is).1 h')
    unfold textToolLine
    rw [(text_tidy.parse_iff _ is t.words).2 ⟨wants_eq ▸ hr, fun w hx h2 => hw w hx ((text_tidy.two_iff w).2 h2)⟩]
    simp only
    rw [files_spec, if_pos hf]
    simp only [C96_transformation env none ht ha, Option.map_some, hg, decide_not]
  unfold dimacstransformMain kthlist2pebblingMain
  rw [hl]
  exact ⟨rfl, rfl⟩

open Classical in
/-- **C102** (no transformation named)  Options alone are accepted, and end in a traceback once the formula is there. -/
theorem C102_no_transformation (env : CmdEnv) {ws : List Str} {is : List (ToolOpt × Str)} (hp : ReadsAs TextName WantsValue ws is []) (hf : FilesOk env is) (stdin dflt : Str) :
    (∀ r, dimacs2cnf stdin = pure r → dimacstransformMain env stdin ws = raise .attributeError) ∧
    ∀ n adj, KthText stdin n adj → NoCycle (Listed adj) → kthlist2pebblingMain dflt env stdin ws = raise .attributeError := by
  have hl : textToolLine env ws = some (decide (¬ Given .quiet is), sinkAsked env is, none) := by
    have hg : ∀ o is, toolGiven o is = decide (Given o is) := fun o is => by
      by_cases h : Given o is
      · rw [(given_spec o is).2 h, decide_eq_true h]
      · rw [decide_eq_false h]
        exact Bool.eq_false_iff.2 fun h' => h ((given_spec o is).1 h')
    have ht : readTrans env none [] = some none := rfl
    unfold textToolLine
    rw [(text_tidy.parse_iff _ is []).2 ⟨wants_eq ▸ hp, by simp⟩]
    simp only
    rw [files_spec, if_pos hf]
    simp only [ht, Option.map_some, hg, decide_not]
  constructor
  · intro r e
    unfold dimacstransformMain
    rw [hl]
    exact (C78_dimacstransform_refusals _ _ none stdin).2.2.1 ⟨r, e⟩
  · intro n adj h hc
    unfold kthlist2pebblingMain
    rw [hl]
    simp only
    obtain ⟨out, m, cs, e, _⟩ := (C80_kthlist2pebbling dflt true h .none (fun _ _ => trivial)).2.2 hc trivial
    unfold kthlist2pebbling at e ⊢
    simp only [Input.open] at e ⊢
    obtain ⟨G, e1, e⟩ := M.bind_eq_pure.1 e
    obtain ⟨F, e2, e⟩ := M.bind_eq_pure.1 e
    rw [e1, M.pure_bind, e2, M.pure_bind]
    simp only [Doc.apply]
    rw [M.raise_bind]

/-- **C102** (what `dimacstransform` prints)  On a DIMACS text whose literals are in range, every accepted command line with a documented transformation (with at least one variable per
block) that writes to the standard output prints a DIMACS file whose formula is satisfiable exactly if the given one is. -/
theorem C102_dimacstransform_prints {env : CmdEnv} (he : env.Ok) {stdin h : Str} {F : CNF Nat} (e : dimacs2cnf stdin = pure (h, F)) (hr : ∀ c ∈ F.clauses, ∀ l ∈ c, l.natAbs ≤ F.vars.length)
    {pre : List Str} {is : List (ToolOpt × Str)} (hp : ReadsAs TextName WantsValue pre is []) (hf : FilesOk env is) (ho : ToStdout is) {t : TReq} (ht : t.Ok) (hs : t.Sensible) :
    ∃ out n cs, dimacstransformMain env stdin (pre ++ t.words) = pure (some out) ∧ Prints out n cs ∧ (Spec.Satisfiable cs ↔ Spec.Satisfiable F.clauses) := by
  classical
  have hk : sinkAsked env is = .text := by unfold sinkAsked; rw [if_pos ho, he.dash]
  obtain ⟨T, ha, h1, h2, h3⟩ : ∃ T, t.Asks env none T ∧ T.Chance ∧ T.Faithful ∧ ¬ T.IsComp := by
    cases t with
    | none => exact ⟨_, rfl, fun _ _ => trivial, trivial, id⟩
    | flip => exact ⟨_, rfl, fun _ _ => trivial, trivial, id⟩
    | ite => exact ⟨_, rfl, fun _ _ => trivial, trivial, id⟩
    | shuffle fs => exact ⟨_, rfl, fun n m => he.shuffle _ n m, trivial, id⟩
    | number t n => cases t <;> cases n <;> refine ⟨_, rfl, fun _ _ => trivial, ?_, id⟩ <;> first | exact hs _ rfl | (simp [Trans.Faithful])
  have hfit : T.Fits F.vars.length := by
    cases T <;> first | trivial | exact absurd trivial h3
  rw [(C102_transformation env hp hf ht ha stdin []).1, hk]
  obtain ⟨out, n, cs, k1, k2, _, k3⟩ := (C78_dimacstransform (decide (¬ Given .quiet is)) e hr T h1).2 hfit
  exact ⟨out, n, cs, k1, k2, k3 h2⟩

/-- **C102** (what `kthlist2pebbling` prints)  On a text that lists the predecessors of at least one vertex, every accepted command line with a documented transformation (with at least one
variable per block) that writes to the standard output prints a DIMACS file whose formula cannot be satisfied if there is no cycle, and ends in a traceback if there is one. -/
theorem C102_kthlist2pebbling_prints {env : CmdEnv} (he : env.Ok) (dflt : Str) {stdin : Str} {n : Nat} {adj : List (Int × List Int)} (h : KthText stdin n adj)
    {pre : List Str} {is : List (ToolOpt × Str)} (hp : ReadsAs TextName WantsValue pre is []) (hf : FilesOk env is) (ho : ToStdout is) {t : TReq} (ht : t.Ok) (hs : t.Sensible) :
    (¬ NoCycle (Listed adj) → kthlist2pebblingMain dflt env stdin (pre ++ t.words) = raise .valueError) ∧
    (NoCycle (Listed adj) → ∃ out m cs, kthlist2pebblingMain dflt env stdin (pre ++ t.words) = pure (some out) ∧ Prints out m cs ∧ (n ≠ 0 → ¬ Spec.Satisfiable cs)) := by
  classical
  have hk : sinkAsked env is = .text := by unfold sinkAsked; rw [if_pos ho, he.dash]
  obtain ⟨T, ha, h1, h2, h3⟩ : ∃ T, t.Asks env none T ∧ T.Chance ∧ T.Faithful ∧ ¬ T.IsComp := by
    cases t with
    | none => exact ⟨_, rfl, fun _ _ => trivial, trivial, id⟩
    | flip => exact ⟨_, rfl, fun _ _ => trivial, trivial, id⟩
    | ite => exact ⟨_, rfl, fun _ _ => trivial, trivial, id⟩
    | shuffle fs => exact ⟨_, rfl, fun n m => he.shuffle _ n m, trivial, id⟩
    | number t n => cases t <;> cases n <;> refine ⟨_, rfl, fun _ _ => trivial, ?_, id⟩ <;> first | exact hs _ rfl | (simp [Trans.Faithful])
  have hfit : T.Fits n := by
    cases T <;> first | trivial | exact absurd trivial h3
  rw [(C102_transformation env hp hf ht ha stdin dflt).2, hk]
  obtain ⟨k1, _, k3⟩ := C80_kthlist2pebbling dflt (decide (¬ Given .quiet is)) h T h1
  exact ⟨k1, fun hc => k3 hc hfit⟩

/-- **C102** (files)  No tool reads a file: a command line with `-i` and a name other than `-` prints a message and nothing else.  And no tool writes one: if the last `-o` names a file, nothing
is ever printed. -/
theorem C102_files (env : CmdEnv) (stdin dflt : Str) {ws rest : List Str} (_ : "--".toList ∉ ws) {is : List (ToolOpt × Str)} :
    (ReadsAs ShuffleName WantsValue ws is rest → (∃ f, (ToolOpt.input, f) ∈ is ∧ f ≠ "-".toList) → cnfshuffleMain env stdin ws = pure none) ∧
    (ReadsAs TextName WantsValue ws is rest → (∃ f, (ToolOpt.input, f) ∈ is ∧ f ≠ "-".toList) →
      dimacstransformMain env stdin ws = pure none ∧ kthlist2pebblingMain dflt env stdin ws = pure none) ∧
    (ReadsAs ShuffleName WantsValue ws is rest → ¬ ToStdout is → ∀ out, cnfshuffleMain env stdin ws ≠ pure (some out)) ∧
    (ReadsAs TextName WantsValue ws is rest → ¬ ToStdout is → ∀ out, dimacstransformMain env stdin ws ≠ pure (some out) ∧ kthlist2pebblingMain dflt env stdin ws ≠ pure (some out)) := by
  classical
  have hbad : (∃ f, (ToolOpt.input, f) ∈ is ∧ f ≠ "-".toList) → ¬ FilesOk env is := fun ⟨f, h1, h2⟩ hf => h2 (hf.input f h1)
  have hsh : ReadsAs ShuffleName WantsValue ws is rest → ∀ is' rest', parseMain shuffleToolOptions ToolOpt.takes ws = some (is', rest') → is' = is := by
    intro hr is' rest' hp
    have := ((shuffle_tidy.parse_iff ws is' rest').1 hp).1
    rw [wants_eq] at this
    exact (C102_unique.1 this hr).1
  have htx : ReadsAs TextName WantsValue ws is rest → ∀ is' rest', parseMain textToolOptions ToolOpt.takes ws = some (is', rest') → is' = is := by
    intro hr is' rest' hp
    have := ((text_tidy.parse_iff ws is' rest').1 hp).1
    rw [wants_eq] at this
    exact (C102_unique.2 this hr).1
  refine ⟨fun hr hi => ?_, fun hr hi => ?_, fun hr ho out h => ?_, fun hr ho out => ?_⟩
  · unfold cnfshuffleMain
    split
    · rfl
    · rename_i is' rest' hp
      obtain rfl := hsh hr _ _ hp
      split
      · rfl
      · rw [files_spec, if_neg (hbad hi)]
  · have hl : textToolLine env ws = none := by
      unfold textToolLine
      split
      · rfl
      · rename_i is' rest' hp
        obtain rfl := htx hr _ _ hp
        rw [files_spec, if_neg (hbad hi)]
    unfold dimacstransformMain kthlist2pebblingMain
    rw [hl]
    exact ⟨rfl, rfl⟩
  · unfold cnfshuffleMain at h
    split at h
    · cases h
    · rename_i is' rest' hp
      obtain rfl := hsh hr _ _ hp
      split at h
      · cases h
      · rw [files_spec] at h
        by_cases hf : FilesOk env is'
        · rw [if_pos hf] at h
          simp only [sinkAsked, if_neg ho] at h
          unfold cnfshuffle at h
          simp only [Input.open] at h
          obtain ⟨⟨h', F⟩, _, h⟩ := M.bind_eq_pure.1 h
          obtain ⟨D, _, h⟩ := M.bind_eq_pure.1 h
          obtain ⟨t, _, h⟩ := M.bind_eq_pure.1 h
          simp only [Sink.write] at h
          cases h
        · rw [if_neg hf] at h; cases h
  · have hl : ∀ v k T, textToolLine env ws = some (v, k, T) → k = .binary := by
      intro v k T e
      unfold textToolLine at e
      split at e
      · cases e
      · rename_i is' rest' hp
        obtain rfl := htx hr _ _ hp
        rw [files_spec] at e
        split at e
        · cases e
        · rename_i k' hk
          obtain ⟨T', _, h2⟩ := Option.map_eq_some_iff.1 e
          simp only [Prod.mk.injEq] at h2
          by_cases hf : FilesOk env is'
          · rw [if_pos hf] at hk
            rw [← h2.2.1, ← Option.some.inj hk, sinkAsked, if_neg ho]
          · rw [if_neg hf] at hk; cases hk
    constructor
    · intro h
      unfold dimacstransformMain at h
      split at h
      · cases h
      · rename_i v k T e
        obtain rfl := hl _ _ _ e
        exact (C78_dimacstransform_refusals _ .binary T stdin).2.2.2 out h
    · intro h
      unfold kthlist2pebblingMain at h
      split at h
      · cases h
      · rename_i v k T e
        obtain rfl := hl _ _ _ e
        unfold kthlist2pebbling at h
        simp only [Input.open] at h
        obtain ⟨G, _, h⟩ := M.bind_eq_pure.1 h
        obtain ⟨F, _, h⟩ := M.bind_eq_pure.1 h
        obtain ⟨D, _, h⟩ := M.bind_eq_pure.1 h
        cases D with
        | none => cases h
        | some D =>
          obtain ⟨t, _, h⟩ := M.bind_eq_pure.1 h
          simp only [Sink.print, Sink.write] at h
          cases h

/-! ### examples -/

/-- Letters together, a value in the next word, a value after `=`, an abbreviation. -/
theorem example_shuffle : ReadsAs ShuffleName WantsValue ["-pv".toList, "--seed".toList, "7".toList, "--out=-".toList, "-c".toList]
    [(.noFlips, []), (.noVars, []), (.seed, "7".toList), (.output, "-".toList), (.noClauses, [])] [] := by
  rw [← wants_eq]
  exact (shuffle_tidy.leading_iff _ _ _).1 (by decide +kernel)

theorem example_files (env : CmdEnv) : FilesOk env [(.noFlips, []), (.noVars, []), (.seed, "7".toList), (.output, "-".toList), (.noClauses, [])] := by
  refine ⟨?_, ?_, ?_⟩
  · rintro ⟨v, h⟩; simp at h
  · intro v h; simp at h
  · intro v h
    simp at h
    exact .inl h

/-- Every change is switched off: the formula is printed as it is. -/
example {env : CmdEnv} (he : env.Ok) : ∃ out, cnfshuffleMain env "p cnf 2 2\n1 -2 0\n2 0\n".toList ["-pv".toList, "--seed".toList, "7".toList, "--out=-".toList, "-c".toList] = pure (some out) ∧
    Prints out 2 [[1, -2], [2]] := by
  obtain ⟨out, ds, place, ren, h1, h2, _, _, h5⟩ := C102_cnfshuffle_prints he (stdin := "p cnf 2 2\n1 -2 0\n2 0\n".toList) (h := []) (F := ⟨oneTo 2, [[1, -2], [2]]⟩) (by rfl)
    (by decide) (by decide) example_shuffle (example_files env) (by intro v h; simpa [lastGiven] using h.symm)
  have := h5 ⟨[], by simp⟩ ⟨[], by simp⟩ ⟨[], by simp⟩
  subst this
  exact ⟨out, h1, h2⟩

theorem example_text : ReadsAs TextName WantsValue ["-q".toList, "-o-".toList] [(.quiet, []), (.output, "-".toList)] [] := by
  rw [← wants_eq]
  exact (text_tidy.leading_iff _ _ _).1 (by decide +kernel)

example {env : CmdEnv} (he : env.Ok) : ∃ out n cs, dimacstransformMain env "p cnf 2 2\n1 -2 0\n2 0\n".toList ["-q".toList, "-o-".toList, "xor".toList, "3".toList] = pure (some out) ∧ Prints out n cs ∧
    Spec.Satisfiable cs := by
  obtain ⟨out, n, cs, h1, h2, h3⟩ := C102_dimacstransform_prints he (stdin := "p cnf 2 2\n1 -2 0\n2 0\n".toList) (h := []) (F := ⟨oneTo 2, [[1, -2], [2]]⟩) (by rfl)
    (by decide) example_text ⟨by rintro ⟨v, h⟩; simp at h, by intro v h; simp at h, by intro v h; simp at h; exact .inl h⟩ (by intro v h; simpa [lastGiven] using h.symm)
    (t := .number .xor (some 3)) trivial (by intro i h; simp at h; omega)
  exact ⟨out, n, cs, h1, h2, h3.2 ⟨fun _ => true, fun c hc => by simp at hc; rcases hc with rfl | rfl; exacts [⟨1, by simp, by decide⟩, ⟨2, by simp, by decide⟩]⟩⟩

end NDP.Cnfgen
