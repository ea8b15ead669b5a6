import Verif.Cnfgen.Tools
/-
  The numbers of the variables and the clauses of a substituted formula, in closed form.
-/
namespace NDP.Cnfgen
open NDP

/-- First occurrences, in order. -/
def firsts {A : Type} [DecidableEq A] : List A → List A
  | [] => []
  | x :: xs => x :: (firsts xs).filter fun y => decide (y ≠ x)

section
variable {A B : Type} [DecidableEq A] [DecidableEq B]

theorem mem_firsts : ∀ {l : List A} {x : A}, x ∈ firsts l ↔ x ∈ l
  | [], _ => by simp [firsts]
  | y :: l, x => by
    simp only [firsts, List.mem_cons, List.mem_filter, mem_firsts (l := l), decide_eq_true_eq]
    by_cases h : x = y <;> simp [h]

theorem firsts_nodup : ∀ l : List A, (firsts l).Nodup
  | [] => List.nodup_nil
  | x :: l => List.nodup_cons.2 ⟨by simp, (firsts_nodup l).filter _⟩

theorem firsts_of_nodup : ∀ {l : List A}, l.Nodup → firsts l = l
  | [], _ => rfl
  | x :: l, h => by
    rw [List.nodup_cons] at h
    rw [firsts, firsts_of_nodup h.2, List.filter_eq_self.2]
    intro y hy; simp only [decide_eq_true_eq]; rintro rfl; exact h.1 hy

theorem firsts_append : ∀ a b : List A, firsts (a ++ b) = firsts a ++ (firsts b).filter fun y => decide (y ∉ a)
  | [], b => by simp [firsts]
  | x :: a, b => by
    rw [List.cons_append, firsts, firsts_append a b, firsts, List.filter_append, List.filter_filter, List.cons_append]
    congr 2
    refine List.filter_congr fun y _ => ?_
    by_cases h1 : y = x <;> by_cases h2 : y ∈ a <;> simp [h1, h2]

theorem firsts_map : ∀ {f : A → B} {l : List A}, (∀ x ∈ l, ∀ y ∈ l, f x = f y → x = y) → firsts (l.map f) = (firsts l).map f
  | _, [], _ => rfl
  | f, x :: l, h => by
    rw [List.map_cons, firsts, firsts_map (fun a ha b hb => h a (by simp [ha]) b (by simp [hb])), firsts, List.map_cons, List.filter_map]
    congr 2
    refine List.filter_congr fun y hy => ?_
    rw [mem_firsts] at hy
    simp only [Function.comp, ne_eq, decide_not, Bool.not_eq_eq_eq_not, Bool.not_not, decide_eq_decide]
    exact ⟨fun e => h y (by simp [hy]) x (by simp) e, fun e => by rw [e]⟩

theorem addVariables_firsts : ∀ (ws : List A) (F : CNF A), (F.addVariables ws).vars = F.vars ++ (firsts ws).filter fun y => decide (y ∉ F.vars)
  | [], F => by simp [CNF.addVariables, firsts]
  | w :: ws, F => by
    have e : F.addVariables (w :: ws) = (F.addVariable w).addVariables ws := rfl
    rw [e, addVariables_firsts ws, firsts]
    unfold CNF.addVariable
    split
    · rename_i h
      rw [List.filter_cons_of_neg (by simpa using h), List.filter_filter]
      congr 1
      refine List.filter_congr fun y _ => ?_
      by_cases e : y = w
      · subst e; simp [h]
      · simp [e]
    · rename_i h
      rw [List.filter_cons_of_pos (by simpa using h), List.append_assoc, List.filter_filter, List.singleton_append]
      congr 2
      refine List.filter_congr fun y _ => ?_
      by_cases e : y = w <;> by_cases h2 : y ∈ F.vars <;> simp [e, h2]

/-- Blocks of different names. -/
theorem firsts_blocks {L : List B} {W : Type} [DecidableEq W] {nm : A → B → W} : ∀ {vs : List A}, vs.Nodup →
    (∀ v ∈ vs, ∀ w ∈ vs, ∀ q ∈ L, ∀ r ∈ L, nm v q = nm w r → v = w ∧ q = r) →
    firsts (vs.flatMap fun v => L.map (nm v)) = vs.flatMap fun v => (firsts L).map (nm v)
  | [], _, _ => rfl
  | v :: vs, hn, h => by
    rw [List.nodup_cons] at hn
    rw [List.flatMap_cons, firsts_append, firsts_blocks hn.2 (fun a ha b hb => h a (by simp [ha]) b (by simp [hb])),
      firsts_map (fun q hq r hr e => (h v (by simp) v (by simp) q hq r hr e).2), List.flatMap_cons, List.filter_eq_self.2]
    intro y hy
    obtain ⟨w, hw, hy⟩ := List.mem_flatMap.1 hy
    obtain ⟨q, hq, rfl⟩ := List.mem_map.1 hy
    rw [mem_firsts] at hq
    simp only [decide_eq_true_eq, List.mem_map, not_exists, not_and]
    intro r hr e
    have := (h v (by simp) w (by simp [hw]) r hr q hq e).1
    subst this
    exact hn.1 hw

theorem idxOf_blocks {L : List B} {W : Type} [DecidableEq W] {nm : A → B → W} : ∀ {vs : List A},
    (∀ v ∈ vs, ∀ w ∈ vs, ∀ q ∈ L, ∀ r ∈ L, nm v q = nm w r → v = w ∧ q = r) → ∀ v ∈ vs, ∀ q ∈ L,
    (vs.flatMap fun v => L.map (nm v)).idxOf (nm v q) = L.length * vs.idxOf v + L.idxOf q
  | [], _, v, hv, _, _ => by cases hv
  | w :: vs, h, v, hv, q, hq => by
    have hblock : ∀ (M : List B), (∀ r ∈ M, r ∈ L) → (M.map (nm v)).idxOf (nm v q) = M.idxOf q := by
      intro M
      induction M with
      | nil => intro _; rfl
      | cons r M ih =>
        intro hM
        rw [List.map_cons, List.idxOf_cons, List.idxOf_cons, ih fun r hr => hM r (by simp [hr])]
        by_cases e : r = q
        · subst e; simp
        · have : nm v r ≠ nm v q := fun e' => e (h v hv v hv r (hM r (by simp)) q hq e').2
          simp [beq_eq_false_iff_ne.2 e, beq_eq_false_iff_ne.2 this]
    rw [List.flatMap_cons]
    by_cases e : w = v
    · subst e
      rw [List.idxOf_append_of_mem (List.mem_map.2 ⟨q, hq, rfl⟩), hblock L fun r hr => hr, List.idxOf_cons_self]
      simp
    · have hv' : v ∈ vs := by rcases List.mem_cons.1 hv with h' | h'; exact absurd h'.symm e; exact h'
      rw [List.idxOf_append_of_notMem, idxOf_blocks (fun a ha b hb => h a (by simp [ha]) b (by simp [hb])) v hv' q hq, List.length_map,
        List.idxOf_cons_ne _ e, Nat.mul_succ]
      · omega
      · intro hm
        obtain ⟨r, hr, e'⟩ := List.mem_map.1 hm
        exact e (h w (by simp) v hv r hr q hq e').1

theorem map_idxOf_self {l : List A} (h : l.Nodup) : l.map (fun v => l.idxOf v) = List.range l.length := by
  refine List.ext_getElem (by simp) fun i h1 h2 => ?_
  rw [List.getElem_map, List.getElem_range]
  exact h.idxOf_getElem _ (by simpa using h1)
end

section
variable {V W Q : Type} [DecidableEq V] [DecidableEq W] [DecidableEq Q]

/-- A literal with another name. -/
def lmap {A B : Type} (f : A → B) (l : Lit A) : Lit B := (l.1, f l.2)

/-- Clauses with other names. -/
def gmap {A B : Type} (f : A → B) (cs : List (List (Lit A))) : List (List (Lit B)) := cs.map fun c => c.map (lmap f)

/-- The names in some clauses, in the order of their first occurrence. -/
def gnames (pre pos neg : List (List (Lit Q))) : List Q := firsts ((pre ++ pos ++ neg).flatMap fun c => c.map Prod.snd)

/-- Clauses as numbers, `num` being the number of a name. -/
def encode (num : Q → Nat) (cs : List (List (Lit Q))) : List (List Int) :=
  cs.map fun c => c.map fun l => (if l.1 then 1 else -1) * (num l.2 : Int)

/-- A formula in which each literal of each clause is replaced by clauses (`lit i b`: the literal of variable number `i+1` with sign `b`). -/
def expand (lit : Nat → Bool → List (List Int)) (cs : List (List Int)) : List (List Int) :=
  cs.flatMap fun c => (product (c.map fun l => lit (l.natAbs - 1) (decide (0 < l)))).map List.flatten

theorem baseSubst_vars {F : CNF V} {pre : V → List (List (Lit W))} {tr : Bool → V → List (List (Lit W))} {nv : Option (List W)} {H : CNF W}
    (h : baseSubst F pre tr nv = pure H) : H.vars = firsts (nv.getD
        (F.vars.flatMap fun v => (pre v ++ tr true v ++ tr false v).flatMap fun (c : List (Lit W)) => c.map Prod.snd)) := by
  unfold baseSubst at h
  split at h
  · cases h
  obtain ⟨a, _, h⟩ := M.bind_eq_pure.1 h
  obtain ⟨b, _, h⟩ := M.bind_eq_pure.1 h
  obtain ⟨c, _, h⟩ := M.bind_eq_pure.1 h
  obtain ⟨d, _, h⟩ := M.bind_eq_pure.1 h
  dsimp only at h
  split at h
  · rw [← (M.pure_inj _ _).1 h]
    dsimp only
    rw [addVariables_firsts]
    simp
  · cases h

theorem map_substClauses {F : CNF V} {cs : List (List (Lit V))} (hF : F.Coh cs) {pre : V → List (List (Lit W))} {tr : Bool → V → List (List (Lit W))}
    (code : Lit W → Int) {P : Nat → List (List Int)} {T : Nat → Bool → List (List Int)}
    (hp : ∀ v ∈ F.vars, (pre v).map (fun c => c.map code) = P (F.vars.idxOf v))
    (ht : ∀ b, ∀ v ∈ F.vars, (tr b v).map (fun c => c.map code) = T (F.vars.idxOf v) b) :
    (substClauses F cs pre tr).map (fun c => c.map code) = expand T F.clauses ++ (List.range F.vars.length).flatMap P := by
  unfold substClauses expand
  rw [List.map_append]
  congr 1
  · rw [hF.clauses, List.map_flatMap, List.flatMap_map]
    refine List.flatMap_congr fun c hc => ?_
    have hd : (c.map F.code).map (fun l => T (l.natAbs - 1) (decide (0 < l))) = (c.map fun l => tr l.1 l.2).map fun d => d.map fun c => c.map code := by
      rw [List.map_map, List.map_map]
      refine List.map_congr_left ?_
      rintro ⟨b, v⟩ hl
      have hv := hF.known c hc _ hl
      have e1 : (F.code (b, v)).natAbs - 1 = F.vars.idxOf v := by cases b <;> simp only [CNF.code] <;> simp <;> omega
      have e3 : decide (0 < F.code (b, v)) = b := by cases b <;> simp only [CNF.code] <;> simp <;> omega
      simp only [Function.comp, e1, e3]
      exact (ht b v hv).symm
    rw [hd, product_map, List.map_map, List.map_map]
    refine List.map_congr_left fun t _ => ?_
    simp [List.map_flatten]
  · rw [← map_idxOf_self hF.nodup, List.flatMap_map, List.map_flatMap]
    exact List.flatMap_congr fun v hv => hp v hv

/-- **The numbering.** A substitution which gives every variable its own copies of the names of some clauses. -/
theorem baseSubst_closed {F : CNF V} (hF : Proper F.vars F.clauses) (nm : V → Q → W) (pre : List (List (Lit Q))) (g : Bool → List (List (Lit Q)))
    (h : ∀ v ∈ F.vars, ∀ w ∈ F.vars, ∀ q ∈ gnames pre (g true) (g false), ∀ r ∈ gnames pre (g true) (g false), nm v q = nm w r → v = w ∧ q = r) :
    baseSubst F (fun v => gmap (nm v) pre) (fun b v => gmap (nm v) (g b)) none =
      pure ⟨F.vars.flatMap fun v => (gnames pre (g true) (g false)).map (nm v),
        expand (fun i b => encode (fun q => (gnames pre (g true) (g false)).length * i + (gnames pre (g true) (g false)).idxOf q + 1) (g b)) F.clauses ++
          (List.range F.vars.length).flatMap fun i =>
            encode (fun q => (gnames pre (g true) (g false)).length * i + (gnames pre (g true) (g false)).idxOf q + 1) pre⟩ := by
  obtain ⟨U, hU⟩ : ∃ U, U = gnames pre (g true) (g false) := ⟨_, rfl⟩
  obtain ⟨cs, hc⟩ := hF.coh
  obtain ⟨H, hH, hcoh, _⟩ := baseSubst_coh hc (pre := fun v => gmap (nm v) pre) (tr := fun b v => gmap (nm v) (g b)) (nv := none) (by simp)
  rw [← hU] at h ⊢
  have hv : H.vars = F.vars.flatMap fun v => U.map (nm v) := by
    rw [baseSubst_vars hH, Option.getD_none, hU, gnames, ← firsts_blocks hF.1]
    · congr 1
      refine List.flatMap_congr fun v _ => ?_
      unfold gmap
      rw [← List.map_append, ← List.map_append, List.flatMap_map, List.map_flatMap]
      refine List.flatMap_congr fun c _ => ?_
      rw [List.map_map, List.map_map]
      rfl
    · intro v hv w hw q hq r hr
      exact h v hv w hw q (by rw [hU, gnames, mem_firsts]; exact hq) r (by rw [hU, gnames, mem_firsts]; exact hr)
  have hcode : ∀ v ∈ F.vars, ∀ cs : List (List (Lit Q)), (∀ c ∈ cs, ∀ l ∈ c, l.2 ∈ U) →
      (gmap (nm v) cs).map (fun c => c.map H.code) = encode (fun q => U.length * F.vars.idxOf v + U.idxOf q + 1) cs := by
    intro v hv' cs hcs
    unfold gmap encode
    rw [List.map_map]
    refine List.map_congr_left fun c hc => ?_
    simp only [Function.comp, List.map_map]
    refine List.map_congr_left fun l hl => ?_
    simp only [Function.comp, CNF.code, lmap]
    rw [hv, idxOf_blocks h v hv' _ (hcs c hc l hl)]
    push_cast
    rfl
  have hmem : ∀ cs : List (List (Lit Q)), (∀ c ∈ cs, c ∈ pre ++ g true ++ g false) → ∀ c ∈ cs, ∀ l ∈ c, l.2 ∈ U := by
    intro cs hcs c hc l hl
    rw [hU, gnames, mem_firsts, List.mem_flatMap]
    exact ⟨c, hcs c hc, List.mem_map.2 ⟨l, hl, rfl⟩⟩
  rw [hH]
  congr 1
  have hcl := hcoh.clauses
  rw [map_substClauses hc H.code (P := fun i => encode (fun q => U.length * i + U.idxOf q + 1) pre)
    (T := fun i b => encode (fun q => U.length * i + U.idxOf q + 1) (g b))
    (fun v hv => hcode v hv _ (hmem _ fun c hc => by simp [hc]))
    (fun b v hv => hcode v hv _ (hmem _ fun c hc => by cases b <;> simp [hc]))] at hcl
  cases H
  simp only at hv hcl
  rw [hv, hcl]

/-! ### The constraint builders do not look at names -/

theorem combinations_map {A B : Type} (f : A → B) : ∀ (l : List A) (k : Nat), combinations (l.map f) k = (combinations l k).map fun c => c.map f
  | _, 0 => by simp [combinations]
  | [], k + 1 => by simp [combinations]
  | x :: l, k + 1 => by
    rw [List.map_cons, combinations, combinations, combinations_map f l k, combinations_map f l (k + 1), List.map_append, List.map_map, List.map_map]
    rfl

theorem inequality_map {A B : Type} (f : A → B) (l : List A) (k : Int) (b : Bool) : inequality (l.map f) k b = gmap f (inequality l k b) := by
  unfold inequality
  simp only [List.length_map]
  split
  · split
    · rfl
    · split
      · rfl
      · rw [combinations_map, List.map_map, gmap, List.map_map]
        refine List.map_congr_left fun c _ => ?_
        simp [lmap, Function.comp_def]
  · split
    · rfl
    · split
      · rfl
      · rw [combinations_map, List.map_map, gmap, List.map_map]
        refine List.map_congr_left fun c _ => ?_
        simp [lmap, Function.comp_def]

theorem parity_map {A B : Type} (f : A → B) (l : List A) (k : Nat) : parityConstraint (l.map f) k = gmap f (parityConstraint l k) := by
  unfold parityConstraint gmap
  have : (l.map f).map (fun v => [(true, v), (false, v)]) = (l.map fun v => [(true, v), (false, v)]).map fun d => d.map (lmap f) := by
    simp [lmap, Function.comp_def]
  rw [this, product_map, List.filter_map]
  congr 1
  refine List.filter_congr fun c _ => ?_
  simp only [Function.comp, List.map_map]
  rfl

theorem pairs_map {A B : Type} (f : A → B) : ∀ l : List A, pairs (l.map f) = (pairs l).map fun p => (f p.1, f p.2)
  | [] => rfl
  | x :: l => by
    rw [List.map_cons, pairs, pairs, pairs_map f l, List.map_append, List.map_map, List.map_map]
    rfl

theorem picks_map {A B : Type} (f : A → B) : ∀ l : List A, picks (l.map f) = (picks l).map fun p => (f p.1, p.2.map f)
  | [] => rfl
  | x :: l => by
    rw [List.map_cons, picks, picks, picks_map f l, List.map_cons, List.map_map, List.map_map]
    rfl

theorem permPairs_map {A B : Type} (f : A → B) (l : List A) : permPairs (l.map f) = (permPairs l).map fun p => (f p.1, f p.2) := by
  unfold permPairs
  rw [picks_map, List.flatMap_map, List.map_flatMap]
  refine List.flatMap_congr fun p _ => ?_
  rw [List.map_map, List.map_map]
  rfl

/-! ### The clauses of each substitution, over abstract names -/

/-- The copies of a variable. -/
def copies (p : Str) (k : Nat) : List (Str × Nat) := (List.range k).map fun j => (p, j)

/-- The name of a copy. -/
def copyName (sh : V → Str) (v : V) (q : Str × Nat) : Str := subName sh q.1 v q.2

/-- OR. -/
def orG (k : Nat) (b : Bool) : List (List (Lit (Str × Nat))) :=
  if b then [(copies [] k).map fun n => (true, n)] else (copies [] k).map fun n => [(false, n)]
/-- XOR. -/
def xorG (k : Nat) (b : Bool) : List (List (Lit (Str × Nat))) := parityConstraint (copies [] k) (if b then 1 else 0)
/-- Majority. -/
def majG (k : Nat) (b : Bool) : List (List (Lit (Str × Nat))) :=
  if b then greaterOrEqual (copies [] k) (((k + 1) / 2 : Nat) : Int) else lessThan (copies [] k) (((k + 1) / 2 : Nat) : Int)
/-- All equal. -/
def eqG (k : Nat) (b : Bool) : List (List (Lit (Str × Nat))) :=
  if b then (permPairs (copies [] k)).map fun p => [(false, p.1), (true, p.2)]
  else [(copies [] k).map fun n => (false, n), (copies [] k).map fun n => (true, n)]
/-- If-then-else. -/
def iteG (b : Bool) : List (List (Lit (Str × Nat))) := [[(false, ([], 0)), (b, ([], 1))], [(true, ([], 0)), (b, ([], 2))]]
/-- Exactly one. -/
def oneG (k : Nat) (b : Bool) : List (List (Lit (Str × Nat))) :=
  if b then ((copies "X_".toList k).map fun n => (true, n)) :: (pairs (copies "X_".toList k)).map fun p => [(false, p.1), (false, p.2)]
  else (copies "X_".toList k).map fun n => (false, n) :: ((copies "X_".toList k).filter fun o => decide (o ≠ n)).map fun o => (true, o)
/-- The selectors of the lifting. -/
def liftPreG (k : Nat) : List (List (Lit (Str × Nat))) :=
  ((copies "Y_".toList k).map fun n => (true, n)) :: (pairs (copies "Y_".toList k)).map fun p => [(false, p.1), (false, p.2)]
/-- The lifting. -/
def liftG (k : Nat) (b : Bool) : List (List (Lit (Str × Nat))) :=
  (List.range k).map fun i => [(false, ("Y_".toList, i)), (b, ("X_".toList, i))]

variable (sh : V → Str)

omit [DecidableEq V] in
theorem subNames_eq (p : Str) (v : V) (k : Nat) : subNames sh p v k = (copies p k).map (copyName sh v) := by
  unfold subNames copies; rw [List.map_map]; rfl

omit [DecidableEq V] in
theorem orLit_eq (k : Nat) (b : Bool) (v : V) : orLit sh k b v = gmap (copyName sh v) (orG k b) := by
  unfold orLit orG gmap
  rw [subNames_eq]
  cases b <;> simp [lmap, Function.comp_def]

omit [DecidableEq V] in
theorem xorLit_eq (k : Nat) (b : Bool) (v : V) : xorLit sh k b v = gmap (copyName sh v) (xorG k b) := by
  unfold xorLit xorG
  rw [subNames_eq, parity_map]

omit [DecidableEq V] in
theorem majLit_eq (k : Nat) (b : Bool) (v : V) : majLit sh k b v = gmap (copyName sh v) (majG k b) := by
  unfold majLit majG greaterOrEqual lessThan
  rw [subNames_eq, inequality_map, inequality_map]
  cases b <;> rfl

omit [DecidableEq V] in
theorem eqLit_eq (k : Nat) (b : Bool) (v : V) : eqLit sh k b v = gmap (copyName sh v) (eqG k b) := by
  unfold eqLit eqG gmap
  rw [subNames_eq, permPairs_map]
  cases b <;> simp [lmap, Function.comp_def]

omit [DecidableEq V] in
theorem iteLit_eq (b : Bool) (v : V) : iteLit sh b v = gmap (copyName sh v) (iteG b) := rfl

theorem copyName_inj' {v : V} {q r : Str × Nat} {p : Str} (hq : q.1 = p) (hr : r.1 = p) (h : copyName sh v q = copyName sh v r) : q = r := by
  obtain ⟨_, i⟩ := q; obtain ⟨_, j⟩ := r
  simp only at hq hr; subst hq; subst hr
  have h3 : i = j := subName_inj' h
  rw [h3]

theorem oneLit_eq (k : Nat) (b : Bool) (v : V) : oneLit sh k b v = gmap (copyName sh v) (oneG k b) := by
  have hcp : ∀ q ∈ copies "X_".toList k, q.1 = "X_".toList := by
    intro q hq; obtain ⟨j, _, rfl⟩ := List.mem_map.1 hq; rfl
  have hnames : subNames sh "X_".toList v k = (copies "X_".toList k).map (copyName sh v) := subNames_eq sh _ v k
  unfold oneLit oneG gmap
  dsimp only
  rw [hnames, pairs_map]
  generalize copies "X_".toList k = cp at hcp
  cases b
  · simp only [Bool.false_eq_true, if_false, List.map_map]
    refine List.map_congr_left fun n hn => ?_
    simp only [Function.comp, List.map_cons, lmap, List.map_map]
    congr 1
    rw [List.filter_map, List.map_map]
    have : cp.filter ((fun o => decide (o ≠ copyName sh v n)) ∘ copyName sh v) = cp.filter fun o => decide (o ≠ n) := by
      refine List.filter_congr fun o ho => ?_
      simp only [Function.comp, ne_eq, decide_not, Bool.not_eq_eq_eq_not, Bool.not_not, decide_eq_decide]
      exact ⟨fun e => copyName_inj' sh (hcp o ho) (hcp n hn) e, fun e => by rw [e]⟩
    rw [this]
    rfl
  · simp [lmap, Function.comp_def]

omit [DecidableEq V] in
theorem liftPre_eq (k : Nat) (v : V) : liftPre sh k v = gmap (copyName sh v) (liftPreG k) := by
  unfold liftPre liftPreG gmap
  rw [subNames_eq, pairs_map]
  simp [lmap, Function.comp_def]

omit [DecidableEq V] in
theorem liftLit_eq (k : Nat) (b : Bool) (v : V) : liftLit sh k b v = gmap (copyName sh v) (liftG k b) := by
  unfold liftLit liftG gmap
  simp [lmap, Function.comp_def, copyName]

/-- The prefixes in use. -/
def Pfx (q : Str × Nat) : Prop := q.1 = [] ∨ q.1 = "X_".toList ∨ q.1 = "Y_".toList

/-- All names have one of the prefixes. -/
def Named (G : List (List (Lit (Str × Nat)))) : Prop := ∀ c ∈ G, ∀ l ∈ c, Pfx l.2

theorem copyName_inj {sh : V → Str} (hs : Function.Injective sh) {v w : V} {q r : Str × Nat} (hq : Pfx q) (hr : Pfx r)
    (h : copyName sh v q = copyName sh w r) : v = w ∧ q = r := by
  obtain ⟨p, i⟩ := q; obtain ⟨p', j⟩ := r
  have key : p = p' → v = w ∧ (p, i) = (p', j) := by
    rintro rfl
    obtain ⟨h1, h2⟩ := subName_inj hs (p := p) h
    exact ⟨h1, by rw [show i = j from h2]⟩
  have hx : "X_".toList = ['X', '_'] := by decide
  have hy : "Y_".toList = ['Y', '_'] := by decide
  unfold copyName subName at h
  simp only [Pfx, hx, hy] at hq hr
  rcases hq with rfl | rfl | rfl <;> rcases hr with rfl | rfl | rfl <;> first | exact key rfl | simp at h

theorem named_gmap (p : Str) (hp : Pfx (p, 0)) (G : List (List (Lit Nat))) : Named (gmap (fun j => (p, j)) G) := by
  intro c hc l hl
  obtain ⟨d, _, rfl⟩ := List.mem_map.1 hc
  obtain ⟨m, _, rfl⟩ := List.mem_map.1 hl
  exact hp

theorem copies_pfx {p : Str} (hp : Pfx (p, 0)) {k : Nat} {q : Str × Nat} (h : q ∈ copies p k) : Pfx q := by
  obtain ⟨j, _, rfl⟩ := List.mem_map.1 h; exact hp

theorem named_or (k : Nat) (b : Bool) : Named (orG k b) := by
  have : orG k b = gmap (fun j => ([], j)) (if b then [(List.range k).map fun n => (true, n)] else (List.range k).map fun n => [(false, n)]) := by
    cases b <;> simp [orG, gmap, copies, lmap, Function.comp_def]
  rw [this]; exact named_gmap [] (.inl rfl) _

theorem named_xor (k : Nat) (b : Bool) : Named (xorG k b) := by
  rw [xorG, copies, parity_map]; exact named_gmap [] (.inl rfl) _

theorem named_maj (k : Nat) (b : Bool) : Named (majG k b) := by
  unfold majG greaterOrEqual lessThan copies
  rw [inequality_map, inequality_map]
  cases b <;> exact named_gmap [] (.inl rfl) _

theorem named_eq (k : Nat) (b : Bool) : Named (eqG k b) := by
  have : eqG k b = gmap (fun j => ([], j)) (if b then (permPairs (List.range k)).map fun p => [(false, p.1), (true, p.2)]
      else [(List.range k).map fun n => (false, n), (List.range k).map fun n => (true, n)]) := by
    unfold eqG copies
    rw [permPairs_map]
    cases b <;> simp [gmap, lmap, Function.comp_def]
  rw [this]; exact named_gmap [] (.inl rfl) _

theorem named_ite (b : Bool) : Named (iteG b) := by
  have : iteG b = gmap (fun j => ([], j)) [[(false, 0), (b, 1)], [(true, 0), (b, 2)]] := rfl
  rw [this]; exact named_gmap [] (.inl rfl) _

theorem named_one (k : Nat) (b : Bool) : Named (oneG k b) := by
  have hp : Pfx ("X_".toList, 0) := .inr (.inl rfl)
  intro c hc l hl
  unfold oneG at hc
  cases b
  · simp only [Bool.false_eq_true, if_false] at hc
    obtain ⟨n, hn, rfl⟩ := List.mem_map.1 hc
    rcases List.mem_cons.1 hl with rfl | hl
    · exact copies_pfx hp hn
    · obtain ⟨o, ho, rfl⟩ := List.mem_map.1 hl
      exact copies_pfx hp (List.mem_filter.1 ho).1
  · simp only [if_true] at hc
    rcases List.mem_cons.1 hc with rfl | hc
    · obtain ⟨n, hn, rfl⟩ := List.mem_map.1 hl
      exact copies_pfx hp hn
    · unfold copies at hc
      rw [pairs_map, List.map_map] at hc
      obtain ⟨n, hn, rfl⟩ := List.mem_map.1 hc
      simp only [Function.comp, List.mem_cons, List.not_mem_nil, or_false] at hl
      rcases hl with rfl | rfl <;> exact hp

theorem named_liftPre (k : Nat) : Named (liftPreG k) := by
  have hp : Pfx ("Y_".toList, 0) := .inr (.inr rfl)
  intro c hc l hl
  rcases List.mem_cons.1 hc with rfl | hc
  · obtain ⟨n, hn, rfl⟩ := List.mem_map.1 hl
    exact copies_pfx hp hn
  · unfold copies at hc
    rw [pairs_map, List.map_map] at hc
    obtain ⟨n, hn, rfl⟩ := List.mem_map.1 hc
    simp only [Function.comp, List.mem_cons, List.not_mem_nil, or_false] at hl
    rcases hl with rfl | rfl <;> exact hp

theorem named_lift (k : Nat) (b : Bool) : Named (liftG k b) := by
  intro c hc l hl
  obtain ⟨n, hn, rfl⟩ := List.mem_map.1 hc
  simp only [List.mem_cons, List.not_mem_nil, or_false] at hl
  rcases hl with rfl | rfl
  · exact .inr (.inr rfl)
  · exact .inr (.inl rfl)

theorem named_gnames {pre pos neg : List (List (Lit (Str × Nat)))} (h1 : Named pre) (h2 : Named pos) (h3 : Named neg) : ∀ q ∈ gnames pre pos neg, Pfx q := by
  intro q hq
  rw [gnames, mem_firsts, List.mem_flatMap] at hq
  obtain ⟨c, hc, hq⟩ := hq
  obtain ⟨l, hl, rfl⟩ := List.mem_map.1 hq
  simp only [List.mem_append] at hc
  rcases hc with (hc | hc) | hc
  · exact h1 c hc l hl
  · exact h2 c hc l hl
  · exact h3 c hc l hl

/-- The closed form of a substituted formula. -/
def closed (names : List Str) (pre : List (List (Lit Q))) (g : Bool → List (List (Lit Q))) (n : Nat) (cs : List (List Int)) : CNF Str :=
  ⟨names, expand (fun i b => encode (fun q => (gnames pre (g true) (g false)).length * i + (gnames pre (g true) (g false)).idxOf q + 1) (g b)) cs ++
    (List.range n).flatMap fun i => encode (fun q => (gnames pre (g true) (g false)).length * i + (gnames pre (g true) (g false)).idxOf q + 1) pre⟩

theorem subst_closed {sh : V → Str} (hs : Function.Injective sh) {F : CNF V} (hF : Proper F.vars F.clauses) {pre : V → List (List (Lit Str))}
    {tr : Bool → V → List (List (Lit Str))} {preG : List (List (Lit (Str × Nat)))} {g : Bool → List (List (Lit (Str × Nat)))}
    (hp : ∀ v, pre v = gmap (copyName sh v) preG) (ht : ∀ b v, tr b v = gmap (copyName sh v) (g b)) (h1 : Named preG) (h2 : ∀ b, Named (g b)) :
    baseSubst F pre tr none = pure (closed (F.vars.flatMap fun v => (gnames preG (g true) (g false)).map (copyName sh v)) preG g F.vars.length F.clauses) := by
  have e1 : pre = fun v => gmap (copyName sh v) preG := funext hp
  have e2 : tr = fun b v => gmap (copyName sh v) (g b) := funext fun b => funext fun v => ht b v
  rw [e1, e2, baseSubst_closed hF (copyName sh) preG g fun v _ w _ q hq r hr e =>
    copyName_inj hs (named_gnames h1 (h2 true) (h2 false) q hq) (named_gnames h1 (h2 true) (h2 false) r hr) e]
  rfl

end
end NDP.Cnfgen
