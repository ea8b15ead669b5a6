import Verif.Cnfgen.BipGen
/-
  C74: random regular bipartite graphs (`graphs.py` 980-1070).
-/
namespace NDP.Cnfgen
open NDP

/-! ### Exchanging -/

theorem perm_set (T : List Nat) (t : Nat) : ∀ k, k < T.length → (T.getD k 0 :: T.set k t).Perm (t :: T) := by
  induction T with
  | nil => intro k hk; cases hk
  | cons x T ih =>
    intro k hk
    cases k with
    | zero => exact List.Perm.swap _ _ _
    | succ k =>
      have := ih k (by simpa using hk)
      rw [List.getD_cons_succ, List.set_cons_succ]
      exact ((List.Perm.swap _ _ _).trans (this.cons x)).trans (List.Perm.swap _ _ _)

theorem swapAt_spec {A : List Nat} {i e : Nat} (hi : i ≤ e) (he : e < A.length) :
    (swapAt A i e).length = A.length ∧ (A.getD e 0 :: (swapAt A i e).drop (i + 1)).Perm (A.drop i) := by
  refine ⟨by simp [swapAt], ?_⟩
  unfold swapAt
  have hlen : i < A.length := by omega
  have hdrop : A.drop i = A.getD i 0 :: A.drop (i + 1) := by
    rw [List.drop_eq_getElem_cons hlen]; simp [List.getD_eq_getElem?_getD, hlen]
  rcases Nat.eq_or_lt_of_le hi with rfl | hlt
  · rw [hdrop, List.drop_set_of_lt (by omega), List.drop_set_of_lt (by omega)]
  · have h1 : ((A.set i (A.getD e 0)).set e (A.getD i 0)).drop (i + 1) = (A.drop (i + 1)).set (e - (i + 1)) (A.getD i 0) := by
      rw [List.drop_set, if_neg (by omega), List.drop_set_of_lt (by omega)]
    have h2 : A.getD e 0 = (A.drop (i + 1)).getD (e - (i + 1)) 0 := by
      simp only [List.getD_eq_getElem?_getD, List.getElem?_drop]
      congr 2
      omega
    rw [h1, h2, hdrop]
    exact perm_set _ _ _ (by rw [List.length_drop]; omega)

theorem getD_mem_drop {A : List Nat} {i e : Nat} (hi : i ≤ e) (he : e < A.length) : A.getD e 0 ∈ A.drop i := by
  obtain ⟨_, h⟩ := swapAt_spec hi he
  exact h.mem_iff.1 (by simp)

theorem count_flatten_replicate (d : Nat) {L : List Nat} (hL : L.Nodup) {u : Nat} (hu : u ∈ L) : (List.replicate d L).flatten.count u = d := by
  induction d with
  | zero => simp
  | succ d ih => rw [List.replicate_succ, List.flatten_cons, List.count_append, ih, List.count_eq_one_of_mem hL hu]; omega

theorem mem_flatten_replicate {d : Nat} {L : List Nat} {u : Nat} (h : u ∈ (List.replicate d L).flatten) : u ∈ L := by
  obtain ⟨l, hl, hu⟩ := List.mem_flatten.1 h
  rw [(List.mem_replicate.1 hl).2] at hu
  exact hu

/-! ### The turns -/

/-- What is known before turn `i`: the edges added (`G.edges`), what was left aside when a turn was skipped, what remains. -/
structure RInv (L R A0 B0 : List Nat) (i : Nat) (st : RegSt) : Prop where
  lenA : st.A.length = A0.length
  lenB : st.B.length = A0.length
  bip : st.G.IsBip L R
  nodup : st.G.edges.Nodup
  sides : ∀ e ∈ st.G.edges, e.1 ∈ L ∧ e.2 ∈ R
  rest : ∃ XA XB : List Nat, st.G.edges.length + XA.length = i ∧ st.G.edges.length + XB.length = i ∧
    (st.G.edges.map Prod.fst ++ XA ++ st.A.drop i).Perm A0 ∧ (st.G.edges.map Prod.snd ++ XB ++ st.B.drop i).Perm B0

theorem hasEdge_edges {G : Nx Nat} {L R : List Nat} (h : G.IsBip L R) (u v : Nat) : G.hasEdge u v = true ↔ (u, v) ∈ G.edges ∨ (v, u) ∈ G.edges := by
  rw [hasEdge_iff, h.directed]; simp

/-- Adding a new edge between the sides. -/
theorem IsBip.addEdge {G : Nx Nat} {L R : List Nat} (h : G.IsBip L R) {a b : Nat} (ha : a ∈ L) (hb : b ∈ R) (hn : G.hasEdge a b = false) :
    (G.addEdge a b).IsBip L R ∧ (G.addEdge a b).edges = G.edges ++ [(a, b)] := by
  have ha' : a ∈ G.nodes := by rw [h.nodes]; simp [ha]
  have hb' : b ∈ G.nodes := by rw [h.nodes]; simp [hb]
  have s := addEdge_same ha' hb'
  refine ⟨⟨s.directed.trans h.directed, s.nodes.trans h.nodes, h.nodup, by rw [s.color]; exact h.left, by rw [s.color]; exact h.right, ?_⟩, ?_⟩
  · intro u v huv
    rw [hasEdge_addEdge ha' hb'] at huv
    rcases huv with h' | ⟨rfl, rfl⟩ | ⟨_, rfl, rfl⟩
    · exact h.cross u v h'
    · exact .inl ⟨ha, hb⟩
    · exact .inr ⟨hb, ha⟩
  · rw [addEdge_mem ha' hb', if_neg (by simp [hn])]

theorem RInv.turn {L R A0 B0 : List Nat} (hA0 : ∀ x ∈ A0, x ∈ L) (hB0 : ∀ x ∈ B0, x ∈ R) {i : Nat} {st st' : RegSt}
    (h : RInv L R A0 B0 i st) (hi : i < A0.length) {pick : Nat → Nat → Nat × Nat} {d : Nat}
    (hp : ∀ k, (i ≤ (pick i k).1 ∧ (pick i k).1 < A0.length) ∧ i ≤ (pick i k).2 ∧ (pick i k).2 < A0.length)
    (e : regTurn pick d A0.length st i = some st') : RInv L R A0 B0 (i + 1) st' := by
  obtain ⟨XA, XB, x1, x2, x3, x4⟩ := h.rest
  have hLA : i < st.A.length := by rw [h.lenA]; exact hi
  have hLB : i < st.B.length := by rw [h.lenB]; exact hi
  unfold regTurn at e
  split at e
  · rename_i k hk
    have hnew := List.find?_some hk
    simp only [Bool.not_eq_true'] at hnew
    have e := (Option.some.inj e).symm
    obtain ⟨⟨p1, p2⟩, p3, p4⟩ := hp k
    generalize (pick i k).1 = ea at *
    generalize (pick i k).2 = eb at *
    obtain ⟨lA, pA⟩ := swapAt_spec p1 (h.lenA ▸ p2)
    obtain ⟨lB, pB⟩ := swapAt_spec p3 (h.lenB ▸ p4)
    have ha : st.A.getD ea 0 ∈ L := hA0 _ (x3.mem_iff.1 (by simp [getD_mem_drop p1 (h.lenA ▸ p2), -List.getD_eq_getElem?_getD]))
    have hb : st.B.getD eb 0 ∈ R := hB0 _ (x4.mem_iff.1 (by simp [getD_mem_drop p3 (h.lenB ▸ p4), -List.getD_eq_getElem?_getD]))
    generalize st.A.getD ea 0 = a at *
    generalize st.B.getD eb 0 = b at *
    obtain ⟨k1, k2⟩ := IsBip.addEdge h.bip ha hb hnew
    have hno : (a, b) ∉ st.G.edges := by
      intro hm
      have := (hasEdge_edges h.bip a b).2 (.inl hm)
      rw [hnew] at this; cases this
    subst e
    refine ⟨lA.trans h.lenA, lB.trans h.lenB, k1, ?_, ?_, XA, XB, ?_, ?_, ?_, ?_⟩
    · dsimp only; rw [k2]; exact List.Nodup.append h.nodup (by simp) (by simpa using hno)
    · dsimp only; rw [k2]
      intro e he
      rcases List.mem_append.1 he with he | he
      · exact h.sides e he
      · rw [List.mem_singleton] at he; subst he; exact ⟨ha, hb⟩
    · dsimp only; rw [k2]; simp only [List.length_append, List.length_singleton]; omega
    · dsimp only; rw [k2]; simp only [List.length_append, List.length_singleton]; omega
    · dsimp only; rw [k2]
      refine List.Perm.trans ?_ x3
      rw [List.map_append, List.map_singleton, List.append_assoc, List.append_assoc, List.append_assoc]
      refine List.Perm.append_left _ ?_
      refine List.Perm.trans ?_ (List.Perm.append_left XA pA)
      show (a :: (XA ++ _)).Perm _
      exact (List.perm_middle ).symm
    · dsimp only; rw [k2]
      refine List.Perm.trans ?_ x4
      rw [List.map_append, List.map_singleton, List.append_assoc, List.append_assoc, List.append_assoc]
      refine List.Perm.append_left _ ?_
      refine List.Perm.trans ?_ (List.Perm.append_left XB pB)
      show (b :: (XB ++ _)).Perm _
      exact (List.perm_middle ).symm
  · split at e
    · have e := Option.some.inj e
      rw [← e]
      refine ⟨h.lenA, h.lenB, h.bip, h.nodup, h.sides, XA ++ [st.A[i]], XB ++ [st.B[i]], ?_, ?_, ?_, ?_⟩
      · rw [List.length_append, List.length_singleton]; omega
      · rw [List.length_append, List.length_singleton]; omega
      · rw [List.drop_eq_getElem_cons hLA] at x3
        simpa using x3
      · rw [List.drop_eq_getElem_cons hLB] at x4
        simpa using x4
    · cases e

theorem RInv.loop {L R A0 B0 : List Nat} (hA0 : ∀ x ∈ A0, x ∈ L) (hB0 : ∀ x ∈ B0, x ∈ R) {pick : Nat → Nat → Nat × Nat} {d : Nat}
    (hp : ∀ i < A0.length, ∀ k, (i ≤ (pick i k).1 ∧ (pick i k).1 < A0.length) ∧ i ≤ (pick i k).2 ∧ (pick i k).2 < A0.length) :
    ∀ (m i : Nat) (st st' : RegSt), i + m ≤ A0.length → RInv L R A0 B0 i st → (List.range' i m).foldlM (regTurn pick d A0.length) st = some st' →
    RInv L R A0 B0 (i + m) st' := by
  intro m
  induction m with
  | zero => intro i st st' _ h e; have := Option.some.inj e; subst this; exact h
  | succ m ih =>
    intro i st st' hi h e
    rw [List.range'_succ, List.foldlM_cons] at e
    cases e1 : regTurn pick d A0.length st i with
    | none => rw [e1] at e; cases e
    | some st1 =>
      rw [e1] at e
      have := ih (i + 1) st1 st' (by omega) (h.turn hA0 hB0 (by omega) (hp i (by omega)) e1) e
      rw [show i + (m + 1) = i + 1 + m by omega]; exact this

theorem RInv.start {L R A0 B0 : List Nat} (hLR : (L ++ R).Nodup) (hlen : B0.length = A0.length) : RInv L R A0 B0 0 ⟨A0, B0, bipBase L R⟩ := by
  have hb := bipBase_addEdges hLR (es := []) (by simp)
  have hE : (bipBase L R).edges = [] := by rw [bipBase_eq hLR]
  refine ⟨rfl, hlen, hb.1, by simp [hE], by simp [hE], [], [], by simp [hE], by simp [hE], ?_, ?_⟩
  · simp [hE]
  · simp [hE]

theorem length_flatten_replicate (d : Nat) (L : List Nat) : (List.replicate d L).flatten.length = d * L.length := by
  simp [List.length_flatten, List.sum_replicate]

/-- The lists `A`, `B` of a call. -/
theorem regAttempt_inv {pick : Nat → Nat → Nat × Nat} {l r d : Nat} (hdvd : r ∣ l * d)
    (hp : ∀ i < l * d, ∀ k, (i ≤ (pick i k).1 ∧ (pick i k).1 < l * d) ∧ i ≤ (pick i k).2 ∧ (pick i k).2 < l * d) {G : Nx Nat}
    (e : regAttempt pick l r d = some G) :
    ∃ st, st.G = G ∧ RInv (List.range l) ((List.range r).map (l + ·)) (List.replicate d (List.range l)).flatten
      (List.replicate (l * d / r) ((List.range r).map (l + ·))).flatten (l * d) st := by
  unfold regAttempt at e
  rw [Option.map_eq_some_iff] at e
  obtain ⟨st, e1, e2⟩ := e
  refine ⟨st, e2, ?_⟩
  have hlA : (List.replicate d (List.range l)).flatten.length = l * d := by
    rw [length_flatten_replicate, List.length_range, Nat.mul_comm]
  have hlB : (List.replicate (l * d / r) ((List.range r).map (l + ·))).flatten.length = l * d := by
    rw [length_flatten_replicate, List.length_map, List.length_range, Nat.div_mul_cancel hdvd]
  have key := RInv.loop (L := List.range l) (R := (List.range r).map (l + ·)) (A0 := (List.replicate d (List.range l)).flatten)
    (B0 := (List.replicate (l * d / r) ((List.range r).map (l + ·))).flatten) (fun x hx => mem_flatten_replicate hx) (fun x hx => mem_flatten_replicate hx)
    (pick := pick) (d := d) (by rw [hlA]; exact hp) (l * d) 0 _ st (by rw [hlA]; omega) (RInv.start (sides_nodup l r) (hlB.trans hlA.symm))
    (by rw [hlA, ← List.range_eq_range']; exact e1)
  rwa [Nat.zero_add] at key

/-! ### C74 -/

/-- The choices are in the ranges given to `random.randint`. -/
def PickOK (n : Nat) (pick : Nat → Nat → Nat × Nat) : Prop :=
  ∀ i < n, ∀ k, (i ≤ (pick i k).1 ∧ (pick i k).1 < n) ∧ i ≤ (pick i k).2 ∧ (pick i k).2 < n

/-- **C74, regular graphs: refusals.** -/
theorem C74_regular_errors (pick : Nat → Nat → Nat → Nat × Nat) (depth : Nat) (l r d : Int) :
    ((l < 0 ∨ r < 0 ∨ d < 0) → bipRegular pick depth l r d = raise .valueError) ∧
    (0 ≤ l → r = 0 → 0 ≤ d → bipRegular pick depth l r d = raise .zeroDivisionError) ∧
    (0 ≤ l → 0 < r → 0 ≤ d → ¬ r ∣ l * d → bipRegular pick depth l r d = raise .valueError) := by
  unfold bipRegular
  refine ⟨fun h => by rw [if_pos h], fun h1 h2 h3 => by rw [if_neg (by omega), if_pos h2], fun h1 h2 h3 h4 => ?_⟩
  rw [if_neg (by omega), if_neg (by omega), if_pos (fun h => h4 (Int.dvd_of_emod_eq_zero h))]

/-- **C74, regular graphs: what is returned.** For every sequence of choices the call ends with `RecursionError` or a bipartite graph with at most
`l*d` edges, at most `d` at each left vertex and at most `l*d/r` at each right vertex; with exactly `l*d` edges it is regular. -/
theorem C74_regular (pick : Nat → Nat → Nat → Nat × Nat) (depth l r d : Nat) (hr : 0 < r) (hdvd : r ∣ l * d) (hp : ∀ j, PickOK (l * d) (pick j)) :
    bipRegular pick depth l r d = raise .recursionError ∨
    ∃ G, bipRegular pick depth l r d = pure G ∧ G.IsBip (List.range l) ((List.range r).map (l + ·)) ∧ G.edges.Nodup ∧ G.edges.length ≤ l * d ∧
      (∀ u < l, G.degree u ≤ d) ∧ (∀ v < r, G.degree (l + v) ≤ l * d / r) ∧
      (G.edges.length = l * d → (∀ u < l, G.degree u = d) ∧ ∀ v < r, G.degree (l + v) = l * d / r) := by
  unfold bipRegular
  rw [if_neg (by omega), if_neg (by omega), if_neg (by
    intro h; apply h; have : (r : Int) ∣ ((l * d : Nat) : Int) := Int.natCast_dvd_natCast.2 hdvd
    push_cast at this; exact Int.emod_eq_zero_of_dvd this)]
  simp only [Int.toNat_natCast]
  cases e : (List.range depth).findSome? fun j => regAttempt (pick j) l r d with
  | none => exact .inl rfl
  | some G =>
    refine .inr ⟨G, rfl, ?_⟩
    obtain ⟨j, _, hj⟩ := List.exists_of_findSome?_eq_some e
    obtain ⟨st, rfl, inv⟩ := regAttempt_inv hdvd (hp j) hj
    obtain ⟨XA, XB, x1, x2, x3, x4⟩ := inv.rest
    have hlA : (List.replicate d (List.range l)).flatten.length = l * d := by
      rw [length_flatten_replicate, List.length_range, Nat.mul_comm]
    rw [List.drop_eq_nil_of_le (by rw [inv.lenA, hlA]), List.append_nil] at x3
    rw [List.drop_eq_nil_of_le (by rw [inv.lenB, hlA]), List.append_nil] at x4
    have dl : ∀ u < l, st.G.degree u = (st.G.edges.map Prod.fst).count u := fun u hu =>
      degree_fst inv.bip inv.nodup inv.sides (hasEdge_edges inv.bip) (List.mem_range.2 hu)
    have dr : ∀ v < r, st.G.degree (l + v) = (st.G.edges.map Prod.snd).count (l + v) := fun v hv =>
      degree_snd inv.bip inv.nodup inv.sides (hasEdge_edges inv.bip) (List.mem_map.2 ⟨v, List.mem_range.2 hv, rfl⟩)
    have cl : ∀ u < l, (st.G.edges.map Prod.fst).count u + XA.count u = d := by
      intro u hu
      rw [← List.count_append, x3.count_eq, count_flatten_replicate d List.nodup_range (List.mem_range.2 hu)]
    have cr : ∀ v < r, (st.G.edges.map Prod.snd).count (l + v) + XB.count (l + v) = l * d / r := by
      intro v hv
      rw [← List.count_append, x4.count_eq, count_flatten_replicate _ (List.nodup_range.map (fun _ _ h => by simpa using h))
        (List.mem_map.2 ⟨v, List.mem_range.2 hv, rfl⟩)]
    refine ⟨inv.bip, inv.nodup, by omega, ?_, ?_, ?_⟩
    · intro u hu; rw [dl u hu]; have := cl u hu; omega
    · intro v hv; rw [dr v hv]; have := cr v hv; omega
    · intro hfull
      have hXA : XA = [] := List.eq_nil_of_length_eq_zero (by omega)
      have hXB : XB = [] := List.eq_nil_of_length_eq_zero (by omega)
      subst hXA hXB
      refine ⟨fun u hu => ?_, fun v hv => ?_⟩
      · rw [dl u hu]; simpa using cl u hu
      · rw [dr v hv]; simpa using cr v hv

theorem foldlM_pick_congr {p q : Nat → Nat → Nat × Nat} {d n : Nat} : ∀ (is : List Nat) (st : RegSt), (∀ i ∈ is, p i = q i) →
    is.foldlM (regTurn p d n) st = is.foldlM (regTurn q d n) st := by
  intro is
  induction is with
  | nil => intro st _; rfl
  | cons i is ih =>
    intro st h
    rw [List.foldlM_cons, List.foldlM_cons]
    have : regTurn p d n st i = regTurn q d n st i := by unfold regTurn; rw [h i (by simp)]
    rw [this]
    congr 1
    funext s
    exact ih s (fun j hj => h j (by simp [hj]))

theorem exists_getD_drop {A : List Nat} {i a : Nat} (h : a ∈ A.drop i) : ∃ e, i ≤ e ∧ e < A.length ∧ A.getD e 0 = a := by
  obtain ⟨k, hk, e⟩ := List.mem_iff_getElem.1 h
  rw [List.length_drop] at hk
  refine ⟨i + k, by omega, by omega, ?_⟩
  rw [List.getElem_drop] at e
  rw [← e]
  simp [List.getD_eq_getElem?_getD, show i + k < A.length by omega]

/-- Any order of new edges can be drawn. -/
theorem draw_edges {L R : List Nat} {d n : Nat} (hd : 0 < d) : ∀ (Q : List (Nat × Nat)) (i : Nat) (st : RegSt), i + Q.length = n → st.A.length = n → st.B.length = n →
    st.G.IsBip L R → (st.G.edges ++ Q).Nodup → (∀ e ∈ st.G.edges ++ Q, e.1 ∈ L ∧ e.2 ∈ R) → (Q.map Prod.fst).Perm (st.A.drop i) → (Q.map Prod.snd).Perm (st.B.drop i) →
    ∃ pick st', PickOK n pick ∧ (List.range' i Q.length).foldlM (regTurn pick d n) st = some st' ∧ st'.G.edges = st.G.edges ++ Q ∧ st'.G.IsBip L R := by
  intro Q
  induction Q with
  | nil =>
    intro i st hi hA hB hG _ _ _ _
    exact ⟨fun j _ => (j, j), st, fun j hj k => ⟨⟨le_refl _, hj⟩, le_refl _, hj⟩, rfl, by simp, hG⟩
  | cons e Q ih =>
    intro i st hi hA hB hG hnd hQ pA pB
    rw [List.length_cons] at hi
    obtain ⟨ea, a1, a2, a3⟩ := exists_getD_drop (A := st.A) (i := i) (a := e.1) (pA.mem_iff.1 (by simp))
    obtain ⟨eb, b1, b2, b3⟩ := exists_getD_drop (A := st.B) (i := i) (a := e.2) (pB.mem_iff.1 (by simp))
    obtain ⟨heL, heR⟩ := hQ e (by simp)
    have hdis := (List.nodup_append.1 hG.nodup).2.2
    have hnew : st.G.hasEdge e.1 e.2 = false := by
      rw [← Bool.not_eq_true, hasEdge_edges hG]
      rintro (h | h)
      · exact (List.nodup_append.1 hnd).2.2 e h e (by simp) rfl
      · exact hdis e.2 (hQ _ (List.mem_append.2 (.inl h))).1 e.2 heR rfl
    obtain ⟨k1, k2⟩ := IsBip.addEdge hG heL heR hnew
    obtain ⟨lA, qA⟩ := swapAt_spec a1 a2
    obtain ⟨lB, qB⟩ := swapAt_spec b1 b2
    rw [a3] at qA
    rw [b3] at qB
    obtain ⟨pick, st', h1, h2, h3, h4⟩ := ih (i + 1) ⟨swapAt st.A i ea, swapAt st.B i eb, st.G.addEdge e.1 e.2⟩ (by omega) (lA.trans hA) (lB.trans hB) k1
      (by dsimp only; rw [k2]; simpa using hnd) (by dsimp only; rw [k2]; simpa using hQ)
      (by have := pA.trans qA.symm; rw [List.map_cons] at this; exact List.perm_cons _ |>.1 this)
      (by have := pB.trans qB.symm; rw [List.map_cons] at this; exact List.perm_cons _ |>.1 this)
    refine ⟨fun j k => if j = i then (ea, eb) else pick j k, st', ?_, ?_, ?_, h4⟩
    · intro j hj k
      dsimp only
      split
      · rename_i hji
        subst hji
        exact ⟨⟨a1, hA ▸ a2⟩, b1, hB ▸ b2⟩
      · exact h1 j hj k
    · rw [List.length_cons, List.range'_succ, List.foldlM_cons]
      have hturn : regTurn (fun j k => if j = i then (ea, eb) else pick j k) d n st i =
          some ⟨swapAt st.A i ea, swapAt st.B i eb, st.G.addEdge e.1 e.2⟩ := by
        unfold regTurn
        have hf : (List.range (3 * d * d)).find? (fun k => !st.G.hasEdge (st.A.getD ((fun j k => if j = i then (ea, eb) else pick j k) i k).1 0)
            (st.B.getD ((fun j k => if j = i then (ea, eb) else pick j k) i k).2 0)) = some 0 := by
          have : ∃ m, 3 * d * d = m + 1 := ⟨3 * d * d - 1, by have : 0 < 3 * d * d := by positivity
                                                              omega⟩
          obtain ⟨m, hm⟩ := this
          rw [hm, List.range_succ_eq_map, List.find?_cons_of_pos]
          dsimp only
          rw [if_pos rfl]
          dsimp only
          rw [a3, b3, hnew]; rfl
        rw [hf]
        simp only [if_pos]
        rw [a3, b3]
      rw [hturn]
      refine Eq.trans ?_ h2
      refine foldlM_pick_congr _ _ ?_
      intro j hj
      have := List.mem_range'_1.1 hj
      funext k
      rw [if_neg (by omega)]
    · rw [h3]; dsimp only; rw [k2]; simp

/-- **C74, regular graphs: all of them.** Every bipartite graph with degree `d` on the left and `l*d/r` on the right is returned for some choices. -/
theorem C74_regular_all (depth l r d : Nat) (hdep : 0 < depth) (hr : 0 < r) (hdvd : r ∣ l * d) {es : List (Nat × Nat)} (hnd : es.Nodup)
    (hes : ∀ e ∈ es, e.1 < l ∧ l ≤ e.2 ∧ e.2 < l + r) (hl : ∀ u < l, (es.map Prod.fst).count u = d) (hR : ∀ v < r, (es.map Prod.snd).count (l + v) = l * d / r) :
    ∃ pick : Nat → Nat → Nat → Nat × Nat, (∀ j, PickOK (l * d) (pick j)) ∧
      ∃ G, bipRegular pick depth l r d = pure G ∧ ∀ u v, u < l → l ≤ v → (G.hasEdge u v = true ↔ (u, v) ∈ es) := by
  have hlA : (List.replicate d (List.range l)).flatten.length = l * d := by
    rw [length_flatten_replicate, List.length_range, Nat.mul_comm]
  have hlB : (List.replicate (l * d / r) ((List.range r).map (l + ·))).flatten.length = l * d := by
    rw [length_flatten_replicate, List.length_map, List.length_range, Nat.div_mul_cancel hdvd]
  have hmR : ∀ v, v ∈ (List.range r).map (l + ·) ↔ l ≤ v ∧ v < l + r := by
    intro v
    rw [List.mem_map]
    constructor
    · rintro ⟨w, hw, rfl⟩; have := List.mem_range.1 hw; omega
    · intro h; exact ⟨v - l, List.mem_range.2 (by omega), by omega⟩
  have pA : (es.map Prod.fst).Perm (List.replicate d (List.range l)).flatten := by
    rw [List.perm_iff_count]
    intro u
    by_cases hu : u < l
    · rw [hl u hu, count_flatten_replicate d List.nodup_range (List.mem_range.2 hu)]
    · rw [List.count_eq_zero_of_not_mem, List.count_eq_zero_of_not_mem]
      · intro h; exact hu (List.mem_range.1 (mem_flatten_replicate h))
      · intro h; obtain ⟨e, he, rfl⟩ := List.mem_map.1 h; exact hu (hes e he).1
  have pB : (es.map Prod.snd).Perm (List.replicate (l * d / r) ((List.range r).map (l + ·))).flatten := by
    rw [List.perm_iff_count]
    intro v
    by_cases hv : l ≤ v ∧ v < l + r
    · have := hR (v - l) (by omega)
      rw [show l + (v - l) = v by omega] at this
      rw [this, count_flatten_replicate _ (List.nodup_range.map (fun _ _ h => by simpa using h)) ((hmR v).2 hv)]
    · rw [List.count_eq_zero_of_not_mem, List.count_eq_zero_of_not_mem]
      · intro h; exact hv ((hmR v).1 (mem_flatten_replicate h))
      · intro h; obtain ⟨e, he, rfl⟩ := List.mem_map.1 h; exact hv (hes e he).2
  have hlen : es.length = l * d := by rw [← hlA, ← pA.length_eq, List.length_map]
  have hb := (bipBase_addEdges (sides_nodup l r) (es := []) (by simp)).1
  have hE : (bipBase (List.range l) ((List.range r).map (l + ·))).edges = [] := by rw [bipBase_eq (sides_nodup l r)]
  have key : ∃ pick st', PickOK (l * d) pick ∧ (List.range' 0 es.length).foldlM (regTurn pick d (l * d))
      ⟨(List.replicate d (List.range l)).flatten, (List.replicate (l * d / r) ((List.range r).map (l + ·))).flatten, bipBase (List.range l) ((List.range r).map (l + ·))⟩ = some st' ∧
      st'.G.edges = es ∧ st'.G.IsBip (List.range l) ((List.range r).map (l + ·)) := by
    rcases Nat.eq_zero_or_pos d with hd | hd
    · subst hd
      have : es = [] := List.eq_nil_of_length_eq_zero (by simpa using hlen)
      subst this
      exact ⟨fun j _ => (j, j), _, fun j hj k => ⟨⟨le_refl _, hj⟩, le_refl _, hj⟩, rfl, hE, hb⟩
    · obtain ⟨pick, st', h1, h2, h3, h4⟩ := draw_edges (L := List.range l) (R := (List.range r).map (l + ·)) hd es 0
        ⟨(List.replicate d (List.range l)).flatten, (List.replicate (l * d / r) ((List.range r).map (l + ·))).flatten, bipBase (List.range l) ((List.range r).map (l + ·))⟩
        (by rw [Nat.zero_add]; exact hlen) hlA hlB hb (by dsimp only; rw [hE]; exact hnd)
        (by dsimp only; rw [hE, List.nil_append]; intro e he; exact ⟨List.mem_range.2 (hes e he).1, (hmR _).2 (hes e he).2⟩)
        (by simpa using pA) (by simpa using pB)
      exact ⟨pick, st', h1, h2, by rw [h3]; dsimp only; rw [hE]; rfl, h4⟩
  obtain ⟨pick, st', h1, h2, h3, h4⟩ := key
  refine ⟨fun _ => pick, fun _ => h1, st'.G, ?_, ?_⟩
  · unfold bipRegular
    rw [if_neg (by omega), if_neg (by omega), if_neg (by
      intro h; apply h; have : (r : Int) ∣ ((l * d : Nat) : Int) := Int.natCast_dvd_natCast.2 hdvd
      push_cast at this; exact Int.emod_eq_zero_of_dvd this)]
    simp only [Int.toNat_natCast]
    have hat : regAttempt pick l r d = some st'.G := by
      unfold regAttempt
      dsimp only
      rw [hlen] at h2
      rw [List.range_eq_range' (n := l * d), h2]; rfl
    obtain ⟨m, rfl⟩ : ∃ m, depth = m + 1 := ⟨depth - 1, by omega⟩
    rw [List.range_succ_eq_map, List.findSome?_cons, hat]
  · intro u v hu hv
    rw [hasEdge_edges h4, h3]
    constructor
    · rintro (h | h)
      · exact h
      · have := (hes _ h).1; dsimp only at this; omega
    · exact .inl

/-! ### Cases -/

/-- If the first call finishes, its graph is returned whatever the recursion limit. -/
theorem bipRegular_first {l r d : Nat} (pick : Nat → Nat → Nat → Nat × Nat) (depth : Nat) (hr : r ≠ 0) (hm : (l * d) % r = 0) {G : Nx Nat}
    (h : regAttempt (pick 0) l r d = some G) : bipRegular pick (depth + 1) l r d = pure G := by
  unfold bipRegular
  have h1 : ¬ ((l : Int) < 0 ∨ (r : Int) < 0 ∨ (d : Int) < 0) := by omega
  have h2 : ¬ ((r : Int) = 0) := by omega
  have h3 : ¬ (((l : Int) * d) % r ≠ 0) := by
    have : (((l * d % r : Nat)) : Int) = 0 := by rw [hm]; rfl
    push_cast at this; simpa using this
  rw [if_neg h1, if_neg h2, if_neg h3, List.range_succ_eq_map]
  simp [h]

/-- The choices of the refutation: in turn 1, all twelve tries hit the edge that exists already. -/
def skipPick (i _k : Nat) : Nat × Nat := if i = 0 then (0, 0) else if i = 1 then (2, 2) else if i = 2 then (2, 3) else (3, 3)

/-- **C74, refuted: the graph need not be regular.** After unlucky draws a turn is skipped although an edge could be added: 2 and 2 vertices, degree 2
asked for, vertex 1 gets one edge. -/
theorem C74_regular_refuted : PickOK (2 * 2) skipPick ∧ ∀ depth, ∃ G, bipRegular (fun _ => skipPick) (depth + 1) 2 2 2 = pure G ∧ G.edges.length = 3 ∧ G.degree 1 = 1 := by
  refine ⟨?_, fun depth => ⟨_, bipRegular_first (l := 2) (r := 2) (d := 2) _ depth (by decide) (by decide) rfl, by decide, by decide⟩⟩
  intro i hi k
  have : i = 0 ∨ i = 1 ∨ i = 2 ∨ i = 3 := by omega
  rcases this with rfl | rfl | rfl | rfl <;> simp [skipPick]

/-- Lucky draws give a regular graph. -/
example (depth : Nat) : ∃ G, bipRegular (fun _ i _ => if i = 1 then (2, 3) else (i, i)) (depth + 1) 2 2 2 = pure G ∧ G.edges.length = 4 ∧ G.degree 1 = 2 :=
  ⟨_, bipRegular_first (l := 2) (r := 2) (d := 2) _ depth (by decide) (by decide) rfl, by decide, by decide⟩

end NDP.Cnfgen
