import Verif.Model.Recursion
import Verif.Proofs.Stats
/- The bounded traversal against the unbounded one. -/
namespace NDP
variable {H : Type} [DecidableEq H]

/-- `x` is `y`, or the call stack overflowed. -/
def Over {α : Type} (x y : M α) : Prop := x = y ∨ x = raise .recursionError

theorem Over.refl {α : Type} (x : M α) : Over x x := Or.inl rfl

theorem Over.bind {α β : Type} {x y : M α} {f g : α → M β} (h : Over x y) (hf : ∀ a, Over (f a) (g a)) :
    Over (x >>= f) (y >>= g) := by
  rcases h with rfl | rfl
  · rcases M.cases x with rfl | ⟨e, rfl⟩ | ⟨a, rfl⟩
    · exact Or.inl rfl
    · exact Or.inl rfl
    · exact hf a
  · exact Or.inr rfl

theorem Over.ite {α : Type} {c : Prop} [Decidable c] {x y x' y' : M α} (h1 : Over x x') (h2 : Over y y') :
    Over (if c then x else y) (if c then x' else y') := by
  split
  · exact h1
  · exact h2

theorem Over.foldlM {α β : Type} {f g : β → α → M β} (h : ∀ b a, Over (f b a) (g b a)) :
    ∀ (l : List α) (b : β), Over (l.foldlM f b) (l.foldlM g b) := by
  intro l
  induction l with
  | nil => intro b; exact Over.refl _
  | cons x l ih => intro b; exact Over.bind (h b x) fun b' => ih b'

theorem subgraphStatsL_over (nc : Dict H (List H)) : ∀ (d : Nat) (n : H) (st : DfsSt H),
    Over (subgraphStatsL nc d n st) (subgraphStats nc n st) := by
  intro d
  induction d with
  | zero => intro n st; exact Or.inr rfl
  | succ d ih =>
    intro n st
    rw [subgraphStatsL, subgraphStats]
    by_cases h : n ∈ st.desc
    · rw [if_pos h, if_pos h]; exact Over.refl _
    · rw [if_neg h, if_neg h]
      exact Over.bind (Over.refl _) fun cs => Over.foldlM (fun b c => ih c b) cs _

theorem constructGraphStatsL_over (d : Nat) (root : H) (nc : Dict H (List H)) :
    Over (constructGraphStatsL d root nc) (constructGraphStats root nc) := by
  unfold constructGraphStatsL constructGraphStats
  apply Over.foldlM
  intro acc n
  refine Over.bind ?_ fun _ => Over.refl _
  unfold nodeStatsL nodeStats
  exact Over.bind (subgraphStatsL_over nc d n {}) fun _ => Over.refl _

theorem foldlM_congr_mem {α β : Type} {f g : β → α → M β} : ∀ (l : List α), (∀ a ∈ l, ∀ b, f b a = g b a) →
    ∀ b, l.foldlM f b = l.foldlM g b := by
  intro l
  induction l with
  | nil => intro _ b; rfl
  | cons x l ih =>
    intro h b
    rw [List.foldlM_cons, List.foldlM_cons, h x (by simp) b]
    congr 1
    funext b'
    exact ih (fun a ha => h a (by simp [ha])) b'

/-- Enough frames: with a rank that falls along edges, the rank of the start node. -/
theorem subgraphStatsL_eq {nc : Dict H (List H)} (hc : ClosedGraph nc) {rank : H → Nat}
    (hpos : ∀ n ∈ nc.keys, 0 < rank n) (hrk : ∀ h ks k, nc.get? h = some ks → k ∈ ks → rank k < rank h) :
    ∀ (d : Nat) (n : H) (st : DfsSt H), n ∈ nc.keys → rank n ≤ d →
      subgraphStatsL nc d n st = subgraphStats nc n st := by
  intro d
  induction d with
  | zero => intro n st hn hd; have := hpos n hn; omega
  | succ d ih =>
    intro n st hn hd
    rw [subgraphStatsL, subgraphStats]
    by_cases h : n ∈ st.desc
    · rw [if_pos h, if_pos h]
    · rw [if_neg h, if_neg h]
      obtain ⟨ks, hks⟩ := Dict.exists_get?_of_mem hn
      simp only [hks, orRaise_some, M.pure_bind]
      apply foldlM_congr_mem
      intro c hcs b
      have := hrk n ks c hks hcs
      exact ih c b (hc n ks c hks hcs) (by omega)

theorem constructGraphStatsL_eq {nc : Dict H (List H)} (hc : ClosedGraph nc) {rank : H → Nat}
    (hpos : ∀ n ∈ nc.keys, 0 < rank n) (hrk : ∀ h ks k, nc.get? h = some ks → k ∈ ks → rank k < rank h)
    {d : Nat} (hd : ∀ n ∈ nc.keys, rank n ≤ d) (root : H) :
    constructGraphStatsL d root nc = constructGraphStats root nc := by
  unfold constructGraphStatsL constructGraphStats
  apply foldlM_congr_mem
  intro n hn acc
  unfold nodeStatsL nodeStats
  rw [subgraphStatsL_eq hc hpos hrk d n {} hn (hd n hn)]

/-- `h` can be reached from `x` by `n` edges. -/
inductive Steps (nc : Dict H (List H)) (x : H) : Nat → H → Prop
  | refl : Steps nc x 0 x
  | tail {n : Nat} {y z : H} (h : Steps nc x n y) (e : z ∈ kidsAt nc y) : Steps nc x (n + 1) z

theorem Steps.head {nc : Dict H (List H)} {x y z : H} {n : Nat} (e : y ∈ kidsAt nc x) (h : Steps nc y n z) :
    Steps nc x (n + 1) z := by
  induction h with
  | refl => exact Steps.tail Steps.refl e
  | tail _ e' ih => exact Steps.tail ih e'

/-- What a traversal that did not overflow has visited: nodes less than `d` edges away, and all children of them. -/
structure Near (nc : Dict H (List H)) (d : Nat) (cs : List H) (st st' : DfsSt H) : Prop where
  mono : ∀ h ∈ st.desc, h ∈ st'.desc
  mem : ∀ c ∈ cs, c ∈ st'.desc
  near : ∀ h ∈ st'.desc, h ∈ st.desc ∨ ∃ c ∈ cs, ∃ j, j < d ∧ Steps nc c j h
  kids : ∀ h ∈ st'.desc, h ∈ st.desc ∨ ∀ k ∈ kidsAt nc h, k ∈ st'.desc

theorem subgraphStatsL_near (nc : Dict H (List H)) : ∀ (d : Nat) (n : H) (st st' : DfsSt H),
    subgraphStatsL nc d n st = pure st' → Near nc d [n] st st' := by
  intro d
  induction d with
  | zero => intro n st st' h; rw [subgraphStatsL] at h; exact absurd h (M.raise_ne_pure _ _)
  | succ d ih =>
    intro n st st' h
    rw [subgraphStatsL] at h
    by_cases hin : n ∈ st.desc
    · rw [if_pos hin] at h
      have e := (M.pure_inj _ _).1 h
      subst e
      exact ⟨fun _ h => h, by simpa using hin, fun h hh => Or.inl hh, fun h hh => Or.inl hh⟩
    · rw [if_neg hin] at h
      obtain ⟨ks, hks, h⟩ := M.bind_eq_pure.1 h
      rw [orRaise_eq_pure] at hks
      have hk : kidsAt nc n = ks := by simp [kidsAt, hks]
      have loop : ∀ (cs : List H) (s1 s2 : DfsSt H),
          cs.foldlM (fun st c => subgraphStatsL nc d c st) s1 = pure s2 → Near nc d cs s1 s2 := by
        intro cs
        induction cs with
        | nil =>
          intro s1 s2 e
          have e := (M.pure_inj _ _).1 e
          subst e
          exact ⟨fun _ h => h, by simp, fun h hh => Or.inl hh, fun h hh => Or.inl hh⟩
        | cons c cs ih2 =>
          intro s1 s2 e
          rw [List.foldlM_cons] at e
          obtain ⟨s3, e1, e2⟩ := M.bind_eq_pure.1 e
          have n1 := ih c s1 s3 e1
          have n2 := ih2 s3 s2 e2
          refine ⟨fun h hh => n2.mono h (n1.mono h hh), ?_, ?_, ?_⟩
          · intro x hx
            rcases List.mem_cons.1 hx with rfl | hx
            · exact n2.mono _ (n1.mem _ (by simp))
            · exact n2.mem x hx
          · intro h hh
            rcases n2.near h hh with h3 | ⟨x, hx, j, hj, hs⟩
            · rcases n1.near h h3 with h1 | ⟨x, hx, j, hj, hs⟩
              · exact Or.inl h1
              · rw [List.mem_singleton] at hx
                subst hx
                exact Or.inr ⟨x, by simp, j, hj, hs⟩
            · exact Or.inr ⟨x, by simp [hx], j, hj, hs⟩
          · intro h hh
            rcases n2.kids h hh with h3 | h3
            · rcases n1.kids h h3 with h1 | h1
              · exact Or.inl h1
              · exact Or.inr fun k hk' => n2.mono k (h1 k hk')
            · exact Or.inr h3
      have L := loop ks _ st' h
      refine ⟨fun x hx => L.mono x (by simp [hx]), ?_, ?_, ?_⟩
      · intro x hx
        rw [List.mem_singleton] at hx
        subst hx
        exact L.mono _ (by simp)
      · intro x hx
        rcases L.near x hx with hx | ⟨c, hc, j, hj, hs⟩
        · rcases List.mem_append.1 hx with hx | hx
          · exact Or.inl hx
          · rw [List.mem_singleton] at hx
            subst hx
            exact Or.inr ⟨x, by simp, 0, by omega, Steps.refl⟩
        · exact Or.inr ⟨n, by simp, j + 1, by omega, Steps.head (by rw [hk]; exact hc) hs⟩
      · intro x hx
        rcases L.kids x hx with hx' | hx'
        · rcases List.mem_append.1 hx' with hx' | hx'
          · exact Or.inl hx'
          · rw [List.mem_singleton] at hx'
            subst hx'
            right
            intro k hk'
            rw [hk] at hk'
            exact L.mem k hk'
        · exact Or.inr hx'

/-- A traversal that did not overflow: every node that can be reached is less than `d` edges away. -/
theorem subgraphStatsL_reach {nc : Dict H (List H)} {d : Nat} {n : H} {st : DfsSt H}
    (h : subgraphStatsL nc d n {} = pure st) {k : H} (hk : Relation.ReflTransGen (fun x y => y ∈ kidsAt nc x) n k) :
    ∃ j, j < d ∧ Steps nc n j k := by
  have N := subgraphStatsL_near nc d n {} st h
  have hm : k ∈ st.desc := by
    induction hk with
    | refl => exact N.mem n (by simp)
    | tail _ e ih =>
      rcases N.kids _ ih with h0 | h0
      · simp at h0
      · exact h0 _ e
  rcases N.near k hm with h0 | ⟨c, hc, j, hj, hs⟩
  · simp at h0
  · rw [List.mem_singleton] at hc
    subst hc
    exact ⟨j, hj, hs⟩

theorem foldlM_pure_mem {α β : Type} {f : β → α → M β} : ∀ (l : List α) (b b' : β), l.foldlM f b = pure b' →
    ∀ a ∈ l, ∃ b1 b2, f b1 a = pure b2 := by
  intro l
  induction l with
  | nil => intro b b' _ a ha; simp at ha
  | cons x l ih =>
    intro b b' h a ha
    rw [List.foldlM_cons] at h
    obtain ⟨b1, h1, h2⟩ := M.bind_eq_pure.1 h
    rcases List.mem_cons.1 ha with rfl | ha
    · exact ⟨b, b1, h1⟩
    · exact ih b1 b' h2 a ha

/-- A node at distance `d` or more from some recorded node: the statistics overflow the call stack. -/
theorem constructGraphStatsL_raises {nc : Dict H (List H)} (hc : ClosedGraph nc) (hnd : nc.keys.Nodup) {d : Nat} (root : H) {n k : H}
    (hn : n ∈ nc.keys) (hk : Relation.ReflTransGen (fun x y => y ∈ kidsAt nc x) n k)
    (hfar : ∀ j, Steps nc n j k → d ≤ j) : constructGraphStatsL d root nc = raise .recursionError := by
  rcases constructGraphStatsL_over d root nc with h | h
  · exfalso
    obtain ⟨stats, red, hok, _⟩ := constructGraphStats_ok hc hnd root
    rw [hok] at h
    unfold constructGraphStatsL at h
    obtain ⟨b1, b2, h1⟩ := foldlM_pure_mem _ _ _ h n hn
    obtain ⟨x, hx, _⟩ := M.bind_eq_pure.1 h1
    unfold nodeStatsL at hx
    obtain ⟨st, hst, _⟩ := M.bind_eq_pure.1 hx
    obtain ⟨j, hj, hs⟩ := subgraphStatsL_reach hst hk
    have := hfar j hs
    omega
  · exact h

end NDP
