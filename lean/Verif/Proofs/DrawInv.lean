import Verif.Proofs.Draw
import Verif.Proofs.Determ
import Verif.SpecDraw
/- What the drawing of one process contains. -/
namespace NDP
open Spec SetObj
variable {H : Type} [DecidableEq H] (hash : Str → H) (a : Args) (im : Mode)

@[simp] theorem drawnNodes_append (d e : List (Dot H)) : drawnNodes (d ++ e) = drawnNodes d ++ drawnNodes e :=
  List.filterMap_append ..

@[simp] theorem redMarks_append (d e : List (Dot H)) : redMarks (d ++ e) = redMarks d ++ redMarks e :=
  List.filterMap_append ..

@[simp] theorem arrowsFrom_append (d e : List (Dot H)) (h : H) :
    arrowsFrom (d ++ e) h = arrowsFrom d h ++ arrowsFrom e h := List.filterMap_append ..

@[simp] theorem nodesAt_append (d e : List (Target H)) : nodesAt (d ++ e) = nodesAt d ++ nodesAt e :=
  List.filterMap_append ..

@[simp] theorem arrowsInto_append (d e : List (Dot H)) (c : H) :
    arrowsInto (d ++ e) c = arrowsInto d c + arrowsInto e c := by
  unfold arrowsInto; rw [List.filterMap_append, List.count_append]

/-- What the drawing of one process contains, whatever databases it uses. -/
structure DrawInv (root : H) (ps : PS H) (d : List (Dot H)) : Prop where
  nodes : drawnNodes d = ps.nodesChildren.keys
  nd : ps.nodesChildren.keys.Nodup
  kids : ∀ h, nodesAt (arrowsFrom d h) = (ps.nodesChildren.get? h).getD []
  src : ∀ p c, Dot.edge p c ∈ d → p ∈ ps.nodesChildren.keys
  dst : ∀ p c, Dot.edge p c ∈ d → c ∈ ps.nodesChildren.keys
  red : ∀ c ∈ redMarks d, c ∈ ps.nodesChildren.keys
  sat : Dot.const ['T'] ∈ d ↔ ps.isSat = true
  cnt : ∀ c, (drawnNodes d).count c + (redMarks d).count c = arrowsInto d c + if c = root then 1 else 0
  uniques : (drawnNodes d).length = ps.uniques
  hits : (redMarks d).length = ps.redundantHits
  lab : a.useGlobalDb = false → ∀ h b t i, Dot.node h b t i ∈ d → h = hash t
  const : ∀ p t, Dot.edgeConst p t ∈ d → t = ['T'] ∨ t = ['F']
  constT : ∀ t, Dot.const t ∈ d ↔ ∃ p, Dot.edgeConst p t ∈ d
  head : (drawnNodes d).head? = some root

theorem head?_append_some {α : Type} {l m : List α} {x : α} (h : l.head? = some x) : (l ++ m).head? = some x := by
  cases l with
  | nil => simp at h
  | cons y l => simpa using h

theorem DrawInv.child {root p : H} {ps ps' : PS H} {d : List (Dot H)} {pulled : Bool} {ch ch' : SetObj H} {b t b' : Str}
    (h : DrawInv hash a root ps d) (hh : Handled hash pulled (some p) ps ch b t ps' ch') (ht : ch'.toStr = pure t)
    (hpu : a.useGlobalDb = false → pulled = false) :
    DrawInv hash a root ps' (d ++ dotsFor p b' t ch') := by
  obtain ⟨h1, h2, h3, h4, h5, h6, h7, h8, h9, h10, h11, h12, h13, h14⟩ := h
  cases hh with
  | const v hv hv' hst hnc hsat hu hhi =>
    have htt : t = [if v then 'T' else 'F'] := by
      rw [toStr_value hv'] at ht
      exact ((M.pure_inj _ _).1 ht).symm
    have hd : dotsFor p b' t ch' = [.const t, .edgeConst p t] := by unfold dotsFor; rw [hst]
    rw [hd]
    refine ⟨?_, ?_, ?_, ?_, ?_, ?_, ?_, ?_, ?_, ?_, ?_, ?_, ?_, ?_⟩
    · simpa [drawnNodes, hnc] using h1
    · rwa [hnc]
    · intro k
      rw [hnc, ← h3 k, arrowsFrom_append, nodesAt_append]
      by_cases hk : p = k <;> simp [arrowsFrom, nodesAt, hk]
    · intro p' c hm; rw [hnc]; exact h4 p' c (by simpa using hm)
    · intro p' c hm; rw [hnc]; exact h5 p' c (by simpa using hm)
    · intro c hm; rw [hnc]; exact h6 c (by simpa [redMarks] using hm)
    · rw [hsat]
      simp only [List.mem_append, List.mem_cons, Dot.const.injEq, reduceCtorEq, List.not_mem_nil, or_false, h7,
        Bool.or_eq_true, htt]
      cases v <;> simp
    · intro c
      have := h8 c
      simpa [drawnNodes, redMarks, arrowsInto] using this
    · rw [hu, ← h9]; simp [drawnNodes]
    · rw [hhi, ← h10]; simp [redMarks]
    · intro hg k b t i hm; exact h11 hg k b t i (by simpa using hm)
    · intro p' t' hm
      simp only [List.mem_append, List.mem_cons, reduceCtorEq, Dot.edgeConst.injEq, List.not_mem_nil, or_false, false_or] at hm
      rcases hm with hm | ⟨_, rfl⟩
      · exact h12 p' t' hm
      · rw [htt]; cases v <;> simp
    · intro t'
      simp only [List.mem_append, List.mem_cons, reduceCtorEq, Dot.edgeConst.injEq, Dot.const.injEq, List.not_mem_nil, or_false, false_or, h13 t']
      constructor
      · rintro (⟨q, hq⟩ | rfl)
        · exact ⟨q, Or.inl hq⟩
        · exact ⟨p, Or.inr ⟨rfl, rfl⟩⟩
      · rintro ⟨q, hq | ⟨_, rfl⟩⟩
        · exact Or.inl ⟨q, hq⟩
        · exact Or.inr rfl
    · rw [drawnNodes_append]; exact head?_append_some h14
  | uniq c p' ks hid hp hst hnew hks hnc hsat hu hhi hha =>
    cases hp
    have hcn : c ∉ ps.nodesChildren.keys := (Dict.get?_eq_none_iff _ _).1 hnew
    have hpk : p ∈ (ps.nodesChildren.set c []).keys := Dict.mem_keys_of_get? hks
    have hkeys : ps'.nodesChildren.keys = ps.nodesChildren.keys ++ [c] := by
      rw [hnc, Dict.keys_set_of_mem _ _ _ hpk, Dict.keys_set_of_not_mem _ _ _ hcn]
    have hd : ∃ i, dotsFor p b' t ch' = [.node c b' t i, .edge p c] := by unfold dotsFor; rw [hst, hid]; exact ⟨_, rfl⟩
    obtain ⟨i, hd⟩ := hd
    rw [hd]
    have hmem : ∀ k, k ∈ ps.nodesChildren.keys → k ∈ ps'.nodesChildren.keys := by
      intro k hk; rw [hkeys]; exact List.mem_append_left _ hk
    have hp' : p ∈ ps'.nodesChildren.keys := by rw [hnc, Dict.mem_keys_set]; exact Or.inl rfl
    have hc' : c ∈ ps'.nodesChildren.keys := by rw [hkeys]; simp
    refine ⟨?_, ?_, ?_, ?_, ?_, ?_, ?_, ?_, ?_, ?_, ?_, ?_, ?_, ?_⟩
    · rw [hkeys, drawnNodes_append, h1]; rfl
    · rw [hkeys, List.nodup_append]
      refine ⟨h2, by simp, ?_⟩
      intro x hx y hy
      rw [List.mem_singleton] at hy
      subst hy
      rintro rfl
      exact hcn hx
    · intro k
      rw [arrowsFrom_append, nodesAt_append, h3 k, hnc, Dict.get?_set]
      by_cases hk : k = p
      · subst hk
        simp only [if_true, Option.getD_some]
        have : (ps.nodesChildren.get? k).getD [] = ks := by
          rw [Dict.get?_set] at hks
          split at hks
          · next e => rw [← e, hnew]; simpa using hks
          · rw [hks]; rfl
        rw [this]
        simp [arrowsFrom, nodesAt]
      · have hk' : ¬ p = k := fun e => hk e.symm
        rw [if_neg hk', Dict.get?_set]
        have : nodesAt (arrowsFrom [Dot.node c b' t i, Dot.edge p c] k) = [] := by simp [arrowsFrom, nodesAt, hk']
        rw [this, List.append_nil]
        split
        · next e => rw [← e, hnew]; rfl
        · rfl
    · intro q c' hm
      simp only [List.mem_append, List.mem_cons, reduceCtorEq, Dot.edge.injEq, List.not_mem_nil, or_false, false_or] at hm
      rcases hm with hm | ⟨rfl, _⟩
      · exact hmem _ (h4 q c' hm)
      · exact hp'
    · intro q c' hm
      simp only [List.mem_append, List.mem_cons, reduceCtorEq, Dot.edge.injEq, List.not_mem_nil, or_false, false_or] at hm
      rcases hm with hm | ⟨_, rfl⟩
      · exact hmem _ (h5 q c' hm)
      · exact hc'
    · intro c' hm; exact hmem _ (h6 c' (by simpa [redMarks] using hm))
    · rw [hsat, ← h7]; simp
    · intro c'
      have := h8 c'
      simp only [drawnNodes_append, redMarks_append, arrowsInto_append, List.count_append]
      have e1 : (drawnNodes [Dot.node c b' t i, Dot.edge p c]).count c' = arrowsInto [Dot.node c b' t i, Dot.edge p c] c' := by
        simp [drawnNodes, arrowsInto]
      have e2 : redMarks [Dot.node c b' t i, Dot.edge p c] = [] := rfl
      rw [e2]
      simp only [List.count_nil]
      omega
    · rw [hu, ← h9]; simp [drawnNodes]
    · rw [hhi, ← h10]; simp [redMarks]
    · intro hg k b2 t2 i2 hm
      simp only [List.mem_append, List.mem_cons, reduceCtorEq, Dot.node.injEq, List.not_mem_nil, or_false] at hm
      rcases hm with hm | ⟨rfl, rfl, rfl, rfl⟩
      · exact h11 hg k b2 t2 i2 hm
      · exact hha (hpu hg)
    · intro p' t' hm; exact h12 p' t' (by simpa using hm)
    · intro t'; simpa using h13 t'
    · rw [drawnNodes_append]; exact head?_append_some h14
  | red c p' ks hid hp hst hold hks hnc hsat hu hhi hha =>
    cases hp
    have hpk : p ∈ ps.nodesChildren.keys := Dict.mem_keys_of_get? hks
    have hck : c ∈ ps.nodesChildren.keys := (Dict.mem_keys_iff _ _).2 hold
    have hkeys : ps'.nodesChildren.keys = ps.nodesChildren.keys := by
      rw [hnc, Dict.keys_set_of_mem _ _ _ hpk]
    have hd : dotsFor p b' t ch' = [.again c, .edge p c] := by unfold dotsFor; rw [hst, hid]
    rw [hd]
    refine ⟨?_, ?_, ?_, ?_, ?_, ?_, ?_, ?_, ?_, ?_, ?_, ?_, ?_, ?_⟩
    · rw [hkeys, drawnNodes_append, h1]; simp [drawnNodes]
    · rwa [hkeys]
    · intro k
      rw [arrowsFrom_append, nodesAt_append, h3 k, hnc, Dict.get?_set]
      by_cases hk : k = p
      · subst hk
        simp only [if_true, Option.getD_some]
        rw [hks]
        simp [arrowsFrom, nodesAt]
      · have hk' : ¬ p = k := fun e => hk e.symm
        rw [if_neg hk']
        simp [arrowsFrom, nodesAt, hk']
    · intro q c' hm
      simp only [List.mem_append, List.mem_cons, reduceCtorEq, Dot.edge.injEq, List.not_mem_nil, or_false, false_or] at hm
      rw [hkeys]
      rcases hm with hm | ⟨rfl, _⟩
      · exact h4 q c' hm
      · exact hpk
    · intro q c' hm
      simp only [List.mem_append, List.mem_cons, reduceCtorEq, Dot.edge.injEq, List.not_mem_nil, or_false, false_or] at hm
      rw [hkeys]
      rcases hm with hm | ⟨_, rfl⟩
      · exact h5 q c' hm
      · exact hck
    · intro c' hm
      rw [hkeys]
      rw [redMarks_append, List.mem_append] at hm
      rcases hm with hm | hm
      · exact h6 c' hm
      · have : c' = c := by simpa [redMarks] using hm
        rw [this]; exact hck
    · rw [hsat, ← h7]; simp
    · intro c'
      have := h8 c'
      simp only [drawnNodes_append, redMarks_append, arrowsInto_append, List.count_append]
      have e1 : (redMarks [Dot.again c, Dot.edge p c]).count c' = arrowsInto [Dot.again c, Dot.edge p c] c' := by
        simp [redMarks, arrowsInto]
      have e2 : drawnNodes [Dot.again c, Dot.edge p c] = [] := rfl
      rw [e2]
      simp only [List.count_nil]
      omega
    · rw [hu, ← h9]; simp [drawnNodes]
    · rw [hhi, ← h10]; simp [redMarks]
    · intro hg k b2 t2 i2 hm; exact h11 hg k b2 t2 i2 (by simpa using hm)
    · intro p' t' hm; exact h12 p' t' (by simpa using hm)
    · intro t'; simpa using h13 t'
    · rw [drawnNodes_append]; exact head?_append_some h14

theorem getChildren_pulled {seen : List H} {g : Gdb H} {x x' s1 s2 : SetObj H} {p : Bool} (hg : a.useGlobalDb = false)
    (h : getChildren hash a seen g x = pure (s1, s2, p, x')) : p = false := by
  unfold getChildren at h
  rw [hg] at h
  simp only [Bool.false_eq_true, if_false] at h
  obtain ⟨r, _, h⟩ := M.bind_eq_pure.1 h
  cases r with
  | none => exact absurd h (M.raise_ne_pure _ _)
  | some r =>
    have e := (M.pure_inj _ _).1 h
    simp only [Prod.mk.injEq] at e
    exact e.2.2.1.symm

theorem DrawInv.congr {root : H} {ps ps' : PS H} {d : List (Dot H)} (h : DrawInv hash a root ps d)
    (e : ps'.nodesChildren = ps.nodesChildren ∧ ps'.isSat = ps.isSat ∧ ps'.uniques = ps.uniques ∧
      ps'.redundantHits = ps.redundantHits) : DrawInv hash a root ps' d := by
  obtain ⟨e1, e2, e3, e4⟩ := e
  obtain ⟨h1, h2, h3, h4, h5, h6, h7, h8, h9, h10, h11, h12, h13, h14⟩ := h
  refine ⟨?_, ?_, ?_, ?_, ?_, ?_, ?_, h8, ?_, ?_, h11, h12, h13, h14⟩
  · rw [e1]; exact h1
  · rw [e1]; exact h2
  · rw [e1]; exact h3
  · rw [e1]; exact h4
  · rw [e1]; exact h5
  · rw [e1]; exact h6
  · rw [e2]; exact h7
  · rw [e3]; exact h9
  · rw [e4]; exact h10

theorem DrawInv.pass {root : H} {ps ps' : PS H} {d e : List (Dot H)} {x : SetObj H} {p : H} {s1 s2 c1 c2 : SetObj H}
    {b1 t1 b2 t2 : Str} {pulled : Bool} {psA psB psC : PS H} (h : DrawInv hash a root ps d)
    (hp : DotPass hash a im ps ps' e x p s1 s2 c1 c2 b1 t1 b2 t2 pulled psA psB psC) :
    DrawInv hash a root ps' (d ++ e) := by
  have hpu : a.useGlobalDb = false → pulled = false := by
    intro hg
    obtain ⟨seen, x', hk⟩ := hp.kids
    exact getChildren_pulled hash a hg hk
  obtain ⟨_, u1, _, hu1, _, hh1⟩ := processChild_handled hash a im hp.one
  obtain ⟨_, u2, _, hu2, _, hh2⟩ := processChild_handled hash a im hp.two
  have e1 : u1 = t1 := (M.pure_inj _ _).1 (hu1.symm.trans hp.str1')
  have e2 : u2 = t2 := (M.pure_inj _ _).1 (hu2.symm.trans hp.str2')
  subst e1 e2
  rw [hp.dots, ← List.append_assoc]
  exact (((h.congr hash a hp.nc).child hash a hh1 hu1 hpu).child hash a hh2 hu2 hpu).congr hash a hp.nc'

end NDP
