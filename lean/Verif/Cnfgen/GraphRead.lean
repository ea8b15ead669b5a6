import Verif.Cnfgen.GraphIO
import Verif.Cnfgen.DimacsReader
/-
  C71: reading kthlist graph files.
-/
namespace NDP.Cnfgen
open NDP

/-! ### Lines -/

theorem strip_nl (x : Str) : strip (x ++ ['\n']) = strip x := strip_append_space x ['\n'] (by decide)
theorem splitWS_nl (x : Str) : splitWS (x ++ ['\n']) = splitWS x := splitWS_append_space x ['\n'] (by decide)

theorem startsWith_nl {c : Char} (hc : c ≠ '\n') (x : Str) : startsWith c (x ++ ['\n']) = startsWith c x := by
  cases x with
  | nil => simp [startsWith, Ne.symm hc]
  | cons d x => rfl

theorem splitOn_snoc {sep : Char} (c : Char) (hc : c ≠ sep) : ∀ x : Str, ∃ ws w, splitOn sep x = ws ++ [w] ∧ splitOn sep (x ++ [c]) = ws ++ [w ++ [c]]
  | [] => ⟨[], [], rfl, by simp [splitOn, hc]⟩
  | d :: x => by
    obtain ⟨ws, w, h1, h2⟩ := splitOn_snoc c hc x
    by_cases hd : d = sep
    · exact ⟨[] :: ws, w, by simp [splitOn, hd, h1], by simp [splitOn, hd, h2]⟩
    · cases ws with
      | nil => exact ⟨[], d :: w, by simp [splitOn, hd, h1], by simp [splitOn, hd, h2]⟩
      | cons v ws => exact ⟨(d :: v) :: ws, w, by simp [splitOn, hd, h1], by simp [splitOn, hd, h2]⟩

theorem kthParse_nl (x : Str) : kthParse (x ++ ['\n']) = kthParse x := by
  unfold kthParse
  rw [startsWith_nl (by decide), strip_nl]
  have : ':' ∉ x ++ ['\n'] ↔ ':' ∉ x := by simp
  simp only [this]
  congr 3
  obtain ⟨ws, w, h1, h2⟩ := splitOn_snoc (sep := ':') '\n' (by decide) x
  rw [h1, h2]
  match ws with
  | [] => rfl
  | [t] => show (match parseInt (strip t), mapOpt parseInt (splitWS (w ++ ['\n'])) with
      | some t, some ss => if ss.getLast? = some 0 then some (KthItem.adj t ss.dropLast) else none
      | _, _ => none) = _
           rw [splitWS_nl]; rfl
  | t :: u :: ws =>
    cases ws <;> rfl

theorem kthLine_nl (bip : Bool) (st : KthSt) (x : Str) : kthLine bip st (x ++ ['\n']) = kthLine bip st x := by
  unfold kthLine; rw [kthParse_nl]

theorem kthLine_nil (bip : Bool) (st : KthSt) : kthLine bip st [] = pure st := rfl

/-- The loop over the lines of the file is the loop over the pieces between line breaks. -/
theorem kthLoop_lines (bip : Bool) (text : Str) (st : KthSt) :
    (readlines text).foldlM (kthLine bip) st = (splitOn '\n' text).foldlM (kthLine bip) st := by
  have key : ∀ (ls : List Str), ls ≠ [] → ∀ st, (ls.dropLast.map (· ++ ['\n']) ++ (if ls.getLastD [] = [] then [] else [ls.getLastD []])).foldlM (kthLine bip) st =
      ls.foldlM (kthLine bip) st := by
    intro ls
    induction ls with
    | nil => intro h; exact absurd rfl h
    | cons l ls ih =>
      intro _ st
      cases ls with
      | nil =>
        by_cases hl : l = []
        · subst hl; rw [List.foldlM_cons, kthLine_nil]; rfl
        · simp [hl]
      | cons l' ls =>
        have := ih (by simp)
        simp only [List.dropLast_cons₂, List.map_cons, List.cons_append, List.foldlM_cons, kthLine_nl] at this ⊢
        congr 1
        funext s
        have := this s
        simpa using this
  exact key _ (splitOn_ne_nil _ _) st

theorem kthLoop_data (bip : Bool) (ls : List Str) : ∀ st : KthSt,
    ls.foldlM (kthLine bip) st = (ls.filter fun l => !startsWith 'c' l && decide (strip l ≠ [])).foldlM (kthLine bip) st := by
  induction ls with
  | nil => intro st; rfl
  | cons l ls ih =>
    intro st
    by_cases hc : startsWith 'c' l = true
    · have : kthLine bip st l = pure st := by unfold kthLine kthParse; rw [if_pos hc]; rfl
      rw [List.foldlM_cons, this, M.pure_bind, ih, List.filter_cons, if_neg (by simp [hc])]
    · by_cases hs : strip l = []
      · have : kthLine bip st l = pure st := by unfold kthLine kthParse; rw [if_neg hc, if_pos hs]; rfl
        rw [List.foldlM_cons, this, M.pure_bind, ih, List.filter_cons, if_neg (by simp [hs])]
      · rw [List.filter_cons, if_pos (by simp [hc, hs]), List.foldlM_cons, List.foldlM_cons]
        congr 1
        funext s
        exact ih s

theorem splitOn_two {sep : Char} {l t s : Str} (h : splitOn sep l = [t, s]) : l = t ++ sep :: s ∧ sep ∉ t ∧ sep ∉ s := by
  have h1 := joinWith_splitOn sep l
  rw [h] at h1
  have h2 := mem_splitOn_no_sep sep l
  rw [h] at h2
  exact ⟨by simpa [joinWith] using h1.symm, h2 t (by simp), h2 s (by simp)⟩

theorem dropWhile_dropWhile (p : Char → Bool) (s : Str) : (s.dropWhile p).dropWhile p = s.dropWhile p := by
  induction s with
  | nil => rfl
  | cons c s ih =>
    by_cases h : p c = true
    · simp [List.dropWhile_cons, h, ih]
    · simp [List.dropWhile_cons, h]

theorem strip_strip (s : Str) : strip (strip s) = strip s := by
  obtain ⟨a, b, ha, hb, e, e2⟩ := strip_decomp s
  have h1 : strip (s.dropWhile isPySpace) = strip s := by
    unfold strip; rw [dropWhile_dropWhile]
  rw [← strip_append_space _ b hb, ← e2, h1]

theorem parseInt_strip (s : Str) : parseInt (strip s) = parseInt s := by
  unfold parseInt
  rw [strip_strip]

/-- A data line is an adjacency line exactly when it is parsed as one. -/
theorem adjLine_iff {l : Str} (h1 : startsWith 'c' l = false) (h2 : strip l ≠ []) (a : Int × List Int) :
    AdjLine l a ↔ kthParse l = some (.adj a.1 a.2) := by
  unfold kthParse AdjLine
  rw [if_neg (by simp [h1]), if_neg h2]
  constructor
  · rintro ⟨x, y, rfl, hx, hy, p1, p2⟩
    rw [if_neg (by simp), splitOn_append_sep _ _ _ hx, splitOn_no_sep _ _ hy]
    dsimp only
    rw [parseInt_strip, p1, p2]
    simp
  · intro h
    split at h
    · cases hp : parseInt (strip l) <;> simp [hp] at h
    · split at h
      · rename_i t s hsp
        obtain ⟨e, ht, hs⟩ := splitOn_two hsp
        rw [parseInt_strip] at h
        cases hp : parseInt t with
        | none => simp [hp] at h
        | some t' =>
          cases hm : mapOpt parseInt (splitWS s) with
          | none => simp [hp, hm] at h
          | some ss =>
            simp only [hp, hm] at h
            split at h
            · rename_i hl
              simp only [Option.some.injEq, KthItem.adj.injEq] at h
              refine ⟨t, s, e, ht, hs, by rw [hp, h.1], ?_⟩
              rw [hm, ← h.2]
              congr 1
              exact (List.dropLast_append_getLast? 0 hl).symm
            · cases h
      · cases h

theorem specLine_iff {l : Str} (h1 : startsWith 'c' l = false) (h2 : strip l ≠ []) (n : Int) :
    (':' ∉ l ∧ parseInt l = some n) ↔ kthParse l = some (.spec n) := by
  unfold kthParse
  rw [if_neg (by simp [h1]), if_neg h2]
  constructor
  · rintro ⟨hc, hp⟩
    rw [if_pos hc, parseInt_strip, hp]; rfl
  · intro h
    split at h
    · rename_i hc
      rw [parseInt_strip] at h
      cases hp : parseInt l with
      | none => simp [hp] at h
      | some k => simp [hp] at h; exact ⟨hc, by rw [h]⟩
    · split at h
      · rename_i t s _
        cases hp : parseInt (strip t) with
        | none => simp [hp] at h
        | some t' =>
          cases hm : mapOpt parseInt (splitWS s) with
          | none => simp [hp, hm] at h
          | some ss => simp only [hp, hm] at h; split at h <;> cases h
      · cases h

/-- Data lines are not comments or blank. -/
theorem data_item {l : Str} (h1 : startsWith 'c' l = false) (h2 : strip l ≠ []) :
    kthParse l = none ∨ (∃ n, kthParse l = some (.spec n)) ∨ ∃ t ss, kthParse l = some (.adj t ss) := by
  cases h : kthParse l with
  | none => exact .inl rfl
  | some i =>
    cases i with
    | spec n => exact .inr (.inl ⟨n, rfl⟩)
    | adj t ss => exact .inr (.inr ⟨t, ss, rfl⟩)
    | comment =>
      exfalso
      unfold kthParse at h
      rw [if_neg (by simp [h1]), if_neg h2] at h
      split at h
      · cases hp : parseInt (strip l) <;> simp [hp] at h
      · split at h
        · rename_i t s _
          cases hp : parseInt (strip t) with
          | none => simp [hp] at h
          | some t' =>
            cases hm : mapOpt parseInt (splitWS s) with
            | none => simp [hp, hm] at h
            | some ss => simp only [hp, hm] at h; split at h <;> cases h
        · cases h
    | blank =>
      exfalso
      unfold kthParse at h
      rw [if_neg (by simp [h1]), if_neg h2] at h
      split at h
      · cases hp : parseInt (strip l) <;> simp [hp] at h
      · split at h
        · rename_i t s _
          cases hp : parseInt (strip t) with
          | none => simp [hp] at h
          | some t' =>
            cases hm : mapOpt parseInt (splitWS s) with
            | none => simp [hp, hm] at h
            | some ss => simp only [hp, hm] at h; split at h <;> cases h
        · cases h

theorem mem_dataLines {text l : Str} (h : l ∈ dataLines text) : startsWith 'c' l = false ∧ strip l ≠ [] := by
  have := (List.mem_filter.1 h).2
  simpa using this

/-! ### The loop -/

/-- The vertices of the lines are in range. -/
def InRange (n : Int) (adj : List (Int × List Int)) : Prop := ∀ a ∈ adj, (1 ≤ a.1 ∧ a.1 ≤ n) ∧ ∀ s ∈ a.2, 1 ≤ s ∧ s ≤ n

/-- The loop over the adjacency lines. -/
def adjLoop (bip : Bool) (st : KthSt) (adj : List (Int × List Int)) : M KthSt := adj.foldlM (fun st a => adjStep bip st a.1 a.2) st

theorem adjStep_cases (bip : Bool) (st : KthSt) (t : Int) (ss : List Int) :
    (∃ st', adjStep bip st t ss = pure st' ∧ st'.n = st.n) ∨ adjStep bip st t ss = raise .valueError := by
  unfold adjStep
  cases bip with
  | false => exact .inl ⟨_, rfl, rfl⟩
  | true =>
    rw [if_pos rfl]
    unfold recolor
    dsimp only
    split
    · exact .inr rfl
    · exact .inl ⟨_, rfl, rfl⟩

theorem kthStep_adj {bip : Bool} {st : KthSt} {t : Int} {ss : List Int} (h : (1 ≤ t ∧ t ≤ st.n) ∧ ∀ s ∈ ss, 1 ≤ s ∧ s ≤ st.n) :
    kthStep bip st (.adj t ss) = adjStep bip st t ss := by
  unfold kthStep
  dsimp only
  rw [if_neg (by omega), if_neg]
  rintro ⟨x, hx, hh⟩
  have := h.2 x hx; omega

theorem kthStep_adj_bad {bip : Bool} {st : KthSt} {t : Int} {ss : List Int} (h : ¬ ((1 ≤ t ∧ t ≤ st.n) ∧ ∀ s ∈ ss, 1 ≤ s ∧ s ≤ st.n)) :
    kthStep bip st (.adj t ss) = raise .valueError := by
  unfold kthStep
  dsimp only
  split
  · rfl
  · rename_i h1
    rw [if_pos]
    by_contra hc
    apply h
    refine ⟨by omega, fun s hs => ?_⟩
    by_contra hcon
    exact hc ⟨s, hs, by omega⟩

theorem dataLoop (bip : Bool) (ls : List Str) (hd : ∀ l ∈ ls, startsWith 'c' l = false ∧ strip l ≠ []) : ∀ st : KthSt, 0 ≤ st.n →
    (∃ adj, List.Forall₂ AdjLine ls adj ∧ InRange st.n adj ∧ ls.foldlM (kthLine bip) st = adjLoop bip st adj) ∨
    ((¬ ∃ adj, List.Forall₂ AdjLine ls adj ∧ InRange st.n adj) ∧ ls.foldlM (kthLine bip) st = raise .valueError) := by
  induction ls with
  | nil => intro st _; exact .inl ⟨[], .nil, by simp [InRange], rfl⟩
  | cons l ls ih =>
    intro st hn
    have ih := ih (fun l hl => hd l (by simp [hl]))
    obtain ⟨d1, d2⟩ := hd l (by simp)
    rw [List.foldlM_cons]
    rcases data_item d1 d2 with hp | ⟨n, hp⟩ | ⟨t, ss, hp⟩
    · refine .inr ⟨?_, by unfold kthLine; rw [hp]; rfl⟩
      rintro ⟨adj, hf, _⟩
      cases hf with
      | cons ha _ => rw [adjLine_iff d1 d2, hp] at ha; cases ha
    · refine .inr ⟨?_, by unfold kthLine; rw [hp]; show (kthStep bip st (.spec n) >>= _) = _; unfold kthStep; dsimp only; rw [if_pos (.inl hn)]; rfl⟩
      rintro ⟨adj, hf, _⟩
      cases hf with
      | cons ha _ => rw [adjLine_iff d1 d2, hp] at ha; cases ha
    · have ek : kthLine bip st l = kthStep bip st (.adj t ss) := by unfold kthLine; rw [hp]; rfl
      have ha : AdjLine l (t, ss) := (adjLine_iff d1 d2 (t, ss)).2 hp
      rw [ek]
      by_cases hr : (1 ≤ t ∧ t ≤ st.n) ∧ ∀ s ∈ ss, 1 ≤ s ∧ s ≤ st.n
      · rw [kthStep_adj hr]
        rcases adjStep_cases bip st t ss with ⟨st', hs, hn'⟩ | hs
        · rw [hs, M.pure_bind]
          rcases ih st' (by omega) with ⟨adj, h1, h2, h3⟩ | ⟨h1, h2⟩
          · refine .inl ⟨(t, ss) :: adj, .cons ha h1, ?_, ?_⟩
            · intro a hm
              rcases List.mem_cons.1 hm with rfl | hm
              · exact hr
              · rw [hn'] at h2; exact h2 a hm
            · rw [h3]; unfold adjLoop; rw [List.foldlM_cons]; dsimp only; rw [hs]; rfl
          · refine .inr ⟨?_, h2⟩
            rintro ⟨adj, hf, hr'⟩
            cases hf with
            | cons _ hf => exact h1 ⟨_, hf, fun a hm => by rw [hn']; exact hr' a (by simp [hm])⟩
        · rw [hs, M.raise_bind]
          by_cases hex : ∃ adj, List.Forall₂ AdjLine (l :: ls) adj ∧ InRange st.n adj
          · obtain ⟨adj, hf, hr'⟩ := hex
            refine .inl ⟨adj, hf, hr', ?_⟩
            cases hf with
            | @cons _ a _ adj' ha' hf =>
              rw [adjLine_iff d1 d2, hp] at ha'
              simp only [Option.some.injEq, KthItem.adj.injEq] at ha'
              unfold adjLoop
              rw [List.foldlM_cons]
              rw [← ha'.1, ← ha'.2, hs, M.raise_bind]
          · exact .inr ⟨hex, rfl⟩
      · rw [kthStep_adj_bad hr]
        refine .inr ⟨?_, rfl⟩
        rintro ⟨adj, hf, hr'⟩
        cases hf with
        | @cons _ a _ adj' ha' hf =>
          rw [adjLine_iff d1 d2, hp] at ha'
          simp only [Option.some.injEq, KthItem.adj.injEq] at ha'
          apply hr
          have := hr' a (by simp)
          rw [ha'.1, ha'.2]; exact this

theorem forall₂_adj_unique {ls : List Str} (hd : ∀ l ∈ ls, startsWith 'c' l = false ∧ strip l ≠ []) {a b : List (Int × List Int)}
    (ha : List.Forall₂ AdjLine ls a) (hb : List.Forall₂ AdjLine ls b) : a = b := by
  induction ha generalizing b with
  | nil => cases hb; rfl
  | @cons l x ls xs h1 h2 ih =>
    cases hb with
    | @cons _ y _ ys h3 h4 =>
      obtain ⟨d1, d2⟩ := hd l (by simp)
      rw [adjLine_iff d1 d2] at h1 h3
      rw [h1] at h3
      simp only [Option.some.injEq, KthItem.adj.injEq] at h3
      rw [ih (fun l hl => hd l (by simp [hl])) h4, Prod.ext_iff.2 h3]

/-- The state before the adjacency lines. -/
def kthStart (directed : Bool) (n : Nat) : KthSt := { n := n, G := { directed := directed, nodes := intsTo n } }

theorem intsTo_nodup (n : Nat) : (intsTo n).Nodup := List.Nodup.map (fun _ _ e => Int.ofNat.inj e) (oneTo_nodup n)

theorem mem_intsTo {n : Nat} {i : Int} : i ∈ intsTo n ↔ 1 ≤ i ∧ i ≤ n := by
  unfold intsTo
  rw [List.mem_map]
  constructor
  · rintro ⟨k, hk, rfl⟩; have := mem_oneTo.1 hk; show 1 ≤ (k : Int) ∧ (k : Int) ≤ n; omega
  · rintro ⟨h1, h2⟩; exact ⟨i.toNat, mem_oneTo.2 (by omega), by show (i.toNat : Int) = i; omega⟩

theorem addNodes_nodes {G : Nx Int} {vs : List Int} (hn : vs.Nodup) (hv : ∀ v ∈ vs, v ∉ G.nodes) : G.addNodes vs = { G with nodes := G.nodes ++ vs } := by
  induction vs generalizing G with
  | nil => simp [Nx.addNodes]
  | cons v vs ih =>
    rw [List.nodup_cons] at hn
    have e : G.addNode v = { G with nodes := G.nodes ++ [v] } := by unfold Nx.addNode; rw [if_neg (hv v (by simp))]
    unfold Nx.addNodes at ih ⊢
    rw [List.foldl_cons, e, ih hn.2]
    · simp
    · intro w hw
      simp only [List.mem_append, List.mem_singleton, not_or]
      exact ⟨hv w (by simp [hw]), fun e => hn.1 (e ▸ hw)⟩

/-- The whole loop. -/
theorem kthLoop (ty : GType) (text : Str) :
    (∃ n adj, KthText text n adj ∧ (readlines text).foldlM (kthLine (decide (ty = .bipartite))) { G := { directed := ty.directed } } =
      adjLoop (decide (ty = .bipartite)) (kthStart ty.directed n) adj) ∨
    ((¬ ∃ n adj, KthText text n adj) ∧
      ((readlines text).foldlM (kthLine (decide (ty = .bipartite))) { G := { directed := ty.directed } } = raise .valueError ∨
       (readlines text).foldlM (kthLine (decide (ty = .bipartite))) { G := { directed := ty.directed } } = pure { G := { directed := ty.directed } })) := by
  rw [kthLoop_lines, kthLoop_data]
  change (∃ n adj, KthText text n adj ∧ (dataLines text).foldlM _ _ = _) ∨ (_ ∧ ((dataLines text).foldlM _ _ = _ ∨ (dataLines text).foldlM _ _ = _))
  have hd := fun l (h : l ∈ dataLines text) => mem_dataLines h
  unfold KthText
  generalize dataLines text = ds at hd ⊢
  cases ds with
  | nil => exact .inr ⟨(by rintro ⟨n, adj, l, ls, h, _⟩; cases h), .inr rfl⟩
  | cons l ls =>
    obtain ⟨d1, d2⟩ := hd l (by simp)
    rw [List.foldlM_cons]
    have hno : ∀ (hp : ∀ n : Nat, kthParse l ≠ some (.spec n)), ¬ ∃ (n : Nat) (adj : List (Int × List Int)), ∃ l' ls', l :: ls = l' :: ls' ∧ ':' ∉ l' ∧ parseInt l' = some (n : Int) ∧
        List.Forall₂ AdjLine ls' adj ∧ ∀ a ∈ adj, (1 ≤ a.1 ∧ a.1 ≤ (n : Int)) ∧ ∀ s ∈ a.2, 1 ≤ s ∧ s ≤ (n : Int) := by
      rintro hp ⟨n, adj, l', ls', e, h1, h2, _⟩
      simp only [List.cons.injEq] at e
      obtain ⟨rfl, rfl⟩ := e
      exact hp n ((specLine_iff d1 d2 n).1 ⟨h1, h2⟩)
    rcases data_item d1 d2 with hp | ⟨n, hp⟩ | ⟨t, ss, hp⟩
    · exact .inr ⟨hno (by simp [hp]), .inl (by unfold kthLine; rw [hp]; rfl)⟩
    · by_cases hn : n < 0
      · refine .inr ⟨hno (by rw [hp]; intro k e; simp at e; omega), .inl ?_⟩
        unfold kthLine; rw [hp]
        change (kthStep (decide (ty = .bipartite)) { G := { directed := ty.directed } } (.spec n) >>= _) = _
        unfold kthStep; dsimp only; rw [if_pos (.inr hn)]; rfl
      · obtain ⟨k, rfl⟩ := Int.eq_ofNat_of_zero_le (Int.not_lt.1 hn)
        have e : kthLine (decide (ty = .bipartite)) { G := { directed := ty.directed } } l = pure (kthStart ty.directed k) := by
          unfold kthLine; rw [hp]
          change kthStep (decide (ty = .bipartite)) { G := { directed := ty.directed } } (.spec (k : Int)) = _
          unfold kthStep
          dsimp only
          rw [if_neg (by simp), Int.toNat_natCast, addNodes_nodes (intsTo_nodup k) (by simp)]
          simp [kthStart]
        rw [e, M.pure_bind]
        rcases dataLoop (decide (ty = .bipartite)) ls (fun l hl => hd l (by simp [hl])) (kthStart ty.directed k) (by simp [kthStart]) with
          ⟨adj, h1, h2, h3⟩ | ⟨h1, h2⟩
        · exact .inl ⟨k, adj, ⟨l, ls, rfl, ((specLine_iff d1 d2 k).2 hp).1, ((specLine_iff d1 d2 k).2 hp).2, h1, h2⟩, h3⟩
        · refine .inr ⟨?_, .inl h2⟩
          rintro ⟨n, adj, l', ls', e, h3, h4, h5, h6⟩
          simp only [List.cons.injEq] at e
          obtain ⟨rfl, rfl⟩ := e
          have := (specLine_iff d1 d2 n).1 ⟨h3, h4⟩
          rw [hp] at this
          simp only [Option.some.injEq, KthItem.spec.injEq] at this
          exact h1 ⟨adj, h5, by show InRange (k : Int) adj; rw [this]; exact h6⟩
    · refine .inr ⟨hno (by simp [hp]), .inl ?_⟩
      unfold kthLine; rw [hp]
      change (kthStep (decide (ty = .bipartite)) { G := { directed := ty.directed } } (.adj t ss) >>= _) = _
      unfold kthStep
      dsimp only
      rw [if_pos (by show t < 1 ∨ t > -1; omega)]; rfl

theorem KthText.unique {text : Str} {n n' : Nat} {adj adj' : List (Int × List Int)} (h : KthText text n adj) (h' : KthText text n' adj') :
    n = n' ∧ adj = adj' := by
  obtain ⟨l, ls, e, h1, h2, h3, _⟩ := h
  obtain ⟨l', ls', e', h1', h2', h3', _⟩ := h'
  rw [e] at e'
  simp only [List.cons.injEq] at e'
  obtain ⟨rfl, rfl⟩ := e'
  rw [h2] at h2'
  refine ⟨by simpa using h2', ?_⟩
  exact forall₂_adj_unique (fun l hl => mem_dataLines (text := text) (by rw [e]; simp [hl])) h3 h3'

end NDP.Cnfgen
