import Verif.Cnfgen.DimacsProps
/-
  C70: the reader of the formula generator: which texts it accepts and what it returns for them.
-/
namespace NDP.Cnfgen
open NDP

/-! ### Specification -/

/-- A line as `readlines` gives it is a comment, a problem line or a line of numbers. -/
def isC (l : Str) : Bool := startsWith 'c' l
def isP (l : Str) : Bool := startsWith 'p' l

/-- The lines of numbers of a text. -/
def numberLines (text : Str) : List Str := (readlines text).filter fun l => !isC l && !isP l

/-- The problem lines of a text. -/
def problemLines (text : Str) : List Str := (readlines text).filter isP

/-- The line `p <something> n m`. -/
def SaysP (l : Str) (n m : Int) : Prop := ∃ a b x y, splitWS l = [a, b, x, y] ∧ parseInt x = some n ∧ parseInt y = some m

/-- The numbers of the text, all lines of numbers one after the other, are `ts`. -/
def Numbers (text : Str) (ts : List Int) : Prop := mapOpt parseInt ((numberLines text).flatMap splitWS) = some ts

/-! ### Proofs -/

theorem mapOpt_append {α β : Type} {f : α → Option β} : ∀ {l l' : List α} {r r' : List β}, mapOpt f l = some r → mapOpt f l' = some r' →
    mapOpt f (l ++ l') = some (r ++ r')
  | [], l', r, r', h, h' => by simp [mapOpt] at h; subst h; simpa using h'
  | a :: l, l', r, r', h, h' => by
    simp only [mapOpt] at h
    cases ha : f a with
    | none => simp [ha] at h
    | some b =>
      simp only [ha] at h
      cases hl : mapOpt f l with
      | none => simp [hl] at h
      | some bs =>
        simp only [hl, Option.some.injEq] at h
        subst h
        have := mapOpt_append hl h'
        simp [mapOpt, ha, this]

theorem mapOpt_append_inv {α β : Type} {f : α → Option β} : ∀ {l l' : List α} {r : List β}, mapOpt f (l ++ l') = some r →
    ∃ a b, mapOpt f l = some a ∧ mapOpt f l' = some b ∧ r = a ++ b
  | [], l', r, h => ⟨[], r, rfl, by simpa using h, rfl⟩
  | a :: l, l', r, h => by
    simp only [List.cons_append, mapOpt] at h
    cases ha : f a with
    | none => simp [ha] at h
    | some b =>
      simp only [ha] at h
      cases hl : mapOpt f (l ++ l') with
      | none => simp [hl] at h
      | some bs =>
        simp only [hl, Option.some.injEq] at h
        obtain ⟨x, y, h1, h2, h3⟩ := mapOpt_append_inv hl
        exact ⟨b :: x, y, by simp [mapOpt, ha, h1], h2, by rw [← h, h3]; simp⟩

/-- The clauses and the unfinished clause read so far are the numbers read so far. -/
structure DimSt.Read (st : DimSt) (ts : List Int) : Prop where
  eq : ts = st.clauses.flatMap (fun c => c ++ [0]) ++ st.buffer
  cl : ∀ c ∈ st.clauses, (0 : Int) ∉ c
  bu : (0 : Int) ∉ st.buffer

theorem DimSt.Read.lit {st : DimSt} {ts : List Int} (h : st.Read ts) (t : Int) : (dimLit st t).Read (ts ++ [t]) := by
  unfold dimLit
  split
  · rename_i e; subst e
    refine ⟨by rw [h.eq]; simp, ?_, by simp⟩
    intro c hc
    rcases List.mem_append.1 hc with hc | hc
    · exact h.cl c hc
    · rw [List.mem_singleton.1 hc]; exact h.bu
  · rename_i e
    refine ⟨by rw [h.eq]; simp, h.cl, ?_⟩
    intro hm
    rcases List.mem_append.1 hm with hm | hm
    · exact h.bu hm
    · exact e (List.mem_singleton.1 hm).symm

theorem DimSt.Read.lits {st : DimSt} {ts : List Int} (h : st.Read ts) (us : List Int) : (us.foldl dimLit st).Read (ts ++ us) := by
  induction us generalizing st ts with
  | nil => simpa using h
  | cons u us ih =>
    have := ih (h.lit u)
    simpa using this

theorem dimLit_nm (st : DimSt) (us : List Int) : (us.foldl dimLit st).n = st.n ∧ (us.foldl dimLit st).m = st.m := by
  induction us generalizing st with
  | nil => exact ⟨rfl, rfl⟩
  | cons u us ih =>
    rw [List.foldl_cons]
    obtain ⟨h1, h2⟩ := ih (dimLit st u)
    rw [h1, h2]; unfold dimLit; split <;> exact ⟨rfl, rfl⟩

/-- The three kinds of line. -/
theorem dimLine_kinds (st : DimSt) (l : Str) (hl : l ≠ []) :
    (isC l = true ∧ ((∃ h, dimLine st l = pure { st with header := h }) ∨ (l = ['c'] ∧ dimLine st l = raise .indexError))) ∨
    (isC l = false ∧ isP l = true ∧
      ((st.n < 0 ∧ ∃ n m, SaysP l n m ∧ dimLine st l = pure { st with n := n, m := m }) ∨
        ((0 ≤ st.n ∨ ¬ ∃ n m, SaysP l n m) ∧ dimLine st l = raise .valueError))) ∨
    (isC l = false ∧ isP l = false ∧
      ((∃ ts, mapOpt parseInt (splitWS l) = some ts ∧ dimLine st l = pure (ts.foldl dimLit st)) ∨
        (mapOpt parseInt (splitWS l) = none ∧ dimLine st l = raise .valueError))) := by
  match l with
  | [] => exact absurd rfl hl
  | c :: r =>
    by_cases hc : c = 'c'
    · subst hc
      refine .inl ⟨by simp [isC, startsWith], ?_⟩
      cases r with
      | nil => exact .inr ⟨rfl, rfl⟩
      | cons d r =>
        left
        by_cases hd : d = ' '
        · subst hd; exact ⟨_, rfl⟩
        · refine ⟨st.header ++ d :: r, ?_⟩
          unfold dimLine
          split
          · rename_i e; cases e
          · rename_i e
            injection e with _ e
            subst e
            split
            · rename_i e; cases e
            · rename_i e; simp at e; exact absurd e.1 hd
            · rfl
          · rename_i e; simp at e
          · rename_i h1 h2; exact absurd rfl (h1 _)
    · have hc' : isC (c :: r) = false := by simp [isC, startsWith, hc]
      by_cases hp : c = 'p'
      · subst hp
        refine .inr (.inl ⟨hc', by simp [isP, startsWith], ?_⟩)
        show (_ ∨ _)
        have e : dimLine st ('p' :: r) = (if st.n ≥ 0 then raise .valueError else
            match splitWS ('p' :: r) with
            | [_, _, nstr, mstr] => do
              let n ← orRaise .valueError (parseInt nstr)
              let m ← orRaise .valueError (parseInt mstr)
              pure { st with n := n, m := m }
            | _ => raise .valueError) := rfl
        rw [e]
        by_cases hn : 0 ≤ st.n
        · rw [if_pos hn]; exact .inr ⟨.inl hn, rfl⟩
        · rw [if_neg hn]
          split
          · rename_i a b x y hw
            cases hx : parseInt x with
            | none => exact .inr ⟨.inr (by
                rintro ⟨n, m, a', b', x', y', hw', h1, h2⟩
                rw [hw] at hw'; simp at hw'; obtain ⟨_, _, rfl, rfl⟩ := hw'
                rw [hx] at h1; cases h1), rfl⟩
            | some n =>
              cases hy : parseInt y with
              | none => exact .inr ⟨.inr (by
                  rintro ⟨n, m, a', b', x', y', hw', h1, h2⟩
                  rw [hw] at hw'; simp at hw'; obtain ⟨_, _, rfl, rfl⟩ := hw'
                  rw [hy] at h2; cases h2), rfl⟩
              | some m => exact .inl ⟨by omega, n, m, ⟨a, b, x, y, hw, hx, hy⟩, rfl⟩
          · rename_i hne
            exact .inr ⟨.inr (by
              rintro ⟨n, m, a', b', x', y', hw', h1, h2⟩
              exact hne _ _ _ _ hw'), rfl⟩
      · refine .inr (.inr ⟨hc', by simp [isP, startsWith, hp], ?_⟩)
        have e : dimLine st (c :: r) = (do
            let lits ← orRaise .valueError (mapOpt parseInt (splitWS (c :: r)))
            pure (lits.foldl dimLit st)) := by
          unfold dimLine
          split
          · rename_i e; cases e
          · rename_i e; simp at e; exact absurd e.1 hc
          · rename_i e; simp at e; exact absurd e.1 hp
          · rfl
        rw [e]
        cases hm : mapOpt parseInt (splitWS (c :: r)) with
        | none => exact .inr ⟨rfl, rfl⟩
        | some ts => exact .inl ⟨ts, rfl, rfl⟩

theorem readlines_ne_nil {text : Str} : ∀ l ∈ readlines text, l ≠ [] := by
  intro l hl
  unfold readlines at hl
  rcases List.mem_append.1 hl with hl | hl
  · obtain ⟨x, _, rfl⟩ := List.mem_map.1 hl; simp
  · split at hl
    · cases hl
    · rename_i h; rw [List.mem_singleton.1 hl]; exact h

/-- What the loop leaves behind, if it does not fail. -/
theorem dimLoop_sound (ls : List Str) (hne : ∀ l ∈ ls, l ≠ []) : ∀ (st st' : DimSt) (ts : List Int), st.Read ts →
    ls.foldlM dimLine st = pure st' →
    ∃ us, mapOpt parseInt ((ls.filter fun l => !isC l && !isP l).flatMap splitWS) = some us ∧ st'.Read (ts ++ us) ∧
      ((ls.filter isP = [] ∧ st'.n = st.n ∧ st'.m = st.m) ∨
        ∃ l, (ls.filter isP).getLast? = some l ∧ SaysP l st'.n st'.m) ∧
      (0 ≤ st.n → ls.filter isP = []) ∧
      (∀ a b, (ls.filter isP) = a :: b → b ≠ [] → ∃ n m, SaysP a n m ∧ n < 0) := by
  induction ls with
  | nil =>
    intro st st' ts h e
    rw [← (M.pure_inj _ _).1 e]
    exact ⟨[], rfl, by simpa using h, .inl ⟨rfl, rfl, rfl⟩, fun _ => rfl, by simp⟩
  | cons l ls ih =>
    intro st st' ts h e
    have ih := ih (fun l hl => hne l (by simp [hl]))
    rw [List.foldlM_cons] at e
    obtain ⟨s1, e1, e2⟩ := M.bind_eq_pure.1 e
    rcases dimLine_kinds st l (hne l (by simp)) with ⟨hc, hh⟩ | ⟨hc, hp, hh⟩ | ⟨hc, hp, hh⟩
    · have hnp : isP l = false := by
        match l with
        | [] => rfl
        | c :: r => simp [isC, startsWith] at hc; simp [isP, startsWith, hc]
      rcases hh with ⟨hd, hh⟩ | ⟨_, hh⟩
      · rw [e1] at hh
        have := (M.pure_inj _ _).1 hh
        subst this
        have := ih { st with header := hd } st' ts ⟨h.eq, h.cl, h.bu⟩ e2
        simpa [List.filter_cons, hc, hnp] using this
      · rw [e1] at hh; cases hh
    · rcases hh with ⟨hn, n, m, hs, hh⟩ | ⟨_, hh⟩
      · rw [e1] at hh
        have := (M.pure_inj _ _).1 hh
        subst this
        obtain ⟨us, h1, h2, h3, h4, h5⟩ := ih { st with n := n, m := m } st' ts ⟨h.eq, h.cl, h.bu⟩ e2
        refine ⟨us, by simpa [List.filter_cons, hc, hp] using h1, h2, .inr ?_, fun h0 => by omega, ?_⟩
        · rcases h3 with ⟨h3, h6, h7⟩ | ⟨l', h3, h6⟩
          · refine ⟨l, by simp [hp, h3], ?_⟩
            rw [h6, h7]; exact hs
          · refine ⟨l', ?_, h6⟩
            rw [List.filter_cons, if_pos hp, List.getLast?_cons, h3]; rfl
        · intro a b e hb
          rw [List.filter_cons, if_pos hp] at e
          injection e with e6 e7
          subst e6
          refine ⟨n, m, hs, ?_⟩
          by_contra hcon
          exact hb (by rw [← e7]; exact h4 (by show (0 : Int) ≤ n; omega))
      · rw [e1] at hh; cases hh
    · rcases hh with ⟨us1, hu, hh⟩ | ⟨_, hh⟩
      · rw [e1] at hh
        have := (M.pure_inj _ _).1 hh
        subst this
        obtain ⟨us, h1, h2, h3, h4, h5⟩ := ih _ st' (ts ++ us1) (h.lits us1) e2
        obtain ⟨k1, k2⟩ := dimLit_nm st us1
        refine ⟨us1 ++ us, ?_, by simpa using h2, ?_, ?_, ?_⟩
        · simp only [List.filter_cons, hc, hp, Bool.not_false, Bool.and_self, if_true, List.flatMap_cons]
          exact mapOpt_append hu h1
        · rw [k1, k2] at h3; simpa [List.filter_cons, hp] using h3
        · rw [k1] at h4; simpa [List.filter_cons, hp] using h4
        · simpa [List.filter_cons, hp] using h5
      · rw [e1] at hh; cases hh

/-- A text with one problem line (or none) passes the loop. -/
theorem dimLoop_complete (ls : List Str) (hne : ∀ l ∈ ls, l ≠ [] ∧ l ≠ ['c']) : ∀ (st : DimSt) (us : List Int),
    mapOpt parseInt ((ls.filter fun l => !isC l && !isP l).flatMap splitWS) = some us →
    (ls.filter isP = [] ∨ (st.n < 0 ∧ ∃ l n m, ls.filter isP = [l] ∧ SaysP l n m)) →
    ∃ st', ls.foldlM dimLine st = pure st' := by
  induction ls with
  | nil => intro st us _ _; exact ⟨st, rfl⟩
  | cons l ls ih =>
    intro st us hu hp
    have ih := ih (fun l hl => hne l (by simp [hl]))
    rw [List.foldlM_cons]
    rcases dimLine_kinds st l (hne l (by simp)).1 with ⟨hc, hh⟩ | ⟨hc, hp', hh⟩ | ⟨hc, hp', hh⟩
    · have hnp : isP l = false := by
        match l with
        | [] => rfl
        | c :: r => simp [isC, startsWith] at hc; simp [isP, startsWith, hc]
      rcases hh with ⟨hd, hh⟩ | ⟨h0, hh⟩
      · rw [hh, M.pure_bind]
        exact ih _ us (by simpa [List.filter_cons, hc, hnp] using hu) (by simpa [List.filter_cons, hnp] using hp)
      · exact absurd h0 (hne l (by simp)).2
    · rcases hp with hp | ⟨hn, l', n', m', hp, hs⟩
      · simp [hp'] at hp
      · simp only [List.filter_cons, hp', if_true, List.cons.injEq] at hp
        obtain ⟨rfl, hp⟩ := hp
        rcases hh with ⟨_, n, m, hs, hh⟩ | ⟨h0 | h0, hh⟩
        · rw [hh, M.pure_bind]
          exact ih _ us (by simpa [List.filter_cons, hc, hp'] using hu) (.inl hp)
        · omega
        · exact absurd ⟨_, _, hs⟩ h0
    · simp only [List.filter_cons, hc, hp', Bool.not_false, Bool.and_self, if_true, List.flatMap_cons] at hu
      obtain ⟨a, b, h1, h2, h3⟩ := mapOpt_append_inv hu
      rcases hh with ⟨us1, hu1, hh⟩ | ⟨h0, hh⟩
      · rw [hh, M.pure_bind]
        refine ih _ b h2 ?_
        rw [(dimLit_nm st us1).1]
        simpa [List.filter_cons, hp'] using hp
      · rw [h0] at h1; cases h1

/-- Cutting a list of numbers at the zeros is unique. -/
theorem zeros_unique : ∀ {cs ds : List (List Int)} {b : List Int}, (∀ c ∈ cs, (0 : Int) ∉ c) → (∀ d ∈ ds, (0 : Int) ∉ d) → (0 : Int) ∉ b →
    cs.flatMap (fun c => c ++ [0]) ++ b = ds.flatMap (fun c => c ++ [0]) → b = [] ∧ cs = ds
  | [], [], b, _, _, _, h => by simp at h; exact ⟨h, rfl⟩
  | [], d :: ds, b, _, _, hb, h => by
    exfalso; apply hb
    simp at h; rw [h]; simp
  | c :: cs, [], b, _, _, _, h => by simp at h
  | c :: cs, d :: ds, b, hc, hd, hb, h => by
    have key : ∀ (x y : List Int) (r r' : List Int), (0 : Int) ∉ x → (0 : Int) ∉ y → x ++ 0 :: r = y ++ 0 :: r' → x = y ∧ r = r' := by
      intro x
      induction x with
      | nil =>
        intro y r r' _ hy e
        cases y with
        | nil => simpa using e
        | cons a y => simp at e; exact absurd (by simp [← e.1]) hy
      | cons a x ih =>
        intro y r r' hx hy e
        cases y with
        | nil => simp at e; exact absurd (by simp [e.1]) hx
        | cons a' y =>
          simp only [List.cons_append, List.cons.injEq] at e
          obtain ⟨h1, h2⟩ := ih y r r' (fun h => hx (by simp [h])) (fun h => hy (by simp [h])) e.2
          exact ⟨by rw [e.1, h1], h2⟩
    simp only [List.flatMap_cons, List.append_assoc, List.singleton_append] at h
    obtain ⟨h1, h2⟩ := key _ _ _ _ (hc c (by simp)) (hd d (by simp)) h
    obtain ⟨h3, h4⟩ := zeros_unique (fun c h => hc c (by simp [h])) (fun d h => hd d (by simp [h])) hb h2
    exact ⟨h3, by rw [h1, h4]⟩

/-- **C70, reading.** What is returned for a text: the clauses are its numbers cut at the zeros (the last number is a zero), their number is the
one announced by the last problem line, whose other number is the number of variables. -/
theorem C70_reader_sound {text : Str} {h : Str} {n : Int} {cs : List (List Int)} (e : dimacs2compressed text = pure (h, n, cs)) :
    Numbers text (cs.flatMap fun c => c ++ [0]) ∧ (∀ c ∈ cs, (0 : Int) ∉ c) ∧
    ∃ l, (problemLines text).getLast? = some l ∧ SaysP l n cs.length := by
  unfold dimacs2compressed at e
  obtain ⟨st, e1, e2⟩ := M.bind_eq_pure.1 e
  split at e2
  · cases e2
  · rename_i hb
    split at e2
    · cases e2
    · rename_i hm
      have := (M.pure_inj _ _).1 e2
      simp only [Prod.mk.injEq] at this
      obtain ⟨rfl, rfl, rfl⟩ := this
      have hb : st.buffer = [] := by simpa using hb
      have hm : st.m = (st.clauses.length : Int) := by simpa using hm
      obtain ⟨us, h1, h2, h3, _, _⟩ := dimLoop_sound _ readlines_ne_nil _ _ [] ⟨rfl, by simp, by simp⟩ e1
      have heq := h2.eq
      rw [hb] at heq
      simp only [List.nil_append, List.append_nil] at heq
      subst heq
      refine ⟨h1, h2.cl, ?_⟩
      rcases h3 with ⟨_, _, h4⟩ | ⟨l, h3, h4⟩
      · rw [h4] at hm; exfalso
        have : (({} : DimSt).m) = -1 := rfl
        omega
      · refine ⟨l, h3, ?_⟩; rw [hm] at h4; exact h4

/-- **C70, accepting.** A text with one problem line that announces the number of clauses, and numbers ending with a zero (or none), is read;
the result is as in `C70_reader_sound`.  The text must not end with a line that is just `c` and no line break (which raises `IndexError`). -/
theorem C70_reader_complete {text : Str} {n : Int} {cs : List (List Int)} (h0 : ['c'] ∉ readlines text)
    (h1 : Numbers text (cs.flatMap fun c => c ++ [0])) (h2 : ∀ c ∈ cs, (0 : Int) ∉ c)
    {l : Str} (h3 : problemLines text = [l]) (h4 : SaysP l n cs.length) : ∃ h, dimacs2compressed text = pure (h, n, cs) := by
  obtain ⟨st, e⟩ := dimLoop_complete _ (fun l hl => ⟨readlines_ne_nil l hl, fun e => h0 (e ▸ hl)⟩) {} _ h1
    (.inr ⟨by decide, l, n, _, h3, h4⟩)
  obtain ⟨us, k1, k2, k3, _, _⟩ := dimLoop_sound _ readlines_ne_nil _ _ [] ⟨rfl, by simp, by simp⟩ e
  have heq : us = cs.flatMap fun c => c ++ [0] := by
    unfold Numbers numberLines at h1
    rw [k1] at h1; exact Option.some.inj h1
  have := k2.eq
  rw [List.nil_append, heq] at this
  obtain ⟨hb, hcs⟩ := zeros_unique k2.cl h2 k2.bu this.symm
  have hsay : st.n = n ∧ st.m = cs.length := by
    rcases k3 with ⟨h, _⟩ | ⟨l', h, hs⟩
    · unfold problemLines at h3; rw [h] at h3; cases h3
    · unfold problemLines at h3; rw [h3] at h; simp at h; subst h
      obtain ⟨a, b, x, y, hw, hx, hy⟩ := hs
      obtain ⟨a', b', x', y', hw', hx', hy'⟩ := h4
      rw [hw] at hw'; simp at hw'
      obtain ⟨_, _, rfl, rfl⟩ := hw'
      rw [hx] at hx'; rw [hy] at hy'
      exact ⟨Option.some.inj hx', Option.some.inj hy'⟩
  refine ⟨st.header, ?_⟩
  unfold dimacs2compressed
  rw [e, M.pure_bind]
  rw [if_neg (by simp [hb]), if_neg (by rw [hsay.2, hcs]; simp), hsay.1, hcs]

/-- **C70, refusing.** Every text is read or refused with a `ValueError`, or raises `IndexError` because it ends with a bare `c`. -/
theorem C70_reader_total (text : Str) : (∃ r, dimacs2compressed text = pure r) ∨ dimacs2compressed text = raise .valueError ∨
    (['c'] ∈ readlines text ∧ dimacs2compressed text = raise .indexError) := by
  have key : ∀ (ls : List Str), (∀ l ∈ ls, l ≠ []) → ∀ st, (∃ st', ls.foldlM dimLine st = pure st') ∨ ls.foldlM dimLine st = raise .valueError ∨
      (['c'] ∈ ls ∧ ls.foldlM dimLine st = raise .indexError) := by
    intro ls
    induction ls with
    | nil => intro _ st; exact .inl ⟨st, rfl⟩
    | cons l ls ih =>
      intro hne st
      have ih := ih (fun l hl => hne l (by simp [hl]))
      rw [List.foldlM_cons]
      have go : ∀ s1, dimLine st l = pure s1 → _ := fun s1 (e : dimLine st l = pure s1) => (show _ by
        rw [e, M.pure_bind]
        rcases ih s1 with h | h | ⟨h, h'⟩
        · exact .inl h
        · exact .inr (.inl h)
        · exact .inr (.inr ⟨by simp [h], h'⟩) : (∃ st', (dimLine st l >>= fun s => ls.foldlM dimLine s) = pure st') ∨
            (dimLine st l >>= fun s => ls.foldlM dimLine s) = raise .valueError ∨
            (['c'] ∈ l :: ls ∧ (dimLine st l >>= fun s => ls.foldlM dimLine s) = raise .indexError))
      rcases dimLine_kinds st l (hne l (by simp)) with ⟨_, ⟨_, hh⟩ | ⟨h0, hh⟩⟩ | ⟨_, _, ⟨_, _, _, _, hh⟩ | ⟨_, hh⟩⟩ | ⟨_, _, ⟨_, _, hh⟩ | ⟨_, hh⟩⟩
      · exact go _ hh
      · rw [hh]; exact .inr (.inr ⟨by simp [h0], rfl⟩)
      · exact go _ hh
      · rw [hh]; exact .inr (.inl rfl)
      · exact go _ hh
      · rw [hh]; exact .inr (.inl rfl)
  unfold dimacs2compressed
  rcases key _ readlines_ne_nil {} with ⟨st, e⟩ | e | ⟨hc, e⟩
  · rw [e, M.pure_bind]
    split
    · exact .inr (.inl rfl)
    · split
      · exact .inr (.inl rfl)
      · exact .inl ⟨_, rfl⟩
  · rw [e]; exact .inr (.inl rfl)
  · rw [e]; exact .inr (.inr ⟨hc, rfl⟩)

/-- **C70, numbers out of range.** The variables of the formula read are `1 … n`; a number beyond `n` is not refused, but then the object cannot be
written (or used) any more. -/
theorem C70_reader_range {text h : Str} {F : CNF Nat} (e : dimacs2cnf text = pure (h, F)) :
    ∃ n cs, dimacs2compressed text = pure (h, n, cs) ∧ F.vars = oneTo n.toNat ∧ F.clauses = cs ∧
      ((∀ c ∈ cs, ∀ l ∈ c, l.natAbs ≤ n.toNat) → Proper F.vars F.clauses) ∧
      ((∃ c ∈ cs, ∃ l ∈ c, n.toNat < l.natAbs) → ∀ hdr, dimacsText hdr F = raise .assertionError) := by
  unfold dimacs2cnf at e
  obtain ⟨⟨h', n, cs⟩, e1, e2⟩ := M.bind_eq_pure.1 e
  have := (M.pure_inj _ _).1 e2
  simp only [Prod.mk.injEq] at this
  obtain ⟨rfl, rfl⟩ := this
  have hv := addVariables_oneTo n.toNat
  have hz := (C70_reader_sound e1).2.1
  refine ⟨n, cs, e1, by rw [hv], by rw [hv]; rfl, ?_, ?_⟩
  · intro hr
    rw [hv]
    refine ⟨oneTo_nodup _, ?_⟩
    intro c hc l hl
    have hc : c ∈ cs := by simpa using hc
    refine ⟨?_, by rw [length_oneTo]; exact hr c hc l hl⟩
    have : l ≠ 0 := fun e => hz c hc (e ▸ hl)
    omega
  · rintro ⟨c, hc, l, hl, hlt⟩ hdr
    refine notProper_dimacs hdr _ ?_
    rw [hv]
    intro hp
    have := (hp.2 c (by simpa using hc) l hl).2
    rw [length_oneTo] at this
    omega

/-- A text spread over lines in an unusual way, and three refused ones. -/
example : dimacs2compressed "1 -2\n0 3\nc hello\np cnf 3 2\n0\n".toList = pure ("hello\n".toList, 3, [[1, -2], [3]]) ∧
    dimacs2compressed "p cnf 3 1\n1 2 0\n3\n".toList = raise .valueError ∧
    dimacs2compressed "p cnf 3 2\n1 2 0\n".toList = raise .valueError ∧
    dimacs2compressed "p cnf 3 1\n1 2 0\nc".toList = raise .indexError := by
  refine ⟨?_, ?_, ?_, ?_⟩ <;> rfl

end NDP.Cnfgen
