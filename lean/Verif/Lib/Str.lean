import Verif.Py
/- Round trips of the string primitives: split/join, decimal printing/parsing. -/
namespace NDP

/-! ### split / join -/

theorem splitOn_ne_nil (sep : Char) (s : Str) : splitOn sep s ≠ [] := by
  cases s with
  | nil => simp [splitOn]
  | cons c cs =>
    simp only [splitOn]
    split
    · simp
    · split <;> simp

theorem splitOn_no_sep (sep : Char) (w : Str) (h : sep ∉ w) : splitOn sep w = [w] := by
  induction w with
  | nil => rfl
  | cons c cs ih =>
    simp only [List.mem_cons, not_or] at h
    simp only [splitOn]
    rw [if_neg (fun e => h.1 e.symm), ih h.2]

theorem splitOn_append_sep (sep : Char) (w rest : Str) (h : sep ∉ w) :
    splitOn sep (w ++ sep :: rest) = w :: splitOn sep rest := by
  induction w with
  | nil => simp [splitOn]
  | cons c cs ih =>
    simp only [List.mem_cons, not_or] at h
    simp only [List.cons_append, splitOn]
    rw [if_neg (fun e => h.1 e.symm), ih h.2]

theorem splitOn_joinWith (sep : Char) (ws : List Str) (hne : ws ≠ []) (h : ∀ w ∈ ws, sep ∉ w) :
    splitOn sep (joinWith [sep] ws) = ws := by
  induction ws with
  | nil => exact absurd rfl hne
  | cons w ws ih =>
    cases ws with
    | nil => simpa [joinWith] using splitOn_no_sep sep w (h w (by simp))
    | cons w' ws' =>
      simp only [joinWith, List.append_assoc, List.singleton_append]
      rw [splitOn_append_sep sep w _ (h w (by simp)), ih (by simp) (fun x hx => h x (by simp [hx]))]

theorem mem_joinWith {sep : Str} {ws : List Str} {c : Char} (h : c ∈ joinWith sep ws) :
    c ∈ sep ∨ ∃ w ∈ ws, c ∈ w := by
  induction ws with
  | nil => simp [joinWith] at h
  | cons w ws ih =>
    cases ws with
    | nil => right; exact ⟨w, by simp, by simpa [joinWith] using h⟩
    | cons w' ws' =>
      simp only [joinWith, List.mem_append] at h
      rcases h with (h | h) | h
      · right; exact ⟨w, by simp, h⟩
      · left; exact h
      · rcases ih h with h | ⟨x, hx, hc⟩
        · left; exact h
        · right; exact ⟨x, by simp [hx], hc⟩

theorem joinWith_ne_nil {sep : Str} {ws : List Str} (h : ∃ w ∈ ws, w ≠ []) : joinWith sep ws ≠ [] := by
  induction ws with
  | nil => simp at h
  | cons w ws ih =>
    cases ws with
    | nil => simpa [joinWith] using h
    | cons w' ws' =>
      simp only [joinWith]
      obtain ⟨x, hx, hne⟩ := h
      simp only [List.mem_cons] at hx
      rcases hx with rfl | hx
      · simp [hne]
      · intro e
        rw [List.append_eq_nil_iff] at e
        exact ih ⟨x, by simpa using hx, hne⟩ e.2

/-- Splitting `", "`-joined pieces at the comma leaves a space in front of all but the first. -/
theorem splitOn_joinWith_space (sep : Char) (hsp : sep ≠ ' ') (w : Str) (ws : List Str)
    (h : ∀ x ∈ w :: ws, sep ∉ x) :
    splitOn sep (joinWith [sep, ' '] (w :: ws)) = w :: ws.map (fun x => ' ' :: x) := by
  induction ws generalizing w with
  | nil => simpa [joinWith] using splitOn_no_sep sep w (h w (by simp))
  | cons w' ws' ih =>
    simp only [joinWith, List.append_assoc, List.cons_append, List.nil_append]
    rw [splitOn_append_sep sep w _ (h w (by simp))]
    congr 1
    have ih' := ih w' (fun x hx => h x (List.mem_cons_of_mem _ hx))
    have : splitOn sep (' ' :: joinWith [sep, ' '] (w' :: ws')) =
        (' ' :: w') :: ws'.map (fun x => ' ' :: x) := by
      rw [splitOn, if_neg (fun e => hsp e.symm), ih']
    exact this

/-! ### decimal numbers -/

theorem digitVal?_digitChar {n : Nat} (h : n < 10) : digitVal? (digitChar n) = some n := by
  have : ∀ k : Fin 10, digitVal? (digitChar k.val) = some k.val := by decide
  exact this ⟨n, h⟩

/-- A character is a decimal digit. -/
def IsDig (c : Char) : Prop := (digitVal? c).isSome

theorem isDig_digitChar {n : Nat} (h : n < 10) : IsDig (digitChar n) := by
  simp [IsDig, digitVal?_digitChar h]

theorem IsDig.ne_underscore {c : Char} (h : IsDig c) : c ≠ '_' := by
  rintro rfl; simp [IsDig, digitVal?] at h

theorem IsDig.not_space {c : Char} (h : IsDig c) : isPySpace c = false := by
  unfold IsDig digitVal? at h
  split at h
  · rename_i hc
    unfold isPySpace
    simp only [Bool.or_eq_false_iff, decide_eq_false_iff_not, Bool.and_eq_false_iff]
    refine ⟨⟨⟨⟨⟨⟨?_, ?_⟩, ?_⟩, ?_⟩, ?_⟩, ?_⟩, ?_⟩
    · rintro rfl; simp at hc
    · rintro rfl; simp at hc
    · rintro rfl; simp at hc
    · rintro rfl; simp at hc
    · omega
    · omega
    · right; omega
  · simp at h

theorem natStrAux_ne_nil (f n : Nat) : natStrAux f n ≠ [] := by
  cases f with
  | zero => simp [natStrAux]
  | succ f => simp only [natStrAux]; split <;> simp

theorem natStrAux_dig (f n : Nat) : ∀ c ∈ natStrAux f n, IsDig c := by
  induction f generalizing n with
  | zero =>
    intro c hc
    simp only [natStrAux, List.mem_singleton] at hc
    subst hc; exact isDig_digitChar (Nat.mod_lt _ (by omega))
  | succ f ih =>
    intro c hc
    simp only [natStrAux] at hc
    split at hc
    · simp only [List.mem_singleton] at hc; subst hc; exact isDig_digitChar ‹_›
    · simp only [List.mem_append, List.mem_singleton] at hc
      rcases hc with hc | rfl
      · exact ih _ c hc
      · exact isDig_digitChar (Nat.mod_lt _ (by omega))

/-- Value of a digit string continuing from `acc`. -/
def digFold (acc : Nat) (s : Str) : Nat := s.foldl (fun a c => a * 10 + (digitVal? c).getD 0) acc

theorem digitsVal_dig (s : Str) (h : ∀ c ∈ s, IsDig c) (acc : Nat) (b : Bool) (hb : b = true ∨ s ≠ []) :
    digitsVal acc b s = some (digFold acc s) := by
  induction s generalizing acc b with
  | nil =>
    rcases hb with rfl | hb
    · simp [digitsVal, digFold]
    · exact absurd rfl hb
  | cons c cs ih =>
    have hc : IsDig c := h c (by simp)
    obtain ⟨d, hd⟩ := Option.isSome_iff_exists.1 hc
    simp only [digitsVal]
    rw [if_neg hc.ne_underscore, hd]
    simp only
    rw [ih (fun x hx => h x (by simp [hx])) _ true (Or.inl rfl)]
    simp [digFold, hd]

theorem digFold_natStrAux (f n : Nat) (h : n ≤ f) : digFold 0 (natStrAux f n) = n := by
  induction f generalizing n with
  | zero =>
    have : n = 0 := by omega
    subst this; rfl
  | succ f ih =>
    simp only [natStrAux]
    split
    · rename_i h10
      simp [digFold, digitVal?_digitChar h10]
    · have : digFold 0 (natStrAux f (n / 10)) = n / 10 := ih _ (by omega)
      unfold digFold at this ⊢
      rw [List.foldl_append, this]
      simp [digitVal?_digitChar (Nat.mod_lt n (by omega : (10:Nat) > 0))]
      omega

theorem natStr_ne_nil (n : Nat) : natStr n ≠ [] := natStrAux_ne_nil n n
theorem natStr_dig (n : Nat) : ∀ c ∈ natStr n, IsDig c := natStrAux_dig n n
theorem digitsVal_natStr (n : Nat) : digitsVal 0 false (natStr n) = some n := by
  rw [digitsVal_dig _ (natStr_dig n) 0 false (Or.inr (natStr_ne_nil n))]
  congr 1
  exact digFold_natStrAux n n (Nat.le_refl n)

/-! ### strip -/

theorem dropWhile_no_space {s : Str} (h : ∀ c ∈ s, isPySpace c = false) : s.dropWhile isPySpace = s := by
  cases s with
  | nil => rfl
  | cons c cs => simp [List.dropWhile, h c (by simp)]

theorem strip_no_space {s : Str} (h : ∀ c ∈ s, isPySpace c = false) : strip s = s := by
  unfold strip
  rw [dropWhile_no_space h, dropWhile_no_space (fun c hc => h c (by simpa using hc)), List.reverse_reverse]

theorem strip_cons_space {c : Char} {s : Str} (hc : isPySpace c = true) : strip (c :: s) = strip s := by
  unfold strip
  simp [List.dropWhile, hc]

theorem natStr_no_space (n : Nat) : ∀ c ∈ natStr n, isPySpace c = false :=
  fun c hc => (natStr_dig n c hc).not_space

theorem intStr_no_space (i : Int) : ∀ c ∈ intStr i, isPySpace c = false := by
  unfold intStr
  split
  · intro c hc
    simp only [List.mem_cons] at hc
    rcases hc with rfl | hc
    · decide
    · exact natStr_no_space _ c hc
  · exact natStr_no_space _

theorem intStr_ne_nil (i : Int) : intStr i ≠ [] := by
  unfold intStr; split
  · simp
  · exact natStr_ne_nil _

/-- Characters that occur in a printed integer. -/
theorem mem_intStr {i : Int} {c : Char} (h : c ∈ intStr i) : c = '-' ∨ IsDig c := by
  unfold intStr at h
  split at h
  · simp only [List.mem_cons] at h
    rcases h with h | h
    · exact Or.inl h
    · exact Or.inr (natStr_dig _ c h)
  · exact Or.inr (natStr_dig _ c h)

theorem not_mem_intStr {i : Int} {c : Char} (h1 : c ≠ '-') (h2 : digitVal? c = none) : c ∉ intStr i := by
  intro h
  rcases mem_intStr h with h | h
  · exact h1 h
  · simp [IsDig, h2] at h

theorem not_mem_natStr {n : Nat} {c : Char} (h2 : digitVal? c = none) : c ∉ natStr n := by
  intro h
  have := natStr_dig n c h
  simp [IsDig, h2] at this

theorem parseInt_natStr_of_strip (s : Str) (n : Nat) (h : strip s = natStr n) : parseInt s = some (n : Int) := by
  unfold parseInt
  rw [h]
  cases hs : natStr n with
  | nil => exact absurd hs (natStr_ne_nil n)
  | cons c cs =>
    have hd : IsDig c := natStr_dig n c (by simp [hs])
    have h1 : c ≠ '-' := by rintro rfl; simp [IsDig, digitVal?] at hd
    have h2 : c ≠ '+' := by rintro rfl; simp [IsDig, digitVal?] at hd
    have := digitsVal_natStr n
    rw [hs] at this
    split
    · rename_i heq; simp at heq; exact absurd heq.1 h1
    · rename_i heq; simp at heq; exact absurd heq.1 h2
    · rename_i cs' _ _ ; rw [this]; rfl

theorem parseInt_natStr (n : Nat) : parseInt (natStr n) = some (n : Int) :=
  parseInt_natStr_of_strip _ _ (strip_no_space (natStr_no_space n))

theorem parseInt_space_natStr (n : Nat) : parseInt (' ' :: natStr n) = some (n : Int) :=
  parseInt_natStr_of_strip _ _ (by rw [strip_cons_space (by decide), strip_no_space (natStr_no_space n)])

theorem parseInt_intStr (i : Int) : parseInt (intStr i) = some i := by
  unfold intStr
  split
  · rename_i h
    unfold parseInt
    rw [strip_no_space]
    · show (digitsVal 0 false (natStr i.natAbs)).map _ = _
      rw [digitsVal_natStr]
      show some (-(i.natAbs : Int)) = some i
      congr 1; omega
    · intro c hc
      simp only [List.mem_cons] at hc
      rcases hc with rfl | hc
      · decide
      · exact natStr_no_space _ c hc
  · rw [parseInt_natStr]; congr 1; omega

theorem intStr_injective {i j : Int} (h : intStr i = intStr j) : i = j := by
  have := congrArg parseInt h
  rw [parseInt_intStr, parseInt_intStr] at this
  exact Option.some.inj this

theorem mapOpt_some {α β : Type} {f : α → Option β} {g : α → β} {l : List α}
    (h : ∀ a ∈ l, f a = some (g a)) : mapOpt f l = some (l.map g) := by
  induction l with
  | nil => rfl
  | cons a as ih => simp [mapOpt, h a (by simp), ih (fun x hx => h x (by simp [hx]))]

theorem mapOpt_map {α β γ : Type} (f : β → Option γ) (g : α → β) (l : List α) :
    mapOpt f (l.map g) = mapOpt (fun a => f (g a)) l := by
  induction l with
  | nil => rfl
  | cons a as ih => simp [mapOpt, ih]

theorem removeChar_of_not_mem {c : Char} {s : Str} (h : c ∉ s) : removeChar c s = s := by
  unfold removeChar
  rw [List.filter_eq_self]
  intro a ha
  simp only [ne_eq, decide_not, Bool.not_eq_eq_eq_not, Bool.not_true, decide_eq_false_iff_not]
  rintro rfl; exact h ha

end NDP
