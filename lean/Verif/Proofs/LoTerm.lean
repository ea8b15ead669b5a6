import Verif.Proofs.Lo
/- The variant that makes the normalisation loop terminate. -/
namespace NDP
open Spec

/-! ### lexicographic order on digit lists of equal length is numeric order -/

/-- Value of a digit list in base `B`. -/
def val (B : Nat) : List Nat → Nat
  | [] => 0
  | d :: ds => d * B ^ ds.length + val B ds

theorem val_lt_pow {B : Nat} (ds : List Nat) (h : ∀ d ∈ ds, d < B) : val B ds < B ^ ds.length := by
  induction ds with
  | nil => simp [val]
  | cons d ds ih =>
    have h1 := ih (fun x hx => h x (by simp [hx]))
    have h2 : d + 1 ≤ B := h d (by simp)
    calc val B (d :: ds) = d * B ^ ds.length + val B ds := rfl
      _ < d * B ^ ds.length + B ^ ds.length := by omega
      _ = (d + 1) * B ^ ds.length := by rw [Nat.add_mul, Nat.one_mul]
      _ ≤ B * B ^ ds.length := Nat.mul_le_mul_right _ h2
      _ = B ^ (d :: ds).length := by rw [List.length_cons, Nat.pow_succ, Nat.mul_comm]

theorem val_lt_of_lex {B : Nat} (a b : List Nat) (hl : a.length = b.length) (ha : ∀ d ∈ a, d < B)
    (h : a < b) : val B a < val B b := by
  induction a generalizing b with
  | nil => cases b with
    | nil => exact absurd h (List.lt_irrefl _)
    | cons _ _ => simp at hl
  | cons x xs ih =>
    cases b with
    | nil => simp at hl
    | cons y ys =>
      simp only [List.length_cons, Nat.add_right_cancel_iff] at hl
      rw [List.cons_lt_cons_iff] at h
      have hx := val_lt_pow xs (fun d hd => ha d (by simp [hd]))
      rcases h with h | ⟨rfl, h⟩
      · show x * B ^ xs.length + val B xs < y * B ^ ys.length + val B ys
        rw [← hl]
        have : (x + 1) * B ^ xs.length ≤ y * B ^ xs.length := Nat.mul_le_mul_right _ h
        rw [Nat.add_mul, Nat.one_mul] at this
        omega
      · show x * B ^ xs.length + val B xs < x * B ^ ys.length + val B ys
        have := ih ys hl (fun d hd => ha d (by simp [hd])) h
        rw [hl]; omega

theorem lex_append {a b : List Nat} (hl : a.length = b.length) (h : a < b) (x y : List Nat) :
    a ++ x < b ++ y := by
  induction a generalizing b with
  | nil => cases b with
    | nil => exact absurd h (List.lt_irrefl _)
    | cons _ _ => simp at hl
  | cons p ps ih =>
    cases b with
    | nil => simp at hl
    | cons q qs =>
      simp only [List.cons_append, List.cons_lt_cons_iff] at h ⊢
      rcases h with h | ⟨h1, h2⟩
      · exact Or.inl h
      · exact Or.inr ⟨h1, ih (by simpa using hl) h2⟩

theorem lex_append_left (a : List Nat) {x y : List Nat} (h : x < y) : a ++ x < a ++ y := by
  induction a with
  | nil => exact h
  | cons p ps ih => rw [List.cons_append, List.cons_append, List.cons_lt_cons_iff]; exact Or.inr ⟨by trivial, ih⟩

/-! ### code of a clause list -/

/-- Digits of a clause, padded with zeros to length `L`. -/
def pad (L : Nat) (c : List Int) : List Nat := c.map digit ++ List.replicate (L - c.length) 0

/-- Digits of a clause list. -/
def code (L : Nat) (F : Cnf) : List Nat := F.flatMap (pad L)

theorem length_pad {L : Nat} {c : List Int} (h : c.length ≤ L) : (pad L c).length = L := by
  simp [pad]; omega

theorem pad_lt {L : Nat} {a b : List Int} (ha : a.length ≤ L) (hb : b.length ≤ L)
    (h1 : ∀ l ∈ b, l ≠ 0) (h : a.map digit < b.map digit) : pad L a < pad L b := by
  unfold pad
  induction a generalizing b L with
  | nil =>
    cases b with
    | nil => exact absurd h (List.lt_irrefl _)
    | cons y ys =>
      cases L with
      | zero => simp at hb
      | succ L =>
        simp only [List.map_nil, List.nil_append, List.length_nil, Nat.sub_zero, List.replicate_succ,
          List.map_cons, List.cons_append, List.cons_lt_cons_iff]
        left
        have := h1 y (by simp)
        unfold digit; omega
  | cons x xs ih =>
    cases b with
    | nil => exact absurd h (List.not_lt_nil _)
    | cons y ys =>
      cases L with
      | zero => simp at hb
      | succ L =>
        simp only [List.map_cons, List.cons_append, List.cons_lt_cons_iff, List.length_cons] at h ⊢
        rcases h with h | ⟨e, h⟩
        · exact Or.inl h
        · right
          refine ⟨e, ?_⟩
          have := ih (L := L) (b := ys) (by simpa using ha) (by simpa using hb) (fun l hl => h1 l (by simp [hl])) h
          have e1 : L + 1 - (xs.length + 1) = L - xs.length := by omega
          have e2 : L + 1 - (ys.length + 1) = L - ys.length := by omega
          rw [e1, e2]; exact this

/-! ### a renaming never increases the code, and keeps it only if the order was already right -/

theorem idxOf_range' {k v : Nat} (h1 : 1 ≤ v) (h2 : v ≤ k) : (List.range' 1 k).idxOf v = v - 1 := by
  have hlt : v - 1 < (List.range' 1 k).length := by simp; omega
  have hn : (List.range' 1 k).Nodup := List.nodup_range'
  have := hn.idxOf_getElem (v - 1) hlt
  simp only [List.getElem_range'] at this
  have e : 1 + 1 * (v - 1) = v := by omega
  rw [e] at this; exact this

theorem ren_fix {K : List Nat} {l : Int} (h : K.idxOf l.natAbs + 1 = l.natAbs) : ren K l = l := by
  unfold ren; rw [h]; split <;> omega

theorem ren_lex (c : List Int) (k : Nat) (t : List Nat) (h1 : ∀ l ∈ c, l ≠ 0) :
    (c.map (ren (ext (List.range' 1 k) c ++ t)) = c ∧ ∃ k', ext (List.range' 1 k) c = List.range' 1 k') ∨
    (c.map (ren (ext (List.range' 1 k) c ++ t))).map digit < c.map digit := by
  induction c generalizing k with
  | nil => left; exact ⟨rfl, k, rfl⟩
  | cons l ls ih =>
    have hl0 : l ≠ 0 := h1 l (by simp)
    rw [ext_cons]
    by_cases hm : l.natAbs ∈ List.range' 1 k
    · rw [if_pos hm]
      have hb : 1 ≤ l.natAbs ∧ l.natAbs ≤ k := by
        rw [List.mem_range'_1] at hm; omega
      have hren : ren (ext (List.range' 1 k) ls ++ t) l = l := by
        apply ren_fix
        rw [idxOf_append_of_mem (by rw [mem_ext]; exact Or.inl hm)]
        obtain ⟨t', ht'⟩ := ext_prefix (List.range' 1 k) ls
        rw [ht', idxOf_append_of_mem hm, idxOf_range' hb.1 hb.2]; omega
      rcases ih k (fun l hl => h1 l (by simp [hl])) with ⟨h2, h3⟩ | h2
      · left; exact ⟨by rw [List.map_cons, hren, h2], h3⟩
      · right
        simp only [List.map_cons, hren, List.cons_lt_cons_iff]
        exact Or.inr ⟨by trivial, h2⟩
    · rw [if_neg hm]
      have hb : k + 1 ≤ l.natAbs := by
        rw [List.mem_range'_1] at hm; omega
      have hmem : l.natAbs ∈ List.range' 1 k ++ [l.natAbs] := by simp
      have hidx : (ext (List.range' 1 k ++ [l.natAbs]) ls ++ t).idxOf l.natAbs = k := by
        rw [idxOf_append_of_mem (by rw [mem_ext]; exact Or.inl hmem)]
        obtain ⟨t', ht'⟩ := ext_prefix (List.range' 1 k ++ [l.natAbs]) ls
        rw [ht', idxOf_append_of_mem hmem, List.idxOf_append]
        simp [hm]
      by_cases he : l.natAbs = k + 1
      · have hr : List.range' 1 k ++ [l.natAbs] = List.range' 1 (k + 1) := by
          rw [List.range'_1_concat, he, Nat.add_comm]
        have hren : ren (ext (List.range' 1 k ++ [l.natAbs]) ls ++ t) l = l := by
          apply ren_fix; omega
        rw [hr] at hren ⊢
        rcases ih (k + 1) (fun l hl => h1 l (by simp [hl])) with ⟨h2, h3⟩ | h2
        · left; exact ⟨by rw [List.map_cons, hren, h2], h3⟩
        · right
          simp only [List.map_cons, hren, List.cons_lt_cons_iff]
          exact Or.inr ⟨by trivial, h2⟩
      · right
        simp only [List.map_cons, List.cons_lt_cons_iff]
        left
        unfold digit
        rw [natAbs_ren, hidx]
        split <;> split <;> omega

theorem isort_lex {α : Type} (lt : α → α → Bool) (d : α → Nat) (hd : ∀ a b, lt a b = true → d a < d b)
    (l : List α) : isort lt l = l ∨ (isort lt l).map d < l.map d := by
  have hins : ∀ (x : α) (l : List α), insertBy lt x l = x :: l ∨ (insertBy lt x l).map d < (x :: l).map d := by
    intro x l
    cases l with
    | nil => left; rfl
    | cons y ys =>
      simp only [insertBy]
      split
      · right; simp only [List.map_cons, List.cons_lt_cons_iff]; exact Or.inl (hd _ _ ‹_›)
      · left; rfl
  induction l with
  | nil => left; rfl
  | cons x xs ih =>
    rw [isort]
    rcases ih with ih | ih
    · rw [ih]; exact hins x xs
    · right
      have h2 : (x :: isort lt xs).map d < (x :: xs).map d := by
        simp only [List.map_cons, List.cons_lt_cons_iff]; exact Or.inr ⟨by trivial, ih⟩
      rcases hins x (isort lt xs) with h | h
      · rw [h]; exact h2
      · exact List.lt_trans h h2

theorem sortAbs_lex (r : List Int) : sortAbs r = r ∨ (sortAbs r).map digit < r.map digit := by
  apply isort_lex
  intro a b h
  simp at h
  unfold digit; split <;> split <;> omega

/-- The clause list after a renaming that starts with `1..k` already seen. -/
theorem rename_code (L : Nat) (F : Cnf) (k : Nat) (t : List Nat) (h0 : ∀ c ∈ F, ∀ l ∈ c, l ≠ 0)
    (hL : ∀ c ∈ F, c.length ≤ L) (hs : ∀ c ∈ F, sortAbs c = c) :
    (F.map (fun c => sortAbs (c.map (ren (ext (List.range' 1 k) F.flatten ++ t)))) = F ∧
      ∃ k', ext (List.range' 1 k) F.flatten = List.range' 1 k') ∨
    code L (F.map fun c => sortAbs (c.map (ren (ext (List.range' 1 k) F.flatten ++ t)))) < code L F := by
  induction F generalizing k with
  | nil => left; exact ⟨rfl, k, rfl⟩
  | cons c cs ih =>
    have hflat : ext (List.range' 1 k) (c :: cs).flatten = ext (ext (List.range' 1 k) c) cs.flatten := by
      rw [List.flatten_cons, ext_append]
    obtain ⟨t', ht'⟩ := ext_prefix (ext (List.range' 1 k) c) cs.flatten
    have hlen : ∀ K : List Nat, (sortAbs (c.map (ren K))).length = c.length := by intro K; simp
    have key := ren_lex c k (t' ++ t) (h0 c (by simp))
    rw [hflat]
    have hassoc : ext (ext (List.range' 1 k) c) cs.flatten ++ t = ext (List.range' 1 k) c ++ (t' ++ t) := by
      rw [ht', List.append_assoc]
    rcases key with ⟨e, k', hk'⟩ | hlt
    · have hc : sortAbs (c.map (ren (ext (ext (List.range' 1 k) c) cs.flatten ++ t))) = c := by
        rw [hassoc, e]; exact hs c (by simp)
      rw [List.map_cons, hc, hk']
      rcases ih k' (fun c hc => h0 c (by simp [hc])) (fun c hc => hL c (by simp [hc]))
        (fun c hc => hs c (by simp [hc])) with ⟨h2, h3⟩ | h2
      · left; exact ⟨by rw [h2], h3⟩
      · right
        unfold code at h2 ⊢
        rw [List.flatMap_cons, List.flatMap_cons]
        exact lex_append_left _ h2
    · right
      unfold code
      rw [List.map_cons, List.flatMap_cons, List.flatMap_cons, hassoc]
      apply lex_append
      · rw [length_pad (by rw [hlen]; exact hL c (by simp)), length_pad (hL c (by simp))]
      · apply pad_lt (by rw [hlen]; exact hL c (by simp)) (hL c (by simp)) (h0 c (by simp))
        rcases sortAbs_lex (c.map (ren (ext (List.range' 1 k) c ++ (t' ++ t)))) with e | h2
        · rw [e]; exact hlt
        · exact List.lt_trans h2 hlt

/-- Sorting the clauses never increases the code. -/
theorem sort_code (L : Nat) (cls : List Clause) (h0 : ∀ c ∈ cls, ∀ l ∈ c.raw, l ≠ 0)
    (hL : ∀ c ∈ cls, c.raw.length ≤ L) :
    isort (fun a b : Clause => clauseLt a.raw b.raw) cls = cls ∨
    code L (raws (isort (fun a b : Clause => clauseLt a.raw b.raw) cls)) < code L (raws cls) := by
  have hins : ∀ (x : Clause) (l : List Clause), (∀ c ∈ x :: l, ∀ a ∈ c.raw, a ≠ 0) →
      (∀ c ∈ x :: l, c.raw.length ≤ L) →
      insertBy (fun a b : Clause => clauseLt a.raw b.raw) x l = x :: l ∨
      code L (raws (insertBy (fun a b : Clause => clauseLt a.raw b.raw) x l)) < code L (raws (x :: l)) := by
    intro x l h0 hL
    cases l with
    | nil => left; rfl
    | cons y ys =>
      simp only [insertBy]
      split
      · rename_i hlt
        right
        unfold code raws
        simp only [List.map_cons, List.flatMap_cons]
        apply lex_append
        · rw [length_pad (hL y (by simp)), length_pad (hL x (by simp))]
        · exact pad_lt (hL y (by simp)) (hL x (by simp)) (h0 x (by simp)) ((clauseLt_iff _ _).1 hlt)
      · left; rfl
  induction cls with
  | nil => left; rfl
  | cons x xs ih =>
    have h0' : ∀ c ∈ x :: isort (fun a b : Clause => clauseLt a.raw b.raw) xs, ∀ l ∈ c.raw, l ≠ 0 := by
      intro c hc; apply h0 c; simpa using hc
    have hL' : ∀ c ∈ x :: isort (fun a b : Clause => clauseLt a.raw b.raw) xs, c.raw.length ≤ L := by
      intro c hc; apply hL c; simpa using hc
    rw [isort]
    rcases ih (fun c hc => h0 c (by simp [hc])) (fun c hc => hL c (by simp [hc])) with ih | ih
    · rw [ih]; exact hins x xs h0 hL
    · right
      have h2 : code L (raws (x :: isort (fun a b : Clause => clauseLt a.raw b.raw) xs)) < code L (raws (x :: xs)) := by
        unfold code raws at ih ⊢
        simp only [List.map_cons, List.flatMap_cons]
        exact lex_append_left _ ih
      rcases hins x _ h0' hL' with h | h
      · rw [h]; exact h2
      · exact List.lt_trans h h2

end NDP
