import Verif.Cnfgen.Mapping
/-
  C49, binary mappings: variable number `k` of an element is the bit of weight `2^k` of the number of its image.
-/
namespace NDP.Cnfgen
open NDP

/-- The number written in binary by `m` variables, variable `k` having weight `2^k`. -/
def binVal {V : Type} (α : V → Bool) (name : Nat → V) : Nat → Nat
  | 0 => 0
  | k + 1 => binVal α name k + (if α (name k) then 2 ^ k else 0)

/-- The number with these binary digits, most significant first. -/
def ofBits : List Bool → Nat
  | [] => 0
  | b :: bs => (if b then 2 ^ bs.length else 0) + ofBits bs

theorem ofBits_lt (bs : List Bool) : ofBits bs < 2 ^ bs.length := by
  induction bs with
  | nil => simp [ofBits]
  | cons b bs ih => simp only [ofBits, List.length_cons, Nat.pow_succ]; split <;> omega

theorem ofBits_inj : ∀ {bs cs : List Bool}, bs.length = cs.length → ofBits bs = ofBits cs → bs = cs
  | [], [], _, _ => rfl
  | b :: bs, c :: cs, h, e => by
    have hl : bs.length = cs.length := by simpa using h
    have h1 := ofBits_lt bs
    have h2 := ofBits_lt cs
    simp only [ofBits, hl] at e h1
    cases b <;> cases c <;> simp at e ⊢
    · exact ofBits_inj hl e
    · omega
    · omega
    · exact ofBits_inj hl e

theorem bitStrings_succ (n : Nat) : bitStrings (n + 1) = (bitStrings n).map (false :: ·) ++ (bitStrings n).map (true :: ·) := by
  simp [bitStrings, List.replicate_succ, product]

theorem mem_bitStrings {n : Nat} {bs : List Bool} : bs ∈ bitStrings n ↔ bs.length = n := by
  induction n generalizing bs with
  | zero => simp [bitStrings, product]
  | succ n ih =>
    rw [bitStrings_succ]
    simp only [List.mem_append, List.mem_map, ih]
    cases bs with
    | nil => simp
    | cons b bs => cases b <;> simp

theorem map_ofBits (n : Nat) : (bitStrings n).map ofBits = List.range (2 ^ n) := by
  induction n with
  | zero => rfl
  | succ n ih =>
    rw [bitStrings_succ, List.map_append, List.map_map, List.map_map]
    have h1 : (bitStrings n).map (ofBits ∘ (false :: ·)) = (bitStrings n).map ofBits :=
      List.map_congr_left fun bs _ => by simp [ofBits]
    have h2 : (bitStrings n).map (ofBits ∘ (true :: ·)) = ((bitStrings n).map ofBits).map (2 ^ n + ·) := by
      rw [List.map_map]
      exact List.map_congr_left fun bs hb => by simp [ofBits, mem_bitStrings.1 hb]
    rw [h1, h2, ih, Nat.pow_succ, Nat.mul_two, List.range_add]

theorem length_bitStrings (n : Nat) : (bitStrings n).length = 2 ^ n := by
  have := congrArg List.length (map_ofBits n); simpa using this

theorem ofBits_getElem {n k : Nat} (h : k < (bitStrings n).length) : ofBits (bitStrings n)[k] = k := by
  have h2 : k < ((bitStrings n).map ofBits).length := by simpa using h
  have : ((bitStrings n).map ofBits)[k] = k := by simp [map_ofBits]
  simpa using this

namespace BinaryMapping
variable {D R V : Type} [DecidableEq R]

/-- The digits of element `i`. -/
def str (m : BinaryMapping D R V) (α : V → Bool) (i : D) : List Bool := (List.range m.bits).map fun b => α (m.name i (m.bits - 1 - b))

theorem ofBits_map (α : V → Bool) (name : Nat → V) (k : Nat) :
    ofBits ((List.range k).map fun b => α (name (k - 1 - b))) = binVal α name k := by
  induction k with
  | zero => rfl
  | succ k ih =>
    rw [List.range_succ_eq_map, List.map_cons, List.map_map]
    have : (List.range k).map ((fun b => α (name (k + 1 - 1 - b))) ∘ Nat.succ) = (List.range k).map fun b => α (name (k - 1 - b)) :=
      List.map_congr_left fun b _ => by
        simp only [Function.comp_apply]
        congr 2; omega
    rw [this]
    simp only [ofBits, ih, binVal, List.length_map, List.length_range, Nat.add_sub_cancel, Nat.sub_zero]
    omega

theorem ofBits_str (m : BinaryMapping D R V) (α : V → Bool) (i : D) : ofBits (m.str α i) = binVal α (m.name i) m.bits :=
  ofBits_map α (m.name i) m.bits

theorem forbid_true (m : BinaryMapping D R V) (α : V → Bool) (i : D) (bs : List Bool) (h : bs.length = m.bits) :
    ClauseTrue α (m.forbidBitstring i bs) ↔ binVal α (m.name i) m.bits ≠ ofBits bs := by
  have hl : (m.str α i).length = bs.length := by simp [str, h]
  rw [← ofBits_str]
  have : (ofBits (m.str α i) ≠ ofBits bs) ↔ m.str α i ≠ bs :=
    not_congr ⟨fun e => ofBits_inj hl e, fun e => by rw [e]⟩
  rw [this]
  unfold forbidBitstring ClauseTrue
  simp only [List.mem_map, List.mem_range, exists_exists_and_eq_and]
  constructor
  · rintro ⟨b, hb, e⟩ rfl
    rw [List.getD_eq_getElem?_getD, List.getElem?_eq_getElem (by omega)] at e
    simp [str] at e
  · intro hne
    by_contra hc
    push Not at hc
    refine hne (List.ext_getElem hl fun b h1 h2 => ?_)
    have := hc b (by omega)
    rw [List.getD_eq_getElem?_getD, List.getElem?_eq_getElem h2] at this
    simpa [str] using this

theorem imageToBits_ok (m : BinaryMapping D R V) (hb : m.range.length ≤ 2 ^ m.bits) {r : R} (hr : r ∈ m.range) :
    (m.imageToBits r).length = m.bits ∧ ofBits (m.imageToBits r) = m.range.idxOf r := by
  have hlt : m.range.idxOf r < (bitStrings m.bits).length := by
    have := List.idxOf_lt_length_of_mem hr
    rw [length_bitStrings]; omega
  have e : m.imageToBits r = (bitStrings m.bits)[m.range.idxOf r] := by
    unfold imageToBits; rw [List.getD_eq_getElem?_getD, List.getElem?_eq_getElem hlt]; rfl
  rw [e]
  exact ⟨mem_bitStrings.1 (List.getElem_mem _), ofBits_getElem hlt⟩

theorem forbidImage_true (m : BinaryMapping D R V) (hb : m.range.length ≤ 2 ^ m.bits) (α : V → Bool) (i : D) {r : R} (hr : r ∈ m.range) :
    ClauseTrue α (m.forbidImage i r) ↔ binVal α (m.name i) m.bits ≠ m.range.idxOf r := by
  obtain ⟨h1, h2⟩ := imageToBits_ok m hb hr
  unfold forbidImage
  rw [forbid_true m α i _ h1, h2]

theorem binVal_lt (α : V → Bool) (name : Nat → V) (k : Nat) : binVal α name k < 2 ^ k := by
  induction k with
  | zero => simp [binVal]
  | succ k ih => simp only [binVal, Nat.pow_succ]; split <;> omega

/-- **C49.** The clauses of a binary mapping hold exactly when every number written is that of an element of the range, and the
mapping is injective and non-decreasing as asked for. -/
theorem C49_binary (m : BinaryMapping D R V) (hb : m.range.length ≤ 2 ^ m.bits) (hr : m.range.Nodup) (α : V → Bool) :
    AllTrue α m.clauses ↔
      (∀ i ∈ m.domain, binVal α (m.name i) m.bits < m.range.length) ∧
      (m.injective = true → ∀ i i', [i, i'].Sublist m.domain → binVal α (m.name i) m.bits ≠ binVal α (m.name i') m.bits) ∧
      (m.nondecreasing = true → ∀ i i', [i, i'].Sublist m.domain → binVal α (m.name i) m.bits ≤ binVal α (m.name i') m.bits) := by
  unfold clauses
  simp only [allTrue_append, allTrue_ite, allTrue_flatMap, allTrue_map, and_assoc, Prod.forall, mem_pairs, clauseTrue_append]
  have h1 : (∀ i ∈ m.domain, ∀ bs ∈ (bitStrings m.bits).drop m.range.length, ClauseTrue α (m.forbidBitstring i bs)) ↔
      (∀ i ∈ m.domain, binVal α (m.name i) m.bits < m.range.length) := by
    refine forall₂_congr fun i _ => ?_
    constructor
    · intro h
      by_contra hc
      have hlt : binVal α (m.name i) m.bits < (bitStrings m.bits).length := by rw [length_bitStrings]; exact binVal_lt _ _ _
      have hm : (bitStrings m.bits)[binVal α (m.name i) m.bits] ∈ (bitStrings m.bits).drop m.range.length := by
        rw [List.mem_iff_getElem]
        refine ⟨binVal α (m.name i) m.bits - m.range.length, by rw [List.length_drop]; omega, ?_⟩
        rw [List.getElem_drop]; congr 1; omega
      have := (forbid_true m α i _ (mem_bitStrings.1 (List.mem_of_mem_drop hm))).1 (h _ hm)
      rw [ofBits_getElem] at this
      exact this rfl
    · intro h bs hbs
      refine (forbid_true m α i _ (mem_bitStrings.1 (List.mem_of_mem_drop hbs))).2 ?_
      obtain ⟨k, hk, rfl⟩ := List.mem_iff_getElem.1 hbs
      rw [List.getElem_drop, ofBits_getElem]
      omega
  rw [h1]
  refine and_congr_right fun hd => and_congr (imp_congr_right fun _ => ?_) (imp_congr_right fun _ => ?_)
  · constructor
    · intro h i i' hs e
      have hlt := hd i (hs.subset (by simp))
      have := h m.range[binVal α (m.name i) m.bits] (List.getElem_mem _) i i' hs
      rw [forbidImage_true m hb α _ (List.getElem_mem _), forbidImage_true m hb α _ (List.getElem_mem _), ← e] at this
      rw [hr.idxOf_getElem] at this
      simp at this
    · intro h r hm i i' hs
      rw [forbidImage_true m hb α _ hm, forbidImage_true m hb α _ hm]
      have := h i i' hs
      by_contra hc; push Not at hc
      exact this (by rw [hc.1, hc.2])
  · refine forall₃_congr fun i i' hs => ?_
    constructor
    · intro h
      by_contra hc
      have h1 := hd i (hs.subset (by simp))
      have h2 := hd i' (hs.subset (by simp))
      have := h m.range[binVal α (m.name i') m.bits] m.range[binVal α (m.name i) m.bits] (by
        have hs2 : [m.range[binVal α (m.name i') m.bits], m.range[binVal α (m.name i) m.bits]].Sublist m.range := by
          have hd1 : m.range.drop (binVal α (m.name i') m.bits) = m.range[binVal α (m.name i') m.bits] ::
            m.range.drop (binVal α (m.name i') m.bits + 1) := List.drop_eq_getElem_cons h2
          refine List.Sublist.trans ?_ (List.drop_sublist (binVal α (m.name i') m.bits) m.range)
          rw [hd1]
          refine List.Sublist.cons_cons _ (List.singleton_sublist.2 ?_)
          rw [List.mem_iff_getElem]
          exact ⟨binVal α (m.name i) m.bits - (binVal α (m.name i') m.bits + 1), by rw [List.length_drop]; omega, by
            rw [List.getElem_drop]; congr 1; omega⟩
        exact hs2)
      rw [forbidImage_true m hb α _ (List.getElem_mem _), forbidImage_true m hb α _ (List.getElem_mem _),
        hr.idxOf_getElem, hr.idxOf_getElem] at this
      simp at this
    · intro hle r r' hs'
      rw [forbidImage_true m hb α _ (hs'.subset (by simp)), forbidImage_true m hb α _ (hs'.subset (by simp))]
      by_contra hc; push Not at hc
      have hlt : m.range.idxOf r < m.range.idxOf r' := by
        clear hc h1 hd hle hb
        revert hs' hr
        generalize m.range = l
        intro hr hs'
        induction l with
        | nil => simp at hs'
        | cons x xs ih =>
          cases hs' with
          | cons _ h =>
            have hx := (List.nodup_cons.1 hr).1
            have n1 : x ≠ r := by rintro rfl; exact hx (h.subset (by simp))
            have n2 : x ≠ r' := by rintro rfl; exact hx (h.subset (by simp))
            rw [List.idxOf_cons_ne _ n1, List.idxOf_cons_ne _ n2]
            have := ih (List.nodup_cons.1 hr).2 h
            omega
          | cons_cons _ h =>
            have hm := List.singleton_sublist.1 h
            have n1 : r ≠ r' := by rintro rfl; exact (List.nodup_cons.1 hr).1 hm
            rw [List.idxOf_cons_self, List.idxOf_cons_ne _ n1]
            omega
      omega

theorem clauses_known {m : BinaryMapping D R V} : ∀ c ∈ m.clauses, ∀ l ∈ c, l.2 ∈ m.allVars := by
  have h1 : ∀ i ∈ m.domain, ∀ bs, ∀ l ∈ m.forbidBitstring i bs, l.2 ∈ m.allVars := by
    intro i hi bs l hl
    obtain ⟨b, hb, rfl⟩ := List.mem_map.1 hl
    have := List.mem_range.1 hb
    exact List.mem_flatMap.2 ⟨i, hi, List.mem_map_of_mem (List.mem_range.2 (by omega))⟩
  intro c hc
  unfold clauses at hc
  simp only [List.mem_append] at hc
  rcases hc with (hc | hc) | hc
  · obtain ⟨i, hi, hc⟩ := List.mem_flatMap.1 hc
    obtain ⟨bs, _, rfl⟩ := List.mem_map.1 hc
    exact h1 i hi bs
  · split at hc
    · obtain ⟨j, _, hc⟩ := List.mem_flatMap.1 hc
      obtain ⟨⟨a, b⟩, hab, rfl⟩ := List.mem_map.1 hc
      have hs := mem_pairs.1 hab
      intro l hl
      rcases List.mem_append.1 hl with hl | hl
      · exact h1 a (hs.subset (by simp)) _ l hl
      · exact h1 b (hs.subset (by simp)) _ l hl
    · simp at hc
  · split at hc
    · obtain ⟨⟨a, b⟩, hab, hc⟩ := List.mem_flatMap.1 hc
      obtain ⟨q, _, rfl⟩ := List.mem_map.1 hc
      have hs := mem_pairs.1 hab
      intro l hl
      rcases List.mem_append.1 hl with hl | hl
      · exact h1 a (hs.subset (by simp)) _ l hl
      · exact h1 b (hs.subset (by simp)) _ l hl
    · simp at hc

end BinaryMapping
end NDP.Cnfgen
