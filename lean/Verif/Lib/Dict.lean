import Verif.Py
/- Lemmas about insertion-ordered dictionaries. -/
namespace NDP
namespace Dict
variable {κ β : Type} [DecidableEq κ]

@[simp] theorem get?_nil (k : κ) : Dict.get? ([] : Dict κ β) k = none := rfl
@[simp] theorem keys_nil : Dict.keys ([] : Dict κ β) = [] := rfl
@[simp] theorem keys_cons (p : κ × β) (d : Dict κ β) : Dict.keys (p :: d) = p.1 :: Dict.keys d := rfl
@[simp] theorem get?_cons (p : κ × β) (d : Dict κ β) (k : κ) :
    Dict.get? (p :: d) k = if p.1 = k then some p.2 else Dict.get? d k := by
  cases p; rfl

theorem get?_set (d : Dict κ β) (k k' : κ) (v : β) :
    (d.set k v).get? k' = if k = k' then some v else d.get? k' := by
  induction d with
  | nil => simp [Dict.set]
  | cons p d ih =>
    obtain ⟨a, b⟩ := p
    simp only [Dict.set]
    by_cases h : a = k
    · subst h; simp
      by_cases h2 : a = k' <;> simp [h2]
    · simp [h, ih]
      by_cases h2 : a = k'
      · subst h2; simp; intro h3; exact absurd h3.symm h
      · simp [h2]

@[simp] theorem get?_set_self (d : Dict κ β) (k : κ) (v : β) : (d.set k v).get? k = some v := by
  simp [get?_set]

theorem get?_set_ne (d : Dict κ β) {k k' : κ} (v : β) (h : k ≠ k') : (d.set k v).get? k' = d.get? k' := by
  simp [get?_set, h]

theorem mem_keys_iff (d : Dict κ β) (k : κ) : k ∈ d.keys ↔ (d.get? k).isSome := by
  induction d with
  | nil => simp
  | cons p d ih =>
    simp only [keys_cons, List.mem_cons, get?_cons, ih]
    by_cases h : p.1 = k
    · simp [h]
    · simp [h]; intro h2; exact absurd h2.symm h

theorem get?_eq_none_iff (d : Dict κ β) (k : κ) : d.get? k = none ↔ k ∉ d.keys := by
  rw [mem_keys_iff]; cases d.get? k <;> simp

theorem mem_keys_of_get? {d : Dict κ β} {k : κ} {v : β} (h : d.get? k = some v) : k ∈ d.keys := by
  rw [mem_keys_iff, h]; rfl

theorem exists_get?_of_mem {d : Dict κ β} {k : κ} (h : k ∈ d.keys) : ∃ v, d.get? k = some v := by
  rw [mem_keys_iff] at h; exact Option.isSome_iff_exists.1 h

theorem keys_set_of_mem (d : Dict κ β) (k : κ) (v : β) (h : k ∈ d.keys) : (d.set k v).keys = d.keys := by
  induction d with
  | nil => simp at h
  | cons p d ih =>
    obtain ⟨a, b⟩ := p
    simp only [Dict.set]
    by_cases hk : a = k
    · simp [hk]
    · simp only [hk, if_false, keys_cons]
      rw [ih]
      simp only [keys_cons, List.mem_cons] at h
      rcases h with h | h
      · exact absurd h.symm hk
      · exact h

theorem keys_set_of_not_mem (d : Dict κ β) (k : κ) (v : β) (h : k ∉ d.keys) :
    (d.set k v).keys = d.keys ++ [k] := by
  induction d with
  | nil => simp [Dict.set]
  | cons p d ih =>
    obtain ⟨a, b⟩ := p
    simp only [keys_cons, List.mem_cons, not_or] at h
    have hk : a ≠ k := fun e => h.1 e.symm
    simp [Dict.set, hk, ih h.2]

theorem set_of_not_mem (d : Dict κ β) (k : κ) (v : β) (h : k ∉ d.keys) : d.set k v = d ++ [(k, v)] := by
  induction d with
  | nil => simp [Dict.set]
  | cons p d ih =>
    obtain ⟨a, b⟩ := p
    simp only [keys_cons, List.mem_cons, not_or] at h
    have hk : a ≠ k := fun e => h.1 e.symm
    simp [Dict.set, hk, ih h.2]

theorem mem_keys_set (d : Dict κ β) (k k' : κ) (v : β) : k' ∈ (d.set k v).keys ↔ k' = k ∨ k' ∈ d.keys := by
  rw [mem_keys_iff, mem_keys_iff, get?_set]
  by_cases h : k = k'
  · simp [h]
  · simp [h]; intro h2; exact absurd h2.symm h

theorem nodup_keys_set (d : Dict κ β) (k : κ) (v : β) (h : d.keys.Nodup) : (d.set k v).keys.Nodup := by
  by_cases hk : k ∈ d.keys
  · rw [keys_set_of_mem d k v hk]; exact h
  · rw [keys_set_of_not_mem d k v hk]
    rw [List.nodup_append]
    refine ⟨h, by simp, ?_⟩
    intro a ha b hb
    simp at hb; subst hb
    intro e; subst e; exact hk ha

theorem mem_of_get? {d : Dict κ β} {k : κ} {v : β} (h : d.get? k = some v) : (k, v) ∈ d := by
  induction d with
  | nil => simp at h
  | cons p d ih =>
    simp only [get?_cons] at h
    by_cases hk : p.1 = k
    · simp [hk] at h; subst hk; subst h; simp
    · simp [hk] at h; simp [ih h]

theorem get?_of_mem {d : Dict κ β} {k : κ} {v : β} (hn : d.keys.Nodup) (h : (k, v) ∈ d) :
    d.get? k = some v := by
  induction d with
  | nil => simp at h
  | cons p d ih =>
    simp only [keys_cons, List.nodup_cons] at hn
    simp only [List.mem_cons] at h
    rcases h with h | h
    · subst h; simp
    · have hk : p.1 ≠ k := by
        intro e; apply hn.1; rw [e]; exact List.mem_map.2 ⟨(k, v), h, rfl⟩
      simp [hk, ih hn.2 h]

theorem mem_iff_get? {d : Dict κ β} (hn : d.keys.Nodup) {k : κ} {v : β} :
    (k, v) ∈ d ↔ d.get? k = some v := ⟨get?_of_mem hn, mem_of_get?⟩

theorem length_set_of_mem (d : Dict κ β) (k : κ) (v : β) (h : k ∈ d.keys) : (d.set k v).length = d.length := by
  have := congrArg List.length (keys_set_of_mem d k v h)
  simpa [Dict.keys] using this

@[simp] theorem length_keys (d : Dict κ β) : d.keys.length = d.length := by simp [Dict.keys]

theorem get?_map_self (l : List κ) (f : κ → β) (k : κ) :
    Dict.get? (l.map fun v => (v, f v)) k = if k ∈ l then some (f k) else none := by
  induction l with
  | nil => simp
  | cons a l ih =>
    simp only [List.map_cons, get?_cons, ih, List.mem_cons]
    by_cases h : a = k
    · subst h; simp
    · have h' : ¬ k = a := fun e => h e.symm
      simp [h, h']

theorem foldl_set_get? (l : List (κ × β)) (d : Dict κ β) (k : κ) :
    Dict.get? (l.foldl (fun d p => Dict.set d p.1 p.2) d) k = (Dict.get? (l.reverse : Dict κ β) k).or (d.get? k) := by
  induction l generalizing d with
  | nil => simp
  | cons p l ih =>
    simp only [List.foldl_cons, ih, List.reverse_cons]
    rw [get?_set]
    have happ : ∀ (a : Dict κ β) (p : κ × β), Dict.get? (a ++ [p]) k = (a.get? k).or (if p.1 = k then some p.2 else none) := by
      intro a p
      induction a with
      | nil => simp
      | cons q a ih2 =>
        simp only [List.cons_append, get?_cons, ih2]
        by_cases h : q.1 = k <;> simp [h]
    rw [happ]
    cases Dict.get? (l.reverse : Dict κ β) k <;> by_cases h : p.1 = k <;> simp [h]

end Dict
end NDP
