import Verif.SpecGdb
import Verif.Proofs.GKid
/- A pass of the loop with the global table: what it does, whether the children are computed or pulled. -/
namespace NDP
open Spec SetObj
variable {H : Type} [DecidableEq H] (hash : Str → H) (a : Args) (im : Mode)

/-- What is left of a node in the branch `b`. -/
def sub (x : SetObj H) (b : Bool) : Cnf := residual [((pivotOf (raws x.clauses) : Int), b)] (raws x.clauses)

/-- `k` is a correct outcome for the branch `b` of the node `x`. -/
structure KidFor (R : Cnf) (x : SetObj H) (b : Bool) (k : Kid H) : Prop where
  t : k.value = some true → sub x b = [] ∧ k.dig = hash ['T'] ∧
    (k.ev = [] ∨ MakesTrue (sortItems k.ev) R ∧ SolKeys (sortItems k.ev))
  f : k.value = some false → [] ∈ sub x b ∧ k.dig = hash ['F']
  n : k.value = none → sub x b ≠ [] ∧ [] ∉ sub x b ∧ (∃ mode, NormalForm mode (sub x b) (raws k.item.clauses)) ∧
    hid hash k.item = k.dig ∧ k.item.id = some k.dig ∧ GItem R k.item ∧ k.item.computedHash = some k.dig ∧
    (EvPos x → EvPos k.item)

theorem kidFor_of_child {R : Cnf} (hR : Proper R) {x ch : SetObj H} {b : Bool} (hx : Tracks R x) (hch : IsChild x b ch) :
    KidFor hash R x b (kidOf hash a im ch) ∧
      LinkFor hash im (raws x.clauses) (pivotOf (raws x.clauses)) b (kidOf hash a im ch).dig := by
  have hT : ch.value = some true ↔ sub x b = [] := by
    rw [hch.value]; exact childVal_true
  have hFa : ch.value = some false ↔ [] ∈ sub x b := by
    rw [hch.value]; exact childVal_false
  match hv : ch.value with
  | some v =>
    have hd : (kidOf hash a im ch).dig = hash [if v then 'T' else 'F'] := by
      unfold kidOf digestOf; rw [hv]
    have hval : (kidOf hash a im ch).value = some v := hv
    cases v with
    | true =>
      have hd : (kidOf hash a im ch).dig = hash ['T'] := hd
      refine ⟨⟨fun _ => ⟨hT.1 hv, hd, ?_⟩, by rw [hval]; simp, by rw [hval]; simp⟩, ?_⟩
      · right
        have hnd : ch.evaluatedVars.keys.Nodup := by rw [hch.ev]; exact Dict.nodup_keys_set _ _ _ hx.evnd
        exact ⟨(makesTrue_congr (get?_sortItems hnd)).2 (hch.makesTrue hx hv), sortItems_solKeys hnd (hch.evp hx)⟩
      · rw [hd]; exact LinkFor.isT (hT.1 hv)
    | false =>
      have hd : (kidOf hash a im ch).dig = hash ['F'] := hd
      refine ⟨⟨by rw [hval]; simp, fun _ => ⟨hFa.1 hv, hd⟩, by rw [hval]; simp⟩, ?_⟩
      rw [hd]; exact LinkFor.isF (hFa.1 hv)
  | none =>
    obtain ⟨c, hlo, htr, _, hev, _⟩ := toLo_tracks hR im a.sortBySize a.thief (hch.pre hx hv)
    have hk := kidOf_lo hash a im hv hlo
    have hf := child_fresh hch hv
    have hn : [] ∉ sub x b := by
      intro hm; rw [hFa.2 hm] at hv; simp at hv
    have hn2 : sub x b ≠ [] := by
      intro hm; rw [hT.2 hm] at hv; simp at hv
    have hcl : raws ch.clauses = sub x b := by
      rw [hch.clauses]; exact nonempties_eq hn
    have hnf := toLo_normalForm im _ _ hf (by
      rw [hcl]
      apply residual_nodup
      intro c hc
      obtain ⟨c0, hc0, rfl⟩ := List.mem_map.1 hc
      exact asc_nodup (hx.node.asc c0 hc0)) hlo
    rw [hcl] at hnf
    rw [hk]
    refine ⟨⟨by simp, by simp, fun _ => ⟨hn2, hn, ⟨im, hnf⟩, rfl, rfl, ?_, rfl, ?_⟩⟩, ?_⟩
    · exact (toLo_childItem_tracks hash a im hR hx hch hv hlo).gitem
    · intro hp k hkk
      have : k ∈ ch.evaluatedVars.keys := by rw [← hev]; exact hkk
      rw [hch.ev, Dict.mem_keys_set] at this
      rcases this with rfl | h
      · simp
      · exact hp k h
    · show LinkFor hash im _ _ b (hid hash c)
      rw [hid, bodyStr_text htr.node.cne]
      exact LinkFor.node _ hn2 hn hnf

theorem bodyStr_renumber {G : Cnf} (h : ∀ c ∈ G, c ≠ []) : bodyStr (renumber 1 G) = textOf G := by
  rw [bodyStr_text, raws_renumber]
  intro c hc
  have : c.raw ∈ raws (renumber 1 G) := List.mem_map.2 ⟨c, hc, rfl⟩
  rw [raws_renumber] at this
  exact h _ this

theorem textOf_inj {F G : Cnf} (h1 : F ≠ []) (h2 : G ≠ []) (hF : ∀ c ∈ F, c ≠ []) (hG : ∀ c ∈ G, c ≠ [])
    (h : textOf F = textOf G) : F = G := by
  have key : ∀ {F : Cnf}, F ≠ [] → (∀ c ∈ F, c ≠ []) → renumber 1 F ≠ [] ∧ ∀ c ∈ renumber 1 F, c.raw ≠ [] := by
    intro F h1 hF
    constructor
    · intro e
      have := raws_renumber 1 F
      rw [e] at this
      exact h1 (by simpa [raws] using this.symm)
    · intro c hc
      have : c.raw ∈ raws (renumber 1 F) := List.mem_map.2 ⟨c, hc, rfl⟩
      rw [raws_renumber] at this
      exact hF _ this
  rw [← bodyStr_renumber hF, ← bodyStr_renumber hG] at h
  have := bodyStr_inj (key h1 hF).1 (key h2 hG).1 (key h1 hF).2 (key h2 hG).2 h
  simpa [raws_renumber] using this

theorem textOf_ne_const {F : Cnf} (hF : ∀ c ∈ F, c ≠ []) : textOf F ≠ ['T'] ∧ textOf F ≠ ['F'] := by
  rw [← bodyStr_renumber hF]; exact bodyStr_ne_const

/-- The texts on which the digest must not collide when the node `x` meets the table `g`. -/
structure Texts (S : Str → Prop) (g : Gdb H) (x : SetObj H) : Prop where
  t : S ['T']
  f : S ['F']
  body : ∀ h r, Dict.get? g h = some r → S r.body
  self : S (textOf (raws x.clauses))
  kids : ∀ mode b N, sub x b ≠ [] → [] ∉ sub x b → NormalForm mode (sub x b) N → S (textOf N)

/-- The child described by a digest, as `get_children_from_gdb` builds it. -/
def pulledKid (s : SetObj H) (k : H) : Kid H :=
  { value := s.value, ev := [], dig := k, item := { s with id := some k, status := some .unique } }

theorem textOf_ne_nil {F : Cnf} (h : F ≠ []) (hF : ∀ c ∈ F, c ≠ []) : textOf F ≠ [] := by
  rw [← bodyStr_renumber hF]
  apply bodyStr_ne_nil
  · intro e
    have := raws_renumber 1 F
    rw [e] at this
    exact h (by simpa [raws] using this.symm)
  · intro c hc
    have : c.raw ∈ raws (renumber 1 F) := List.mem_map.2 ⟨c, hc, rfl⟩
    rw [raws_renumber] at this
    exact hF _ this

theorem NormalForm.ne {mode : Mode} {F N : Cnf} (h : NormalForm mode F N) (hF : F ≠ []) : N ≠ [] := by
  rintro rfl
  obtain ⟨ρ, _, hs⟩ := h.rename
  exact hF ((SameClauses.eq_nil hs).1 rfl)

/-- A child pulled from a sound table is correct. -/
theorem childFromGdb_ok {S : Str → Prop} (hS : NoClash hash S) {g : Gdb H} (hg : TableSound hash g) {R : Cnf} {x : SetObj H}
    (hT : Texts S g x) {b : Bool} {mode : Mode} {k : H}
    (hl : LinkFor hash mode (raws x.clauses) (pivotOf (raws x.clauses)) b k) {s : SetObj H}
    (hs : childFromGdb hash g k = some s) :
    KidFor hash R x b (pulledKid s k) ∧ (s.value = none → Dict.contains g k = true) ∧
      ((∃ v, s = { value := some v }) ∨ (s.value = none ∧ s.computedHash = some k ∧ s.clauses ≠ [] ∧
        s.evaluatedVars = [] ∧ s.finalNamesMap = [])) := by
  have hTF : hash ['T'] ≠ hash ['F'] := fun e => by
    have := hS _ _ hT.t hT.f e
    simp at this
  have hnT : ∀ N : Cnf, (∀ c ∈ N, c ≠ []) → S (textOf N) → hash (textOf N) ≠ hash ['T'] ∧ hash (textOf N) ≠ hash ['F'] := by
    intro N hN hSN
    exact ⟨fun e => (textOf_ne_const hN).1 (hS _ _ hSN hT.t e), fun e => (textOf_ne_const hN).2 (hS _ _ hSN hT.f e)⟩
  unfold childFromGdb at hs
  cases hl with
  | isT h =>
    rw [if_pos rfl] at hs
    have e : s = { value := some true } := by simpa using hs.symm
    subst e
    exact ⟨⟨fun _ => ⟨h, rfl, Or.inl rfl⟩, by simp [pulledKid], by simp [pulledKid]⟩, by simp, Or.inl ⟨_, rfl⟩⟩
  | isF h =>
    rw [if_neg (Ne.symm hTF), if_pos rfl] at hs
    have e : s = { value := some false } := by simpa using hs.symm
    subst e
    exact ⟨⟨by simp [pulledKid], fun _ => ⟨h, rfl⟩, by simp [pulledKid]⟩, by simp, Or.inl ⟨_, rfl⟩⟩
  | node N h1 h2 hN =>
    have hNne : ∀ c ∈ N, c ≠ [] := fun c hc => (hN.asc c hc).1
    have hSN : S (textOf N) := hT.kids mode b N h1 h2 hN
    rw [if_neg (hnT N hNne hSN).1, if_neg (hnT N hNne hSN).2] at hs
    unfold Gdb.getSetData at hs
    match hrow : Dict.get? g (hash (textOf N)) with
    | none => rw [hrow] at hs; simp at hs
    | some r =>
      rw [hrow] at hs
      obtain ⟨mode', G, y, ys, cs, hG, hwf, hbody, hkey, _, _⟩ := hg _ _ hrow
      have hGne : G ≠ [] := by rw [hG]; simp
      have hGc : ∀ c ∈ G, c ≠ [] := fun c hc => (hwf c hc).1
      have htx : textOf N = r.body := hS _ _ hSN (hT.body _ _ hrow) hkey
      have hNG : N = G := textOf_inj (hN.ne h1) hGne hNne hGc (by rw [htx, hbody])
      subst hNG
      have hren : renumber 1 N ≠ [] ∧ ∀ c ∈ renumber 1 N, c.raw ∈ N := by
        constructor
        · intro e
          have := raws_renumber 1 N
          rw [e] at this
          exact hGne (by simpa [raws] using this.symm)
        · intro c hc
          have : c.raw ∈ raws (renumber 1 N) := List.mem_map.2 ⟨c, hc, rfl⟩
          rwa [raws_renumber] at this
      have hof : (SetObj.ofLine r.body : SetObj H) = { clauses := renumber 1 N } := by
        have := ofLine_bodyStr (H := H) (cls := renumber 1 N) hren.1 (fun c hc => hGc _ (hren.2 c hc))
          (fun c hc => (hwf _ (hren.2 c hc)).2.2)
        rw [bodyStr_renumber hGc, raws_renumber] at this
        rw [hbody]; exact this
      have e : s = { clauses := renumber 1 N, computedHash := some (hash (textOf N)) } := by
        simp only [hof] at hs
        simpa using hs.symm
      subst e
      refine ⟨⟨by simp [pulledKid], by simp [pulledKid], fun _ => ⟨h1, h2, ⟨mode, ?_⟩, ?_, rfl, ⟨⟨⟨hren.1, fun c hc => hGc _ (hren.2 c hc), fun c hc => (hwf _ (hren.2 c hc)).2.2, rfl, by simp [pulledKid], by simp [pulledKid]⟩, ?_⟩, Or.inr ⟨rfl, rfl⟩⟩, rfl, ?_⟩⟩, ?_, ?_⟩
      · show NormalForm mode _ (raws (renumber 1 N))
        rw [raws_renumber]; exact hN
      · show hash (bodyStr (renumber 1 N)) = _
        rw [bodyStr_renumber hGc]; rfl
      · intro v hv
        have hv : v ∈ varsOf (raws (renumber 1 N)) := hv
        rw [raws_renumber] at hv
        obtain ⟨c, hc, l, hl, rfl⟩ := mem_varsOf.1 hv
        have := (hwf c hc).2.1
        have : l ≠ 0 := fun e => this (e ▸ hl)
        omega
      · intro _ j hj; simp [pulledKid] at hj
      · intro _; simp [Dict.contains, hrow]
      · exact Or.inr ⟨rfl, rfl, hren.1, rfl, rfl⟩

/-- Handling a pulled child. -/
theorem processChild_pulled {s : SetObj H} {k pid : H}
    (hs : (∃ v, s = { value := some v } ∧ k = hash [if v then 'T' else 'F']) ∨ (s.value = none ∧ s.computedHash = some k ∧ s.clauses ≠ [] ∧
        s.evaluatedVars = [] ∧ s.finalNamesMap = [])) {ps : PS H} {ks : List H}
    (hpid : ps.nodesChildren.get? pid = some ks) :
    ∃ ps' s' news, processChild hash a im true (some pid) ps s = pure (ps', s') ∧
      GChild pid (pulledKid s k) ps ps' news ∧ s'.computedHash = some k ∧ s'.value = s.value ∧
      ((news = [] ∧ s'.status ≠ some .unique) ∨ (news = [s'] ∧ s'.status = some .unique)) := by
  rcases hs with ⟨v, rfl, rfl⟩ | ⟨hv, hc, hne, hev, _⟩
  · have ht : ({ value := some v } : SetObj H).toStr = pure [if v then 'T' else 'F'] := toStr_value rfl
    refine ⟨_, { value := some v, status := some .evaluated, computedHash := some (hash [if v then 'T' else 'F']) }, [], ?_,
      GChild.const (k := pulledKid { value := some v } _) ps v rfl, rfl, rfl, Or.inl ⟨rfl, by simp⟩⟩
    unfold processChild
    rw [ht]
    have ht2 : ({ value := some v, status := some Status.evaluated } : SetObj H).toStr = pure [if v then 'T' else 'F'] := toStr_value rfl
    simp only [M.pure_bind, getHash, ht2]
    cases v
    · simp [pulledKid]
    · by_cases hs : ps.solution = none <;> simp [hs, pulledKid]
  · have ht0 : s.toStr = pure (bodyStr s.clauses) := toStr_ok hv hne
    have hlen : s.clauses.length ≠ 0 := by simpa using hne
    by_cases hin : (ps.nodesChildren.get? k).isSome
    · refine ⟨_, { s with id := some k, status := some .redundant }, [], ?_, GChild.red (k := pulledKid s k) (pid := pid) ps ks
        (if k ∈ ps.redundantIds then ps.redundantIds else ps.redundantIds ++ [k]) hv hin hpid, hc, rfl, Or.inl ⟨rfl, by simp⟩⟩
      unfold processChild
      rw [ht0]
      simp only [M.pure_bind, hv, Bool.not_true, if_false, getHash, hc, toStr, hin, if_true, hlen, appendChild, hpid,
        Bool.false_eq_true]
      rfl
    · have hnone : ps.nodesChildren.get? k = none := by simpa using hin
      have hne' : k ≠ pid := by rintro e; rw [e, hpid] at hnone; simp at hnone
      refine ⟨_, (pulledKid s k).item, [(pulledKid s k).item], ?_, GChild.uniq (k := pulledKid s k) (pid := pid) ps ks hv hnone hpid, hc, rfl, Or.inr ⟨rfl, rfl⟩⟩
      unfold processChild
      rw [ht0]
      simp only [M.pure_bind, hv, Bool.not_true, if_false, getHash, hc, toStr, hnone, Option.isSome_none, hlen, appendChild,
          Bool.false_eq_true]
      rw [Dict.get?_set_ne _ _ hne', hpid]
      simp only [M.pure_bind, pulledKid, hv, hc]

theorem numOfVars_shape {s : SetObj H} (h : Storable s) : ∃ n, numOfVars s = pure n := by
  unfold numOfVars
  cases hl : s.clauses.getLast? with
  | none => exact ⟨_, rfl⟩
  | some c =>
    have hc : c ∈ s.clauses := List.mem_of_getLast? hl
    simp only
    cases hr : c.raw.getLast? with
    | none => rw [List.getLast?_eq_none_iff] at hr; exact absurd hr (h.cne c hc)
    | some l => exact ⟨_, rfl⟩

/-- What one pass did to the process: `k1`, `k2` are the outcomes of the two children, `n1`, `n2` the newly met nodes. -/
structure Pass (seen : List H) (gq gw : Gdb H) (R : Cnf) (x : SetObj H) (l : List (SetObj H)) (ps ps' : PS H)
    (k1 k2 : Kid H) (n1 n2 : List (SetObj H)) (ps0 ps1 ps2 : PS H) (nv : Nat) : Prop where
  kid1 : KidFor hash R x true k1
  kid2 : KidFor hash R x false k2
  start : ps0 = { ps with queue := ps0.queue, foundInGdb := ps0.foundInGdb }
  step1 : GChild (hid hash x) k1 ps0 ps1 n1
  step2 : GChild (hid hash x) k2 ps1 ps2 n2
  final : ps' = { ps2 with
    queue := ps'.queue, leaves := ps'.leaves,
    gdb := if wants a seen gq (hid hash x) then (gw.insertRow (hid hash x)
      { body := bodyStr x.clauses, cid1 := k1.dig, cid2 := k2.dig, numClauses := x.clauses.length, numVars := nv }).2 else gw }
  nv : numOfVars x = pure nv
  rep : Rep ps'.queue (l ++ if (wants a seen gq (hid hash x) && gw.contains (hid hash x)) = true then []
        else (n1 ++ n2).map (store ps.queue.useDb))
  db : ps'.queue.useDb = ps.queue.useDb
  rows : ∀ k ∈ ps'.queue.table.rows.keys, k ∈ ps.queue.table.rows.keys ∨ k ∈ (n1 ++ n2).map (hid hash)

/-- The children were computed by branching. -/
def Computed (R : Cnf) (x : SetObj H) (k1 k2 : Kid H) : Prop :=
  Tracks R x ∧ ∃ lft rgt, x.evaluate = pure (some (lft, rgt)) ∧ IsChild x true lft ∧ IsChild x false rgt ∧
    k1 = kidOf hash a im lft ∧ k2 = kidOf hash a im rgt

/-- The children were pulled from the row of `x` in the table. -/
def Pulled (gr : Gdb H) (x : SetObj H) (k1 k2 : Kid H) : Prop :=
  ∃ r, Dict.get? gr (hid hash x) = some r ∧ k1.dig = r.cid1 ∧ k2.dig = r.cid2 ∧
    (k1.value = none → Dict.contains gr k1.dig = true ∧ Bare k1.item) ∧
    (k2.value = none → Dict.contains gr k2.dig = true ∧ Bare k2.item) ∧ k1.ev = [] ∧ k2.ev = []

theorem Gdb.le.contains {g g' : Gdb H} (h : Gdb.le g g') {k : H} (hk : Dict.contains g k = true) :
    Dict.contains g' k = true := by
  unfold Dict.contains at *
  obtain ⟨r, hr⟩ := Option.isSome_iff_exists.1 hk
  obtain ⟨r', hr', _⟩ := h k r hr
  rw [hr']; rfl

theorem wants_of_le {seen : List H} {gr gq : Gdb H} {h : H} (hle : Gdb.le gr gq) (hin : isSetInGdb a seen gr h = true) :
    wants a seen gq h = false := by
  unfold wants
  have : isSetInGdb a seen gq h = true := by
    unfold isSetInGdb at hin ⊢
    by_cases hm : a.gdbNoMem = true
    · rw [if_pos hm] at hin ⊢; exact hle.contains hin
    · rw [if_neg hm] at hin ⊢; exact hin
  rw [this]; simp

/-- A pass that finds both children of the node in the table. -/
theorem expandAt_pulled' (seen : List H) {gr gq gw : Gdb H} {R : Cnf} {ps : PS H}
    {x : SetObj H} {l : List (SetObj H)} (hrep : Rep ps.queue (x :: l)) (hx : GItem R x)
    (hpos : ps.queue.useDb = true → EvPos x) (hid' : x.id = some (hid hash x))
    {ks : List H} (hpid : ps.nodesChildren.get? (hid hash x) = some ks)
    (hrows : ps.queue.useDb = true → ∀ k ∈ ps.queue.table.rows.keys, k ∈ ps.nodesChildren.keys)
    (hc : x.computedHash = some (hid hash x) ∨ x.computedHash = none)
    {S : Str → Prop} (hS : NoClash hash S) (htab : TableSound hash gr) (hT : Texts S gr x)
    (hnw : wants a seen gq (hid hash x) = false ∨ Dict.contains gw (hid hash x) = true)
    (hg : a.useGlobalDb = true) (hin : isSetInGdb a seen gr (hid hash x) = true)
    (hch : getChildrenFromGdb hash gr (hid hash x) ≠ none) :
    ∃ ps', expandAt hash a im seen gr gq gw ps = pure ps' ∧
    ∃ k1 k2 n1 n2 ps0 ps1 ps2 nv, Pass hash a seen gq gw R x l ps ps' k1 k2 n1 n2 ps0 ps1 ps2 nv ∧ Pulled hash gr x k1 k2 := by
  obtain ⟨r, s1, s2, hrow, hs1, hs2, hch⟩ : ∃ r s1 s2, Dict.get? gr (hid hash x) = some r ∧
      childFromGdb hash gr r.cid1 = some s1 ∧ childFromGdb hash gr r.cid2 = some s2 ∧
      getChildrenFromGdb hash gr (hid hash x) = some (s1, s2) := by
    unfold getChildrenFromGdb Gdb.getChildren at hch ⊢
    match hrow : Dict.get? gr (hid hash x) with
    | none => rw [hrow] at hch; simp at hch
    | some r =>
      rw [hrow] at hch
      simp only [Option.map_some] at hch ⊢
      match h1 : childFromGdb hash gr r.cid1 with
      | none => rw [h1] at hch; simp at hch
      | some s1 =>
        rw [h1] at hch
        match h2 : childFromGdb hash gr r.cid2 with
        | none => rw [h2] at hch; simp at hch
        | some s2 => exact ⟨r, s1, s2, rfl, h1, h2, rfl⟩
  obtain ⟨mode, G, y, ys, cs, hG, hwf, hbody, hkey, _, hl1, hl2⟩ := htab _ _ hrow
  have hGc : ∀ c ∈ G, c ≠ [] := fun c hc => (hwf c hc).1
  have hxne : raws x.clauses ≠ [] := by simpa [raws] using hx.1.sto.ne
  have hxc : ∀ c ∈ raws x.clauses, c ≠ [] := by
    intro c hc
    obtain ⟨d, hd, rfl⟩ := List.mem_map.1 hc
    exact hx.1.sto.cne d hd
  have hhid : hid hash x = hash (textOf (raws x.clauses)) := by rw [hid, bodyStr_text hx.1.sto.cne]
  have hGx : raws x.clauses = G := by
    apply textOf_inj hxne (by rw [hG]; simp) hxc hGc
    rw [← hbody]
    exact hS _ _ hT.self (hT.body _ _ hrow) (by rw [← hhid, hkey])
  have hp : pivotOf (raws x.clauses) = y.natAbs := by rw [hGx, hG]; rfl
  rw [← hGx, ← hp] at hl1 hl2
  obtain ⟨kf1, in1, sh1⟩ := childFromGdb_ok hash hS htab (R := R) hT hl1 hs1
  obtain ⟨kf2, in2, sh2⟩ := childFromGdb_ok hash hS htab (R := R) hT hl2.1 hs2
  have bare : ∀ {s : SetObj H} {k : H}, (s.value = none → Dict.contains gr k = true) →
      ((∃ v, s = { value := some v }) ∨ (s.value = none ∧ s.computedHash = some k ∧ s.clauses ≠ [] ∧
      s.evaluatedVars = [] ∧ s.finalNamesMap = [])) →
      (pulledKid s k).value = none → Dict.contains gr (pulledKid s k).dig = true ∧ Bare (pulledKid s k).item := by
    intro s k h1 h2 hv
    refine ⟨h1 hv, ?_⟩
    rcases h2 with ⟨v, rfl⟩ | ⟨_, _, _, h3, h4⟩
    · simp [pulledKid] at hv
    · exact ⟨h4, h3⟩
  have fix : ∀ {s : SetObj H} {k : H} {b : Bool}, KidFor hash R x b (pulledKid s k) → ((∃ v, s = { value := some v }) ∨ (s.value = none ∧ s.computedHash = some k ∧ s.clauses ≠ [] ∧
      s.evaluatedVars = [] ∧ s.finalNamesMap = [])) → (∃ v, s = { value := some v } ∧ k = hash [if v then 'T' else 'F']) ∨ (s.value = none ∧ s.computedHash = some k ∧ s.clauses ≠ [] ∧
      s.evaluatedVars = [] ∧ s.finalNamesMap = []) := by
    intro s k b hk hs
    rcases hs with ⟨v, rfl⟩ | hs
    · left
      refine ⟨v, rfl, ?_⟩
      cases v
      · exact (hk.f rfl).2
      · exact (hk.t rfl).2.1
    · exact Or.inr hs
  obtain ⟨q0, hpop, hrep0, hdb0, htab0⟩ := hrep.pop
  obtain ⟨ps1, s1', n1, p1, g1, c1, v1, e1⟩ := processChild_pulled hash a im (k := r.cid1) (fix kf1 sh1)
    (ps := { ps with queue := q0, foundInGdb := ps.foundInGdb + 1 }) hpid
  obtain ⟨t1, t2, t3, t4, t5, t6, t7, t8, _⟩ := g1.graph hash (fun h => (kf1.n h).2.2.2.1) hpid
  obtain ⟨ps2, s2', n2, p2, g2, c2, v2, e2⟩ := processChild_pulled hash a im (k := r.cid2) (fix kf2 sh2) (ps := ps1) t1
  obtain ⟨u1, u2, u3, u4, u5, u6, u7, u8, _⟩ := g2.graph hash (fun h => (kf2.n h).2.2.2.1) t1
  obtain ⟨nv, hnv⟩ := numOfVars_shape hx.1.sto
  obtain ⟨x', hx'⟩ : ∃ x' : SetObj H, x' = { x with computedHash := some (hid hash x) } := ⟨_, rfl⟩
  have hid2 : x'.id = some (hid hash x) := by rw [hx']; exact hid'
  have hgc : getChildren hash a seen gr x = pure (s1, s2, true, x') := by
    rw [hx']
    unfold getChildren
    rw [if_pos hg, getHash_shape hash hx.1 hc]
    simp only [M.pure_bind, hin, if_true, hch]
  have hsave : saveAt hash a seen gq gw x' r.cid1 r.cid2 =
      pure (if wants a seen gq (hid hash x) = true then DbStatus.uniqueViolation else .success, gw) := by
    rw [hx']
    unfold saveAt
    have : ({ x with computedHash := some (hid hash x) } : SetObj H).getHash hash false =
        pure (hid hash x, { x with computedHash := some (hid hash x) }) := by unfold getHash; rfl
    have hn2 : numOfVars ({ x with computedHash := some (hid hash x) } : SetObj H) = pure nv := by rw [← hnv]; rfl
    have hb : ({ x with computedHash := some (hid hash x) } : SetObj H).toStr = pure (bodyStr x.clauses) :=
      toStr_ok hx.1.sto.value hx.1.sto.ne
    rw [this]
    simp only [M.pure_bind, hn2]
    cases hw : wants a seen gq (hid hash x) with
    | false =>
      unfold wants at hw
      rw [if_neg (by rw [hw]; simp)]
      rfl
    | true =>
      have hcon : Dict.contains gw (hid hash x) = true := by
        rcases hnw with h | h
        · rw [hw] at h; simp at h
        · exact h
      unfold wants at hw
      rw [if_pos hw, hb, M.pure_bind]
      unfold Gdb.insertRow
      rw [if_pos hcon]
      rfl
  have gh1 : s1'.getHash hash false = pure (r.cid1, s1') := by unfold getHash; rw [c1]
  have gh2 : s2'.getHash hash false = pure (r.cid2, s2') := by unfold getHash; rw [c2]
  have hnr : ∀ k, ps.nodesChildren.get? k = none → ps.queue.useDb = true → k ∉ q0.table.rows.keys := by
    intro k hk hdb hm
    rw [htab0] at hm
    have := hrows hdb k hm
    rw [Dict.mem_keys_iff, hk] at this
    simp at this
  have hpid2 : ∀ n ∈ n2, hid hash n ≠ hid hash x := by
    intro n hn e
    have := u4 n hn
    rw [e, t1] at this; simp at this
  have hold2 : ∀ n ∈ n2, hid hash n ∉ n1.map (hid hash) ∧ ps.nodesChildren.get? (hid hash n) = none := by
    intro n hn
    have h0 := u4 n hn
    rw [t2 _ (hpid2 n hn)] at h0
    split at h0
    · simp at h0
    · next hh => exact ⟨hh, h0⟩
  have hnews : ∀ {k : Kid H} {b : Bool} {n : SetObj H}, KidFor hash R x b k → hid hash n ∈ k.edges ∧ n = k.item →
      Storable n ∧ (EvPos x → EvPos n) ∧ n.id = some (hid hash n) := by
    rintro k b n hk ⟨hm, rfl⟩
    have hv : k.value = none := by
      unfold Kid.edges at hm
      match h : k.value with
      | none => rfl
      | some v => rw [h] at hm; simp at hm
    obtain ⟨_, _, _, h4, h5, h6, _, h8⟩ := hk.n hv
    exact ⟨h6.1.sto, h8, by rw [h4, h5]⟩
  obtain ⟨q1, i1, i2, i3, i4⟩ := enqueue_ok hash hrep0 e1 (by
    intro n hn
    obtain ⟨z1, z2, z3⟩ := hnews kf1 (t5 n hn)
    refine ⟨z1, fun h => z2 (hpos (hdb0 ▸ h)), z3, fun h => hnr _ (t4 n hn) (hdb0 ▸ h)⟩)
  obtain ⟨q2, j1, j2, j3, j4⟩ := enqueue_ok hash i2 e2 (by
    intro n hn
    obtain ⟨z1, z2, z3⟩ := hnews kf2 (u5 n hn)
    refine ⟨z1, fun h => z2 (hpos (by rw [← hdb0, ← i3]; exact h)), z3, fun h hm => ?_⟩
    rcases i4 _ hm with hm | hm
    · exact (hold2 n hn).1 hm
    · exact hnr _ (hold2 n hn).2 (by rw [← hdb0, ← i3]; exact h) hm)
  have hq2 : ps2.queue = q0 := by rw [u7, t7]
  obtain ⟨ps', e⟩ : ∃ p : PS H, p = { ps2 with
      queue := if wants a seen gq (hid hash x) = true then q0 else q2, gdb := gw,
      leaves := if s1'.value ≠ none ∧ s2'.value ≠ none then ps2.leaves ++ [some (hid hash x)] else ps2.leaves } := ⟨_, rfl⟩
  have hrun' : expandAt hash a im seen gr gq gw ps = pure ps' := by
    rw [e]
    unfold expandAt
    rw [hpop]
    simp only [M.pure_bind, hgc, if_true]
    rw [hid2, p1]
    simp only [M.pure_bind]
    rw [p2]
    simp only [M.pure_bind, gh1, gh2, hsave, hq2]
    cases hw : wants a seen gq (hid hash x) with
    | false =>
      simp only [Bool.false_eq_true, if_false, if_true, i1, j1, M.pure_bind, hq2]
      split <;> rfl
    | true =>
      simp only [if_true, reduceCtorEq, if_false, M.pure_bind, hq2]
      split <;> simp [hq2]
  refine ⟨ps', hrun', pulledKid s1 r.cid1, pulledKid s2 r.cid2, n1, n2, _, ps1, ps2, nv,
    ⟨kf1, kf2, rfl, g1, g2, ?_, hnv, ?_, ?_, ?_⟩, r, hrow, rfl, rfl, bare in1 sh1, bare in2 sh2, rfl, rfl⟩
  · have hgw : (if wants a seen gq (hid hash x) then (gw.insertRow (hid hash x)
        { body := bodyStr x.clauses, cid1 := r.cid1, cid2 := r.cid2, numClauses := x.clauses.length, numVars := nv }).2 else gw) = gw := by
      split
      · next hw =>
        have hcon : Dict.contains gw (hid hash x) = true := by
          rcases hnw with h | h
          · rw [hw] at h; simp at h
          · exact h
        unfold Gdb.insertRow
        rw [if_pos hcon]
      · rfl
    have e1 : (pulledKid s1 r.cid1).dig = r.cid1 := rfl
    have e2 : (pulledKid s2 r.cid2).dig = r.cid2 := rfl
    rw [e1, e2, hgw, e]
  · rw [e]
    show Rep (if wants a seen gq (hid hash x) = true then q0 else q2) _
    cases hw : wants a seen gq (hid hash x) with
    | false =>
      simp only [Bool.false_and, Bool.false_eq_true, if_false]
      rw [List.map_append, ← List.append_assoc]
      rwa [i3, hdb0] at j2
    | true =>
      have hcon : Dict.contains gw (hid hash x) = true := by
        rcases hnw with h | h
        · rw [hw] at h; simp at h
        · exact h
      simp only [Bool.true_and, hcon, if_true, List.append_nil]
      exact hrep0
  · rw [e]
    show (if wants a seen gq (hid hash x) = true then q0 else q2).useDb = _
    split
    · exact hdb0
    · rw [j3, i3, hdb0]
  · rw [e]
    intro k hk
    have hk : k ∈ (if wants a seen gq (hid hash x) = true then q0 else q2).table.rows.keys := hk
    rw [List.map_append, List.mem_append]
    split at hk
    · exact Or.inl (htab0 ▸ hk)
    · rcases j4 k hk with h | h
      · exact Or.inr (Or.inr h)
      · rcases i4 k h with h | h
        · exact Or.inr (Or.inl h)
        · exact Or.inl (htab0 ▸ h)

/-- A pass that finds both children of the node in the table. -/
theorem expandAt_pulled (seen : List H) {gr gq gw : Gdb H} {R : Cnf} {ps : PS H}
    {x : SetObj H} {l : List (SetObj H)} (hrep : Rep ps.queue (x :: l)) (hx : GItem R x)
    (hpos : ps.queue.useDb = true → EvPos x) (hid' : x.id = some (hid hash x))
    {ks : List H} (hpid : ps.nodesChildren.get? (hid hash x) = some ks)
    (hrows : ps.queue.useDb = true → ∀ k ∈ ps.queue.table.rows.keys, k ∈ ps.nodesChildren.keys)
    (hc : x.computedHash = some (hid hash x) ∨ x.computedHash = none)
    {S : Str → Prop} (hS : NoClash hash S) (htab : TableSound hash gr) (hT : Texts S gr x) (hle : Gdb.le gr gq)
    (hg : a.useGlobalDb = true) (hin : isSetInGdb a seen gr (hid hash x) = true)
    (hch : getChildrenFromGdb hash gr (hid hash x) ≠ none) :
    ∃ ps', expandAt hash a im seen gr gq gw ps = pure ps' ∧
    ∃ k1 k2 n1 n2 ps0 ps1 ps2 nv, Pass hash a seen gq gw R x l ps ps' k1 k2 n1 n2 ps0 ps1 ps2 nv ∧ Pulled hash gr x k1 k2 :=
  expandAt_pulled' hash a im seen hrep hx hpos hid' hpid hrows hc hS htab hT (Or.inl (wants_of_le a hle hin)) hg hin hch

/-- A pass raises on a node without the names of its variables whose children cannot be pulled. -/
theorem expandAt_bare (seen : List H) {gr gq gw : Gdb H} {R : Cnf} {ps : PS H}
    {x : SetObj H} {l : List (SetObj H)} (hrep : Rep ps.queue (x :: l)) (hx : GItem R x) (hxb : Bare x)
    (hc : x.computedHash = some (hid hash x) ∨ x.computedHash = none)
    (hin : a.useGlobalDb = true → isSetInGdb a seen gr (hid hash x) = true →
        getChildrenFromGdb hash gr (hid hash x) = none) (ps' : PS H) : expandAt hash a im seen gr gq gw ps ≠ pure ps' := by
  intro hrun
  obtain ⟨q0, hpop, _⟩ := hrep.pop
  have hgc : getChildren hash a seen gr x = raise .indexError := by
    unfold getChildren
    by_cases hg : a.useGlobalDb = true
    · rw [if_pos hg, getHash_shape hash hx.1 hc]
      have hn : (if isSetInGdb a seen gr (hid hash x) = true then getChildrenFromGdb hash gr (hid hash x) else none) = none := by
        split
        · next e => exact hin hg e
        · rfl
      have hev' : ({ x with computedHash := some (hid hash x) } : SetObj H).evaluate = raise .indexError := by
        rw [← evaluate_bare hx.1 hxb.1]; rfl
      simp only [M.pure_bind, hn, hev']
      rfl
    · rw [if_neg hg, evaluate_bare hx.1 hxb.1]
      rfl
  unfold expandAt at hrun
  rw [hpop] at hrun
  simp only [M.pure_bind, hgc] at hrun
  obtain ⟨_, h, _⟩ := M.bind_eq_pure.1 hrun
  exact absurd h (M.raise_ne_pure _ _)

/-- Whether a pass goes through does not depend on the table written to. -/
theorem expandAt_progress (seen : List H) {gr gq gw gw' : Gdb H} {R : Cnf} (hR : Proper R) {ps ps' : PS H}
    {x : SetObj H} {l : List (SetObj H)} (hrep : Rep ps.queue (x :: l)) (hx : GItem R x)
    (hpos : ps.queue.useDb = true → EvPos x) (hid' : x.id = some (hid hash x))
    {ks : List H} (hpid : ps.nodesChildren.get? (hid hash x) = some ks)
    (hrows : ps.queue.useDb = true → ∀ k ∈ ps.queue.table.rows.keys, k ∈ ps.nodesChildren.keys)
    (hc : x.computedHash = some (hid hash x) ∨ x.computedHash = none)
    {S : Str → Prop} (hS : NoClash hash S) (htab : TableSound hash gr) (hT : Texts S gr x)
    (hnw : isSetInGdb a seen gr (hid hash x) = true → getChildrenFromGdb hash gr (hid hash x) ≠ none →
      wants a seen gq (hid hash x) = false ∨ Dict.contains gw (hid hash x) = true)
    (hrun : expandAt hash a im seen gr gq gw' ps = pure ps') : ∃ ps'', expandAt hash a im seen gr gq gw ps = pure ps'' := by
  by_cases hcase : a.useGlobalDb = true ∧ isSetInGdb a seen gr (hid hash x) = true ∧
      getChildrenFromGdb hash gr (hid hash x) ≠ none
  · obtain ⟨hg, hin, hch⟩ := hcase
    obtain ⟨ps'', hrun', _⟩ :=
      expandAt_pulled' hash a im (gw := gw) seen hrep hx hpos hid' hpid hrows hc hS htab hT (hnw hin hch) hg hin hch
    exact ⟨ps'', hrun'⟩
  · have hin : a.useGlobalDb = true → isSetInGdb a seen gr (hid hash x) = true →
        getChildrenFromGdb hash gr (hid hash x) = none := by
      intro h1 h2
      by_contra h3
      exact hcase ⟨h1, h2, h3⟩
    rcases hx.2 with hxt | hxb
    · obtain ⟨ps'', _, _, _, _, _, _, _, _, _, hrun', _⟩ :=
        expandAt_ok hash a im seen gr gq gw hR hrep hxt hpos hid' hpid hrows hc hin
      exact ⟨ps'', hrun'⟩
    · exact absurd hrun (expandAt_bare hash a im seen hrep hx hxb hc hin ps')

/-- Every pass that goes through is of this form. -/
theorem expandAt_pass' (seen : List H) {gr gq gw : Gdb H} {R : Cnf} (hR : Proper R) {ps ps' : PS H}
    {x : SetObj H} {l : List (SetObj H)} (hrep : Rep ps.queue (x :: l)) (hx : GItem R x)
    (hpos : ps.queue.useDb = true → EvPos x) (hid' : x.id = some (hid hash x))
    {ks : List H} (hpid : ps.nodesChildren.get? (hid hash x) = some ks)
    (hrows : ps.queue.useDb = true → ∀ k ∈ ps.queue.table.rows.keys, k ∈ ps.nodesChildren.keys)
    (hc : x.computedHash = some (hid hash x) ∨ x.computedHash = none)
    {S : Str → Prop} (hS : NoClash hash S) (htab : TableSound hash gr) (hT : Texts S gr x)
    (hnw : isSetInGdb a seen gr (hid hash x) = true → getChildrenFromGdb hash gr (hid hash x) ≠ none →
      wants a seen gq (hid hash x) = false ∨ Dict.contains gw (hid hash x) = true)
    (hrun : expandAt hash a im seen gr gq gw ps = pure ps') :
    ∃ k1 k2 n1 n2 ps0 ps1 ps2 nv, Pass hash a seen gq gw R x l ps ps' k1 k2 n1 n2 ps0 ps1 ps2 nv ∧
      (Computed hash a im R x k1 k2 ∨
        (a.useGlobalDb = true ∧ isSetInGdb a seen gr (hid hash x) = true ∧ Pulled hash gr x k1 k2)) := by
  by_cases hcase : a.useGlobalDb = true ∧ isSetInGdb a seen gr (hid hash x) = true ∧
      getChildrenFromGdb hash gr (hid hash x) ≠ none
  · obtain ⟨hg, hin, hch⟩ := hcase
    obtain ⟨ps'', hrun', k1, k2, n1, n2, ps0, ps1, ps2, nv, h1, h2⟩ :=
      expandAt_pulled' hash a im (gw := gw) seen hrep hx hpos hid' hpid hrows hc hS htab hT (hnw hin hch) hg hin hch
    have e := (M.pure_inj _ _).1 (hrun.symm.trans hrun')
    subst e
    exact ⟨k1, k2, n1, n2, ps0, ps1, ps2, nv, h1, Or.inr ⟨hg, hin, h2⟩⟩
  · -- computed
    have hin : a.useGlobalDb = true → isSetInGdb a seen gr (hid hash x) = true →
        getChildrenFromGdb hash gr (hid hash x) = none := by
      intro h1 h2
      by_contra h3
      exact hcase ⟨h1, h2, h3⟩
    rcases hx.2 with hxt | hxb
    · obtain ⟨ps'', ps1, ps2, lft, rgt, n1, n2, q0, q, nv, hrun', hev, hl, hr, s1, s2, hnv, hps, hrp, hdb, hrw⟩ :=
        expandAt_ok hash a im seen gr gq gw hR hrep hxt hpos hid' hpid hrows hc hin
      have e := (M.pure_inj _ _).1 (hrun.symm.trans hrun')
      subst e
      obtain ⟨kf1, lk1⟩ := kidFor_of_child hash a im hR hxt hl
      obtain ⟨kf2, lk2⟩ := kidFor_of_child hash a im hR hxt hr
      have hq : ps'.queue = q := by rw [hps]
      refine ⟨kidOf hash a im lft, kidOf hash a im rgt, n1, n2, _, ps1, ps2, nv,
        ⟨kf1, kf2, rfl, s1.gchild, s2.gchild, ?_, hnv, by rw [hq]; exact hrp, by rw [hq]; exact hdb, by rw [hq]; exact hrw⟩,
        Or.inl ⟨hxt, lft, rgt, hev, hl, hr, rfl, rfl⟩⟩
      rw [hq]
      exact hps
    · exact absurd hrun (expandAt_bare hash a im seen hrep hx hxb hc hin ps')

/-- Every pass that goes through is of this form. -/
theorem expandAt_pass (seen : List H) {gr gq gw : Gdb H} {R : Cnf} (hR : Proper R) {ps ps' : PS H}
    {x : SetObj H} {l : List (SetObj H)} (hrep : Rep ps.queue (x :: l)) (hx : GItem R x)
    (hpos : ps.queue.useDb = true → EvPos x) (hid' : x.id = some (hid hash x))
    {ks : List H} (hpid : ps.nodesChildren.get? (hid hash x) = some ks)
    (hrows : ps.queue.useDb = true → ∀ k ∈ ps.queue.table.rows.keys, k ∈ ps.nodesChildren.keys)
    (hc : x.computedHash = some (hid hash x) ∨ x.computedHash = none)
    {S : Str → Prop} (hS : NoClash hash S) (htab : TableSound hash gr) (hT : Texts S gr x) (hle : Gdb.le gr gq)
    (hrun : expandAt hash a im seen gr gq gw ps = pure ps') :
    ∃ k1 k2 n1 n2 ps0 ps1 ps2 nv, Pass hash a seen gq gw R x l ps ps' k1 k2 n1 n2 ps0 ps1 ps2 nv ∧
      (Computed hash a im R x k1 k2 ∨
        (a.useGlobalDb = true ∧ isSetInGdb a seen gr (hid hash x) = true ∧ Pulled hash gr x k1 k2)) :=
  expandAt_pass' hash a im seen hR hrep hx hpos hid' hpid hrows hc hS htab hT (fun hin _ => Or.inl (wants_of_le a hle hin)) hrun

end NDP
