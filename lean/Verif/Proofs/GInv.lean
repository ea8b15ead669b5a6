import Verif.Proofs.GExp
/- One process on any sound table: whatever it pulls or computes, a verdict it reaches is right. -/
namespace NDP
open Spec SetObj
variable {H : Type} [DecidableEq H] (hash : Str → H) (a : Args) (im : Mode)

/-- The branch `b` of a formula on its leading variable. -/
def subF (G : Cnf) (b : Bool) : Cnf := residual [((pivotOf G : Int), b)] G

/-- The formulas that can be met below `F0`: normal forms (in any mode) of branches that are neither T nor F. -/
inductive Below (F0 : Cnf) : Cnf → Prop
  | root : Below F0 F0
  | child {G N : Cnf} {mode : Mode} {b : Bool} (h : Below F0 G) (h1 : subF G b ≠ []) (h2 : [] ∉ subF G b)
      (hN : NormalForm mode (subF G b) N) : Below F0 N

/-- A well-formed formula: some clause, no empty clause, no variable 0, literals ascending. -/
def Wf (G : Cnf) : Prop := G ≠ [] ∧ ∀ c ∈ G, c ≠ [] ∧ (0 : Int) ∉ c ∧ Asc c

theorem NormalForm.wf {mode : Mode} {F N : Cnf} (h : NormalForm mode F N) (hF : F ≠ []) : Wf N := by
  refine ⟨h.ne hF, fun c hc => ⟨(h.asc c hc).1, fun h0 => ?_, (h.asc c hc).2⟩⟩
  obtain ⟨n, hn⟩ := h.vars
  have : (0 : Int).natAbs ∈ varsOf N := mem_varsOf.2 ⟨c, hc, 0, h0, rfl⟩
  rw [hn, List.mem_range'] at this
  obtain ⟨i, _, e⟩ := this
  simp at e
  omega

theorem Below.wf {F0 G : Cnf} (h0 : Wf F0) (h : Below F0 G) : Wf G := by
  cases h with
  | root => exact h0
  | child _ h1 _ hN => exact hN.wf h1

theorem sub_zero {G : Cnf} {d : Dict Int Bool} (h : ∀ c ∈ G, (0 : Int) ∉ c) : ∀ c ∈ residual d G, (0 : Int) ∉ c := by
  intro c hc
  obtain ⟨c0, h0, _, rfl⟩ := mem_residual.1 hc
  exact fun hm => h c0 h0 (List.mem_of_mem_filter hm)

theorem NormalForm.sat {mode : Mode} {F N : Cnf} (h : NormalForm mode F N) (hF : ∀ c ∈ F, (0 : Int) ∉ c) :
    Satisfiable N ↔ Satisfiable F := by
  obtain ⟨ρ, hinj, hs⟩ := h.rename
  rw [← SameClauses.satisfiable hs, satisfiable_mapCnf _ hinj]
  intro v hv e
  have hm : ρ v ∈ varsOf F := by
    rw [← SameClauses.mem_vars hs, varsOf_mapCnf]; exact ⟨v, hv, rfl⟩
  obtain ⟨c, hc, l, hl, e'⟩ := mem_varsOf.1 hm
  have : l = 0 := by omega
  exact hF c hc (this ▸ hl)

theorem NormalForm.size {mode : Mode} {F N : Cnf} (h : NormalForm mode F N) : Spec.size N = Spec.size F := by
  obtain ⟨ρ, _, hs⟩ := h.rename
  rw [← hs.size, size_mapCnf]

theorem NormalForm.length {mode : Mode} {F N : Cnf} (h : NormalForm mode F N) : N.length = F.length := by
  obtain ⟨ρ, _, hs⟩ := h.rename
  rw [← hs.length]; simp [mapCnf]

theorem sat_of_sub {G : Cnf} {b : Bool} (h : Satisfiable (subF G b)) : Satisfiable G := by
  obtain ⟨α, hα⟩ := h
  have key : ∃ β : Assign, (∀ v, v ≠ pivotOf G → β v = α v) ∧ β (pivotOf G) = b :=
    ⟨fun v => if v = pivotOf G then b else α v, fun v hv => if_neg hv, if_pos rfl⟩
  obtain ⟨β, h1, h2⟩ := key
  refine ⟨β, ?_⟩
  have hag : Agrees β [((pivotOf G : Int), b)] := by
    intro k b' hk
    simp only [Dict.get?_cons, Dict.get?_nil] at hk
    split at hk
    · next e =>
      have : b = b' := by simpa using hk
      subst this
      have : k = pivotOf G := by omega
      rw [this]; exact h2
    · simp at hk
  rw [sat_residual hag]
  intro c hc
  obtain ⟨l, hl, hv⟩ := hα c hc
  refine ⟨l, hl, ?_⟩
  obtain ⟨c0, _, _, rfl⟩ := mem_residual.1 hc
  have hn := (List.mem_filter.1 hl).2
  have hne : l.natAbs ≠ pivotOf G := by
    intro e
    simp [partialVal, Dict.get?_cons, e] at hn
  unfold litVal at hv ⊢
  rw [h1 _ hne]; exact hv

theorem Below.sat {F0 G : Cnf} (h0 : Wf F0) (h : Below F0 G) (hs : Satisfiable G) : Satisfiable F0 := by
  induction h with
  | root => exact hs
  | child hb h1 h2 hN ih =>
    apply ih
    apply sat_of_sub
    exact (hN.sat (sub_zero fun c hc => ((hb.wf h0).2 c hc).2.1)).1 hs

theorem length_residual_le (d : Dict Int Bool) (F : Cnf) : (residual d F).length ≤ F.length := by
  unfold residual
  rw [List.length_map]
  exact List.length_filter_le _ _

theorem Below.length {F0 G : Cnf} (h : Below F0 G) : G.length ≤ F0.length := by
  induction h with
  | root => exact Nat.le_refl _
  | child hb h1 h2 hN ih =>
    rw [hN.length]
    exact Nat.le_trans (length_residual_le _ _) ih

theorem Shape.wf {x : SetObj H} (h : Shape x) : Wf (raws x.clauses) := by
  refine ⟨by simpa [raws] using h.sto.ne, ?_⟩
  intro c hc
  have hc' := hc
  obtain ⟨d, hd, rfl⟩ := List.mem_map.1 hc
  refine ⟨h.sto.cne d hd, fun h0 => ?_, h.sto.asc d hd⟩
  have := h.pos (0 : Int).natAbs (mem_varsOf.2 ⟨d.raw, hc', 0, h0, rfl⟩)
  simp at this

theorem Shape.hid_eq {x : SetObj H} (h : Shape x) : hid hash x = hash (textOf (raws x.clauses)) := by
  rw [hid, bodyStr_text h.sto.cne]

/-- What stays fixed during a run below `F0` that starts with the table `g0`. -/
structure Ctx (F0 : Cnf) (S : Str → Prop) (g0 : Gdb H) (seen : List H) : Prop where
  wf : Wf F0
  clash : NoClash hash S
  t : S ['T']
  f : S ['F']
  below : ∀ G, Below F0 G → S (textOf G)
  body : ∀ h r, Dict.get? g0 h = some r → S r.body
  sound : TableSound hash g0
  seen : a.gdbNoMem = false → ∀ k r, Dict.get? g0 k = some r → r.numClauses ≤ F0.length → k ∈ seen

/-- Invariant of the process; `l` is its queue. -/
structure GInv (R : Cnf) (F0 : Cnf) (S : Str → Prop) (g0 : Gdb H) (ps : PS H) (l : List (SetObj H)) : Prop where
  rep : Rep ps.queue l
  db : ps.queue.useDb = a.useRuntimeDb
  rows : a.useRuntimeDb = true → ∀ k ∈ ps.queue.table.rows.keys, k ∈ ps.nodesChildren.keys
  items : ∀ x ∈ l, GItem R x ∧ Below F0 (raws x.clauses) ∧ (a.useRuntimeDb = true → EvPos x) ∧
    x.id = some (hid hash x) ∧ (x.computedHash = some (hid hash x) ∨ x.computedHash = none) ∧
    ps.nodesChildren.get? (hid hash x) = some []
  ids : (l.map (hid hash)).Nodup
  done : ∀ h ks, ps.nodesChildren.get? h = some ks → (∃ x ∈ l, hid hash x = h) ∨
    ∃ G, Below F0 G ∧ h = hash (textOf G) ∧ ∀ b, (subF G b = [] → ps.isSat = true) ∧
      (subF G b ≠ [] → [] ∉ subF G b → ∃ mode N, NormalForm mode (subF G b) N ∧ hash (textOf N) ∈ ps.nodesChildren.keys)
  sat : ps.isSat = true → Satisfiable F0
  both : ps.isSat = true ↔ ps.solution.isSome
  sol : ∀ d, ps.solution = some d → d = [] ∨ (MakesTrue d R ∧ SolKeys d)
  root : hash (textOf F0) ∈ ps.nodesChildren.keys
  table : TableSound hash ps.gdb
  tabS : ∀ h r, Dict.get? ps.gdb h = some r → S r.body
  keys : ∀ k ∈ Dict.keys ps.gdb, k ∈ Dict.keys g0 ∨ (k ∈ ps.nodesChildren.keys ∧ k ∉ l.map (hid hash))
  old : ∀ k r, Dict.get? g0 k = some r → Dict.get? ps.gdb k = some r
  linked : ∀ k r, Dict.get? ps.gdb k = some r → Dict.get? g0 k = some r ∨
    ∀ c, c = r.cid1 ∨ c = r.cid2 → c = hash ['T'] ∨ c = hash ['F'] ∨ c ∈ ps.nodesChildren.keys

theorem GChild.flags {R : Cnf} {x : SetObj H} {b : Bool} {pid : H} {k : Kid H} {ps ps' : PS H} {news : List (SetObj H)}
    (h : GChild pid k ps ps' news) (hk : KidFor hash R x b k)
    (h1 : ps.isSat = true ↔ ps.solution.isSome)
    (h2 : ∀ d, ps.solution = some d → d = [] ∨ (MakesTrue d R ∧ SolKeys d)) :
    (ps'.isSat = true ↔ ps'.solution.isSome) ∧
    (∀ d, ps'.solution = some d → d = [] ∨ (MakesTrue d R ∧ SolKeys d)) ∧
    (ps.isSat = true → ps'.isSat = true) ∧ (k.value = some true → ps'.isSat = true) ∧
    (ps'.isSat = true → ps.isSat = true ∨ k.value = some true) := by
  cases h with
  | uniq ks hv => exact ⟨h1, h2, fun h => h, by rw [hv]; simp, Or.inl⟩
  | red ks rids hv => exact ⟨h1, h2, fun h => h, by rw [hv]; simp, Or.inl⟩
  | const v hv =>
    cases v with
    | false =>
      simp only [Bool.false_eq_true, false_and, if_false, Bool.or_false]
      exact ⟨h1, h2, fun h => h, by rw [hv]; simp, Or.inl⟩
    | true =>
      simp only [true_and, Bool.or_true]
      refine ⟨?_, ?_, fun _ => trivial, fun _ => trivial, fun _ => Or.inr hv⟩
      · split
        · simp
        · next hs => simp; exact Option.isSome_iff_ne_none.2 hs
      · intro d hd
        split at hd
        · have e : sortItems k.ev = d := by simpa using hd
          subst e
          rcases (hk.t hv).2.2 with e | h
          · left; rw [e]; rfl
          · exact Or.inr h
        · exact h2 d hd

theorem KidFor.edges_of {R : Cnf} {x : SetObj H} {b : Bool} {k : Kid H} (hk : KidFor hash R x b k)
    (h1 : sub x b ≠ []) (h2 : [] ∉ sub x b) : k.value = none := by
  match hv : k.value with
  | none => rfl
  | some true => exact absurd (hk.t hv).1 h1
  | some false => exact absurd (hk.f hv).1 h2

theorem KidFor.true_of {R : Cnf} {x : SetObj H} {b : Bool} {k : Kid H} (hk : KidFor hash R x b k)
    (h1 : sub x b = []) : k.value = some true := by
  match hv : k.value with
  | none => exact absurd h1 (hk.n hv).1
  | some true => rfl
  | some false => have := (hk.f hv).1; rw [h1] at this; simp at this

theorem sub_eq (x : SetObj H) (b : Bool) : sub x b = subF (raws x.clauses) b := rfl

/-- The variables of a node are `1..n`. -/
theorem Tracks.allVars {R : Cnf} {x : SetObj H} (h : Tracks R x) (v : Nat) :
    v ∈ varsOf (raws x.clauses) ↔ 1 ≤ v ∧ v ≤ (varsOf (raws x.clauses)).length := by
  have hnd : (varsOf (raws x.clauses)).Nodup := nodup_dedup _
  have hsub : ∀ v ∈ varsOf (raws x.clauses), v ∈ List.range' 1 (varsOf (raws x.clauses)).length := by
    intro v hv
    obtain ⟨h1, h2⟩ := h.node.vars v hv
    rw [h.nvars] at h2
    exact List.mem_range'_1.2 ⟨h1, by omega⟩
  have hp := (hnd.subperm hsub).perm_of_length_le (by simp)
  rw [hp.mem_iff, List.mem_range'_1]
  omega

/-- A row inserted for a node whose children were computed is right. -/
theorem Computed.row {R : Cnf} (hR : Proper R) {x : SetObj H} {k1 k2 : Kid H} (h : Computed hash a im R x k1 k2) {nv : Nat}
    (hnv : numOfVars x = pure nv) :
    RowSound hash im (hid hash x)
      { body := bodyStr x.clauses, cid1 := k1.dig, cid2 := k2.dig, numClauses := x.clauses.length, numVars := nv } := by
  obtain ⟨hx, lft, rgt, hev, hl, hr, rfl, rfl⟩ := h
  have l1 := (kidFor_of_child hash a im hR hx hl).2
  have l2 := (kidFor_of_child hash a im hR hx hr).2
  have hwf := hx.shape.wf
  have hlast : nv = lastVar (raws x.clauses) := by
    unfold numOfVars at hnv
    unfold lastVar raws
    rw [List.getLast?_map]
    cases hg : x.clauses.getLast? with
    | none => rw [hg] at hnv; exact ((M.pure_inj _ _).1 hnv).symm
    | some c =>
      rw [hg] at hnv
      simp only [Option.map_some] at hnv ⊢
      cases hg' : c.raw.getLast? with
      | none => rw [hg'] at hnv; exact absurd hnv (M.raise_ne_pure _ _)
      | some l => rw [hg'] at hnv; exact ((M.pure_inj _ _).1 hnv).symm
  have hvars := hx.allVars
  cases hc : raws x.clauses with
  | nil => exact absurd hc (by simpa [raws] using hx.node.ne)
  | cons c cs =>
    cases hcr : c with
    | nil => exact absurd hcr (hwf.2 c (by rw [hc]; simp)).1
    | cons y ys =>
      have hG : raws x.clauses = (y :: ys) :: cs := by rw [hc, hcr]
      have hp : pivotOf (raws x.clauses) = y.natAbs := by rw [hG]; rfl
      rw [hp] at l1 l2
      refine ⟨raws x.clauses, y, ys, cs, hG, hwf.2, bodyStr_text hx.node.cne, ?_, ?_, l1, l2, hlast, hvars⟩
      · rw [hx.shape.hid_eq]
        show _ = hash (bodyStr x.clauses)
        rw [bodyStr_text hx.node.cne]
      · simp [raws]

/-- One pass preserves the invariant. -/
theorem GInv.advance {R F0 : Cnf} {S : Str → Prop} {g0 : Gdb H} {seen : List H} (hR : Proper R) (hC : Ctx hash a F0 S g0 seen)
    {ps ps' : PS H} {x : SetObj H} {l : List (SetObj H)} (h : GInv hash a R F0 S g0 ps (x :: l))
    {k1 k2 : Kid H} {n1 n2 : List (SetObj H)} {ps0 ps1 ps2 : PS H} {nv : Nat}
    (hp : Pass hash a seen ps.gdb ps.gdb R x l ps ps' k1 k2 n1 n2 ps0 ps1 ps2 nv)
    (hor : Computed hash a im R x k1 k2 ∨
        (a.useGlobalDb = true ∧ isSetInGdb a seen ps.gdb (hid hash x) = true ∧ Pulled hash ps.gdb x k1 k2)) :
    GInv hash a R F0 S g0 ps' (l ++ (n1 ++ n2).map (store a.useRuntimeDb)) ∧
      (∀ k ∈ ps.nodesChildren.keys, k ∈ ps'.nodesChildren.keys) ∧
      (∀ k ∈ k1.edges ++ k2.edges, k ∈ ps'.nodesChildren.keys) ∧
      (∀ k ∈ ps'.nodesChildren.keys, k ∈ ps.nodesChildren.keys ∨ k ∈ (n1 ++ n2).map (hid hash)) ∧
      (∀ n ∈ n1 ++ n2, (n = k1.item ∧ k1.value = none) ∨ (n = k2.item ∧ k2.value = none)) ∧ (n1 ++ n2).length ≤ 2 ∧
      (∀ n ∈ n1 ++ n2, ps.nodesChildren.get? (hid hash n) = none) := by
  obtain ⟨hxi, hxb, hxp, hxid, hxc, hxn⟩ := h.items x (by simp)
  -- no clash with an existing row
  have hdup : (wants a seen ps.gdb (hid hash x) && Dict.contains ps.gdb (hid hash x)) = false := by
    by_contra hd
    simp only [Bool.not_eq_false, Bool.and_eq_true] at hd
    obtain ⟨hw, hcon⟩ := hd
    unfold wants at hw
    simp only [Bool.and_eq_true, Bool.not_eq_true'] at hw
    have hin := hw.2
    unfold isSetInGdb at hin
    by_cases hm : a.gdbNoMem = true
    · rw [if_pos hm] at hin
      unfold Gdb.hashExists at hin
      rw [hcon] at hin; simp at hin
    · rw [if_neg hm] at hin
      have hm' : a.gdbNoMem = false := by simpa using hm
      have hk : hid hash x ∈ Dict.keys ps.gdb := (Dict.mem_keys_iff _ _).2 hcon
      rcases h.keys _ hk with h0 | ⟨_, h0⟩
      · obtain ⟨r, hr⟩ := Dict.exists_get?_of_mem h0
        obtain ⟨mode, G, y, ys, cs, hG, hwf, hb, hkey, hlen, _⟩ := hC.sound _ _ hr
        have : raws x.clauses = G := by
          apply textOf_inj hxi.1.wf.1 (by rw [hG]; simp) (fun c hc => (hxi.1.wf.2 c hc).1) (fun c hc => (hwf c hc).1)
          rw [← hb]
          exact hC.clash _ _ (hC.below _ hxb) (hC.body _ _ hr) (by rw [← hxi.1.hid_eq hash, hkey])
        have hs := hC.seen hm' _ _ hr (by rw [hlen, ← this]; exact hxb.length)
        simp [hs] at hin
      · exact h0 (by simp)
  have e0 := hp.start
  have hn0 : ps0.nodesChildren.get? (hid hash x) = some [] := by rw [e0]; exact hxn
  obtain ⟨g1, g2, g3, g4, g5, g6, _, g8, _⟩ := hp.step1.graph hash (fun hv => (hp.kid1.n hv).2.2.2.1) hn0
  obtain ⟨j1, j2, j3, j4, j5, j6, _, j8, _⟩ := hp.step2.graph hash (fun hv => (hp.kid2.n hv).2.2.2.1) g1
  obtain ⟨v1, v2, v3, v4, v5⟩ := hp.step1.flags hash hp.kid1 (by rw [e0]; exact h.both) (by rw [e0]; exact h.sol)
  obtain ⟨u1, u2, u3, u4, u5⟩ := hp.step2.flags hash hp.kid2 v1 v2
  have hnc : ps'.nodesChildren = ps2.nodesChildren := by rw [hp.final]
  have hsat' : ps'.isSat = ps2.isSat := by rw [hp.final]
  have hsol' : ps'.solution = ps2.solution := by rw [hp.final]
  have hnc0 : ps0.nodesChildren = ps.nodesChildren := by rw [e0]
  have hsat0 : ps0.isSat = ps.isSat := by rw [e0]
  have hrep' := hp.rep
  rw [hdup] at hrep'
  simp only [Bool.false_eq_true, if_false] at hrep'
  generalize hpid : hid hash x = pid at *
  simp only [List.nil_append] at g1 j1
  rw [hnc0] at g2 g4
  have hpid1 : ∀ n ∈ n1, hid hash n ≠ pid := by
    intro n hn e
    have := g4 n hn
    rw [e, hxn] at this; simp at this
  have hpid2 : ∀ n ∈ n2, hid hash n ≠ pid := by
    intro n hn e
    have := j4 n hn
    rw [e, g1] at this; simp at this
  have hold2 : ∀ n ∈ n2, hid hash n ∉ n1.map (hid hash) ∧ ps.nodesChildren.get? (hid hash n) = none := by
    intro n hn
    have h0 := j4 n hn
    rw [g2 _ (hpid2 n hn)] at h0
    split at h0
    · simp at h0
    · next hh => exact ⟨hh, h0⟩
  have hnewpid : ∀ n ∈ n1 ++ n2, hid hash n ≠ pid := by
    intro n hn
    rcases List.mem_append.1 hn with hn | hn
    · exact hpid1 n hn
    · exact hpid2 n hn
  have hnewnone : ∀ n ∈ n1 ++ n2, ps.nodesChildren.get? (hid hash n) = none := by
    intro n hn
    rcases List.mem_append.1 hn with hn | hn
    · exact g4 n hn
    · exact (hold2 n hn).2
  have hget : ∀ k, k ≠ pid → ps'.nodesChildren.get? k =
      if k ∈ (n1 ++ n2).map (hid hash) then some [] else ps.nodesChildren.get? k := by
    intro k hk
    rw [hnc, j2 k hk, g2 k hk, List.map_append]
    by_cases e1 : k ∈ n1.map (hid hash) <;> by_cases e2 : k ∈ n2.map (hid hash) <;>
      simp only [List.mem_append, e1, e2, if_true, if_false, or_true, true_or, or_false]
  have hgetpid : ps'.nodesChildren.get? pid = some (k1.edges ++ k2.edges) := by rw [hnc, j1]
  have hmono : ∀ k ∈ ps.nodesChildren.keys, k ∈ ps'.nodesChildren.keys := by
    intro k hk
    rw [Dict.mem_keys_iff] at hk ⊢
    by_cases e : k = pid
    · rw [e, hgetpid]; rfl
    · rw [hget k e]; split
      · rfl
      · exact hk
  have hsame : ∀ k ks, k ≠ pid → ps.nodesChildren.get? k = some ks → ps'.nodesChildren.get? k = some ks := by
    intro k ks e hk
    rw [hget k e, if_neg, hk]
    intro hm
    obtain ⟨n, hn, rfl⟩ := List.mem_map.1 hm
    rw [hnewnone n hn] at hk; simp at hk
  have hkids : ∀ k ∈ k1.edges ++ k2.edges, k ∈ ps'.nodesChildren.keys := by
    intro k hk
    rw [Dict.mem_keys_iff, hnc]
    rcases List.mem_append.1 hk with hk | hk
    · have := g3 k hk
      by_cases e : k = pid
      · rw [e, j1]; rfl
      · rw [j2 k e]; split
        · rfl
        · exact this
    · exact j3 k hk
  have hnewmem : ∀ n ∈ n1 ++ n2, hid hash n ∈ k1.edges ++ k2.edges := by
    intro n hn
    rcases List.mem_append.1 hn with hn | hn
    · exact List.mem_append_left _ (g5 n hn).1
    · exact List.mem_append_right _ (j5 n hn).1
  have hids : pid ∉ l.map (hid hash) ∧ (l.map (hid hash)).Nodup := by
    have := h.ids
    rw [List.map_cons, List.nodup_cons, hpid] at this
    exact this
  have hlpid : ∀ y ∈ l, hid hash y ≠ pid := by
    intro y hy e; exact hids.1 (List.mem_map.2 ⟨y, hy, e⟩)
  have hval : ∀ {k : Kid H} {j : H}, j ∈ k.edges → k.value = none := by
    intro k j hj
    unfold Kid.edges at hj
    match hv : k.value with
    | none => rfl
    | some v => rw [hv] at hj; simp at hj
  have hnews : ∀ n ∈ n1 ++ n2, GItem R n ∧ (EvPos x → EvPos n) ∧ n.id = some (hid hash n) ∧
      n.computedHash = some (hid hash n) ∧ Below F0 (raws n.clauses) := by
    have main : ∀ (k : Kid H) (b : Bool) (n : SetObj H), KidFor hash R x b k → hid hash n ∈ k.edges → n = k.item →
        GItem R n ∧ (EvPos x → EvPos n) ∧ n.id = some (hid hash n) ∧
        n.computedHash = some (hid hash n) ∧ Below F0 (raws n.clauses) := by
      rintro k b n hk hm rfl
      obtain ⟨h1, h2, ⟨mode, h3⟩, h4, h5, h6, h7, h8⟩ := hk.n (hval hm)
      exact ⟨h6, h8, by rw [h4, h5], by rw [h4, h7], Below.child hxb h1 h2 h3⟩
    intro n hn
    rcases List.mem_append.1 hn with hn | hn
    · exact main k1 true n hp.kid1 (g5 n hn).1 (g5 n hn).2
    · exact main k2 false n hp.kid2 (j5 n hn).1 (j5 n hn).2
  have hmapid : ((n1 ++ n2).map (store a.useRuntimeDb)).map (hid hash) = (n1 ++ n2).map (hid hash) := by
    rw [List.map_map]
    apply List.map_congr_left
    intro n hn
    exact (hnews n hn).1.1.hid_store hash _
  rw [h.db] at hrep'
  have hgdb : ps'.gdb = if wants a seen ps.gdb pid then (ps.gdb.insertRow pid
      { body := bodyStr x.clauses, cid1 := k1.dig, cid2 := k2.dig, numClauses := x.clauses.length, numVars := nv }).2 else ps.gdb := by
    have := congrArg PS.gdb hp.final
    rw [hpid] at this
    exact this
  have hgdb' : ps'.gdb = ps.gdb ∨ (wants a seen ps.gdb pid = true ∧ Dict.contains ps.gdb pid = false ∧ ps'.gdb = Dict.set ps.gdb pid
      { body := bodyStr x.clauses, cid1 := k1.dig, cid2 := k2.dig, numClauses := x.clauses.length, numVars := nv }) := by
    by_cases hw : wants a seen ps.gdb pid = true
    · right
      have hcon : Dict.contains ps.gdb pid = false := by rw [hw] at hdup; simpa using hdup
      refine ⟨hw, hcon, ?_⟩
      rw [hgdb, if_pos hw]
      unfold Gdb.insertRow
      rw [if_neg (by rw [hcon]; simp)]
    · left
      rw [hgdb, if_neg hw]
  have hval : ∀ {k : Kid H}, ∀ j ∈ k.edges, k.value = none := by
    intro k j hj
    unfold Kid.edges at hj
    match hv : k.value with
    | none => rfl
    | some v => rw [hv] at hj; simp at hj
  refine ⟨?_, hmono, hkids, ?_, ?_, by simp only [List.length_append]; omega, hnewnone⟩
  rotate_left
  · intro k hk
    by_cases e : k = pid
    · exact Or.inl (e ▸ Dict.mem_keys_of_get? hxn)
    · rw [Dict.mem_keys_iff, hget k e] at hk
      split at hk
      · next hm => exact Or.inr hm
      · exact Or.inl ((Dict.mem_keys_iff _ _).2 hk)
  · intro n hn
    rcases List.mem_append.1 hn with hn | hn
    · exact Or.inl ⟨(g5 n hn).2, hval _ (g5 n hn).1⟩
    · exact Or.inr ⟨(j5 n hn).2, hval _ (j5 n hn).1⟩
  refine ⟨hrep', by rw [hp.db]; exact h.db, ?_, ?_, ?_, ?_, ?_, ?_, ?_,
    hmono _ h.root, ?_, ?_, ?_, ?_, ?_⟩
  · intro hu k hk
    rcases hp.rows k hk with hk | hk
    · exact hmono k (h.rows hu k hk)
    · obtain ⟨n, hn, rfl⟩ := List.mem_map.1 hk
      exact hkids _ (hnewmem n hn)
  · intro y hy
    rcases List.mem_append.1 hy with hy | hy
    · obtain ⟨b1, b2, b3, b4, b5, b6⟩ := h.items y (by simp [hy])
      exact ⟨b1, b2, b3, b4, b5, hsame _ _ (hlpid y hy) b6⟩
    · obtain ⟨n, hn, rfl⟩ := List.mem_map.1 hy
      obtain ⟨b1, b2, b3, b4, b5⟩ := hnews n hn
      have hh := b1.1.hid_store hash a.useRuntimeDb
      refine ⟨b1.store _, by rw [raws_store]; exact b5, fun hu => (b2 (hxp hu)).store _, ?_, ?_, ?_⟩
      · rw [id_store, hh, b3]
      · rw [hh]
        unfold store
        split
        · right; rfl
        · left; exact b4
      · rw [hh, hget _ (hnewpid n hn), if_pos (List.mem_map.2 ⟨n, hn, rfl⟩)]
  · rw [List.map_append, hmapid, List.nodup_append]
    refine ⟨hids.2, ?_, ?_⟩
    · rw [List.map_append, List.nodup_append]
      refine ⟨nodup_of_length_le_one (by simpa using g6),
        nodup_of_length_le_one (by simpa using j6), ?_⟩
      intro p hp q hq e
      obtain ⟨n, hn, rfl⟩ := List.mem_map.1 hq
      exact (hold2 n hn).1 (e ▸ hp)
    · intro p hp q hq e
      obtain ⟨y, hy, rfl⟩ := List.mem_map.1 hp
      obtain ⟨n, hn, rfl⟩ := List.mem_map.1 hq
      have h1 := hnewnone n hn
      rw [← e, (h.items y (by simp [hy])).2.2.2.2.2] at h1
      simp at h1
  · intro k ks hk
    by_cases e : k = pid
    · right
      refine ⟨raws x.clauses, hxb, by rw [e, ← hpid, hxi.1.hid_eq], ?_⟩
      have main : ∀ (k : Kid H) (b : Bool), KidFor hash R x b k → (∀ j ∈ k.edges, j ∈ ps'.nodesChildren.keys) →
          (k.value = some true → ps'.isSat = true) → (subF (raws x.clauses) b = [] → ps'.isSat = true) ∧
          (subF (raws x.clauses) b ≠ [] → [] ∉ subF (raws x.clauses) b → ∃ mode N,
            NormalForm mode (subF (raws x.clauses) b) N ∧ hash (textOf N) ∈ ps'.nodesChildren.keys) := by
        intro k b hk hke hkt
        refine ⟨fun h => hkt (hk.true_of hash h), fun h1 h2 => ?_⟩
        have hv := hk.edges_of hash h1 h2
        obtain ⟨_, _, ⟨mode, h3⟩, h4, _, h6, _⟩ := hk.n hv
        refine ⟨mode, _, h3, hke _ ?_⟩
        rw [← h6.1.hid_eq hash, h4]
        unfold Kid.edges; rw [hv]; simp
      intro b
      cases b with
      | true => exact main k1 true hp.kid1 (fun j hj => hkids j (List.mem_append_left _ hj)) (fun hv => by rw [hsat']; exact u3 (v4 hv))
      | false => exact main k2 false hp.kid2 (fun j hj => hkids j (List.mem_append_right _ hj)) (fun hv => by rw [hsat']; exact u4 hv)
    · rw [hget k e] at hk
      split at hk
      · next hm =>
        left
        rw [← hmapid] at hm
        obtain ⟨y, hy, e2⟩ := List.mem_map.1 hm
        exact ⟨y, List.mem_append_right _ hy, e2⟩
      · rcases h.done k ks hk with ⟨y, hy, e2⟩ | ⟨G, b1, b2, b3⟩
        · left
          rcases List.mem_cons.1 hy with rfl | hy
          · exact absurd (e2.symm.trans hpid) e
          · exact ⟨y, List.mem_append_left _ hy, e2⟩
        · right
          refine ⟨G, b1, b2, fun b => ⟨fun hb => ?_, fun h1 h2 => ?_⟩⟩
          · rw [hsat']; exact u3 (v3 (by rw [hsat0]; exact (b3 b).1 hb))
          · obtain ⟨mode, N, c1, c2⟩ := (b3 b).2 h1 h2
            exact ⟨mode, N, c1, hmono _ c2⟩
  · intro hs
    rw [hsat'] at hs
    have htrue : ∀ (k : Kid H) (b : Bool), KidFor hash R x b k → k.value = some true → Satisfiable F0 := by
      intro k b hk hv
      apply hxb.sat hC.wf
      apply sat_of_sub (b := b)
      have := (hk.t hv).1
      rw [sub_eq] at this
      rw [this]
      exact ⟨fun _ => true, fun c hc => by simp at hc⟩
    rcases u5 hs with hs | hs
    · rcases v5 hs with hs | hs
      · rw [hsat0] at hs; exact h.sat hs
      · exact htrue _ _ hp.kid1 hs
    · exact htrue _ _ hp.kid2 hs
  · rw [hsat', hsol']; exact u1
  · rw [hsol']; exact u2
  · intro k r hk
    rcases hgdb' with e | ⟨hw, _, e⟩
    · rw [e] at hk; exact h.table k r hk
    · rw [e, Dict.get?_set] at hk
      split at hk
      · next e2 =>
        have hr := Option.some.inj hk
        subst e2
        refine ⟨im, ?_⟩
        rcases hor with hc | ⟨_, hin, _⟩
        · rw [← hr]
          have := hc.row hash a im hR hp.nv
          rw [hpid] at this
          exact this
        · unfold wants at hw
          rw [hin] at hw; simp at hw
      · exact h.table k r hk
  · intro k r hk
    rcases hgdb' with e | ⟨hw, _, e⟩
    · rw [e] at hk; exact h.tabS k r hk
    · rw [e, Dict.get?_set] at hk
      split at hk
      · have hr := Option.some.inj hk
        rw [← hr]
        show S (bodyStr x.clauses)
        rw [bodyStr_text hxi.1.sto.cne]
        exact hC.below _ hxb
      · exact h.tabS k r hk
  · intro k hk
    rw [List.map_append, hmapid]
    have hnot : ∀ k, k ∈ ps.nodesChildren.keys → k ∉ (n1 ++ n2).map (hid hash) := by
      intro k hk hm
      obtain ⟨n, hn, rfl⟩ := List.mem_map.1 hm
      rw [Dict.mem_keys_iff, hnewnone n hn] at hk
      simp at hk
    have hpidk : pid ∈ ps.nodesChildren.keys := Dict.mem_keys_of_get? hxn
    have old : k ∈ Dict.keys ps.gdb → k ∈ Dict.keys g0 ∨ k ∈ ps'.nodesChildren.keys ∧
        k ∉ l.map (hid hash) ++ (n1 ++ n2).map (hid hash) := by
      intro hk
      rcases h.keys k hk with h1 | ⟨h1, h2⟩
      · exact Or.inl h1
      · refine Or.inr ⟨hmono k h1, ?_⟩
        rw [List.mem_append]
        rintro (h3 | h3)
        · exact h2 (by simp [h3])
        · exact hnot k h1 h3
    rcases hgdb' with e | ⟨hw, _, e⟩
    · rw [e] at hk; exact old hk
    · rw [e, Dict.mem_keys_set] at hk
      rcases hk with rfl | hk
      · right
        refine ⟨hmono _ hpidk, ?_⟩
        rw [List.mem_append]
        rintro (h3 | h3)
        · exact hids.1 h3
        · exact hnot _ hpidk h3
      · exact old hk
  · intro k r hk
    have hk' := h.old k r hk
    rcases hgdb' with e | ⟨_, hcon, e⟩
    · rw [e]; exact hk'
    · rw [e, Dict.get?_set, if_neg, hk']
      rintro rfl
      unfold Dict.contains at hcon
      rw [hk'] at hcon; simp at hcon
  · intro k r hk
    have hkey : ∀ {k : Kid H} {b : Bool}, KidFor hash R x b k → (∀ j ∈ k.edges, j ∈ ps'.nodesChildren.keys) →
        k.dig = hash ['T'] ∨ k.dig = hash ['F'] ∨ k.dig ∈ ps'.nodesChildren.keys := by
      intro k b hkf hke
      match hv : k.value with
      | some true => exact Or.inl (hkf.t hv).2.1
      | some false => exact Or.inr (Or.inl (hkf.f hv).2)
      | none => exact Or.inr (Or.inr (hke _ (by simp [Kid.edges, hv])))
    have old : Dict.get? ps.gdb k = some r → Dict.get? g0 k = some r ∨
        ∀ c, c = r.cid1 ∨ c = r.cid2 → c = hash ['T'] ∨ c = hash ['F'] ∨ c ∈ ps'.nodesChildren.keys := by
      intro hk
      rcases h.linked k r hk with h1 | h1
      · exact Or.inl h1
      · refine Or.inr fun c hc => ?_
        rcases h1 c hc with h2 | h2 | h2
        · exact Or.inl h2
        · exact Or.inr (Or.inl h2)
        · exact Or.inr (Or.inr (hmono _ h2))
    rcases hgdb' with e | ⟨_, hcon, e⟩
    · rw [e] at hk; exact old hk
    · rw [e, Dict.get?_set] at hk
      split at hk
      · right
        have hr := Option.some.inj hk
        rw [← hr]
        rintro c (rfl | rfl)
        · exact hkey hp.kid1 fun j hj => hkids j (List.mem_append_left _ hj)
        · exact hkey hp.kid2 fun j hj => hkids j (List.mem_append_right _ hj)
      · exact old hk

/-- The queries of a pass meet no colliding texts. -/
theorem GInv.texts {R F0 : Cnf} {S : Str → Prop} {g0 : Gdb H} {seen : List H} (hC : Ctx hash a F0 S g0 seen)
    {ps : PS H} {x : SetObj H} {l : List (SetObj H)} (h : GInv hash a R F0 S g0 ps (x :: l)) : Texts S ps.gdb x :=
  have hxb := (h.items x (by simp)).2.1
  ⟨hC.t, hC.f, h.tabS, hC.below _ hxb, fun _ _ _ h1 h2 hN => hC.below _ (Below.child hxb h1 h2 hN)⟩

theorem Gdb.le_refl (g : Gdb H) : Gdb.le g g := fun _ r hk => ⟨r, hk, rfl, rfl, rfl, rfl, rfl⟩

/-- A pass keeps the invariant. -/
theorem GInv.step {R F0 : Cnf} {S : Str → Prop} {g0 : Gdb H} {seen : List H} (hR : Proper R) (hC : Ctx hash a F0 S g0 seen)
    {ps ps' : PS H} {x : SetObj H} {l : List (SetObj H)} (h : GInv hash a R F0 S g0 ps (x :: l))
    (hrun : expand hash a im seen ps = pure ps') : ∃ l', GInv hash a R F0 S g0 ps' l' := by
  obtain ⟨hxi, hxb, hxp, hxid, hxc, hxn⟩ := h.items x (by simp)
  rw [expand_eq] at hrun
  obtain ⟨k1, k2, n1, n2, ps0, ps1, ps2, nv, hp, hor⟩ := expandAt_pass hash a im seen hR h.rep hxi
    (by rw [h.db]; exact hxp) hxid hxn (by rw [h.db]; exact h.rows) hxc hC.clash h.table (h.texts hash a hC) (Gdb.le_refl _) hrun
  exact ⟨_, (h.advance hash a im hR hC hp hor).1⟩

end NDP
