import Verif.Back.Total
import Verif.Back.Sim
import Verif.Front.Clean

/-!
# C39: function bodies keep their meaning when they are converted to control flow graphs
-/

set_option linter.unusedSimpArgs false
set_option linter.unusedVariables false

namespace Jlm.Back

open Jlm.Opt Jlm.Front

theorem open_init : Open G.init := ⟨by simp [G.init], rfl⟩

theorem edge_blk (g : G) (c : Nat) (hg : (g.blk g.last).succs = []) :
    (g.edge g.last c).blk g.last = { g.blk g.last with succs := [c] } := by simp [G.edge, hg]

theorem edge_keep (g : G) {b c z : Nat} (h : z ≠ b) : (g.edge b c).blk z = g.blk z := by simp [G.edge, h]

theorem finish_valid {g : G} (h : Grow G.init g) (hl : 3 ≤ g.last) : ((g.edge g.last 1).toCfg).Valid := by
  have n0 : 3 ≤ g.next := h.next
  have ll : g.last < g.next := h.lastlt
  have b0 : (g.edge g.last 1).blk 0 = ⟨[], [], [2]⟩ := by
    rw [edge_keep _ (by omega), h.keep 0 (by simp [G.init]) (by simp [G.init])]; rfl
  have b1 : (g.edge g.last 1).blk 1 = ⟨[], [], []⟩ := by
    rw [edge_keep _ (by omega), h.keep 1 (by simp [G.init]) (by simp [G.init])]; rfl
  have bl := edge_blk g 1 h.opened
  have cases3 : ∀ x : Nat, x = 0 ∨ x = 1 ∨ x = g.last ∨ (x ≠ g.last ∧ (x = 2 ∨ 3 ≤ x)) := by intro x; omega
  have full : ∀ x, x < g.next → x ≠ g.last → (x = 2 ∨ 3 ≤ x) → Full (g.blk x) := fun x hx hxl h2 => h.full x h2 hx hxl
  have bound : ∀ x, x < g.next → (x = 2 ∨ 3 ≤ x) → ∀ y ∈ (g.blk x).succs, 3 ≤ y ∧ y < g.next :=
    fun x hx h2 => h.bound x h2 hx
  have succs : ∀ x, x < g.next → ∀ y ∈ ((g.edge g.last 1).blk x).succs,
      (x = 0 ∧ y = 2) ∨ (x = g.last ∧ y = 1) ∨ (x ≠ g.last ∧ (x = 2 ∨ 3 ≤ x) ∧ y ∈ (g.blk x).succs ∧ 3 ≤ y ∧ y < g.next) := by
    intro x hx y hy
    rcases cases3 x with rfl | rfl | rfl | ⟨h1, h2⟩
    · rw [b0] at hy; simp at hy; simp [hy]
    · rw [b1] at hy; simp at hy
    · rw [bl] at hy; simp at hy; simp [hy]
    · rw [edge_keep _ h1] at hy
      exact .inr (.inr ⟨h1, h2, hy, bound x hx h2 y hy⟩)
  have mem : ∀ x, x ∈ ((g.edge g.last 1).toCfg).nodes ↔ x < g.next := fun x => List.mem_range
  refine ⟨⟨(mem 0).2 (by omega), (mem 1).2 (by omega), ?_, ?_, ?_⟩, List.nodup_range, by simp [G.toCfg], ?_, ?_, ?_,
    ⟨?_, ?_⟩, ?_⟩
  · intro x hx y hy
    rw [mem] at hx ⊢
    rcases succs x hx y hy with ⟨_, h⟩ | ⟨_, h⟩ | h <;> omega
  · show ((g.edge g.last 1).blk 1).succs = []
    rw [b1]
  · intro x hx h2
    rw [mem] at hx
    have h2 : 2 ≤ ((g.edge g.last 1).blk x).succs.length := h2
    show (branchVar ((g.edge g.last 1).blk x).code).isSome
    rcases cases3 x with rfl | rfl | rfl | ⟨h1, h3⟩
    · rw [b0] at h2; simp at h2
    · rw [b1] at h2; simp at h2
    · rw [bl] at h2; simp at h2
    · rw [edge_keep _ h1] at h2 ⊢
      exact (full x hx h1 h3).2 h2
  · intro x hx hy
    rw [mem] at hx
    rcases succs x hx 0 hy with ⟨_, h⟩ | ⟨_, h⟩ | h <;> omega
  · show ((g.edge g.last 1).blk 0).succs.length = 1
    rw [b0]; rfl
  · intro x hx h1
    rw [mem] at hx
    have h1 : x ≠ 1 := h1
    show ((g.edge g.last 1).blk x).succs ≠ []
    rcases cases3 x with rfl | rfl | rfl | ⟨h1, h3⟩
    · rw [b0]; simp
    · exact absurd rfl h1
    · rw [bl]; simp
    · rw [edge_keep _ h1]
      exact (full x hx h1 h3).1
  · show ((g.edge g.last 1).blk 0).phis = []
    rw [b0]
  · show ((g.edge g.last 1).blk 1).phis = []
    rw [b1]
  · intro x hx p hp
    rw [mem] at hx
    have hp : p ∈ ((g.edge g.last 1).blk x).phis := hp
    have hp' : 3 ≤ x ∧ p ∈ (g.blk x).phis := by
      by_cases hxl : x = g.last
      · rw [hxl, bl] at hp
        exact ⟨by omega, by rw [hxl]; exact hp⟩
      · rw [edge_keep _ hxl] at hp
        refine ⟨?_, hp⟩
        by_cases e2 : x = 2
        · have := h.lastPhis
          subst e2
          have e : (g.blk 2).phis = [] := this
          rw [e] at hp; simp at hp
        · rcases cases3 x with rfl | rfl | e | ⟨h1, h3⟩
          · rw [h.keep 0 (by simp [G.init]) (by simp [G.init])] at hp; simp [G.init] at hp
          · rw [h.keep 1 (by simp [G.init]) (by simp [G.init])] at hp; simp [G.init] at hp
          · exact absurd e hxl
          · omega
    obtain ⟨q1, q2, q3⟩ := h.phis x hp'.1 hx p hp'.2
    refine ⟨q1, fun z => ?_⟩
    rw [mem]
    constructor
    · intro hz
      have hz' := q2 z hz
      refine ⟨hz'.2, ?_⟩
      show x ∈ ((g.edge g.last 1).blk z).succs
      have hm := (q3 z hz').1 hz
      by_cases e : z = g.last
      · rw [e, h.opened] at hm; simp at hm
      · rw [edge_keep _ e]; exact hm
    · rintro ⟨hz, hm⟩
      rcases succs z hz x hm with ⟨_, h⟩ | ⟨_, h⟩ | ⟨h1, h2, h3, _⟩
      · omega
      · omega
      · exact (q3 z ⟨h2, hz⟩).2 h3

variable {V : Type}

theorem env_params {f : Fn} {s : St V} {o : Out} (hn : f.params.Nodup) (h : o ∈ f.params) : f.env s o = s.env o := by
  obtain ⟨k, hk⟩ := List.mem_iff_getElem?.1 h
  rw [Fn.env, Cne.upd_get hn hk]
  simp [List.getD, hk]

theorem env_ctx {f : Fn} {s : St V} {c : Out × Var} (hn : (f.ctx.map Prod.fst).Nodup) (hp : c.1 ∉ f.params)
    (h : c ∈ f.ctx) : f.env s c.1 = s.env c.2 := by
  obtain ⟨k, hk⟩ := List.mem_iff_getElem?.1 h
  rw [Fn.env, upd_notin _ _ _ _ hp, Cne.upd_get hn (k := k) (by simp [hk])]
  simp [List.getD, hk]

/-- **C39.** A well-formed function body can be converted. The control flow graph is valid, and no block can be
merged into its successor; its execution ends if and only if that of the body ends, and then the variables of the
results have the values that the body computes. -/
theorem C39_run (f : Fn) (hw : f.wf = true) (hs : Nodes.supported f.body = true) :
    ∃ (C : PCfg) (vs : List Var), createCfg f = some (C, vs) ∧ C.Valid ∧ C.Straight ∧
      ∀ {V : Type} (sem : Sem V) (truth : V → Bool) (s : St V) (rs : List (W V)),
        (∃ s', C.Exec sem truth C.entry s s' ∧ vs.map s'.env = rs) ↔
          (RunsNodes sem f.body (f.env s) ∧ rs = f.results.map (evalNodes sem f.body (f.env s))) := by
  simp only [Fn.wf, Bool.and_eq_true, decide_eq_true_eq, mem_subset, List.all_eq_true, Bool.not_eq_true',
    List.contains_eq_mem, decide_eq_false_iff_not] at hw
  obtain ⟨⟨⟨hn, hwf⟩, hres⟩, hctx⟩ := hw
  rw [List.nodup_append, List.nodup_append] at hn
  obtain ⟨⟨hnp, hnc, hpc⟩, hnn, hdis⟩ := hn
  -- the conversion succeeds
  obtain ⟨S0, i1, i2, i3⟩ := insertAll_some (l := f.params.map fun o => (o, o)) (S := ⟨G.init, fun _ => none⟩)
    (by simpa [Function.comp_def] using hnp) (fun _ _ => rfl)
  have i3' : ∀ x, x ∉ f.params → S0.vm x = none := fun x hx => by
    rw [i3 x (by simpa [Function.comp_def] using hx)]
  obtain ⟨S1, j1, j2, j3⟩ := insertAll_some (l := f.ctx) (S := S0) hnc
    (fun c hc => i3' _ fun h => hpc _ h _ (List.mem_map_of_mem hc) rfl)
  have e0 := (insertAll_ext i1).2
  have e1 := insertAll_ext j1
  have g1 : S1.g = G.init := by rw [insertAll_g j1, insertAll_g i1]
  have dom : ∀ o ∈ f.params ++ f.ctx.map Prod.fst, (S1.vm o).isSome := by
    intro o ho
    rcases List.mem_append.1 ho with ho | ho
    · rw [e1.1 o o (e0 (o, o) (List.mem_map_of_mem (f := fun o => (o, o)) ho))]; rfl
    · obtain ⟨c, hc, rfl⟩ := List.mem_map.1 ho
      exact j2 c hc
  obtain ⟨S2, k1, k2, k3⟩ := convNodes_some f.body (S := { S1 with g := S1.g.openBlock }) hs hwf hnn dom (fun o ho => by
    show S1.vm o = none
    rw [j3 o (fun h => hdis o (by simp [h]) o ho rfl), i3' o (fun h => hdis o (by simp [h]) o ho rfl)])
  have k3' : ∀ o, o ∉ namesNodes f.body → S2.vm o = S1.vm o := k3
  obtain ⟨vs, hvs⟩ := getAll_some (S := S2) (os := f.results) (fun o ho => by
    rcases List.mem_append.1 (hres o ho) with h | h
    · rw [k3' o (fun h' => hdis o h o h' rfl)]; exact dom o h
    · exact k2 o h)
  -- the graph
  have go : Grow G.init G.init.openBlock := grow_open open_init
  have gc : Grow G.init.openBlock S2.g := by
    have := convNodes_grow f.body (S := { S1 with g := S1.g.openBlock }) hs (by rw [g1]; exact go.isOpen) k1
    rw [g1] at this; exact this
  have gz : Grow S2.g S2.g.openBlock := grow_open gc.isOpen
  have hv : ((S2.g.openBlock.edge S2.g.next 1).toCfg).Valid :=
    finish_valid ((go.trans gc).trans gz) (go.trans gc).next
  have hb : buildCfg f = some ((S2.g.openBlock.edge S2.g.next 1).toCfg, vs) := by
    simp [buildCfg, i1, j1, k1, hvs]
  refine ⟨_, vs, by rw [createCfg, hb]; rfl, (C35_straighten (V := Unit) hv).1, (C35_straighten (V := Unit) hv).2.1, ?_⟩
  intro V sem truth s rs
  have hentry : (straighten (S2.g.openBlock.edge S2.g.next 1).toCfg).entry = 0 := (C35_straighten (V := Unit) hv).2.2.1
  have hE : ∀ s', (straighten (S2.g.openBlock.edge S2.g.next 1).toCfg).Exec sem truth 0 s s' ↔
      (S2.g.openBlock.edge S2.g.next 1).toCfg.Exec sem truth 0 s s' :=
    fun s' => (C35_straighten (V := V) hv).2.2.2.2.2 sem truth s s'
  rw [hentry]
  simp only [hE]
  -- the blocks
  generalize hB : (fun b => (S2.g.openBlock.edge S2.g.next 1).blk b) = B
  have hBb : ∀ b, (S2.g.openBlock.edge S2.g.next 1).blk b = B b := fun b => by rw [← hB]
  have hX : ∀ s', (S2.g.openBlock.edge S2.g.next 1).toCfg.Exec sem truth 0 s s' ↔
      ∃ M, iter sem truth B M (0, [], s) = some (1, [], s') := by
    intro s'
    have := exec_iff (sem := sem) (truth := truth) _ hv.last 0 s s'
    rw [← hB]
    rw [this]
    have h0 : (S2.g.openBlock.edge S2.g.next 1).toCfg.code 0 = [] := by
      show ((S2.g.openBlock.edge S2.g.next 1).blk 0).code = []
      rw [edge_keep _ (by have := (go.trans gc).next; have h3 : G.init.next = 3 := rfl; omega),
        ((go.trans gc).trans gz).keep 0 (by simp [G.init]) (by simp [G.init])]; rfl
    rw [h0]; rfl
  simp only [hX]
  have ln : S2.g.last < S2.g.next := gc.lastlt
  have n3 : 4 ≤ S2.g.next := gc.next
  have l3 : 3 ≤ S2.g.last := by
    rcases gc.lastnew with e | e
    · rw [e]; exact Nat.le_refl _
    · have : 4 ≤ S2.g.last := e
      omega
  have B0 : B 0 = ⟨[], [], [2]⟩ := by
    rw [← hBb, edge_keep _ (by omega), ((go.trans gc).trans gz).keep 0 (by simp [G.init]) (by simp [G.init])]; rfl
  have B1 : B 1 = ⟨[], [], []⟩ := by
    rw [← hBb, edge_keep _ (by omega), ((go.trans gc).trans gz).keep 1 (by simp [G.init]) (by simp [G.init])]; rfl
  have B2 : B 2 = ⟨[], [], [3]⟩ := by
    rw [← hBb, edge_keep _ (by omega), gz.keep 2 (by omega) (by omega), gc.keep 2 (by show 2 < 4; omega) (by show 2 ≠ 3; omega)]
    rfl
  have Bz : B S2.g.next = ⟨[], [], [1]⟩ := by
    rw [← hBb]
    simp only [G.edge, if_true]
    rw [openBlock_new gc.isOpen]; rfl
  have Bl : B S2.g.last = { S2.g.blk S2.g.last with succs := [S2.g.next] } := by
    rw [← hBb, edge_keep _ (by omega), openBlock_last gc.isOpen]
  have Bk : ∀ b, b < S2.g.next → b ≠ S2.g.last → B b = S2.g.blk b := fun b h1 h2 => by
    rw [← hBb, edge_keep _ (by omega), openBlock_keep (by omega) h2]
  have ag : Ag B G.init.openBlock S2.g [] := by
    refine ⟨fun b _ h1 h2 => Bk b h1 h2, fun h => Bk _ ?_ (Ne.symm h), by rw [Bl]; simp, by rw [Bl]⟩
    have : G.init.openBlock.last = 3 := rfl
    omega
  obtain ⟨r, hr1, hr2⟩ := convNodes_rep (B := B) (m := S2.toMap) f.body (S := { S1 with g := S1.g.openBlock }) hs hwf
    (by rw [g1]; exact go.isOpen) k1 S2.toMap_spec (by rw [g1]; exact ag)
  rw [g1] at hr1 hr2
  have hl : G.init.openBlock.last = 3 := rfl
  have hr1 : (B 3).code = r := hr1
  rw [hl] at hr2
  have B3 : (B 3).phis = [] := by
    by_cases e : 3 = S2.g.last
    · rw [e, Bl, ← e]
      exact gc.lastPhis
    · rw [Bk 3 (by omega) e]
      exact gc.lastPhis
  -- variables
  have mp : ∀ o ∈ f.params, S2.toMap o = o := fun o ho => S2.toMap_spec o o (by
    rw [k3' o (fun h => hdis o (by simp [ho]) o h rfl)]
    exact e1.1 o o (e0 (o, o) (List.mem_map_of_mem (f := fun o => (o, o)) ho)))
  have mc : ∀ c ∈ f.ctx, S2.toMap c.1 = c.2 := fun c hc => S2.toMap_spec c.1 c.2 (by
    have hm : c.1 ∈ f.ctx.map Prod.fst := List.mem_map_of_mem hc
    rw [k3' c.1 (fun h => hdis c.1 (by simp only [List.mem_append]; exact .inr hm) c.1 h rfl)]
    exact e1.2 c hc)
  have hvm : vs = f.results.map S2.toMap := getAll_map S2.toMap_spec hvs
  have start : ∀ k : Nat, iter sem truth B 2 (0, [], s) = some (3, r, s) := fun _ => by
    have h1 := iter_jump1 (sem := sem) (truth := truth) (B := B) (b := 0) (s := s) (by rw [B0])
    have h2 := iter_jump1 (sem := sem) (truth := truth) (B := B) (b := 2) (s := s) (by rw [B2])
    rw [B2, enter_nil] at h1
    rw [B3, enter_nil, hr1] at h2
    exact iter_trans (n := 1) (k := 1) h1 h2
  have sim := simNodes (sem := sem) (truth := truth) (B := B) (m := S2.toMap) f.body _ (f.env s) _ _ _ _ s hs hwf hnn
    (fun o ho h => hdis o ho o h rfl)
    (fun o ho => by
      rcases List.mem_append.1 ho with ho | ho
      · rw [mp o ho]; exact fun h => hdis o (by simp [ho]) o h rfl
      · obtain ⟨c, hc, rfl⟩ := List.mem_map.1 ho
        rw [mc c hc]; exact hctx c hc)
    hr2
    (fun o ho => by
      rcases List.mem_append.1 ho with ho | ho
      · rw [mp o ho, env_params hnp ho]
      · obtain ⟨c, hc, rfl⟩ := List.mem_map.1 ho
        rw [mc c hc, env_ctx hnc (fun h => hpc _ h _ ho rfl) hc])
  have fin : ∀ t : St V, iter sem truth B 2 (S2.g.last, [], t) = some (1, [], t) := fun t => by
    have h1 := iter_jump1 (sem := sem) (truth := truth) (B := B) (b := S2.g.last) (s := t) (by rw [Bl])
    have h2 := iter_jump1 (sem := sem) (truth := truth) (B := B) (b := S2.g.next) (s := t) (by rw [Bz])
    rw [Bz, enter_nil] at h1
    rw [B1, enter_nil] at h2
    exact iter_trans (n := 1) (k := 1) h1 h2
  have forward : RunsNodes sem f.body (f.env s) → ∃ M t, iter sem truth B M (0, [], s) = some (1, [], t) ∧
      vs.map t.env = f.results.map (evalNodes sem f.body (f.env s)) := by
    intro h
    obtain ⟨k, t, h1, h2, _⟩ := sim.1 h
    refine ⟨_, t, iter_trans (start 0) (iter_trans h1 (fin t)), ?_⟩
    rw [hvm, List.map_map]
    exact List.map_congr_left fun o ho => h2 o (hres o ho)
  constructor
  · rintro ⟨s', ⟨M, hM⟩, hrs⟩
    obtain ⟨_, hM'⟩ := iter_ends (by rw [B1]) (start 0) hM
    have hrun := sim.2 1 _ s' (by rw [B1]) hM'
    obtain ⟨M', t, h1, h2⟩ := forward hrun
    obtain ⟨hle, he⟩ := iter_ends (by rw [B1]) h1 hM
    have : t = s' := by
      cases hj : M - M' with
      | zero => rw [hj] at he; simpa [iter] using he
      | succ j => rw [hj] at he; simp [iter, next, B1, goes] at he
    subst this
    exact ⟨hrun, by rw [← hrs, h2]⟩
  · rintro ⟨hrun, rfl⟩
    obtain ⟨M, t, h1, h2⟩ := forward hrun
    exact ⟨t, ⟨M, h1⟩, h2⟩

end Jlm.Back
