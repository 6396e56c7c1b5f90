import Verif.Rvsdg.TraverserEdges
/-
C17: the top-down traverser.
-/
set_option linter.unusedSimpArgs false
set_option linter.unusedVariables false
namespace Jlm.Rvsdg.Trav

theorem isOutputActivated_eq (t o) : TD.isOutputActivated t o = V t o.owner := by
  unfold TD.isOutputActivated V
  cases o.owner <;> simp [isNodeVisited_eq]

theorem initTops (thr : NodeId → Nat) (tops : List NodeId) (t : Tracker) (hf : FI t)
    (hc : ∀ m, ct t m = 0) (hthr : ∀ n ∈ tops, thr n = 0) :
    FI (tops.foldl (fun t n => t.checkNodeActivation n (thr n)) t) ∧
    (∀ m, ct (tops.foldl (fun t n => t.checkNodeActivation n (thr n)) t) m = 0) ∧
    (∀ m, st (tops.foldl (fun t n => t.checkNodeActivation n (thr n)) t) m =
      if m ∈ tops ∧ st t m = .ahead then .frontier else st t m) := by
  induction tops generalizing t with
  | nil => simp [hf, hc]
  | cons a l ih =>
    rw [List.foldl_cons]
    obtain ⟨h1, h2, h3⟩ := ih (t.checkNodeActivation a (thr a)) (hf.act _ _)
      (by intro m; rw [ct_act]; exact hc m) (fun n hn => hthr n (by simp [hn]))
    refine ⟨h1, h2, ?_⟩
    intro m
    rw [h3, st_act, hthr a (by simp)]
    by_cases hm : m = a
    · subst hm
      by_cases hs : st t m = .ahead <;> simp [hs]
    · simp [hm]

/-- the state after the first loop of either constructor -/
theorem initTI {E : Edges} {L : NodeId → Prop} (thr : NodeId → Nat) (tops : List NodeId)
    (hthr : ∀ n ∈ tops, thr n = 0) (hneed : ∀ n ∈ tops, need E n = 0) (hL : ∀ n ∈ tops, L n)
    (hall : ∀ n, L n → need E n = 0 → n ∈ tops) (hs : ∀ n, need E n < u32) :
    TI (need E) (fun _ => 0) L True (tops.foldl (fun t n => t.checkNodeActivation n (thr n)) {}) := by
  have h0 : FI ({} : Tracker) := ⟨by simp, by intro n; simp [st, Tracker.entry]⟩
  obtain ⟨h1, h2, h3⟩ := initTops thr tops {} h0 (by intro m; simp [ct, Tracker.entry]) hthr
  have h3' : ∀ m, st (tops.foldl (fun t n => t.checkNodeActivation n (thr n)) {}) m =
      if m ∈ tops then .frontier else .ahead := by
    intro m; rw [h3]; simp [st, Tracker.entry]
  refine ⟨h1, h2, fun _ => Nat.zero_le _, hs, ?_, ?_, ?_⟩
  · intro n hn; rw [h3'] at hn
    split at hn
    · rename_i h; rw [hneed n h]
    · cases hn
  · intro n hn; rw [h3'] at hn
    split at hn
    · rename_i h; exact hL n h
    · cases hn
  · intro _ n hl hn; rw [h3'] at hn
    split at hn
    · cases hn
    · rename_i h; exact Nat.pos_of_ne_zero (fun hh => h (hall n hl hh))

namespace TD

/-- every `RemoveInputs` in the history removed at most one input at a time -/
def SingleRemovals (tr : List Ev) : Prop :=
  ∀ n idx, Ev.mut (.removeInputs n idx) ∈ tr → idx.length ≤ 1

structure TDI (g₀ : Graph) (s : State) (ret : List NodeId) (C : Prop) : Prop where
  wf : s.g.WF
  inv : Inv s.g.edges (· ∈ s.g.nodes) C s.t
  dead : ∀ n, n ∉ s.g.nodes → st s.t n ≠ .behind
  cut : s.cutoff = g₀.nextId ∧ s.cutoff ≤ s.g.nextId
  old : ∀ n ∈ s.g.nodes, n < s.cutoff → n ∈ g₀.nodes
  ret_iff : ∀ n ∈ s.g.nodes, n < s.cutoff → (st s.t n = .behind ↔ n ∈ ret)
  ret_old : ∀ n ∈ ret, n ∈ g₀.nodes
  nodup : ret.Nodup

theorem smallE {g : Graph} (hw : g.WF) (hs : g.SmallIn) (n) : need g.edges n < u32 := by
  by_cases h : n ∈ g.nodes
  · rw [need_edges g hw.nodup h]; exact hs n h
  · rw [need_edges_dead g h]; decide

theorem TDI.init {g₀ : Graph} (hw : g₀.WF) (hs : g₀.SmallIn) {tops us : List NodeId}
    (ht : tops.Perm g₀.topNodes) (hu : us.Perm g₀.argUserNodes) :
    TDI g₀ { g := g₀, t := TD.init g₀ tops us, cutoff := g₀.nextId } [] True := by
  have hmem : ∀ n, n ∈ tops ↔ n ∈ g₀.nodes ∧ g₀.ninputs n = 0 := by
    intro n; rw [ht.mem_iff, Graph.topNodes, List.mem_filter]; simp
  have h1 := initTI (E := g₀.edges) (L := (· ∈ g₀.nodes)) g₀.ninputs tops
    (fun n hn => ((hmem n).mp hn).2)
    (fun n hn => by rw [need_edges g₀ hw.nodup ((hmem n).mp hn).1]; exact ((hmem n).mp hn).2)
    (fun n hn => ((hmem n).mp hn).1)
    (fun n hl hz => (hmem n).mpr ⟨hl, by rw [← need_edges g₀ hw.nodup hl]; exact hz⟩)
    (smallE hw hs)
  have hus : ∀ u ∈ us, u ∈ g₀.nodes := by
    intro u huu
    rw [hu.mem_iff, Graph.argUserNodes, List.mem_filterMap] at huu
    obtain ⟨⟨a, d⟩, he, hd⟩ := huu
    split at hd
    · simp only at hd
      subst hd
      rcases mem_edges.mp he with ⟨m, hm, o, ho, e1, e2⟩ | ⟨o, ho, e1, e2⟩
      · cases e2; exact hm
      · cases e2
    · cases hd
  have hnb : ∀ n, st (tops.foldl (fun t n => t.checkNodeActivation n (g₀.ninputs n)) {}) n ≠ .behind := by
    intro n
    rw [Ne, beh_foldl _ (fun t a m => beh_act _ _ _ _)]
    simp [st, Tracker.entry]
  have hcount : ∀ m, actv g₀.edges (fun o => o.isNone) m = us.count m := by
    intro m
    rw [hu.count_eq, Graph.argUserNodes]
    generalize g₀.edges = E
    induction E with
    | nil => simp [actv]
    | cons e E ih =>
      rw [actv_cons, ih, List.filterMap_cons]
      cases h1 : e.1 with
      | none =>
        cases h2 : e.2 with
        | none => simp [h1, h2]
        | some x =>
          simp [h1, h2, List.count_cons]
      | some y => simp [h1]
  have h2 := h1.incFold g₀.ninputs us hus
    (fun u huu => (need_edges g₀ hw.nodup (hus u huu)).symm)
    (by intro m; rw [← hcount, Nat.zero_add]; exact actv_le _ _ _)
  have hbeh : ∀ m, st (TD.init g₀ tops us) m ≠ .behind := by
    intro m
    unfold TD.init
    rw [Ne, beh_foldl _ (fun t a m => beh_inc _ _ _ _)]
    exact hnb m
  refine ⟨hw, ?_, fun n _ => hbeh n, ⟨rfl, Nat.le_refl _⟩, fun n hn _ => hn, ?_, by simp, by simp⟩
  · refine TI.congr h2 (fun _ => rfl) ?_
    intro m
    rw [Nat.zero_add, ← hcount]
    apply actv_congr
    intro e he _
    cases e.1 with
    | none => rfl
    | some p => rw [V_some]; simp; exact hbeh p
  · intro n hn _
    simp; exact hbeh n

theorem userNodes_live {g : Graph} {n u} (h : u ∈ g.userNodes n) : u ∈ g.nodes := by
  rw [Graph.userNodes, List.mem_filterMap] at h
  obtain ⟨⟨a, d⟩, he, hd⟩ := h
  split at hd
  · simp only at hd
    subst hd
    rcases mem_edges.mp he with ⟨m, hm, o, ho, e1, e2⟩ | ⟨o, ho, e1, e2⟩
    · cases e2; exact hm
    · cases e2
  · cases hd

theorem beh_visit (g : Graph) (t : Tracker) (n : NodeId) (hn : st t n = .frontier) (us m) :
    (st (markAsVisited g t n us) m = .behind) ↔ (st t m = .behind ∨ m = n) := by
  unfold markAsVisited
  rw [beh_foldl _ (fun t a m => beh_inc _ _ _ _), beh_mark]
  simp [hn]

theorem peek_frontier {t : Tracker} (h : FI t) {n} (hp : t.peek = some n) : st t n = .frontier := by
  rw [← h.mem]
  unfold Tracker.peek at hp
  exact List.mem_of_head? hp

/-- one iteration of the loop of `next` -/
theorem TDI.visit {g₀ s ret C} (h : TDI g₀ s ret C) {n us} (hp : s.t.peek = some n)
    (hus : us.Perm (s.g.userNodes n)) :
    TDI g₀ { s with t := markAsVisited s.g s.t n us }
      (if n < s.cutoff then ret ++ [n] else ret) C := by
  have hfr := peek_frontier h.inv.fi hp
  have hl : n ∈ s.g.nodes := h.inv.live n hfr
  have hlive : ∀ u ∈ us, u ∈ s.g.nodes := fun u hu => userNodes_live (hus.mem_iff.mp hu)
  have hnret : n < s.cutoff → n ∉ ret := by
    intro hc hh
    rw [← h.ret_iff n hl hc, hfr] at hh; cases hh
  refine ⟨h.wf, ?_, ?_, h.cut, h.old, ?_, ?_, ?_⟩
  · exact Inv.visit s.g.ninputs h.inv hfr hus hlive
      (fun u hu => (need_edges s.g h.wf.nodup (hlive u hu)).symm)
  · intro m hm
    rw [Ne, beh_visit _ _ _ hfr]
    rintro (hh | rfl)
    · exact h.dead m hm hh
    · exact hm hl
  · intro m hm hc
    rw [beh_visit _ _ _ hfr, h.ret_iff m hm hc]
    split
    · simp
    · rename_i hnc
      simp only [or_iff_left_iff_imp]
      rintro rfl; exact absurd hc hnc
  · split
    · rename_i hc
      intro m hm
      rcases List.mem_append.mp hm with hm | hm
      · exact h.ret_old m hm
      · rw [List.mem_singleton] at hm; subst hm; exact h.old m hl hc
    · exact h.ret_old
  · split
    · rename_i hc
      rw [List.nodup_append]
      refine ⟨h.nodup, by simp, ?_⟩
      intro a ha b hb
      rw [List.mem_singleton] at hb
      rintro rfl
      subst hb
      exact hnret hc ha
    · exact h.nodup

theorem TDI.next {g₀ s ret C r s'} (h : TDI g₀ s ret C) (hn : Next s r s') :
    TDI g₀ s' (ret ++ r.toList) C := by
  induction hn generalizing ret with
  | null s hp => simpa using h
  | ret s n us hp hus hc =>
    have := h.visit hp hus
    rw [if_pos (Nat.lt_of_not_le hc)] at this
    exact this
  | skip s n us hp hus hc r s' hn ih =>
    have := h.visit hp hus
    rw [if_neg (Nat.not_lt.mpr hc)] at this
    exact ih this

theorem removeFold {E : Edges} {L : NodeId → Prop} {C : Prop} {t : Tracker} (n : NodeId) (N : Nat)
    (l : List Origin) (h : Inv (inE n l ++ E) L C t) (hL : L n) (hN : need E n + l.length ≤ N)
    (hC : C → l.length ≤ 1 ∧ (l.length = 1 → N = need E n + l.length)) :
    Inv E L C (l.foldl (fun t o => onInputDestroy t (some n) N o) t) ∧
    ∀ m, (st (l.foldl (fun t o => onInputDestroy t (some n) N o) t) m = .behind) ↔
      (st t m = .behind) := by
  have heq : ∀ t o, onInputDestroy t (some n) N o = edgeDestroy (fun _ => N - 1) t o.owner (some n) := by
    intro t o
    unfold onInputDestroy edgeDestroy
    rw [isOutputActivated_eq]
  constructor
  · induction l generalizing t with
    | nil => simpa [inE] using h
    | cons o l ih =>
      rw [List.foldl_cons, heq]
      have hneed : need (inE n l ++ E) n = l.length + need E n := by
        rw [need_append, need_inE, if_pos rfl]
      simp only [List.length_cons] at hN hC
      refine ih ?_ (by omega) ?_
      · refine Inv.destroy (E := inE n l ++ E) h (fun m hm => by cases hm; exact hL) ?_ ?_
        · intro m hm; cases hm; rw [hneed]; omega
        · intro c m hm; cases hm; rw [hneed]; have := hC c; omega
      · intro c
        have := hC c
        omega
  · intro m
    rw [beh_foldl]
    intro t o m
    rw [heq]; exact beh_edgeDestroy _ _ _ _ _

theorem createFold {need A : NodeId → Nat} {L : NodeId → Prop} {C : Prop} {t : Tracker} (n : NodeId)
    (os : List Origin) (h : TI need A L C t) (hL : L n)
    (hle : A n + os.length ≤ need n) :
    TI need (fun m => A m + if m = n then os.countP (fun o => V t o.owner) else 0) L C
      (os.foldl (fun t o => if isOutputActivated t o then t.incActivationCount n (need n) else t) t) ∧
    ∀ m, (st (os.foldl (fun t o => if isOutputActivated t o then t.incActivationCount n (need n) else t) t) m
      = .behind) ↔ (st t m = .behind) := by
  constructor
  · induction os generalizing A t with
    | nil => simp; exact h
    | cons o os ih =>
      rw [List.foldl_cons, isOutputActivated_eq]
      simp only [List.length_cons] at hle
      by_cases hv : V t o.owner = true
      · rw [if_pos hv]
        have h1 : TI need (fun m => A m + if m = n then 1 else 0) L C (t.incActivationCount n (need n)) :=
          h.inc hL rfl (fun _ _ => rfl) (by intro m hm; simp [hm]) (by simp) (by simp; omega)
            (h.small n) (by omega)
        have h2 := ih h1 (by simp; omega)
        rw [V_congr (beh_inc t n (need n))] at h2
        refine h2.congr (fun _ => rfl) ?_
        intro m
        rw [List.countP_cons, if_pos hv]
        by_cases hm : m = n <;> simp [hm]; omega
      · rw [if_neg hv]
        have h2 := ih h (by omega)
        refine h2.congr (fun _ => rfl) ?_
        intro m
        rw [List.countP_cons, if_neg hv]; simp
  · intro m
    rw [beh_foldl]
    intro t o m
    split
    · exact beh_inc _ _ _ _
    · rfl

theorem TDI.create {g₀ s ret C} (h : TDI g₀ s ret C) (os : List Origin)
    (hv : (Mut.createNode os).Valid s.g) (hs : (s.g.apply (.createNode os)).SmallIn) :
    TDI g₀ { s with g := s.g.apply (.createNode os), t := notify s.g s.t (.createNode os) } ret C := by
  have hw' := h.wf.apply _ hv
  have hfresh := h.wf.fresh
  have hE := edges_create s.g hfresh os
  have hnodes : (s.g.apply (.createNode os)).nodes = s.g.nodes ++ [s.g.nextId] := rfl
  have hins : (s.g.apply (.createNode os)).inputs s.g.nextId = os := by simp [Graph.apply, upd]
  have hnin : (s.g.apply (.createNode os)).ninputs s.g.nextId = os.length := by
    rw [Graph.ninputs, hins]
  have hneedE : ∀ m, need (s.g.apply (.createNode os)).edges m =
      need s.g.edges m + if m = s.g.nextId then os.length else 0 := by
    intro m
    rw [need_perm hE, need_append, need_inE, Nat.add_comm]
  have hneed0 : need s.g.edges s.g.nextId = 0 := need_edges_dead s.g hfresh
  have hstn : st s.t s.g.nextId = .ahead := by
    cases hst : st s.t s.g.nextId with
    | ahead => rfl
    | frontier => exact absurd (h.inv.live _ hst) hfresh
    | behind => exact absurd hst (h.dead _ hfresh)
  have hA0 : actv s.g.edges (V s.t) s.g.nextId = 0 :=
    Nat.le_zero.mp (hneed0 ▸ actv_le s.g.edges (V s.t) s.g.nextId)
  -- the state of the tracker before marking
  have key : ∀ t1, t1 = (if (s.g.apply (.createNode os)).ninputs s.g.nextId = 0 then
        s.t.checkNodeActivation s.g.nextId ((s.g.apply (.createNode os)).ninputs s.g.nextId)
      else (os.foldl (fun t o => if isOutputActivated t o then
          t.incActivationCount s.g.nextId ((s.g.apply (.createNode os)).ninputs s.g.nextId) else t) s.t)) →
      TI (need (s.g.apply (.createNode os)).edges)
        (actv (s.g.apply (.createNode os)).edges (V s.t)) (· ∈ s.g.nodes ++ [s.g.nextId]) C t1 ∧
      ∀ m, (st t1 m = .behind) ↔ (st s.t m = .behind) := by
    intro t1 ht1
    rw [hnin] at ht1
    have hactE : ∀ m, actv (s.g.apply (.createNode os)).edges (V s.t) m =
        actv s.g.edges (V s.t) m + if m = s.g.nextId then os.countP (fun o => V s.t o.owner) else 0 := by
      intro m
      rw [actv_perm hE, actv_append, Nat.add_comm]
      congr 1
      unfold actv inE
      rw [List.countP_map]
      by_cases hm : m = s.g.nextId
      · simp [hm, Function.comp_def]
      · simp [hm, Function.comp_def, Ne.symm hm]
    by_cases hos : os = []
    · subst hos
      simp only [List.length_nil, if_true] at ht1 hneedE
      subst ht1
      refine ⟨?_, fun m => beh_act _ _ _ _⟩
      refine ⟨h.inv.fi.act _ _, ?_, ?_, ?_, ?_, ?_, ?_⟩
      · intro m; rw [ct_act, h.inv.cnt, hactE]; simp
      · intro m; exact actv_le _ _ _
      · exact smallE hw' hs
      · intro m hf
        rw [st_act] at hf
        rw [hneedE, hactE]
        by_cases hm : m = s.g.nextId
        · simp [hm, hneed0]
        · simp only [hm, false_and, if_false] at hf
          simp [hm, h.inv.front m hf]
      · intro m hf
        rw [st_act] at hf
        by_cases hm : m = s.g.nextId
        · simp [hm]
        · simp only [hm, false_and, if_false] at hf
          have := h.inv.live m hf
          simp [this]
      · intro c m hl hf
        rw [st_act] at hf
        by_cases hm : m = s.g.nextId
        · simp [hm, hstn] at hf
        · simp only [hm, false_and, if_false] at hf
          rw [hneedE, hactE]
          simp [hm] at hl
          simp [hm, h.inv.comp c m hl hf]
    · have hpos : 0 < os.length := List.length_pos_iff.mpr hos
      rw [if_neg (by omega)] at ht1
      have hbase : TI (need (s.g.apply (.createNode os)).edges) (actv s.g.edges (V s.t))
          (· ∈ s.g.nodes ++ [s.g.nextId]) C s.t := by
        refine ⟨h.inv.fi, h.inv.cnt, ?_, smallE hw' hs, ?_, ?_, ?_⟩
        · intro m; rw [hneedE]; have := h.inv.le m; omega
        · intro m hf
          have hm : m ≠ s.g.nextId := by rintro rfl; rw [hstn] at hf; cases hf
          rw [hneedE, if_neg hm]; exact h.inv.front m hf
        · intro m hf
          have := h.inv.live m hf
          simp [this]
        · intro c m hl hf
          rw [hneedE]
          by_cases hm : m = s.g.nextId
          · rw [if_pos hm, hm, hneed0, hA0]; omega
          · simp [hm] at hl
            rw [if_neg hm]; exact h.inv.comp c m hl hf
      have hnn : need (s.g.apply (.createNode os)).edges s.g.nextId = os.length := by
        rw [hneedE, hneed0]; simp
      obtain ⟨f1, f2⟩ := createFold s.g.nextId os hbase (by simp) (by rw [hA0, hnn]; omega)
      rw [hnn] at f1 f2
      rw [← ht1] at f1 f2
      exact ⟨f1.congr (fun _ => rfl) (fun m => hactE m), f2⟩
  obtain ⟨k1, k2⟩ := key _ rfl
  have hnot : notify s.g s.t (.createNode os) = Tracker.checkMarkNodeVisitedIfFrontier
      (if (s.g.apply (.createNode os)).ninputs s.g.nextId = 0 then
        s.t.checkNodeActivation s.g.nextId ((s.g.apply (.createNode os)).ninputs s.g.nextId)
      else (os.foldl (fun t o => if isOutputActivated t o then
          t.incActivationCount s.g.nextId ((s.g.apply (.createNode os)).ninputs s.g.nextId) else t) s.t))
      s.g.nextId := by
    simp only [notify, onNodeCreate, hins]
  have hbeh : ∀ m, m ≠ s.g.nextId →
      ((st (notify s.g s.t (.createNode os)) m = .behind) ↔ (st s.t m = .behind)) := by
    intro m hm
    rw [hnot, beh_mark, k2]
    simp [hm]
  refine ⟨hw', ?_, ?_, ⟨h.cut.1, Nat.le_succ_of_le h.cut.2⟩, ?_, ?_, h.ret_old, h.nodup⟩
  · show TI _ _ _ _ _
    have hm := TI.mark (n := s.g.nextId) k1
    rw [← hnot] at hm
    refine TI.congr hm (fun _ => rfl) ?_
    intro m
    apply actv_congr
    rintro ⟨a, d⟩ he _
    cases a with
    | none => rfl
    | some p =>
      have hp : p ≠ s.g.nextId := by
        rintro rfl
        have he' := hE.mem_iff.mp he
        rcases List.mem_append.mp he' with he' | he'
        · obtain ⟨o, ho, e⟩ := List.mem_map.mp he'
          simp only [Prod.mk.injEq] at e
          exact hfresh (hv o ho _ e.1)
        · rcases mem_edges.mp he' with ⟨n, hn, o, ho, e1, e2⟩ | ⟨o, ho, e1, e2⟩
          · exact hfresh (h.wf.inputs_ok n hn o ho _ e1)
          · exact hfresh (h.wf.results_ok o ho _ e1)
      have := hbeh p hp
      rw [V_some, V_some]
      by_cases hb : st s.t p = .behind
      · rw [this.mpr hb, hb]
      · have hb' : ¬ _ := fun hh => hb (this.mp hh)
        simp [hb, hb']
  · intro m hm
    have hm' : m ∉ s.g.nodes ++ [s.g.nextId] := hm
    simp only [List.mem_append, List.mem_singleton, not_or] at hm'
    rw [Ne, hbeh m hm'.2]
    exact h.dead m hm'.1
  · intro m hm hc
    have hm' : m ∈ s.g.nodes ++ [s.g.nextId] := hm
    simp only [List.mem_append, List.mem_singleton] at hm'
    rcases hm' with hm' | hm'
    · exact h.old m hm' hc
    · exact absurd (Nat.lt_of_lt_of_le hc h.cut.2) (by rw [hm']; exact Nat.lt_irrefl _)
  · intro m hm hc
    have hm' : m ∈ s.g.nodes ++ [s.g.nextId] := hm
    simp only [List.mem_append, List.mem_singleton] at hm'
    rcases hm' with hm' | hm'
    · have hne : m ≠ s.g.nextId := by rintro rfl; exact hfresh hm'
      rw [hbeh m hne]
      exact h.ret_iff m hm' hc
    · exact absurd (Nat.lt_of_lt_of_le hc h.cut.2) (by rw [hm']; exact Nat.lt_irrefl _)

theorem TDI.destroy {g₀ s ret C} (h : TDI g₀ s ret C) (n : NodeId)
    (hv : (Mut.destroyNode n).Valid s.g) (hs : (s.g.apply (.destroyNode n)).SmallIn) :
    TDI g₀ { s with g := s.g.apply (.destroyNode n), t := notify s.g s.t (.destroyNode n) } ret C := by
  have hw' := h.wf.apply _ hv
  have hnodes : ∀ m, m ∈ (s.g.apply (.destroyNode n)).nodes ↔ m ≠ n ∧ m ∈ s.g.nodes := by
    intro m; exact h.wf.nodup.mem_erase_iff
  have hE := edges_destroy s.g h.wf.nodup n
  have hsplit := edges_split s.g h.wf.nodup hv.1
  have hneed : ∀ m, m ≠ n → need (s.g.apply (.destroyNode n)).edges m = need s.g.edges m := by
    intro m hm
    rw [hE, need_perm hsplit, need_append, need_inE, if_neg hm, Nat.zero_add]
  have hneedn : need (s.g.apply (.destroyNode n)).edges n = 0 := by
    rw [hE]; exact need_restE _ h.wf.nodup n
  have hbeh : ∀ m, m ≠ n → st (s.t.removeNode n) m = st s.t m := by
    intro m hm; rw [st_remove, if_neg hm]
  have hactv : ∀ m, m ≠ n → actv (s.g.apply (.destroyNode n)).edges (V (s.t.removeNode n)) m =
      actv s.g.edges (V s.t) m := by
    intro m hm
    rw [actv_perm hsplit, actv_append]
    have h0 : actv (inE n (s.g.inputs n)) (V s.t) m = 0 := by
      have := actv_le (inE n (s.g.inputs n)) (V s.t) m
      rw [need_inE, if_neg hm] at this
      omega
    rw [h0, Nat.zero_add, hE]
    apply actv_congr
    rintro ⟨a, d⟩ he _
    have he' : (a, d) ∈ s.g.edges := hsplit.mem_iff.mpr (List.mem_append_right _ he)
    cases a with
    | none => rfl
    | some p =>
      have hp : p ≠ n := by
        rintro rfl
        exact not_used_edges hv.2 _ he' rfl
      rw [V_some, V_some, hbeh p hp]
  refine ⟨hw', ?_, ?_, h.cut, ?_, ?_, h.ret_old, h.nodup⟩
  · show TI _ _ _ _ (s.t.removeNode n)
    refine ⟨h.inv.fi.remove n, ?_, fun m => actv_le _ _ _, smallE hw' hs, ?_, ?_, ?_⟩
    · intro m
      rw [ct_remove]
      by_cases hm : m = n
      · rw [if_pos hm, hm]
        have := actv_le (s.g.apply (.destroyNode n)).edges (V (s.t.removeNode n)) n
        rw [hneedn] at this
        exact (Nat.le_zero.mp this).symm
      · rw [if_neg hm]
        exact (h.inv.cnt m).trans (hactv m hm).symm
    · intro m hf
      by_cases hm : m = n
      · rw [hm, hneedn]; exact Nat.zero_le _
      · rw [hbeh m hm] at hf
        rw [hneed m hm]
        exact (h.inv.front m hf).trans (hactv m hm).symm.le
    · intro m hf
      by_cases hm : m = n
      · rw [hm, st_remove, if_pos rfl] at hf; cases hf
      · rw [hbeh m hm] at hf
        exact (hnodes m).mpr ⟨hm, h.inv.live m hf⟩
    · intro c m hl hf
      have := (hnodes m).mp hl
      rw [hbeh m this.1] at hf
      rw [hneed m this.1]
      exact (hactv m this.1).le.trans_lt (h.inv.comp c m this.2 hf)
  · intro m hm
    show st (s.t.removeNode n) m ≠ _
    by_cases hmn : m = n
    · rw [hmn, st_remove, if_pos rfl]; simp
    · rw [hbeh m hmn]
      exact h.dead m (fun hh => hm ((hnodes m).mpr ⟨hmn, hh⟩))
  · intro m hm hc
    exact h.old m ((hnodes m).mp hm).2 hc
  · intro m hm hc
    have := (hnodes m).mp hm
    show (st (s.t.removeNode n) m = _) ↔ _
    rw [hbeh m this.1]
    exact h.ret_iff m this.2 hc

/-- a mutation that keeps the set of nodes, and does not change which nodes are visited -/
theorem TDI.sameNodes {g₀ s ret C} (h : TDI g₀ s ret C) {C' : Prop} (m : Mut) (hv : m.Valid s.g)
    (hn : (s.g.apply m).nodes = s.g.nodes) (hid : (s.g.apply m).nextId = s.g.nextId)
    (hinv : Inv (s.g.apply m).edges (· ∈ s.g.nodes) C' (notify s.g s.t m))
    (hb : ∀ x, (st (notify s.g s.t m) x = .behind) ↔ (st s.t x = .behind)) :
    TDI g₀ { s with g := s.g.apply m, t := notify s.g s.t m } ret C' := by
  refine ⟨h.wf.apply m hv, ?_, ?_, ⟨h.cut.1, ?_⟩, ?_, ?_, h.ret_old, h.nodup⟩
  · show Inv _ (· ∈ (s.g.apply m).nodes) _ _
    rw [hn]; exact hinv
  · intro x hx
    have hx' : x ∉ (s.g.apply m).nodes := hx
    rw [hn] at hx'
    rw [Ne, hb]; exact h.dead x hx'
  · show _ ≤ (s.g.apply m).nextId
    rw [hid]; exact h.cut.2
  · intro x hx
    have hx' : x ∈ (s.g.apply m).nodes := hx
    rw [hn] at hx'
    exact h.old x hx'
  · intro x hx hc
    have hx' : x ∈ (s.g.apply m).nodes := hx
    rw [hn] at hx'
    rw [hb]; exact h.ret_iff x hx' hc

theorem selectIdx_single {idx : List Nat} (h : idx.length ≤ 1) (k : Nat) (l : List Origin) :
    (selectIdx idx true k l).length ≤ 1 := by
  match idx, h with
  | [], _ =>
    have : selectIdx [] true k l = [] := by
      induction l generalizing k with
      | nil => rfl
      | cons a l ih => unfold selectIdx; simp [ih]
    rw [this]; simp
  | [i], _ =>
    have h0 : ∀ k, i < k → ∀ l, selectIdx [i] true k l = [] := by
      intro k hk l
      induction l generalizing k with
      | nil => rfl
      | cons a l ih =>
        unfold selectIdx
        have : ([i].contains k) = false := by simp; omega
        rw [this]; simp; exact ih (k + 1) (by omega)
    induction l generalizing k with
    | nil => simp [selectIdx]
    | cons a l ih =>
      unfold selectIdx
      split
      · rename_i hh
        simp at hh
        rw [h0 (k + 1) (by omega)]; simp
      · exact ih (k + 1)

theorem TDI.mutate {g₀ s ret C} (h : TDI g₀ s ret C) (m : Mut) (hv : m.Valid s.g)
    (hs : (s.g.apply m).SmallIn) {C' : Prop} (hCC : C' → C)
    (hC' : C' → ∀ n idx, m = .removeInputs n idx → idx.length ≤ 1) :
    TDI g₀ { s with g := s.g.apply m, t := notify s.g s.t m } ret C' := by
  have hweak : TDI g₀ s ret C' :=
    { h with inv := { h.inv with comp := fun c => h.inv.comp (hCC c) } }
  have hw' := h.wf.apply m hv
  have hsm := smallE hw' hs
  have h := hweak
  -- results do not matter
  have hres : ∀ (m : Mut), m.Valid s.g → (s.g.apply m).nodes = s.g.nodes →
      (s.g.apply m).inputs = s.g.inputs → (s.g.apply m).nextId = s.g.nextId →
      notify s.g s.t m = s.t →
      TDI g₀ { s with g := s.g.apply m, t := notify s.g s.t m } ret C' := by
    intro m hv h1 h2 h3 h4
    refine h.sameNodes m hv h1 h3 ?_ (by intro x; rw [h4])
    rw [h4]
    have hnil : ∀ r x, need (resE r) x = 0 := by
      intro r x
      apply need_zero
      intro e he
      obtain ⟨o, _, rfl⟩ := List.mem_map.mp he
      simp
    have hanil : ∀ r v x, actv (resE r) v x = 0 := by
      intro r v x
      have := actv_le (resE r) v x
      rw [hnil] at this
      omega
    refine TI.congr h.inv ?_ ?_
    · intro x; rw [edges_def, edges_def, h1, h2, need_append, need_append, hnil, hnil]
    · intro x; rw [edges_def, edges_def, h1, h2, actv_append, actv_append, hanil, hanil]
  cases m with
  | createNode os => exact h.create os hv hs
  | destroyNode n => exact h.destroy n hv hs
  | addInput n o =>
    have hE := edges_addInput s.g h.wf.nodup hv.1 o
    have heq : notify s.g s.t (.addInput n o) =
        edgeCreate (s.g.apply (.addInput n o)).ninputs s.t o.owner (some n) := by
      simp only [notify, onInputCreate, edgeCreate, isOutputActivated_eq]
    refine h.sameNodes _ hv rfl rfl ?_ (by intro x; rw [heq]; exact beh_edgeCreate _ _ _ _ _)
    rw [heq]
    refine Inv.perm ?_ hE
    refine Inv.create h.inv (fun m hm => by cases hm; exact hv.1) ?_ ?_
    · intro m hm; cases hm
      rw [← need_perm hE]
      exact (need_edges _ hw'.nodup (show n ∈ (s.g.apply (.addInput n o)).nodes from hv.1)).symm
    · intro m; rw [← need_perm hE]; exact hsm m
  | removeInputs n idx =>
    have hE := edges_removeInputs s.g h.wf.nodup hv idx
    have hneed : s.g.ninputs n = need (s.g.apply (.removeInputs n idx)).edges n +
        (selectIdx idx true 0 (s.g.inputs n)).length := by
      rw [← need_edges s.g h.wf.nodup hv, need_perm hE, need_append, need_inE, if_pos rfl, Nat.add_comm]
    obtain ⟨f1, f2⟩ := removeFold (E := (s.g.apply (.removeInputs n idx)).edges) n (s.g.ninputs n)
      (selectIdx idx true 0 (s.g.inputs n)) (Inv.perm h.inv hE.symm) hv (by omega)
      (fun c => ⟨selectIdx_single (hC' c n idx rfl) _ _, fun _ => hneed⟩)
    exact h.sameNodes _ hv rfl rfl f1 f2
  | divertInput n i o =>
    have hi : ∃ old, (s.g.inputs n)[i]? = some old := ⟨_, List.getElem?_eq_getElem hv.2.1⟩
    obtain ⟨old, hold⟩ := hi
    obtain ⟨R, e1, e2⟩ := edges_divertInput s.g h.wf.nodup hv.1 i old o hold
    by_cases heq : old = o
    · have hn : notify s.g s.t (.divertInput n i o) = s.t := by
        simp only [notify, hold, if_pos heq]
      refine h.sameNodes _ hv rfl rfl ?_ (by intro x; rw [hn])
      rw [hn]
      rw [heq] at e1
      exact Inv.perm h.inv (e2.trans e1.symm)
    · have hth : (s.g.apply (.divertInput n i o)).ninputs n = need ((o.owner, some n) :: R) n := by
        rw [← need_perm e2]
        exact (need_edges _ hw'.nodup (show n ∈ (s.g.apply (.divertInput n i o)).nodes from hv.1)).symm
      have hsm' : ∀ m, need ((o.owner, some n) :: R) m < u32 := by
        intro m; rw [← need_perm e2]; exact hsm m
      have hinv := Inv.perm h.inv e1.symm
      have hn : notify s.g s.t (.divertInput n i o) =
          (if V s.t o.owner = true ∧ V s.t old.owner = false then
            s.t.incActivationCount n ((s.g.apply (.divertInput n i o)).ninputs n)
          else if V s.t o.owner = false ∧ V s.t old.owner = true then
            s.t.decActivationCount n ((s.g.apply (.divertInput n i o)).ninputs n)
          else s.t) := by
        simp only [notify, hold, if_neg heq, onInputChange, isOutputActivated_eq]
        cases V s.t o.owner <;> cases V s.t old.owner <;> simp
      have hb : ∀ x, (st (notify s.g s.t (.divertInput n i o)) x = .behind) ↔ (st s.t x = .behind) := by
        intro x; rw [hn]
        split
        · exact beh_inc _ _ _ _
        · split
          · exact beh_dec _ _ _ _
          · rfl
      refine h.sameNodes _ hv rfl rfl ?_ hb
      refine Inv.perm ?_ e2
      unfold Inv
      rw [V_congr hb, hn, hth]
      have hnd : ∀ m, need ((o.owner, some n) :: R) m = need ((old.owner, some n) :: R) m := by
        intro m; rw [need_cons, need_cons]
      have hna : ∀ m, m ≠ n → actv ((o.owner, some n) :: R) (V s.t) m =
          actv ((old.owner, some n) :: R) (V s.t) m := by
        intro m hm; rw [actv_cons, actv_cons]; simp [Ne.symm hm]
      by_cases c1 : V s.t o.owner = true ∧ V s.t old.owner = false
      · rw [if_pos c1]
        refine TI.inc hinv hv.1 rfl (fun m _ => hnd m) hna ?_ (actv_le _ _ _) (hsm' n) ?_
        · rw [actv_cons, actv_cons]; simp [c1]
        · rw [hnd]; omega
      · rw [if_neg c1]
        by_cases c2 : V s.t o.owner = false ∧ V s.t old.owner = true
        · rw [if_pos c2]
          refine TI.dec hinv rfl (fun m _ => hnd m) hna ?_ (actv_le _ _ _) (hsm' n) ?_
          · rw [actv_cons, actv_cons]; simp [c2]
          · rw [hnd]; omega
        · rw [if_neg c2]
          refine TI.congr hinv hnd ?_
          intro m
          rw [actv_cons, actv_cons]
          have : V s.t o.owner = V s.t old.owner := by
            cases h1 : V s.t o.owner <;> cases h2 : V s.t old.owner <;> simp_all
          simp [this]
  | addResult o => exact hres _ hv rfl rfl rfl rfl
  | removeResults idx => exact hres _ hv rfl rfl rfl rfl
  | divertResult i o => exact hres _ hv rfl rfl rfl rfl

theorem returned_append (a b : List Ev) : returned (a ++ b) = returned a ++ returned b :=
  List.filterMap_append

theorem Run.inv {g₀ tr s} (hw : g₀.WF) (hs : g₀.SmallIn) (h : Run g₀ tr s) :
    TDI g₀ s (returned tr) (SingleRemovals tr) := by
  induction h with
  | init tops us ht hu =>
    have := TDI.init hw hs ht hu
    exact { this with inv := { this.inv with comp := fun _ => this.inv.comp trivial } }
  | @next tr s r s' h hn ih =>
    have h1 := ih.next hn
    have hr : returned (tr ++ [Ev.ofRet r]) = returned tr ++ r.toList := by
      rw [returned_append]; cases r <;> rfl
    rw [hr]
    refine { h1 with inv := { h1.inv with comp := fun c => h1.inv.comp ?_ } }
    intro n idx hm
    exact c n idx (List.mem_append_left _ hm)
  | @mutate tr s m h hv hsm ih =>
    have hr : returned (tr ++ [Ev.mut m]) = returned tr := by
      rw [returned_append]; simp [returned]
    rw [hr]
    refine ih.mutate m hv hsm ?_ ?_
    · intro c n idx hm
      exact c n idx (List.mem_append_left _ hm)
    · intro c n idx hm
      exact c n idx (by rw [hm]; simp)

end TD

/-! ## The properties -/

/-- C17, safety, under arbitrary mutation of the region during the traversal: a node returned by
`next()` is in the region, existed when the traverser was created, was not returned before, and
each of its direct predecessors was returned before or was created during the traversal. -/
theorem topDown_next_safe {g₀ : Graph} (hw : g₀.WF) (hs : g₀.SmallIn) {tr : List Ev} {s s' : TD.State}
    {n : NodeId} (hr : TD.Run g₀ tr s) (hn : TD.Next s (some n) s') :
    n ∈ s.g.nodes ∧ n ∈ g₀.nodes ∧ Ev.ret n ∉ tr ∧
    ∀ p, s.g.Pred p n → Ev.ret p ∈ tr ∨ p ∉ g₀.nodes := by
  have main : ∀ {s r s' ret C}, TD.TDI g₀ s ret C → TD.Next s r s' → ∀ n, r = some n →
      n ∈ s.g.nodes ∧ n ∈ g₀.nodes ∧ n ∉ ret ∧ ∀ p, s.g.Pred p n → p ∈ ret ∨ p ∉ g₀.nodes := by
    intro s r s' ret C hi hx
    induction hx generalizing ret with
    | null => intro n h; cases h
    | ret s n us hp hus hc =>
      intro m hm
      cases hm
      have hfr := TD.peek_frontier hi.inv.fi hp
      have hl := hi.inv.live n hfr
      have hc' : n < s.cutoff := Nat.lt_of_not_le hc
      refine ⟨hl, hi.old n hl hc', ?_, ?_⟩
      · intro hh
        rw [← hi.ret_iff n hl hc', hfr] at hh; cases hh
      · rintro p ⟨o, ho, hop⟩
        have hall := actv_eq_need (hi.inv.front n hfr) (some p, some n)
          (mem_edges.mpr (.inl ⟨n, hl, o, ho, hop, rfl⟩)) rfl
        have hpb : st s.t p = .behind := by
          have : V s.t (some p) = true := hall
          rw [V_some] at this
          simpa using this
        have hpl : p ∈ s.g.nodes := hi.wf.inputs_ok n hl o ho p hop
        by_cases hpc : p < s.cutoff
        · exact .inl ((hi.ret_iff p hpl hpc).mp hpb)
        · right
          intro hh
          have := hw.lt_nextId p hh
          rw [hi.cut.1] at hpc
          exact hpc this
    | skip s n us hp hus hc r s' hn ih =>
      intro m hm
      have hv := hi.visit hp hus
      rw [if_neg (Nat.not_lt.mpr hc)] at hv
      exact ih hv m hm
  have hmem : ∀ p, p ∈ returned tr ↔ Ev.ret p ∈ tr := by
    intro p
    unfold returned
    rw [List.mem_filterMap]
    constructor
    · rintro ⟨e, he, h⟩
      cases e <;> simp at h
      subst h; exact he
    · intro h; exact ⟨_, h, rfl⟩
  obtain ⟨h1, h2, h3, h4⟩ := main (TD.Run.inv hw hs hr) hn n rfl
  exact ⟨h1, h2, fun hh => h3 ((hmem n).mpr hh), fun p hp => (h4 p hp).imp (hmem p).mp id⟩

/-- C17: whatever happens to the region, `next()` terminates. -/
theorem topDown_next_terminates {g₀ : Graph} (hw : g₀.WF) (hs : g₀.SmallIn) {tr : List Ev}
    {s : TD.State} (hr : TD.Run g₀ tr s) : ∃ r s', TD.Next s r s' := by
  have main : ∀ (k : Nat) (s : TD.State) (ret C), TD.TDI g₀ s ret C →
      (s.g.nodes.filter (fun n => st s.t n ≠ .behind)).length ≤ k → ∃ r s', TD.Next s r s' := by
    intro k
    induction k with
    | zero =>
      intro s ret C hi hk
      cases hp : s.t.peek with
      | none => exact ⟨_, _, .null s hp⟩
      | some n =>
        have hfr := TD.peek_frontier hi.inv.fi hp
        have hl := hi.inv.live n hfr
        have : n ∈ s.g.nodes.filter (fun n => st s.t n ≠ .behind) := by
          rw [List.mem_filter]; exact ⟨hl, by simp [hfr]⟩
        rw [List.length_eq_zero_iff.mp (Nat.le_zero.mp hk)] at this
        cases this
    | succ k ih =>
      intro s ret C hi hk
      cases hp : s.t.peek with
      | none => exact ⟨_, _, .null s hp⟩
      | some n =>
        by_cases hc : n ≥ s.cutoff
        · have hfr := TD.peek_frontier hi.inv.fi hp
          have hl := hi.inv.live n hfr
          have hv := hi.visit hp (List.Perm.refl _)
          obtain ⟨r, s', hx⟩ := ih _ _ _ hv (by
            have hlt : ((s.g.nodes.filter (fun m => st s.t m ≠ .behind)).filter
                (fun m => st (TD.markAsVisited s.g s.t n (s.g.userNodes n)) m ≠ .behind)).length <
                (s.g.nodes.filter (fun m => st s.t m ≠ .behind)).length := by
              apply List.length_filter_lt_length_iff_exists.mpr
              refine ⟨n, ?_, ?_⟩
              · rw [List.mem_filter]; exact ⟨hl, by simp [hfr]⟩
              · simp [TD.beh_visit _ _ _ hfr]
            have heq : s.g.nodes.filter (fun m => st (TD.markAsVisited s.g s.t n (s.g.userNodes n)) m ≠ .behind) =
                (s.g.nodes.filter (fun m => st s.t m ≠ .behind)).filter
                (fun m => st (TD.markAsVisited s.g s.t n (s.g.userNodes n)) m ≠ .behind) := by
              rw [List.filter_filter]
              apply List.filter_congr
              intro m _
              by_cases hm : st s.t m = .behind
              · simp [hm, TD.beh_visit _ _ _ hfr]
              · simp [hm]
            show (s.g.nodes.filter (fun m => st (TD.markAsVisited s.g s.t n (s.g.userNodes n)) m ≠ .behind)).length ≤ k
            rw [heq]; omega)
          exact ⟨r, s', .skip s n _ hp (List.Perm.refl _) hc r s' hx⟩
        · exact ⟨_, _, .ret s n _ hp (List.Perm.refl _) hc⟩
  exact main _ s _ _ (TD.Run.inv hw hs hr) (Nat.le_refl _)

/-- C17, completeness, under mutation: when `next()` returns `nullptr` and the region is acyclic,
every node that existed at the start and is still in the region was returned - provided every
`RemoveInputs` of the history removed at most one input. -/
theorem topDown_complete {g₀ : Graph} (hw : g₀.WF) (hs : g₀.SmallIn) {tr : List Ev} {s s' : TD.State}
    (hr : TD.Run g₀ tr s) (hone : TD.SingleRemovals tr) (hac : s.g.Acyclic)
    (hn : TD.Next s none s') : ∀ n ∈ s.g.nodes, n ∈ g₀.nodes → Ev.ret n ∈ tr := by
  intro n hn1 hn0
  have hi' := TD.Run.inv hw hs (TD.Run.next hr hn)
  have hsame : ∀ {s r s'}, TD.Next s r s' → r = none → s'.g = s.g ∧ s'.cutoff = s.cutoff ∧ s'.t.frontier = [] := by
    intro s r s' hx
    induction hx with
    | null s hp =>
      intro _
      refine ⟨rfl, rfl, ?_⟩
      unfold Tracker.peek at hp
      exact List.head?_eq_none_iff.mp hp
    | ret => intro h; cases h
    | skip s n us hp hus hc r s' hn ih => intro h; exact ih h
  obtain ⟨e1, e2, e3⟩ := hsame hn rfl
  obtain ⟨rank, hrank⟩ := hac
  have hall := Inv.all_visited (E := s'.g.edges) (L := (· ∈ s'.g.nodes)) (t := s'.t)
    { hi'.inv with comp := fun _ => hi'.inv.comp (by
        intro a b hm
        simp only [Ev.ofRet, List.mem_append, List.mem_singleton] at hm
        rcases hm with hm | hm
        · exact hone a b hm
        · cases hm) } e3 rank
    (by
      intro p m he hm
      rcases mem_edges.mp he with ⟨x, hx, o, ho, h1, h2⟩ | ⟨o, ho, h1, h2⟩
      · cases h2
        refine ⟨hi'.wf.inputs_ok m hm o ho p h1, ?_⟩
        rw [e1] at hm ho
        exact hrank m hm p ⟨o, ho, h1⟩
      · cases h2)
  have hb := hall n (by rw [e1]; exact hn1)
  have := (hi'.ret_iff n (by rw [e1]; exact hn1) (by rw [hi'.cut.1]; exact hw.lt_nextId n hn0)).mp hb
  rw [TD.returned_append] at this
  simp [returned, Ev.ofRet] at this
  rcases this with ⟨e, he, h⟩
  cases e <;> simp at h
  subst h; exact he

/-- C17 for a region that is not mutated: when `next()` returns `nullptr`, the returned nodes are
exactly the nodes of the region, each once, ... -/
theorem topDown_unmodified {g₀ : Graph} (hw : g₀.WF) (hs : g₀.SmallIn) (hac : g₀.Acyclic)
    {tr : List Ev} {s s' : TD.State} (hr : TD.Run g₀ tr s) (hpure : ∀ m, Ev.mut m ∉ tr)
    (hn : TD.Next s none s') : (returned tr).Perm g₀.nodes := by
  have hsame : ∀ {s r s'}, TD.Next s r s' → s'.g = s.g := by
    intro s r s' hx
    induction hx with
    | null => rfl
    | ret => rfl
    | skip s n us hp hus hc r s' hn ih => exact ih
  have hg : ∀ {tr s}, TD.Run g₀ tr s → (∀ m, Ev.mut m ∉ tr) → s.g = g₀ := by
    intro tr s h
    induction h with
    | init => intro _; rfl
    | next h hn ih => intro hp; rw [hsame hn]; exact ih (fun m hm => hp m (List.mem_append_left _ hm))
    | mutate m h hv hsm ih => intro hp; exact absurd (List.mem_append_right _ (List.mem_singleton.mpr rfl)) (hp m)
  have hgs := hg hr hpure
  have hi := TD.Run.inv hw hs hr
  refine (List.perm_ext_iff_of_nodup hi.nodup hw.nodup).mpr ?_
  intro n
  constructor
  · exact hi.ret_old n
  · intro hn0
    have := topDown_complete hw hs hr (fun a b hm => absurd hm (hpure _)) (by rw [hgs]; exact hac) hn n
      (by rw [hgs]; exact hn0) hn0
    unfold returned
    rw [List.mem_filterMap]
    exact ⟨_, this, rfl⟩

/-- ... and in an order in which every node comes after its predecessors. -/
theorem topDown_unmodified_order {g₀ : Graph} (hw : g₀.WF) (hs : g₀.SmallIn)
    {tr : List Ev} {s : TD.State} (hr : TD.Run g₀ tr s) (hpure : ∀ m, Ev.mut m ∉ tr)
    {i : Nat} {n p : NodeId} (hi : (returned tr)[i]? = some n) (hp : g₀.Pred p n) :
    ∃ j : Nat, j < i ∧ (returned tr)[j]? = some p := by
  have hsame : ∀ {s r s'}, TD.Next s r s' → s'.g = s.g := by
    intro s r s' hx
    induction hx with
    | null => rfl
    | ret => rfl
    | skip s n us hp hus hc r s' hn ih => exact ih
  have hg : ∀ {tr s}, TD.Run g₀ tr s → (∀ m, Ev.mut m ∉ tr) → s.g = g₀ := by
    intro tr s h
    induction h with
    | init => intro _; rfl
    | next h hn ih => intro hp; rw [hsame hn]; exact ih (fun m hm => hp m (List.mem_append_left _ hm))
    | mutate m h hv hsm ih => intro hp; exact absurd (List.mem_append_right _ (List.mem_singleton.mpr rfl)) (hp m)
  induction hr with
  | init => simp [returned] at hi
  | mutate m h hv hsm ih => exact absurd (List.mem_append_right _ (List.mem_singleton.mpr rfl)) (hpure m)
  | @next tr s r s' h hn ih =>
    have hpure' : ∀ m, Ev.mut m ∉ tr := fun m hm => hpure m (List.mem_append_left _ hm)
    rw [TD.returned_append] at hi ⊢
    by_cases hlt : i < (returned tr).length
    · rw [List.getElem?_append_left hlt] at hi
      obtain ⟨j, hj, hj2⟩ := ih hpure' hi
      exact ⟨j, hj, by rw [List.getElem?_append_left (by omega)]; exact hj2⟩
    · rw [List.getElem?_append_right (by omega)] at hi
      cases r with
      | none => simp [returned, Ev.ofRet] at hi
      | some x =>
        have hx : n = x ∧ i = (returned tr).length := by
          simp only [returned, Ev.ofRet, List.filterMap_cons, List.filterMap_nil] at hi
          cases hk : i - (returned tr).length with
          | zero => rw [returned] at hk; rw [hk] at hi; simp at hi; exact ⟨hi.symm, by unfold returned; unfold returned at hlt; omega⟩
          | succ k => rw [returned] at hk; rw [hk] at hi; simp at hi
        obtain ⟨rfl, rfl⟩ := hx
        have hsafe := topDown_next_safe hw hs h hn
        have hpn : p ∈ g₀.nodes := by
          obtain ⟨o, ho, hop⟩ := hp
          exact hw.inputs_ok n hsafe.2.1 o ho p hop
        rcases hsafe.2.2.2 p (by rw [hg h hpure']; exact hp) with hh | hh
        · have hm : p ∈ returned tr := by unfold returned; rw [List.mem_filterMap]; exact ⟨_, hh, rfl⟩
          obtain ⟨j, hj, hj2⟩ := List.getElem_of_mem hm
          exact ⟨j, hj, by rw [List.getElem?_append_left hj, List.getElem?_eq_getElem hj, hj2]⟩
        · exact absurd hpn hh

end Jlm.Rvsdg.Trav
