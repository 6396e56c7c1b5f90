import Verif.Rvsdg.TopDownProps
/-
C18: the bottom-up traverser.
-/
set_option linter.unusedSimpArgs false
set_option linter.unusedVariables false
namespace Jlm.Rvsdg.Trav

theorem isInputActivated_eq (t o) : BU.isInputActivated t o = V t o := by
  unfold BU.isInputActivated V
  cases o <;> simp [isNodeVisited_eq]

namespace BU

/-- the edges as (user, producer) -/
def sw (E : Edges) : Edges := E.map Prod.swap

theorem need_sw (g : Graph) (n) : need (sw g.edges) n = g.numSuccessors n := by
  unfold need sw Graph.numSuccessors
  rw [List.countP_map]; rfl

theorem sw_perm {E E' : Edges} (h : E.Perm E') : (sw E).Perm (sw E') := h.map _

theorem sw_append (E E' : Edges) : sw (E ++ E') = sw E ++ sw E' := List.map_append

theorem sw_cons (a d E) : sw ((a, d) :: E) = (d, a) :: sw E := rfl

theorem need_sw_dead {g : Graph} (hw : g.WF) {n} (h : n ∉ g.nodes) : need (sw g.edges) n = 0 := by
  apply need_zero
  rintro ⟨a, d⟩ he
  obtain ⟨⟨x, y⟩, he', hxy⟩ := List.mem_map.mp he
  simp only [Prod.swap, Prod.mk.injEq] at hxy
  obtain ⟨rfl, rfl⟩ := hxy
  simp only
  rintro rfl
  rcases mem_edges.mp he' with ⟨m, hm, o, ho, e1, e2⟩ | ⟨o, ho, e1, e2⟩
  · exact h (hw.inputs_ok m hm o ho _ e1)
  · exact h (hw.results_ok o ho _ e1)

theorem smallE {g : Graph} (hw : g.WF) (hs : g.SmallOut) (n) : need (sw g.edges) n < u32 := by
  by_cases h : n ∈ g.nodes
  · rw [need_sw]; exact hs n h
  · rw [need_sw_dead hw h]; decide

theorem foldl_owner {β : Type} (f : β → NodeId → β) (os : List Origin) (b : β) :
    os.foldl (fun t o => match o.owner with | some p => f t p | none => t) b =
      (os.filterMap Origin.owner).foldl f b := by
  induction os generalizing b with
  | nil => rfl
  | cons o os ih =>
    rw [List.foldl_cons, ih, List.filterMap_cons]
    cases o.owner <;> rfl

theorem init_eq (g : Graph) (bs) : init g bs = (g.results.filterMap Origin.owner).foldl
    (fun t n => t.incActivationCount n (g.numSuccessors n))
    (bs.foldl (fun t n => t.checkNodeActivation n (g.numSuccessors n)) {}) := by
  have := foldl_owner (β := Tracker) (fun (t : Tracker) n => t.incActivationCount n (g.numSuccessors n))
    g.results (bs.foldl (fun t n => t.checkNodeActivation n (g.numSuccessors n)) {})
  exact this

theorem mark_eq (g : Graph) (t n) : markAsVisited g t n = ((g.inputs n).filterMap Origin.owner).foldl
    (fun t p => t.incActivationCount p (g.numSuccessors p)) (t.checkMarkNodeVisitedIfFrontier n) := by
  have := foldl_owner (β := Tracker) (fun (t : Tracker) n => t.incActivationCount n (g.numSuccessors n))
    (g.inputs n) (t.checkMarkNodeVisitedIfFrontier n)
  exact this

theorem beh_markAsVisited (g : Graph) (t n m) :
    (st (markAsVisited g t n) m = .behind) ↔ (st t m = .behind ∨ m = n ∧ st t n = .frontier) := by
  rw [mark_eq, beh_foldl _ (fun t a m => beh_inc _ _ _ _), beh_mark]

/-! ### general safety, including creation of nodes -/

/-- what holds whatever is done to the region -/
structure SI (s : State) (ret : List NodeId) : Prop where
  wf : s.g.WF
  fi : FI s.t
  live : ∀ n, st s.t n = .frontier → n ∈ s.g.nodes
  ret_beh : ∀ n ∈ ret, st s.t n = .behind
  nodup : ret.Nodup

/-- `FI`, and the frontier stays within `L`, and visited nodes stay visited -/
structure Ok (L : NodeId → Prop) (t t' : Tracker) : Prop where
  fi : FI t → FI t'
  live : (∀ n, st t n = .frontier → L n) → ∀ n, st t' n = .frontier → L n
  beh : ∀ n, st t n = .behind → st t' n = .behind

theorem Ok.refl (L t) : Ok L t t := ⟨id, id, fun _ h => h⟩
theorem Ok.trans {L t t' t''} (h : Ok L t t') (h' : Ok L t' t'') : Ok L t t'' :=
  ⟨fun x => h'.fi (h.fi x), fun x => h'.live (h.live x), fun n x => h'.beh n (h.beh n x)⟩

theorem Ok.inc {L : NodeId → Prop} (t n k) (hL : L n) : Ok L t (t.incActivationCount n k) := by
  refine ⟨fun h => h.inc _ _, ?_, fun m => (beh_inc _ _ _ _).mpr⟩
  intro h m hm
  rw [st_inc] at hm
  split at hm
  · rename_i hh; rw [hh.1]; exact hL
  · exact h m hm

theorem Ok.act {L : NodeId → Prop} (t n k) (hL : L n) : Ok L t (t.checkNodeActivation n k) := by
  refine ⟨fun h => h.act _ _, ?_, fun m => (beh_act _ _ _ _).mpr⟩
  intro h m hm
  rw [st_act] at hm
  split at hm
  · rename_i hh; rw [hh.1]; exact hL
  · exact h m hm

theorem Ok.dec {L : NodeId → Prop} (t n k) : Ok L t (t.decActivationCount n k) := by
  refine ⟨fun h => h.dec _ _, ?_, fun m => (beh_dec _ _ _ _).mpr⟩
  intro h m hm
  rw [st_dec] at hm
  split at hm
  · cases hm
  · exact h m hm

theorem Ok.deact {L : NodeId → Prop} (t n k) : Ok L t (t.checkNodeDeactivation n k) := by
  refine ⟨fun h => h.deact _ _, ?_, fun m => (beh_deact _ _ _ _).mpr⟩
  intro h m hm
  rw [st_deact] at hm
  split at hm
  · cases hm
  · exact h m hm

theorem Ok.mark {L : NodeId → Prop} (t n) : Ok L t (t.checkMarkNodeVisitedIfFrontier n) := by
  refine ⟨fun h => h.mark _, ?_, fun m hm => (beh_mark _ _ _).mpr (.inl hm)⟩
  intro h m hm
  rw [st_mark] at hm
  split at hm
  · cases hm
  · exact h m hm

theorem Ok.foldl {α : Type} {L : NodeId → Prop} (f : Tracker → α → Tracker) (l : List α)
    (hf : ∀ t, ∀ a ∈ l, Ok L t (f t a)) (t : Tracker) : Ok L t (l.foldl f t) := by
  induction l generalizing t with
  | nil => exact .refl _ _
  | cons a l ih =>
    rw [List.foldl_cons]
    exact (hf t a (by simp)).trans (ih (fun t b hb => hf t b (by simp [hb])) _)

theorem Ok.markAsVisited {L : NodeId → Prop} (g : Graph) (t n)
    (hL : ∀ o ∈ g.inputs n, ∀ p, o.owner = some p → L p) : Ok L t (markAsVisited g t n) := by
  rw [mark_eq]
  refine (Ok.mark t n).trans (Ok.foldl _ _ ?_ _)
  intro t p hp
  obtain ⟨o, ho, hop⟩ := List.mem_filterMap.mp hp
  exact Ok.inc _ _ _ (hL o ho p hop)

theorem Ok.onInputCreate {L : NodeId → Prop} (g : Graph) (t ow) (o : Origin)
    (hL : ∀ p, o.owner = some p → L p) : Ok L t (onInputCreate g t ow o) := by
  unfold BU.onInputCreate
  cases h : o.owner with
  | none => exact .refl _ _
  | some p =>
    simp only []
    split
    · exact .inc _ _ _ (hL p h)
    · exact .deact _ _ _

theorem Ok.onInputDestroy {L : NodeId → Prop} (t ow ns) (o : Origin)
    (hL : ∀ p, o.owner = some p → L p) : Ok L t (onInputDestroy t ow ns o) := by
  unfold BU.onInputDestroy
  cases h : o.owner with
  | none => exact .refl _ _
  | some p =>
    simp only []
    split
    · exact .dec _ _ _
    · exact .act _ _ _ (hL p h)

theorem Ok.onInputChange {L : NodeId → Prop} (g : Graph) (t ow) (o o' : Origin)
    (hL : ∀ p, o.owner = some p → L p) (hL' : ∀ p, o'.owner = some p → L p) :
    Ok L t (onInputChange g t ow o o') := by
  have h1 : Ok L t (match o.owner with
      | some p =>
        if isInputActivated t ow then t.decActivationCount p (g.numSuccessors p)
        else t.checkNodeActivation p (g.numSuccessors p)
      | none => t) := by
    cases h : o.owner with
    | none => exact .refl _ _
    | some p =>
      simp only []
      split
      · exact .dec _ _ _
      · exact .act _ _ _ (hL p h)
  have h2 : ∀ t1, Ok L t1 (match o'.owner with
      | some p =>
        if isInputActivated t ow then t1.incActivationCount p (g.numSuccessors p)
        else t1.checkNodeDeactivation p (g.numSuccessors p)
      | none => t1) := by
    intro t1
    cases h : o'.owner with
    | none => exact .refl _ _
    | some p =>
      simp only []
      split
      · exact .inc _ _ _ (hL' p h)
      · exact .deact _ _ _
  exact h1.trans (h2 _)

theorem Ok.removeLoop {L : NodeId → Prop} (ow) (os : List Origin) (ns t)
    (hL : ∀ o ∈ os, ∀ p, o.owner = some p → L p) : Ok L t (removeLoop ow os ns t) := by
  induction os generalizing ns t with
  | nil => exact .refl _ _
  | cons o os ih =>
    unfold BU.removeLoop
    exact (Ok.onInputDestroy _ _ _ _ (hL o (by simp))).trans
      (ih _ _ (fun o' ho' => hL o' (by simp [ho'])))

theorem SI.of_ok {s : State} {ret} (h : SI s ret) {g' : Graph} {t' : Tracker} (hw : g'.WF)
    (hn : ∀ n ∈ s.g.nodes, n ∈ g'.nodes) (ho : Ok (· ∈ s.g.nodes) s.t t') : SI ⟨g', t'⟩ ret :=
  ⟨hw, ho.fi h.fi, fun n hf => hn n (ho.live h.live n hf), fun n hr => ho.beh n (h.ret_beh n hr), h.nodup⟩

theorem SI.mutate {s ret} (h : SI s ret) (m : Mut) (hv : m.Valid s.g) :
    SI { s with g := s.g.apply m, t := notify s.g s.t m } ret := by
  have hw' := h.wf.apply m hv
  have hin : ∀ n ∈ s.g.nodes, ∀ o ∈ s.g.inputs n, ∀ p, o.owner = some p → p ∈ s.g.nodes :=
    fun n hn o ho p hp => h.wf.inputs_ok n hn o ho p hp
  cases m with
  | createNode os =>
    refine h.of_ok hw' (fun n hn => List.mem_append_left _ hn) ?_
    refine Ok.markAsVisited _ _ _ ?_
    intro o ho p hp
    simp only [Graph.apply, upd_self] at ho
    exact hv o ho p hp
  | destroyNode n =>
    have hok : Ok (· ∈ s.g.nodes) s.t (onNodeDestroy s.g s.t n) := by
      unfold onNodeDestroy
      refine Ok.trans (t' := if !s.t.isNodeVisited n then markAsVisited s.g s.t n else s.t) ?_ ?_
      · split
        · exact Ok.markAsVisited _ _ _ (hin n hv.1)
        · exact .refl _ _
      · refine Ok.foldl _ _ ?_ _
        intro t o ho
        cases o.owner with
        | none => exact .refl _ _
        | some p => exact .dec _ _ _
    have hnf : st (onNodeDestroy s.g s.t n) n ≠ .frontier := by
      have hdec : ∀ t, st ((s.g.inputs n).foldl (fun t o => match o.owner with
          | some p => t.decActivationCount p 0
          | none => t) t) n = st t n := by
        generalize s.g.inputs n = os
        induction os with
        | nil => intro t; rfl
        | cons o os ih =>
          intro t
          rw [List.foldl_cons, ih]
          cases o.owner with
          | none => rfl
          | some p => simp only []; rw [st_dec]; simp
      intro hcontra
      have hcontra := (hdec (if !s.t.isNodeVisited n then markAsVisited s.g s.t n else s.t)).symm.trans hcontra
      revert hcontra
      show ¬ _
      by_cases hvis : s.t.isNodeVisited n = true
      · rw [isNodeVisited_eq, beq_iff_eq] at hvis
        simp [isNodeVisited_eq, hvis]
      · simp only [Bool.not_eq_true] at hvis
        rw [hvis]
        simp only [Bool.not_false, if_true]
        rw [mark_eq]
        have hno : n ∉ (s.g.inputs n).filterMap Origin.owner := by
          intro hh
          obtain ⟨o, ho, hop⟩ := List.mem_filterMap.mp hh
          exact hv.2 (.inl ⟨n, hv.1, o, ho, hop⟩)
        have hfold : ∀ (l : List NodeId), n ∉ l → ∀ t, st (l.foldl
            (fun t p => t.incActivationCount p (s.g.numSuccessors p)) t) n = st t n := by
          intro l
          induction l with
          | nil => intro _ t; rfl
          | cons a l ih =>
            intro hn t
            rw [List.foldl_cons, ih (fun hh => hn (by simp [hh])), st_inc]
            rw [if_neg]
            rintro ⟨rfl, _⟩; exact hn (by simp)
        rw [hfold _ hno, st_mark]
        by_cases hst : st s.t n = .frontier <;> simp [hst]
    refine ⟨hw', hok.fi h.fi, ?_, fun m hr => hok.beh m (h.ret_beh m hr), h.nodup⟩
    intro m hf
    refine (h.wf.nodup.mem_erase_iff).mpr ⟨?_, hok.live h.live m hf⟩
    rintro rfl
    exact hnf hf
  | addInput n o =>
    exact h.of_ok hw' (fun n hn => hn) (Ok.onInputCreate _ _ _ _ hv.2)
  | removeInputs n idx =>
    exact h.of_ok hw' (fun n hn => hn) (Ok.removeLoop _ _ _ _
      (fun o ho p hp => hin n hv o (selectIdx_subset ho) p hp))
  | divertInput n i o =>
    refine h.of_ok hw' (fun n hn => hn) ?_
    simp only [notify]
    cases hi : (s.g.inputs n)[i]? with
    | none => exact .refl _ _
    | some old =>
      simp only []
      split
      · exact .refl _ _
      · exact Ok.onInputChange _ _ _ _ _ (hin n hv.1 old (List.mem_of_getElem? hi)) hv.2.2
  | addResult o =>
    exact h.of_ok hw' (fun n hn => hn) (Ok.onInputCreate _ _ _ _ hv)
  | removeResults idx =>
    exact h.of_ok hw' (fun n hn => hn) (Ok.removeLoop _ _ _ _
      (fun o ho p hp => h.wf.results_ok o (selectIdx_subset ho) p hp))
  | divertResult i o =>
    refine h.of_ok hw' (fun n hn => hn) ?_
    simp only [notify]
    cases hi : s.g.results[i]? with
    | none => exact .refl _ _
    | some old =>
      simp only []
      split
      · exact .refl _ _
      · exact Ok.onInputChange _ _ _ _ _ (h.wf.results_ok old (List.mem_of_getElem? hi)) hv.2

theorem SI.next {s ret} (h : SI s ret) : SI (next s).2 (ret ++ (next s).1.toList) := by
  unfold BU.next
  cases hp : s.t.peek with
  | none => simpa using h
  | some n =>
    have hfr := TD.peek_frontier h.fi hp
    have hl := h.live n hfr
    have hok := Ok.markAsVisited (L := (· ∈ s.g.nodes)) s.g s.t n
      (fun o ho p hop => h.wf.inputs_ok n hl o ho p hop)
    refine ⟨h.wf, hok.fi h.fi, hok.live h.live, ?_, ?_⟩
    · intro m hm
      simp only [Option.toList, List.mem_append, List.mem_singleton] at hm
      rcases hm with hm | hm
      · exact hok.beh m (h.ret_beh m hm)
      · subst hm; exact (beh_markAsVisited _ _ _ _).mpr (.inr ⟨rfl, hfr⟩)
    · simp only [Option.toList]
      rw [List.nodup_append]
      refine ⟨h.nodup, by simp, ?_⟩
      intro a ha b hb
      rw [List.mem_singleton] at hb
      rintro rfl
      subst hb
      have := h.ret_beh a ha
      rw [hfr] at this; cases this

theorem SI.init {g₀ : Graph} (hw : g₀.WF) {bs} (hb : bs.Perm g₀.bottomNodes) :
    SI { g := g₀, t := BU.init g₀ bs } [] := by
  have h0 : FI ({} : Tracker) := ⟨by simp, by intro n; simp [st, Tracker.entry]⟩
  have hok : Ok (· ∈ g₀.nodes) {} (BU.init g₀ bs) := by
    rw [init_eq]
    refine Ok.trans (Ok.foldl _ bs ?_ _) (Ok.foldl _ _ ?_ _)
    · intro t n hn
      refine Ok.act _ _ _ ?_
      have := hb.mem_iff.mp hn
      exact (List.mem_filter.mp this).1
    · intro t n hn
      obtain ⟨o, ho, hop⟩ := List.mem_filterMap.mp hn
      exact Ok.inc _ _ _ (hw.results_ok o ho n hop)
  refine ⟨hw, hok.fi h0, hok.live ?_, by simp, by simp⟩
  intro n hn; simp [st, Tracker.entry] at hn

theorem Run.si {g₀ tr s} (hw : g₀.WF) (h : Run g₀ tr s) : SI s (returned tr) := by
  induction h with
  | init bs hb => exact SI.init hw hb
  | @next tr s h ih =>
    have hr : returned (tr ++ [Ev.ofRet (BU.next s).1]) = returned tr ++ (BU.next s).1.toList := by
      rw [TD.returned_append]; cases (BU.next s).1 <;> rfl
    rw [hr]; exact ih.next
  | @mutate tr s m h hv hsm ih =>
    have hr : returned (tr ++ [Ev.mut m]) = returned tr := by
      rw [TD.returned_append]; simp [returned]
    rw [hr]; exact ih.mutate m hv

/-! ### exact invariant when no nodes are created -/

structure BUI (g₀ : Graph) (s : State) (ret : List NodeId) : Prop where
  wf : s.g.WF
  inv : Inv (sw s.g.edges) (· ∈ s.g.nodes) True s.t
  old : ∀ n ∈ s.g.nodes, n ∈ g₀.nodes
  ret_iff : ∀ n ∈ s.g.nodes, (st s.t n = .behind ↔ n ∈ ret)
  ret_old : ∀ n ∈ ret, n ∈ g₀.nodes

theorem BUI.init {g₀ : Graph} (hw : g₀.WF) (hs : g₀.SmallOut) {bs : List NodeId}
    (hb : bs.Perm g₀.bottomNodes) : BUI g₀ { g := g₀, t := BU.init g₀ bs } [] := by
  have hmem : ∀ n, n ∈ bs ↔ n ∈ g₀.nodes ∧ g₀.numSuccessors n = 0 := by
    intro n; rw [hb.mem_iff, Graph.bottomNodes, List.mem_filter]; simp
  have h1 := initTI (E := sw g₀.edges) (L := (· ∈ g₀.nodes)) g₀.numSuccessors bs
    (fun n hn => ((hmem n).mp hn).2)
    (fun n hn => by rw [need_sw]; exact ((hmem n).mp hn).2)
    (fun n hn => ((hmem n).mp hn).1)
    (fun n hl hz => (hmem n).mpr ⟨hl, by rw [← need_sw]; exact hz⟩)
    (smallE hw hs)
  have hus : ∀ u ∈ g₀.results.filterMap Origin.owner, u ∈ g₀.nodes := by
    intro u hu
    obtain ⟨o, ho, hop⟩ := List.mem_filterMap.mp hu
    exact hw.results_ok o ho u hop
  have hcount : ∀ m, actv (sw g₀.edges) (fun o => o.isNone) m =
      (g₀.results.filterMap Origin.owner).count m := by
    intro m
    rw [edges_def, sw_append, actv_append]
    have h0 : actv (sw (g₀.nodes.flatMap fun m => inE m (g₀.inputs m))) (fun o => o.isNone) m = 0 := by
      unfold actv
      rw [List.countP_eq_zero]
      rintro ⟨a, d⟩ he
      obtain ⟨⟨x, y⟩, he, hxy⟩ := List.mem_map.mp he
      obtain ⟨k, hk, he⟩ := List.mem_flatMap.mp he
      obtain ⟨o, ho, he⟩ := List.mem_map.mp he
      simp only [Prod.swap, Prod.mk.injEq] at hxy he
      rw [← hxy.1, ← he.2]; simp
    rw [h0, Nat.zero_add]
    unfold actv sw resE
    rw [List.map_map, List.countP_map, List.count, List.countP_filterMap]
    apply List.countP_congr
    intro o _
    simp only [Function.comp, Prod.swap, Option.isNone_none, Bool.and_true]
    cases o.owner <;> simp
  have h2 := h1.incFold g₀.numSuccessors _ hus (fun u _ => (need_sw g₀ u).symm)
    (by intro m; rw [← hcount, Nat.zero_add]; exact actv_le _ _ _)
  rw [← init_eq] at h2
  have hbeh : ∀ m, st (BU.init g₀ bs) m ≠ .behind := by
    intro m
    rw [init_eq, Ne, beh_foldl _ (fun t a m => beh_inc _ _ _ _), beh_foldl _ (fun t a m => beh_act _ _ _ _)]
    simp [st, Tracker.entry]
  refine ⟨hw, ?_, fun n hn => hn, ?_, by simp⟩
  · refine TI.congr h2 (fun _ => rfl) ?_
    intro m
    rw [Nat.zero_add, ← hcount]
    apply actv_congr
    intro e he _
    cases e.1 with
    | none => rfl
    | some p => rw [V_some]; simp; exact hbeh p
  · intro n hn
    simp; exact hbeh n

theorem inputs_perm {g : Graph} (hw : g.WF) {n} (hn : n ∈ g.nodes) :
    ((g.inputs n).filterMap Origin.owner).Perm
      ((sw g.edges).filterMap (fun e => if e.1 = some n then e.2 else none)) := by
  have hp := (sw_perm (edges_split g hw.nodup hn)).filterMap (fun e => if e.1 = some n then e.2 else none)
  refine List.Perm.trans ?_ hp.symm
  rw [sw_append, List.filterMap_append]
  have h1 : (sw (inE n (g.inputs n))).filterMap (fun e => if e.1 = some n then e.2 else none) =
      (g.inputs n).filterMap Origin.owner := by
    unfold sw inE
    rw [List.map_map, List.filterMap_map]
    congr 1
    funext o
    simp [Function.comp]
  have h2 : (sw (restE g n)).filterMap (fun e => if e.1 = some n then e.2 else none) = [] := by
    rw [List.filterMap_eq_nil_iff]
    rintro ⟨a, d⟩ he
    obtain ⟨⟨x, y⟩, he', hxy⟩ := List.mem_map.mp he
    simp only [Prod.swap, Prod.mk.injEq] at hxy
    obtain ⟨rfl, rfl⟩ := hxy
    have h0 := need_restE g hw.nodup n
    unfold need at h0
    rw [List.countP_eq_zero] at h0
    have := h0 _ he'
    simp at this
    simp [this]
  rw [h1, h2, List.append_nil]

/-- marking a frontier node as visited -/
theorem BUI.visitInv {g₀ s ret} (h : BUI g₀ s ret) {n} (hfr : st s.t n = .frontier) :
    Inv (sw s.g.edges) (· ∈ s.g.nodes) True (markAsVisited s.g s.t n) := by
  have hl := h.inv.live n hfr
  rw [mark_eq]
  refine Inv.visit s.g.numSuccessors h.inv hfr (inputs_perm h.wf hl) ?_ (fun u _ => (need_sw _ u).symm)
  intro u hu
  obtain ⟨o, ho, hop⟩ := List.mem_filterMap.mp hu
  exact h.wf.inputs_ok n hl o ho u hop

theorem BUI.next {g₀ s ret} (h : BUI g₀ s ret) : BUI g₀ (next s).2 (ret ++ (next s).1.toList) := by
  unfold BU.next
  cases hp : s.t.peek with
  | none => simpa using h
  | some n =>
    have hfr := TD.peek_frontier h.inv.fi hp
    have hl := h.inv.live n hfr
    refine ⟨h.wf, h.visitInv hfr, h.old, ?_, ?_⟩
    · intro m hm
      show (st (markAsVisited s.g s.t n) m = _) ↔ _
      rw [beh_markAsVisited, h.ret_iff m hm]
      simp [hfr]
    · intro m hm
      simp only [Option.toList, List.mem_append, List.mem_singleton] at hm
      rcases hm with hm | hm
      · exact h.ret_old m hm
      · subst hm; exact h.old m hl

theorem BUI.sameNodes {g₀ s ret} (h : BUI g₀ s ret) (m : Mut) (hv : m.Valid s.g)
    (hn : (s.g.apply m).nodes = s.g.nodes)
    (hinv : Inv (sw (s.g.apply m).edges) (· ∈ s.g.nodes) True (notify s.g s.t m))
    (hb : ∀ x, (st (notify s.g s.t m) x = .behind) ↔ (st s.t x = .behind)) :
    BUI g₀ { s with g := s.g.apply m, t := notify s.g s.t m } ret := by
  refine ⟨h.wf.apply m hv, ?_, ?_, ?_, h.ret_old⟩
  · show Inv _ (· ∈ (s.g.apply m).nodes) _ _
    rw [hn]; exact hinv
  · intro x hx
    have hx' : x ∈ (s.g.apply m).nodes := hx
    rw [hn] at hx'
    exact h.old x hx'
  · intro x hx
    have hx' : x ∈ (s.g.apply m).nodes := hx
    rw [hn] at hx'
    rw [hb]; exact h.ret_iff x hx'

theorem create_eq (g : Graph) (t ow) (o : Origin) :
    onInputCreate g t ow o = edgeCreate g.numSuccessors t ow o.owner := by
  unfold onInputCreate edgeCreate
  rw [isInputActivated_eq]
  cases o.owner <;> rfl

theorem destroy_eq (t ow ns) (o : Origin) :
    onInputDestroy t ow ns o = edgeDestroy (fun p => ns p - 1) t ow o.owner := by
  unfold onInputDestroy edgeDestroy
  rw [isInputActivated_eq]
  cases o.owner <;> rfl

/-- the callback for a diverted input -/
theorem change_inv {R : Edges} {L : NodeId → Prop} {t : Tracker} (g : Graph) (ow : Option NodeId)
    (old new : Origin) (h : Inv ((ow, old.owner) :: R) L True t)
    (hLo : ∀ p, old.owner = some p → L p) (hLn : ∀ p, new.owner = some p → L p)
    (hthr : ∀ p, g.numSuccessors p = need ((ow, new.owner) :: R) p)
    (hs : ∀ p, need ((ow, new.owner) :: R) p < u32) :
    Inv ((ow, new.owner) :: R) L True (onInputChange g t ow old new) ∧
    ∀ x, (st (onInputChange g t ow old new) x = .behind) ↔ (st t x = .behind) := by
  have hbeh : ∀ x, (st (onInputChange g t ow old new) x = .behind) ↔ (st t x = .behind) := by
    intro x
    unfold onInputChange
    simp only []
    have h1 : ∀ t', (st (match new.owner with
        | some p => if isInputActivated t ow = true then t'.incActivationCount p (g.numSuccessors p)
            else t'.checkNodeDeactivation p (g.numSuccessors p)
        | none => t') x = .behind) ↔ (st t' x = .behind) := by
      intro t'
      cases new.owner with
      | none => rfl
      | some p => simp only []; split; exact beh_inc _ _ _ _; exact beh_deact _ _ _ _
    refine (h1 _).trans ?_
    cases old.owner with
    | none => rfl
    | some p => simp only []; split; exact beh_dec _ _ _ _; exact beh_act _ _ _ _
  refine ⟨?_, hbeh⟩
  unfold Inv
  rw [V_congr hbeh]
  unfold onInputChange
  simp only [isInputActivated_eq]
  by_cases hv : V t ow = true
  · simp only [hv, if_true]
    cases ho : old.owner with
    | none =>
      rw [ho] at h
      have h0 : TI (need R) (actv R (V t)) L True t :=
        TI.congr h (by intro m; rw [need_cons]; simp) (by intro m; rw [actv_cons]; simp)
      cases hn : new.owner with
      | none =>
        exact TI.congr h0 (by intro m; rw [need_cons]; simp) (by intro m; rw [actv_cons]; simp)
      | some q =>
        rw [hn] at hthr hs
        refine TI.inc h0 (hLn q hn) (hthr q) ?_ ?_ ?_ (actv_le _ _ _) (hs q) ?_
        · intro m hm; rw [need_cons]; simp [Ne.symm hm]
        · intro m hm; rw [actv_cons]; simp [Ne.symm hm]
        · rw [actv_cons]; simp [hv]
        · rw [need_cons]; simp
    | some p =>
      rw [ho] at h
      cases hn : new.owner with
      | none =>
        rw [hn] at hthr hs
        refine TI.dec h (hthr p) ?_ ?_ ?_ (actv_le _ _ _) (hs p) ?_
        · intro m hm; rw [need_cons, need_cons]; simp [Ne.symm hm]
        · intro m hm; rw [actv_cons, actv_cons]; simp [Ne.symm hm]
        · rw [actv_cons, actv_cons]; simp [hv]
        · rw [need_cons, need_cons]; simp
      | some q =>
        rw [hn] at hthr hs
        simp only []
        by_cases hpq : p = q
        · subst hpq
          have h1 : TI (need ((ow, some p) :: R)) (actv R (V t)) L True
              (t.decActivationCount p (g.numSuccessors p)) := by
            refine TI.dec h (hthr p) (fun _ _ => rfl) ?_ ?_ ?_ (hs p) (by omega)
            · intro m hm; rw [actv_cons]; simp [Ne.symm hm]
            · rw [actv_cons]; simp [hv]
            · rw [need_cons]; have := actv_le R (V t) p; simp; omega
          refine TI.inc h1 (hLn p hn) (hthr p) (fun _ _ => rfl) ?_ ?_ (actv_le _ _ _) (hs p) (by omega)
          · intro m hm; rw [actv_cons]; simp [Ne.symm hm]
          · rw [actv_cons]; simp [hv]
        · have hqp : ¬ q = p := fun hh => hpq hh.symm
          have h1 : TI (need R) (actv R (V t)) L True
              (t.decActivationCount p (g.numSuccessors p)) := by
            refine TI.dec h ?_ ?_ ?_ ?_ (actv_le _ _ _) ?_ ?_
            · rw [hthr, need_cons]; simp [hqp]
            · intro m hm; rw [need_cons]; simp [Ne.symm hm]
            · intro m hm; rw [actv_cons]; simp [Ne.symm hm]
            · rw [actv_cons]; simp [hv]
            · have := hs p; rw [need_cons] at this; omega
            · rw [need_cons]; simp
          refine TI.inc h1 (hLn q hn) (hthr q) ?_ ?_ ?_ (actv_le _ _ _) (hs q) ?_
          · intro m hm; rw [need_cons]; simp [Ne.symm hm]
          · intro m hm; rw [actv_cons]; simp [Ne.symm hm]
          · rw [actv_cons]; simp [hv]
          · rw [need_cons]; simp
  · have hact : ∀ d, ∀ m, actv ((ow, d) :: R) (V t) m = actv R (V t) m := by
      intro d m; rw [actv_cons]; simp [hv]
    simp only [hv, if_false, Bool.false_eq_true]
    cases ho : old.owner with
    | none =>
      rw [ho] at h
      have h0 : TI (need R) (actv R (V t)) L True t :=
        TI.congr h (by intro m; rw [need_cons]; simp) (by intro m; rw [actv_cons]; simp)
      cases hn : new.owner with
      | none =>
        exact TI.congr h0 (by intro m; rw [need_cons]; simp) (by intro m; rw [actv_cons]; simp)
      | some q =>
        rw [hn] at hthr hs
        refine TI.deact h0 (hthr q) ?_ (hact _) (hs q) ?_
        · intro m hm; rw [need_cons]; simp [Ne.symm hm]
        · rw [need_cons]; simp
    | some p =>
      rw [ho] at h
      cases hn : new.owner with
      | none =>
        rw [hn] at hthr hs
        refine TI.act h (hLo p ho) (hthr p).ge (fun _ => (hthr p).le) ?_ ?_ ?_ ?_
        · intro m hm; rw [need_cons, need_cons]; simp [Ne.symm hm]
        · intro m; rw [hact, hact]
        · rw [hact]; exact (actv_le R (V t) p).trans (by rw [need_cons]; simp)
        · rw [need_cons, need_cons]; simp
      | some q =>
        rw [hn] at hthr hs
        simp only []
        by_cases hpq : p = q
        · subst hpq
          have h1 : TI (need ((ow, some p) :: R)) (actv R (V t)) L True
              (t.checkNodeActivation p (g.numSuccessors p)) := by
            refine TI.act h (hLo p ho) (hthr p).ge (fun _ => (hthr p).le) (fun _ _ => rfl)
              (fun m => (hact _ m).symm) ?_ (Nat.le_refl _)
            exact actv_le _ _ _
          exact TI.deact h1 (hthr p) (fun _ _ => rfl) (hact _) (hs p) (Nat.le_refl _)
        · have hqp : ¬ q = p := fun hh => hpq hh.symm
          have hth : g.numSuccessors p = need R p := by rw [hthr, need_cons]; simp [hqp]
          have h1 : TI (need R) (actv R (V t)) L True
              (t.checkNodeActivation p (g.numSuccessors p)) := by
            refine TI.act h (hLo p ho) hth.ge (fun _ => hth.le) ?_
              (fun m => (hact _ m).symm) ?_ ?_
            · intro m hm; rw [need_cons]; simp [Ne.symm hm]
            · rw [hact]; exact actv_le _ _ _
            · rw [need_cons]; simp
          refine TI.deact h1 (hthr q) ?_ (hact _) (hs q) ?_
          · intro m hm; rw [need_cons]; simp [Ne.symm hm]
          · rw [need_cons]; simp

theorem removeLoop_inv {E : Edges} {L : NodeId → Prop} (ow : Option NodeId) (os : List Origin)
    (ns : NodeId → Nat) (t : Tracker)
    (h : Inv (os.map (fun o => (ow, o.owner)) ++ E) L True t)
    (hL : ∀ o ∈ os, ∀ p, o.owner = some p → L p)
    (hns : ∀ p, ns p = need (os.map (fun o => (ow, o.owner)) ++ E) p) :
    Inv E L True (removeLoop ow os ns t) ∧
    ∀ x, (st (removeLoop ow os ns t) x = .behind) ↔ (st t x = .behind) := by
  induction os generalizing ns t with
  | nil => exact ⟨h, fun _ => Iff.rfl⟩
  | cons o os ih =>
    unfold removeLoop
    rw [List.map_cons, List.cons_append] at h
    have hnp : ∀ p, ns p = need (os.map (fun o => (ow, o.owner)) ++ E) p +
        if o.owner = some p then 1 else 0 := by
      intro p; rw [hns, List.map_cons, List.cons_append, need_cons]
    rw [destroy_eq]
    have h1 : Inv (os.map (fun o => (ow, o.owner)) ++ E) L True
        (edgeDestroy (fun p => ns p - 1) t ow o.owner) := by
      refine Inv.destroy h (fun p hp => hL o (by simp) p hp) ?_ ?_
      · intro p hp; rw [hnp, if_pos hp]; simp
      · intro _ p hp; rw [hnp, if_pos hp]; simp
    obtain ⟨i1, i2⟩ := ih (fun p => if o.owner = some p then ns p - 1 else ns p) _ h1 (fun o' ho' => hL o' (by simp [ho'])) (by
      intro p
      have := hnp p
      split
      · rename_i hh; rw [if_pos hh] at this; omega
      · rename_i hh; rw [if_neg hh] at this; omega)
    exact ⟨i1, fun x => (i2 x).trans (beh_edgeDestroy _ _ _ _ _)⟩

theorem BUI.destroy {g₀ s ret} (h : BUI g₀ s ret) (n : NodeId)
    (hv : (Mut.destroyNode n).Valid s.g) :
    BUI g₀ { s with g := s.g.apply (.destroyNode n), t := notify s.g s.t (.destroyNode n) } ret := by
  have hw' := h.wf.apply _ hv
  have hnodes : ∀ m, m ∈ (s.g.apply (.destroyNode n)).nodes ↔ m ≠ n ∧ m ∈ s.g.nodes := by
    intro m; exact h.wf.nodup.mem_erase_iff
  have hneed0 : need (sw s.g.edges) n = 0 := by
    apply need_zero
    rintro ⟨a, d⟩ he
    obtain ⟨⟨x, y⟩, he', hxy⟩ := List.mem_map.mp he
    simp only [Prod.swap, Prod.mk.injEq] at hxy
    obtain ⟨rfl, rfl⟩ := hxy
    exact not_used_edges hv.2 _ he'
  -- after the first part the node is visited
  have h1 : ∃ t1, (if !s.t.isNodeVisited n then markAsVisited s.g s.t n else s.t) = t1 ∧
      Inv (sw s.g.edges) (· ∈ s.g.nodes) True t1 ∧ st t1 n = .behind ∧
      ∀ m, m ≠ n → ((st t1 m = .behind) ↔ (st s.t m = .behind)) := by
    refine ⟨_, rfl, ?_⟩
    by_cases hvis : st s.t n = .behind
    · have : s.t.isNodeVisited n = true := by rw [isNodeVisited_eq, hvis]; rfl
      rw [this]
      exact ⟨h.inv, hvis, fun _ _ => Iff.rfl⟩
    · have hvis' : s.t.isNodeVisited n = false := by rw [isNodeVisited_eq]; simp [hvis]
      have hfr : st s.t n = .frontier := by
        cases hst : st s.t n with
        | behind => exact absurd hst hvis
        | frontier => rfl
        | ahead =>
          have := h.inv.comp trivial n hv.1 hst
          rw [hneed0] at this; omega
      rw [hvis']
      refine ⟨h.visitInv hfr, (beh_markAsVisited _ _ _ _).mpr (.inr ⟨rfl, hfr⟩), ?_⟩
      intro m hm
      simp only [Bool.not_false, if_true]
      rw [beh_markAsVisited]; simp [hm]
  obtain ⟨t1, ht1, hi1, hb1, hbm⟩ := h1
  have hE : (sw s.g.edges).Perm ((s.g.inputs n).map (fun o => (some n, o.owner)) ++
      sw (s.g.apply (.destroyNode n)).edges) := by
    rw [edges_destroy s.g h.wf.nodup]
    have := sw_perm (edges_split s.g h.wf.nodup hv.1)
    rw [sw_append] at this
    have he : sw (inE n (s.g.inputs n)) = (s.g.inputs n).map (fun o => (some n, o.owner)) := by
      unfold sw inE; rw [List.map_map]; rfl
    rw [he] at this
    exact this
  have key : ∀ (os : List Origin) (E : Edges) (t : Tracker), st t n = .behind →
      Inv (os.map (fun o => (some n, o.owner)) ++ E) (· ∈ s.g.nodes) True t →
      (∀ o ∈ os, ∀ p, o.owner = some p → p ∈ s.g.nodes) →
      Inv E (· ∈ s.g.nodes) True (os.foldl (fun t o => match o.owner with
        | some p => t.decActivationCount p 0
        | none => t) t) ∧
      ∀ x, (st (os.foldl (fun t o => match o.owner with
        | some p => t.decActivationCount p 0
        | none => t) t) x = .behind) ↔ (st t x = .behind) := by
    intro os
    induction os with
    | nil => intro E t _ hi _; exact ⟨hi, fun _ => Iff.rfl⟩
    | cons o os ih =>
      intro E t hb hi hl
      rw [List.foldl_cons]
      have hstep : (match o.owner with
          | some p => t.decActivationCount p 0
          | none => t) = edgeDestroy (need (os.map (fun o => (some n, o.owner)) ++ E)) t (some n) o.owner := by
        unfold edgeDestroy
        have : V t (some n) = true := by rw [V_some, hb]; rfl
        cases o.owner with
        | none => rfl
        | some p => simp only [this, if_true]
      rw [hstep]
      have hd : Inv (os.map (fun o => (some n, o.owner)) ++ E) (· ∈ s.g.nodes) True
          (edgeDestroy (need (os.map (fun o => (some n, o.owner)) ++ E)) t (some n) o.owner) :=
        Inv.destroy hi (fun p hp => hl o (by simp) p hp) (fun _ _ => Nat.le_refl _)
          (fun _ _ _ => Nat.le_refl _)
      obtain ⟨i1, i2⟩ := ih E _ ((beh_edgeDestroy _ _ _ _ _).mpr hb) hd
        (fun o' ho' => hl o' (by simp [ho']))
      exact ⟨i1, fun x => (i2 x).trans (beh_edgeDestroy _ _ _ _ _)⟩
  obtain ⟨k1, k2⟩ := key (s.g.inputs n) _ t1 hb1 (Inv.perm hi1 hE.symm)
    (fun o ho p hp => h.wf.inputs_ok n hv.1 o ho p hp)
  have hnot : notify s.g s.t (.destroyNode n) = (s.g.inputs n).foldl (fun t o => match o.owner with
        | some p => t.decActivationCount p 0
        | none => t) t1 := by
    rw [← ht1]; rfl
  rw [← hnot] at k1 k2
  have hbn : st (notify s.g s.t (.destroyNode n)) n = .behind := (k2 n).mpr hb1
  refine ⟨hw', ?_, ?_, ?_, h.ret_old⟩
  · refine { k1 with live := ?_, comp := ?_ }
    · intro m hf
      refine (hnodes m).mpr ⟨?_, k1.live m hf⟩
      rintro rfl
      have hf' : st (notify s.g s.t (.destroyNode m)) m = .frontier := hf
      rw [hbn] at hf'; cases hf'
    · intro c m hl hf
      exact k1.comp c m ((hnodes m).mp hl).2 hf
  · intro m hm; exact h.old m ((hnodes m).mp hm).2
  · intro m hm
    have hm' := (hnodes m).mp hm
    show (st (notify s.g s.t (.destroyNode n)) m = _) ↔ _
    rw [k2, hbm m hm'.1]
    exact h.ret_iff m hm'.2

theorem BUI.mutate {g₀ s ret} (h : BUI g₀ s ret) (m : Mut) (hv : m.Valid s.g)
    (hs : (s.g.apply m).SmallOut) (hnc : ∀ os, m ≠ .createNode os) :
    BUI g₀ { s with g := s.g.apply m, t := notify s.g s.t m } ret := by
  have hw' := h.wf.apply m hv
  have hsm := smallE hw' hs
  cases m with
  | createNode os => exact absurd rfl (hnc os)
  | destroyNode n => exact h.destroy n hv
  | addInput n o =>
    have hE := sw_perm (edges_addInput s.g h.wf.nodup hv.1 o)
    rw [sw_cons] at hE
    have heq : notify s.g s.t (.addInput n o) = edgeCreate _ s.t (some n) o.owner := create_eq _ _ _ _
    refine h.sameNodes _ hv rfl ?_ (by intro x; rw [heq]; exact beh_edgeCreate _ _ _ _ _)
    rw [heq]
    refine Inv.perm (Inv.create h.inv hv.2 ?_ ?_) hE
    · intro p _; rw [← need_perm hE, need_sw]
    · intro p; rw [← need_perm hE]; exact hsm p
  | addResult o =>
    have hE := sw_perm (edges_addResult s.g o)
    rw [sw_cons] at hE
    have heq : notify s.g s.t (.addResult o) = edgeCreate _ s.t none o.owner := create_eq _ _ _ _
    refine h.sameNodes _ hv rfl ?_ (by intro x; rw [heq]; exact beh_edgeCreate _ _ _ _ _)
    rw [heq]
    refine Inv.perm (Inv.create h.inv hv ?_ ?_) hE
    · intro p _; rw [← need_perm hE, need_sw]
    · intro p; rw [← need_perm hE]; exact hsm p
  | removeInputs n idx =>
    have hE := sw_perm (edges_removeInputs s.g h.wf.nodup hv idx)
    rw [sw_append] at hE
    have he : ∀ l, sw (inE n l) = l.map (fun o => (some n, o.owner)) := by
      intro l; unfold sw inE; rw [List.map_map]; rfl
    rw [he] at hE
    obtain ⟨f1, f2⟩ := removeLoop_inv (some n) _ s.g.numSuccessors s.t (Inv.perm h.inv hE.symm)
      (fun o ho p hp => h.wf.inputs_ok n hv o (selectIdx_subset ho) p hp)
      (by intro p; rw [← need_perm hE, need_sw])
    exact h.sameNodes _ hv rfl f1 f2
  | removeResults idx =>
    have hE := sw_perm (edges_removeResults s.g idx)
    rw [sw_append] at hE
    have he : ∀ l, sw (resE l) = l.map (fun o => (none, o.owner)) := by
      intro l; unfold sw resE; rw [List.map_map]; rfl
    rw [he] at hE
    obtain ⟨f1, f2⟩ := removeLoop_inv none _ s.g.numSuccessors s.t (Inv.perm h.inv hE.symm)
      (fun o ho p hp => h.wf.results_ok o (selectIdx_subset ho) p hp)
      (by intro p; rw [← need_perm hE, need_sw])
    exact h.sameNodes _ hv rfl f1 f2
  | divertInput n i o =>
    have hi : ∃ old, (s.g.inputs n)[i]? = some old := ⟨_, List.getElem?_eq_getElem hv.2.1⟩
    obtain ⟨old, hold⟩ := hi
    obtain ⟨R, e1, e2⟩ := edges_divertInput s.g h.wf.nodup hv.1 i old o hold
    have e1 := sw_perm e1
    have e2 := sw_perm e2
    rw [sw_cons] at e1 e2
    by_cases heq : old = o
    · have hn : notify s.g s.t (.divertInput n i o) = s.t := by
        simp only [notify, hold, if_pos heq]
      refine h.sameNodes _ hv rfl ?_ (by intro x; rw [hn])
      rw [hn]
      rw [heq] at e1
      exact Inv.perm h.inv (e2.trans e1.symm)
    · have hn : notify s.g s.t (.divertInput n i o) =
          onInputChange (s.g.apply (.divertInput n i o)) s.t (some n) old o := by
        simp only [notify, hold, if_neg heq]
      obtain ⟨f1, f2⟩ := change_inv (s.g.apply (.divertInput n i o)) (some n) old o
        (Inv.perm h.inv e1.symm)
        (h.wf.inputs_ok n hv.1 old (List.mem_of_getElem? hold)) hv.2.2
        (by intro p; rw [← need_perm e2, need_sw]) (by intro p; rw [← need_perm e2]; exact hsm p)
      rw [← hn] at f1 f2
      exact h.sameNodes _ hv rfl (Inv.perm f1 e2) f2
  | divertResult i o =>
    have hi : ∃ old, s.g.results[i]? = some old := ⟨_, List.getElem?_eq_getElem hv.1⟩
    obtain ⟨old, hold⟩ := hi
    obtain ⟨R, e1, e2⟩ := edges_divertResult s.g i old o hold
    have e1 := sw_perm e1
    have e2 := sw_perm e2
    rw [sw_cons] at e1 e2
    by_cases heq : old = o
    · have hn : notify s.g s.t (.divertResult i o) = s.t := by
        simp only [notify, hold, if_pos heq]
      refine h.sameNodes _ hv rfl ?_ (by intro x; rw [hn])
      rw [hn]
      rw [heq] at e1
      exact Inv.perm h.inv (e2.trans e1.symm)
    · have hn : notify s.g s.t (.divertResult i o) =
          onInputChange (s.g.apply (.divertResult i o)) s.t none old o := by
        simp only [notify, hold, if_neg heq]
      obtain ⟨f1, f2⟩ := change_inv (s.g.apply (.divertResult i o)) none old o
        (Inv.perm h.inv e1.symm)
        (h.wf.results_ok old (List.mem_of_getElem? hold)) hv.2
        (by intro p; rw [← need_perm e2, need_sw]) (by intro p; rw [← need_perm e2]; exact hsm p)
      rw [← hn] at f1 f2
      exact h.sameNodes _ hv rfl (Inv.perm f1 e2) f2

/-- no node was created during the traversal -/
def NoCreation (tr : List Ev) : Prop := ∀ os, Ev.mut (.createNode os) ∉ tr

theorem Run.inv {g₀ tr s} (hw : g₀.WF) (hs : g₀.SmallOut) (h : Run g₀ tr s) (hnc : NoCreation tr) :
    BUI g₀ s (returned tr) := by
  induction h with
  | init bs hb => exact BUI.init hw hs hb
  | @next tr s h ih =>
    have hr : returned (tr ++ [Ev.ofRet (BU.next s).1]) = returned tr ++ (BU.next s).1.toList := by
      rw [TD.returned_append]; cases (BU.next s).1 <;> rfl
    rw [hr]; exact (ih (fun os hm => hnc os (List.mem_append_left _ hm))).next
  | @mutate tr s m h hv hsm ih =>
    have hr : returned (tr ++ [Ev.mut m]) = returned tr := by
      rw [TD.returned_append]; simp [returned]
    rw [hr]
    refine (ih (fun os hm => hnc os (List.mem_append_left _ hm))).mutate m hv hsm ?_
    rintro os rfl
    exact hnc os (List.mem_append_right _ (List.mem_singleton.mpr rfl))

end BU

/-! ## The properties -/

theorem mem_returned {tr : List Ev} {p} : p ∈ returned tr ↔ Ev.ret p ∈ tr := by
  unfold returned
  rw [List.mem_filterMap]
  constructor
  · rintro ⟨e, he, h⟩
    cases e <;> simp at h
    subst h; exact he
  · intro h; exact ⟨_, h, rfl⟩

theorem BU.next_some {s : BU.State} {n} (h : (BU.next s).1 = some n) : s.t.peek = some n := by
  unfold BU.next at h
  cases hp : s.t.peek with
  | none => rw [hp] at h; cases h
  | some m => rw [hp] at h; exact h

/-- C18, under arbitrary mutation (creation included): `next()` returns a node that is in the
region at that time (never a destroyed one), and no node twice. -/
theorem bottomUp_next_live_once {g₀ : Graph} (hw : g₀.WF) {tr : List Ev} {s : BU.State} {n : NodeId}
    (hr : BU.Run g₀ tr s) (hn : (BU.next s).1 = some n) : n ∈ s.g.nodes ∧ Ev.ret n ∉ tr := by
  have hi := BU.Run.si hw hr
  have hfr := TD.peek_frontier hi.fi (BU.next_some hn)
  refine ⟨hi.live n hfr, fun hh => ?_⟩
  have := hi.ret_beh n (mem_returned.mpr hh)
  rw [hfr] at this; cases this

/-- C18, under mutations that create no nodes: all users of a returned node have been returned
before. -/
theorem bottomUp_next_safe_partial {g₀ : Graph} (hw : g₀.WF) (hs : g₀.SmallOut) {tr : List Ev}
    {s : BU.State} {n : NodeId} (hr : BU.Run g₀ tr s) (hnc : BU.NoCreation tr)
    (hn : (BU.next s).1 = some n) :
    n ∈ g₀.nodes ∧ ∀ u ∈ s.g.nodes, s.g.Pred n u → Ev.ret u ∈ tr := by
  have hi := BU.Run.inv hw hs hr hnc
  have hfr := TD.peek_frontier hi.inv.fi (BU.next_some hn)
  have hl := hi.inv.live n hfr
  refine ⟨hi.old n hl, ?_⟩
  rintro u hu ⟨o, ho, hop⟩
  have hmem : (some u, some n) ∈ BU.sw s.g.edges :=
    List.mem_map.mpr ⟨(some n, some u), mem_edges.mpr (.inl ⟨u, hu, o, ho, hop, rfl⟩), rfl⟩
  have hall : V s.t (some u) = true := actv_eq_need (hi.inv.front n hfr) _ hmem rfl
  rw [V_some] at hall
  exact mem_returned.mp ((hi.ret_iff u hu).mp (by simpa using hall))

/-- C18, completeness under mutations that create no nodes: when `next()` returns `nullptr` and
the region is acyclic, all nodes of the region have been returned. -/
theorem bottomUp_complete_partial {g₀ : Graph} (hw : g₀.WF) (hs : g₀.SmallOut) {tr : List Ev}
    {s : BU.State} (hr : BU.Run g₀ tr s) (hnc : BU.NoCreation tr) (hac : s.g.Acyclic)
    (hn : (BU.next s).1 = none) : ∀ n ∈ s.g.nodes, Ev.ret n ∈ tr := by
  have hi := BU.Run.inv hw hs hr hnc
  have hf : s.t.frontier = [] := by
    unfold BU.next at hn
    cases hp : s.t.peek with
    | none => exact List.head?_eq_none_iff.mp hp
    | some m => rw [hp] at hn; cases hn
  obtain ⟨rank, hrank⟩ := hac
  -- ranks grow towards the users; bound them by the maximum
  have hbound : ∃ M, ∀ n ∈ s.g.nodes, rank n ≤ M := by
    generalize s.g.nodes = l
    induction l with
    | nil => exact ⟨0, by simp⟩
    | cons a l ih =>
      obtain ⟨M, hM⟩ := ih
      refine ⟨max M (rank a), ?_⟩
      intro n hn
      rcases List.mem_cons.mp hn with rfl | hn
      · exact Nat.le_max_right _ _
      · exact (hM n hn).trans (Nat.le_max_left _ _)
  obtain ⟨M, hM⟩ := hbound
  have hall := Inv.all_visited hi.inv hf (fun n => M - rank n) (by
    intro p n he hl
    obtain ⟨⟨x, y⟩, he, hxy⟩ := List.mem_map.mp he
    simp only [Prod.swap, Prod.mk.injEq] at hxy
    obtain ⟨rfl, rfl⟩ := hxy
    rcases mem_edges.mp he with ⟨m, hm, o, ho, h1, h2⟩ | ⟨o, ho, h1, h2⟩
    · cases h2
      refine ⟨hm, ?_⟩
      have h1 := hrank p hm n ⟨o, ho, h1⟩
      have h2 := hM p hm
      omega
    · cases h2)
  intro n hn
  exact mem_returned.mp ((hi.ret_iff n hn).mp (hall n hn))

/-- C18 for a region that is not mutated: when `next()` returns `nullptr`, the returned nodes are
exactly the nodes of the region, each once, ... -/
theorem bottomUp_unmodified {g₀ : Graph} (hw : g₀.WF) (hs : g₀.SmallOut) (hac : g₀.Acyclic)
    {tr : List Ev} {s : BU.State} (hr : BU.Run g₀ tr s) (hpure : ∀ m, Ev.mut m ∉ tr)
    (hn : (BU.next s).1 = none) : (returned tr).Perm g₀.nodes := by
  have hg : ∀ {tr s}, BU.Run g₀ tr s → (∀ m, Ev.mut m ∉ tr) → s.g = g₀ := by
    intro tr s h
    induction h with
    | init => intro _; rfl
    | @next tr s h ih =>
      intro hp
      have : (BU.next s).2.g = s.g := by unfold BU.next; cases s.t.peek <;> rfl
      rw [this]; exact ih (fun m hm => hp m (List.mem_append_left _ hm))
    | mutate m h hv hsm ih => intro hp; exact absurd (List.mem_append_right _ (List.mem_singleton.mpr rfl)) (hp m)
  have hgs := hg hr hpure
  have hi := BU.Run.inv hw hs hr (fun os => hpure _)
  have hsi := BU.Run.si hw hr
  refine (List.perm_ext_iff_of_nodup hsi.nodup hw.nodup).mpr ?_
  intro n
  constructor
  · exact hi.ret_old n
  · intro hn0
    exact mem_returned.mpr (bottomUp_complete_partial hw hs hr (fun os => hpure _)
      (by rw [hgs]; exact hac) hn n (by rw [hgs]; exact hn0))

/-- ... and in an order in which every node comes after its users. -/
theorem bottomUp_unmodified_order {g₀ : Graph} (hw : g₀.WF) (hs : g₀.SmallOut)
    {tr : List Ev} {s : BU.State} (hr : BU.Run g₀ tr s) (hpure : ∀ m, Ev.mut m ∉ tr)
    {i : Nat} {n u : NodeId} (hi : (returned tr)[i]? = some n) (hu : u ∈ g₀.nodes) (hp : g₀.Pred n u) :
    ∃ j : Nat, j < i ∧ (returned tr)[j]? = some u := by
  have hg : ∀ {tr s}, BU.Run g₀ tr s → (∀ m, Ev.mut m ∉ tr) → s.g = g₀ := by
    intro tr s h
    induction h with
    | init => intro _; rfl
    | @next tr s h ih =>
      intro hp
      have : (BU.next s).2.g = s.g := by unfold BU.next; cases s.t.peek <;> rfl
      rw [this]; exact ih (fun m hm => hp m (List.mem_append_left _ hm))
    | mutate m h hv hsm ih => intro hp; exact absurd (List.mem_append_right _ (List.mem_singleton.mpr rfl)) (hp m)
  induction hr with
  | init => simp [returned] at hi
  | mutate m h hv hsm ih => exact absurd (List.mem_append_right _ (List.mem_singleton.mpr rfl)) (hpure m)
  | @next tr s h ih =>
    have hpure' : ∀ m, Ev.mut m ∉ tr := fun m hm => hpure m (List.mem_append_left _ hm)
    rw [TD.returned_append] at hi ⊢
    by_cases hlt : i < (returned tr).length
    · rw [List.getElem?_append_left hlt] at hi
      obtain ⟨j, hj, hj2⟩ := ih hpure' hi
      exact ⟨j, hj, by rw [List.getElem?_append_left (by omega)]; exact hj2⟩
    · rw [List.getElem?_append_right (by omega)] at hi
      cases hnx : (BU.next s).1 with
      | none => rw [hnx] at hi; simp [returned, Ev.ofRet] at hi
      | some x =>
        rw [hnx] at hi
        have hx : n = x ∧ i = (returned tr).length := by
          have hr1 : returned [Ev.ofRet (some x)] = [x] := rfl
          rw [hr1] at hi
          cases hk : i - (returned tr).length with
          | zero => rw [hk] at hi; simp at hi; exact ⟨hi.symm, by omega⟩
          | succ k => rw [hk] at hi; simp at hi
        obtain ⟨rfl, rfl⟩ := hx
        have hgs := hg h hpure'
        have hsafe := bottomUp_next_safe_partial hw hs h (fun os => hpure' _) hnx
        have hh := hsafe.2 u (by rw [hgs]; exact hu) (by rw [hgs]; exact hp)
        obtain ⟨j, hj, hj2⟩ := List.getElem_of_mem (mem_returned.mpr hh)
        exact ⟨j, hj, by rw [List.getElem?_append_left hj, List.getElem?_eq_getElem hj, hj2]⟩

end Jlm.Rvsdg.Trav
