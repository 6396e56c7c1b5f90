import Verif.Rvsdg.RegionSpec
import Verif.Rvsdg.TraverserEdges
import Mathlib.Data.List.Perm.Basic
import Mathlib.Data.List.Nodup
import Mathlib.Algebra.Order.Group.Nat
/-
C19: region bookkeeping, pruning, index compaction.
-/
set_option linter.unusedSimpArgs false
set_option linter.unusedVariables false
namespace Jlm.Rvsdg.Reg
open Trav

/-! ## Bookkeeping -/

def outc (E : Edges) (n : NodeId) : Nat := E.countP (fun e => e.1 == some n)

theorem outc_perm {E E' : Edges} (h : E.Perm E') (n) : outc E n = outc E' n := h.countP_eq _

theorem outc_cons (a : Option NodeId) (d) (E : Edges) (n) :
    outc ((a, d) :: E) n = outc E n + if a = some n then 1 else 0 := by
  unfold outc; rw [List.countP_cons]; simp

structure BInv (ns : List NodeId) (r : Region) (E : Edges) : Prop where
  nd : r.bottomNodes.Nodup
  mem : ∀ n, n ∈ r.bottomNodes ↔ n ∈ ns ∧ r.succ n = 0
  cnt : ∀ n ∈ ns, r.succ n = outc E n
  num : r.numBottomNodes = r.bottomNodes.length

theorem BInv.perm {ns r E E'} (h : BInv ns r E) (hp : E.Perm E') : BInv ns r E' :=
  ⟨h.nd, h.mem, fun n hn => (h.cnt n hn).trans (outc_perm hp n), h.num⟩

structure TInv (r : Region) : Prop where
  nd : r.topNodes.Nodup
  mem : ∀ n, n ∈ r.topNodes ↔ n ∈ r.g.nodes ∧ r.g.inputs n = []
  num : r.numTopNodes = r.topNodes.length

theorem addUser_g (r : Region) (o) : (r.addUser o).g = r.g := by
  unfold Region.addUser; split <;> simp only [] ; split <;> rfl
theorem addUser_top (r : Region) (o) : (r.addUser o).topNodes = r.topNodes := by
  unfold Region.addUser; split <;> simp only [] ; split <;> rfl
theorem addUser_ntop (r : Region) (o) : (r.addUser o).numTopNodes = r.numTopNodes := by
  unfold Region.addUser; split <;> simp only [] ; split <;> rfl
theorem addUser_nn (r : Region) (o) : (r.addUser o).numNodes = r.numNodes := by
  unfold Region.addUser; split <;> simp only [] ; split <;> rfl
theorem removeUser_g (r : Region) (o) : (r.removeUser o).g = r.g := by
  unfold Region.removeUser; split <;> simp only [if_true] ; split <;> rfl
theorem removeUser_top (r : Region) (o) : (r.removeUser o).topNodes = r.topNodes := by
  unfold Region.removeUser; split <;> simp only [if_true] ; split <;> rfl
theorem removeUser_ntop (r : Region) (o) : (r.removeUser o).numTopNodes = r.numTopNodes := by
  unfold Region.removeUser; split <;> simp only [if_true] ; split <;> rfl
theorem removeUser_nn (r : Region) (o) : (r.removeUser o).numNodes = r.numNodes := by
  unfold Region.removeUser; split <;> simp only [if_true] ; split <;> rfl

theorem TInv.congr {r r' : Region} (h : TInv r) (hg : r'.g = r.g) (ht : r'.topNodes = r.topNodes)
    (hn : r'.numTopNodes = r.numTopNodes) : TInv r' := by
  obtain ⟨a, b, c⟩ := h
  exact ⟨ht ▸ a, by rw [ht, hg]; exact b, by rw [hn, ht]; exact c⟩

theorem foldl_removeUser_frame (os : List Origin) (r : Region) :
    (os.foldl (fun r o => r.removeUser o) r).g = r.g ∧
    (os.foldl (fun r o => r.removeUser o) r).topNodes = r.topNodes ∧
    (os.foldl (fun r o => r.removeUser o) r).numTopNodes = r.numTopNodes ∧
    (os.foldl (fun r o => r.removeUser o) r).numNodes = r.numNodes := by
  induction os generalizing r with
  | nil => simp
  | cons o os ih =>
    simp only [List.foldl_cons]
    obtain ⟨h1, h2, h3, h4⟩ := ih (r.removeUser o)
    rw [h1, h2, h3, h4, removeUser_g, removeUser_top, removeUser_ntop, removeUser_nn]
    exact ⟨rfl, rfl, rfl, rfl⟩

theorem BInv.addUser {ns r E} (h : BInv ns r E) (o : Origin) (d) (ho : ∀ p, o.owner = some p → p ∈ ns) :
    BInv ns (r.addUser o) ((o.owner, d) :: E) := by
  unfold Region.addUser
  cases hoo : o.owner with
  | none =>
    simp only []
    refine ⟨h.nd, h.mem, ?_, h.num⟩
    intro n hn; rw [outc_cons]; simp [h.cnt n hn]
  | some p =>
    have hp := ho p hoo
    simp only []
    by_cases h0 : r.succ p = 0
    · have hb := (h.mem p).mpr ⟨hp, h0⟩
      rw [if_pos h0]
      refine ⟨h.nd.erase p, ?_, ?_, ?_⟩
      · intro n
        simp only [Region.onBottomNodeRemoved]
        rw [h.nd.mem_erase_iff, h.mem n]
        by_cases hnp : n = p
        · subst hnp; simp
        · simp [hnp]
      · intro n hn
        simp only [Region.onBottomNodeRemoved]
        rw [outc_cons, ← h.cnt n hn]
        by_cases hnp : n = p
        · subst hnp; simp
        · simp [hnp, Ne.symm hnp]
      · simp only [Region.onBottomNodeRemoved]
        rw [List.length_erase_of_mem hb, h.num]
    · rw [if_neg h0]
      refine ⟨h.nd, ?_, ?_, h.num⟩
      · intro n
        simp only []
        rw [h.mem n]
        by_cases hnp : n = p
        · subst hnp; simp [h0]
        · simp [hnp]
      · intro n hn
        simp only []
        rw [outc_cons, ← h.cnt n hn]
        by_cases hnp : n = p
        · subst hnp; simp
        · simp [hnp, Ne.symm hnp]

theorem BInv.removeUser {ns r E} (o : Origin) (d) (h : BInv ns r ((o.owner, d) :: E))
    (ho : ∀ p, o.owner = some p → p ∈ ns) :
    BInv ns (r.removeUser o) E := by
  unfold Region.removeUser
  cases hoo : o.owner with
  | none =>
    simp only []
    refine ⟨h.nd, h.mem, ?_, h.num⟩
    intro n hn; have := h.cnt n hn; rw [outc_cons, hoo] at this; simpa using this
  | some p =>
    have hp := ho p hoo
    rw [hoo] at h
    have hc := h.cnt p hp
    rw [outc_cons, if_pos rfl] at hc
    have hcnt : ∀ n ∈ ns, (if n = p then r.succ p - 1 else r.succ n) = outc E n := by
      intro n hn
      by_cases hnp : n = p
      · subst hnp; rw [if_pos rfl, hc]; simp
      · rw [if_neg hnp, h.cnt n hn, outc_cons]
        simp [Ne.symm hnp]
    simp only [if_true]
    by_cases h0 : r.succ p - 1 = 0
    · rw [if_pos h0]
      have hnb : p ∉ r.bottomNodes := by
        intro hh; have := ((h.mem p).mp hh).2; omega
      refine ⟨?_, ?_, hcnt, ?_⟩
      · simp only [Region.onBottomNodeAdded]
        rw [List.nodup_append]
        refine ⟨h.nd, by simp, ?_⟩
        intro a ha b hb
        rw [List.mem_singleton] at hb
        rintro rfl
        exact hnb (hb ▸ ha)
      · intro n
        simp only [Region.onBottomNodeAdded, List.mem_append, List.mem_singleton]
        by_cases hnp : n = p
        · subst hnp; simp [h0, hp]
        · rw [h.mem n]; simp [hnp]
      · simp only [Region.onBottomNodeAdded, List.length_append, List.length_singleton, h.num]
    · rw [if_neg h0]
      refine ⟨h.nd, ?_, hcnt, h.num⟩
      intro n
      simp only []
      rw [h.mem n]
      by_cases hnp : n = p
      · subst hnp; simp [h0]; intro _; omega
      · simp [hnp]

theorem BInv.congr {ns r r' E} (h : BInv ns r E) (h1 : r'.bottomNodes = r.bottomNodes)
    (h2 : r'.succ = r.succ) (h3 : r'.numBottomNodes = r.numBottomNodes) : BInv ns r' E :=
  ⟨h1 ▸ h.nd, by rw [h1, h2]; exact h.mem, by rw [h2]; exact h.cnt, by rw [h3, h1]; exact h.num⟩

theorem BInv.removeUsers {ns E} (d) (os : List Origin) (r) 
    (h : BInv ns r (os.map (fun o => (o.owner, d)) ++ E))
    (ho : ∀ o ∈ os, ∀ p, o.owner = some p → p ∈ ns) :
    BInv ns (os.foldl (fun r o => r.removeUser o) r) E := by
  induction os generalizing r with
  | nil => simpa using h
  | cons o os ih =>
    simp only [List.foldl_cons]
    refine ih _ ?_ (fun o ho' => ho o (List.mem_cons_of_mem _ ho'))
    exact BInv.removeUser o d (by simpa using h) (ho o (by simp))

theorem consistent_iff (r : Region) : Consistent r ↔
    r.g.WF ∧ BInv r.g.nodes r r.g.edges ∧ TInv r ∧ r.numNodes = r.g.nodes.length := by
  have hmemT : ∀ n, n ∈ r.g.topNodes ↔ n ∈ r.g.nodes ∧ r.g.inputs n = [] := by
    intro n; unfold Graph.topNodes Graph.ninputs; rw [List.mem_filter]; simp [List.length_eq_zero_iff]
  constructor
  · intro h
    refine ⟨h.wf, ⟨?_, ?_, ?_, h.numBottom⟩, ⟨?_, ?_, h.numTop⟩, h.numNodes⟩
    · exact h.bottom.nodup_iff.mpr (h.wf.nodup.filter _)
    · intro n
      rw [h.bottom.mem_iff]
      unfold Graph.bottomNodes
      rw [List.mem_filter]
      constructor
      · rintro ⟨a, b⟩; exact ⟨a, by rw [h.succ n a]; simpa using b⟩
      · rintro ⟨a, b⟩; exact ⟨a, by rw [h.succ n a] at b; simpa using b⟩
    · exact h.succ
    · exact h.top.nodup_iff.mpr (h.wf.nodup.filter _)
    · intro n; rw [h.top.mem_iff]; exact hmemT n
  · rintro ⟨hw, hb, ht, hn⟩
    refine ⟨hw, hb.cnt, ?_, ?_, ht.num, hb.num, hn⟩
    · refine (List.perm_ext_iff_of_nodup ht.nd (hw.nodup.filter _)).mpr ?_
      intro n; rw [ht.mem]; exact (hmemT n).symm
    · refine (List.perm_ext_iff_of_nodup hb.nd (hw.nodup.filter _)).mpr ?_
      intro n; rw [hb.mem n, List.mem_filter]
      constructor
      · rintro ⟨a, b⟩; exact ⟨a, by rw [hb.cnt n a] at b; simpa [Graph.numSuccessors, outc] using b⟩
      · rintro ⟨a, b⟩; exact ⟨a, by rw [hb.cnt n a]; simpa [Graph.numSuccessors, outc] using b⟩

theorem empty_consistent : Consistent Region.empty := by
  rw [consistent_iff]
  refine ⟨⟨by simp [Region.empty], by simp [Region.empty], by simp [Region.empty], by simp [Region.empty]⟩,
    ⟨by simp [Region.empty], by simp [Region.empty], by simp [Region.empty], rfl⟩,
    ⟨by simp [Region.empty], by simp [Region.empty], rfl⟩, rfl⟩

/-- addInput keeps the invariant -/
theorem addInput_inv (r : Region) (hw : r.g.nodes.Nodup) (hb : BInv r.g.nodes r r.g.edges) (ht : TInv r)
    (n) (o : Origin) (hn : n ∈ r.g.nodes) (ho : r.g.HasOrigin o) :
    (r.addInput n o).g = r.g.apply (.addInput n o) ∧
    BInv (r.addInput n o).g.nodes (r.addInput n o) (r.addInput n o).g.edges ∧ TInv (r.addInput n o) ∧
    (r.addInput n o).numNodes = r.numNodes := by
  have hg : (r.addInput n o).g = r.g.apply (.addInput n o) := by
    unfold Region.addInput Region.setInputs
    simp only [Graph.apply]
    split <;> simp [Region.onTopNodeRemoved, addUser_g]
  have hB := (hb.addUser o (some n) ho).perm (edges_addInput r.g hw hn o).symm
  refine ⟨hg, ?_, ?_, ?_⟩
  · have hnodes : (r.addInput n o).g.nodes = r.g.nodes := by rw [hg]; rfl
    rw [hg]
    refine BInv.congr (r := r.addUser o) hB ?_ ?_ ?_ <;>
    · unfold Region.addInput Region.setInputs
      simp only []
      split <;> simp [Region.onTopNodeRemoved]
  · refine ⟨?_, ?_, ?_⟩
    · unfold Region.addInput Region.setInputs
      simp only [addUser_g]
      split
      · simp only [Region.onTopNodeRemoved, addUser_top]; exact ht.nd.erase n
      · simp only [addUser_top]; exact ht.nd
    · intro m
      rw [hg]
      unfold Region.addInput Region.setInputs
      simp only [addUser_g, Graph.apply]
      split
      · next h0 =>
        simp only [Region.onTopNodeRemoved, addUser_top]
        rw [ht.nd.mem_erase_iff, ht.mem m]
        by_cases hmn : m = n
        · subst hmn; simp [upd]
        · simp [upd, hmn]
      · next h0 =>
        simp only [addUser_top]
        rw [ht.mem m]
        by_cases hmn : m = n
        · subst hmn; simp [upd]; intro _ h; exact h0 (by simp [Graph.ninputs, h])
        · simp [upd, hmn]
    · unfold Region.addInput Region.setInputs
      simp only [addUser_g]
      split
      · next h0 =>
        simp only [Region.onTopNodeRemoved, addUser_top, addUser_ntop]
        rw [List.length_erase_of_mem, ht.num]
        exact (ht.mem n).mpr ⟨hn, List.length_eq_zero_iff.mp h0⟩
      · simp only [addUser_top, addUser_ntop]; exact ht.num
  · unfold Region.addInput Region.setInputs
    simp only []
    split <;> simp [Region.onTopNodeRemoved, addUser_nn]

theorem upd_upd (f : NodeId → List Origin) (n l l') : upd (upd f n l) n l' = upd f n l' := by
  funext m; unfold upd; split <;> rfl

theorem addInputs_inv (os : List Origin) (r : Region) (hw : r.g.nodes.Nodup)
    (hb : BInv r.g.nodes r r.g.edges) (ht : TInv r)
    (n) (hn : n ∈ r.g.nodes) (ho : ∀ o ∈ os, r.g.HasOrigin o) :
    let r' := os.foldl (fun r o => r.addInput n o) r
    r'.g = { r.g with inputs := upd r.g.inputs n (r.g.inputs n ++ os) } ∧
    BInv r'.g.nodes r' r'.g.edges ∧ TInv r' ∧ r'.numNodes = r.numNodes := by
  induction os generalizing r with
  | nil =>
    simp only [List.foldl_nil, List.append_nil]
    refine ⟨?_, hb, ht, trivial⟩
    rw [upd_same]
  | cons o os ih =>
    obtain ⟨h1, h2, h3, h4⟩ := addInput_inv r hw hb ht n o hn (ho o (by simp))
    have hnodes : (r.addInput n o).g.nodes = r.g.nodes := by rw [h1]; rfl
    obtain ⟨k1, k2, k3, k4⟩ := ih (r.addInput n o) (hnodes ▸ hw) h2 h3 (hnodes ▸ hn) (by
      intro x hx p hp; rw [hnodes]; exact ho x (by simp [hx]) p hp)
    simp only [List.foldl_cons]
    refine ⟨?_, k2, k3, k4.trans h4⟩
    rw [k1, h1]
    simp only [Graph.apply, upd_self, upd_upd, List.append_assoc, List.singleton_append]

theorem hasOrigin_mem {g : Graph} (h : g.WF) {n} (hn : n ∈ g.nodes) : ∀ o ∈ g.inputs n, ∀ p, o.owner = some p → p ∈ g.nodes :=
  fun o ho => h.inputs_ok n hn o ho

/-- **C19 (bookkeeping)**: every mutation has its documented effect on nodes and edges, and keeps the
enumerations and counters of the region in agreement with them. -/
theorem C19_mutate_consistent (r : Region) (hc : Consistent r) (m : Mut) (hv : Valid r.g m) :
    (r.mutate m).g = r.g.apply m ∧ Consistent (r.mutate m) := by
  have hwf := hc.wf.apply m hv.1
  obtain ⟨hw, hb, ht, hn⟩ := (consistent_iff r).mp hc
  suffices h : (r.mutate m).g = r.g.apply m ∧ BInv (r.g.apply m).nodes (r.mutate m) (r.g.apply m).edges ∧
      TInv (r.mutate m) ∧ (r.mutate m).numNodes = (r.g.apply m).nodes.length by
    obtain ⟨h1, h2, h3, h4⟩ := h
    exact ⟨h1, (consistent_iff _).mpr ⟨h1 ▸ hwf, by rw [h1]; exact h2, h3, by rw [h1]; exact h4⟩⟩
  obtain ⟨hv, hv2⟩ := hv
  cases m with
  | createNode os =>
    have hfresh := hw.fresh
    let r1 : Region := { r with g := { r.g with nextId := r.g.nextId + 1, inputs := upd r.g.inputs r.g.nextId [] }, succ := fun m => if m = r.g.nextId then 0 else r.succ m }
    let r2 := (r1.onBottomNodeAdded r.g.nextId).onTopNodeAdded r.g.nextId
    let r3 : Region := { r2 with g := { r2.g with nodes := r2.g.nodes ++ [r.g.nextId] }, numNodes := r2.numNodes + 1 }
    have hgr3 : r3.g = r.g.apply (.createNode []) := rfl
    have hnotin : ∀ n ∈ r.g.nodes, n ≠ r.g.nextId := fun n h h' => hfresh (h' ▸ h)
    have hB3 : BInv r3.g.nodes r3 r3.g.edges := by
      rw [hgr3]
      refine BInv.perm (E := r.g.edges) ?_ (edges_create r.g hfresh []).symm
      refine ⟨?_, ?_, ?_, ?_⟩
      · show (r.bottomNodes ++ [r.g.nextId]).Nodup
        rw [List.nodup_append]
        refine ⟨hb.nd, by simp, ?_⟩
        intro a ha b hb'
        rw [List.mem_singleton] at hb'
        subst hb'
        exact hnotin a ((hb.mem a).mp ha).1
      · intro n
        show n ∈ r.bottomNodes ++ [r.g.nextId] ↔ n ∈ r.g.nodes ++ [r.g.nextId] ∧ (if n = r.g.nextId then 0 else r.succ n) = 0
        rw [List.mem_append, List.mem_append, List.mem_singleton, hb.mem n]
        by_cases h : n = r.g.nextId
        · simp [h]
        · simp [h]
      · intro n hn'
        show (if n = r.g.nextId then 0 else r.succ n) = _
        by_cases h : n = r.g.nextId
        · rw [if_pos h]
          symm
          unfold outc
          rw [List.countP_eq_zero]
          rintro ⟨a, d⟩ he
          simp only [beq_iff_eq]
          intro ha
          rcases mem_edges.mp he with ⟨m, hm, o, ho, h1, h2⟩ | ⟨o, ho, h1, h2⟩
          · exact hfresh (h ▸ hw.inputs_ok m hm o ho n (by rw [h1, ha]))
          · exact hfresh (h ▸ hw.results_ok o ho n (by rw [h1, ha]))
        · rw [if_neg h]
          refine hb.cnt n ?_
          rcases List.mem_append.mp (show n ∈ r.g.nodes ++ [r.g.nextId] from hn') with h' | h'
          · exact h'
          · exact absurd (List.mem_singleton.mp h') h
      · show r.numBottomNodes + 1 = (r.bottomNodes ++ [r.g.nextId]).length
        simp [hb.num]
    have hT3 : TInv r3 := by
      refine ⟨?_, ?_, ?_⟩
      · show (r.topNodes ++ [r.g.nextId]).Nodup
        rw [List.nodup_append]
        refine ⟨ht.nd, by simp, ?_⟩
        intro a ha b hb'
        rw [List.mem_singleton] at hb'
        subst hb'
        exact hnotin a ((ht.mem a).mp ha).1
      · intro n
        show n ∈ r.topNodes ++ [r.g.nextId] ↔ n ∈ r.g.nodes ++ [r.g.nextId] ∧ upd r.g.inputs r.g.nextId [] n = []
        rw [List.mem_append, List.mem_append, List.mem_singleton, ht.mem n]
        by_cases h : n = r.g.nextId
        · simp [h, upd]
        · simp [h, upd]
      · show r.numTopNodes + 1 = (r.topNodes ++ [r.g.nextId]).length
        simp [ht.num]
    have hnd3 : r3.g.nodes.Nodup := by
      have := (hw.apply (.createNode []) (by intro o ho; cases ho)).nodup
      exact this
    obtain ⟨k1, k2, k3, k4⟩ := addInputs_inv os r3 hnd3 hB3 hT3 r.g.nextId
      (by rw [hgr3]; simp [Graph.apply]) (by
        intro o ho p hp; rw [hgr3]; simp only [Graph.apply, List.mem_append]; exact .inl (hv o ho p hp))
    have hk : (r.mutate (.createNode os)) = os.foldl (fun r o => r.addInput (r3.g.nextId - 1) o) r3 := rfl
    have hk1 : (r.mutate (.createNode os)).g = r.g.apply (.createNode os) := by
      refine Eq.trans k1 ?_
      show ({ r3.g with inputs := upd (upd r.g.inputs r.g.nextId []) r.g.nextId (upd r.g.inputs r.g.nextId [] r.g.nextId ++ os) } : Graph) = _
      rw [upd_self, upd_upd]
      rfl
    refine ⟨hk1, ?_, k3, ?_⟩
    · rw [← hk1]; exact k2
    · refine k4.trans ?_
      show r.numNodes + 1 = (r.g.nodes ++ [r.g.nextId]).length
      simp [hn]
  | destroyNode n =>
    obtain ⟨hmem, hunused⟩ := hv
    have hsucc0 : r.succ n = 0 := by
      rw [hb.cnt n hmem]; unfold outc; rw [List.countP_eq_zero]
      intro e he; simpa using not_used_edges hunused e he
    have hnb : n ∈ r.bottomNodes := (hb.mem n).mpr ⟨hmem, hsucc0⟩
    let r1 := r.onBottomNodeRemoved n
    let r2 := if r1.g.ninputs n = 0 then r1.onTopNodeRemoved n else r1
    let r3 := (r2.g.inputs n).foldl (fun r o => r.removeUser o) r2
    have hr2g : r2.g = r.g := by simp only [r2]; split <;> rfl
    have hr2b : r2.bottomNodes = r.bottomNodes.erase n := by simp only [r2]; split <;> rfl
    have hr2s : r2.succ = r.succ := by simp only [r2]; split <;> rfl
    have hr2nb : r2.numBottomNodes = r.numBottomNodes - 1 := by simp only [r2]; split <;> rfl
    have hr2nn : r2.numNodes = r.numNodes := by simp only [r2]; split <;> rfl
    have hB2 : BInv (r.g.nodes.erase n) r2 r.g.edges := by
      refine ⟨hr2b ▸ hb.nd.erase n, ?_, ?_, ?_⟩
      · intro m
        rw [hr2b, hr2s, hb.nd.mem_erase_iff, hw.nodup.mem_erase_iff, hb.mem m]
        exact ⟨fun ⟨a, b, c⟩ => ⟨⟨a, b⟩, c⟩, fun ⟨⟨a, b⟩, c⟩ => ⟨a, b, c⟩⟩
      · intro m hm; rw [hr2s]; exact hb.cnt m (List.mem_of_mem_erase hm)
      · rw [hr2nb, hr2b, List.length_erase_of_mem hnb, hb.num]
    have hT2 : r2.topNodes.Nodup ∧ (∀ m, m ∈ r2.topNodes ↔ m ∈ r.g.nodes.erase n ∧ r.g.inputs m = []) ∧
        r2.numTopNodes = r2.topNodes.length := by
      by_cases h0 : r.g.ninputs n = 0
      · have : r2 = r1.onTopNodeRemoved n := if_pos h0
        rw [this]
        have htm : n ∈ r.topNodes := (ht.mem n).mpr ⟨hmem, List.length_eq_zero_iff.mp h0⟩
        refine ⟨ht.nd.erase n, ?_, ?_⟩
        · intro m
          show m ∈ r.topNodes.erase n ↔ _
          rw [ht.nd.mem_erase_iff, hw.nodup.mem_erase_iff, ht.mem m]
          exact ⟨fun ⟨a, b, c⟩ => ⟨⟨a, b⟩, c⟩, fun ⟨⟨a, b⟩, c⟩ => ⟨a, b, c⟩⟩
        · show r.numTopNodes - 1 = (r.topNodes.erase n).length
          rw [List.length_erase_of_mem htm, ht.num]
      · have : r2 = r1 := if_neg h0
        rw [this]
        refine ⟨ht.nd, ?_, ht.num⟩
        intro m
        show m ∈ r.topNodes ↔ _
        rw [hw.nodup.mem_erase_iff, ht.mem m]
        constructor
        · rintro ⟨a, b⟩
          exact ⟨⟨by rintro rfl; exact h0 (by simp [Graph.ninputs, b]), a⟩, b⟩
        · rintro ⟨⟨_, a⟩, b⟩; exact ⟨a, b⟩
    obtain ⟨f1, f2, f3, f4⟩ := foldl_removeUser_frame (r2.g.inputs n) r2
    have hg : (r.mutate (.destroyNode n)).g = r.g.apply (.destroyNode n) := by
      show ({ r3.g with inputs := upd r3.g.inputs n [], nodes := r3.g.nodes.erase n } : Graph) = _
      have : r3.g = r.g := f1.trans hr2g
      rw [this]; rfl
    have hB3 : BInv (r.g.nodes.erase n) r3 (restE r.g n) := by
      refine BInv.removeUsers (some n) (r2.g.inputs n) r2 ?_ ?_
      · rw [hr2g]; exact hB2.perm (edges_split r.g hw.nodup hmem)
      · rw [hr2g]
        intro o ho p hp
        rw [hw.nodup.mem_erase_iff]
        refine ⟨?_, hw.inputs_ok n hmem o ho p hp⟩
        rintro rfl
        exact hunused (.inl ⟨p, hmem, o, ho, hp⟩)
    refine ⟨hg, ?_, ?_, ?_⟩
    · rw [edges_destroy r.g hw.nodup]
      exact BInv.congr hB3 rfl rfl rfl
    · obtain ⟨t1, t2, t3⟩ := hT2
      refine ⟨?_, ?_, ?_⟩
      · show r3.topNodes.Nodup; rw [f2]; exact t1
      · intro m
        show m ∈ r3.topNodes ↔ _
        rw [f2, hg, t2]
        simp only [Graph.apply]
        constructor
        · rintro ⟨a, b⟩
          refine ⟨a, ?_⟩
          unfold upd; split <;> simp_all
        · rintro ⟨a, b⟩
          refine ⟨a, ?_⟩
          rw [upd_ne _ _ (hw.nodup.mem_erase_iff.mp a).1] at b
          exact b
      · show r3.numTopNodes = r3.topNodes.length; rw [f2, f3]; exact t3
    · show r3.numNodes - 1 = (r.g.nodes.erase n).length
      rw [f4, hr2nn, List.length_erase_of_mem hmem, hn]
  | addInput n o =>
    obtain ⟨h1, h2, h3, h4⟩ := addInput_inv r hw.nodup hb ht n o hv.1 hv.2
    refine ⟨h1, ?_, h3, h4.trans hn⟩
    rw [h1] at h2; exact h2
  | removeInputs n idx =>
    by_cases hidx : idx = []
    · have hr : r.mutate (.removeInputs n idx) = r := by
        show r.removeInputs n idx = r; unfold Region.removeInputs; rw [if_pos hidx]
      have hsel : ∀ (k) (l : List Origin), selectIdx [] false k l = l := by
        intro k l
        induction l generalizing k with
        | nil => rfl
        | cons a l ih => unfold selectIdx; simp [ih]
      have hg : r.g.apply (.removeInputs n idx) = r.g := by
        simp only [Graph.apply]; rw [hidx, hsel, upd_same]
      rw [hr, hg]
      exact ⟨rfl, hb, ht, hn⟩
    · have hne : r.g.inputs n ≠ [] := (hv2 n idx rfl).resolve_right hidx
      let live := selectIdx idx false 0 (r.g.inputs n)
      let r1 := (selectIdx idx true 0 (r.g.inputs n)).foldl (fun r o => r.removeUser o) r
      obtain ⟨f1, f2, f3, f4⟩ := foldl_removeUser_frame (selectIdx idx true 0 (r.g.inputs n)) r
      have hr : r.mutate (.removeInputs n idx) =
          if live.length = 0 then (r1.setInputs n live).onTopNodeAdded n else r1.setInputs n live := by
        show r.removeInputs n idx = _; unfold Region.removeInputs; rw [if_neg hidx]
      have hg : (r.mutate (.removeInputs n idx)).g = r.g.apply (.removeInputs n idx) := by
        rw [hr]
        have : (r1.setInputs n live).g = r.g.apply (.removeInputs n idx) := by
          show ({ r1.g with inputs := upd r1.g.inputs n live } : Graph) = _
          have : r1.g = r.g := f1
          rw [this]; rfl
        split
        · exact this
        · exact this
      have hB1 : BInv r.g.nodes r1 (r.g.apply (.removeInputs n idx)).edges :=
        BInv.removeUsers (some n) _ r (hb.perm (edges_removeInputs r.g hw.nodup hv idx))
          (fun o ho => hw.inputs_ok n hv o (selectIdx_subset ho))
      refine ⟨hg, ?_, ?_, ?_⟩
      · rw [hr]
        split
        · exact BInv.congr hB1 rfl rfl rfl
        · exact BInv.congr hB1 rfl rfl rfl
      · have hnt : n ∉ r.topNodes := fun h => hne ((ht.mem n).mp h).2
        have hmem' : ∀ m, (m ∈ (r.g.apply (.removeInputs n idx)).nodes ∧ (r.g.apply (.removeInputs n idx)).inputs m = []) ↔
            m ∈ r.topNodes ∨ (m = n ∧ live = []) := by
          intro m
          simp only [Graph.apply]
          rw [ht.mem m]
          by_cases hmn : m = n
          · subst hmn; rw [upd_self]; simp [hne]; exact ⟨fun h => h.2, fun h => ⟨hv, h⟩⟩
          · rw [upd_ne _ _ hmn]; simp [hmn]
        rw [hr] at hg ⊢
        split at hg
        · next h0 =>
          rw [if_pos h0]
          have hl : live = [] := List.length_eq_zero_iff.mp h0
          refine ⟨?_, ?_, ?_⟩
          · show (r1.topNodes ++ [n]).Nodup
            rw [show r1.topNodes = r.topNodes from f2, List.nodup_append]
            refine ⟨ht.nd, by simp, ?_⟩
            intro a ha b hb'
            rw [List.mem_singleton] at hb'
            rintro rfl
            exact hnt (hb' ▸ ha)
          · intro m
            rw [hg, hmem']
            show m ∈ r1.topNodes ++ [n] ↔ _
            rw [show r1.topNodes = r.topNodes from f2]
            simp [hl]
          · show r1.numTopNodes + 1 = (r1.topNodes ++ [n]).length
            rw [show r1.topNodes = r.topNodes from f2, show r1.numTopNodes = r.numTopNodes from f3]
            simp [ht.num]
        · next h0 =>
          rw [if_neg h0]
          have hl : live ≠ [] := fun h => h0 (by rw [h]; rfl)
          refine ⟨?_, ?_, ?_⟩
          · show r1.topNodes.Nodup
            rw [show r1.topNodes = r.topNodes from f2]; exact ht.nd
          · intro m
            rw [hg, hmem']
            show m ∈ r1.topNodes ↔ _
            rw [show r1.topNodes = r.topNodes from f2]
            simp [hl]
          · show r1.numTopNodes = r1.topNodes.length
            rw [show r1.topNodes = r.topNodes from f2, show r1.numTopNodes = r.numTopNodes from f3]
            exact ht.num
      · rw [hr]
        have : r1.numNodes = r.numNodes := f4
        split
        · exact this.trans hn
        · exact this.trans hn
  | divertInput n i o =>
    obtain ⟨hmem, hi, ho⟩ := hv
    obtain ⟨old, hold⟩ : ∃ old, (r.g.inputs n)[i]? = some old := ⟨_, List.getElem?_eq_getElem hi⟩
    by_cases heq : old = o
    · have hr : r.mutate (.divertInput n i o) = r := by
        show r.divertInput n i o = r
        unfold Region.divertInput; rw [hold]; simp [heq]
      have hg : r.g.apply (.divertInput n i o) = r.g := by
        simp only [Graph.apply]
        have : (r.g.inputs n).set i o = r.g.inputs n := by
          rw [List.getElem?_eq_getElem hi] at hold
          rw [← heq, ← Option.some.inj hold]; exact List.set_getElem_self hi
        rw [this, upd_same]
      rw [hr, hg]; exact ⟨rfl, hb, ht, hn⟩
    · have hr : r.mutate (.divertInput n i o) =
          ((r.removeUser old).addUser o).setInputs n ((r.g.inputs n).set i o) := by
        show r.divertInput n i o = _
        unfold Region.divertInput; rw [hold]; simp [heq]
      have hgg : ((r.removeUser old).addUser o).g = r.g := by rw [addUser_g, removeUser_g]
      have hg : (r.mutate (.divertInput n i o)).g = r.g.apply (.divertInput n i o) := by
        rw [hr]; unfold Region.setInputs; simp only []; rw [hgg]; rfl
      obtain ⟨R, e1, e2⟩ := edges_divertInput r.g hw.nodup hmem i old o hold
      have hold' : old ∈ r.g.inputs n := List.mem_of_getElem? hold
      have hB := (BInv.removeUser old (some n) (hb.perm e1) (hw.inputs_ok n hmem old hold'))
      have hB2 := (hB.addUser o (some n) ho).perm e2.symm
      refine ⟨hg, ?_, ?_, ?_⟩
      · rw [hr]; exact BInv.congr hB2 rfl rfl rfl
      · have htop : (r.mutate (.divertInput n i o)).topNodes = r.topNodes := by
          rw [hr]; unfold Region.setInputs; simp only []; rw [addUser_top, removeUser_top]
        have hnum : (r.mutate (.divertInput n i o)).numTopNodes = r.numTopNodes := by
          rw [hr]; unfold Region.setInputs; simp only []; rw [addUser_ntop, removeUser_ntop]
        refine ⟨htop ▸ ht.nd, ?_, by rw [htop, hnum]; exact ht.num⟩
        intro m
        rw [htop, hg, ht.mem m]
        simp only [Graph.apply]
        by_cases hmn : m = n
        · subst hmn; rw [upd_self]
          constructor
          · rintro ⟨a, b⟩; exact ⟨a, by rw [b]; rfl⟩
          · rintro ⟨a, b⟩; exact ⟨a, by simpa using b⟩
        · rw [upd_ne _ _ hmn]
      · rw [hr]; unfold Region.setInputs; simp only []; rw [addUser_nn, removeUser_nn]; exact hn
  | addResult o =>
    have hg : (r.mutate (.addResult o)).g = r.g.apply (.addResult o) := by
      show ({ (r.addUser o).g with results := r.g.results ++ [o] } : Graph) = _
      rw [addUser_g]; rfl
    have hB := (hb.addUser o none hv).perm (edges_addResult r.g o).symm
    refine ⟨hg, BInv.congr hB rfl rfl rfl, ?_, ?_⟩
    · refine ⟨?_, ?_, ?_⟩
      · show (r.addUser o).topNodes.Nodup; rw [addUser_top]; exact ht.nd
      · intro m; rw [hg]; show m ∈ (r.addUser o).topNodes ↔ _; rw [addUser_top]; exact ht.mem m
      · show (r.addUser o).numTopNodes = (r.addUser o).topNodes.length
        rw [addUser_top, addUser_ntop]; exact ht.num
    · show (r.addUser o).numNodes = _; rw [addUser_nn]; exact hn
  | removeResults idx =>
    by_cases hidx : idx = []
    · have hr : r.mutate (.removeResults idx) = r := by
        show r.removeResults idx = r; unfold Region.removeResults; rw [if_pos hidx]
      have hsel : ∀ (k) (l : List Origin), selectIdx [] false k l = l := by
        intro k l
        induction l generalizing k with
        | nil => rfl
        | cons a l ih => unfold selectIdx; simp [ih]
      have hg : r.g.apply (.removeResults idx) = r.g := by
        simp only [Graph.apply]; rw [hidx, hsel]
      rw [hr, hg]
      exact ⟨rfl, hb, ht, hn⟩
    · let r1 := (selectIdx idx true 0 r.g.results).foldl (fun r o => r.removeUser o) r
      obtain ⟨f1, f2, f3, f4⟩ := foldl_removeUser_frame (selectIdx idx true 0 r.g.results) r
      have hr : r.mutate (.removeResults idx) = r1.setResults (selectIdx idx false 0 r.g.results) := by
        show r.removeResults idx = _; unfold Region.removeResults; rw [if_neg hidx]
      have hg : (r.mutate (.removeResults idx)).g = r.g.apply (.removeResults idx) := by
        rw [hr]; unfold Region.setResults; simp only []; rw [show r1.g = r.g from f1]; rfl
      have hB1 : BInv r.g.nodes r1 (r.g.apply (.removeResults idx)).edges :=
        BInv.removeUsers none _ r (hb.perm (edges_removeResults r.g idx))
          (fun o ho => hw.results_ok o (selectIdx_subset ho))
      refine ⟨hg, by rw [hr]; exact BInv.congr hB1 rfl rfl rfl, ?_, ?_⟩
      · refine ⟨?_, ?_, ?_⟩
        · rw [hr]; show r1.topNodes.Nodup; rw [show r1.topNodes = r.topNodes from f2]; exact ht.nd
        · intro m; rw [hg, hr]; show m ∈ r1.topNodes ↔ _
          rw [show r1.topNodes = r.topNodes from f2]; exact ht.mem m
        · rw [hr]; show r1.numTopNodes = r1.topNodes.length
          rw [show r1.topNodes = r.topNodes from f2, show r1.numTopNodes = r.numTopNodes from f3]; exact ht.num
      · rw [hr]; show r1.numNodes = _; rw [show r1.numNodes = r.numNodes from f4]; exact hn
  | divertResult i o =>
    obtain ⟨hi, ho⟩ := hv
    obtain ⟨old, hold⟩ : ∃ old, r.g.results[i]? = some old := ⟨_, List.getElem?_eq_getElem hi⟩
    by_cases heq : old = o
    · have hr : r.mutate (.divertResult i o) = r := by
        show r.divertResult i o = r
        unfold Region.divertResult; rw [hold]; simp [heq]
      have hg : r.g.apply (.divertResult i o) = r.g := by
        simp only [Graph.apply]
        have : r.g.results.set i o = r.g.results := by
          rw [List.getElem?_eq_getElem hi] at hold
          rw [← heq, ← Option.some.inj hold]; exact List.set_getElem_self hi
        rw [this]
      rw [hr, hg]; exact ⟨rfl, hb, ht, hn⟩
    · have hr : r.mutate (.divertResult i o) =
          ((r.removeUser old).addUser o).setResults (r.g.results.set i o) := by
        show r.divertResult i o = _
        unfold Region.divertResult; rw [hold]; simp [heq]
      have hgg : ((r.removeUser old).addUser o).g = r.g := by rw [addUser_g, removeUser_g]
      have hg : (r.mutate (.divertResult i o)).g = r.g.apply (.divertResult i o) := by
        rw [hr]; unfold Region.setResults; simp only []; rw [hgg]; rfl
      obtain ⟨R, e1, e2⟩ := edges_divertResult r.g i old o hold
      have hold' : old ∈ r.g.results := List.mem_of_getElem? hold
      have hB := (BInv.removeUser old none (hb.perm e1) (hw.results_ok old hold'))
      have hB2 := (hB.addUser o none ho).perm e2.symm
      refine ⟨hg, ?_, ?_, ?_⟩
      · rw [hr]; exact BInv.congr hB2 rfl rfl rfl
      · have htop : (r.mutate (.divertResult i o)).topNodes = r.topNodes := by
          rw [hr]; unfold Region.setResults; simp only []; rw [addUser_top, removeUser_top]
        have hnum : (r.mutate (.divertResult i o)).numTopNodes = r.numTopNodes := by
          rw [hr]; unfold Region.setResults; simp only []; rw [addUser_ntop, removeUser_ntop]
        refine ⟨htop ▸ ht.nd, ?_, by rw [htop, hnum]; exact ht.num⟩
        intro m
        rw [htop, hg, ht.mem m]
        rfl
      · rw [hr]; unfold Region.setResults; simp only []; rw [addUser_nn, removeUser_nn]; exact hn

/-- Any history of valid mutations of a new region. -/
inductive Reachable : Region → Prop
  | empty : Reachable Region.empty
  | step {r} (m : Mut) (h : Reachable r) (hv : Valid r.g m) : Reachable (r.mutate m)

/-- **C19 (bookkeeping)**: whatever the history of a region, `TopNodes()`, `BottomNodes()`, their
counts, and `numSuccessors()` agree with its nodes and edges. -/
theorem C19_reachable_consistent {r : Region} (h : Reachable r) : Consistent r := by
  induction h with
  | empty => exact empty_consistent
  | step m _ hv ih => exact (C19_mutate_consistent _ ih m hv).2

/-! ## Prune -/

theorem not_used_of_bottom {r : Region} (hc : Consistent r) {n} (h : n ∈ r.bottomNodes) :
    n ∈ r.g.nodes ∧ ¬ r.g.Used n := by
  obtain ⟨hw, hb, _, _⟩ := (consistent_iff r).mp hc
  obtain ⟨h1, h2⟩ := (hb.mem n).mp h
  refine ⟨h1, ?_⟩
  rw [hb.cnt n h1] at h2
  unfold outc at h2
  rw [List.countP_eq_zero] at h2
  rintro (⟨m, hm, o, ho, hoo⟩ | ⟨o, ho, hoo⟩)
  · have := h2 (o.owner, some m) (mem_edges.mpr (.inl ⟨m, hm, o, ho, rfl, rfl⟩))
    simp [hoo] at this
  · have := h2 (o.owner, none) (mem_edges.mpr (.inr ⟨o, ho, rfl, rfl⟩))
    simp [hoo] at this

theorem usedBy_destroy {g : Graph} (hw : g.WF) {n a b} :
    UsedBy (g.apply (.destroyNode n)) a b ↔ UsedBy g a b ∧ b ≠ n := by
  unfold UsedBy Graph.Pred
  simp only [Graph.apply]
  rw [hw.nodup.mem_erase_iff]
  by_cases hb : b = n
  · simp [hb]
  · rw [upd_ne _ _ hb]; simp [hb]

theorem alive_destroy {g : Graph} (hw : g.WF) {n} (hu : ¬ g.Used n) (a) :
    Alive (g.apply (.destroyNode n)) a ↔ Alive g a := by
  have hno : ∀ x, ¬ UsedBy g n x := fun x hx => hu (.inl ⟨x, hx.1, hx.2⟩)
  constructor
  · rintro ⟨u, hp, hr⟩
    exact ⟨u, Relation.ReflTransGen.mono (fun x y (hxy : UsedBy (g.apply (.destroyNode n)) x y) => ((usedBy_destroy hw).mp hxy).1) a u hp, hr⟩
  · rintro ⟨u, hp, hr⟩
    refine ⟨u, ?_, hr⟩
    have hun : u ≠ n := by rintro rfl; exact hu (.inr hr)
    clear hr
    induction hp with
    | refl => exact .refl
    | @tail b c hab hbc ih =>
      have hb : b ≠ n := by rintro rfl; exact hno _ hbc
      exact (ih hb).tail ((usedBy_destroy hw).mpr ⟨hbc, hun⟩)

theorem acyclic_destroy {g : Graph} (ha : g.Acyclic) (n) : (g.apply (.destroyNode n)).Acyclic := by
  obtain ⟨rank, h⟩ := ha
  refine ⟨rank, ?_⟩
  rintro m hm p ⟨o, ho, hp⟩
  simp only [Graph.apply] at hm ho
  have hm' := List.mem_of_mem_erase hm
  by_cases hmn : m = n
  · subst hmn; rw [upd_self] at ho; cases ho
  · rw [upd_ne _ _ hmn] at ho
    exact h m hm' p ⟨o, ho, hp⟩

theorem exists_bound (l : List NodeId) (f : NodeId → Nat) : ∃ M, ∀ n ∈ l, f n ≤ M := by
  induction l with
  | nil => exact ⟨0, by simp⟩
  | cons a l ih =>
    obtain ⟨M, h⟩ := ih
    refine ⟨M + f a, ?_⟩
    intro n hn
    rcases List.mem_cons.mp hn with rfl | hn
    · exact Nat.le_add_left _ _
    · exact Nat.le_trans (h n hn) (Nat.le_add_right _ _)

/-- if every node is used, every node is alive -/
theorem all_alive {g : Graph} (ha : g.Acyclic) (hu : ∀ n ∈ g.nodes, g.Used n) :
    ∀ n ∈ g.nodes, Alive g n := by
  obtain ⟨rank, h⟩ := ha
  obtain ⟨M, hM⟩ := exists_bound g.nodes rank
  have : ∀ (k : Nat) (n : NodeId), n ∈ g.nodes → M - rank n = k → Alive g n := by
    intro k
    induction k using Nat.strong_induction_on with
    | _ k ih =>
      intro n hn hk
      rcases hu n hn with ⟨m, hm, hp⟩ | hr
      · have h1 := h m hm n hp
        have h2 := hM m hm
        obtain ⟨u, hpath, hr⟩ := ih (M - rank m) (by omega) m hm rfl
        exact ⟨u, hpath.head ⟨hm, hp⟩, hr⟩
      · exact ⟨n, .refl, hr⟩
  exact fun n hn => this _ n hn rfl

theorem not_alive_of_unused {g : Graph} {n} (hu : ¬ g.Used n) : ¬ Alive g n := by
  rintro ⟨u, hp, hr⟩
  rcases Relation.ReflTransGen.cases_head hp with rfl | ⟨c, hc, _⟩
  · exact hu (.inr hr)
  · exact hu (.inl ⟨c, hc.1, hc.2⟩)

theorem pruneLoop_spec (fuel : Nat) (r : Region) (hc : Consistent r) (ha : r.g.Acyclic)
    (hf : r.g.nodes.length ≤ fuel) :
    Consistent (r.pruneLoop fuel) ∧ (r.pruneLoop fuel).bottomNodes = [] ∧
    (∀ n, n ∈ (r.pruneLoop fuel).g.nodes ↔ n ∈ r.g.nodes ∧ Alive r.g n) ∧
    (r.pruneLoop fuel).g.nodes.Sublist r.g.nodes ∧
    (r.pruneLoop fuel).g.results = r.g.results ∧
    (∀ n ∈ (r.pruneLoop fuel).g.nodes, (r.pruneLoop fuel).g.inputs n = r.g.inputs n) := by
  induction fuel generalizing r with
  | zero =>
    have hnil : r.g.nodes = [] := List.length_eq_zero_iff.mp (Nat.le_zero.mp hf)
    simp only [Region.pruneLoop]
    refine ⟨hc, ?_, by simp [hnil], List.Sublist.refl _, trivial, fun _ _ => trivial⟩
    rw [List.eq_nil_iff_forall_not_mem]
    intro n hn
    have := (not_used_of_bottom hc hn).1
    rw [hnil] at this; cases this
  | succ fuel ih =>
    simp only [Region.pruneLoop]
    cases hb : r.bottomNodes with
    | nil =>
      simp only []
      refine ⟨hc, hb, ?_, List.Sublist.refl _, trivial, fun _ _ => trivial⟩
      have hused : ∀ n ∈ r.g.nodes, r.g.Used n := by
        intro n hn
        by_contra hcon
        have : n ∈ r.bottomNodes := by
          rw [hc.bottom.mem_iff]
          unfold Graph.bottomNodes
          rw [List.mem_filter]
          refine ⟨hn, ?_⟩
          simp only [Graph.numSuccessors, beq_iff_eq, List.countP_eq_zero]
          exact not_used_edges hcon
        rw [hb] at this; cases this
      intro n
      exact ⟨fun hn => ⟨hn, all_alive ha hused n hn⟩, fun h => h.1⟩
    | cons n rest =>
      simp only []
      obtain ⟨hmem, hunused⟩ := not_used_of_bottom hc (n := n) (by rw [hb]; simp)
      obtain ⟨hg, hc'⟩ := C19_mutate_consistent r hc (.destroyNode n) ⟨⟨hmem, hunused⟩, by simp⟩
      have hg' : (r.destroyNode n).g = r.g.apply (.destroyNode n) := hg
      have hlen : (r.destroyNode n).g.nodes.length ≤ fuel := by
        rw [hg']; simp only [Graph.apply]; rw [List.length_erase_of_mem hmem]; omega
      obtain ⟨k1, k2, k3, k4, k5, k6⟩ := ih (r.destroyNode n) hc' (by rw [hg']; exact acyclic_destroy ha n) hlen
      have hsub : (r.destroyNode n).g.nodes.Sublist r.g.nodes := by
        rw [hg']; exact List.erase_sublist
      refine ⟨k1, k2, ?_, k4.trans hsub, ?_, ?_⟩
      · intro m
        rw [k3 m, hg', alive_destroy hc.wf hunused]
        simp only [Graph.apply]
        rw [hc.wf.nodup.mem_erase_iff]
        constructor
        · rintro ⟨⟨_, a⟩, b⟩; exact ⟨a, b⟩
        · rintro ⟨a, b⟩
          exact ⟨⟨by rintro rfl; exact not_alive_of_unused hunused b, a⟩, b⟩
      · rw [k5, hg']; rfl
      · intro m hm
        rw [k6 m hm, hg']
        have hmn : m ≠ n := by
          have := ((k3 m).mp hm).1
          rw [hg'] at this
          simp only [Graph.apply] at this
          exact (hc.wf.nodup.mem_erase_iff.mp this).1
        simp only [Graph.apply]
        rw [upd_ne _ _ hmn]

/-- **C19 (prune)**: pruning an acyclic region, whatever its history, keeps exactly the nodes some
result depends on, in their order, and with their inputs; it keeps the results; afterwards every
node is used, and the bookkeeping is consistent. -/
theorem C19_prune (r : Region) (hr : Reachable r) (ha : r.g.Acyclic) :
    (∀ n, n ∈ r.prune.g.nodes ↔ n ∈ r.g.nodes ∧ Alive r.g n) ∧
    r.prune.g.nodes.Sublist r.g.nodes ∧
    r.prune.g.results = r.g.results ∧
    (∀ n ∈ r.prune.g.nodes, r.prune.g.inputs n = r.g.inputs n) ∧
    (∀ n ∈ r.prune.g.nodes, r.prune.g.Used n) ∧
    r.prune.bottomNodes = [] ∧ Consistent r.prune := by
  obtain ⟨k1, k2, k3, k4, k5, k6⟩ := pruneLoop_spec _ r (C19_reachable_consistent hr) ha (Nat.le_refl _)
  refine ⟨k3, k4, k5, k6, ?_, k2, k1⟩
  intro n hn
  by_contra hcon
  have : n ∈ r.prune.bottomNodes := by
    show n ∈ (r.pruneLoop r.g.nodes.length).bottomNodes
    rw [k1.bottom.mem_iff]
    unfold Graph.bottomNodes
    rw [List.mem_filter]
    refine ⟨hn, ?_⟩
    simp only [Graph.numSuccessors, beq_iff_eq, List.countP_eq_zero]
    exact not_used_edges hcon
  rw [show r.prune.bottomNodes = [] from k2] at this
  cases this

/-! ## Vectors -/

theorem indexed_append {α : Type} (l : List α) (x : α) :
    indexed (l ++ [x]) = indexed l ++ [⟨x, l.length⟩] := by
  unfold indexed
  rw [List.zipIdx_append]
  simp

theorem indexed_length {α : Type} (l : List α) : (indexed l).length = l.length := by simp [indexed]

theorem indexed_getElem? {α : Type} (l : List α) (i : Nat) :
    (indexed l)[i]? = l[i]?.map (fun x => ⟨x, i⟩) := by
  unfold indexed
  rw [List.getElem?_map, List.getElem?_zipIdx]
  cases l[i]? <;> simp

/-- the specification of a removal: the kept values -/
def kept {α : Type} (drop : Elem α → Bool) (l : List α) : List α :=
  ((indexed l).filter (fun e => !drop e)).map (fun e => e.val)

/-- state of the loop: `pre` has been processed; the vector starts with the kept elements of `pre`,
then moved-from pointers, then the unprocessed elements `post` with their old indices -/
theorem compactLoop_spec {α : Type} (drop : Elem α → Bool) (post : List (Elem α)) (live : List α) (gap : Nat) :
    let v : List (Option (Elem α)) := (indexed live).map some ++ List.replicate gap none ++ post.map some
    ∃ gap', compactLoop drop post.length (live.length + gap) live.length v =
      ((indexed (live ++ (post.filter (fun e => !drop e)).map (fun e => e.val))).map some ++ List.replicate gap' none,
        (live ++ (post.filter (fun e => !drop e)).map (fun e => e.val)).length) := by
  induction post generalizing live gap with
  | nil => exact ⟨gap, by simp [compactLoop]⟩
  | cons e post ih =>
    simp only [List.length_cons, compactLoop]
    have hget : ((indexed live).map some ++ List.replicate gap none ++ (e :: post).map some)[live.length + gap]?
        = some (some e) := by
      rw [List.getElem?_append_right (by simp [indexed_length])]
      simp [indexed_length]
    rw [hget]
    simp only []
    by_cases hd : drop e = true
    · rw [if_pos hd]
      have hset : ((indexed live).map some ++ List.replicate gap none ++ (e :: post).map some).set (live.length + gap) none
          = (indexed live).map some ++ List.replicate (gap + 1) none ++ post.map some := by
        rw [List.set_append_right _ _ (by simp [indexed_length])]
        simp [indexed_length, List.replicate_succ']
      rw [hset]
      obtain ⟨gap', h⟩ := ih live (gap + 1)
      refine ⟨gap', ?_⟩
      rw [show live.length + gap + 1 = live.length + (gap + 1) by omega]
      rw [h]
      simp [hd]
    · rw [if_neg hd]
      simp only [Bool.not_eq_true] at hd
      have hfin : ((if live.length + gap = live.length then
            (indexed live).map some ++ List.replicate gap none ++ (e :: post).map some
          else ((indexed live).map some ++ List.replicate gap none ++ (e :: post).map some).set (live.length + gap) none).set
            live.length (some { e with index := live.length }))
          = (indexed (live ++ [e.val])).map some ++ List.replicate gap none ++ post.map some := by
        cases gap with
        | zero =>
          simp only [Nat.add_zero, if_true, List.replicate_zero, List.append_nil]
          rw [List.set_append_right _ _ (by simp [indexed_length])]
          simp [indexed_length, indexed_append]
        | succ gap =>
          rw [if_neg (by omega)]
          rw [List.set_append_right _ _ (by simp [indexed_length])]
          rw [List.append_assoc, List.append_assoc]
          simp only [List.map_cons, List.length_append, List.length_map, indexed_length, List.length_replicate,
            Nat.sub_self, List.set_cons_zero]
          rw [List.set_append_right _ _ (by simp [indexed_length])]
          simp [indexed_length, List.replicate_succ, indexed_append]
          rw [← List.cons_append, ← List.replicate_succ, List.replicate_succ', List.append_assoc]
          rfl
      have hfin' := hfin
      obtain ⟨gap', h⟩ := ih (live ++ [e.val]) gap
      refine ⟨gap', ?_⟩
      simp only [List.length_append, List.length_singleton] at h
      rw [hfin, show live.length + gap + 1 = live.length + 1 + gap by omega, h]
      simp [hd]
      omega

/-- **C19 (index compaction)**: `RemoveInputs`/`RemoveOutputs`/`RemoveArguments`/`RemoveResults`
leave exactly the elements that are not dropped, in their old order, with consecutive indices, and
return the number of removed elements. -/
theorem C19_compact {α : Type} (drop : Elem α → Bool) (l : List α) :
    compact drop (indexed l) =
      ((indexed (kept drop l)).map some, ((indexed l).filter drop).length) := by
  unfold compact
  obtain ⟨gap', h⟩ := compactLoop_spec drop (indexed l) [] 0
  simp only [List.length_nil, List.nil_append, indexed, List.zipIdx_nil, List.map_nil,
    List.replicate_zero, Nat.add_zero] at h
  have h' : compactLoop drop (indexed l).length 0 0 ((indexed l).map some) =
      ((indexed (kept drop l)).map some ++ List.replicate gap' none, (kept drop l).length) := h
  rw [h']
  simp only []
  have hlen : ((indexed (kept drop l)).map some).length = (kept drop l).length := by simp [indexed_length]
  rw [← hlen, List.take_left' rfl, hlen]
  congr 1
  have := List.length_eq_length_filter_add (l := indexed l) drop
  unfold kept
  rw [List.length_map]
  omega

theorem shiftUp_spec {α : Type} (index : Nat) (l : List α) (hi : index ≤ l.length) (n : Nat) (hn : index ≤ n)
    (hnl : n ≤ l.length) (v : List (Option (Elem α))) (hv : v.length = l.length + 1)
    (hlow : ∀ (i : Nat), i < n → v[i]? = l[i]?.map (fun x => some ⟨x, i⟩))
    (hhigh : ∀ (i : Nat), n < i → i ≤ l.length → v[i]? = l[i-1]?.map (fun x => some ⟨x, i⟩)) :
    (shiftUp index n v).length = l.length + 1 ∧
    (∀ (i : Nat), i < index → (shiftUp index n v)[i]? = l[i]?.map (fun x => some ⟨x, i⟩)) ∧
    (∀ (i : Nat), index < i → i ≤ l.length → (shiftUp index n v)[i]? = l[i-1]?.map (fun x => some ⟨x, i⟩)) := by
  induction n generalizing v with
  | zero =>
    have : index = 0 := by omega
    subst this
    simp only [shiftUp]
    exact ⟨hv, hlow, hhigh⟩
  | succ n ih =>
    simp only [shiftUp]
    by_cases hgt : n + 1 > index
    · rw [if_pos hgt]
      refine ih (by omega) (by omega) _ (by rw [List.length_set]; exact hv) ?_ ?_
      · intro i hin
        rw [List.getElem?_set_ne (by omega)]
        exact hlow i (by omega)
      · intro i h1 h2
        by_cases hi' : i = n + 1
        · subst hi'
          rw [List.getElem?_set_self (by omega)]
          rw [hlow n (by omega)]
          have : n < l.length := by omega
          simp [List.getElem?_eq_getElem this]
        · rw [List.getElem?_set_ne (by omega)]
          exact hhigh i (by omega) h2
    · rw [if_neg hgt]
      have : index = n + 1 := by omega
      subst this
      exact ⟨hv, hlow, hhigh⟩

/-- **C19 (insertion)**: `insertArgument` inserts the new argument at the index, keeps the order of
the others, and all indices are consecutive; it is rejected iff the index is out of range. -/
theorem C19_insertArgument {α : Type} (l : List α) (i : Nat) (x : α) :
    insertArgument (indexed l) i x =
      if i ≤ l.length then some ((indexed (l.insertIdx i x)).map some) else none := by
  unfold insertArgument
  rw [indexed_length]
  by_cases hi : i ≤ l.length
  · rw [if_neg (by omega), if_pos hi]
    simp only [Option.some.injEq]
    have hlen : ((indexed l).map some ++ [none] : List (Option (Elem α))).length - 1 = l.length := by
      simp [indexed_length]
    rw [hlen]
    obtain ⟨h1, h2, h3⟩ := shiftUp_spec i l hi l.length hi (Nat.le_refl _)
      ((indexed l).map some ++ [none]) (by simp [indexed_length]) (by
        intro k hk
        rw [List.getElem?_append_left (by simpa [indexed_length] using hk), List.getElem?_map, indexed_getElem?]
        cases l[k]? <;> rfl) (by intro k h1 h2; omega)
    apply List.ext_getElem?
    intro k
    rw [List.getElem?_map, indexed_getElem?]
    rcases Nat.lt_trichotomy k i with hk | hk | hk
    · rw [List.getElem?_set_ne (by omega), h2 k hk, List.getElem?_insertIdx_of_lt hk]
      cases l[k]? <;> rfl
    · subst hk
      rw [List.getElem?_set_self (by omega), List.getElem?_insertIdx_self]
      simp [hi]
    · rw [List.getElem?_set_ne (by omega)]
      by_cases hkl : k ≤ l.length
      · rw [h3 k hk hkl, List.getElem?_insertIdx_of_gt hk]
        cases l[k-1]? <;> rfl
      · rw [List.getElem?_eq_none (by omega), List.getElem?_eq_none]
        · rfl
        · rw [List.length_insertIdx]; split <;> omega
  · rw [if_pos (by omega), if_neg hi]

/-! ## Examples -/

/-- a region built by mutations: node 0 (no inputs), node 1 uses 0, node 2 uses 1 and an argument,
node 3 uses 0; the only result is node 1. Nodes 2 and 3 are dead. -/
def exR : Region :=
  ((((Region.empty.mutate (.createNode [])).mutate (.createNode [.out 0 0])).mutate
    (.createNode [.out 1 0, .arg 0])).mutate (.createNode [.out 0 0])).mutate (.addResult (.out 1 0))

theorem valid_of {g : Graph} {m : Mut} (h : m.Valid g) (h2 : ∀ n idx, m ≠ .removeInputs n idx) : Valid g m :=
  ⟨h, fun n idx e => absurd e (h2 n idx)⟩

theorem exR_reachable : Reachable exR := by
  refine .step _ (.step _ (.step _ (.step _ (.step _ .empty ?_) ?_) ?_) ?_) ?_ <;>
    refine valid_of ?_ (by intros; simp)
  · intro o ho; cases ho
  · intro o ho; rw [List.mem_singleton] at ho; subst ho; intro p hp; cases hp; decide
  · intro o ho p hp
    rcases List.mem_cons.mp ho with rfl | ho
    · cases hp; decide
    · rw [List.mem_singleton] at ho; subst ho; cases hp
  · intro o ho; rw [List.mem_singleton] at ho; subst ho; intro p hp; cases hp; decide
  · intro p hp; cases hp; decide

theorem exR_acyclic : exR.g.Acyclic := by
  refine ⟨fun n => n, ?_⟩
  have key : (exR.g.nodes.all fun n => (exR.g.inputs n).all fun o => match o.owner with
    | some p => decide (p < n) | none => true) = true := by decide
  rintro n hn p ⟨o, ho, hp⟩
  rw [List.all_eq_true] at key
  have := List.all_eq_true.mp (key n hn) o ho
  rw [hp] at this
  simpa using this

/-- the hypotheses of `C19_prune` are met, and pruning does remove nodes 2 and 3 -/
example : Reachable exR ∧ exR.g.Acyclic ∧ exR.bottomNodes = [2, 3] ∧ exR.prune.g.nodes = [0, 1] :=
  ⟨exR_reachable, exR_acyclic, by decide, by decide⟩

example : compact (fun e => [1, 3].contains e.index) (indexed ["a", "b", "c", "d", "e"]) =
    ([some ⟨"a", 0⟩, some ⟨"c", 1⟩, some ⟨"e", 2⟩], 2) := by decide

example : insertArgument (indexed ["a", "b"]) 1 "x" =
    some [some ⟨"a", 0⟩, some ⟨"x", 1⟩, some ⟨"b", 2⟩] := by decide

/-- Finding 21: `RemoveInputs` with a non-empty set of indices on a node without inputs adds the node
to the list of top nodes again, which then is inconsistent. -/
theorem C19_removeInputs_top_corrupt :
    ∃ r n idx, Reachable r ∧ n ∈ r.g.nodes ∧ (r.removeInputs n idx).topNodes = [n, n] ∧
      ¬ Consistent (r.removeInputs n idx) := by
  refine ⟨Region.empty.mutate (.createNode []), 0, [0], ?_, by decide, by decide, ?_⟩
  · refine .step _ .empty (valid_of ?_ (by intros; simp))
    intro o ho; cases ho
  · intro h
    have := h.top.length_eq
    revert this
    decide

end Jlm.Rvsdg.Reg
