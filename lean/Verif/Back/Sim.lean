import Verif.Back.Rep

/-!
# The translation of a region computes what the region computes
-/

set_option linter.unusedSimpArgs false
set_option linter.unusedVariables false

namespace Jlm.Back

open Jlm.Opt Jlm.Front

variable {V : Type} {sem : Sem V} {truth : V → Bool} {B : Nat → Block} {m : Out → Var}

theorem goes_two : ∀ {ys : List Nat} {k : Option Nat}, 2 ≤ ys.length → goes ys k = k.bind fun j => ys[j]?
  | [], _, h => by simp at h
  | [_], _, h => by simp at h
  | _ :: _ :: _, none, _ => rfl
  | _ :: _ :: _, some _, _ => rfl

theorem repRegions_length {ins : List Out} {x : Nat} : ∀ {subs : Regions} {es ends : List Nat},
    RepRegions B m ins x subs es ends → es.length = Regions.length subs ∧ ends.length = Regions.length subs
  | .nil, es, ends, h => by rw [RepRegions] at h; simp [h.1, h.2, Regions.length]
  | .cons args results sub rest, es, ends, h => by
    rw [RepRegions] at h
    obtain ⟨b, l, b1, bn, es', ends', rfl, rfl, _, _, _, _, _, _, h⟩ := h
    have := repRegions_length h
    simp [Regions.length, this.1, this.2]

theorem repRegions_get {ins : List Out} {x : Nat} : ∀ {subs : Regions} {es ends : List Nat},
    RepRegions B m ins x subs es ends → ∀ (k y : Nat), es[k]? = some y → (B y).phis = [] ∧ (B y).code = []
  | .nil, es, ends, h, k, y, hk => by rw [RepRegions] at h; simp [h.1] at hk
  | .cons args results sub rest, es, ends, h, k, y, hk => by
    rw [RepRegions] at h
    obtain ⟨b, l, b1, bn, es', ends', rfl, rfl, hb, _, _, _, _, _, h⟩ := h
    cases k with
    | zero => simp at hk; subst hk; simp [hb]
    | succ k => exact repRegions_get h k y (by simpa using hk)

theorem regions_results_length : ∀ (subs : Regions), (Regions.results subs).length = Regions.length subs
  | .nil => rfl
  | .cons _ _ _ rest => by simp [Regions.results, Regions.length, regions_results_length rest]

theorem regionVals_length (sem : Sem V) {na nr : Nat} : ∀ (subs : Regions) (k : Nat) (ws : List (W V)),
    wfRegions na nr subs = true → k < Regions.length subs → (regionVals sem subs k ws).length = nr
  | .nil, k, ws, _, h => by simp [Regions.length] at h
  | .cons args results sub rest, 0, ws, hw, _ => by
    simp only [wfRegions, Bool.and_eq_true, beq_iff_eq] at hw
    simp [regionVals, hw.1.1.1.2]
  | .cons args results sub rest, k + 1, ws, hw, h => by
    simp only [wfRegions, Bool.and_eq_true] at hw
    rw [regionVals]
    exact regionVals_length sem rest k ws hw.2 (by simpa [Regions.length] using h)

theorem runsRegion_lt : ∀ {subs : Regions} {k : Nat} {ws : List (W V)}, RunsRegion sem subs k ws →
    k < Regions.length subs
  | .nil, k, ws, h => by rw [RunsRegion] at h; exact h.elim
  | .cons args results sub rest, 0, ws, h => by simp [Regions.length]
  | .cons args results sub rest, k + 1, ws, h => by
    rw [RunsRegion] at h
    simpa [Regions.length] using runsRegion_lt h

theorem evalNodes_notin (sem : Sem V) : ∀ (ns : Nodes) (E : Env V) (x : Out), x ∉ ns.outs → evalNodes sem ns E x = E x
  | .nil, E, x, _ => by rw [evalNodes]
  | .cons n ns, E, x, h => by
    simp only [Nodes.outs, List.mem_append, not_or] at h
    rw [evalNodes, evalNodes_notin sem ns _ x h.2, upd_notin _ _ _ _ h.1]

/-- What the translation of a node does. -/
def SimNode (sem : Sem V) (truth : V → Bool) (B : Nat → Block) (m : Out → Var) (n : Node) : Prop :=
  ∀ (A : List Out) (E : Env V) (b : Nat) (r : List Tac) (b' : Nat) (r' : List Tac) (s : St V),
    Node.supported n = true → wfNode A n = true → (namesNode n).Nodup →
    (∀ o ∈ A, o ∉ namesNode n) → (∀ o ∈ A, m o ∉ namesNode n) → RepNode B m n b r b' r' → (∀ o ∈ A, s.env (m o) = E o) →
    (RunsNode sem n E → ∃ k t, iter sem truth B k (b, r, s) = some (b', r', t) ∧
      (∀ o ∈ n.outs, t.env (m o) = upd E n.outs (nodeVals sem n E) o) ∧ ∀ v, v ∉ namesNode n → t.env v = s.env v) ∧
    ∀ (x M : Nat) (s' : St V), (B x).succs = [] → iter sem truth B M (b, r, s) = some (x, [], s') → RunsNode sem n E

def SimNodes (sem : Sem V) (truth : V → Bool) (B : Nat → Block) (m : Out → Var) (ns : Nodes) : Prop :=
  ∀ (A : List Out) (E : Env V) (b : Nat) (r : List Tac) (b' : Nat) (r' : List Tac) (s : St V),
    Nodes.supported ns = true → wfNodes A ns = true → (namesNodes ns).Nodup →
    (∀ o ∈ A, o ∉ namesNodes ns) → (∀ o ∈ A, m o ∉ namesNodes ns) → RepNodes B m ns b r b' r' →
    (∀ o ∈ A, s.env (m o) = E o) →
    (RunsNodes sem ns E → ∃ k t, iter sem truth B k (b, r, s) = some (b', r', t) ∧
      (∀ o ∈ A ++ ns.outs, t.env (m o) = evalNodes sem ns E o) ∧ ∀ v, v ∉ namesNodes ns → t.env v = s.env v) ∧
    ∀ (x M : Nat) (s' : St V), (B x).succs = [] → iter sem truth B M (b, r, s) = some (x, [], s') → RunsNodes sem ns E

def SimRegions (sem : Sem V) (truth : V → Bool) (B : Nat → Block) (m : Out → Var) (subs : Regions) : Prop :=
  ∀ (A : List Out) (E : Env V) (ins es ends : List Nat) (x nr : Nat) (w : W V) (s : St V) (k y : Nat),
    Regions.supported subs = true → wfRegions (ins.length + 1) nr subs = true → (namesRegions subs).Nodup →
    (∀ o ∈ A, m o ∉ namesRegions subs) → (∀ i ∈ ins, i ∈ A) →
    RepRegions B m ins x subs es ends → (∀ o ∈ A, s.env (m o) = E o) → es[k]? = some y →
    (RunsRegion sem subs k (w :: ins.map E) → ∃ j t l rs, ends[k]? = some l ∧ B l = ⟨[], [], [x]⟩ ∧
      (Regions.results subs)[k]? = some rs ∧ iter sem truth B j (y, [], s) = some (l, [], t) ∧
      (rs.map fun o => t.env (m o)) = regionVals sem subs k (w :: ins.map E) ∧
      ∀ v, v ∉ namesRegions subs → t.env v = s.env v) ∧
    ∀ (z M : Nat) (s' : St V), (B z).succs = [] → iter sem truth B M (y, [], s) = some (z, [], s') →
      RunsRegion sem subs k (w :: ins.map E)

theorem simNodes_cons {n : Node} {ns : Nodes} (h1 : SimNode sem truth B m n) (h2 : SimNodes sem truth B m ns) :
    SimNodes sem truth B m (.cons n ns) := by
  intro A E b r b' r' s hs hw hnd hd hvd hrep hrel
  rw [RepNodes] at hrep
  obtain ⟨b1, r1, hr1, hr2⟩ := hrep
  simp only [wfNodes, Bool.and_eq_true] at hw
  simp only [Nodes.supported, Bool.and_eq_true] at hs
  simp only [namesNodes, List.mem_append, not_or] at hd hvd
  rw [namesNodes, List.nodup_append] at hnd
  obtain ⟨hn1, hn2, hn3⟩ := hnd
  have hn3 : ∀ v ∈ namesNode n, v ∉ namesNodes ns := fun v hv hv' => hn3 v hv v hv' rfl
  obtain ⟨f1, g1⟩ := h1 A E b r b1 r1 s hs.1 hw.1 hn1 (fun o ho => (hd o ho).1) (fun o ho => (hvd o ho).1) hr1 hrel
  have hvar : ∀ o ∈ n.outs ++ A, m o ∉ namesNodes ns := by
    intro o ho
    rcases List.mem_append.1 ho with ho | ho
    · rcases repNode_var n hr1 hw.1 hs.1 o ho with ⟨i, hi, he⟩ | h
      · rw [he]; exact (hvd i hi).2
      · exact hn3 _ h
    · exact (hvd o ho).2
  have key : ∀ t : St V, (∀ o ∈ n.outs, t.env (m o) = upd E n.outs (nodeVals sem n E) o) →
      (∀ v, v ∉ namesNode n → t.env v = s.env v) →
      ∀ o ∈ n.outs ++ A, t.env (m o) = upd E n.outs (nodeVals sem n E) o := by
    intro t ht1 ht2 o ho
    rcases List.mem_append.1 ho with ho | ho
    · exact ht1 o ho
    · rw [ht2 _ (hvd o ho).1, hrel o ho, upd_notin]
      exact fun h => (hd o ho).1 (outs_names n o h)
  have sim2 := fun t ht => h2 (n.outs ++ A) (upd E n.outs (nodeVals sem n E)) b1 r1 b' r' t hs.2 hw.2 hn2
    (fun o ho => by
      rcases List.mem_append.1 ho with ho | ho
      · exact hn3 o (outs_names n o ho)
      · exact (hd o ho).2) hvar hr2 ht
  constructor
  · intro hrun
    rw [RunsNodes] at hrun
    obtain ⟨k1, t1, i1, ht1, ht2⟩ := f1 hrun.1
    obtain ⟨k2, t2, i2, ht3, ht4⟩ := (sim2 t1 (key t1 ht1 ht2)).1 hrun.2
    refine ⟨_, t2, iter_trans i1 i2, ?_, ?_⟩
    · intro o ho
      rw [evalNodes]
      apply ht3
      simp only [Nodes.outs, List.mem_append] at ho ⊢
      rcases ho with h | h | h
      · exact .inl (.inr h)
      · exact .inl (.inl h)
      · exact .inr h
    · intro v hv
      simp only [namesNodes, List.mem_append, not_or] at hv
      rw [ht4 v hv.2, ht2 v hv.1]
  · intro x M s' hx he
    rw [RunsNodes]
    have hr := g1 x M s' hx he
    refine ⟨hr, ?_⟩
    obtain ⟨k1, t1, i1, ht1, ht2⟩ := f1 hr
    exact (sim2 t1 (key t1 ht1 ht2)).2 x _ s' hx (iter_ends hx i1 he).2

theorem simRegions_cons {args results : List Out} {sub : Nodes} {rest : Regions} (h1 : SimNodes sem truth B m sub)
    (h2 : SimRegions sem truth B m rest) : SimRegions sem truth B m (.cons args results sub rest) := by
  intro A E ins es ends x nr w s k y hs hw hnd hvd hin hrep hrel hk
  rw [RepRegions] at hrep
  obtain ⟨b, l, b1, bn, es', ends', rfl, rfl, hb, hb1, hr1, hbn, hl, hargs, hr2⟩ := hrep
  simp only [wfRegions, Bool.and_eq_true, mem_subset, beq_iff_eq] at hw
  obtain ⟨⟨⟨⟨hl1, hl2⟩, hwf⟩, hsub⟩, hrest⟩ := hw
  simp only [Regions.supported, Bool.and_eq_true, Bool.not_eq_true', List.contains_eq_mem, decide_eq_false_iff_not] at hs
  obtain ⟨⟨⟨hu1, hu2⟩, hs1⟩, hs2⟩ := hs
  simp only [namesRegions, List.mem_append, not_or] at hvd
  rw [namesRegions, List.nodup_append, List.nodup_append] at hnd
  obtain ⟨⟨hna, hnn, hnan⟩, hnr, _⟩ := hnd
  cases k with
  | succ k =>
    obtain ⟨f, g⟩ := h2 A E ins es' ends' x nr w s k y hs2 hrest hnr (fun o ho => (hvd o ho).2) hin hr2 hrel
      (by simpa using hk)
    constructor
    · intro hrun
      rw [RunsRegion] at hrun
      obtain ⟨j, t, l', rs, q1, q2, q3, q4, q5, q6⟩ := f hrun
      refine ⟨j, t, l', rs, by simpa using q1, q2, by simpa [Regions.results] using q3, q4, ?_, ?_⟩
      · rw [regionVals]; exact q5
      · intro v hv
        simp only [namesRegions, List.mem_append, not_or] at hv
        exact q6 v hv.2
    · intro z M s' hz he
      rw [RunsRegion]
      exact g z M s' hz he
  | zero =>
    simp only [List.getElem?_cons_zero, Option.some.injEq] at hk
    subst hk
    cases args with
    | nil => simp at hl1
    | cons a0 as =>
      simp only [List.headD_cons, List.tail_cons, List.length_cons] at *
      have hlen : as.length = ins.length := by simpa using hl1
      have hna' := List.nodup_cons.1 hna
      have hrel' : ∀ a ∈ as, s.env (m a) = upd emptyEnv (a0 :: as) (w :: ins.map E) a := by
        intro a ha
        obtain ⟨j, hj⟩ := List.mem_iff_getElem?.1 ha
        have hjl := (List.getElem?_eq_some_iff.1 hj).1
        have hji : j < ins.length := by omega
        have e1 : m a = m ins[j] := by
          have := congrArg (fun q : List Var => q[j]?) hargs
          simpa [List.getElem?_map, hj, List.getElem?_eq_getElem hji] using this
        rw [e1, hrel _ (hin _ (List.getElem_mem hji)),
          Cne.upd_get (k := j + 1) hna (by simpa using hj)]
        simp [List.getD_eq_getElem?_getD, hji]
      have hm : ∀ a ∈ as, ∃ i ∈ ins, m a = m i := fun a ha => by
        have : m a ∈ ins.map m := by rw [← hargs]; exact List.mem_map_of_mem ha
        obtain ⟨i, hi, he⟩ := List.mem_map.1 this
        exact ⟨i, hi, he.symm⟩
      obtain ⟨f, g⟩ := h1 as (upd emptyEnv (a0 :: as) (w :: ins.map E)) b1 (B b1).code bn [] s hs1
        (Dne.wfNodes_mono sub _ _ (fun y hy hya => by
          rcases List.mem_cons.1 hya with h | h
          · exact absurd (h ▸ hy) hu1
          · exact h) hwf) hnn
        (fun o ho h => hnan o (by simp [ho]) o h rfl)
        (fun a ha => by obtain ⟨i, hi, he⟩ := hm a ha; rw [he]; exact (hvd i (hin i hi)).1.2) hr1 hrel'
      have j1 : iter sem truth B 1 (b, [], s) = some (b1, (B b1).code, s) := by
        rw [iter_jump1 (y := b1) (by simp [hb]), hb1, enter_nil]
      constructor
      · intro hrun
        rw [RunsRegion] at hrun
        obtain ⟨k, t, i1, ht1, ht2⟩ := f hrun
        refine ⟨_, t, l, results, rfl, hl, by simp [Regions.results], iter_trans j1 (iter_trans i1
          (k := 1) (c'' := (l, [], t)) (by rw [iter_jump1 hbn, hl, enter_nil])), ?_, ?_⟩
        · rw [regionVals]
          refine List.map_congr_left fun o ho => ?_
          apply ht1
          rcases List.mem_append.1 (hsub o ho) with h | h
          · rcases List.mem_cons.1 h with h | h
            · exact absurd (h ▸ ho) hu2
            · simp [h]
          · simp [h]
        · intro v hv
          simp only [namesRegions, List.mem_append, not_or] at hv
          exact ht2 v hv.1.2
      · intro z M s' hz he
        rw [RunsRegion]
        exact g z _ s' hz (iter_ends hz j1 he).2

theorem simNode_simple {op : Op} {ins outs : List Out} : SimNode sem truth B m (.simple op ins outs) := by
  intro A E b r b' r' s hs hw hnd hd hvd hrep hrel
  rw [RepNode] at hrep
  obtain ⟨rfl, rfl, ho⟩ := hrep
  simp only [namesNode] at hnd
  simp only [wfNode, Bool.and_eq_true, mem_subset] at hw
  constructor
  · intro _
    refine ⟨1, _, rfl, ?_, ?_⟩
    · intro o hm
      simp only [Node.outs] at hm ⊢
      have hv : nodeVals sem (.simple op ins outs) E = opVals sem op ((ins.map m).map s.env) := by
        have : (ins.map m).map s.env = ins.map E := by
          rw [List.map_map]; exact List.map_congr_left fun i hi => hrel i (hw.1 i hi)
        rw [this, nodeVals, opVals]
      rw [ho o hm, hv]
      simp only [Front.step]
      rw [setAll_eq_upd hnd]
      obtain ⟨k, hk⟩ := List.mem_iff_getElem?.1 hm
      rw [Cne.upd_get hnd hk, Cne.upd_get hnd hk]
    · intro v hv
      exact setAll_notin hv
  · intro _ _ _ _ _
    rw [RunsNode]; trivial

theorem simNode_gamma {pred : Out} {ins outs : List Out} {subs : Regions} (h : SimRegions sem truth B m subs) :
    SimNode sem truth B m (.gamma pred ins outs subs) := by
  intro A E b r x r' s hs hw hnd hd hvd hrep hrel
  rw [RepNode] at hrep
  obtain ⟨rfl, hx, e, es, ends, hbe, he, hen, hrr, hg⟩ := hrep
  simp only [wfNode, Bool.and_eq_true, mem_subset] at hw
  simp only [Node.supported, Bool.and_eq_true, decide_eq_true_eq] at hs
  simp only [namesNode, List.mem_append, not_or] at hd hvd
  rw [namesNode, List.nodup_append] at hnd
  obtain ⟨hn1, hn2, hn3⟩ := hnd
  obtain ⟨hel, hnl⟩ := repRegions_length hrr
  have hsucc : (B e).succs = es := by rw [he]
  have hp : s.env (m pred) = E pred := hrel _ (hw.1 pred (by simp))
  have j1 : iter sem truth B 2 (b, [], s) = some (e, [], ⟨s.env, alternative sem (E pred)⟩) := by
    refine iter_trans (n := 1) (k := 1) (iter_jump1 hbe) ?_
    rw [he, enter_nil, ← hp]
    rfl
  have hgo : ∀ {k : Option Nat}, goes (B e).succs k = k.bind fun j => es[j]? := by
    intro k; rw [hsucc]; exact goes_two (by omega)
  have sim := fun (p : V) k y hk => h A E ins es ends x outs.length (some (sem.content p, none))
    ⟨s.env, alternative sem (E pred)⟩ k y hs.2 hw.2 hn2 (fun o ho => (hvd o ho).2) (fun i hi => hw.1 i (by simp [hi]))
    hrr hrel hk
  have j2 : ∀ (k y : Nat), es[k]? = some y → alternative sem (E pred) = some k →
      iter sem truth B 3 (b, [], s) = some (y, [], ⟨s.env, alternative sem (E pred)⟩) := by
    intro k y hk hc
    refine iter_trans (n := 2) (k := 1) j1 ?_
    have hb := repRegions_get hrr k y hk
    rw [iter_jump (y := y) (by rw [hgo]; simp [hc, hk]), hb.1, hb.2, enter_nil]
  constructor
  · intro hrun
    rw [RunsNode] at hrun
    obtain ⟨p, hep, hrun⟩ := hrun
    have hlt := runsRegion_lt hrun
    have hk : es[sem.ctl p.1]? = some (es[sem.ctl p.1]'(by omega)) := List.getElem?_eq_getElem _
    obtain ⟨j, t, l, rs, q1, q2, q3, q4, q5, q6⟩ := (sim p.1 _ _ hk).1 hrun
    have j3 := iter_trans (j2 _ _ hk (by rw [hep]; rfl)) (iter_trans q4 (iter_jump1 (y := x) (by rw [q2])))
    rw [hx] at j3
    refine ⟨_, _, j3, ?_, ?_⟩
    · intro o ho
      simp only [Node.outs] at ho ⊢
      obtain ⟨i, hi⟩ := List.mem_iff_getElem?.1 ho
      have hil := (List.getElem?_eq_some_iff.1 hi).1
      rw [Cne.upd_get hn1 hi, nodeVals, hep]
      simp only
      rw [← q5]
      have hrl : rs.length = outs.length := by
        have := congrArg List.length q5
        rw [List.length_map, regionVals_length sem subs _ _ hw.2 hlt] at this
        exact this
      have hrs : rs.getD i 0 = rs[i]'(by omega) := by
        have : i < rs.length := by omega
        simp [List.getD_eq_getElem?_getD, this]
      have hval : (rs.map fun o => t.env (m o)).getD i none = t.env (m (rs.getD i 0)) := by
        have : i < rs.length := by omega
        simp [List.getD_eq_getElem?_getD, this]
      rw [hval]
      rcases gammaRep_get hg i o hi with hc | ⟨hc1, hc2⟩
      · rw [hc rs (List.mem_of_getElem? q3)]
        apply enter_notin
        intro hmem
        have hmo := (gammaRep_res hg).subset hmem
        -- the variable of an invariant output is not an output of the node
        have hv : m o ∉ outs := by
          cases subs with
          | nil => simp [Regions.length] at hs
          | cons args results sub rest =>
            simp only [wfRegions, Bool.and_eq_true, mem_subset, beq_iff_eq] at hw
            obtain ⟨hpi, ⟨⟨⟨hl1, hl2⟩, hwf⟩, hsub⟩, hrest⟩ := hw
            rw [RepRegions] at hrr
            obtain ⟨b0, l, b1, bn, es', ends', _, _, _, _, hrep, _, _, hargs, _⟩ := hrr
            simp only [Regions.supported, Bool.and_eq_true, Bool.not_eq_true', List.contains_eq_mem,
              decide_eq_false_iff_not] at hs
            obtain ⟨_, ⟨⟨h1, h2⟩, h3⟩, h4⟩ := hs
            have hm := hc results (by simp [Regions.results])
            have hil' : i < results.length := by omega
            have hmem : results.getD i 0 ∈ results := by simp [List.getD_eq_getElem?_getD, hil']
            rw [← hm]
            cases args with
            | nil => simp at hl1
            | cons a0 as =>
              have hA : ∀ a ∈ as, m a ∉ outs := fun a ha => by
                have : m a ∈ ins.map m := by rw [← hargs]; exact List.mem_map_of_mem ha
                obtain ⟨i', hi', he'⟩ := List.mem_map.1 this
                rw [← he']
                exact (hvd i' (hpi i' (by simp [hi']))).1
              rcases List.mem_append.1 (hsub _ hmem) with hin | hin
              · rcases List.mem_cons.1 hin with h | h
                · exact absurd (h ▸ hmem) h2
                · exact hA _ h
              · rcases repNodes_var sub (A := as) hrep (Dne.wfNodes_mono sub _ _ (fun y hy hya => by
                  rcases List.mem_cons.1 hya with h | h
                  · exact absurd (h ▸ hy) h1
                  · exact h) hwf) h3 (results.getD i 0) hin with ⟨a, ha, he⟩ | h'
                · rw [he]; exact hA a ha
                · intro h''
                  refine hn3 _ h'' (m (results.getD i 0)) ?_ rfl
                  simp only [namesRegions, List.mem_append]
                  exact .inl (.inr h')
        exact hv hmo
      · rw [hc1]
        refine enter_mem ((gammaRep_res hg).nodup hn1) hc2 ?_
        refine lookup_zip hen q1 ?_
        rw [List.getElem?_map, q3]; rfl
    · intro v hv
      simp only [namesNode, List.mem_append, not_or] at hv
      rw [enter_notin fun h => hv.1 ((gammaRep_res hg).subset h), q6 v hv.2]
  · intro z M s' hz hE
    rw [RunsNode]
    have hE1 := (iter_ends hz j1 hE).2
    obtain ⟨y, hy⟩ := iter_goes hz (by rw [hsucc]; intro h; simp [h] at hel; omega) hE1
    rw [hgo] at hy
    cases hq : E pred with
    | none => simp [hq, alternative] at hy
    | some p =>
      refine ⟨p, rfl, ?_⟩
      have hy' : es[sem.ctl p.1]? = some y := by simpa [hq, alternative] using hy
      exact (sim p.1 _ y hy').2 z _ s' hz (iter_ends hz (j2 _ y hy' (by rw [hq]; rfl)) hE).2

theorem simNode_theta {ins outs args posts : List Out} {pred : Out} {sub : Nodes} (h : SimNodes sem truth B m sub) :
    SimNode sem truth B m (.theta ins outs args pred posts sub) := by
  intro A E b r x r' s hs hw hnd hd hvd hrep hrel
  rw [RepNode] at hrep
  obtain ⟨rfl, hxp, hx, e, l, b1, bn, hbe, hec, hes, hb1, hr, hbn, hl, hbl, hph, hlv⟩ := hrep
  simp only [wfNode, Bool.and_eq_true, mem_subset, beq_iff_eq] at hw
  obtain ⟨⟨⟨⟨⟨hi, hl1⟩, hl2⟩, hl3⟩, hwf⟩, hsub⟩ := hw
  simp only [Node.supported] at hs
  simp only [namesNode, List.mem_append, not_or] at hd hvd
  rw [namesNode, List.nodup_append, List.nodup_append] at hnd
  obtain ⟨⟨hno, hna, _⟩, hnn, hn3⟩ := hnd
  generalize hneed : needsPhi sub (pred :: posts) = need at *
  generalize hf : (fun ws : List (W V) => (pred :: posts).map (evalNodes sem sub (upd emptyEnv args ws))) = f at *
  have hst : ∀ j, loopState f (ins.map E) (j + 1) =
      posts.map (evalNodes sem sub (upd emptyEnv args (loopState f (ins.map E) j))) := by
    intro j; rw [loopState, ← hf]; rfl
  have hpr : ∀ j, loopPred sem f (ins.map E) j =
      alternative sem (evalNodes sem sub (upd emptyEnv args (loopState f (ins.map E) j)) pred) := by
    intro j; rw [loopPred, ← hf]; rfl
  generalize hG : (fun j => upd emptyEnv args (loopState f (ins.map E) j)) = G at *
  have hG' : ∀ j, upd emptyEnv args (loopState f (ins.map E) j) = G j := fun j => by rw [← hG]
  simp only [hG'] at hst hpr
  -- the values of the arguments
  have hG0 : ∀ i a p o, (i, a, p, o) ∈ loopVars ins args posts outs → G 0 a = E i := by
    intro i a p o hv
    obtain ⟨k, k1, k2, k3, k4⟩ := mem_loopVars.1 hv
    rw [← hG' 0, Cne.upd_get hna k2]
    simp [loopState, List.getD_eq_getElem?_getD, k1]
  have hGs : ∀ j i a p o, (i, a, p, o) ∈ loopVars ins args posts outs → G (j + 1) a = evalNodes sem sub (G j) p := by
    intro j i a p o hv
    obtain ⟨k, k1, k2, k3, k4⟩ := mem_loopVars.1 hv
    rw [← hG' (j + 1), Cne.upd_get hna k2, hst]
    simp [List.getD_eq_getElem?_getD, k3]
  have hann : ∀ a ∈ args, a ∉ sub.outs := fun a ha h' => hn3 a (by simp [ha]) a (outs_namesNodes sub a h') rfl
  have hGi : ∀ j i a o, (i, a, a, o) ∈ loopVars ins args posts outs → G j a = E i := by
    intro j i a o hv
    induction j with
    | zero => exact hG0 i a a o hv
    | succ j ih =>
      obtain ⟨k, k1, k2, k3, k4⟩ := mem_loopVars.1 hv
      rw [hGs j i a a o hv, evalNodes_notin sem sub _ _ (hann a (List.mem_of_getElem? k2)), ih]
  have hargs : ∀ a ∈ args, ∃ i p o, (i, a, p, o) ∈ loopVars ins args posts outs := by
    intro a ha
    obtain ⟨k, hk⟩ := List.mem_iff_getElem?.1 ha
    have hkl := (List.getElem?_eq_some_iff.1 hk).1
    exact ⟨_, _, _, mem_loopVars.2 ⟨k, List.getElem?_eq_getElem (by omega), hk, List.getElem?_eq_getElem (by omega),
        List.getElem?_eq_getElem (by omega)⟩⟩
  -- the phi operations
  have hpn : ((B e).phis.map Phi.res).Nodup := by
    rw [hph]; exact ((thetaPhis_sublist _).trans (loopVars_args ins args posts outs)).nodup hna
  have hpa : ∀ v, v ∉ args → v ∉ (B e).phis.map Phi.res := by
    intro v hv h'
    rw [hph] at h'
    exact hv (((thetaPhis_sublist _).trans (loopVars_args ins args posts outs)).subset h')
  -- the state before iteration `j`
  let R : Nat → St V → Prop := fun j u =>
    (∀ i a p o, (i, a, p, o) ∈ loopVars ins args posts outs → need a p = true → u.env a = G j a) ∧
    ∀ v, v ∉ outs → v ∉ args → v ∉ namesNodes sub → u.env v = s.env v
  have hused : ∀ j u, R j u → ∀ a ∈ args.filter (fun a => sub.ins.contains a || (pred :: posts).contains a),
      u.env (m a) = G j a := by
    intro j u hR a ha
    obtain ⟨ha, hu⟩ := List.mem_filter.1 ha
    obtain ⟨i, p, o, hv⟩ := hargs a ha
    have hm := (hlv _ hv).2
    simp only at hm
    obtain ⟨k, k1, k2, k3, k4⟩ := mem_loopVars.1 hv
    have hiA := hi i (List.mem_of_getElem? k1)
    cases hb : need a p with
    | true => rw [hm, hb, if_pos rfl]; exact hR.1 i a p o hv hb
    | false =>
      have : p = a := by
        rw [← hneed, needsPhi, hu] at hb
        simpa using hb
      subst this
      rw [hm, hb]
      simp only [Bool.false_eq_true, if_false]
      rw [hGi j i p o hv, hR.2 _ (hvd i hiA).1.1 (hvd i hiA).1.2 (hvd i hiA).2, hrel i hiA]
  have body := fun j u (hR : R j u) =>
    h (args.filter (fun a => sub.ins.contains a || (pred :: posts).contains a)) (G j) b1 (B b1).code bn [] u hs
      (Dne.wfNodes_mono sub _ _ (fun y hy hya => by
        rw [List.mem_filter]; exact ⟨hya, by simp [hy]⟩) hwf) hnn
      (fun o ho h' => hn3 o (by simp [(List.mem_filter.1 ho).1]) o h' rfl)
      (fun a ha => by
        obtain ⟨ha, hu⟩ := List.mem_filter.1 ha
        obtain ⟨i, p, o, hv⟩ := hargs a ha
        have hm := (hlv _ hv).2
        simp only at hm
        obtain ⟨k, k1, k2, k3, k4⟩ := mem_loopVars.1 hv
        rw [hm]
        split
        · exact fun h' => hn3 a (by simp [ha]) a h' rfl
        · exact (hvd i (hi i (List.mem_of_getElem? k1))).2) hr (hused j u hR)
  have hres : ∀ o ∈ pred :: posts,
      o ∈ args.filter (fun a => sub.ins.contains a || (pred :: posts).contains a) ++ sub.outs := by
    intro o ho
    rcases List.mem_append.1 (hsub o ho) with h' | h'
    · refine List.mem_append.2 (.inl (List.mem_filter.2 ⟨h', ?_⟩))
      have : (pred :: posts).contains o = true := by simpa using ho
      rw [this, Bool.or_true]
    · exact List.mem_append.2 (.inr h')
  -- the first iteration
  have start : R 0 (enter (B e).phis b s) := by
    constructor
    · intro i a p o hv hb
      obtain ⟨k, k1, k2, k3, k4⟩ := mem_loopVars.1 hv
      have := enter_mem (s := s) hpn (q := ⟨a, [(b, m i), (l, m p)]⟩) (p := b) (v := m i)
        (by rw [hph]; exact mem_thetaPhis.2 ⟨_, hv, hb, rfl⟩) (by simp [List.lookup])
      simp only at this
      rw [this, hG0 i a p o hv]
      exact hrel i (hi i (List.mem_of_getElem? k1))
    · intro v v1 v2 v3
      exact enter_notin (hpa v v2)
  have j0 : iter sem truth B 1 (b, [], s) = some (e, [], enter (B e).phis b s) := by
    rw [iter_jump1 hbe, hec]
  have j1 : ∀ u : St V, iter sem truth B 1 (e, [], u) = some (b1, (B b1).code, u) := fun u => by
    rw [iter_jump1 hes, hb1, enter_nil]
  -- the end of an iteration
  have j2 : ∀ j u k (t : St V), iter sem truth B k (b1, (B b1).code, u) = some (bn, [], t) →
      t.env (m pred) = evalNodes sem sub (G j) pred →
      iter sem truth B (1 + (k + 2)) (e, [], u) = some (l, [], ⟨t.env, loopPred sem f (ins.map E) j⟩) := by
    intro j u k t hk ht
    refine iter_trans (j1 u) (iter_trans hk (iter_trans (n := 1) (k := 1) (iter_jump1 hbn) ?_))
    rw [hl, enter_nil, hpr, ← ht]
    rfl
  have again : ∀ j u k (t : St V), R j u → (∀ v, v ∉ namesNodes sub → t.env v = u.env v) →
      (∀ o ∈ pred :: posts, t.env (m o) = evalNodes sem sub (G j) o) →
      R (j + 1) (enter (B e).phis l ⟨t.env, k⟩) := by
    intro j u k t hR ht1 ht2
    constructor
    · intro i a p o hv hb
      obtain ⟨k', k1, k2, k3, k4⟩ := mem_loopVars.1 hv
      have hne : (l == b) = false := by simpa using Ne.symm hbl
      have := enter_mem (s := ⟨t.env, k⟩) hpn (q := ⟨a, [(b, m i), (l, m p)]⟩) (p := l) (v := m p)
        (by rw [hph]; exact mem_thetaPhis.2 ⟨_, hv, hb, rfl⟩) (by simp [List.lookup, hne])
      simp only at this
      rw [this, hGs j i a p o hv]
      exact ht2 p (by simp [List.mem_of_getElem? k3])
    · intro v v1 v2 v3
      rw [enter_notin (hpa v v2)]
      exact (ht1 v v3).trans (hR.2 v v1 v2 v3)
  have hls : (B l).succs = [x, e] := by rw [hl]
  have back : ∀ (t : St V), t.ctl = some 1 →
      iter sem truth B 1 (l, [], t) = some (e, [], enter (B e).phis l t) := by
    intro t ht
    rw [iter_jump (y := e) (by rw [hls, ht]; rfl), hec]
  have leave : ∀ (t : St V), t.ctl = some 0 → iter sem truth B 1 (l, [], t) = some (x, r', t) := by
    intro t ht
    rw [iter_jump (y := x) (by rw [hls, ht]; rfl), hxp, hx, enter_nil]
  constructor
  · intro hrun
    rw [RunsNode, hf] at hrun
    simp only [hG'] at hrun
    obtain ⟨n, hn1, hn2, hn3'⟩ := hrun
    have reach : ∀ j, j ≤ n → ∃ k u, iter sem truth B k (b, [], s) = some (e, [], u) ∧ R j u := by
      intro j
      induction j with
      | zero => exact fun _ => ⟨1, _, j0, start⟩
      | succ j ih =>
        intro hj
        obtain ⟨k, u, hk, hR⟩ := ih (by omega)
        obtain ⟨k2, t, i1, ht1, ht2⟩ := (body j u hR).1 (hn3' j (by omega))
        have ht1' := fun o ho => ht1 o (hres o ho)
        refine ⟨_, _, iter_trans hk (iter_trans (j2 j u k2 t i1 (ht1' pred (by simp))) (back _ (hn2 j (by omega)))),
          again j u _ t hR ht2 ht1'⟩
    obtain ⟨k, u, hk, hR⟩ := reach n (Nat.le_refl n)
    obtain ⟨k2, t, i1, ht1, ht2⟩ := (body n u hR).1 (hn3' n (Nat.le_refl n))
    have ht1' := fun o ho => ht1 o (hres o ho)
    refine ⟨_, _, iter_trans hk (iter_trans (j2 n u k2 t i1 (ht1' pred (by simp))) (leave _ hn1)), ?_, ?_⟩
    · intro o ho
      simp only [Node.outs] at ho ⊢
      obtain ⟨q, hq⟩ := List.mem_iff_getElem?.1 ho
      have hql := (List.getElem?_eq_some_iff.1 hq).1
      have hv : (ins[q]'(by omega), args[q]'(by omega), posts[q]'(by omega), o) ∈ loopVars ins args posts outs :=
        mem_loopVars.2 ⟨q, List.getElem?_eq_getElem (by omega), List.getElem?_eq_getElem (by omega),
        List.getElem?_eq_getElem (by omega), hq⟩
      have hm := (hlv _ hv).1
      simp only at hm
      have hex : loopExits sem f (ins.map E) n := ⟨hn1, fun j hj => ⟨0, hn2 j hj⟩⟩
      rw [Cne.upd_get hno hq, nodeVals, hf, loopVals_at hex, hst, hm]
      have hpl : q < posts.length := by omega
      simp only [List.getD_eq_getElem?_getD, List.getElem?_map, List.getElem?_eq_getElem hpl, Option.map_some,
        Option.getD_some]
      exact ht1' _ (by simp)
    · intro v hv
      simp only [namesNode, List.mem_append, not_or] at hv
      exact (ht2 v hv.2).trans (hR.2 v hv.1.1 hv.1.2 hv.2)
  · intro z M s' hz hE
    rw [RunsNode, hf]
    simp only [hG']
    have main : ∀ (M j : Nat) (u : St V), R j u → (∀ j', j' < j → loopPred sem f (ins.map E) j' = some 1) →
        (∀ j', j' < j → RunsNodes sem sub (G j')) → iter sem truth B M (e, [], u) = some (z, [], s') →
        ∃ n, loopPred sem f (ins.map E) n = some 0 ∧ (∀ j, j < n → loopPred sem f (ins.map E) j = some 1) ∧
          ∀ j, j ≤ n → RunsNodes sem sub (G j) := by
      intro M
      induction M using Nat.strongRecOn with
      | ind M ih =>
        intro j u hR hp hrn hit
        have hrj := (body j u hR).2 z _ s' hz (iter_ends hz (j1 u) hit).2
        obtain ⟨k2, t, i1, ht1, ht2⟩ := (body j u hR).1 hrj
        have ht1' := fun o ho => ht1 o (hres o ho)
        have i2 := j2 j u k2 t i1 (ht1' pred (by simp))
        obtain ⟨hle, hit2⟩ := iter_ends hz i2 hit
        obtain ⟨y, hy⟩ := iter_goes hz (by rw [hls]; simp) hit2
        rw [hls] at hy
        simp only at hy
        cases hc : loopPred sem f (ins.map E) j with
        | none => rw [hc] at hy; simp [goes] at hy
        | some c =>
          match c, hc with
          | 0, hc =>
            exact ⟨j, hc, hp, fun j' hj' => by
              rcases Nat.lt_or_ge j' j with h' | h'
              · exact hrn j' h'
              · have : j' = j := by omega
                exact this ▸ hrj⟩
          | 1, hc =>
            rw [hc] at hit2 i2
            obtain ⟨hle3, hit3⟩ := iter_ends hz (back ⟨t.env, some 1⟩ rfl) hit2
            refine ih _ (by omega) (j + 1) _ (again j u (some 1) t hR ht2 ht1') ?_ ?_ hit3
            · intro j' hj'
              rcases Nat.lt_or_ge j' j with h' | h'
              · exact hp j' h'
              · have : j' = j := by omega
                exact this ▸ hc
            · intro j' hj'
              rcases Nat.lt_or_ge j' j with h' | h'
              · exact hrn j' h'
              · have : j' = j := by omega
                exact this ▸ hrj
          | c + 2, hc => rw [hc] at hy; simp [goes] at hy
    exact main _ 0 _ start (fun j' hj' => absurd hj' (by omega)) (fun j' hj' => absurd hj' (by omega))
      (iter_ends hz j0 hE).2

mutual

theorem simNode : ∀ n : Node, SimNode sem truth B m n
  | .simple .. => simNode_simple
  | .gamma _ _ _ subs => simNode_gamma (simRegions subs)
  | .theta _ _ _ _ _ sub => simNode_theta (simNodes sub)
  | .lambda .. => fun _ _ _ _ _ _ _ hs => by simp [Node.supported] at hs
  | .phi .. => fun _ _ _ _ _ _ _ hs => by simp [Node.supported] at hs
  | .delta .. => fun _ _ _ _ _ _ _ hs => by simp [Node.supported] at hs

theorem simNodes : ∀ ns : Nodes, SimNodes sem truth B m ns
  | .nil => by
    intro A E b r b' r' s hs hw hnd hd hvd hrep hrel
    rw [RepNodes] at hrep
    obtain ⟨rfl, rfl⟩ := hrep
    exact ⟨fun _ => ⟨0, s, rfl, fun o ho => by rw [evalNodes]; exact hrel o (by simpa [Nodes.outs] using ho),
      fun _ _ => rfl⟩, fun _ _ _ _ _ => by rw [RunsNodes]; trivial⟩
  | .cons n ns => simNodes_cons (simNode n) (simNodes ns)

theorem simRegions : ∀ subs : Regions, SimRegions sem truth B m subs
  | .nil => by
    intro A E ins es ends x nr w s k y hs hw hnd hvd hin hrep hrel hk
    rw [RepRegions] at hrep
    simp [hrep.1] at hk
  | .cons _ _ sub rest => simRegions_cons (simNodes sub) (simRegions rest)

end

end Jlm.Back
