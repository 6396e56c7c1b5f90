import Verif.Back.Grow

/-!
# The conversion succeeds and emits the translation of the region
-/

set_option linter.unusedSimpArgs false
set_option linter.unusedVariables false

namespace Jlm.Back

open Jlm.Opt Jlm.Front

/-! ### Variables -/

/-- Variables that have been inserted stay. -/
def Ext (f f' : Out → Option Var) : Prop := ∀ o v, f o = some v → f' o = some v

theorem Ext.refl (f : Out → Option Var) : Ext f f := fun _ _ h => h

theorem Ext.trans {f f1 f2 : Out → Option Var} (h : Ext f f1) (h' : Ext f1 f2) : Ext f f2 :=
  fun o v e => h' o v (h o v e)

theorem insert_ext {S S' : BS} {o : Out} {v : Var} (h : S.insert o v = some S') : Ext S.vm S'.vm ∧ S'.vm o = some v := by
  obtain ⟨_, h1, h2⟩ := insert_g h
  refine ⟨fun x w e => ?_, by rw [h2, if_pos rfl]⟩
  rw [h2]
  split
  · rename_i hx; rw [hx, h1] at e; cases e
  · exact e

theorem insertAll_ext : ∀ {l : List (Out × Var)} {S S' : BS}, S.insertAll l = some S' →
    Ext S.vm S'.vm ∧ ∀ c ∈ l, S'.vm c.1 = some c.2
  | [], S, S', h => by simp [BS.insertAll] at h; subst h; exact ⟨.refl _, by simp⟩
  | (o, v) :: l, S, S', h => by
    simp only [BS.insertAll, Option.bind_eq_some_iff] at h
    obtain ⟨S1, h1, h2⟩ := h
    obtain ⟨q1, q2⟩ := insertAll_ext h2
    obtain ⟨q3, q4⟩ := insert_ext h1
    refine ⟨q3.trans q1, fun c hc => ?_⟩
    rcases List.mem_cons.1 hc with rfl | hc
    · exact q1 _ _ q4
    · exact q2 c hc

theorem getAll_map {S : BS} {m : Out → Var} (hm : ∀ o v, S.vm o = some v → m o = v) :
    ∀ {os : List Out} {vs : List Var}, S.getAll os = some vs → vs = os.map m
  | [], vs, h => by simp [BS.getAll] at h; simp [h]
  | o :: os, vs, h => by
    simp only [BS.getAll, Option.bind_eq_some_iff, Option.map_eq_some_iff] at h
    obtain ⟨v, h0, vs', h', rfl⟩ := h
    simp [hm o v h0, getAll_map hm h']

theorem gammaOuts_rep {ends : List Nat} {x : Nat} {m : Out → Var} :
    ∀ {outs : List Out} {rss : List (List Out)} {S S' : BS}, gammaOuts ends x outs rss S = some S' →
    (∀ o v, S'.vm o = some v → m o = v) →
    Ext S.vm S'.vm ∧ ∃ ps, AddPhis S.g S'.g x ps ∧ GammaRep m ends outs rss ps
  | [], rss, S, S', h, hm => by
    simp only [gammaOuts, Option.some.injEq] at h
    subst h
    exact ⟨.refl _, [], .refl _ _, by rw [GammaRep]⟩
  | o :: outs, rss, S, S', h, hm => by
    simp only [gammaOuts, Option.bind_eq_some_iff] at h
    obtain ⟨vs, h1, h⟩ := h
    split at h
    · rename_i hall
      simp only [Option.bind_eq_some_iff] at h
      obtain ⟨S1, h2, h3⟩ := h
      obtain ⟨e1, ps, q1, q2⟩ := gammaOuts_rep h3 hm
      obtain ⟨e2, q3⟩ := insert_ext h2
      refine ⟨e2.trans e1, ps, by rw [← (insert_g h2).1]; exact q1, ?_⟩
      rw [GammaRep]
      refine .inl ⟨fun rs hr => ?_, q2⟩
      have hv := getAll_map (S := S) (m := m) (fun o v e => hm o v (e1 o v (e2 o v e))) h1
      rw [hm o _ (e1 _ _ q3)]
      have : m (rs.headD 0) ∈ vs := by
        rw [hv, List.map_map]; exact List.mem_map_of_mem (f := m ∘ fun rs : List Out => rs.headD 0) hr
      simpa using (List.all_eq_true.1 hall) _ this
    · simp only [Option.bind_eq_some_iff] at h
      obtain ⟨S1, h2, h3⟩ := h
      obtain ⟨e1, ps, q1, q2⟩ := gammaOuts_rep h3 hm
      obtain ⟨e2, q3⟩ := insert_ext h2
      refine ⟨e2.trans e1, ⟨o, ends.zip vs⟩ :: ps, ?_, ?_⟩
      · rw [(insert_g h2).1] at q1
        exact (AddPhis.add S.g x ⟨o, ends.zip vs⟩).trans q1
      · rw [GammaRep]
        refine .inr ⟨hm o _ (e1 _ _ q3), ps, ?_, q2⟩
        rw [getAll_map (S := S) (m := m) (fun o v e => hm o v (e1 o v (e2 o v e))) h1, List.map_map]; rfl

theorem thetaArgs_rep {need : Out → Out → Bool} {m : Out → Var} : ∀ {l : List LoopVar} {S S' : BS},
    thetaArgs need l S = some S' → (∀ o v, S'.vm o = some v → m o = v) →
    Ext S.vm S'.vm ∧ ∀ v ∈ l, m v.2.1 = if need v.2.1 v.2.2.1 then v.2.1 else m v.1
  | [], S, S', h, hm => by simp [thetaArgs] at h; subst h; exact ⟨.refl _, by simp⟩
  | (i, a, p, o) :: l, S, S', h, hm => by
    simp only [thetaArgs, Option.bind_eq_some_iff] at h
    obtain ⟨v, h0, S1, h1, h2⟩ := h
    obtain ⟨e1, q1⟩ := thetaArgs_rep h2 hm
    obtain ⟨e2, q2⟩ := insert_ext h1
    refine ⟨e2.trans e1, fun w hw => ?_⟩
    rcases List.mem_cons.1 hw with rfl | hw
    · simp only
      rw [hm a _ (e1 _ _ q2), hm i v (e1 _ _ (e2 _ _ h0))]
    · exact q1 w hw

theorem thetaOuts_rep {need : Out → Out → Bool} {pre e l : Nat} {m : Out → Var} : ∀ {lvs : List LoopVar} {S S' : BS},
    thetaOuts need pre e l lvs S = some S' → (∀ o v, S'.vm o = some v → m o = v) →
    Ext S.vm S'.vm ∧ AddPhis S.g S'.g e (thetaPhis m need pre l lvs) ∧ ∀ v ∈ lvs, m v.2.2.2 = m v.2.2.1
  | [], S, S', h, hm => by
    simp only [thetaOuts, Option.some.injEq] at h
    subst h
    exact ⟨.refl _, .refl _ _, by simp⟩
  | (i, a, p, o) :: lvs, S, S', h, hm => by
    simp only [thetaOuts, Option.bind_eq_some_iff] at h
    obtain ⟨rv, h1, S1, h2, h⟩ := h
    obtain ⟨e2, q3⟩ := insert_ext h2
    split at h
    · rename_i hn
      simp only [Option.bind_eq_some_iff] at h
      obtain ⟨ev, h4, h3⟩ := h
      obtain ⟨e1, q1, q2⟩ := thetaOuts_rep h3 hm
      have e1 : Ext S1.vm S'.vm := e1
      simp only [(insert_g h2).1] at q1
      refine ⟨e2.trans e1, ?_, ?_⟩
      · rw [thetaPhis, if_pos hn, hm i ev (e1 _ _ h4), hm p rv (e1 _ _ (e2 _ _ h1))]
        exact (AddPhis.add S.g e _).trans q1
      · intro w hw
        rcases List.mem_cons.1 hw with rfl | hw
        · simp only
          rw [hm p rv (e1 _ _ (e2 _ _ h1)), hm o rv (e1 _ _ q3)]
        · exact q2 w hw
    · rename_i hn
      obtain ⟨e1, q1, q2⟩ := thetaOuts_rep h hm
      refine ⟨e2.trans e1, ?_, ?_⟩
      · rw [thetaPhis, if_neg hn, ← (insert_g h2).1]; exact q1
      · intro w hw
        rcases List.mem_cons.1 hw with rfl | hw
        · simp only
          rw [hm p rv (e1 _ _ (e2 _ _ h1)), hm o rv (e1 _ _ q3)]
        · exact q2 w hw

def BS.toMap (S : BS) (o : Out) : Var := (S.vm o).getD 0

theorem BS.toMap_spec (S : BS) : ∀ o v, S.vm o = some v → S.toMap o = v := fun o v h => by simp [BS.toMap, h]

mutual

theorem convNode_ext : ∀ (n : Node) {S S' : BS}, convNode n S = some S' → Ext S.vm S'.vm
  | .simple op ins outs, S, S', h => by
    simp only [convNode, Option.bind_eq_some_iff] at h
    obtain ⟨vs, h1, h2⟩ := h
    exact (insertAll_ext h2).1
  | .gamma pred ins outs subs, S, S', h => by
    simp only [convNode, Option.bind_eq_some_iff, Option.map_eq_some_iff] at h
    obtain ⟨p, _, r, h1, S1, h2, rfl⟩ := h
    have a1 := convRegions_ext subs h1
    exact Ext.trans (f1 := r.1.vm) a1 (gammaOuts_rep h2 S1.toMap_spec).1
  | .theta ins outs args pred posts sub, S, S', h => by
    simp only [convNode, Option.bind_eq_some_iff, Option.map_eq_some_iff] at h
    obtain ⟨S1, h1, S2, h2, S3, h3, p, _, rfl⟩ := h
    have a1 : Ext S.vm S1.vm := (thetaArgs_rep h1 S1.toMap_spec).1
    have a2 : Ext S1.vm S2.vm := by have := convNodes_ext sub h2; exact this
    have a3 : Ext S2.vm S3.vm := (thetaOuts_rep h3 S3.toMap_spec).1
    exact (a1.trans a2).trans a3
  | .lambda .., S, S', h => by simp [convNode] at h
  | .phi .., S, S', h => by simp [convNode] at h
  | .delta .., S, S', h => by simp [convNode] at h

theorem convNodes_ext : ∀ (ns : Nodes) {S S' : BS}, convNodes ns S = some S' → Ext S.vm S'.vm
  | .nil, S, S', h => by simp only [convNodes, Option.some.injEq] at h; subst h; exact .refl _
  | .cons n ns, S, S', h => by
    simp only [convNodes, Option.bind_eq_some_iff] at h
    obtain ⟨S1, h1, h2⟩ := h
    exact (convNode_ext n h1).trans (convNodes_ext ns h2)

theorem convRegions_ext {e x : Nat} {ins : List Out} : ∀ (subs : Regions) {S : BS} {r : BS × List Nat},
    convRegions e x ins subs S = some r → Ext S.vm r.1.vm
  | .nil, S, r, h => by simp only [convRegions, Option.some.injEq] at h; subst h; exact .refl _
  | .cons args results sub rest, S, r, h => by
    simp only [convRegions, Option.bind_eq_some_iff, Option.map_eq_some_iff] at h
    obtain ⟨vs, _, S0, h0, S1, h1, r', h2, rfl⟩ := h
    have a1 : Ext S.vm S0.vm := (insertAll_ext h0).1
    have a2 : Ext S0.vm S1.vm := by have := convNodes_ext sub h1; exact this
    have a3 := convRegions_ext rest h2
    exact (a1.trans a2).trans a3

end

/-! ### Translations -/

/-- The blocks of the final graph: those of `g'`, the last one being continued with `r'`. -/
structure Ag (B : Nat → Block) (g g' : G) (r' : List Tac) : Prop where
  new : ∀ b, g.next ≤ b → b < g'.next → b ≠ g'.last → B b = g'.blk b
  lst : g'.last ≠ g.last → B g.last = g'.blk g.last
  code : (B g'.last).code = (g'.blk g'.last).code ++ r'
  phis : (B g'.last).phis = (g'.blk g'.last).phis

theorem Ag.right {B : Nat → Block} {g g1 g2 : G} {r : List Tac} (h1 : Grow g g1) (h2 : Grow g1 g2)
    (h : Ag B g g2 r) : Ag B g1 g2 r := by
  have n1 := h1.next
  have n2 := h2.next
  have l1 := h1.lastlt
  refine ⟨fun b hb hb2 hbl => h.new b (by omega) hb2 hbl, fun hne => ?_, h.code, h.phis⟩
  rcases h1.lastnew with e | e
  · rw [e]; exact h.lst (by rw [← e]; exact hne)
  · exact h.new _ e (by omega) (Ne.symm hne)

theorem Ag.left {B : Nat → Block} {g g1 g2 : G} {r r1 : List Tac} (h1 : Grow g g1) (h2 : Grow g1 g2)
    (h : Ag B g g2 r) (hc : (B g1.last).code = (g1.blk g1.last).code ++ r1) : Ag B g g1 r1 := by
  have n1 := h1.next
  have n2 := h2.next
  have l1 := h1.lastlt
  have l0 := h1.oldlt
  have hl2 := h2.lastnew
  refine ⟨fun b hb hb1 hbl => ?_, fun hne => ?_, hc, ?_⟩
  · rw [h.new b hb (by omega) (by omega), h2.keep b hb1 hbl]
  · rw [h.lst (by omega), h2.keep _ (by omega) (Ne.symm hne)]
  · by_cases e : g2.last = g1.last
    · have := h.phis
      rw [e, h2.lastPhis] at this; exact this
    · rw [(h.right h1 h2).lst e, h2.lastPhis]

mutual

theorem convNode_rep {B : Nat → Block} {m : Out → Var} : ∀ (n : Node) {A : List Out} {S S' : BS} {r' : List Tac},
    Node.supported n = true → wfNode A n = true → Open S.g → convNode n S = some S' →
    (∀ o v, S'.vm o = some v → m o = v) → Ag B S.g S'.g r' →
    ∃ r, (B S.g.last).code = (S.g.blk S.g.last).code ++ r ∧ RepNode B m n S.g.last r S'.g.last r'
  | .simple op ins outs, A, S, S', r', hs, hw, ho, h, hm, ha => by
    simp only [convNode, Option.bind_eq_some_iff] at h
    obtain ⟨vs, h1, h2⟩ := h
    obtain ⟨e1, q1⟩ := insertAll_ext h2
    have hg := insertAll_g h2
    have hv := getAll_map (S := S) (m := m) (fun o v e => hm o v (e1 o v e)) h1
    have hc := ha.code
    rw [hg] at hc
    refine ⟨.op op (ins.map m) outs :: r', ?_, ?_⟩
    · have : (S.g.append S.g.last (.op op vs outs)).last = S.g.last := rfl
      rw [this] at hc
      rw [hc, ← hv]
      simp [G.append]
    · rw [RepNode, hg]
      refine ⟨rfl, rfl, fun o ho => ?_⟩
      exact hm o o (q1 (o, o) (List.mem_map_of_mem (f := fun o => (o, o)) ho))
  | .gamma pred ins outs subs, A, S, S', r', hs, hw, ho, h, hm, ha => by
    simp only [convNode, Option.bind_eq_some_iff, Option.map_eq_some_iff] at h
    obtain ⟨p, hp, r, h1, S1, h2, rfl⟩ := h
    simp only [Node.supported, Bool.and_eq_true, decide_eq_true_eq] at hs
    simp only [wfNode, Bool.and_eq_true] at hw
    have hl := ho.lt
    have hx : S.g.next + 1 < (S.g.openGamma p).next := by show _ < S.g.next + 2; omega
    have he : S.g.next < (S.g.openGamma p).next := by show _ < S.g.next + 2; omega
    obtain ⟨n0, be, bx, bl, bk⟩ := openGamma_facts ho p
    obtain ⟨e2, ps, q1, q2⟩ := gammaOuts_rep h2 hm
    obtain ⟨es, g1, g2, g3⟩ := convRegions_grow (e := S.g.next) (x := S.g.next + 1) subs hs.2 he hx h1
    have hn := g1.next
    simp only [n0] at hn
    have hnn := q1.next
    have hk := g1.keep
    simp only [n0] at hk
    have l1 : S1.g.blk S.g.last = { S.g.blk S.g.last with succs := [S.g.next] } := by
      rw [q1.keep _ (by omega), hk _ (by omega) (by omega), bl]
    have hB : ∀ b, S.g.next ≤ b → b < r.1.g.next → b ≠ S.g.next + 1 → B b = r.1.g.blk b := by
      intro b hb hb2 hbx
      rw [ha.new b hb (by show b < S1.g.next; omega) hbx]
      show S1.g.blk b = _
      rw [q1.keep b hbx]
    have hBl : B S.g.last = S1.g.blk S.g.last := ha.lst (by show S.g.next + 1 ≠ _; omega)
    have hrep := convRegions_rep (B := B) (m := m) subs hs.2 hw.2 he hx h1 (fun o v e => hm o v (e2 o v e))
      (fun b hb hb2 => hB b (by simp only [n0] at hb; omega) hb2 (by simp only [n0] at hb; omega))
    obtain ⟨es', he', hrep⟩ := hrep
    have : es' = es := by
      have h1 := g1.ent
      rw [h1, be] at he'
      simpa [be] using he'.symm
    subst this
    refine ⟨[], by rw [hBl, l1]; simp, ?_⟩
    rw [RepNode]
    have xb : S1.g.blk (S.g.next + 1) = ⟨ps, [], []⟩ := by
      rw [q1.at', hk _ (by omega) (by omega), bx]; simp
    refine ⟨rfl, ?_, S.g.next, es', r.2, ?_, ?_, g1.endsNodup, hrep, ?_⟩
    · have := ha.code
      have e3 : (S1.g.setLast (S.g.next + 1)).blk = S1.g.blk := rfl
      have e4 : (S1.g.setLast (S.g.next + 1)).last = S.g.next + 1 := rfl
      rw [e3, e4, xb] at this
      exact this
    · rw [hBl, l1]
    · rw [hB _ (by omega) (by omega) (by omega), g1.ent, be, hm pred p (e2 _ _ (convRegions_ext subs h1 _ _ hp))]
      simp
    · have := ha.phis
      have e3 : (S1.g.setLast (S.g.next + 1)).blk = S1.g.blk := rfl
      have e4 : (S1.g.setLast (S.g.next + 1)).last = S.g.next + 1 := rfl
      rw [e3, e4, xb] at this
      show GammaRep m r.2 outs (Regions.results subs) (B (S.g.next + 1)).phis
      rw [this]
      exact q2
  | .theta ins outs args pred posts sub, A, S, S', r', hs, hw, ho, h, hm, ha => by
    simp only [convNode, Option.bind_eq_some_iff, Option.map_eq_some_iff] at h
    obtain ⟨S1, h1, S2, h2, S3, h3, p, hp, rfl⟩ := h
    simp only [Node.supported] at hs
    simp only [wfNode, Bool.and_eq_true] at hw
    have e1 := thetaArgs_g h1
    simp only at e1
    have hl := ho.lt
    have g0 := grow_open ho
    have g1 := grow_open g0.isOpen
    have g2 : Grow S.g.openBlock.openBlock S2.g := by
      have := convNodes_grow sub hs (by simp only [e1]; exact g1.isOpen) h2
      simpa only [e1] using this
    have g3 := grow_open g2.isOpen
    have n2 : S.g.next + 2 ≤ S2.g.next := g2.next
    have l2 : S2.g.last < S2.g.next := g2.lastlt
    have l2' : S2.g.last = S.g.next + 1 ∨ S.g.next + 2 ≤ S2.g.last := g2.lastnew
    obtain ⟨a3, q1, q2⟩ := thetaOuts_rep h3 hm
    have a3 : Ext S2.vm S3.vm := a3
    have a2 : Ext S1.vm S2.vm := by have := convNodes_ext sub h2; exact this
    obtain ⟨a1, q3⟩ := thetaArgs_rep h1 (fun o v e => hm o v (a3 _ _ (a2 _ _ e)))
    have nn : S3.g.next = S2.g.next + 1 := q1.next
    have ll : S3.g.last = S2.g.next := q1.last
    have qk := q1.keep
    have qa := q1.at'
    simp only at qk qa
    have s3 : (S3.g.blk S2.g.next) = ⟨[], [], []⟩ := by rw [qk _ (by omega), openBlock_new g2.isOpen]
    have o3 : Open S3.g := ⟨by omega, by rw [ll, s3]⟩
    obtain ⟨f1, f2, f3, f4, f5⟩ := closeTheta_facts (e := S.g.next) o3 (by omega) p
    rw [nn] at f1 f2 f3 f5
    rw [ll] at f4 f5
    rw [s3] at f4
    have hBg : ∀ b, S.g.next ≤ b → b ≤ S2.g.next → B b = (S3.g.closeTheta S.g.next p).blk b := by
      intro b hb hb2
      exact ha.new b hb (by show b < (S3.g.closeTheta S.g.next p).next; omega)
        (by show b ≠ (S3.g.closeTheta S.g.next p).last; omega)
    have hBo : ∀ b, S.g.next < b → b < S2.g.next → B b = S2.g.openBlock.blk b := by
      intro b hb hb2
      rw [hBg b (by omega) (by omega), f5 b (by omega) (by omega), qk b (by omega)]
    have hBs : B S2.g.last = { S2.g.blk S2.g.last with succs := [S2.g.next] } := by
      rw [hBo _ (by omega) l2, openBlock_last g2.isOpen]
    have b1b : (S.g.openBlock.openBlock).blk (S.g.next + 1) = ⟨[], [], []⟩ := openBlock_new g0.isOpen
    have b1p : (S2.g.blk (S.g.next + 1)).phis = [] := by
      have := g2.lastPhis
      have e : S.g.openBlock.openBlock.last = S.g.next + 1 := rfl
      rw [e, b1b] at this
      exact this
    have eb : S2.g.blk S.g.next = ⟨[], [], [S.g.next + 1]⟩ := by
      rw [g2.keep _ (by show _ < S.g.next + 2; omega) (by show _ ≠ S.g.next + 1; omega)]
      have e : S.g.openBlock.last = S.g.next := rfl
      have := openBlock_last g0.isOpen
      rw [e, openBlock_new ho] at this
      exact this
    have eB : B S.g.next = ⟨thetaPhis m (needsPhi sub (pred :: posts)) S.g.last S2.g.next (loopVars ins args posts outs),
        [], [S.g.next + 1]⟩ := by
      rw [hBg _ (by omega) (by omega), f5 _ (by omega) (by omega), qa,
        openBlock_keep (by omega) (by omega), eb]
      simp
    have lB : B S2.g.next = ⟨[], [.branch p], [S2.g.next + 1, S.g.next]⟩ := by
      rw [hBg _ (by omega) (by omega), f4, nn]; rfl
    have ag : Ag B S.g.openBlock.openBlock S2.g [] := by
      refine ⟨fun b hb hb2 hbl => ?_, fun hne => ?_, ?_, ?_⟩
      · have hb : S.g.next + 2 ≤ b := hb
        rw [hBo b (by omega) hb2, openBlock_keep (by omega) hbl]
      · have hne : S2.g.last ≠ S.g.next + 1 := hne
        show B (S.g.next + 1) = S2.g.blk (S.g.next + 1)
        rw [hBo _ (by omega) (by omega), openBlock_keep (by omega) (by omega)]
      · rw [hBs]; simp
      · rw [hBs]
    have hrep := convNodes_rep (B := B) (m := m) sub (S := { S1 with g := S1.g.openBlock }) (S' := S2) (r' := []) hs hw.1.2
      (by simp only [e1]; exact g1.isOpen) h2 (fun o v e => hm o v (a3 _ _ e)) (by simp only [e1]; exact ag)
    obtain ⟨rr, hr1, hr2⟩ := hrep
    simp only [e1] at hr1 hr2
    have e3 : S.g.openBlock.openBlock.last = S.g.next + 1 := rfl
    rw [e3, b1b] at hr1
    simp only [List.nil_append] at hr1
    have lastB : B S.g.last = { S.g.blk S.g.last with succs := [S.g.next] } := by
      rw [ha.lst (by show (S3.g.closeTheta S.g.next p).last ≠ _; omega)]
      show (S3.g.closeTheta S.g.next p).blk _ = _
      rw [f5 _ (by omega) (by omega), qk _ (by omega), openBlock_keep (by omega) (by omega),
        g2.keep _ (by show _ < S.g.next + 2; omega) (by show _ ≠ S.g.next + 1; omega),
        openBlock_keep (g := S.g.openBlock) (by show _ ≠ S.g.next + 1; omega) (by show _ ≠ S.g.next; omega), openBlock_last ho]
    refine ⟨[], by rw [lastB]; simp, ?_⟩
    rw [RepNode]
    have xl : (S3.g.closeTheta S.g.next p).last = S2.g.next + 1 := by rw [f2]
    have xc := ha.code
    have xp := ha.phis
    simp only [xl, f3] at xc xp
    refine ⟨rfl, ?_, ?_, S.g.next, S2.g.next, S.g.next + 1, S2.g.last, ?_, ?_, ?_, ?_, ?_, ?_, ?_, ?_, ?_, ?_⟩
    · simp only [xl]; exact xp
    · simp only [xl]; exact xc
    · rw [lastB]
    · rw [eB]
    · rw [eB]
    · by_cases e : S2.g.last = S.g.next + 1
      · rw [← e, hBs, e]; exact b1p
      · rw [hBo _ (by omega) (by omega), openBlock_keep (by omega) (by omega)]; exact b1p
    · rw [e3] at hr2; rw [hr1]; exact hr2
    · rw [hBs]
    · rw [lB, hm pred p hp, xl]
    · omega
    · rw [eB]
    · exact fun v hv => ⟨q2 v hv, q3 v hv⟩
  | .lambda .., A, S, S', r', hs, hw, ho, h, hm, ha => by simp [convNode] at h
  | .phi .., A, S, S', r', hs, hw, ho, h, hm, ha => by simp [convNode] at h
  | .delta .., A, S, S', r', hs, hw, ho, h, hm, ha => by simp [convNode] at h

theorem convNodes_rep {B : Nat → Block} {m : Out → Var} : ∀ (ns : Nodes) {A : List Out} {S S' : BS} {r' : List Tac},
    Nodes.supported ns = true → wfNodes A ns = true → Open S.g → convNodes ns S = some S' →
    (∀ o v, S'.vm o = some v → m o = v) → Ag B S.g S'.g r' →
    ∃ r, (B S.g.last).code = (S.g.blk S.g.last).code ++ r ∧ RepNodes B m ns S.g.last r S'.g.last r'
  | .nil, A, S, S', r', hs, hw, ho, h, hm, ha => by
    simp only [convNodes, Option.some.injEq] at h
    subst h
    exact ⟨r', ha.code, by rw [RepNodes]; exact ⟨rfl, rfl⟩⟩
  | .cons n ns, A, S, S', r', hs, hw, ho, h, hm, ha => by
    simp only [convNodes, Option.bind_eq_some_iff] at h
    obtain ⟨S1, h1, h2⟩ := h
    simp only [Nodes.supported, Bool.and_eq_true] at hs
    simp only [wfNodes, Bool.and_eq_true] at hw
    have g1 := convNode_grow n hs.1 ho h1
    have g2 := convNodes_grow ns hs.2 g1.isOpen h2
    obtain ⟨r1, q1, q2⟩ := convNodes_rep ns hs.2 hw.2 g1.isOpen h2 hm (ha.right g1 g2)
    obtain ⟨r, q3, q4⟩ := convNode_rep n hs.1 hw.1 ho h1 (fun o v e => hm o v (convNodes_ext ns h2 o v e))
      (ha.left g1 g2 q1)
    exact ⟨r, q3, by rw [RepNodes]; exact ⟨_, r1, q4, q2⟩⟩

theorem convRegions_rep {B : Nat → Block} {m : Out → Var} {e x nr : Nat} {ins : List Out} :
    ∀ (subs : Regions) {S : BS} {r : BS × List Nat},
    Regions.supported subs = true → wfRegions (ins.length + 1) nr subs = true → e < S.g.next → x < S.g.next →
    convRegions e x ins subs S = some r → (∀ o v, r.1.vm o = some v → m o = v) →
    (∀ b, S.g.next ≤ b → b < r.1.g.next → B b = r.1.g.blk b) →
    ∃ es, (r.1.g.blk e).succs = (S.g.blk e).succs ++ es ∧ RepRegions B m ins x subs es r.2
  | .nil, S, r, hs, hw, he, hx, h, hm, hB => by
    simp only [convRegions, Option.some.injEq] at h
    subst h; exact ⟨[], by simp, by rw [RepRegions]; exact ⟨rfl, rfl⟩⟩
  | .cons args results sub rest, S, r, hs, hw, he, hx, h, hm, hB => by
    simp only [convRegions, Option.bind_eq_some_iff, Option.map_eq_some_iff] at h
    obtain ⟨vs, hvs, S0, h0, S1, h1, r', h2, rfl⟩ := h
    simp only [Regions.supported, Bool.and_eq_true] at hs
    simp only [wfRegions, Bool.and_eq_true, beq_iff_eq] at hw
    obtain ⟨⟨⟨⟨hl1, hl2⟩, hwf⟩, hsub⟩, hrest⟩ := hw
    have e0 := insertAll_g h0
    have b0 := branchBlock_open he
    have g0 := grow_open b0
    have g1 : Grow (S.g.branchBlock e).openBlock S1.g := by
      have := convNodes_grow sub hs.1.2 (by simp only [e0]; exact g0.isOpen) h1
      simp only [e0] at this
      exact this
    have g2 := grow_open g1.isOpen
    have hn : S.g.next + 2 ≤ S1.g.next := g1.next
    have hl : S1.g.last < S1.g.next := g1.lastlt
    have hl' : S1.g.last = S.g.next + 1 ∨ S.g.next + 2 ≤ S1.g.last := g1.lastnew
    have he1 : e < (S1.g.openBlock.edge S1.g.next x).next := by show e < S1.g.next + 1; omega
    have hx1 : x < (S1.g.openBlock.edge S1.g.next x).next := by show x < S1.g.next + 1; omega
    obtain ⟨es, q1, q2, q3⟩ := convRegions_grow rest hs.2
      (S := { S1 with g := S1.g.openBlock.edge S1.g.next x }) he1 hx1 h2
    have a2 : Ext S1.vm r'.1.vm := by have := convRegions_ext rest h2; exact this
    have a1 : Ext S0.vm S1.vm := by have := convNodes_ext sub h1; exact this
    obtain ⟨a0, qa⟩ := insertAll_ext h0
    obtain ⟨es', he', hrep⟩ := convRegions_rep (B := B) (m := m) rest hs.2 hrest
      (S := { S1 with g := S1.g.openBlock.edge S1.g.next x }) he1 hx1 h2 hm
      (fun b hb hb2 => hB b (by have hb : S1.g.next + 1 ≤ b := hb; omega) hb2)
    have nx : S1.g.next + 1 ≤ r'.1.g.next := q1.next
    -- the blocks of this branch
    have ed : ∀ b, b ≠ S1.g.next → (S1.g.openBlock.edge S1.g.next x).blk b = S1.g.openBlock.blk b := fun b hb => by
      simp [G.edge, hb]
    have hold : ∀ b, b < S1.g.next + 1 → b ≠ e → r'.1.g.blk b = (S1.g.openBlock.edge S1.g.next x).blk b :=
      fun b hb hbe => q1.keep b hb hbe
    have hBo : ∀ b, S.g.next ≤ b → b < S1.g.next → b ≠ S1.g.last → B b = S1.g.blk b := fun b hb hb2 hbl => by
      rw [hB b hb (by simp only; omega), hold b (by omega) (by omega), ed b (by omega), openBlock_keep (by omega) hbl]
    have hBl : B S1.g.last = { S1.g.blk S1.g.last with succs := [S1.g.next] } := by
      rw [hB _ (by omega) (by simp only; omega), hold _ (by omega) (by omega), ed _ (by omega), openBlock_last g1.isOpen]
    have hBe : B S1.g.next = ⟨[], [], [x]⟩ := by
      rw [hB _ (by omega) (by simp only; omega), hold _ (by omega) (by omega)]
      simp [G.edge, openBlock_new g1.isOpen]
    have bb1 : (S.g.branchBlock e).openBlock.blk (S.g.next + 1) = ⟨[], [], []⟩ := openBlock_new b0
    have bb0 : (S.g.branchBlock e).openBlock.blk S.g.next = ⟨[], [], [S.g.next + 1]⟩ := by
      have := openBlock_last b0
      have e1 : (S.g.branchBlock e).last = S.g.next := rfl
      have e2 : (S.g.branchBlock e).next = S.g.next + 1 := rfl
      rw [e1, e2] at this
      rw [this]
      have : S.g.next ≠ e := by omega
      simp [G.branchBlock, G.setLast, G.edge, G.new, this]
    have b1p : (S1.g.blk (S.g.next + 1)).phis = [] := by
      have := g1.lastPhis
      have e1 : (S.g.branchBlock e).openBlock.last = S.g.next + 1 := rfl
      rw [e1, bb1] at this
      exact this
    have ag : Ag B (S.g.branchBlock e).openBlock S1.g [] := by
      refine ⟨fun b hb hb2 hbl => ?_, fun hne => ?_, ?_, ?_⟩
      · have hb : S.g.next + 2 ≤ b := hb
        exact hBo b (by omega) hb2 hbl
      · have hne : S1.g.last ≠ S.g.next + 1 := hne
        exact hBo (S.g.next + 1) (by omega) (by omega) (by omega)
      · rw [hBl]; simp
      · rw [hBl]
    obtain ⟨rr, hr1, hr2⟩ := convNodes_rep (B := B) (m := m) sub (A := args) (S := { S0 with g := S0.g.openBranch e })
      (S' := S1) (r' := []) hs.1.2 hwf (by simp only [e0]; exact g0.isOpen) h1 (fun o v e => hm o v (a2 _ _ e))
      (by simp only [e0]; exact ag)
    simp only [e0] at hr1 hr2
    have e3 : (S.g.openBranch e).last = S.g.next + 1 := rfl
    have e4 : (S.g.openBranch e).blk (S.g.next + 1) = ⟨[], [], []⟩ := bb1
    rw [e3, e4] at hr1
    simp only [List.nil_append] at hr1
    rw [e3] at hr2
    refine ⟨S.g.next :: es', ?_, ?_⟩
    · rw [he']
      show ((S1.g.openBlock.edge S1.g.next x).blk e).succs ++ es' = _
      rw [ed e (by omega), openBlock_keep (by omega) (by omega),
        g1.keep e (by show e < S.g.next + 2; omega) (by show e ≠ S.g.next + 1; omega),
        openBlock_keep (by show e ≠ S.g.next + 1; omega) (by show e ≠ S.g.next; omega)]
      have : e ≠ S.g.next := by omega
      simp [G.branchBlock, G.setLast, G.edge, G.new, this]
    · rw [RepRegions]
      refine ⟨S.g.next, S1.g.next, S.g.next + 1, S1.g.last, es', r'.2, rfl, rfl, ?_, ?_, ?_, ?_, hBe, ?_, hrep⟩
      · rw [hBo _ (by omega) (by omega) (by omega),
          g1.keep _ (by show _ < S.g.next + 2; omega) (by show _ ≠ S.g.next + 1; omega), bb0]
      · by_cases e : S1.g.last = S.g.next + 1
        · rw [← e, hBl, e]; exact b1p
        · rw [hBo _ (by omega) (by omega) (by omega)]; exact b1p
      · rw [hr1]; exact hr2
      · rw [hBl]
      · have hv := getAll_map (S := S) (m := m) (fun o v e => hm o v (a2 _ _ (a1 _ _ (a0 _ _ e)))) hvs
        have hlen : args.tail.length = vs.length := by
          rw [getAll_length hvs, List.length_tail, hl1]; omega
        rw [← hv]
        apply List.ext_getElem
        · simpa using hlen
        · intro i h1 h2
          simp only [List.length_map] at h1
          rw [List.getElem_map]
          refine hm _ _ (a2 _ _ (a1 _ _ (qa (args.tail[i], vs[i]) ?_)))
          rw [List.mem_iff_getElem]
          exact ⟨i, by simp only [List.length_zip]; omega, by simp⟩

end

end Jlm.Back
