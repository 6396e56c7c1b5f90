import Verif.Opt.Refine
import Verif.Opt.TreeLemmas

/-!
# The meaning of graphs is monotone, and refinement of parts refines the whole
-/

set_option linter.unusedSimpArgs false
set_option linter.unusedVariables false

namespace Jlm.Opt

variable {V : Type}

/-- The region with nodes `ns'` and results `rs'` refines the one with `ns` and `rs`. -/
def SubLe (sem : Sem V) (ns : Nodes) (rs : List Out) (ns' : Nodes) (rs' : List Out) : Prop :=
  rs.length = rs'.length ∧ ∀ e e' : Env V, (∀ x, LeW (e x) (e' x)) →
    LeLW (rs.map (evalNodes sem ns e)) (rs'.map (evalNodes sem ns' e'))

/-- The branches refine each other. -/
def RegsLe (sem : Sem V) (subs subs' : Regions) : Prop :=
  ∀ k ws ws', LeLW ws ws' → LeLW (regionVals sem subs k ws) (regionVals sem subs' k ws')

/-- A node refines another node with the same inputs and outputs. -/
def NodeLe (sem : Sem V) (n n' : Node) : Prop :=
  ∀ e e' : Env V, (∀ i ∈ n.ins, LeW (e i) (e' i)) → LeLW (nodeVals sem n e) (nodeVals sem n' e')

theorem theta_le {sem : Sem V} {ins outs args posts posts' : List Out} {pred pred' : Out}
    {sub sub' : Nodes} (h : SubLe sem sub (pred :: posts) sub' (pred' :: posts'))
    (h' : SubLe sem sub' (pred' :: posts') sub' (pred' :: posts')) :
    NodeLe sem (.theta ins outs args pred posts sub) (.theta ins outs args pred' posts' sub') := by
  intro e e' he
  simp only [nodeVals]
  exact loopVals_le
    (fun ws ws' hw => h.2 _ _ (upd_le' emptyEnv_le _ hw))
    (fun ws ws' hw => h'.2 _ _ (upd_le' emptyEnv_le _ hw))
    (LeLW.map _ fun x hx => he x (by simpa [Node.ins] using hx))

theorem gamma_le {sem : Sem V} {pred : Out} {ins outs : List Out} {subs subs' : Regions}
    (h : RegsLe sem subs subs') (h' : RegsLe sem subs' subs') :
    NodeLe sem (.gamma pred ins outs subs) (.gamma pred ins outs subs') := by
  intro e e' he
  simp only [nodeVals]
  have hp := he pred (by simp [Node.ins])
  have hm : LeLW (ins.map e) (ins.map e') := LeLW.map _ fun x hx => he x (by simp [Node.ins, hx])
  rcases hpe : e pred with _ | ⟨v, f⟩ <;> rcases hpe' : e' pred with _ | ⟨v', f'⟩ <;>
    rw [hpe, hpe'] at hp
  · exact LeLW.nil
  · refine LeLW.nil_le (h' _ _ _ (LeLW.cons ?_ hm.right))
    simp [LeW, LeOF]
  · exact hp.elim
  · obtain ⟨hv, hf⟩ := hp
    simp only at hv
    subst hv
    exact h _ _ _ (LeLW.cons (by simp [LeW, LeOF]) hm)

theorem lambda_le {sem : Sem V} {ins args params results results' : List Out} {out : Out}
    {sub sub' : Nodes} (h : SubLe sem sub results sub' results')
    (h0 : SubLe sem sub results sub results) (h' : SubLe sem sub' results' sub' results') :
    NodeLe sem (.lambda ins args params results out sub)
      (.lambda ins args params results' out sub') := by
  intro e e' he
  simp only [nodeVals]
  have hm : LeLW (ins.map e) (ins.map e') :=
    LeLW.map _ fun x hx => he x (by simpa [Node.ins] using hx)
  have hm0 : LeLW (ins.map e) (ins.map e) := fun k => (hm k).left
  refine LeLW.cons ⟨rfl, ?_, ?_, ?_⟩ LeLW.nil
  · intro xs ys hxy
    exact plain_le (h0.2 _ _ (upd_le' (upd_le' emptyEnv_le _ hm0) _ (lift_le hxy)))
  · intro xs ys hxy
    exact plain_le (h'.2 _ _ (upd_le' (upd_le' emptyEnv_le _ hm.right) _ (lift_le hxy)))
  · intro xs
    exact plain_le (h.2 _ _ (upd_le' (upd_le' emptyEnv_le _ hm) _ (lift_le (LeL.refl xs))))

theorem phi_le {sem : Sem V} {ins args recs results results' outs : List Out}
    {sub sub' : Nodes} (h : SubLe sem sub results sub' results') :
    NodeLe sem (.phi ins args recs results outs sub) (.phi ins args recs results' outs sub') := by
  intro e e' he
  simp only [nodeVals]
  have hm : LeLW (ins.map e) (ins.map e') :=
    LeLW.map _ fun x hx => he x (by simpa [Node.ins] using hx)
  exact phiVals_le outs (fun _ _ => by simp [h.1])
    (fun ws ws' hw => h.2 _ _ (upd_le' (upd_le' emptyEnv_le _ hm) _ hw)) _

theorem delta_le {sem : Sem V} {ins args : List Out} {result result' out : Out}
    {sub sub' : Nodes} (h : SubLe sem sub [result] sub' [result']) :
    NodeLe sem (.delta ins args result out sub) (.delta ins args result' out sub') := by
  intro e e' he
  simp only [nodeVals]
  have hm : LeLW (ins.map e) (ins.map e') :=
    LeLW.map _ fun x hx => he x (by simpa [Node.ins] using hx)
  have := plain_le (h.2 _ _ (upd_le' emptyEnv_le args hm)) 0
  refine LeLW.cons ⟨rfl, ?_⟩ LeLW.nil
  simpa [LeOF, LeFun, plain] using this

theorem simple_le {sem : Sem V} (hs : sem.Mono) (op : Op) (ins outs : List Out) :
    NodeLe sem (.simple op ins outs) (.simple op ins outs) := by
  intro e e' he
  simp only [nodeVals]
  have hm : LeLW (ins.map e) (ins.map e') :=
    LeLW.map _ fun x hx => he x (by simpa [Node.ins] using hx)
  have ha := lift_le (hs op _ _ (by simp) hm)
  split
  · exact LeLW.cons ha.head hm.tail
  · exact ha

theorem regsLe_nil {sem : Sem V} : RegsLe sem .nil .nil := fun k ws ws' h => by
  simpa [regionVals] using LeLW.nil

theorem regsLe_cons {sem : Sem V} {args rs rs' : List Out} {sub sub' : Nodes} {rest rest' : Regions}
    (h : SubLe sem sub rs sub' rs') (hr : RegsLe sem rest rest') :
    RegsLe sem (.cons args rs sub rest) (.cons args rs' sub' rest') := by
  intro k ws ws' hw
  cases k with
  | zero =>
    simp only [regionVals]
    exact h.2 _ _ (upd_le' emptyEnv_le _ hw)
  | succ k => simpa only [regionVals] using hr k ws ws' hw

theorem evalNodes_le_cons {sem : Sem V} {Q : Out → Prop} {n n' : Node} (h : NodeLe sem n n')
    (ho : n.outs = n'.outs) (hi : ∀ i ∈ n.ins, Q i) {e e' : Env V} (he : LeOn Q e e') :
    LeOn Q (upd e n.outs (nodeVals sem n e)) (upd e' n'.outs (nodeVals sem n' e')) := by
  rw [← ho]
  have hv := h e e' (fun i hi' => he i (hi i hi'))
  exact upd_le n.outs _ _ (fun x hx _ => he x hx) (fun k _ _ _ => hv k)

mutual

/-- Meaning of a node is monotone in the values of its inputs. -/
theorem nodeVals_mono {sem : Sem V} (hs : sem.Mono) : ∀ n : Node, NodeLe sem n n
  | .simple op ins outs => simple_le hs op ins outs
  | .gamma pred ins outs subs => gamma_le (regionVals_mono hs subs) (regionVals_mono hs subs)
  | .theta ins outs args pred posts sub =>
      have h : SubLe sem sub (pred :: posts) sub (pred :: posts) :=
        ⟨rfl, fun e e' he => LeLW.map _ fun x _ =>
          evalNodes_mono hs sub (fun _ => True) (fun _ _ => trivial) e e' (fun x _ => he x) x trivial⟩
      theta_le h h
  | .lambda ins args params results out sub =>
      have h : SubLe sem sub results sub results :=
        ⟨rfl, fun e e' he => LeLW.map _ fun x _ =>
          evalNodes_mono hs sub (fun _ => True) (fun _ _ => trivial) e e' (fun x _ => he x) x trivial⟩
      lambda_le h h h
  | .phi ins args recs results outs sub =>
      have h : SubLe sem sub results sub results :=
        ⟨rfl, fun e e' he => LeLW.map _ fun x _ =>
          evalNodes_mono hs sub (fun _ => True) (fun _ _ => trivial) e e' (fun x _ => he x) x trivial⟩
      phi_le h
  | .delta ins args result out sub =>
      have h : SubLe sem sub [result] sub [result] :=
        ⟨rfl, fun e e' he => LeLW.map _ fun x _ =>
          evalNodes_mono hs sub (fun _ => True) (fun _ _ => trivial) e e' (fun x _ => he x) x trivial⟩
      delta_le h

/-- Meaning of the nodes of a region is monotone in the environment, restricted to names `Q` that
include all the inputs. -/
theorem evalNodes_mono {sem : Sem V} (hs : sem.Mono) : ∀ (ns : Nodes) (Q : Out → Prop),
    (∀ i ∈ ns.ins, Q i) → ∀ e e' : Env V, LeOn Q e e' →
    LeOn Q (evalNodes sem ns e) (evalNodes sem ns e')
  | .nil, Q, _, e, e', he => by simpa only [evalNodes] using he
  | .cons n ns, Q, hq, e, e', he => by
      simp only [evalNodes]
      exact evalNodes_mono hs ns Q (fun i hi => hq i (by simp [Nodes.ins, hi])) _ _
        (evalNodes_le_cons (nodeVals_mono hs n) rfl (fun i hi => hq i (by simp [Nodes.ins, hi])) he)

theorem regionVals_mono {sem : Sem V} (hs : sem.Mono) : ∀ rs : Regions, RegsLe sem rs rs
  | .nil => regsLe_nil
  | .cons args results sub rest =>
      regsLe_cons ⟨rfl, fun e e' he => LeLW.map _ fun x _ =>
        evalNodes_mono hs sub (fun _ => True) (fun _ _ => trivial) e e' (fun x _ => he x) x trivial⟩
        (regionVals_mono hs rest)

end

theorem evalNodes_mono' {sem : Sem V} (hs : sem.Mono) (ns : Nodes) {e e' : Env V}
    (he : ∀ x, LeW (e x) (e' x)) : ∀ x, LeW (evalNodes sem ns e x) (evalNodes sem ns e' x) :=
  fun x => evalNodes_mono hs ns (fun _ => True) (fun _ _ => trivial) e e' (fun x _ => he x) x trivial

theorem SubLe.refl {sem : Sem V} (hs : sem.Mono) (ns : Nodes) (rs : List Out) : SubLe sem ns rs ns rs :=
  ⟨rfl, fun e e' he => LeLW.map _ fun x _ => evalNodes_mono' hs ns he x⟩

theorem SubLe.trans {sem : Sem V} {n1 n2 n3 : Nodes} {r1 r2 r3 : List Out}
    (h1 : SubLe sem n1 r1 n2 r2) (h2 : SubLe sem n2 r2 n3 r3) : SubLe sem n1 r1 n3 r3 :=
  ⟨h1.1.trans h2.1, fun e e' he => (h1.2 e e' he).trans (h2.2 e' e' fun x => (he x).right)⟩

/-- Diverting the inputs of the nodes of a region to names that carry at least the same value. -/
theorem evalNodes_divert_le {sem : Sem V} (hs : sem.Mono) (τ : Out → Out) (Q : Out → Prop) :
    ∀ (ns : Nodes) (e1 e2 : Env V), (∀ i ∈ ns.ins, Q i) → (∀ o ∈ ns.outs, τ o = o) →
      (∀ x, Q x → x ∉ ns.outs → τ x ∉ ns.outs) → (∀ x, Q x → LeW (e2 x) (e1 (τ x))) →
      ∀ x, Q x → LeW (evalNodes sem ns e2 x) (evalNodes sem (ns.divert τ) e1 (τ x))
  | .nil, e1, e2, _, _, _, h, x, hx => by simpa [evalNodes, Nodes.divert] using h x hx
  | .cons n ns, e1, e2, hq, hfix, hout, h, x, hx => by
      simp only [Nodes.divert, evalNodes, Node.divert_outs]
      have hn : LeLW (nodeVals sem n e2) (nodeVals sem (n.divert τ) e1) := by
        rw [nodeVals_divert sem τ n e1 (fun x => e1 (τ x)) (fun i _ => rfl)]
        exact nodeVals_mono hs n _ _ (fun i hi => h i (hq i (by simp [Nodes.ins, hi])))
      have hq' : ∀ i ∈ ns.ins, Q i := fun i hi => hq i (by simp [Nodes.ins, hi])
      have hfix' : ∀ o ∈ ns.outs, τ o = o := fun o ho => hfix o (by simp [Nodes.outs, ho])
      have hfixn : ∀ o ∈ n.outs, τ o = o := fun o ho => hfix o (by simp [Nodes.outs, ho])
      refine evalNodes_divert_le hs τ (fun y => Q y ∧ (y ∉ ns.outs → τ y ∉ ns.outs)) ns _ _ ?_ hfix'
        (fun y hy => hy.2) ?_ x ⟨hx, ?_⟩
      · intro i hi
        refine ⟨hq' i hi, fun hni => ?_⟩
        by_cases hin : i ∈ n.outs
        · rwa [hfixn i hin]
        · intro hc
          exact hout i (hq' i hi) (by simp [Nodes.outs, hni, hin]) (by simp [Nodes.outs, hc])
      · intro y hy
        by_cases hyn : y ∈ n.outs
        · rw [hfixn y hyn]
          refine upd_le (Q := fun z => z ∈ n.outs) n.outs _ _ (fun z hz hz' => absurd hz hz') (fun k _ _ _ => hn k) y hyn
        · have hty : y ∉ ns.outs → τ y ∉ n.outs := fun h' hc =>
            hout y hy.1 (by simp [Nodes.outs, hyn, h']) (by simp [Nodes.outs, hc])
          rw [upd_notin _ _ _ _ hyn]
          by_cases hyns : y ∈ ns.outs
          · rw [hfix' y hyns, upd_notin _ _ _ _ hyn, ← hfix' y hyns]
            have := h y hy.1
            rwa [hfix' y hyns] at this ⊢
          · rw [upd_notin _ _ _ _ (hty hyns)]
            exact h y hy.1
      · intro hxns
        by_cases hxn : x ∈ n.outs
        · rwa [hfixn x hxn]
        · intro hc
          exact hout x hx (by simp [Nodes.outs, hxn, hxns]) (by simp [Nodes.outs, hc])

/-- Pruning a region does not change its results. -/
theorem subLe_agree {sem : Sem V} (hs : sem.Mono) {ns ns' : Nodes} {rs : List Out}
    (h : ∀ e : Env V, ∀ r ∈ rs, evalNodes sem ns' e r = evalNodes sem ns e r) :
    SubLe sem ns rs ns' rs :=
  ⟨rfl, fun e e' he => LeLW.map _ fun x hx => by
    rw [h e' x hx]
    exact evalNodes_mono' hs ns he x⟩

end Jlm.Opt
