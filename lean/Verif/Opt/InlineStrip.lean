import Verif.Opt.InlineModel
import Verif.Opt.InlineSpec
import Verif.Opt.CneCert
import Verif.Opt.Copy

/-! # Function bodies that do not know what functions their arguments stand for -/

set_option linter.unusedSimpArgs false
set_option linter.unusedVariables false

namespace Jlm.Opt.Inline

open Jlm.Opt.Copy

variable {V : Type}

/-- The value without the function it stands for. -/
def strip (w : W V) : W V := w.map fun v => (v.1, none)

def stripIf (b : Bool) (w : W V) : W V := if b then w else strip w

/-- The environment in which only outputs with function types stand for functions. -/
def stripE (fty : Out → Bool) (e : Env V) : Env V := fun x => stripIf (fty x) (e x)

def stripL : List Bool → List (W V) → List (W V)
  | b :: bs, w :: ws => stripIf b w :: stripL bs ws
  | _, ws => ws

theorem strip_none (b : Bool) : stripIf b (none : W V) = none := by cases b <;> rfl

theorem stripE_empty (fty : Out → Bool) : stripE fty (emptyEnv : Env V) = emptyEnv := by
  funext x; exact strip_none _

theorem stripE_upd (fty : Out → Bool) : ∀ (os : List Out) (e : Env V) (ws : List (W V)),
    stripE fty (upd e os ws) = upd (stripE fty e) os (stripL (os.map fty) ws)
  | [], e, ws => rfl
  | o :: os, e, ws => by
    funext x
    have ih := congrFun (stripE_upd fty os e ws.tail) x
    simp only [stripE] at ih
    cases ws with
    | nil =>
      simp only [stripE, upd, List.map_cons, stripL, List.headD_nil, List.tail_nil] at ih ⊢
      split
      · exact strip_none _
      · cases os <;> exact ih
    | cons w ws =>
      simp only [stripE, upd, List.map_cons, stripL, List.headD_cons, List.tail_cons] at ih ⊢
      split
      · rename_i h; rw [h]
      · exact ih

theorem stripL_map (fty : Out → Bool) (e : Env V) : ∀ l : List Out, stripL (l.map fty) (l.map e) = l.map (stripE fty e)
  | [] => rfl
  | a :: l => by simp [stripL, stripL_map fty e l, stripE]

theorem stripL_lift : ∀ (bs : List Bool) (vs : List (Option V)), stripL bs (lift vs) = lift vs
  | [], vs => by cases vs <;> rfl
  | b :: bs, [] => rfl
  | b :: bs, v :: vs => by
    have := stripL_lift bs vs
    simp only [lift, List.map_cons, stripL] at this ⊢
    rw [this]
    congr 1
    cases b <;> cases v <;> rfl

theorem plain_stripE (fty : Out → Bool) (e : Env V) (l : List Out) : plain (l.map (stripE fty e)) = plain (l.map e) := by
  simp only [plain, List.map_map]
  refine List.map_congr_left fun x _ => ?_
  simp only [Function.comp, stripE, stripIf, strip]
  split
  · rfl
  · cases e x <;> rfl

theorem stripIf_ctl (b : Bool) (w : W V) (g : V → Nat) : (stripIf b w).map (fun v => g v.1) = w.map fun v => g v.1 := by
  cases b <;> cases w <;> rfl

theorem stripL_length : ∀ (bs : List Bool) (ws : List (W V)), (stripL bs ws).length = ws.length
  | [], ws => by cases ws <;> rfl
  | _ :: _, [] => rfl
  | b :: bs, w :: ws => by simp [stripL, stripL_length bs ws]

theorem loopVals_strip {sem : Sem V} {f : List (W V) → List (W V)} {B : List Bool} {b : Bool}
    (hf : ∀ ws, f (stripL B ws) = stripIf b ((f ws).headD none) :: stripL B (f ws).tail) (init : List (W V)) :
    loopVals sem f (stripL B init) = stripL B (loopVals sem f init) := by
  have hs : ∀ m, loopState f (stripL B init) m = stripL B (loopState f init m) := by
    intro m
    induction m with
    | zero => rfl
    | succ m ih => simp only [loopState, ih, hf, List.tail_cons]
  have hp : ∀ m, loopPred sem f (stripL B init) m = loopPred sem f init m := by
    intro m
    simp only [loopPred, hs, hf, List.headD_cons]
    exact stripIf_ctl _ _ _
  have he : ∀ m, loopExits sem f (stripL B init) m ↔ loopExits sem f init m := by
    intro m; simp only [loopExits, hp]
  rcases loopVals_exit' (sem := sem) (f := f) (init := init) with ⟨m, hm, h⟩ | ⟨hm, h⟩
  · rw [h, loopVals_at ((he m).2 hm), hs]
  · rw [h, loopVals, dif_neg]
    · cases B <;> rfl
    · rintro ⟨m, hm'⟩; exact hm m ((he m).1 hm')

theorem all_false {fty : Out → Bool} {l : List Out} (h : l.all (!fty ·) = true) : l.map fty = List.replicate l.length false := by
  induction l with
  | nil => rfl
  | cons a l ih =>
    simp only [List.all_cons, Bool.and_eq_true, Bool.not_eq_true'] at h
    simp only [List.map_cons, h.1, List.length_cons, List.replicate_succ]
    rw [ih (by simpa using h.2)]

mutual

theorem node_strip {sem : Sem V} (hN : NoPeek sem) {fty : Out → Bool} : ∀ (x : Node) {A : List Out} (e : Env V), wfNode A x = true →
    tyNode fty x = true → nodeVals sem x (stripE fty e) = stripL (x.outs.map fty) (nodeVals sem x e)
  | .simple op ins outs, A, e, hw, ht => by
    simp only [tyNode, Bool.and_eq_true] at ht
    obtain ⟨⟨ht1, ht2⟩, ht3⟩ := ht
    have ha : sem.apply op (ins.map (stripE fty e)) = sem.apply op (ins.map e) := by
      refine hN op _ _ (plain_stripE fty e ins) fun hk => ?_
      simp only [hk, bne_self_eq_false, Bool.false_or] at ht3
      cases ins with
      | nil => rfl
      | cons i ins =>
        simp only [List.headD_cons] at ht3
        simp [stripE, stripIf, ht3]
    simp only [nodeVals, Node.outs]
    split
    · rename_i hk
      simp only [hk, bne_self_eq_false, Bool.false_or] at ht2
      simp only [wfNode, hk, bne_self_eq_false, Bool.false_or, Bool.and_eq_true, beq_iff_eq, bne_iff_ne] at hw
      cases outs with
      | nil => exact absurd hw.2.1 (by simpa using hw.2.2)
      | cons o outs =>
        cases ins with
        | nil => simp at hw
        | cons i ins =>
          rw [ha]
          simp only [List.all_cons, Bool.and_eq_true, Bool.not_eq_true', List.tail_cons] at ht1 ht2
          simp only [List.map_cons, stripL, List.tail_cons]
          congr 1
          · rw [ht1.1]
            cases sem.apply op (e i :: ins.map e) with
            | nil => exact (strip_none _).symm
            | cons v vs => cases v <;> rfl
          · have hlen : outs.length = ins.length := by simpa using hw.2.1.symm
            rw [all_false (fty := fty) (l := outs) (by simpa using ht1.2), hlen, ← all_false (fty := fty) (l := ins) (by simpa using ht2),
              stripL_map]
    · rw [ha, stripL_lift]
  | .gamma pred ins outs subs, A, e, hw, ht => by
    simp only [tyNode] at ht
    simp only [wfNode, Bool.and_eq_true] at hw
    simp only [nodeVals, Node.outs]
    cases hp : e pred with
    | none =>
      have : stripE fty e pred = none := by simp only [stripE, hp]; exact strip_none _
      rw [this]
      cases outs <;> rfl
    | some p =>
      obtain ⟨q, hq, hq'⟩ : ∃ q, stripE fty e pred = some q ∧ q.1 = p.1 := by
        simp only [stripE, hp, stripIf, strip]
        split
        · exact ⟨p, rfl, rfl⟩
        · exact ⟨_, rfl, rfl⟩
      rw [hq]
      simp only [hq']
      rw [← stripL_map]
      exact regions_strip hN subs _ _ _ hw.2 ht
  | .theta ins outs args pred posts sub, A, e, hw, ht => by
    simp only [tyNode, Bool.and_eq_true, beq_iff_eq] at ht
    obtain ⟨⟨⟨t1, t2⟩, t3⟩, t4⟩ := ht
    simp only [wfNode, Bool.and_eq_true] at hw
    simp only [nodeVals, Node.outs]
    rw [t3, ← stripL_map]
    refine loopVals_strip (b := fty pred) (fun ws => ?_) _
    have h1 := stripE_upd fty args emptyEnv ws
    rw [stripE_empty, t1] at h1
    rw [← h1, nodes_strip hN sub _ hw.1.2 t4]
    simp only [List.map_cons, List.headD_cons, List.tail_cons]
    rw [← stripL_map, t2]
    rfl
  | .lambda .., A, e, hw, ht => by simp [tyNode] at ht
  | .phi .., A, e, hw, ht => by simp [tyNode] at ht
  | .delta .., A, e, hw, ht => by simp [tyNode] at ht

theorem nodes_strip {sem : Sem V} (hN : NoPeek sem) {fty : Out → Bool} : ∀ (ns : Nodes) {A : List Out} (e : Env V), wfNodes A ns = true →
    tyNodes fty ns = true → evalNodes sem ns (stripE fty e) = stripE fty (evalNodes sem ns e)
  | .nil, A, e, hw, ht => by simp [evalNodes]
  | .cons x ns, A, e, hw, ht => by
    simp only [wfNodes, Bool.and_eq_true] at hw
    simp only [tyNodes, Bool.and_eq_true] at ht
    simp only [evalNodes]
    rw [node_strip hN x e hw.1 ht.1, ← stripE_upd, nodes_strip hN ns _ hw.2 ht.2]

theorem regions_strip {sem : Sem V} (hN : NoPeek sem) {fty : Out → Bool} : ∀ (subs : Regions) {na nr : Nat} {ib ob : List Bool} (k : Nat) (v : V)
    (ws : List (W V)), wfRegions na nr subs = true → tyRegions fty ib ob subs = true →
    regionVals sem subs k (some (v, none) :: stripL ib ws) = stripL ob (regionVals sem subs k (some (v, none) :: ws))
  | .nil, na, nr, ib, ob, k, v, ws, hw, ht => by cases ob <;> simp [regionVals, stripL]
  | .cons args results sub rest, na, nr, ib, ob, 0, v, ws, hw, ht => by
    simp only [wfRegions, Bool.and_eq_true] at hw
    simp only [tyRegions, Bool.and_eq_true, beq_iff_eq] at ht
    simp only [regionVals]
    have h1 : upd (emptyEnv : Env V) args (some (v, none) :: stripL ib ws) = stripE fty (upd emptyEnv args (some (v, none) :: ws)) := by
      rw [stripE_upd, stripE_empty]
      cases args with
      | nil => rfl
      | cons a args =>
        have := ht.1.1.1
        simp only [List.tail_cons] at this
        simp only [List.map_cons, stripL, this]
        have e : stripIf (fty a) (some (v, none) : W V) = some (v, none) := by cases fty a <;> rfl
        rw [e]
    rw [h1, nodes_strip hN sub _ hw.1.1.2 ht.1.2, ← stripL_map, ht.1.1.2]
  | .cons args results sub rest, na, nr, ib, ob, k + 1, v, ws, hw, ht => by
    simp only [wfRegions, Bool.and_eq_true] at hw
    simp only [tyRegions, Bool.and_eq_true] at ht
    simp only [regionVals]
    exact regions_strip hN rest k v ws hw.2 ht.2

end

end Jlm.Opt.Inline
