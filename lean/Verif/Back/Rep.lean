import Verif.Back.Machine
import Verif.Front.ConvertLemmas
import Verif.Opt.CneCert
import Verif.Opt.DneWf
import Verif.Opt.DneEval

/-!
# Graphs that contain the translation of a region
-/

set_option linter.unusedSimpArgs false
set_option linter.unusedVariables false

namespace Jlm.Back

open Jlm.Opt Jlm.Front

/-- The outputs of a gamma node: an output has the variable of its results, or is that of a phi operation. -/
def GammaRep (m : Out → Var) (ends : List Nat) : List Out → List (List Out) → List Phi → Prop
  | [], _, ps => ps = []
  | o :: outs, rss, ps =>
      ((∀ rs ∈ rss, m (rs.headD 0) = m o) ∧ GammaRep m ends outs (rss.map List.tail) ps) ∨
      (m o = o ∧ ∃ ps', ps = ⟨o, ends.zip (rss.map fun rs => m (rs.headD 0))⟩ :: ps' ∧
        GammaRep m ends outs (rss.map List.tail) ps')

def thetaPhis (m : Out → Var) (need : Out → Out → Bool) (b l : Nat) : List LoopVar → List Phi
  | [] => []
  | (i, a, p, _) :: lvs =>
      if need a p then ⟨a, [(b, m i), (l, m p)]⟩ :: thetaPhis m need b l lvs else thetaPhis m need b l lvs

mutual

/-- The code between `(b, r)` and `(b', r')` is that of the node. -/
def RepNode (B : Nat → Block) (m : Out → Var) : Node → Nat → List Tac → Nat → List Tac → Prop
  | .simple op ins outs, b, r, b', r' => b' = b ∧ r = .op op (ins.map m) outs :: r' ∧ ∀ o ∈ outs, m o = o
  | .gamma pred ins outs subs, b, r, x, r' =>
      r = [] ∧ (B x).code = r' ∧ ∃ (e : Nat) (es ends : List Nat), (B b).succs = [e] ∧ B e = ⟨[], [.branch (m pred)], es⟩ ∧
        ends.Nodup ∧ RepRegions B m ins x subs es ends ∧ GammaRep m ends outs (Regions.results subs) (B x).phis
  | .theta ins outs args pred posts sub, b, r, x, r' =>
      r = [] ∧ (B x).phis = [] ∧ (B x).code = r' ∧ ∃ e l b1 bn : Nat, (B b).succs = [e] ∧ (B e).code = [] ∧
        (B e).succs = [b1] ∧ (B b1).phis = [] ∧ RepNodes B m sub b1 (B b1).code bn [] ∧ (B bn).succs = [l] ∧
        B l = ⟨[], [.branch (m pred)], [x, e]⟩ ∧ b ≠ l ∧
        (B e).phis = thetaPhis m (needsPhi sub (pred :: posts)) b l (loopVars ins args posts outs) ∧
        ∀ v ∈ loopVars ins args posts outs,
          m v.2.2.2 = m v.2.2.1 ∧ m v.2.1 = if needsPhi sub (pred :: posts) v.2.1 v.2.2.1 then v.2.1 else m v.1
  | .lambda .., _, _, _, _ => False
  | .phi .., _, _, _, _ => False
  | .delta .., _, _, _, _ => False

def RepNodes (B : Nat → Block) (m : Out → Var) : Nodes → Nat → List Tac → Nat → List Tac → Prop
  | .nil, b, r, b', r' => b' = b ∧ r' = r
  | .cons n ns, b, r, b', r' => ∃ b1 r1, RepNode B m n b r b1 r1 ∧ RepNodes B m ns b1 r1 b' r'

def RepRegions (B : Nat → Block) (m : Out → Var) (ins : List Out) (x : Nat) : Regions → List Nat → List Nat → Prop
  | .nil, es, ends => es = [] ∧ ends = []
  | .cons args _ sub rest, es, ends =>
      ∃ (b l b1 bn : Nat) (es' ends' : List Nat), es = b :: es' ∧ ends = l :: ends' ∧ B b = ⟨[], [], [b1]⟩ ∧
        (B b1).phis = [] ∧ RepNodes B m sub b1 (B b1).code bn [] ∧ (B bn).succs = [l] ∧ B l = ⟨[], [], [x]⟩ ∧
        args.tail.map m = ins.map m ∧ RepRegions B m ins x rest es' ends'

end

/-! ### Names -/

theorem outs_names (n : Node) : ∀ o ∈ n.outs, o ∈ namesNode n := by
  cases n <;> simp +contextual [Node.outs, namesNode]

theorem outs_namesNodes : ∀ (ns : Nodes), ∀ o ∈ ns.outs, o ∈ namesNodes ns
  | .nil, o, h => by simp [Nodes.outs] at h
  | .cons n ns, o, h => by
    simp only [Nodes.outs, List.mem_append] at h
    simp only [namesNodes, List.mem_append]
    exact h.imp (outs_names n o) (outs_namesNodes ns o)

theorem mem_subset {xs ys : List Out} : subset xs ys = true ↔ ∀ x ∈ xs, x ∈ ys := by simp [subset]

/-! ### Loop variables -/

theorem mem_loopVars {ins args posts outs : List Out} {i a p o : Out} :
    (i, a, p, o) ∈ loopVars ins args posts outs ↔
      ∃ k : Nat, ins[k]? = some i ∧ args[k]? = some a ∧ posts[k]? = some p ∧ outs[k]? = some o := by
  simp only [loopVars, List.mem_iff_getElem?, List.getElem?_zip_eq_some]

/-! ### Phi operations -/

variable {V : Type}

theorem setAll_eq_upd {E : Env V} : ∀ {vs : List Var} {ws : List (W V)}, vs.Nodup → setAll E vs ws = upd E vs ws
  | [], _, _ => rfl
  | v :: vs, ws, h => by
    have hn := List.nodup_cons.1 h
    rw [setAll, setAll_eq_upd hn.2]
    funext u
    by_cases hu : u = v
    · subst hu; rw [upd_notin _ _ _ _ hn.1]; simp [upd, Front.set]
    · simp only [upd, if_neg hu]
      exact upd_congr vs ws.tail u fun _ => by simp [Front.set, hu]

theorem enter_notin {ps : List Phi} {p : Nat} {s : St V} {u : Var} (h : u ∉ ps.map Phi.res) :
    (enter ps p s).env u = s.env u := setAll_notin h

theorem enter_mem {ps : List Phi} {p : Nat} {s : St V} (hn : (ps.map Phi.res).Nodup) {q : Phi} (hq : q ∈ ps) {v : Var}
    (hv : q.ins.lookup p = some v) : (enter ps p s).env q.res = s.env v := by
  obtain ⟨k, hk, rfl⟩ := List.mem_iff_getElem.1 hq
  simp only [enter]
  rw [setAll_eq_upd hn, Cne.upd_get (k := k) hn (by simp [hk])]
  simp [List.getD_eq_getElem?_getD, hk, hv]

theorem mem_thetaPhis {m : Out → Var} {need : Out → Out → Bool} {b l : Nat} {q : Phi} : ∀ {lvs : List LoopVar},
    q ∈ thetaPhis m need b l lvs ↔ ∃ v ∈ lvs, need v.2.1 v.2.2.1 = true ∧ q = ⟨v.2.1, [(b, m v.1), (l, m v.2.2.1)]⟩
  | [] => by simp [thetaPhis]
  | (i, a, p, o) :: lvs => by
    rw [thetaPhis]
    split <;> simp_all [mem_thetaPhis (lvs := lvs)]

theorem thetaPhis_sublist {m : Out → Var} {need : Out → Out → Bool} {b l : Nat} : ∀ (lvs : List LoopVar),
    ((thetaPhis m need b l lvs).map Phi.res).Sublist (lvs.map fun v => v.2.1)
  | [] => by simp [thetaPhis]
  | (i, a, p, o) :: lvs => by
    rw [thetaPhis]
    split
    · simpa using thetaPhis_sublist lvs
    · simpa using (thetaPhis_sublist lvs).cons a

theorem loopVars_args : ∀ (ins args posts outs : List Out),
    ((loopVars ins args posts outs).map fun v => v.2.1).Sublist args
  | [], args, _, _ => by simp [loopVars]
  | _ :: _, [], _, _ => by simp [loopVars]
  | _ :: _, _ :: _, [], _ => by simp [loopVars]
  | _ :: _, _ :: _, _ :: _, [] => by simp [loopVars]
  | i :: ins, a :: args, p :: posts, o :: outs => by
    simpa [loopVars] using loopVars_args ins args posts outs

theorem gammaRep_res {m : Out → Var} {ends : List Nat} : ∀ {outs : List Out} {rss : List (List Out)} {ps : List Phi},
    GammaRep m ends outs rss ps → (ps.map Phi.res).Sublist outs
  | [], _, ps, h => by rw [GammaRep] at h; simp [h]
  | o :: outs, rss, ps, h => by
    rw [GammaRep] at h
    rcases h with ⟨_, h⟩ | ⟨_, ps', rfl, h⟩
    · exact (gammaRep_res h).cons o
    · simpa using gammaRep_res h

theorem gammaRep_get {m : Out → Var} {ends : List Nat} : ∀ {outs : List Out} {rss : List (List Out)} {ps : List Phi},
    GammaRep m ends outs rss ps → ∀ (j : Nat) (o : Out), outs[j]? = some o →
    (∀ rs ∈ rss, m (rs.getD j 0) = m o) ∨ (m o = o ∧ ⟨o, ends.zip (rss.map fun rs => m (rs.getD j 0))⟩ ∈ ps)
  | [], _, ps, h, j, o, hj => by simp at hj
  | a :: outs, rss, ps, h, 0, o, hj => by
    simp only [List.getElem?_cons_zero, Option.some.injEq] at hj
    subst hj
    rw [GammaRep] at h
    have e : ∀ rs : List Out, rs.getD 0 0 = rs.headD 0 := fun rs => by cases rs <;> rfl
    simp only [e]
    rcases h with ⟨h1, h⟩ | ⟨h1, ps', rfl, h⟩
    · exact .inl h1
    · exact .inr ⟨h1, by simp⟩
  | a :: outs, rss, ps, h, j + 1, o, hj => by
    simp only [List.getElem?_cons_succ] at hj
    rw [GammaRep] at h
    have e : ∀ rs : List Out, rs.getD (j + 1) 0 = rs.tail.getD j 0 := fun rs => by cases rs <;> simp
    simp only [e]
    rcases h with ⟨h1, h⟩ | ⟨h1, ps', rfl, h⟩
    · rcases gammaRep_get h j o hj with h' | ⟨h', h''⟩
      · exact .inl fun rs hr => h' _ (List.mem_map_of_mem hr)
      · exact .inr ⟨h', by simpa [List.map_map, Function.comp_def] using h''⟩
    · rcases gammaRep_get h j o hj with h' | ⟨h', h''⟩
      · exact .inl fun rs hr => h' _ (List.mem_map_of_mem hr)
      · exact .inr ⟨h', List.mem_cons_of_mem _ (by simpa [List.map_map, Function.comp_def] using h'')⟩

theorem lookup_zip {α : Type} : ∀ {ends : List Nat} {vs : List α} {k : Nat} {l : Nat} {v : α}, ends.Nodup →
    ends[k]? = some l → vs[k]? = some v → (ends.zip vs).lookup l = some v
  | [], _, _, _, _, _, h, _ => by simp at h
  | _ :: _, [], _, _, _, _, _, h => by simp at h
  | e :: ends, u :: vs, 0, l, v, _, h, h' => by
    simp at h h'; simp [List.lookup, h, h']
  | e :: ends, u :: vs, k + 1, l, v, hn, h, h' => by
    simp only [List.getElem?_cons_succ] at h h'
    have hn := List.nodup_cons.1 hn
    have : l ≠ e := fun e' => hn.1 (e' ▸ List.mem_of_getElem? h)
    have : (l == e) = false := by simpa using this
    simp [List.lookup, this, lookup_zip hn.2 h h']

/-! ### The variables of outputs -/

mutual

theorem repNode_var {B : Nat → Block} {m : Out → Var} : ∀ (n : Node) {A : List Out} {b b' : Nat} {r r' : List Tac},
    RepNode B m n b r b' r' → wfNode A n = true → Node.supported n = true →
    ∀ o ∈ n.outs, (∃ i ∈ A, m o = m i) ∨ m o ∈ namesNode n
  | .simple op ins outs, A, b, b', r, r', h, hw, hs, o, ho => by
    rw [RepNode] at h
    exact .inr (by rw [h.2.2 o ho]; exact outs_names _ _ ho)
  | .gamma pred ins outs subs, A, b, b', r, r', h, hw, hs, o, ho => by
    rw [RepNode] at h
    obtain ⟨_, _, e, es, ends, _, _, _, hr, hg⟩ := h
    simp only [wfNode, Bool.and_eq_true, mem_subset] at hw
    simp only [Node.supported, Bool.and_eq_true, decide_eq_true_eq] at hs
    obtain ⟨j, hj⟩ := List.mem_iff_getElem?.1 ho
    rcases gammaRep_get hg j o hj with h | ⟨h, _⟩
    · cases subs with
      | nil => simp [Regions.length] at hs
      | cons args results sub rest =>
        simp only [wfRegions, Bool.and_eq_true, mem_subset, beq_iff_eq] at hw
        obtain ⟨hpi, ⟨⟨⟨hl1, hl2⟩, hwf⟩, hsub⟩, hrest⟩ := hw
        rw [RepRegions] at hr
        obtain ⟨b0, l, b1, bn, es', ends', _, _, _, _, hrep, _, _, hargs, _⟩ := hr
        simp only [Regions.supported, Bool.and_eq_true, Bool.not_eq_true', List.contains_eq_mem, decide_eq_false_iff_not] at hs
        obtain ⟨_, ⟨⟨h1, h2⟩, h3⟩, h4⟩ := hs
        have hjl : j < results.length := by
          rw [hl2]; exact (List.getElem?_eq_some_iff.1 hj).1
        have hm := h results (by simp [Regions.results])
        have hmem : results.getD j 0 ∈ results := by simp [List.getD_eq_getElem?_getD, hjl]
        rw [← hm]
        have hne : results.getD j 0 ≠ args.headD 0 := fun e => h2 (e ▸ hmem)
        have hin := hsub _ hmem
        cases args with
        | nil => simp at hl1
        | cons a0 as =>
          rcases List.mem_append.1 hin with hin | hin
          · have hin : results.getD j 0 ∈ as := by
              rcases List.mem_cons.1 hin with h | h
              · exact absurd h hne
              · exact h
            have : m (results.getD j 0) ∈ ins.map m := by
              rw [← hargs]; exact List.mem_map_of_mem hin
            obtain ⟨i, hi, he⟩ := List.mem_map.1 this
            exact .inl ⟨i, hpi i (by simp [hi]), he.symm⟩
          · rcases repNodes_var sub (A := as) hrep (Dne.wfNodes_mono sub _ _ (fun y hy hya => by
              rcases List.mem_cons.1 hya with h | h
              · exact absurd (h ▸ hy) h1
              · exact h) hwf) h3 (results.getD j 0) hin with ⟨i, hi, he⟩ | h'
            · have : m i ∈ ins.map m := by rw [← hargs]; exact List.mem_map_of_mem hi
              obtain ⟨i', hi', he'⟩ := List.mem_map.1 this
              exact .inl ⟨i', hpi i' (by simp [hi']), by rw [he', he]⟩
            · exact .inr (by simp only [namesNode, namesRegions, List.mem_append]; exact .inr (.inl (.inr h')))
    · exact .inr (by rw [h]; exact outs_names _ _ ho)
  | .theta ins outs args pred posts sub, A, b, b', r, r', h, hw, hs, o, ho => by
    rw [RepNode] at h
    obtain ⟨_, _, _, e, l, b1, bn, _, _, _, _, hrep, _, _, _, _, hv⟩ := h
    simp only [wfNode, Bool.and_eq_true, mem_subset, beq_iff_eq] at hw
    obtain ⟨⟨⟨⟨⟨hi, hl1⟩, hl2⟩, hl3⟩, hwf⟩, hsub⟩ := hw
    simp only [Node.supported] at hs
    obtain ⟨k, hk⟩ := List.mem_iff_getElem?.1 ho
    simp only [Node.outs] at hk
    have hkl := (List.getElem?_eq_some_iff.1 hk).1
    have hargs : ∀ a ∈ args, (∃ i ∈ A, m a = m i) ∨ m a ∈ namesNode (.theta ins outs args pred posts sub) := by
      intro a ha
      obtain ⟨k, hk⟩ := List.mem_iff_getElem?.1 ha
      have hkl := (List.getElem?_eq_some_iff.1 hk).1
      have hm := hv _ (mem_loopVars.2 ⟨k, List.getElem?_eq_getElem (by omega), hk, List.getElem?_eq_getElem (by omega),
        List.getElem?_eq_getElem (by omega)⟩)
      simp only at hm
      rw [hm.2]
      split
      · exact .inr (by simp [namesNode, ha])
      · exact .inl ⟨_, hi _ (List.getElem_mem (h := by omega)), rfl⟩
    have hm := hv _ (mem_loopVars.2 ⟨k, List.getElem?_eq_getElem (by omega), List.getElem?_eq_getElem (by omega),
      List.getElem?_eq_getElem (by omega), hk⟩)
    simp only at hm
    rw [hm.1]
    rcases List.mem_append.1 (hsub posts[k] (by simp)) with h | h
    · exact hargs _ h
    · rcases repNodes_var sub (A := args) hrep hwf hs _ h with ⟨a, ha, he⟩ | h'
      · rw [he]; exact hargs a ha
      · exact .inr (by simp [namesNode, h'])
  | .lambda .., A, b, b', r, r', h, hw, hs, o, ho => by rw [RepNode] at h; exact h.elim
  | .phi .., A, b, b', r, r', h, hw, hs, o, ho => by rw [RepNode] at h; exact h.elim
  | .delta .., A, b, b', r, r', h, hw, hs, o, ho => by rw [RepNode] at h; exact h.elim

theorem repNodes_var {B : Nat → Block} {m : Out → Var} : ∀ (ns : Nodes) {A : List Out} {b b' : Nat} {r r' : List Tac},
    RepNodes B m ns b r b' r' → wfNodes A ns = true → Nodes.supported ns = true →
    ∀ o ∈ ns.outs, (∃ i ∈ A, m o = m i) ∨ m o ∈ namesNodes ns
  | .nil, A, b, b', r, r', h, hw, hs, o, ho => by simp [Nodes.outs] at ho
  | .cons n ns, A, b, b', r, r', h, hw, hs, o, ho => by
    rw [RepNodes] at h
    obtain ⟨b1, r1, h1, h2⟩ := h
    simp only [wfNodes, Bool.and_eq_true] at hw
    simp only [Nodes.supported, Bool.and_eq_true] at hs
    have h0 := repNode_var n h1 hw.1 hs.1
    simp only [namesNodes, List.mem_append]
    rcases List.mem_append.1 ho with ho | ho
    · exact (h0 o ho).imp id .inl
    · rcases repNodes_var ns h2 hw.2 hs.2 o ho with ⟨i, hi, he⟩ | h'
      · rcases List.mem_append.1 hi with hi | hi
        · rw [he]; exact (h0 i hi).imp id .inl
        · exact .inl ⟨i, hi, he⟩
      · exact .inr (.inr h')

end

end Jlm.Back
