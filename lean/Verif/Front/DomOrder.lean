import Verif.Front.DomSpec
import Mathlib.Data.List.Nodup
import Mathlib.Data.List.Basic

set_option linter.unusedSimpArgs false
set_option linter.unusedVariables false

/-! # The postorder of `postorder` -/

namespace Jlm.Front.Dom

variable {succs : Nat → List Nat}

abbrev St := List Nat × List Nat

/-- `new`: the nodes finished between the states. -/
structure Ext (succs : Nat → List Nat) (st st' : St) (new : List Nat) : Prop where
  out : st'.2 = st.2 ++ new
  vis : ∀ x, x ∈ st'.1 ↔ x ∈ st.1 ∨ x ∈ new
  fresh : ∀ x ∈ new, x ∉ st.1
  nodup : new.Nodup
  closed : ∀ x ∈ new, ∀ y ∈ succs x, y ∈ st'.1

/-- Each node has a predecessor later in the list, or `u` is one. -/
def Good (succs : Nat → List Nat) (u : Nat) : List Nat → Prop
  | [] => True
  | x :: b => ((∃ p ∈ b, x ∈ succs p) ∨ x ∈ succs u) ∧ Good succs u b

theorem Good.append {u : Nat} {a b : List Nat} (ha : Good succs u a) (hb : Good succs u b) : Good succs u (a ++ b) := by
  induction a with
  | nil => exact hb
  | cons x a ih =>
      refine ⟨?_, ih ha.2⟩
      rcases ha.1 with ⟨p, hp, h⟩ | h
      · exact Or.inl ⟨p, List.mem_append_left _ hp, h⟩
      · exact Or.inr h

theorem Good.child {u v : Nat} (hv : v ∈ succs u) {w : List Nat} (h : Good succs v w) : Good succs u (w ++ [v]) := by
  induction w with
  | nil => exact ⟨Or.inr hv, trivial⟩
  | cons x w ih =>
      refine ⟨Or.inl ?_, ih h.2⟩
      rcases h.1 with ⟨p, hp, h'⟩ | h'
      · exact ⟨p, List.mem_append_left _ hp, h'⟩
      · exact ⟨v, by simp, h'⟩

theorem Ext.refl (st : St) : Ext succs st st [] :=
  ⟨by simp, by simp, by simp, List.nodup_nil, by simp⟩

theorem Ext.trans {a b c : St} {l m : List Nat} (h : Ext succs a b l) (k : Ext succs b c m) : Ext succs a c (l ++ m) := by
  refine ⟨by rw [k.out, h.out, List.append_assoc], ?_, ?_, ?_, ?_⟩
  · intro x
    rw [k.vis, h.vis, List.mem_append, or_assoc]
  · intro x hx
    rcases List.mem_append.1 hx with hx | hx
    · exact h.fresh x hx
    · intro hc
      exact k.fresh x hx ((h.vis x).2 (Or.inl hc))
  · rw [List.nodup_append]
    refine ⟨h.nodup, k.nodup, ?_⟩
    rintro x hx y hy rfl
    exact k.fresh x hy ((h.vis x).2 (Or.inr hx))
  · intro x hx y hy
    rcases List.mem_append.1 hx with hx | hx
    · exact (k.vis y).2 (Or.inl (h.closed x hx y hy))
    · exact k.closed x hx y hy

/-- Number of nodes not visited. -/
def unvisited (n : Nat) (vis : List Nat) : Nat := ((List.range n).filter fun x => !vis.contains x).length

theorem filter_length_le {p q : Nat → Bool} (l : List Nat) (h : ∀ x ∈ l, p x = true → q x = true) : (l.filter p).length ≤ (l.filter q).length := by
  induction l with
  | nil => simp
  | cons x l ih =>
      have ih := ih fun y hy => h y (List.mem_cons_of_mem _ hy)
      simp only [List.filter_cons]
      by_cases hp : p x = true
      · rw [if_pos hp, if_pos (h x (by simp) hp)]
        simp only [List.length_cons]; omega
      · rw [if_neg hp]
        split
        · simp only [List.length_cons]; omega
        · exact ih

theorem filter_length_lt {p q : Nat → Bool} (l : List Nat) (h : ∀ x ∈ l, p x = true → q x = true) {y : Nat} (hy : y ∈ l) (hq : q y = true)
    (hp : p y = false) : (l.filter p).length < (l.filter q).length := by
  induction l with
  | nil => simp at hy
  | cons x l ih =>
      simp only [List.filter_cons]
      have hle := filter_length_le l fun y hy => h y (List.mem_cons_of_mem _ hy)
      rcases List.mem_cons.1 hy with rfl | hy
      · rw [hp, hq]
        simp only [if_true, Bool.false_eq_true, if_false, List.length_cons]; omega
      · have ih := ih (fun y hy => h y (List.mem_cons_of_mem _ hy)) hy
        by_cases hpx : p x = true
        · rw [if_pos hpx, if_pos (h x (by simp) hpx)]
          simp only [List.length_cons]; omega
        · rw [if_neg hpx]
          split
          · simp only [List.length_cons]; omega
          · exact ih

theorem unvisited_le {n : Nat} {vis vis' : List Nat} (h : ∀ x ∈ vis, x ∈ vis') : unvisited n vis' ≤ unvisited n vis := by
  apply filter_length_le
  intro x _ hx
  simp at hx ⊢
  exact fun hc => hx (h x hc)

theorem unvisited_cons {n u : Nat} {vis : List Nat} (hu : u < n) (h : u ∉ vis) : unvisited n (u :: vis) < unvisited n vis := by
  apply filter_length_lt (y := u)
  · intro x _ hx
    simp at hx ⊢
    exact hx.2
  · simpa using hu
  · simpa using h
  · simp

theorem unvisited_pos {n u : Nat} {vis : List Nat} (hu : u < n) (h : u ∉ vis) : 0 < unvisited n vis :=
  Nat.lt_of_le_of_lt (Nat.zero_le _) (unvisited_cons hu h)

theorem traverse_spec {n : Nat} (hs : ∀ u < n, ∀ v ∈ succs u, v < n) : ∀ (f u : Nat) (st : St), u < n → u ∉ st.1 → unvisited n st.1 ≤ f →
    ∃ w, Ext succs st (traverse succs f u st) (w ++ [u]) ∧ Good succs u w
  | 0, u, st, hu, hv, hf => absurd (unvisited_pos hu hv) (by omega)
  | f + 1, u, st, hu, hv, hf => by
      have hf' : unvisited n (u :: st.1) ≤ f := by have := unvisited_cons hu hv; omega
      -- the loop over the successors
      have loop : ∀ (vs : List Nat) (a : St), (∀ v ∈ vs, v ∈ succs u) → unvisited n a.1 ≤ f →
          ∃ w, Ext succs a (vs.foldl (fun st v => if st.1.contains v then st else traverse succs f v st) a) w ∧ Good succs u w ∧
            ∀ v ∈ vs, v ∈ (vs.foldl (fun st v => if st.1.contains v then st else traverse succs f v st) a).1 := by
        intro vs
        induction vs with
        | nil => intro a _ _; exact ⟨[], .refl _, trivial, by simp⟩
        | cons v vs ih =>
            intro a hvs ha
            simp only [List.foldl_cons]
            by_cases hc : v ∈ a.1
            · rw [if_pos (by simpa using hc)]
              obtain ⟨w, he, hg, hm⟩ := ih a (fun x hx => hvs x (List.mem_cons_of_mem _ hx)) ha
              refine ⟨w, he, hg, ?_⟩
              intro x hx
              rcases List.mem_cons.1 hx with rfl | hx
              · exact (he.vis x).2 (Or.inl hc)
              · exact hm x hx
            · rw [if_neg (by simpa using hc)]
              have hvu := hvs v (by simp)
              obtain ⟨w1, he1, hg1⟩ := traverse_spec hs f v a (hs u hu v hvu) hc ha
              have hle : unvisited n (traverse succs f v a).1 ≤ unvisited n a.1 := unvisited_le fun x hx => (he1.vis x).2 (Or.inl hx)
              obtain ⟨w, he, hg, hm⟩ := ih (traverse succs f v a) (fun x hx => hvs x (List.mem_cons_of_mem _ hx)) (by omega)
              refine ⟨(w1 ++ [v]) ++ w, he1.trans he, (Good.child hvu hg1).append hg, ?_⟩
              intro x hx
              rcases List.mem_cons.1 hx with rfl | hx
              · exact (he.vis x).2 (Or.inl ((he1.vis x).2 (Or.inr (by simp))))
              · exact hm x hx
      obtain ⟨w, he, hg, hm⟩ := loop (succs u) (u :: st.1, st.2) (fun _ h => h) hf'
      refine ⟨w, ?_, hg⟩
      simp only [traverse]
      generalize (succs u).foldl (fun st v => if st.1.contains v then st else traverse succs f v st) (u :: st.1, st.2) = b at he hm
      refine ⟨?_, ?_, ?_, ?_, ?_⟩
      · simp only; rw [he.out, List.append_assoc]
      · intro x
        simp only [he.vis, List.mem_cons, List.mem_append, List.mem_singleton, List.not_mem_nil, or_false]
        constructor
        · rintro ((h | h) | h)
          · exact Or.inr (Or.inr h)
          · exact Or.inl h
          · exact Or.inr (Or.inl h)
        · rintro (h | h | h)
          · exact Or.inl (Or.inr h)
          · exact Or.inr h
          · exact Or.inl (Or.inl h)
      · intro x hx
        rcases List.mem_append.1 hx with hx | hx
        · intro hc
          exact he.fresh x hx (List.mem_cons_of_mem _ hc)
        · simp at hx; subst hx; exact hv
      · rw [List.nodup_append]
        refine ⟨he.nodup, by simp, ?_⟩
        rintro x hx y hy rfl
        simp at hy
        subst hy
        exact he.fresh x hx (by simp)
      · intro x hx y hy
        simp only
        rcases List.mem_append.1 hx with hx | hx
        · exact he.closed x hx y hy
        · simp at hx; subst hx; exact hm y hy

/-! ## Orders of control flow graphs -/

theorem good_walk {G : Cfg} {w : List Nat} (h : Good G.succs G.entry w) : ∀ x ∈ w, Reachable G x := by
  induction w with
  | nil => simp
  | cons x w ih =>
      intro y hy
      rcases List.mem_cons.1 hy with rfl | hy
      · rcases h.1 with ⟨p, hp, hx⟩ | hx
        · obtain ⟨l, hl⟩ := ih h.2 p hp
          exact ⟨_, hl.step hx⟩
        · exact ⟨_, Walk.entry.step hx⟩
      · exact ih h.2 y hy

theorem postorder_form {G : Cfg} (hG : G.WF) : ∃ w, G.postorder = w ++ [G.entry] ∧ Good G.succs G.entry w ∧ (w ++ [G.entry]).Nodup ∧
    ∀ x ∈ w ++ [G.entry], ∀ y ∈ G.succs x, y ∈ w ++ [G.entry] := by
  have hle : unvisited G.num [] ≤ G.num + 1 := by
    refine Nat.le_trans (List.length_filter_le _ _) ?_
    simp
  obtain ⟨w, he, hg⟩ := traverse_spec hG.succs (G.num + 1) G.entry ([], []) hG.entry (by simp) hle
  refine ⟨w, ?_, hg, he.nodup, ?_⟩
  · unfold Cfg.postorder
    rw [he.out]; rfl
  · intro x hx y hy
    have := he.closed x hx y hy
    rw [he.vis] at this
    simpa using this

/-- **C51** The (reverse) postorder lists the reachable nodes, each of them once. -/
theorem C51_rpo (G : Cfg) (hG : G.WF) : G.rpo.Nodup ∧ ∀ b, b ∈ G.rpo ↔ Reachable G b := by
  obtain ⟨w, hw, hg, hn, hc⟩ := postorder_form hG
  unfold Cfg.rpo
  rw [hw]
  refine ⟨List.nodup_reverse.2 hn, fun b => ?_⟩
  rw [List.mem_reverse]
  constructor
  · intro h
    rcases List.mem_append.1 h with h | h
    · exact good_walk hg b h
    · simp at h; subst h; exact ⟨_, .entry⟩
  · rintro ⟨l, hl⟩
    induction hl with
    | entry => simp
    | step _ hv ih => exact hc _ ih _ hv

/-- **C51** The reverse postorder starts with the entry, and every other node has a predecessor before it. -/
theorem C51_rpo_order (G : Cfg) (hG : G.WF) : (∃ l, G.rpo = G.entry :: l) ∧
    ∀ b ∈ G.rpo, b ≠ G.entry → ∃ p, b ∈ G.succs p ∧ p ∈ G.rpo ∧ G.rpo.idxOf p < G.rpo.idxOf b := by
  obtain ⟨w, hw, hg, hn, hc⟩ := postorder_form hG
  unfold Cfg.rpo
  rw [hw]
  refine ⟨⟨w.reverse, by simp⟩, ?_⟩
  intro b hb hbe
  have hbw : b ∈ w := by simpa [hbe] using hb
  obtain ⟨s, t, rfl⟩ := List.append_of_mem hbw
  have hgb : Good G.succs G.entry (b :: t) := by
    clear hw hn hc hb hbw
    induction s with
    | nil => exact hg
    | cons x s ih => exact ih hg.2
  have hrev : ((s ++ b :: t) ++ [G.entry]).reverse = (t ++ [G.entry]).reverse ++ b :: s.reverse := by simp
  have hnr : (((s ++ b :: t) ++ [G.entry]).reverse).Nodup := List.nodup_reverse.2 hn
  have hbi : (((s ++ b :: t) ++ [G.entry]).reverse).idxOf b = (t ++ [G.entry]).length := by
    rw [hrev] at hnr ⊢
    have hnot : b ∉ (t ++ [G.entry]).reverse := by
      intro h
      have := (List.nodup_append.1 hnr).2.2 b h b (by simp)
      exact this rfl
    rw [List.idxOf_append_of_notMem hnot]
    simp
  have hlt : ∀ p ∈ t ++ [G.entry], (((s ++ b :: t) ++ [G.entry]).reverse).idxOf p < (t ++ [G.entry]).length := by
    intro p hp
    rw [hrev, List.idxOf_append_of_mem (List.mem_reverse.2 hp)]
    have := List.idxOf_lt_length_of_mem (a := p) (l := (t ++ [G.entry]).reverse) (List.mem_reverse.2 hp)
    simpa using this
  have main : ∃ p ∈ t ++ [G.entry], b ∈ G.succs p := by
    rcases hgb.1 with ⟨p, hp, h⟩ | h
    · exact ⟨p, List.mem_append_left _ hp, h⟩
    · exact ⟨G.entry, by simp, h⟩
  obtain ⟨p, hp, h⟩ := main
  refine ⟨p, h, ?_, ?_⟩
  · rw [hrev]
    exact List.mem_append_left _ (List.mem_reverse.2 hp)
  · rw [hbi]
    exact hlt p hp

end Jlm.Front.Dom
