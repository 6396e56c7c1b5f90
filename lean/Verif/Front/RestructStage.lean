import Verif.Front.RestructDetour

/-!
# Control flow restructuring: the elementary steps
-/

set_option linter.unusedSimpArgs false
set_option linter.unusedVariables false

namespace Jlm.Front

open Jlm.Opt

variable {V : Type} {sem : Sem V} {truth : V → Bool} {K : Nat → Prop} {fix : Bool} {v0 : Nat}

/-- The successors when the loops that have been taken out of the graph are considered to be in it. -/
def gs (loops : List TcLoop) (succs : Nat → List Nat) (x : Nat) : List Nat :=
  match loops.find? (fun l => l.insert == x) with
  | some l => succs l.replacement
  | none => match loops.find? (fun l => l.replacement == x) with
    | some l => [l.ne]
    | none => succs x

/-- The graph with all loops in it. -/
def RSt.ghost (st : RSt) : Cfg := { st.C with succs := gs st.loops st.C.succs }

def stubs (loops : List TcLoop) : List Nat := loops.flatMap fun l => [l.insert, l.replacement]

theorem mem_stubs {loops : List TcLoop} {x : Nat} : x ∈ stubs loops ↔ ∃ l ∈ loops, x = l.insert ∨ x = l.replacement := by
  simp [stubs]

theorem gs_other {loops : List TcLoop} {succs : Nat → List Nat} {x : Nat} (h : x ∉ stubs loops) :
    gs loops succs x = succs x := by
  rw [mem_stubs] at h
  have h1 : loops.find? (fun l => l.insert == x) = none := by
    rw [List.find?_eq_none]
    intro l hl e
    exact h ⟨l, hl, .inl (by simpa using Eq.symm (by simpa using e))⟩
  have h2 : loops.find? (fun l => l.replacement == x) = none := by
    rw [List.find?_eq_none]
    intro l hl e
    exact h ⟨l, hl, .inr (by simpa using Eq.symm (by simpa using e))⟩
  simp [gs, h1, h2]

theorem stubs_inj {loops : List TcLoop} (hn : (stubs loops).Nodup) : ∀ l ∈ loops, ∀ l' ∈ loops,
    (l.insert = l'.insert → l = l') ∧ (l.replacement = l'.replacement → l = l') ∧ l.insert ≠ l'.replacement := by
  induction loops with
  | nil => intro l hl; cases hl
  | cons a ls ih =>
    have e : stubs (a :: ls) = [a.insert, a.replacement] ++ stubs ls := rfl
    rw [e, List.nodup_append] at hn
    obtain ⟨h1, h2, h3⟩ := hn
    have hd : ∀ l ∈ ls, a.insert ≠ l.insert ∧ a.insert ≠ l.replacement ∧ a.replacement ≠ l.insert ∧
        a.replacement ≠ l.replacement := fun l hl =>
      ⟨h3 _ (by simp) _ (mem_stubs.2 ⟨l, hl, .inl rfl⟩), h3 _ (by simp) _ (mem_stubs.2 ⟨l, hl, .inr rfl⟩),
        h3 _ (by simp) _ (mem_stubs.2 ⟨l, hl, .inl rfl⟩), h3 _ (by simp) _ (mem_stubs.2 ⟨l, hl, .inr rfl⟩)⟩
    intro l hl l' hl'
    rcases List.mem_cons.1 hl with e1 | e1 <;> rcases List.mem_cons.1 hl' with e2 | e2
    · subst e1; subst e2
      exact ⟨fun _ => rfl, fun _ => rfl, by simpa using h1⟩
    · subst e1
      obtain ⟨q1, q2, q3, q4⟩ := hd l' e2
      exact ⟨fun e => absurd e q1, fun e => absurd e q4, q2⟩
    · subst e2
      obtain ⟨q1, q2, q3, q4⟩ := hd l e1
      exact ⟨fun e => absurd e.symm q1, fun e => absurd e.symm q4, fun e => q3 e.symm⟩
    · exact ih h2 l e1 l' e2

theorem gs_insert {loops : List TcLoop} {succs : Nat → List Nat} {l : TcLoop} (hn : (stubs loops).Nodup)
    (hl : l ∈ loops) : gs loops succs l.insert = succs l.replacement := by
  rcases h : loops.find? (fun l' => l'.insert == l.insert) with _ | l'
  · rw [List.find?_eq_none] at h
    exact absurd (by simp) (h l hl)
  · have e1 := List.find?_some h
    have e2 := List.mem_of_find?_eq_some h
    have := (stubs_inj hn l' e2 l hl).1 (by simpa using e1)
    simp [gs, h, this]

theorem gs_replacement {loops : List TcLoop} {succs : Nat → List Nat} {l : TcLoop} (hn : (stubs loops).Nodup)
    (hl : l ∈ loops) : gs loops succs l.replacement = [l.ne] := by
  have h0 : loops.find? (fun l' => l'.insert == l.replacement) = none := by
    rw [List.find?_eq_none]
    intro l' hl' e
    exact (stubs_inj hn l' hl' l hl).2.2 (by simpa using e)
  rcases h : loops.find? (fun l' => l'.replacement == l.replacement) with _ | l'
  · rw [List.find?_eq_none] at h
    exact absurd (by simp) (h l hl)
  · have e1 := List.find?_some h
    have e2 := List.mem_of_find?_eq_some h
    have := (stubs_inj hn l' e2 l hl).2.1 (by simpa using e1)
    simp [gs, h0, h, this]

/-- What holds all the time. `K`: the results of match operations that may be inverted. -/
structure Inv (K : Nat → Prop) (fix : Bool) (v0 : Nat) (st : RSt) : Prop where
  entry : st.C.entry ∈ st.C.nodes
  exit : st.C.exit ∈ st.C.nodes
  closed : ∀ x ∈ st.C.nodes, ∀ y ∈ st.C.succs x, y ∈ st.C.nodes
  last : st.C.succs st.C.exit = []
  branch : ∀ x ∈ st.C.nodes, 2 ≤ (st.C.succs x).length → (branchVar (st.C.code x)).isSome
  nodup : st.C.nodes.Nodup
  differ : st.C.entry ≠ st.C.exit
  noPred : ∀ x ∈ st.C.nodes, st.C.entry ∉ st.C.succs x
  first : (st.C.succs st.C.entry).length = 1
  succ : ∀ x ∈ st.C.nodes, x ≠ st.C.exit → (∀ l ∈ st.loops, x ≠ l.insert) → st.C.succs x ≠ []
  small : ∀ x ∈ st.C.nodes, x < st.n
  below : ∀ x ∈ st.C.nodes, ∀ t ∈ st.C.code x, t.below st.v
  old : v0 ≤ st.v
  klt : ∀ u, K u → u < v0
  kread : ∀ u, K u → ∃ h, ∀ x ∈ st.C.nodes, ∀ t ∈ st.C.code x, u ∈ t.reads → x = h ∧ t = .branch u
  kmatch : ∀ x u m d, st.C.Decides x u m d → K u ∧ TwoWay fix m d
  loopNodup : (stubs st.loops).Nodup
  loop : ∀ l ∈ st.loops, l.insert ∈ st.C.nodes ∧ l.replacement ∈ st.C.nodes ∧ l.ne ∈ st.C.nodes ∧
    st.C.code l.insert = [] ∧ st.C.code l.replacement = [] ∧ st.C.succs l.insert = [] ∧
    (st.C.succs l.replacement).length = 1 ∧ l.insert ≠ st.C.entry ∧ l.insert ≠ st.C.exit ∧
    l.replacement ≠ st.C.entry ∧ l.replacement ≠ st.C.exit ∧ l.ne ≠ st.C.entry

theorem Inv.stub_small {st : RSt} (h : Inv K fix v0 st) {x : Nat} (hx : x ∈ stubs st.loops) : x ∈ st.C.nodes := by
  obtain ⟨l, hl, e | e⟩ := mem_stubs.1 hx
  · rw [e]; exact (h.loop l hl).1
  · rw [e]; exact (h.loop l hl).2.1

/-- `st` is a state after some elementary steps from `st0`: the blocks and edges of `st0` are still there, only that
an edge may have a detour over new blocks. -/
structure Stage (sem : Sem V) (truth : V → Bool) (st0 st : RSt) : Prop where
  n : st0.n ≤ st.n
  v : st0.v ≤ st.v
  loops : st.loops = st0.loops
  entry : st.C.entry = st0.C.entry
  exit : st.C.exit = st0.C.exit
  nodes : ∀ x ∈ st0.C.nodes, x ∈ st.C.nodes
  new : ∀ x ∈ st.C.nodes, x ∈ st0.C.nodes ∨ st0.n ≤ x
  branch : ∀ x ∈ st0.C.nodes, branchVar (st.C.code x) = branchVar (st0.C.code x)
  code : ∀ x ∈ st0.C.nodes, CodeSim sem truth (fun u => st0.v ≤ u) (st0.C.code x) (st.C.code x)
  stub : ∀ x ∈ stubs st0.loops, st.C.code x = st0.C.code x
  length : ∀ x ∈ st0.C.nodes, (st.C.succs x).length = (st0.C.succs x).length
  edge : ∀ x ∈ st0.C.nodes, ∀ i y a : Nat, (st0.C.succs x)[i]? = some y → (st.C.succs x)[i]? = some a →
    Arr sem truth (fun u => st0.v ≤ u) st.C (fun b => st0.n ≤ b ∧ b < st.n) a y

theorem Stage.refl {st : RSt} (h : Inv K fix v0 st) : Stage sem truth st st where
  n := Nat.le_refl _
  v := Nat.le_refl _
  loops := rfl
  entry := rfl
  exit := rfl
  nodes _ h := h
  new _ h := .inl h
  branch _ _ := rfl
  code x hx := codeSim_refl fun t ht u hu hle => by
    have := (h.below x hx t ht).1 u hu
    omega
  stub _ _ := rfl
  length _ _ := rfl
  edge x hx i y a h1 h2 := by
    rw [h1] at h2; cases h2; exact .refl _

/-- Elementary steps do not change what the graph computes. -/
theorem Stage.detour {st0 st : RSt} (h0 : Inv K fix v0 st0) (h : Stage sem truth st0 st) :
    Detour sem truth (fun u => st0.v ≤ u) st0.ghost st.ghost (fun b => st0.n ≤ b ∧ b < st.n) := by
  have arr : ∀ a y, Arr sem truth (fun u => st0.v ≤ u) st.C (fun b => st0.n ≤ b ∧ b < st.n) a y →
      Arr sem truth (fun u => st0.v ≤ u) st.ghost (fun b => st0.n ≤ b ∧ b < st.n) a y := fun a y ha =>
    ha.mono rfl fun x hx => ⟨hx, rfl, gs_other fun hs => by
      rw [h.loops] at hs
      have := h0.small x (h0.stub_small hs)
      omega⟩
  refine ⟨h.entry, h.exit, h0.entry, fun x hx y hy => ?_, fun x hx hne s t hst => ?_, fun s t hst => ?_⟩
  · by_cases e : x ∈ stubs st0.loops
    · obtain ⟨l, hl, e1 | e1⟩ := mem_stubs.1 e
      · have hy : y ∈ gs st0.loops st0.C.succs x := hy
        rw [e1, gs_insert h0.loopNodup hl] at hy
        exact h0.closed _ (h0.loop l hl).2.1 y hy
      · have hy : y ∈ gs st0.loops st0.C.succs x := hy
        rw [e1, gs_replacement h0.loopNodup hl, List.mem_singleton] at hy
        rw [hy]
        exact (h0.loop l hl).2.2.1
    · have hy : y ∈ gs st0.loops st0.C.succs x := hy
      rw [gs_other e] at hy
      exact h0.closed x hx y hy
  · have hc := h.code x hx s t hst
    refine ⟨hc.1, ?_⟩
    show OptRel _ (goes (gs st0.loops st0.C.succs x) _) (goes (gs st.loops st.C.succs x) _)
    rw [h.loops]
    by_cases e : x ∈ stubs st0.loops
    · obtain ⟨l, hl, e1 | e1⟩ := mem_stubs.1 e
      · rw [e1, gs_insert h0.loopNodup hl, gs_insert h0.loopNodup hl]
        obtain ⟨q1, q2, q3, q4, q5, q6, q7, _⟩ := h0.loop l hl
        refine goes_rel (h.length _ q2) (fun i y a i1 i2 => arr a y (h.edge _ q2 i y a i1 i2)) (fun h2 => ?_)
        omega
      · rw [e1, gs_replacement h0.loopNodup hl, gs_replacement h0.loopNodup hl]
        exact .some (.refl _)
    · rw [gs_other e, gs_other e]
      exact goes_rel (h.length x hx) (fun i y a i1 i2 => arr a y (h.edge x hx i y a i1 i2))
        fun h2 => hc.2 (h0.branch x hx h2)
  · exact (h.code _ h0.exit s t hst).1

/-- An elementary step, for `Inv` and `Stage`. -/
structure SI (sem : Sem V) (truth : V → Bool) (K : Nat → Prop) (fix : Bool) (v0 : Nat) (st0 st : RSt) : Prop where
  inv0 : Inv K fix v0 st0
  inv : Inv K fix v0 st
  stage : Stage sem truth st0 st

variable {st0 st : RSt}

theorem SI.refl (h : Inv K fix v0 st) : SI sem truth K fix v0 st st := ⟨h, h, .refl h⟩

theorem SI.bump (h : SI sem truth K fix v0 st0 st) (k : Nat) : SI sem truth K fix v0 st0 (st.bump k) where
  inv0 := h.inv0
  inv := { h.inv with
    below := fun x hx t ht => (h.inv.below x hx t ht).mono (Nat.le_add_right _ _)
    old := Nat.le_trans h.inv.old (Nat.le_add_right _ _) }
  stage := { h.stage with v := Nat.le_trans h.stage.v (Nat.le_add_right _ _) }

/-- What the code of new blocks looks like. -/
def Fresh (v0 v : Nat) (code : List Tac) : Prop :=
  (∀ t ∈ code, t.below v) ∧ (∀ t ∈ code, ∀ u : Nat, u ∈ t.reads → v0 ≤ u) ∧
    ∀ m d c w u, Tac.op ⟨.matchOp m d, c⟩ [w] [u] ∉ code

theorem mem_addBlock {code : List Tac} {succs : List Nat} {x : Nat} :
    x ∈ (st.addBlock code succs).C.nodes ↔ x ∈ st.C.nodes ∨ x = st.n := by simp [RSt.addBlock]

theorem addBlock_code {code : List Tac} {succs : List Nat} {x : Nat} :
    (st.addBlock code succs).C.code x = if x = st.n then code else st.C.code x := rfl

theorem addBlock_succs {code : List Tac} {succs : List Nat} {x : Nat} :
    (st.addBlock code succs).C.succs x = if x = st.n then succs else st.C.succs x := rfl

theorem SI.addBlock (h : SI sem truth K fix v0 st0 st) {code : List Tac} {succs : List Nat}
    (hs : ∀ y ∈ succs, y ∈ st.C.nodes ∧ y ≠ st.C.entry) (hne : succs ≠ [])
    (hb : 2 ≤ succs.length → (branchVar code).isSome) (hf : Fresh v0 st.v code) :
    SI sem truth K fix v0 st0 (st.addBlock code succs) := by
  obtain ⟨h0, h, g⟩ := h
  have hlt : ∀ x ∈ st.C.nodes, x ≠ st.n := fun x hx e => by have := h.small x hx; omega
  have hc : ∀ x ∈ st.C.nodes, (st.addBlock code succs).C.code x = st.C.code x := fun x hx => if_neg (hlt x hx)
  have hsu : ∀ x ∈ st.C.nodes, (st.addBlock code succs).C.succs x = st.C.succs x := fun x hx => if_neg (hlt x hx)
  have hcn : (st.addBlock code succs).C.code st.n = code := if_pos rfl
  have hsn : (st.addBlock code succs).C.succs st.n = succs := if_pos rfl
  refine ⟨h0, ?_, ?_⟩
  · refine ⟨mem_addBlock.2 (.inl h.entry), mem_addBlock.2 (.inl h.exit), fun x hx y hy => ?_, ?_, fun x hx h2 => ?_, ?_,
      h.differ, fun x hx hy => ?_, ?_, fun x hx h1 h2 => ?_, fun x hx => ?_, fun x hx t ht => ?_, h.old, h.klt, fun u hu => ?_,
      fun x u m d hd => ?_, h.loopNodup, fun l hl => ?_⟩
    · rw [mem_addBlock]
      rcases mem_addBlock.1 hx with e | e
      · rw [hsu x e] at hy; exact .inl (h.closed x e y hy)
      · rw [e, hsn] at hy; exact .inl (hs y hy).1
    · show (st.addBlock code succs).C.succs st.C.exit = []
      rw [hsu _ h.exit]; exact h.last
    · rcases mem_addBlock.1 hx with e | e
      · rw [hsu x e] at h2; rw [hc x e]; exact h.branch x e h2
      · rw [e, hsn] at h2; rw [e, hcn]; exact hb h2
    · show (st.C.nodes ++ [st.n]).Nodup
      rw [List.nodup_append]
      refine ⟨h.nodup, by simp, fun a ha b hb => ?_⟩
      rw [List.mem_singleton.1 hb]; exact hlt a ha
    · rcases mem_addBlock.1 hx with e | e
      · rw [hsu x e] at hy; exact h.noPred x e hy
      · rw [e, hsn] at hy; exact (hs _ hy).2 rfl
    · show ((st.addBlock code succs).C.succs st.C.entry).length = 1
      rw [hsu _ h.entry]; exact h.first
    · rcases mem_addBlock.1 hx with e | e
      · rw [hsu x e]; exact h.succ x e h1 h2
      · rw [e, hsn]; exact hne
    · show x < st.n + 1
      rcases mem_addBlock.1 hx with e | e
      · have := h.small x e; omega
      · omega
    · rcases mem_addBlock.1 hx with e | e
      · rw [hc x e] at ht; exact h.below x e t ht
      · rw [e, hcn] at ht; exact hf.1 t ht
    · obtain ⟨b, hb⟩ := h.kread u hu
      refine ⟨b, fun x hx t ht hr => ?_⟩
      rcases mem_addBlock.1 hx with e | e
      · rw [hc x e] at ht; exact hb x e t ht hr
      · rw [e, hcn] at ht
        have := hf.2.1 t ht u hr
        have := h.klt u hu
        omega
    · obtain ⟨d1, d2, d3, c, w, d4⟩ := hd
      rcases mem_addBlock.1 d1 with e | e
      · rw [hc x e] at d2 d4; rw [hsu x e] at d3
        exact h.kmatch x u m d ⟨e, d2, d3, c, w, d4⟩
      · rw [e, hcn] at d4
        exact absurd d4 (hf.2.2 m d c w u)
    · obtain ⟨q1, q2, q3, q4, q5, q6, q7, q8⟩ := h.loop l hl
      refine ⟨mem_addBlock.2 (.inl q1), mem_addBlock.2 (.inl q2), mem_addBlock.2 (.inl q3), ?_, ?_, ?_, ?_, q8⟩
      · rw [hc _ q1]; exact q4
      · rw [hc _ q2]; exact q5
      · rw [hsu _ q1]; exact q6
      · rw [hsu _ q2]; exact q7
  · refine ⟨Nat.le_succ_of_le g.n, g.v, g.loops, g.entry, g.exit, fun x hx => mem_addBlock.2 (.inl (g.nodes x hx)),
      fun x hx => ?_, fun x hx => ?_, fun x hx => ?_, fun x hx => ?_, fun x hx => ?_, fun x hx i y a h1 h2 => ?_⟩
    · rcases mem_addBlock.1 hx with e | e
      · exact g.new x e
      · exact .inr (by rw [e]; exact g.n)
    · rw [hc _ (g.nodes x hx)]; exact g.branch x hx
    · rw [hc _ (g.nodes x hx)]; exact g.code x hx
    · rw [hc _ (g.nodes x (h0.stub_small hx))]; exact g.stub x hx
    · rw [hsu _ (g.nodes x hx)]; exact g.length x hx
    · rw [hsu _ (g.nodes x hx)] at h2
      refine (g.edge x hx i y a h1 h2).mono rfl fun b hb => ⟨⟨hb.1, Nat.lt_succ_of_lt hb.2⟩, ?_, ?_⟩
      · exact if_neg (by omega)
      · exact if_neg (by omega)

theorem sink_divertEdge {e : Edge} {y x : Nat} : (st.divertEdge e y).C.succs x =
    if x = e.1 then (st.C.succs x).set e.2 y else st.C.succs x := rfl

theorem SI.divertEdge (h : SI sem truth K fix v0 st0 st) {e : Edge} {w z : Nat} (he : e.1 ∈ st0.C.nodes)
    (hw : st.C.sink e = some w) (hz : z ∈ st.C.nodes) (hz' : z ≠ st.C.entry)
    (ha : Arr sem truth (fun u => st0.v ≤ u) st.C (fun b => st0.n ≤ b ∧ b < st.n) z w) :
    SI sem truth K fix v0 st0 (st.divertEdge e z) := by
  obtain ⟨h0, h, g⟩ := h
  have hlen : ∀ x, ((st.divertEdge e z).C.succs x).length = (st.C.succs x).length := fun x => by
    rw [sink_divertEdge]; split <;> simp
  have hmem : ∀ x y, y ∈ (st.divertEdge e z).C.succs x → y = z ∨ y ∈ st.C.succs x := fun x y hy => by
    rw [sink_divertEdge] at hy
    split at hy
    · exact (List.mem_or_eq_of_mem_set hy).symm
    · exact .inr hy
  have hnil : ∀ x, (st.divertEdge e z).C.succs x = [] ↔ st.C.succs x = [] := fun x => by
    rw [← List.length_eq_zero_iff, hlen, List.length_eq_zero_iff]
  refine ⟨h0, ?_, ?_⟩
  · refine ⟨h.entry, h.exit, fun x hx y hy => ?_, (hnil _).2 h.last, fun x hx h2 => ?_, h.nodup, h.differ, fun x hx hy => ?_,
      (hlen _).trans h.first, fun x hx h1 h2 => ?_, h.small, h.below, h.old, h.klt, h.kread, fun x u m d hd => ?_,
      h.loopNodup, fun l hl => ?_⟩
    · rcases hmem x y hy with e | e
      · rw [e]; exact hz
      · exact h.closed x hx y e
    · rw [hlen] at h2; exact h.branch x hx h2
    · rcases hmem x _ hy with e | e
      · exact hz' e.symm
      · exact h.noPred x hx e
    · rw [Ne, hnil]; exact h.succ x hx h1 h2
    · obtain ⟨d1, d2, d3, d4⟩ := hd
      rw [hlen] at d3
      exact h.kmatch x u m d ⟨d1, d2, d3, d4⟩
    · obtain ⟨q1, q2, q3, q4, q5, q6, q7, q8⟩ := h.loop l hl
      exact ⟨q1, q2, q3, q4, q5, (hnil _).2 q6, (hlen _).trans q7, q8⟩
  · have hp : ∀ {a y : Nat}, Arr sem truth (fun u => st0.v ≤ u) st.C (fun b => st0.n ≤ b ∧ b < st.n) a y →
        Arr sem truth (fun u => st0.v ≤ u) (st.divertEdge e z).C (fun b => st0.n ≤ b ∧ b < st.n) a y := fun ha =>
      ha.mono rfl fun b hb => ⟨hb, rfl, if_neg fun e' => by have := h0.small _ he; omega⟩
    refine ⟨g.n, g.v, g.loops, g.entry, g.exit, g.nodes, g.new, g.branch, g.code, g.stub, fun x hx => ?_,
      fun x hx i y a h1 h2 => ?_⟩
    · rw [hlen]; exact g.length x hx
    · rw [sink_divertEdge] at h2
      split at h2
      · rename_i e'
        rw [List.getElem?_set] at h2
        split at h2
        · rename_i e2
          split at h2
          · cases h2
            refine hp (ha.trans (g.edge x hx i y w h1 ?_))
            rw [e', ← e2]; exact hw
          · cases h2
        · exact hp (g.edge x hx i y a h1 h2)
      · exact hp (g.edge x hx i y a h1 h2)

theorem insertUndef_code {x z : Nat} : (st.insertUndef x).C.code z =
    if z = x then insertBeforeBranch (undefTac st.v) (st.C.code z) else st.C.code z := rfl

theorem SI.insertUndef (h : SI sem truth K fix v0 st0 st) {x : Nat} (hx : x ∈ st0.C.nodes) (hs : x ∉ stubs st0.loops) :
    SI sem truth K fix v0 st0 (st.insertUndef x) := by
  obtain ⟨h0, h, g⟩ := h
  have hb : ∀ z, branchVar ((st.insertUndef x).C.code z) = branchVar (st.C.code z) := fun z => by
    rw [insertUndef_code]; split
    · exact branchVar_undefTac
    · rfl
  have hm : ∀ z t, t ∈ (st.insertUndef x).C.code z → (z = x ∧ t = undefTac st.v) ∨ t ∈ st.C.code z := fun z t ht => by
    rw [insertUndef_code] at ht
    split at ht
    · rename_i e
      rcases mem_insertBeforeBranch.1 ht with e' | e'
      · exact .inl ⟨e, e'⟩
      · exact .inr e'
    · exact .inr ht
  have hst : ∀ z ∈ stubs st0.loops, (st.insertUndef x).C.code z = st.C.code z := fun z hz => by
    rw [insertUndef_code, if_neg (fun e : z = x => hs (e ▸ hz))]
  refine ⟨h0, ?_, ?_⟩
  · refine ⟨h.entry, h.exit, h.closed, h.last, fun z hz h2 => ?_, h.nodup, h.differ, h.noPred, h.first, h.succ, h.small,
      fun z hz t ht => ?_, Nat.le_succ_of_le h.old, h.klt, fun u hu => ?_, fun z u m d hd => ?_, h.loopNodup, fun l hl => ?_⟩
    · rw [hb]; exact h.branch z hz h2
    · rcases hm z t ht with ⟨_, e⟩ | e
      · rw [e]
        refine ⟨fun u hu => ?_, fun u hu => ?_⟩
        · simp [undefTac, Tac.reads] at hu
        · have : u = st.v := by simpa [undefTac, Tac.writes] using hu
          rw [this]; exact Nat.lt_succ_self _
      · exact (h.below z hz t e).mono (Nat.le_succ _)
    · obtain ⟨b, hb⟩ := h.kread u hu
      refine ⟨b, fun z hz t ht hr => ?_⟩
      rcases hm z t ht with ⟨_, e⟩ | e
      · rw [e] at hr; simp [undefTac, Tac.reads] at hr
      · exact hb z hz t e hr
    · obtain ⟨d1, d2, d3, c, w, d4⟩ := hd
      rw [hb] at d2
      rcases hm z _ d4 with ⟨_, e⟩ | e
      · simp [undefTac, undefOp] at e
      · exact h.kmatch z u m d ⟨d1, d2, d3, c, w, e⟩
    · obtain ⟨q1, q2, q3, q4, q5, q6, q7, q8⟩ := h.loop l hl
      rw [show (st.insertUndef x).loops = st.loops from rfl, g.loops] at hl
      refine ⟨q1, q2, q3, ?_, ?_, q6, q7, q8⟩
      · rw [hst _ (mem_stubs.2 ⟨l, hl, .inl rfl⟩)]; exact q4
      · rw [hst _ (mem_stubs.2 ⟨l, hl, .inr rfl⟩)]; exact q5
  · refine ⟨g.n, Nat.le_succ_of_le g.v, g.loops, g.entry, g.exit, g.nodes, g.new, fun z hz => ?_, fun z hz => ?_, fun z hz => ?_,
      g.length, fun z hz i y a h1 h2 => ?_⟩
    · rw [hb]; exact g.branch z hz
    · rw [insertUndef_code]
      split
      · refine (g.code z hz).insertUndef g.v (fun e => ?_) (g.branch z hz)
        obtain ⟨pre, e'⟩ := branchVar_some e
        have := (h.below z (g.nodes z hz) (.branch st.v) (by rw [e']; simp)).1 st.v (by simp [Tac.reads])
        omega
      · exact g.code z hz
    · rw [hst z hz]; exact g.stub z hz
    · refine (g.edge z hz i y a h1 h2).mono rfl fun b hb => ⟨hb, if_neg fun e => ?_, rfl⟩
      have := h0.small x hx
      omega

/-! ### Blocks with constants -/

theorem lift_headD (ws : List (Option V)) : ((lift ws).headD none : W V) = (ws.headD none).map fun u => (u, none) := by
  cases ws with
  | nil => rfl
  | cons a as => cases a <;> rfl

theorem alternative_const (hc : CtlSem sem) (c : Nat) :
    alternative sem ((opVals sem (ctlConst c) []).headD none) = some c := by
  have h := hc.const c
  have e : opVals sem (ctlConst c) [] = lift (sem.apply (ctlConst c) []) := by simp [opVals, ctlConst]
  rw [e, lift_headD, alternative]
  generalize (sem.apply (ctlConst c) []).headD none = o at h ⊢
  rcases o with _ | u
  · simp at h
  · simpa using h

/-- The effect of the assignments. -/
theorem constAssigns_spec (hc : CtlSem sem) : ∀ (as : List (Nat × Nat)) (v : Nat) (s : St V), (as.map Prod.fst).Nodup →
    (∀ p ∈ as, p.1 < v) →
    (∀ p ∈ as, alternative sem ((steps sem truth (constAssigns v as) s).env p.1) = some p.2) ∧
    (∀ u : Nat, u < v → u ∉ as.map Prod.fst → (steps sem truth (constAssigns v as) s).env u = s.env u)
  | [], v, s, _, _ => ⟨nofun, fun _ _ _ => rfl⟩
  | (u0, c) :: as, v, s, hn, hv => by
      rw [List.map_cons, List.nodup_cons] at hn
      obtain ⟨h1, h2⟩ := constAssigns_spec hc as (v + 1) (steps sem truth [.op (ctlConst c) [] [v], .assign u0 v] s) hn.2
        (fun p hp => Nat.lt_succ_of_lt (hv p (by simp [hp])))
      have e : constAssigns v ((u0, c) :: as) = [.op (ctlConst c) [] [v], .assign u0 v] ++ constAssigns (v + 1) as := rfl
      rw [e, steps_append]
      have hu0 : u0 < v := hv (u0, c) (by simp)
      have heq : (steps sem truth [.op (ctlConst c) [] [v], .assign u0 v] s).env =
          set (set s.env v ((opVals sem (ctlConst c) []).headD none)) u0 ((opVals sem (ctlConst c) []).headD none) := by
        simp [steps, step, setAll, set]
      refine ⟨fun p hp => ?_, fun u hu hn' => ?_⟩
      · rcases List.mem_cons.1 hp with e | e
        · subst e
          rw [h2 u0 (Nat.lt_succ_of_lt hu0) hn.1, heq]
          simp only [set, if_true]
          exact alternative_const hc c
        · exact h1 p e
      · have a1 : u ≠ u0 := fun e => hn' (by simp [e])
        have a2 : u ∉ as.map Prod.fst := fun e => hn' (by simp only [List.map_cons, List.mem_cons]; exact .inr e)
        rw [h2 u (Nat.lt_succ_of_lt hu) a2, heq]
        have a3 : u ≠ v := Nat.ne_of_lt hu
        simp [set, a1, a3]

theorem constAssigns_fresh : ∀ (as : List (Nat × Nat)) (v : Nat), v0 ≤ v → (∀ p ∈ as, p.1 < v) →
    Fresh v0 (v + as.length) (constAssigns v as)
  | [], v, _, _ => ⟨nofun, nofun, nofun⟩
  | (u0, c) :: as, v, h0, hv => by
      obtain ⟨h1, h2, h3⟩ := constAssigns_fresh as (v + 1) (by omega) (fun p hp => Nat.lt_succ_of_lt (hv p (by simp [hp])))
      have hu0 : u0 < v := hv (u0, c) (by simp)
      have e : v + 1 + as.length = v + ((u0, c) :: as).length := by simp; omega
      rw [e] at h1
      have hl : v + ((u0, c) :: as).length = v + as.length + 1 := by simp; omega
      refine ⟨fun t ht => ?_, fun t ht u hu => ?_, fun m d k w u ht => ?_⟩
      · simp only [constAssigns, List.mem_cons] at ht
        rcases ht with ht | ht | ht
        · subst ht
          refine ⟨by simp [Tac.reads], fun u hu => ?_⟩
          have : u = v := by simpa [Tac.writes] using hu
          omega
        · subst ht
          refine ⟨fun u hu => ?_, fun u hu => ?_⟩
          · have : u = v := by simpa [Tac.reads] using hu
            omega
          · have : u = u0 := by simpa [Tac.writes] using hu
            omega
        · exact h1 t ht
      · simp only [constAssigns, List.mem_cons] at ht
        rcases ht with ht | ht | ht
        · subst ht; simp [Tac.reads] at hu
        · subst ht
          have : u = v := by simpa [Tac.reads] using hu
          omega
        · exact h2 t ht u hu
      · simp only [constAssigns, List.mem_cons] at ht
        rcases ht with ht | ht | ht
        · simp [ctlConst] at ht
        · cases ht
        · exact h3 m d k w u ht

theorem branchVar_constAssigns : ∀ (as : List (Nat × Nat)) (v : Nat), branchVar (constAssigns v as) = none
  | [], v => rfl
  | [(u, c)], v => rfl
  | (u, c) :: p :: as, v => by
      have := branchVar_constAssigns (p :: as) (v + 1)
      obtain ⟨u', c'⟩ := p
      simpa [constAssigns, branchVar] using this

/-- `route`: the edge `e` to `w` goes to a new block that assigns constants and continues at `target`, from where
execution gets to `w`. -/
theorem SI.route (hc : CtlSem sem) (h : SI sem truth K fix v0 st0 st) {e : Edge} {w target : Nat} {as : List (Nat × Nat)}
    (he : e.1 ∈ st0.C.nodes) (hw : st.C.sink e = some w) (ht : target ∈ st.C.nodes) (ht' : target ≠ st.C.entry)
    (hn : (as.map Prod.fst).Nodup) (hv : ∀ p ∈ as, st0.v ≤ p.1 ∧ p.1 < st.v)
    (ha : ∀ t : St V, (∀ p ∈ as, alternative sem (t.env p.1) = some p.2) →
      ∃ t', Chain sem truth st.C (fun b => st0.n ≤ b ∧ b < st.n) target t w t' ∧ AgreeOff (fun u => st0.v ≤ u) t t') :
    SI sem truth K fix v0 st0 (st.route e as target) := by
  have g1 : SI sem truth K fix v0 st0 ((st.bump as.length).addBlock (constAssigns st.v as) [target]) := by
    refine (h.bump as.length).addBlock (fun y hy => ?_) (by simp) (fun h2 => ?_) ?_
    · rw [List.mem_singleton.1 hy]; exact ⟨ht, ht'⟩
    · simp at h2
    · exact constAssigns_fresh as st.v h.inv.old fun p hp => (hv p hp).2
  have hen : e.1 ≠ st.n := fun x => by
    have := h.inv0.small _ he
    have := h.stage.n
    omega
  refine g1.divertEdge he (w := w) ?_ (mem_addBlock.2 (.inr rfl)) (fun x => ?_) ?_
  · unfold Cfg.sink
    rw [addBlock_succs, if_neg (by exact hen)]; exact hw
  · have := h.inv.small _ h.inv.entry
    have : st.n = st.C.entry := x
    omega
  · intro t
    obtain ⟨c1, c2⟩ := constAssigns_spec (sem := sem) (truth := truth) hc as st.v t hn (fun p hp => (hv p hp).2)
    obtain ⟨t', a1, a2⟩ := ha _ c1
    refine ⟨t', .step (b := target) ⟨h.stage.n, Nat.lt_succ_self _⟩ (fun x => ?_) ?_ ?_, ?_⟩
    · have := h.inv.small _ h.inv.exit
      have : st.n = st.C.exit := x
      omega
    · rw [addBlock_succs, if_pos (by rfl)]; rfl
    · rw [addBlock_code, if_pos (by rfl)]
      refine a1.mono rfl fun b hb => ⟨⟨hb.1, Nat.lt_succ_of_lt hb.2⟩, ?_, ?_⟩
      · exact if_neg (Nat.ne_of_lt hb.2)
      · exact if_neg (Nat.ne_of_lt hb.2)
    · refine AgreeOff.trans (fun u hu => ?_) a2
      have hle := h.stage.v
      refine (c2 u (by omega) fun hm => ?_).symm
      obtain ⟨p, hp, e⟩ := List.mem_map.1 hm
      have := (hv p hp).1
      omega

/-- `route` does not change the blocks that have been created before. -/
theorem route_old {e : Edge} {as : List (Nat × Nat)} {target x : Nat} (hx : x < st.n) (he : x ≠ e.1) :
    (st.route e as target).C.code x = st.C.code x ∧ (st.route e as target).C.succs x = st.C.succs x := by
  constructor
  · show (if x = st.n then _ else _) = _
    rw [if_neg (Nat.ne_of_lt hx)]; rfl
  · show (if x = e.1 then _ else (if x = st.n then _ else _)) = _
    rw [if_neg he, if_neg (Nat.ne_of_lt hx)]; rfl

end Jlm.Front
