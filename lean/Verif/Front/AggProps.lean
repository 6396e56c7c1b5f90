import Verif.Front.AggSpec
import Mathlib.Tactic.Tauto
import Mathlib.Tactic.Push

/-!
# Aggregation preserves executions: proof

The run of the program is a sequence of four kinds of steps on a graph and a stack of regions that are
aggregated (`Step`). The repetition edges that have been removed and not yet been turned into a loop are added
again (`plus`): in that graph, all steps preserve executions.
-/

set_option linter.unusedSimpArgs false
set_option linter.unusedVariables false

namespace Jlm.Front

open Jlm.Opt

variable {V : Type}

/-- The graph, and the regions that are aggregated: entry and exit of each, the innermost first. -/
structure Conf where
  G : Flow
  fs : List (Nat × Nat)

/-- Edges that are removed until the loop is complete: all regions but the outermost are loop bodies. -/
def pendAt (fs : List (Nat × Nat)) (x : Nat) : List Nat :=
  fs.dropLast.filterMap fun f => if f.2 = x then some f.1 else none

def Conf.plus (c : Conf) (x : Nat) : List Nat := c.G.outs x ++ pendAt c.fs x

inductive Step : Conf → Conf → Prop
  | lin {G : Flow} {f : Nat × Nat} {fs : List (Nat × Nat)} {src sink : Nat} :
      G.isLinear src = some sink → src ∈ G.live → sink ∈ G.live → src ≠ sink →
      Step ⟨G, f :: fs⟩ ⟨G.reduceLinear src sink,
        (if src = f.1 then G.next else f.1, if sink = f.2 then G.next else f.2) :: fs⟩
  | br {G : Flow} {f : Nat × Nat} {fs : List (Nat × Nat)} {split join : Nat} :
      G.isBranch split = some join → split ∈ G.live → (∀ y ∈ G.outs split, y ∈ G.live) →
      Step ⟨G, f :: fs⟩ ⟨G.reduceBranch split join, (if split = f.1 then G.next else f.1, f.2) :: fs⟩
  | push {G : Flow} {fs : List (Nat × Nat)} {e t x : Nat} :
      G.outs t = [x, e] → e ∈ G.live → t ∈ G.live → fs ≠ [] →
      Step ⟨G, fs⟩ ⟨G.removeRep t, (e, t) :: fs⟩
  | pop {G : Flow} {n : Nat} {fs : List (Nat × Nat)} : n ∈ G.live → fs ≠ [] →
      Step ⟨G, (n, n) :: fs⟩ ⟨G.setLab n (.loop (G.lab n)), fs⟩

inductive Steps : Conf → Conf → Prop
  | refl {c : Conf} : Steps c c
  | head {a b c : Conf} : Step a b → Steps b c → Steps a c

theorem Steps.trans {a b c : Conf} (h : Steps a b) (h' : Steps b c) : Steps a c := by
  induction h with
  | refl => exact h'
  | head s _ ih => exact .head s (ih h')

/-! ### The program makes such steps -/

theorem foldlM_steps {α σ : Type} {f : σ → α → Option σ} {P : σ → Conf} (hf : ∀ a s s', f s a = some s' → Steps (P s) (P s')) :
    ∀ (l : List α) (s s' : σ), l.foldlM f s = some s' → Steps (P s) (P s')
  | [], s, s', h => by simp at h; subst h; exact .refl
  | a :: l, s, s', h => by
      simp only [List.foldlM_cons, Option.bind_eq_bind, Option.bind_eq_some_iff] at h
      obtain ⟨t, h1, h2⟩ := h
      exact (hf a s t h1).trans (foldlM_steps hf l t s' h2)

theorem walk_steps (fs : List (Nat × Nat)) : ∀ (fuel node : Nat) (st st' : AggState), walk fuel node st = some st' →
    Steps ⟨st.G, (st.entry, st.exit) :: fs⟩ ⟨st'.G, (st'.entry, st'.exit) :: fs⟩
  | 0, _, _, _, h => by simp [walk] at h
  | fuel + 1, node, st, st', h => by
      have ih := walk_steps fs fuel
      rw [walk] at h
      split at h
      · split at h
        · injection h with h; subst h; exact .refl
        · cases h
      split at h
      · injection h with h; subst h; exact .refl
      split at h
      · rename_i sink hl
        split at h
        · rename_i hc
          exact .head (.lin hl hc.1 hc.2.1 hc.2.2) (ih _ _ _ h)
        · cases h
      split at h
      · rename_i hl
        obtain ⟨s1, h1, h2⟩ := Option.bind_eq_some_iff.1 h
        have e1 := foldlM_steps (P := fun s : AggState => ⟨s.G, (s.entry, s.exit) :: fs⟩)
          (fun i s s' hs => by
            obtain ⟨y, _, hy⟩ := Option.bind_eq_some_iff.1 hs
            exact ih _ _ _ hy) _ _ _ h1
        refine e1.trans ?_
        split at h2
        · rename_i join hb
          split at h2
          · rename_i hc
            exact .head (.br hb hc.1 hc.2) (ih _ _ _ h2)
          · cases h2
        · cases h2
      split at h
      · split at h
        · exact ih _ _ _ h
        · split at h
          · injection h with h; subst h; exact .refl
          · cases h
      · split at h
        · injection h with h; subst h; exact .refl
        · cases h

theorem mem_edges {G : Flow} {x : Nat} {e : Nat × Nat × Nat} (h : e ∈ G.edges x) :
    e.1 = x ∧ (G.outs x)[e.2.1]? = some e.2.2 := by
  simp only [Flow.edges, List.mem_filterMap, Option.map_eq_some_iff] at h
  obtain ⟨i, _, y, hy, rfl⟩ := h
  exact ⟨rfl, hy⟩

theorem tailLoop_some {G : Flow} {scc : List Nat} {et : Nat × Nat} (h : G.tailLoop scc = some et) :
    (∃ x, G.outs et.2 = [x, et.1]) ∧ et.1 ∈ G.live ∧ et.2 ∈ G.live := by
  unfold Flow.tailLoop at h
  split at h
  · rename_i hl
    dsimp only at h
    generalize h1 : (scc.filter fun x => G.live.any fun u => decide (u ∉ scc) && (G.outs u).contains x) = es at h
    generalize h2 : (scc.flatMap fun x => (G.edges x).filter fun e => decide (e.2.2 ∉ scc)) = xs at h
    generalize h3 : (scc.flatMap fun x => (G.edges x).filter fun e => decide (e.2.2 ∈ es)) = rs at h
    split at h
    · rename_i e x r
      split at h
      · rename_i hc
        injection h with h; subst h
        have hr : r ∈ [r] := by simp
        rw [← h3] at hr
        obtain ⟨y, hy, hm⟩ := List.mem_flatMap.1 hr
        simp only [List.mem_filter, decide_eq_true_eq, List.mem_singleton] at hm
        obtain ⟨hm, he⟩ := hm
        obtain ⟨e1, e2⟩ := mem_edges hm
        have he' : e ∈ scc := by
          have : e ∈ [e] := by simp
          rw [← h1] at this
          exact (List.mem_filter.1 this).1
        subst e1
        refine ⟨?_, hl _ he', hl _ hy⟩
        obtain ⟨_, hi, hn⟩ := hc
        rw [hi, he] at e2
        dsimp only
        match hq : G.outs r.1, hn, e2 with
        | [a, b], _, e2 => simp at e2; exact ⟨a, by rw [e2]⟩
      · cases h
    · cases h
  · cases h

theorem aggregate_steps (sccs : Flow → Nat → Nat → List (List Nat)) : ∀ (fuel entry exit : Nat) (G : Flow)
    (r : Flow × Nat) (fs : List (Nat × Nat)), aggregate sccs fuel entry exit G = some r →
    Steps ⟨G, (entry, exit) :: fs⟩ ⟨r.1, (r.2, r.2) :: fs⟩
  | 0, _, _, _, _, _, h => by simp [aggregate] at h
  | fuel + 1, entry, exit, G, r, fs, h => by
      have ih := aggregate_steps sccs fuel
      rw [aggregate] at h
      obtain ⟨G1, h1, h⟩ := Option.bind_eq_some_iff.1 h
      obtain ⟨st, h2, h⟩ := Option.bind_eq_some_iff.1 h
      have e1 := foldlM_steps (P := fun G : Flow => ⟨G, (entry, exit) :: fs⟩)
        (fun scc G G' hG => by
          obtain ⟨et, ht, hG⟩ := Option.bind_eq_some_iff.1 hG
          obtain ⟨r', hr, hG⟩ := Option.bind_eq_some_iff.1 hG
          split at hG
          · rename_i hm
            injection hG with hG
            obtain ⟨⟨x, hx⟩, hel, htl⟩ := tailLoop_some ht
            subst hG
            exact .head (.push hx hel htl (by simp)) ((ih _ _ _ _ ((entry, exit) :: fs) hr).trans
              (.head (.pop hm (by simp)) .refl))
          · cases hG) _ _ _ h1
      have e2 := walk_steps fs _ _ _ _ h2
      refine e1.trans ?_
      split at h
      · rename_i he
        injection h with h; subst h
        dsimp only
        rw [← he] at e2
        exact e2
      · cases h

/-! ### Regions have nodes of the graph -/

/-- No number is used twice. -/
structure Conf.Bound (c : Conf) : Prop where
  live : ∀ x ∈ c.G.live, x < c.G.next
  outs : ∀ x ∈ c.G.live, ∀ y ∈ c.G.outs x, y < c.G.next
  ptr : ∀ f ∈ c.fs, f.1 < c.G.next ∧ f.2 < c.G.next
  ne : c.fs ≠ []

def Conf.Alive (c : Conf) : Prop := ∀ f ∈ c.fs, f.1 ∈ c.G.live ∧ f.2 ∈ c.G.live

theorem isLinear_some {G : Flow} {src sink : Nat} (h : G.isLinear src = some sink) :
    G.outs src = [sink] ∧ G.indeg sink = 1 := by
  unfold Flow.isLinear at h
  split at h
  · split at h
    · injection h with h; subst h; rename_i h1 h2; exact ⟨h1, h2⟩
    · cases h
  · cases h

theorem isBranch_some {G : Flow} {split join : Nat} (h : G.isBranch split = some join) :
    2 ≤ (G.outs split).length ∧ ∀ y ∈ G.outs split, G.indeg y = 1 ∧ G.outs y = [join] := by
  unfold Flow.isBranch at h
  split at h
  · rename_i y z ys e1
    split at h
    · split at h
      · rename_i hc
        injection h with h; subst h
        simp only [List.all_eq_true, Bool.and_eq_true, beq_iff_eq] at hc
        exact ⟨by simp [e1], hc⟩
      · cases h
    · cases h
  · cases h

theorem Step.bound {c c' : Conf} (h : Step c c') (b : c.Bound) : c'.Bound := by
  cases h with
  | @lin G f fs src sink hl h1 h2 hne =>
    refine ⟨?_, ?_, ?_, by simp⟩
    rotate_left
    · intro x hx y hy
      have hs := fun y hy => Nat.lt_succ_of_lt (b.outs sink h2 y hy)
      have hs' := fun hx y hy => Nat.lt_succ_of_lt (b.outs x hx y hy)
      simp only [Flow.reduceLinear, List.mem_append, List.mem_filter, List.mem_singleton, divert, List.mem_map] at hx hy hs hs' ⊢
      obtain ⟨z, hz, rfl⟩ := hy
      split
      · omega
      · split at hz
        · exact hs z hz
        · rename_i hn; exact hs' (hx.resolve_right hn).1 z hz
    rotate_left
    · intro x hx
      simp only [Flow.reduceLinear, List.mem_append, List.mem_filter, List.mem_singleton] at hx ⊢
      rcases hx with ⟨hx, _⟩ | rfl
      · have := b.live x hx; simp at this; omega
      · omega
    · intro g hg
      simp only [Flow.reduceLinear]
      rcases List.mem_cons.1 hg with rfl | hg
      · have := b.ptr f (by simp); simp at this
        dsimp only
        constructor <;> split <;> omega
      · have := b.ptr g (by simp [hg]); simp at this; omega
  | @br G f fs split join hl h1 h2 =>
    refine ⟨?_, ?_, ?_, by simp⟩
    rotate_left
    · intro x hx y hy
      have hj : join < G.next := by
        obtain ⟨hl1, hl2⟩ := isBranch_some hl
        obtain ⟨z, hz⟩ := List.exists_mem_of_length_pos (by omega : 0 < (G.outs split).length)
        exact b.outs z (h2 z hz) join (by simp [(hl2 z hz).2])
      have hs' := fun hx y hy => Nat.lt_succ_of_lt (b.outs x hx y hy)
      simp only [Flow.reduceBranch, List.mem_append, List.mem_filter, List.mem_singleton] at hx hy hs' ⊢
      split at hy
      · simp at hy; omega
      · rename_i hn
        simp only [divert, List.mem_map] at hy
        obtain ⟨z, hz, rfl⟩ := hy
        split
        · omega
        · exact hs' (hx.resolve_right hn).1 z hz
    rotate_left
    · intro x hx
      simp only [Flow.reduceBranch, List.mem_append, List.mem_filter, List.mem_singleton] at hx ⊢
      rcases hx with ⟨hx, _⟩ | rfl
      · have := b.live x hx; simp at this; omega
      · omega
    · intro g hg
      simp only [Flow.reduceBranch]
      rcases List.mem_cons.1 hg with rfl | hg
      · have := b.ptr f (by simp); simp at this
        dsimp only
        refine ⟨?_, by omega⟩
        split <;> omega
      · have := b.ptr g (by simp [hg]); simp at this; omega
  | push hx he ht hf =>
    refine ⟨b.live, ?_, ?_, by simp⟩
    · intro x hx y hy
      simp only [Flow.removeRep] at hy
      split at hy
      · exact b.outs x hx y (List.mem_of_mem_eraseIdx hy)
      · exact b.outs x hx y hy
    intro g hg
    rcases List.mem_cons.1 hg with rfl | hg
    · exact ⟨b.live _ he, b.live _ ht⟩
    · exact b.ptr g hg
  | pop hn hf => exact ⟨b.live, b.outs, fun g hg => b.ptr g (by simp [hg]), hf⟩

theorem Flow.mem_linear {G : Flow} {src sink x : Nat} (hx : x < G.next) :
    x ∈ (G.reduceLinear src sink).live ↔ x ∈ G.live ∧ x ≠ src ∧ x ≠ sink := by
  have : x ≠ G.next := by omega
  simp [Flow.reduceLinear, this]

theorem Flow.mem_branch {G : Flow} {split join x : Nat} (hx : x < G.next) :
    x ∈ (G.reduceBranch split join).live ↔ x ∈ G.live ∧ x ≠ split ∧ x ∉ G.outs split := by
  have : x ≠ G.next := by omega
  simp [Flow.reduceBranch, this]

theorem Step.alive {c c' : Conf} (h : Step c c') (b : c.Bound) (a : c'.Alive) : c.Alive := by
  cases h with
  | @lin G f fs src sink hl h1 h2 hne =>
    intro g hg
    have bg := b.ptr g hg
    rcases List.mem_cons.1 hg with rfl | hg
    · have := a _ (List.mem_cons_self ..)
      dsimp only at this bg ⊢
      constructor
      · by_cases e : src = g.1
        · exact e ▸ h1
        · rw [if_neg e] at this; exact ((Flow.mem_linear bg.1).1 this.1).1
      · by_cases e : sink = g.2
        · exact e ▸ h2
        · rw [if_neg e] at this; exact ((Flow.mem_linear bg.2).1 this.2).1
    · have := a g (by simp [hg])
      exact ⟨((Flow.mem_linear bg.1).1 this.1).1, ((Flow.mem_linear bg.2).1 this.2).1⟩
  | @br G f fs split join hl h1 h2 =>
    intro g hg
    have bg := b.ptr g hg
    rcases List.mem_cons.1 hg with rfl | hg
    · have := a _ (List.mem_cons_self ..)
      dsimp only at this bg ⊢
      constructor
      · by_cases e : split = g.1
        · exact e ▸ h1
        · rw [if_neg e] at this; exact ((Flow.mem_branch bg.1).1 this.1).1
      · exact ((Flow.mem_branch bg.2).1 this.2).1
    · have := a g (by simp [hg])
      exact ⟨((Flow.mem_branch bg.1).1 this.1).1, ((Flow.mem_branch bg.2).1 this.2).1⟩
  | push hx he ht hf => exact fun g hg => a g (by simp [hg])
  | pop hn hf =>
    intro g hg
    rcases List.mem_cons.1 hg with rfl | hg
    · exact ⟨hn, hn⟩
    · exact a g hg

/-! ### Edges -/

theorem sum_ge {f : Nat → Nat} : ∀ {l : List Nat} {x : Nat}, x ∈ l → f x ≤ (l.map f).sum
  | a :: l, x, h => by
      rcases List.mem_cons.1 h with rfl | h
      · simp
      · have := sum_ge (f := f) h; simp; omega

theorem sum_ge2 {f : Nat → Nat} : ∀ {l : List Nat} {x y : Nat}, x ∈ l → y ∈ l → x ≠ y → f x + f y ≤ (l.map f).sum
  | a :: l, x, y, hx, hy, hne => by
      rw [List.map_cons, List.sum_cons]
      rcases List.mem_cons.1 hx with h1 | h1 <;> rcases List.mem_cons.1 hy with h2 | h2
      · exact absurd (h1.trans h2.symm) hne
      · have := sum_ge (f := f) h2; subst h1; omega
      · have := sum_ge (f := f) h1; subst h2; omega
      · have := sum_ge2 (f := f) h1 h2 hne; omega

/-- A node with one in-edge has one predecessor. -/
theorem indeg_one {G : Flow} {u v y : Nat} (h : G.indeg y = 1) (hu : u ∈ G.live) (hv : v ∈ G.live)
    (yu : y ∈ G.outs u) (yv : y ∈ G.outs v) : u = v := by
  by_cases e : u = v
  · exact e
  · have := sum_ge2 (f := fun x => (G.outs x).count y) hu hv e
    have c1 := List.count_pos_iff.2 yu
    have c2 := List.count_pos_iff.2 yv
    unfold Flow.indeg at h
    omega

theorem filterMap_congr' {α β : Type} {f g : α → Option β} : ∀ {l : List α}, (∀ x ∈ l, f x = g x) →
    l.filterMap f = l.filterMap g
  | [], _ => rfl
  | a :: l, h => by
      rw [List.filterMap_cons, List.filterMap_cons, h a (by simp), filterMap_congr' fun x hx => h x (by simp [hx])]

theorem pendAt_map {fs : List (Nat × Nat)} (p q : Nat → Nat) (x z : Nat) (h : ∀ f ∈ fs, q f.2 = x ↔ f.2 = z) :
    pendAt (fs.map fun f => (p f.1, q f.2)) x = (pendAt fs z).map p := by
  unfold pendAt
  rw [← List.map_dropLast, List.filterMap_map, List.map_filterMap]
  refine filterMap_congr' fun f hf => ?_
  have := h f (List.dropLast_subset _ hf)
  simp only [Function.comp]
  by_cases e : f.2 = z
  · rw [if_pos (this.2 e), if_pos e]; rfl
  · rw [if_neg (fun h => e (this.1 h)), if_neg e]; rfl

theorem mem_pendAt {fs : List (Nat × Nat)} {x y : Nat} (h : y ∈ pendAt fs x) : (y, x) ∈ fs.dropLast := by
  unfold pendAt at h
  obtain ⟨f, hf, e⟩ := List.mem_filterMap.1 h
  split at e
  · rename_i hx; injection e with e; subst e; subst hx; exact hf
  · cases e

theorem pendAt_nil {fs : List (Nat × Nat)} {x : Nat} (h : ∀ f ∈ fs, f.2 ≠ x) : pendAt fs x = [] := by
  apply List.eq_nil_iff_forall_not_mem.2
  intro y hy
  exact h _ (List.dropLast_subset _ (mem_pendAt hy)) rfl

/-! ### Executions -/

inductive Path (sem : Sem V) (truth : V → Bool) (live : List Nat) (lab : Nat → Agg) (outs : Nat → List Nat)
    (exit : Nat) : Nat → St V → St V → Prop
  | stop {s s' : St V} : exit ∈ live → Run sem truth (lab exit) s s' → Path sem truth live lab outs exit exit s s'
  | step {x y : Nat} {s t s' : St V} : x ∈ live → x ≠ exit → Run sem truth (lab x) s t →
      goes (outs x) t.ctl = some y → Path sem truth live lab outs exit y t s' →
      Path sem truth live lab outs exit x s s'

theorem Path.mem {sem : Sem V} {truth : V → Bool} {live lab outs exit x s s'}
    (h : Path sem truth live lab outs exit x s s') : x ∈ live := by
  cases h with
  | stop h _ => exact h
  | step h _ _ _ _ => exact h

theorem Path.exit_mem {sem : Sem V} {truth : V → Bool} {live lab outs exit x s s'}
    (h : Path sem truth live lab outs exit x s s') : exit ∈ live := by
  induction h with
  | stop h _ => exact h
  | step _ _ _ _ _ ih => exact ih

def Conf.root (c : Conf) : Nat × Nat := c.fs.getLastD (0, 0)

def Conf.Exec (sem : Sem V) (truth : V → Bool) (c : Conf) (x : Nat) (s s' : St V) : Prop :=
  Path sem truth c.G.live c.G.lab c.plus c.root.2 x s s'

theorem goes_mem {ys : List Nat} {k : Option Nat} {y : Nat} (h : goes ys k = some y) : y ∈ ys := by
  unfold goes at h
  split at h
  · cases h
  · simp at h; simp [h]
  · exact List.mem_of_getElem? h
  · cases h

theorem goes_map (f : Nat → Nat) (ys : List Nat) (k : Option Nat) : goes (ys.map f) k = (goes ys k).map f := by
  match ys, k with
  | [], _ => rfl
  | [y], _ => rfl
  | y :: z :: ys, some k => simp only [goes, List.map_cons]; rw [← List.map_cons, ← List.map_cons, List.getElem?_map]
  | y :: z :: ys, none => rfl

theorem goes_two {ys : List Nat} {k : Option Nat} {y : Nat} (h : goes ys k = some y) (hl : 2 ≤ ys.length) :
    ∃ i : Nat, k = some i ∧ ys[i]? = some y := by
  match ys, k with
  | y :: z :: ys, some k => exact ⟨k, rfl, h⟩
  | y :: z :: ys, none => cases h
  | [_], _ => simp at hl
  | [], _ => simp at hl

/-! ### Linear nodes -/

theorem linPath {sem : Sem V} {truth : V → Bool} {live live' : List Nat} {lab lab' : Nat → Agg}
    {outs outs' : Nat → List Nat} {exit exit' src sink next : Nat}
    (hsrc : src ∈ live) (hne : src ≠ sink) (ho : outs src = [sink]) (he : exit ≠ src) (hn : next ∉ live)
    (hp : ∀ x ∈ live, sink ∈ outs x → x = src)
    (hl : ∀ x ∈ live, x ≠ src → x ≠ sink → x ∈ live') (hl' : next ∈ live')
    (hlab : ∀ x ∈ live, lab' x = lab x) (hlab' : lab' next = .linear (aggsOf [lab src, lab sink]))
    (houts : ∀ x ∈ live, x ≠ src → x ≠ sink → outs' x = divert src next (outs x))
    (houts' : outs' next = divert src next (outs sink)) (he' : exit' = if sink = exit then next else exit)
    {x : Nat} {s s' : St V} (h : Path sem truth live lab outs exit x s s') :
    if x = sink then ∀ s0, Run sem truth (lab src) s0 s → Path sem truth live' lab' outs' exit' next s0 s'
    else Path sem truth live' lab' outs' exit' (if x = src then next else x) s s' := by
  induction h with
  | @stop s s' hx hr =>
    by_cases e : exit = sink
    · rw [if_pos e]
      intro s0 h0
      rw [if_pos e.symm] at he'
      subst he'
      refine .stop hl' ?_
      rw [hlab']; exact ⟨s, h0, s', e ▸ hr, rfl⟩
    · rw [if_neg e, if_neg he]
      rw [if_neg (fun h => e h.symm)] at he'
      subst he'
      exact .stop (hl _ hx he e) (by rw [hlab _ hx]; exact hr)
  | @step x y s t s' hx hxe hr hg hp' ih =>
    have hy := hp'.mem
    by_cases e : x = sink
    · subst e
      rw [if_pos rfl]
      intro s0 h0
      have hys : y ≠ x := fun e => hne (hp x hx (by have := goes_mem hg; rwa [e] at this)).symm
      rw [if_neg hys] at ih
      have hen : next ≠ exit' := by
        rw [he', if_neg hxe]; intro e; exact hn (e ▸ hp'.exit_mem)
      refine .step hl' hen (t := t) ?_ ?_ ih
      · rw [hlab']; exact ⟨s, h0, t, hr, rfl⟩
      · rw [houts', divert, goes_map, hg]; rfl
    · rw [if_neg e]
      by_cases e2 : x = src
      · subst e2
        rw [if_pos rfl]
        rw [ho] at hg
        have : y = sink := by simpa [goes] using hg.symm
        rw [if_pos this] at ih
        exact ih s hr
      · rw [if_neg e2]
        have hys : y ≠ sink := fun e => e2 (hp x hx (e ▸ goes_mem hg))
        rw [if_neg hys] at ih
        refine .step (hl x hx e2 e) ?_ (by rw [hlab x hx]; exact hr) ?_ ih
        · rw [he']; split
          · rintro rfl; exact hn hx
          · exact hxe
        · rw [houts x hx e2 e, divert, goes_map, hg]; rfl
theorem linPath' {sem : Sem V} {truth : V → Bool} {live live' : List Nat} {lab lab' : Nat → Agg}
    {outs outs' : Nat → List Nat} {exit exit' src sink next : Nat}
    (hsrc : src ∈ live) (hsink : sink ∈ live) (ho : outs src = [sink]) (he : exit ≠ src) (hen : exit ≠ next)
    (hn : ∀ x ∈ live, next ∉ outs x)
    (hl : ∀ x ∈ live', x ≠ next → x ∈ live ∧ x ≠ src ∧ x ≠ sink)
    (hlab : ∀ x ∈ live, lab' x = lab x) (hlab' : lab' next = .linear (aggsOf [lab src, lab sink]))
    (houts : ∀ x ∈ live, x ≠ src → x ≠ sink → outs' x = divert src next (outs x))
    (houts' : outs' next = divert src next (outs sink)) (he' : exit' = if sink = exit then next else exit)
    {x : Nat} {s s' : St V} (h : Path sem truth live' lab' outs' exit' x s s') :
    Path sem truth live lab outs exit (if x = next then src else x) s s' := by
  have back : ∀ {x y' k}, x ∈ live → goes (divert src next (outs x)) k = some y' →
      goes (outs x) k = some (if y' = next then src else y') := by
    intro x y' k hx h
    rw [divert, goes_map, Option.map_eq_some_iff] at h
    obtain ⟨y, hy, rfl⟩ := h
    rw [hy]
    have : y ≠ next := fun e => hn x hx (e ▸ goes_mem hy)
    by_cases e : y = src
    · simp [e]
    · simp [e, this]
  induction h with
  | @stop s s' hx hr =>
    by_cases e : sink = exit
    · rw [if_pos e] at he'
      subst he'
      rw [if_pos rfl]
      rw [hlab'] at hr
      obtain ⟨t, h1, u, h2, rfl⟩ := hr
      refine .step hsrc (Ne.symm he) h1 (by rw [ho]; rfl) ?_
      subst e
      exact .stop hsink h2
    · rw [if_neg e] at he'
      subst he'
      rw [if_neg hen]
      have := hl _ hx hen
      exact .stop this.1 (by rw [← hlab _ this.1]; exact hr)
  | @step x y s t s' hx hxe hr hg hp ih =>
    by_cases e : x = next
    · subst e
      rw [if_pos rfl]
      rw [hlab'] at hr
      obtain ⟨u, h1, v, h2, rfl⟩ := hr
      refine .step hsrc (Ne.symm he) h1 (by rw [ho]; rfl) (.step hsink ?_ h2 (back hsink (by rwa [houts'] at hg)) ih)
      intro e; rw [if_pos e] at he'; exact hxe he'.symm
    · rw [if_neg e]
      obtain ⟨hx1, hx2, hx3⟩ := hl x hx e
      refine .step hx1 ?_ (by rw [← hlab _ hx1]; exact hr) (back hx1 (by rwa [houts _ hx1 hx2 hx3] at hg)) ih
      intro e; rw [if_neg (by rw [← e]; exact Ne.symm hx3)] at he'; exact hxe (e.trans he'.symm)

/-! ### Branches -/

theorem runCase_get {sem : Sem V} {truth : V → Bool} {s s' : St V} : ∀ {as : List Agg} {k : Nat} {a : Agg},
    as[k]? = some a → Run sem truth a s s' → RunCase sem truth (aggsOf as) k s s'
  | b :: as, 0, a, h, hr => by simp at h; subst h; exact hr
  | b :: as, k + 1, a, h, hr => by
      simp at h; simp only [aggsOf, RunCase]; exact runCase_get h hr

theorem brPath {sem : Sem V} {truth : V → Bool} {live live' : List Nat} {lab lab' : Nat → Agg}
    {outs outs' : Nat → List Nat} {exit split join next : Nat}
    (hlen : 2 ≤ (outs split).length) (he : outs exit = []) (hn : next ∉ live)
    (hy : ∀ y ∈ outs split, outs y = [join])
    (hp : ∀ x ∈ live, ∀ y ∈ outs split, y ∈ outs x → x = split)
    (hl : ∀ x ∈ live, x ≠ split → x ∉ outs split → x ∈ live') (hl' : next ∈ live')
    (hlab : ∀ x ∈ live, lab' x = lab x)
    (hlab' : lab' next = .linear (aggsOf [lab split, .branch (aggsOf ((outs split).map lab))]))
    (houts : ∀ x ∈ live, x ≠ split → x ∉ outs split → outs' x = divert split next (outs x))
    (houts' : outs' next = [join])
    {x : Nat} {s s' : St V} (h : Path sem truth live lab outs exit x s s') :
    if x ∈ outs split then ∀ s0 (i : Nat), Run sem truth (lab split) s0 s → s.ctl = some i → (outs split)[i]? = some x →
        Path sem truth live' lab' outs' exit next s0 s'
    else Path sem truth live' lab' outs' exit (if x = split then next else x) s s' := by
  have hexit : exit ∉ outs split := fun h => by rw [hy _ h] at he; simp at he
  have hsplit : split ∉ outs split := fun h => by
    rw [hy _ h] at hlen; simp at hlen
  have hes : exit ≠ split := fun h => by rw [← h, he] at hlen; simp at hlen
  -- a branch that joins where it starts is never left
  have hj : join = split → ∀ {x s s'}, Path sem truth live lab outs exit x s s' → x ≠ split ∧ x ∉ outs split := by
    intro hj x s s' h
    induction h with
    | stop => exact ⟨hes, hexit⟩
    | step hx hxe hr hg _ ih =>
      constructor
      · rintro rfl; exact ih.2 (goes_mem hg)
      · intro h; rw [hy _ h] at hg; simp [goes] at hg; exact ih.1 (hg ▸ hj)
  induction h with
  | @stop s s' hx hr =>
    rw [if_neg hexit, if_neg hes]
    exact .stop (hl _ hx hes hexit) (by rw [hlab _ hx]; exact hr)
  | @step x y s t s' hx hxe hr hg hp' ih =>
    by_cases e : x ∈ outs split
    · rw [if_pos e]
      intro s0 i h0 hc hi
      rw [hy x e] at hg
      have : y = join := by simpa [goes] using hg.symm
      subst this
      have hys : y ∉ outs split := fun h => hsplit (by
        have := hp x hx y h (by rw [hy x e]; simp)
        exact this ▸ e)
      have hyn : y ≠ split := fun h => (hj h hp').1 h
      rw [if_neg hys, if_neg hyn] at ih
      refine .step hl' (fun e => hn (e ▸ hp'.exit_mem)) (t := t) ?_ (by rw [houts']; rfl) ih
      rw [hlab']
      refine ⟨s, h0, t, ⟨i, hc, runCase_get (a := lab x) ?_ hr⟩, rfl⟩
      rw [List.getElem?_map, hi]; rfl
    · rw [if_neg e]
      by_cases e2 : x = split
      · subst e2
        rw [if_pos rfl]
        rw [if_pos (goes_mem hg)] at ih
        obtain ⟨i, hi, hi'⟩ := goes_two hg hlen
        exact ih s i hr hi hi'
      · rw [if_neg e2]
        have hys : y ∉ outs split := fun h => e2 (hp x hx y h (goes_mem hg))
        rw [if_neg hys] at ih
        refine .step (hl x hx e2 e) hxe (by rw [hlab x hx]; exact hr) ?_ ih
        rw [houts x hx e2 e, divert, goes_map, hg]; rfl

theorem runCase_inv {sem : Sem V} {truth : V → Bool} {s s' : St V} : ∀ {as : List Agg} {k : Nat},
    RunCase sem truth (aggsOf as) k s s' → ∃ a, as[k]? = some a ∧ Run sem truth a s s'
  | [], _, h => by simp [aggsOf, RunCase] at h
  | b :: as, 0, h => ⟨b, by simp, h⟩
  | b :: as, k + 1, h => by
      simp only [aggsOf, RunCase] at h
      obtain ⟨a, h1, h2⟩ := runCase_inv h
      exact ⟨a, by simpa using h1, h2⟩

theorem goes_of_two {ys : List Nat} {i y : Nat} (h : ys[i]? = some y) (hl : 2 ≤ ys.length) : goes ys (some i) = some y := by
  match ys with
  | y :: z :: ys => exact h
  | [_] => simp at hl
  | [] => simp at hl

theorem brPath' {sem : Sem V} {truth : V → Bool} {live live' : List Nat} {lab lab' : Nat → Agg}
    {outs outs' : Nat → List Nat} {exit split join next : Nat}
    (hlen : 2 ≤ (outs split).length) (he : outs exit = []) (hen : exit ≠ next) (hsplit : split ∈ live)
    (hbr : ∀ y ∈ outs split, y ∈ live) (hn : ∀ x ∈ live, next ∉ outs x)
    (hy : ∀ y ∈ outs split, outs y = [join])
    (hl : ∀ x ∈ live', x ≠ next → x ∈ live ∧ x ≠ split ∧ x ∉ outs split)
    (hlab : ∀ x ∈ live, lab' x = lab x)
    (hlab' : lab' next = .linear (aggsOf [lab split, .branch (aggsOf ((outs split).map lab))]))
    (houts : ∀ x ∈ live, x ≠ split → x ∉ outs split → outs' x = divert split next (outs x))
    (houts' : outs' next = [join])
    {x : Nat} {s s' : St V} (h : Path sem truth live' lab' outs' exit x s s') :
    Path sem truth live lab outs exit (if x = next then split else x) s s' := by
  have hexit : ∀ y ∈ outs split, y ≠ exit := fun y h e => by
    have := hy _ h; rw [e, he] at this; simp at this
  have hes : split ≠ exit := fun h => by rw [h, he] at hlen; simp at hlen
  induction h with
  | @stop s s' hx hr =>
    rw [if_neg hen]
    have := hl _ hx hen
    exact .stop this.1 (by rw [← hlab _ this.1]; exact hr)
  | @step x y s t s' hx hxe hr hg hp ih =>
    by_cases e : x = next
    · subst e
      rw [if_pos rfl]
      rw [hlab'] at hr
      obtain ⟨u, h1, v, ⟨k, hk, hc⟩, rfl⟩ := hr
      obtain ⟨a, ha, hr⟩ := runCase_inv hc
      rw [List.getElem?_map, Option.map_eq_some_iff] at ha
      obtain ⟨z, hz, rfl⟩ := ha
      have hzm := List.mem_of_getElem? hz
      rw [houts'] at hg
      have : y = join := by simpa [goes] using hg.symm
      subst this
      have hyn : y ≠ x := fun e => hn z (hbr z hzm) (by rw [hy z hzm]; simp [e])
      rw [if_neg hyn] at ih
      refine .step hsplit hes h1 (y := z) ?_ (.step (hbr z hzm) (hexit z hzm) hr (by rw [hy z hzm]; rfl) ih)
      rw [hk]; exact goes_of_two hz hlen
    · rw [if_neg e]
      obtain ⟨hx1, hx2, hx3⟩ := hl x hx e
      refine .step hx1 hxe (by rw [← hlab _ hx1]; exact hr) ?_ ih
      rw [houts _ hx1 hx2 hx3, divert, goes_map, Option.map_eq_some_iff] at hg
      obtain ⟨z, hz, rfl⟩ := hg
      rw [hz]
      have : z ≠ next := fun e => hn x hx1 (e ▸ goes_mem hz)
      by_cases e : z = split
      · simp [e]
      · simp [e, this]

/-! ### Loops -/

theorem popPath {sem : Sem V} {truth : V → Bool} {live : List Nat} {lab lab' : Nat → Agg}
    {outs outs' : Nat → List Nat} {exit n x0 : Nat} (ho : outs n = [x0, n]) (ho' : outs' n = [x0])
    (he : n ≠ exit) (hl : lab' n = .loop (lab n)) (hlab : ∀ x, x ≠ n → lab' x = lab x)
    (houts : ∀ x, x ≠ n → outs' x = outs x) {x : Nat} {s s' : St V}
    (h : Path sem truth live lab outs exit x s s') : Path sem truth live lab' outs' exit x s s' := by
  induction h with
  | stop hx hr => exact .stop hx (by rw [hlab _ (Ne.symm he)]; exact hr)
  | @step x y s t s' hx hxe hr hg hp ih =>
    by_cases e : x = n
    · subst e
      rw [ho] at hg
      obtain ⟨i, hi, hy⟩ := goes_two hg (by simp)
      match i, hi, hy with
      | 0, hi, hy =>
        simp at hy; subst hy
        refine .step hx hxe (t := t) ?_ (by rw [ho']; rfl) ih
        rw [hl]; exact .exit hr hi
      | 1, hi, hy =>
        simp at hy; subst hy
        cases ih with
        | stop => exact absurd rfl he
        | @step _ z _ u _ h1 h2 h3 h4 h5 =>
          refine .step hx hxe (t := u) ?_ h4 h5
          rw [hl] at h3 ⊢
          exact .again hr hi h3
      | k + 2, hi, hy => simp at hy
    · exact .step hx hxe (by rw [hlab _ e]; exact hr) (by rw [houts _ e]; exact hg) ih

theorem popPath' {sem : Sem V} {truth : V → Bool} {live : List Nat} {lab lab' : Nat → Agg}
    {outs outs' : Nat → List Nat} {exit n x0 : Nat} (ho : outs n = [x0, n]) (ho' : outs' n = [x0])
    (he : n ≠ exit) (hl : lab' n = .loop (lab n)) (hlab : ∀ x, x ≠ n → lab' x = lab x)
    (houts : ∀ x, x ≠ n → outs' x = outs x) {x : Nat} {s s' : St V}
    (h : Path sem truth live lab' outs' exit x s s') : Path sem truth live lab outs exit x s s' := by
  induction h with
  | stop hx hr => exact .stop hx (by rw [← hlab _ (Ne.symm he)]; exact hr)
  | @step x y s t s' hx hxe hr hg hp ih =>
    by_cases e : x = n
    · subst e
      rw [ho'] at hg
      have : y = x0 := by simpa [goes] using hg.symm
      subst this
      rw [hl] at hr
      have : Iter (Run sem truth (lab x)) s t := hr
      clear hr hg hp
      induction this with
      | exit h hc => exact .step hx hxe h (by rw [ho, hc]; rfl) ih
      | again h hc _ ih' => exact .step hx hxe h (by rw [ho, hc]; rfl) (ih' ih)
    · exact .step hx hxe (by rw [← hlab _ e]; exact hr) (by rw [← houts _ e]; exact hg) ih

/-! ### Invariants -/

theorem wf_none : ∀ {a : Agg} (p : Option Var), wf a none → wf a p
  | .block _, _, _ => trivial
  | .linear _, _, h => h
  | .branch _, _, h => by simp [wf] at h
  | .loop _, _, h => h

theorem wfCases_aggsOf : ∀ {as : List Agg}, (∀ a ∈ as, wf a none) → wfCases (aggsOf as)
  | [], _ => trivial
  | a :: as, h => ⟨h a (by simp), wfCases_aggsOf fun b hb => h b (by simp [hb])⟩

def ren (a b x : Nat) : Nat := if x = a then b else x

structure Conf.Inv (c : Conf) : Prop where
  /-- the tail of a loop has the edge that leaves the loop, and the repetition edge -/
  tail : ∀ f ∈ c.fs.dropLast, ∃ x, c.G.outs f.2 = [x] ∧ pendAt c.fs f.2 = [f.1]
  exit : c.plus c.root.2 = []
  wf : ∀ x ∈ c.G.live, Front.wf (c.G.lab x) none ∧ (2 ≤ (c.plus x).length → (endsIn (c.G.lab x)).isSome)

/-- The frames after a linear reduction. -/
theorem lin_frames {G : Flow} {f : Nat × Nat} {fs : List (Nat × Nat)} {src sink : Nat} (hne : src ≠ sink)
    (b : Conf.Bound ⟨G, f :: fs⟩)
    (a : Conf.Alive ⟨G.reduceLinear src sink,
      (if src = f.1 then G.next else f.1, if sink = f.2 then G.next else f.2) :: fs⟩) :
    (∀ g ∈ f :: fs, g.1 ≠ sink ∧ g.2 ≠ src) ∧
    ((if src = f.1 then G.next else f.1, if sink = f.2 then G.next else f.2) :: fs) =
      (f :: fs).map fun g => (ren src G.next g.1, ren sink G.next g.2) := by
  have hfs : ∀ g ∈ fs, g.1 ≠ src ∧ g.1 ≠ sink ∧ g.2 ≠ src ∧ g.2 ≠ sink := fun g hg => by
    have bg := b.ptr g (by simp [hg])
    have := a g (by simp [hg])
    have h1 := (Flow.mem_linear bg.1).1 this.1
    have h2 := (Flow.mem_linear bg.2).1 this.2
    tauto
  have bf := b.ptr f (by simp)
  have af := a _ (List.mem_cons_self ..)
  dsimp only at af bf
  have hf : f.1 ≠ sink ∧ f.2 ≠ src := by
    constructor
    · intro e
      rw [if_neg (by rw [e]; exact hne)] at af
      exact ((Flow.mem_linear bf.1).1 af.1).2.2 e
    · intro e
      rw [if_neg (c := sink = f.2) (by rw [e]; exact fun h => hne h.symm)] at af
      exact ((Flow.mem_linear bf.2).1 af.2).2.1 e
  refine ⟨fun g hg => ?_, ?_⟩
  · rcases List.mem_cons.1 hg with rfl | hg
    · exact hf
    · exact ⟨(hfs g hg).2.1, (hfs g hg).2.2.1⟩
  · rw [List.map_cons]
    congr 1
    · simp only [ren, eq_comm]
    · symm
      conv => rhs; rw [← List.map_id fs]
      exact List.map_congr_left fun g hg => by simp [ren, (hfs g hg).1, (hfs g hg).2.2.2]

theorem br_frames {G : Flow} {f : Nat × Nat} {fs : List (Nat × Nat)} {split join : Nat} (hns : split ∉ G.outs split)
    (b : Conf.Bound ⟨G, f :: fs⟩)
    (a : Conf.Alive ⟨G.reduceBranch split join, (if split = f.1 then G.next else f.1, f.2) :: fs⟩) :
    (∀ g ∈ f :: fs, g.1 ∉ G.outs split ∧ g.2 ≠ split ∧ g.2 ∉ G.outs split) ∧
    ((if split = f.1 then G.next else f.1, f.2) :: fs) =
      (f :: fs).map fun g => (ren split G.next g.1, id g.2) := by
  have hfs : ∀ g ∈ fs, g.1 ≠ split ∧ g.1 ∉ G.outs split ∧ g.2 ≠ split ∧ g.2 ∉ G.outs split := fun g hg => by
    have bg := b.ptr g (by simp [hg])
    have := a g (by simp [hg])
    have h1 := (Flow.mem_branch bg.1).1 this.1
    have h2 := (Flow.mem_branch bg.2).1 this.2
    tauto
  have bf := b.ptr f (by simp)
  have af := a _ (List.mem_cons_self ..)
  dsimp only at af bf
  have h2 := (Flow.mem_branch bf.2).1 af.2
  have h1 : f.1 ∉ G.outs split := by
    intro e
    rw [if_neg (fun h : split = f.1 => hns (by rw [h] at hns ⊢; exact absurd (h ▸ e) hns))] at af
    exact ((Flow.mem_branch bf.1).1 af.1).2.2 e
  refine ⟨fun g hg => ?_, ?_⟩
  · rcases List.mem_cons.1 hg with rfl | hg
    · exact ⟨h1, h2.2.1, h2.2.2⟩
    · exact (hfs g hg).2
  · rw [List.map_cons]
    congr 1
    · simp only [ren, eq_comm, id]
    · symm
      conv => rhs; rw [← List.map_id fs]
      exact List.map_congr_left fun g hg => by simp [ren, (hfs g hg).1]

theorem root_mem {c : Conf} (h : c.fs ≠ []) : c.root ∈ c.fs := by
  unfold Conf.root
  rw [List.getLastD_eq_getLast?, List.getLast?_eq_some_getLast h]
  exact List.getLast_mem h

theorem root_map {G G' : Flow} {fs : List (Nat × Nat)} (h : fs ≠ []) (p : Nat × Nat → Nat × Nat) :
    (Conf.mk G' (fs.map p)).root = p (Conf.mk G fs).root := by
  unfold Conf.root
  simp only [List.getLastD_eq_getLast?, List.getLast?_map, List.getLast?_eq_some_getLast h]
  rfl

theorem divert_append (a b : Nat) (xs ys : List Nat) : divert a b (xs ++ ys) = divert a b xs ++ divert a b ys := by
  simp [divert]

theorem divert_length (a b : Nat) (xs : List Nat) : (divert a b xs).length = xs.length := by simp [divert]

theorem lin_step {sem : Sem V} {truth : V → Bool} {G : Flow} {f : Nat × Nat} {fs : List (Nat × Nat)} {src sink : Nat}
    (hl : G.isLinear src = some sink) (h1 : src ∈ G.live) (h2 : sink ∈ G.live) (hne : src ≠ sink)
    (b : Conf.Bound ⟨G, f :: fs⟩)
    (a : Conf.Alive ⟨G.reduceLinear src sink,
      (if src = f.1 then G.next else f.1, if sink = f.2 then G.next else f.2) :: fs⟩)
    (i : Conf.Inv ⟨G, f :: fs⟩) :
    let c : Conf := ⟨G, f :: fs⟩
    let c' : Conf := ⟨G.reduceLinear src sink,
      (if src = f.1 then G.next else f.1, if sink = f.2 then G.next else f.2) :: fs⟩
    c'.Inv ∧ ∀ s s', c.Exec sem truth c.root.1 s s' ↔ c'.Exec sem truth c'.root.1 s s' := by
  intro c c'
  obtain ⟨hfr, hmap⟩ := lin_frames hne b a
  have hG' : c'.G = G.reduceLinear src sink := rfl
  have hfs' : c'.fs = c.fs.map fun g => (ren src G.next g.1, ren sink G.next g.2) := hmap
  obtain ⟨ho, hi⟩ := isLinear_some hl
  have hr : c'.root = (ren src G.next c.root.1, ren sink G.next c.root.2) := by
    have : c' = ⟨c'.G, c'.fs⟩ := rfl
    rw [this, hfs', root_map (G := G) (by simp [c])]
  have hroot := hfr _ (root_mem (c := c) (by simp [c]))
  have lt : ∀ x ∈ G.live, x ≠ G.next := fun x hx => by have := b.live x hx; simp at this; omega
  have hptr : ∀ g ∈ c.fs, g.1 ≠ G.next ∧ g.2 ≠ G.next := fun g hg => by
    have := b.ptr g hg; simp at this; omega
  have pend' : ∀ x, x ≠ G.next → x ≠ sink → pendAt c'.fs x = divert src G.next (pendAt c.fs x) := fun x hx hs => by
    rw [hfs', pendAt_map (ren src G.next) (ren sink G.next) x x]; · rfl
    intro g hg
    unfold ren
    split
    · rename_i e; rw [e]; exact ⟨fun h => absurd h.symm hx, fun h => absurd h.symm hs⟩
    · rfl
  have pendn : pendAt c'.fs G.next = divert src G.next (pendAt c.fs sink) := by
    rw [hfs', pendAt_map (ren src G.next) (ren sink G.next) G.next sink]; · rfl
    intro g hg
    unfold ren
    split
    · rename_i e; simp [e]
    · rename_i e; exact ⟨fun h => absurd h (hptr g hg).2, fun h => absurd h e⟩
  have plus' : ∀ x, x ≠ G.next → x ≠ sink → c'.plus x = divert src G.next (c.plus x) := fun x hx hs => by
    unfold Conf.plus
    rw [divert_append, pend' x hx hs, hG']
    simp only [Flow.reduceLinear, if_neg hx]; rfl
  have plusn : c'.plus G.next = divert src G.next (c.plus sink) := by
    unfold Conf.plus
    rw [divert_append, pendn, hG']
    simp only [Flow.reduceLinear, if_pos]; rfl
  have psrc : c.plus src = [sink] := by
    unfold Conf.plus
    rw [pendAt_nil fun g hg => (hfr g hg).2]
    simp [c, ho]
  refine ⟨⟨?_, ?_, ?_⟩, ?_⟩
  · intro g' hg'
    rw [hfs', ← List.map_dropLast] at hg'
    obtain ⟨g, hg, rfl⟩ := List.mem_map.1 hg'
    obtain ⟨x, hx, hp⟩ := i.tail g hg
    have hg0 := List.dropLast_subset _ hg
    refine ⟨if x = src then G.next else x, ?_, ?_⟩
    · dsimp only [ren]
      rw [hG']
      by_cases e : g.2 = sink
      · rw [if_pos e]; rw [e] at hx
        simp only [Flow.reduceLinear, if_pos]; rw [show G.outs sink = [x] from hx]; rfl
      · rw [if_neg e]
        simp only [Flow.reduceLinear, if_neg (hptr g hg0).2]; rw [show G.outs g.2 = [x] from hx]; rfl
    · dsimp only [ren]
      by_cases e : g.2 = sink
      · rw [if_pos e, pendn, ← e]; rw [show pendAt c.fs g.2 = [g.1] from hp]; rfl
      · rw [if_neg e, pend' _ (hptr g hg0).2 e]; rw [show pendAt c.fs g.2 = [g.1] from hp]; rfl
  · have he : c.plus c.root.2 = [] := i.exit
    rw [hr]
    dsimp only [ren]
    by_cases e : c.root.2 = sink
    · rw [if_pos e, plusn, ← e, he]; rfl
    · rw [if_neg e, plus' _ (hptr _ (root_mem (c := c) (by simp [c]))).2 e, he]; rfl
  · intro x hx
    rw [hG'] at hx
    simp only [Flow.reduceLinear, List.mem_append, List.mem_filter, List.mem_singleton, decide_eq_true_eq] at hx
    rcases hx with ⟨hx, hx1, hx2⟩ | rfl
    · have hlx := lt x hx
      have := i.wf x hx
      rw [plus' x hlx hx2, divert_length, hG']
      simp only [Flow.reduceLinear, if_neg hlx]
      exact this
    · have w1 := i.wf src h1
      have w2 := i.wf sink h2
      rw [plusn, divert_length, hG']
      simp only [Flow.reduceLinear, if_pos]
      refine ⟨?_, fun h => ?_⟩
      · exact ⟨w1.1, wf_none _ w2.1, trivial⟩
      · simp only [aggsOf, endsIn, endsInList]; exact w2.2 h
  · intro s s'
    refine ⟨fun h => ?_, fun h => ?_⟩
    rotate_left
    · unfold Conf.Exec at h
      have := linPath' (live := c.G.live) (lab := c.G.lab) (outs := c.plus) (exit := c.root.2)
        (src := src) (sink := sink) (next := G.next) h1 h2 psrc hroot.2
        (hptr _ (root_mem (c := c) (by simp [c]))).2 (fun x hx hs => ?_) (fun x hx hne => ?_) (fun x hx => ?_) ?_
        (fun x hx n1 n2 => plus' x (lt x hx) n2) plusn (by rw [hr]; simp only [ren, eq_comm]) h
      · rw [hr] at this
        unfold Conf.Exec
        have e : (if ren src G.next c.root.1 = G.next then src else ren src G.next c.root.1) = c.root.1 := by
          unfold ren
          by_cases e : c.root.1 = src
          · simp [e]
          · simp [e, (hptr _ (root_mem (c := c) (by simp [c]))).1]
        dsimp only at this
        rwa [e] at this
      · unfold Conf.plus at hs
        rcases List.mem_append.1 hs with hs | hs
        · have := b.outs x hx _ hs; simp at this
        · exact (hptr _ (List.dropLast_subset _ (mem_pendAt hs))).1 rfl
      · rw [hG'] at hx; simp [Flow.reduceLinear, hne] at hx; exact hx
      · rw [hG']; simp only [Flow.reduceLinear, if_neg (lt x hx)]; rfl
      · rw [hG']; simp only [Flow.reduceLinear, if_pos]; rfl
    have := linPath (live' := c'.G.live) (lab' := c'.G.lab) (outs' := c'.plus) (exit' := c'.root.2)
      (src := src) (sink := sink) (next := G.next) h1 hne psrc hroot.2 (fun h => lt _ h rfl)
      (fun x hx hs => ?_) (fun x hx n1 n2 => ?_) ?_ (fun x hx => ?_) ?_ (fun x hx n1 n2 => plus' x (lt x hx) n2) plusn
      (by rw [hr]; simp only [ren, eq_comm]) h
    · rw [if_neg hroot.1] at this
      unfold Conf.Exec
      rw [show c'.root.1 = if c.root.1 = src then G.next else c.root.1 by rw [hr]; rfl]
      exact this
    · unfold Conf.plus at hs
      rcases List.mem_append.1 hs with hs | hs
      · exact indeg_one hi hx h1 hs (by simp [ho])
      · exact absurd rfl (hfr _ (List.dropLast_subset _ (mem_pendAt hs))).1
    · rw [hG']; simp [Flow.reduceLinear]; exact .inl ⟨hx, n1, n2⟩
    · rw [hG']; simp [Flow.reduceLinear]
    · rw [hG']; simp only [Flow.reduceLinear, if_neg (lt x hx)]; rfl
    · rw [hG']; simp only [Flow.reduceLinear, if_pos]; rfl

theorem br_step {sem : Sem V} {truth : V → Bool} {G : Flow} {f : Nat × Nat} {fs : List (Nat × Nat)} {split join : Nat}
    (hl : G.isBranch split = some join) (h1 : split ∈ G.live) (h2 : ∀ y ∈ G.outs split, y ∈ G.live)
    (b : Conf.Bound ⟨G, f :: fs⟩)
    (a : Conf.Alive ⟨G.reduceBranch split join, (if split = f.1 then G.next else f.1, f.2) :: fs⟩)
    (i : Conf.Inv ⟨G, f :: fs⟩) :
    let c : Conf := ⟨G, f :: fs⟩
    let c' : Conf := ⟨G.reduceBranch split join, (if split = f.1 then G.next else f.1, f.2) :: fs⟩
    c'.Inv ∧ ∀ s s', c.Exec sem truth c.root.1 s s' ↔ c'.Exec sem truth c'.root.1 s s' := by
  intro c c'
  obtain ⟨hlen, hy⟩ := isBranch_some hl
  have hns : split ∉ G.outs split := fun h => by
    have := (hy _ h).2; rw [this] at hlen; simp at hlen
  obtain ⟨hfr, hmap⟩ := br_frames hns b a
  have hG' : c'.G = G.reduceBranch split join := rfl
  have hfs' : c'.fs = c.fs.map fun g => (ren split G.next g.1, id g.2) := hmap
  have hr : c'.root = (ren split G.next c.root.1, id c.root.2) := by
    have : c' = ⟨c'.G, c'.fs⟩ := rfl
    rw [this, hfs', root_map (G := G) (by simp [c])]
  have hroot := hfr _ (root_mem (c := c) (by simp [c]))
  have lt : ∀ x ∈ G.live, x ≠ G.next := fun x hx => by have := b.live x hx; simp at this; omega
  have hptr : ∀ g ∈ c.fs, g.1 ≠ G.next ∧ g.2 ≠ G.next := fun g hg => by
    have := b.ptr g hg; simp at this; omega
  have pend' : ∀ x, pendAt c'.fs x = divert split G.next (pendAt c.fs x) := fun x => by
    rw [hfs', pendAt_map (ren split G.next) id x x]; · rfl
    intro g hg; rfl
  have pendn : pendAt c'.fs G.next = [] := by
    rw [pend', pendAt_nil fun g hg => (hptr g hg).2]; rfl
  have plus' : ∀ x, x ≠ G.next → c'.plus x = divert split G.next (c.plus x) := fun x hx => by
    unfold Conf.plus
    rw [divert_append, pend' x, hG']
    simp only [Flow.reduceBranch, if_neg hx]; rfl
  have plusn : c'.plus G.next = [join] := by
    unfold Conf.plus
    rw [pendn, hG']
    simp [Flow.reduceBranch]
  have psplit : c.plus split = G.outs split := by
    unfold Conf.plus
    rw [pendAt_nil fun g hg => (hfr g hg).2.1]
    simp [c]
  refine ⟨⟨?_, ?_, ?_⟩, ?_⟩
  · intro g' hg'
    rw [hfs', ← List.map_dropLast] at hg'
    obtain ⟨g, hg, rfl⟩ := List.mem_map.1 hg'
    obtain ⟨x, hx, hp⟩ := i.tail g hg
    have hg0 := List.dropLast_subset _ hg
    refine ⟨if x = split then G.next else x, ?_, ?_⟩
    · dsimp only [id]
      rw [hG']
      simp only [Flow.reduceBranch, if_neg (hptr g hg0).2]; rw [show G.outs g.2 = [x] from hx]; rfl
    · dsimp only [id]
      rw [pend' _]; rw [show pendAt c.fs g.2 = [g.1] from hp]; rfl
  · have he : c.plus c.root.2 = [] := i.exit
    rw [hr]
    dsimp only [id]
    rw [plus' _ (hptr _ (root_mem (c := c) (by simp [c]))).2, he]; rfl
  · intro x hx
    rw [hG'] at hx
    simp only [Flow.reduceBranch, List.mem_append, List.mem_filter, List.mem_singleton, decide_eq_true_eq] at hx
    rcases hx with ⟨hx, hx1, hx2⟩ | rfl
    · have hlx := lt x hx
      have := i.wf x hx
      rw [plus' x hlx, divert_length, hG']
      simp only [Flow.reduceBranch, if_neg hlx]
      exact this
    · have w1 := i.wf split h1
      rw [plusn, hG']
      simp only [Flow.reduceBranch, if_pos]
      refine ⟨?_, fun h => by simp at h⟩
      refine ⟨w1.1, ⟨w1.2 (by rw [psplit]; exact hlen), wfCases_aggsOf ?_⟩, trivial⟩
      intro a ha
      obtain ⟨y, hy', rfl⟩ := List.mem_map.1 ha
      exact (i.wf y (h2 y hy')).1
  · intro s s'
    refine ⟨fun h => ?_, fun h => ?_⟩
    rotate_left
    · unfold Conf.Exec at h
      rw [show c'.root.2 = c.root.2 by rw [hr]; rfl] at h
      have := brPath' (live := c.G.live) (lab := c.G.lab) (outs := c.plus) (exit := c.root.2) (split := split)
        (join := join) (next := G.next) (by rw [psplit]; exact hlen) i.exit
        (hptr _ (root_mem (c := c) (by simp [c]))).2 h1 (by rw [psplit]; exact h2) (fun x hx hs => ?_)
        (fun y hy' => ?_) (fun x hx hne => ?_) (fun x hx => ?_) ?_
        (fun x hx n1 n2 => plus' x (lt x hx)) plusn h
      · rw [hr] at this
        unfold Conf.Exec
        have e : (if ren split G.next c.root.1 = G.next then split else ren split G.next c.root.1) = c.root.1 := by
          unfold ren
          by_cases e : c.root.1 = split
          · simp [e]
          · simp [e, (hptr _ (root_mem (c := c) (by simp [c]))).1]
        dsimp only at this
        rwa [e] at this
      · unfold Conf.plus at hs
        rcases List.mem_append.1 hs with hs | hs
        · have := b.outs x hx _ hs; simp at this
        · exact (hptr _ (List.dropLast_subset _ (mem_pendAt hs))).1 rfl
      · rw [psplit] at hy'
        unfold Conf.plus
        rw [pendAt_nil fun g hg e => (hfr g hg).2.2 (e ▸ hy')]
        simp [c, (hy y hy').2]
      · rw [psplit]
        rw [hG'] at hx; simp [Flow.reduceBranch, hne] at hx; exact hx
      · rw [hG']; simp only [Flow.reduceBranch, if_neg (lt x hx)]; rfl
      · rw [hG', psplit]; simp only [Flow.reduceBranch, if_pos]; rfl
    have := brPath (live' := c'.G.live) (lab' := c'.G.lab) (outs' := c'.plus) (split := split) (join := join)
      (next := G.next) (by rw [psplit]; exact hlen) i.exit (fun h => lt _ h rfl)
      (fun y hy' => ?_) (fun x hx y hy' hyx => ?_) (fun x hx n1 n2 => ?_) ?_ (fun x hx => ?_) ?_
      (fun x hx n1 n2 => plus' x (lt x hx)) plusn h
    · rw [psplit, if_neg hroot.1] at this
      unfold Conf.Exec
      rw [show c'.root.1 = if c.root.1 = split then G.next else c.root.1 by rw [hr]; rfl,
        show c'.root.2 = c.root.2 by rw [hr]; rfl]
      exact this
    · rw [psplit] at hy'
      unfold Conf.plus
      rw [pendAt_nil fun g hg e => (hfr g hg).2.2 (e ▸ hy')]
      simp [c, (hy y hy').2]
    · rw [psplit] at hy'
      unfold Conf.plus at hyx
      rcases List.mem_append.1 hyx with hs | hs
      · exact indeg_one (hy y hy').1 hx h1 hs hy'
      · exact absurd hy' (hfr _ (List.dropLast_subset _ (mem_pendAt hs))).1
    · rw [psplit] at n2
      rw [hG']; simp [Flow.reduceBranch]; exact .inl ⟨hx, n1, n2⟩
    · rw [hG']; simp [Flow.reduceBranch]
    · rw [hG']; simp only [Flow.reduceBranch, if_neg (lt x hx)]; rfl
    · rw [hG', psplit]; simp only [Flow.reduceBranch, if_pos]; rfl

theorem pendAt_cons {f : Nat × Nat} {fs : List (Nat × Nat)} (h : fs ≠ []) (x : Nat) :
    pendAt (f :: fs) x = (if f.2 = x then [f.1] else []) ++ pendAt fs x := by
  unfold pendAt
  rw [List.dropLast_cons_of_ne_nil h, List.filterMap_cons]
  split <;> rename_i e
  · split at e
    · cases e
    · rename_i e'; simp [e']
  · split at e
    · rename_i e'; injection e with e; simp [e', e]
    · cases e

theorem root_cons {G G' : Flow} {f : Nat × Nat} {fs : List (Nat × Nat)} (h : fs ≠ []) :
    (Conf.mk G (f :: fs)).root = (Conf.mk G' fs).root := by
  cases fs with
  | nil => exact absurd rfl h
  | cons g fs => simp [Conf.root]

theorem push_step {sem : Sem V} {truth : V → Bool} {G : Flow} {fs : List (Nat × Nat)} {e t x : Nat}
    (hx : G.outs t = [x, e]) (he : e ∈ G.live) (ht : t ∈ G.live) (hf : fs ≠ []) (i : Conf.Inv ⟨G, fs⟩) :
    let c : Conf := ⟨G, fs⟩
    let c' : Conf := ⟨G.removeRep t, (e, t) :: fs⟩
    c'.Inv ∧ ∀ s s', c.Exec sem truth c.root.1 s s' ↔ c'.Exec sem truth c'.root.1 s s' := by
  intro c c'
  have hp : ∀ y, c'.plus y = c.plus y := by
    intro y
    unfold Conf.plus
    simp only [c, c', pendAt_cons hf, Flow.removeRep]
    by_cases h : y = t
    · subst h; simp [hx]
    · have : t ≠ y := fun e => h e.symm
      simp [h, this]
  have hp0 : pendAt fs t = [] := by
    apply List.eq_nil_iff_forall_not_mem.2
    intro y hy
    obtain ⟨z, hz, _⟩ := i.tail _ (mem_pendAt hy)
    simp only [hx] at hz; simp at hz
  have hr : c'.root = c.root := root_cons hf
  refine ⟨⟨?_, by rw [hp, hr]; exact i.exit, fun y hy => ?_⟩, ?_⟩
  · intro g hg
    simp only [c', List.dropLast_cons_of_ne_nil hf, List.mem_cons] at hg
    rcases hg with rfl | hg
    · exact ⟨x, by simp [c', Flow.removeRep, hx], by simp [c', pendAt_cons hf, hp0]⟩
    · obtain ⟨z, hz, hz'⟩ := i.tail g hg
      have hne : g.2 ≠ t := fun e => by simp only [e, hx] at hz; simp at hz
      have hne' : t ≠ g.2 := fun e => hne e.symm
      exact ⟨z, by simpa [c', Flow.removeRep, hne] using hz, by simpa [c', pendAt_cons hf, hne'] using hz'⟩
  · rw [hp]; exact i.wf y hy
  · intro s s'
    unfold Conf.Exec
    rw [hr, show c'.plus = c.plus from funext hp]
    exact Iff.rfl

theorem pop_step {sem : Sem V} {truth : V → Bool} {G : Flow} {fs : List (Nat × Nat)} {n : Nat}
    (hn : n ∈ G.live) (hf : fs ≠ []) (i : Conf.Inv ⟨G, (n, n) :: fs⟩) :
    let c : Conf := ⟨G, (n, n) :: fs⟩
    let c' : Conf := ⟨G.setLab n (.loop (G.lab n)), fs⟩
    c'.Inv ∧ ∀ s s', c.Exec sem truth c.root.1 s s' ↔ c'.Exec sem truth c'.root.1 s s' := by
  intro c c'
  have hr : c'.root = c.root := (root_cons hf).symm
  have hd : ((n, n) :: fs).dropLast = (n, n) :: fs.dropLast := List.dropLast_cons_of_ne_nil hf
  obtain ⟨x, hx, hp⟩ := i.tail (n, n) (by simp [hd])
  have hx : G.outs n = [x] := hx
  have hp0 : pendAt fs n = [] := by
    simp only [pendAt_cons hf, if_pos] at hp
    simpa using hp
  have pn : c.plus n = [x, n] := by
    unfold Conf.plus; simp only [c, pendAt_cons hf, hp0]; simp [hx]
  have pn' : c'.plus n = [x] := by
    unfold Conf.plus; simp only [c', hp0, Flow.setLab]; simp [hx]
  have pne : ∀ y, y ≠ n → c'.plus y = c.plus y := by
    intro y hy
    have : n ≠ y := fun e => hy e.symm
    unfold Conf.plus; simp [c, c', pendAt_cons hf, Flow.setLab, this]
  have hne : n ≠ c.root.2 := fun e => by
    have : c.plus c.root.2 = [] := i.exit
    rw [← e, pn] at this; simp at this
  refine ⟨⟨?_, ?_, ?_⟩, ?_⟩
  · intro g hg
    obtain ⟨z, hz, hz'⟩ := i.tail g (by rw [hd]; simp [show g ∈ fs.dropLast from hg])
    refine ⟨z, hz, ?_⟩
    have hne : n ≠ g.2 := fun e => by
      have : (g.1, g.2) ∈ fs.dropLast := hg
      have hm : g.1 ∈ pendAt fs n := by
        unfold pendAt; rw [List.mem_filterMap]; exact ⟨g, hg, by simp [e]⟩
      rw [hp0] at hm; simp at hm
    simpa [pendAt_cons hf, hne] using hz'
  · rw [hr, pne _ (Ne.symm hne)]; exact i.exit
  · intro y hy
    have wy := i.wf y hy
    by_cases e : y = n
    · subst e
      rw [pn']
      simp only [c', Flow.setLab, if_pos]
      refine ⟨⟨wy.1, wy.2 ?_⟩, fun h => by simp at h⟩
      rw [show Conf.plus ⟨G, (y, y) :: fs⟩ y = [x, y] from pn]; simp
    · rw [pne y e]
      simp only [c', Flow.setLab, if_neg e]
      exact wy
  · intro s s'
    unfold Conf.Exec
    rw [hr]
    exact ⟨popPath pn pn' hne (by simp [c', Flow.setLab, c]) (fun y hy => by simp [c', Flow.setLab, c, hy]) pne,
      popPath' pn pn' hne (by simp [c', Flow.setLab, c]) (fun y hy => by simp [c', Flow.setLab, c, hy]) pne⟩

theorem Step.preserves {sem : Sem V} {truth : V → Bool} {c c' : Conf} (h : Step c c') (b : c.Bound) (a : c'.Alive)
    (i : c.Inv) : c'.Inv ∧ ∀ s s', c.Exec sem truth c.root.1 s s' ↔ c'.Exec sem truth c'.root.1 s s' := by
  cases h with
  | lin hl h1 h2 hne => exact lin_step hl h1 h2 hne b a i
  | br hl h1 h2 => exact br_step hl h1 h2 b a i
  | push hx he ht hf => exact push_step hx he ht hf i
  | pop hn hf => exact pop_step hn hf i

theorem Steps.alive {c c' : Conf} (h : Steps c c') (b : c.Bound) (a : c'.Alive) : c.Alive := by
  induction h with
  | refl => exact a
  | head s _ ih => exact s.alive b (ih (s.bound b) a)

theorem Steps.preserves {sem : Sem V} {truth : V → Bool} {c c' : Conf} (h : Steps c c') (b : c.Bound) (a : c'.Alive)
    (i : c.Inv) : c'.Inv ∧ ∀ s s', c.Exec sem truth c.root.1 s s' ↔ c'.Exec sem truth c'.root.1 s s' := by
  induction h with
  | refl => exact ⟨i, fun _ _ => Iff.rfl⟩
  | head s hs ih =>
    have b' := s.bound b
    obtain ⟨i', e1⟩ := s.preserves (sem := sem) (truth := truth) b (hs.alive b' a) i
    obtain ⟨i2, e2⟩ := ih b' a i'
    exact ⟨i2, fun _ _ => (e1 _ _).trans (e2 _ _)⟩

theorem foldl_max {l : List Nat} {m : Nat} : m ≤ l.foldl (fun m x => max m (x + 1)) m ∧
    ∀ x ∈ l, x < l.foldl (fun m x => max m (x + 1)) m := by
  induction l generalizing m with
  | nil => simp
  | cons a l ih =>
    have := @ih (max m (a + 1))
    simp only [List.foldl_cons, List.mem_cons]
    refine ⟨by omega, ?_⟩
    rintro x (rfl | hx)
    · omega
    · exact this.2 x hx

/-- Aggregation preserves executions and gives a well-formed tree. -/
theorem aggregate_correct {sem : Sem V} {truth : V → Bool} {C : Cfg} (hw : C.Wf)
    {sccs : Flow → Nat → Nat → List (List Nat)} {fuel : Nat} {tree : Agg} (h : C.aggregate sccs fuel = some tree) :
    wf tree none ∧ ∀ s s', C.Exec sem truth C.entry s s' ↔ Run sem truth tree s s' := by
  unfold Cfg.aggregate at h
  obtain ⟨r, hr, h⟩ := Option.bind_eq_some_iff.1 h
  split at h
  · rename_i hm
    injection h with h
    have hs := aggregate_steps sccs fuel C.entry C.exit C.flow r [] hr
    have b : Conf.Bound ⟨C.flow, [(C.entry, C.exit)]⟩ := by
      have := (foldl_max (l := C.nodes) (m := 0)).2
      refine ⟨this, fun x hx y hy => this y (hw.closed x hx y hy), ?_, by simp⟩
      intro f hf
      simp at hf; subst hf
      exact ⟨this _ hw.entry, this _ hw.exit⟩
    have a : Conf.Alive ⟨r.1, [(r.2, r.2)]⟩ := by
      intro f hf; simp at hf; subst hf; exact ⟨hm, hm⟩
    have i : Conf.Inv ⟨C.flow, [(C.entry, C.exit)]⟩ := by
      refine ⟨by simp, by simp [Conf.plus, Conf.root, pendAt, Cfg.flow, hw.last], fun x hx => ⟨trivial, fun h => ?_⟩⟩
      simp [Conf.plus, pendAt] at h
      exact hw.branch x hx h
    obtain ⟨i', e⟩ := hs.preserves (sem := sem) (truth := truth) b a i
    refine ⟨h ▸ (i'.wf _ hm).1, fun s s' => ?_⟩
    have h0 : ∀ {x s s'}, C.Exec sem truth x s s' → x ∈ C.nodes →
        Path sem truth C.nodes C.flow.lab (Conf.plus ⟨C.flow, [(C.entry, C.exit)]⟩) C.exit x s s' := by
      intro x s s' hx
      induction hx with
      | stop => intro hx; exact .stop hx rfl
      | step hne hg _ ih =>
        intro hx
        refine .step hx hne rfl ?_ (ih (hw.closed _ hx _ (goes_mem hg)))
        simpa [Conf.plus, pendAt, Cfg.flow] using hg
    have h1 : ∀ {x s s'}, Path sem truth C.nodes C.flow.lab (Conf.plus ⟨C.flow, [(C.entry, C.exit)]⟩) C.exit x s s' →
        C.Exec sem truth x s s' := by
      intro x s s' hx
      induction hx with
      | stop hx hr => simp only [Cfg.flow, Run] at hr; subst hr; exact .stop
      | step hx hne hr hg _ ih =>
        simp only [Cfg.flow, Run] at hr; subst hr
        refine .step hne ?_ ih
        simpa [Conf.plus, pendAt, Cfg.flow] using hg
    have := e s s'
    refine ⟨fun hx => ?_, fun hx => h1 (this.2 ?_)⟩
    · have := this.1 (h0 hx hw.entry)
      rw [← h]
      unfold Conf.Exec at this
      simp only [Conf.root, List.getLastD] at this
      generalize hz : r.2 = z at this
      cases this with
      | stop _ hr => exact hr
      | step _ hne => exact absurd rfl hne
    · rw [← h] at hx
      exact Path.stop hm hx
  · cases h

end Jlm.Front
