import Verif.Opt.IvrProps

/-!
# C29: in a top-down order, nothing invariant is left

`InvariantOut` says what an invariant output is without reference to the functions of the model.
`C29_ivr_complete`: if the nodes of every region are enumerated in a topological order, then after
the pass no invariant output of a gamma or theta node inside a function has users. (In
`Verif/Opt/IvrExamples.lean`: this fails for other orders, contrary to the comment in
jlm/llvm/opt/InvariantValueRedirection.cpp:129-130.)
-/

set_option linter.unusedSimpArgs false
set_option linter.unusedVariables false

namespace Jlm.Opt

/-- An output of a gamma node to which every branch passes the same value on from outside, or an
output of a theta node whose loop variable is passed on by every iteration. -/
def InvariantOut (io : Out → Bool) (x : Out) : Node → Prop
  | .gamma _ ins outs subs => ∃ (k : Nat) (o : Out), outs[k]? = some x ∧ 0 < subs.length ∧
      ∀ (b : Nat) (args results : List Out), subs.branch b = some (args, results) →
        ∃ (j : Nat) (r : Out), results[k]? = some r ∧ args[j + 1]? = some r ∧ ins[j]? = some o
  | .theta _ outs args _ posts _ => ∃ (k : Nat) (a : Out), outs[k]? = some x ∧ args[k]? = some a ∧
      posts[k]? = some a ∧ io x = false
  | _ => False

mutual

/-- No invariant output in the region `ns`, `rs`, or in a region of a gamma or theta node in it, has
users. -/
def NoInvariants (io : Out → Bool) (used : Out → Prop) : Nodes → Prop
  | .nil => True
  | .cons n ns => (∀ x, InvariantOut io x n → ¬ used x) ∧ NoInvariantsIn io n ∧ NoInvariants io used ns

def NoInvariantsIn (io : Out → Bool) : Node → Prop
  | .gamma _ _ _ subs => NoInvariantsRegions io subs
  | .theta _ _ _ pred posts sub => NoInvariants io (fun x => x ∈ sub.ins ∨ x ∈ pred :: posts) sub
  | _ => True

def NoInvariantsRegions (io : Out → Bool) : Regions → Prop
  | .nil => True
  | .cons _ results sub rest =>
      NoInvariants io (fun x => x ∈ sub.ins ∨ x ∈ results) sub ∧ NoInvariantsRegions io rest

end

mutual

/-- The same for all functions of a module. -/
def NoInvariantsRoot (io : Out → Bool) : Nodes → Prop
  | .nil => True
  | .cons n ns => NoInvariantsFun io n ∧ NoInvariantsRoot io ns

def NoInvariantsFun (io : Out → Bool) : Node → Prop
  | .lambda _ _ _ results _ sub => NoInvariants io (fun x => x ∈ sub.ins ∨ x ∈ results) sub
  | .phi _ _ _ _ _ sub => NoInvariantsRoot io sub
  | _ => True

end

/-- Number of nodes. -/
def Nodes.length : Nodes → Nat
  | .nil => 0
  | .cons _ ns => ns.length + 1

namespace Ivr

theorem lookup_of_get {as ins : List Out} {r o : Out} {j : Nat} (hn : as.Nodup)
    (ha : as[j]? = some r) (hi : ins[j]? = some o) : (as.zip ins).lookup r = some o := by
  induction as generalizing ins j with
  | nil => simp at ha
  | cons a as ih =>
    cases ins with
    | nil => simp at hi
    | cons i ins =>
      simp only [List.zip_cons_cons, List.lookup_cons]
      cases j with
      | zero =>
        simp only [List.getElem?_cons_zero, Option.some.injEq] at ha hi
        simp [ha, hi]
      | succ j =>
        simp only [List.getElem?_cons_succ] at ha hi
        have : (r == a) = false := by
          have h1 := (List.nodup_cons.1 hn).1
          simp only [beq_eq_false_iff_ne, ne_eq]
          rintro rfl
          exact h1 (List.mem_of_getElem? ha)
        rw [this]
        exact ih (List.nodup_cons.1 hn).2 ha hi

theorem externalOrigin_of_get {ins args : List Out} {r o : Out} {j : Nat} (hn : args.Nodup)
    (ha : args[j + 1]? = some r) (hi : ins[j]? = some o) : externalOrigin ins args r = some o := by
  cases args with
  | nil => simp at ha
  | cons a as =>
    simp only [externalOrigin, List.tail_cons]
    exact lookup_of_get (List.nodup_cons.1 hn).2 (by simpa using ha) hi

theorem sameOrigin_of {ins : List Out} {k : Nat} {o : Out} : ∀ (subs : Regions),
    (namesRegions subs).Nodup →
    (∀ (b : Nat) (args results : List Out), subs.branch b = some (args, results) →
      ∃ (j : Nat) (r : Out), results[k]? = some r ∧ args[j + 1]? = some r ∧ ins[j]? = some o) →
    sameOrigin ins k o subs = true
  | .nil, _, _ => rfl
  | .cons args results sub rest, hn, h => by
      simp only [namesRegions] at hn
      have hn1 := List.nodup_append.1 hn
      obtain ⟨j, r, h1, h2, h3⟩ := h 0 args results rfl
      simp only [sameOrigin, Bool.and_eq_true, beq_iff_eq]
      refine ⟨?_, sameOrigin_of rest hn1.2.1 fun b => h (b + 1)⟩
      rw [h1]
      exact externalOrigin_of_get (List.nodup_append.1 hn1.1).1 h2 h3

theorem gammaInvariantOrigin_of {ins : List Out} {k : Nat} {o : Out} {subs : Regions}
    (hpos : 0 < subs.length) (h : sameOrigin ins k o subs = true) :
    gammaInvariantOrigin ins k subs = some o := by
  cases subs with
  | nil => simp [Regions.length] at hpos
  | cons args results sub rest =>
    simp only [sameOrigin, Bool.and_eq_true, beq_iff_eq] at h
    simp [gammaInvariantOrigin, h.1, h.2]

theorem thetaRedirects_of {io : Out → Bool} {x a : Out} : ∀ (ins outs args posts : List Out) (k : Nat),
    ins.length = outs.length → outs[k]? = some x → args[k]? = some a → posts[k]? = some a →
    io x = false → ∃ y, (x, y) ∈ thetaRedirects io ins outs args posts
  | [], [], _, _, k, _, h, _, _, _ => by simp at h
  | i :: ins, o :: outs, [], _, k, _, _, h, _, _ => by simp at h
  | i :: ins, o :: outs, _ :: _, [], k, _, _, _, h, _ => by simp at h
  | i :: ins, o :: outs, a' :: args, p :: posts, 0, hl, h1, h2, h3, h4 => by
      simp only [List.getElem?_cons_zero, Option.some.injEq] at h1 h2 h3
      subst h1 h2 h3
      exact ⟨i, by simp [thetaRedirects, h4]⟩
  | i :: ins, o :: outs, a' :: args, p :: posts, k + 1, hl, h1, h2, h3, h4 => by
      simp only [List.getElem?_cons_succ] at h1 h2 h3
      obtain ⟨y, hy⟩ := thetaRedirects_of ins outs args posts k (by simpa using hl) h1 h2 h3 h4
      refine ⟨y, ?_⟩
      simp only [thetaRedirects]
      split
      · simp [hy]
      · exact hy

/-- Invariant outputs are redirected. -/
theorem redirects_complete {cfg : Config} {alive : Out → Bool} {n : Node} {A : List Out}
    (hg : cfg.gamma = true) (ht : cfg.theta = true) (hwf : wfNode A n = true)
    (hn : (namesNode n).Nodup) {x : Out} (h : InvariantOut cfg.io x n) :
    ∃ y, (x, y) ∈ redirects cfg alive n := by
  cases n with
  | gamma pred ins outs subs =>
    obtain ⟨k, o, h1, h2, h3⟩ := h
    simp only [namesNode] at hn
    have hs := gammaInvariantOrigin_of h2 (sameOrigin_of subs (List.nodup_append.1 hn).2.1 h3)
    refine ⟨o, ?_⟩
    simp only [redirects, hg, if_true, gammaRedirects, List.mem_filterMap]
    refine ⟨(x, k), ?_, by simp [hs]⟩
    exact List.mem_zipIdx_iff_getElem?.2 (by simpa using h1)
  | theta ins outs args pred posts sub =>
    obtain ⟨k, a, h1, h2, h3, h4⟩ := h
    simp only [wfNode, Bool.and_eq_true, beq_iff_eq] at hwf
    simp only [redirects, ht, if_true]
    exact thetaRedirects_of ins outs args posts k hwf.1.1.1.1.2 h1 h2 h3 h4
  | _ => exact h.elim

theorem lookup_isSome {rs : List (Out × Out)} {x y : Out} (h : (x, y) ∈ rs) :
    (x, tau rs x) ∈ rs := by
  rcases hl : rs.lookup x with _ | z
  · exfalso
    induction rs with
    | nil => simp at h
    | cons p rs ih =>
      obtain ⟨a, b⟩ := p
      simp only [List.lookup_cons] at hl
      rcases List.mem_cons.1 h with h0 | h
      · cases h0
        simp at hl
      · cases hx : (x == a) with
        | true => simp [hx] at hl
        | false =>
          simp only [hx] at hl
          exact ih h hl
  · simp only [tau, hl, Option.getD_some]
    exact Dne.lookup_mem hl

/-- What is used by a region. -/
def Uses (s : Nodes × List Out) (x : Out) : Prop := x ∈ s.1.ins ∨ x ∈ s.2

theorem redirectAt_length (cfg : Config) : ∀ (i : Nat) (ns : Nodes) (rs : List Out),
    (redirectAt cfg i (ns, rs)).1.length = ns.length
  | i, .nil, rs => by cases i <;> simp [redirectAt, Nodes.length]
  | 0, .cons n ns, rs => by
      have : ∀ (τ : Out → Out) (ns : Nodes), (ns.divert τ).length = ns.length := by
        intro τ ns
        induction ns using Nodes.rec (motive_1 := fun _ => True) (motive_3 := fun _ => True) with
        | nil => rfl
        | cons n ns _ ih => simp [Nodes.divert, Nodes.length, ih]
        | _ => intros; trivial
      simp [redirectAt, Nodes.length, this]
  | i + 1, .cons n ns, rs => by simp [redirectAt, Nodes.length, redirectAt_length cfg i ns rs]

/-- Nothing gets new users that did not have any. -/
theorem redirectAt_uses {cfg : Config} : ∀ (i : Nat) (ns : Nodes) (A rs : List Out),
    RegionOk A ns rs → ∀ x, Uses (redirectAt cfg i (ns, rs)) x → Uses (ns, rs) x
  | i, .nil, A, rs, _, x, hx => by
      have : redirectAt cfg i (.nil, rs) = (.nil, rs) := by cases i <;> simp [redirectAt]
      rwa [this] at hx
  | 0, .cons n ns, A, rs, h, x, hx => by
      simp only [redirectAt] at hx
      have hwf := h.wf
      simp only [wfNodes, Bool.and_eq_true] at hwf
      have hnd := h.nodup
      simp only [namesNodes] at hnd
      have hn' := List.nodup_append.1 hnd
      obtain ⟨fi, fo, fn⟩ := correlate_frame (cfg := cfg) (alive := Dne.used ns rs) n
      have hτ : ∀ y, tau (redirects cfg (Dne.used ns rs) (correlate cfg (Dne.used ns rs) n)) y = y ∨
          tau (redirects cfg (Dne.used ns rs) (correlate cfg (Dne.used ns rs) n)) y ∈ n.ins := by
        intro y
        rcases tau_cases (redirects cfg (Dne.used ns rs) (correlate cfg (Dne.used ns rs) n)) y with h | h
        · exact .inl h
        · have := (redirects_sound (sem := ⟨fun _ _ => [], fun _ => 0, fun _ => (), fun _ => (), 0⟩)
            (correlate_wf hwf.1 hn'.1) (fn ▸ hn'.1) h).2.1
          rw [fi] at this
          exact .inr this
      simp only [Uses, Nodes.ins, Nodes.divert_ins, fi, List.mem_append, List.mem_map] at hx ⊢
      rcases hx with (hx | ⟨y, hy, rfl⟩) | ⟨y, hy, rfl⟩
      · exact .inl (.inl hx)
      · rcases hτ y with h | h
        · rw [h]; exact .inl (.inr hy)
        · exact .inl (.inl h)
      · rcases hτ y with h | h
        · rw [h]; exact .inr hy
        · exact .inl (.inl h)
  | i + 1, .cons n ns, A, rs, h, x, hx => by
      have hwf := h.wf
      have hnd := h.nodup
      have hdj := h.disj
      simp only [wfNodes, Bool.and_eq_true] at hwf
      simp only [namesNodes] at hnd hdj
      have hn' := List.nodup_append.1 hnd
      have hok : RegionOk (n.outs ++ A) ns rs := by
        refine ⟨hwf.2, hn'.2.1, fun x hx => ?_, fun r hr => ?_⟩
        · rcases List.mem_append.1 hx with hx | hx
          · exact fun hc => hn'.2.2 x (Dne.outs_subset_names n x hx) x hc rfl
          · have := hdj x hx
            simp only [List.mem_append, not_or] at this
            exact this.2
        · have := h.res r hr
          simp only [Nodes.outs, List.mem_append] at this ⊢
          tauto
      have ih := redirectAt_uses (cfg := cfg) i ns _ rs hok x
      simp only [redirectAt] at hx
      simp only [Uses, Nodes.ins, List.mem_append] at hx ih ⊢
      tauto

theorem fold_cons (cfg : Config) (n : Node) : ∀ (is : List Nat) (ns : Nodes) (rs : List Out),
    (is.map (· + 1)).foldl (fun s i => redirectAt cfg i s) (.cons n ns, rs) =
      (.cons n (is.foldl (fun s i => redirectAt cfg i s) (ns, rs)).1,
        (is.foldl (fun s i => redirectAt cfg i s) (ns, rs)).2)
  | [], ns, rs => rfl
  | i :: is, ns, rs => by
      simp only [List.map_cons, List.foldl_cons, redirectAt]
      exact fold_cons cfg n is _ _

theorem invariantOut_outs {io : Out → Bool} {x : Out} {n : Node} (h : InvariantOut io x n) :
    x ∈ n.outs := by
  cases n with
  | gamma pred ins outs subs => obtain ⟨k, o, h1, _⟩ := h; exact List.mem_of_getElem? h1
  | theta ins outs args pred posts sub => obtain ⟨k, a, h1, _⟩ := h; exact List.mem_of_getElem? h1
  | _ => exact h.elim

theorem noInvariants_mono {io : Out → Bool} {u u' : Out → Prop} : ∀ (ns : Nodes),
    (∀ x ∈ ns.outs, u' x → u x) → NoInvariants io u ns → NoInvariants io u' ns
  | .nil, _, _ => trivial
  | .cons n ns, hu, h => by
      simp only [NoInvariants] at h ⊢
      refine ⟨fun x hx hc => h.1 x hx (hu x ?_ hc), h.2.1,
        noInvariants_mono ns (fun x hx => hu x (by simp [Nodes.outs, hx])) h.2.2⟩
      simp [Nodes.outs, invariantOut_outs hx]

theorem noInvariants_divert {io : Out → Bool} (τ : Out → Out) : ∀ (ns : Nodes),
    NoInvariants io (fun _ => False) ns → NoInvariants io (fun _ => False) (ns.divert τ)
  | .nil, _ => trivial
  | .cons n ns, h => by
      simp only [Nodes.divert, NoInvariants] at h ⊢
      refine ⟨by simp, ?_, noInvariants_divert τ ns h.2.2⟩
      cases n <;> simpa [Node.divert, NoInvariantsIn] using h.2.1

theorem noInvariants_prune {io : Out → Bool} {u : Out → Prop} (rs : List Out) : ∀ (ns : Nodes),
    NoInvariants io u ns → NoInvariants io u (Dne.prune ns rs)
  | .nil, _ => trivial
  | .cons n ns, h => by
      simp only [NoInvariants] at h
      have ih := noInvariants_prune rs ns h.2.2
      simp only [Dne.prune]
      split
      · exact ⟨h.1, h.2.1, ih⟩
      · exact ih

theorem prune_ins (rs : List Out) : ∀ (ns : Nodes), ∀ x ∈ (Dne.prune ns rs).ins, x ∈ ns.ins
  | .nil, x, h => by simpa [Dne.prune] using h
  | .cons n ns, x, h => by
      have ih := prune_ins rs ns x
      simp only [Dne.prune] at h
      simp only [Nodes.ins, List.mem_append]
      split at h
      · simp only [Nodes.ins, List.mem_append] at h
        tauto
      · exact .inr (ih h)

theorem correlate_noInvariants {cfg : Config} {alive : Out → Bool} {n : Node} {A : List Out}
    (hwf : wfNode A n = true) (hn : (namesNode n).Nodup) {io : Out → Bool}
    (h : NoInvariantsIn io n) : NoInvariantsIn io (correlate cfg alive n) := by
  cases n with
  | theta ins outs args pred posts sub =>
    simp only [correlate]
    split
    · cases hr : roles cfg pred sub with
      | none => simpa using h
      | some t =>
        obtain ⟨g, x, r⟩ := t
        simp only [wfNode, Bool.and_eq_true, beq_iff_eq, Dne.subset_iff] at hwf
        obtain ⟨⟨⟨⟨⟨w1, w2⟩, w3⟩, w4⟩, w5⟩, w6⟩ := hwf
        simp only [namesNode] at hn
        have hn1 := List.nodup_append.1 hn
        have hd : ∀ x ∈ args, x ∉ namesNodes sub := fun x hx hx' =>
          hn1.2.2 x (by simp [hx]) x hx' rfl
        simp only [NoInvariantsIn] at h ⊢
        refine noInvariants_mono sub (fun y _ hy => ?_) h
        rcases hy with hy | hy
        · exact .inl hy
        · rcases List.mem_cons.1 hy with rfl | hy
          · exact .inr (by simp)
          · rcases newPosts_mem outs args posts hy with h | ⟨p, h1, h2, h3⟩
            · exact .inr (by simp [h])
            · have hog := roles_owner w5 hn1.2.1 hd hr p h2
              exact .inl ((owner_wf sub args p g w5 hn1.2.1 hd hog).2.2.2.1 y h3)
    · simpa using h
  | _ => simpa [correlate] using h

/-- The loop over the nodes of a region, in topological order. -/
theorem fold_complete (cfg : Config) (hg : cfg.gamma = true) (ht : cfg.theta = true) :
    ∀ (m : Nat) (ns : Nodes) (A rs : List Out), ns.length = m → RegionOk A ns rs →
    NoInvariants cfg.io (fun _ => False) ns →
    NoInvariants cfg.io (Uses ((List.range m).foldl (fun s i => redirectAt cfg i s) (ns, rs)))
      ((List.range m).foldl (fun s i => redirectAt cfg i s) (ns, rs)).1 ∧
    (∀ x, Uses ((List.range m).foldl (fun s i => redirectAt cfg i s) (ns, rs)) x → Uses (ns, rs) x) ∧
    ((List.range m).foldl (fun s i => redirectAt cfg i s) (ns, rs)).1.outs = ns.outs
  | 0, .nil, A, rs, _, h, hb => by simp [NoInvariants]
  | m + 1, .nil, A, rs, hl, h, hb => by simp [Nodes.length] at hl
  | 0, .cons n ns, A, rs, hl, h, hb => by simp [Nodes.length] at hl
  | m + 1, .cons n ns, A, rs, hl, h, hb => by
      let sem : Sem Unit := ⟨fun _ _ => [], fun _ => 0, fun _ => (), fun _ => (), 0⟩
      obtain ⟨k1, k2, k3, _⟩ := redirectAt_sound sem cfg 0 (.cons n ns) A rs h
      have k4 := redirectAt_uses (cfg := cfg) 0 (.cons n ns) A rs h
      have k5 := redirectAt_length cfg 0 (.cons n ns) rs
      have hwf := h.wf
      have hnd := h.nodup
      have hdj := h.disj
      simp only [wfNodes, Bool.and_eq_true] at hwf
      simp only [namesNodes] at hnd hdj
      have hn' := List.nodup_append.1 hnd
      have hA : ∀ x ∈ A, x ∉ n.outs ∧ x ∉ ns.outs := fun x hx => by
        have := hdj x hx
        simp only [List.mem_append, not_or] at this
        exact ⟨fun hc => this.1 (Dne.outs_subset_names n x hc),
          fun hc => this.2 (Dne.Nodes_outs_subset_names ns x hc)⟩
      simp only [NoInvariants] at hb
      rw [List.range_succ_eq_map, List.foldl_cons, show (Nat.succ : Nat → Nat) = (· + 1) from rfl]
      simp only [redirectAt] at k1 k2 k3 k4 k5 ⊢
      rw [fold_cons]
      let alive := Dne.used ns rs
      obtain ⟨fi, fo, fn⟩ := correlate_frame (cfg := cfg) (alive := alive) n
      have hcw : wfNode A (correlate cfg alive n) = true := correlate_wf hwf.1 hn'.1
      have hcn : (namesNode (correlate cfg alive n)).Nodup := by rw [fn]; exact hn'.1
      let τ := tau (redirects cfg alive (correlate cfg alive n))
      have hτ : ∀ y, τ y = y ∨ τ y ∈ n.ins := by
        intro y
        rcases tau_cases (redirects cfg alive (correlate cfg alive n)) y with h | h
        · exact .inl h
        · have := (redirects_sound (sem := sem) hcw hcn h).2.1
          rw [fi] at this
          exact .inr this
      have hins : ∀ x ∈ n.ins, x ∈ A := wfNode_ins hwf.1
      -- the rest of the region
      have hok : RegionOk (n.outs ++ A) (ns.divert τ) (rs.map τ) := by
        have w := k1.wf
        have nd := k1.nodup
        have dj := k1.disj
        simp only [wfNodes, Bool.and_eq_true] at w
        simp only [namesNodes] at nd dj
        have nd' := List.nodup_append.1 nd
        refine ⟨by have := w.2; rwa [show (correlate cfg (Dne.used ns rs) n).outs = n.outs from fo] at this,
          nd'.2.1, fun x hx => ?_, fun r hr => ?_⟩
        · rcases List.mem_append.1 hx with hx | hx
          · rw [Dne.Nodes.divert_names]
            exact fun hc => hn'.2.2 x (Dne.outs_subset_names n x hx) x hc rfl
          · have := dj x hx
            simp only [List.mem_append, not_or] at this
            exact this.2
        · have := k1.res r hr
          simp only [Nodes.outs, List.mem_append] at this ⊢
          rw [show (correlate cfg (Dne.used ns rs) n).outs = n.outs from fo] at this
          tauto
      have hl' : (ns.divert τ).length = m := by
        simp only [Nodes.length] at k5 hl
        have k5' : (ns.divert τ).length + 1 = ns.length + 1 := k5
        omega
      obtain ⟨i1, i2, i3⟩ := fold_complete cfg hg ht m (ns.divert τ) _ (rs.map τ) hl' hok
        (noInvariants_divert τ ns hb.2.2)
      have hu1 : ∀ x, Uses (ns.divert τ, rs.map τ) x → ∃ y, x = τ y := by
        intro x hx
        simp only [Uses, Nodes.divert_ins, List.mem_map] at hx
        rcases hx with ⟨y, _, rfl⟩ | ⟨y, _, rfl⟩ <;> exact ⟨y, rfl⟩
      change NoInvariants cfg.io (Uses (.cons (correlate cfg alive n)
          ((List.range m).foldl (fun s i => redirectAt cfg i s) (ns.divert τ, rs.map τ)).1, _)) _ ∧ _
      refine ⟨?_, ?_, ?_⟩
      · simp only [NoInvariants]
        refine ⟨fun x hx hc => ?_, correlate_noInvariants hwf.1 hn'.1 hb.2.1, ?_⟩
        · have hxo : x ∈ n.outs := fo ▸ invariantOut_outs hx
          have hxi : x ∉ n.ins := fun hc => (hA x (hins x hc)).1 hxo
          obtain ⟨y, hy⟩ := redirects_complete (alive := alive) hg ht hcw hcn hx
          have hy := lookup_isSome hy
          have hτx : τ x ∈ n.ins := by
            have := (redirects_sound (sem := sem) hcw hcn hy).2.1
            rwa [fi] at this
          have hcases : x ∈ n.ins ∨ Uses (ns.divert τ, rs.map τ) x := by
            simp only [Uses, Nodes.ins, fi, List.mem_append] at hc
            rcases hc with (hc | hc) | hc
            · exact .inl hc
            · exact .inr (i2 x (.inl hc))
            · exact .inr (i2 x (.inr hc))
          rcases hcases with hc | hc
          · exact hxi hc
          · obtain ⟨z, hz⟩ := hu1 x hc
            rcases hτ z with h | h
            · have : z = x := by rw [hz, h]
              subst this
              exact hxi (hz ▸ hτx)
            · exact hxi (hz ▸ h)
        · refine noInvariants_mono _ (fun x hx hc => ?_) i1
          rw [i3, Nodes.divert_outs] at hx
          simp only [Uses, Nodes.ins, fi, List.mem_append] at hc
          rcases hc with (hc | hc) | hc
          · exact absurd hx (hA x (hins x hc)).2
          · exact .inl hc
          · exact .inr hc
      · intro x hx
        refine k4 x ?_
        simp only [Uses, Nodes.ins, List.mem_append] at hx ⊢
        rcases hx with (hx | hx) | hx
        · exact .inl (.inl hx)
        · rcases i2 x (.inl hx) with h | h
          · exact .inl (.inr h)
          · exact .inr h
        · rcases i2 x (.inr hx) with h | h
          · exact .inl (.inr h)
          · exact .inr h
      · simp only [Nodes.outs]
        have i3' := i3.trans (Nodes.divert_outs τ ns)
        exact congrArg₂ (· ++ ·) fo i3'

theorem redirectNodesOf_complete (cfg : Config) (hg : cfg.gamma = true) (ht : cfg.theta = true)
    (ho : ∀ ns, cfg.order ns = List.range ns.length) {A : List Out} {ns : Nodes} {rs : List Out}
    (h : RegionOk A ns rs) (hb : NoInvariants cfg.io (fun _ => False) ns) :
    NoInvariants cfg.io (fun x => x ∈ (redirectNodesOf cfg ns rs).1.ins ∨
      x ∈ (redirectNodesOf cfg ns rs).2) (redirectNodesOf cfg ns rs).1 := by
  obtain ⟨h1, _, _⟩ := fold_complete cfg hg ht ns.length ns A rs rfl h hb
  simp only [redirectNodesOf, ho]
  generalize (List.range ns.length).foldl (fun s i => redirectAt cfg i s) (ns, rs) = s at *
  refine noInvariants_prune _ _ (noInvariants_mono _ (fun x _ hx => ?_) h1)
  rcases hx with hx | hx
  · exact .inl (prune_ins _ _ x hx)
  · exact .inr hx

theorem noInvariants_false {io : Out → Bool} {u : Out → Prop} {ns : Nodes}
    (h : NoInvariants io u ns) : NoInvariants io (fun _ => False) ns :=
  noInvariants_mono ns (fun _ _ h => h.elim) h

mutual

theorem subsNode_complete (cfg : Config) (hg : cfg.gamma = true) (ht : cfg.theta = true)
    (ho : ∀ ns, cfg.order ns = List.range ns.length) : ∀ (n : Node) (A : List Out),
    wfNode A n = true → (namesNode n).Nodup → NoInvariantsIn cfg.io (subsNode cfg n)
  | .simple op ins outs, A, hwf, hn => by simp [subsNode, NoInvariantsIn]
  | .lambda ins args params results out sub, A, hwf, hn => by simp [subsNode, NoInvariantsIn]
  | .phi ins args recs results outs sub, A, hwf, hn => by simp [subsNode, NoInvariantsIn]
  | .delta ins args result out sub, A, hwf, hn => by simp [subsNode, NoInvariantsIn]
  | .gamma pred ins outs subs, A, hwf, hn => by
      simp only [subsNode, NoInvariantsIn]
      simp only [wfNode, Bool.and_eq_true] at hwf
      simp only [namesNode] at hn
      exact subsRegions_complete cfg hg ht ho subs _ _ hwf.2 (List.nodup_append.1 hn).2.1
  | .theta ins outs args pred posts sub, A, hwf, hn => by
      simp only [wfNode, Bool.and_eq_true, beq_iff_eq, Dne.subset_iff] at hwf
      obtain ⟨⟨⟨⟨⟨w1, w2⟩, w3⟩, w4⟩, w5⟩, w6⟩ := hwf
      simp only [namesNode] at hn
      have hn1 := List.nodup_append.1 hn
      have hok : RegionOk args sub (pred :: posts) :=
        ⟨w5, hn1.2.1, fun x hx hx' => hn1.2.2 x (by simp [hx]) x hx' rfl, w6⟩
      let sem : Sem Unit := ⟨fun _ _ => [], fun _ => 0, fun _ => (), fun _ => (), 0⟩
      obtain ⟨h1, h2, h3, h4⟩ := subsNodes_sound sem cfg sub args (pred :: posts) hok
      obtain ⟨h5, h6, h7⟩ := redirectNodesOf_sound sem cfg h1
      have hc := redirectNodesOf_complete cfg hg ht ho h1 (subsNodes_complete cfg hg ht ho sub args _ hok)
      have hle := h4.trans h7
      simp only [subsNode, NoInvariantsIn]
      generalize redirectNodesOf cfg (subsNodes cfg sub) (pred :: posts) = s at *
      obtain ⟨ns', rs'⟩ := s
      cases rs' with
      | nil => exact absurd hle.1 (by simp)
      | cons pred' posts' => simpa using hc

theorem subsNodes_complete (cfg : Config) (hg : cfg.gamma = true) (ht : cfg.theta = true)
    (ho : ∀ ns, cfg.order ns = List.range ns.length) : ∀ (ns : Nodes) (A rs : List Out),
    RegionOk A ns rs → NoInvariants cfg.io (fun _ => False) (subsNodes cfg ns)
  | .nil, A, rs, h => by simp [subsNodes, NoInvariants]
  | .cons n ns, A, rs, h => by
      have hwf := h.wf
      have hnd := h.nodup
      have hdj := h.disj
      simp only [wfNodes, Bool.and_eq_true] at hwf
      simp only [namesNodes] at hnd hdj
      have hn' := List.nodup_append.1 hnd
      have hok : RegionOk (n.outs ++ A) ns rs := by
        refine ⟨hwf.2, hn'.2.1, fun x hx => ?_, fun r hr => ?_⟩
        · rcases List.mem_append.1 hx with hx | hx
          · exact fun hc => hn'.2.2 x (Dne.outs_subset_names n x hx) x hc rfl
          · have := hdj x hx
            simp only [List.mem_append, not_or] at this
            exact this.2
        · have := h.res r hr
          simp only [Nodes.outs, List.mem_append] at this ⊢
          tauto
      simp only [subsNodes, NoInvariants]
      exact ⟨fun _ _ h => h, subsNode_complete cfg hg ht ho n A hwf.1 hn'.1,
        subsNodes_complete cfg hg ht ho ns _ rs hok⟩

theorem subsRegions_complete (cfg : Config) (hg : cfg.gamma = true) (ht : cfg.theta = true)
    (ho : ∀ ns, cfg.order ns = List.range ns.length) : ∀ (subs : Regions) (na nr : Nat),
    wfRegions na nr subs = true → (namesRegions subs).Nodup →
    NoInvariantsRegions cfg.io (subsRegions cfg subs)
  | .nil, na, nr, _, _ => by simp [subsRegions, NoInvariantsRegions]
  | .cons args results sub rest, na, nr, hwf, hn => by
      simp only [wfRegions, Bool.and_eq_true, beq_iff_eq, Dne.subset_iff] at hwf
      obtain ⟨⟨⟨⟨w1, w2⟩, w3⟩, w4⟩, w5⟩ := hwf
      simp only [namesRegions] at hn
      have hn1 := List.nodup_append.1 hn
      have hn2 := List.nodup_append.1 hn1.1
      have hok : RegionOk args sub results :=
        ⟨w3, hn2.2.1, fun x hx hx' => hn2.2.2 x hx x hx' rfl, w4⟩
      let sem : Sem Unit := ⟨fun _ _ => [], fun _ => 0, fun _ => (), fun _ => (), 0⟩
      obtain ⟨h1, h2, h3, h4⟩ := subsNodes_sound sem cfg sub args results hok
      simp only [subsRegions, NoInvariantsRegions]
      exact ⟨redirectNodesOf_complete cfg hg ht ho h1 (subsNodes_complete cfg hg ht ho sub args _ hok),
        subsRegions_complete cfg hg ht ho rest na nr w5 hn1.2.1⟩

end

mutual

theorem rootNode_complete (cfg : Config) (hg : cfg.gamma = true) (ht : cfg.theta = true)
    (ho : ∀ ns, cfg.order ns = List.range ns.length) : ∀ (n : Node) (A : List Out),
    wfNode A n = true → (namesNode n).Nodup → NoInvariantsFun cfg.io (rootNode cfg n)
  | .simple op ins outs, A, hwf, hn => by simp [rootNode, NoInvariantsFun]
  | .gamma pred ins outs subs, A, hwf, hn => by simp [rootNode, NoInvariantsFun]
  | .theta ins outs args pred posts sub, A, hwf, hn => by simp [rootNode, NoInvariantsFun]
  | .delta ins args result out sub, A, hwf, hn => by simp [rootNode, NoInvariantsFun]
  | .lambda ins args params results out sub, A, hwf, hn => by
      simp only [wfNode, Bool.and_eq_true, beq_iff_eq, Dne.subset_iff] at hwf
      obtain ⟨⟨⟨w1, w2⟩, w3⟩, w4⟩ := hwf
      simp only [namesNode, List.cons_append] at hn
      have hn1 := List.nodup_append.1 (List.nodup_cons.1 hn).2
      have hok : RegionOk (params ++ args) sub results :=
        ⟨w3, hn1.2.1, fun x hx hx' => hn1.2.2 x hx x hx' rfl, w4⟩
      let sem : Sem Unit := ⟨fun _ _ => [], fun _ => 0, fun _ => (), fun _ => (), 0⟩
      obtain ⟨h1, h2, h3, h4⟩ := subsNodes_sound sem cfg sub _ results hok
      simp only [rootNode, NoInvariantsFun]
      exact redirectNodesOf_complete cfg hg ht ho h1 (subsNodes_complete cfg hg ht ho sub _ _ hok)
  | .phi ins args recs results outs sub, A, hwf, hn => by
      simp only [wfNode, Bool.and_eq_true, beq_iff_eq, Dne.subset_iff] at hwf
      obtain ⟨⟨⟨⟨⟨w1, w2⟩, w3⟩, w4⟩, w5⟩, w6⟩ := hwf
      simp only [namesNode] at hn
      simp only [rootNode, NoInvariantsFun]
      exact rootNodes_complete cfg hg ht ho sub _ w5 (List.nodup_append.1 hn).2.1

theorem rootNodes_complete (cfg : Config) (hg : cfg.gamma = true) (ht : cfg.theta = true)
    (ho : ∀ ns, cfg.order ns = List.range ns.length) : ∀ (ns : Nodes) (A : List Out),
    wfNodes A ns = true → (namesNodes ns).Nodup → NoInvariantsRoot cfg.io (rootNodes cfg ns)
  | .nil, A, _, _ => by simp [rootNodes, NoInvariantsRoot]
  | .cons n ns, A, hwf, hn => by
      simp only [wfNodes, Bool.and_eq_true] at hwf
      simp only [namesNodes] at hn
      have hn' := List.nodup_append.1 hn
      simp only [rootNodes, NoInvariantsRoot]
      exact ⟨rootNode_complete cfg hg ht ho n A hwf.1 hn'.1,
        rootNodes_complete cfg hg ht ho ns _ hwf.2 hn'.2.1⟩

end

end Ivr

/-- **C29.** If the nodes of regions are enumerated in a topological order, then after invariant
value redirection no invariant output of a gamma or theta node (of a loop variable that is not an
I/O state) has users, in any region of any function. -/
theorem C29_ivr_complete (cfg : Ivr.Config) (hg : cfg.gamma = true) (ht : cfg.theta = true)
    (ho : ∀ ns, cfg.order ns = List.range ns.length) (g : Graph) (h : g.wf = true) :
    NoInvariantsRoot cfg.io (Ivr.run cfg g).body := by
  have hok := Ivr.graph_ok h
  exact Ivr.rootNodes_complete cfg hg ht ho g.body g.imports hok.wf hok.nodup

end Jlm.Opt
