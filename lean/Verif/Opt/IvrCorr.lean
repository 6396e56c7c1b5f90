import Verif.Opt.IvrNode

/-!
# Theta-gamma predicate correlation: loop variables routed around the correlated gamma
-/

set_option linter.unusedSimpArgs false
set_option linter.unusedVariables false

namespace Jlm.Opt

variable {V : Type}

/-- What is assumed about constants and about match operations: the value of a constant, read as a
number, is the constant, and a match operation maps the number of its operand to an alternative.
(`ctl` reads control values and integer values as numbers.) -/
structure Sem.Control (sem : Sem V) : Prop where
  const : ∀ op c ws u, op.kind = .const c → some u ∈ sem.apply op ws → sem.ctl u = c
  matchOp : ∀ op m d w u, op.kind = .matchOp m d → some u ∈ sem.apply op [w] →
    ∃ x, w = some x ∧ sem.ctl u = (m.lookup (sem.ctl x.1)).getD d

namespace Ivr

/-- The gamma takes branch `b`, if it takes any. -/
def Taken (sem : Sem V) (E : Env V) (b : Nat) : Node → Prop
  | .gamma pred _ _ subs => ∀ q, E pred = some q → sem.ctl q.1 = b ∨ subs.branch (sem.ctl q.1) = none
  | _ => False

theorem branchOrigin_val {sem : Sem V} {sub : Nodes} {A : List Out} {e : Env V} {g : Node} {b : Nat}
    {post o : Out} (hwf : wfNodes A sub = true) (hn : (namesNodes sub).Nodup)
    (hd : ∀ x ∈ A, x ∉ namesNodes sub) (he : ∀ x, LeW (evalNodes sem sub e x) (evalNodes sem sub e x))
    (hg : sub.owner post = some g) (ht : Taken sem (evalNodes sem sub e) b g)
    (h : branchOrigin g b post = some o) :
    LeW (evalNodes sem sub e post) (evalNodes sem sub e o) ∧ o ∈ g.ins := by
  obtain ⟨h1, h2, h3, h4, h5, B, h6, h7, h8⟩ := owner_wf sub A post g hwf hn hd hg
  have hv := evalNodes_owner sem sub A e post g hwf hn hd hg
  rw [hv]
  generalize evalNodes sem sub e = E at *
  cases g with
  | gamma pred ins outs subs =>
    simp only [branchOrigin] at h
    cases hb : subs.branch b with
    | none => rw [hb] at h; simp at h
    | some ar =>
      obtain ⟨args, results⟩ := ar
      rw [hb] at h
      simp only at h
      simp only [namesNode] at h3
      simp only [wfNode, Bool.and_eq_true] at h6
      simp only [Node.outs, nodeVals]
      have hmem : o ∈ ins := by
        obtain ⟨r, hr, ho⟩ := Option.bind_eq_some_iff.1 h
        exact (lookup_zip_mem ho).2
      refine ⟨?_, by simp [Node.ins, hmem]⟩
      cases hp : E pred with
      | none => exact LeW.none_le (he o)
      | some q =>
        simp only
        rcases ht q hp with hq | hq
        · rw [hq, (regionVals_origin subs b args results o h6.2 (List.nodup_append.1 h3).2.1 hb h).1]
          exact he o
        · rw [regionVals_none subs _ hq]
          exact LeW.none_le (he o)
  | _ => simp [branchOrigin] at h

/-- Value of a constant. -/
theorem constOf_val {sem : Sem V} (hc : sem.Control) {sub : Nodes} {A : List Out} {e : Env V} {o : Out}
    {c : Nat} (hwf : wfNodes A sub = true) (hn : (namesNodes sub).Nodup)
    (hd : ∀ x ∈ A, x ∉ namesNodes sub) (h : constOf sub o = some c) {v : Val V}
    (hv : evalNodes sem sub e o = some v) : sem.ctl v.1 = c := by
  simp only [constOf] at h
  cases ho : sub.owner o with
  | none => rw [ho] at h; simp at h
  | some n =>
    rw [ho] at h
    cases n with
    | simple op ins outs =>
      simp only at h
      cases hk : op.kind with
      | const c' =>
        rw [hk] at h
        simp only [Option.some.injEq] at h
        subst h
        rw [evalNodes_owner sem sub A e o _ hwf hn hd ho] at hv
        simp only [nodeVals, hk, reduceCtorEq, if_false, List.getD_eq_getElem?_getD, lift,
          List.getElem?_map] at hv
        generalize hi : (Node.simple op ins outs).outs.idxOf o = i at hv
        generalize hap : sem.apply op (ins.map (evalNodes sem sub e)) = vs at hv
        cases hvi : vs[i]? with
        | none => rw [hvi] at hv; simp at hv
        | some w =>
          rw [hvi] at hv
          cases w with
          | none => simp at hv
          | some u =>
            simp only [Option.map_some, Option.getD_some, Option.some.injEq] at hv
            subst hv
            exact hc.const op _ _ u hk (hap ▸ List.mem_of_getElem? hvi)
      | _ => rw [hk] at h; simp at h
    | _ => simp at h

/-- A gamma output all of whose branch results are constants is the constant of the branch that is
taken. -/
theorem alternatives_val {sem : Sem V} (hc : sem.Control) {n m k : Nat} {ws : List (W V)} {v : Val V} :
    ∀ (subs : Regions) (alts : List Nat) (c : Nat), wfRegions n m subs = true →
    (namesRegions subs).Nodup → alternatives k subs = some alts →
    (regionVals sem subs c ws).getD k none = some v → alts[c]? = some (sem.ctl v.1)
  | .nil, alts, c, _, _, _, hv => by simp [regionVals] at hv
  | .cons args results sub rest, alts, c, hwf, hn, ha, hv => by
      simp only [wfRegions, Bool.and_eq_true] at hwf
      simp only [namesRegions] at hn
      have hn' := List.nodup_append.1 hn
      have hn2 := List.nodup_append.1 hn'.1
      simp only [alternatives] at ha
      cases hr : (results[k]?).bind (constOf sub) with
      | none => rw [hr] at ha; simp at ha
      | some a =>
        rw [hr] at ha
        simp only [Option.map_eq_some_iff] at ha
        obtain ⟨as, ha, rfl⟩ := ha
        cases c with
        | zero =>
          obtain ⟨r, hr1, hr2⟩ := Option.bind_eq_some_iff.1 hr
          simp only [regionVals, List.getD_eq_getElem?_getD, List.getElem?_map, hr1, Option.map_some,
            Option.getD_some] at hv
          simp only [List.getElem?_cons_zero, Option.some.injEq]
          exact (constOf_val hc hwf.1.1.2 hn2.2.1 (fun x hx hx' => hn2.2.2 x hx x hx' rfl) hr2 hv).symm
        | succ c =>
          simp only [regionVals] at hv
          simpa using alternatives_val hc rest as c hwf.2 hn'.2.1 ha hv

theorem alternatives_length {k : Nat} : ∀ (subs : Regions) (alts : List Nat),
    alternatives k subs = some alts → alts.length = subs.length
  | .nil, alts, h => by simp [alternatives] at h; simp [← h, Regions.length]
  | .cons args results sub rest, alts, h => by
      simp only [alternatives] at h
      cases hr : (results[k]?).bind (constOf sub) with
      | none => rw [hr] at h; simp at h
      | some a =>
        rw [hr] at h
        simp only [Option.map_eq_some_iff] at h
        obtain ⟨as, ha, rfl⟩ := h
        simp [Regions.length, alternatives_length rest as ha]

theorem branch_none : ∀ (subs : Regions) (c : Nat), subs.length ≤ c → subs.branch c = none
  | .nil, c, _ => by simp [Regions.branch]
  | .cons _ _ _ rest, 0, h => by simp [Regions.length] at h
  | .cons _ _ _ rest, c + 1, h => by
      simp only [Regions.branch]
      exact branch_none rest c (by simpa [Regions.length] using h)

/-- A gamma output with constant alternatives. -/
theorem gammaAlternatives_val {sem : Sem V} (hc : sem.Control) {sub : Nodes} {A : List Out} {e : Env V}
    {o : Out} {g : Node} {alts : List Nat} (hwf : wfNodes A sub = true) (hn : (namesNodes sub).Nodup)
    (hd : ∀ x ∈ A, x ∉ namesNodes sub) (h : gammaAlternatives o (sub.owner o) = some (g, alts))
    {v : Val V} (hv : evalNodes sem sub e o = some v) :
    sub.owner o = some g ∧ ∃ pred ins outs subs q, g = .gamma pred ins outs subs ∧
      evalNodes sem sub e pred = some q ∧ alts[sem.ctl q.1]? = some (sem.ctl v.1) := by
  cases ho : sub.owner o with
  | none => rw [ho] at h; simp [gammaAlternatives] at h
  | some n =>
    rw [ho] at h
    cases n with
    | gamma pred ins outs subs =>
      simp only [gammaAlternatives, Option.map_eq_some_iff, Prod.mk.injEq] at h
      obtain ⟨as, ha, rfl, rfl⟩ := h
      obtain ⟨h1, h2, h3, h4, h5, B, h6, h7, h8⟩ := owner_wf sub A o _ hwf hn hd ho
      refine ⟨rfl, pred, ins, outs, subs, ?_⟩
      rw [evalNodes_owner sem sub A e o _ hwf hn hd ho] at hv
      generalize evalNodes sem sub e = E at *
      simp only [nodeVals, Node.outs] at hv
      cases hp : E pred with
      | none => rw [hp] at hv; simp at hv
      | some q =>
        rw [hp] at hv
        simp only at hv
        simp only [wfNode, Bool.and_eq_true] at h6
        simp only [namesNode] at h3
        exact ⟨q, rfl, rfl, alternatives_val hc subs _ _ h6.2 (List.nodup_append.1 h3).2.1 ha hv⟩
    | _ => simp [gammaAlternatives] at h

/-- Value of a match. -/
theorem matchOf_val {sem : Sem V} (hc : sem.Control) {sub : Nodes} {A : List Out} {e : Env V} {o i : Out}
    {m : List (Nat × Nat)} {d : Nat} (hwf : wfNodes A sub = true) (hn : (namesNodes sub).Nodup)
    (hd : ∀ x ∈ A, x ∉ namesNodes sub) (h : matchOf o sub = some (m, d, i)) {v : Val V}
    (hv : evalNodes sem sub e o = some v) :
    ∃ x, evalNodes sem sub e i = some x ∧ sem.ctl v.1 = alternative m d (sem.ctl x.1) := by
  simp only [matchOf] at h
  cases ho : sub.owner o with
  | none => rw [ho] at h; simp at h
  | some n =>
    rw [ho] at h
    rcases n with ⟨op, ins, outs⟩ | _ | _ | _ | _ | _ <;> try (simp at h; done)
    rcases ins with _ | ⟨j, _ | ⟨j', ins⟩⟩ <;> try (simp at h; done)
    simp only at h
    cases hk : op.kind with
    | matchOp m' d' =>
      rw [hk] at h
      simp only [Option.some.injEq, Prod.mk.injEq] at h
      obtain ⟨rfl, rfl, rfl⟩ := h
      rw [evalNodes_owner sem sub A e o _ hwf hn hd ho] at hv
      simp only [nodeVals, hk, reduceCtorEq, if_false, List.getD_eq_getElem?_getD, lift,
        List.getElem?_map] at hv
      generalize hi : (Node.simple op [j] outs).outs.idxOf o = k at hv
      generalize hap : sem.apply op ([j].map (evalNodes sem sub e)) = vs at hv
      cases hvi : vs[k]? with
      | none => rw [hvi] at hv; simp at hv
      | some w =>
        rw [hvi] at hv
        cases w with
        | none => simp at hv
        | some u =>
          simp only [Option.map_some, Option.getD_some, Option.some.injEq] at hv
          subst hv
          exact hc.matchOp op _ _ _ u hk (by rw [List.map_singleton] at hap; exact hap ▸ List.mem_of_getElem? hvi)
    | _ => rw [hk] at h; simp at h

theorem rolesOf_strict {g g' : Node} {a b x r : Nat} (h : rolesOf true g a b = some (g', x, r)) :
    g' = g ∧ ((a = 0 ∧ b ≠ 0 ∧ x = 0 ∧ r = 1) ∨ (a ≠ 0 ∧ b = 0 ∧ x = 1 ∧ r = 0)) := by
  simp only [rolesOf, Bool.true_and] at h
  rcases Nat.eq_zero_or_pos a with ha | ha <;> rcases Nat.eq_zero_or_pos b with hb | hb
  · simp [ha, hb] at h
  · have hb' : b ≠ 0 := by omega
    simp [ha, hb'] at h
    simp [h.1.symm, ha, hb', h.2.1.symm, h.2.2.symm]
  · have ha' : a ≠ 0 := by omega
    simp [ha', hb] at h
    simp [h.1.symm, ha', hb, h.2.1.symm, h.2.2.symm]
  · have ha' : a ≠ 0 := by omega
    have hb' : b ≠ 0 := by omega
    simp [ha', hb'] at h

/-- The roles the repaired program determines are right: the gamma takes the exit branch in the
iteration in which the loop is left, and the repetition branch in all others. -/
theorem roles_sound {sem : Sem V} (hc : sem.Control) {cfg : Config} (hstrict : cfg.strict = true)
    {sub : Nodes} {A : List Out} {e : Env V} {pred : Out} {g : Node} {x r : Nat}
    (hwf : wfNodes A sub = true) (hn : (namesNodes sub).Nodup) (hd : ∀ x ∈ A, x ∉ namesNodes sub)
    (h : roles cfg pred sub = some (g, x, r)) :
    (∀ o ∈ g.outs, sub.owner o = some g) ∧ ∀ v, evalNodes sem sub e pred = some v →
      (sem.ctl v.1 = 0 → Taken sem (evalNodes sem sub e) x g) ∧
      (sem.ctl v.1 ≠ 0 → Taken sem (evalNodes sem sub e) r g) := by
  simp only [roles, hstrict] at h
  -- constants, directly or through a match
  have key : ∀ (o : Out) (g' : Node) (a b : Nat) (f : Nat → Nat),
      gammaAlternatives o (sub.owner o) = some (g', [a, b]) →
      rolesOf true g' (f a) (f b) = some (g, x, r) →
      (∀ v, evalNodes sem sub e pred = some v → ∃ w, evalNodes sem sub e o = some w ∧
        sem.ctl v.1 = f (sem.ctl w.1)) →
      (∀ o ∈ g.outs, sub.owner o = some g) ∧ ∀ v, evalNodes sem sub e pred = some v →
        (sem.ctl v.1 = 0 → Taken sem (evalNodes sem sub e) x g) ∧
        (sem.ctl v.1 ≠ 0 → Taken sem (evalNodes sem sub e) r g) := by
    intro o g' a b f hga hr hv
    obtain ⟨hgg, hro⟩ := rolesOf_strict hr
    subst hgg
    clear hr
    have hog : sub.owner o = some g := by
      cases ho : sub.owner o with
      | none => rw [ho] at hga; simp [gammaAlternatives] at hga
      | some n =>
        rw [ho] at hga
        cases n <;> simp [gammaAlternatives] at hga
        simp [hga.2]
    refine ⟨(owner_wf sub A o g hwf hn hd hog).2.2.2.2.1, fun v hpv => ?_⟩
    obtain ⟨w, hw, hwv⟩ := hv v hpv
    obtain ⟨_, p, ins, outs, subs, q, rfl, hq, hal⟩ :=
      gammaAlternatives_val hc hwf hn hd hga hw
    have hcase : (sem.ctl q.1 = 0 ∧ sem.ctl w.1 = a) ∨ (sem.ctl q.1 = 1 ∧ sem.ctl w.1 = b) := by
      rcases hcq : sem.ctl q.1 with _ | _ | c <;> rw [hcq] at hal <;> simp at hal
      · exact .inl ⟨rfl, hal.symm⟩
      · exact .inr ⟨rfl, hal.symm⟩
    constructor
    · intro h0 q' hq'
      rw [hq] at hq'
      cases hq'
      left
      rcases hcase with ⟨h1, h2⟩ | ⟨h1, h2⟩ <;> rw [h2] at hwv <;>
        rcases hro with ⟨ha, hb, hx1, hr1⟩ | ⟨ha, hb, hx1, hr1⟩ <;> omega
    · intro h0 q' hq'
      rw [hq] at hq'
      cases hq'
      left
      rcases hcase with ⟨h1, h2⟩ | ⟨h1, h2⟩ <;> rw [h2] at hwv <;>
        rcases hro with ⟨ha, hb, hx1, hr1⟩ | ⟨ha, hb, hx1, hr1⟩ <;> omega
  cases hcor : correlation cfg pred sub with
  | none => rw [hcor] at h; simp at h
  | some cor =>
    rw [hcor] at h
    simp only [correlation] at hcor
    cases h1 : controlCorrelation pred sub with
    | some c1 =>
      rw [h1] at hcor
      simp only [Option.some.injEq] at hcor
      subst hcor
      simp only [controlCorrelation, Option.map_eq_some_iff] at h1
      obtain ⟨p, hp, rfl⟩ := h1
      rcases hp2 : p.2 with _ | ⟨a, _ | ⟨b, _ | ⟨c, l⟩⟩⟩ <;> rw [hp2] at h <;> simp only [reduceCtorEq] at h
      exact key pred p.1 a b id (by rw [hp, ← hp2]) h (fun v hv => ⟨v, hv, rfl⟩)
    | none =>
      rw [h1] at hcor
      simp only at hcor
      cases h2 : matchConstantCorrelation pred sub with
      | some c2 =>
        rw [h2] at hcor
        simp only [Option.some.injEq] at hcor
        subst hcor
        simp only [matchConstantCorrelation] at h2
        cases hm : matchOf pred sub with
        | none => rw [hm] at h2; simp at h2
        | some t =>
          obtain ⟨m, d, i⟩ := t
          rw [hm] at h2
          simp only [Option.map_eq_some_iff] at h2
          obtain ⟨p, hp, rfl⟩ := h2
          rcases hp2 : p.2 with _ | ⟨a, _ | ⟨b, _ | ⟨c, l⟩⟩⟩ <;> rw [hp2] at h <;>
            simp only [reduceCtorEq] at h
          exact key i p.1 a b (alternative m d) (by rw [hp, ← hp2]) h
            (fun v hv => matchOf_val hc hwf hn hd hm hv)
      | none =>
        rw [h2] at hcor
        simp only [matchCorrelation] at hcor
        cases hm : matchOf pred sub with
        | none => rw [hm] at hcor; simp at hcor
        | some t =>
          rw [hm] at hcor
          simp only [Option.map_eq_some_iff] at hcor
          obtain ⟨g', hg', rfl⟩ := hcor
          obtain ⟨pos, _, hpos⟩ := List.exists_of_findSome?_eq_some hg'
          simp only [gammaUser] at hpos
          cases hget : sub.get? pos with
          | none => rw [hget] at hpos; simp at hpos
          | some n =>
            rw [hget] at hpos
            cases n with
            | gamma p ins outs subs =>
              simp only at hpos
              split at hpos
              · cases hpos
                simp only [Bool.true_and] at h
                split at h
                · simp at h
                · rename_i hcond
                  simp only [Option.some.injEq, Prod.mk.injEq] at h
                  obtain ⟨rfl, rfl, rfl⟩ := h
                  simp only [Bool.not_eq_true', Bool.not_eq_false, Bool.and_eq_true, beq_iff_eq] at hcond
                  obtain ⟨rfl, hlen⟩ := hcond
                  refine ⟨get?_owner sub pos _ hn hget, fun v hv => ⟨fun h0 q hq => ?_, fun h0 q hq => ?_⟩⟩
                  · rw [hv] at hq
                    cases hq
                    exact .inl h0
                  · rw [hv] at hq
                    cases hq
                    by_cases h1 : sem.ctl v.1 = 1
                    · exact .inl h1
                    · exact .inr (branch_none subs _ (by omega))
              · simp at hpos
            | _ => simp at hpos

theorem newPosts_length {g : Node} {x r : Nat} {oa pa : Out → Bool} : ∀ (outs args posts : List Out),
    (newPosts g x r oa pa outs args posts).length = posts.length
  | [], _, _ => by simp [newPosts]
  | _ :: _, [], _ => by simp [newPosts]
  | _ :: _, _ :: _, [] => by simp [newPosts]
  | o :: outs, a :: args, p :: posts => by simp [newPosts, newPosts_length outs args posts]

theorem newPosts_get {g : Node} {x r : Nat} {oa pa : Out → Bool} : ∀ (outs args posts : List Out)
    (k : Nat) (o a p : Out), outs[k]? = some o → args[k]? = some a → posts[k]? = some p →
    (newPosts g x r oa pa outs args posts)[k]? = some (newPost g x r (oa o) (pa a) p)
  | [], _, _, k, _, _, _, h, _, _ => by simp at h
  | _ :: _, [], _, k, _, _, _, _, h, _ => by simp at h
  | _ :: _, _ :: _, [], k, _, _, _, _, _, h => by simp at h
  | o :: outs, a :: args, p :: posts, 0, _, _, _, h1, h2, h3 => by
      simp only [List.getElem?_cons_zero, Option.some.injEq] at h1 h2 h3
      subst h1 h2 h3
      simp [newPosts]
  | o :: outs, a :: args, p :: posts, k + 1, _, _, _, h1, h2, h3 => by
      simp only [newPosts, List.getElem?_cons_succ] at h1 h2 h3 ⊢
      exact newPosts_get outs args posts k _ _ _ h1 h2 h3

theorem newPosts_get_none {g : Node} {x r : Nat} {oa pa : Out → Bool} (outs args posts : List Out)
    (k : Nat) (h : posts[k]? = none) : (newPosts g x r oa pa outs args posts)[k]? = none := by
  rw [List.getElem?_eq_none_iff] at h ⊢
  rw [newPosts_length]
  exact h

/-- What the new origin of a post value can be. -/
theorem newPost_cases {g : Node} {x r : Nat} {oa pa : Bool} {p : Out} :
    newPost g x r oa pa p = p ∨
    (p ∈ g.outs ∧ ((oa = false ∧ pa = true ∧ branchOrigin g r p = some (newPost g x r oa pa p)) ∨
      (oa = true ∧ pa = false ∧ branchOrigin g x p = some (newPost g x r oa pa p)))) := by
  by_cases hp : p ∈ g.outs
  · cases oa <;> cases pa <;> simp only [newPost, hp, if_true, Bool.not_false, Bool.not_true,
      Bool.and_true, Bool.and_false, Bool.false_eq_true, if_false, true_or, true_and, reduceCtorEq,
      false_and, and_false, false_or, or_false]
    · cases branchOrigin g r p <;> simp
    · cases branchOrigin g x p <;> simp
  · left
    simp [newPost, hp]

/-- `redirectThetaGammaOutputs` does not touch inputs, outputs and names, keeps the theta
well-formed, and refines the values of all outputs that have users. -/
theorem correlate_sound {sem : Sem V} (hs : sem.Mono) (hc : sem.Control) {cfg : Config}
    (hstrict : cfg.thetaGamma = true → cfg.strict = true) {alive : Out → Bool} {n : Node} {A : List Out}
    (hwf : wfNode A n = true) (hn : (namesNode n).Nodup) :
    ∀ e e' : Env V, (∀ i ∈ n.ins, LeW (e i) (e' i)) → ∀ (k : Nat) (o : Out), n.outs[k]? = some o →
      alive o = true →
      LeW ((nodeVals sem n e).getD k none) ((nodeVals sem (correlate cfg alive n) e').getD k none) := by
  have hsame : correlate cfg alive n = n → ∀ e e' : Env V, (∀ i ∈ n.ins, LeW (e i) (e' i)) →
      ∀ (k : Nat) (o : Out), n.outs[k]? = some o → alive o = true →
      LeW ((nodeVals sem n e).getD k none) ((nodeVals sem (correlate cfg alive n) e').getD k none) := by
    intro h e e' he k o hk ha
    rw [h]
    exact nodeVals_mono hs n e e' he k
  cases n with
  | theta ins outs args pred posts sub =>
    simp only [correlate] at hsame ⊢
    by_cases htg : cfg.thetaGamma = true
    · rw [if_pos htg] at hsame ⊢
      cases hr : roles cfg pred sub with
      | none => rw [hr] at hsame; exact hsame rfl
      | some t =>
        obtain ⟨g, x, r⟩ := t
        clear hsame
        intro e e' he k o hk hao
        simp only [wfNode, Bool.and_eq_true, beq_iff_eq, Dne.subset_iff] at hwf
        obtain ⟨⟨⟨⟨⟨w1, w2⟩, w3⟩, w4⟩, w5⟩, w6⟩ := hwf
        simp only [namesNode] at hn
        have hn1 := List.nodup_append.1 hn
        have hn2 := List.nodup_append.1 hn1.1
        have hd : ∀ x ∈ args, x ∉ namesNodes sub := fun x hx hx' =>
          hn1.2.2 x (by simp [hx]) x hx' rfl
        -- the variables whose pre value is used
        let pa : Out → Bool := Dne.used sub (pred :: posts)
        have hpa : ∀ y, pa y = true ↔ y ∈ sub.ins ∨ y ∈ pred :: posts := Dne.used_iff sub (pred :: posts)
        let Q : Out → Prop := fun y => y ∈ args → pa y = true
        let posts' := newPosts g x r alive pa outs args posts
        let body := fun ws : List (W V) => (pred :: posts).map (evalNodes sem sub (upd emptyEnv args ws))
        let body' := fun ws : List (W V) => (pred :: posts').map (evalNodes sem sub (upd emptyEnv args ws))
        let Env1 := fun ws : List (W V) => evalNodes sem sub (upd emptyEnv args ws)
        have hbody' : ∀ ws ws', LeLW ws ws' → LeLW (body' ws) (body' ws') := fun ws ws' hw =>
          LeLW.map _ fun y _ => evalNodes_mono' hs sub (upd_le' emptyEnv_le _ hw) y
        have hbody : ∀ ws ws', LeLW ws ws' → LeLW (body ws) (body ws') := fun ws ws' hw =>
          LeLW.map _ fun y _ => evalNodes_mono' hs sub (upd_le' emptyEnv_le _ hw) y
        have hinit : LeLW (ins.map e) (ins.map e') :=
          LeLW.map _ fun y hy => he y (by simpa [Node.ins] using hy)
        -- relation between the states of the loops
        let R : List (W V) → List (W V) → Prop := fun s s' => LeLW s s ∧
          ∀ (k : Nat) (a : Out), args[k]? = some a → pa a = true → LeW (s.getD k none) (s'.getD k none)
        have hE : ∀ s s', R s s' → LeOn Q (Env1 s) (Env1 s') := by
          intro s s' hR
          refine evalNodes_mono hs sub Q (fun i hi _ => (hpa i).2 (.inl hi)) _ _ ?_
          exact upd_le args s s' (fun y hy hya => by simp [emptyEnv, LeW]) (fun k a hk hq =>
            hR.2 k a hk (hq (List.mem_of_getElem? hk)))
        have hEok : ∀ s, LeLW s s → ∀ y, LeW (Env1 s y) (Env1 s y) := fun s hs' y =>
          evalNodes_mono' hs sub (upd_le' emptyEnv_le _ hs') y
        have hQpred : Q pred := fun _ => (hpa pred).2 (.inr (by simp))
        -- one iteration
        have hpost : ∀ s s', R s s' → ∀ v, Env1 s pred = some v → ∀ (k : Nat) (o a p : Out),
            outs[k]? = some o → args[k]? = some a → posts[k]? = some p →
            (sem.ctl v.1 ≠ 0 → pa a = true →
              LeW (Env1 s p) (Env1 s' (newPost g x r (alive o) (pa a) p))) ∧
            (sem.ctl v.1 = 0 → alive o = true →
              LeW (Env1 s p) (Env1 s' (newPost g x r (alive o) (pa a) p))) := by
          intro s s' hR v hv k o a p ho ha hp
          obtain ⟨hgo, hrole⟩ := roles_sound (e := upd emptyEnv args s) hc (hstrict htg) w5 hn1.2.1 hd hr
          obtain ⟨hr0, hr1⟩ := hrole v hv
          have hQp : Q p := fun _ => (hpa p).2 (.inr (by simp [List.mem_of_getElem? hp]))
          have hle := hE s s' hR
          have origin : ∀ (b : Nat) (o' : Out), p ∈ g.outs → Taken sem (Env1 s) b g →
              branchOrigin g b p = some o' → LeW (Env1 s p) (Env1 s' o') := by
            intro b o' hpg ht hb
            have hog := hgo p hpg
            obtain ⟨h1, h2⟩ := branchOrigin_val (sem := sem) w5 hn1.2.1 hd (hEok s hR.1) hog ht hb
            refine h1.trans (hle o' fun _ => (hpa o').2 (.inl ?_))
            exact (owner_wf sub args p g w5 hn1.2.1 hd hog).2.2.2.1 o' h2
          constructor
          · intro hne hpaa
            rcases newPost_cases (g := g) (x := x) (r := r) (oa := alive o) (pa := pa a) (p := p) with
              h | ⟨hpg, ⟨_, _, h⟩ | ⟨_, h, _⟩⟩
            · rw [h]; exact hle p hQp
            · exact origin r _ hpg (hr1 hne) h
            · rw [hpaa] at h; simp at h
          · intro h0 hao
            rcases newPost_cases (g := g) (x := x) (r := r) (oa := alive o) (pa := pa a) (p := p) with
              h | ⟨hpg, ⟨h, _, _⟩ | ⟨_, _, h⟩⟩
            · rw [h]; exact hle p hQp
            · rw [hao] at h; simp at h
            · exact origin x _ hpg (hr0 h0) h
        -- values of the post results
        have hget : ∀ (s : List (W V)) (k : Nat) (p : Out), posts[k]? = some p →
            ((body s).tail).getD k none = Env1 s p := by
          intro s k p hp
          simp [body, Env1, List.getD_eq_getElem?_getD, hp]
        have hget' : ∀ (s : List (W V)) (k : Nat) (p : Out), posts'[k]? = some p →
            ((body' s).tail).getD k none = Env1 s p := by
          intro s k p hp
          simp [body', Env1, List.getD_eq_getElem?_getD, hp]
        have hidx : ∀ (k : Nat), k < outs.length → ∃ o a p, outs[k]? = some o ∧ args[k]? = some a ∧
            posts[k]? = some p := by
          intro k hk
          exact ⟨outs[k], args[k], posts[k], by simp, by simp, by simp⟩
        simp only [nodeVals]
        rcases loopVals_exit' (sem := sem) (f := body) (init := ins.map e) with ⟨n, hn, hL⟩ | ⟨_, hL⟩
        · have hstate : ∀ m, m ≤ n → R (loopState body (ins.map e) m) (loopState body' (ins.map e') m) := by
            intro m
            induction m with
            | zero =>
              intro _
              exact ⟨fun k => (hinit k).left, fun k a _ _ => hinit k⟩
            | succ m ih =>
              intro hm
              have hR := ih (by omega)
              refine ⟨loopState_le hbody (fun k => (hinit k).left) (m + 1), fun k a ha hpaa => ?_⟩
              obtain ⟨c, hc'⟩ := hn.2 m (by omega)
              simp only [loopPred, body, List.map_cons, List.headD_cons, Option.map_eq_some_iff] at hc'
              obtain ⟨v, hv, hvc⟩ := hc'
              obtain ⟨hlt, _⟩ := List.getElem?_eq_some_iff.1 ha
              obtain ⟨o, a', p, ho, ha', hp⟩ := hidx k (by omega)
              rw [ha] at ha'
              cases ha'
              simp only [loopState]
              rw [hget _ k p hp, hget' _ k _ (newPosts_get outs args posts k o a p ho ha hp)]
              exact (hpost _ _ hR v hv k o a p ho ha hp).1 (by omega) hpaa
          have hn' : loopExits sem body' (ins.map e') n := by
            refine loopExits_le (fun m hm => ?_) hn
            simp only [body, body', List.map_cons, List.headD_cons]
            exact hE _ _ (hstate m hm) pred hQpred
          have hR := hstate n (Nat.le_refl n)
          have hn0 := hn.1
          simp only [loopPred, body, List.map_cons, List.headD_cons, Option.map_eq_some_iff] at hn0
          obtain ⟨v, hv, hv0⟩ := hn0
          show LeW ((loopVals sem body (ins.map e)).getD k none)
            ((loopVals sem body' (ins.map e')).getD k none)
          rw [hL, loopVals_at hn']
          obtain ⟨hlt, _⟩ := List.getElem?_eq_some_iff.1 hk
          obtain ⟨o', a, p, ho, ha, hp⟩ := hidx k hlt
          simp only [Node.outs] at hk
          rw [hk] at ho
          cases ho
          simp only [loopState]
          rw [hget _ k p hp, hget' _ k _ (newPosts_get outs args posts k o a p hk ha hp)]
          exact (hpost _ _ hR v hv k o a p hk ha hp).2 hv0 hao
        · show LeW ((loopVals sem body (ins.map e)).getD k none)
            ((loopVals sem body' (ins.map e')).getD k none)
          rw [hL]
          exact LeW.none_le (loopVals_ok hbody' hinit.right k)
    · rw [if_neg htg] at hsame
      rw [if_neg htg]
      exact hsame rfl
  | _ => exact hsame rfl

theorem correlate_frame {cfg : Config} {alive : Out → Bool} (n : Node) :
    (correlate cfg alive n).ins = n.ins ∧ (correlate cfg alive n).outs = n.outs ∧
      namesNode (correlate cfg alive n) = namesNode n := by
  cases n with
  | theta ins outs args pred posts sub =>
    simp only [correlate]
    split
    · split <;> simp [Node.ins, Node.outs, namesNode]
    · simp
  | _ => simp [correlate]

theorem roles_owner {cfg : Config} {sub : Nodes} {A : List Out} {pred : Out} {g : Node} {x r : Nat}
    (hwf : wfNodes A sub = true) (hn : (namesNodes sub).Nodup) (hd : ∀ x ∈ A, x ∉ namesNodes sub)
    (h : roles cfg pred sub = some (g, x, r)) : ∀ o ∈ g.outs, sub.owner o = some g := by
  have key : ∀ (o : Out) (l : List Nat), gammaAlternatives o (sub.owner o) = some (g, l) →
      ∀ o ∈ g.outs, sub.owner o = some g := by
    intro o l hga
    have hog : sub.owner o = some g := by
      cases ho : sub.owner o with
      | none => rw [ho] at hga; simp [gammaAlternatives] at hga
      | some n =>
        rw [ho] at hga
        cases n <;> simp [gammaAlternatives] at hga
        simp [hga.2]
    exact (owner_wf sub A o g hwf hn hd hog).2.2.2.2.1
  have hro : ∀ (s : Bool) (g' : Node) (a b : Nat), rolesOf s g' a b = some (g, x, r) → g' = g := by
    intro s g' a b h
    simp only [rolesOf] at h
    split at h
    · simp at h
    · split at h <;> (simp only [Option.some.injEq, Prod.mk.injEq] at h; exact h.1)
  simp only [roles] at h
  cases hcor : correlation cfg pred sub with
  | none => rw [hcor] at h; simp at h
  | some cor =>
    rw [hcor] at h
    simp only [correlation] at hcor
    cases h1 : controlCorrelation pred sub with
    | some c1 =>
      rw [h1] at hcor
      simp only [Option.some.injEq] at hcor
      subst hcor
      simp only [controlCorrelation, Option.map_eq_some_iff] at h1
      obtain ⟨p, hp, rfl⟩ := h1
      rcases hp2 : p.2 with _ | ⟨a, _ | ⟨b, _ | ⟨c, l⟩⟩⟩ <;> rw [hp2] at h <;> simp only [reduceCtorEq] at h
      exact key pred p.2 (by rw [hp, ← hro _ _ _ _ h])
    | none =>
      rw [h1] at hcor
      simp only at hcor
      cases h2 : matchConstantCorrelation pred sub with
      | some c2 =>
        rw [h2] at hcor
        simp only [Option.some.injEq] at hcor
        subst hcor
        simp only [matchConstantCorrelation] at h2
        cases hm : matchOf pred sub with
        | none => rw [hm] at h2; simp at h2
        | some t =>
          obtain ⟨m, d, i⟩ := t
          rw [hm] at h2
          simp only [Option.map_eq_some_iff] at h2
          obtain ⟨p, hp, rfl⟩ := h2
          rcases hp2 : p.2 with _ | ⟨a, _ | ⟨b, _ | ⟨c, l⟩⟩⟩ <;> rw [hp2] at h <;>
            simp only [reduceCtorEq] at h
          exact key i p.2 (by rw [hp, ← hro _ _ _ _ h])
      | none =>
        rw [h2] at hcor
        simp only [matchCorrelation] at hcor
        cases hm : matchOf pred sub with
        | none => rw [hm] at hcor; simp at hcor
        | some t =>
          rw [hm] at hcor
          simp only [Option.map_eq_some_iff] at hcor
          obtain ⟨g', hg', rfl⟩ := hcor
          obtain ⟨pos, _, hpos⟩ := List.exists_of_findSome?_eq_some hg'
          simp only [gammaUser] at hpos
          cases hget : sub.get? pos with
          | none => rw [hget] at hpos; simp at hpos
          | some n =>
            rw [hget] at hpos
            cases n with
            | gamma p ins outs subs =>
              simp only at hpos
              split at hpos
              · cases hpos
                simp only at h
                split at h
                · simp at h
                · simp only [Option.some.injEq, Prod.mk.injEq] at h
                  obtain ⟨rfl, rfl, rfl⟩ := h
                  exact get?_owner sub pos _ hn hget
              · simp at hpos
            | _ => simp at hpos

theorem branchOrigin_ins {g : Node} {b : Nat} {p o : Out} (h : branchOrigin g b p = some o) :
    o ∈ g.ins := by
  cases g with
  | gamma pred ins outs subs =>
    simp only [branchOrigin] at h
    cases hb : subs.branch b with
    | none => rw [hb] at h; simp at h
    | some ar =>
      rw [hb] at h
      obtain ⟨r, hr, ho⟩ := Option.bind_eq_some_iff.1 h
      simp [Node.ins, (lookup_zip_mem ho).2]
  | _ => simp [branchOrigin] at h

theorem newPosts_mem {g : Node} {x r : Nat} {oa pa : Out → Bool} {y : Out} :
    ∀ (outs args posts : List Out), y ∈ newPosts g x r oa pa outs args posts →
    y ∈ posts ∨ ∃ p ∈ posts, p ∈ g.outs ∧ y ∈ g.ins
  | [], _, _, h => by simp [newPosts] at h; exact .inl h
  | _ :: _, [], _, h => by simp [newPosts] at h; exact .inl h
  | _ :: _, _ :: _, [], h => by simp [newPosts] at h
  | o :: outs, a :: args, p :: posts, h => by
      simp only [newPosts, List.mem_cons] at h
      rcases h with h | h
      · rcases newPost_cases (g := g) (x := x) (r := r) (oa := oa o) (pa := pa a) (p := p) with
          h' | ⟨hpg, ⟨_, _, h'⟩ | ⟨_, _, h'⟩⟩
        · left; rw [h, h']; simp
        · right; exact ⟨p, by simp, hpg, by rw [h]; exact branchOrigin_ins h'⟩
        · right; exact ⟨p, by simp, hpg, by rw [h]; exact branchOrigin_ins h'⟩
      · rcases newPosts_mem outs args posts h with h | ⟨p', h1, h2, h3⟩
        · left; simp [h]
        · right; exact ⟨p', by simp [h1], h2, h3⟩

theorem correlate_wf {cfg : Config} {alive : Out → Bool} {n : Node} {A : List Out}
    (hwf : wfNode A n = true) (hn : (namesNode n).Nodup) : wfNode A (correlate cfg alive n) = true := by
  cases n with
  | theta ins outs args pred posts sub =>
    simp only [correlate]
    split
    · cases hr : roles cfg pred sub with
      | none => simpa using hwf
      | some t =>
        obtain ⟨g, x, r⟩ := t
        simp only [wfNode, Bool.and_eq_true, beq_iff_eq, Dne.subset_iff] at hwf ⊢
        obtain ⟨⟨⟨⟨⟨w1, w2⟩, w3⟩, w4⟩, w5⟩, w6⟩ := hwf
        simp only [namesNode] at hn
        have hn1 := List.nodup_append.1 hn
        have hd : ∀ x ∈ args, x ∉ namesNodes sub := fun x hx hx' =>
          hn1.2.2 x (by simp [hx]) x hx' rfl
        refine ⟨⟨⟨⟨⟨w1, w2⟩, w3⟩, by rw [newPosts_length]; exact w4⟩, w5⟩, fun y hy => ?_⟩
        rcases List.mem_cons.1 hy with rfl | hy
        · exact w6 y (by simp)
        · rcases newPosts_mem outs args posts hy with h | ⟨p, h1, h2, h3⟩
          · exact w6 y (by simp [h])
          · have hog := roles_owner w5 hn1.2.1 hd hr p h2
            obtain ⟨_, _, _, _, _, B, hB, hB', _⟩ := owner_wf sub args p g w5 hn1.2.1 hd hog
            exact hB' y (wfNode_ins hB y h3)
    · simpa using hwf
  | _ => simpa [correlate] using hwf

end Ivr

end Jlm.Opt
