import Verif.Rvsdg.TracerSpec

/-!
# The output tracer finds the source of a value (C58)
-/

set_option linter.unusedSimpArgs false
set_option linter.unusedVariables false

namespace Jlm.Rvsdg.Tracer

variable {V : Type} {G : Graph} {rank : Out → Nat} {depth : Rg → Nat}

/-! ### Instances -/

theorem Around.trans {E : Exec V} {i j k : E.I} (h : Around E i j) (h' : Around E j k) : Around E i k := by
  induction h with
  | refl => exact h'
  | up i n k _ hr _ ih => exact .up i n k _ hr (ih h')

theorem Around.depth_le (hG : G.Wf rank depth) {E : Exec V} (hE : E.Of G) {i j : E.I} (h : Around E i j) :
    depth (E.rg j) ≤ depth (E.rg i) := by
  induction h with
  | refl => exact Nat.le_refl _
  | up i n k _ hr _ ih =>
      rw [hr, hG.depth]
      rw [hE.up i n k hr] at ih
      omega

theorem Around.unique (hG : G.Wf rank depth) {E : Exec V} (hE : E.Of G) {i j j' : E.I} (h : Around E i j)
    (h' : Around E i j') (hd : depth (E.rg j) = depth (E.rg j')) : j = j' := by
  induction h with
  | refl i =>
      cases h' with
      | refl => rfl
      | up _ n k _ hr h' =>
          have := h'.depth_le hG hE
          rw [hE.up _ n k hr] at this
          rw [hr, hG.depth] at hd
          omega
  | up i n k j hr h ih =>
      cases h' with
      | refl =>
          have := h.depth_le hG hE
          rw [hE.up _ n k hr] at this
          rw [hr, hG.depth] at hd
          omega
      | up _ n k _ hr' h' => exact ih h' hd

theorem InPhi.trans {E : Exec V} {i j k : E.I} (h : InPhi G E i j) (h' : InPhi G E j k) : InPhi G E i k := by
  induction h' with
  | refl => exact h
  | down k n l hk hr _ ih => exact .down _ k n l hk hr ih

theorem InPhi.around {E : Exec V} {a j b : E.I} (h : InPhi G E a j) (h' : Around E j b) :
    Around E a b ∨ InPhi G E a b := by
  induction h with
  | refl => exact Or.inl h'
  | down j n k hk hr h ih =>
      cases h' with
      | refl => exact Or.inr (.down _ _ n k hk hr h)
      | up _ n k _ hr' h' => exact ih h'

theorem Visible.refl (G : Graph) (E : Exec V) (i : E.I) : Visible G E i i := ⟨i, .refl i, .refl i⟩

theorem Visible.up (G : Graph) (E : Exec V) (i : E.I) {n : Nd} {k : Nat} (h : E.rg i = some (n, k)) : Visible G E i (E.up i) :=
  ⟨_, .up i n k _ h (.refl _), .refl _⟩

theorem Visible.trans {E : Exec V} {i j k : E.I} (h : Visible G E i j) (h' : Visible G E j k) : Visible G E i k := by
  obtain ⟨a, ha, hp⟩ := h
  obtain ⟨b, hb, hp'⟩ := h'
  rcases hp.around hb with h | h
  · exact ⟨b, ha.trans h, hp'⟩
  · exact ⟨a, ha, h.trans hp'⟩

theorem Visible.around {E : Exec V} {i j : E.I} (h : Visible G E i j) (hn : ∀ n k, E.rg j = some (n, k) → G.kind n ≠ .phi) :
    Around E i j := by
  obtain ⟨a, ha, hp⟩ := h
  cases hp with
  | refl => exact ha
  | down _ n k hk hr _ => exact absurd hk (hn n k hr)

/-- In instance `i` there is one instance of every region at most. -/
theorem Visible.unique (hG : G.Wf rank depth) {E : Exec V} (hE : E.Of G) {i : E.I} :
    ∀ (m : Nat) (j j' : E.I), depth (E.rg j) ≤ m → Visible G E i j → Visible G E i j' → E.rg j = E.rg j' → j = j' := by
  intro m
  induction m with
  | zero =>
      intro j j' hm h h' hr
      have hnp : ∀ n k, E.rg j = some (n, k) → G.kind n ≠ .phi := fun n k h _ => by
        rw [h, hG.depth] at hm; omega
      exact Around.unique hG hE (h.around hnp) (h'.around (by rw [← hr]; exact hnp)) (by rw [hr])
  | succ m ih =>
      intro j j' hm h h' hr
      by_cases hp : ∃ n k, E.rg j = some (n, k) ∧ G.kind n = .phi
      · obtain ⟨n, k, hj, hk⟩ := hp
        have hj' : E.rg j' = some (n, k) := by rw [← hr, hj]
        refine hE.phiOnce j j' n k hk hj hj' (ih _ _ ?_ (h.trans (.up G E j hj)) (h'.trans (.up G E j' hj')) ?_)
        · rw [hE.up j n k hj]
          rw [hj, hG.depth] at hm
          omega
        · rw [hE.up j n k hj, hE.up j' n k hj']
      · have hnp : ∀ n k, E.rg j = some (n, k) → G.kind n ≠ .phi := fun n k h h' => hp ⟨n, k, h, h'⟩
        exact Around.unique hG hE (h.around hnp) (h'.around (by rw [← hr]; exact hnp)) (by rw [hr])

/-- `t` has the value of `o`, in some visible instance. -/
def Same (G : Graph) (o t : Out) : Prop :=
  ∀ (V : Type) (E : Exec V), E.Of G → ∀ i v, E.rg i = G.regionOf o → E.val i o = some v →
    ∃ j, Visible G E i j ∧ E.rg j = G.regionOf t ∧ E.val j t = some v

theorem Same.refl (o : Out) : Same G o o := fun V E _ i _ hr hv => ⟨i, .refl G E i, hr, hv⟩

theorem Same.trans {o t u : Out} (h : Same G o t) (h' : Same G t u) : Same G o u := by
  intro V E hE i v hr hv
  obtain ⟨j, hj, hjr, hjv⟩ := h V E hE i v hr hv
  obtain ⟨k, hk, hkr, hkv⟩ := h' V E hE j v hjr hjv
  exact ⟨k, hj.trans hk, hkr, hkv⟩

theorem Same.sameValue (hG : G.Wf rank depth) {o t : Out} (h : Same G o t) : SameValue G o t := by
  intro V E hE i v hr hv
  obtain ⟨j, hj, hjr, hjv⟩ := h V E hE i v hr hv
  refine ⟨⟨j, hj, hjr⟩, fun j' hj' hjr' => ?_⟩
  rw [Visible.unique hG hE _ j' j (Nat.le_refl _) hj' hj (by rw [hjr, hjr'])]
  exact hjv

/-! ### Regions -/

theorem Sub.depth_le (hG : G.Wf rank depth) {r w : Rg} (h : Sub G r w) : depth w ≤ depth r := by
  induction h with
  | refl => exact Nat.le_refl _
  | up n k w _ ih => rw [hG.depth]; omega

/-- A set of regions that tracing does not leave if it stops at the arguments of `W`. -/
def Closed (G : Graph) (W : Option Rg) (S : Rg → Prop) : Prop :=
  (∀ n k, S (some (n, k)) → W ≠ some (some (n, k)) → S (G.region n)) ∧ ∀ n k, S (G.region n) → S (some (n, k))

theorem closed_true (W : Option Rg) : Closed G W fun _ => True := ⟨fun _ _ _ _ => trivial, fun _ _ _ => trivial⟩

theorem closed_sub (w : Rg) : Closed G (some w) fun r => Sub G r w := by
  refine ⟨fun n k h hw => ?_, fun n k h => .up n k w h⟩
  cases h with
  | refl => exact absurd rfl hw
  | up _ _ _ h => exact h

/-! ### Invariants -/

/-- What it means that the tracer got from output `x` of node `n` to input `a`. -/
def Good (G : Graph) (n : Nd) (x a : Nat) : Prop :=
  a < G.nin n ∧ ∀ (V : Type) (E : Exec V), E.Of G →
    (G.kind n = .gamma → ∀ p v, E.rg p = G.region n → E.val p (.out n x) = some v → E.val p (G.origin n a) = some v) ∧
    (G.kind n = .theta → ∀ i v, E.rg i = some (n, 0) → E.val i (G.result (some (n, 0)) (x + 1)) = some v →
      E.val (E.up i) (G.origin n a) = some v)

def CInv (G : Graph) (C : Cache) : Prop :=
  ∀ n x a, C.lookup (.out n x) = some (some a) → Good G n x a

/-- Entries are added for nodes in `S` only. -/
def New (G : Graph) (S : Rg → Prop) (C C' : Cache) : Prop :=
  ∀ o, C.lookup o = none → C'.lookup o ≠ none → ∃ n x, o = .out n x ∧ S (G.region n)

theorem New.refl (S : Rg → Prop) (C : Cache) : New G S C C := fun _ h h' => absurd h h'

theorem New.trans {S : Rg → Prop} {C C' C'' : Cache} (h : New G S C C') (h' : New G S C' C'') : New G S C C'' := by
  intro o ho ho'
  by_cases hc : C'.lookup o = none
  · exact h' o hc ho'
  · exact h o ho hc

theorem New.mono {S S' : Rg → Prop} {C C' : Cache} (hs : ∀ r, S r → S' r) (h : New G S C C') : New G S' C C' := by
  intro o ho ho'
  obtain ⟨n, x, he, hr⟩ := h o ho ho'
  exact ⟨n, x, he, hs _ hr⟩

/-- The specification of `th` on the nodes in `S`. If `B` there is enough fuel. -/
def SpecTh (G : Graph) (S : Rg → Prop) (B : Prop) (th : Out → M (Option Out)) : Prop :=
  ∀ n x C, S (G.region n) → x < G.nout n → G.kind n = .gamma ∨ G.kind n = .theta → CInv G C →
    match th (.out n x) C with
    | .error e => e = .fuel ∧ ¬ B
    | .ok (r, C') => CInv G C' ∧ New G S C C' ∧ ∀ t, r = some t → ∃ a, t = G.origin n a ∧ Good G n x a

/-- What is required of an output that is traced. -/
structure Ok (G : Graph) (S : Rg → Prop) (o : Out) : Prop where
  valid : G.Valid o
  noMatch : ¬ G.IsMatch o
  inS : S (G.regionOf o)

/-- What a step, or all steps, achieve. -/
structure Stp (G : Graph) (rank : Out → Nat) (S : Rg → Prop) (o : Out) (C : Cache) (t : Out) (C' : Cache) : Prop where
  ok : Ok G S t
  same : Same G o t
  rank : t = o ∨ rank t < rank o
  cinv : CInv G C'
  new : New G S C C'

theorem Ok.origin (hG : G.Wf rank depth) (hM : G.NoMatch) {S : Rg → Prop} {n : Nd} {j : Nat} (hj : j < G.nin n)
    (hs : S (G.region n)) : Ok G S (G.origin n j) :=
  ⟨(hG.origin n j hj).1, hM.origin n j hj, by rw [(hG.origin n j hj).2]; exact hs⟩

theorem Good.sameOut (hG : G.Wf rank depth) {n : Nd} {x a : Nat} (h : Good G n x a) (hx : x < G.nout n)
    (hk : G.kind n = .gamma ∨ G.kind n = .theta) : Same G (.out n x) (G.origin n a) := by
  intro V E hE i v hr hv
  refine ⟨i, .refl G E i, by rw [(hG.origin n a h.1).2]; exact hr, ?_⟩
  rcases hk with hk | hk
  · exact (h.2 V E hE).1 hk i v hr hv
  · obtain ⟨j, hj, hu, hv'⟩ := hE.thetaOut i n x v hr hk hx hv
    rw [← hu]
    exact (h.2 V E hE).2 hk j v hj hv'

/-- A loop variable whose post value is always that of the input is the input in every iteration. -/
theorem Good.sameArg (hG : G.Wf rank depth) {n : Nd} {x a : Nat} (h : Good G n x a) (hk : G.kind n = .theta) (hx : x < G.nin n)
    (ho : G.origin n a = G.origin n x) : Same G (.arg (some (n, 0)) x) (G.origin n x) := by
  intro V E hE i v hr hv
  have hr : E.rg i = some (n, 0) := hr
  refine ⟨E.up i, .up G E i hr, by rw [(hG.origin n x hx).2]; exact hE.up i n 0 hr, ?_⟩
  rcases hE.thetaIn i n hr hk with hf | ⟨j, hj, hu, _, hf⟩
  · rw [← hf x hx]; exact hv
  · rw [hf x hx] at hv
    rw [← ho, ← hu]
    exact (h.2 V E hE).2 hk j v hj hv

/-! ### Steps -/

theorem stepLlvm_spec (hG : G.Wf rank depth) (hM : G.NoMatch) (cfg : Cfg) {S : Rg → Prop} {t : Out} (ht : Ok G S t) :
    Ok G S (stepLlvm G cfg t) ∧ Same G t (stepLlvm G cfg t) ∧ (stepLlvm G cfg t = t ∨ rank (stepLlvm G cfg t) < rank t) := by
  cases t with
  | arg r a => exact ⟨ht, .refl _, Or.inl rfl⟩
  | out n x =>
      unfold stepLlvm
      dsimp only
      by_cases h1 : cfg.llvm ∧ G.kind n = .simple .barrier
      · rw [if_pos h1]
        have hn := hG.barrier n h1.2
        refine ⟨.origin hG hM hn ht.inS, fun V E hE i v hr hv => ?_, Or.inr (hG.rankOut n x 0 ht.valid hn)⟩
        exact ⟨i, .refl G E i, by rw [(hG.origin n 0 hn).2]; exact hr, hE.barrier i n x v hr h1.2 hv⟩
      · rw [if_neg h1]
        by_cases h2 : cfg.llvm ∧ cfg.loadedStates ∧ G.kind n = .simple .load ∧ G.isMem (.out n x)
        · rw [if_pos h2]
          have hn : x < G.nin n := by rw [hG.load n h2.2.2.1]; exact ht.valid
          refine ⟨.origin hG hM hn ht.inS, fun V E hE i v hr hv => ?_, Or.inr (hG.rankOut n x x ht.valid hn)⟩
          exact ⟨i, .refl G E i, by rw [(hG.origin n x hn).2]; exact hr, hE.loadState i n x v hr h2.2.2.1 h2.2.2.2 hv⟩
        · rw [if_neg h2]
          exact ⟨ht, .refl _, Or.inl rfl⟩

theorem stepBase_spec (hG : G.Wf rank depth) (hM : G.NoMatch) (cfg : Cfg) {S : Rg → Prop} {B : Prop} {W : Option Rg}
    (hS : Closed G W S) {th : Out → M (Option Out)} (hth : SpecTh G S B th) {o : Out} {C : Cache} (ho : Ok G S o) (hC : CInv G C) :
    match stepBase G cfg th W o C with
    | .error e => e = .fuel ∧ ¬ B
    | .ok (t, C') => Stp G rank S o C t C' := by
  have hstay : Stp G rank S o C o C := ⟨ho, .refl o, Or.inl rfl, hC, .refl S C⟩
  cases o with
  | out n x =>
      have key : G.kind n = .gamma ∨ G.kind n = .theta →
          match (match th (.out n x) C with
            | .error e => Except.error e
            | .ok (some t, C') => .ok (t, C')
            | .ok (none, C') => .ok (Out.out n x, C') : Except Err (Out × Cache)) with
          | .error e => e = .fuel ∧ ¬ B
          | .ok (t, C') => Stp G rank S (.out n x) C t C' := by
        intro hk
        have h := hth n x C ho.inS ho.valid hk hC
        cases hr : th (.out n x) C with
        | error e => rw [hr] at h; exact h
        | ok p =>
            obtain ⟨r, C'⟩ := p
            rw [hr] at h
            obtain ⟨hc, hn, ht⟩ := h
            cases r with
            | none => exact ⟨ho, .refl _, Or.inl rfl, hc, hn⟩
            | some t =>
                obtain ⟨a, rfl, hg⟩ := ht t rfl
                exact ⟨.origin hG hM hg.1 ho.inS, hg.sameOut hG ho.valid hk, Or.inr (hG.rankOut n x a ho.valid hg.1), hc, hn⟩
      unfold stepBase
      dsimp only
      cases hk : G.kind n with
      | gamma => exact key (Or.inl hk)
      | theta => exact key (Or.inr hk)
      | simple op => exact hstay
      | lambda na => exact hstay
      | delta => exact hstay
      | phi =>
          dsimp only
          by_cases hc : cfg.interprocedural ∧ cfg.enterPhi
          · rw [if_pos hc]
            obtain ⟨h1, h2, h3⟩ := hG.phi n hk
            have hx : x < G.nres (some (n, 0)) := by rw [h2]; exact ho.valid
            have h0 : 0 < G.nsub n := by omega
            obtain ⟨hv, hrg⟩ := hG.result n 0 x h0 hx
            refine ⟨⟨hv, hM.result n 0 x h0 hx, by rw [hrg]; exact hS.2 n 0 ho.inS⟩, fun V E hE i v hr hv => ?_,
              Or.inr (hG.rankResult n 0 x x h0 ho.valid hx), hC, .refl S C⟩
            obtain ⟨j, hj, hu, hv'⟩ := hE.phiOut i n x v hr hk ho.valid hv
            exact ⟨j, ⟨i, .refl i, .down i j n 0 hk hj (by rw [hu]; exact .refl i)⟩, by rw [hrg]; exact hj, hv'⟩
          · rw [if_neg hc]; exact hstay
  | arg r a =>
      unfold stepBase
      dsimp only
      by_cases hW : W = some r
      · rw [if_pos hW]; exact hstay
      · rw [if_neg hW]
        cases r with
        | none => exact hstay
        | some nk =>
            obtain ⟨n, k⟩ := nk
            have hSn : S (G.region n) := hS.1 n k ho.inS hW
            have hko : k < G.nsub n ∧ a < G.narg (some (n, k)) := ho.valid
            have ctx : ∀ b, b < G.nin n → (∀ (V : Type) (E : Exec V), E.Of G → ∀ i, E.rg i = some (n, k) →
                E.val i (.arg (some (n, k)) a) = E.val (E.up i) (G.origin n b)) → Stp G rank S (.arg (some (n, k)) a) C (G.origin n b) C := by
              intro b hb hval
              refine ⟨.origin hG hM hb hSn, fun V E hE i v hr hv => ?_, Or.inr (hG.rankArg n k a b hko.1 hko.2 hb), hC, .refl S C⟩
              have hr : E.rg i = some (n, k) := hr
              refine ⟨E.up i, .up G E i hr, by rw [(hG.origin n b hb).2]; exact hE.up i n k hr, ?_⟩
              rw [← hval V E hE i hr]; exact hv
            dsimp only
            cases hk : G.kind n with
            | simple op => exact hstay
            | gamma =>
                have ha : a < G.nin n := by rw [← ((hG.gamma n hk).2 k hko.1).1]; exact hko.2
                have ha1 : 1 ≤ a := by
                  have := ho.noMatch
                  cases a with
                  | zero => exact absurd hk this
                  | succ a => omega
                exact ctx a ha fun V E hE i hr => hE.gammaIn i n k a hr hk ha1 ha
            | theta =>
                obtain ⟨h1, h2, h3, h4⟩ := hG.theta n hk
                have hk0 : k = 0 := by omega
                subst hk0
                have ha : a < G.nin n := by rw [← h3]; exact hko.2
                have h := hth n a C hSn (by omega) (Or.inr hk) hC
                cases hr : th (.out n a) C with
                | error e => rw [hr] at h; simp only [hr]; exact h
                | ok p =>
                    obtain ⟨t, C'⟩ := p
                    rw [hr] at h
                    simp only [hr]
                    obtain ⟨hc, hn, ht⟩ := h
                    by_cases hto : t = some (G.origin n a)
                    · rw [if_pos hto]
                      obtain ⟨b, hb, hg⟩ := ht _ hto
                      exact ⟨.origin hG hM ha hSn, hg.sameArg hG hk ha hb.symm, Or.inr (hG.rankArg n 0 a a hko.1 hko.2 ha), hc, hn⟩
                    · rw [if_neg hto]
                      exact ⟨ho, .refl _, Or.inl rfl, hc, hn⟩
            | lambda na =>
                obtain ⟨h1, h2⟩ := hG.lambda n na hk
                have hk0 : k = 0 := by omega
                subst hk0
                dsimp only
                by_cases hc : cfg.interprocedural ∧ na ≤ a
                · rw [if_pos hc]
                  have hb : a - na < G.nin n := by omega
                  refine ctx _ hb fun V E hE i hr => ?_
                  have := hE.lambdaCtx i n na (a - na) hr hk hb
                  rwa [show na + (a - na) = a by omega] at this
                · rw [if_neg hc]; exact hstay
            | delta =>
                obtain ⟨h1, h2⟩ := hG.delta n hk
                have hk0 : k = 0 := by omega
                subst hk0
                dsimp only
                by_cases hc : cfg.interprocedural
                · rw [if_pos hc]
                  have hb : a < G.nin n := by omega
                  exact ctx _ hb fun V E hE i hr => hE.deltaCtx i n a hr hk hb
                · rw [if_neg hc]; exact hstay
            | phi =>
                obtain ⟨h1, h2, h3⟩ := hG.phi n hk
                have hk0 : k = 0 := by omega
                subst hk0
                dsimp only
                by_cases hc : cfg.interprocedural ∧ G.nres (some (n, 0)) ≤ a
                · rw [if_pos hc]
                  have hb : a - G.nres (some (n, 0)) < G.nin n := by omega
                  refine ctx _ hb fun V E hE i hr => ?_
                  have := hE.phiCtx i n (a - G.nres (some (n, 0))) hr hk hb
                  rwa [show G.nres (some (n, 0)) + (a - G.nres (some (n, 0))) = a by omega] at this
                · rw [if_neg hc]; exact hstay

theorem step_spec (hG : G.Wf rank depth) (hM : G.NoMatch) (cfg : Cfg) {S : Rg → Prop} {B : Prop} {W : Option Rg}
    (hS : Closed G W S) {th : Out → M (Option Out)} (hth : SpecTh G S B th) {o : Out} {C : Cache} (ho : Ok G S o) (hC : CInv G C) :
    match step G cfg th W o C with
    | .error e => e = .fuel ∧ ¬ B
    | .ok (t, C') => Stp G rank S o C t C' := by
  have h := stepBase_spec hG hM cfg hS hth ho hC
  unfold step
  cases hr : stepBase G cfg th W o C with
  | error e => rw [hr] at h; exact h
  | ok p =>
      obtain ⟨t, C'⟩ := p
      rw [hr] at h
      obtain ⟨h1, h2, h3⟩ := stepLlvm_spec hG hM cfg h.ok
      refine ⟨h1, h.same.trans h2, ?_, h.cinv, h.new⟩
      rcases h.rank with hr1 | hr1
      · rcases h3 with h3 | h3
        · left; rw [h3, hr1]
        · right; rw [← hr1]; exact h3
      · right
        rcases h3 with h3 | h3
        · rw [h3]; exact hr1
        · omega

theorem loop_spec (hG : G.Wf rank depth) (hM : G.NoMatch) (cfg : Cfg) {S : Rg → Prop} {B : Prop} {W : Option Rg}
    (hS : Closed G W S) {th : Out → M (Option Out)} (hth : SpecTh G S B th) (N : Nat) : ∀ {o : Out} {C : Cache}, Ok G S o → CInv G C →
    match loop G cfg th W N o C with
    | .error e => e = .fuel ∧ ¬ (B ∧ rank o < N)
    | .ok (t, C') => Stp G rank S o C t C' := by
  induction N with
  | zero => intro o C _ _; exact ⟨rfl, fun h => absurd h.2 (Nat.not_lt_zero _)⟩
  | succ N ih =>
      intro o C ho hC
      have h := step_spec hG hM cfg hS hth ho hC
      unfold loop
      cases hr : step G cfg th W o C with
      | error e => rw [hr] at h; exact ⟨h.1, fun hb => h.2 hb.1⟩
      | ok p =>
          obtain ⟨t, C'⟩ := p
          rw [hr] at h
          have h : Stp G rank S o C t C' := h
          dsimp only
          by_cases hto : t = o
          · rw [if_pos hto]
            exact ⟨ho, .refl _, Or.inl rfl, h.cinv, h.new⟩
          · rw [if_neg hto]
            have hlt : rank t < rank o := by
              rcases h.rank with h | h
              · exact absurd h hto
              · exact h
            have h' := ih h.ok h.cinv
            cases hr' : loop G cfg th W N t C' with
            | error e =>
                rw [hr'] at h'
                exact ⟨h'.1, fun hb => h'.2 ⟨hb.1, by omega⟩⟩
            | ok p =>
                obtain ⟨u, C''⟩ := p
                rw [hr'] at h'
                have h' : Stp G rank S t C' u C'' := h'
                refine ⟨h'.ok, h.same.trans h'.same, Or.inr ?_, h'.cinv, h.new.trans h'.new⟩
                rcases h'.rank with h'' | h''
                · rw [h'']; exact hlt
                · omega

/-! ### Gamma and theta nodes -/

theorem lookup_cons_self (o : Out) (r : Option Nat) (C : Cache) (o' : Out) :
    List.lookup o' ((o, r) :: C) = if o' = o then some r else C.lookup o' := by
  rw [List.lookup_cons]
  by_cases h : o' = o
  · simp [h]
  · have : (o' == o) = false := by simpa using h
    rw [this, if_neg h]

/-- What `through` has to return and to leave in the cache. -/
def Ins (G : Graph) (S : Rg → Prop) (n : Nd) (x : Nat) (B : Prop) (C : Cache) : Except Err (Option Nat × Cache) → Prop
  | .error e => e = .fuel ∧ ¬ B
  | .ok (r, C') => CInv G C' ∧ New G S C C' ∧ ∀ a, r = some a → Good G n x a

theorem insert_spec {S : Rg → Prop} {cfg : Cfg} {n : Nd} {x : Nat} {B : Prop} {C0 C : Cache} {r : Option Nat} (hn : S (G.region n))
    (hC : CInv G C) (hnew : New G S C0 C) (hnone : cfg.caching = true → C.lookup (.out n x) = none) (hr : ∀ a, r = some a → Good G n x a) :
    Ins G S n x B C0 (insertInCache cfg (.out n x) r C) := by
  unfold insertInCache
  by_cases hc : cfg.caching = false
  · rw [if_pos hc]; exact ⟨hC, hnew, hr⟩
  · rw [if_neg hc, hnone (by cases h : cfg.caching with | false => exact absurd h hc | true => rfl)]
    rw [if_neg (by simp)]
    refine ⟨?_, hnew.trans ?_, hr⟩
    · intro m y a h
      rw [lookup_cons_self] at h
      by_cases he : Out.out m y = .out n x
      · rw [if_pos he] at h
        injection he with h1 h2
        subst h1; subst h2
        exact hr a (by injection h)
      · rw [if_neg he] at h
        exact hC m y a h
    · intro o h1 h2
      rw [lookup_cons_self] at h2
      by_cases he : o = .out n x
      · exact ⟨n, x, he, hn⟩
      · rw [if_neg he] at h2; exact absurd h1 h2

/-- The specification of the recursive calls for the subregions of `n`. -/
def SpecTr (G : Graph) (rank : Out → Nat) (n : Nd) (B : Prop) (tr : Option Rg → Out → M Out) : Prop :=
  ∀ k o C, k < G.nsub n → Ok G (fun r => Sub G r (some (n, k))) o → CInv G C →
    match tr (some (some (n, k))) o C with
    | .error e => e = .fuel ∧ ¬ B
    | .ok (t, C') => Stp G rank (fun r => Sub G r (some (n, k))) o C t C'

theorem not_sub_self (hG : G.Wf rank depth) (n : Nd) (k : Nat) : ¬ Sub G (G.region n) (some (n, k)) := by
  intro h
  have := h.depth_le hG
  rw [hG.depth] at this
  omega

theorem sub_sibling (hG : G.Wf rank depth) {n : Nd} {k k' : Nat} (h : Sub G (some (n, k')) (some (n, k))) : k' = k := by
  cases h with
  | refl => rfl
  | up _ _ _ h => exact absurd h (not_sub_self hG n k)

theorem nested_none (hG : G.Wf rank depth) {n : Nd} {x k : Nat} {C C' : Cache} (h : New G (fun r => Sub G r (some (n, k))) C C')
    (hC : C.lookup (.out n x) = none) : C'.lookup (.out n x) = none := by
  cases hc : C'.lookup (.out n x) with
  | none => rfl
  | some r =>
      obtain ⟨m, y, he, hs⟩ := h _ hC (by rw [hc]; simp)
      injection he with h1 h2
      subst h1
      exact absurd hs (not_sub_self hG n k)

/-- Same value in the same instance. -/
theorem Same.local (hG : G.Wf rank depth) {n : Nd} {k : Nat} (hk : G.kind n ≠ .phi) {o t : Out} (h : Same G o t)
    (ho : G.regionOf o = some (n, k)) (ht : G.regionOf t = some (n, k)) {V : Type} {E : Exec V} (hE : E.Of G) {i : E.I} {v : V}
    (hi : E.rg i = some (n, k)) (hv : E.val i o = some v) : E.val i t = some v := by
  obtain ⟨j, hj, hjr, hjv⟩ := h V E hE i v (by rw [hi, ho]) hv
  have : i = j := Visible.unique hG hE _ i j (Nat.le_refl _) (.refl G E i) hj (by rw [hi, hjr, ht])
  rw [this]; exact hjv

/-- Branch `k` delivers input `a`. -/
def Delivers (G : Graph) (n : Nd) (x k a : Nat) : Prop :=
  ∀ (V : Type) (E : Exec V), E.Of G → ∀ i v, E.rg i = some (n, k) → E.val i (G.result (some (n, k)) x) = some v →
    E.val (E.up i) (G.origin n a) = some v

theorem gammaBranches_spec (hG : G.Wf rank depth) (hM : G.NoMatch) (cfg : Cfg) {S : Rg → Prop} {B : Prop} {n : Nd} {x : Nat}
    {tr : Option Rg → Out → M Out} (htr : SpecTr G rank n B tr) (hk : G.kind n = .gamma) (hx : x < G.nout n)
    (hS : S (G.region n)) (hSub : ∀ k r, Sub G r (some (n, k)) → S r) (C0 : Cache) :
    ∀ (ks : List Nat) (c : Option Nat) (C : Cache), (∀ k ∈ ks, k < G.nsub n) →
      (∀ g, c = some g → g < G.nin n ∧ ∀ k, k < G.nsub n → k ∉ ks → Delivers G n x k g) →
      (c = none → ks ≠ [] ∧ ∀ k, k < G.nsub n → k ∈ ks) → CInv G C → New G S C0 C →
      (cfg.caching = true → C.lookup (.out n x) = none) →
      Ins G S n x B C0 (gammaBranches G cfg tr n x ks c C) := by
  intro ks
  induction ks with
  | nil =>
      intro c C hks hc hn hC hnew hl
      cases c with
      | none => exact absurd rfl (hn rfl).1
      | some g =>
          unfold gammaBranches
          refine insert_spec hS hC hnew hl fun a ha => ?_
          injection ha with ha
          subst ha
          obtain ⟨hg, hd⟩ := hc g rfl
          refine ⟨hg, fun V E hE => ⟨fun _ p v hp hv => ?_, fun h => by rw [hk] at h; exact absurd h (by simp)⟩⟩
          obtain ⟨i, k, hkn, hi, hu, hv'⟩ := hE.gammaOut p n x v hp hk hx hv
          rw [← hu]
          exact hd k hkn (by simp) V E hE i v hi hv'
  | cons k ks ih =>
      intro c C hks hc hn hC hnew hl
      have hkn : k < G.nsub n := hks k (by simp)
      obtain ⟨hga, hgr⟩ := (hG.gamma n hk).2 k hkn
      have hxr : x < G.nres (some (n, k)) := by rw [hgr]; exact hx
      obtain ⟨hrv, hrr⟩ := hG.result n k x hkn hxr
      have hok : Ok G (fun r => Sub G r (some (n, k))) (G.result (some (n, k)) x) :=
        ⟨hrv, hM.result n k x hkn hxr, by rw [hrr]; exact .refl _⟩
      have hin : ∀ C', CInv G C' → New G (fun r => Sub G r (some (n, k))) C C' → ∀ t, Ok G (fun r => Sub G r (some (n, k))) t →
          Same G (G.result (some (n, k)) x) t →
          Ins G S n x B C0 (gammaNext G cfg n x (fun a => gammaBranches G cfg tr n x ks (some a)) c t C') := by
        intro C' hC' hnew' t ht hsame
        have hnewS : New G S C0 C' := hnew.trans (hnew'.mono (hSub k))
        have hl' : cfg.caching = true → C'.lookup (.out n x) = none := fun h => nested_none hG hnew' (hl h)
        have hno : Ins G S n x B C0 (insertInCache cfg (.out n x) none C') :=
          insert_spec hS hC' hnewS hl' fun a ha => by cases ha
        cases t with
        | out m y => exact hno
        | arg r a =>
            cases r with
            | none => exact hno
            | some mk =>
                obtain ⟨m, k'⟩ := mk
                unfold gammaNext
                dsimp only
                by_cases hm : m = n
                · rw [if_pos hm]
                  subst hm
                  have hk' : k' = k := sub_sibling hG ht.inS
                  subst hk'
                  have hta : k' < G.nsub m ∧ a < G.narg (some (m, k')) := ht.valid
                  have ha : a < G.nin m := by rw [← hga]; exact hta.2
                  have ha1 : 1 ≤ a := by
                    have := ht.noMatch
                    cases a with
                    | zero => exact absurd hk this
                    | succ a => omega
                  have hdel : Delivers G m x k' a := by
                    intro V E hE i v hi hv
                    rw [← hE.gammaIn i m k' a hi hk ha1 ha]
                    exact hsame.local hG (by rw [hk]; simp) hrr rfl hE hi hv
                  have hks' : ∀ k ∈ ks, k < G.nsub m := fun k h => hks k (List.mem_cons_of_mem _ h)
                  cases c with
                  | none =>
                      dsimp only
                      refine ih (some a) C' hks' (fun g hg => ?_) (fun h => by cases h) hC' hnewS hl'
                      injection hg with hg
                      subst hg
                      refine ⟨ha, fun j hj hnj => ?_⟩
                      have := (hn rfl).2 j hj
                      rcases List.mem_cons.1 this with h | h
                      · rw [h]; exact hdel
                      · exact absurd h hnj
                  | some g =>
                      dsimp only
                      by_cases he : G.origin m g = G.origin m a
                      · rw [if_pos he]
                        refine ih (some a) C' hks' (fun g' hg' => ?_) (fun h => by cases h) hC' hnewS hl'
                        injection hg' with hg'
                        subst hg'
                        refine ⟨ha, fun j hj hnj => ?_⟩
                        by_cases hjk : j = k'
                        · rw [hjk]; exact hdel
                        · have := (hc g rfl).2 j hj (by simp [hjk, hnj])
                          intro V E hE i v hi hv
                          rw [← he]
                          exact this V E hE i v hi hv
                      · rw [if_neg he]; exact hno
                · rw [if_neg hm]; exact hno
      unfold gammaBranches
      dsimp only
      by_cases hd : cfg.deep = true
      · rw [if_pos hd, hrr]
        have h := htr k _ C hkn hok hC
        cases hr : tr (some (some (n, k))) (G.result (some (n, k)) x) C with
        | error e => rw [hr] at h; exact h
        | ok p =>
            obtain ⟨t, C'⟩ := p
            rw [hr] at h
            have h : Stp G rank (fun r => Sub G r (some (n, k))) _ C t C' := h
            exact hin C' h.cinv h.new t h.ok h.same
      · rw [if_neg hd]
        exact hin C hC (.refl _ _) _ hok (.refl _)

theorem thetaBody_spec (hG : G.Wf rank depth) (hM : G.NoMatch) (cfg : Cfg) {S : Rg → Prop} {B : Prop} {n : Nd} {x : Nat}
    {tr : Option Rg → Out → M Out} (htr : SpecTr G rank n B tr) (hk : G.kind n = .theta) (hx : x < G.nout n)
    (hS : S (G.region n)) (hSub : ∀ k r, Sub G r (some (n, k)) → S r) (C : Cache) (hC : CInv G C)
    (hl : cfg.caching = true → C.lookup (.out n x) = none) : Ins G S n x B C (thetaBody G cfg tr n x C) := by
  obtain ⟨h1, h2, h3, h4⟩ := hG.theta n hk
  have hkn : 0 < G.nsub n := by omega
  have hxr : x + 1 < G.nres (some (n, 0)) := by omega
  obtain ⟨hrv, hrr⟩ := hG.result n 0 (x + 1) hkn hxr
  have hnp : G.kind n ≠ .phi := by rw [hk]; simp
  have hok : Ok G (fun r => Sub G r (some (n, 0))) (G.result (some (n, 0)) (x + 1)) :=
    ⟨hrv, hM.result n 0 (x + 1) hkn hxr, by rw [hrr]; exact .refl _⟩
  /- an invariant loop variable has the value of its input in every iteration -/
  have hinv : ∀ y, y < G.nin n → (∀ (V : Type) (E : Exec V), E.Of G → ∀ i v, E.rg i = some (n, 0) →
        E.val i (G.result (some (n, 0)) (y + 1)) = some v → E.val i (.arg (some (n, 0)) y) = some v) →
      ∀ (V : Type) (E : Exec V), E.Of G → ∀ (m : Nat) (i : E.I) (v : V), E.iter i ≤ m → E.rg i = some (n, 0) →
        E.val i (.arg (some (n, 0)) y) = some v → E.val (E.up i) (G.origin n y) = some v := by
    intro y hy hpost V E hE m
    induction m with
    | zero =>
        intro i v hm hi hv
        rcases hE.thetaIn i n hi hk with hf | ⟨j, _, _, hlt, _⟩
        · rw [← hf y hy]; exact hv
        · omega
    | succ m ih =>
        intro i v hm hi hv
        rcases hE.thetaIn i n hi hk with hf | ⟨j, hj, hu, hlt, hf⟩
        · rw [← hf y hy]; exact hv
        · rw [hf y hy] at hv
          rw [← hu]
          exact ih j v (by omega) hj (hpost V E hE j v hj hv)
  have hin : ∀ C', CInv G C' → New G (fun r => Sub G r (some (n, 0))) C C' → ∀ t, Ok G (fun r => Sub G r (some (n, 0))) t →
      Same G (G.result (some (n, 0)) (x + 1)) t →
      Ins G S n x B C (if t = .arg (some (n, 0)) x then insertInCache cfg (.out n x) (some x) C'
      else
        match t with
        | .arg (some (m, k)) y =>
            if m = n ∧ G.result (some (n, 0)) (y + 1) = .arg (some (m, k)) y then insertInCache cfg (.out n x) (some y) C'
            else insertInCache cfg (.out n x) none C'
        | _ => insertInCache cfg (.out n x) none C') := by
    intro C' hC' hnew' t ht hsame
    have hnewS : New G S C C' := hnew'.mono (hSub 0)
    have hl' : cfg.caching = true → C'.lookup (.out n x) = none := fun h => nested_none hG hnew' (hl h)
    have hno : Ins G S n x B C (insertInCache cfg (.out n x) none C') :=
      insert_spec hS hC' hnewS hl' fun a ha => by cases ha
    by_cases hte : t = .arg (some (n, 0)) x
    · rw [if_pos hte]
      refine insert_spec hS hC' hnewS hl' fun a ha => ?_
      injection ha with ha
      subst ha
      refine ⟨by omega, fun V E hE => ⟨fun h => by rw [hk] at h; exact absurd h (by simp), fun _ i v hi hv => ?_⟩⟩
      have hpost : ∀ (V : Type) (E : Exec V), E.Of G → ∀ i v, E.rg i = some (n, 0) →
          E.val i (G.result (some (n, 0)) (x + 1)) = some v → E.val i (.arg (some (n, 0)) x) = some v := by
        intro V E hE i v hi hv
        rw [← hte]
        exact hsame.local hG hnp hrr (by rw [hte]; rfl) hE hi hv
      exact hinv x (by omega) hpost V E hE _ i v (Nat.le_refl _) hi (hpost V E hE i v hi hv)
    · rw [if_neg hte]
      cases t with
      | out m y => exact hno
      | arg r y =>
          cases r with
          | none => exact hno
          | some mk =>
              obtain ⟨m, k⟩ := mk
              dsimp only
              by_cases hm : m = n ∧ G.result (some (n, 0)) (y + 1) = .arg (some (m, k)) y
              · rw [if_pos hm]
                obtain ⟨rfl, hm⟩ := hm
                have hk0 : k = 0 := sub_sibling hG ht.inS
                subst hk0
                have hta : 0 < G.nsub m ∧ y < G.narg (some (m, 0)) := ht.valid
                refine insert_spec hS hC' hnewS hl' fun a ha => ?_
                injection ha with ha
                subst ha
                refine ⟨by omega, fun V E hE => ⟨fun h => by rw [hk] at h; exact absurd h (by simp), fun _ i v hi hv => ?_⟩⟩
                have hpost : ∀ (V : Type) (E : Exec V), E.Of G → ∀ i v, E.rg i = some (m, 0) →
                    E.val i (G.result (some (m, 0)) (y + 1)) = some v → E.val i (.arg (some (m, 0)) y) = some v := by
                  intro V E hE i v hi hv
                  rw [hm] at hv; exact hv
                exact hinv y (by omega) hpost V E hE _ i v (Nat.le_refl _) hi
                  (hsame.local hG hnp hrr rfl hE hi hv)
              · rw [if_neg hm]; exact hno
  unfold thetaBody
  dsimp only
  by_cases hd : cfg.deep = true
  · rw [if_pos hd]
    have h := htr 0 _ C hkn hok hC
    cases hr : tr (some (some (n, 0))) (G.result (some (n, 0)) (x + 1)) C with
    | error e => rw [hr] at h; exact h
    | ok p =>
        obtain ⟨t, C'⟩ := p
        rw [hr] at h
        have h : Stp G rank (fun r => Sub G r (some (n, 0))) _ C t C' := h
        exact hin C' h.cinv h.new t h.ok h.same
  · rw [if_neg hd]
    exact hin C hC (.refl _ _) _ hok (.refl _)

/-- There is enough fuel for the nodes in regions of depth `e`. -/
def Enough (G : Graph) (rank : Out → Nat) (D N d e : Nat) : Prop := D ≤ d + e ∧ ∀ o, G.Valid o → rank o < N

theorem through_spec (hG : G.Wf rank depth) (hM : G.NoMatch) (cfg : Cfg) (N D : Nat) (hD : ∀ n, depth (G.region n) < D) (d : Nat) :
    ∀ (S : Rg → Prop) (n : Nd) (x : Nat) (C : Cache), S (G.region n) → (∀ k r, Sub G r (some (n, k)) → S r) → x < G.nout n →
      G.kind n = .gamma ∨ G.kind n = .theta → CInv G C →
      match through G cfg N d (.out n x) C with
      | .error e => e = .fuel ∧ ¬ Enough G rank D N d (depth (G.region n))
      | .ok (r, C') => CInv G C' ∧ New G S C C' ∧ ∀ t, r = some t → ∃ a, t = G.origin n a ∧ Good G n x a := by
  induction d with
  | zero =>
      intro S n x C _ _ _ _ _
      exact ⟨rfl, fun h => by have := hD n; have := h.1; omega⟩
  | succ d ih =>
      intro S n x C hS hSub hx hk hC
      have htr : SpecTr G rank n (Enough G rank D N (d + 1) (depth (G.region n))) (fun W o => loop G cfg (through G cfg N d) W N o) := by
        intro k o C hkn ho hC
        have hth : SpecTh G (fun r => Sub G r (some (n, k))) (Enough G rank D N d (depth (some (n, k)))) (through G cfg N d) := by
          intro m y C hm hy hkm hC
          have hsub : ∀ k' r, Sub G r (some (m, k')) → Sub G r (some (n, k)) := by
            intro k' r h
            have hm : Sub G (G.region m) (some (n, k)) := hm
            generalize hw : (some (m, k') : Rg) = w at h
            induction h with
            | refl => rw [← hw]; exact .up m k' _ hm
            | up a b w _ ih => exact .up a b _ (ih hw)
          have h := ih (fun r => Sub G r (some (n, k))) m y C hm hsub hy hkm hC
          cases hr : through G cfg N d (.out m y) C with
          | error e =>
              rw [hr] at h
              refine ⟨h.1, fun hb => h.2 ⟨?_, hb.2⟩⟩
              have h1 := hb.1
              have hm : Sub G (G.region m) (some (n, k)) := hm
              have h2 := hm.depth_le hG
              omega
          | ok p => rw [hr] at h; exact h
        have h := loop_spec hG hM cfg (closed_sub (some (n, k))) hth N ho hC
        dsimp only
        cases hr : loop G cfg (through G cfg N d) (some (some (n, k))) N o C with
        | error e =>
            rw [hr] at h
            refine ⟨h.1, fun hb => h.2 ⟨⟨?_, hb.2⟩, hb.2 o ho.valid⟩⟩
            have := hb.1
            rw [hG.depth]
            omega
        | ok p => rw [hr] at h; exact h
      have fin : ∀ e, Ins G S n x (Enough G rank D N (d + 1) (depth (G.region n))) C e →
          match toOrigin G n e with
          | .error e => e = .fuel ∧ ¬ Enough G rank D N (d + 1) (depth (G.region n))
          | .ok (r, C') => CInv G C' ∧ New G S C C' ∧ ∀ t, r = some t → ∃ a, t = G.origin n a ∧ Good G n x a := by
        intro e he
        cases e with
        | error e => exact he
        | ok p =>
            obtain ⟨r, C'⟩ := p
            refine ⟨he.1, he.2.1, fun t ht => ?_⟩
            cases r with
            | none => cases ht
            | some a =>
                injection ht with ht
                exact ⟨a, ht.symm, he.2.2 a rfl⟩
      unfold through
      cases hlk : lookupInCache cfg C (.out n x) with
      | some r =>
          refine ⟨hC, .refl _ _, fun t ht => ?_⟩
          cases r with
          | none => cases ht
          | some a =>
              injection ht with ht
              refine ⟨a, ht.symm, hC n x a ?_⟩
              unfold lookupInCache at hlk
              by_cases hc : cfg.caching = true
              · rw [if_pos hc] at hlk; exact hlk
              · rw [if_neg hc] at hlk; cases hlk
      | none =>
          have hl : cfg.caching = true → C.lookup (.out n x) = none := by
            intro hc
            unfold lookupInCache at hlk
            rw [if_pos hc] at hlk; exact hlk
          rcases hk with hk | hk
          · simp only [hk]
            refine fin _ (gammaBranches_spec hG hM cfg htr hk hx hS hSub C _ none C ?_ ?_ ?_ hC (.refl _ _) hl)
            · intro k h; exact List.mem_range.1 h
            · intro g h; cases h
            · intro _
              refine ⟨fun h => ?_, fun k h => List.mem_range.2 h⟩
              have := (hG.gamma n hk).1
              have := congrArg List.length h
              simp at this
              omega
          · simp only [hk]
            exact fin _ (thetaBody_spec hG hM cfg htr hk hx hS hSub C hC hl)

theorem trace_spec (hG : G.Wf rank depth) (hM : G.NoMatch) (cfg : Cfg) (N D : Nat) (hD : ∀ n, depth (G.region n) < D) (d : Nat)
    {W : Option Rg} {S : Rg → Prop} (hS : Closed G W S) {o : Out} {C : Cache} (ho : Ok G S o) (hC : CInv G C) :
    match trace G cfg N d W o C with
    | .error e => e = .fuel ∧ ¬ Enough G rank D N d 0
    | .ok (t, C') => Stp G rank S o C t C' := by
  have hsub : ∀ n r k, S (G.region n) → Sub G r (some (n, k)) → S r := by
    intro n r k hn h
    generalize hw : (some (n, k) : Rg) = w at h
    induction h with
    | refl => rw [← hw]; exact hS.2 n k hn
    | up a b w _ ih => exact hS.2 a b (ih hw)
  have hth : SpecTh G S (Enough G rank D N d 0) (through G cfg N d) := by
    intro m y C hm hy hkm hC
    have h := through_spec hG hM cfg N D hD d S m y C hm (fun k r h => hsub m r k hm h) hy hkm hC
    cases hr : through G cfg N d (.out m y) C with
    | error e =>
        rw [hr] at h
        exact ⟨h.1, fun hb => h.2 ⟨by have := hb.1; omega, hb.2⟩⟩
    | ok p => rw [hr] at h; exact h
  have h := loop_spec hG hM cfg hS hth N ho hC
  unfold trace
  cases hr : loop G cfg (through G cfg N d) W N o C with
  | error e => rw [hr] at h; exact ⟨h.1, fun hb => h.2 ⟨hb, hb.2 o ho.valid⟩⟩
  | ok p => rw [hr] at h; exact h

end Jlm.Rvsdg.Tracer
