import Verif.Rvsdg.TracerCache

/-!
# C58
-/

set_option linter.unusedSimpArgs false
set_option linter.unusedVariables false

namespace Jlm.Rvsdg.Tracer

variable {G : Graph} {rank : Out → Nat} {depth : Rg → Nat}

/-- `trace_spec` for a result. -/
theorem trace_ok (hG : G.Wf rank depth) (hM : G.NoMatch) (D : Nat) (hD : ∀ n, depth (G.region n) < D) {cfg : Cfg} {N d : Nat}
    {W : Option Rg} {S : Rg → Prop} (hS : Closed G W S) {o t : Out} {C C' : Cache} (ho : Ok G S o) (hC : CInv G C)
    (h : trace G cfg N d W o C = .ok (t, C')) : Stp G rank S o C t C' := by
  have := trace_spec hG hM cfg N D hD d hS ho hC
  rw [h] at this
  exact this

theorem reached_cinv (hG : G.Wf rank depth) (hM : G.NoMatch) (D : Nat) (hD : ∀ n, depth (G.region n) < D) {C : Cache}
    (h : Reached G C) : CInv G C := by
  induction h with
  | empty => intro n x a h; cases h
  | trace cfg N d W o C C' t _ hv hm h ih =>
      exact (trace_ok hG hM D hD (closed_true W) ⟨hv, hm, trivial⟩ ih h).cinv

/-- **C58.** The output that the tracer returns has the value of the output that it was given: in every execution and in every instance
of the region in which the output is computed, whatever has been traced before with whatever configuration.
Partial: no input or result is connected to the content of a match (`NoMatch`); otherwise it is false (`C58_wrong_match`). -/
theorem C58_sound_partial (hG : G.Wf rank depth) (hM : G.NoMatch) (D : Nat) (hD : ∀ n, depth (G.region n) < D) (cfg : Cfg) (N d : Nat)
    (W : Option Rg) (o t : Out) (C C' : Cache) (hC : Reached G C) (hv : G.Valid o) (hm : ¬ G.IsMatch o)
    (h : trace G cfg N d W o C = .ok (t, C')) : SameValue G o t ∧ G.Valid t :=
  have hs := trace_ok hG hM D hD (closed_true W) ⟨hv, hm, trivial⟩ (reached_cinv hG hM D hD hC) h
  ⟨hs.same.sameValue hG, hs.ok.valid⟩

/-- **C58.** Within a region the tracer stays in this region. -/
theorem C58_within (hG : G.Wf rank depth) (hM : G.NoMatch) (D : Nat) (hD : ∀ n, depth (G.region n) < D) (cfg : Cfg) (N d : Nat)
    (w : Rg) (o t : Out) (C C' : Cache) (hC : Reached G C) (hv : G.Valid o) (hm : ¬ G.IsMatch o) (hw : Sub G (G.regionOf o) w)
    (h : trace G cfg N d (some w) o C = .ok (t, C')) : Sub G (G.regionOf t) w :=
  (trace_ok hG hM D hD (closed_sub w) ⟨hv, hm, hw⟩ (reached_cinv hG hM D hD hC) h).ok.inS

/-- **C58.** The result comes before the output in every order of the graph, so that it can replace it without closing a cycle. -/
theorem C58_order (hG : G.Wf rank depth) (hM : G.NoMatch) (D : Nat) (hD : ∀ n, depth (G.region n) < D) (cfg : Cfg) (N d : Nat)
    (W : Option Rg) (o t : Out) (C C' : Cache) (hC : Reached G C) (hv : G.Valid o) (hm : ¬ G.IsMatch o)
    (h : trace G cfg N d W o C = .ok (t, C')) : t = o ∨ rank t < rank o :=
  (trace_ok hG hM D hD (closed_true W) ⟨hv, hm, trivial⟩ (reached_cinv hG hM D hD hC) h).rank

/-- **C58.** The tracer terminates: `N` steps of the loop are enough if the outputs are numbered up to `N`, and a recursion as deep as the
graph. No assertion fails. -/
theorem C58_terminates (hG : G.Wf rank depth) (hM : G.NoMatch) (D : Nat) (hD : ∀ n, depth (G.region n) < D) (cfg : Cfg) (N : Nat)
    (hN : ∀ o, G.Valid o → rank o < N) (W : Option Rg) (o : Out) (C : Cache) (hC : Reached G C) (hv : G.Valid o)
    (hm : ¬ G.IsMatch o) : ∃ t C', trace G cfg N D W o C = .ok (t, C') := by
  have := trace_spec hG hM cfg N D hD D (closed_true W) ⟨hv, hm, trivial⟩ (reached_cinv hG hM D hD hC)
  cases h : trace G cfg N D W o C with
  | error e => rw [h] at this; exact absurd ⟨by omega, hN⟩ this.2
  | ok p => exact ⟨p.1, p.2, rfl⟩

/-- **C58.** No assertion fails, whatever has been traced before; in particular nothing is inserted into the cache twice. -/
theorem C58_no_assertion (hG : G.Wf rank depth) (hM : G.NoMatch) (D : Nat) (hD : ∀ n, depth (G.region n) < D) (cfg : Cfg) (N d : Nat)
    (W : Option Rg) (o : Out) (C : Cache) (hC : Reached G C) (hv : G.Valid o) (hm : ¬ G.IsMatch o) :
    trace G cfg N d W o C ≠ .error .assertion := by
  have := trace_spec hG hM cfg N D hD d (closed_true W) ⟨hv, hm, trivial⟩ (reached_cinv hG hM D hD hC)
  intro h
  rw [h] at this
  exact absurd this.1 (by simp)

/-! ### Phi nodes are not entered -/

theorem Sub.trans {r s w : Rg} (h : Sub G r s) (h' : Sub G s w) : Sub G r w := by
  induction h with
  | refl => exact h'
  | up n k w _ ih => exact .up n k _ (ih h')

theorem step_up (hG : G.Wf rank depth) (hM : G.NoMatch) {cfg : Cfg} (hp : cfg.interprocedural = false ∨ cfg.enterPhi = false) {B : Prop}
    {W : Option Rg} {th : Out → M (Option Out)} (hth : SpecTh G (fun _ => True) B th) {o t : Out} {C C' : Cache}
    (ho : Ok G (fun _ => True) o) (hC : CInv G C) (h : step G cfg th W o C = .ok (t, C')) : Sub G (G.regionOf o) (G.regionOf t) := by
  have hll : ∀ u, G.Valid u → G.regionOf (stepLlvm G cfg u) = G.regionOf u := by
    intro u hu
    cases u with
    | arg r a => rfl
    | out n x =>
        unfold stepLlvm
        dsimp only
        by_cases h1 : cfg.llvm ∧ G.kind n = .simple .barrier
        · rw [if_pos h1]
          exact (hG.origin n 0 (hG.barrier n h1.2)).2
        · rw [if_neg h1]
          by_cases h2 : cfg.llvm ∧ cfg.loadedStates ∧ G.kind n = .simple .load ∧ G.isMem (.out n x)
          · rw [if_pos h2]
            exact (hG.origin n x (by rw [hG.load n h2.2.2.1]; exact hu)).2
          · rw [if_neg h2]
  have hbase := stepBase_spec hG hM cfg (closed_true W) hth ho hC
  unfold step at h
  cases hr : stepBase G cfg th W o C with
  | error e => rw [hr] at h; cases h
  | ok p =>
      obtain ⟨u, C1⟩ := p
      rw [hr] at h hbase
      injection h with h
      injection h with h _
      rw [← h, hll u hbase.ok.valid]
      have hstay : ∀ D, Except.ok (o, D) = (Except.ok (u, C1) : Except Err (Out × Cache)) → Sub G (G.regionOf o) (G.regionOf u) := by
        intro D h
        injection h with h
        injection h with h _
        rw [← h]
        exact .refl _
      cases o with
      | out n x =>
          unfold stepBase at hr
          dsimp only at hr
          have key : G.kind n = .gamma ∨ G.kind n = .theta →
              (match th (.out n x) C with
                | .error e => Except.error e
                | .ok (some t, C') => .ok (t, C')
                | .ok (none, C') => .ok (Out.out n x, C') : Except Err (Out × Cache)) = .ok (u, C1) →
              Sub G (G.regionOf (.out n x)) (G.regionOf u) := by
            intro hk hr
            have hs := hth n x C trivial ho.valid hk hC
            cases hr' : th (.out n x) C with
            | error e => rw [hr'] at hr; cases hr
            | ok p =>
                obtain ⟨r, C2⟩ := p
                rw [hr'] at hr hs
                cases r with
                | none => exact hstay _ hr
                | some v =>
                    injection hr with hr
                    injection hr with hr _
                    obtain ⟨a, ha, hg⟩ := hs.2.2 v rfl
                    rw [← hr, ha, (hG.origin n a hg.1).2]
                    exact .refl _
          cases hk : G.kind n with
          | gamma => simp only [hk] at hr; exact key (Or.inl hk) hr
          | theta => simp only [hk] at hr; exact key (Or.inr hk) hr
          | simple op => simp only [hk] at hr; exact hstay _ hr
          | lambda na => simp only [hk] at hr; exact hstay _ hr
          | delta => simp only [hk] at hr; exact hstay _ hr
          | phi =>
              simp only [hk] at hr
              rw [if_neg (by rcases hp with hp | hp <;> simp [hp])] at hr
              exact hstay _ hr
      | arg r a =>
          unfold stepBase at hr
          dsimp only at hr
          by_cases hW : W = some r
          · rw [if_pos hW] at hr; exact hstay _ hr
          · rw [if_neg hW] at hr
            cases r with
            | none => exact hstay _ hr
            | some nk =>
                obtain ⟨n, k⟩ := nk
                have hko : k < G.nsub n ∧ a < G.narg (some (n, k)) := ho.valid
                have hout : ∀ b D, b < G.nin n → Except.ok (G.origin n b, D) = (Except.ok (u, C1) : Except Err (Out × Cache)) →
                    Sub G (some (n, k)) (G.regionOf u) := by
                  intro b D hb h
                  injection h with h
                  injection h with h _
                  rw [← h, (hG.origin n b hb).2]
                  exact .up n k _ (.refl _)
                dsimp only at hr
                cases hk : G.kind n with
                | simple op => simp only [hk] at hr; exact hstay _ hr
                | gamma =>
                    simp only [hk] at hr
                    exact hout a _ (by rw [← ((hG.gamma n hk).2 k hko.1).1]; exact hko.2) hr
                | theta =>
                    simp only [hk] at hr
                    obtain ⟨h1, h2, h3, h4⟩ := hG.theta n hk
                    have hk0 : k = 0 := by omega
                    subst hk0
                    cases hr' : th (.out n a) C with
                    | error e => rw [hr'] at hr; cases hr
                    | ok p =>
                        obtain ⟨v, C2⟩ := p
                        rw [hr'] at hr
                        dsimp only at hr
                        by_cases hv : v = some (G.origin n a)
                        · rw [if_pos hv] at hr; exact hout a _ (by omega) hr
                        · rw [if_neg hv] at hr; exact hstay _ hr
                | lambda na =>
                    simp only [hk] at hr
                    obtain ⟨h1, h2⟩ := hG.lambda n na hk
                    have hk0 : k = 0 := by omega
                    subst hk0
                    by_cases hc : cfg.interprocedural ∧ na ≤ a
                    · rw [if_pos hc] at hr; exact hout _ _ (by omega) hr
                    · rw [if_neg hc] at hr; exact hstay _ hr
                | delta =>
                    simp only [hk] at hr
                    obtain ⟨h1, h2⟩ := hG.delta n hk
                    have hk0 : k = 0 := by omega
                    subst hk0
                    by_cases hc : cfg.interprocedural
                    · rw [if_pos hc] at hr; exact hout _ _ (by omega) hr
                    · rw [if_neg hc] at hr; exact hstay _ hr
                | phi =>
                    simp only [hk] at hr
                    obtain ⟨h1, h2, h3⟩ := hG.phi n hk
                    have hk0 : k = 0 := by omega
                    subst hk0
                    by_cases hc : cfg.interprocedural ∧ G.nres (some (n, 0)) ≤ a
                    · rw [if_pos hc] at hr; exact hout _ _ (by omega) hr
                    · rw [if_neg hc] at hr; exact hstay _ hr

theorem loop_up (hG : G.Wf rank depth) (hM : G.NoMatch) {cfg : Cfg} (hp : cfg.interprocedural = false ∨ cfg.enterPhi = false) {B : Prop}
    {W : Option Rg} {th : Out → M (Option Out)} (hth : SpecTh G (fun _ => True) B th) (N : Nat) : ∀ {o t : Out} {C C' : Cache},
    Ok G (fun _ => True) o → CInv G C → loop G cfg th W N o C = .ok (t, C') → Sub G (G.regionOf o) (G.regionOf t) := by
  induction N with
  | zero => intro o t C C' _ _ h; cases h
  | succ N ih =>
      intro o t C C' ho hC h
      unfold loop at h
      cases hr : step G cfg th W o C with
      | error e => rw [hr] at h; cases h
      | ok p =>
          obtain ⟨u, C1⟩ := p
          rw [hr] at h
          dsimp only at h
          have hst := step_spec hG hM cfg (closed_true W) hth ho hC
          rw [hr] at hst
          by_cases hu : u = o
          · rw [if_pos hu] at h
            injection h with h
            injection h with h _
            rw [← h]
            exact .refl _
          · rw [if_neg hu] at h
            exact (step_up hG hM hp hth ho hC hr).trans (ih hst.ok hst.cinv h)

/-- **C58.** If phi nodes are not entered the result is in a region around the output, and it has the value in the instance around. -/
theorem C58_around (hG : G.Wf rank depth) (hM : G.NoMatch) (D : Nat) (hD : ∀ n, depth (G.region n) < D) (cfg : Cfg)
    (hp : cfg.interprocedural = false ∨ cfg.enterPhi = false) (N d : Nat)
    (W : Option Rg) (o t : Out) (C C' : Cache) (hC : Reached G C) (hv : G.Valid o) (hm : ¬ G.IsMatch o)
    (h : trace G cfg N d W o C = .ok (t, C')) : SameValueAround G o t ∧ Sub G (G.regionOf o) (G.regionOf t) := by
  have hCi := reached_cinv hG hM D hD hC
  have hth : SpecTh G (fun _ => True) (Enough G rank D N d 0) (through G cfg N d) := by
    intro m y C hm hy hkm hC
    have h := through_spec hG hM cfg N D hD d (fun _ => True) m y C hm (fun k r h => trivial) hy hkm hC
    cases hr : through G cfg N d (.out m y) C with
    | error e =>
        rw [hr] at h
        exact ⟨h.1, fun hb => h.2 ⟨by have := hb.1; omega, hb.2⟩⟩
    | ok p => rw [hr] at h; exact h
  have hsub := loop_up hG hM hp hth N (⟨hv, hm, trivial⟩ : Ok G (fun _ => True) o) hCi h
  refine ⟨?_, hsub⟩
  intro V E hE i v hi hvi
  obtain ⟨_, hall⟩ := (C58_sound_partial hG hM D hD cfg N d W o t C C' hC hv hm h).1 V E hE i v hi hvi
  refine ⟨?_, fun j hj hr => hall j ⟨j, hj, .refl j⟩ hr⟩
  have lift : ∀ r w, Sub G r w → ∀ i, E.rg i = r → ∃ j, Around E i j ∧ E.rg j = w := by
    intro r w hs
    induction hs with
    | refl r => exact fun i hi => ⟨i, .refl i, hi⟩
    | up n k w _ ih =>
        intro i hi
        obtain ⟨j, hj, hjr⟩ := ih (E.up i) (hE.up i n k hi)
        exact ⟨j, .up i n k j hi hj, hjr⟩
  exact lift _ _ hsub i hi

/-! ### The cache -/

/-- **C58.** Caching does not change the answers: after any number of queries the tracer answers what a tracer without cache answers (if
the latter is given enough fuel, which it is for some `d'`). -/
theorem C58_cache (cfg : Cfg) (hc : cfg.caching = true) (N d : Nat) (W : Option Rg) (o t : Out) (C C' : Cache)
    (hC : ReachedBy G cfg N C) (h : trace G cfg N d W o C = .ok (t, C')) :
    (∃ d', trace G cfg.uncached N d' W o [] = .ok (t, [])) ∧
    ∀ d' t' C'', trace G cfg.uncached N d' W o [] = .ok (t', C'') → t' = t := by
  obtain ⟨_, d', hd'⟩ := trace_sim hc (reachedBy_cval hc hC) h
  refine ⟨⟨d', hd'⟩, fun d'' t' C'' h' => ?_⟩
  have := trace_det h' hd'
  injection this

/-! ### Nothing is left to trace -/

theorem loop_final {cfg : Cfg} {W : Option Rg} {th : Out → M (Option Out)} (N : Nat) : ∀ {o t : Out} {C C' : Cache},
    loop G cfg th W N o C = .ok (t, C') → ∃ C1, step G cfg th W t C1 = .ok (t, C') := by
  induction N with
  | zero => intro o t C C' h; cases h
  | succ N ih =>
      intro o t C C' h
      unfold loop at h
      cases hr : step G cfg th W o C with
      | error e => rw [hr] at h; cases h
      | ok p =>
          obtain ⟨u, C1⟩ := p
          rw [hr] at h
          dsimp only at h
          by_cases hu : u = o
          · rw [if_pos hu] at h
            injection h with h
            injection h with h1 h2
            subst h1; subst h2
            rw [hu] at hr
            exact ⟨C, hr⟩
          · rw [if_neg hu] at h
            exact ih h

/-- An exit variable for which every branch passes an entry variable on directly, all with the same origin (gamma.hpp: `GammaExitVarIsInvariant`
is this with one entry variable). -/
def DirectGamma (G : Graph) (n : Nd) (x : Nat) (u : Out) : Prop :=
  G.kind n = .gamma ∧ ∀ k, k < G.nsub n → ∃ a, G.result (some (n, k)) x = .arg (some (n, k)) a ∧ G.origin n a = u

/-- A loop variable that is passed on unchanged. -/
def DirectTheta (G : Graph) (n : Nd) (x : Nat) : Prop :=
  G.kind n = .theta ∧ G.result (some (n, 0)) (x + 1) = .arg (some (n, 0)) x

theorem loop_arg {cfg : Cfg} {th : Out → M (Option Out)} {N : Nat} {r : Rg} {a : Nat} {C : Cache} :
    loop G cfg th (some r) (N + 1) (.arg r a) C = .ok (.arg r a, C) := by
  unfold loop step stepBase
  simp [stepLlvm]

theorem gammaBranches_direct {cfg : Cfg} (hc : cfg.caching = false) {th : Out → M (Option Out)} {N : Nat} {n : Nd} {x : Nat} {u : Out} {C : Cache} :
    ∀ (ks : List Nat) (c : Option Nat), (∀ k ∈ ks, ∃ a, G.result (some (n, k)) x = .arg (some (n, k)) a ∧ G.origin n a = u) →
      (∀ g, c = some g → G.origin n g = u) → (c = none → ks ≠ []) →
      ∃ g, gammaBranches G cfg (fun W o => loop G cfg th W (N + 1) o) n x ks c C = .ok (some g, C) ∧ G.origin n g = u := by
  intro ks
  induction ks with
  | nil =>
      intro c _ hg hn
      cases c with
      | none => exact absurd rfl (hn rfl)
      | some g =>
          refine ⟨g, ?_, hg g rfl⟩
          unfold gammaBranches insertInCache
          rw [if_pos hc]
  | cons k ks ih =>
      intro c hk hg hn
      obtain ⟨a, hr, ha⟩ := hk k (by simp)
      have hstep : gammaBranches G cfg (fun W o => loop G cfg th W (N + 1) o) n x (k :: ks) c C =
          gammaBranches G cfg (fun W o => loop G cfg th W (N + 1) o) n x ks (some a) C := by
        conv => lhs; unfold gammaBranches
        rw [hr]
        dsimp only [Graph.regionOf]
        have : (if cfg.deep = true then loop G cfg th (some (some (n, k))) (N + 1) (.arg (some (n, k)) a) C
            else Except.ok (Out.arg (some (n, k)) a, C)) = .ok (.arg (some (n, k)) a, C) := by
          by_cases hd : cfg.deep = true
          · rw [if_pos hd]; exact loop_arg
          · rw [if_neg hd]
        rw [this]
        dsimp only
        unfold gammaNext
        dsimp only
        rw [if_pos rfl]
        cases c with
        | none => rfl
        | some g =>
            dsimp only
            rw [if_pos (by rw [hg g rfl, ha])]
      rw [hstep]
      exact ih (some a) (fun k h => hk k (List.mem_cons_of_mem _ h)) (fun g h => by injection h with h; rw [← h]; exact ha)
        (fun h => by cases h)

/-- **C58.** `tryTraceThroughGamma` finds the common origin if the exit variable is passed through directly in all branches. -/
theorem C58_gamma_direct (hG : G.Wf rank depth) (cfg : Cfg) (hc : cfg.caching = false) (N d : Nat) (n : Nd) (x : Nat) (u : Out)
    (C : Cache) (h : DirectGamma G n x u) : through G cfg (N + 1) (d + 1) (.out n x) C = .ok (some u, C) := by
  obtain ⟨g, hg, hu⟩ := gammaBranches_direct (G := G) hc (th := through G cfg (N + 1) d) (N := N) (C := C) (List.range (G.nsub n)) none
    (fun k hk => h.2 k (List.mem_range.1 hk)) (fun g hg => by cases hg) (fun _ hnil => by
      have := (hG.gamma n h.1).1
      have := congrArg List.length hnil
      simp at this
      omega)
  rw [through]
  dsimp only
  rw [show lookupInCache cfg C (.out n x) = none by unfold lookupInCache; rw [hc]; rfl]
  simp only [h.1, hg, toOrigin, Option.map, hu]

/-- **C58.** `tryTraceThroughTheta` finds the input if the loop variable is passed on unchanged. -/
theorem C58_theta_direct (cfg : Cfg) (hc : cfg.caching = false) (N d : Nat) (n : Nd) (x : Nat)
    (C : Cache) (h : DirectTheta G n x) : through G cfg (N + 1) (d + 1) (.out n x) C = .ok (some (G.origin n x), C) := by
  rw [through]
  dsimp only
  rw [show lookupInCache cfg C (.out n x) = none by unfold lookupInCache; rw [hc]; rfl]
  have : thetaBody G cfg (fun W o => loop G cfg (through G cfg (N + 1) d) W (N + 1) o) n x C = .ok (some x, C) := by
    unfold thetaBody
    rw [h.2]
    dsimp only
    have : (if cfg.deep = true then loop G cfg (through G cfg (N + 1) d) (some (some (n, 0))) (N + 1) (.arg (some (n, 0)) x) C
        else Except.ok (Out.arg (some (n, 0)) x, C)) = .ok (.arg (some (n, 0)) x, C) := by
      by_cases hd : cfg.deep = true
      · rw [if_pos hd]; exact loop_arg
      · rw [if_neg hd]
    rw [this]
    dsimp only
    rw [if_pos rfl]
    unfold insertInCache
    rw [if_pos hc]
  simp only [h.1, this, toOrigin, Option.map]

/-- **C58.** The result is traced as far as possible: without a region to stay in, it is no entry variable of a gamma node, no output of
a barrier, no context variable of a function, and no invariant exit or loop variable. -/
theorem C58_maximal (hG : G.Wf rank depth) (hM : G.NoMatch) (D : Nat) (hD : ∀ n, depth (G.region n) < D) (cfg : Cfg)
    (hc : cfg.caching = false) (N d : Nat) (o t : Out) (C C' : Cache) (hC : Reached G C) (hv : G.Valid o) (hm : ¬ G.IsMatch o)
    (h : trace G cfg (N + 1) (d + 1) none o C = .ok (t, C')) :
    (∀ n k a, t = .arg (some (n, k)) a → G.kind n ≠ .gamma ∧ (G.kind n = .theta → ¬ DirectTheta G n a) ∧
      (cfg.interprocedural = true → G.kind n ≠ .delta ∧ (∀ na, G.kind n = .lambda na → a < na) ∧
        (G.kind n = .phi → a < G.nres (some (n, k))))) ∧
    ∀ n x, t = .out n x → (∀ u, ¬ DirectGamma G n x u) ∧ ¬ DirectTheta G n x ∧
      (cfg.llvm = true → G.kind n ≠ .simple .barrier ∧
        (cfg.loadedStates = true → G.kind n = .simple .load → G.isMem t = false)) ∧
      (cfg.interprocedural = true → cfg.enterPhi = true → G.kind n ≠ .phi) := by
  have hs := trace_ok hG hM D hD (closed_true none) ⟨hv, hm, trivial⟩ (reached_cinv hG hM D hD hC) h
  obtain ⟨C1, hf⟩ := loop_final _ h
  have hvt := hs.ok.valid
  /- no step leads on -/
  have hne : ∀ u C2, stepBase G cfg (through G cfg (N + 1) (d + 1)) none t C1 = .ok (u, C2) → G.Valid u →
      ¬ rank u < rank t := by
    intro u C2 hu huv hlt
    unfold step at hf
    rw [hu] at hf
    injection hf with hf
    injection hf with hf _
    have := (stepLlvm_spec (G := G) (rank := rank) (depth := depth) hG hM cfg (S := fun _ => True) (t := u) ⟨huv, ?_, trivial⟩).2.2
    · rw [hf] at this
      rcases this with h | h
      · rw [h] at hlt; omega
      · omega
    · intro hmu
      cases u with
      | out n x => exact hmu
      | arg r a =>
          rw [show stepLlvm G cfg (.arg r a) = .arg r a from rfl] at hf
          rw [hf] at hlt
          omega
  constructor
  · rintro n k a rfl
    have hko : k < G.nsub n ∧ a < G.narg (some (n, k)) := hvt
    have hbad : ∀ b, b < G.nin n → stepBase G cfg (through G cfg (N + 1) (d + 1)) none (.arg (some (n, k)) a) C1 =
        .ok (G.origin n b, C1) → False := fun b hb he =>
      hne _ _ he (hG.origin n b hb).1 (hG.rankArg n k a b hko.1 hko.2 hb)
    refine ⟨fun hk => hbad a (by rw [← ((hG.gamma n hk).2 k hko.1).1]; exact hko.2) ?_, fun hk hd => ?_, fun hi => ⟨fun hk => ?_, fun na hk => ?_, fun hk => ?_⟩⟩
    · unfold stepBase; simp [hk]
    · obtain ⟨h1, h2, h3, h4⟩ := hG.theta n hk
      have hk0 : k = 0 := by omega
      subst hk0
      refine hbad a (by omega) ?_
      unfold stepBase
      simp [hk, C58_theta_direct cfg hc N d n a C1 hd]
    · obtain ⟨h1, h2⟩ := hG.delta n hk
      have hk0 : k = 0 := by omega
      subst hk0
      refine hbad a (by omega) ?_
      unfold stepBase; simp [hk, hi]
    · obtain ⟨h1, h2⟩ := hG.lambda n na hk
      have hk0 : k = 0 := by omega
      subst hk0
      refine Nat.lt_of_not_le fun hle => hbad (a - na) (by omega) ?_
      unfold stepBase; simp [hk, hi, hle]
    · obtain ⟨h1, h2, h3⟩ := hG.phi n hk
      have hk0 : k = 0 := by omega
      subst hk0
      refine Nat.lt_of_not_le fun hle => hbad (a - G.nres (some (n, 0))) (by omega) ?_
      unfold stepBase; simp [hk, hi, hle]
  · rintro n x rfl
    have hxn : x < G.nout n := hvt
    have hsame : G.kind n ≠ .gamma → G.kind n ≠ .theta → G.kind n ≠ .phi →
        stepBase G cfg (through G cfg (N + 1) (d + 1)) none (.out n x) C1 = .ok (.out n x, C1) := by
      intro h1 h2 h3
      unfold stepBase
      cases hk : G.kind n <;> simp_all
    refine ⟨fun u hd => ?_, fun hd => ?_, fun hl => ⟨fun hk => ?_, fun hls hk => ?_⟩, fun hi he hk => ?_⟩
    · obtain ⟨k0, hk0⟩ : ∃ k, k < G.nsub n := ⟨0, (hG.gamma n hd.1).1⟩
      obtain ⟨a, ha, hu⟩ := hd.2 k0 hk0
      obtain ⟨hga, hgr⟩ := (hG.gamma n hd.1).2 k0 hk0
      have hva : G.Valid (.arg (some (n, k0)) a) := by rw [← ha]; exact (hG.result n k0 x hk0 (by omega)).1
      have hva' : k0 < G.nsub n ∧ a < G.narg (some (n, k0)) := hva
      have han : a < G.nin n := by rw [← hga]; exact hva'.2
      refine hne u C1 ?_ (by rw [← hu]; exact (hG.origin n a han).1) (by rw [← hu]; exact hG.rankOut n x a hxn han)
      unfold stepBase
      simp [hd.1, C58_gamma_direct hG cfg hc N d n x u C1 hd]
    · obtain ⟨h1, h2, h3, h4⟩ := hG.theta n hd.1
      have hxi : x < G.nin n := by omega
      refine hne (G.origin n x) C1 ?_ (hG.origin n x hxi).1 (hG.rankOut n x x hxn hxi)
      unfold stepBase
      simp [hd.1, C58_theta_direct cfg hc N d n x C1 hd]
    · unfold step at hf
      rw [hsame (by rw [hk]; simp) (by rw [hk]; simp) (by rw [hk]; simp)] at hf
      injection hf with hf
      injection hf with hf _
      unfold stepLlvm at hf
      dsimp only at hf
      rw [if_pos ⟨hl, hk⟩] at hf
      have := hG.rankOut n x 0 hxn (hG.barrier n hk)
      rw [hf] at this
      omega
    · cases hmem : G.isMem (.out n x) with
      | false => rfl
      | true =>
          unfold step at hf
          rw [hsame (by rw [hk]; simp) (by rw [hk]; simp) (by rw [hk]; simp)] at hf
          injection hf with hf
          injection hf with hf _
          unfold stepLlvm at hf
          dsimp only at hf
          rw [if_neg (by rw [hk]; simp), if_pos ⟨hl, hls, hk, hmem⟩] at hf
          have := hG.rankOut n x x hxn (by rw [hG.load n hk]; exact hxn)
          rw [hf] at this
          omega
    · obtain ⟨h1, h2, h3⟩ := hG.phi n hk
      have h0 : 0 < G.nsub n := by omega
      have hxr : x < G.nres (some (n, 0)) := by omega
      refine hne (G.result (some (n, 0)) x) C1 ?_ (hG.result n 0 x h0 hxr).1 (hG.rankResult n 0 x x h0 hxn hxr)
      unfold stepBase
      simp [hk, hi, he]

end Jlm.Rvsdg.Tracer
