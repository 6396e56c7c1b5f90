import Verif.Rvsdg.TracerProps

/-!
# Fuel and cache of the output tracer
-/

set_option linter.unusedSimpArgs false
set_option linter.unusedVariables false

namespace Jlm.Rvsdg.Tracer

variable {G : Graph} {rank : Out → Nat} {depth : Rg → Nat}

/-! ### More fuel does not change the answer -/

def ThLe (th th' : Out → M (Option Out)) : Prop := ∀ o C x, th o C = .ok x → th' o C = .ok x

theorem stepBase_mono {cfg : Cfg} {th th' : Out → M (Option Out)} (h : ThLe th th') {W : Option Rg} {o : Out} {C : Cache}
    {x : Out × Cache} (hx : stepBase G cfg th W o C = .ok x) : stepBase G cfg th' W o C = .ok x := by
  cases o with
  | out n y =>
      unfold stepBase at hx ⊢
      dsimp only at hx ⊢
      cases hk : G.kind n with
      | gamma | theta =>
          simp only [hk] at hx ⊢
          cases hr : th (.out n y) C with
          | error e => rw [hr] at hx; cases hx
          | ok p => rw [hr] at hx; rw [h _ _ _ hr]; exact hx
      | simple op => simpa only [hk] using hx
      | lambda na => simpa only [hk] using hx
      | delta => simpa only [hk] using hx
      | phi => simpa only [hk] using hx
  | arg r a =>
      unfold stepBase at hx ⊢
      dsimp only at hx ⊢
      by_cases hW : W = some r
      · rw [if_pos hW] at hx ⊢; exact hx
      · rw [if_neg hW] at hx ⊢
        cases r with
        | none => exact hx
        | some nk =>
            obtain ⟨n, k⟩ := nk
            dsimp only at hx ⊢
            cases hk : G.kind n with
            | theta =>
                simp only [hk] at hx ⊢
                cases hr : th (.out n a) C with
                | error e => rw [hr] at hx; cases hx
                | ok p => rw [hr] at hx; rw [h _ _ _ hr]; exact hx
            | gamma => simpa only [hk] using hx
            | simple op => simpa only [hk] using hx
            | lambda na => simpa only [hk] using hx
            | delta => simpa only [hk] using hx
            | phi => simpa only [hk] using hx

theorem step_mono {cfg : Cfg} {th th' : Out → M (Option Out)} (h : ThLe th th') {W : Option Rg} {o : Out} {C : Cache}
    {x : Out × Cache} (hx : step G cfg th W o C = .ok x) : step G cfg th' W o C = .ok x := by
  unfold step at hx ⊢
  cases hr : stepBase G cfg th W o C with
  | error e => rw [hr] at hx; cases hx
  | ok p => rw [hr] at hx; rw [stepBase_mono h hr]; exact hx

theorem loop_mono {cfg : Cfg} {th th' : Out → M (Option Out)} (h : ThLe th th') {W : Option Rg} (N : Nat) :
    ∀ {o : Out} {C : Cache} {x : Out × Cache}, loop G cfg th W N o C = .ok x → loop G cfg th' W N o C = .ok x := by
  induction N with
  | zero => intro o C x hx; cases hx
  | succ N ih =>
      intro o C x hx
      unfold loop at hx ⊢
      cases hr : step G cfg th W o C with
      | error e => rw [hr] at hx; cases hx
      | ok p =>
          obtain ⟨t, C'⟩ := p
          rw [hr] at hx
          rw [step_mono h hr]
          dsimp only at hx ⊢
          by_cases ht : t = o
          · rw [if_pos ht] at hx ⊢; exact hx
          · rw [if_neg ht] at hx ⊢; exact ih hx

def TrLe (tr tr' : Option Rg → Out → M Out) : Prop := ∀ W o C x, tr W o C = .ok x → tr' W o C = .ok x

theorem gammaNext_mono {cfg : Cfg} {n : Nd} {x : Nat} {next next' : Nat → M (Option Nat)}
    (h : ∀ a C y, next a C = .ok y → next' a C = .ok y) {c : Option Nat} {t : Out} {C : Cache} {y : Option Nat × Cache}
    (hy : gammaNext G cfg n x next c t C = .ok y) : gammaNext G cfg n x next' c t C = .ok y := by
  cases t with
  | out m z => exact hy
  | arg r a =>
      cases r with
      | none => exact hy
      | some mk =>
          obtain ⟨m, k⟩ := mk
          unfold gammaNext at hy ⊢
          dsimp only at hy ⊢
          by_cases hm : m = n
          · rw [if_pos hm] at hy ⊢
            cases c with
            | none => exact h _ _ _ hy
            | some g =>
                dsimp only at hy ⊢
                by_cases hg : G.origin n g = G.origin n a
                · rw [if_pos hg] at hy ⊢; exact h _ _ _ hy
                · rw [if_neg hg] at hy ⊢; exact hy
          · rw [if_neg hm] at hy ⊢; exact hy

theorem gammaBranches_mono {cfg : Cfg} {tr tr' : Option Rg → Out → M Out} (h : TrLe tr tr') {n : Nd} {x : Nat} :
    ∀ (ks : List Nat) (c : Option Nat) (C : Cache) (y : Option Nat × Cache), gammaBranches G cfg tr n x ks c C = .ok y →
      gammaBranches G cfg tr' n x ks c C = .ok y := by
  intro ks
  induction ks with
  | nil =>
      intro c C y hy
      cases c with
      | none => cases hy
      | some g => exact hy
  | cons k ks ih =>
      intro c C y hy
      unfold gammaBranches at hy ⊢
      dsimp only at hy ⊢
      by_cases hd : cfg.deep = true
      · rw [if_pos hd] at hy ⊢
        cases hr : tr (some (G.regionOf (G.result (some (n, k)) x))) (G.result (some (n, k)) x) C with
        | error e => rw [hr] at hy; cases hy
        | ok p =>
            rw [hr] at hy
            rw [h _ _ _ _ hr]
            exact gammaNext_mono (fun a C y => ih (some a) C y) hy
      · rw [if_neg hd] at hy ⊢
        exact gammaNext_mono (fun a C y => ih (some a) C y) hy

theorem thetaBody_mono {cfg : Cfg} {tr tr' : Option Rg → Out → M Out} (h : TrLe tr tr') {n : Nd} {x : Nat} {C : Cache}
    {y : Option Nat × Cache} (hy : thetaBody G cfg tr n x C = .ok y) : thetaBody G cfg tr' n x C = .ok y := by
  unfold thetaBody at hy ⊢
  dsimp only at hy ⊢
  by_cases hd : cfg.deep = true
  · rw [if_pos hd] at hy ⊢
    cases hr : tr (some (some (n, 0))) (G.result (some (n, 0)) (x + 1)) C with
    | error e => rw [hr] at hy; cases hy
    | ok p => rw [hr] at hy; rw [h _ _ _ _ hr]; exact hy
  · rw [if_neg hd] at hy ⊢; exact hy

theorem toOrigin_ok {n : Nd} {e : Except Err (Option Nat × Cache)} {r : Option Out} {C : Cache} (h : toOrigin G n e = .ok (r, C)) :
    ∃ r', e = .ok (r', C) ∧ r = r'.map (G.origin n) := by
  cases e with
  | error e => cases h
  | ok p =>
      obtain ⟨r', C'⟩ := p
      simp only [toOrigin] at h
      injection h with h
      injection h with h1 h2
      subst h2
      exact ⟨r', rfl, h1.symm⟩

theorem through_mono {cfg : Cfg} {N : Nat} (d : Nat) : ThLe (through G cfg N d) (through G cfg N (d + 1)) := by
  induction d with
  | zero => intro o C x hx; cases hx
  | succ d ih =>
      intro o C x hx
      cases o with
      | arg r a => cases hx
      | out n y =>
          have htr : TrLe (fun W o => loop G cfg (through G cfg N d) W N o) (fun W o => loop G cfg (through G cfg N (d + 1)) W N o) :=
            fun W o C x hx => loop_mono ih N hx
          rw [through] at hx
          rw [through]
          dsimp only at hx ⊢
          cases hlk : lookupInCache cfg C (.out n y) with
          | some r => rw [hlk] at hx; exact hx
          | none =>
              rw [hlk] at hx
              dsimp only at hx ⊢
              cases hk : G.kind n with
              | gamma =>
                  simp only [hk] at hx ⊢
                  obtain ⟨r, C'⟩ := x
                  obtain ⟨r', he, hr⟩ := toOrigin_ok hx
                  rw [gammaBranches_mono htr _ _ _ _ he, hr]
                  rfl
              | theta =>
                  simp only [hk] at hx ⊢
                  obtain ⟨r, C'⟩ := x
                  obtain ⟨r', he, hr⟩ := toOrigin_ok hx
                  rw [thetaBody_mono htr he, hr]
                  rfl
              | simple op => simp only [hk] at hx; cases hx
              | lambda na => simp only [hk] at hx; cases hx
              | delta => simp only [hk] at hx; cases hx
              | phi => simp only [hk] at hx; cases hx

theorem through_le {cfg : Cfg} {N : Nat} {d d' : Nat} (h : d ≤ d') : ThLe (through G cfg N d) (through G cfg N d') := by
  induction h with
  | refl => exact fun _ _ _ h => h
  | step _ ih => exact fun o C x hx => through_mono _ _ _ _ (ih o C x hx)

theorem trace_le {cfg : Cfg} {N : Nat} {d d' : Nat} (h : d ≤ d') {W : Option Rg} {o : Out} {C : Cache} {x : Out × Cache}
    (hx : trace G cfg N d W o C = .ok x) : trace G cfg N d' W o C = .ok x :=
  loop_mono (through_le h) N hx

theorem trace_det {cfg : Cfg} {N : Nat} {d d' : Nat} {W : Option Rg} {o : Out} {C : Cache} {x x' : Out × Cache}
    (hx : trace G cfg N d W o C = .ok x) (hx' : trace G cfg N d' W o C = .ok x') : x = x' := by
  have h1 := trace_le (Nat.le_max_left d d') hx
  have h2 := trace_le (Nat.le_max_right d d') hx'
  rw [h1] at h2
  injection h2

/-! ### With and without cache -/

/-- The same configuration without a cache. -/
def Cfg.uncached (cfg : Cfg) : Cfg := { cfg with caching := false }

/-- The entries of the cache are what a tracer without cache finds. -/
def CVal (G : Graph) (cfg : Cfg) (N : Nat) (C : Cache) : Prop :=
  ∀ n x r, C.lookup (.out n x) = some r → ∃ d, through G cfg.uncached N d (.out n x) [] = .ok (r.map (G.origin n), [])

def SimTh (G : Graph) (cfg : Cfg) (N : Nat) (th : Out → M (Option Out)) : Prop :=
  ∀ o C r C', CVal G cfg N C → th o C = .ok (r, C') →
    CVal G cfg N C' ∧ ∃ d, through G cfg.uncached N d o [] = .ok (r, [])

theorem stepBase_sim {cfg : Cfg} {N : Nat} {th : Out → M (Option Out)} (h : SimTh G cfg N th) {W : Option Rg} {o t : Out} {C C' : Cache}
    (hC : CVal G cfg N C) (hx : stepBase G cfg th W o C = .ok (t, C')) :
    CVal G cfg N C' ∧ ∃ d, stepBase G cfg.uncached (through G cfg.uncached N d) W o [] = .ok (t, []) := by
  have triv : ∀ (e : Except Err (Out × Cache)) u, e = .ok (u, C) → e = .ok (t, C') → u = t ∧ C = C' := by
    intro e u h1 h2
    rw [h1] at h2
    injection h2 with h2
    injection h2 with h2 h3
    exact ⟨h2, h3⟩
  cases o with
  | out n y =>
      unfold stepBase at hx ⊢
      dsimp only at hx ⊢
      cases hk : G.kind n with
      | gamma | theta =>
          simp only [hk] at hx ⊢
          cases hr : th (.out n y) C with
          | error e => rw [hr] at hx; cases hx
          | ok p =>
              obtain ⟨r, C1⟩ := p
              rw [hr] at hx
              obtain ⟨hC1, d, hd⟩ := h _ _ _ _ hC hr
              refine ⟨?_, d, ?_⟩
              · cases r <;> (injection hx with hx; injection hx with _ hx; rw [← hx]; exact hC1)
              · rw [hd]
                cases r <;> (injection hx with hx; injection hx with hx _; rw [← hx])
      | simple op => simp only [hk] at hx ⊢; obtain ⟨rfl, rfl⟩ := triv _ _ rfl hx; exact ⟨hC, 0, rfl⟩
      | lambda na => simp only [hk] at hx ⊢; obtain ⟨rfl, rfl⟩ := triv _ _ rfl hx; exact ⟨hC, 0, rfl⟩
      | delta => simp only [hk] at hx ⊢; obtain ⟨rfl, rfl⟩ := triv _ _ rfl hx; exact ⟨hC, 0, rfl⟩
      | phi =>
          simp only [hk] at hx ⊢
          by_cases hc : cfg.interprocedural ∧ cfg.enterPhi
          · rw [if_pos hc] at hx; obtain ⟨rfl, rfl⟩ := triv _ _ rfl hx; exact ⟨hC, 0, if_pos hc⟩
          · rw [if_neg hc] at hx; obtain ⟨rfl, rfl⟩ := triv _ _ rfl hx; exact ⟨hC, 0, if_neg hc⟩
  | arg r a =>
      unfold stepBase at hx ⊢
      dsimp only at hx ⊢
      by_cases hW : W = some r
      · simp only [if_pos hW] at hx ⊢; obtain ⟨rfl, rfl⟩ := triv _ _ rfl hx; exact ⟨hC, 0, rfl⟩
      · simp only [if_neg hW] at hx ⊢
        cases r with
        | none => obtain ⟨rfl, rfl⟩ := triv _ _ rfl hx; exact ⟨hC, 0, rfl⟩
        | some nk =>
            obtain ⟨n, k⟩ := nk
            dsimp only at hx ⊢
            cases hk : G.kind n with
            | theta =>
                simp only [hk] at hx ⊢
                cases hr : th (.out n a) C with
                | error e => rw [hr] at hx; cases hx
                | ok p =>
                    obtain ⟨r, C1⟩ := p
                    rw [hr] at hx
                    dsimp only at hx
                    obtain ⟨hC1, d, hd⟩ := h _ _ _ _ hC hr
                    refine ⟨?_, d, ?_⟩
                    · by_cases hc : r = some (G.origin n a)
                      · rw [if_pos hc] at hx; injection hx with hx; injection hx with _ hx; rw [← hx]; exact hC1
                      · rw [if_neg hc] at hx; injection hx with hx; injection hx with _ hx; rw [← hx]; exact hC1
                    · rw [hd]
                      dsimp only
                      by_cases hc : r = some (G.origin n a)
                      · rw [if_pos hc] at hx ⊢; injection hx with hx; injection hx with hx _; rw [← hx]
                      · rw [if_neg hc] at hx ⊢; injection hx with hx; injection hx with hx _; rw [← hx]
            | gamma => simp only [hk] at hx ⊢; obtain ⟨rfl, rfl⟩ := triv _ _ rfl hx; exact ⟨hC, 0, rfl⟩
            | simple op => simp only [hk] at hx ⊢; obtain ⟨rfl, rfl⟩ := triv _ _ rfl hx; exact ⟨hC, 0, rfl⟩
            | lambda na =>
                simp only [hk] at hx ⊢
                by_cases hc : cfg.interprocedural ∧ na ≤ a
                · rw [if_pos hc] at hx; obtain ⟨rfl, rfl⟩ := triv _ _ rfl hx; exact ⟨hC, 0, if_pos hc⟩
                · rw [if_neg hc] at hx; obtain ⟨rfl, rfl⟩ := triv _ _ rfl hx; exact ⟨hC, 0, if_neg hc⟩
            | delta =>
                simp only [hk] at hx ⊢
                by_cases hc : cfg.interprocedural
                · rw [if_pos hc] at hx; obtain ⟨rfl, rfl⟩ := triv _ _ rfl hx; exact ⟨hC, 0, if_pos hc⟩
                · rw [if_neg hc] at hx; obtain ⟨rfl, rfl⟩ := triv _ _ rfl hx; exact ⟨hC, 0, if_neg hc⟩
            | phi =>
                simp only [hk] at hx ⊢
                by_cases hc : cfg.interprocedural ∧ G.nres (some (n, k)) ≤ a
                · rw [if_pos hc] at hx; obtain ⟨rfl, rfl⟩ := triv _ _ rfl hx; exact ⟨hC, 0, if_pos hc⟩
                · rw [if_neg hc] at hx; obtain ⟨rfl, rfl⟩ := triv _ _ rfl hx; exact ⟨hC, 0, if_neg hc⟩

theorem step_sim {cfg : Cfg} {N : Nat} {th : Out → M (Option Out)} (h : SimTh G cfg N th) {W : Option Rg} {o t : Out} {C C' : Cache}
    (hC : CVal G cfg N C) (hx : step G cfg th W o C = .ok (t, C')) :
    CVal G cfg N C' ∧ ∃ d, step G cfg.uncached (through G cfg.uncached N d) W o [] = .ok (t, []) := by
  unfold step at hx ⊢
  cases hr : stepBase G cfg th W o C with
  | error e => rw [hr] at hx; cases hx
  | ok p =>
      obtain ⟨u, C1⟩ := p
      rw [hr] at hx
      injection hx with hx
      injection hx with h1 h2
      obtain ⟨hC1, d, hd⟩ := stepBase_sim h hC hr
      refine ⟨by rw [← h2]; exact hC1, d, ?_⟩
      rw [hd, ← h1]
      rfl

theorem loop_sim {cfg : Cfg} {N : Nat} {th : Out → M (Option Out)} (h : SimTh G cfg N th) {W : Option Rg} (K : Nat) :
    ∀ {o t : Out} {C C' : Cache}, CVal G cfg N C → loop G cfg th W K o C = .ok (t, C') →
      CVal G cfg N C' ∧ ∃ d, loop G cfg.uncached (through G cfg.uncached N d) W K o [] = .ok (t, []) := by
  induction K with
  | zero => intro o t C C' _ hx; cases hx
  | succ K ih =>
      intro o t C C' hC hx
      unfold loop at hx
      cases hr : step G cfg th W o C with
      | error e => rw [hr] at hx; cases hx
      | ok p =>
          obtain ⟨u, C1⟩ := p
          rw [hr] at hx
          dsimp only at hx
          obtain ⟨hC1, d, hd⟩ := step_sim h hC hr
          by_cases hu : u = o
          · rw [if_pos hu] at hx
            injection hx with hx
            injection hx with h1 h2
            subst h2
            refine ⟨hC1, d, ?_⟩
            unfold loop
            rw [hd]
            dsimp only
            rw [if_pos hu, h1]
          · rw [if_neg hu] at hx
            obtain ⟨hC', d', hd'⟩ := ih hC1 hx
            refine ⟨hC', max d d', ?_⟩
            unfold loop
            rw [step_mono (through_le (Nat.le_max_left d d')) hd]
            dsimp only
            rw [if_neg hu]
            exact loop_mono (through_le (Nat.le_max_right d d')) K hd'

/-- What is done with the result in the end. -/
theorem insert_sim {cfg : Cfg} (hc : cfg.caching = true) {o : Out} {r r' : Option Nat} {C C' : Cache}
    (h : insertInCache cfg o r C = .ok (r', C')) : r' = r ∧ C' = (o, r) :: C ∧ insertInCache cfg.uncached o r [] = .ok (r', []) := by
  unfold insertInCache at h
  rw [if_neg (by rw [hc]; simp)] at h
  by_cases hl : (C.lookup o).isSome = true
  · rw [if_pos hl] at h; cases h
  · rw [if_neg hl] at h
    injection h with h
    injection h with h1 h2
    subst h1
    exact ⟨rfl, h2.symm, rfl⟩

def SimTr (G : Graph) (cfg : Cfg) (N : Nat) (tr : Option Rg → Out → M Out) : Prop :=
  ∀ W o C t C', CVal G cfg N C → tr W o C = .ok (t, C') →
    CVal G cfg N C' ∧ ∃ d, loop G cfg.uncached (through G cfg.uncached N d) W N o [] = .ok (t, [])

theorem gammaNext_sim {cfg : Cfg} {N : Nat} (hc : cfg.caching = true) {n : Nd} {x : Nat} {next : Nat → M (Option Nat)}
    {next' : Nat → Nat → M (Option Nat)} {t : Out} {c : Option Nat} {C C' : Cache} {r : Option Nat} (hC : CVal G cfg N C)
    (hn : ∀ a r C', next a C = .ok (r, C') → ∃ C'', CVal G cfg N C'' ∧ C' = (.out n x, r) :: C'' ∧ ∃ d, next' d a [] = .ok (r, []))
    (h : gammaNext G cfg n x next c t C = .ok (r, C')) :
    ∃ C'', CVal G cfg N C'' ∧ C' = (.out n x, r) :: C'' ∧ ∃ d, gammaNext G cfg.uncached n x (next' d) c t [] = .ok (r, []) := by
  have hno : ∀ r C', insertInCache cfg (.out n x) none C = .ok (r, C') → ∃ C'', CVal G cfg N C'' ∧ C' = (.out n x, r) :: C'' ∧
      insertInCache cfg.uncached (.out n x) none [] = .ok (r, []) := by
    intro r C' h
    obtain ⟨h1, h2, h3⟩ := insert_sim hc h
    exact ⟨C, hC, by rw [h1, h2], h3⟩
  cases t with
  | out m z =>
      obtain ⟨C'', h1, h2, h3⟩ := hno _ _ h
      exact ⟨C'', h1, h2, 0, h3⟩
  | arg rg a =>
      cases rg with
      | none =>
          obtain ⟨C'', h1, h2, h3⟩ := hno _ _ h
          exact ⟨C'', h1, h2, 0, h3⟩
      | some mk =>
          obtain ⟨m, k⟩ := mk
          unfold gammaNext at h ⊢
          dsimp only at h ⊢
          by_cases hm : m = n
          · simp only [if_pos hm] at h ⊢
            cases c with
            | none => exact hn a r C' h
            | some g =>
                dsimp only at h ⊢
                by_cases hg : G.origin n g = G.origin n a
                · simp only [if_pos hg] at h ⊢; exact hn a r C' h
                · simp only [if_neg hg] at h ⊢
                  obtain ⟨C'', h1, h2, h3⟩ := hno _ _ h
                  exact ⟨C'', h1, h2, 0, h3⟩
          · simp only [if_neg hm] at h ⊢
            obtain ⟨C'', h1, h2, h3⟩ := hno _ _ h
            exact ⟨C'', h1, h2, 0, h3⟩

theorem gammaBranches_sim {cfg : Cfg} {N : Nat} (hc : cfg.caching = true) {tr : Option Rg → Out → M Out} (htr : SimTr G cfg N tr)
    {n : Nd} {x : Nat} : ∀ (ks : List Nat) (c : Option Nat) (C C' : Cache) (r : Option Nat), CVal G cfg N C →
      gammaBranches G cfg tr n x ks c C = .ok (r, C') →
      ∃ C'', CVal G cfg N C'' ∧ C' = (.out n x, r) :: C'' ∧
        ∃ d, gammaBranches G cfg.uncached (fun W o => loop G cfg.uncached (through G cfg.uncached N d) W N o) n x ks c [] = .ok (r, []) := by
  have hle : ∀ d d', d ≤ d' → TrLe (fun W o => loop G cfg.uncached (through G cfg.uncached N d) W N o)
      (fun W o => loop G cfg.uncached (through G cfg.uncached N d') W N o) :=
    fun d d' h W o C x hx => loop_mono (through_le h) N hx
  intro ks
  induction ks with
  | nil =>
      intro c C C' r hC h
      cases c with
      | none => cases h
      | some g =>
          unfold gammaBranches at h
          obtain ⟨h1, h2, h3⟩ := insert_sim hc h
          exact ⟨C, hC, by rw [h1, h2], 0, h3⟩
  | cons k ks ih =>
      intro c C C' r hC h
      unfold gammaBranches at h
      dsimp only at h
      by_cases hd : cfg.deep = true
      · rw [if_pos hd] at h
        cases hr : tr (some (G.regionOf (G.result (some (n, k)) x))) (G.result (some (n, k)) x) C with
        | error e => rw [hr] at h; cases h
        | ok p =>
            obtain ⟨t, C1⟩ := p
            rw [hr] at h
            dsimp only at h
            obtain ⟨hC1, d1, hd1⟩ := htr _ _ _ _ _ hC hr
            obtain ⟨C'', h1, h2, d2, hd2⟩ := gammaNext_sim hc
              (next' := fun d a => gammaBranches G cfg.uncached (fun W o => loop G cfg.uncached (through G cfg.uncached N d) W N o) n x ks (some a))
              hC1 (fun a r C' h => ih (some a) C1 C' r hC1 h) h
            refine ⟨C'', h1, h2, max d1 d2, ?_⟩
            unfold gammaBranches
            dsimp only
            rw [if_pos (show cfg.uncached.deep = true from hd), loop_mono (through_le (Nat.le_max_left d1 d2)) N hd1]
            exact gammaNext_mono (fun a C y => gammaBranches_mono (hle _ _ (Nat.le_max_right d1 d2)) ks (some a) C y) hd2
      · rw [if_neg hd] at h
        dsimp only at h
        obtain ⟨C'', h1, h2, d2, hd2⟩ := gammaNext_sim hc
          (next' := fun d a => gammaBranches G cfg.uncached (fun W o => loop G cfg.uncached (through G cfg.uncached N d) W N o) n x ks (some a))
          hC (fun a r C' h => ih (some a) C C' r hC h) h
        refine ⟨C'', h1, h2, d2, ?_⟩
        unfold gammaBranches
        dsimp only
        rw [if_neg (show ¬ cfg.uncached.deep = true from hd)]
        exact hd2

theorem thetaBody_sim {cfg : Cfg} {N : Nat} (hc : cfg.caching = true) {tr : Option Rg → Out → M Out} (htr : SimTr G cfg N tr)
    {n : Nd} {x : Nat} {C C' : Cache} {r : Option Nat} (hC : CVal G cfg N C) (h : thetaBody G cfg tr n x C = .ok (r, C')) :
      ∃ C'', CVal G cfg N C'' ∧ C' = (.out n x, r) :: C'' ∧
        ∃ d, thetaBody G cfg.uncached (fun W o => loop G cfg.uncached (through G cfg.uncached N d) W N o) n x [] = .ok (r, []) := by
  have fin : ∀ (t : Out) (C1 : Cache), CVal G cfg N C1 →
      (if t = .arg (some (n, 0)) x then insertInCache cfg (.out n x) (some x) C1
      else
        match t with
        | .arg (some (m, k)) y =>
            if m = n ∧ G.result (some (n, 0)) (y + 1) = .arg (some (m, k)) y then insertInCache cfg (.out n x) (some y) C1
            else insertInCache cfg (.out n x) none C1
        | _ => insertInCache cfg (.out n x) none C1) = .ok (r, C') →
      ∃ C'', CVal G cfg N C'' ∧ C' = (.out n x, r) :: C'' ∧
      (if t = .arg (some (n, 0)) x then insertInCache cfg.uncached (.out n x) (some x) []
      else
        match t with
        | .arg (some (m, k)) y =>
            if m = n ∧ G.result (some (n, 0)) (y + 1) = .arg (some (m, k)) y then insertInCache cfg.uncached (.out n x) (some y) []
            else insertInCache cfg.uncached (.out n x) none []
        | _ => insertInCache cfg.uncached (.out n x) none []) = .ok (r, []) := by
    intro t C1 hC1 h
    have hins : ∀ r0, insertInCache cfg (.out n x) r0 C1 = .ok (r, C') → ∃ C'', CVal G cfg N C'' ∧ C' = (.out n x, r) :: C'' ∧
        insertInCache cfg.uncached (.out n x) r0 [] = .ok (r, []) := by
      intro r0 h
      obtain ⟨h1, h2, h3⟩ := insert_sim hc h
      exact ⟨C1, hC1, by rw [h1, h2], h3⟩
    by_cases ht : t = .arg (some (n, 0)) x
    · rw [if_pos ht] at h ⊢; exact hins _ h
    · rw [if_neg ht] at h ⊢
      cases t with
      | out m y => exact hins _ h
      | arg rg y =>
          cases rg with
          | none => exact hins _ h
          | some mk =>
              obtain ⟨m, k⟩ := mk
              dsimp only at h ⊢
              by_cases hm : m = n ∧ G.result (some (n, 0)) (y + 1) = .arg (some (m, k)) y
              · rw [if_pos hm] at h ⊢; exact hins _ h
              · rw [if_neg hm] at h ⊢; exact hins _ h
  unfold thetaBody at h
  dsimp only at h
  by_cases hd : cfg.deep = true
  · rw [if_pos hd] at h
    cases hr : tr (some (some (n, 0))) (G.result (some (n, 0)) (x + 1)) C with
    | error e => rw [hr] at h; cases h
    | ok p =>
        obtain ⟨t, C1⟩ := p
        rw [hr] at h
        obtain ⟨hC1, d1, hd1⟩ := htr _ _ _ _ _ hC hr
        obtain ⟨C'', h1, h2, h3⟩ := fin t C1 hC1 h
        refine ⟨C'', h1, h2, d1, ?_⟩
        unfold thetaBody
        dsimp only
        rw [if_pos (show cfg.uncached.deep = true from hd), hd1]
        exact h3
  · rw [if_neg hd] at h
    obtain ⟨C'', h1, h2, h3⟩ := fin _ C hC h
    refine ⟨C'', h1, h2, 0, ?_⟩
    unfold thetaBody
    dsimp only
    rw [if_neg (show ¬ cfg.uncached.deep = true from hd)]
    exact h3

theorem cval_cons {cfg : Cfg} {N : Nat} {C : Cache} {n : Nd} {x d : Nat} {r : Option Nat} (hC : CVal G cfg N C)
    (h : through G cfg.uncached N d (.out n x) [] = .ok (r.map (G.origin n), [])) : CVal G cfg N ((.out n x, r) :: C) := by
  intro m y s hs
  rw [lookup_cons_self] at hs
  by_cases he : Out.out m y = .out n x
  · rw [if_pos he] at hs
    injection hs with hs
    injection he with h1 h2
    subst h1; subst h2; subst hs
    exact ⟨d, h⟩
  · rw [if_neg he] at hs
    exact hC m y s hs

theorem through_sim {cfg : Cfg} {N : Nat} (hc : cfg.caching = true) (d : Nat) : SimTh G cfg N (through G cfg N d) := by
  induction d with
  | zero => intro o C r C' _ h; cases h
  | succ d ih =>
      intro o C r C' hC h
      cases o with
      | arg rg a => cases h
      | out n x =>
          have htr : SimTr G cfg N (fun W o => loop G cfg (through G cfg N d) W N o) :=
            fun W o C t C' hC h => loop_sim ih N hC h
          rw [through] at h
          dsimp only at h
          cases hlk : lookupInCache cfg C (.out n x) with
          | some r' =>
              rw [hlk] at h
              injection h with h
              injection h with h1 h2
              subst h1; subst h2
              unfold lookupInCache at hlk
              rw [if_pos hc] at hlk
              exact ⟨hC, hC n x r' hlk⟩
          | none =>
              rw [hlk] at h
              dsimp only at h
              cases hk : G.kind n with
              | gamma =>
                  simp only [hk] at h
                  obtain ⟨r', he, hr⟩ := toOrigin_ok h
                  obtain ⟨C'', h1, h2, d', hd'⟩ := gammaBranches_sim hc htr _ _ _ _ _ hC he
                  have : through G cfg.uncached N (d' + 1) (.out n x) [] = .ok (r'.map (G.origin n), []) := by
                    rw [through]
                    dsimp only
                    rw [show lookupInCache cfg.uncached [] (.out n x) = none from rfl]
                    simp only [hk, hd', toOrigin]
                  refine ⟨?_, d' + 1, by rw [hr]; exact this⟩
                  rw [h2]
                  exact cval_cons h1 this
              | theta =>
                  simp only [hk] at h
                  obtain ⟨r', he, hr⟩ := toOrigin_ok h
                  obtain ⟨C'', h1, h2, d', hd'⟩ := thetaBody_sim hc htr hC he
                  have : through G cfg.uncached N (d' + 1) (.out n x) [] = .ok (r'.map (G.origin n), []) := by
                    rw [through]
                    dsimp only
                    rw [show lookupInCache cfg.uncached [] (.out n x) = none from rfl]
                    simp only [hk, hd', toOrigin]
                  refine ⟨?_, d' + 1, by rw [hr]; exact this⟩
                  rw [h2]
                  exact cval_cons h1 this
              | simple op => simp only [hk] at h; cases h
              | lambda na => simp only [hk] at h; cases h
              | delta => simp only [hk] at h; cases h
              | phi => simp only [hk] at h; cases h

theorem trace_sim {cfg : Cfg} {N : Nat} (hc : cfg.caching = true) {d : Nat} {W : Option Rg} {o t : Out} {C C' : Cache}
    (hC : CVal G cfg N C) (h : trace G cfg N d W o C = .ok (t, C')) :
    CVal G cfg N C' ∧ ∃ d', trace G cfg.uncached N d' W o [] = .ok (t, []) :=
  loop_sim (through_sim hc d) N hC h

theorem reachedBy_cval {cfg : Cfg} {N : Nat} (hc : cfg.caching = true) {C : Cache} (h : ReachedBy G cfg N C) : CVal G cfg N C := by
  induction h with
  | empty => intro n x r h; cases h
  | trace d W o C C' t _ h ih => exact (trace_sim hc ih h).1

end Jlm.Rvsdg.Tracer
