import Verif.Opt.SvfSim

set_option linter.unusedSimpArgs false
set_option linter.unusedVariables false

/-!
# Store value forwarding: simulation of nodes
-/

namespace Jlm.Opt.Svf

variable {S : Sem}

/-- The parameters of the transformation. -/
structure Cfg (S : Sem) where
  vals : Nat → Option Nm
  q : Query
  T : Nm → Option Origin
  own : Cons → Option Origin
  created : Nat → Bool
  reset : Nat → Prop

abbrev Cfg.J (C : Cfg S) (l : Option S.W) (Γ : Scope) (eS eT E : Env S) : Prop := Svf.J C.vals C.q l C.T C.created Γ eS eT E

/-- The transformed execution finishes too, and the invariant holds again. -/
def Cfg.Res (C : Cfg S) (l : Option S.W) (Γ Γ' : Scope) (eS eT E e' : Env S) (tgt : Option (Env S)) : Prop :=
  ∃ eT' E', tgt = some eT' ∧ C.J l Γ' e' eT' E' ∧ Frame Γ eS e' ∧ Frame Γ eT eT' ∧ Frame Γ E E'

variable {C : Cfg S} {l : Option S.W} {Γ : Scope} {eS eT E : Env S}

theorem J.leT (h : C.J l Γ eS eT E) (m : Nm) (hm : Γ.has m) : (eS m).le (eT m) := by
  rw [h.same m hm]; exact h.le m hm

theorem J.ext0 (hJ : C.J l Γ eS eT E) (us vs : List (Nm × D S)) (ms ks : List Nm) (hks : us.map (·.1) = ks)
    (hle : Upd us vs) (hfr : Γ.fresh ks)
    (hms : ∀ m ∈ ms, ∃ id v, m = .x id ∧ ¬ Γ m ∧ C.vals id = some v ∧ (Γ.add ks).has v ∧ ∃ x, setL E vs v = .w x)
    (hfact : ∀ s d, (s, d) ∈ us → ∀ r, C.T s = some r → r.inScope C.vals (Γ.add (ms ++ ks)) ∧
      ∃ x, r.src.eval (setL E vs) = .w x ∧ ∀ l', l = some l' → ∀ m c, d = .mem m → S.rd m l' C.q.ty = some c → leV c x) :
    C.J l (Γ.add (ms ++ ks)) (setL eS us) (setL eT vs) (setL E vs) ∧ Frame Γ eS (setL eS us) ∧ Frame Γ eT (setL eT vs) ∧
      Frame Γ E (setL E vs) := by
  subst hks
  have := J.ext hJ us vs [] [] ms hle hfr ?_ ?_ (by simp) (by simp) ?_ ?_
  · simpa only [List.append_nil] using this
  · intro m hm
    obtain ⟨id, v, rfl, h1, h2, h3, h4⟩ := hms m hm
    refine ⟨h1, by simp [Nm.isO], ?_⟩
    intro id' v' h h'
    injection h with h
    subst h
    rw [h2] at h'
    injection h' with h'
    subst h'
    exact ⟨h3, by simpa only [List.append_nil] using h4⟩
  · intro m hm id hv hx
    obtain ⟨id', v, rfl, h1, h2, h3, h4⟩ := hms m hm
    rcases hx with hx | hx
    · injection hx with hx
      subst hx
      rw [h2] at hv
      simp at hv
    · simp at hx
  · intro m hm id hv _ hx
    obtain ⟨id', v, rfl, h1, h2, h3, h4⟩ := hms m hm
    rcases hx with hx | hx
    · injection hx with hx
      subst hx
      rw [h2] at hv
      simp at hv
    · simp at hx
  · intro s hs r hr
    obtain ⟨⟨a, d⟩, h1, h2⟩ := List.mem_map.mp hs
    subst h2
    obtain ⟨h3, x, h4, h5⟩ := hfact _ d h1 r hr
    refine ⟨h3, x, by simpa only [List.append_nil] using h4, ?_⟩
    intro l' hl m c hm
    rw [setL_mem hfr.1 h1] at hm
    exact h5 l' hl m c hm

/-- New variables of a gamma or theta node, with the one that is perhaps created. -/
theorem J.vars (hJ : C.J l Γ eS eT E) (ps : List (Nm × Src)) (mk : Nm) (o : Option Origin) (id : Nat) (ks : List Nm) (hks : ps.map (·.1) = ks)
    (hmk : mk = .x id ∨ mk = .p id) (hv : C.vals id = none) (hnew : ¬ Γ mk) (hfr : Γ.fresh ks)
    (hle : ∀ p ∈ ps, (p.2.eval eS).le (p.2.eval E) ∧ p.2.eval eT = p.2.eval E)
    (hw : ∃ x, (srcOf o).eval E = .w x) (hc : C.created id = true → (srcOf o).eval eT = (srcOf o).eval E)
    (hfact : ∀ p ∈ ps, ∀ r, C.T p.1 = some r → ∀ E', Frame Γ E E' → E' mk = (srcOf o).eval E →
      r.inScope C.vals (Γ.add (mk :: ks)) ∧
      ∃ x, r.src.eval E' = .w x ∧ ∀ l', l = some l' → ∀ m c, p.2.eval eS = .mem m → S.rd m l' C.q.ty = some c → leV c x) :
    ∃ E', C.J l (Γ.add (mk :: ks)) (setL eS (ps.map fun p => (p.1, p.2.eval eS)))
      (setL eT ((ps.map fun p => (p.1, p.2.eval eT)) ++ if C.created id then [(mk, (srcOf o).eval eT)] else [])) E' ∧
      Frame Γ eS (setL eS (ps.map fun p => (p.1, p.2.eval eS))) ∧
      Frame Γ eT (setL eT ((ps.map fun p => (p.1, p.2.eval eT)) ++ if C.created id then [(mk, (srcOf o).eval eT)] else [])) ∧ Frame Γ E E' ∧
      E' mk = (srcOf o).eval E := by
  have hks' : (ps.map fun p => (p.1, p.2.eval eS)).map (·.1) = ks := by
    rw [← hks, List.map_map]; rfl
  have hvs : (ps.map fun p => (p.1, p.2.eval eT)) = ps.map fun p => (p.1, p.2.eval E) :=
    List.map_congr_left fun p hp => by rw [(hle p hp).2]
  have hvk : (ps.map fun p => (p.1, p.2.eval E)).map (·.1) = ks := by
    rw [← hks, List.map_map]; rfl
  rw [hvs]
  have hmkO : ¬ mk.isO := by rcases hmk with rfl | rfl <;> simp [Nm.isO]
  have hmkn : mk ∉ ks := fun h => hmkO (hfr.2 _ h).2
  have hE : setL E ((ps.map fun p => (p.1, p.2.eval E)) ++ [(mk, (srcOf o).eval E)]) mk = (srcOf o).eval E := by
    rw [setL_append_right (by rw [hvk]; exact hmkn)]
    simp [setL]
  have hfE : Frame Γ E (setL E ((ps.map fun p => (p.1, p.2.eval E)) ++ [(mk, (srcOf o).eval E)])) := by
    intro m hm
    apply setL_not
    rw [List.map_append, hvk, List.mem_append]
    rintro (h | h)
    · exact (hfr.2 m h).1 hm
    · simp only [List.map_cons, List.map_nil, List.mem_singleton] at h
      subst h
      exact hnew hm
  have hid : ∀ id', mk = .x id' ∨ mk = .p id' → id' = id := by
    intro id' h
    rcases hmk with rfl | rfl <;> rcases h with h | h <;> first | (injection h with h; exact h.symm) | simp at h
  refine ⟨setL E ((ps.map fun p => (p.1, p.2.eval E)) ++ [(mk, (srcOf o).eval E)]), ?_⟩
  have := J.ext hJ (ps.map fun p => (p.1, p.2.eval eS)) (ps.map fun p => (p.1, p.2.eval E)) [(mk, (srcOf o).eval E)]
    (if C.created id then [(mk, (srcOf o).eval eT)] else []) [mk]
    (Upd.map ps (·.1) (fun p => p.2.eval eS) (fun p => p.2.eval E) fun p hp => (hle p hp).1) (by rw [hks']; exact hfr)
    ?_ ?_ (by simp) ?_ ?_ ?_
  · rw [hks'] at this
    exact ⟨this.1, this.2.1, this.2.2.1, this.2.2.2, hE⟩
  · intro m hm
    rw [List.mem_singleton.mp hm]
    refine ⟨hnew, hmkO, fun id' v h h' => ?_⟩
    rw [hid id' (Or.inl h), hv] at h'
    simp at h'
  · intro m hm id' _ _
    rw [List.mem_singleton.mp hm, hE]
    exact hw
  · intro m hm
    split at hm
    · simpa using hm
    · simp at hm
  · intro m hm id' hv' hcr hx
    rw [List.mem_singleton.mp hm] at hx ⊢
    rw [hid id' hx] at hcr
    rw [if_pos hcr]
    simp only [setL, if_true]
    exact hc hcr
  · intro s hs r hr
    obtain ⟨⟨a, d⟩, h1, h2⟩ := List.mem_map.mp hs
    subst h2
    obtain ⟨p, h3, h4⟩ := List.mem_map.mp h1
    injection h4 with h4 h5
    rw [hks']
    obtain ⟨h6, x, h7, h8⟩ := hfact p h3 r (by rw [h4]; exact hr) _ hfE hE
    refine ⟨h6, x, h7, ?_⟩
    intro l' hl m c hm
    rw [setL_mem (by rw [hks']; exact hfr.1) h1] at hm
    exact h8 l' hl m c (by rw [h5]; exact hm)

/-! ## Simple nodes -/

theorem zip_upd : ∀ {outs : List Nm} {rs rs' : List (D S)}, List.Forall₂ D.le rs rs' → rs.length = outs.length →
    Upd (outs.zip rs) (outs.zip rs')
  | [], _, _, h, hl => by
    cases h with
    | nil => exact .nil
    | cons _ _ => simp at hl
  | o :: outs, _, _, h, hl => by
    cases h with
    | nil => simp at hl
    | cons h1 h2 => exact .cons ⟨rfl, h1⟩ (zip_upd h2 (by simpa using hl))

theorem map_le {args : List Nm} (h : ∀ a ∈ args, (eS a).le (eT a)) : List.Forall₂ D.le (args.map eS) (args.map eT) := by
  induction args with
  | nil => exact .nil
  | cons a args ih => exact .cons (h a (List.mem_cons_self ..)) (ih fun b hb => h b (List.mem_cons_of_mem _ hb))

theorem sim_op {ops : Ops S} (laws : S.Laws ops) {f : Nat} {args outs : List Nm} {rn : List Node → Env S → Option (Env S)} {k : Nat} {e' : Env S}
    (hw : (Node.op f args outs).wf C.vals Γ) (ht : (Node.op f args outs).tok C.q C.T C.own C.created C.reset Γ) (hJ : C.J l Γ eS eT E)
    (hs : step ops rn k (.op f args outs) eS = some e') :
    C.Res l Γ (Γ.add (Node.op f args outs).adds) eS eT E e' (step ops rn k (.op f args outs) eT) := by
  simp only [Node.wf, Node.tok, step] at hw ht hs
  cases hf : ops.fn f (args.map eS) with
  | none => rw [hf] at hs; simp at hs
  | some rs =>
    rw [hf] at hs
    by_cases hl : rs.length = outs.length
    · simp only [hl, if_true, Option.some.injEq] at hs
      subst hs
      obtain ⟨rs', h1, h2⟩ := laws.fn_le f _ _ rs (map_le fun a ha => hJ.leT a (hw.1 a ha)) hf
      have hl' : rs'.length = outs.length := by rw [← h2.length_eq]; exact hl
      refine ⟨setL eT (outs.zip rs'), setL E (outs.zip rs'), by simp [step, h1, hl'], ?_⟩
      have := hJ.ext0 (outs.zip rs) (outs.zip rs') [] outs (by rw [List.map_fst_zip (by omega)]) (zip_upd h2 hl) hw.2 (by simp) ?_
      · exact this
      · intro s d hm r hr
        have : s ∈ outs := (List.of_mem_zip hm).1
        rw [ht s this] at hr
        simp at hr
    · simp [hl] at hs

theorem sim_alloca {ops : Ops S} (laws : S.Laws ops) {f : Nat} {args : List Nm} {a st : Nm} {rn : List Node → Env S → Option (Env S)} {k : Nat}
    {e' : Env S} (hw : (Node.alloca f args a st).wf C.vals Γ) (ht : (Node.alloca f args a st).tok C.q C.T C.own C.created C.reset Γ)
    (hJ : C.J l Γ eS eT E) (hs : step ops rn k (.alloca f args a st) eS = some e') :
    C.Res l Γ (Γ.add (Node.alloca f args a st).adds) eS eT E e' (step ops rn k (.alloca f args a st) eT) := by
  simp only [Node.wf, Node.tok, step] at hw ht hs
  cases hf : ops.alloc f (args.map eS) with
  | none => rw [hf] at hs; simp at hs
  | some xm =>
    obtain ⟨x, m⟩ := xm
    rw [hf] at hs
    simp only [Option.some.injEq] at hs
    subst hs
    obtain ⟨x', m', h1, h2, h3⟩ := laws.alloc_le f _ _ x m (map_le fun a ha => hJ.leT a (hw.1 a ha)) hf
    refine ⟨setL eT [(a, .w x'), (st, .mem m')], setL E [(a, .w x'), (st, .mem m')], by simp [step, h1], ?_⟩
    have := hJ.ext0 [(a, .w x), (st, .mem m)] [(a, .w x'), (st, .mem m')] [] [a, st] rfl
      (.cons ⟨rfl, h2⟩ (.cons ⟨rfl, h3⟩ .nil)) hw.2 (by simp) ?_
    · exact this
    · intro s d hm r hr
      simp only [List.mem_cons, List.not_mem_nil, or_false, Prod.mk.injEq] at hm
      rcases hm with ⟨rfl, rfl⟩ | ⟨rfl, rfl⟩
      · rw [ht.1] at hr; simp at hr
      · rw [ht.2 r hr]
        refine ⟨trivial, none, rfl, ?_⟩
        intro l' _ m0 c hm hrd
        injection hm with hm
        subst hm
        exact Or.inl (laws.alloc_undef f _ x m l' _ c hf hrd)

theorem sim_join {ops : Ops S} (laws : S.Laws ops) {id : Nat} {ins : List Nm} {out : Nm} {rn : List Node → Env S → Option (Env S)} {k : Nat}
    {e' : Env S} (hw : (Node.join id ins out).wf C.vals Γ) (ht : (Node.join id ins out).tok C.q C.T C.own C.created C.reset Γ)
    (hJ : C.J l Γ eS eT E) (hs : step ops rn k (.join id ins out) eS = some e') :
    C.Res l Γ (Γ.add (Node.join id ins out).adds) eS eT E e' (step ops rn k (.join id ins out) eT) := by
  simp only [Node.wf, Node.tok, step] at hw ht hs
  cases hf : memsOf eS ins with
  | none => rw [hf] at hs; simp at hs
  | some ms =>
    rw [hf] at hs
    simp only [Option.some.injEq] at hs
    subst hs
    obtain ⟨ms', h1, h2⟩ := memsOf_le (fun a ha => hJ.leT a (hw.1 a ha)) hf
    refine ⟨setL eT [(out, .mem (S.jn ms'))], setL E [(out, .mem (S.jn ms'))], by simp [step, h1], ?_⟩
    have := hJ.ext0 [(out, .mem (S.jn ms))] [(out, .mem (S.jn ms'))] [] [out] rfl
      (.cons ⟨rfl, laws.jn_le _ _ h2⟩ .nil) hw.2 (by simp) ?_
    · exact this
    · intro s d hm r hr
      simp only [List.mem_singleton, Prod.mk.injEq] at hm
      obtain ⟨rfl, rfl⟩ := hm
      obtain ⟨hne, hall⟩ := ht r hr
      have hfrm : Frame Γ E (setL E [(s, .mem (S.jn ms'))]) := fun m hm => setL_not (by
        simp only [List.map_cons, List.map_nil, List.mem_singleton]
        rintro rfl
        exact (hw.2.2 m (by simp)).1 hm)
      obtain ⟨i0, hi0⟩ := List.exists_mem_of_ne_nil _ hne
      have hin := (hJ.fact i0 (hw.1 i0 hi0) r (hall i0 hi0)).1
      obtain ⟨x, hx⟩ := hJ.word r hin
      refine ⟨inScope_mono (fun _ h => Or.inl h) hin, x, by rw [eval_frame hJ.vals hin hfrm, hx], ?_⟩
      intro l' hl m c hm hrd
      injection hm with hm
      subst hm
      obtain ⟨m1, hm1, hrd1⟩ := laws.rd_jn ms l' _ c hrd
      obtain ⟨i, hi, hei⟩ := mem_memsOf hf m1 hm1
      obtain ⟨-, x', hx', hc⟩ := hJ.fact i (hw.1 i hi) r (hall i hi)
      rw [hx] at hx'
      injection hx' with hx'
      subst hx'
      exact hc l' hl m1 c hei hrd1

theorem memD_le {g g' : S.M → D S} (h : ∀ m m', S.leM m m' → (g m).le (g' m')) {d d' : D S} (hd : d.le d') :
    (memD g d).le (memD g' d') := by
  cases d with
  | w x =>
    obtain ⟨y, rfl, h1⟩ := le_w hd
    exact h1
  | mem m =>
    obtain ⟨m', rfl, h1⟩ := le_mem hd
    exact h m m' h1

theorem sim_store {ops : Ops S} (laws : S.Laws ops) {id : Nat} {a v : Nm} {t : Ty} {sts : List (Nm × Nm)}
    {rn : List Node → Env S → Option (Env S)} {k : Nat}
    {e' : Env S} (hw : (Node.store id a v t sts).wf C.vals Γ) (ht : (Node.store id a v t sts).tok C.q C.T C.own C.created C.reset Γ)
    (hJ : C.J l Γ eS eT E) (hs : step ops rn k (.store id a v t sts) eS = some e') (hA : AliasOk C.q l (.store id a v t sts) eS) :
    C.Res l Γ (Γ.add (Node.store id a v t sts).adds) eS eT E e' (step ops rn k (.store id a v t sts) eT) := by
  simp only [Node.wf, Node.tok, step, AliasOk] at hw ht hs hA
  obtain ⟨hwa, hwv, hws, hwf, hwx, hwvals⟩ := hw
  cases ha : eS a with
  | mem m => rw [ha] at hs; simp at hs
  | w oa =>
    cases oa with
    | none => rw [ha] at hs; simp at hs
    | some b =>
      cases hv : eS v with
      | mem m => rw [ha, hv] at hs; simp at hs
      | w x =>
        cases hf : memsOf eS (sts.map (·.1)) with
        | none => rw [ha, hv, hf] at hs; simp at hs
        | some ms =>
          rw [ha, hv, hf] at hs
          simp only [Option.some.injEq] at hs
          rw [memsOf_zip (fun m => .mem (S.wr m b t x)) hf] at hs
          subst hs
          have hle : ∀ n ∈ sts.map (·.1), (eS n).le (eT n) := by
            intro n hn
            obtain ⟨s, hs, rfl⟩ := List.mem_map.mp hn
            exact hJ.leT _ (hws s hs)
          obtain ⟨ms', h1, h2⟩ := memsOf_le hle hf
          have hTa : eT a = .w (some b) := le_word (by rw [← ha]; exact hJ.leT a hwa)
          obtain ⟨x', hTv, hx'⟩ := le_w (by rw [← hv]; exact hJ.leT v hwv)
          have hEv : E v = .w x' := by rw [← hJ.same v hwv]; exact hTv
          have hvs := memsOf_zip (fun m => .mem (S.wr m b t x')) h1
          refine ⟨setL eT (sts.map fun s => (s.2, memD (fun m => .mem (S.wr m b t x')) (eT s.1))),
            setL E (sts.map fun s => (s.2, memD (fun m => .mem (S.wr m b t x')) (eT s.1))), by simp [step, hTa, hTv, h1, hvs], ?_⟩
          have hkk : ∀ f : Nm × Nm → D S, (sts.map fun s => (s.2, f s)).map (·.1) = sts.map (·.2) := by
            intro f; rw [List.map_map]; rfl
          have hfrm : Frame Γ E (setL E (sts.map fun s => (s.2, memD (fun m => .mem (S.wr m b t x')) (eT s.1)))) := fun m hm => setL_not (by
            rw [hkk]
            exact fun h => (hwf.2 m h).1 hm)
          have hEv' : setL E (sts.map fun s => (s.2, memD (fun m => .mem (S.wr m b t x')) (eT s.1))) v = .w x' := by
            rw [hfrm v hwv.1, hEv]
          refine hJ.ext0 _ _ [.x id] (sts.map (·.2)) (hkk _) (Upd.map sts (·.2) _ _ fun s hs => ?_) hwf ?_ ?_
          · exact memD_le (g := fun m => .mem (S.wr m b t x)) (g' := fun m => .mem (S.wr m b t x')) (fun m m' h => laws.wr_le m m' b t x x' h hx') (hJ.leT _ (hws s hs))
          · intro m hm
            rw [List.mem_singleton.mp hm]
            exact ⟨id, v, rfl, hwx, hwvals, ⟨Or.inl hwv.1, hwv.2⟩, x', hEv'⟩
          · intro s d hm r hr
            obtain ⟨s0, hs0, heq⟩ := List.mem_map.mp hm
            injection heq with h3 h4
            subst h3; subst h4
            obtain ⟨m0, hm0, hem0⟩ := memsOf_mem hf s0.1 (List.mem_map_of_mem hs0)
            rcases ht s0 hs0 r hr with ⟨hmust, rfl, rfl⟩ | ⟨hno, hT⟩
            · refine ⟨⟨hwvals, Or.inr (by simp)⟩, x', hEv', ?_⟩
              intro l' hl m c hmem hrd
              have := (hA l' hl b ha).2 hmust
              subst this
              rw [hem0] at hmem
              simp only [memD] at hmem
              injection hmem with hmem
              subst hmem
              rw [laws.rd_wr _ _ _ _ _ hrd]
              exact hx'
            · obtain ⟨hin, y, hy, hc⟩ := hJ.fact s0.1 (hws s0 hs0) r hT
              refine ⟨inScope_mono (fun _ h => Or.inl h) hin, y, by rw [eval_frame hJ.vals hin hfrm, hy], ?_⟩
              intro l' hl m c hmem hrd
              rw [hem0] at hmem
              simp only [memD] at hmem
              injection hmem with hmem
              subst hmem
              rw [laws.rd_other _ _ _ _ _ _ ((hA l' hl b ha).1 hno)] at hrd
              exact hc l' hl m0 c hem0 hrd

/-- The outputs of a load: `out` gets a value, the states are those of the inputs. -/
theorem sim_load_out {ops : Ops S} (laws : S.Laws ops) {id : Nat} {a out : Nm} {t : Ty} {sts : List (Nm × Nm)}
    (hw : (Node.load id a out t sts).wf C.vals Γ) (ht : (Node.load id a out t sts).tok C.q C.T C.own C.created C.reset Γ)
    (hJ : C.J l Γ eS eT E) (hA : AliasOk C.q l (.load id a out t sts) eS) {b : S.W} {ms : List S.M} {c c' : Option S.W}
    (ha : eS a = .w (some b)) (hf : memsOf eS (sts.map (·.1)) = some ms) (hv : loadVal ms b t = some c) (hc : leV c c') :
    ∃ E', C.J l (Γ.add (Node.load id a out t sts).adds) (setL eS ((out, .w c) :: sts.map fun s => (s.2, memD .mem (eS s.1))))
      (setL eT ((out, .w c') :: sts.map fun s => (s.2, memD .mem (eT s.1)))) E' ∧
      Frame Γ eS (setL eS ((out, .w c) :: sts.map fun s => (s.2, memD .mem (eS s.1)))) ∧
      Frame Γ eT (setL eT ((out, .w c') :: sts.map fun s => (s.2, memD .mem (eT s.1)))) ∧ Frame Γ E E' := by
  simp only [Node.wf, Node.tok, AliasOk] at hw ht hA
  obtain ⟨hwa, hws, hwf, hwx, hwvals⟩ := hw
  refine ⟨setL E ((out, .w c') :: sts.map fun s => (s.2, memD .mem (eT s.1))), ?_⟩
  have hkk : ∀ (f : Nm × Nm → D S) (d : D S), ((out, d) :: sts.map fun s => (s.2, f s)).map (·.1) = out :: sts.map (·.2) := by
    intro f d; rw [List.map_cons, List.map_map]; rfl
  have hfrm : Frame Γ E (setL E ((out, .w c') :: sts.map fun s => (s.2, memD .mem (eT s.1)))) := fun m hm => setL_not (by
    rw [hkk]
    exact fun h => (hwf.2 m h).1 hm)
  have hEo : setL E ((out, .w c') :: sts.map fun s => (s.2, memD .mem (eT s.1))) out = .w c' := by simp [setL]
  have hu : Upd ((out, D.w c) :: sts.map fun s => (s.2, memD .mem (eS s.1))) ((out, D.w c') :: sts.map fun s => (s.2, memD .mem (eT s.1))) :=
    .cons ⟨rfl, hc⟩ (Upd.map sts (·.2) _ _ fun s hs => memD_le (g := D.mem) (g' := D.mem) (fun m m' h => h) (hJ.leT _ (hws s hs)))
  refine hJ.ext0 _ _ [.x id] (out :: sts.map (·.2)) (hkk _ _) hu hwf ?_ ?_
  · intro m hm
    rw [List.mem_singleton.mp hm]
    exact ⟨id, out, rfl, hwx, hwvals, ⟨Or.inr (by simp), (hwf.2 out (by simp)).2⟩, c', hEo⟩
  · intro s d hm r hr
    rcases List.mem_cons.mp hm with hm | hm
    · injection hm with h1 h2
      subst h1
      rw [ht.1] at hr
      simp at hr
    · obtain ⟨s0, hs0, heq⟩ := List.mem_map.mp hm
      injection heq with h3 h4
      subst h3; subst h4
      obtain ⟨m0, hm0, hem0⟩ := memsOf_mem hf s0.1 (List.mem_map_of_mem hs0)
      rcases ht.2.1 s0 hs0 r hr with ⟨hmust, rfl, rfl⟩ | hT
      · refine ⟨⟨hwvals, Or.inr (by simp)⟩, c', hEo, ?_⟩
        intro l' hl m c0 hmem hrd
        have := hA.2 hmust l' hl b ha
        subst this
        rw [hem0] at hmem
        simp only [memD] at hmem
        injection hmem with hmem
        subst hmem
        rw [(loadVal_only hv).2 m0 hm0 c0 hrd]
        exact hc
      · obtain ⟨hin, y, hy, hcc⟩ := hJ.fact s0.1 (hws s0 hs0) r hT
        refine ⟨inScope_mono (fun _ h => Or.inl h) hin, y, by rw [eval_frame hJ.vals hin hfrm, hy], ?_⟩
        intro l' hl m c0 hmem hrd
        rw [hem0] at hmem
        simp only [memD] at hmem
        injection hmem with hmem
        subst hmem
        exact hcc l' hl m0 c0 hem0 hrd

theorem fwd_states : ∀ {sts : List (Nm × Nm)} {ms : List S.M}, memsOf eT (sts.map (·.1)) = some ms →
    (sts.map fun s => (s.2, memD D.mem (eT s.1))) = sts.map fun s => (s.2, eT s.1) := by
  intro sts ms h
  refine List.map_congr_left fun s hs => ?_
  obtain ⟨m, -, hm⟩ := memsOf_mem h s.1 (List.mem_map_of_mem hs)
  rw [hm]
  rfl

theorem sim_load {ops : Ops S} (laws : S.Laws ops) {id : Nat} {a out : Nm} {t : Ty} {sts : List (Nm × Nm)}
    {rn : List Node → Env S → Option (Env S)} {k : Nat}
    {e' : Env S} (hw : (Node.load id a out t sts).wf C.vals Γ) (ht : (Node.load id a out t sts).tok C.q C.T C.own C.created C.reset Γ)
    (hJ : C.J l Γ eS eT E) (hs : step ops rn k (.load id a out t sts) eS = some e') (hA : AliasOk C.q l (.load id a out t sts) eS) :
    C.Res l Γ (Γ.add (Node.load id a out t sts).adds) eS eT E e'
      (step ops rn k ((Node.load id a out t sts).forward C.q.id C.own C.created) eT) := by
  have hw' := hw
  have ht' := ht
  have hA' := hA
  simp only [Node.wf, Node.tok, step, AliasOk] at hw' ht' hs hA'
  obtain ⟨hwa, hws, hwf, hwx, hwvals⟩ := hw'
  cases ha : eS a with
  | mem m => rw [ha] at hs; simp at hs
  | w oa =>
    cases oa with
    | none => rw [ha] at hs; simp at hs
    | some b =>
      cases hf : memsOf eS (sts.map (·.1)) with
      | none => rw [ha, hf] at hs; simp at hs
      | some ms =>
        cases hv : loadVal ms b t with
        | none => rw [ha, hf] at hs; simp [hv] at hs
        | some c =>
          rw [ha, hf] at hs
          simp only [hv, Option.some.injEq] at hs
          rw [memsOf_zip .mem hf] at hs
          subst hs
          have hle : ∀ n ∈ sts.map (·.1), (eS n).le (eT n) := by
            intro n hn
            obtain ⟨s, hs, rfl⟩ := List.mem_map.mp hn
            exact hJ.leT _ (hws s hs)
          obtain ⟨ms', h1, h2⟩ := memsOf_le hle hf
          have hTa : eT a = .w (some b) := le_word (by rw [← ha]; exact hJ.leT a hwa)
          by_cases hid : id = C.q.id
          · obtain ⟨rfl, l', hl, hal⟩ := hA'.1 hid
            rw [ha] at hal
            injection hal with hal
            injection hal with hal
            subst hal
            obtain ⟨r, hown, hmade, hall⟩ := ht'.2.2 hid
            rw [hid] at hown
            obtain ⟨⟨m0, hm0, hrd⟩, -⟩ := loadVal_only hv
            obtain ⟨n, hn, hen⟩ := mem_memsOf hf m0 hm0
            obtain ⟨s, hs, rfl⟩ := List.mem_map.mp hn
            obtain ⟨hin, x, hx, hcx⟩ := hJ.fact s.1 (hws s hs) r (hall s hs)
            have hlt := hcx b hl m0 c hen hrd
            obtain ⟨E', h3, h4, h5, h6⟩ := sim_load_out laws hw ht hJ hA ha hf hv hlt
            refine ⟨_, E', ?_, h3, h4, h5, h6⟩
            have hsrc : (srcOf (C.own (.nd C.q.id))).eval eT = .w x := by
              rw [hown]
              exact (eval_target hJ hin hmade).trans hx
            simp only [Node.forward, if_pos hid, step, hsrc, fwd_states h1]
          · obtain ⟨c', hv', hc'⟩ := loadVal_le laws h2 hv
            obtain ⟨E', h3, h4, h5, h6⟩ := sim_load_out laws hw ht hJ hA ha hf hv hc'
            refine ⟨_, E', ?_, h3, h4, h5, h6⟩
            simp only [Node.forward, if_neg hid, step, hTa, h1, hv']
            rw [memsOf_zip .mem h1]

end Jlm.Opt.Svf
