import Verif.Hls.GammaProps
set_option linter.unusedSimpArgs false
/-
C63: gamma nodes as networks of branches and muxes.
-/
namespace Jlm.Hls.Gam
variable {V : Type} {I : Interp V}

theorem getD_map {α β : Type} (f : α → β) (l : List α) (j : Nat) (d : β) (e : α) (h : j < l.length) : (l.map f).getD j d = f (l.getD j e) := by
  simp [List.getD_eq_getElem?_getD, List.getElem?_eq_getElem h]

/-- the clock of subregion `s` of `k` -/
def clock (I : Interp V) (spec : Bool) (c : Nat → Bool) (k s : Nat) (pv : Nat → V) : Nat → Bool := if spec then c else sub I c k s pv

mutual
  theorem node_correct : ∀ (n : Node) (m : Nat) (c : Nat → Bool) (vals : Nat → List V) (ss : List (Stream V)) (env : List Nat),
      n.wf env.length m → Reps I c vals ss env →
      Reps I c (fun i => n.eval I (vals i)) (run I (n.convert env ss.length).1 ss) (n.convert env ss.length).2 ∧ (n.convert env ss.length).2.length = m
    | .op f b args, m, c, vals, ss, env, hw, h => by
      obtain ⟨h1, rfl⟩ := hw
      refine ⟨?_, rfl⟩
      have := reps_new (I := I) (c := c) [.op f (args.map (look env))] ss (fun i => [I.fn f (args.map fun j => (vals i).getD j I.dflt)]) (fun _ => rfl) ?_
      · exact this
      intro j hj l'
      have hj0 : j = 0 := by simp at hj; omega
      subst hj0
      have hr := (h.run l').map args h1
      have := rep_pointwise I (c := c) f ((args.map (look env)).map (wire (run I l' ss))) (args.map fun j i => (vals i).getD j I.dflt) (by simp) (by
        intro j hj
        simp only [List.length_map] at hj
        rw [getD_map _ args _ _ 0 hj, getD_map _ (args.map (look env)) _ _ 0 (by simpa using hj)]
        have := hr.rep j (by simpa using hj)
        unfold look at this
        rw [getD_map _ _ _ _ 0 hj] at this ⊢
        have e : (fun i => (args.map fun j => (vals i).getD j I.dflt).getD j I.dflt) = fun i => (vals i).getD (args.getD j 0) I.dflt := by
          funext i
          rw [getD_map _ _ _ _ 0 hj]
        rw [e] at this
        exact this)
      intro i hi
      have := this i hi
      simp only [List.map_map] at this
      simpa [HNode.stream, Function.comp_def] using this
    | .gamma p es st nout regs, m, c, vals, ss, env, hw, h => by
      obtain ⟨h1, h2, rfl, h3, h4⟩ := hw
      simp only [Node.convert]
      generalize (Node.gamma p es st m regs).canSpeculate = spec
      obtain ⟨h5, h6⟩ := regs_correct regs spec regs.length 0 m c (fun i => (vals i).getD p I.dflt) (look env p) (fun i => es.map fun j => (vals i).getD j I.dflt)
        ss (es.map (look env)) (by rw [List.length_map]; exact h4) (h.lt p h1) (h.rep p h1) (h.map es h2)
      generalize hr : regs.convert spec regs.length 0 (look env p) (es.map (look env)) ss.length = r at h5 h6 ⊢
      have hlen : (run I r.1 ss).length = ss.length + r.1.length := run_length I _ _
      have hk : ∀ i, I.ctl regs.length ((vals i).getD p I.dflt) < regs.length := fun i => I.ctl_lt _ _ h3
      refine ⟨?_, by simp⟩
      have := reps_new (I := I) (c := c) ((List.range m).map fun j => HNode.mux spec (look env p) (r.2.map fun o => look o j)) (run I r.1 ss)
        (fun i => (Node.gamma p es st m regs).eval I (vals i)) ?_ ?_
      · rw [run_append]
        simp only [List.length_map, List.length_range, hlen] at this
        exact this
      · intro i
        rw [List.length_map, List.length_range]
        show (regs.eval I _ _).length = m
        rw [(h6 _ (hk i)).1.length i, (h6 _ (hk i)).2]
      · intro j hj l'
        simp only [List.length_map, List.length_range] at hj
        rw [List.getElem_map, List.getElem_range]
        have hp : Rep c (fun i => (vals i).getD p I.dflt) (wire (run I l' (run I r.1 ss)) (look env p)) := ((h.run r.1).run l').rep p h1
        have hl : ((r.2.map fun o => look o j).map (wire (run I l' (run I r.1 ss)))).length = regs.length := by simp [h5]
        have halt : ∀ t < regs.length, Rep (clock I spec c regs.length t fun i => (vals i).getD p I.dflt)
            (fun i => (regs.eval I t (es.map fun j => (vals i).getD j I.dflt)).getD j I.dflt)
            (((r.2.map fun o => look o j).map (wire (run I l' (run I r.1 ss)))).getD t fun _ => none) := by
          intro t ht
          rw [getD_map _ _ _ _ 0 (by simpa [h5] using ht), getD_map _ _ _ _ [] (by omega)]
          have := ((h6 t ht).1.run l').rep j (by rw [(h6 t ht).2]; exact hj)
          rw [Nat.zero_add] at this
          exact this
        show Rep c _ (muxStream I spec _ _)
        cases spec with
        | false =>
          have := rep_mux I hp _ (fun t i => (regs.eval I t (es.map fun j => (vals i).getD j I.dflt)).getD j I.dflt) (by rw [hl]; exact h3) (by
            rw [hl]; exact halt)
          rw [hl] at this
          exact this
        | true =>
          have := rep_mux_discard I hp _ (fun t i => (regs.eval I t (es.map fun j => (vals i).getD j I.dflt)).getD j I.dflt) (by rw [hl]; exact h3) (by
            rw [hl]; exact halt)
          rw [hl] at this
          exact this
  theorem nodes_correct : ∀ (ns : Nodes) (m : Nat) (c : Nat → Bool) (vals : Nat → List V) (ss : List (Stream V)) (env : List Nat),
      ns.wf env.length m → Reps I c vals ss env →
      Reps I c (fun i => ns.eval I (vals i)) (run I (ns.convert env ss.length).1 ss) (ns.convert env ss.length).2 ∧ (ns.convert env ss.length).2.length = m
    | .nil rs, m, c, vals, ss, env, hw, h => by
      obtain ⟨h1, rfl⟩ := hw
      exact ⟨h.map rs h1, by simp [Nodes.convert]⟩
    | .cons n ns, m, c, vals, ss, env, hw, h => by
      obtain ⟨k, h1, h2⟩ := hw
      obtain ⟨h3, h4⟩ := node_correct n k c vals ss env h1 h
      have h5 := nodes_correct ns m c (fun i => vals i ++ n.eval I (vals i)) (run I (n.convert env ss.length).1 ss) (env ++ (n.convert env ss.length).2)
        (by rw [List.length_append, h4]; exact h2) ((h.run _).append h3)
      rw [run_length] at h5
      simp only [Nodes.convert]
      rw [run_append]
      exact h5
  theorem regs_correct : ∀ (rs : Regs) (spec : Bool) (k s m : Nat) (c : Nat → Bool) (pv : Nat → V) (p : Nat) (xs : Nat → List V) (ss : List (Stream V)) (es : List Nat),
      rs.wf es.length m → p < ss.length → Rep c pv (wire ss p) → Reps I c xs ss es →
      (rs.convert spec k s p es ss.length).2.length = rs.length ∧ ∀ t < rs.length,
        Reps I (clock I spec c k (s + t) pv) (fun i => rs.eval I t (xs i)) (run I (rs.convert spec k s p es ss.length).1 ss)
          ((rs.convert spec k s p es ss.length).2.getD t []) ∧ ((rs.convert spec k s p es ss.length).2.getD t []).length = m
    | .nil, _, _, _, _, _, _, _, _, _, _, _, _, _, _ => ⟨rfl, fun t ht => absurd ht (Nat.not_lt_zero _)⟩
    | .cons r rs, spec, k, s, m, c, pv, p, xs, ss, es, hw, hp, hpr, h => by
      obtain ⟨h1, h2⟩ := hw
      simp only [Regs.convert]
      have hb : Reps I (clock I spec c k s pv) xs (run I (if spec then [] else es.map fun e => HNode.branch k s p e) ss)
          (if spec then es else (List.range es.length).map fun i => ss.length + i) := by
        cases spec with
        | true => exact h
        | false =>
          have := reps_new (I := I) (c := sub I c k s pv) (es.map fun e => HNode.branch k s p e) ss xs (by intro i; rw [h.length]; simp) (by
            intro j hj l'
            rw [List.length_map] at hj
            rw [List.getElem_map]
            have h3 : Rep c pv (wire (run I l' ss) p) := by rw [wire_run I l' ss p hp]; exact hpr
            have h4 := (h.run l').rep j hj
            unfold look at h4
            rw [List.getD_eq_getElem?_getD, List.getElem?_eq_getElem hj] at h4
            exact rep_branch I h3 h4 k s)
          rw [List.length_map] at this
          exact this
      have hbl : (if spec then es else (List.range es.length).map fun i => ss.length + i).length = es.length := by cases spec <;> simp
      generalize (if spec then es else (List.range es.length).map fun i => ss.length + i) = env at hb hbl ⊢
      generalize (if spec then [] else es.map fun e => HNode.branch k s p e) = bs at hb ⊢
      obtain ⟨h3, h4⟩ := nodes_correct r m _ xs (run I bs ss) env (by rw [hbl]; exact h1) hb
      rw [run_length] at h3 h4
      generalize r.convert env (ss.length + bs.length) = q at h3 h4 ⊢
      have hq : run I q.1 (run I bs ss) = run I (bs ++ q.1) ss := (run_append I bs q.1 ss).symm
      rw [hq] at h3
      have hp2 : Rep c pv (wire (run I (bs ++ q.1) ss) p) := by rw [wire_run I _ ss p hp]; exact hpr
      obtain ⟨h5, h6⟩ := regs_correct rs spec k (s + 1) m c pv p xs (run I (bs ++ q.1) ss) es h2 (by rw [run_length]; omega) hp2 (h.run _)
      rw [run_length, List.length_append, ← Nat.add_assoc] at h5 h6
      generalize rs.convert spec k (s + 1) p es (ss.length + bs.length + q.1.length) = u at h5 h6 ⊢
      rw [run_append]
      refine ⟨by simp [h5, Regs.length], fun t ht => ?_⟩
      cases t with
      | zero => exact ⟨h3.run u.1, h4⟩
      | succ t =>
        have := h6 t (by simp [Regs.length] at ht; omega)
        rw [show s + 1 + t = s + (t + 1) by omega] at this
        exact this
end

/-- region `r` is one of the subregions -/
inductive Has (r : Nodes) : Regs → Prop where
  | head {rs : Regs} : Has r (.cons r rs)
  | tail {q : Nodes} {rs : Regs} : Has r rs → Has r (.cons q rs)

/-- a node of a region, or of a region below -/
inductive Inside (n : Node) : Nodes → Prop where
  | head {ns : Nodes} : Inside n (.cons n ns)
  | tail {m : Node} {ns : Nodes} : Inside n ns → Inside n (.cons m ns)
  | deep {ns r : Nodes} {p : Nat} {es : List Nat} {st : Bool} {o : Nat} {rs : Regs} : Has r rs → Inside n r → Inside n (.cons (.gamma p es st o rs) ns)

theorem Has.canSpeculate {r : Nodes} {rs : Regs} (h : Has r rs) (hs : rs.canSpeculate = true) : r.canSpeculate = true := by
  induction h with
  | head => simp only [Regs.canSpeculate, Bool.and_eq_true] at hs; exact hs.1
  | tail _ ih => simp only [Regs.canSpeculate, Bool.and_eq_true] at hs; exact ih hs.2

theorem Inside.canSpeculate {n : Node} {ns : Nodes} (h : Inside n ns) (hs : ns.canSpeculate = true) : n.canSpeculate = true := by
  induction h with
  | head => simp only [Nodes.canSpeculate, Bool.and_eq_true] at hs; exact hs.1
  | tail _ ih => simp only [Nodes.canSpeculate, Bool.and_eq_true] at hs; exact ih hs.2
  | @deep ns r p es st o rs hr _ ih =>
    refine ih (hr.canSpeculate ?_)
    simp only [Nodes.canSpeculate, Bool.and_eq_true, Node.canSpeculate] at hs
    cases st with
    | true => simp at hs
    | false => simpa using hs.1

/-- **C63, what is speculated.** A gamma that is converted speculatively has no state outputs, and its subregions hold no loops and no
gammas with state outputs, at any depth. -/
theorem C63_speculation {p : Nat} {es : List Nat} {st : Bool} {o : Nat} {rs : Regs} (h : (Node.gamma p es st o rs).canSpeculate = true) :
    st = false ∧ ∀ r, Has r rs → ∀ n, Inside n r → (∀ f args, n ≠ .op f true args) ∧ ∀ p es o rs, n ≠ .gamma p es true o rs := by
  cases st with
  | true => simp [Node.canSpeculate] at h
  | false =>
    refine ⟨rfl, fun r hr n hn => ?_⟩
    have h : rs.canSpeculate = true := by simpa [Node.canSpeculate] using h
    have := hn.canSpeculate (hr.canSpeculate h)
    constructor
    · rintro f args rfl; simp [Node.canSpeculate] at this
    · rintro p es o rs rfl; simp [Node.canSpeculate] at this

mutual
  /-- **C63, what is speculated, the other way round.** Only state outputs and loops keep a gamma from being speculated. -/
  theorem spec_nodes : ∀ ns : Nodes, (∀ n, Inside n ns → (∀ f args, n ≠ .op f true args) ∧ ∀ p es o rs, n ≠ .gamma p es true o rs) → ns.canSpeculate = true
    | .nil _, _ => rfl
    | .cons n ns, h => by
      simp only [Nodes.canSpeculate, Bool.and_eq_true]
      refine ⟨?_, spec_nodes ns fun m hm => h m (.tail hm)⟩
      match n with
      | .op f b args =>
        cases b with
        | true => exact absurd rfl ((h _ .head).1 f args)
        | false => rfl
      | .gamma p es st o rs =>
        cases st with
        | true => exact absurd rfl ((h _ .head).2 p es o rs)
        | false =>
          simp only [Node.canSpeculate]
          rw [if_neg (by simp)]
          exact spec_regs rs fun r hr n hn => h n (.deep hr hn)
  theorem spec_regs : ∀ rs : Regs, (∀ r, Has r rs → ∀ n, Inside n r → (∀ f args, n ≠ .op f true args) ∧ ∀ p es o rs, n ≠ .gamma p es true o rs) →
      rs.canSpeculate = true
    | .nil, _ => rfl
    | .cons r rs, h => by
      simp only [Regs.canSpeculate, Bool.and_eq_true]
      exact ⟨spec_nodes r (h r .head), spec_regs rs fun q hq => h q (.tail hq)⟩
end

theorem C63_speculation_complete (p : Nat) (es : List Nat) (o : Nat) (rs : Regs)
    (h : ∀ r, Has r rs → ∀ n, Inside n r → (∀ f args, n ≠ .op f true args) ∧ ∀ p es o rs, n ≠ .gamma p es true o rs) :
    (Node.gamma p es false o rs).canSpeculate = true := by
  simp only [Node.canSpeculate]
  rw [if_neg (by simp)]
  exact spec_regs rs h

end Jlm.Hls.Gam
