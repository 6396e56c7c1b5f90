import Verif.Opt.CneInv

/-!
# The mark phase of the repaired common node elimination finds a congruence: parts of nodes
-/

set_option linter.unusedSimpArgs false
set_option linter.unusedVariables false

namespace Jlm.Opt.Cne

/-- The outputs of a simple node are in the sets of the outputs of a node all of whose outputs are
leaders (possibly the node itself). -/
def Sync (c : Ctx) (all : List SNode) (n : SNode) : Prop :=
  ∃ m ∈ all, n.outs.map c = m.outs.map some ∧ ∀ o ∈ m.outs, c o = some o

mutual

/-- What remains of a congruence at a node that was marked before if sets outside of the node
change. -/
def IGoodNode (c : Ctx) (all : List SNode) : Node → Prop
  | .simple op ins outs => Sync c all ⟨op, ins, outs⟩
  | .gamma _ _ _ subs => IGoodRegions c subs
  | .theta ins outs args _ posts sub =>
      ArgsOk (ld c) args posts ∧ (CertNodes (ld c) [] sub ∧ IGoodNodes c sub.simples sub) ∧
        ∀ (k : Nat) (o : Out), outs[k]? = some o → thetaInvariant c ins args posts k = none →
          ∃ (j : Nat) (o' : Out), outs[j]? = some o' ∧ c o = some o' ∧
            (posts[j]?).map (ld c) = (posts[k]?).map (ld c)
  | .lambda _ _ _ _ _ sub => CertNodes (ld c) [] sub ∧ IGoodNodes c sub.simples sub
  | .phi _ _ _ _ _ sub => CertNodes (ld c) [] sub ∧ IGoodNodes c sub.simples sub
  | .delta _ _ _ _ _ => True

def IGoodNodes (c : Ctx) (all : List SNode) : Nodes → Prop
  | .nil => True
  | .cons n ns => IGoodNode c all n ∧ IGoodNodes c all ns

def IGoodRegions (c : Ctx) : Regions → Prop
  | .nil => True
  | .cons _ _ sub rest => (CertNodes (ld c) [] sub ∧ IGoodNodes c sub.simples sub) ∧ IGoodRegions c rest

end

/-- The subregion was marked and nothing in it has to be done. -/
def SubGood (c : Ctx) (sub : Nodes) : Prop := CertNodes (ld c) [] sub ∧ IGoodNodes c sub.simples sub

/-- Nothing has been marked. -/
def Fresh (c : Ctx) (names : List Out) : Prop := ∀ x ∈ names, c x = none

def PreNodes (c : Ctx) (all : List SNode) : Nodes → Prop
  | .nil => True
  | .cons n ns => (Fresh c (namesNode n) ∨ IGoodNode c all n) ∧ PreNodes c all ns

def PreRegions (c : Ctx) (rs : Regions) : Prop := Fresh c (namesRegions rs) ∨ IGoodRegions c rs

theorem sync_congr {c c' : Ctx} {all : List SNode} {n : SNode} (h : Sync c all n)
    (hn : ∀ x ∈ n.outs, c' x = c x) (hm : ∀ x, c x = some x → c' x = some x) : Sync c' all n := by
  obtain ⟨m, h1, h2, h3⟩ := h
  refine ⟨m, h1, ?_, fun o ho => hm o (h3 o ho)⟩
  rw [← h2]
  exact List.map_congr_left hn

theorem thetaInvariant_congr {c c' : Ctx} {ins args posts : List Out} (h : ∀ p ∈ posts, c' p = c p) (k : Nat) :
    thetaInvariant c' ins args posts k = thetaInvariant c ins args posts k := by
  simp only [thetaInvariant]
  cases hp : posts[k]? with
  | none => rfl
  | some p =>
    have hl : ld c' p = ld c p := ld_congr (h p (List.mem_of_getElem? hp))
    simp only [hl]
    cases hq : posts[args.idxOf (ld c p)]? with
    | none => rfl
    | some q =>
      have hl' : ld c' q = ld c q := ld_congr (h q (List.mem_of_getElem? hq))
      simp only [hl']

theorem posts_names {args posts : List Out} {pred : Out} {sub : Nodes}
    (h : ∀ x ∈ pred :: posts, x ∈ args ++ sub.outs) : ∀ p ∈ posts, p ∈ args ∨ p ∈ namesNodes sub := by
  intro p hp
  rcases List.mem_append.1 (h p (by simp [hp])) with h | h
  · exact .inl h
  · exact .inr (Dne.Nodes_outs_subset_names sub p h)

mutual

theorem iGoodNode_congr {c c' : Ctx} (hm : ∀ x, c x = some x → c' x = some x) : ∀ (n : Node) (A : List Out)
    (all : List SNode), wfNode A n = true → (∀ x ∈ namesNode n, c' x = c x) → IGoodNode c all n → IGoodNode c' all n
  | .simple op ins outs, A, all, hwf, hn, h => by
      simp only [IGoodNode, namesNode] at *
      exact sync_congr h hn hm
  | .gamma pred ins outs subs, A, all, hwf, hn, h => by
      simp only [wfNode, Bool.and_eq_true] at hwf
      simp only [IGoodNode, namesNode, List.mem_append] at *
      exact iGoodRegions_congr hm subs _ _ hwf.2 (fun x hx => hn x (.inr hx)) h
  | .theta ins outs args pred posts sub, A, all, hwf, hn, h => by
      simp only [wfNode, Bool.and_eq_true, Dne.subset_iff] at hwf
      simp only [IGoodNode, namesNode, List.mem_append] at *
      have ha : ∀ x ∈ args, c' x = c x := fun x hx => hn x (.inl (.inr hx))
      have hs : ∀ x ∈ namesNodes sub, c' x = c x := fun x hx => hn x (.inr hx)
      have hp : ∀ x ∈ posts, c' x = c x := by
        intro x hx
        rcases posts_names (fun y hy => List.mem_append.2 (hwf.2 y hy)) x hx with h | h
        · exact ha x h
        · exact hs x h
      refine ⟨argsOk_congr h.1 (fun x hx => (ld_congr (ha x hx)).symm) (fun x hx => (ld_congr (hp x hx)).symm),
        ⟨certNodes_congr sub args [] hwf.1.2 (by simp) (fun x hx => (ld_congr (ha x hx)).symm)
          (fun x hx => (ld_congr (hs x hx)).symm) h.2.1.1, iGoodNodes_congr hm sub _ _ hwf.1.2 hs h.2.1.2⟩, ?_⟩
      intro k o ho hinv
      rw [thetaInvariant_congr hp] at hinv
      obtain ⟨j, o', g1, g2, g3⟩ := h.2.2 k o ho hinv
      refine ⟨j, o', g1, by rw [hn o (.inl (.inl (List.mem_of_getElem? ho)))]; exact g2, ?_⟩
      rw [get_map_congr (τ' := ld c) (fun x hx => ld_congr (hp x hx)),
        get_map_congr (τ' := ld c) (fun x hx => ld_congr (hp x hx))]
      exact g3
  | .lambda ins args params results out sub, A, all, hwf, hn, h => by
      simp only [wfNode, Bool.and_eq_true, Dne.subset_iff] at hwf
      simp only [IGoodNode, namesNode, List.mem_append, List.mem_cons, List.cons_append] at *
      exact ⟨certNodes_congr sub _ [] hwf.1.2 (by simp) (fun x hx => (ld_congr (hn x (by
          rcases List.mem_append.1 hx with h | h <;> simp [h]))).symm)
          (fun x hx => (ld_congr (hn x (by simp [hx]))).symm) h.1,
        iGoodNodes_congr hm sub _ _ hwf.1.2 (fun x hx => hn x (by simp [hx])) h.2⟩
  | .phi ins args recs results outs sub, A, all, hwf, hn, h => by
      simp only [wfNode, Bool.and_eq_true, Dne.subset_iff] at hwf
      simp only [IGoodNode, namesNode, List.mem_append, List.mem_cons, List.cons_append] at *
      exact ⟨certNodes_congr sub _ [] hwf.1.2 (by simp) (fun x hx => (ld_congr (hn x (by
          rcases List.mem_append.1 hx with h | h <;> simp [h]))).symm)
          (fun x hx => (ld_congr (hn x (by simp [hx]))).symm) h.1,
        iGoodNodes_congr hm sub _ _ hwf.1.2 (fun x hx => hn x (by simp [hx])) h.2⟩
  | .delta ins args result out sub, A, all, hwf, hn, h => by simp [IGoodNode]

theorem iGoodNodes_congr {c c' : Ctx} (hm : ∀ x, c x = some x → c' x = some x) : ∀ (ns : Nodes) (A : List Out)
    (all : List SNode), wfNodes A ns = true → (∀ x ∈ namesNodes ns, c' x = c x) → IGoodNodes c all ns →
    IGoodNodes c' all ns
  | .nil, A, all, _, _, _ => by simp [IGoodNodes]
  | .cons n ns, A, all, hwf, hn, h => by
      simp only [wfNodes, Bool.and_eq_true] at hwf
      simp only [IGoodNodes, namesNodes, List.mem_append] at *
      exact ⟨iGoodNode_congr hm n A all hwf.1 (fun x hx => hn x (.inl hx)) h.1,
        iGoodNodes_congr hm ns _ all hwf.2 (fun x hx => hn x (.inr hx)) h.2⟩

theorem iGoodRegions_congr {c c' : Ctx} (hm : ∀ x, c x = some x → c' x = some x) : ∀ (rs : Regions) (n m : Nat),
    wfRegions n m rs = true → (∀ x ∈ namesRegions rs, c' x = c x) → IGoodRegions c rs → IGoodRegions c' rs
  | .nil, n, m, _, _, _ => by simp [IGoodRegions]
  | .cons args results sub rest, n, m, hwf, hn, h => by
      simp only [wfRegions, Bool.and_eq_true] at hwf
      simp only [IGoodRegions, namesRegions, List.mem_append] at *
      exact ⟨⟨certNodes_congr sub args [] hwf.1.1.2 (by simp) (fun x hx => (ld_congr (hn x (.inl (.inl hx)))).symm)
          (fun x hx => (ld_congr (hn x (.inl (.inr hx)))).symm) h.1.1,
          iGoodNodes_congr hm sub args _ hwf.1.1.2 (fun x hx => hn x (.inl (.inr hx))) h.1.2⟩,
        iGoodRegions_congr hm rest n m hwf.2 (fun x hx => hn x (.inr hx)) h.2⟩

end

theorem subGood_congr {c c' : Ctx} {A : List Out} {sub : Nodes} (hwf : wfNodes A sub = true)
    (hm : ∀ x, c x = some x → c' x = some x) (hA : ∀ x ∈ A, c' x = c x) (hn : ∀ x ∈ namesNodes sub, c' x = c x)
    (h : SubGood c sub) : SubGood c' sub :=
  ⟨certNodes_congr sub A [] hwf (by simp) (fun x hx => (ld_congr (hA x hx)).symm)
    (fun x hx => (ld_congr (hn x hx)).symm) h.1, iGoodNodes_congr hm sub A _ hwf hn h.2⟩

theorem preNodes_fresh {c : Ctx} {all : List SNode} : ∀ ns : Nodes, Fresh c (namesNodes ns) → PreNodes c all ns
  | .nil, _ => trivial
  | .cons n ns, h => ⟨.inl fun x hx => h x (by simp [namesNodes, hx]),
      preNodes_fresh ns fun x hx => h x (by simp [namesNodes, hx])⟩

theorem preNodes_good {c : Ctx} {all : List SNode} : ∀ ns : Nodes, IGoodNodes c all ns → PreNodes c all ns
  | .nil, _ => trivial
  | .cons n ns, h => ⟨.inr h.1, preNodes_good ns h.2⟩

theorem preNodes_congr {c c' : Ctx} (hm : ∀ x, c x = some x → c' x = some x) : ∀ (ns : Nodes) (A : List Out)
    (all : List SNode), wfNodes A ns = true → (∀ x ∈ namesNodes ns, c' x = c x) → PreNodes c all ns → PreNodes c' all ns
  | .nil, A, all, _, _, _ => trivial
  | .cons n ns, A, all, hwf, hn, h => by
      simp only [wfNodes, Bool.and_eq_true] at hwf
      simp only [PreNodes, namesNodes, List.mem_append] at *
      refine ⟨?_, preNodes_congr hm ns _ all hwf.2 (fun x hx => hn x (.inr hx)) h.2⟩
      rcases h.1 with h | h
      · exact .inl fun x hx => by rw [hn x (.inl hx)]; exact h x hx
      · exact .inr (iGoodNode_congr hm n A all hwf.1 (fun x hx => hn x (.inl hx)) h)

/-! ## Simple nodes -/

/-- No two nodes have an output in common. -/
def Uniq (all : List SNode) : Prop := ∀ m ∈ all, ∀ m' ∈ all, ∀ o, o ∈ m.outs → o ∈ m'.outs → m = m'

theorem own_leaders {c : Ctx} {all : List SNode} {m : SNode} (hu : Uniq all) (hm : m ∈ all) (hs : Sync c all m)
    (ho : isOwn c m = true) : ∀ o ∈ m.outs, c o = some o := by
  obtain ⟨m', h1, h2, h3⟩ := hs
  intro o hom
  cases hmo : m.outs with
  | nil => rw [hmo] at hom; simp at hom
  | cons x xs =>
    simp only [isOwn, hmo, beq_iff_eq] at ho
    rw [hmo] at h2
    cases hmo' : m'.outs with
    | nil => rw [hmo'] at h2; simp at h2
    | cons y ys =>
      rw [hmo'] at h2
      simp only [List.map_cons, List.cons.injEq] at h2
      rw [ho, Option.some.injEq] at h2
      have : m = m' := hu m hm m' h1 x (by simp [hmo]) (by rw [hmo', ← h2.1]; simp)
      rw [this] at hom
      exact h3 o hom

theorem zip_all_map {f : Out → Out} {p : Out → Out → Bool} : ∀ xs ys : List Out, xs.length = ys.length →
    ((xs.zip ys).all fun q => p q.1 q.2 && f q.1 == f q.2) = true → ys.map f = xs.map f
  | [], [], _, _ => rfl
  | [], _ :: _, h, _ => by simp at h
  | _ :: _, [], h, _ => by simp at h
  | x :: xs, y :: ys, h, ha => by
      simp only [List.zip_cons_cons, List.all_cons, Bool.and_eq_true, beq_iff_eq] at ha
      simp only [List.map_cons, List.cons.injEq]
      exact ⟨ha.1.2.symm, zip_all_map xs ys (by simpa using h) ha.2⟩

theorem congruent_spec {cfg : Config} {c : Ctx} {n m : SNode} (h : congruent cfg c n m = true) :
    m.op = n.op ∧ n.outs.length = m.outs.length ∧ m.ins.map (ld c) = n.ins.map (ld c) := by
  simp only [congruent, Bool.and_eq_true, beq_iff_eq] at h
  exact ⟨h.1.1.1.symm, h.1.1.2,
    zip_all_map (p := fun x y => cfg.ty x == cfg.ty y) n.ins m.ins h.1.2 (by simpa using h.2)⟩

/-- What is known when a node of a region is marked. -/
structure MarkEnv (cfg : Config) (all prev tops : List SNode) (A : List Out) (c : Ctx) : Prop where
  strict : cfg.strict = true
  uniq : Uniq all
  prevAll : ∀ m ∈ prev, m ∈ all
  topsPrev : ∀ m ∈ tops, m ∈ prev
  sync : ∀ m ∈ prev, Sync c all m
  prevA : ∀ m ∈ prev, (∀ i ∈ m.ins, i ∈ A) ∧ ∀ o ∈ m.outs, o ∈ A
  idem : Idem c
  marked : ∀ x ∈ A, (c x).isSome = true

theorem map_some_eq {c : Ctx} : ∀ {xs ys : List Out}, xs.map c = ys.map some → xs.map (ld c) = ys
  | [], [], _ => rfl
  | [], _ :: _, h => by simp at h
  | _ :: _, [], h => by simp at h
  | x :: xs, y :: ys, h => by
      simp only [List.map_cons, List.cons.injEq] at h ⊢
      exact ⟨ld_some h.1, map_some_eq h.2⟩

theorem map_some_isSome {c : Ctx} {xs ys : List Out} (h : xs.map c = ys.map some) : ∀ x ∈ xs, (c x).isSome = true := by
  intro x hx
  have : c x ∈ ys.map some := h ▸ List.mem_map_of_mem hx
  obtain ⟨y, _, hy⟩ := List.mem_map.1 this
  rw [← hy]; rfl

theorem candidates_mem {cfg : Config} {c : Ctx} {scope tops : List SNode} {n m : SNode}
    (h : m ∈ candidates cfg c scope tops n) : m ∈ scope ∨ m ∈ tops := by
  simp only [candidates] at h
  split at h
  · exact .inr h
  · obtain ⟨o, _, ho⟩ := List.mem_filterMap.1 h
    exact .inl (List.mem_of_find?_eq_some ho)

theorem simple_mark {cfg : Config} {all prev tops tops' : List SNode} {A : List Out} {c c' : Ctx} {op : Op}
    {ins outs : List Out} (E : MarkEnv cfg all prev tops A c) (hall : (⟨op, ins, outs⟩ : SNode) ∈ all)
    (hi : ∀ i ∈ ins, i ∈ A) (hA : ∀ x ∈ A, x ∉ outs) (hn : outs.Nodup)
    (hpre : Fresh c outs ∨ Sync c all ⟨op, ins, outs⟩)
    (h : markSimple cfg all prev tops ⟨op, ins, outs⟩ c = some (c', tops')) :
    Ext outs c c' ∧ CertNode (ld c') prev (.simple op ins outs) ∧ Sync c' all ⟨op, ins, outs⟩ ∧
      (∀ o ∈ outs, (c' o).isSome = true) ∧ ∀ t ∈ tops', t ∈ prev ++ [⟨op, ins, outs⟩] := by
  have htops : ∀ t ∈ (if ins.isEmpty then tops ++ [(⟨op, ins, outs⟩ : SNode)] else tops),
      t ∈ prev ++ [(⟨op, ins, outs⟩ : SNode)] := by
    intro t ht
    split at ht
    · rcases List.mem_append.1 ht with h | h
      · simp [E.topsPrev t h]
      · simp only [List.mem_singleton] at h; simp [h]
    · simp [E.topsPrev t ht]
  have htops2 : ∀ t ∈ tops, t ∈ prev ++ [(⟨op, ins, outs⟩ : SNode)] := fun t ht => by simp [E.topsPrev t ht]
  simp only [markSimple, E.strict, if_true] at h
  by_cases hown : isOwn c ⟨op, ins, outs⟩ = true
  · rw [if_pos hown] at h
    simp only [Option.some.injEq, Prod.mk.injEq] at h
    obtain ⟨rfl, rfl⟩ := h
    have hs : Sync c all ⟨op, ins, outs⟩ := by
      rcases hpre with hf | hs
      · cases outs with
        | nil => exact ⟨_, hall, rfl, by simp⟩
        | cons o os =>
          have := hf o (by simp)
          simp only [isOwn, beq_iff_eq, this] at hown
          simp at hown
      · exact hs
    have hl := own_leaders E.uniq hall hs hown
    exact ⟨Ext.refl _ _, .inl fun o ho => ld_leader (hl o ho), hs,
      fun o ho => by rw [hl o ho]; rfl, htops⟩
  · rw [if_neg hown] at h
    by_cases htry : ((tryLeader c prev ⟨op, ins, outs⟩).any fun m => congruent cfg c ⟨op, ins, outs⟩ m) = true
    · rw [if_pos htry] at h
      simp only [Option.some.injEq, Prod.mk.injEq] at h
      obtain ⟨rfl, rfl⟩ := h
      cases hm : tryLeader c prev ⟨op, ins, outs⟩ with
      | none => rw [hm] at htry; simp at htry
      | some m =>
        rw [hm, Option.any_some] at htry
        obtain ⟨g1, g2, g3⟩ := congruent_spec htry
        simp only [tryLeader] at hm
        cases ho : outs with
        | nil => rw [ho] at hm; simp at hm
        | cons o os =>
          rw [ho] at hm
          simp only [Option.bind_eq_some_iff] at hm
          obtain ⟨l, hl, hf⟩ := hm
          rw [← ho]
          have hmp := List.mem_of_find?_eq_some hf
          have hlm : l ∈ m.outs := by simpa using List.find?_some hf
          have hs : Sync c all ⟨op, ins, outs⟩ := by
            rcases hpre with hfr | hs
            · have := hfr o (by simp [ho])
              rw [this] at hl; simp at hl
            · exact hs
          obtain ⟨m', q1, q2, q3⟩ := hs
          have hlm' : l ∈ m'.outs := by
            have : some l ∈ m'.outs.map some := by
              rw [← q2, ← hl]
              exact List.mem_map_of_mem (by simp [ho])
            simpa using this
          have hmm : m = m' := E.uniq m (E.prevAll m hmp) m' q1 l hlm hlm'
          subst hmm
          refine ⟨Ext.refl _ _, .inr ⟨m, hmp, g1, g3, map_some_eq q2, fun o ho => ld_leader (q3 o ho)⟩,
            ⟨m, q1, q2, q3⟩, map_some_isSome q2, htops2⟩
    · rw [if_neg htry] at h
      split at h
      · rename_i m hm
        simp only [Option.map_eq_some_iff, Prod.mk.injEq] at h
        obtain ⟨c1, h1, rfl, rfl⟩ := h
        have hmc := candidates_mem (List.mem_of_find?_eq_some hm)
        have hmp : m ∈ prev := by
          rcases hmc with h | h
          · exact h
          · exact E.topsPrev m h
        have hcond := List.find?_some hm
        simp only [Bool.and_eq_true] at hcond
        obtain ⟨g1, g2, g3⟩ := congruent_spec hcond.2
        have hl := own_leaders E.uniq (E.prevAll m hmp) (E.sync m hmp) hcond.1.2
        obtain ⟨q1, q2⟩ := followAll_spec m.outs outs c c1 h1 g2.symm hn hl
        have hmA := E.prevA m hmp
        refine ⟨q1, .inr ⟨m, hmp, g1, ?_, map_some_eq q2, fun o ho => ld_leader (q1.mono o (hl o ho))⟩,
          ⟨m, E.prevAll m hmp, q2, fun o ho => q1.mono o (hl o ho)⟩, map_some_isSome q2, htops2⟩
        rw [map_congr' (τ' := ld c) fun i hi' => ld_congr (q1.frame i (hA i (hmA.1 i hi'))),
          map_congr' (τ' := ld c) fun i hi' => ld_congr (q1.frame i (hA i (hi i hi')))]
        exact g3
      · simp only [Option.some.injEq, Prod.mk.injEq] at h
        obtain ⟨rfl, rfl⟩ := h
        obtain ⟨q1, q2⟩ := ext_leadAll outs c
        exact ⟨q1, .inl fun o ho => ld_leader (q2 o ho),
          ⟨_, hall, List.map_congr_left q2, q2⟩, fun o ho => by rw [q2 o ho]; rfl, htops⟩

/-! ## Exit variables of gamma nodes -/

theorem exitsCongruent_spec {c : Ctx} {k j : Nat} : ∀ (subs : Regions), exitsCongruent c k j subs = true →
    ∀ (b : Nat) (args results : List Out), subs.branch b = some (args, results) →
      (results[j]?).map (ld c) = (results[k]?).map (ld c)
  | .nil, _, b, args, results, hb => by simp [Regions.branch] at hb
  | .cons as rs sub rest, h, 0, args, results, hb => by
      simp only [Regions.branch, Option.some.injEq, Prod.mk.injEq] at hb
      obtain ⟨rfl, rfl⟩ := hb
      simp only [exitsCongruent, Bool.and_eq_true, beq_iff_eq] at h
      exact h.1.symm
  | .cons as rs sub rest, h, b + 1, args, results, hb => by
      simp only [exitsCongruent, Bool.and_eq_true] at h
      exact exitsCongruent_spec rest h.2 b args results (by simpa [Regions.branch] using hb)

theorem externalOrigin_get {ins args : List Out} {r i : Out} (h : Ivr.externalOrigin ins args r = some i) :
    ∃ j : Nat, args[j + 1]? = some r ∧ ins[j]? = some i := by
  have hm := Dne.lookup_mem h
  obtain ⟨j, hj⟩ := List.mem_iff_getElem?.1 hm
  rw [List.getElem?_zip_eq_some] at hj
  refine ⟨j, ?_, hj.2⟩
  have := hj.1
  cases args with
  | nil => simp at this
  | cons a as => simpa using this

theorem exitOrigin_spec {c : Ctx} {ins : List Out} {k : Nat} : ∀ (subs : Regions) (sh : Option Out) (s : Out),
    exitOrigin c ins k sh subs = some (some s) →
    (∀ s', sh = some s' → s' = s) ∧ (sh = none → ∃ i ∈ ins, ld c i = s) ∧
    ∀ (b : Nat) (args results : List Out), subs.branch b = some (args, results) →
      ∃ (j : Nat) (r i' : Out), results[k]? = some r ∧ args[j + 1]? = some r ∧ ins[j]? = some i' ∧ ld c i' = s
  | .nil, sh, s, h => by
      simp only [exitOrigin, Option.some.injEq] at h
      subst h
      exact ⟨fun s' h => by simpa using h.symm, by simp, fun b _ _ hb => by simp [Regions.branch] at hb⟩
  | .cons as rs sub rest, sh, s, h => by
      simp only [exitOrigin] at h
      cases hr : rs[k]? with
      | none => rw [hr] at h; simp at h
      | some r =>
        rw [hr] at h
        simp only at h
        by_cases hh : as.head? = some r
        · rw [if_pos hh] at h; simp at h
        · rw [if_neg hh] at h
          cases he : Ivr.externalOrigin ins as r with
          | none => rw [he] at h; simp at h
          | some i =>
            rw [he] at h
            simp only at h
            obtain ⟨j, hj1, hj2⟩ := externalOrigin_get he
            have hrec : exitOrigin c ins k (some (ld c i)) rest = some (some s) ∧ (∀ s', sh = some s' → s' = ld c i) := by
              cases sh with
              | none => exact ⟨h, by simp⟩
              | some s' =>
                simp only at h
                by_cases hs : s' = ld c i
                · rw [if_pos hs] at h
                  rw [hs] at h
                  exact ⟨h, fun s'' hs'' => by rw [← hs]; simpa using hs''.symm⟩
                · rw [if_neg hs] at h; simp at h
            obtain ⟨g1, g2, g3⟩ := exitOrigin_spec rest _ s hrec.1
            have his : ld c i = s := g1 _ rfl
            refine ⟨fun s' hs' => (hrec.2 s' hs').trans his, fun _ => ⟨i, List.mem_of_getElem? hj2, his⟩, ?_⟩
            intro b args results hb
            cases b with
            | zero =>
              simp only [Regions.branch, Option.some.injEq, Prod.mk.injEq] at hb
              obtain ⟨rfl, rfl⟩ := hb
              exact ⟨j, r, i, hr, hj1, hj2, his⟩
            | succ b => exact g3 b args results (by simpa [Regions.branch] using hb)

/-- Entries of the hash table of exit variables. -/
def TableOk (outs : List Out) (c : Ctx) (table : List (Out × Nat)) : Prop :=
  ∀ e ∈ table, outs[e.2]? = some e.1 ∧ c e.1 = some e.1

theorem tableOk_ext {outs names : List Out} {c c' : Ctx} {table : List (Out × Nat)} (h : TableOk outs c table)
    (he : Ext names c c') : TableOk outs c' table :=
  fun e hem => ⟨(h e hem).1, he.mono _ (h e hem).2⟩

theorem tableOk_snoc {outs : List Out} {c : Ctx} {table : List (Out × Nat)} {o : Out} {k : Nat}
    (h : TableOk outs c table) (h1 : outs[k]? = some o) (h2 : c o = some o) : TableOk outs c (table ++ [(o, k)]) := by
  intro e he
  rcases List.mem_append.1 he with he | he
  · exact h e he
  · simp only [List.mem_singleton] at he
    subst he
    exact ⟨h1, h2⟩

section exits

variable {ins outs : List Out} {subs : Regions}

theorem lookupExit_spec {c c1 : Ctx} {table table1 : List (Out × Nat)} {o : Out} {k : Nat}
    (h : lookupExit c subs table o k = some (c1, table1)) (ho : outs[k]? = some o) (ht : TableOk outs c table)
    (hr : ∀ (b : Nat) (args results : List Out), subs.branch b = some (args, results) → ∀ r ∈ results, r ∉ outs) :
    Ext [o] c c1 ∧ ExitOk (ld c1) ins outs subs k o ∧ (c1 o).isSome = true ∧ TableOk outs c1 table1 := by
  have hom := List.mem_of_getElem? ho
  simp only [lookupExit] at h
  split at h
  · rename_i e he
    have hem := List.mem_of_find?_eq_some he
    have hcong := List.find?_some he
    simp only [Option.map_eq_some_iff, Prod.mk.injEq] at h
    obtain ⟨c2, h1, rfl, rfl⟩ := h
    obtain ⟨t1, t2⟩ := ht e hem
    have hext := ext_follow h1 t2
    have hco : c2 o = some e.1 := by rw [(follow_eq h1).1]; simp [Ctx.set]
    refine ⟨hext, .inl ⟨e.2, e.1, t1, ld_some hco, fun b args results hb => ?_⟩, by rw [hco]; rfl, tableOk_ext ht hext⟩
    have hl : ∀ r ∈ results, ld c2 r = ld c r := fun r hr' => ld_congr (hext.frame r (by
      have := hr b args results hb r hr'
      intro hc
      simp only [List.mem_singleton] at hc
      exact this (hc ▸ hom)))
    rw [get_map_congr hl, get_map_congr hl]
    exact exitsCongruent_spec subs hcong b args results hb
  · simp only [Option.some.injEq, Prod.mk.injEq] at h
    obtain ⟨rfl, rfl⟩ := h
    have hco : lead c o o = some o := by simp [lead, Ctx.set]
    exact ⟨ext_lead c o, .inl ⟨k, o, ho, ld_some hco, fun _ _ _ _ => rfl⟩, by rw [hco]; rfl,
      tableOk_snoc (tableOk_ext ht (ext_lead c o)) ho hco⟩

theorem markExit_spec {c c1 : Ctx} {table table1 : List (Out × Nat)} {o : Out} {k : Nat}
    (h : markExit c ins outs subs table o k = some (c1, table1)) (ho : outs[k]? = some o) (ht : TableOk outs c table)
    (hr : ∀ (b : Nat) (args results : List Out), subs.branch b = some (args, results) → ∀ r ∈ results, r ∉ outs)
    (hid : Idem c) (hm : ∀ i ∈ ins, (c i).isSome = true) (hi : ∀ i ∈ ins, i ∉ outs) :
    Ext [o] c c1 ∧ ExitOk (ld c1) ins outs subs k o ∧ (c1 o).isSome = true ∧ TableOk outs c1 table1 := by
  have hom := List.mem_of_getElem? ho
  simp only [markExit] at h
  by_cases hco : c o = some o
  · rw [if_pos hco] at h
    simp only [Option.some.injEq, Prod.mk.injEq] at h
    obtain ⟨rfl, rfl⟩ := h
    exact ⟨Ext.refl _ _, .inl ⟨k, o, ho, ld_some hco, fun _ _ _ _ => rfl⟩, by rw [hco]; rfl, tableOk_snoc ht ho hco⟩
  · rw [if_neg hco] at h
    split at h
    · rename_i j hj
      simp only [Option.bind_eq_some_iff] at hj
      obtain ⟨l, hl, hj⟩ := hj
      split at hj
      · rename_i hlo
        simp only [Option.some.injEq] at hj
        subst hj
        by_cases hcong : exitsCongruent c k (outs.idxOf l) subs = true
        · rw [if_pos hcong] at h
          simp only [Option.some.injEq, Prod.mk.injEq] at h
          obtain ⟨rfl, rfl⟩ := h
          refine ⟨Ext.refl _ _, .inl ⟨outs.idxOf l, l, ?_, ld_some hl, exitsCongruent_spec subs hcong⟩,
            by rw [hl]; rfl, ht⟩
          have := List.idxOf_lt_length_iff.2 hlo
          rw [List.getElem?_eq_getElem this, List.getElem_idxOf this]
        · rw [if_neg hcong] at h
          exact lookupExit_spec h ho ht hr
      · simp at hj
    · split at h
      · simp at h
      · rename_i s hs
        simp only [Option.map_eq_some_iff, Prod.mk.injEq] at h
        obtain ⟨c2, h1, rfl, rfl⟩ := h
        obtain ⟨_, g2, g3⟩ := exitOrigin_spec subs none s hs
        obtain ⟨i, hin, his⟩ := g2 rfl
        have hsl : c s = some s := by
          have := hid.ld (hm i hin)
          rwa [his] at this
        have hext := ext_follow h1 hsl
        have hc2 : c2 o = some s := by rw [(follow_eq h1).1]; simp [Ctx.set]
        have hli : ∀ i ∈ ins, ld c2 i = ld c i := fun i hi' => ld_congr (hext.frame i (by
          intro hc
          simp only [List.mem_singleton] at hc
          exact hi i hi' (hc ▸ hom)))
        refine ⟨hext, .inr ⟨i, hin, by rw [ld_some hc2, hli i hin, his], fun b args results hb => ?_⟩,
          by rw [hc2]; rfl, tableOk_ext ht hext⟩
        obtain ⟨j, r, i', s1, s2, s3, s4⟩ := g3 b args results hb
        exact ⟨j, r, i', s1, s2, s3, by rw [hli i' (List.mem_of_getElem? s3), hli i hin, his, s4]⟩
      · exact lookupExit_spec h ho ht hr

theorem markExits_spec
    (hr : ∀ (b : Nat) (args results : List Out), subs.branch b = some (args, results) → ∀ r ∈ results, r ∉ outs)
    (hi : ∀ i ∈ ins, i ∉ outs) : ∀ (rest table : List (Out × Nat)) (c c' : Ctx),
    markExits ins outs subs c table rest = some c' → (∀ p ∈ rest, outs[p.2]? = some p.1) →
    (rest.map (·.1)).Nodup → TableOk outs c table → Idem c → (∀ i ∈ ins, (c i).isSome = true) →
    Ext outs c c' ∧ ((∀ x, x ∉ rest.map (·.1) → c' x = c x) ∧
      ∀ p ∈ rest, ExitOk (ld c') ins outs subs p.2 p.1 ∧ (c' p.1).isSome = true)
  | [], table, c, c', h, _, _, _, _, _ => by
      simp only [markExits, Option.some.injEq] at h
      subst h
      exact ⟨Ext.refl _ _, fun _ _ => rfl, by simp⟩
  | (o, k) :: rest, table, c, c', h, hp, hn, ht, hid, hm => by
      simp only [markExits, Option.bind_eq_some_iff] at h
      obtain ⟨⟨c1, table1⟩, h1, h2⟩ := h
      have ho := hp (o, k) (by simp)
      have hom := List.mem_of_getElem? ho
      simp only [List.map_cons] at hn
      have hn' := List.nodup_cons.1 hn
      obtain ⟨g1, g2, g3, g4⟩ := markExit_spec h1 ho ht hr hid hm hi
      have g1' : Ext outs c c1 := g1.weaken (by simpa using hom)
      obtain ⟨q1, q2, q3⟩ := markExits_spec hr hi rest table1 c1 c' h2 (fun p hp' => hp p (by simp [hp'])) hn'.2 g4
        (g1.idem hid) (fun i hi' => by rw [g1'.frame i (hi i hi')]; exact hm i hi')
      refine ⟨g1'.trans q1, fun x hx => ?_, fun p hpm => ?_⟩
      · simp only [List.map_cons, List.mem_cons, not_or] at hx
        rw [q2 x hx.2, g1.frame x (by simpa using hx.1)]
      · rcases List.mem_cons.1 hpm with hpm | hpm
        · subst hpm
          have hc' : c' o = c1 o := q2 o hn'.1
          refine ⟨exitOk_congr g2 (ld_congr hc').symm (fun i hi' => (ld_congr (q1.frame i (hi i hi'))).symm) ?_,
            by simp only; rw [hc']; exact g3⟩
          intro b args results hb r hr'
          exact (ld_congr (q1.frame r (hr b args results hb r hr'))).symm
        · exact q3 p hpm

end exits

/-! ## Loop variables -/

theorem argsOk_get {τ : Out → Out} {args keys : List Out} (h : ArgsOk τ args keys) (hn : args.Nodup) {k j : Nat}
    {a b : Out} (hk : args[k]? = some a) (hj : args[j]? = some b) (hτ : τ a = τ b) :
    (keys[j]?).map τ = (keys[k]?).map τ := by
  obtain ⟨k', a', g1, g2, g3⟩ := h k a hk
  obtain ⟨j', b', s1, s2, s3⟩ := h j b hj
  have : a' = b' := by rw [← g2, ← s2, hτ]
  subst this
  have hkj : k' = j' := by
    obtain ⟨p1, p2⟩ := List.getElem?_eq_some_iff.1 g1
    obtain ⟨q1, q2⟩ := List.getElem?_eq_some_iff.1 s1
    rw [← hn.idxOf_getElem k' p1, ← hn.idxOf_getElem j' q1, p2, q2]
  subst hkj
  rw [← s3, g3]

theorem thetaInvariant_ok {c : Ctx} {ins args posts : List Out} {k : Nat} {i : Out}
    (h : thetaInvariant c ins args posts k = some i) (hid : ∀ x ∈ posts, ld c (ld c x) = ld c x) (hn : args.Nodup)
    (h1 : ins.length = args.length) (h2 : posts.length = args.length)
    (hi : ArgsOk (ld c) args ins) (hp : ArgsOk (ld c) args posts) :
    ∃ (j : Nat) (a i' : Out), args[j]? = some a ∧ ins[j]? = some i' ∧ (posts[k]?).map (ld c) = some a ∧
      (posts[j]?).map (ld c) = some a ∧ ld c i = ld c i' := by
  simp only [thetaInvariant] at h
  cases hpk : posts[k]? with
  | none => rw [hpk] at h; simp at h
  | some p =>
    rw [hpk] at h
    simp only at h
    by_cases ha : args[k]? = some p
    · rw [if_pos ha] at h
      obtain ⟨j, b, g1, g2, g3⟩ := hp k p ha
      obtain ⟨i', hi'⟩ := getElem?_of_len h1.symm g1
      rw [hpk] at g3
      simp only [Option.map_some] at g3
      have hb : ld c b = ld c p := by
        have := hid p (List.mem_of_getElem? hpk)
        rwa [g2] at this ⊢
      have hkey := argsOk_get hi hn ha g1 hb.symm
      rw [h, hi', Option.map_some, Option.map_some, Option.some.injEq] at hkey
      exact ⟨j, b, i', g1, hi', by rw [Option.map_some, g2], by rw [g3, g2], hkey.symm⟩
    · rw [if_neg ha] at h
      by_cases ha' : args[k]? = some (ld c p)
      · rw [if_pos ha'] at h
        exact ⟨k, ld c p, i, ha', h, by rw [Option.map_some], by rw [hpk, Option.map_some], rfl⟩
      · rw [if_neg ha'] at h
        by_cases hm : ld c p ∈ args
        · rw [if_pos hm] at h
          have hj : args[args.idxOf (ld c p)]? = some (ld c p) := by
            have := List.idxOf_lt_length_iff.2 hm
            rw [List.getElem?_eq_getElem this, List.getElem_idxOf this]
          cases hq : posts[args.idxOf (ld c p)]? with
          | none => rw [hq] at h; simp at h
          | some q =>
            rw [hq] at h
            simp only at h
            have hres : ld c q = ld c p → ins[args.idxOf (ld c p)]? = some i →
                ∃ (j : Nat) (a i' : Out), args[j]? = some a ∧ ins[j]? = some i' ∧ (some p).map (ld c) = some a ∧
                  (posts[j]?).map (ld c) = some a ∧ ld c i = ld c i' := fun hl hins =>
              ⟨args.idxOf (ld c p), ld c p, i, hj, hins, by rw [Option.map_some], by rw [hq, Option.map_some, hl], rfl⟩
            by_cases hqe : q = ld c p
            · rw [if_pos hqe] at h
              exact hres (by rw [hqe]; exact hid p (List.mem_of_getElem? hpk)) h
            · rw [if_neg hqe] at h
              by_cases hqe' : ld c q = ld c p
              · rw [if_pos hqe'] at h
                exact hres hqe' h
              · rw [if_neg hqe'] at h; simp at h
        · rw [if_neg hm] at h; simp at h

theorem thetaInvariant_mem {c : Ctx} {ins args posts : List Out} {k : Nat} {i : Out}
    (h : thetaInvariant c ins args posts k = some i) : i ∈ ins := by
  simp only [thetaInvariant] at h
  cases hpk : posts[k]? with
  | none => rw [hpk] at h; simp at h
  | some p =>
    rw [hpk] at h
    simp only at h
    by_cases ha : args[k]? = some p
    · rw [if_pos ha] at h; exact List.mem_of_getElem? h
    · rw [if_neg ha] at h
      by_cases ha' : args[k]? = some (ld c p)
      · rw [if_pos ha'] at h; exact List.mem_of_getElem? h
      · rw [if_neg ha'] at h
        by_cases hm : ld c p ∈ args
        · rw [if_pos hm] at h
          cases hq : posts[args.idxOf (ld c p)]? with
          | none => rw [hq] at h; simp at h
          | some q =>
            rw [hq] at h
            simp only at h
            by_cases hqe : q = ld c p
            · rw [if_pos hqe] at h; exact List.mem_of_getElem? h
            · rw [if_neg hqe] at h
              by_cases hqe' : ld c q = ld c p
              · rw [if_pos hqe'] at h; exact List.mem_of_getElem? h
              · rw [if_neg hqe'] at h; simp at h
        · rw [if_neg hm] at h; simp at h

/-- Outputs of loop variables are marked; `c0` are the sets before. -/
theorem markLoopOuts_spec {ins outs args posts : List Out} {onlyInv : Bool} {c0 : Ctx} (hi : ∀ i ∈ ins, i ∉ outs)
    (hp : ∀ p ∈ posts, p ∉ outs) (hm : ∀ i ∈ ins, (c0 i).isSome = true) :
    ∀ (rest : List (Out × Nat)) (table : List (Out × Out)) (c c' : Ctx),
    markLoopOuts ins args posts onlyInv c table rest = some c' → (∀ q ∈ rest, outs[q.2]? = some q.1) →
    (rest.map (·.1)).Nodup → Idem c → (∀ x, x ∉ outs → c x = c0 x) →
    (∀ e ∈ table, ∃ (j : Nat), outs[j]? = some e.2 ∧ (posts[j]?).map (ld c0) = some e.1 ∧ c e.2 = some e.2) →
    Ext outs c c' ∧ (∀ x, x ∉ rest.map (·.1) → c' x = c x) ∧
    ∀ q ∈ rest, (∀ i, thetaInvariant c0 ins args posts q.2 = some i → c' q.1 = some (ld c0 i)) ∧
      (thetaInvariant c0 ins args posts q.2 = none →
        (onlyInv = true → c' q.1 = c q.1) ∧
        (onlyInv = false → ∃ (j : Nat) (o' : Out), outs[j]? = some o' ∧ c' q.1 = some o' ∧
          (posts[j]?).map (ld c0) = (posts[q.2]?).map (ld c0)))
  | [], table, c, c', h, _, _, _, _, _ => by
      simp only [markLoopOuts, Option.some.injEq] at h
      subst h
      exact ⟨Ext.refl _ _, fun _ _ => rfl, by simp⟩
  | (o, k) :: rest, table, c, c', h, hq, hn, hid, hc0, ht => by
      have ho := hq (o, k) (by simp)
      simp only at ho
      have hom := List.mem_of_getElem? ho
      simp only [List.map_cons] at hn
      have hn' := List.nodup_cons.1 hn
      have hinv : thetaInvariant c ins args posts k = thetaInvariant c0 ins args posts k :=
        thetaInvariant_congr (fun p hp' => hc0 p (hp p hp')) k
      -- one step, to `c1`
      have hstep : ∃ (c1 : Ctx) (table1 : List (Out × Out)), Ext [o] c c1 ∧
          markLoopOuts ins args posts onlyInv c1 table1 rest = some c' ∧
          (∀ e ∈ table1, ∃ (j : Nat), outs[j]? = some e.2 ∧ (posts[j]?).map (ld c0) = some e.1 ∧ c1 e.2 = some e.2) ∧
          (∀ i, thetaInvariant c0 ins args posts k = some i → c1 o = some (ld c0 i)) ∧
          (thetaInvariant c0 ins args posts k = none →
            (onlyInv = true → c1 o = c o) ∧
            (onlyInv = false → ∃ (j : Nat) (o' : Out), outs[j]? = some o' ∧ c1 o = some o' ∧
              (posts[j]?).map (ld c0) = (posts[k]?).map (ld c0))) := by
        simp only [markLoopOuts, hinv] at h
        cases hti : thetaInvariant c0 ins args posts k with
        | some i =>
          rw [hti] at h
          simp only [Option.bind_eq_some_iff] at h
          obtain ⟨c1, h1, h2⟩ := h
          have hii := thetaInvariant_mem hti
          have hci := hc0 i (hi i hii)
          have hl := hid.ld (x := i) (by rw [hci]; exact hm i hii)
          have hext := ext_follow h1 hl
          refine ⟨c1, table, hext, h2, fun e he => ?_, fun i' hi' => ?_, fun hnone => by simp at hnone⟩
          · obtain ⟨j, t1, t2, t3⟩ := ht e he
            exact ⟨j, t1, t2, hext.mono _ t3⟩
          · cases hi'
            rw [(follow_eq h1).1, ← ld_congr hci]; simp [Ctx.set]
        | none =>
          rw [hti] at h
          simp only at h
          cases honly : onlyInv with
          | true =>
            rw [honly] at h
            simp only [if_true] at h
            exact ⟨c, table, Ext.refl _ _, h, ht, by simp, fun _ => ⟨fun _ => rfl, by simp⟩⟩
          | false =>
            rw [honly] at h
            simp only [Bool.false_eq_true, if_false] at h
            cases hpk : posts[k]? with
            | none => rw [hpk] at h; simp at h
            | some p =>
              rw [hpk] at h
              simp only at h
              have hlp : ld c p = ld c0 p := ld_congr (hc0 p (hp p (List.mem_of_getElem? hpk)))
              split at h
              · rename_i e he
                have hem := List.mem_of_find?_eq_some he
                have hek : e.1 = ld c p := by simpa using List.find?_some he
                simp only [Option.bind_eq_some_iff] at h
                obtain ⟨c1, h1, h2⟩ := h
                obtain ⟨j, t1, t2, t3⟩ := ht e hem
                have hext := ext_follow h1 t3
                refine ⟨c1, table, hext, h2, fun e' he' => ?_, by simp, fun _ => ⟨by simp, fun _ => ⟨j, e.2, t1, ?_, ?_⟩⟩⟩
                · obtain ⟨j', t1', t2', t3'⟩ := ht e' he'
                  exact ⟨j', t1', t2', hext.mono _ t3'⟩
                · rw [(follow_eq h1).1]; simp [Ctx.set]
                · rw [t2, hek, hlp, Option.map_some]
              · have hlead : lead c o o = some o := by simp [lead, Ctx.set]
                refine ⟨lead c o, table ++ [(ld c p, o)], ext_lead c o, h, fun e he => ?_, by simp,
                  fun _ => ⟨by simp, fun _ => ⟨k, o, ho, hlead, by rw [hpk]⟩⟩⟩
                rcases List.mem_append.1 he with he | he
                · obtain ⟨j', t1', t2', t3'⟩ := ht e he
                  exact ⟨j', t1', t2', (ext_lead c o).mono _ t3'⟩
                · simp only [List.mem_singleton] at he
                  subst he
                  exact ⟨k, ho, by rw [hpk, Option.map_some, hlp], hlead⟩
      obtain ⟨c1, table1, s1, s2, s3, s4, s5⟩ := hstep
      have s1' : Ext outs c c1 := s1.weaken (by simpa using hom)
      obtain ⟨q1, q2, q3⟩ := markLoopOuts_spec hi hp hm rest table1 c1 c' s2 (fun q hq' => hq q (by simp [hq'])) hn'.2
        (s1.idem hid) (fun x hx => by rw [s1'.frame x hx]; exact hc0 x hx) s3
      refine ⟨s1'.trans q1, fun x hx => ?_, fun q hqm => ?_⟩
      · simp only [List.map_cons, List.mem_cons, not_or] at hx
        rw [q2 x hx.2, s1.frame x (by simpa using hx.1)]
      · rcases List.mem_cons.1 hqm with hqm | hqm
        · subst hqm
          have hc' : c' o = c1 o := q2 o hn'.1
          simp only [hc']
          exact ⟨s4, s5⟩
        · obtain ⟨u1, u2⟩ := q3 q hqm
          refine ⟨u1, fun hnone => ⟨fun honly => ?_, (u2 hnone).2⟩⟩
          rw [(u2 hnone).1 honly, s1.frame]
          intro hc
          simp only [List.mem_singleton] at hc
          exact hn'.1 (hc ▸ List.mem_map_of_mem hqm)

end Jlm.Opt.Cne
