import Verif.Opt.CneMarkAll

/-!
# Common node elimination of /repo on modules without loops

Without theta nodes every region is marked once, and /repo does the same as the repaired program.
-/

set_option linter.unusedSimpArgs false
set_option linter.unusedVariables false

namespace Jlm.Opt

mutual

/-- No theta node, not even in a subregion. -/
def Node.loopFree : Node → Bool
  | .simple _ _ _ => true
  | .gamma _ _ _ subs => subs.loopFree
  | .theta _ _ _ _ _ _ => false
  | .lambda _ _ _ _ _ sub => sub.loopFree
  | .phi _ _ _ _ _ sub => sub.loopFree
  | .delta _ _ _ _ _ => true

def Nodes.loopFree : Nodes → Bool
  | .nil => true
  | .cons n ns => n.loopFree && ns.loopFree

def Regions.loopFree : Regions → Bool
  | .nil => true
  | .cons _ _ sub rest => sub.loopFree && rest.loopFree

end

namespace Cne

/-! ## Frames -/

/-- `c'` differs from `c` on `names` only. -/
def Frame (names : List Out) (c c' : Ctx) : Prop := ∀ x, x ∉ names → c' x = c x

theorem Frame.refl (names : List Out) (c : Ctx) : Frame names c c := fun _ _ => rfl

theorem Frame.trans {names : List Out} {a b c : Ctx} (h1 : Frame names a b) (h2 : Frame names b c) : Frame names a c :=
  fun x hx => (h2 x hx).trans (h1 x hx)

theorem Frame.weaken {names names' : List Out} {a b : Ctx} (h : Frame names a b) (hs : ∀ x ∈ names, x ∈ names') :
    Frame names' a b := fun x hx => h x fun hc => hx (hs x hc)

theorem frame_follow {c c' : Ctx} {s o : Out} (h : follow c s o = some c') : Frame [o] c c' := by
  rw [(follow_eq h).1]
  intro x hx
  have : x ≠ o := by simpa using hx
  simp [Ctx.set, this]

theorem frame_followAll : ∀ (ls os : List Out) (c c' : Ctx), followAll c ls os = some c' → Frame os c c'
  | [], os, c, c', h => by simp only [followAll, Option.some.injEq] at h; subst h; exact Frame.refl _ _
  | l :: ls, [], c, c', h => by simp only [followAll, Option.some.injEq] at h; subst h; exact Frame.refl _ _
  | l :: ls, o :: os, c, c', h => by
      simp only [followAll, Option.bind_eq_some_iff] at h
      obtain ⟨c1, h1, h2⟩ := h
      exact ((frame_follow h1).weaken (by simp)).trans ((frame_followAll ls os c1 c' h2).weaken fun x hx => by simp [hx])

theorem frame_simple {cfg : Config} {all prev tops tops' : List SNode} {n : SNode} {c c' : Ctx}
    (h : markSimple cfg all prev tops n c = some (c', tops')) : Frame n.outs c c' := by
  simp only [markSimple] at h
  by_cases h1 : isOwn c n = true
  · rw [if_pos h1] at h
    simp only [Option.some.injEq, Prod.mk.injEq] at h
    rw [← h.1]; exact Frame.refl _ _
  · rw [if_neg h1] at h
    generalize (if cfg.strict = true then prev else all) = scope at h
    by_cases h2 : ((tryLeader c scope n).any fun m => congruent cfg c n m) = true
    · rw [if_pos h2] at h
      simp only [Option.some.injEq, Prod.mk.injEq] at h
      rw [← h.1]; exact Frame.refl _ _
    · rw [if_neg h2] at h
      cases hf : (candidates cfg c scope tops n).find? fun m =>
          m.outs != n.outs && isOwn c m && congruent cfg c n m with
      | some m =>
        rw [hf] at h
        simp only [Option.map_eq_some_iff, Prod.mk.injEq] at h
        obtain ⟨c1, h1, rfl, _⟩ := h
        exact frame_followAll _ _ _ _ h1
      | none =>
        rw [hf] at h
        simp only [Option.some.injEq, Prod.mk.injEq] at h
        rw [← h.1]; exact (ext_leadAll n.outs c).1.frame

theorem frame_partitionGo : ∀ (args : List (Out × Key)) (c : Ctx) (news : List ((Option Out × Key) × Out)) (ch : Bool)
    (c' : Ctx) (ch' : Bool), partitionGo c news ch args = some (c', ch') → Frame (args.map (·.1)) c c'
  | [], c, news, ch, c', ch', h => by
      simp only [partitionGo, Option.some.injEq, Prod.mk.injEq] at h
      rw [← h.1]; exact Frame.refl _ _
  | (a, key) :: rest, c, news, ch, c', ch', h => by
      have hw : ∀ {c1 c2 : Ctx}, Frame (rest.map (·.1)) c1 c2 → Frame (((a, key) :: rest).map (·.1)) c1 c2 :=
        fun h => h.weaken fun x hx => by simp only [List.map_cons, List.mem_cons]; exact .inr hx
      simp only [partitionGo] at h
      split at h
      · split at h
        · exact hw (frame_partitionGo rest _ _ _ _ _ h)
        · simp only [Option.bind_eq_some_iff] at h
          obtain ⟨c1, h1, h2⟩ := h
          exact ((frame_follow h1).weaken (by simp)).trans (hw (frame_partitionGo rest _ _ _ _ _ h2))
      · exact ((ext_lead c a).frame |> fun hf => Frame.weaken hf (by simp)).trans
          (hw (frame_partitionGo rest _ _ _ _ _ h))

theorem frame_markSub {mark : Ctx → Option Ctx} {names : List Out} (hm : ∀ c c', mark c = some c' → Frame names c c')
    {argsK : List (Out × Key)} {c c' : Ctx} {ch : Bool} (h : markSub mark argsK c = some (c', ch)) :
    Frame (argsK.map (·.1) ++ names) c c' := by
  simp only [markSub] at h
  split at h
  · simp only [Option.map_eq_some_iff, Prod.mk.injEq] at h
    obtain ⟨c1, h1, rfl, _⟩ := h
    exact (hm _ _ h1).weaken fun x hx => by simp [hx]
  · simp only [Option.bind_eq_some_iff] at h
    obtain ⟨⟨c1, ch1⟩, h1, h2⟩ := h
    have hf := (frame_partitionGo _ _ _ _ _ _ h1).weaken (names' := argsK.map (·.1) ++ names)
      fun x hx => List.mem_append.2 (.inl hx)
    simp only at h2
    split at h2
    · simp only [Option.map_eq_some_iff, Prod.mk.injEq] at h2
      obtain ⟨c2, h2, rfl, _⟩ := h2
      exact hf.trans ((hm _ _ h2).weaken fun x hx => by simp [hx])
    · simp only [Option.some.injEq, Prod.mk.injEq] at h2
      rw [← h2.1]; exact hf

theorem frame_lookupExit {c c' : Ctx} {subs : Regions} {table table' : List (Out × Nat)} {o : Out} {k : Nat}
    (h : lookupExit c subs table o k = some (c', table')) : Frame [o] c c' := by
  simp only [lookupExit] at h
  split at h
  · simp only [Option.map_eq_some_iff, Prod.mk.injEq] at h
    obtain ⟨c1, h1, rfl, _⟩ := h
    exact frame_follow h1
  · simp only [Option.some.injEq, Prod.mk.injEq] at h
    rw [← h.1]; exact (ext_lead c o).frame

theorem frame_markExit {c c' : Ctx} {ins outs : List Out} {subs : Regions} {table table' : List (Out × Nat)} {o : Out}
    {k : Nat} (h : markExit c ins outs subs table o k = some (c', table')) : Frame [o] c c' := by
  simp only [markExit] at h
  split at h
  · simp only [Option.some.injEq, Prod.mk.injEq] at h
    rw [← h.1]; exact Frame.refl _ _
  · split at h
    · split at h
      · simp only [Option.some.injEq, Prod.mk.injEq] at h
        rw [← h.1]; exact Frame.refl _ _
      · exact frame_lookupExit h
    · split at h
      · simp at h
      · simp only [Option.map_eq_some_iff, Prod.mk.injEq] at h
        obtain ⟨c1, h1, rfl, _⟩ := h
        exact frame_follow h1
      · exact frame_lookupExit h

theorem frame_markExits {ins outs : List Out} {subs : Regions} : ∀ (rest table : List (Out × Nat)) (c c' : Ctx),
    markExits ins outs subs c table rest = some c' → Frame (rest.map (·.1)) c c'
  | [], table, c, c', h => by simp only [markExits, Option.some.injEq] at h; subst h; exact Frame.refl _ _
  | (o, k) :: rest, table, c, c', h => by
      simp only [markExits, Option.bind_eq_some_iff] at h
      obtain ⟨⟨c1, t1⟩, h1, h2⟩ := h
      exact ((frame_markExit h1).weaken (by simp)).trans ((frame_markExits rest t1 c1 c' h2).weaken fun x hx => by
        simp only [List.map_cons, List.mem_cons]; exact .inr hx)

theorem frame_ctx {mark : Ctx → Option Ctx} {names : List Out} (hm : ∀ c c', mark c = some c' → Frame names c c')
    {ps args ins outs : List Out} {c : Ctx} {r : Ctx × Bool} (hl : ins.length = args.length)
    (h : markSub mark (uniqueKeys ps ++ inputKeys c args ins) c = some r) :
    Frame (outs ++ (ps ++ args ++ names)) c (leadAll r.1 outs) := by
  have h1 := frame_markSub (c' := r.1) (ch := r.2) hm h
  rw [keys_fst hl.symm] at h1
  exact (h1.weaken fun x hx => List.mem_append.2 (.inr hx)).trans
    (Frame.weaken (ext_leadAll outs r.1).1.frame fun x hx => List.mem_append.2 (.inl hx))

mutual

theorem frame_node {cfg : Config} : ∀ (n : Node) (A : List Out) (all prev tops : List SNode) (c : Ctx)
    (r : Ctx × List SNode), n.loopFree = true → wfNode A n = true → markNode cfg n all prev tops c = some r →
    Frame (namesNode n) c r.1
  | .simple op ins outs, A, all, prev, tops, c, r, hl, hwf, h => by
      simp only [markNode] at h
      exact frame_simple (tops' := r.2) h
  | .gamma pred ins outs subs, A, all, prev, tops, c, r, hl, hwf, h => by
      simp only [Node.loopFree] at hl
      simp only [wfNode, Bool.and_eq_true] at hwf
      simp only [markNode, Option.bind_eq_some_iff, Option.map_eq_some_iff] at h
      obtain ⟨c1, h1, c2, h2, rfl⟩ := h
      simp only [namesNode]
      have := frame_markExits _ _ _ _ h2
      rw [List.zipIdx_map_fst] at this
      exact ((frame_regions subs ins _ c c1 hl hwf.2 h1).weaken fun x hx => List.mem_append.2 (.inr hx)).trans
        (this.weaken fun x hx => List.mem_append.2 (.inl hx))
  | .theta ins outs args pred posts sub, A, all, prev, tops, c, r, hl, hwf, h => by simp [Node.loopFree] at hl
  | .lambda ins args params results out sub, A, all, prev, tops, c, r, hl, hwf, h => by
      simp only [Node.loopFree] at hl
      simp only [wfNode, Bool.and_eq_true, beq_iff_eq] at hwf
      simp only [markNode, Option.map_eq_some_iff] at h
      obtain ⟨r1, h1, rfl⟩ := h
      have := frame_ctx (outs := [out]) (fun c c' h => frame_nodes sub _ _ _ _ c c' hl hwf.1.2 h) hwf.1.1.2 h1
      simpa [namesNode] using this
  | .phi ins args recs results outs sub, A, all, prev, tops, c, r, hl, hwf, h => by
      simp only [Node.loopFree] at hl
      simp only [wfNode, Bool.and_eq_true, beq_iff_eq] at hwf
      simp only [markNode, Option.map_eq_some_iff] at h
      obtain ⟨r1, h1, rfl⟩ := h
      have := frame_ctx (outs := outs) (fun c c' h => frame_nodes sub _ _ _ _ c c' hl hwf.1.2 h) hwf.1.1.1.1.2 h1
      simpa [namesNode] using this
  | .delta ins args result out sub, A, all, prev, tops, c, r, hl, hwf, h => by
      simp only [markNode, Option.some.injEq] at h
      subst h
      exact Frame.weaken (ext_leadAll [out] c).1.frame (by simp [namesNode])

theorem frame_nodes {cfg : Config} : ∀ (ns : Nodes) (A : List Out) (all prev tops : List SNode) (c c' : Ctx),
    ns.loopFree = true → wfNodes A ns = true → markNodes cfg ns all prev tops c = some c' → Frame (namesNodes ns) c c'
  | .nil, A, all, prev, tops, c, c', _, _, h => by
      simp only [markNodes, Option.some.injEq] at h
      subst h; exact Frame.refl _ _
  | .cons n ns, A, all, prev, tops, c, c', hl, hwf, h => by
      simp only [Nodes.loopFree, Bool.and_eq_true] at hl
      simp only [wfNodes, Bool.and_eq_true] at hwf
      simp only [markNodes, Option.bind_eq_some_iff] at h
      obtain ⟨r, h1, h2⟩ := h
      simp only [namesNodes]
      exact ((frame_node n A all prev tops c r hl.1 hwf.1 h1).weaken fun x hx => by simp [hx]).trans
        ((frame_nodes ns _ _ _ _ _ c' hl.2 hwf.2 h2).weaken fun x hx => by simp [hx])

theorem frame_regions {cfg : Config} : ∀ (rs : Regions) (ins : List Out) (m : Nat) (c c' : Ctx), rs.loopFree = true →
    wfRegions (ins.length + 1) m rs = true → markRegions cfg rs ins c = some c' → Frame (namesRegions rs) c c'
  | .nil, ins, m, c, c', _, _, h => by
      simp only [markRegions, Option.some.injEq] at h
      subst h; exact Frame.refl _ _
  | .cons args results sub rest, ins, m, c, c', hl, hwf, h => by
      simp only [Regions.loopFree, Bool.and_eq_true] at hl
      simp only [wfRegions, Bool.and_eq_true, beq_iff_eq] at hwf
      simp only [markRegions, Option.bind_eq_some_iff] at h
      obtain ⟨⟨c1, ch⟩, h1, h2⟩ := h
      cases args with
      | nil => simp at hwf
      | cons a as =>
        simp only [List.length_cons, Nat.add_right_cancel_iff] at hwf
        have h3 := frame_markSub (fun c c' h => frame_nodes sub _ _ _ _ c c' hl.1 hwf.1.1.2 h) h1
        rw [keys_fst (by simpa using hwf.1.1.1.1)] at h3
        simp only [namesRegions]
        exact (h3.weaken fun x hx => List.mem_append.2 (.inl (by simpa using hx))).trans
          ((frame_regions rest ins m c1 c' hl.2 hwf.2 h2).weaken fun x hx => List.mem_append.2 (.inr hx))

end

/-! ## /repo and the repaired program do the same -/

/-- The two programs. -/
def Config.with (cfg : Config) (strict : Bool) : Config := { cfg with strict := strict }

theorem congruent_with (cfg : Config) (s : Bool) (c : Ctx) (n m : SNode) :
    congruent (cfg.with s) c n m = congruent cfg c n m := rfl

theorem find_cands {cfg : Config} {c : Ctx} {prev rest tops : List SNode} {n : SNode} {p : SNode → Bool}
    (hp : ∀ m ∈ rest, p m = true → m.outs = []) :
    (candidates cfg c (prev ++ rest) tops n).find? p = (candidates cfg c prev tops n).find? p := by
  simp only [candidates]
  split
  · rfl
  · induction cfg.order c n.outs with
    | nil => rfl
    | cons o os ih =>
      simp only [List.find?_append] at ih
      simp only [List.filterMap_cons, List.find?_append]
      cases h1 : prev.find? (fun m => m.outs.head? == some o) with
      | some m =>
        simp only [Option.some_or, List.find?_cons]
        rw [ih]
      | none =>
        simp only [Option.none_or]
        cases h2 : rest.find? (fun m => m.outs.head? == some o) with
        | none => simp only; exact ih
        | some m =>
          have hm := List.mem_of_find?_eq_some h2
          have ho := List.find?_some h2
          have : p m = false := by
            by_cases hpm : p m = true
            · have := hp m hm hpm
              rw [this] at ho
              simp at ho
            · simpa using hpm
          simp only [List.find?_cons, this]
          exact ih

theorem markSimple_eq {cfg : Config} {prev rest tops : List SNode} {n : SNode} {c : Ctx}
    (hn : Fresh c n.outs) (hr : ∀ m ∈ rest, Fresh c m.outs) :
    markSimple (cfg.with false) (prev ++ rest) prev tops n c = markSimple (cfg.with true) (prev ++ rest) prev tops n c := by
  simp only [markSimple, congruent_with]
  have e1 : (cfg.with false).strict = false := rfl
  have e2 : (cfg.with true).strict = true := rfl
  have htry : ∀ scope, tryLeader c scope n = none := by
    intro scope
    simp only [tryLeader]
    cases ho : n.outs with
    | nil => rfl
    | cons o os => simp [hn o (by simp [ho])]
  simp only [e1, e2, htry, Bool.false_eq_true, if_false, if_true, Option.any_none]
  have hc : ∀ s scope, candidates (cfg.with s) c scope tops n = candidates cfg c scope tops n := fun _ _ => rfl
  rw [hc, hc, find_cands]
  intro m hm hp
  simp only [Bool.and_eq_true] at hp
  cases ho : m.outs with
  | nil => rfl
  | cons o os =>
    have := hp.1.2
    simp only [isOwn, ho, hr m hm o (by simp [ho])] at this
    simp at this

theorem simples_fresh {c : Ctx} {ns : Nodes} (h : Fresh c (namesNodes ns)) : ∀ m ∈ ns.simples, Fresh c m.outs :=
  fun m hm o ho => h o (simples_outs hm o ho)

theorem markSub_eq {mark mark' : Ctx → Option Ctx} {argsK : List (Out × Key)} {c : Ctx} {names : List Out}
    (h : ∀ c, Fresh c names → mark c = mark' c) (hf : Fresh c names) (hd : ∀ x ∈ names, x ∉ argsK.map (·.1)) :
    markSub mark argsK c = markSub mark' argsK c := by
  simp only [markSub]
  rw [h c hf]
  split
  · rfl
  · cases hp : partition c argsK with
    | none => rfl
    | some r =>
      simp only [Option.bind_some]
      have hf1 : Fresh r.1 names := fun x hx => by
        rw [frame_partitionGo argsK c [] false r.1 r.2 hp x (hd x hx)]; exact hf x hx
      rw [h r.1 hf1]

mutual

theorem markNode_eq {cfg : Config} : ∀ (n : Node) (A : List Out) (prev rest tops : List SNode) (c : Ctx),
    n.loopFree = true → wfNode A n = true → (namesNode n).Nodup → Fresh c (namesNode n) → (∀ m ∈ rest, Fresh c m.outs) →
    markNode (cfg.with false) n (prev ++ rest) prev tops c = markNode (cfg.with true) n (prev ++ rest) prev tops c
  | .simple op ins outs, A, prev, rest, tops, c, hl, hwf, hn, hf, hr => by
      simp only [markNode]
      exact markSimple_eq hf hr
  | .gamma pred ins outs subs, A, prev, rest, tops, c, hl, hwf, hn, hf, hr => by
      simp only [Node.loopFree] at hl
      simp only [wfNode, Bool.and_eq_true] at hwf
      simp only [namesNode] at hn hf
      have hn' := List.nodup_append.1 hn
      simp only [markNode]
      rw [markRegions_eq subs ins outs.length c hl hwf.2 hn'.2.1 fun x hx => hf x (by simp [hx])]
  | .theta ins outs args pred posts sub, A, prev, rest, tops, c, hl, hwf, hn, hf, hr => by simp [Node.loopFree] at hl
  | .lambda ins args params results out sub, A, prev, rest, tops, c, hl, hwf, hn, hf, hr => by
      simp only [Node.loopFree] at hl
      simp only [wfNode, Bool.and_eq_true, beq_iff_eq] at hwf
      simp only [namesNode, List.cons_append] at hn hf
      have hn' := List.nodup_append.1 (List.nodup_cons.1 hn).2
      simp only [markNode]
      rw [markSub_eq (names := namesNodes sub) (fun c hc => by
        have := markNodes_eq (cfg := cfg) sub _ [] [] c hl hwf.1.2 hn'.2.1 hc
        simpa only [List.nil_append] using this)
        (fun x hx => hf x (by simp [hx]))]
      intro x hx
      rw [keys_fst hwf.1.1.2.symm]
      exact fun hc => hn'.2.2 x hc x hx rfl
  | .phi ins args recs results outs sub, A, prev, rest, tops, c, hl, hwf, hn, hf, hr => by
      simp only [Node.loopFree] at hl
      simp only [wfNode, Bool.and_eq_true, beq_iff_eq] at hwf
      simp only [namesNode, List.append_assoc] at hn hf
      rw [← List.append_assoc recs] at hn
      have hn' := List.nodup_append.1 (List.nodup_append.1 hn).2.1
      simp only [markNode]
      rw [markSub_eq (names := namesNodes sub) (fun c hc => by
        have := markNodes_eq (cfg := cfg) sub _ [] [] c hl hwf.1.2 hn'.2.1 hc
        simpa only [List.nil_append] using this)
        (fun x hx => hf x (by simp [hx]))]
      intro x hx
      rw [keys_fst hwf.1.1.1.1.2.symm]
      exact fun hc => hn'.2.2 x hc x hx rfl
  | .delta ins args result out sub, A, prev, rest, tops, c, hl, hwf, hn, hf, hr => by simp only [markNode]

theorem markNodes_eq {cfg : Config} : ∀ (ns : Nodes) (A : List Out) (prev tops : List SNode) (c : Ctx),
    ns.loopFree = true → wfNodes A ns = true → (namesNodes ns).Nodup → Fresh c (namesNodes ns) →
    markNodes (cfg.with false) ns (prev ++ ns.simples) prev tops c =
      markNodes (cfg.with true) ns (prev ++ ns.simples) prev tops c
  | .nil, A, prev, tops, c, _, _, _, _ => by simp only [markNodes]
  | .cons n ns, A, prev, tops, c, hl, hwf, hn, hf => by
      simp only [Nodes.loopFree, Bool.and_eq_true] at hl
      simp only [wfNodes, Bool.and_eq_true] at hwf
      have hr := simples_fresh hf
      simp only [namesNodes] at hn hf
      have hn' := List.nodup_append.1 hn
      simp only [markNodes]
      rw [markNode_eq n A prev _ tops c hl.1 hwf.1 hn'.1 (fun x hx => hf x (by simp [hx])) hr]
      cases hm : markNode (cfg.with true) n (prev ++ (Nodes.cons n ns).simples) prev tops c with
      | none => rfl
      | some r =>
        simp only [Option.bind_some]
        have hfr := frame_node n A _ _ _ _ _ hl.1 hwf.1 hm
        have := markNodes_eq (cfg := cfg) ns (n.outs ++ A) (prev ++ (Nodes.cons n .nil).simples) r.2 r.1 hl.2 hwf.2 hn'.2.1
          fun x hx => by rw [hfr x fun hc => hn'.2.2 x hc x hx rfl]; exact hf x (by simp [hx])
        rw [simples_cons n ns, ← List.append_assoc]
        exact this

theorem markRegions_eq {cfg : Config} : ∀ (rs : Regions) (ins : List Out) (m : Nat) (c : Ctx), rs.loopFree = true →
    wfRegions (ins.length + 1) m rs = true → (namesRegions rs).Nodup → Fresh c (namesRegions rs) →
    markRegions (cfg.with false) rs ins c = markRegions (cfg.with true) rs ins c
  | .nil, ins, m, c, _, _, _, _ => by simp only [markRegions]
  | .cons args results sub rest, ins, m, c, hl, hwf, hn, hf => by
      simp only [Regions.loopFree, Bool.and_eq_true] at hl
      simp only [wfRegions, Bool.and_eq_true, beq_iff_eq] at hwf
      simp only [namesRegions] at hn hf
      have hn1 := List.nodup_append.1 hn
      have hn2 := List.nodup_append.1 hn1.1
      cases args with
      | nil => simp at hwf
      | cons a as =>
        simp only [List.length_cons, Nat.add_right_cancel_iff] at hwf
        have hk : (uniqueKeys ((a :: as).take 1) ++ inputKeys c (a :: as).tail ins).map (·.1) = a :: as := by
          rw [keys_fst (by simpa using hwf.1.1.1.1)]
          simp
        simp only [markRegions]
        rw [markSub_eq (names := namesNodes sub) (fun c hc => by
        have := markNodes_eq (cfg := cfg) sub _ [] [] c hl.1 hwf.1.1.2 hn2.2.1 hc
        simpa only [List.nil_append] using this)
          (fun x hx => hf x (by simp [hx])) (by
            rw [hk]
            exact fun x hx hc => hn2.2.2 x hc x hx rfl)]
        cases hm : markSub (fun c => markNodes (cfg.with true) sub sub.simples [] [] c)
            (uniqueKeys ((a :: as).take 1) ++ inputKeys c (a :: as).tail ins) c with
        | none => rfl
        | some r =>
          simp only [Option.bind_some]
          have hfr := frame_markSub (c' := r.1) (ch := r.2)
            (fun c c' h => frame_nodes sub _ _ _ _ c c' hl.1 hwf.1.1.2 h) hm
          rw [hk] at hfr
          exact markRegions_eq rest ins m r.1 hl.2 hwf.2 hn1.2.1 fun x hx => by
            rw [hfr x fun hc => hn1.2.2 x hc x hx rfl]; exact hf x (by simp [hx])

end

theorem markGraph_loopfree {cfg : Config} {g : Graph} (hwf : g.wf = true) (hl : g.body.loopFree = true) :
    markGraph (cfg.with false) g = markGraph (cfg.with true) g := by
  simp only [Graph.wf, Graph.names, Bool.and_eq_true, Dne.subset_iff] at hwf
  have hn := List.nodup_append.1 (of_decide_eq_true hwf.1.1)
  simp only [markGraph]
  have := markNodes_eq (cfg := cfg) g.body g.imports [] [] (leadAll (fun _ => none) g.imports) hl hwf.1.2 hn.2.1
    fun x hx => by rw [(ext_leadAll g.imports _).1.frame x fun hc => hn.2.2 x hc x hx rfl]
  simp only [List.nil_append] at this
  rw [this]

/-- **C28**: on modules without loops /repo does the same as the repaired program. -/
theorem C28_loopfree_strict {cfg : Config} {g : Graph} (hwf : g.wf = true) (hl : g.body.loopFree = true) :
    run (cfg.with false) g = run (cfg.with true) g := by
  simp only [run, markGraph_loopfree hwf hl]

variable {V : Type}

/-- **C28**: common node elimination of /repo refines the meaning of every module without loops. -/
theorem C28_cne_refines_loopfree {sem : Sem V} (hm : sem.Mono) {cfg : Config} (hs : cfg.strict = false) {g g' : Graph}
    (hwf : g.wf = true) (hl : g.body.loopFree = true) (h : run cfg g = some g') :
    g'.wf = true ∧ Refines (g.meaning sem) (g'.meaning sem) := by
  have hc : cfg = cfg.with false := by cases cfg; simp_all [Config.with]
  rw [hc, C28_loopfree_strict hwf hl] at h
  exact ⟨C28_cne_wf (cfg := cfg.with true) rfl hwf h, C28_cne_refines hm (cfg := cfg.with true) rfl hwf h⟩

end Cne

end Jlm.Opt
