import Verif.Opt.CneWf

/-!
# Invariants of the mark phase of common node elimination
-/

set_option linter.unusedSimpArgs false
set_option linter.unusedVariables false

namespace Jlm.Opt.Cne

/-! ## A congruence only depends on the outputs that can be seen from a node -/

theorem map_congr' {τ τ' : Out → Out} {l : List Out} (h : ∀ x ∈ l, τ x = τ' x) : l.map τ = l.map τ' :=
  List.map_congr_left h

theorem get_map_congr {τ τ' : Out → Out} {l : List Out} (h : ∀ x ∈ l, τ x = τ' x) (k : Nat) :
    (l[k]?).map τ = (l[k]?).map τ' := by
  cases hk : l[k]? with
  | none => rfl
  | some x => simp [h x (List.mem_of_getElem? hk)]

theorem argsOk_congr {τ τ' : Out → Out} {args keys : List Out} (h : ArgsOk τ args keys)
    (h1 : ∀ x ∈ args, τ x = τ' x) (h2 : ∀ x ∈ keys, τ x = τ' x) : ArgsOk τ' args keys := by
  intro k a hk
  obtain ⟨j, b, g1, g2, g3⟩ := h k a hk
  refine ⟨j, b, g1, ?_, ?_⟩
  · rw [← h1 a (List.mem_of_getElem? hk)]; exact g2
  · rw [← get_map_congr h2, ← get_map_congr h2]; exact g3

theorem branch_results : ∀ (subs : Regions) (n m b : Nat) (args results : List Out),
    wfRegions n m subs = true → subs.branch b = some (args, results) →
    (∀ r ∈ results, r ∈ namesRegions subs) ∧ (∀ r ∈ args, r ∈ namesRegions subs)
  | .nil, n, m, b, args, results, _, hb => by simp [Regions.branch] at hb
  | .cons as rs sub rest, n, m, 0, args, results, h, hb => by
      simp only [Regions.branch, Option.some.injEq, Prod.mk.injEq] at hb
      obtain ⟨rfl, rfl⟩ := hb
      simp only [wfRegions, Bool.and_eq_true, Dne.subset_iff] at h
      simp only [namesRegions, List.mem_append]
      refine ⟨fun r hr => ?_, fun r hr => .inl (.inl hr)⟩
      have := h.1.2 r hr
      simp only [List.mem_append] at this
      rcases this with h | h
      · exact .inl (.inl h)
      · exact .inl (.inr (Dne.Nodes_outs_subset_names sub r h))
  | .cons as rs sub rest, n, m, b + 1, args, results, h, hb => by
      simp only [wfRegions, Bool.and_eq_true, Dne.subset_iff] at h
      simp only [namesRegions, List.mem_append]
      obtain ⟨h1, h2⟩ := branch_results rest n m b args results h.2 (by simpa [Regions.branch] using hb)
      exact ⟨fun r hr => .inr (h1 r hr), fun r hr => .inr (h2 r hr)⟩

theorem exitOk_congr {τ τ' : Out → Out} {ins outs : List Out} {subs : Regions} {k : Nat} {o : Out}
    (h : ExitOk τ ins outs subs k o) (ho : τ o = τ' o) (hi : ∀ i ∈ ins, τ i = τ' i)
    (hr : ∀ (b : Nat) (args results : List Out), subs.branch b = some (args, results) → ∀ r ∈ results, τ r = τ' r) :
    ExitOk τ' ins outs subs k o := by
  rcases h with ⟨j, o', g1, g2, g3⟩ | ⟨i, g1, g2, g3⟩
  · refine .inl ⟨j, o', g1, by rw [← ho]; exact g2, fun b args results hb => ?_⟩
    rw [← get_map_congr (hr b args results hb), ← get_map_congr (hr b args results hb)]
    exact g3 b args results hb
  · refine .inr ⟨i, g1, by rw [← ho, ← hi i g1]; exact g2, fun b args results hb => ?_⟩
    obtain ⟨j, r, i', s1, s2, s3, s4⟩ := g3 b args results hb
    exact ⟨j, r, i', s1, s2, s3, by rw [← hi i g1, ← hi i' (List.mem_of_getElem? s3)]; exact s4⟩

theorem loopOk_congr {τ τ' : Out → Out} {ins outs args posts : List Out} {k : Nat} {o : Out}
    (h : LoopOk τ ins outs args posts k o) (ho : τ o = τ' o) (hi : ∀ i ∈ ins, τ i = τ' i)
    (hp : ∀ p ∈ posts, τ p = τ' p) : LoopOk τ' ins outs args posts k o := by
  rcases h with ⟨j, o', g1, g2, g3⟩ | ⟨j, a, i, g1, g2, g3, g4, g5⟩
  · refine .inl ⟨j, o', g1, by rw [← ho]; exact g2, ?_⟩
    rw [← get_map_congr hp, ← get_map_congr hp]; exact g3
  · refine .inr ⟨j, a, i, g1, g2, ?_, ?_, ?_⟩
    · rw [← get_map_congr hp]; exact g3
    · rw [← get_map_congr hp]; exact g4
    · rw [← ho, ← hi i (List.mem_of_getElem? g2)]; exact g5

theorem prev_step' {A : List Out} {prev : List SNode} (n : Node) (hwf : wfNode A n = true)
    (hp : ∀ m ∈ prev, (∀ i ∈ m.ins, i ∈ A) ∧ ∀ o ∈ m.outs, o ∈ A) :
    ∀ m ∈ prev ++ (Nodes.cons n .nil).simples, (∀ i ∈ m.ins, i ∈ n.outs ++ A) ∧ ∀ o ∈ m.outs, o ∈ n.outs ++ A := by
  intro m hm
  refine ⟨fun i hi => ?_, prev_step n (fun m hm => (hp m hm).2) m hm⟩
  rcases List.mem_append.1 hm with hm | hm
  · simp [(hp m hm).1 i hi]
  · cases n with
    | simple op ins outs =>
      simp only [Nodes.simples, List.mem_singleton] at hm
      subst hm
      have := wfNode_ins hwf i (by simpa [Node.ins] using hi)
      simp [this]
    | _ => simp [Nodes.simples] at hm

mutual

theorem certNode_congr {τ τ' : Out → Out} : ∀ (n : Node) (A : List Out) (prev : List SNode), wfNode A n = true →
    (∀ m ∈ prev, (∀ i ∈ m.ins, i ∈ A) ∧ ∀ o ∈ m.outs, o ∈ A) → (∀ x ∈ A, τ x = τ' x) →
    (∀ x ∈ namesNode n, τ x = τ' x) → CertNode τ prev n → CertNode τ' prev n
  | .simple op ins outs, A, prev, hwf, hp, hA, hn, hc => by
      have hins := wfNode_ins hwf
      simp only [CertNode, namesNode, Node.ins] at *
      rcases hc with h | ⟨m, h1, h2, h3, h4, h5⟩
      · exact .inl fun o ho => by rw [← hn o ho]; exact h o ho
      · obtain ⟨hp1, hp2⟩ := hp m h1
        refine .inr ⟨m, h1, h2, ?_, ?_, fun o ho => ?_⟩
        · rw [← map_congr' fun i hi => hA i (hp1 i hi), ← map_congr' fun i hi => hA i (hins i hi)]; exact h3
        · rw [← map_congr' hn]; exact h4
        · rw [← hA o (hp2 o ho)]; exact h5 o ho
  | .gamma pred ins outs subs, A, prev, hwf, hp, hA, hn, hc => by
      have hins := wfNode_ins hwf
      simp only [wfNode, Bool.and_eq_true] at hwf
      simp only [CertNode, namesNode, Node.ins, List.mem_append] at *
      have hi : ∀ i ∈ ins, τ i = τ' i := fun i hi => hA i (hins i (by simp [hi]))
      refine ⟨certRegions_congr subs ins _ _ hwf.2 hi (fun x hx => hn x (.inr hx)) hc.1, fun k o ho => ?_⟩
      refine exitOk_congr (hc.2 k o ho) (hn o (.inl (List.mem_of_getElem? ho))) hi ?_
      intro b args results hb r hr
      exact hn r (.inr ((branch_results subs _ _ b args results hwf.2 hb).1 r hr))
  | .theta ins outs args pred posts sub, A, prev, hwf, hp, hA, hn, hc => by
      have hins := wfNode_ins hwf
      simp only [wfNode, Bool.and_eq_true, Dne.subset_iff] at hwf
      simp only [CertNode, namesNode, Node.ins, List.mem_append] at *
      have hi : ∀ i ∈ ins, τ i = τ' i := fun i hi => hA i (hins i hi)
      have ha : ∀ i ∈ args, τ i = τ' i := fun i hi => hn i (.inl (.inr hi))
      have hs : ∀ i ∈ namesNodes sub, τ i = τ' i := fun i hi => hn i (.inr hi)
      have hp : ∀ i ∈ posts, τ i = τ' i := by
        intro i hi
        rcases hwf.2 i (by simp [hi]) with h | h
        · exact ha i h
        · exact hs i (Dne.Nodes_outs_subset_names sub i h)
      exact ⟨argsOk_congr hc.1 ha hi, argsOk_congr hc.2.1 ha hp,
        certNodes_congr sub args [] hwf.1.2 (by simp) ha hs hc.2.2.1,
        fun k o ho => loopOk_congr (hc.2.2.2 k o ho) (hn o (.inl (.inl (List.mem_of_getElem? ho)))) hi hp⟩
  | .lambda ins args params results out sub, A, prev, hwf, hp, hA, hn, hc => by
      have hins := wfNode_ins hwf
      simp only [wfNode, Bool.and_eq_true, Dne.subset_iff] at hwf
      simp only [CertNode, namesNode, Node.ins, List.mem_append, List.mem_cons, List.cons_append] at *
      refine ⟨fun p hp => ?_, argsOk_congr hc.2.1 (fun x hx => hn x (by simp [hx])) (fun x hx => hA x (hins x hx)),
        certNodes_congr sub _ [] hwf.1.2 (by simp) (fun x hx => hn x ?_) (fun x hx => hn x (by simp [hx])) hc.2.2.1, ?_⟩
      · rw [← hn p (by simp [hp])]; exact hc.1 p hp
      · rcases List.mem_append.1 hx with h | h <;> simp [h]
      · rw [← hn out (by simp)]; exact hc.2.2.2
  | .phi ins args recs results outs sub, A, prev, hwf, hp, hA, hn, hc => by
      have hins := wfNode_ins hwf
      simp only [wfNode, Bool.and_eq_true, Dne.subset_iff] at hwf
      simp only [CertNode, namesNode, Node.ins, List.mem_append, List.mem_cons, List.cons_append] at *
      refine ⟨fun p hp => ?_, argsOk_congr hc.2.1 (fun x hx => hn x (by simp [hx])) (fun x hx => hA x (hins x hx)),
        certNodes_congr sub _ [] hwf.1.2 (by simp) (fun x hx => hn x ?_) (fun x hx => hn x (by simp [hx])) hc.2.2.1,
        fun o ho => ?_⟩
      · rw [← hn p (by simp [hp])]; exact hc.1 p hp
      · rcases List.mem_append.1 hx with h | h <;> simp [h]
      · rw [← hn o (by simp [ho])]; exact hc.2.2.2 o ho
  | .delta ins args result out sub, A, prev, hwf, hp, hA, hn, hc => by
      simp only [CertNode, namesNode] at *
      rw [← hn out (by simp)]; exact hc

theorem certNodes_congr {τ τ' : Out → Out} : ∀ (ns : Nodes) (A : List Out) (prev : List SNode), wfNodes A ns = true →
    (∀ m ∈ prev, (∀ i ∈ m.ins, i ∈ A) ∧ ∀ o ∈ m.outs, o ∈ A) → (∀ x ∈ A, τ x = τ' x) →
    (∀ x ∈ namesNodes ns, τ x = τ' x) → CertNodes τ prev ns → CertNodes τ' prev ns
  | .nil, A, prev, _, _, _, _, _ => by simp [CertNodes]
  | .cons n ns, A, prev, hwf, hp, hA, hn, hc => by
      simp only [wfNodes, Bool.and_eq_true] at hwf
      simp only [CertNodes, namesNodes, List.mem_append] at *
      refine ⟨certNode_congr n A prev hwf.1 hp hA (fun x hx => hn x (.inl hx)) hc.1,
        certNodes_congr ns (n.outs ++ A) _ hwf.2 (prev_step' n hwf.1 hp) ?_ (fun x hx => hn x (.inr hx)) hc.2⟩
      intro x hx
      rcases List.mem_append.1 hx with h | h
      · exact hn x (.inl (Dne.outs_subset_names n x h))
      · exact hA x h

theorem certRegions_congr {τ τ' : Out → Out} : ∀ (rs : Regions) (ins : List Out) (n m : Nat),
    wfRegions n m rs = true → (∀ x ∈ ins, τ x = τ' x) → (∀ x ∈ namesRegions rs, τ x = τ' x) →
    CertRegions τ ins rs → CertRegions τ' ins rs
  | .nil, ins, n, m, _, _, _, _ => by simp [CertRegions]
  | .cons args results sub rest, ins, n, m, hwf, hi, hn, hc => by
      simp only [wfRegions, Bool.and_eq_true] at hwf
      simp only [CertRegions, namesRegions, List.mem_append] at *
      refine ⟨fun m hm => ?_, argsOk_congr hc.2.1 (fun x hx => hn x (.inl (.inl (List.mem_of_mem_tail hx)))) hi,
        certNodes_congr sub args [] hwf.1.1.2 (by simp) (fun x hx => hn x (.inl (.inl hx)))
          (fun x hx => hn x (.inl (.inr hx))) hc.2.2.1,
        certRegions_congr rest ins n _ hwf.2 hi (fun x hx => hn x (.inr hx)) hc.2.2.2⟩
      rw [← hn m (.inl (.inl (List.mem_of_mem_head? hm)))]
      exact hc.1 m hm

end

/-! ## Congruence sets -/

/-- The leader of a set is in the set. -/
def Idem (c : Ctx) : Prop := ∀ x l, c x = some l → c l = some l

/-- `c'` differs from `c` in the sets of `names` only, and leaders stay leaders. -/
structure Ext (names : List Out) (c c' : Ctx) : Prop where
  frame : ∀ x, x ∉ names → c' x = c x
  mono : ∀ x, c x = some x → c' x = some x
  idem : Idem c → Idem c'

theorem Ext.refl (names : List Out) (c : Ctx) : Ext names c c := ⟨fun _ _ => rfl, fun _ h => h, fun h => h⟩

theorem Ext.trans {names : List Out} {c1 c2 c3 : Ctx} (h1 : Ext names c1 c2) (h2 : Ext names c2 c3) :
    Ext names c1 c3 :=
  ⟨fun x hx => (h2.frame x hx).trans (h1.frame x hx), fun x hx => h2.mono x (h1.mono x hx),
    fun h => h2.idem (h1.idem h)⟩

theorem Ext.weaken {names names' : List Out} {c c' : Ctx} (h : Ext names c c') (hs : ∀ x ∈ names, x ∈ names') :
    Ext names' c c' :=
  ⟨fun x hx => h.frame x fun hc => hx (hs x hc), h.mono, h.idem⟩

theorem ld_leader {c : Ctx} {x : Out} (h : c x = some x) : ld c x = x := by simp [ld, h]

theorem ld_some {c : Ctx} {x l : Out} (h : c x = some l) : ld c x = l := by simp [ld, h]

theorem ld_congr {c c' : Ctx} {x : Out} (h : c' x = c x) : ld c' x = ld c x := by simp [ld, h]

theorem Idem.ld {c : Ctx} (h : Idem c) {x : Out} (hx : (c x).isSome = true) : c (ld c x) = some (Cne.ld c x) := by
  cases hc : c x with
  | none => rw [hc] at hx; simp at hx
  | some l => rw [ld_some hc]; exact h x l hc

theorem ext_lead (c : Ctx) (o : Out) : Ext [o] c (lead c o) := by
  refine ⟨fun x hx => ?_, fun x hx => ?_, fun h x l hl => ?_⟩
  · have : x ≠ o := by simpa using hx
    simp [lead, Ctx.set, this]
  · simp only [lead, Ctx.set]
    split
    · simp_all
    · exact hx
  · simp only [lead, Ctx.set] at hl ⊢
    split at hl
    · cases hl; simp
    · split
      · simp_all
      · exact h x l hl

theorem follow_eq {c c' : Ctx} {s o : Out} (h : follow c s o = some c') : c' = c.set o s ∧ c o ≠ some o := by
  simp only [follow] at h
  split at h
  · simp at h
  · rename_i hc
    simp only [Option.some.injEq] at h
    exact ⟨h.symm, hc⟩

theorem ext_follow {c c' : Ctx} {s o : Out} (h : follow c s o = some c') (hs : c s = some s) : Ext [o] c c' := by
  obtain ⟨rfl, hne⟩ := follow_eq h
  refine ⟨fun x hx => ?_, fun x hx => ?_, fun hi x l hl => ?_⟩
  · have : x ≠ o := by simpa using hx
    simp [Ctx.set, this]
  · have : x ≠ o := by rintro rfl; exact hne hx
    simp [Ctx.set, this, hx]
  · have hso : s ≠ o := by rintro rfl; exact hne hs
    simp only [Ctx.set] at hl ⊢
    split at hl
    · cases hl
      simp [hso, hs]
    · have hl' := hi x l hl
      have : l ≠ o := by rintro rfl; exact hne hl'
      simp [this, hl']

theorem ext_leadAll : ∀ (outs : List Out) (c : Ctx), Ext outs c (leadAll c outs) ∧
    ∀ o ∈ outs, leadAll c outs o = some o
  | [], c => ⟨Ext.refl _ _, by simp⟩
  | o :: outs, c => by
      obtain ⟨h1, h2⟩ := ext_leadAll outs (lead c o)
      have he : leadAll c (o :: outs) = leadAll (lead c o) outs := rfl
      rw [he]
      refine ⟨((ext_lead c o).weaken (by simp)).trans (h1.weaken fun x hx => by simp [hx]), ?_⟩
      intro x hx
      rcases List.mem_cons.1 hx with hx | hx
      · subst hx
        exact h1.mono x (by simp [lead, Ctx.set])
      · exact h2 x hx

/-- All outputs of the node to be marked follow the outputs of another node. -/
theorem followAll_spec : ∀ (ls os : List Out) (c c' : Ctx), followAll c ls os = some c' → ls.length = os.length →
    os.Nodup → (∀ l ∈ ls, c l = some l) → Ext os c c' ∧ os.map c' = ls.map some
  | [], [], c, c', h, _, _, _ => by
      simp only [followAll, Option.some.injEq] at h
      subst h
      exact ⟨Ext.refl _ _, rfl⟩
  | [], o :: os, c, c', _, hl, _, _ => by simp at hl
  | l :: ls, [], c, c', _, hl, _, _ => by simp at hl
  | l :: ls, o :: os, c, c', h, hl, hn, hle => by
      simp only [followAll, Option.bind_eq_some_iff] at h
      obtain ⟨c1, h1, h2⟩ := h
      rw [ld_leader (hle l (by simp))] at h1
      have he := ext_follow h1 (hle l (by simp))
      have hn' := List.nodup_cons.1 hn
      obtain ⟨g1, g2⟩ := followAll_spec ls os c1 c' h2 (by simpa using hl) hn'.2
        (fun x hx => he.mono x (hle x (by simp [hx])))
      refine ⟨(he.weaken (by simp)).trans (g1.weaken fun x hx => by simp [hx]), ?_⟩
      simp only [List.map_cons]
      rw [g2, g1.frame o hn'.1, (follow_eq h1).1]
      simp [Ctx.set]

/-! ## Partitions of arguments -/

theorem partitionGo_spec : ∀ (args : List (Out × Key)) (c : Ctx) (news : List ((Option Out × Key) × Out)) (ch : Bool)
    (c' : Ctx) (ch' : Bool), partitionGo c news ch args = some (c', ch') → (args.map (·.1)).Nodup →
    (∀ e ∈ news, c e.2 = some e.2 ∧ e.2 ∉ args.map (·.1)) →
    Ext (args.map (·.1)) c c' ∧ (ch = true → ch' = true) ∧
    (ch' = false → (∀ e ∈ news, e.1.1 = some e.2) → c' = c) ∧
    ∀ p ∈ args, ∃ b : Out, c' p.1 = some b ∧
      (((c p.1, p.2), b) ∈ news ∨ ∃ q ∈ args, q.1 = b ∧ q.2 = p.2 ∧ c b = c p.1)
  | [], c, news, ch, c', ch', h, _, _ => by
      simp only [partitionGo, Option.some.injEq, Prod.mk.injEq] at h
      obtain ⟨rfl, rfl⟩ := h
      exact ⟨Ext.refl _ _, id, fun _ _ => rfl, by simp⟩
  | (a, key) :: rest, c, news, ch, c', ch', h, hn, hnew => by
      simp only [List.map_cons] at hn
      have hn' := List.nodup_cons.1 hn
      have hane : ∀ x ∈ rest.map (·.1), x ≠ a := by rintro x hx rfl; exact hn'.1 hx
      simp only [partitionGo] at h
      split at h
      · rename_i e he
        have hem := List.mem_of_find?_eq_some he
        have hek : e.1 = (c a, key) := by simpa using List.find?_some he
        obtain ⟨he1, he2⟩ := hnew e hem
        have hne : e.2 ≠ a := by rintro rfl; exact he2 (by simp)
        have hstep : ∃ c1, Ext [a] c c1 ∧ c1 a = some e.2 ∧ (c a = some e.2 → c1 = c) ∧
            partitionGo c1 news ch rest = some (c', ch') := by
          by_cases hca : c a = some e.2
          · rw [if_pos hca] at h
            exact ⟨c, Ext.refl _ _, hca, fun _ => rfl, h⟩
          · rw [if_neg hca] at h
            simp only [Option.bind_eq_some_iff] at h
            obtain ⟨c1, h1, h2⟩ := h
            refine ⟨c1, ext_follow h1 he1, ?_, fun hc => absurd hc hca, h2⟩
            rw [(follow_eq h1).1]; simp [Ctx.set]
        obtain ⟨c1, s1, s2, s3, s4⟩ := hstep
        obtain ⟨g1, g2, g3, g4⟩ := partitionGo_spec rest c1 news ch c' ch' s4 hn'.2 (fun e' he' => by
          obtain ⟨q1, q2⟩ := hnew e' he'
          exact ⟨s1.mono _ q1, fun hc => q2 (by simp at hc ⊢; exact .inr hc)⟩)
        refine ⟨(s1.weaken (by simp)).trans (g1.weaken fun x hx => by simp at hx ⊢; exact .inr hx), g2, ?_, ?_⟩
        · intro hf hall
          have hca : c a = some e.2 := by
            have := hall e hem
            rw [hek] at this
            exact this
          rw [g3 hf hall, s3 hca]
        · intro p hp
          rcases List.mem_cons.1 hp with hp | hp
          · subst hp
            refine ⟨e.2, ?_, .inl ?_⟩
            · simp only
              rw [g1.frame a hn'.1, s2]
            · simp only
              rw [← hek]; exact hem
          · obtain ⟨b, q1, q2⟩ := g4 p hp
            have hpa : c1 p.1 = c p.1 := s1.frame _ (by
              have := hane p.1 (List.mem_map_of_mem hp)
              simpa using this)
            refine ⟨b, q1, ?_⟩
            rw [hpa] at q2
            rcases q2 with q2 | ⟨q, r1, r2, r3, r4⟩
            · exact .inl q2
            · refine .inr ⟨q, by simp [r1], r2, r3, ?_⟩
              rw [← r4, s1.frame]
              have := hane q.1 (List.mem_map_of_mem r1)
              rw [r2] at this
              simpa using this
      · rename_i hnone
        obtain ⟨g1, g2, g3, g4⟩ := partitionGo_spec rest (lead c a) (((c a, key), a) :: news) _ c' ch' h hn'.2 (by
          intro e' he'
          rcases List.mem_cons.1 he' with he' | he'
          · subst he'
            exact ⟨by simp [lead, Ctx.set], hn'.1⟩
          · obtain ⟨q1, q2⟩ := hnew e' he'
            exact ⟨(ext_lead c a).mono _ q1, fun hc => q2 (by simp at hc ⊢; exact .inr hc)⟩)
        refine ⟨((ext_lead c a).weaken (by simp)).trans (g1.weaken fun x hx => by simp at hx ⊢; exact .inr hx),
          fun hch => g2 (by simp [hch]), ?_, ?_⟩
        · intro hf hall
          have hca : c a = some a := by
            by_cases hc : c a = some a
            · exact hc
            · have : ch' = true := g2 (by simp [hc])
              rw [this] at hf; simp at hf
          have hlead : lead c a = c := by
            funext x
            simp only [lead, Ctx.set]
            split
            · simp_all
            · rfl
          rw [hlead] at g3
          refine g3 hf ?_
          intro e he
          rcases List.mem_cons.1 he with he | he
          · subst he; exact hca
          · exact hall e he
        · intro p hp
          rcases List.mem_cons.1 hp with hp | hp
          · subst hp
            refine ⟨a, ?_, .inr ⟨(a, key), by simp, rfl, rfl, rfl⟩⟩
            simp only
            rw [g1.frame a hn'.1]; simp [lead, Ctx.set]
          · obtain ⟨b, q1, q2⟩ := g4 p hp
            have hpne : p.1 ≠ a := hane p.1 (List.mem_map_of_mem hp)
            have hpa : (lead c a) p.1 = c p.1 := (ext_lead c a).frame _ (by simpa using hpne)
            refine ⟨b, q1, ?_⟩
            rw [hpa] at q2
            rcases q2 with q2 | ⟨q, r1, r2, r3, r4⟩
            · rcases List.mem_cons.1 q2 with q2 | q2
              · simp only [Prod.mk.injEq] at q2
                exact .inr ⟨(a, key), by simp, q2.2.symm, q2.1.2.symm, by rw [q2.2, q2.1.1]⟩
              · exact .inl q2
            · refine .inr ⟨q, by simp [r1], r2, r3, ?_⟩
              rw [← r4, (ext_lead c a).frame]
              have := hane q.1 (List.mem_map_of_mem r1)
              rw [r2] at this
              simpa using this

/-- After the partition, arguments in the same set have the same key and were in the same set
before; sets do not change if none is created. -/
structure Parted (args : List (Out × Key)) (c c' : Ctx) : Prop where
  sets : ∀ p ∈ args, ∃ q ∈ args, c' p.1 = some q.1 ∧ q.2 = p.2 ∧ c q.1 = c p.1

theorem partition_spec {args : List (Out × Key)} {c c' : Ctx} {ch : Bool} (h : partition c args = some (c', ch))
    (hn : (args.map (·.1)).Nodup) :
    Ext (args.map (·.1)) c c' ∧ (ch = false → c' = c) ∧ Parted args c c' := by
  obtain ⟨h1, _, h3, h4⟩ := partitionGo_spec args c [] false c' ch h hn (by simp)
  refine ⟨h1, fun hf => h3 hf (by simp), ⟨fun p hp => ?_⟩⟩
  obtain ⟨b, g1, g2⟩ := h4 p hp
  rcases g2 with g2 | ⟨q, r1, r2, r3, r4⟩
  · simp at g2
  · exact ⟨q, r1, by rw [r2]; exact g1, r3, by rw [r2]; exact r4⟩

end Jlm.Opt.Cne
