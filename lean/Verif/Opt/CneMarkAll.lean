import Verif.Opt.CneMark
import Verif.Opt.DneMin

/-!
# The mark phase of the repaired common node elimination finds a congruence
-/

set_option linter.unusedSimpArgs false
set_option linter.unusedVariables false

namespace Jlm.Opt.Cne

theorem idem_ld2 {c : Ctx} (h : Idem c) (x : Out) : ld c (ld c x) = ld c x := by
  cases hx : c x with
  | none =>
    have : ld c x = x := by simp [ld, hx]
    rw [this, this]
  | some l => rw [ld_some hx, ld_some (h x l hx)]

/-! ## Arguments of subregions -/

theorem inputKeys_mem {c : Ctx} {args keys : List Out} {p : Out × Key} :
    p ∈ inputKeys c args keys ↔ ∃ (j : Nat) (a i : Out), args[j]? = some a ∧ keys[j]? = some i ∧ p = (a, .set (ld c i)) := by
  simp only [inputKeys, List.mem_map]
  constructor
  · rintro ⟨q, hq, rfl⟩
    obtain ⟨k, h1, h2⟩ := Dne.zip_mem_get hq
    exact ⟨k, q.1, q.2, h1, h2, rfl⟩
  · rintro ⟨j, a, i, h1, h2, rfl⟩
    exact ⟨(a, i), List.mem_of_getElem? (i := j) (List.getElem?_zip_eq_some.2 ⟨h1, h2⟩), rfl⟩

theorem uniqueKeys_mem {ps : List Out} {p : Out × Key} :
    p ∈ uniqueKeys ps ↔ ∃ (k : Nat) (a : Out), ps[k]? = some a ∧ p = (a, .unique k) := by
  simp only [uniqueKeys, List.mem_map]
  constructor
  · rintro ⟨q, hq, rfl⟩
    exact ⟨q.2, q.1, List.mem_zipIdx_iff_getElem?.1 (show (q.1, q.2) ∈ ps.zipIdx from hq), rfl⟩
  · rintro ⟨k, a, h, rfl⟩
    exact ⟨(a, k), List.mem_zipIdx_iff_getElem?.2 h, rfl⟩

theorem inputKeys_fst {c : Ctx} : ∀ {args keys : List Out}, args.length = keys.length →
    (inputKeys c args keys).map (·.1) = args := by
  intro args keys h
  simp only [inputKeys, List.map_map]
  exact List.map_fst_zip (by omega)

theorem uniqueKeys_fst (ps : List Out) : (uniqueKeys ps).map (·.1) = ps := by
  simp only [uniqueKeys, List.map_map]
  exact List.zipIdx_map_fst 0 ps

theorem keys_fst {c : Ctx} {ps args keys : List Out} (h : args.length = keys.length) :
    (uniqueKeys ps ++ inputKeys c args keys).map (·.1) = ps ++ args := by
  rw [List.map_append, uniqueKeys_fst, inputKeys_fst h]

theorem argsOk_parted {c c' : Ctx} {ps args keys : List Out} (hl : args.length = keys.length)
    (h : Parted (uniqueKeys ps ++ inputKeys c args keys) c c') (hk : ∀ i ∈ keys, ld c' i = ld c i) :
    ArgsOk (ld c') args keys := by
  intro k a hka
  obtain ⟨i, hi⟩ := getElem?_of_len hl hka
  obtain ⟨q, h1, h2, h3, _⟩ := h.sets (a, .set (ld c i))
    (List.mem_append.2 (.inr (inputKeys_mem.2 ⟨k, a, i, hka, hi, rfl⟩)))
  simp only at h2 h3
  rcases List.mem_append.1 h1 with h1 | h1
  · obtain ⟨k', b, _, rfl⟩ := uniqueKeys_mem.1 h1
    simp at h3
  · obtain ⟨j, b, i', g1, g2, rfl⟩ := inputKeys_mem.1 h1
    simp only [Key.set.injEq] at h3
    refine ⟨j, b, g1, ld_some h2, ?_⟩
    rw [g2, hi, Option.map_some, Option.map_some, hk i (List.mem_of_getElem? hi), hk i' (List.mem_of_getElem? g2), h3]

theorem unique_parted {c c' : Ctx} {ps args keys : List Out}
    (h : Parted (uniqueKeys ps ++ inputKeys c args keys) c c') : ∀ p ∈ ps, c' p = some p := by
  intro p hp
  obtain ⟨k, hk⟩ := List.mem_iff_getElem?.1 hp
  obtain ⟨q, h1, h2, h3, _⟩ := h.sets (p, .unique k) (List.mem_append.2 (.inl (uniqueKeys_mem.2 ⟨k, p, hk, rfl⟩)))
  simp only at h2 h3
  rcases List.mem_append.1 h1 with h1 | h1
  · obtain ⟨k', b, g1, rfl⟩ := uniqueKeys_mem.1 h1
    simp only [Key.unique.injEq] at h3
    subst h3
    rw [hk] at g1
    cases g1
    exact h2
  · obtain ⟨j, b, i', g1, g2, rfl⟩ := inputKeys_mem.1 h1
    simp at h3

theorem refine_argsOk {c c' : Ctx} {args keys ins : List Out} (hl : args.length = keys.length)
    (h : Parted (inputKeys c args keys) c c') (hn : args.Nodup) (hi : ArgsOk (ld c) args ins)
    (hm : ∀ a ∈ args, (c a).isSome = true) (hk : ∀ i ∈ ins, ld c' i = ld c i) : ArgsOk (ld c') args ins := by
  intro k a hka
  obtain ⟨i, hi'⟩ := getElem?_of_len hl hka
  obtain ⟨q, h1, h2, h3, h4⟩ := h.sets (a, .set (ld c i)) (inputKeys_mem.2 ⟨k, a, i, hka, hi', rfl⟩)
  obtain ⟨j, b, i', g1, g2, rfl⟩ := inputKeys_mem.1 h1
  simp only at h2 h4
  refine ⟨j, b, g1, ld_some h2, ?_⟩
  rw [get_map_congr hk, get_map_congr hk]
  refine argsOk_get hi hn hka g1 ?_
  have := hm a (List.mem_of_getElem? hka)
  cases hc : c a with
  | none => rw [hc] at this; simp at this
  | some l => rw [ld_some hc, ld_some (h4.trans hc)]

theorem parted_isSome {argsK : List (Out × Key)} {c c' : Ctx} (h : Parted argsK c c') :
    ∀ a ∈ argsK.map (·.1), (c' a).isSome = true := by
  intro a ha
  obtain ⟨p, hp, rfl⟩ := List.mem_map.1 ha
  obtain ⟨q, _, h2, _⟩ := h.sets p hp
  rw [h2]; rfl

/-- Marking the nodes of a subregion with arguments `A` gives a congruence there. -/
def MarkOk (mark : Ctx → Option Ctx) (A : List Out) (sub : Nodes) : Prop :=
  ∀ c c', Idem c → (∀ x ∈ A, (c x).isSome = true) → PreNodes c sub.simples sub → mark c = some c' →
    SubGood c' sub ∧ Ext (namesNodes sub) c c'

theorem markSub_spec {mark : Ctx → Option Ctx} {argsK : List (Out × Key)} {A : List Out} {sub : Nodes} {c c' : Ctx}
    {ch : Bool} (hA : argsK.map (·.1) = A) (hmark : MarkOk mark A sub) (hwf : wfNodes A sub = true)
    (hn : (A ++ namesNodes sub).Nodup) (hid : Idem c)
    (hpre : Fresh c (A ++ namesNodes sub) ∨ SubGood c sub) (h : markSub mark argsK c = some (c', ch)) :
    Ext (A ++ namesNodes sub) c c' ∧ Parted argsK c c' ∧ SubGood c' sub ∧ (∀ a ∈ A, (c' a).isSome = true) ∧
      (ch = false → A = [] ∨ (c' = c)) := by
  have hn' := List.nodup_append.1 hn
  have hdis : ∀ x ∈ A, x ∉ namesNodes sub := fun x hx hc => hn'.2.2 x hx x hc rfl
  simp only [markSub] at h
  cases hK : argsK with
  | nil =>
    rw [hK] at h hA
    have hA' : A = [] := by simpa using hA.symm
    simp only [List.isEmpty_nil, if_true, Option.map_eq_some_iff, Prod.mk.injEq] at h
    obtain ⟨c1, h1, rfl, rfl⟩ := h
    have hp : PreNodes c sub.simples sub := by
      rcases hpre with hf | hg
      · exact preNodes_fresh sub fun x hx => hf x (by simp [hx])
      · exact preNodes_good sub hg.2
    obtain ⟨g1, g2⟩ := hmark c c1 hid (by simp [hA']) hp h1
    exact ⟨g2.weaken fun x hx => by simp [hx], ⟨by simp⟩, g1, by simp [hA'], fun _ => .inl hA'⟩
  | cons p ps =>
    rw [← hK]
    have hne : argsK.isEmpty = false := by rw [hK]; rfl
    rw [hne] at h
    simp only [Bool.false_eq_true, if_false, Option.bind_eq_some_iff] at h
    obtain ⟨⟨c1, ch1⟩, h1, h2⟩ := h
    obtain ⟨e1, e2, e3⟩ := partition_spec h1 (by rw [hA]; exact hn'.1)
    rw [hA] at e1
    have hm1 : ∀ a ∈ A, (c1 a).isSome = true := by
      have := parted_isSome e3
      rwa [hA] at this
    have hframe1 : ∀ x ∈ namesNodes sub, c1 x = c x := fun x hx => e1.frame x fun hc => hdis x hc hx
    simp only at h2
    by_cases hch : ch1 = true
    · rw [if_pos hch] at h2
      simp only [Option.map_eq_some_iff, Prod.mk.injEq] at h2
      obtain ⟨c2, h2, rfl, rfl⟩ := h2
      have hp : PreNodes c1 sub.simples sub := by
        rcases hpre with hf | hg
        · exact preNodes_fresh sub fun x hx => by rw [hframe1 x hx]; exact hf x (by simp [hx])
        · exact preNodes_congr e1.mono sub A _ hwf hframe1 (preNodes_good sub hg.2)
      obtain ⟨g1, g2⟩ := hmark c1 c2 (e1.idem hid) hm1 hp h2
      have hA2 : ∀ a ∈ A, c2 a = c1 a := fun a ha => g2.frame a (hdis a ha)
      refine ⟨(e1.weaken fun x hx => by simp [hx]).trans (g2.weaken fun x hx => by simp [hx]), ⟨?_⟩, g1,
        fun a ha => by rw [hA2 a ha]; exact hm1 a ha, by simp⟩
      intro p hp'
      obtain ⟨q, s1, s2, s3, s4⟩ := e3.sets p hp'
      exact ⟨q, s1, by rw [hA2 p.1 (by rw [← hA]; exact List.mem_map_of_mem hp')]; exact s2, s3, s4⟩
    · rw [if_neg hch] at h2
      simp only [Option.some.injEq, Prod.mk.injEq] at h2
      obtain ⟨rfl, rfl⟩ := h2
      have hcc : c1 = c := e2 (by simpa using hch)
      have hg : SubGood c sub := by
        rcases hpre with hf | hg
        · have hpA : p.1 ∈ A := by rw [← hA, hK]; simp
          have := hm1 p.1 hpA
          rw [hcc, hf p.1 (by simp [hpA])] at this
          simp at this
        · exact hg
      refine ⟨e1.weaken fun x hx => by simp [hx], e3, by rw [hcc]; exact hg, hm1, fun _ => .inr hcc⟩

theorem thetaLoop_spec {mark : Ctx → Option Ctx} {args posts ins : List Out} {sub : Nodes}
    (hmark : MarkOk mark args sub) (hwf : wfNodes args sub = true) (hn : (args ++ namesNodes sub).Nodup)
    (hl : args.length = posts.length) (hins : ∀ i ∈ ins, i ∉ args ++ namesNodes sub) :
    ∀ (fuel : Nat) (c c' : Ctx), thetaLoop mark args posts fuel c = some c' → Idem c → SubGood c sub →
    (∀ a ∈ args, (c a).isSome = true) → ArgsOk (ld c) args ins →
    Ext (args ++ namesNodes sub) c c' ∧ SubGood c' sub ∧ (∀ a ∈ args, (c' a).isSome = true) ∧
      ArgsOk (ld c') args ins ∧ ArgsOk (ld c') args posts
  | 0, c, c', h, _, _, _, _ => by simp [thetaLoop] at h
  | fuel + 1, c, c', h, hid, hg, hm, hi => by
      have hn' := List.nodup_append.1 hn
      have hdis : ∀ x ∈ args, x ∉ namesNodes sub := fun x hx hc => hn'.2.2 x hx x hc rfl
      simp only [thetaLoop, Option.bind_eq_some_iff] at h
      obtain ⟨⟨c1, ch1⟩, h1, h2⟩ := h
      obtain ⟨e1, e2, e3⟩ := partition_spec h1 (by rw [inputKeys_fst hl]; exact hn'.1)
      rw [inputKeys_fst hl] at e1
      simp only at h2
      by_cases hch : ch1 = true
      · rw [if_pos hch] at h2
        simp only [Option.bind_eq_some_iff] at h2
        obtain ⟨c2, h2, h3⟩ := h2
        have hm1 : ∀ a ∈ args, (c1 a).isSome = true := by
          have := parted_isSome e3
          rwa [inputKeys_fst hl] at this
        have hframe1 : ∀ x ∈ namesNodes sub, c1 x = c x := fun x hx => e1.frame x fun hc => hdis x hc hx
        obtain ⟨g1, g2⟩ := hmark c1 c2 (e1.idem hid) hm1
          (preNodes_congr e1.mono sub args _ hwf hframe1 (preNodes_good sub hg.2)) h2
        have hA2 : ∀ a ∈ args, c2 a = c1 a := fun a ha => g2.frame a (hdis a ha)
        have e12 : Ext (args ++ namesNodes sub) c c2 :=
          (e1.weaken fun x hx => by simp [hx]).trans (g2.weaken fun x hx => by simp [hx])
        have hi2 : ArgsOk (ld c2) args ins := by
          have : ArgsOk (ld c1) args ins := refine_argsOk hl e3 hn'.1 hi hm fun i hi' =>
            ld_congr (e1.frame i fun hc => hins i hi' (by simp [hc]))
          refine argsOk_congr this (fun x hx => (ld_congr (hA2 x hx)).symm) fun i hi' => (ld_congr (g2.frame i fun hc =>
            hins i hi' (by simp [hc]))).symm
        obtain ⟨q1, q2, q3, q4, q5⟩ := thetaLoop_spec hmark hwf hn hl hins fuel c2 c' h3 (e12.idem hid) g1
          (fun a ha => by rw [hA2 a ha]; exact hm1 a ha) hi2
        exact ⟨e12.trans q1, q2, q3, q4, q5⟩
      · rw [if_neg hch] at h2
        simp only [Option.some.injEq] at h2
        subst h2
        have hcc : c1 = c := e2 (by simpa using hch)
        have hpost : ArgsOk (ld c1) args posts := argsOk_parted (ps := []) (c := c) hl (by simpa [uniqueKeys] using e3)
          fun i _ => by rw [hcc]
        rw [hcc] at hpost ⊢
        exact ⟨Ext.refl _ _, hg, hm, hi, hpost⟩

theorem theta_mark {cfg : Config} {mark : Ctx → Option Ctx} {A ins outs args posts : List Out} {pred : Out} {sub : Nodes}
    {all prev : List SNode} {c c3 : Ctx} (hmark : MarkOk mark args sub)
    (hwf : wfNode A (.theta ins outs args pred posts sub) = true)
    (hn : (namesNode (.theta ins outs args pred posts sub)).Nodup)
    (hA : ∀ x ∈ A, x ∉ namesNode (.theta ins outs args pred posts sub)) (hid : Idem c)
    (hmA : ∀ x ∈ A, (c x).isSome = true)
    (hpre : Fresh c (namesNode (.theta ins outs args pred posts sub)) ∨
      IGoodNode c all (.theta ins outs args pred posts sub))
    (h : ((markSub mark (inputKeys c args ins) c).bind fun r =>
        (if r.2 then thetaLoop mark args posts (args.length + 1) r.1 else some r.1).bind fun c2 =>
          markLoopOuts ins args posts (!r.2) c2 [] outs.zipIdx) = some c3) :
    Ext (namesNode (.theta ins outs args pred posts sub)) c c3 ∧
      CertNode (ld c3) prev (.theta ins outs args pred posts sub) ∧
      IGoodNode c3 all (.theta ins outs args pred posts sub) ∧ ∀ o ∈ outs, (c3 o).isSome = true := by
  have hinsA := wfNode_ins hwf
  simp only [wfNode, Bool.and_eq_true, beq_iff_eq, Dne.subset_iff] at hwf
  simp only [namesNode, Node.ins] at *
  obtain ⟨⟨⟨⟨⟨_, h1⟩, h2⟩, h3⟩, hsub⟩, hres⟩ := hwf
  have hn0 := hn
  rw [List.append_assoc] at hn0
  have hn1 := List.nodup_append.1 hn0
  have hn2 := List.nodup_append.1 hn1.2.1
  have hposts := posts_names hres
  have hio : ∀ i ∈ ins, i ∉ outs := fun i hi hc => hA i (hinsA i hi) (by simp [hc])
  have hia : ∀ i ∈ ins, i ∉ args ++ namesNodes sub := fun i hi hc => hA i (hinsA i hi) (by
    rcases List.mem_append.1 hc with h | h <;> simp [h])
  have hint : ∀ x ∈ args ++ namesNodes sub, x ∉ outs := fun x hx hc => hn1.2.2 x hc x hx rfl
  have hpo : ∀ p ∈ posts, p ∉ outs := fun p hp => hint p (by
    rcases hposts p hp with h | h <;> simp [h])
  simp only [Option.bind_eq_some_iff] at h
  obtain ⟨⟨c1, ch⟩, k1, c2, k2, k3⟩ := h
  simp only at k2 k3
  have hpre' : Fresh c (args ++ namesNodes sub) ∨ SubGood c sub := by
    rcases hpre with hf | hg
    · exact .inl fun x hx => hf x (by rcases List.mem_append.1 hx with h | h <;> simp [h])
    · exact .inr hg.2.1
  obtain ⟨e1, e2, e3, e4, e5⟩ := markSub_spec (inputKeys_fst (by omega)) hmark hsub hn1.2.1 hid hpre' k1
  have hi1 : ArgsOk (ld c1) args ins := argsOk_parted (ps := []) (c := c) (by omega) (by simpa [uniqueKeys] using e2)
    fun i hi => ld_congr (e1.frame i (hia i hi))
  -- the state after the loop
  have hmid : Ext (args ++ namesNodes sub) c c2 ∧ SubGood c2 sub ∧ ArgsOk (ld c2) args ins ∧ ArgsOk (ld c2) args posts ∧
      ((!ch) = true → ∀ (k : Nat) (o : Out), outs[k]? = some o → thetaInvariant c2 ins args posts k = none →
        ∃ (j : Nat) (o' : Out), outs[j]? = some o' ∧ c2 o = some o' ∧
          (posts[j]?).map (ld c2) = (posts[k]?).map (ld c2)) := by
    by_cases hch : ch = true
    · rw [if_pos hch] at k2
      obtain ⟨q1, q2, q3, q4, q5⟩ := thetaLoop_spec hmark hsub hn1.2.1 (by omega) hia _ c1 c2 k2 (e1.idem hid) e3 e4 hi1
      exact ⟨e1.trans q1, q2, q4, q5, by simp [hch]⟩
    · rw [if_neg hch] at k2
      simp only [Option.some.injEq] at k2
      subst k2
      rcases e5 (by simpa using hch) with hnil | hcc
      · have ho : outs = [] := List.length_eq_zero_iff.1 (by rw [← h2, hnil]; rfl)
        subst hnil ho
        exact ⟨e1, e3, hi1, fun k a hk => by simp at hk, fun _ k o hk => by simp at hk⟩
      · by_cases hnil : args = []
        · have ho : outs = [] := List.length_eq_zero_iff.1 (by rw [← h2, hnil]; rfl)
          subst hnil ho
          exact ⟨e1, e3, hi1, fun k a hk => by simp at hk, fun _ k o hk => by simp at hk⟩
        · rcases hpre with hf | hg
          · obtain ⟨a, as, rfl⟩ := List.exists_cons_of_ne_nil hnil
            have := e4 a (by simp)
            rw [hcc, hf a (by simp)] at this
            simp at this
          · subst hcc
            exact ⟨e1, e3, hi1, hg.1, fun _ => hg.2.2⟩
  obtain ⟨m1, m2, m3, m4, m5⟩ := hmid
  have hid2 := m1.idem hid
  have hm2 : ∀ i ∈ ins, (c2 i).isSome = true := fun i hi => by
    rw [m1.frame i (hia i hi)]; exact hmA i (hinsA i hi)
  obtain ⟨q1, q2, q3⟩ := markLoopOuts_spec hio hpo hm2 outs.zipIdx [] c2 c3 k3
    (fun q hq => List.mem_zipIdx_iff_getElem?.1 (show (q.1, q.2) ∈ outs.zipIdx from hq))
    (by rw [List.zipIdx_map_fst]; exact hn1.1) hid2 (fun _ _ => rfl) (by simp)
  have lint : ∀ x ∈ args ++ namesNodes sub, c3 x = c2 x := fun x hx => q1.frame x (hint x hx)
  have largs : ∀ x ∈ args, c3 x = c2 x := fun x hx => lint x (by simp [hx])
  have lsub : ∀ x ∈ namesNodes sub, c3 x = c2 x := fun x hx => lint x (by simp [hx])
  have lins : ∀ x ∈ ins, c3 x = c2 x := fun x hx => q1.frame x (hio x hx)
  have lposts : ∀ x ∈ posts, c3 x = c2 x := fun x hx => q1.frame x (hpo x hx)
  have hg3 : SubGood c3 sub := subGood_congr hsub q1.mono largs lsub m2
  have hi3 : ArgsOk (ld c3) args ins := argsOk_congr m3 (fun x hx => (ld_congr (largs x hx)).symm)
    fun x hx => (ld_congr (lins x hx)).symm
  have hp3 : ArgsOk (ld c3) args posts := argsOk_congr m4 (fun x hx => (ld_congr (largs x hx)).symm)
    fun x hx => (ld_congr (lposts x hx)).symm
  have hpl : ∀ k : Nat, (posts[k]?).map (ld c3) = (posts[k]?).map (ld c2) := fun k =>
    get_map_congr (fun x hx => ld_congr (lposts x hx)) k
  have hd1 : ∀ (k : Nat) (o : Out), outs[k]? = some o → thetaInvariant c2 ins args posts k = none →
      ∃ (j : Nat) (o' : Out), outs[j]? = some o' ∧ c3 o = some o' ∧
        (posts[j]?).map (ld c3) = (posts[k]?).map (ld c3) := by
    intro k o ho hti
    have hqm : (o, k) ∈ outs.zipIdx := List.mem_zipIdx_iff_getElem?.2 ho
    obtain ⟨_, u2⟩ := q3 (o, k) hqm
    obtain ⟨u3, u4⟩ := u2 hti
    cases hch : ch with
    | false =>
      obtain ⟨j, o', g1, g2, g3⟩ := m5 (by simp [hch]) k o ho hti
      exact ⟨j, o', g1, by rw [u3 (by simp [hch])]; exact g2, by rw [hpl, hpl]; exact g3⟩
    | true =>
      obtain ⟨j, o', g1, g2, g3⟩ := u4 (by simp [hch])
      exact ⟨j, o', g1, g2, by rw [hpl, hpl]; exact g3⟩
  have hloop : ∀ (k : Nat) (o : Out), outs[k]? = some o → LoopOk (ld c3) ins outs args posts k o ∧ (c3 o).isSome = true := by
    intro k o ho
    cases hti : thetaInvariant c2 ins args posts k with
    | none =>
      obtain ⟨j, o', g1, g2, g3⟩ := hd1 k o ho hti
      exact ⟨.inl ⟨j, o', g1, ld_some g2, g3⟩, by rw [g2]; rfl⟩
    | some i =>
      have hqm : (o, k) ∈ outs.zipIdx := List.mem_zipIdx_iff_getElem?.2 ho
      have hc3 := (q3 (o, k) hqm).1 i hti
      simp only at hc3
      obtain ⟨j, a, i', g1, g2, g3, g4, g5⟩ := thetaInvariant_ok hti (fun x _ => idem_ld2 hid2 x) hn2.1
        (by omega) (by omega) m3 m4
      refine ⟨.inr ⟨j, a, i', g1, g2, by rw [hpl]; exact g3, by rw [hpl]; exact g4, ?_⟩, by rw [hc3]; rfl⟩
      rw [ld_some hc3, g5, ld_congr (lins i' (List.mem_of_getElem? g2))]
  refine ⟨?_, ?_, ?_, ?_⟩
  · rw [List.append_assoc]
    exact (m1.weaken fun x hx => List.mem_append.2 (.inr hx)).trans (q1.weaken fun x hx => List.mem_append.2 (.inl hx))
  · simp only [CertNode]
    exact ⟨hi3, hp3, hg3.1, fun k o ho => (hloop k o ho).1⟩
  · simp only [IGoodNode]
    refine ⟨hp3, hg3, fun k o ho hti => ?_⟩
    rw [thetaInvariant_congr lposts] at hti
    exact hd1 k o ho hti
  · intro o ho
    obtain ⟨k, hk⟩ := List.mem_iff_getElem?.1 ho
    exact (hloop k o hk).2

/-! ## All nodes -/

theorem simples_outs {ns : Nodes} {m : SNode} (h : m ∈ ns.simples) : ∀ o ∈ m.outs, o ∈ namesNodes ns := by
  induction ns using Nodes.simples.induct with
  | case1 => simp [Nodes.simples] at h
  | case2 op ins outs ns ih =>
    simp only [Nodes.simples, List.mem_cons] at h
    intro o ho
    simp only [namesNodes, namesNode, List.mem_append]
    rcases h with h | h
    · subst h; exact .inl ho
    · exact .inr (ih h o ho)
  | case3 n ns hn ih =>
    intro o ho
    simp only [namesNodes, List.mem_append]
    right
    refine ih ?_ o ho
    cases n with
    | simple op ins outs => exact absurd rfl (hn op ins outs)
    | _ => simpa [Nodes.simples] using h

theorem simples_uniq {ns : Nodes} (h : (namesNodes ns).Nodup) : Uniq ns.simples := by
  induction ns using Nodes.simples.induct with
  | case1 => intro m hm; simp [Nodes.simples] at hm
  | case2 op ins outs ns ih =>
    simp only [namesNodes, namesNode] at h
    have h' := List.nodup_append.1 h
    have ih' := ih h'.2.1
    intro m hm m' hm' o ho ho'
    simp only [Nodes.simples, List.mem_cons] at hm hm'
    rcases hm with hm | hm <;> rcases hm' with hm' | hm'
    · rw [hm, hm']
    · subst hm
      exact absurd rfl (h'.2.2 o ho o (simples_outs hm' o ho'))
    · subst hm'
      exact absurd rfl (h'.2.2 o ho' o (simples_outs hm o ho))
    · exact ih' m hm m' hm' o ho ho'
  | case3 n ns hn ih =>
    simp only [namesNodes] at h
    have := ih (List.nodup_append.1 h).2.1
    cases n with
    | simple op ins outs => exact absurd rfl (hn op ins outs)
    | _ => simpa [Nodes.simples] using this

theorem simples_cons (n : Node) (ns : Nodes) : (Nodes.cons n ns).simples = (Nodes.cons n .nil).simples ++ ns.simples := by
  cases n <;> simp [Nodes.simples]

theorem env_start {cfg : Config} {sub : Nodes} {A : List Out} {c : Ctx} (hs : cfg.strict = true)
    (hn : (namesNodes sub).Nodup) (hid : Idem c) (hm : ∀ x ∈ A, (c x).isSome = true) :
    MarkEnv cfg sub.simples [] [] A c :=
  ⟨hs, simples_uniq hn, by simp, by simp, by simp, by simp, hid, hm⟩

theorem ctx_mark {mark : Ctx → Option Ctx} {ps args ins outs : List Out} {sub : Nodes} {c c2 : Ctx}
    (hl : ins.length = args.length) (hmark : MarkOk mark (ps ++ args) sub) (hwf : wfNodes (ps ++ args) sub = true)
    (hn : (outs ++ (ps ++ args ++ namesNodes sub)).Nodup)
    (hi : ∀ i ∈ ins, i ∉ outs ++ (ps ++ args ++ namesNodes sub)) (hid : Idem c)
    (hpre : Fresh c (ps ++ args ++ namesNodes sub) ∨ SubGood c sub)
    (h : ((markSub mark (uniqueKeys ps ++ inputKeys c args ins) c).map fun r => leadAll r.1 outs) = some c2) :
    Ext (outs ++ (ps ++ args ++ namesNodes sub)) c c2 ∧ (∀ p ∈ ps, ld c2 p = p) ∧ ArgsOk (ld c2) args ins ∧
      SubGood c2 sub ∧ (∀ o ∈ outs, c2 o = some o) := by
  have hn1 := List.nodup_append.1 hn
  simp only [Option.map_eq_some_iff] at h
  obtain ⟨⟨c1, ch⟩, h1, rfl⟩ := h
  obtain ⟨e1, e2, e3, e4, e5⟩ := markSub_spec (keys_fst hl.symm) hmark hwf hn1.2.1 hid hpre h1
  obtain ⟨q1, q2⟩ := ext_leadAll outs c1
  have lint : ∀ x ∈ ps ++ args ++ namesNodes sub, leadAll c1 outs x = c1 x := fun x hx =>
    q1.frame x fun hc => hn1.2.2 x hc x hx rfl
  have lins : ∀ x ∈ ins, leadAll c1 outs x = c1 x := fun x hx => q1.frame x fun hc => hi x hx (by simp [hc])
  refine ⟨(e1.weaken fun x hx => List.mem_append.2 (.inr hx)).trans (q1.weaken fun x hx => List.mem_append.2 (.inl hx)),
    fun p hp => ?_, ?_, subGood_congr hwf q1.mono (fun x hx => lint x (List.mem_append.2 (.inl hx)))
      (fun x hx => lint x (List.mem_append.2 (.inr hx))) e3, q2⟩
  · exact ld_leader (by rw [lint p (by simp [hp])]; exact unique_parted e2 p hp)
  · have : ArgsOk (ld c1) args ins := argsOk_parted hl.symm e2 fun i hi' => ld_congr (e1.frame i fun hc =>
      hi i hi' (List.mem_append.2 (.inr hc)))
    exact argsOk_congr this (fun x hx => (ld_congr (lint x (by simp [hx]))).symm) fun x hx => (ld_congr (lins x hx)).symm

mutual

theorem node_mark {cfg : Config} : ∀ (n : Node) (all prev tops tops' : List SNode) (A : List Out) (c c' : Ctx),
    MarkEnv cfg all prev tops A c → wfNode A n = true → (namesNode n).Nodup → (∀ x ∈ A, x ∉ namesNode n) →
    (∀ m ∈ (Nodes.cons n .nil).simples, m ∈ all) → (Fresh c (namesNode n) ∨ IGoodNode c all n) →
    markNode cfg n all prev tops c = some (c', tops') →
    Ext (namesNode n) c c' ∧ CertNode (ld c') prev n ∧ IGoodNode c' all n ∧ (∀ o ∈ n.outs, (c' o).isSome = true) ∧
      ∀ t ∈ tops', t ∈ prev ++ (Nodes.cons n .nil).simples
  | .simple op ins outs, all, prev, tops, tops', A, c, c', E, hwf, hn, hA, hall, hpre, h => by
      have hins := wfNode_ins hwf
      simp only [namesNode, Node.ins, Node.outs, IGoodNode, Nodes.simples, markNode] at *
      obtain ⟨g1, g2, g3, g4, g5⟩ := simple_mark E (hall _ (by simp)) hins hA hn hpre h
      exact ⟨g1, g2, g3, g4, g5⟩
  | .gamma pred ins outs subs, all, prev, tops, tops', A, c, c', E, hwf, hn, hA, hall, hpre, h => by
      have hins := wfNode_ins hwf
      simp only [wfNode, Bool.and_eq_true] at hwf
      simp only [namesNode, Node.ins, Node.outs, IGoodNode, Nodes.simples, List.append_nil] at *
      simp only [markNode, Option.bind_eq_some_iff, Option.map_eq_some_iff, Prod.mk.injEq] at h
      obtain ⟨c1, h1, c2, h2, rfl, rfl⟩ := h
      have hn1 := List.nodup_append.1 hn
      have hid := E.idem
      have hinsN : ∀ i ∈ ins, i ∉ outs ++ namesRegions subs := fun i hi => hA i (hins i (by simp [hi]))
      obtain ⟨e1, e2, e3⟩ := regions_mark E.strict subs ins _ c c1 hwf.2 hn1.2.1
        (fun i hi hc => hinsN i hi (by simp [hc])) hid (fun i hi => E.marked i (hins i (by simp [hi])))
        (by
          rcases hpre with hf | hg
          · exact .inl fun x hx => hf x (by simp [hx])
          · exact .inr hg) h1
      have hio : ∀ i ∈ ins, i ∉ outs := fun i hi hc => hinsN i hi (by simp [hc])
      have hro : ∀ (b : Nat) (args results : List Out), subs.branch b = some (args, results) →
          ∀ r ∈ results, r ∉ outs := fun b args results hb r hr hc =>
        hn1.2.2 r hc r ((branch_results subs _ _ b args results hwf.2 hb).1 r hr) rfl
      have lin1 : ∀ i ∈ ins, c1 i = c i := fun i hi => e1.frame i fun hc => hinsN i hi (by simp [hc])
      obtain ⟨q1, q2, q3⟩ := markExits_spec hro hio outs.zipIdx [] c1 c2 h2
        (fun q hq => List.mem_zipIdx_iff_getElem?.1 (show (q.1, q.2) ∈ outs.zipIdx from hq))
        (by rw [List.zipIdx_map_fst]; exact hn1.1) (by simp [TableOk]) (e1.idem hid)
        (fun i hi => by rw [lin1 i hi]; exact E.marked i (hins i (by simp [hi])))
      have lsub : ∀ x ∈ namesRegions subs, c2 x = c1 x := fun x hx => q1.frame x fun hc => hn1.2.2 x hc x hx rfl
      refine ⟨(e1.weaken fun x hx => List.mem_append.2 (.inr hx)).trans
          (q1.weaken fun x hx => List.mem_append.2 (.inl hx)), ?_, iGoodRegions_congr q1.mono subs _ _ hwf.2 lsub e3,
        fun o ho => ?_, fun t ht => E.topsPrev t ht⟩
      · simp only [CertNode]
        refine ⟨certRegions_congr subs ins _ _ hwf.2 (fun x hx => (ld_congr (q1.frame x (hio x hx))).symm)
          (fun x hx => (ld_congr (lsub x hx)).symm) e2, fun k o ho => ?_⟩
        exact (q3 (o, k) (List.mem_zipIdx_iff_getElem?.2 ho)).1
      · obtain ⟨k, hk⟩ := List.mem_iff_getElem?.1 ho
        exact (q3 (o, k) (List.mem_zipIdx_iff_getElem?.2 hk)).2
  | .theta ins outs args pred posts sub, all, prev, tops, tops', A, c, c', E, hwf, hn, hA, hall, hpre, h => by
      have hn' := hn
      simp only [namesNode] at hn'
      have hd : (namesNodes sub).Nodup ∧ ∀ x ∈ args, x ∉ namesNodes sub := by
        have := List.nodup_append.1 hn'
        exact ⟨this.2.1, fun x hx hc => this.2.2 x (by simp [hx]) x hc rfl⟩
      have hwfs : wfNodes args sub = true := by
        simp only [wfNode, Bool.and_eq_true] at hwf
        exact hwf.1.2
      simp only [markNode, Option.bind_eq_some_iff, Option.map_eq_some_iff, Prod.mk.injEq] at h
      obtain ⟨r, h1, c2, h2, c3, h3, rfl, rfl⟩ := h
      obtain ⟨g1, g2, g3, g4⟩ := theta_mark (cfg := cfg) (prev := prev) (c3 := c3)
        (mark := fun c => markNodes cfg sub sub.simples [] [] c)
        (fun ca cb hid hm hp hmk => by
          obtain ⟨s1, s2, s3⟩ := nodes_mark sub sub.simples [] [] args ca cb (env_start E.strict hd.1 hid hm) hwfs hd.1 hd.2
            (fun m hm => hm) hp hmk
          exact ⟨⟨s2, s3⟩, s1⟩) hwf hn hA E.idem E.marked hpre
        (by simp only [Option.bind_eq_some_iff]; exact ⟨r, h1, c2, h2, h3⟩)
      exact ⟨g1, g2, g3, g4, fun t ht => by simp [E.topsPrev t ht]⟩
  | .lambda ins args params results out sub, all, prev, tops, tops', A, c, c', E, hwf, hn, hA, hall, hpre, h => by
      have hins := wfNode_ins hwf
      simp only [wfNode, Bool.and_eq_true, beq_iff_eq] at hwf
      have hnames : namesNode (.lambda ins args params results out sub) = [out] ++ (params ++ args ++ namesNodes sub) := by
        simp [namesNode]
      rw [hnames] at hn hA hpre ⊢
      simp only [Node.ins, Node.outs, IGoodNode] at *
      have hn1 := List.nodup_append.1 hn
      have hn2 := List.nodup_append.1 hn1.2.1
      have hd : ∀ x ∈ params ++ args, x ∉ namesNodes sub := fun x hx hc => hn2.2.2 x hx x hc rfl
      simp only [markNode, Option.map_eq_some_iff, Prod.mk.injEq] at h
      obtain ⟨r, h1, rfl, rfl⟩ := h
      obtain ⟨g1, g2, g3, g4, g5⟩ := ctx_mark (outs := [out]) (c2 := leadAll r.1 [out])
        (mark := fun c => markNodes cfg sub sub.simples [] [] c) hwf.1.1.2
        (fun ca cb hid hm hp hmk => by
          obtain ⟨s1, s2, s3⟩ := nodes_mark sub sub.simples [] [] (params ++ args) ca cb
            (env_start E.strict hn2.2.1 hid hm) hwf.1.2 hn2.2.1 hd (fun m hm => hm) hp hmk
          exact ⟨⟨s2, s3⟩, s1⟩) hwf.1.2 hn (fun i hi => hA i (hins i hi)) E.idem
        (by
          rcases hpre with hf | hg
          · exact .inl fun x hx => hf x (List.mem_append.2 (.inr hx))
          · exact .inr hg)
        (by simp only [Option.map_eq_some_iff]; exact ⟨r, h1, rfl⟩)
      have ho := g5 out (by simp)
      refine ⟨g1, ?_, g4, fun o ho' => ?_, fun t ht => by simp [E.topsPrev t ht]⟩
      · simp only [CertNode]
        exact ⟨g2, g3, g4.1, ld_leader ho⟩
      · simp only [List.mem_singleton] at ho'
        rw [ho', ho]; rfl
  | .phi ins args recs results outs sub, all, prev, tops, tops', A, c, c', E, hwf, hn, hA, hall, hpre, h => by
      have hins := wfNode_ins hwf
      simp only [wfNode, Bool.and_eq_true, beq_iff_eq] at hwf
      have hnames : namesNode (.phi ins args recs results outs sub) = outs ++ (recs ++ args ++ namesNodes sub) := by
        simp [namesNode]
      rw [hnames] at hn hA hpre ⊢
      simp only [Node.ins, Node.outs, IGoodNode] at *
      have hn1 := List.nodup_append.1 hn
      have hn2 := List.nodup_append.1 hn1.2.1
      have hd : ∀ x ∈ recs ++ args, x ∉ namesNodes sub := fun x hx hc => hn2.2.2 x hx x hc rfl
      simp only [markNode, Option.map_eq_some_iff, Prod.mk.injEq] at h
      obtain ⟨r, h1, rfl, rfl⟩ := h
      obtain ⟨g1, g2, g3, g4, g5⟩ := ctx_mark (outs := outs) (c2 := leadAll r.1 outs)
        (mark := fun c => markNodes cfg sub sub.simples [] [] c) hwf.1.1.1.1.2
        (fun ca cb hid hm hp hmk => by
          obtain ⟨s1, s2, s3⟩ := nodes_mark sub sub.simples [] [] (recs ++ args) ca cb
            (env_start E.strict hn2.2.1 hid hm) hwf.1.2 hn2.2.1 hd (fun m hm => hm) hp hmk
          exact ⟨⟨s2, s3⟩, s1⟩) hwf.1.2 hn (fun i hi => hA i (hins i hi)) E.idem
        (by
          rcases hpre with hf | hg
          · exact .inl fun x hx => hf x (List.mem_append.2 (.inr hx))
          · exact .inr hg)
        (by simp only [Option.map_eq_some_iff]; exact ⟨r, h1, rfl⟩)
      refine ⟨g1, ?_, g4, fun o ho' => ?_, fun t ht => by simp [E.topsPrev t ht]⟩
      · simp only [CertNode]
        exact ⟨g2, g3, g4.1, fun o ho => ld_leader (g5 o ho)⟩
      · rw [g5 o ho']; rfl
  | .delta ins args result out sub, all, prev, tops, tops', A, c, c', E, hwf, hn, hA, hall, hpre, h => by
      simp only [markNode, Option.some.injEq, Prod.mk.injEq] at h
      obtain ⟨rfl, rfl⟩ := h
      obtain ⟨q1, q2⟩ := ext_leadAll [out] c
      refine ⟨q1.weaken (by simp [namesNode]), ?_, by simp [IGoodNode], fun o ho => ?_,
        fun t ht => by simp [E.topsPrev t ht]⟩
      · simp only [CertNode]
        exact ld_leader (q2 out (by simp))
      · simp only [Node.outs] at ho
        rw [q2 o ho]; rfl

theorem nodes_mark {cfg : Config} : ∀ (ns : Nodes) (all prev tops : List SNode) (A : List Out) (c c' : Ctx),
    MarkEnv cfg all prev tops A c → wfNodes A ns = true → (namesNodes ns).Nodup → (∀ x ∈ A, x ∉ namesNodes ns) →
    (∀ m ∈ ns.simples, m ∈ all) → PreNodes c all ns → markNodes cfg ns all prev tops c = some c' →
    Ext (namesNodes ns) c c' ∧ CertNodes (ld c') prev ns ∧ IGoodNodes c' all ns
  | .nil, all, prev, tops, A, c, c', E, _, _, _, _, _, h => by
      simp only [markNodes, Option.some.injEq] at h
      subst h
      exact ⟨Ext.refl _ _, by simp [CertNodes], by simp [IGoodNodes]⟩
  | .cons n ns, all, prev, tops, A, c, c', E, hwf, hn, hA, hall, hpre, h => by
      have hall' : ∀ m, m ∈ (Nodes.cons n .nil).simples ∨ m ∈ ns.simples → m ∈ all := by
        intro m hm
        exact hall m (by rw [simples_cons]; simpa using hm)
      simp only [wfNodes, Bool.and_eq_true] at hwf
      simp only [namesNodes] at hn hA ⊢
      simp only [PreNodes] at hpre
      simp only [markNodes, Option.bind_eq_some_iff] at h
      obtain ⟨⟨c1, tops1⟩, h1, h2⟩ := h
      simp only at h2
      have hn' := List.nodup_append.1 hn
      have hdis : ∀ x ∈ namesNode n, x ∉ namesNodes ns := fun x hx hc => hn'.2.2 x hx x hc rfl
      obtain ⟨g1, g2, g3, g4, g5⟩ := node_mark n all prev tops tops1 A c c1 E hwf.1 hn'.1
        (fun x hx hc => hA x hx (by simp [hc])) (fun m hm => hall' m (.inl hm)) hpre.1 h1
      have hA1 : ∀ x ∈ A, c1 x = c x := fun x hx => g1.frame x fun hc => hA x hx (by simp [hc])
      have hrest1 : ∀ x ∈ namesNodes ns, c1 x = c x := fun x hx => g1.frame x fun hc => hdis x hc hx
      have E1 : MarkEnv cfg all (prev ++ (Nodes.cons n .nil).simples) tops1 (n.outs ++ A) c1 := by
        refine ⟨E.strict, E.uniq, fun m hm => ?_, g5, fun m hm => ?_, prev_step' n hwf.1 E.prevA, g1.idem E.idem, fun x hx => ?_⟩
        · rcases List.mem_append.1 hm with hm | hm
          · exact E.prevAll m hm
          · exact hall' m (.inl hm)
        · rcases List.mem_append.1 hm with hm | hm
          · exact sync_congr (E.sync m hm) (fun x hx => hA1 x ((E.prevA m hm).2 x hx)) g1.mono
          · cases n with
            | simple op ins outs =>
              simp only [Nodes.simples, List.mem_singleton] at hm
              subst hm
              simpa only [IGoodNode] using g3
            | _ => simp [Nodes.simples] at hm
        · rcases List.mem_append.1 hx with hx | hx
          · exact g4 x hx
          · rw [hA1 x hx]; exact E.marked x hx
      obtain ⟨q1, q2, q3⟩ := nodes_mark ns all _ tops1 (n.outs ++ A) c1 c' E1 hwf.2 hn'.2.1
        (fun x hx hc => by
          rcases List.mem_append.1 hx with hx | hx
          · exact hdis x (Dne.outs_subset_names n x hx) hc
          · exact hA x hx (by simp [hc]))
        (fun m hm => hall' m (.inr hm)) (preNodes_congr g1.mono ns _ all hwf.2 hrest1 hpre.2) h2
      have hback : ∀ x ∈ namesNode n, c' x = c1 x := fun x hx => q1.frame x (hdis x hx)
      have hbackA : ∀ x ∈ A, c' x = c1 x := fun x hx => q1.frame x fun hc => hA x hx (by simp [hc])
      refine ⟨(g1.weaken fun x hx => by simp [hx]).trans (q1.weaken fun x hx => by simp [hx]), ?_, ?_⟩
      · simp only [CertNodes]
        exact ⟨certNode_congr n A prev hwf.1 E.prevA (fun x hx => (ld_congr (hbackA x hx)).symm)
          (fun x hx => (ld_congr (hback x hx)).symm) g2, q2⟩
      · simp only [IGoodNodes]
        exact ⟨iGoodNode_congr q1.mono n A all hwf.1 hback g3, q3⟩

theorem regions_mark {cfg : Config} (hs : cfg.strict = true) : ∀ (rs : Regions) (ins : List Out) (m : Nat) (c c' : Ctx),
    wfRegions (ins.length + 1) m rs = true → (namesRegions rs).Nodup → (∀ i ∈ ins, i ∉ namesRegions rs) → Idem c →
    (∀ i ∈ ins, (c i).isSome = true) → (Fresh c (namesRegions rs) ∨ IGoodRegions c rs) →
    markRegions cfg rs ins c = some c' →
    Ext (namesRegions rs) c c' ∧ CertRegions (ld c') ins rs ∧ IGoodRegions c' rs
  | .nil, ins, m, c, c', _, _, _, _, _, _, h => by
      simp only [markRegions, Option.some.injEq] at h
      subst h
      exact ⟨Ext.refl _ _, by simp [CertRegions], by simp [IGoodRegions]⟩
  | .cons args results sub rest, ins, m, c, c', hwf, hn, hi, hid, hm, hpre, h => by
      simp only [wfRegions, Bool.and_eq_true, beq_iff_eq] at hwf
      simp only [namesRegions] at hn hi hpre ⊢
      have hn1 := List.nodup_append.1 hn
      have hn2 := List.nodup_append.1 hn1.1
      have hd : ∀ x ∈ args, x ∉ namesNodes sub := fun x hx hc => hn2.2.2 x hx x hc rfl
      simp only [markRegions, Option.bind_eq_some_iff] at h
      obtain ⟨⟨c1, ch⟩, h1, h2⟩ := h
      simp only at h2
      cases args with
      | nil => simp at hwf
      | cons a as =>
        simp only [List.length_cons, Nat.add_right_cancel_iff] at hwf
        have hmark : MarkOk (fun c => markNodes cfg sub sub.simples [] [] c) ([a] ++ as) sub := fun ca cb hid hm hp hmk => by
          obtain ⟨s1, s2, s3⟩ := nodes_mark sub sub.simples [] [] (a :: as) ca cb
            (env_start hs hn2.2.1 hid (by simpa using hm)) hwf.1.1.2 hn2.2.1 hd (fun m hm => hm) hp hmk
          exact ⟨⟨s2, s3⟩, s1⟩
        obtain ⟨e1, e2, e3, e4, e5⟩ := markSub_spec (c := c) (c' := c1) (keys_fst hwf.1.1.1.1) hmark
          (by simpa using hwf.1.1.2) (by simpa using hn1.1) hid
          (by
            rcases hpre with hf | hg
            · exact .inl fun x hx => hf x (List.mem_append.2 (.inl (by simpa using hx)))
            · exact .inr hg.1)
          (by simpa using h1)
        have e1' : Ext (a :: as ++ namesNodes sub) c c1 := by simpa using e1
        have hdis : ∀ x ∈ a :: as ++ namesNodes sub, x ∉ namesRegions rest := fun x hx hc => hn1.2.2 x hx x hc rfl
        have lin1 : ∀ i ∈ ins, c1 i = c i := fun i hi' => e1'.frame i fun hc => hi i hi' (List.mem_append.2 (.inl hc))
        obtain ⟨q1, q2, q3⟩ := regions_mark hs rest ins m c1 c' hwf.2 hn1.2.1
          (fun i hi' hc => hi i hi' (List.mem_append.2 (.inr hc))) (e1'.idem hid)
          (fun i hi' => by rw [lin1 i hi']; exact hm i hi')
          (by
            rcases hpre with hf | hg
            · refine .inl fun x hx => ?_
              rw [e1'.frame x fun hc => hdis x hc hx]
              exact hf x (List.mem_append.2 (.inr hx))
            · exact .inr (iGoodRegions_congr e1'.mono rest _ _ hwf.2 (fun x hx => e1'.frame x fun hc => hdis x hc hx) hg.2))
          h2
        have hback : ∀ x ∈ a :: as ++ namesNodes sub, c' x = c1 x := fun x hx => q1.frame x (hdis x hx)
        have lin2 : ∀ i ∈ ins, c' i = c1 i := fun i hi' => q1.frame i fun hc => hi i hi' (List.mem_append.2 (.inr hc))
        have hg' : SubGood c' sub := subGood_congr hwf.1.1.2 q1.mono (fun x hx => hback x (List.mem_append.2 (.inl hx)))
          (fun x hx => hback x (List.mem_append.2 (.inr hx))) e3
        refine ⟨(e1'.weaken fun x hx => List.mem_append.2 (.inl hx)).trans
          (q1.weaken fun x hx => List.mem_append.2 (.inr hx)), ?_, ?_⟩
        · simp only [CertRegions, List.head?_cons, Option.mem_def, Option.some.injEq, forall_eq', List.tail_cons]
          refine ⟨ld_leader (by rw [hback a (by simp)]; exact unique_parted e2 a (by simp)), ?_, hg'.1, q2⟩
          have : ArgsOk (ld c1) as ins := argsOk_parted hwf.1.1.1.1 e2 fun i hi' => ld_congr (lin1 i hi')
          exact argsOk_congr this (fun x hx => (ld_congr (hback x (by simp [hx]))).symm)
            fun x hx => (ld_congr (lin2 x hx)).symm
        · simp only [IGoodRegions]
          exact ⟨hg', q3⟩

end

/-- **C28** (repaired program): the mark phase finds a congruence on the outputs of the module. -/
theorem C28_mark_congruence {cfg : Config} (hs : cfg.strict = true) {g : Graph} (hwf : g.wf = true) {c : Ctx}
    (h : markGraph cfg g = some c) : g.Cert (ld c) := by
  simp only [Graph.wf, Graph.names, Bool.and_eq_true, Dne.subset_iff] at hwf
  have hn := List.nodup_append.1 (of_decide_eq_true hwf.1.1)
  obtain ⟨q1, q2⟩ := ext_leadAll g.imports (fun _ => none)
  have hdis : ∀ x ∈ g.imports, x ∉ namesNodes g.body := fun x hx hc => hn.2.2 x hx x hc rfl
  obtain ⟨e1, e2, e3⟩ := nodes_mark g.body g.body.simples [] [] g.imports _ c
    (env_start hs hn.2.1 (q1.idem (by intro x l h; simp at h)) (fun x hx => by rw [q2 x hx]; rfl)) hwf.1.2 hn.2.1 hdis
    (fun m hm => hm) (preNodes_fresh g.body fun x hx => by rw [q1.frame x fun hc => hdis x hc hx]) h
  exact ⟨fun i hi => ld_leader (e1.mono i (q2 i hi)), e2⟩

variable {V : Type}

/-- **C28** (repaired program): common node elimination refines the meaning of a module. -/
theorem C28_cne_refines {sem : Sem V} (hm : sem.Mono) {cfg : Config} (hs : cfg.strict = true) {g g' : Graph}
    (hwf : g.wf = true) (h : run cfg g = some g') : Refines (g.meaning sem) (g'.meaning sem) := by
  simp only [run, Option.map_eq_some_iff] at h
  obtain ⟨c, hc, rfl⟩ := h
  exact C28_congruence_refines hm hwf (C28_mark_congruence hs hwf hc)

/-- **C28** (repaired program): common node elimination keeps a module well-formed. -/
theorem C28_cne_wf {cfg : Config} (hs : cfg.strict = true) {g g' : Graph} (hwf : g.wf = true)
    (h : run cfg g = some g') : g'.wf = true := by
  simp only [run, Option.map_eq_some_iff] at h
  obtain ⟨c, hc, rfl⟩ := h
  exact C28_congruence_wf hwf (C28_mark_congruence hs hwf hc)

end Jlm.Opt.Cne
