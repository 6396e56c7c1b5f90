import Verif.Aa.LocalAaSpec

/-!
# The local alias analysis is sound
-/

namespace Jlm.Aa.Local

variable {F : Fn} {E : Exec}

theorem overlap_lt {p q : Ptr} {s t : Nat} (h : Overlap p s q t) : p.off < q.off + t ∧ q.off < p.off + s := by
  obtain ⟨-, x, h1, h2, h3, h4⟩ := h
  omega

theorem original_isTop {d : Def} (h : isOriginal d = true) : d.isTop := by
  intro off
  cases d <;> simp [isOriginal, succs] at h ⊢

theorem original_off (hE : E.Of F) {i : E.I} {o : Out} {p : Ptr} (ho : isOriginal (F.deff o) = true)
    (hv : E.val i o = some p) : p.off = 0 ∧ ∀ s, originSize (F.deff o) = some s → E.size p.obj = s := by
  have h := hE.step i o p hv
  unfold Exec.Step at h
  cases hd : F.deff o <;> simp_all [isOriginal]

theorem sized_original {d : Def} {s : Nat} (h : originSize d = some s) : isOriginal d = true := by
  cases d <;> simp [originSize, isOriginal] at h ⊢

/-- The offsets are compared correctly if the pointers are relative to the same one. -/
theorem queryOffsets_no {o1 o2 : Option Int} {s1 s2 : Nat} {p q B : Ptr} (h1 : ∀ k, o1 = some k → p.off = B.off + k)
    (h2 : ∀ k, o2 = some k → q.off = B.off + k) (h : queryOffsets o1 s1 o2 s2 = .noAlias) : ¬ Overlap p s1 q s2 := by
  intro hov
  have hlt := overlap_lt hov
  unfold queryOffsets at h
  cases o1 with
  | none => simp at h
  | some a =>
      cases o2 with
      | none => simp at h
      | some b =>
          have := h1 a rfl
          have := h2 b rfl
          simp only at h
          by_cases c1 : b - a = 0
          · rw [if_pos c1] at h; simp at h
          · rw [if_neg c1] at h
            by_cases c2 : 0 ≤ b - a ∧ (s1 : Int) ≤ b - a
            · omega
            · rw [if_neg c2] at h
              by_cases c3 : b - a ≤ 0 ∧ (s2 : Int) ≤ -(b - a)
              · omega
              · rw [if_neg c3] at h; simp at h

theorem queryOffsets_must {o1 o2 : Option Int} {s1 s2 : Nat} {p q B : Ptr} (h1 : ∀ k, o1 = some k → p.off = B.off + k)
    (h2 : ∀ k, o2 = some k → q.off = B.off + k) (h : queryOffsets o1 s1 o2 s2 = .mustAlias) : p.off = q.off := by
  unfold queryOffsets at h
  cases o1 with
  | none => simp at h
  | some a =>
      cases o2 with
      | none => simp at h
      | some b =>
          have := h1 a rfl
          have := h2 b rfl
          simp only at h
          by_cases c1 : b - a = 0
          · omega
          · rw [if_neg c1] at h
            by_cases c2 : 0 ≤ b - a ∧ (s1 : Int) ≤ b - a
            · rw [if_pos c2] at h; simp at h
            · rw [if_neg c2] at h
              by_cases c3 : b - a ≤ 0 ∧ (s2 : Int) ≤ -(b - a)
              · rw [if_pos c3] at h; simp at h
              · rw [if_neg c3] at h; simp at h

/-! ### The filters keep the origin of the access -/

theorem mem_removeBelow (hE : E.Of F) {m : Map} {s : Nat} {j : E.I} {e : Out × Option Int} {q : Ptr} (he : e ∈ m)
    (ho : E.Origin j e.1 e.2 q) (hq0 : 0 ≤ q.off) (hb : E.InBounds q s) :
    ∃ w, (e.1, w) ∈ removeBelow F s m ∧ E.Origin j e.1 w q := by
  obtain ⟨B, hB, hobj, hk⟩ := ho
  unfold Exec.InBounds at hb
  unfold removeBelow
  cases hs : originSize (F.deff e.1) with
  | none =>
      refine ⟨e.2, List.mem_filterMap.2 ⟨e, he, ?_⟩, B, hB, hobj, hk⟩
      simp [remaining, hs]
  | some t =>
      obtain ⟨hB0, hsz⟩ := original_off hE (sized_original hs) hB
      have ht := hsz t hs
      rw [hobj] at ht
      cases hw : e.2 with
      | none =>
          by_cases hts : t = s
          · refine ⟨some 0, List.mem_filterMap.2 ⟨e, he, ?_⟩, B, hB, hobj, ?_⟩
            · simp [remaining, hs, hw, hts]
            · intro k hk'
              injection hk' with hk'
              omega
          · refine ⟨none, List.mem_filterMap.2 ⟨e, he, ?_⟩, B, hB, hobj, by simp⟩
            simp only [remaining, hs, hw, Option.map_some]
            rw [if_neg (by omega), if_neg (by simp [hts])]
            rw [← hw]
      | some o =>
          have hko := hk o hw
          refine ⟨some o, List.mem_filterMap.2 ⟨e, he, ?_⟩, B, hB, hobj, by rw [← hw]; exact hk⟩
          simp only [remaining, hs, hw, Option.map_some]
          rw [if_neg (show ¬ (0 < o ∧ (t : Int) < o) by omega), if_neg (show ¬ ((t : Int) - o).toNat < s by omega),
            if_neg (by simp), ← hw]

theorem removeBelow_keys {m : Map} {s : Nat} {e : Out × Option Int} (h : e ∈ removeBelow F s m) : ∃ w, (e.1, w) ∈ m := by
  unfold removeBelow at h
  obtain ⟨e', he', h⟩ := List.mem_filterMap.1 h
  split at h
  · split at h
    · simp at h
    · split at h
      · injection h with h
        subst h
        exact ⟨e'.2, he'⟩
      · injection h with h
        subst h
        exact ⟨e'.2, he'⟩
  · injection h with h
    subst h
    exact ⟨e'.2, he'⟩

theorem removeBelow_nodup {s : Nat} : ∀ {m : Map}, (Keys m).Nodup → (Keys (removeBelow F s m)).Nodup
  | [], _ => List.nodup_nil
  | e :: m, h => by
      unfold Keys at h
      rw [List.map_cons, List.nodup_cons] at h
      have ih := removeBelow_nodup (s := s) (m := m) h.2
      have hsub : ∀ w, (Keys ((e.1, w) :: removeBelow F s m)).Nodup := by
        intro w
        unfold Keys
        rw [List.map_cons, List.nodup_cons]
        refine ⟨?_, ih⟩
        intro hm
        obtain ⟨e', he', hee⟩ := List.mem_map.1 hm
        obtain ⟨w', hw'⟩ := removeBelow_keys he'
        exact h.1 (List.mem_map.2 ⟨_, hw', hee⟩)
      unfold removeBelow
      rw [List.filterMap_cons]
      split
      · exact ih
      next hf =>
        split at hf
        · split at hf
          · simp at hf
          · split at hf
            · injection hf with hf
              subst hf
              exact hsub _
            · injection hf with hf
              subst hf
              exact hsub _
        · injection hf with hf
          subst hf
          exact hsub _

theorem minimumOffset_le {m : Map} {e : Out × Option Int} (he : e ∈ m) :
    (minimumOffset m = 0) ∨ ∃ k : Int, e.2 = some k ∧ 0 ≤ k ∧ (minimumOffset m : Int) ≤ k := by
  unfold minimumOffset
  split
  · exact Or.inl rfl
  next h =>
    have h' := h
    rw [Bool.not_eq_true, List.any_eq_false] at h'
    have h'' := h' e he
    cases hk : e.2 with
    | none => simp [hk] at h''
    | some k =>
        simp [hk] at h''
        right
        refine ⟨k, rfl, h'', ?_⟩
        have hmem : k.toNat ∈ m.filterMap fun e => e.2.map Int.toNat :=
          List.mem_filterMap.2 ⟨e, he, by simp [hk]⟩
        cases hm : (m.filterMap fun e => e.2.map Int.toNat).min? with
        | none =>
            rw [List.min?_eq_none_iff] at hm
            rw [hm] at hmem
            simp at hmem
        | some x =>
            have := (List.min?_eq_some_iff.1 hm).2 _ hmem
            simp only [Option.getD_some]
            omega

theorem mem_removeSmaller (hE : E.Of F) {m : Map} {n : Nat} {j : E.I} {e : Out × Option Int} {q : Ptr} (he : e ∈ m)
    (ho : E.Origin j e.1 e.2 q) (hn : n ≤ E.size q.obj) : e ∈ removeSmaller F n m := by
  obtain ⟨B, hB, hobj, hk⟩ := ho
  unfold removeSmaller
  rw [List.mem_filter]
  refine ⟨he, ?_⟩
  cases hs : originSize (F.deff e.1) with
  | none => simp
  | some t =>
      have ht := (original_off hE (sized_original hs) hB).2 t hs
      rw [hobj] at ht
      simp
      omega

theorem mem_removeWithin (hE : E.Of F) {m : Map} {s n : Nat} {j : E.I} {e : Out × Option Int} {q : Ptr} (he : e ∈ m)
    (ho : E.Origin j e.1 e.2 q) (hn : (n : Int) < q.off + s) : e ∈ removeWithin F s n m := by
  obtain ⟨B, hB, hobj, hk⟩ := ho
  unfold removeWithin
  rw [List.mem_filter]
  refine ⟨he, ?_⟩
  by_cases hor : isOriginal (F.deff e.1) = true
  · have h0 := (original_off hE hor hB).1
    cases hw : e.2 with
    | none => simp
    | some k =>
        have := hk k hw
        have h' : ¬ (k + s ≤ (n : Int)) := by omega
        simp [hor, h']
  · simp [hor]

/-! ### `IsOriginalOriginFullyTraceable` -/

structure UInv (F : Fn) (queue added : List Out) : Prop where
  sub : ∀ o ∈ queue, o ∈ added
  done : ∀ p ∈ added, p ∉ queue → Use.escape ∉ F.users p ∧ ∀ ts, Use.flow ts ∈ F.users p → ∀ o ∈ ts, o ∈ added

theorem mem_eraseDups {l : List Out} {x : Out} : x ∈ l.eraseDups ↔ x ∈ l := List.mem_eraseDups

theorem traceUsers_closed : ∀ (fuel : Nat) (queue added : List Out), traceUsers F fuel queue added = some true →
    UInv F queue added → ∃ S : List Out, (∀ o ∈ added, o ∈ S) ∧ UInv F [] S
  | 0, _, _, h, _ => by simp [traceUsers] at h
  | fuel + 1, [], added, _, hi => ⟨added, fun _ h => h, hi⟩
  | fuel + 1, p :: queue, added, h, hi => by
      rw [traceUsers] at h
      by_cases he : Use.escape ∈ F.users p
      · rw [if_pos he] at h; simp at h
      · rw [if_neg he] at h
        obtain ⟨S, hS, hSi⟩ := traceUsers_closed fuel _ _ h (by
          constructor
          · intro o ho
            rcases List.mem_append.1 ho with ho | ho
            · exact List.mem_append_left _ (hi.sub o (List.mem_cons_of_mem _ ho))
            · exact List.mem_append_right _ ho
          · intro q hq hnq
            rw [List.mem_append, not_or] at hnq
            rcases List.mem_append.1 hq with hq | hq
            · by_cases hqp : q = p
              · subst hqp
                refine ⟨he, ?_⟩
                intro ts hts o ho
                by_cases hoa : o ∈ added
                · exact List.mem_append_left _ hoa
                · refine List.mem_append_right _ (List.mem_filter.2 ⟨mem_eraseDups.2 ?_, by simpa using hoa⟩)
                  exact List.mem_flatMap.2 ⟨_, hts, ho⟩
              · obtain ⟨h1, h2⟩ := hi.done q hq (by
                  rw [List.mem_cons, not_or]
                  exact ⟨hqp, hnq.1⟩)
                exact ⟨h1, fun ts hts o ho => List.mem_append_left _ (h2 ts hts o ho)⟩
            · exact absurd hq hnq.2)
        exact ⟨S, fun o ho => hS o (List.mem_append_left _ ho), hSi⟩

/-- Only outputs that were reached point to the alloca. -/
theorem reached (hF : F.Wf) (hE : E.Of F) {S : List Out} (hS : UInv F [] S) {a : Out} (haS : a ∈ S)
    (ha : isAlloca (F.deff a) = true) {ja : E.I} {A : Ptr} (hA : E.val ja a = some A) :
    ∀ (n : Nat) (i : E.I) (o : Out) (p : Ptr), E.time i o ≤ n → E.val i o = some p → p.obj = A.obj → o ∈ S := by
  intro n
  induction n with
  | zero => exact fun i o p hn => go 0 i o p hn (by intro i o p h; omega)
  | succ n ih => exact fun i o p hn => go (n + 1) i o p hn fun i o p h => ih i o p (by omega)
where
  go (n : Nat) (i : E.I) (o : Out) (p : Ptr) (hn : E.time i o ≤ n)
      (ih : ∀ (i : E.I) (o : Out) (p : Ptr), E.time i o < n → E.val i o = some p → p.obj = A.obj → o ∈ S)
      (hv : E.val i o = some p) (hp : p.obj = A.obj) : o ∈ S := by
    have hs := hE.step i o p hv
    have hop : ∀ b, b ∈ (F.deff o).operands → b ∈ S → o ∈ S := by
      intro b hb hbS
      obtain ⟨ts, h1, h2⟩ := hF.users o b hb
      exact (hS.done b hbS (by simp)).2 ts h1 o h2
    have hfrom : ∀ (j : E.I) b, b ∈ (F.deff o).operands → E.From i o j b → o ∈ S := by
      intro j b hb hf
      exact hop b hb (ih j b p (by have := hf.2; omega) (hf.1.trans hv) hp)
    have hao : isOriginal (F.deff a) = true := by
      revert ha
      cases F.deff a <;> simp [isAlloca, isOriginal]
    have horig : isOriginal (F.deff o) = true → o ∈ S := by
      intro ho
      by_cases hoa : o = a
      · rw [hoa]; exact haS
      · exact absurd hp (hE.distinct i ja o a p A ho hao hoa hv hA)
    unfold Exec.Step at hs
    cases hd : F.deff o with
    | copy b =>
        rw [hd] at hs
        exact hfrom i b (by rw [hd]; simp [Def.operands]) hs
    | gep b k =>
        rw [hd] at hs
        obtain ⟨q, hq, hqo, -, hqt⟩ := hs
        exact hop b (by rw [hd]; simp [Def.operands]) (ih i b q (by omega) hq (hqo.trans hp))
    | select x y =>
        rw [hd] at hs
        rcases hs with hs | hs
        · exact hfrom i x (by rw [hd]; simp [Def.operands]) hs
        · exact hfrom i y (by rw [hd]; simp [Def.operands]) hs
    | undef =>
        rw [hd] at hs
        exact hs.elim
    | gamma rs =>
        rw [hd] at hs
        obtain ⟨r, hr, hs⟩ := hs
        exact hfrom i r (by rw [hd]; exact hr) hs
    | thetaOut post =>
        rw [hd] at hs
        obtain ⟨j, hs⟩ := hs
        exact hfrom j post (by rw [hd]; simp [Def.operands]) hs
    | thetaPre post input =>
        rw [hd] at hs
        rcases hs with hs | ⟨j, hs⟩
        · exact hfrom i input (by rw [hd]; simp [Def.operands]) hs
        · exact hfrom j post (by rw [hd]; simp [Def.operands]) hs
    | alloca s => exact horig (by rw [hd]; rfl)
    | malloc s => exact horig (by rw [hd]; rfl)
    | delta s => exact horig (by rw [hd]; rfl)
    | «import» s => exact horig (by rw [hd]; rfl)
    | lambda => exact horig (by rw [hd]; rfl)
    | param =>
        rw [hd] at hs
        exact absurd hp.symm (hs ja a A ha hA)
    | other =>
        rw [hd] at hs
        obtain ⟨j', u, r, hu, hr, hro, hrt⟩ := hs ja a A ha hA hp.symm
        exact absurd hu (hS.done u (ih j' u r (by omega) hr (hro.trans hp)) (by simp)).1

theorem fullyTraceable_sound (hF : F.Wf) (hE : E.Of F) {fuel : Nat} {a o : Out} (ht : fullyTraceable F fuel a = some true)
    (ho : F.deff o = .param ∨ F.deff o = .other) {i j : E.I} {A p : Ptr} (hA : E.val j a = some A)
    (hv : E.val i o = some p) : p.obj ≠ A.obj := by
  intro hp
  unfold fullyTraceable at ht
  by_cases ha : isAlloca (F.deff a) = true
  · rw [if_pos ha] at ht
    obtain ⟨S, hsub, hS⟩ := traceUsers_closed fuel _ _ ht ⟨fun o ho => ho, by
      intro p hp hnp
      exact absurd hp hnp⟩
    have haS := hsub a (List.mem_cons_self ..)
    have hs := hE.step i o p hv
    unfold Exec.Step at hs
    rcases ho with ho | ho
    · rw [ho] at hs
      exact absurd hp.symm (hs j a A ha hA)
    · rw [ho] at hs
      obtain ⟨j', u, r, hu, hr, hro, -⟩ := hs j a A ha hA hp.symm
      exact absurd hu (hS.done u (reached hF hE hS haS ha hA _ j' u r Nat.le.refl hr (hro.trans hp)) (by simp)).1
  · rw [if_neg ha] at ht
    simp at ht

theorem onlyTraceable_mem {fuel : Nat} : ∀ {m : Map}, onlyTraceable F fuel m = some true →
    ∀ e ∈ m, fullyTraceable F fuel e.1 = some true
  | [], _, e, he => by simp at he
  | e' :: m, h, e, he => by
      rw [onlyTraceable] at h
      cases hb : fullyTraceable F fuel e'.1 with
      | none => rw [hb] at h; simp at h
      | some b =>
          rw [hb, Option.bind_some] at h
          cases b with
          | false => simp at h
          | true =>
              rcases List.mem_cons.1 he with he | he
              · rw [he]; exact hb
              · exact onlyTraceable_mem (by simpa using h) e he

theorem fullyTraceable_alloca {fuel : Nat} {o : Out} (h : fullyTraceable F fuel o = some true) :
    isAlloca (F.deff o) = true := by
  unfold fullyTraceable at h
  by_cases ha : isAlloca (F.deff o) = true
  · exact ha
  · rw [if_neg ha] at h; simp at h

theorem alloca_original {d : Def} (h : isAlloca d = true) : isOriginal d = true := by
  cases d <;> simp [isAlloca, isOriginal] at h ⊢

/-! ### The second half of the query -/

/-- What is known of the traces of one pointer. -/
structure Traced (F : Fn) (E : Exec) (i : E.I) (tc : TC) (p : Ptr) : Prop where
  inv : Inv F [] tc
  origin : ∃ j b w, tc.tops.lookup b = some w ∧ E.Origin j b w p ∧ (hasLoop F tc.all = false → j = i)

/-- The conclusion for a single shared origin. -/
theorem single_sound (hE : E.Of F) {i : E.I} {s1 s2 : Nat} {t1 t2 : TC} {p1 p2 : Ptr} (h1 : Traced F E i t1 p1)
    (h2 : Traced F E i t2 p2) (hb1 : E.InBounds p1 s1) (hb2 : E.InBounds p2 s2) (hp1 : 0 ≤ p1.off) (hp2 : 0 ≤ p2.off)
    {e1 e2 : Out × Option Int} (hm1 : removeBelow F s1 t1.tops = [e1]) (hm2 : removeBelow F s2 t2.tops = [e2])
    (hee : e1.1 = e2.1) (hst : E.Stable F ∨ (hasLoop F t1.all = false ∧ hasLoop F t2.all = false)) :
    ∃ B : Ptr, B.obj = p1.obj ∧ B.obj = p2.obj ∧ (∀ k, e1.2 = some k → p1.off = B.off + k) ∧
      (∀ k, e2.2 = some k → p2.off = B.off + k) := by
  obtain ⟨j1, b1, w1, hl1, ho1, hj1⟩ := h1.origin
  obtain ⟨j2, b2, w2, hl2, ho2, hj2⟩ := h2.origin
  obtain ⟨v1, hv1, B1, hB1, hB1o, hB1k⟩ := mem_removeBelow hE (mem_of_lookup hl1) ho1 hp1 hb1
  obtain ⟨v2, hv2, B2, hB2, hB2o, hB2k⟩ := mem_removeBelow hE (mem_of_lookup hl2) ho2 hp2 hb2
  rw [hm1] at hv1
  rw [hm2] at hv2
  have hv1 := List.mem_singleton.1 hv1
  have hv2 := List.mem_singleton.1 hv2
  subst hv1; subst hv2
  simp only at hee hB1 hB2
  subst hee
  have hBB : B1 = B2 := by
    rcases hst with hst | ⟨hl1', hl2'⟩
    · exact hst b1 (h1.inv.tops _ _ hl1) _ _ _ _ hB1 hB2
    · have e1 := hj1 hl1'
      have e2 := hj2 hl2'
      subst e1; subst e2
      rw [hB1] at hB2
      exact Option.some.inj hB2
  subst hBB
  exact ⟨B1, hB1o, hB2o, hB1k, hB2k⟩

theorem min_bound (hE : E.Of F) {i : E.I} {s : Nat} {off : Int} {t : TC} {p : Ptr} (h : Traced F E i t p)
    (hb : E.InBounds p s) (hp : 0 ≤ p.off) (hoff : off ≤ p.off) :
    ((max (minimumOffset (removeBelow F s t.tops)) off.toNat : Nat) : Int) ≤ p.off := by
  obtain ⟨j, b, w, hl, ho, -⟩ := h.origin
  obtain ⟨v, hv, B, hB, hBo, hBk⟩ := mem_removeBelow hE (mem_of_lookup hl) ho hp hb
  have hB0 := (hE.bounds j b B hB).1
  rcases minimumOffset_le hv with h | ⟨k, hk, hk0, hle⟩
  · rw [h]; omega
  · have := hBk k hk
    omega

theorem queryTops_no (hF : F.Wf) (hE : E.Of F) {i : E.I} {strict : Bool} {fuel s1 s2 : Nat} {off1 off2 : Int} {t1 t2 : TC}
    {p1 p2 : Ptr} (h1 : Traced F E i t1 p1) (h2 : Traced F E i t2 p2) (hb1 : E.InBounds p1 s1) (hb2 : E.InBounds p2 s2)
    (hp1 : 0 ≤ p1.off) (hp2 : 0 ≤ p2.off) (ho1 : off1 ≤ p1.off) (ho2 : off2 ≤ p2.off)
    (hst : strict = true ∨ E.Stable F ∨ (hasLoop F t1.all = false ∧ hasLoop F t2.all = false))
    (h : queryTops F strict fuel off1 s1 off2 s2 t1 t2 = some .noAlias) : ¬ Overlap p1 s1 p2 s2 := by
  have hmin1 := min_bound hE h1 hb1 hp1 ho1
  have hmin2 := min_bound hE h2 hb2 hp2 ho2
  have nd1 := removeBelow_nodup (F := F) (s := s1) h1.inv.nodup
  have nd2 := removeBelow_nodup (F := F) (s := s2) h2.inv.nodup
  unfold queryTops at h
  simp only at h
  split at h
  next r hr =>
    injection h with h
    subst h
    split at hr
    next e1 e2 hm1 hm2 =>
      by_cases hc : e1.1 = e2.1 ∧ (!(strict && (hasLoop F t1.all || hasLoop F t2.all))) = true
      · rw [if_pos hc] at hr
        injection hr with hr
        obtain ⟨B, -, -, hk1, hk2⟩ := single_sound hE h1 h2 hb1 hb2 hp1 hp2 hm1 hm2 hc.1 (by
          rcases hst with hst | hst | hst
          · right
            have := hc.2
            rw [hst] at this
            simpa using this
          · exact Or.inl hst
          · exact Or.inr hst)
        exact queryOffsets_no hk1 hk2 hr
      · rw [if_neg hc] at hr
        exact absurd hr (by simp)
    next => exact absurd hr (by simp)
  next hnone =>
    clear hnone
    intro hov
    have hlt := overlap_lt hov
    have hobj := hov.1
    unfold Exec.InBounds at hb1 hb2
    -- the origins of both pointers are still there after the filters
    generalize hmn1 : max (minimumOffset (removeBelow F s1 t1.tops)) off1.toNat = min1 at h hmin1
    generalize hmn2 : max (minimumOffset (removeBelow F s2 t2.tops)) off2.toNat = min2 at h hmin2
    obtain ⟨j1, b1, x1, hl1, hor1, -⟩ := h1.origin
    obtain ⟨j2, b2, x2, hl2, hor2, -⟩ := h2.origin
    obtain ⟨v1, hv1, hO1⟩ := mem_removeBelow hE (mem_of_lookup hl1) hor1 hp1 hb1
    obtain ⟨v2, hv2, hO2⟩ := mem_removeBelow hE (mem_of_lookup hl2) hor2 hp2 hb2
    have hs1 := mem_removeSmaller hE (n := min2 + s2) hv1 hO1 (by rw [hobj]; omega)
    have hs2 := mem_removeSmaller hE (n := min1 + s1) hv2 hO2 (by rw [← hobj]; omega)
    have hw1 := mem_removeWithin hE (s := s1) (n := min2) hs1 hO1 (by omega)
    have hw2 := mem_removeWithin hE (s := s2) (n := min1) hs2 hO2 (by omega)
    generalize hM1 : removeWithin F s1 min2 (removeSmaller F (min2 + s2) (removeBelow F s1 t1.tops)) = m1 at h hw1
    generalize hM2 : removeWithin F s2 min1 (removeSmaller F (min1 + s1) (removeBelow F s2 t2.tops)) = m2 at h hw2
    have nd2' : (Keys m2).Nodup := by
      rw [← hM2]
      unfold removeWithin removeSmaller Keys
      exact nd2.sublist (List.Sublist.map _ (List.filter_sublist.trans List.filter_sublist))
    have tk1 := isTop_of_ne hF (h1.inv.normed _ _ (h1.inv.sub _ _ hl1)) (h1.inv.tops _ _ hl1)
    have tk2 := isTop_of_ne hF (h2.inv.normed _ _ (h2.inv.sub _ _ hl2)) (h2.inv.tops _ _ hl2)
    clear hs1 hs2 hv1 hv2 hM1 hM2 hl1 hl2 hor1 hor2 nd1 nd2
    by_cases hdo : doOverlap m1 s1 m2 s2 = true
    · rw [if_pos hdo] at h; simp at h
    · rw [if_neg hdo] at h
      have hO1' := hO1
      have hO2' := hO2
      obtain ⟨B1, hB1, hB1o, hB1k⟩ := hO1
      obtain ⟨B2, hB2, hB2o, hB2k⟩ := hO2
      simp only at hB1 hB2 hB1k hB2k
      -- both origins cannot be original
      have hboth : ¬ (isOriginal (F.deff b1) = true ∧ isOriginal (F.deff b2) = true) := by
        rintro ⟨c1, c2⟩
        by_cases hbb : b1 = b2
        · subst hbb
          have z1 := (original_off hE c1 hB1).1
          have z2 := (original_off hE c2 hB2).1
          apply hdo
          unfold doOverlap
          rw [List.any_eq_true]
          refine ⟨_, hw1, ?_⟩
          simp only
          rw [lookup_of_mem nd2' hw2]
          simp only [bne_iff_ne]
          intro hno
          exact queryOffsets_no (B := B1) hB1k (fun k hk => by have := hB2k k hk; omega) hno hov
        · exact hE.distinct _ _ _ _ _ _ c1 c2 hbb hB1 hB2 (by rw [hB1o, hB2o, hobj])
      by_cases hoo : (onlyOriginal F m1 && onlyOriginal F m2) = true
      · rw [Bool.and_eq_true] at hoo
        unfold onlyOriginal at hoo
        rw [List.all_eq_true, List.all_eq_true] at hoo
        exact hboth ⟨hoo.1 _ hw1, hoo.2 _ hw2⟩
      · rw [if_neg hoo] at h
        -- an alloca is not what an argument points to
        have hpar : ∀ (a o : Out) (j j' : E.I) (A P : Ptr), isAlloca (F.deff a) = true → E.val j a = some A →
            E.val j' o = some P → A.obj = P.obj → F.deff o ≠ .param := by
          intro a o j j' A P ha hA hP hAP hd
          have hs := hE.step j' o P hP
          unfold Exec.Step at hs
          rw [hd] at hs
          exact hs j a A ha hA hAP
        have hBB : B1.obj = B2.obj := by rw [hB1o, hB2o, hobj]
        have hk2 : (b2, v2) ∈ (if onlyAlloca F m1 = true then removeParams F m2 else m2) := by
          by_cases ha : onlyAlloca F m1 = true
          · rw [if_pos ha]
            unfold onlyAlloca at ha
            rw [List.all_eq_true] at ha
            unfold removeParams
            rw [List.mem_filter]
            exact ⟨hw2, by simpa using hpar _ _ _ _ _ _ (ha _ hw1) hB1 hB2 hBB⟩
          · rw [if_neg ha]; exact hw2
        have hk1 : (b1, v1) ∈ (if onlyAlloca F m1 = true then m1 else
            if onlyAlloca F m2 = true then removeParams F m1 else m1) := by
          by_cases ha : onlyAlloca F m1 = true
          · rw [if_pos ha]; exact hw1
          · rw [if_neg ha]
            by_cases ha2 : onlyAlloca F m2 = true
            · rw [if_pos ha2]
              unfold onlyAlloca at ha2
              rw [List.all_eq_true] at ha2
              unfold removeParams
              rw [List.mem_filter]
              exact ⟨hw1, by simpa using hpar _ _ _ _ _ _ (ha2 _ hw2) hB2 hB1 hBB.symm⟩
            · rw [if_neg ha2]; exact hw1
        generalize (if onlyAlloca F m1 = true then removeParams F m2 else m2) = m2' at h hk2
        generalize (if onlyAlloca F m1 = true then m1 else if onlyAlloca F m2 = true then removeParams F m1 else m1) = m1'
          at h hk1
        have hne1 : m1'.isEmpty = false := by
          cases m1' with
          | nil => simp at hk1
          | cons _ _ => rfl
        have hne2 : m2'.isEmpty = false := by
          cases m2' with
          | nil => simp at hk2
          | cons _ _ => rfl
        rw [hne1, hne2] at h
        simp only [Bool.or_self, Bool.false_eq_true, if_false] at h
        -- a fully traceable alloca
        have hft1 : fullyTraceable F fuel b1 ≠ some true := by
          intro hft
          have hal := alloca_original (fullyTraceable_alloca hft)
          rcases tk2 with c | c
          · exact hboth ⟨hal, c⟩
          · exact fullyTraceable_sound hF hE hft c hB1 hB2 hBB.symm
        have hft2 : fullyTraceable F fuel b2 ≠ some true := by
          intro hft
          have hal := alloca_original (fullyTraceable_alloca hft)
          rcases tk1 with c | c
          · exact hboth ⟨c, hal⟩
          · exact fullyTraceable_sound hF hE hft c hB2 hB1 hBB
        cases hot1 : onlyTraceable F fuel m1' with
        | none => rw [hot1] at h; simp at h
        | some r1 =>
            rw [hot1, Option.bind_some] at h
            cases r1 with
            | true => exact hft1 (onlyTraceable_mem hot1 _ hk1)
            | false =>
                simp only [Bool.false_eq_true, if_false] at h
                cases hot2 : onlyTraceable F fuel m2' with
                | none => rw [hot2] at h; simp at h
                | some r2 =>
                    rw [hot2] at h
                    cases r2 with
                    | true => exact hft2 (onlyTraceable_mem hot2 _ hk2)
                    | false => simp at h

theorem queryTops_must (hE : E.Of F) {i : E.I} {strict : Bool} {fuel s1 s2 : Nat} {off1 off2 : Int} {t1 t2 : TC}
    {p1 p2 : Ptr} (h1 : Traced F E i t1 p1) (h2 : Traced F E i t2 p2) (hb1 : E.InBounds p1 s1) (hb2 : E.InBounds p2 s2)
    (hp1 : 0 ≤ p1.off) (hp2 : 0 ≤ p2.off)
    (hst : strict = true ∨ E.Stable F ∨ (hasLoop F t1.all = false ∧ hasLoop F t2.all = false))
    (h : queryTops F strict fuel off1 s1 off2 s2 t1 t2 = some .mustAlias) : p1 = p2 := by
  unfold queryTops at h
  simp only at h
  split at h
  next r hr =>
    injection h with h
    subst h
    split at hr
    next e1 e2 hm1 hm2 =>
      by_cases hc : e1.1 = e2.1 ∧ (!(strict && (hasLoop F t1.all || hasLoop F t2.all))) = true
      · rw [if_pos hc] at hr
        injection hr with hr
        obtain ⟨B, hBo1, hBo2, hk1, hk2⟩ := single_sound hE h1 h2 hb1 hb2 hp1 hp2 hm1 hm2 hc.1 (by
          rcases hst with hst | hst | hst
          · right
            have := hc.2
            rw [hst] at this
            simpa using this
          · exact Or.inl hst
          · exact Or.inr hst)
        have := queryOffsets_must hk1 hk2 hr
        cases p1; cases p2
        simp_all
      · rw [if_neg hc] at hr
        exact absurd hr (by simp)
    next => exact absurd hr (by simp)
  next hnone =>
    exfalso
    revert h
    clear hnone
    generalize removeWithin F s1 _ _ = m1
    generalize removeWithin F s2 _ _ = m2
    split
    · simp
    · split
      · simp
      · generalize (if onlyAlloca F m1 = true then removeParams F m2 else m2) = m2'
        generalize (if onlyAlloca F m1 = true then m1 else if onlyAlloca F m2 = true then removeParams F m1 else m1) = m1'
        by_cases he : (m1'.isEmpty || m2'.isEmpty) = true
        · rw [if_pos he]; simp
        · rw [if_neg he]
          generalize onlyTraceable F fuel m1' = x
          generalize onlyTraceable F fuel m2' = y
          cases x with
          | none => simp
          | some x =>
              cases x with
              | true => simp
              | false =>
                  cases y with
                  | none => simp
                  | some y => cases y <;> simp

/-! ### The query -/

theorem query_cases (hF : F.Wf) (hE : E.Of F) {i : E.I} {strict : Bool} {max fuel s1 s2 : Nat} {o1 o2 : Out} {p1 p2 : Ptr}
    {r : Response} (hv1 : E.val i o1 = some p1) (hv2 : E.val i o2 = some p2)
    (h : query F strict max fuel o1 s1 o2 s2 = some r) :
    (r = .mustAlias ∧ p1 = p2) ∨
    (∃ a b B, p1.obj = p2.obj ∧ p1.off = Ptr.off B + a ∧ p2.off = Ptr.off B + b ∧
      queryOffsets (some a) s1 (some b) s2 = r) ∨
    (r = .noAlias ∧ p1.obj ≠ p2.obj) ∨
    r = .mayAlias ∨
    ∃ off1 off2 t1 t2, Traced F E i t1 p1 ∧ Traced F E i t2 p2 ∧ off1 ≤ p1.off ∧ off2 ≤ p2.off ∧
      queryTops F strict fuel off1 s1 off2 s2 t1 t2 = some r := by
  have hn1 := (hE.norm i o1 p1 hv1).1
  have hn2 := (hE.norm i o2 p2 hv2).1
  unfold query at h
  by_cases hnn : F.norm o1 = F.norm o2
  · rw [if_pos hnn] at h
    injection h with h
    left
    rw [hnn, hn2] at hn1
    exact ⟨h.symm, (Option.some.inj hn1).symm⟩
  · rw [if_neg hnn] at h
    right
    cases hr1 : precise F fuel (F.norm o1) 0 with
    | none => rw [hr1] at h; simp at h
    | some r1 =>
        rw [hr1, Option.bind_some] at h
        cases hr2 : precise F fuel (F.norm o2) 0 with
        | none => rw [hr2] at h; simp at h
        | some r2 =>
            rw [hr2, Option.bind_some] at h
            obtain ⟨-, B1, hB1, hB1o, hB1k⟩ := precise_sound hE fuel _ _ _ _ hr1 hn1
            obtain ⟨-, B2, hB2, hB2o, hB2k⟩ := precise_sound hE fuel _ _ _ _ hr2 hn2
            by_cases hrr : r1.1 = r2.1
            · rw [if_pos hrr] at h
              injection h with h
              left
              rw [hrr, hB2] at hB1
              have := Option.some.inj hB1
              subst this
              exact ⟨r1.2, r2.2, B2, by rw [← hB1o, ← hB2o], by omega, by omega, h⟩
            · rw [if_neg hrr] at h
              right
              by_cases hm : max ≤ 1
              · rw [if_pos hm] at h
                injection h with h
                by_cases hoo : (isOriginal (F.deff r1.1) && isOriginal (F.deff r2.1)) = true
                · rw [if_pos hoo] at h
                  left
                  rw [Bool.and_eq_true] at hoo
                  refine ⟨h.symm, ?_⟩
                  rw [← hB1o, ← hB2o]
                  exact hE.distinct _ _ _ _ _ _ hoo.1 hoo.2 hrr hB1 hB2
                · rw [if_neg hoo] at h
                  exact Or.inr (Or.inl h.symm)
              · rw [if_neg hm] at h
                right
                have hb1 := (hE.bounds i _ _ hB1).1
                have hb2 := (hE.bounds i _ _ hB2).1
                cases ht1 : traceAll F max fuel [(r1.1, some r1.2)] ⟨[], []⟩ with
                | none => rw [ht1] at h; simp at h
                | some t1 =>
                    rw [ht1, Option.bind_some] at h
                    obtain ⟨c1, t1⟩ := t1
                    cases c1 with
                    | false =>
                        simp at h
                        exact Or.inl h.symm
                    | true =>
                        simp only [Bool.not_true, Bool.false_eq_true, if_false] at h
                        cases ht2 : traceAll F max fuel [(r2.1, some r2.2)] ⟨[], []⟩ with
                        | none => rw [ht2] at h; simp at h
                        | some t2 =>
                            rw [ht2, Option.bind_some] at h
                            obtain ⟨c2, t2⟩ := t2
                            cases c2 with
                            | false =>
                                simp at h
                                exact Or.inl h.symm
                            | true =>
                                simp only [Bool.not_true, Bool.false_eq_true, if_false] at h
                                right
                                obtain ⟨i1, cov1⟩ := traceAll_covers ht1
                                obtain ⟨i2, cov2⟩ := traceAll_covers ht2
                                refine ⟨r1.2, r2.2, t1, t2, ⟨i1, ?_⟩, ⟨i2, ?_⟩, by omega, by omega, h⟩
                                · exact origin_exists hF hE i1 _ i r1.1 _ B1 p1 Nat.le.refl cov1 hB1 hB1o
                                    (by intro k hk; injection hk with hk; omega)
                                · exact origin_exists hF hE i2 _ i r2.1 _ B2 p2 Nat.le.refl cov2 hB2 hB2o
                                    (by intro k hk; injection hk with hk; omega)

/-- If no loop variables are in the function, none is traced. -/
theorem loopfree (hl : ∀ o, (F.deff o).isTheta = false) (m : Map) : hasLoop F m = false := by
  unfold hasLoop
  rw [List.any_eq_false]
  intro e _
  have := hl e.1
  revert this
  cases F.deff e.1 <;> simp [Def.isTheta]

theorem query_no (hF : F.Wf) (hE : E.Of F) {i : E.I} {strict : Bool} {max fuel s1 s2 : Nat} {o1 o2 : Out} {p1 p2 : Ptr}
    (hv1 : E.val i o1 = some p1) (hv2 : E.val i o2 = some p2) (hb1 : E.InBounds p1 s1) (hb2 : E.InBounds p2 s2)
    (hst : strict = true ∨ E.Stable F ∨ ∀ o, (F.deff o).isTheta = false)
    (h : query F strict max fuel o1 s1 o2 s2 = some .noAlias) : ¬ Overlap p1 s1 p2 s2 := by
  have hp1 := (hE.bounds i _ _ hv1).1
  have hp2 := (hE.bounds i _ _ hv2).1
  rcases query_cases hF hE hv1 hv2 h with ⟨h, -⟩ | ⟨a, b, B, -, h1, h2, h3⟩ | ⟨-, h⟩ | h | ⟨o1, o2, t1, t2, h1, h2, h3, h4, h5⟩
  · simp at h
  · exact queryOffsets_no (B := B) (fun k hk => by injection hk with hk; rw [← hk]; exact h1)
      (fun k hk => by injection hk with hk; rw [← hk]; exact h2) h3
  · exact fun hov => h hov.1
  · simp at h
  · exact queryTops_no hF hE h1 h2 hb1 hb2 hp1 hp2 h3 h4
      (hst.imp id (Or.imp id fun hl => ⟨loopfree hl _, loopfree hl _⟩)) h5

theorem query_must (hF : F.Wf) (hE : E.Of F) {i : E.I} {strict : Bool} {max fuel s1 s2 : Nat} {o1 o2 : Out} {p1 p2 : Ptr}
    (hv1 : E.val i o1 = some p1) (hv2 : E.val i o2 = some p2) (hb1 : E.InBounds p1 s1) (hb2 : E.InBounds p2 s2)
    (hst : strict = true ∨ E.Stable F ∨ ∀ o, (F.deff o).isTheta = false)
    (h : query F strict max fuel o1 s1 o2 s2 = some .mustAlias) : p1 = p2 := by
  have hp1 := (hE.bounds i _ _ hv1).1
  have hp2 := (hE.bounds i _ _ hv2).1
  rcases query_cases hF hE hv1 hv2 h with ⟨-, h⟩ | ⟨a, b, B, h0, h1, h2, h3⟩ | ⟨h, -⟩ | h | ⟨o1, o2, t1, t2, h1, h2, h3, h4, h5⟩
  · exact h
  · have := queryOffsets_must (B := B) (fun k hk => by injection hk with hk; rw [← hk]; exact h1)
      (fun k hk => by injection hk with hk; rw [← hk]; exact h2) h3
    cases p1; cases p2
    simp_all
  · simp at h
  · simp at h
  · exact queryTops_must hE h1 h2 hb1 hb2 hp1 hp2
      (hst.imp id (Or.imp id fun hl => ⟨loopfree hl _, loopfree hl _⟩)) h5

end Jlm.Aa.Local
