import Verif.Rvsdg.BitExprSpec
/-
C07: rewrites of slice and concat nodes.
-/
set_option linter.unusedSimpArgs false
namespace Jlm.Rvsdg.BitExpr
open Jlm.Rvsdg Jlm.Bits Expr

theorem WFs_iff (ws : Nat → Nat) (l : List E) : WFs ws l ↔ ∀ e ∈ l, WF ws e := by
  induction l with
  | nil => simp [WFs]
  | cons a l ih => simp [WFs, ih]

theorem evalCat_append (env : Nat → BVR) (l m : List E) :
    evalCat env (l ++ m) = evalCat env l ++ evalCat env m := by
  induction l with
  | nil => simp [evalCat]
  | cons a l ih => simp [evalCat, ih]

theorem eval_length {ws : Nat → Nat} {env : Nat → BVR} (hf : Fits ws env) :
    ∀ e : E, WF ws e → (eval env e).length = width ws e := by
  intro e
  refine Expr.rec (motive_1 := fun e => WF ws e → (eval env e).length = width ws e)
    (motive_2 := fun l => WFs ws l → (evalCat env l).length = (l.map (width ws)).sum) ?_ ?_ ?_ ?_ e
  · intro i _; simpa [eval, width] using hf i
  · intro op ops ih hw
    cases op with
    | const v => simp [eval, width]
    | slice w low high =>
      rw [WF] at hw
      have := ih hw.2.2.2
      rw [hw.2.2.1] at this
      simp only [List.sum_cons, List.sum_nil, Nat.add_zero] at this
      simp only [eval, width, List.length_take, List.length_drop, this]; omega
    | concat tys =>
      rw [WF] at hw
      have := ih hw.2.2
      rw [hw.2.1] at this
      simpa [eval, width] using this
  · intro _; simp [evalCat]
  · intro e es ih ihs hw
    rw [WFs] at hw
    simp [evalCat, ih hw.1, ihs hw.2]

theorem width_pos {ws : Nat → Nat} : ∀ e : E, WF ws e → 0 < width ws e := by
  intro e
  refine Expr.rec (motive_1 := fun e => WF ws e → 0 < width ws e)
    (motive_2 := fun l => WFs ws l → l ≠ [] → 0 < (l.map (width ws)).sum) ?_ ?_ ?_ ?_ e
  · intro i h; simpa [WF, width] using h
  · intro op ops ih hw
    cases op with
    | const v => rw [WF] at hw; simpa [width] using hw.1
    | slice w low high => rw [WF] at hw; simp only [width]; omega
    | concat tys => rw [WF] at hw; have := ih hw.2.2 hw.1; rw [hw.2.1] at this; simpa [width] using this
  · intro _ h; simp at h
  · intro e es ih _ hw _
    rw [WFs] at hw
    have := ih hw.1
    simp; omega

theorem wf_slice {ws : Nat → Nat} {w low high : Nat} {e : E}
    (h : WF ws (.node (.slice w low high) [e])) :
    low < high ∧ high ≤ width ws e ∧ WF ws e ∧ w = width ws e := by
  simp only [WF, WFs, List.map_cons, List.map_nil, List.cons.injEq, and_true] at h
  obtain ⟨h1, h2, h3, h4⟩ := h
  exact ⟨h1, by omega, h4, h3.symm⟩

theorem bitslice_spec {ws : Nat → Nat} {e : E} (he : WF ws e) {low high : Nat} (h : low < high)
    (h' : high ≤ width ws e) : ∃ s, bitslice ws e low high = some s ∧ WF ws s ∧
      width ws s = high - low ∧ ∀ env, eval env s = ((eval env e).drop low).take (high - low) := by
  refine ⟨.node (.slice (width ws e) low high) [e], ?_, ?_, ?_, ?_⟩
  · simp [bitslice]; omega
  · simp [WF, WFs, he, h, h']
  · simp [width]
  · intro env; simp [eval, evalCat]

/-- A slice of all bits is the operand. -/
theorem C07_normalizeIdempotent (ws : Nat → Nat) (w low high : Nat) (e e' : E)
    (hw : WF ws (.node (.slice w low high) [e]))
    (h : normalizeIdempotent ws low high e = .replaced e') :
    Equiv ws (.node (.slice w low high) [e]) e' := by
  obtain ⟨h1, h2, h3, h4⟩ := wf_slice hw
  unfold normalizeIdempotent at h
  split at h
  · rename_i hc
    simp only [Res.replaced.injEq] at h; subst h
    refine ⟨h3, by simp [width, hc.1, hc.2], fun env hf => ?_⟩
    have := eval_length hf e h3
    simp [eval, evalCat, hc.1, hc.2, ← this]
  · simp at h

/-- Slicing a constant yields the constant consisting of the sliced bits, and never fails on a
well-typed node. -/
theorem C07_foldConstant (ws : Nat → Nat) (w low high : Nat) (e : E)
    (hw : WF ws (.node (.slice w low high) [e])) :
    (foldConstant low high e = .unchanged ∧ ∀ v ops, e ≠ .node (.const v) ops) ∨
    ∃ e', foldConstant low high e = .replaced e' ∧ Equiv ws (.node (.slice w low high) [e]) e' ∧
      ∃ v, e' = .node (.const v) [] := by
  obtain ⟨h1, h2, h3, h4⟩ := wf_slice hw
  unfold foldConstant
  split
  · rename_i v ops
    right
    simp only [width] at h2
    have hs : BVR.slice v low high = some ((v.drop low).take (high - low)) := by
      unfold BVR.slice; rw [if_neg (by omega)]
    have hlen : ((v.drop low).take (high - low)).length = high - low := by simp; omega
    refine ⟨.node (.const ((v.drop low).take (high - low))) [], ?_, ⟨?_, ?_, ?_⟩, _, rfl⟩
    · rw [hs]; simp only [Option.bind_some, mkConst, hlen]
      rw [if_neg (by omega)]; rfl
    · simp only [WF, hlen, and_true]; omega
    · simp only [width, hlen]
    · intro env _; simp [eval, evalCat]
  · rename_i hne
    left
    exact ⟨rfl, fun v ops h => hne v ops h⟩

/-- A slice of a slice is narrowed to a single slice; never fails on a well-typed node. -/
theorem C07_narrowSlice (ws : Nat → Nat) (w low high : Nat) (e : E)
    (hw : WF ws (.node (.slice w low high) [e])) :
    (narrowSlice ws low high e = .unchanged ∧ ∀ w' l' h' ops, e ≠ .node (.slice w' l' h') ops) ∨
    ∃ e', narrowSlice ws low high e = .replaced e' ∧ Equiv ws (.node (.slice w low high) [e]) e' := by
  obtain ⟨h1, h2, h3, h4⟩ := wf_slice hw
  unfold narrowSlice
  split
  · rename_i w' low' high' origin
    right
    obtain ⟨g1, g2, g3, g4⟩ := wf_slice h3
    simp only [width] at h2
    obtain ⟨s, s1, s2, s3, s4⟩ := bitslice_spec g3 (low := low + low') (high := high + low')
      (by omega) (by omega)
    refine ⟨s, by rw [s1]; rfl, s2, by rw [s3]; simp only [width]; omega, fun env hf => ?_⟩
    rw [s4]
    simp only [eval, evalCat, List.append_nil]
    rw [List.drop_take, List.take_take, List.drop_drop]
    congr 1
    · omega
    · congr 1; omega
  · rename_i hne
    left
    refine ⟨rfl, ?_⟩
    rintro w' l' h' ops rfl
    rw [WF] at h3
    have hl := congrArg List.length h3.2.2.1
    simp only [List.length_map, List.length_cons, List.length_nil] at hl
    obtain ⟨o, rfl⟩ := List.length_eq_one_iff.1 hl
    exact hne _ _ _ _ rfl

theorem distributeLoop_spec (ws : Nat → Nat) (low high : Nat) (hlh : low < high) :
    ∀ (ops : List E) (base : Nat), (∀ e ∈ ops, WF ws e) →
    ∃ l, distributeLoop ws low high base ops = some l ∧ (∀ e ∈ l, WF ws e) ∧
      (l.map (width ws)).sum =
        min high (base + (ops.map (width ws)).sum) - max low base ∧
      ∀ env, Fits ws env → evalCat env l =
        ((evalCat env ops).drop (low - base)).take (high - max low base) := by
  intro ops
  induction ops with
  | nil => intro base _; exact ⟨[], by simp [distributeLoop], by simp, by simp; omega, by simp [evalCat]⟩
  | cons a ops ih =>
    intro base hw
    have ha := hw a (by simp)
    have hpos := width_pos a ha
    obtain ⟨l, h1, h2, h3, h4⟩ := ih (base + width ws a) (fun e he => hw e (by simp [he]))
    have hlena : ∀ env, Fits ws env → (eval env a).length = width ws a :=
      fun env hf => eval_length hf a ha
    rw [distributeLoop]
    by_cases hc : base < high ∧ base + width ws a > low
    · obtain ⟨s, s1, s2, s3, s4⟩ := bitslice_spec ha
        (low := if low > base then low - base else 0)
        (high := if high < base + width ws a then high - base else base + width ws a - base)
        (by split <;> split <;> omega) (by split <;> omega)
      refine ⟨s :: l, ?_, ?_, ?_, ?_⟩
      · simp only [hc, and_self, if_true, s1, h1, Option.bind_some, Option.map_some]
      · intro e he; rcases List.mem_cons.1 he with rfl | he
        · exact s2
        · exact h2 e he
      · simp only [List.map_cons, List.sum_cons, s3, h3]
        split <;> split <;> omega
      · intro env hf
        rw [evalCat, s4, h4 env hf, evalCat, List.drop_append, List.take_append]
        have hl := hlena env hf
        simp only [List.length_drop, hl]
        congr 1
        · have e1 : (if low > base then low - base else 0) = low - base := by split <;> omega
          rw [e1]
          by_cases hh : high < base + width ws a
          · rw [if_pos hh]; congr 1; omega
          · rw [if_neg hh, List.take_of_length_le (by simp only [List.length_drop, hl]; omega),
              List.take_of_length_le (by simp only [List.length_drop, hl]; omega)]
        · congr 1
          · omega
          · congr 1; omega
    · refine ⟨l, ?_, h2, ?_, ?_⟩
      · simp only [hc, if_false, h1]
      · rw [h3]; simp only [List.map_cons, List.sum_cons]; omega
      · intro env hf
        rw [h4 env hf, evalCat, List.drop_append, List.take_append]
        have hl := hlena env hf
        simp only [List.length_drop, hl]
        rcases Nat.lt_or_ge low (base + width ws a) with hx | hx
        · have : high ≤ base := by omega
          rw [show high - max low base = 0 by omega, show high - max low (base + width ws a) = 0 by omega]
          simp
        · rw [List.drop_eq_nil_of_le (as := eval env a) (by rw [hl]; omega)]
          simp only [List.take_nil, List.nil_append]
          congr 1
          · omega
          · congr 1; omega

/-- Distributing a slice over a concat; never fails on a well-typed node. -/
theorem C07_distributeSlice (ws : Nat → Nat) (w low high : Nat) (e : E)
    (hw : WF ws (.node (.slice w low high) [e])) :
    (distributeSlice ws low high e = .unchanged ∧ ∀ tys ops, e ≠ .node (.concat tys) ops) ∨
    ∃ e', distributeSlice ws low high e = .replaced e' ∧
      Equiv ws (.node (.slice w low high) [e]) e' := by
  obtain ⟨h1, h2, h3, h4⟩ := wf_slice hw
  unfold distributeSlice
  split
  · rename_i tys ops
    right
    rw [WF] at h3
    simp only [width] at h2
    obtain ⟨l, g1, g2, g3, g4⟩ := distributeLoop_spec ws low high h1 ops 0 ((WFs_iff ws ops).1 h3.2.2)
    rw [h3.2.1] at g3
    have hsum : (l.map (width ws)).sum = high - low := by rw [g3]; omega
    have hne : l ≠ [] := by rintro rfl; simp at hsum; omega
    refine ⟨.node (.concat (l.map (width ws))) l, ?_, ?_, ?_, ?_⟩
    · rw [g1]; simp [bitconcat, hne, toRes]
    · simp [WF, hne, WFs_iff]; exact g2
    · simp [width, hsum]
    · intro env hf
      simp only [eval, evalCat, List.append_nil]
      rw [g4 env hf]; simp
  · rename_i hne
    left
    exact ⟨rfl, fun tys ops h => hne tys ops h⟩

theorem reducePair_spec {ws : Nat → Nat} {same : E → E → Bool} (hsame : ∀ a b, same a b = true → a = b)
    {a b e : E} (ha : WF ws a) (hb : WF ws b) (h : reducePair ws same a b = some e) :
    WF ws e ∧ width ws e = width ws a + width ws b ∧
      ∀ env, Fits ws env → eval env e = eval env a ++ eval env b := by
  unfold reducePair at h
  split at h
  · rename_i v1 o1 v2 o2
    rw [WF] at ha hb
    simp only [mkConst, BVR.concat, List.length_append] at h
    rw [if_neg (by omega)] at h
    simp only [Option.some.injEq] at h
    subst h
    refine ⟨by simp [WF]; omega, by simp [width], fun env _ => by simp [eval]⟩
  · rename_i w1 low1 high1 o1 w2 low2 high2 o2
    split at h
    · rename_i hc
      have := hsame _ _ hc.1; subst this
      obtain ⟨a1, a2, a3, a4⟩ := wf_slice ha
      obtain ⟨b1, b2, b3, b4⟩ := wf_slice hb
      have heq := hc.2
      obtain ⟨s, s1, s2, s3, s4⟩ := bitslice_spec a3 (low := low1) (high := high2) (by omega) (by omega)
      rw [h] at s1; simp only [Option.some.injEq] at s1; subst s1
      refine ⟨s2, by rw [s3]; simp only [width]; omega, fun env hf => ?_⟩
      rw [s4]
      have hl := eval_length hf o1 a3
      simp only [eval, evalCat, List.append_nil]
      rw [show high2 - low1 = (high1 - low1) + (high2 - low2) by omega, List.take_add, List.drop_drop]
      congr 3; omega
    · simp at h
  · simp at h

theorem pairwise_spec {ws : Nat → Nat} {same : E → E → Bool}
    (hsame : ∀ a b, same a b = true → a = b) :
    ∀ (rest dn : List E) (left : E), (∀ e ∈ dn.reverse ++ left :: rest, WF ws e) →
    (∀ e ∈ pairwiseReduceLoop (reducePair ws same) dn left rest, WF ws e) ∧
    ((pairwiseReduceLoop (reducePair ws same) dn left rest).map (width ws)).sum =
      ((dn.reverse ++ left :: rest).map (width ws)).sum ∧
    (∀ env, Fits ws env → evalCat env (pairwiseReduceLoop (reducePair ws same) dn left rest) =
      evalCat env (dn.reverse ++ left :: rest)) ∧
    dn.length + 1 ≤ (pairwiseReduceLoop (reducePair ws same) dn left rest).length ∧
    (pairwiseReduceLoop (reducePair ws same) dn left rest = dn.reverse ++ left :: rest ∨
     (pairwiseReduceLoop (reducePair ws same) dn left rest).length < dn.length + 1 + rest.length) := by
  intro rest
  induction rest with
  | nil => intro dn left hw; simpa [pairwiseReduceLoop] using hw
  | cons r rest ih =>
    intro dn left hw
    rw [pairwiseReduceLoop]
    cases h : reducePair ws same left r with
    | none =>
      simp only []
      obtain ⟨h1, h2, h3, h4, h5⟩ := ih (left :: dn) r (by
        intro e he; apply hw; simpa using he)
      simp only [List.length_cons] at h4 h5 ⊢
      refine ⟨h1, ?_, ?_, by omega, ?_⟩
      · rw [h2]; simp
      · intro env hf; rw [h3 env hf]; simp
      · rcases h5 with h5 | h5
        · left; rw [h5]; simp
        · right; omega
    | some x =>
      simp only []
      obtain ⟨p1, p2, p3⟩ := reducePair_spec hsame (hw left (by simp)) (hw r (by simp)) h
      obtain ⟨h1, h2, h3, h4, h5⟩ := ih dn x (by
        intro e he
        simp only [List.mem_append, List.mem_cons] at he
        rcases he with he | rfl | he
        · exact hw e (by simp [List.mem_reverse.1 he])
        · exact p1
        · exact hw e (by simp [he]))
      have hle : (pairwiseReduceLoop (reducePair ws same) dn x rest).length ≤ dn.length + 1 + rest.length := by
        rcases h5 with h5 | h5
        · rw [h5]; simp; omega
        · omega
      refine ⟨h1, ?_, ?_, h4, ?_⟩
      · rw [h2]; simp [p2]; omega
      · intro env hf; rw [h3 env hf]; simp [evalCat_append, evalCat, p3 env hf]
      · right; simp only [List.length_cons]; omega

/-- Folding adjacent constants and merging adjacent slices in a concat node. `same` is the comparison
of output pointers. A returned replacement is equivalent; for a node with two operands the
normalisation does not abort. (Missing: nodes with more than two operands, see the next theorem.) -/
theorem C07_normalizeConcat_partial (ws : Nat → Nat) (same : E → E → Bool)
    (hsame : ∀ a b, same a b = true → a = b) (tys : List Nat) (ops : List E)
    (hw : WF ws (.node (.concat tys) ops)) :
    (∀ e', normalizeConcat ws same tys ops = .replaced e' → Equiv ws (.node (.concat tys) ops) e') ∧
    (ops.length ≤ 2 → normalizeConcat ws same tys ops ≠ .abort) := by
  have hw0 := hw
  rw [WF] at hw
  obtain ⟨hne, hty, hws⟩ := hw
  obtain ⟨a, ops, rfl⟩ := List.exists_cons_of_ne_nil hne
  have hall := (WFs_iff _ _).1 hws
  obtain ⟨h1, h2, h3, h4, h5⟩ := pairwise_spec hsame ops [] a (by simpa using hall)
  simp only [List.reverse_nil, List.nil_append, List.length_nil, Nat.zero_add] at h1 h2 h3 h4 h5
  unfold normalizeConcat
  rw [if_neg hne]
  rw [show pairwiseReduce (reducePair ws same) (a :: ops) =
    pairwiseReduceLoop (reducePair ws same) [] a ops from rfl]
  generalize pairwiseReduceLoop (reducePair ws same) [] a ops = l at h1 h2 h3 h4 h5
  constructor
  · intro e' h
    split at h
    · simp only [Res.replaced.injEq] at h; subst h
      refine ⟨h1 _ (by simp), ?_, fun env hf => ?_⟩
      · simp only [List.map_cons, List.map_nil, List.sum_cons, List.sum_nil, Nat.add_zero] at h2
        rw [h2]; simp [width, ← hty]
      · have := h3 env hf; simp only [evalCat, List.append_nil] at this
        rw [this]; simp [eval, evalCat]
    · split at h
      · simp at h
      · split at h
        · split at h
          · rename_i hl htys
            simp only [Res.replaced.injEq] at h; subst h
            refine ⟨?_, by simp [width], fun env hf => by simp only [eval]; exact h3 env hf⟩
            rw [WF]
            exact ⟨List.ne_nil_of_length_pos (by omega), htys, (WFs_iff _ _).2 h1⟩
          · simp at h
        · simp at h
  · intro hlen
    simp only [List.length_cons] at hlen
    split
    · simp
    · rename_i hx
      have hl : l = a :: ops := by
        rcases h5 with h5 | h5
        · exact h5
        · exfalso
          obtain ⟨e, he⟩ := List.length_eq_one_iff.1 (show l.length = 1 by omega)
          exact hx e he
      rw [if_pos hl]; simp

/-- What is missing above (DESIGN.md, finding 14): a well-typed concat of three operands, two of which
are adjacent constants, makes the normalisation abort. -/
theorem C07_normalizeConcat_aborts :
    ∃ (ws : Nat → Nat) (tys : List Nat) (ops : List E), WF ws (.node (.concat tys) ops) ∧
      ∀ same, normalizeConcat ws same tys ops = .abort := by
  refine ⟨fun _ => 1, [1, 1, 1], [.node (.const [.one]) [], .node (.const [.zero]) [], .arg 0], ?_, ?_⟩
  · simp [WF, WFs, width]
  · intro same
    simp [normalizeConcat, pairwiseReduce, pairwiseReduceLoop, reducePair, mkConst, BVR.concat, width]

theorem flattenConcat_list_spec (ws : Nat → Nat) : ∀ (l : List E), (∀ e ∈ l, WF ws e) →
    ∃ l', associativeFlatten isConcat l = some l' ∧
      (∀ e ∈ l', WF ws e ∧ isConcat e = false) ∧ (l'.map (width ws)).sum = (l.map (width ws)).sum ∧
      l.length ≤ l'.length ∧
      (∀ env, evalCat env l' = evalCat env l) := by
  intro l
  induction l using associativeFlatten.induct isConcat with
  | case1 => intro _; exact ⟨[], by simp [associativeFlatten]⟩
  | case2 rest i h => simp [isConcat] at h
  | case3 rest op h =>
    intro hw
    have := hw (.node op []) (by simp)
    cases op with
    | concat tys => simp [WF] at this
    | slice => simp [isConcat] at h
    | const => simp [isConcat] at h
  | case4 rest op s subs h ih =>
    intro hw
    have hn := hw (.node op (s :: subs)) (by simp)
    cases op with
    | slice => simp [isConcat] at h
    | const => simp [isConcat] at h
    | concat tys =>
      rw [WF] at hn
      have hsub := (WFs_iff _ _).1 hn.2.2
      obtain ⟨l', h1, h2, h3, h4, h6⟩ := ih (by
        intro e he
        rw [← List.cons_append, List.mem_append] at he
        rcases he with he | he
        · exact hsub e he
        · exact hw e (by simp [he]))
      refine ⟨l', by rw [associativeFlatten]; simp [h, h1], h2, ?_, ?_, ?_⟩
      · rw [h3, ← List.cons_append, List.map_append, List.sum_append, hn.2.1]
        simp [width]
      · simp only [List.length_cons, List.length_append] at h4 ⊢; omega
      · intro env
        rw [h6 env, ← List.cons_append, evalCat_append]
        simp [evalCat, eval]
  | case5 a rest h ih =>
    intro hw
    obtain ⟨l', h1, h2, h3, h4, h6⟩ := ih (fun e he => hw e (by simp [he]))
    have h' : isConcat a = false := by simpa using h
    refine ⟨a :: l', by rw [associativeFlatten.eq_def]; simp [h', h1], ?_, ?_, ?_, ?_⟩
    · intro e he
      rcases List.mem_cons.1 he with rfl | he
      · exact ⟨hw _ (by simp), h'⟩
      · exact h2 e he
    · simp [h3]
    · simpa using h4
    · intro env; simp [evalCat, h6]

theorem flattenConcat_longer (ws : Nat → Nat) : ∀ (l : List E), (∀ e ∈ l, WF ws e) →
    (∀ e ∈ l, ∀ tys ops, e = .node (.concat tys) ops → 2 ≤ ops.length) →
    ∀ l', associativeFlatten isConcat l = some l' → l' = l ∨ l.length < l'.length := by
  intro l
  induction l with
  | nil => intro _ _ l' h; simp [associativeFlatten] at h; left; exact h
  | cons a rest ih =>
    intro hw h2 l' h
    by_cases hc : isConcat a = true
    · right
      match a, hc with
      | .node (.concat tys) ops, hc =>
        have hlen := h2 _ (by simp) tys ops rfl
        have ha := hw (.node (.concat tys) ops) (by simp)
        rw [WF] at ha
        match ops, hlen with
        | s :: subs, hlen =>
          have hsub := (WFs_iff _ _).1 ha.2.2
          rw [associativeFlatten] at h
          simp only [hc, if_true] at h
          obtain ⟨l'', g1, _, _, g4, _⟩ := flattenConcat_list_spec ws (s :: (subs ++ rest)) (by
            intro e he
            rw [← List.cons_append, List.mem_append] at he
            rcases he with he | he
            · exact hsub e he
            · exact hw e (by simp [he]))
          rw [g1] at h; simp only [Option.some.injEq] at h; subst h
          simp only [List.length_cons, List.length_append] at g4 hlen ⊢; omega
    · rw [associativeFlatten.eq_def] at h
      simp only [hc, if_false, Bool.false_eq_true] at h
      cases hr : associativeFlatten isConcat rest with
      | none => rw [hr] at h; simp at h
      | some r =>
        rw [hr] at h; simp only [Option.map_some, Option.some.injEq] at h; subst h
        rcases ih (fun e he => hw e (by simp [he])) (fun e he => h2 e (by simp [he])) r hr with h | h
        · left; rw [h]
        · right; simp; omega

/-- Flattening nested concats. A returned replacement is equivalent and has no concat operand left;
for a node with two operands, whose concat operands have at least two operands, the normalisation
does not abort. -/
theorem C07_flattenConcat_partial (ws : Nat → Nat) (tys : List Nat) (ops : List E)
    (hw : WF ws (.node (.concat tys) ops)) :
    (∀ e', flattenConcat ws ops = .replaced e' → Equiv ws (.node (.concat tys) ops) e' ∧
      ∃ tys' ops', e' = .node (.concat tys') ops' ∧
        ∀ x ∈ ops', ∀ t o, x ≠ .node (.concat t) o) ∧
    (ops.length = 2 → (∀ e ∈ ops, ∀ t o, e = .node (.concat t) o → 2 ≤ o.length) →
      flattenConcat ws ops ≠ .abort) := by
  rw [WF] at hw
  obtain ⟨hne, hty, hws⟩ := hw
  obtain ⟨l', h1, h2, h3, h4, h6⟩ := flattenConcat_list_spec ws ops ((WFs_iff _ _).1 hws)
  unfold flattenConcat
  rw [if_neg hne, h1]
  simp only []
  constructor
  · intro e' h
    split at h
    · split at h <;> simp at h
    · split at h
      · rename_i hlen
        have hne' : l' ≠ [] := List.ne_nil_of_length_pos (by omega)
        simp only [bitconcat, hne', if_false, toRes, Res.replaced.injEq] at h
        subst h
        refine ⟨⟨?_, ?_, ?_⟩, _, _, rfl, ?_⟩
        · simp only [WF]; exact ⟨hne', trivial, (WFs_iff _ _).2 (fun e he => (h2 e he).1)⟩
        · simp [width, h3, ← hty]
        · intro env _; simp only [eval]; exact h6 env
        · intro x hx t o hxe; have := (h2 x hx).2; rw [hxe] at this; simp [isConcat] at this
      · simp at h
  · intro hlen h2'
    rcases flattenConcat_longer ws ops ((WFs_iff _ _).1 hws) h2' l' h1 with h | h
    · rw [if_pos h.symm, if_pos (by rw [h]; exact hlen)]; simp
    · rw [if_neg (by rintro rfl; omega), if_pos (by omega)]
      have hne' : l' ≠ [] := List.ne_nil_of_length_pos (by omega)
      simp [bitconcat, hne', toRes]

/-- What is missing above (finding 14): a concat of one operand, such as distributeSlice creates,
makes FlattenBitConcatOperation abort, and so does the flattening of a one-operand concat. -/
theorem C07_flattenConcat_aborts :
    WF (fun _ => 4) (.node (.concat [4]) [.arg 0]) ∧ flattenConcat (fun _ => 4) [.arg 0] = .abort ∧
    WF (fun _ => 4) (.node (.concat [4, 4]) [.node (.concat [4]) [.arg 0], .arg 1]) ∧
    flattenConcat (fun _ => 4) [.node (.concat [4]) [.arg 0], .arg 1] = .abort ∧
    distributeSlice (fun _ => 4) 0 3 (.node (.concat [4]) [.arg 0]) =
      .replaced (.node (.concat [3]) [.node (.slice 4 0 3) [.arg 0]]) := by
  refine ⟨by simp [WF, WFs, width], ?_, by simp [WF, WFs, width], ?_, ?_⟩
  · simp [flattenConcat, associativeFlatten, isConcat]
  · simp [flattenConcat, associativeFlatten, isConcat]
  · simp [distributeSlice, distributeLoop, width, bitslice, bitconcat, toRes]

/-! Concrete cases. -/
example : WF (fun _ => 8) (.node (.slice 16 4 12) [.node (.concat [8, 8]) [.arg 0, .arg 1]]) ∧
    distributeSlice (fun _ => 8) 4 12 (.node (.concat [8, 8]) [.arg 0, .arg 1]) =
      .replaced (.node (.concat [4, 4])
        [.node (.slice 8 4 8) [.arg 0], .node (.slice 8 0 4) [.arg 1]]) := by
  refine ⟨by simp [WF, WFs, width], ?_⟩
  simp [distributeSlice, distributeLoop, width, bitslice, bitconcat, toRes]

example : normalizeConcat (fun _ => 8) (fun a b => decide (a = b)) [3, 2]
    [.node (.slice 8 1 4) [.arg 0], .node (.slice 8 4 6) [.arg 0]] =
      .replaced (.node (.slice 8 1 6) [.arg 0]) := by
  simp [normalizeConcat, pairwiseReduce, pairwiseReduceLoop, reducePair, width, bitslice]

end Jlm.Rvsdg.BitExpr
