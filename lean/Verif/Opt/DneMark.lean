import Verif.Opt.DneEval

/-! # The mark phase of dead node elimination computes exactly what the exports depend on -/

set_option linter.unusedSimpArgs false
set_option linter.unusedVariables false

namespace Jlm.Opt.Dne

/-- What an output depends on directly. -/
def Def.deps : Def → List Out
  | .node _ ins => ins
  | .loadState _ origin => [origin]
  | .other deps => deps

/-- Everything the outputs in `roots` depend on. -/
inductive Needed (defs : List (Out × Def)) (roots : List Out) : Out → Prop
  | root {o : Out} : o ∈ roots → Needed defs roots o
  | dep {o x : Out} {d : Def} : Needed defs roots o → (o, d) ∈ defs → x ∈ d.deps →
      Needed defs roots x

/-- Is the output alive according to the marks (the owning simple node is marked, or the output
itself is)? -/
def Alive (defs : List (Out × Def)) (S : Marks) (o : Out) : Prop :=
  match defs.lookup o with
  | some (.node key _) => key ∈ S.nodes
  | some (.loadState key _) => key ∈ S.nodes ∨ o ∈ S.outs
  | some (.other _) => o ∈ S.outs
  | none => False

/-- Consistency of a table of definitions. -/
structure DefsOk (defs : List (Out × Def)) : Prop where
  nodup : (defs.map (·.1)).Nodup
  closed : ∀ p ∈ defs, ∀ x ∈ p.2.deps, x ∈ defs.map (·.1)
  node_key : ∀ o key ins, (o, Def.node key ins) ∈ defs → (key, Def.node key ins) ∈ defs
  load_key : ∀ o key origin, (o, Def.loadState key origin) ∈ defs →
    ∃ ins, (key, Def.node key ins) ∈ defs ∧ origin ∈ ins

theorem lookup_of_mem {defs : List (Out × Def)} (h : (defs.map (·.1)).Nodup) {o : Out} {d : Def}
    (hm : (o, d) ∈ defs) : defs.lookup o = some d := by
  induction defs with
  | nil => simp at hm
  | cons p l ih =>
    obtain ⟨c, e⟩ := p
    simp only [List.map_cons, List.nodup_cons] at h
    rw [List.lookup_cons]
    rcases List.mem_cons.1 hm with heq | hm'
    · simp only [Prod.mk.injEq] at heq
      simp [heq.1, heq.2]
    · have hne : (o == c) = false := by
        simp only [beq_eq_false_iff_ne]
        rintro rfl
        exact h.1 (List.mem_map_of_mem (f := Prod.fst) hm')
      rw [hne]
      exact ih h.2 hm'

theorem lookup_isSome {defs : List (Out × Def)} {o : Out} (h : o ∈ defs.map (·.1)) :
    ∃ d, defs.lookup o = some d := by
  induction defs with
  | nil => simp at h
  | cons p l ih =>
    obtain ⟨c, e⟩ := p
    rw [List.lookup_cons]
    by_cases hc : (o == c) = true
    · simp [hc]
    · simp only [Bool.not_eq_true] at hc
      rw [hc]
      have hne : o ≠ c := by simpa using hc
      simp only [List.map_cons, List.mem_cons] at h
      exact ih (h.resolve_left hne)

/-! ## fuel -/

theorem countP_lt {p q : Out → Bool} (hpq : ∀ x, p x = true → q x = true) {x : Out}
    (hx : p x = false) (hq : q x = true) : ∀ (l : List Out), x ∈ l → l.countP p < l.countP q
  | [], h => by simp at h
  | y :: l, h => by
      have hmono : l.countP p ≤ l.countP q := List.countP_mono_left fun z _ => hpq z
      rcases List.mem_cons.1 h with rfl | h
      · rw [List.countP_cons_of_neg (by simp [hx]), List.countP_cons_of_pos hq]
        omega
      · have ih := countP_lt hpq hx hq l h
        simp only [List.countP_cons]
        have : (if p y = true then 1 else 0) ≤ (if q y = true then 1 else 0) := by
          by_cases hy : p y = true
          · simp [hy, hpq y hy]
          · simp [hy]
        omega

/-- Number of marks that can still be set. -/
def room (defs : List (Out × Def)) (S : Marks) : Nat :=
  (defs.map (·.1)).countP (fun x => decide (x ∉ S.nodes)) +
    (defs.map (·.1)).countP (fun x => decide (x ∉ S.outs))

theorem room_node {defs : List (Out × Def)} {S : Marks} {key : Out}
    (hk : key ∈ defs.map (·.1)) (hn : key ∉ S.nodes) :
    room defs { S with nodes := key :: S.nodes } < room defs S := by
  have := countP_lt (p := fun x => decide (x ∉ key :: S.nodes)) (q := fun x => decide (x ∉ S.nodes))
    (by intro x; simp only [decide_eq_true_eq, List.mem_cons, not_or]; exact fun h => h.2)
    (x := key) (by simp) (by simp [hn]) _ hk
  simp only [room]
  omega

theorem room_out {defs : List (Out × Def)} {S : Marks} {o : Out}
    (hk : o ∈ defs.map (·.1)) (hn : o ∉ S.outs) :
    room defs { S with outs := o :: S.outs } < room defs S := by
  have := countP_lt (p := fun x => decide (x ∉ o :: S.outs)) (q := fun x => decide (x ∉ S.outs))
    (by intro x; simp only [decide_eq_true_eq, List.mem_cons, not_or]; exact fun h => h.2)
    (x := o) (by simp) (by simp [hn]) _ hk
  simp only [room]
  omega

/-- More marks. -/
def Marks.Le (S T : Marks) : Prop := (∀ x ∈ S.nodes, x ∈ T.nodes) ∧ ∀ x ∈ S.outs, x ∈ T.outs

theorem Marks.Le.refl (S : Marks) : S.Le S := ⟨fun _ h => h, fun _ h => h⟩

theorem Marks.Le.trans {S T U : Marks} (h : S.Le T) (h' : T.Le U) : S.Le U :=
  ⟨fun x hx => h'.1 x (h.1 x hx), fun x hx => h'.2 x (h.2 x hx)⟩

theorem room_mono {defs : List (Out × Def)} {S T : Marks} (h : S.Le T) :
    room defs T ≤ room defs S := by
  have h1 : (defs.map (·.1)).countP (fun x => decide (x ∉ T.nodes)) ≤
      (defs.map (·.1)).countP (fun x => decide (x ∉ S.nodes)) :=
    List.countP_mono_left fun x _ hx => by
      simp only [decide_eq_true_eq] at hx ⊢
      exact fun h' => hx (h.1 x h')
  have h2 : (defs.map (·.1)).countP (fun x => decide (x ∉ T.outs)) ≤
      (defs.map (·.1)).countP (fun x => decide (x ∉ S.outs)) :=
    List.countP_mono_left fun x _ hx => by
      simp only [decide_eq_true_eq] at hx ⊢
      exact fun h' => hx (h.2 x h')
  simp only [room]
  omega

theorem Alive.mono {defs : List (Out × Def)} {S T : Marks} (h : S.Le T) {o : Out}
    (ho : Alive defs S o) : Alive defs T o := by
  unfold Alive at ho ⊢
  cases hl : defs.lookup o with
  | none => simp [hl] at ho
  | some d =>
    simp only [hl] at ho ⊢
    cases d with
    | node key ins => exact h.1 _ ho
    | loadState key origin => exact ho.imp (h.1 _) (h.2 _)
    | other deps => exact h.2 _ ho

/-- The marks that are in `T` but not in `S` have alive dependencies in `T`. -/
def NewClosed (defs : List (Out × Def)) (S T : Marks) : Prop :=
  (∀ key ∈ T.nodes, key ∉ S.nodes → ∀ ins, (key, Def.node key ins) ∈ defs → ∀ i ∈ ins,
    Alive defs T i) ∧
  (∀ o ∈ T.outs, o ∉ S.outs → ∀ d, (o, d) ∈ defs → (∀ key ins, d ≠ .node key ins) → ∀ x ∈ d.deps,
    Alive defs T x)

theorem NewClosed.refl (defs : List (Out × Def)) (S : Marks) : NewClosed defs S S :=
  ⟨fun _ h h' => absurd h h', fun _ h h' => absurd h h'⟩

theorem NewClosed.trans {defs : List (Out × Def)} {S T U : Marks} (h : NewClosed defs S T)
    (h' : NewClosed defs T U) (hTU : T.Le U) : NewClosed defs S U := by
  refine ⟨fun key hk hn ins hd i hi => ?_, fun o ho hn d hd hne x hx => ?_⟩
  · by_cases hT : key ∈ T.nodes
    · exact (h.1 key hT hn ins hd i hi).mono hTU
    · exact h'.1 key hk hT ins hd i hi
  · by_cases hT : o ∈ T.outs
    · exact (h.2 o hT hn d hd hne x hx).mono hTU
    · exact h'.2 o ho hT d hd hne x hx

theorem foldl_mark {defs : List (Out × Def)} {f : Marks → Out → Marks} {n : Nat}
    (hf : ∀ S o, room defs S < n → o ∈ defs.map (·.1) →
      S.Le (f S o) ∧ Alive defs (f S o) o ∧ NewClosed defs S (f S o)) :
    ∀ (l : List Out) (S : Marks), room defs S < n → (∀ o ∈ l, o ∈ defs.map (·.1)) →
      S.Le (l.foldl f S) ∧ (∀ o ∈ l, Alive defs (l.foldl f S) o) ∧
        NewClosed defs S (l.foldl f S)
  | [], S, _, _ => ⟨Marks.Le.refl S, by simp, NewClosed.refl defs S⟩
  | o :: l, S, hr, hl => by
      obtain ⟨h1, h2, h3⟩ := hf S o hr (hl o (by simp))
      obtain ⟨h4, h5, h6⟩ := foldl_mark hf l (f S o) (by have := room_mono (defs := defs) h1; omega)
        (fun x hx => hl x (by simp [hx]))
      refine ⟨h1.trans h4, ?_, h3.trans h6 h4⟩
      intro x hx
      rcases List.mem_cons.1 hx with rfl | hx
      · exact h2.mono h4
      · exact h5 x hx

/-- `markOutput` never runs out of fuel: it marks the output and everything that is newly marked
has its dependencies marked. -/
theorem markOutput_spec {defs : List (Out × Def)} (hok : DefsOk defs) : ∀ (fuel : Nat) (S : Marks)
    (o : Out), room defs S < fuel → o ∈ defs.map (·.1) →
    S.Le (markOutput defs fuel S o) ∧ Alive defs (markOutput defs fuel S o) o ∧
      NewClosed defs S (markOutput defs fuel S o)
  | 0, S, o, h, _ => by omega
  | fuel + 1, S, o, hr, ho => by
      obtain ⟨d, hd⟩ := lookup_isSome ho
      have hmem := lookup_mem hd
      simp only [markOutput, hd]
      cases d with
      | node key ins =>
        simp only
        by_cases hk : key ∈ S.nodes
        · rw [if_pos hk]
          exact ⟨Marks.Le.refl S, by simp [Alive, hd, hk], NewClosed.refl defs S⟩
        · rw [if_neg hk]
          have hkd := hok.node_key o key ins hmem
          have hkm : key ∈ defs.map (·.1) := List.mem_map.2 ⟨_, hkd, rfl⟩
          have hroom := room_node hkm hk
          have hle : S.Le { S with nodes := key :: S.nodes } :=
            ⟨fun x hx => by simp [hx], fun x hx => hx⟩
          obtain ⟨h1, h2, h3⟩ := foldl_mark (fun S o => markOutput_spec hok fuel S o) ins
            { S with nodes := key :: S.nodes } (by omega) (fun i hi => hok.closed _ hmem i hi)
          refine ⟨hle.trans h1, ?_, ?_⟩
          · simp only [Alive, hd]
            exact h1.1 key (by simp)
          · refine ⟨fun k hk' hn ins' hd' i hi => ?_, fun o' ho' hn d hd' hne x hx => ?_⟩
            · by_cases hkk : k = key
              · subst hkk
                have e1 := lookup_of_mem hok.nodup hd'
                have e2 := lookup_of_mem hok.nodup hkd
                rw [e1] at e2
                simp only [Option.some.injEq, Def.node.injEq, true_and] at e2
                exact h2 i (e2 ▸ hi)
              · exact h3.1 k hk' (by simp [hkk, hn]) ins' hd' i hi
            · exact h3.2 o' ho' hn d hd' hne x hx
      | loadState key origin =>
        simp only
        by_cases hk : key ∈ S.nodes
        · rw [if_pos hk]
          exact ⟨Marks.Le.refl S, by simp [Alive, hd, hk], NewClosed.refl defs S⟩
        · rw [if_neg hk]
          by_cases hos : o ∈ S.outs
          · rw [if_pos hos]
            exact ⟨Marks.Le.refl S, by simp [Alive, hd, hos], NewClosed.refl defs S⟩
          · rw [if_neg hos]
            have hroom := room_out ho hos
            have hle : S.Le { S with outs := o :: S.outs } :=
              ⟨fun x hx => hx, fun x hx => by simp [hx]⟩
            obtain ⟨h1, h2, h3⟩ := markOutput_spec hok fuel { S with outs := o :: S.outs } origin
              (by omega) (hok.closed _ hmem origin (by simp [Def.deps]))
            refine ⟨hle.trans h1, ?_, ?_⟩
            · simp only [Alive, hd]
              exact .inr (h1.2 o (by simp))
            · refine ⟨h3.1, fun o' ho' hn d hd' hne x hx => ?_⟩
              by_cases hoo : o' = o
              · subst hoo
                have e1 := lookup_of_mem hok.nodup hd'
                rw [hd] at e1
                simp only [Option.some.injEq] at e1
                subst e1
                simp only [Def.deps, List.mem_singleton] at hx
                exact hx ▸ h2
              · exact h3.2 o' ho' (by simp [hoo, hn]) d hd' hne x hx
      | other deps =>
        simp only
        by_cases hos : o ∈ S.outs
        · rw [if_pos hos]
          exact ⟨Marks.Le.refl S, by simp [Alive, hd, hos], NewClosed.refl defs S⟩
        · rw [if_neg hos]
          have hroom := room_out ho hos
          have hle : S.Le { S with outs := o :: S.outs } :=
            ⟨fun x hx => hx, fun x hx => by simp [hx]⟩
          obtain ⟨h1, h2, h3⟩ := foldl_mark (fun S o => markOutput_spec hok fuel S o) deps
            { S with outs := o :: S.outs } (by omega) (fun i hi => hok.closed _ hmem i hi)
          refine ⟨hle.trans h1, ?_, ?_⟩
          · simp only [Alive, hd]
            exact h1.2 o (by simp)
          · refine ⟨h3.1, fun o' ho' hn d hd' hne x hx => ?_⟩
            by_cases hoo : o' = o
            · subst hoo
              have e1 := lookup_of_mem hok.nodup hd'
              rw [hd] at e1
              simp only [Option.some.injEq] at e1
              subst e1
              exact h2 x hx
            · exact h3.2 o' ho' (by simp [hoo, hn]) d hd' hne x hx

/-- Starting from no marks, the marks are coherent in the sense of the sweep phase. -/
theorem marks_coh {defs : List (Out × Def)} (hok : DefsOk defs) (roots : List Out)
    (hroots : ∀ r ∈ roots, r ∈ defs.map (·.1)) (S : Marks)
    (hS : S = roots.foldl (markOutput defs (2 * defs.length + 1)) ⟨[], []⟩) :
    (∀ r ∈ roots, Alive defs S r) ∧ ∀ p ∈ defs, Coh S (Alive defs S) p := by
  have hr : room defs ⟨[], []⟩ < 2 * defs.length + 1 := by
    have h1 := List.countP_le_length (p := fun x => decide (x ∉ ([] : List Out)))
      (l := defs.map (·.1))
    simp only [List.length_map] at h1
    simp only [room]
    omega
  obtain ⟨_, h2, h3⟩ := foldl_mark
    (fun S o => markOutput_spec hok (2 * defs.length + 1) S o) roots ⟨[], []⟩ hr hroots
  rw [← hS] at h2 h3
  refine ⟨h2, ?_⟩
  rintro ⟨o, d⟩ hp
  have hl := lookup_of_mem hok.nodup hp
  cases d with
  | node key ins =>
    simp only [Coh, Alive, hl, true_and, iff_self]
    exact fun hk i hi => h3.1 key hk (by simp) ins (hok.node_key o key ins hp) i hi
  | loadState key origin =>
    simp only [Coh, Alive, hl, true_and, iff_self]
    rintro (hk | ho)
    · obtain ⟨ins, hki, hoi⟩ := hok.load_key o key origin hp
      exact h3.1 key hk (by simp) ins hki origin hoi
    · exact h3.2 o ho (by simp) _ hp (by simp) origin (by simp [Def.deps])
  | other deps =>
    simp only [Coh, Alive, hl, true_and, iff_self]
    exact fun ho x hx => h3.2 o ho (by simp) _ hp (by simp) x hx

/-! ## nothing more than needed is marked -/

/-- Every mark is justified by something the roots depend on. -/
def Justified (defs : List (Out × Def)) (roots : List Out) (S : Marks) : Prop :=
  (∀ key ∈ S.nodes, ∃ o ins, Needed defs roots o ∧ (o, Def.node key ins) ∈ defs) ∧
    ∀ o ∈ S.outs, Needed defs roots o

theorem foldl_justified {defs : List (Out × Def)} {roots : List Out} {f : Marks → Out → Marks}
    (hf : ∀ S o, Justified defs roots S → Needed defs roots o → Justified defs roots (f S o)) :
    ∀ (l : List Out) (S : Marks), Justified defs roots S → (∀ o ∈ l, Needed defs roots o) →
      Justified defs roots (l.foldl f S)
  | [], S, h, _ => h
  | o :: l, S, h, hl => foldl_justified hf l (f S o) (hf S o h (hl o (by simp)))
      (fun x hx => hl x (by simp [hx]))

theorem markOutput_justified {defs : List (Out × Def)} {roots : List Out} : ∀ (fuel : Nat)
    (S : Marks) (o : Out), Justified defs roots S → Needed defs roots o →
    Justified defs roots (markOutput defs fuel S o)
  | 0, S, o, h, _ => h
  | fuel + 1, S, o, h, ho => by
      simp only [markOutput]
      cases hd : defs.lookup o with
      | none => exact h
      | some d =>
        have hmem := lookup_mem hd
        have hdep : ∀ x ∈ d.deps, Needed defs roots x := fun x hx => .dep ho hmem hx
        cases d with
        | node key ins =>
          simp only
          split
          · exact h
          · refine foldl_justified (fun S o => markOutput_justified fuel S o) ins _ ?_ hdep
            refine ⟨fun k hk => ?_, h.2⟩
            rcases List.mem_cons.1 hk with rfl | hk
            · exact ⟨o, ins, ho, hmem⟩
            · exact h.1 k hk
        | loadState key origin =>
          simp only
          split
          · exact h
          · split
            · exact h
            · refine markOutput_justified fuel _ origin ?_ (hdep _ (by simp [Def.deps]))
              refine ⟨h.1, fun x hx => ?_⟩
              rcases List.mem_cons.1 hx with rfl | hx
              · exact ho
              · exact h.2 x hx
        | other deps =>
          simp only
          split
          · exact h
          · refine foldl_justified (fun S o => markOutput_justified fuel S o) deps _ ?_ hdep
            refine ⟨h.1, fun x hx => ?_⟩
            rcases List.mem_cons.1 hx with rfl | hx
            · exact ho
            · exact h.2 x hx

theorem markGraph_justified (g : Graph) : Justified (defsGraph g) g.exports (markGraph g) :=
  foldl_justified (fun S o => markOutput_justified _ S o) g.exports ⟨[], []⟩ (by simp [Justified])
    (fun o ho => .root ho)

/-! ## the table of definitions of a well-formed graph -/

theorem map_fst_zip_map {α β γ : Type} (f : α × β → γ) : ∀ (xs : List α) (ys : List β),
    xs.length ≤ ys.length → ((xs.zip ys).map fun p => (p.1, f p)).map (·.1) = xs
  | [], _, _ => by simp
  | x :: xs, y :: ys, h => by
      simp only [List.zip_cons_cons, List.map_cons, map_fst_zip_map f xs ys (by simpa using h)]

theorem map_fst_zipIdx {γ : Type} (f : Out × Nat → γ) (xs : List Out) :
    (xs.zipIdx.map fun p => (p.1, f p)).map (·.1) = xs := by
  simp only [List.map_map]
  have : ((fun p : Out × γ => p.1) ∘ fun p : Out × Nat => (p.1, f p)) = Prod.fst := rfl
  rw [this, List.zipIdx_map_fst]

theorem map_fst_map {γ : Type} (f : Out → γ) (xs : List Out) :
    (xs.map fun p => (p, f p)).map (·.1) = xs := by
  induction xs with
  | nil => rfl
  | cons x xs ih => simp only [List.map_cons, ih]

mutual

theorem defsNode_names : ∀ (n : Node) (avail : List Out), wfNode avail n = true →
    (defsNode n).map (·.1) = namesNode n
  | .simple op ins outs, avail, hwf => by
      simp only [defsNode, namesNode]
      split
      case isTrue hk =>
        obtain ⟨i, is, o, os, rfl, rfl, hlen, _⟩ := load_shape hk hwf
        simp only [loadDefs, List.map_cons]
        rw [map_fst_zip_map (fun p => Def.loadState o p.2) os is (by omega)]
      case isFalse => exact map_fst_map _ outs
  | .gamma pred ins outs subs, avail, hwf => by
      simp only [wfNode, Bool.and_eq_true] at hwf
      simp only [defsNode, namesNode, List.map_append]
      rw [map_fst_zipIdx (fun p => Def.other (pred :: Regions.resultsAt p.2 subs)) outs,
        defsRegions_names subs (pred :: ins) outs.length (by simpa using hwf.2)]
  | .theta ins outs args pred posts sub, avail, hwf => by
      simp only [wfNode, Bool.and_eq_true, beq_iff_eq] at hwf
      obtain ⟨⟨⟨⟨⟨_, h1⟩, h2⟩, h3⟩, h4⟩, _⟩ := hwf
      simp only [defsNode, namesNode, List.map_append]
      rw [map_fst_zip_map (fun p => Def.other [pred, p.2.1, p.2.2]) outs (posts.zip ins)
          (by simp; omega),
        map_fst_zip_map (fun p => Def.other [p.2.1, p.2.2]) args (outs.zip ins) (by simp; omega),
        defsNodes_names sub args h4]
  | .lambda ins args params results out sub, avail, hwf => by
      simp only [wfNode, Bool.and_eq_true, beq_iff_eq] at hwf
      obtain ⟨⟨⟨_, h1⟩, h2⟩, _⟩ := hwf
      simp only [defsNode, namesNode, List.map_append, List.map_cons]
      rw [map_fst_map (fun _ => Def.other []) params,
        map_fst_zip_map (fun p => Def.other [p.2]) args ins (by omega),
        defsNodes_names sub _ h2]
  | .phi ins args recs results outs sub, avail, hwf => by
      simp only [wfNode, Bool.and_eq_true, beq_iff_eq] at hwf
      obtain ⟨⟨⟨⟨⟨_, h1⟩, h2⟩, h3⟩, h4⟩, _⟩ := hwf
      simp only [defsNode, namesNode, List.map_append, List.map_cons]
      rw [map_fst_zip_map (fun p => Def.other [p.2]) outs results (by omega),
        map_fst_zip_map (fun p => Def.other [p.2]) recs results (by omega),
        map_fst_zip_map (fun p => Def.other [p.2]) args ins (by omega),
        defsNodes_names sub _ h4]
  | .delta ins args result out sub, avail, hwf => by
      simp only [wfNode, Bool.and_eq_true, beq_iff_eq] at hwf
      obtain ⟨⟨⟨⟨_, h1⟩, h2⟩, _⟩, _⟩ := hwf
      simp only [defsNode, namesNode, List.map_append, List.map_cons]
      rw [map_fst_zip_map (fun p => Def.other [p.2]) args ins (by omega),
        defsNodes_names sub _ h2]

theorem defsNodes_names : ∀ (ns : Nodes) (avail : List Out), wfNodes avail ns = true →
    (defsNodes ns).map (·.1) = namesNodes ns
  | .nil, _, _ => by simp [defsNodes, namesNodes]
  | .cons n ns, avail, hwf => by
      simp only [wfNodes, Bool.and_eq_true] at hwf
      simp only [defsNodes, namesNodes, List.map_append, defsNode_names n _ hwf.1,
        defsNodes_names ns _ hwf.2]

theorem defsRegions_names : ∀ (subs : Regions) (ins : List Out) (nr : Nat),
    wfRegions ins.length nr subs = true → (defsRegions ins subs).map (·.1) = namesRegions subs
  | .nil, _, _, _ => by simp [defsRegions, namesRegions]
  | .cons args results sub rest, ins, nr, hwf => by
      simp only [wfRegions, Bool.and_eq_true, beq_iff_eq] at hwf
      obtain ⟨⟨⟨⟨h1, _⟩, h3⟩, _⟩, h5⟩ := hwf
      simp only [defsRegions, namesRegions, List.map_append]
      rw [map_fst_zip_map (fun p => Def.other [p.2]) args ins (by omega),
        defsNodes_names sub _ h3, defsRegions_names rest ins nr h5]

end

theorem resultsAt_mem : ∀ (subs : Regions) (n nr k : Nat) (x : Out), wfRegions n nr subs = true →
    x ∈ Regions.resultsAt k subs → x ∈ namesRegions subs
  | .nil, _, _, _, _, _, h => by simp [Regions.resultsAt] at h
  | .cons args results sub rest, n, nr, k, x, hwf, h => by
      simp only [wfRegions, Bool.and_eq_true, beq_iff_eq, subset_iff] at hwf
      obtain ⟨⟨⟨⟨h1, _⟩, h3⟩, h4⟩, h5⟩ := hwf
      simp only [Regions.resultsAt, List.mem_append, Option.mem_toList] at h
      simp only [namesRegions, List.mem_append]
      rcases h with h | h
      · have := h4 x (List.mem_of_getElem? h)
        rcases List.mem_append.1 this with h' | h'
        · exact .inl (.inl h')
        · exact .inl (.inr (Nodes_outs_subset_names sub x h'))
      · exact .inr (resultsAt_mem rest n nr k x h5 h)

mutual

/-- Dependencies are defined. -/
theorem defsNode_closed : ∀ (n : Node) (avail : List Out), wfNode avail n = true →
    ∀ p ∈ defsNode n, ∀ x ∈ p.2.deps, x ∈ avail ∨ x ∈ namesNode n
  | .simple op ins outs, avail, hwf, p, hp, x, hx => by
      have hin : ∀ i ∈ ins, i ∈ avail := by
        simp only [wfNode, Bool.and_eq_true, subset_iff] at hwf
        exact hwf.1
      simp only [defsNode] at hp
      split at hp
      case isTrue hk =>
        obtain ⟨i, is, o, os, rfl, rfl, hlen, _⟩ := load_shape hk hwf
        simp only [loadDefs, List.mem_cons, List.mem_map] at hp
        rcases hp with rfl | ⟨q, hq, rfl⟩
        · exact .inl (hin x hx)
        · simp only [Def.deps, List.mem_singleton] at hx
          exact .inl (hin x (by simp [hx, (List.of_mem_zip hq).2]))
      case isFalse =>
        simp only [simpleDefs, List.mem_map] at hp
        obtain ⟨o, _, rfl⟩ := hp
        exact .inl (hin x hx)
  | .gamma pred ins outs subs, avail, hwf, p, hp, x, hx => by
      simp only [wfNode, Bool.and_eq_true, subset_iff] at hwf
      simp only [defsNode, List.mem_append, List.mem_map] at hp
      simp only [namesNode, List.mem_append]
      rcases hp with ⟨q, hq, rfl⟩ | hp
      · simp only [Def.deps, List.mem_cons] at hx
        rcases hx with rfl | hx
        · exact .inl (hwf.1 _ (by simp))
        · exact .inr (.inr (resultsAt_mem subs _ _ _ x hwf.2 hx))
      · rcases defsRegions_closed subs (pred :: ins) _ _ hwf.2 p hp x hx with h | h
        · exact .inl (hwf.1 x h)
        · exact .inr (.inr h)
  | .theta ins outs args pred posts sub, avail, hwf, p, hp, x, hx => by
      simp only [wfNode, Bool.and_eq_true, beq_iff_eq, subset_iff] at hwf
      obtain ⟨⟨⟨⟨⟨h0, h1⟩, h2⟩, h3⟩, h4⟩, h5⟩ := hwf
      have hres : ∀ r ∈ pred :: posts, r ∈ outs ++ args ++ namesNodes sub := by
        intro r hr
        rcases List.mem_append.1 (h5 r hr) with h | h
        · simp [h]
        · simp [Nodes_outs_subset_names sub r h]
      simp only [defsNode, List.mem_append, List.mem_map] at hp
      simp only [namesNode]
      rcases hp with (⟨q, hq, rfl⟩ | ⟨q, hq, rfl⟩) | hp
      · have hq2 := List.of_mem_zip (List.of_mem_zip hq).2
        simp only [Def.deps, List.mem_cons, List.not_mem_nil, or_false] at hx
        rcases hx with rfl | rfl | rfl
        · exact .inr (hres _ (by simp))
        · exact .inr (hres _ (by simp [hq2.1]))
        · exact .inl (h0 _ hq2.2)
      · have hq2 := List.of_mem_zip (List.of_mem_zip hq).2
        simp only [Def.deps, List.mem_cons, List.not_mem_nil, or_false] at hx
        rcases hx with rfl | rfl
        · exact .inr (by simp [hq2.1])
        · exact .inl (h0 _ hq2.2)
      · rcases defsNodes_closed sub args h4 p hp x hx with h | h
        · exact .inr (by simp [h])
        · exact .inr (by simp [h])
  | .lambda ins args params results out sub, avail, hwf, p, hp, x, hx => by
      simp only [wfNode, Bool.and_eq_true, beq_iff_eq, subset_iff] at hwf
      obtain ⟨⟨⟨h0, h1⟩, h2⟩, h5⟩ := hwf
      simp only [defsNode, List.mem_append, List.mem_map, List.mem_cons] at hp
      simp only [namesNode]
      rcases hp with ((rfl | ⟨q, hq, rfl⟩) | ⟨q, hq, rfl⟩) | hp
      · have := h5 x hx
        simp only [List.mem_append] at this
        refine .inr ?_
        simp only [List.mem_append, List.mem_cons]
        rcases this with (h | h) | h
        · exact .inl (.inl (.inr h))
        · exact .inl (.inr h)
        · exact .inr (Nodes_outs_subset_names sub x h)
      · simp [Def.deps] at hx
      · simp only [Def.deps, List.mem_singleton] at hx
        exact .inl (h0 x (hx ▸ (List.of_mem_zip hq).2))
      · rcases defsNodes_closed sub _ h2 p hp x hx with h | h
        · refine .inr ?_
          simp only [List.mem_append, List.mem_cons] at h ⊢
          rcases h with h | h
          · exact .inl (.inl (.inr h))
          · exact .inl (.inr h)
        · exact .inr (by simp [h])
  | .phi ins args recs results outs sub, avail, hwf, p, hp, x, hx => by
      simp only [wfNode, Bool.and_eq_true, beq_iff_eq, subset_iff] at hwf
      obtain ⟨⟨⟨⟨⟨h0, h1⟩, h2⟩, h3⟩, h4⟩, h5⟩ := hwf
      have hres : ∀ r ∈ results, r ∈ outs ++ recs ++ args ++ namesNodes sub := by
        intro r hr
        have := h5 r hr
        simp only [List.mem_append] at this ⊢
        rcases this with (h | h) | h
        · exact .inl (.inl (.inr h))
        · exact .inl (.inr h)
        · exact .inr (Nodes_outs_subset_names sub r h)
      simp only [defsNode, List.mem_append, List.mem_map] at hp
      simp only [namesNode]
      rcases hp with ((⟨q, hq, rfl⟩ | ⟨q, hq, rfl⟩) | ⟨q, hq, rfl⟩) | hp
      · simp only [Def.deps, List.mem_singleton] at hx
        exact .inr (hres x (hx ▸ (List.of_mem_zip hq).2))
      · simp only [Def.deps, List.mem_singleton] at hx
        exact .inr (hres x (hx ▸ (List.of_mem_zip hq).2))
      · simp only [Def.deps, List.mem_singleton] at hx
        exact .inl (h0 x (hx ▸ (List.of_mem_zip hq).2))
      · rcases defsNodes_closed sub _ h4 p hp x hx with h | h
        · refine .inr ?_
          simp only [List.mem_append] at h ⊢
          rcases h with h | h
          · exact .inl (.inl (.inr h))
          · exact .inl (.inr h)
        · exact .inr (by simp [h])
  | .delta ins args result out sub, avail, hwf, p, hp, x, hx => by
      simp only [wfNode, Bool.and_eq_true, beq_iff_eq, subset_iff] at hwf
      obtain ⟨⟨⟨⟨h0, h1⟩, h2⟩, h5⟩, _⟩ := hwf
      simp only [defsNode, List.mem_append, List.mem_map, List.mem_cons] at hp
      simp only [namesNode]
      rcases hp with (rfl | ⟨q, hq, rfl⟩) | hp
      · have := h5 x hx
        rcases List.mem_append.1 this with h | h
        · exact .inr (by simp [h])
        · exact .inr (by simp [Nodes_outs_subset_names sub x h])
      · simp only [Def.deps, List.mem_singleton] at hx
        exact .inl (h0 x (hx ▸ (List.of_mem_zip hq).2))
      · rcases defsNodes_closed sub _ h2 p hp x hx with h | h
        · exact .inr (by simp [h])
        · exact .inr (by simp [h])

theorem defsNodes_closed : ∀ (ns : Nodes) (avail : List Out), wfNodes avail ns = true →
    ∀ p ∈ defsNodes ns, ∀ x ∈ p.2.deps, x ∈ avail ∨ x ∈ namesNodes ns
  | .nil, avail, _, p, hp, x, hx => by simp [defsNodes] at hp
  | .cons n ns, avail, hwf, p, hp, x, hx => by
      simp only [wfNodes, Bool.and_eq_true] at hwf
      simp only [defsNodes, List.mem_append] at hp
      simp only [namesNodes, List.mem_append]
      rcases hp with hp | hp
      · rcases defsNode_closed n avail hwf.1 p hp x hx with h | h
        · exact .inl h
        · exact .inr (.inl h)
      · rcases defsNodes_closed ns _ hwf.2 p hp x hx with h | h
        · rcases List.mem_append.1 h with h | h
          · exact .inr (.inl (outs_subset_names n x h))
          · exact .inl h
        · exact .inr (.inr h)

theorem defsRegions_closed : ∀ (subs : Regions) (ins : List Out) (n nr : Nat),
    wfRegions n nr subs = true →
    ∀ p ∈ defsRegions ins subs, ∀ x ∈ p.2.deps, x ∈ ins ∨ x ∈ namesRegions subs
  | .nil, ins, _, _, _, p, hp, x, hx => by simp [defsRegions] at hp
  | .cons args results sub rest, ins, n, nr, hwf, p, hp, x, hx => by
      simp only [wfRegions, Bool.and_eq_true, beq_iff_eq] at hwf
      obtain ⟨⟨⟨⟨h1, _⟩, h3⟩, _⟩, h5⟩ := hwf
      simp only [defsRegions, List.mem_append, List.mem_map] at hp
      simp only [namesRegions, List.mem_append]
      rcases hp with (⟨q, hq, rfl⟩ | hp) | hp
      · simp only [Def.deps, List.mem_singleton] at hx
        exact .inl (hx ▸ (List.of_mem_zip hq).2)
      · rcases defsNodes_closed sub args h3 p hp x hx with h | h
        · exact .inr (.inl (.inl h))
        · exact .inr (.inl (.inr h))
      · rcases defsRegions_closed rest ins n nr h5 p hp x hx with h | h
        · exact .inl h
        · exact .inr (.inr h)

end

/-- Keys of simple nodes. -/
def KeysOk (defs : List (Out × Def)) : Prop :=
  (∀ o key ins, (o, Def.node key ins) ∈ defs → (key, Def.node key ins) ∈ defs) ∧
  ∀ o key origin, (o, Def.loadState key origin) ∈ defs →
    ∃ ins, (key, Def.node key ins) ∈ defs ∧ origin ∈ ins

theorem KeysOk.append {a b : List (Out × Def)} (ha : KeysOk a) (hb : KeysOk b) :
    KeysOk (a ++ b) := by
  refine ⟨fun o key ins h => ?_, fun o key origin h => ?_⟩
  · rcases List.mem_append.1 h with h | h
    · exact List.mem_append_left _ (ha.1 o key ins h)
    · exact List.mem_append_right _ (hb.1 o key ins h)
  · rcases List.mem_append.1 h with h | h
    · obtain ⟨ins, h1, h2⟩ := ha.2 o key origin h
      exact ⟨ins, List.mem_append_left _ h1, h2⟩
    · obtain ⟨ins, h1, h2⟩ := hb.2 o key origin h
      exact ⟨ins, List.mem_append_right _ h1, h2⟩

theorem keysOk_others {defs : List (Out × Def)} (h : ∀ p ∈ defs, ∃ deps, p.2 = .other deps) :
    KeysOk defs := by
  refine ⟨fun o key ins hm => ?_, fun o key origin hm => ?_⟩
  · obtain ⟨_, hd⟩ := h _ hm
    simp at hd
  · obtain ⟨_, hd⟩ := h _ hm
    simp at hd

mutual

theorem defsNode_keys : ∀ (n : Node), KeysOk (defsNode n)
  | .simple op ins outs => by
      simp only [defsNode]
      split
      · cases outs with
        | nil => simp [loadDefs, KeysOk]
        | cons o os =>
          cases ins with
          | nil => simp [loadDefs, KeysOk]
          | cons i is =>
            refine ⟨fun o' key ins h => ?_, fun o' key origin h => ?_⟩
            · simp only [loadDefs, List.mem_cons, List.mem_map, Prod.mk.injEq, Def.node.injEq,
                reduceCtorEq, and_false, exists_false, or_false] at h
              obtain ⟨rfl, rfl, rfl⟩ := h
              simp [loadDefs]
            · simp only [loadDefs, List.mem_cons, List.mem_map, Prod.mk.injEq, reduceCtorEq,
                and_false, false_or, Def.loadState.injEq] at h
              obtain ⟨q, hq, rfl, rfl, rfl⟩ := h
              exact ⟨i :: is, by simp [loadDefs], by simp [(List.of_mem_zip hq).2]⟩
      · refine ⟨fun o' key ins' h => ?_, fun o' key origin h => ?_⟩
        · simp only [simpleDefs, List.mem_map, Prod.mk.injEq, Def.node.injEq] at h
          obtain ⟨o, ho, rfl, rfl, rfl⟩ := h
          cases outs with
          | nil => simp at ho
          | cons k os => simp [simpleDefs]
        · simp [simpleDefs] at h
  | .gamma pred ins outs subs => by
      simp only [defsNode]
      refine (keysOk_others ?_).append (defsRegions_keys subs _)
      simp only [List.mem_map]
      rintro p ⟨q, _, rfl⟩
      exact ⟨_, rfl⟩
  | .theta ins outs args pred posts sub => by
      simp only [defsNode]
      refine ((keysOk_others ?_).append (keysOk_others ?_)).append (defsNodes_keys sub)
      · simp only [List.mem_map]
        rintro p ⟨q, _, rfl⟩
        exact ⟨_, rfl⟩
      · simp only [List.mem_map]
        rintro p ⟨q, _, rfl⟩
        exact ⟨_, rfl⟩
  | .lambda ins args params results out sub => by
      simp only [defsNode]
      refine ((keysOk_others ?_).append (keysOk_others ?_)).append (defsNodes_keys sub)
      · simp only [List.mem_map, List.mem_cons]
        rintro p (rfl | ⟨q, _, rfl⟩)
        · exact ⟨_, rfl⟩
        · exact ⟨_, rfl⟩
      · simp only [List.mem_map]
        rintro p ⟨q, _, rfl⟩
        exact ⟨_, rfl⟩
  | .phi ins args recs results outs sub => by
      simp only [defsNode]
      refine (((keysOk_others ?_).append (keysOk_others ?_)).append (keysOk_others ?_)).append
        (defsNodes_keys sub) <;>
      · simp only [List.mem_map]
        rintro p ⟨q, _, rfl⟩
        exact ⟨_, rfl⟩
  | .delta ins args result out sub => by
      simp only [defsNode]
      refine (keysOk_others ?_).append (defsNodes_keys sub)
      simp only [List.mem_map, List.mem_cons]
      rintro p (rfl | ⟨q, _, rfl⟩)
      · exact ⟨_, rfl⟩
      · exact ⟨_, rfl⟩

theorem defsNodes_keys : ∀ (ns : Nodes), KeysOk (defsNodes ns)
  | .nil => keysOk_others (by simp [defsNodes])
  | .cons n ns => by
      simp only [defsNodes]
      exact (defsNode_keys n).append (defsNodes_keys ns)

theorem defsRegions_keys : ∀ (subs : Regions) (ins : List Out), KeysOk (defsRegions ins subs)
  | .nil, ins => keysOk_others (by simp [defsRegions])
  | .cons args results sub rest, ins => by
      simp only [defsRegions]
      refine ((keysOk_others ?_).append (defsNodes_keys sub)).append (defsRegions_keys rest ins)
      simp only [List.mem_map]
      rintro p ⟨q, _, rfl⟩
      exact ⟨_, rfl⟩

end

theorem wf_parts {g : Graph} (h : g.wf = true) : g.names.Nodup ∧ wfNodes g.imports g.body = true ∧
    ∀ x ∈ g.exports, x ∈ g.imports ++ g.body.outs := by
  simp only [Graph.wf, Bool.and_eq_true, decide_eq_true_eq, subset_iff] at h
  exact ⟨h.1.1, h.1.2, h.2⟩

theorem defsGraph_names {g : Graph} (h : g.wf = true) :
    (defsGraph g).map (·.1) = g.names := by
  obtain ⟨_, h2, _⟩ := wf_parts h
  simp only [defsGraph, List.map_append, Graph.names]
  rw [map_fst_map (fun _ => Def.other []) g.imports, defsNodes_names g.body _ h2]

theorem defsGraph_ok {g : Graph} (h : g.wf = true) : DefsOk (defsGraph g) := by
  obtain ⟨h1, h2, h3⟩ := wf_parts h
  have hk : KeysOk (defsGraph g) := by
    simp only [defsGraph]
    refine (keysOk_others ?_).append (defsNodes_keys g.body)
    simp only [List.mem_map]
    rintro p ⟨q, _, rfl⟩
    exact ⟨_, rfl⟩
  refine ⟨by rw [defsGraph_names h]; exact h1, ?_, hk.1, hk.2⟩
  intro p hp x hx
  rw [defsGraph_names h]
  simp only [defsGraph, List.mem_append, List.mem_map] at hp
  simp only [Graph.names, List.mem_append]
  rcases hp with ⟨q, _, rfl⟩ | hp
  · simp [Def.deps] at hx
  · exact defsNodes_closed g.body _ h2 p hp x hx

theorem markGraph_coh {g : Graph} (h : g.wf = true) :
    (∀ r ∈ g.exports, Alive (defsGraph g) (markGraph g) r) ∧
      ∀ p ∈ defsGraph g, Coh (markGraph g) (Alive (defsGraph g) (markGraph g)) p := by
  refine marks_coh (defsGraph_ok h) g.exports ?_ _ rfl
  intro r hr
  rw [defsGraph_names h]
  have := (wf_parts h).2.2 r hr
  rcases List.mem_append.1 this with h' | h'
  · simp [Graph.names, h']
  · simp [Graph.names, Nodes_outs_subset_names g.body r h']

end Jlm.Opt.Dne
