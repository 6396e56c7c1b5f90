import Verif.Mem.NormProps
/-
C38, continued: normalizations that forward or remove stores, and the exit of a lambda.
-/
set_option linter.unusedSimpArgs false
set_option linter.unusedVariables false
namespace Jlm.Mem

variable {V B : Type} {sem : Sem V B} {s : State V B} {vis : Nat → Prop} {G : Graph} {n : Node}

theorem live_pair (hw : G.Wf) {x y : Node} (hx : x ∈ G.live) (hy : y ∈ G.live)
    (h : x.id ∈ y.needs) : ∃ p q r, G.live = p ++ x :: (q ++ y :: r) :=
  before_of_needs (live_topo hw) (live_nodup hw) hx hy h

theorem live_order (hw : G.Wf) {p q r : List Node} {x y : Node}
    (e : G.live = p ++ x :: (q ++ y :: r)) {w : Node} (hw1 : Prec G.live x w) (hw2 : Prec G.live w y)
    (hwl : w ∈ G.live) : w ∈ q := by
  have nd : G.live.Nodup := List.Nodup.of_map _ (live_nodup hw)
  have h2 := hw2 (p ++ x :: q) r (by rw [e]; simp)
  rw [List.mem_append, List.mem_cons] at h2
  rcases h2 with h | h | h
  · exfalso
    obtain ⟨a, b, rfl⟩ := List.append_of_mem h
    have := hw1 a (b ++ x :: (q ++ y :: r)) (by rw [e]; simp)
    rw [e, List.append_assoc, List.nodup_append] at nd
    exact nd.2.2 x this x (by simp) rfl
  · exfalso
    have := hw1 p (q ++ y :: r) (by rw [e, h])
    rw [e, List.nodup_append] at nd
    exact nd.2.2 x this x (by simp) rfl
  · exact h

/-! ### Store-to-load forwarding -/

/-- nothing overwrites what the load reads between the store that its states come from and the load -/
theorem store_reaches (hw : G.Wf) (hr : RaceFree sem s vis G) {st : Node} {t : Nat}
    {address value : VOut} (hst : st ∈ G.nodes) (hsto : st.op = .store t)
    (hstv : st.vals = [address, value]) (hop : n.op = .load t) (hv : n.vals = [address])
    (hnl : n ∈ G.live) (hall : ∀ o ∈ n.states, ∃ k, o = .res st.id k) (hex : n.states ≠ []) :
    (G.final sem s).env (.res n.id 0) =
      sem.dec t (sem.enc t ((G.final sem s).env value)) := by
  obtain ⟨o0, ho0⟩ := List.exists_mem_of_ne_nil _ hex
  obtain ⟨k0, hk0⟩ := hall o0 ho0
  have hneed : st.id ∈ n.needs := mem_needs_states ho0 (by rw [hk0]; simp [SOut.owners])
  have hstl : st ∈ G.live := live_used hw hst hnl hneed
  obtain ⟨p, q, r, e⟩ := live_pair hw hstl hnl hneed
  have nd := live_nodup hw
  have hquiet : ∀ b, sem.within t ((G.final sem s).env address) b →
      ∀ w ∈ q, ¬ sem.writes w.op (w.vals.map (G.final sem s).env) b := by
    intro b hb w hwq hww
    obtain ⟨q1, q2, rfl⟩ := List.append_of_mem hwq
    have hwl : w ∈ G.live := by rw [e]; simp
    have hc : Conflict sem (G.final sem s).env w n :=
      ⟨b, Or.inl ⟨hww, Or.inl (by rw [hop, hv]; exact hb)⟩⟩
    obtain ⟨k, o, ho, hf⟩ := hr.pairs (p ++ st :: q1) w q2 n r (by rw [e]; simp) hc
    obtain ⟨k', rfl⟩ := hall o ho
    have hne : w.id ≠ st.id := by
      intro h
      rw [e] at nd
      simp only [List.map_append, List.map_cons] at nd
      rw [List.nodup_append] at nd
      exact (List.nodup_cons.mp nd.2.1).1 (by simp [h])
    obtain ⟨i, o1, h1, h2, _⟩ := flow_through hw hst hne hf
    have hprec := flow_prec hw (live_schedule hw) h2 st hstl (List.mem_of_getElem? h1) w hwl
      (by simp [SOut.owners])
    have hwp := hprec p _ e
    rw [e] at nd
    simp only [List.map_append, List.map_cons] at nd
    rw [List.nodup_append] at nd
    exact nd.2.2 _ (List.mem_map_of_mem hwp) w.id (by simp) rfl
  have e2 : G.live = (p ++ st :: q) ++ n :: r := by rw [e]; simp
  have e3 : G.live = (p ++ [st]) ++ (q ++ n :: r) := by rw [e]; simp
  rw [final_output hw e2 0, hop, hv]
  show sem.dec t (fun i => (exec sem s (p ++ st :: q)).mem _) = _
  apply sem.dec_local
  intro i hi
  have hin : sem.within t ((G.final sem s).env address)
      (sem.addr ((G.final sem s).env address) + i) := ⟨by omega, by omega⟩
  have h1 : (exec sem s (p ++ st :: q)).mem (sem.addr ((G.final sem s).env address) + i) =
      (exec sem s (p ++ [st])).mem (sem.addr ((G.final sem s).env address) + i) := by
    have := mem_unchanged hw e3 (b := sem.addr ((G.final sem s).env address) + i) (hquiet _ hin)
    rw [← this]
    congr 2
    simp
  rw [h1, exec_append]
  show (sem.apply st.op (st.vals.map (exec sem s p).env) (exec sem s p).mem).2 _ = _
  rw [final_operands hw e, hsto, hstv]
  show (if sem.within t ((G.final sem s).env address) _ then _ else _) = _
  rw [if_pos hin]
  congr 1
  omega

/-- **A load of what was just stored.** The stored values must be values of their type: storing and
loading them again gives them back. -/
theorem C38_load_store (hw : G.Wf) (hr : RaceFree sem s vis G) (hn : n ∈ G.nodes) (t : Nat)
    (hop : n.op = .load t)
    (hrt : ∀ st ∈ G.nodes, ∀ a v, st.op = .store t → st.vals = [a, v] →
      sem.dec t (sem.enc t ((G.final sem s).env v)) = (G.final sem s).env v) :
    Correct sem s vis G ((loadStore G n t).apply G n) := by
  unfold loadStore
  split
  · exact correct_refl hw hr
  · rename_i o0 os hstates
    split
    · rename_i st hown
      split
      · rename_i t' address value hsto hstv
        split
        · rename_i h
          obtain ⟨hv, hlen, hall, ht⟩ := h
          subst ht
          obtain ⟨hst, k0, hk0⟩ := owner_some hown
          have hanc : Anc G n st.id := .base (mem_needs_states (o := o0) (by rw [hstates]; simp)
            (by rw [hk0]; simp [SOut.owners]))
          have hfits : Fits G n [] [value] n.states := by
            refine ⟨hn, by simp, by simp, by simp, by simp, fun o ho => Or.inl (.own hn ho), ?_, ?_,
              ?_, Or.inl rfl, by simp⟩
            · intro v hvm
              simp only [List.mem_singleton] at hvm
              exact Or.inl ⟨st, hst, by rw [hstv, hvm]; simp, Or.inr hanc⟩
            · intro k hk
              simpa only [Node.hasState, hop] using hk
            · intro k hk
              simp only [Node.hasValue, hop] at hk
              simp [hk]
          refine replace_correct (E := fun x => x = n) s vis hw hr hfits ?_
          have hnw : ∀ b, ¬ sem.writes n.op (n.vals.map (G.final sem s).env) b := by
            intro b; rw [hop, hv]; exact fun h => h
          refine ⟨?_, ?_, by simp, by simp, by simp, fun _ => rfl, ?_, ?_, ?_⟩
          · intro hnl k v hk
            match k with
            | 0 =>
              simp only [List.getElem?_cons_zero, Option.some.injEq] at hk
              subst hk
              rw [store_reaches hw hr hst hsto hstv hop hv hnl
                (fun o ho => (owner_some (hall o ho)).2) (by rw [hstates]; simp)]
              exact (hrt st hst address value hsto hstv).symm
            | k + 1 => simp at hk
          · intro x hx hxe _ j hup k o k1 o1 hk hf hp hs
            rw [hop] at hp
            have : k1 = k := hp.2
            subst this
            rw [hs] at hk
            simp only [Option.some.injEq] at hk
            subst hk
            exact hup _ (.own hn (List.mem_of_getElem? hs)) hf
          · rintro x hx rfl ⟨x', hx', _⟩
            rw [repl_self] at hx'
            simp at hx'
          · rintro p z q y r b _ rfl hwr
            exact absurd hwr (hnw b)
          · rintro p z q b _ rfl hwr
            exact absurd hwr (hnw b)
        · exact correct_refl hw hr
      · exact correct_refl hw hr
    · exact correct_refl hw hr

/-! ### Stores that nobody reads -/

/-- **A store to an alloca whose address has no other user.** What it writes must not be accessible
otherwise. -/
theorem C38_store_single_user (hw : G.Wf) (hr : RaceFree sem s vis G) (hn : n ∈ G.nodes) (t : Nat)
    (hop : n.op = .store t)
    (hpriv : (storeSingleUser G n ≠ .nothing) → ∀ b,
      sem.writes n.op (n.vals.map (G.final sem s).env) b →
      ¬ vis b ∧ ∀ y ∈ G.live, ¬ sem.reads y.op (y.vals.map (G.final sem s).env) b) :
    Correct sem s vis G ((storeSingleUser G n).apply G n) := by
  unfold storeSingleUser at hpriv ⊢
  split
  · rename_i address value hv
    split
    · rename_i h
      simp only [hv, if_pos h] at hpriv
      have hfits : Fits G n [] [] n.states := by
        refine forward_fits hn _ (fun o ho => .own hn ho) ?_ ?_
        · intro k hk
          simpa only [Node.hasState, hop] using hk
        · intro k hk
          simp only [Node.hasValue, hop] at hk
      refine replace_correct (E := fun x => x = n) s vis hw hr hfits ?_
      have hp := hpriv (by simp)
      rw [← hv] at hp
      refine ⟨by simp, ?_, by simp, by simp, by simp, fun _ => rfl, ?_, ?_, ?_⟩
      · intro x hx hxe _ j hup k o k1 o1 hk hf hp hs
        rw [hop] at hp
        have : k1 = k := hp.2
        subst this
        rw [hs] at hk
        simp only [Option.some.injEq] at hk
        subst hk
        exact hup _ (.own hn (List.mem_of_getElem? hs)) hf
      · rintro x hx rfl ⟨x', hx', _⟩
        rw [repl_self] at hx'
        simp at hx'
      · rintro p z q y r b e rfl hwr _ hrd
        exact absurd hrd ((hp b hwr).2 y (by rw [e]; simp))
      · rintro p z q b _ rfl hwr hb
        exact absurd hb (hp b hwr).1
    · exact correct_refl hw hr
  · exact correct_refl hw hr

/-! ### Stores of merged states -/

/-- **A store whose state is a merge.** For stores with one memory state and merges with at least one
operand. -/
theorem C38_store_mux_partial (hw : G.Wf) (hr : RaceFree sem s vis G) (hn : n ∈ G.nodes) (t : Nat)
    (hop : n.op = .store t) (fresh : Nat) (hfresh : fresh ∉ G.nodes.map Node.id)
    (hone : n.states.length = 1) (hmerge : ∀ m ∈ G.nodes, m.op = .merge → m.states ≠ []) :
    Correct sem s vis G ((storeMux G fresh n t).apply G n) := by
  obtain ⟨o0, hstates⟩ := List.length_eq_one_iff.mp hone
  unfold storeMux
  rw [hstates]
  simp only
  split
  · rename_i m hown
    split
    · rename_i h
      obtain ⟨hmo, _⟩ := h
      obtain ⟨hm, k0, hk0⟩ := owner_some hown
      have hne := hmerge m hm hmo
      have hanc : Anc G n m.id := .base (mem_needs_states (o := o0) (by rw [hstates]; simp)
        (by rw [hk0]; simp [SOut.owners]))
      let n' : Node := ⟨n.id, .store t, n.vals, m.states⟩
      let mg : Node := ⟨fresh, .merge, [], stateOuts n.id m.states.length⟩
      have hid : n.id ≠ fresh := fun h => hfresh (h ▸ List.mem_map_of_mem hn)
      show Correct sem s vis G (G.replace n.id [n', mg] [] [.res fresh 0])
      have hfits : Fits G n [n', mg] [] [.res fresh 0] := by
        refine ⟨hn, ?_, by simp [n', mg, hid], ?_, ?_, ?_, by simp, ?_, ?_, ?_, ?_⟩
        · intro x hx
          simp only [List.mem_cons, List.not_mem_nil, or_false] at hx
          rcases hx with rfl | rfl
          · exact Or.inl rfl
          · exact Or.inr hfresh
        · intro a x b e o ho
          match a, e with
          | [], e =>
            simp only [List.nil_append, List.cons.injEq] at e
            rw [← e.1] at ho
            exact Or.inl (.of hm hanc ho)
          | [y], e =>
            simp only [List.cons_append, List.nil_append, List.cons.injEq] at e
            rw [← e.2.1] at ho
            simp only [mg, stateOuts, List.mem_map, List.mem_range] at ho
            obtain ⟨k, hk, rfl⟩ := ho
            exact Or.inr ⟨n', by rw [← e.1]; simp, k, rfl, hk⟩
          | y :: z :: a, e =>
            exfalso
            have := congrArg List.length e
            simp at this
        · intro x hx v hv
          simp only [List.mem_cons, List.not_mem_nil, or_false] at hx
          rcases hx with rfl | rfl
          · exact ⟨n, hn, hv, Or.inl rfl⟩
          · simp [mg] at hv
        · intro o ho
          simp only [List.mem_singleton] at ho
          exact Or.inr ⟨mg, by simp, 0, ho, rfl⟩
        · intro k hk
          simp only [Node.hasState, hop, hone] at hk
          simpa using hk
        · intro k hk
          simp only [Node.hasValue, hop] at hk
        · right
          refine ⟨n', ?_, rfl, hop.symm, rfl⟩
          simp [n', mg, Op.isEff]
        · intro x hx hxe e
          simp only [List.mem_cons, List.not_mem_nil, or_false] at hx
          rcases hx with rfl | rfl
          · simp [n', Op.isEff] at hxe
          · exact absurd e.symm hid
      have hn'N := new_mem hfits (x := n') (by simp)
      have hmgN := new_mem hfits (x := mg) (by simp)
      have hlast : ∀ k, k < m.states.length →
          Flow (G.replace n.id [n', mg] [] [.res fresh 0]).nodes (.res n.id k) (.res fresh 0) := by
        intro k hk
        refine .step hmgN (k := k) (o' := .res fresh 0) ?_ ⟨rfl, rfl⟩ (.refl _)
        simp [mg, stateOuts, hk]
      have hstep : ∀ x ∈ G.nodes, x.op.isEff = true → ∀ (j : Nat) (o : SOut), o ∈ n.states →
          Flow G.nodes (.res x.id j) o → ∃ (i : Nat) (o1 : SOut), m.states[i]? = some o1 ∧ Flow G.nodes (.res x.id j) o1 := by
        intro x hx hxe j o ho hf
        rw [hstates, List.mem_singleton] at ho
        rw [ho, hk0] at hf
        obtain ⟨i, o1, h1, h2, _⟩ := flow_through hw hm (eff_ne hw hx hm hxe (by rw [hmo]; rfl)) hf
        exact ⟨i, o1, h1, h2⟩
      have hzero : ∀ k o, G.usedS o → Flow G.nodes (.res n.id k) o → k = 0 := by
        intro k o hu hf
        have hu1 : G.usedS (.res n.id k) := by
          cases hf with
          | refl => exact hu
          | step hz hk _ _ => exact Or.inr ⟨_, hz, List.mem_of_getElem? hk⟩
        have h1 := hw.states n hn k hu1
        simp only [Node.hasState, hop, hone] at h1
        omega
      have hpos : 0 < m.states.length := List.length_pos_iff.mpr hne
      refine replace_correct (E := fun _ => False) s vis hw hr hfits ?_
      refine ⟨by simp, ?_, ?_, ?_, ?_, ?_, by simp, by simp, by simp⟩
      · intro x hx hxe _ j hup k o k1 o1 hk hf hp hs
        have h0 : k1 = 0 := by
          have := (List.getElem?_eq_some_iff.mp hs).1
          simpa using this
        subst h0
        simp only [List.getElem?_cons_zero, Option.some.injEq] at hs
        subst hs
        obtain ⟨i, o1, h1, h2⟩ := hstep x hx hxe j o (List.mem_of_getElem? hk) hf
        refine (hup o1 (.of hm hanc (List.mem_of_getElem? h1)) h2).trans ?_
        exact .step hn'N (k := i) h1 (o' := .res n.id i) ⟨rfl, rfl⟩
          (hlast i (List.getElem?_eq_some_iff.mp h1).1)
      · rintro x' hx' hxe' x hx _ hc ⟨j, o, ho, hf⟩
        obtain ⟨i, o1, h1, h2⟩ := hstep x (live_mem hx) (conflict_eff hc).1 j o ho hf
        refine ⟨j, o, ho, hf, fun hup => ⟨o1, ?_, hup o1 (.of hm hanc (List.mem_of_getElem? h1)) h2⟩⟩
        simp only [List.mem_cons, List.not_mem_nil, or_false] at hx'
        rcases hx' with rfl | rfl
        · exact List.mem_of_getElem? h1
        · simp [mg, Op.isEff] at hxe'
      · rintro _ _ _ y hy hc ⟨k, o, ho, hf⟩
        have := hzero k o (Or.inr ⟨y, live_mem hy, ho⟩) hf
        subst this
        exact ⟨0, _, 0, rfl, hlast 0 hpos, o, ho, hf⟩
      · rintro _ _ _ b hb _ ⟨k, o, ho, hf⟩
        have := hzero k o (Or.inl ho) hf
        subst this
        exact ⟨0, _, 0, rfl, hlast 0 hpos, o, ho, hf⟩
      · intro h
        simp [n', mg, Op.isEff] at h
    · exact correct_refl hw hr
  · exact correct_refl hw hr

/-! ### A store that is overwritten -/

/-- **A store that the next store overwrites.** Correct if the outputs of the first store have no
other users, and tracing the addresses is sound. -/
theorem C38_store_store_partial (hw : G.Wf) (hr : RaceFree sem s vis G) (hn : n ∈ G.nodes) (t : Nat)
    (hop : n.op = .store t) (trace : VOut → VOut) (size : Nat → Nat) (hsize : size = sem.size)
    (htrace : ∀ a b, trace a = trace b →
      sem.addr ((G.final sem s).env a) = sem.addr ((G.final sem s).env b))
    (hothers : ∀ st ∈ G.nodes, ∀ o k, o ∈ n.states → G.owner o = some st →
      SOut.res st.id k ∉ G.sres ∧ ∀ y ∈ G.nodes, SOut.res st.id k ∈ y.states → y = n) :
    Correct sem s vis G ((storeStore G trace size n t).apply G n) := by
  unfold storeStore
  split
  · exact correct_refl hw hr
  · rename_i o0 os hstates
    split
    · rename_i st hown
      split
      · rename_i t1 address1 value1 address2 value2 hsto hstv hv
        split
        · rename_i h
          obtain ⟨htr, hall, hsz⟩ := h
          obtain ⟨hst, k0, hk0⟩ := owner_some hown
          have ho0 : o0 ∈ n.states := by rw [hstates]; simp
          have hall' : ∀ o ∈ n.states, ∃ k, o = .res st.id k :=
            fun o ho => (owner_some (hall o ho).1).2
          have hneed : st.id ∈ n.needs :=
            mem_needs_states ho0 (by rw [hk0]; simp [SOut.owners])
          have hanc : Anc G n st.id := .base hneed
          have hnst : st.id ≠ n.id := anc_ne hw hn hanc
          have honly : ∀ k, SOut.res st.id k ∉ G.sres ∧
              ∀ y ∈ G.nodes, SOut.res st.id k ∈ y.states → y = n :=
            fun k => hothers st hst o0 k ho0 hown
          -- the new operands
          have hin : ∀ (i : Nat) (o : SOut), n.states[i]? = some o → ∃ (k : Nat) (o1 : SOut), o = .res st.id k ∧
              st.states[k]? = some o1 ∧ inputOf st o = some o1 := by
            intro i o hi
            have ho := List.mem_of_getElem? hi
            obtain ⟨k, rfl⟩ := hall' o ho
            have h1 := hw.states st hst k (Or.inr ⟨n, hn, ho⟩)
            simp only [Node.hasState, hsto] at h1
            exact ⟨k, st.states[k], rfl, by simp [h1], by simp [inputOf, h1]⟩
          have hmap : n.states.filterMap (inputOf st) =
              n.states.map fun o => (inputOf st o).getD o := by
            rw [← List.filterMap_eq_map]
            apply List.filterMap_congr
            intro o ho
            obtain ⟨i, hi⟩ := List.mem_iff_getElem?.mp ho
            obtain ⟨k, o1, _, _, h3⟩ := hin i o hi
            simp [h3]
          generalize hst' : n.states.filterMap (inputOf st) = states' at hmap ⊢
          have hget : ∀ (i k : Nat) (o1 : SOut), n.states[i]? = some (SOut.res st.id k) → st.states[k]? = some o1 →
              states'[i]? = some o1 := by
            intro i k o1 hi hk
            rw [hmap, List.getElem?_map, hi]
            simp [inputOf, hk]
          have hold : ∀ o ∈ states', OldS G n o ∧ o ∈ st.states := by
            intro o ho
            rw [← hst'] at ho
            obtain ⟨o1, h1, h2⟩ := List.mem_filterMap.mp ho
            obtain ⟨i, hi⟩ := List.mem_iff_getElem?.mp h1
            obtain ⟨k, o2, rfl, h3, h4⟩ := hin i o1 hi
            rw [h4] at h2
            simp only [Option.some.injEq] at h2
            subst h2
            exact ⟨.of hst hanc (List.mem_of_getElem? h3), List.mem_of_getElem? h3⟩
          have hlen' : states'.length = n.states.length := by rw [hmap]; simp
          let n' : Node := ⟨n.id, .store t, n.vals, states'⟩
          show Correct sem s vis G (G.replace n.id [n'] [] (stateOuts n.id n.states.length))
          have hso : ∀ (k : Nat) (o : SOut), (stateOuts n.id n.states.length)[k]? = some o →
              o = SOut.res n.id k ∧ k < n.states.length := by
            intro k o hk
            have := (List.getElem?_eq_some_iff.mp hk).1
            simp only [stateOuts, List.length_map, List.length_range] at this
            simp only [stateOuts, List.getElem?_map, List.getElem?_range this, Option.map_some,
              Option.some.injEq] at hk
            exact ⟨hk.symm, this⟩
          have hso' : ∀ k, k < n.states.length →
              (stateOuts n.id n.states.length)[k]? = some (SOut.res n.id k) := by
            intro k hk
            simp [stateOuts, hk]
          have hfits : Fits G n [n'] [] (stateOuts n.id n.states.length) := by
            refine ⟨hn, ?_, by simp, ?_, ?_, ?_, by simp, ?_, ?_, ?_, ?_⟩
            · intro x hx
              simp only [List.mem_singleton] at hx
              exact Or.inl (by rw [hx])
            · intro a x b e o ho
              have hx : x ∈ [n'] := by rw [e]; simp
              simp only [List.mem_singleton] at hx
              rw [hx] at ho
              exact Or.inl (hold o ho).1
            · intro x hx v hv
              simp only [List.mem_singleton] at hx
              rw [hx] at hv
              exact ⟨n, hn, hv, Or.inl rfl⟩
            · intro o ho
              obtain ⟨k, hk⟩ := List.mem_iff_getElem?.mp ho
              obtain ⟨h1, h2⟩ := hso k o hk
              exact Or.inr ⟨n', by simp, k, h1, by show k < states'.length; omega⟩
            · intro k hk
              simp only [Node.hasState, hop] at hk
              simpa [stateOuts] using hk
            · intro k hk
              simp only [Node.hasValue, hop] at hk
            · exact Or.inr ⟨n', by simp [n', Op.isEff], rfl, hop.symm, rfl⟩
            · intro x hx hxe _
              simp only [List.mem_singleton] at hx
              rw [hx] at hxe
              simp [n', Op.isEff] at hxe
          have hn'N := new_mem hfits (x := n') (by simp)
          have hflow1 : ∀ x ∈ G.nodes, x ≠ st → ∀ (j i : Nat) (o : SOut), n.states[i]? = some o →
              Flow G.nodes (.res x.id j) o →
              ∃ o1, states'[i]? = some o1 ∧ Flow G.nodes (.res x.id j) o1 := by
            intro x hx hxs j i o hi hf
            obtain ⟨k, o2, rfl, h3, h4⟩ := hin i o hi
            obtain ⟨i', o1, h1, h2, hp⟩ := flow_through hw hst
              (fun h => hxs (eq_of_id hw hx hst h)) hf
            rw [hsto] at hp
            have : k = i' := hp.2
            subst this
            exact ⟨o1, hget i k o1 hi h1, h2⟩
          have hstate : ∀ k o, G.usedS o → Flow G.nodes (.res n.id k) o → k < n.states.length := by
            intro k o hu hf
            have hu1 : G.usedS (.res n.id k) := by
              cases hf with
              | refl => exact hu
              | step hz hk _ _ => exact Or.inr ⟨_, hz, List.mem_of_getElem? hk⟩
            have h1 := hw.states n hn k hu1
            simpa only [Node.hasState, hop] using h1
          -- st is needed by n only
          have hneeds : ∀ y ∈ G.nodes, st.id ∈ y.needs → y = n := by
            intro y hy h
            simp only [Node.needs, List.mem_append, List.mem_flatMap] at h
            rcases h with ⟨v, hv, hi⟩ | ⟨o, ho, hi⟩
            · cases v with
              | arg i => simp [VOut.owners] at hi
              | res i k =>
                simp only [VOut.owners, List.mem_singleton] at hi
                subst hi
                have := hw.values st hst k (Or.inr ⟨y, hy, hv⟩)
                simp only [Node.hasValue, hsto] at this
            · cases o with
              | arg i => simp [SOut.owners] at hi
              | res i k =>
                simp only [SOut.owners, List.mem_singleton] at hi
                subst hi
                exact (honly k).2 y hy ho
          have hgneeds : st.id ∉ G.needs := by
            intro h
            simp only [Graph.needs, List.mem_append, List.mem_flatMap] at h
            rcases h with ⟨v, hv, hi⟩ | ⟨o, ho, hi⟩
            · cases v with
              | arg i => simp [VOut.owners] at hi
              | res i k =>
                simp only [VOut.owners, List.mem_singleton] at hi
                subst hi
                have := hw.values st hst k (Or.inl hv)
                simp only [Node.hasValue, hsto] at this
            · cases o with
              | arg i => simp [SOut.owners] at hi
              | res i k =>
                simp only [SOut.owners, List.mem_singleton] at hi
                subst hi
                exact (honly k).1 ho
          have hnl : st ∈ G.live → n ∈ G.live := by
            intro hl
            obtain ⟨p, q, e⟩ := List.append_of_mem hst
            have hk : st.id ∈ (kept G.nodes G.needs).2 ∨ True := Or.inr trivial
            have : ∃ y ∈ G.live, st.id ∈ y.needs := by
              by_contra hno
              have key := kept_induct G.nodes G.needs
                (fun j => j ≠ st.id ∧ ∀ z ∈ G.nodes, z.id = j → z ∈ G.live)
                (by
                  intro i hi
                  exact ⟨fun h => hgneeds (h ▸ hi), fun z hz hzi => live_result hw hz (hzi ▸ hi)⟩)
                (by
                  intro y hy hQ i hi
                  have hyl := hQ.2 y hy rfl
                  exact ⟨fun h => hno ⟨y, hyl, h ▸ hi⟩,
                    fun z hz hzi => live_used hw hz hyl (hzi ▸ hi)⟩)
              exact (key.2 st hl).1 rfl
            obtain ⟨y, hy, h⟩ := this
            exact hneeds y (live_mem hy) h ▸ hy
          -- st is dead afterwards
          have hdead : ∀ x' ∈ (G.replace n.id [n'] [] (stateOuts n.id n.states.length)).live,
              x'.id ≠ st.id := by
            have key := kept_induct (G.replace n.id [n'] [] (stateOuts n.id n.states.length)).nodes
              (G.replace n.id [n'] [] (stateOuts n.id n.states.length)).needs (fun j => j ≠ st.id)
              (by
                intro i hi hist
                rcases graph_needs_cases hw hfits hi with ⟨_, h⟩ | ⟨_, h⟩
                · exact hgneeds (hist ▸ h)
                · -- outputs of n' only
                  simp only [Graph.needs, Graph.replace, List.mem_append, List.mem_flatMap,
                    List.mem_map] at hi
                  subst hist
                  rcases hi with ⟨_, ⟨v, hv, rfl⟩, hi⟩ | ⟨_, ⟨v, hv, rfl⟩, hi⟩
                  · rcases vsub_cases hw hfits (Or.inl hv) with ⟨h1, h2⟩ | ⟨k, v', h1, h2, h3⟩
                    · rw [h2] at hi
                      apply hgneeds
                      simp only [Graph.needs, List.mem_append, List.mem_flatMap]
                      exact Or.inl ⟨v, hv, hi⟩
                    · simp at h2
                  · rcases ssub_cases hw hfits (Or.inl hv) with ⟨h1, h2⟩ | ⟨k, v', h1, h2, h3⟩
                    · rw [h2] at hi
                      apply hgneeds
                      simp only [Graph.needs, List.mem_append, List.mem_flatMap]
                      exact Or.inr ⟨v, hv, hi⟩
                    · rw [h3, (hso k v' h2).1] at hi
                      simp only [SOut.owners, List.mem_singleton] at hi
                      exact hnst hi)
              (by
                intro y' hy' hy'ne i hi hist
                subst hist
                rcases replace_cases hw hfits hy' with ⟨y, hy, hne, rfl⟩ | hy'n
                · simp only [Node.needs, Node.map, List.mem_append, List.mem_flatMap,
                    List.mem_map] at hi
                  rcases hi with ⟨_, ⟨v, hv, rfl⟩, hi⟩ | ⟨_, ⟨v, hv, rfl⟩, hi⟩
                  · rcases vsub_cases hw hfits (Or.inr ⟨y, hy, hv⟩) with
                      ⟨h1, h2⟩ | ⟨k, v', h1, h2, h3⟩
                    · rw [h2] at hi
                      exact hne (congrArg Node.id (hneeds y hy (mem_needs_vals hv hi)))
                    · simp at h2
                  · rcases ssub_cases hw hfits (Or.inr ⟨y, hy, hv⟩) with
                      ⟨h1, h2⟩ | ⟨k, v', h1, h2, h3⟩
                    · rw [h2] at hi
                      exact hne (congrArg Node.id (hneeds y hy (mem_needs_states hv hi)))
                    · rw [h3, (hso k v' h2).1] at hi
                      simp only [SOut.owners, List.mem_singleton] at hi
                      exact hnst hi
                · simp only [List.mem_singleton] at hy'n
                  subst hy'n
                  simp only [Node.needs, List.mem_append, List.mem_flatMap] at hi
                  rcases hi with ⟨v, hv, hi⟩ | ⟨o, ho, hi⟩
                  · cases v with
                    | arg i => simp [VOut.owners] at hi
                    | res i k =>
                      simp only [VOut.owners, List.mem_singleton] at hi
                      subst hi
                      have := hw.values st hst k (Or.inr ⟨n, hn, hv⟩)
                      simp only [Node.hasValue, hsto] at this
                  · have h1 := (hold o ho).2
                    exact anc_ne hw hst (.base (mem_needs_states h1 hi)) rfl)
            exact fun x' hx' => key.2 x' hx'
          have hcover : ∀ b, sem.writes st.op (st.vals.map (G.final sem s).env) b →
              sem.writes n.op (n.vals.map (G.final sem s).env) b := by
            intro b hb
            rw [hsto, hstv] at hb
            rw [hop, hv]
            have hb' : sem.within t1 ((G.final sem s).env address1) b := hb
            show sem.within t ((G.final sem s).env address2) b
            have := htrace _ _ htr
            rw [hsize] at hsz
            unfold Sem.within at hb' ⊢
            omega
          refine replace_correct (E := fun x => x = st) s vis hw hr hfits ?_
          refine ⟨by simp, ?_, ?_, ?_, ?_, by simp [n', Op.isEff], ?_, ?_, ?_⟩
          · intro x hx hxe hxE j hup k o k1 o1 hk hf hp hs
            rw [hop] at hp
            have : k1 = k := hp.2
            subst this
            rw [(hso _ _ hs).1]
            obtain ⟨o2, h1, h2⟩ := hflow1 x hx hxE j k1 o hk hf
            refine (hup o2 (hold o2 (List.mem_of_getElem? h1)).1 h2).trans ?_
            exact .step hn'N (k := k1) (o' := .res n.id k1) h1 ⟨rfl, rfl⟩ (.refl _)
          · rintro x' hx' _ x hx hxE hc ⟨j, o, ho, hf⟩
            simp only [List.mem_singleton] at hx'
            subst hx'
            obtain ⟨i, hi⟩ := List.mem_iff_getElem?.mp ho
            obtain ⟨o2, h1, h2⟩ := hflow1 x (live_mem hx) hxE j i o hi hf
            have h3 := List.mem_of_getElem? h1
            exact ⟨j, o, ho, hf, fun hup => ⟨o2, h3, hup o2 (hold o2 h3).1 h2⟩⟩
          · rintro _ _ _ y hy _ ⟨k, o, ho, hf⟩
            exact ⟨k, _, k, hso' k (hstate k o (Or.inr ⟨y, live_mem hy, ho⟩) hf), .refl _, o, ho, hf⟩
          · rintro _ _ _ b _ _ ⟨k, o, ho, hf⟩
            exact ⟨k, _, k, hso' k (hstate k o (Or.inl ho) hf), .refl _, o, ho, hf⟩
          · rintro x hx rfl ⟨x', hx', hl', _⟩
            rw [repl_ne hnst] at hx'
            simp only [List.mem_singleton] at hx'
            subst hx'
            exact hdead _ hl' rfl
          · rintro p z q y r b e rfl hwr _ hrd
            have hzl : z ∈ G.live := by rw [e]; simp
            have hyl : y ∈ G.live := by rw [e]; simp
            have hnl' := hnl hzl
            refine ⟨n, ?_, hcover b hwr⟩
            apply live_order hw e _ _ hnl'
            · exact prec_of_needs (live_topo hw) (live_nodup hw) hzl hneed
            · obtain ⟨k, o, ho, hf⟩ := hr.pairs p z q y r e ⟨b, Or.inl ⟨hwr, Or.inl hrd⟩⟩
              cases hf with
              | refl =>
                have := (honly k).2 y (live_mem hyl) ho
                subst this
                rw [hop, hv] at hrd
                exact hrd.elim
              | @step _ o' _ x k1 hx hk hp hf' =>
                have := (honly k).2 x hx (List.mem_of_getElem? hk)
                subst this
                obtain ⟨k2, rfl⟩ := passes_owner hp
                exact flow_prec hw (live_schedule hw) hf' y hyl ho x hnl' (by simp [SOut.owners])
          · rintro p z q b e rfl hwr _
            have hzl : z ∈ G.live := by rw [e]; simp
            have hnl' := hnl hzl
            refine ⟨n, ?_, hcover b hwr⟩
            have hpr := prec_of_needs (live_topo hw) (live_nodup hw) hzl hneed
            have : n ∈ p ++ z :: q := e ▸ hnl'
            rw [List.mem_append, List.mem_cons] at this
            rcases this with h | h | h
            · exfalso
              obtain ⟨a, b, rfl⟩ := List.append_of_mem h
              have h1 := hpr a (b ++ z :: q) (by rw [e]; simp)
              have nd : G.live.Nodup := List.Nodup.of_map _ (live_nodup hw)
              rw [e, List.append_assoc, List.nodup_append] at nd
              exact nd.2.2 z h1 z (by simp) rfl
            · exact absurd (congrArg Node.id h).symm hnst
            · exact h
        · exact correct_refl hw hr
      · exact correct_refl hw hr
    · exact correct_refl hw hr

end Jlm.Mem
