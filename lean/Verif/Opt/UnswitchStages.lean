import Verif.Opt.UnswitchModel
import Verif.Opt.Swap

/-! # C42: the stages of loop unswitching -/

set_option linter.unusedSimpArgs false
set_option linter.unusedVariables false

namespace Jlm.Opt.Unswitch

open Jlm.Opt.Copy Jlm.Opt.Lst Jlm.Opt.Pull Jlm.Opt.Swap

variable {V : Type}

/-! ## Loops -/

/-- A loop whose body is a branch: it does the same as a branch with a loop in it. -/
theorem loop_core {sem : Sem V} {f fθ : List (W V) → List (W V)} {P : List (W V) → Out → W V}
    {S0 S1 : W V → List (W V) → List (W V)} {init : List (W V)} {pred : Out} {gins : List Out}
    (hctl : ∀ ws p, (f ws).headD none = some p → sem.ctl p.1 < 2)
    (h1 : ∀ ws, (f ws).headD none = P ws pred)
    (h2 : ∀ ws p, P ws pred = some p → sem.ctl p.1 = 0 → (f ws).tail = S0 (some (sem.content p.1, none)) (gins.map (P ws)))
    (h3 : ∀ ws p, P ws pred = some p → sem.ctl p.1 = 1 → (f ws).tail = S1 (some (sem.content p.1, none)) (gins.map (P ws)))
    (h4 : ∀ c es, es.length = gins.length → fθ es = (pred :: gins).map (P (S1 c es)))
    {j : Nat} (hj : loopExits sem f init j) :
    ∃ p q, P init pred = some p ∧
      loopState f init (j + 1) = S0 q (gins.map (P (loopState f init j))) ∧
      (j = 0 → sem.ctl p.1 = 0) ∧
      (0 < j → sem.ctl p.1 = 1 ∧ loopVals sem fθ (gins.map (P init)) = gins.map (P (loopState f init j))) := by
  have hp : ∀ m, loopPred sem f init m = (P (loopState f init m) pred).map fun v => sem.ctl v.1 := by
    intro m; simp only [loopPred, h1]
  have hone : ∀ m, m < j → ∃ p, P (loopState f init m) pred = some p ∧ sem.ctl p.1 = 1 := by
    intro m hm
    obtain ⟨c, hc⟩ := hj.2 m hm
    rw [hp, Option.map_eq_some_iff] at hc
    obtain ⟨p, hp1, hp2⟩ := hc
    have := hctl (loopState f init m) p (by rw [h1]; exact hp1)
    exact ⟨p, hp1, by omega⟩
  have hzero := hj.1
  rw [hp, Option.map_eq_some_iff] at hzero
  obtain ⟨q, hq1, hq2⟩ := hzero
  -- the states of the inner loop
  have hst : ∀ m, m ≤ j → loopState fθ (gins.map (P init)) m = gins.map (P (loopState f init m)) := by
    intro m
    induction m with
    | zero => intro _; rfl
    | succ m ih =>
      intro hm
      obtain ⟨p, hp1, hp2⟩ := hone m (by omega)
      rw [loopState, ih (by omega), h4 (some (sem.content p.1, none)) _ (by simp), loopState, h3 _ p hp1 hp2]
      rfl
  have hpr : ∀ m, m < j → loopPred sem fθ (gins.map (P init)) m = loopPred sem f init (m + 1) := by
    intro m hm
    obtain ⟨p, hp1, hp2⟩ := hone m hm
    rw [hp, loopPred, hst m (by omega), h4 (some (sem.content p.1, none)) _ (by simp), loopState, h3 _ p hp1 hp2]
    rfl
  have hfin : loopState f init (j + 1) = S0 (some (sem.content q.1, none)) (gins.map (P (loopState f init j))) := by
    rw [loopState, h2 _ q hq1 hq2]
  rcases Nat.eq_zero_or_pos j with rfl | hpos
  · exact ⟨q, _, hq1, hfin, fun _ => hq2, fun h => absurd h (Nat.lt_irrefl _)⟩
  · obtain ⟨p, hp1, hp2⟩ := hone 0 hpos
    refine ⟨p, _, hp1, hfin, fun h => by omega, fun _ => ⟨hp2, ?_⟩⟩
    obtain ⟨i, rfl⟩ : ∃ i, j = i + 1 := ⟨j - 1, by omega⟩
    have hex : loopExits sem fθ (gins.map (P init)) i := by
      refine ⟨by rw [hpr i (by omega)]; exact hj.1, fun m hm => ?_⟩
      rw [hpr m (by omega)]
      exact hj.2 (m + 1) (by omega)
    rw [loopVals_at hex, hst _ (Nat.le_refl _)]

/-! ## Maps and environments -/

theorem rel_ins {args ins B : List Out} {n : Nat} {F : Env V} (ha : args.Nodup) (hl : args.length = ins.length)
    (hn : ∀ x : Nat, x ∈ ins → x < n) :
    Rel (SMap.empty.insertAll args ins) B n (upd emptyEnv args (ins.map F)) F := by
  intro o _ x h
  rcases insertAll_cases hl h with ⟨_, k, h1, h2⟩ | ⟨_, h2⟩
  · refine ⟨hn x (List.mem_of_getElem? h2), ?_⟩
    rw [Cne.upd_get ha h1]
    simp [h2]
  · simp [SMap.empty] at h2

theorem rel_branch {args ins B : List Out} {n : Nat} {F : Env V} {c : W V} (ha : args.Nodup)
    (hl : args.length = ins.length + 1) (hn : ∀ x : Nat, x ∈ ins → x < n) :
    Rel (SMap.empty.insertAll args.tail ins) B n (upd emptyEnv args (c :: ins.map F)) F := by
  intro o _ x h
  rcases insertAll_cases (by simp [hl]) h with ⟨_, k, h1, h2⟩ | ⟨_, h2⟩
  · refine ⟨hn x (List.mem_of_getElem? h2), ?_⟩
    rw [Cne.upd_get ha (k := k + 1) (by simpa using h1)]
    simp [h2]
  · simp [SMap.empty] at h2

theorem map_tail {b : List Out} {E : Env V} {c : W V} {ws : List (W V)} (hb : b.Nodup) (hl : b.length = ws.length + 1) :
    b.tail.map (upd E b (c :: ws)) = ws := by
  cases b with
  | nil => simp at hl
  | cons x b =>
    have := map_upd_self (E := E) hb (ws := c :: ws) (by simpa using hl)
    simpa using congrArg List.tail this

/-- The value of an output of a gamma node. -/
theorem origin_val {E : Env V} {gouts results : List Out} {g : Env V} {o : Out} (hn : gouts.Nodup)
    (hl : gouts.length = results.length) (ho : o ∈ gouts) :
    upd E gouts (results.map g) o = g (origin gouts results o) := by
  obtain ⟨k, hk⟩ := List.getElem?_of_mem ho
  have hk' : k < results.length := by
    have := (List.getElem?_eq_some_iff.1 hk).1
    omega
  have hr : results[k]? = some results[k] := List.getElem?_eq_getElem hk'
  rw [Cne.upd_get hn hk, origin, lookup_zip hn hk hr]
  simp [hr]

theorem origin_mem {gouts results : List Out} {o : Out} (hn : gouts.Nodup)
    (hl : gouts.length = results.length) (ho : o ∈ gouts) : origin gouts results o ∈ results := by
  obtain ⟨k, hk⟩ := List.getElem?_of_mem ho
  have hk' : k < results.length := by
    have := (List.getElem?_eq_some_iff.1 hk).1
    omega
  have hr : results[k]? = some results[k] := List.getElem?_eq_getElem hk'
  rw [origin, lookup_zip hn hk hr]
  simp

/-! ## The stages -/

/-- The values of the results of the subregion of the theta node. -/
noncomputable def Loop.step (L : Loop) (sem : Sem V) (ws : List (W V)) : List (W V) :=
  (L.pred :: L.posts).map (evalNodes sem (nodesOf L.body) (upd emptyEnv L.args ws))

theorem nodup_new {l1 l3 l4 l7 : List Nat} {n n1 n3 n4 n7 k : Nat} (h1 : l1.Nodup) (h3 : l3.Nodup) (h4 : l4.Nodup)
    (h7 : l7.Nodup) (b1 : ∀ z ∈ l1, n ≤ z ∧ z < n1)
    (b3 : ∀ z ∈ l3, n1 + (k + 1) + (k + 1) + k ≤ z ∧ z < n3) (b4 : ∀ z ∈ l4, n3 ≤ z ∧ z < n4)
    (b7 : ∀ z ∈ l7, n4 + k + k ≤ z ∧ z < n7) (le3 : n1 + (k + 1) + (k + 1) + k ≤ n3) (le4 : n3 ≤ n4) :
    (l1 ++ (List.range' (n4 + k) k ++ (List.range' n1 (k + 1) ++ (List.range' (n1 + (k + 1)) (k + 1) ++
      (List.range' n4 k ++ List.range' (n1 + (k + 1) + (k + 1)) k ++ (l3 ++ l4)))) ++ l7)).Nodup := by
  have rn : ∀ a m : Nat, (List.range' a m).Nodup := fun a m => List.nodup_range'
  have r : ∀ a m : Nat, ∀ z ∈ List.range' a m, a ≤ z ∧ z < a + m := fun a m z hz => mem_range'.1 hz
  have d : ∀ {xs ys : List Nat} {a b c e : Nat}, xs.Nodup → ys.Nodup → (∀ z ∈ xs, a ≤ z ∧ z < b) →
      (∀ z ∈ ys, c ≤ z ∧ z < e) → b ≤ c ∨ e ≤ a → (xs ++ ys).Nodup := by
    intro xs ys a b c e h h' hb hb' hle
    rw [List.nodup_append]
    refine ⟨h, h', fun x hx y hy e => ?_⟩
    subst e
    have := hb x hx
    have := hb' x hy
    omega
  have u : ∀ {xs ys : List Nat} {a b c e : Nat}, (∀ z ∈ xs, a ≤ z ∧ z < b) → (∀ z ∈ ys, c ≤ z ∧ z < e) →
      ∀ z ∈ xs ++ ys, min a c ≤ z ∧ z < max b e := by
    intro xs ys a b c e hb hb' z hz
    rcases List.mem_append.1 hz with hz | hz
    · have := hb z hz; omega
    · have := hb' z hz; omega
  have d34 := d h3 h4 b3 b4 (by omega)
  have u34 := u b3 b4
  have dt : (List.range' n4 k ++ List.range' (n1 + (k + 1) + (k + 1)) k ++ (l3 ++ l4)).Nodup := by
    rw [List.append_assoc]
    refine List.nodup_append.2 ⟨List.nodup_range', d List.nodup_range' d34 (r _ _) u34 (by omega), fun x hx y hy e => ?_⟩
    subst e
    have := r _ _ x hx
    rcases List.mem_append.1 hy with hy | hy
    · have := r _ _ x hy; omega
    · have := u34 x hy; omega
  have ut : ∀ z ∈ List.range' n4 k ++ List.range' (n1 + (k + 1) + (k + 1)) k ++ (l3 ++ l4),
      n1 + (k + 1) + (k + 1) ≤ z ∧ z < n4 + k := by
    intro z hz
    simp only [List.mem_append] at hz
    rcases hz with (hz | hz) | hz | hz
    · have := r _ _ z hz; omega
    · have := r _ _ z hz; omega
    · have := b3 z hz; omega
    · have := b4 z hz; omega
  have dg := d (rn (n1 + (k + 1)) (k + 1)) dt (r _ _) ut (by omega)
  have ug := u (r (n1 + (k + 1)) (k + 1)) ut
  have dh := d (rn (n1) (k + 1)) dg (r _ _) ug (by omega)
  have uh := u (r n1 (k + 1)) ug
  have di := d (rn (n4 + k) (k)) dh (r _ _) uh (by omega)
  have ui := u (r (n4 + k) k) uh
  have dj := d di h7 ui b7 (by omega)
  have uj := u ui b7
  exact d h1 dj b1 uj (by omega)

/-- What the stages produce. -/
structure Staged (A : List Out) (L : Loop) (n : Nat) (new : List Node) (os : List Out) (n' : Nat) : Prop where
  le : n ≤ n'
  wf : wfNodes A (nodesOf new) = true
  nodup : (namesNodes (nodesOf new)).Nodup
  names : ∀ z : Nat, z ∈ namesNodes (nodesOf new) → n ≤ z ∧ z < n'
  len : os.length = L.outs.length
  avail : ∀ o ∈ os, o ∈ A ++ (nodesOf new).outs
  eval : ∀ {V : Type} (sem : Sem V), sem.Mono → (∀ ws p, (L.step sem ws).headD none = some p → sem.ctl p.1 < 2) →
    ∀ F : Env V, (∀ x, LeW (F x) (F x)) → LeLW (nodeVals sem L.node F) (os.map (evalNodes sem (nodesOf new) F))

theorem stages_spec {A : List Out} {L : Loop} {n n' : Nat} {new : List Node} {os : List Out}
    (hw : wfNode A L.node = true) (hn : (namesNode L.node).Nodup) (hA : ∀ o ∈ A, o ∉ namesNode L.node)
    (hltA : ∀ z : Nat, z ∈ A → z < n) (hlt : ∀ z : Nat, z ∈ namesNode L.node → z < n)
    (hposts : ∀ o ∈ L.posts, o ∈ L.gouts) (hpred : L.gpred = L.pred) (h : stages L n = some (new, os, n')) :
    Staged A L n new os n' := by
  obtain ⟨ins, outs, args, pred, posts, before, gpred, gins, gouts, subs, after⟩ := L
  simp only at hposts hpred
  subst hpred
  simp only [stages] at h
  split at h
  rotate_left
  · simp at h
  rename_i a0 r0 s0 a1 r1 s1
  simp only [Option.bind_eq_some_iff, Option.map_eq_some_iff, Prod.mk.injEq, Loop.predicateNodes] at h
  obtain ⟨⟨ns1, m1, n1⟩, hc1, g, hg, ⟨ns3, m3, n3⟩, hc3, ps, hps, ⟨ns4, m4, n4⟩, hc4, q, hq, ⟨ns7, m7, n7⟩, hc7, os', hos,
    rfl, rfl, rfl⟩ := h
  simp only at hc1 hg hc3 hps hc4 hq hc7 hos
  simp only [Loop.node, Loop.body, Loop.gamma, wfNode, Bool.and_eq_true, beq_iff_eq, mem_subset] at hw
  simp only [Loop.node, Loop.body, Loop.gamma] at hn hA hlt
  obtain ⟨⟨⟨⟨⟨hwi, hli⟩, hla⟩, hlp⟩, hwb⟩, hwr⟩ := hw
  rw [wf_append] at hwb
  simp only [nodesOf, wfNodes, wfNode, wfRegions, Bool.and_eq_true, beq_iff_eq, mem_subset, and_true, Node.outs] at hwb
  obtain ⟨hwbef, ⟨hwg, ⟨⟨⟨hla0, hlr0⟩, hws0⟩, hwr0⟩, ⟨⟨hla1, hlr1⟩, hws1⟩, hwr1⟩, hwaft⟩ := hwb
  simp only [namesNode, names_append, nodesOf, namesNodes, namesRegions, List.append_nil] at hn hA hlt
  -- separation of names
  have hnd := hn
  simp only [List.nodup_append, List.mem_append] at hnd
  obtain ⟨⟨hno, hna, hoa⟩, ⟨hnb, ⟨⟨hngo, ⟨⟨hna0, hns0, hd0⟩, ⟨hna1, hns1, hd1⟩, hd01⟩, hdgo⟩, hnaf, hdga⟩, hdb⟩, hdar⟩ := hnd
  have hout : ∀ l : List Node, ∀ o ∈ (nodesOf l).outs, o ∈ namesNodes (nodesOf l) := fun l => outs_namesNodes _
  have hlt1 : ∀ z : Nat, z ∈ args → z < n := fun z hz => hlt z (by simp [hz])
  have hlti : ∀ z : Nat, z ∈ ins → z < n := fun z hz => hltA z (hwi z hz)
  -- the predicate nodes
  have hwpn : wfNodes (args ++ gouts) (nodesOf (before ++ after)) = true := by
    rw [wf_append]
    refine ⟨wf_mono (fun o ho => by simp [ho]) hwbef, wf_mono (fun o ho => ?_) hwaft⟩
    simp only [List.mem_append] at ho ⊢
    tauto
  have hnpn : (namesNodes (nodesOf (before ++ after))).Nodup := by
    rw [names_append, List.nodup_append]
    exact ⟨hnb, hnaf, fun a ha b hb e => hdb a ha b (.inr hb) e⟩
  have hspn : ∀ o ∈ args ++ gouts, o ∉ namesNodes (nodesOf (before ++ after)) := by
    intro o ho h'
    rw [names_append] at h'
    simp only [List.mem_append] at ho h'
    rcases ho with ho | ho <;> rcases h' with h' | h'
    · exact hdar o (.inr ho) o (.inl h') rfl
    · exact hdar o (.inr ho) o (.inr (.inr h')) rfl
    · exact hdb o h' o (.inl (.inl ho)) rfl
    · exact hdga o (.inl ho) o h' rfl
  have C1 := copyNodes_spec _ hwpn hnpn hspn hc1
  have C4 := copyNodes_spec _ hwpn hnpn hspn hc4
  have C3 := copyNodes_spec s1 hws1 hns1 (fun o ho h' => hd1 o ho o h' rfl) hc3
  have C7 := copyNodes_spec s0 hws0 hns0 (fun o ho h' => hd0 o ho o h' rfl) hc7
  have le1 := C1.le
  have le3 := C3.le
  have le4 := C4.le
  have le7 := C7.le
  -- values of the predicate nodes
  have hpn : ∀ {V : Type} (sem : Sem V) (E : Env V), ∀ o ∈ gpred :: gins,
      evalNodes sem (nodesOf (before ++ after)) E o = evalNodes sem (nodesOf before) E o := by
    intro V sem E o ho
    rw [eval_append]
    refine evalNodes_notin sem _ _ o fun h' => ?_
    have h1 := hwg o ho
    simp only [List.mem_append] at h1
    rcases h1 with h1 | h1
    · exact hdb o (hout before o h1) o (.inr (hout after o h')) rfl
    · exact hdar o (.inr h1) o (.inr (.inr (hout after o h'))) rfl
  have hpnA : ∀ o ∈ gpred :: gins, o ∈ (args ++ gouts) ++ (nodesOf (before ++ after)).outs := by
    intro o ho
    have h1 := hwg o ho
    simp only [outs_append, List.mem_append] at h1 ⊢
    tauto
  have lg := lookup_length hg
  have lq := lookup_length hq
  have lps := lookup_length hps
  have los := lookup_length hos
  simp only [List.length_cons, List.length_map] at lg lq lps los
  have eg : g.headD 0 :: g.tail = g := head_tail lg
  have eq : q.headD 0 :: q.tail = q := head_tail lq
  have hltps : ∀ z : Nat, z ∈ ps → z < n3 := by
    intro z hz
    obtain ⟨o, ho, hm⟩ := lookup_mem hps z hz
    obtain ⟨o', ho', rfl⟩ := List.mem_map.1 ho
    have hor := hwr1 _ (origin_mem hngo (by omega) (hposts o' ho'))
    have := C3.eval (V := Unit) ⟨fun _ _ => [], fun _ => 0, id, fun _ => (), 0⟩ (upd emptyEnv a1 (none :: (List.range' (n1 + (gins.length + 1) + (gins.length + 1)) gins.length).map emptyEnv)) emptyEnv
      (rel_branch hna1 (by simp [hla1]) fun x hx => by rw [mem_range'] at hx; omega) _ hor z hm
    exact this.1
  -- wf and names
  have hg1 : ∀ z ∈ g, z ∈ A ++ ns1.outs := by
    intro z hz
    obtain ⟨o, ho, hm⟩ := lookup_mem hg z hz
    by_cases h1 : o ∈ (nodesOf (before ++ after)).outs
    · obtain ⟨x, hx, hm'⟩ := C1.new o h1
      rw [hm] at hm'
      simp only [Option.some.injEq] at hm'
      subst hm'
      simp [hx]
    · rw [C1.old o h1] at hm
      rcases insertAll_cases (by omega) hm with ⟨_, k, _, h2⟩ | ⟨_, h2⟩
      · exact List.mem_append_left _ (hwi _ (List.mem_of_getElem? h2))
      · simp [SMap.empty] at h2
  have wf1 : wfNodes A ns1 = true := C1.wf A fun o _ x hx => by
    rcases insertAll_cases (by omega) hx with ⟨_, k, _, h2⟩ | ⟨_, h2⟩
    · exact hwi _ (List.mem_of_getElem? h2)
    · simp [SMap.empty] at h2
  have wf3 : wfNodes (List.range' (n1 + (gins.length + 1) + (gins.length + 1)) gins.length) ns3 = true :=
    C3.wf _ fun o _ x hx => by
      rcases insertAll_cases (by simp [hla1]) hx with ⟨_, k, _, h2⟩ | ⟨_, h2⟩
      · exact List.mem_of_getElem? h2
      · simp [SMap.empty] at h2
  have hps3 : ∀ z ∈ ps, z ∈ List.range' (n1 + (gins.length + 1) + (gins.length + 1)) gins.length ++ ns3.outs := by
    intro z hz
    obtain ⟨o, ho, hm⟩ := lookup_mem hps z hz
    by_cases h1 : o ∈ s1.outs
    · obtain ⟨x, hx, hm'⟩ := C3.new o h1
      rw [hm] at hm'
      simp only [Option.some.injEq] at hm'
      subst hm'
      simp [hx]
    · rw [C3.old o h1] at hm
      rcases insertAll_cases (by simp [hla1]) hm with ⟨_, k, _, h2⟩ | ⟨_, h2⟩
      · exact List.mem_append_left _ (List.mem_of_getElem? h2)
      · simp [SMap.empty] at h2
  have wf4 : wfNodes (ns3.outs ++ List.range' (n1 + (gins.length + 1) + (gins.length + 1)) gins.length) ns4 = true :=
    C4.wf _ fun o _ x hx => by
      rcases insertAll_cases (by omega) hx with ⟨_, k, _, h2⟩ | ⟨_, h2⟩
      · have := hps3 _ (List.mem_of_getElem? h2)
        simp only [List.mem_append] at this ⊢
        tauto
      · simp [SMap.empty] at h2
  have hq4 : ∀ z ∈ q, z ∈ List.range' (n1 + (gins.length + 1) + (gins.length + 1)) gins.length ++ (ns3.outs ++ ns4.outs) := by
    intro z hz
    obtain ⟨o, ho, hm⟩ := lookup_mem hq z hz
    by_cases h1 : o ∈ (nodesOf (before ++ after)).outs
    · obtain ⟨x, hx, hm'⟩ := C4.new o h1
      rw [hm] at hm'
      simp only [Option.some.injEq] at hm'
      subst hm'
      simp [hx]
    · rw [C4.old o h1] at hm
      rcases insertAll_cases (by omega) hm with ⟨_, k, _, h2⟩ | ⟨_, h2⟩
      · have := hps3 _ (List.mem_of_getElem? h2)
        simp only [List.mem_append] at this ⊢
        tauto
      · simp [SMap.empty] at h2
  have wf7 : wfNodes (List.range' (n4 + gins.length) gins.length) ns7 = true :=
    C7.wf _ fun o _ x hx => by
      rcases insertAll_cases (by simp [hla0]) hx with ⟨_, k, _, h2⟩ | ⟨_, h2⟩
      · exact List.mem_of_getElem? h2
      · simp [SMap.empty] at h2
  have hos7 : ∀ z ∈ os', z ∈ List.range' (n4 + gins.length) gins.length ++ ns7.outs := by
    intro z hz
    obtain ⟨o, ho, hm⟩ := lookup_mem hos z hz
    by_cases h1 : o ∈ s0.outs
    · obtain ⟨x, hx, hm'⟩ := C7.new o h1
      rw [hm] at hm'
      simp only [Option.some.injEq] at hm'
      subst hm'
      simp [hx]
    · rw [C7.old o h1] at hm
      rcases insertAll_cases (by simp [hla0]) hm with ⟨_, k, _, h2⟩ | ⟨_, h2⟩
      · exact List.mem_append_left _ (List.mem_of_getElem? h2)
      · simp [SMap.empty] at h2
  have nm1 := C1.names
  have nm3 := C3.names
  have nm4 := C4.names
  have nm7 := C7.names
  refine ⟨show n ≤ n7 by omega, ?_, ?_, ?_, show os'.length = outs.length by omega, ?_, ?_⟩
  · rw [wf_append]
    simp only [nodesOf, wfNodes, wfNode, wfRegions, Bool.and_eq_true, nodesOf_list, Node.outs, mem_subset, eg,
      List.length_tail, List.length_range', beq_iff_eq, List.append_nil, eq, Nodes.outs, and_true, true_and,
      List.length_append]
    refine ⟨wf1, ⟨⟨fun o ho => ?_, ⟨⟨by omega, by omega⟩, fun o ho => List.mem_of_mem_tail ho⟩, ⟨?_, ?_⟩⟩, ?_⟩⟩
    · have := hg1 o ho
      simp only [List.mem_append] at this ⊢
      tauto
    · refine ⟨by omega, ⟨⟨⟨fun o ho => List.mem_of_mem_tail ho, by omega⟩, by omega⟩, ?_⟩, fun o ho => ?_⟩
      · rw [wf_append]
        simp only [nodesOf_list]
        exact ⟨wf3, wf4⟩
      · have := hq4 o ho
        simpa only [outs_append, nodesOf_list] using this
    · intro o ho
      simp [ho]
    · exact wf_mono (fun o ho => by simp [ho]) wf7
  · rw [names_append]
    simp only [nodesOf, namesNodes, namesNode, namesRegions, nodesOf_list, names_append, List.append_nil]
    exact nodup_new C1.nodup C3.nodup C4.nodup C7.nodup nm1 nm3 nm4 nm7 le3 le4
  · intro z hz
    rw [names_append] at hz
    simp only [nodesOf, namesNodes, namesNode, namesRegions, nodesOf_list, names_append, List.append_nil,
      List.mem_append, mem_range', List.not_mem_nil, false_or] at hz
    show n ≤ z ∧ z < n7
    have h1 := nm1 z
    have h3 := nm3 z
    have h4 := nm4 z
    have h7 := nm7 z
    grind
  · intro o ho
    have := hos7 o ho
    simp only [outs_append, nodesOf, Nodes.outs, Node.outs, nodesOf_list, List.mem_append] at this ⊢
    tauto
  · intro V sem hm hctl F hF
    have hself : ∀ l : List Node, LeLW (os'.map (evalNodes sem (nodesOf l) F)) (os'.map (evalNodes sem (nodesOf l) F)) :=
      fun l => LeLW.map _ fun x _ => evalNodes_mono' hm _ hF x
    simp only [Loop.node, nodeVals]
    rcases loopVals_exit' (sem := sem) (f := fun ws => (gpred :: posts).map (evalNodes sem (nodesOf
      (Loop.body ⟨ins, outs, args, gpred, posts, before, gpred, gins, gouts, .cons a0 r0 s0 (.cons a1 r1 s1 .nil), after⟩))
        (upd emptyEnv args ws))) (init := ins.map F) with ⟨j, hj, hv⟩ | ⟨_, hv⟩
    rotate_left
    · rw [hv]; exact LeLW.nil_le (hself _)
    -- values of the copies
    have hP : ∀ (ws : List (W V)), ∀ o ∈ gpred :: gins,
        evalNodes sem (nodesOf (before ++ after)) (upd emptyEnv args ws) o =
          evalNodes sem (nodesOf before) (upd emptyEnv args ws) o := fun ws o ho => hpn sem _ o ho
    have v1 : g.map (evalNodes sem ns1 F) = (gpred :: gins).map (evalNodes sem (nodesOf before) (upd emptyEnv args (ins.map F))) := by
      rw [← List.map_congr_left (hP (ins.map F))]
      exact lookup_map hg fun o ho x hx => (C1.eval sem _ F (rel_ins hna (by omega) hlti) o (hpnA o ho) x hx).2
    have v4 : ∀ (c : W V) (es : List (W V)), es.length = gins.length →
        q.map (evalNodes sem (nodesOf (ns3.list ++ ns4.list))
          (upd emptyEnv (List.range' (n1 + (gins.length + 1) + (gins.length + 1)) gins.length) es)) =
        (gpred :: gins).map (evalNodes sem (nodesOf before) (upd emptyEnv args
          ((posts.map (origin gouts r1)).map (evalNodes sem s1 (upd emptyEnv a1 (c :: es)))))) := by
      intro c es hes
      rw [eval_append]
      simp only [nodesOf_list]
      set T := evalNodes sem ns3 (upd emptyEnv (List.range' (n1 + (gins.length + 1) + (gins.length + 1)) gins.length) es) with hT
      have hps' : ps.map T = (posts.map (origin gouts r1)).map (evalNodes sem s1 (upd emptyEnv a1 (c :: es))) := by
        refine lookup_map hps fun o ho x hx => ?_
        obtain ⟨o', ho', rfl⟩ := List.mem_map.1 ho
        have hor := hwr1 _ (origin_mem hngo (by omega) (hposts o' ho'))
        have hrel := rel_branch (B := a1) (c := c)
          (F := upd emptyEnv (List.range' (n1 + (gins.length + 1) + (gins.length + 1)) gins.length) es)
          (n := n1 + (gins.length + 1) + (gins.length + 1) + gins.length) hna1
          (ins := List.range' (n1 + (gins.length + 1) + (gins.length + 1)) gins.length) (by simp [hla1])
          fun x hx => by rw [mem_range'] at hx; omega
        rw [map_upd_self List.nodup_range' (by simp [hes])] at hrel
        exact (C3.eval sem _ _ hrel _ hor x hx).2
      rw [← hps', ← List.map_congr_left (hP (ps.map T))]
      exact lookup_map hq fun o ho x hx => (C4.eval sem _ T (rel_ins hna (by omega) hltps) o (hpnA o ho) x hx).2
    have hfeq : ∀ ws : List (W V), (gpred :: posts).map (evalNodes sem (nodesOf
        (Loop.body ⟨ins, outs, args, gpred, posts, before, gpred, gins, gouts, .cons a0 r0 s0 (.cons a1 r1 s1 .nil), after⟩))
          (upd emptyEnv args ws)) =
        evalNodes sem (nodesOf before) (upd emptyEnv args ws) gpred ::
          posts.map (upd (evalNodes sem (nodesOf before) (upd emptyEnv args ws)) gouts
            (nodeVals sem (.gamma gpred gins gouts (.cons a0 r0 s0 (.cons a1 r1 s1 .nil)))
              (evalNodes sem (nodesOf before) (upd emptyEnv args ws)))) := by
      intro ws
      simp only [Loop.body, Loop.gamma, eval_append, nodesOf, evalNodes, List.map_cons, Node.outs]
      have hpa := hwg gpred (by simp)
      simp only [List.mem_append] at hpa
      congr 1
      · rw [evalNodes_notin sem _ _ gpred, upd_notin]
        · intro h'
          rcases hpa with h1 | h1
          · exact hdb _ (hout before _ h1) _ (.inl (.inl h')) rfl
          · exact hdar _ (.inr h1) _ (.inr (.inl (.inl h'))) rfl
        · intro h'
          rcases hpa with h1 | h1
          · exact hdb _ (hout before _ h1) _ (.inr (hout after _ h')) rfl
          · exact hdar _ (.inr h1) _ (.inr (.inr (hout after _ h'))) rfl
      · refine List.map_congr_left fun o ho => ?_
        exact evalNodes_notin sem _ _ o fun h' => hdga o (.inl (hposts o ho)) o (hout after o h') rfl
    obtain ⟨p, c, hp1, hfin, hz, hpos⟩ := loop_core (sem := sem)
      (f := fun ws => (gpred :: posts).map (evalNodes sem (nodesOf (Loop.body ⟨ins, outs, args, gpred, posts, before,
        gpred, gins, gouts, .cons a0 r0 s0 (.cons a1 r1 s1 .nil), after⟩)) (upd emptyEnv args ws)))
      (P := fun ws o => evalNodes sem (nodesOf before) (upd emptyEnv args ws) o)
      (S0 := fun c es => (posts.map (origin gouts r0)).map (evalNodes sem s0 (upd emptyEnv a0 (c :: es))))
      (S1 := fun c es => (posts.map (origin gouts r1)).map (evalNodes sem s1 (upd emptyEnv a1 (c :: es))))
      (pred := gpred) (gins := gins) hctl (fun ws => by simp only [hfeq, List.headD_cons]) (fun ws p hp hc => by
        simp only [hfeq, List.tail_cons, List.map_map]
        refine List.map_congr_left fun o ho => ?_
        simp only [nodeVals, hp, hc, regionVals, Function.comp]
        exact origin_val hngo (by omega) (hposts o ho)) (fun ws p hp hc => by
        simp only [hfeq, List.tail_cons, List.map_map]
        refine List.map_congr_left fun o ho => ?_
        simp only [nodeVals, hp, hc, regionVals, Function.comp]
        exact origin_val hngo (by omega) (hposts o ho)) v4 hj
    rw [hv, hfin]
    have hle : ∀ {xs ys : List (W V)}, LeLW ys ys → ys = xs → LeLW xs ys := fun h e => by rw [← e]; exact h
    refine hle (hself _) ?_
    simp only [eval_append, nodesOf, evalNodes, nodesOf_list, Node.outs]
    have e1 : evalNodes sem ns1 F (g.headD 0) = some p := by
      rw [← eg, List.map_cons, List.map_cons] at v1
      exact (List.cons.inj v1).1.trans hp1
    have e2 : g.tail.map (evalNodes sem ns1 F) = gins.map (evalNodes sem (nodesOf before) (upd emptyEnv args (ins.map F))) := by
      rw [← eg, List.map_cons, List.map_cons] at v1
      exact (List.cons.inj v1).2
    set F1 := evalNodes sem ns1 F with hF1
    set vs := nodeVals sem (.gamma (g.headD 0) g.tail (List.range' (n4 + gins.length) gins.length)
      (.cons (List.range' n1 (gins.length + 1)) (List.range' n1 (gins.length + 1)).tail .nil
        (.cons (List.range' (n1 + (gins.length + 1)) (gins.length + 1)) (List.range' n4 gins.length)
          (.cons (.theta (List.range' (n1 + (gins.length + 1)) (gins.length + 1)).tail (List.range' n4 gins.length)
            (List.range' (n1 + (gins.length + 1) + (gins.length + 1)) gins.length) (q.headD 0) q.tail
            (nodesOf (ns3.list ++ ns4.list))) .nil) .nil))) F1 with hvs
    have e3 : vs = gins.map (evalNodes sem (nodesOf before) (upd emptyEnv args (loopState (fun ws =>
        (gpred :: posts).map (evalNodes sem (nodesOf (Loop.body ⟨ins, outs, args, gpred, posts, before, gpred, gins, gouts,
          .cons a0 r0 s0 (.cons a1 r1 s1 .nil), after⟩)) (upd emptyEnv args ws))) (ins.map F) j))) := by
      rw [hvs]
      simp only [nodeVals, e1, e2]
      rcases Nat.eq_zero_or_pos j with h0 | h0
      · subst h0
        rw [hz rfl]
        simp only [regionVals, evalNodes, loopState]
        exact map_tail List.nodup_range' (by simp)
      · obtain ⟨h4, h5⟩ := hpos h0
        rw [h4]
        simp only [regionVals, evalNodes, Node.outs, nodeVals]
        rw [map_tail List.nodup_range' (by simp), eq, h5]
        exact map_upd_self List.nodup_range' (by simp)
    have hlv : vs.length = gins.length := by rw [e3]; simp
    have e4 : (List.range' (n4 + gins.length) gins.length).map (upd F1 (List.range' (n4 + gins.length) gins.length) vs) = vs :=
      map_upd_self List.nodup_range' (by simp [hlv])
    rw [← e3, ← e4]
    refine lookup_map hos fun o ho x hx => ?_
    obtain ⟨o', ho', rfl⟩ := List.mem_map.1 ho
    have hor := hwr0 _ (origin_mem hngo (by omega) (hposts o' ho'))
    have hrel := rel_branch (B := a0) (c := c) (F := upd F1 (List.range' (n4 + gins.length) gins.length) vs)
      (n := n4 + gins.length + gins.length) hna0 (ins := List.range' (n4 + gins.length) gins.length) (by simp [hla0])
      fun x hx => by rw [mem_range'] at hx; omega
    rw [e4] at hrel ⊢
    exact (C7.eval sem _ _ hrel _ hor x hx).2

end Jlm.Opt.Unswitch
