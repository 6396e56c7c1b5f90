import Verif.Rvsdg.PredTraceTheorems

/-!
# Examples for the region predicate trace

Graphs and executions are given as lists. That they are well-formed is checked by evaluation of conditions on the lists.
-/

set_option linter.unusedVariables false
set_option linter.unusedSimpArgs false

namespace Jlm.Rvsdg.PredTrace.Ex

open Jlm.Rvsdg.Tracer (Nd Rg Out)

/-! ## Graphs from lists -/

structure NodeInfo where
  kind : Kind
  region : Rg
  nsub : Nat
  /-- where it starts and ends in the text -/
  s : Nat
  e : Nat
  depth : Nat

abbrev Nodes := List (Nd × NodeInfo)
abbrev Edges := List (Inp × Out × Nat)

def Nodes.info (N : Nodes) (n : Nd) : NodeInfo := (N.lookup n).getD ⟨.simple, none, 0, 0, 1, 0⟩

def mk (N : Nodes) (D : Edges) : Graph where
  kind n := (N.info n).kind
  region n := (N.info n).region
  nsub n := (N.info n).nsub
  origin i := ((D.lookup i).map (·.1)).getD (.arg none 0)
  ctl i := (D.lookup i).map (·.2)

def rankOf (N : Nodes) : Out → Nat
  | .arg none _ => 0
  | .arg (some (n, _)) _ => (N.info n).s
  | .out n _ => (N.info n).e

def depthOf (N : Nodes) : Rg → Nat
  | none => 0
  | some (n, _) => (N.info n).depth + 1

def nodeOk (N : Nodes) (D : Edges) (n : Nd) (I : NodeInfo) : Bool :=
  decide (I.s < I.e) && decide (I.depth = depthOf N I.region) &&
  (match I.region with
    | none => true
    | some (m, _) => decide ((N.info m).s < I.s) && decide (I.e < (N.info m).e)) &&
  (match I.kind with
    | .gamma => decide ((mk N D).ctl (.inp n 0) = some I.nsub)
    | _ => true)

def edgeOk (N : Nodes) (D : Edges) (i : Inp) (o : Out) (c : Nat) : Bool :=
  let G := mk N D
  decide (G.regionO o = G.regionI i) &&
  (match i with
    | .inp n _ => decide (rankOf N o < (N.info n).s)
    | _ => true) &&
  (match o with
    | .out n x =>
        match G.kind n with
        | .gamma => (List.range (G.nsub n)).all fun k => decide (G.ctl (.res (some (n, k)) x) = some c)
        | .theta => decide (G.ctl (.inp n x) = some c) && decide (G.ctl (.res (some (n, 0)) (x + 1)) = some c)
        | .const m v => decide (m = c) && decide (v < c)
        | _ => true
    | .arg none _ => true
    | .arg (some (n, k)) a =>
        match G.kind n with
        | .gamma => decide (a = 0) || decide (G.ctl (.inp n a) = some c)
        | .theta => decide (k = 0) && decide (G.ctl (.inp n a) = some c) && decide (G.ctl (.res (some (n, k)) (a + 1)) = some c)
        | _ => true)

def graphOk (N : Nodes) (D : Edges) : Bool :=
  (N.all fun p => nodeOk N D p.1 p.2) && D.all fun p => edgeOk N D p.1 p.2.1 p.2.2

theorem mem_of_lookup {K V : Type} [BEq K] [LawfulBEq K] {l : List (K × V)} {k : K} {v : V} (h : l.lookup k = some v) : (k, v) ∈ l := by
  induction l with
  | nil => simp at h
  | cons e l ih =>
    obtain ⟨k', v'⟩ := e
    by_cases hk : k = k'
    · subst hk; simp [List.lookup] at h; subst h; simp
    · have hb : (k == k') = false := by simp [hk]
      simp only [List.lookup, hb] at h
      exact List.mem_cons_of_mem _ (ih h)

section
variable {N : Nodes} {D : Edges}

theorem info_cases (h : graphOk N D = true) (n : Nd) : nodeOk N D n (N.info n) = true ∨
    N.info n = ⟨.simple, none, 0, 0, 1, 0⟩ := by
  rw [graphOk, Bool.and_eq_true] at h
  cases hl : N.lookup n with
  | none => exact .inr (by rw [Nodes.info, hl]; rfl)
  | some I =>
    have := List.all_eq_true.mp h.1 _ (mem_of_lookup hl)
    exact .inl (by rw [Nodes.info, hl]; exact this)

theorem node_basic (h : graphOk N D = true) (n : Nd) : (N.info n).s < (N.info n).e ∧ (N.info n).depth = depthOf N (N.info n).region ∧
    ∀ m k, (N.info n).region = some (m, k) → (N.info m).s < (N.info n).s ∧ (N.info n).e < (N.info m).e := by
  rcases info_cases h n with hn | hn
  · simp only [nodeOk, Bool.and_eq_true, decide_eq_true_eq] at hn
    obtain ⟨⟨⟨h1, h2⟩, h3⟩, _⟩ := hn
    refine ⟨h1, h2, fun m k hm => ?_⟩
    rw [hm] at h3
    simpa using h3
  · rw [hn]; simp [depthOf]

theorem edge_ok (h : graphOk N D = true) {i : Inp} {c : Nat} (hc : (mk N D).ctl i = some c) :
    edgeOk N D i ((mk N D).origin i) c = true := by
  rw [graphOk, Bool.and_eq_true] at h
  cases hl : D.lookup i with
  | none => simp [mk, hl] at hc
  | some oc =>
    obtain ⟨o, c'⟩ := oc
    simp [mk, hl] at hc; subst hc
    have := List.all_eq_true.mp h.2 _ (mem_of_lookup hl)
    have ho : (mk N D).origin i = o := by simp [mk, hl]
    rw [ho]; exact this

theorem sub_rank (h : graphOk N D = true) {r w : Rg} (hs : Sub (mk N D) r w) : ∀ n k, w = some (n, k) →
    ∃ m l, r = some (m, l) ∧ (N.info n).s ≤ (N.info m).s ∧ (N.info m).e ≤ (N.info n).e := by
  induction hs with
  | refl r => rintro n k rfl; exact ⟨n, k, rfl, Nat.le_refl _, Nat.le_refl _⟩
  | up m l w _ ih =>
    intro n k hw
    obtain ⟨m', l', h1, h2, h3⟩ := ih n k hw
    have := (node_basic h m).2.2 m' l' h1
    exact ⟨m, l, rfl, by omega, by omega⟩

theorem nested (h : graphOk N D = true) {o : Out} {n : Nd} {k : Nat} (hs : Sub (mk N D) ((mk N D).regionO o) (some (n, k))) :
    (N.info n).s ≤ rankOf N o ∧ rankOf N o < (N.info n).e := by
  obtain ⟨m, l, h1, h2, h3⟩ := sub_rank h hs n k rfl
  have hb := node_basic h m
  cases o with
  | arg r a =>
    change r = _ at h1
    subst h1
    exact ⟨h2, by show (N.info m).s < _; omega⟩
  | out p x =>
    have hp := node_basic h p
    have := hp.2.2 m l h1
    change (N.info n).s ≤ (N.info p).e ∧ (N.info p).e < _
    omega

theorem wf_of (h : graphOk N D = true) : (mk N D).Wf (rankOf N) (depthOf N) := by
  have inp : ∀ n j c, (mk N D).ctl (.inp n j) = some c → rankOf N ((mk N D).origin (.inp n j)) < (N.info n).s := by
    intro n j c hc
    have := edge_ok h hc
    simp only [edgeOk, Bool.and_eq_true, decide_eq_true_eq] at this
    exact this.1.2
  refine ⟨?_, ?_, ?_, ?_, ?_, ?_, ?_, ?_, ?_, ?_, ?_⟩
  · intro n k
    change (N.info n).depth + 1 = depthOf N (N.info n).region + 1
    rw [(node_basic h n).2.1]
  · intro i c hc
    have := edge_ok h hc
    simp only [edgeOk, Bool.and_eq_true, decide_eq_true_eq] at this
    exact this.1.1
  · intro n j c x hc
    have := inp n j c hc
    have hb := (node_basic h n).1
    show _ < (N.info n).e
    omega
  · intro n j c k o hc hs
    have := inp n j c hc
    have := (nested h hs).1
    omega
  · intro n k o x hs
    exact (nested h hs).2
  · intro n hk
    change (N.info n).kind = .gamma at hk
    rcases info_cases h n with hn | hn
    · simp only [nodeOk, Bool.and_eq_true, hk, decide_eq_true_eq] at hn
      exact hn.2
    · rw [hn] at hk; cases hk
  · intro i c n x k hc ho hk hlt
    have := edge_ok h hc
    simp only [edgeOk, ho, hk, Bool.and_eq_true, List.all_eq_true, List.mem_range, decide_eq_true_eq] at this
    exact this.2 k hlt
  · intro i c n k a hc ho hk ha
    have := edge_ok h hc
    simp only [edgeOk, ho, hk, Bool.and_eq_true, Bool.or_eq_true, decide_eq_true_eq] at this
    exact this.2.resolve_left ha
  · intro i c n x hc ho hk
    have := edge_ok h hc
    simp only [edgeOk, ho, hk, Bool.and_eq_true, decide_eq_true_eq] at this
    exact this.2
  · intro i c n k a hc ho hk
    have := edge_ok h hc
    simp only [edgeOk, ho, hk, Bool.and_eq_true, decide_eq_true_eq] at this
    exact ⟨this.2.1.1, this.2.1.2, this.2.2⟩
  · intro i c n x m v hc ho hk
    have := edge_ok h hc
    simp only [edgeOk, ho, hk, Bool.and_eq_true, decide_eq_true_eq] at this
    exact this.2

theorem bounded (f : Nat) (hf : 1 < f) (h : (N.all fun p => decide (p.2.e < f) && decide (p.2.s < f) && decide (p.2.depth + 1 < f)) = true) :
    (∀ o, rankOf N o < f) ∧ ∀ r, depthOf N r < f := by
  have key : ∀ n, (N.info n).e < f ∧ (N.info n).s < f ∧ (N.info n).depth + 1 < f := by
    intro n
    cases hl : N.lookup n with
    | none => rw [Nodes.info, hl]; simp; omega
    | some I =>
      have := List.all_eq_true.mp h _ (mem_of_lookup hl)
      simp only [Bool.and_eq_true, decide_eq_true_eq] at this
      rw [Nodes.info, hl]
      exact ⟨this.1.1, this.1.2, this.2⟩
  constructor
  · intro o
    cases o with
    | arg r a =>
      cases r with
      | none => show 0 < f; omega
      | some p => exact (key p.1).2.1
    | out n x => exact (key n).1
  · intro r
    cases r with
    | none => show 0 < f; omega
    | some p => exact (key p.1).2.2

end

/-! ## Executions from lists -/

structure Inst where
  rg : Rg
  up : Nat
  last : Bool
  iter : Nat
  vals : List (Out × Nat)

def Insts.get (L : List Inst) (i : Nat) : Inst := L.getD i ⟨none, 0, true, 0, []⟩

def exec (L : List Inst) : Exec where
  I := Nat
  rg i := (Insts.get L i).rg
  up i := (Insts.get L i).up
  val i o := (Insts.get L i).vals.lookup o
  last i := (Insts.get L i).last = true
  iter i := (Insts.get L i).iter

def instOk (G : Graph) (D : Edges) (L : List Inst) (i : Nat) : Bool :=
  let E := fun i => Insts.get L i
  let val := fun i o => (E i).vals.lookup o
  let all := fun (p : Nat → Bool) => (List.range L.length).all p
  let any := fun (p : Nat → Bool) => (List.range L.length).any p
  -- entry of the instance
  (match (E i).rg with
    | none => true
    | some (n, k) =>
        decide ((E (E i).up).rg = G.region n) &&
        (match G.kind n with
          | .gamma =>
              decide (val (E i).up (G.origin (.inp n 0)) = some k) && decide (k < G.nsub n) &&
              (all fun j => decide (j = i) || decide ((E j).rg ≠ some (n, k)) || decide ((E j).up ≠ (E i).up)) &&
              D.all fun d => match d.1 with
                | .inp m a => decide (m ≠ n) || decide (a = 0) ||
                    decide (val i (.arg (some (n, k)) a) = val (E i).up (G.origin (.inp n a)))
                | _ => true
          | .theta =>
              (decide (k = 0) && (all fun j => decide (j = i) || decide ((E j).rg ≠ some (n, 0)) || decide ((E j).up ≠ (E i).up) ||
                !(E i).last || !(E j).last)) &&
              ((D.all fun d => match d.1 with
                | .inp m a => decide (m ≠ n) || decide (val i (.arg (some (n, 0)) a) = val (E i).up (G.origin (.inp n a)))
                | _ => true) ||
               any fun j => decide ((E j).rg = some (n, 0)) && decide ((E j).up = (E i).up) && decide ((E j).iter < (E i).iter) &&
                D.all fun d => match d.1 with
                  | .inp m a => decide (m ≠ n) ||
                      decide (val i (.arg (some (n, 0)) a) = val j (G.origin (.res (some (n, 0)) (a + 1))))
                  | _ => true)
          | _ => true)) &&
  -- values in the instance
  ((E i).vals.all fun p => match p.1 with
    | .out n x =>
        decide ((E i).rg ≠ G.region n) ||
        match G.kind n with
        | .gamma =>
            (any fun j => (match (E j).rg with
              | some (m, _) => decide (m = n)
              | none => false) && decide ((E j).up = i)) &&
            all fun j => match (E j).rg with
              | some (m, k) => decide (m ≠ n) || decide ((E j).up ≠ i) || decide (val j (G.origin (.res (some (n, k)) x)) = val i p.1)
              | none => true
        | .theta =>
            (any fun j => decide ((E j).rg = some (n, 0)) && decide ((E j).up = i) && (E j).last) &&
            all fun j => decide ((E j).rg ≠ some (n, 0)) || decide ((E j).up ≠ i) || !(E j).last ||
              decide (val j (G.origin (.res (some (n, 0)) (x + 1))) = val i p.1)
        | .const _ v => decide (val i p.1 = some v)
        | _ => true
    | _ => true) &&
  (D.all fun d => decide ((E i).rg ≠ G.regionI d.1) || match G.ctl d.1, val i (G.origin d.1) with
    | some c, some v => decide (v < c)
    | _, _ => true)

def execOk (G : Graph) (D : Edges) (L : List Inst) : Bool := (List.range L.length).all fun i => instOk G D L i

theorem get_junk {L : List Inst} {i : Nat} (h : ¬ i < L.length) : Insts.get L i = ⟨none, 0, true, 0, []⟩ := by
  rw [Insts.get, List.getD_eq_getElem?_getD, List.getElem?_eq_none (by omega)]; rfl

theorem lt_of_rg {L : List Inst} {i : Nat} {p : Nd × Nat} (h : (Insts.get L i).rg = some p) : i < L.length := by
  by_cases hi : i < L.length
  · exact hi
  · rw [get_junk hi] at h; cases h

theorem lt_of_val {L : List Inst} {i : Nat} {o : Out} {v : Nat} (h : (Insts.get L i).vals.lookup o = some v) : i < L.length := by
  by_cases hi : i < L.length
  · exact hi
  · rw [get_junk hi] at h; cases h

theorem ctl_mem {N : Nodes} {D : Edges} {i : Inp} {c : Nat} (h : (mk N D).ctl i = some c) : ∃ oc, (i, oc) ∈ D := by
  cases hl : D.lookup i with
  | none => simp [mk, hl] at h
  | some oc => exact ⟨oc, mem_of_lookup hl⟩

theorem exec_of {N : Nodes} {D : Edges} {L : List Inst} (h : execOk (mk N D) D L = true) : (exec L).Of (mk N D) := by
  have at' : ∀ i, i < L.length → instOk (mk N D) D L i = true := fun i hi => List.all_eq_true.mp h i (List.mem_range.mpr hi)
  have entry := fun i (hi : i < L.length) => by
    have := at' i hi
    rw [instOk, Bool.and_eq_true, Bool.and_eq_true] at this
    exact this
  refine ⟨?_, ?_, ?_, ?_, ?_, ?_, ?_, ?_, ?_, ?_⟩
  · intro i n k hr
    have := (entry i (lt_of_rg hr)).1.1
    change (Insts.get L i).rg = some (n, k) at hr
    simp only [hr, Bool.and_eq_true, decide_eq_true_eq] at this
    exact this.1
  · intro i n k hr hk
    have := (entry i (lt_of_rg hr)).1.1
    change (Insts.get L i).rg = some (n, k) at hr
    simp only [hr, hk, Bool.and_eq_true, decide_eq_true_eq] at this
    exact this.2.1.1
  · intro i j n k hr hr' hk hu
    have := (entry i (lt_of_rg hr)).1.1
    have hj := lt_of_rg hr'
    change (Insts.get L i).rg = some (n, k) at hr
    change (Insts.get L j).rg = some (n, k) at hr'
    change (Insts.get L i).up = (Insts.get L j).up at hu
    simp only [hr, hk, Bool.and_eq_true, decide_eq_true_eq, List.all_eq_true, List.mem_range, Bool.or_eq_true] at this
    rcases this.2.1.2 j hj with (h1 | h1) | h1
    · exact h1.symm
    · exact absurd hr' h1
    · exact absurd hu.symm h1
  · intro i n k a c hr hk ha hc
    have := (entry i (lt_of_rg hr)).1.1
    change (Insts.get L i).rg = some (n, k) at hr
    simp only [hr, hk, Bool.and_eq_true, decide_eq_true_eq, List.all_eq_true] at this
    obtain ⟨oc, hm⟩ := ctl_mem hc
    have := this.2.2 _ hm
    simp only [Bool.or_eq_true, decide_eq_true_eq] at this
    rcases this with (h1 | h1) | h1
    · exact absurd rfl h1
    · exact absurd h1 ha
    · exact h1
  · intro p n x v hp hk hv
    have := (entry p (lt_of_val hv)).1.2
    have hm := mem_of_lookup hv
    change (Insts.get L p).rg = (mk N D).region n at hp
    change (Insts.get L p).vals.lookup (.out n x) = some v at hv
    have := List.all_eq_true.mp this _ hm
    simp only [hk, Bool.or_eq_true, Bool.and_eq_true, decide_eq_true_eq, List.all_eq_true, List.any_eq_true, List.mem_range] at this
    rcases this with h1 | ⟨⟨j, hj, h1, h2⟩, h3⟩
    · exact absurd hp h1
    · constructor
      · cases hr : (Insts.get L j).rg with
        | none => rw [hr] at h1; cases h1
        | some q =>
          rw [hr] at h1
          obtain ⟨m, k⟩ := q
          simp at h1; subst h1
          exact ⟨j, k, hr, h2⟩
      · intro i k hr hu
        have := h3 i (lt_of_rg hr)
        change (Insts.get L i).rg = some (n, k) at hr
        change (Insts.get L i).up = p at hu
        simp only [hr, Bool.or_eq_true, decide_eq_true_eq] at this
        rcases this with (h1 | h1) | h1
        · exact absurd rfl h1
        · exact absurd hu h1
        · rw [hv] at h1; exact h1
  · intro i n hr hk
    have := (entry i (lt_of_rg hr)).1.1
    change (Insts.get L i).rg = some (n, 0) at hr
    simp only [hr, hk, Bool.and_eq_true, decide_eq_true_eq, List.all_eq_true, List.any_eq_true, List.mem_range, Bool.or_eq_true] at this
    rcases this.2.2 with h1 | ⟨j, hj, ⟨⟨h2, h3⟩, h4⟩, h5⟩
    · refine .inl fun a c hc => ?_
      obtain ⟨oc, hm⟩ := ctl_mem hc
      have := h1 _ hm
      simp only [Bool.or_eq_true, decide_eq_true_eq] at this
      rcases this with h | h
      · exact absurd rfl h
      · exact h
    · refine .inr ⟨j, h2, h3, h4, fun a c hc => ?_⟩
      obtain ⟨oc, hm⟩ := ctl_mem hc
      have := h5 _ hm
      simp only [Bool.or_eq_true, decide_eq_true_eq] at this
      rcases this with h | h
      · exact absurd rfl h
      · exact h
  · intro i j n hr hr' hk hu hl hl'
    have := (entry i (lt_of_rg hr)).1.1
    have hj := lt_of_rg hr'
    change (Insts.get L i).rg = some (n, 0) at hr
    change (Insts.get L j).rg = some (n, 0) at hr'
    change (Insts.get L i).up = (Insts.get L j).up at hu
    change (Insts.get L i).last = true at hl
    change (Insts.get L j).last = true at hl'
    simp only [hr, hk, hl, Bool.and_eq_true, decide_eq_true_eq, List.all_eq_true, List.mem_range, Bool.or_eq_true] at this
    rcases this.2.1.2 j hj with (((h1 | h1) | h1) | h1) | h1
    · exact h1.symm
    · exact absurd hr' h1
    · exact absurd hu.symm h1
    · cases h1
    · rw [hl'] at h1; cases h1
  · intro p n x v hp hk hv
    have := (entry p (lt_of_val hv)).1.2
    have hm := mem_of_lookup hv
    change (Insts.get L p).rg = (mk N D).region n at hp
    change (Insts.get L p).vals.lookup (.out n x) = some v at hv
    have := List.all_eq_true.mp this _ hm
    simp only [hk, Bool.or_eq_true, Bool.and_eq_true, decide_eq_true_eq, List.all_eq_true, List.any_eq_true, List.mem_range] at this
    rcases this with h1 | ⟨⟨j, hj, ⟨h1, h2⟩, h2'⟩, h3⟩
    · exact absurd hp h1
    · refine ⟨⟨j, h1, h2, h2'⟩, fun i hr hu hl => ?_⟩
      have := h3 i (lt_of_rg hr)
      change (Insts.get L i).rg = some (n, 0) at hr
      change (Insts.get L i).up = p at hu
      change (Insts.get L i).last = true at hl
      simp only [hr, hl] at this
      rcases this with ((h1 | h1) | h1) | h1
      · exact absurd rfl h1
      · exact absurd hu h1
      · cases h1
      · rw [hv] at h1; exact h1
  · intro i n x m v w hr hk hv
    have := (entry i (lt_of_val hv)).1.2
    have hm := mem_of_lookup hv
    change (Insts.get L i).rg = (mk N D).region n at hr
    change (Insts.get L i).vals.lookup (.out n x) = some w at hv
    have := List.all_eq_true.mp this _ hm
    simp only [hk, hv, Bool.or_eq_true, decide_eq_true_eq] at this
    rcases this with h1 | h1
    · exact absurd hr h1
    · cases h1; rfl
  · intro i j c v hr hc hv
    have := (entry i (lt_of_val hv)).2
    obtain ⟨oc, hm⟩ := ctl_mem hc
    change (Insts.get L i).rg = (mk N D).regionI j at hr
    change (Insts.get L i).vals.lookup _ = some v at hv
    have := List.all_eq_true.mp this _ hm
    simp only [hc, hv, Bool.or_eq_true, decide_eq_true_eq] at this
    rcases this with h1 | h1
    · exact absurd hr h1
    · exact h1

end Jlm.Rvsdg.PredTrace.Ex
