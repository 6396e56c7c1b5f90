import Verif.Opt.IobeProps
set_option linter.unusedVariables false
set_option linter.unusedSimpArgs false
/-
C61: the elimination of I/O barriers.
-/
namespace Jlm.Opt.Iobe
variable {G : Graph}

theorem barred_unique {n b b' : Nat} (h : Barred G n b) (h' : Barred G n b') : b = b' := by
  rw [barred_iff] at h h'; rw [h] at h'; exact Option.some.inj h'

theorem loses_unique {n b b' : Nat} (h : Loses G n b) (h' : Loses G n b') : b = b' := by
  obtain ⟨_, _, _, h, _⟩ := h
  obtain ⟨_, _, _, h', _⟩ := h'
  exact barred_unique h h'

/-- **C61, exactness.** The pass changes nothing but the addresses of loads. A load that is seen loses
its barrier exactly if some seen load of at least its size reads from the same address without a barrier,
or through a barrier on the I/O argument of a function. Its new address is the value behind the barrier. -/
theorem C61_exact (G : Graph) (rank : Nat → Nat) (T : Tree G rank) (order : Nat → List Nat)
    (ho : ∀ r n, n ∈ order r ↔ n ∈ G.nodes r) (fuel : Nat) (hf : rank 0 < fuel) :
    Alike G (eliminate G order fuel) ∧
    ∀ n, (∀ b, Loses G n b → (eliminate G order fuel).inp n = (G.inp n).set 0 (G.addr b)) ∧
      ((∀ b, ¬Loses G n b) → (eliminate G order fuel).inp n = G.inp n) := by
  generalize hc : markRegion G order fuel 0 (fun _ => none) = c
  have hm : ∀ o size, Has c o size ↔ ∃ n, Seen G n ∧ Says G n o size := by
    intro o size
    rw [← hc, has_markRegion ho T.rank fuel 0 _ hf]
    constructor
    · rintro (⟨z, h, _⟩ | ⟨s, n, h1, h2, h3⟩)
      · cases h
      · exact ⟨n, ⟨s, h1, h2⟩, h3⟩
    · rintro ⟨n, ⟨s, h1, h2⟩, h3⟩
      exact Or.inr ⟨s, n, h1, h2, h3⟩
  have he : eliminate G order fuel = (walk G.op G.nodes fuel 0).foldl (sweepNode c) G := by
    unfold eliminate
    rw [hc, sweepRegion_walk]
  rw [he]
  refine ⟨fold_alike c _ G, fun n => ?_⟩
  rw [fold_inp c G _ (walk_nodup T fuel 0 hf) G .refl (fun _ _ => rfl) n]
  have hw := mem_walk T.rank fuel 0 n hf
  constructor
  · intro b hl
    obtain ⟨⟨r, h1, h2⟩, z, h3, h4, m, h5, h6⟩ := hl
    rw [if_pos (hw.2 ⟨r, h1, h2, by rw [h3]; simp⟩)]
    obtain ⟨y, hy, hz⟩ := (hm _ _).2 ⟨m, h5, h6⟩
    unfold sweepNode
    rw [h3]
    dsimp only
    unfold sweepLoad
    rw [barred_iff.1 h4]
    dsimp only
    rw [hy]
    dsimp only
    rw [if_neg (by omega)]
    show (if n = n then _ else _) = _
    rw [if_pos rfl]
  · intro hl
    split
    · rename_i hin
      obtain ⟨r, h1, h2, _⟩ := hw.1 hin
      unfold sweepNode
      cases hk : G.op n with
      | load z =>
        dsimp only
        unfold sweepLoad
        cases hb : G.barrier? (G.addr n) with
        | none => rfl
        | some b =>
          dsimp only
          cases hcb : c (G.addr b) with
          | none => rfl
          | some y =>
            dsimp only
            by_cases hlt : y < z
            · rw [if_pos hlt]
            · exfalso
              obtain ⟨m, h3, h4⟩ := (hm (G.addr b) z).1 ⟨y, hcb, by omega⟩
              exact hl b ⟨⟨r, h1, h2⟩, z, hk, barred_iff.2 hb, m, h3, h4⟩
      | _ => rfl
    · rfl

/-! ## Executions -/

/-- the nodes that can deliver their outputs -/
inductive Live (G : Graph) (r : Nat) (stop : Nat → Prop) : Nat → Prop where
  | mk {n : Nat} : n ∈ G.nodes r → ¬stop n → (∀ p i, Org.out p i ∈ G.inp n → Live G r stop p) → Live G r stop n

variable {r : Nat} {stop : Nat → Prop}

theorem Run.live {l : List Nat} (h : Run G r stop l) : ∀ n ∈ l, Live G r stop n := by
  induction h with
  | nil => simp
  | step _ hr _ hs ih =>
    intro n hn
    rcases List.mem_append.1 hn with h | h
    · exact ih n h
    · rw [List.mem_singleton] at h
      subst h
      exact .mk hr.1 hs fun p i hp => ih p (hr.2 p i hp)

theorem Ready.mono {l l' : List Nat} {n : Nat} (h : Ready G r l n) (hl : ∀ x ∈ l, x ∈ l') : Ready G r l' n :=
  ⟨h.1, fun p i hp => hl p (h.2 p i hp)⟩

theorem Run.join {l l' : List Nat} (h : Run G r stop l) (h' : Run G r stop l') : ∃ k, Run G r stop k ∧ ∀ x, x ∈ l ∨ x ∈ l' → x ∈ k := by
  induction h' with
  | nil => exact ⟨l, h, fun x hx => by rcases hx with hx | hx; exacts [hx, absurd hx List.not_mem_nil]⟩
  | @step l' n h' hr _ hs ih =>
    obtain ⟨k, h1, h2⟩ := ih
    by_cases hk : n ∈ k
    · refine ⟨k, h1, fun x hx => ?_⟩
      rcases hx with hx | hx
      · exact h2 x (Or.inl hx)
      · rcases List.mem_append.1 hx with hx | hx
        · exact h2 x (Or.inr hx)
        · rw [List.mem_singleton] at hx; rw [hx]; exact hk
    · refine ⟨k ++ [n], .step h1 (hr.mono fun x hx => h2 x (Or.inr hx)) hk hs, fun x hx => ?_⟩
      rcases hx with hx | hx
      · exact List.mem_append_left _ (h2 x (Or.inl hx))
      · rcases List.mem_append.1 hx with hx | hx
        · exact List.mem_append_left _ (h2 x (Or.inr hx))
        · exact List.mem_append_right _ hx

/-- finitely many nodes, each in some run, are in one run -/
theorem run_all {P : Org → Nat → Prop} : ∀ (l : List Org), (∀ p i, Org.out p i ∈ l → ∃ k, Run G r stop k ∧ p ∈ k) →
    ∃ k, Run G r stop k ∧ ∀ p i, Org.out p i ∈ l → p ∈ k
  | [], _ => ⟨[], .nil, fun _ _ h => absurd h List.not_mem_nil⟩
  | o :: l, h => by
    obtain ⟨k, h1, h2⟩ := run_all (P := P) l fun p i hp => h p i (List.mem_cons_of_mem _ hp)
    cases o with
    | arg q j =>
      refine ⟨k, h1, fun p i hp => ?_⟩
      rcases List.mem_cons.1 hp with e | e
      · cases e
      · exact h2 p i e
    | out q j =>
      obtain ⟨k', h3, h4⟩ := h q j List.mem_cons_self
      obtain ⟨k'', h5, h6⟩ := h1.join h3
      refine ⟨k'', h5, fun p i hp => ?_⟩
      rcases List.mem_cons.1 hp with e | e
      · cases e; exact h6 _ (Or.inr h4)
      · exact h6 _ (Or.inl (h2 p i e))

theorem Live.run {n : Nat} (h : Live G r stop n) : ∃ l, Run G r stop l ∧ n ∈ l := by
  induction h with
  | @mk n hn hs _ ih =>
    obtain ⟨k, h1, h2⟩ := run_all (P := fun _ _ => True) (G.inp n) ih
    by_cases hk : n ∈ k
    · exact ⟨k, h1, hk⟩
    · exact ⟨k ++ [n], .step h1 ⟨hn, h2⟩ hk hs, List.mem_append_right _ (List.mem_singleton.2 rfl)⟩

theorem starts_iff {n : Nat} : Starts G r stop n ↔ n ∈ G.nodes r ∧ ∀ p i, Org.out p i ∈ G.inp n → Live G r stop p := by
  constructor
  · rintro ⟨l, h1, h2, h3⟩
    exact ⟨h2, fun p i hp => h1.live p (h3 p i hp)⟩
  · rintro ⟨h1, h2⟩
    obtain ⟨k, h3, h4⟩ := run_all (P := fun _ _ => True) (G.inp n) fun p i hp => (h2 p i hp).run
    exact ⟨k, h3, h1, h4⟩

theorem Live.inv {n : Nat} (h : Live G r stop n) : n ∈ G.nodes r ∧ ¬stop n ∧ ∀ p i, Org.out p i ∈ G.inp n → Live G r stop p := by
  cases h with
  | mk h1 h2 h3 => exact ⟨h1, h2, h3⟩

section
variable {pos : Nat → Nat} {isIO : Nat → Prop} (S : Scoped G) (PO : ProgramOrder G r pos isIO stop)
include S PO

/-- nothing before the first I/O node stops -/
theorem live_before {n : Nat} (hn : n ∈ G.nodes r) (h : ∀ j ∈ G.nodes r, isIO j → ¬pos j < pos n) :
    ∀ p i, Org.out p i ∈ G.inp n → Live G r stop p := by
  have key : ∀ k p, p ∈ G.nodes r → pos p < k → k ≤ pos n → Live G r stop p := by
    intro k
    induction k with
    | zero => intro p _ hk; omega
    | succ k ih =>
      intro p hp hk hle
      refine .mk hp (fun hs => h p hp (PO.stops p hp hs) (by omega)) fun q i hq => ?_
      have := PO.operands p hp q i hq
      exact ih q (S.out r p hp q i hq) (by omega) (by omega)
  intro p i hp
  exact key _ p (S.out r n hn p i hp) (PO.operands n hn p i hp) (Nat.le_refl _)

theorem addr_mem {n z : Nat} (hn : n ∈ G.nodes r) (hz : G.op n = .load z) : G.addr n ∈ G.inp n := by
  obtain ⟨o, l, h⟩ := S.load r n hn z hz
  unfold Graph.addr Graph.origin
  rw [h]; exact List.mem_cons_self

theorem barrier_inp {b : Nat} (hb : b ∈ G.nodes r) (ho : G.op b = .barrier) : G.inp b = [G.addr b, G.io b] := by
  obtain ⟨o, io, h⟩ := S.barrier r b hb ho
  unfold Graph.addr Graph.io Graph.origin
  rw [h]; rfl

theorem barred_mem {n b z : Nat} (hn : n ∈ G.nodes r) (hz : G.op n = .load z) (hb : Barred G n b) :
    b ∈ G.nodes r ∧ G.op b = .barrier ∧ pos b < pos n ∧ ∃ i, Org.out b i ∈ G.inp n := by
  obtain ⟨i, h1, h2⟩ := hb
  have := addr_mem S PO hn hz
  rw [h1] at this
  exact ⟨S.out r n hn b i this, h2, PO.operands n hn b i this, i, this⟩

end

/-- the address that a graph has after the pass -/
def Kept (G G' : Graph) : Prop := Alike G G' ∧ ∀ n, (∀ b, Loses G n b → G'.inp n = (G.inp n).set 0 (G.addr b)) ∧
  ((∀ b, ¬Loses G n b) → G'.inp n = G.inp n)

section
variable {pos : Nat → Nat} {isIO : Nat → Prop} (S : Scoped G) (PO : ProgramOrder G r pos isIO stop) {G' : Graph} (K : Kept G G')
include S PO K

theorem inp_other {n : Nat} (h : ∀ z, G.op n ≠ .load z) : G'.inp n = G.inp n := K.1.inp n h

/-- a node that starts in the new graph after all I/O nodes before it starts in the old graph -/
theorem starts_back : ∀ (k n : Nat), pos n < k → n ∈ G.nodes r → (∀ p i, Org.out p i ∈ G'.inp n → Live G' r stop p) →
    (∀ j ∈ G.nodes r, isIO j → pos j < pos n → Live G' r stop j) → ∀ p i, Org.out p i ∈ G.inp n → Live G r stop p
  | 0, n, h, _, _, _ => by omega
  | k + 1, n, hk, hn, hl, hio => by
    have sub : ∀ p, Live G' r stop p → pos p < pos n → Live G r stop p := by
      intro p hp hlt
      obtain ⟨h1, h2, h3⟩ := hp.inv
      rw [K.1.nodes] at h1
      exact .mk h1 h2 (starts_back k p (by omega) h1 h3 fun j hj hi hj' => hio j hj hi (by omega))
    by_cases hL : ∃ b, Loses G n b
    · obtain ⟨b, hb⟩ := hL
      have hinp := (K.2 n).1 b hb
      obtain ⟨_, z, hz, hbar, _⟩ := hb
      obtain ⟨o, l, hol⟩ := S.load r n hn z hz
      obtain ⟨h1, h2, h3, _⟩ := barred_mem S PO hn hz hbar
      obtain ⟨i0, ha, _⟩ := hbar
      have ho : o = .out b i0 := by
        have : G.addr n = o := by unfold Graph.addr Graph.origin; rw [hol]; rfl
        rw [← this]; exact ha
      rw [hol, List.set_cons_zero] at hinp
      intro p i hp
      rw [hol] at hp
      rcases List.mem_cons.1 hp with e | e
      · rw [ho] at e; cases e
        refine .mk h1 (fun hs => (PO.kinds _ (PO.stops _ h1 hs)).2 h2) fun q j hq => ?_
        have hq' := hq
        rw [barrier_inp S PO h1 h2] at hq'
        have hlt := PO.operands _ h1 q j hq
        rcases List.mem_cons.1 hq' with e | e
        · exact sub q (hl q j (by rw [hinp, ← e]; exact List.mem_cons_self)) (by omega)
        · rw [List.mem_singleton] at e
          have hi := PO.state _ h1 h2 q j e.symm
          exact sub q (hio q (S.out r _ h1 q j hq) hi (by omega)) (by omega)
      · exact sub p (hl p i (by rw [hinp]; exact List.mem_cons_of_mem _ e)) (PO.operands n hn p i (by rw [hol]; exact hp))
    · have hinp := (K.2 n).2 fun b hb => hL ⟨b, hb⟩
      intro p i hp
      exact sub p (hl p i (by rw [hinp]; exact hp)) (PO.operands n hn p i hp)

/-- an I/O node is reached only after the ones before it -/
theorem io_before : ∀ (d k : Nat), pos k < d → k ∈ G.nodes r → isIO k → Live G' r stop k → ∀ j ∈ G.nodes r, isIO j → pos j ≤ pos k →
    Live G' r stop j
  | 0, k, h, _, _, _ => by omega
  | d + 1, k, hd, hk, hi, hl => by
    intro j hj hij hle
    by_cases e : pos j = pos k
    · rw [PO.distinct j hj k hk hij hi e]; exact hl
    · obtain ⟨m, i, h1, h2, h3⟩ := PO.chain k hk hi j hj hij (by omega)
      have hlt := PO.operands k hk m i h1
      have hm := hl.inv.2.2 m i (by rw [inp_other S PO K (PO.kinds k hi).1]; exact h1)
      exact io_before d m (by omega) (S.out r k hk m i h1) h2 hm j hj hij h3

variable {V : Type} {val : Org → V} {ok : V → Nat → Prop}

/-- what a load says is right -/
theorem says_ok (hval : ∀ b ∈ G.nodes r, G.op b = .barrier → ∀ i, val (.out b i) = val (G.addr b))
    (hmono : ∀ v z y, ok v z → y ≤ z → ok v y) (hsafe : Safe G r stop val ok)
    (hun : ∀ n ∈ G.nodes r, ∀ z, G.op n = .load z → (∀ b, ¬Barred G n b) → ok (val (G.addr n)) z)
    {m : Nat} (hm : m ∈ G.nodes r) {o : Org} {size : Nat} (h : Says G m o size) : ok (val o) size := by
  obtain ⟨⟨z, hz, hle⟩, ⟨rfl, hno⟩ | ⟨b, hb, rfl, q, i, hio, _⟩⟩ := h
  · exact hmono _ _ _ (hun m hm z hz hno) hle
  · obtain ⟨h1, h2, _⟩ := barred_mem S PO hm hz hb
    have hs : Starts G r stop m := starts_iff.2 ⟨hm, live_before S PO hm fun j hj hi hlt => by
      obtain ⟨k, i', e, _⟩ := PO.barrier m hm ⟨z, hz⟩ b hb j hj hi hlt
      rw [hio] at e; cases e⟩
    have := hsafe m z hs hz
    obtain ⟨i0, ha, _⟩ := hb
    rw [ha, hval b h1 h2] at this
    exact hmono _ _ _ this hle

/-- the node of a region that says something about an operand in the region -/
theorem says_scope {m r' : Nat} (hm : m ∈ G.nodes r') {o : Org} {size : Nat} (h : Says G m o size) :
    (∀ p i, o = .out p i → p ∈ G.nodes r') ∧ ∀ q i, o = .arg q i → q = r' := by
  obtain ⟨⟨z, hz, _⟩, h⟩ := h
  obtain ⟨x, l, hx⟩ := S.load r' m hm z hz
  have ha : G.addr m = x := by unfold Graph.addr Graph.origin; rw [hx]; rfl
  have hx' : x ∈ G.inp m := by rw [hx]; exact List.mem_cons_self
  rcases h with ⟨rfl, _⟩ | ⟨b, ⟨i0, hb, hbo⟩, rfl, _⟩
  · exact ⟨fun p i e => S.out r' m hm p i (by rw [← e, ha]; exact hx'), fun q i e => S.arg r' m hm q i (by rw [← e, ha]; exact hx')⟩
  · have hbm : b ∈ G.nodes r' := S.out r' m hm b i0 (by rw [← hb, ha]; exact hx')
    obtain ⟨y, io, hy⟩ := S.barrier r' b hbm hbo
    have hb' : G.addr b = y := by unfold Graph.addr Graph.origin; rw [hy]; rfl
    have hy' : y ∈ G.inp b := by rw [hy]; exact List.mem_cons_self
    exact ⟨fun p i e => S.out r' b hbm p i (by rw [← e, hb']; exact hy'), fun q i e => S.arg r' b hbm q i (by rw [← e, hb']; exact hy')⟩

end

/-- **C61, safety (partial).** If the body of a function has the shape that the translation gives it, no
execution loads from an invalid address, and the loads without barrier have valid addresses in every call, then both
hold after the pass: no execution, however the nodes are ordered and wherever it stops, loads from an
invalid address. The values of the outputs do not change. Missing, because false: the claim without the
condition on loads without barrier (`C61_inlined_counterexample`), and for memory that is freed during the
call (`ok` does not depend on time; `C61_freed_counterexample`). -/
theorem C61_safe_partial (G : Graph) (rank : Nat → Nat) (T : Tree G rank) (S : Scoped G) (order : Nat → List Nat)
    (ho : ∀ r n, n ∈ order r ↔ n ∈ G.nodes r) (fuel : Nat) (hf : rank 0 < fuel) (r : Nat)
    (pos : Nat → Nat) (isIO stop : Nat → Prop) (PO : ProgramOrder G r pos isIO stop) (V : Type) (val : Org → V) (ok : V → Nat → Prop)
    (hval : ∀ b ∈ G.nodes r, G.op b = .barrier → ∀ i, val (.out b i) = val (G.addr b))
    (hmono : ∀ v z y, ok v z → y ≤ z → ok v y) (hsafe : Safe G r stop val ok)
    (hun : ∀ n ∈ G.nodes r, ∀ z, G.op n = .load z → (∀ b, ¬Barred G n b) → ok (val (G.addr n)) z) :
    Safe (eliminate G order fuel) r stop val ok ∧
    (∀ n ∈ G.nodes r, ∀ z, G.op n = .load z → val ((eliminate G order fuel).addr n) = val (G.addr n)) ∧
    ∀ n ∈ G.nodes r, ∀ z, G.op n = .load z → (∀ b, ¬Barred (eliminate G order fuel) n b) → ok (val ((eliminate G order fuel).addr n)) z := by
  have K : Kept G (eliminate G order fuel) := C61_exact G rank T order ho fuel hf
  generalize eliminate G order fuel = G' at K ⊢
  have hloses : ∀ n ∈ G.nodes r, ∀ z, G.op n = .load z → ∀ b, Loses G n b → G'.addr n = G.addr b ∧ ok (val (G.addr b)) z := by
    intro n hn z hz b hb
    have hinp := (K.2 n).1 b hb
    obtain ⟨_, z', hz', hbar, m, ⟨r', _, hm⟩, hs⟩ := hb
    rw [hz] at hz'; cases hz'
    obtain ⟨o, l, hol⟩ := S.load r n hn z hz
    refine ⟨by unfold Graph.addr at hinp ⊢; unfold Graph.origin at hinp ⊢; rw [hinp, hol]; rfl, ?_⟩
    obtain ⟨h1, h2, _⟩ := barred_mem S PO hn hz hbar
    have hmem : G.addr b ∈ G.inp b := by rw [barrier_inp S PO h1 h2]; exact List.mem_cons_self
    obtain ⟨h3, h4⟩ := says_scope S PO K hm hs
    have e : r' = r := by
      cases ha : G.addr b with
      | out p i =>
        rw [ha] at hmem
        exact T.home _ _ p (h3 p i ha) (S.out r b h1 p i hmem)
      | arg q i =>
        rw [ha] at hmem
        rw [← h4 q i ha]; exact S.arg r b h1 q i hmem
    rw [e] at hm
    exact says_ok S PO K hval hmono hsafe hun hm hs
  have hsame : ∀ n, (∀ b, ¬Loses G n b) → G'.addr n = G.addr n := by
    intro n h
    unfold Graph.addr Graph.origin
    rw [(K.2 n).2 h]
  have hbarred : ∀ n b, G'.addr n = G.addr n → (Barred G' n b ↔ Barred G n b) := by
    intro n b h
    unfold Barred
    rw [h, K.1.op]
  refine ⟨?_, ?_, ?_⟩
  · intro n z hs hz
    rw [K.1.op] at hz
    obtain ⟨hn, hl⟩ := starts_iff.1 hs
    rw [K.1.nodes] at hn
    by_cases hL : ∃ b, Loses G n b
    · obtain ⟨b, hb⟩ := hL
      obtain ⟨h1, h2⟩ := hloses n hn z hz b hb
      rw [h1]; exact h2
    · have hL : ∀ b, ¬Loses G n b := fun b hb => hL ⟨b, hb⟩
      rw [hsame n hL]
      by_cases hB : ∃ b, Barred G n b
      · obtain ⟨b, hb⟩ := hB
        obtain ⟨h1, h2, h3, i0, h4⟩ := barred_mem S PO hn hz hb
        refine hsafe n z (starts_iff.2 ⟨hn, ?_⟩) hz
        refine starts_back S PO K _ n (Nat.lt_succ_self _) hn hl ?_
        intro j hj hij hlt
        obtain ⟨k, i, e, hik, hle⟩ := PO.barrier n hn ⟨z, hz⟩ b hb j hj hij hlt
        have hbl := hl b i0 (by rw [(K.2 n).2 hL]; exact h4)
        have hmem : Org.out k i ∈ G.inp b := by rw [barrier_inp S PO h1 h2, e]; simp
        have hkl := hbl.inv.2.2 k i (by rw [inp_other S PO K (by rw [h2]; simp)]; exact hmem)
        exact io_before S PO K _ k (Nat.lt_succ_self _) (S.out r b h1 k i hmem) hik hkl j hj hij hle
      · exact hun n hn z hz fun b hb => hB ⟨b, hb⟩
  · intro n hn z hz
    by_cases hL : ∃ b, Loses G n b
    · obtain ⟨b, hb⟩ := hL
      rw [(hloses n hn z hz b hb).1]
      obtain ⟨_, z', hz', hbar, _⟩ := hb
      obtain ⟨h1, h2, _⟩ := barred_mem S PO hn hz hbar
      obtain ⟨i0, ha, _⟩ := hbar
      rw [ha, hval b h1 h2]
    · rw [hsame n fun b hb => hL ⟨b, hb⟩]
  · intro n hn z hz hno
    by_cases hL : ∃ b, Loses G n b
    · obtain ⟨b, hb⟩ := hL
      obtain ⟨h1, h2⟩ := hloses n hn z hz b hb
      rw [h1]; exact h2
    · have hL : ∀ b, ¬Loses G n b := fun b hb => hL ⟨b, hb⟩
      rw [hsame n hL]
      exact hun n hn z hz fun b hb => hno b ((hbarred n b (hsame n hL)).2 hb)

/-! ## Loads from known allocations -/

/-- **C61, known allocations (partial).** At an offset that is not negative the barrier is removed exactly if
the load is in bounds. For negative offsets this is false: `C61_negative_counterexample`. -/
theorem C61_removable_partial (a off size : Nat) (hs : off + size < 2 ^ 64) :
    removable (some a) (some (off : Int)) size = true ↔ off + size ≤ a := by
  unfold removable
  dsimp only
  have h1 : ((off : Int) % 2 ^ 64).toNat = off := by omega
  rw [h1, Nat.mod_eq_of_lt hs]
  simp

theorem C61_removable_unknown (off : Option Int) (size : Nat) : removable none off size = false := rfl

end Jlm.Opt.Iobe
