import Verif.Aa.LocalAaModel

/-!
# What the local alias analysis promises

An execution of the analysed function gives, for every iteration in which an output is computed, the
pointer that it holds: an object and an offset into it. AliasAnalysis.hpp:15-25: the answer to a query
is "relative to an execution of that region", so both pointers are taken from the same iteration.
-/

namespace Jlm.Aa.Local

structure Ptr where
  obj : Nat
  off : Int
  deriving DecidableEq

/-- An execution of the function. An instance `i : I` fixes an iteration of every loop that is entered;
`val i o = none` if `o` is not computed there or is undefined. -/
structure Exec where
  I : Type
  val : I → Out → Option Ptr
  /-- the sizes of the objects in bytes -/
  size : Nat → Nat
  /-- when the output is computed -/
  time : I → Out → Nat

/-- The value of `o` in instance `i` is that of `b` in instance `j`, which was there before. -/
def Exec.From (E : Exec) (i : E.I) (o : Out) (j : E.I) (b : Out) : Prop :=
  E.val j b = E.val i o ∧ E.time j b < E.time i o

/-- How the value of an output comes about, by its definition. -/
def Exec.Step (F : Fn) (E : Exec) (i : E.I) (o : Out) (p : Ptr) : Prop :=
  match F.deff o with
  | .copy b => E.From i o i b
  | .gep b k => ∃ q, E.val i b = some q ∧ q.obj = p.obj ∧ (∀ x, k = some x → p.off = q.off + x) ∧
      E.time i b < E.time i o
  | .select a b => E.From i o i a ∨ E.From i o i b
  | .undef => False
  | .gamma rs => ∃ r ∈ rs, E.From i o i r
  | .thetaOut post => ∃ j, E.From i o j post
  | .thetaPre post input => E.From i o i input ∨ ∃ j, E.From i o j post
  | .alloca _ | .malloc _ | .delta _ | .import _ | .lambda =>
      p.off = 0 ∧ ∀ s, originSize (F.deff o) = some s → E.size p.obj = s
  /- the function's own allocas do not exist before it is called -/
  | .param => ∀ j a q, isAlloca (F.deff a) = true → E.val j a = some q → q.obj ≠ p.obj
  /- the address of an alloca is loaded or returned only after it was given away -/
  | .other => ∀ j a q, isAlloca (F.deff a) = true → E.val j a = some q → q.obj = p.obj →
      ∃ j' u r, Use.escape ∈ F.users u ∧ E.val j' u = some r ∧ r.obj = p.obj ∧ E.time j' u < E.time i o

/-- `E` is an execution of `F`. -/
structure Exec.Of (F : Fn) (E : Exec) : Prop where
  /-- all pointers are in bounds -/
  bounds : ∀ i o p, E.val i o = some p → 0 ≤ p.off ∧ p.off ≤ E.size p.obj
  step : ∀ i o p, E.val i o = some p → E.Step F i o p
  /-- `traceOutput` finds an output with the same value -/
  norm : ∀ i o p, E.val i o = some p → E.val i (F.norm o) = some p ∧ E.time i (F.norm o) ≤ E.time i o
  /-- different nodes and imports stand for different objects -/
  distinct : ∀ i j o o' p p', isOriginal (F.deff o) = true → isOriginal (F.deff o') = true → o ≠ o' →
    E.val i o = some p → E.val j o' = some p' → p.obj ≠ p'.obj

/-- The outputs whose value an output may have. -/
def Def.operands : Def → List Out
  | .copy o => [o]
  | .gep b _ => [b]
  | .select a b => [a, b]
  | .gamma rs => rs
  | .thetaOut post => [post]
  | .thetaPre post input => [post, input]
  | _ => []

/-- The function is well-formed: the users of an output fit the definitions, and `traceOutput` goes
past copies. -/
structure Fn.Wf (F : Fn) : Prop where
  users : ∀ o b, b ∈ (F.deff o).operands → ∃ ts, Use.flow ts ∈ F.users b ∧ o ∈ ts
  norm : ∀ o b, F.deff (F.norm o) ≠ .copy b

/-- Two accesses, of `s` bytes at `p` and of `t` bytes at `q`, have a byte in common. -/
def Overlap (p : Ptr) (s : Nat) (q : Ptr) (t : Nat) : Prop :=
  p.obj = q.obj ∧ ∃ x : Int, p.off ≤ x ∧ x < p.off + s ∧ q.off ≤ x ∧ x < q.off + t

/-- The accesses stay within the objects. -/
def Exec.InBounds (E : Exec) (p : Ptr) (s : Nat) : Prop := p.off + s ≤ E.size p.obj

def Def.isTop (d : Def) : Prop := ∀ off, succs d off = none

def Def.isTheta : Def → Bool
  | .thetaOut _ | .thetaPre _ _ => true
  | _ => false

/-- Origins have one value only in the whole execution. -/
def Exec.Stable (F : Fn) (E : Exec) : Prop :=
  ∀ o, (F.deff o).isTop → ∀ i j p q, E.val i o = some p → E.val j o = some q → p = q

/-! ### Maps -/

theorem lookup_set (m : Map) (a b : Out) (v : Option Int) :
    (m.set a v).lookup b = if b = a then some v else m.lookup b := by
  unfold Map.set
  rw [List.lookup_cons]
  by_cases h : b = a
  · simp [h]
  · have : (b == a) = false := by simpa using h
    rw [this, if_neg h]
    show List.lookup b (m.filter fun e => decide (e.1 ≠ a)) = _
    induction m with
    | nil => rfl
    | cons e m ih =>
        rw [List.filter_cons]
        by_cases h' : e.1 = a
        · have : decide (e.1 ≠ a) = false := by simp [h']
          rw [this]
          have h2 : (b == e.1) = false := by rw [h']; simpa using h
          simp only [Bool.false_eq_true, if_false]
          rw [ih, List.lookup_cons, h2]
        · have : decide (e.1 ≠ a) = true := by simp [h']
          rw [this, if_pos rfl, List.lookup_cons, List.lookup_cons, ih]

def Keys (m : Map) : List Out := m.map Prod.fst

theorem keys_set_nodup {m : Map} (a : Out) (v : Option Int) (h : (Keys m).Nodup) : (Keys (m.set a v)).Nodup := by
  unfold Map.set Keys at *
  rw [List.map_cons, List.nodup_cons]
  refine ⟨?_, ?_⟩
  · intro hm
    obtain ⟨e, he, rfl⟩ := List.mem_map.1 hm
    have := (List.mem_filter.1 he).2
    simp at this
  · exact h.sublist (List.Sublist.map _ List.filter_sublist)

theorem mem_of_lookup {m : Map} {a : Out} {v : Option Int} (h : m.lookup a = some v) : (a, v) ∈ m := by
  induction m with
  | nil => simp at h
  | cons e m ih =>
      rw [List.lookup_cons] at h
      by_cases hb : a == e.1
      · rw [hb] at h
        have : a = e.1 := by simpa using hb
        have h2 : e.2 = v := by simpa using h
        subst this; subst h2
        exact List.mem_cons_self ..
      · have : (a == e.1) = false := by simpa using hb
        rw [this] at h
        exact List.mem_cons_of_mem _ (ih h)

theorem lookup_of_mem {m : Map} (hn : (Keys m).Nodup) {a : Out} {v : Option Int} (h : (a, v) ∈ m) :
    m.lookup a = some v := by
  induction m with
  | nil => simp at h
  | cons e m ih =>
      unfold Keys at hn
      rw [List.map_cons, List.nodup_cons] at hn
      rw [List.lookup_cons]
      rcases List.mem_cons.1 h with h | h
      · rw [← h]; simp
      · have : (a == e.1) = false := by
          have : a ≠ e.1 := by
            intro hae
            exact hn.1 (List.mem_map.2 ⟨(a, v), h, hae⟩)
          simpa using this
        rw [this]
        exact ih hn.2 h

/-! ### `TracePointerOriginPrecise` -/

theorem precise_sound {F : Fn} {E : Exec} (hE : E.Of F) {i : E.I} : ∀ (fuel : Nat) (o : Out) (off : Int)
    (r : Out × Int) (p : Ptr), precise F fuel o off = some r → E.val i o = some p →
    (∃ o', r.1 = F.norm o') ∧
    ∃ q, E.val i r.1 = some q ∧ q.obj = p.obj ∧ p.off + off = q.off + r.2
  | 0, _, _, _, _, h, _ => by simp [precise] at h
  | fuel + 1, o, off, r, p, h, hv => by
      rw [precise] at h
      have hn := (hE.norm i o p hv).1
      have hs := hE.step i _ p hn
      split at h
      next base k hd =>
        unfold Exec.Step at hs
        rw [hd] at hs
        obtain ⟨q, hq, ho, hk, -⟩ := hs
        obtain ⟨hn', q', h1, h2, h3⟩ := precise_sound hE fuel base (off + k) r q h hq
        have := hk k rfl
        exact ⟨hn', q', h1, h2.trans ho, by omega⟩
      next =>
        injection h with h
        subst h
        exact ⟨⟨o, rfl⟩, p, hn, rfl, rfl⟩

/-! ### `TraceAllPointerOrigins` -/

/-- `b` is traced, with offset `off` or with an unknown one. -/
def Cov (m : Map) (b : Out) (off : Option Int) : Prop := ∃ off', m.lookup b = some off' ∧ (off' = none ∨ off' = off)

/-- `o` is covered, or will be. -/
def Pend (F : Fn) (m : Map) (stack : List (Out × Option Int)) (o : Out) (off : Option Int) : Prop :=
  Cov m (F.norm o) off ∨ ∃ off', (o, off') ∈ stack ∧ (off' = none ∨ off' = off)

structure Inv (F : Fn) (stack : List (Out × Option Int)) (tc : TC) : Prop where
  succ : ∀ b off, tc.all.lookup b = some off → ∀ os off', succs (F.deff b) off = some (os, off') → ∀ o ∈ os,
    Pend F tc.all stack o off'
  top : ∀ b off, tc.all.lookup b = some off → (F.deff b).isTop → tc.tops.lookup b = some off
  tops : ∀ b off, tc.tops.lookup b = some off → (F.deff b).isTop
  nodup : (Keys tc.tops).Nodup
  normed : ∀ b off, tc.all.lookup b = some off → ∃ o, b = F.norm o
  sub : ∀ b off, tc.tops.lookup b = some off → tc.all.lookup b = some off

theorem isTop_iff (d : Def) (off : Option Int) : d.isTop ↔ succs d off = none := by
  constructor
  · intro h; exact h off
  · intro h off'
    cases d <;> simp [succs] at h ⊢

theorem cov_set {m : Map} {b c : Out} {off v : Option Int} (h : Cov m b off)
    (hv : v = none ∨ m.lookup c = none) : Cov (m.set c v) b off := by
  obtain ⟨o', h1, h2⟩ := h
  unfold Cov
  rw [lookup_set]
  by_cases hbc : b = c
  · rw [if_pos hbc]
    rcases hv with hv | hv
    · exact ⟨v, rfl, Or.inl hv⟩
    · rw [← hbc, h1] at hv
      exact absurd hv (by simp)
  · rw [if_neg hbc]
    exact ⟨o', h1, h2⟩

theorem expand_inv {F : Fn} {p : Out} {off v : Option Int} {stack : List (Out × Option Int)} {tc : TC}
    (h : Inv F ((p, off) :: stack) tc) (hv : v = none ∨ (v = off ∧ tc.all.lookup (F.norm p) = none)) :
    Inv F ((expand F (F.norm p) v tc).1 ++ stack) (expand F (F.norm p) v tc).2 ∧
    (∀ o x, Pend F tc.all ((p, off) :: stack) o x →
      Pend F (expand F (F.norm p) v tc).2.all ((expand F (F.norm p) v tc).1 ++ stack) o x) := by
  have hall : (expand F (F.norm p) v tc).2.all = tc.all.set (F.norm p) v := by
    unfold expand
    split <;> rfl
  have hv' : v = none ∨ tc.all.lookup (F.norm p) = none := hv.imp id And.right
  have hpend : ∀ o x, Pend F tc.all ((p, off) :: stack) o x →
      Pend F (expand F (F.norm p) v tc).2.all ((expand F (F.norm p) v tc).1 ++ stack) o x := by
    intro o x hp
    rw [hall]
    rcases hp with hp | ⟨y, hy, hyx⟩
    · exact Or.inl (cov_set hp hv')
    · rcases List.mem_cons.1 hy with hy | hy
      · injection hy with h1 h2
        subst h1; subst h2
        left
        refine ⟨v, by rw [lookup_set, if_pos rfl], ?_⟩
        rcases hv with hv | hv
        · exact Or.inl hv
        · rcases hyx with hyx | hyx
          · exact Or.inl (hv.1.trans hyx)
          · exact Or.inr (hv.1.trans hyx)
      · exact Or.inr ⟨y, List.mem_append_right _ hy, hyx⟩
  refine ⟨?_, hpend⟩
  have htops : ∀ b w, (expand F (F.norm p) v tc).2.tops.lookup b = some w →
      (b = F.norm p ∧ (F.deff b).isTop ∧ w = v) ∨
      (tc.tops.lookup b = some w ∧ (b = F.norm p → ¬ (F.deff b).isTop)) := by
    intro b w hb
    unfold expand at hb
    split at hb
    next os off' hs =>
      right
      refine ⟨hb, ?_⟩
      intro hbn ht
      rw [hbn, isTop_iff _ v] at ht
      rw [ht] at hs
      exact absurd hs (by simp)
    next hs =>
      simp only [lookup_set] at hb
      by_cases hbp : b = F.norm p
      · rw [if_pos hbp] at hb
        injection hb with hb
        left
        refine ⟨hbp, ?_, hb.symm⟩
        rw [hbp, isTop_iff _ v]
        exact hs
      · rw [if_neg hbp] at hb
        exact Or.inr ⟨hb, fun h => absurd h hbp⟩
  constructor
  · intro b w hb os off' hs o ho
    rw [hall, lookup_set] at hb
    by_cases hbp : b = F.norm p
    · rw [if_pos hbp] at hb
      injection hb with hb
      subst hb
      right
      refine ⟨off', ?_, Or.inr rfl⟩
      apply List.mem_append_left
      unfold expand
      rw [hbp] at hs
      rw [hs]
      exact List.mem_map.2 ⟨o, ho, rfl⟩
    · rw [if_neg hbp] at hb
      exact hpend _ _ (h.succ b w hb os off' hs o ho)
  · intro b w hb ht
    rw [hall, lookup_set] at hb
    unfold expand
    by_cases hbp : b = F.norm p
    · rw [if_pos hbp] at hb
      injection hb with hb
      subst hb
      have hs := (isTop_iff _ v).1 ht
      rw [hbp] at hs
      rw [hs]
      show (tc.tops.set (F.norm p) v).lookup b = _
      rw [lookup_set, if_pos hbp]
    · rw [if_neg hbp] at hb
      have := h.top b w hb ht
      split
      · exact this
      · show (tc.tops.set (F.norm p) v).lookup b = _
        rw [lookup_set, if_neg hbp]
        exact this
  · intro b w hb
    rcases htops b w hb with hb | hb
    · exact hb.2.1
    · exact h.tops b w hb.1
  · unfold expand
    split
    · exact h.nodup
    · exact keys_set_nodup _ _ h.nodup
  · intro b w hb
    rw [hall, lookup_set] at hb
    by_cases hbp : b = F.norm p
    · exact ⟨p, hbp⟩
    · rw [if_neg hbp] at hb
      exact h.normed b w hb
  · intro b w hb
    rw [hall, lookup_set]
    rcases htops b w hb with ⟨h1, -, h3⟩ | ⟨h1, h2⟩
    · rw [if_pos h1, h3]
    · have ht := h.tops b w h1
      rw [if_neg fun hbn => h2 hbn ht]
      exact h.sub b w h1

theorem drop_inv {F : Fn} {p : Out} {off prev : Option Int} {stack : List (Out × Option Int)} {tc : TC}
    (h : Inv F ((p, off) :: stack) tc) (hp : tc.all.lookup (F.norm p) = some prev) (hoff : prev = none ∨ prev = off) :
    Inv F stack tc ∧ (∀ o x, Pend F tc.all ((p, off) :: stack) o x → Pend F tc.all stack o x) := by
  have hpend : ∀ o x, Pend F tc.all ((p, off) :: stack) o x → Pend F tc.all stack o x := by
    intro o x hx
    rcases hx with hx | ⟨y, hy, hyx⟩
    · exact Or.inl hx
    · rcases List.mem_cons.1 hy with hy | hy
      · injection hy with h1 h2
        subst h1; subst h2
        left
        refine ⟨prev, hp, ?_⟩
        rcases hoff with h | h
        · exact Or.inl h
        · rcases hyx with hyx | hyx
          · exact Or.inl (h.trans hyx)
          · exact Or.inr (h.trans hyx)
      · exact Or.inr ⟨y, hy, hyx⟩
  exact ⟨⟨fun b w hb os off' hs o ho => hpend _ _ (h.succ b w hb os off' hs o ho), h.top, h.tops, h.nodup, h.normed,
    h.sub⟩, hpend⟩

theorem traceAll_inv {F : Fn} {max : Nat} : ∀ (fuel : Nat) (stack : List (Out × Option Int)) (tc tc' : TC),
    traceAll F max fuel stack tc = some (true, tc') → Inv F stack tc →
    Inv F [] tc' ∧ ∀ o x, Pend F tc.all stack o x → Pend F tc'.all [] o x
  | 0, _, _, _, h, _ => by simp [traceAll] at h
  | fuel + 1, [], tc, tc', h, hi => by
      simp only [traceAll] at h
      injection h with h
      injection h with h1 h2
      subst h2
      exact ⟨hi, fun o x h => h⟩
  | fuel + 1, (p, off) :: stack, tc, tc', h, hi => by
      rw [traceAll] at h
      by_cases hm : max ≤ tc.all.length
      · rw [if_pos hm] at h
        exact absurd h (by simp)
      · rw [if_neg hm] at h
        split at h
        next hl =>
          obtain ⟨h1, h2⟩ := drop_inv hi hl (Or.inl rfl)
          obtain ⟨h3, h4⟩ := traceAll_inv fuel _ _ _ h h1
          exact ⟨h3, fun o x hx => h4 o x (h2 o x hx)⟩
        next prev hl =>
          by_cases ho : off = some prev
          · rw [if_pos ho] at h
            obtain ⟨h1, h2⟩ := drop_inv hi hl (Or.inr ho.symm)
            obtain ⟨h3, h4⟩ := traceAll_inv fuel _ _ _ h h1
            exact ⟨h3, fun o x hx => h4 o x (h2 o x hx)⟩
          · rw [if_neg ho] at h
            obtain ⟨h1, h2⟩ := expand_inv (v := none) hi (Or.inl rfl)
            obtain ⟨h3, h4⟩ := traceAll_inv fuel _ _ _ h h1
            exact ⟨h3, fun o x hx => h4 o x (h2 o x hx)⟩
        next hl =>
          obtain ⟨h1, h2⟩ := expand_inv (v := off) hi (Or.inr ⟨rfl, hl⟩)
          obtain ⟨h3, h4⟩ := traceAll_inv fuel _ _ _ h h1
          exact ⟨h3, fun o x hx => h4 o x (h2 o x hx)⟩

theorem traceAll_covers {F : Fn} {max fuel : Nat} {p : Out} {off : Option Int} {tc : TC}
    (h : traceAll F max fuel [(p, off)] ⟨[], []⟩ = some (true, tc)) : Inv F [] tc ∧ Cov tc.all (F.norm p) off := by
  obtain ⟨h1, h2⟩ := traceAll_inv fuel _ _ _ h
    ⟨by intro b w hb; simp at hb, by intro b w hb; simp at hb, by intro b w hb; simp at hb, List.nodup_nil,
      by intro b w hb; simp at hb, by intro b w hb; simp at hb⟩
  refine ⟨h1, ?_⟩
  rcases h2 p off (Or.inr ⟨off, List.mem_cons_self .., Or.inr rfl⟩) with h | ⟨y, hy, -⟩
  · exact h
  · simp at hy

/-- `(b, off)` is an origin of the pointer `q`: in instance `j`, `q` points into the object of `b`, and
`off` bytes after it if `off` is known. -/
def Exec.Origin (E : Exec) (j : E.I) (b : Out) (off : Option Int) (q : Ptr) : Prop :=
  ∃ B, E.val j b = some B ∧ B.obj = q.obj ∧ ∀ k, off = some k → q.off = B.off + k

theorem isTop_of_ne {F : Fn} (hF : F.Wf) {b : Out} (hb : ∃ o, b = F.norm o) (ht : (F.deff b).isTop) :
    isOriginal (F.deff b) = true ∨ F.deff b = .param ∨ F.deff b = .other := by
  obtain ⟨o, rfl⟩ := hb
  have hc := hF.norm o
  have h := ht none
  revert h hc
  cases F.deff (F.norm o) <;> simp [succs, isOriginal]

theorem origin_exists {F : Fn} {E : Exec} (hF : F.Wf) (hE : E.Of F) {tc : TC} (hi : Inv F [] tc) :
    ∀ (n : Nat) (i : E.I) (o : Out) (off : Option Int) (p q : Ptr), E.time i o ≤ n → Cov tc.all (F.norm o) off →
      E.val i o = some p → p.obj = q.obj → (∀ k, off = some k → q.off = p.off + k) →
      ∃ j b w, tc.tops.lookup b = some w ∧ E.Origin j b w q ∧ (hasLoop F tc.all = false → j = i) := by
  intro n
  induction n with
  | zero => exact fun i o off p q hn => go 0 i o off p q hn (by intro i o off p q h; omega)
  | succ n ih => exact fun i o off p q hn => go (n + 1) i o off p q hn fun i o off p q h => ih i o off p q (by omega)
where
  go (n : Nat) (i : E.I) (o : Out) (off : Option Int) (p q : Ptr) (hn : E.time i o ≤ n)
      (ih : ∀ (i : E.I) (o : Out) (off : Option Int) (p q : Ptr), E.time i o < n → Cov tc.all (F.norm o) off →
        E.val i o = some p → p.obj = q.obj → (∀ k, off = some k → q.off = p.off + k) →
        ∃ j b w, tc.tops.lookup b = some w ∧ E.Origin j b w q ∧ (hasLoop F tc.all = false → j = i))
      (hcov : Cov tc.all (F.norm o) off) (hv : E.val i o = some p) (hpq : p.obj = q.obj)
      (hoff : ∀ k, off = some k → q.off = p.off + k) :
      ∃ j b w, tc.tops.lookup b = some w ∧ E.Origin j b w q ∧ (hasLoop F tc.all = false → j = i) := by
    obtain ⟨hvn, htn⟩ := hE.norm i o p hv
    have hs := hE.step i _ p hvn
    obtain ⟨w, hw, hwo⟩ := hcov
    have hoffw : ∀ k, w = some k → q.off = p.off + k := by
      intro k hk
      rcases hwo with h | h
      · rw [h] at hk; simp at hk
      · exact hoff k (h.symm.trans hk)
    -- the operands of an output that is no origin
    have hgo : ∀ os w', succs (F.deff (F.norm o)) w = some (os, w') → ∀ (j : E.I) (x : Out) (r : Ptr), x ∈ os →
        E.val j x = some r → E.time j x < E.time i (F.norm o) → r.obj = q.obj → (∀ k, w' = some k → q.off = r.off + k) →
        ∃ j' b w, tc.tops.lookup b = some w ∧ E.Origin j' b w q ∧ (hasLoop F tc.all = false → j' = j) := by
      intro os w' hsu j x r hx hr ht hro hk
      rcases hi.succ _ w hw os w' hsu x hx with hc | ⟨y, hy, -⟩
      · exact ih j x w' r q (by omega) hc hr hro hk
      · simp at hy
    have hgo' : ∀ os, succs (F.deff (F.norm o)) w = some (os, w) → ∀ (j : E.I) (x : Out), x ∈ os →
        E.From i (F.norm o) j x →
        ∃ j' b w, tc.tops.lookup b = some w ∧ E.Origin j' b w q ∧ (hasLoop F tc.all = false → j' = j) := by
      intro os hsu j x hx hf
      exact hgo os w hsu j x p hx (hf.1.trans hvn) hf.2 hpq hoffw
    have hloop : (F.deff (F.norm o)).isTheta = true → hasLoop F tc.all = true := by
      intro ht
      unfold hasLoop
      rw [List.any_eq_true]
      refine ⟨_, mem_of_lookup hw, ?_⟩
      revert ht
      cases F.deff (F.norm o) <;> simp [Def.isTheta]
    have htop : (F.deff (F.norm o)).isTop →
        ∃ j b w, tc.tops.lookup b = some w ∧ E.Origin j b w q ∧ (hasLoop F tc.all = false → j = i) := by
      intro ht
      exact ⟨i, _, w, hi.top _ w hw ht, ⟨p, hvn, hpq, hoffw⟩, fun _ => rfl⟩
    unfold Exec.Step at hs
    cases hd : F.deff (F.norm o) with
    | copy b => exact absurd hd (hF.norm o b)
    | gep b k =>
        rw [hd] at hs
        obtain ⟨r, hr, hro, hrk, hrt⟩ := hs
        refine hgo _ _ (by rw [hd]; rfl) i b r (List.mem_cons_self ..) hr hrt (hro.trans hpq) ?_
        intro x hx
        cases w with
        | none => simp at hx
        | some y =>
            cases k with
            | none => simp at hx
            | some z =>
                simp only at hx
                injection hx with hx
                have h1 := hoffw y rfl
                have h2 := hrk z rfl
                omega
    | select a b =>
        rw [hd] at hs
        rcases hs with hs | hs
        · exact hgo' [a, b] (by rw [hd]; rfl) i a (by simp) hs
        · exact hgo' [a, b] (by rw [hd]; rfl) i b (by simp) hs
    | undef =>
        rw [hd] at hs
        exact hs.elim
    | gamma rs =>
        rw [hd] at hs
        obtain ⟨r, hr, hs⟩ := hs
        exact hgo' rs (by rw [hd]; rfl) i r hr hs
    | thetaOut post =>
        have hl := hloop (by rw [hd]; rfl)
        rw [hd] at hs
        obtain ⟨j, hs⟩ := hs
        obtain ⟨j', b, w', h1, h2, -⟩ := hgo' [post] (by rw [hd]; rfl) j post (by simp) hs
        exact ⟨j', b, w', h1, h2, fun h => absurd (hl.symm.trans h) (by simp)⟩
    | thetaPre post input =>
        have hl := hloop (by rw [hd]; rfl)
        rw [hd] at hs
        rcases hs with hs | ⟨j, hs⟩
        · exact hgo' [post, input] (by rw [hd]; rfl) i input (by simp) hs
        · obtain ⟨j', b, w', h1, h2, -⟩ := hgo' [post, input] (by rw [hd]; rfl) j post (by simp) hs
          exact ⟨j', b, w', h1, h2, fun h => absurd (hl.symm.trans h) (by simp)⟩
    | alloca s => exact htop (by rw [hd]; exact fun _ => rfl)
    | malloc s => exact htop (by rw [hd]; exact fun _ => rfl)
    | delta s => exact htop (by rw [hd]; exact fun _ => rfl)
    | «import» s => exact htop (by rw [hd]; exact fun _ => rfl)
    | lambda => exact htop (by rw [hd]; exact fun _ => rfl)
    | param => exact htop (by rw [hd]; exact fun _ => rfl)
    | other => exact htop (by rw [hd]; exact fun _ => rfl)

end Jlm.Aa.Local
