import Mathlib.Data.List.Perm.Subperm
import Verif.Aa.LocalAaProps

/-!
# The queries end, and the fuel does not matter
-/

namespace Jlm.Aa.Local

variable {F : Fn}

/-! ### More fuel gives the same result -/

theorem precise_mono : ∀ (fuel k : Nat) (o : Out) (off : Int) (r : Out × Int), precise F fuel o off = some r →
    precise F (fuel + k) o off = some r
  | 0, _, _, _, _, h => by simp [precise] at h
  | fuel + 1, k, o, off, r, h => by
      rw [show fuel + 1 + k = (fuel + k) + 1 by omega]
      rw [precise] at h ⊢
      split at h
      next base x hd => exact precise_mono fuel k base (off + x) r h
      next hd => exact h

theorem traceAll_mono {max : Nat} : ∀ (fuel k : Nat) (stack : List (Out × Option Int)) (tc : TC) (r : Bool × TC),
    traceAll F max fuel stack tc = some r → traceAll F max (fuel + k) stack tc = some r
  | 0, _, _, _, _, h => by simp [traceAll] at h
  | fuel + 1, k, [], tc, r, h => by
      rw [show fuel + 1 + k = (fuel + k) + 1 by omega]
      simpa [traceAll] using h
  | fuel + 1, k, (p, off) :: stack, tc, r, h => by
      rw [show fuel + 1 + k = (fuel + k) + 1 by omega]
      rw [traceAll] at h ⊢
      by_cases hm : max ≤ tc.all.length
      · rw [if_pos hm] at h ⊢; exact h
      · rw [if_neg hm] at h ⊢
        cases hl : tc.all.lookup (F.norm p) with
        | none =>
            rw [hl] at h
            exact traceAll_mono fuel k _ _ _ h
        | some w =>
            rw [hl] at h
            cases w with
            | none => exact traceAll_mono fuel k _ _ _ h
            | some prev =>
                simp only at h ⊢
                by_cases ho : off = some prev
                · rw [if_pos ho] at h ⊢; exact traceAll_mono fuel k _ _ _ h
                · rw [if_neg ho] at h ⊢; exact traceAll_mono fuel k _ _ _ h

theorem traceUsers_mono : ∀ (fuel k : Nat) (queue added : List Out) (r : Bool), traceUsers F fuel queue added = some r →
    traceUsers F (fuel + k) queue added = some r
  | 0, _, _, _, _, h => by simp [traceUsers] at h
  | fuel + 1, k, [], added, r, h => by
      rw [show fuel + 1 + k = (fuel + k) + 1 by omega]
      simpa [traceUsers] using h
  | fuel + 1, k, p :: queue, added, r, h => by
      rw [show fuel + 1 + k = (fuel + k) + 1 by omega]
      rw [traceUsers] at h ⊢
      by_cases he : Use.escape ∈ F.users p
      · rw [if_pos he] at h ⊢; exact h
      · rw [if_neg he] at h ⊢
        exact traceUsers_mono fuel k _ _ _ h

theorem onlyTraceable_mono (fuel k : Nat) : ∀ (m : Map) (r : Bool), onlyTraceable F fuel m = some r →
    onlyTraceable F (fuel + k) m = some r
  | [], _, h => h
  | e :: m, r, h => by
      rw [onlyTraceable] at h ⊢
      cases hf : fullyTraceable F fuel e.1 with
      | none => rw [hf] at h; simp at h
      | some b =>
          have hf' : fullyTraceable F (fuel + k) e.1 = some b := by
            unfold fullyTraceable at hf ⊢
            split
            next ha => rw [if_pos ha] at hf; exact traceUsers_mono _ _ _ _ _ hf
            next ha => rw [if_neg ha] at hf; exact hf
          rw [hf, Option.bind_some] at h
          rw [hf', Option.bind_some]
          cases b with
          | false => exact h
          | true => exact onlyTraceable_mono fuel k m r h

theorem queryTops_mono {strict : Bool} {fuel k : Nat} {off1 off2 : Int} {s1 s2 : Nat} {t1 t2 : TC} {r : Response}
    (h : queryTops F strict fuel off1 s1 off2 s2 t1 t2 = some r) :
    queryTops F strict (fuel + k) off1 s1 off2 s2 t1 t2 = some r := by
  unfold queryTops at h ⊢
  simp only at h ⊢
  revert h
  split
  · exact fun h => h
  · generalize removeWithin F s1 _ _ = m1
    generalize removeWithin F s2 _ _ = m2
    split
    · exact fun h => h
    · split
      · exact fun h => h
      · generalize (if onlyAlloca F m1 = true then removeParams F m2 else m2) = m2'
        generalize (if onlyAlloca F m1 = true then m1 else if onlyAlloca F m2 = true then removeParams F m1 else m1) = m1'
        split
        · exact fun h => h
        · intro h
          cases h1 : onlyTraceable F fuel m1' with
          | none => rw [h1] at h; simp at h
          | some b1 =>
              rw [h1, Option.bind_some] at h
              rw [onlyTraceable_mono fuel k _ _ h1, Option.bind_some]
              cases b1 with
              | true => exact h
              | false =>
                  simp only [Bool.false_eq_true, if_false] at h ⊢
                  cases h2 : onlyTraceable F fuel m2' with
                  | none => rw [h2] at h; simp at h
                  | some b2 => rw [onlyTraceable_mono fuel k _ _ h2]; rw [h2] at h; exact h

theorem query_mono {strict : Bool} {max fuel k s1 s2 : Nat} {p1 p2 : Out} {r : Response}
    (h : query F strict max fuel p1 s1 p2 s2 = some r) : query F strict max (fuel + k) p1 s1 p2 s2 = some r := by
  unfold query at h ⊢
  by_cases hn : F.norm p1 = F.norm p2
  · rw [if_pos hn] at h ⊢; exact h
  · rw [if_neg hn] at h ⊢
    cases h1 : precise F fuel (F.norm p1) 0 with
    | none => rw [h1] at h; simp at h
    | some r1 =>
        rw [h1, Option.bind_some] at h
        rw [precise_mono fuel k _ _ _ h1, Option.bind_some]
        cases h2 : precise F fuel (F.norm p2) 0 with
        | none => rw [h2] at h; simp at h
        | some r2 =>
            rw [h2, Option.bind_some] at h
            rw [precise_mono fuel k _ _ _ h2, Option.bind_some]
            by_cases hb : r1.1 = r2.1
            · rw [if_pos hb] at h ⊢; exact h
            · rw [if_neg hb] at h ⊢
              by_cases hm : max ≤ 1
              · rw [if_pos hm] at h ⊢; exact h
              · rw [if_neg hm] at h ⊢
                cases ht1 : traceAll F max fuel [(r1.1, some r1.2)] ⟨[], []⟩ with
                | none => rw [ht1] at h; simp at h
                | some t1 =>
                    rw [ht1, Option.bind_some] at h
                    rw [traceAll_mono fuel k _ _ _ ht1, Option.bind_some]
                    by_cases hc1 : (!t1.1) = true
                    · rw [if_pos hc1] at h ⊢; exact h
                    · rw [if_neg hc1] at h ⊢
                      cases ht2 : traceAll F max fuel [(r2.1, some r2.2)] ⟨[], []⟩ with
                      | none => rw [ht2] at h; simp at h
                      | some t2 =>
                          rw [ht2, Option.bind_some] at h
                          rw [traceAll_mono fuel k _ _ _ ht2, Option.bind_some]
                          by_cases hc2 : (!t2.1) = true
                          · rw [if_pos hc2] at h ⊢; exact h
                          · rw [if_neg hc2] at h ⊢; exact queryTops_mono h

/-! ### Enough fuel -/

/-- The graph is acyclic, and finite. -/
structure Fn.Finite (F : Fn) : Prop where
  acyclic : ∃ rank : Out → Nat, ∀ o b k, F.deff (F.norm o) = .gep b k → rank b < rank o
  bound : ∃ n, ∀ o ts t, Use.flow ts ∈ F.users o → t ∈ ts → t < n

theorem precise_ends {rank : Out → Nat} (hr : ∀ o b k, F.deff (F.norm o) = .gep b k → rank b < rank o) :
    ∀ (n : Nat) (o : Out) (off : Int), rank o ≤ n → ∃ r, precise F (n + 1) o off = some r := by
  intro n
  induction n with
  | zero =>
      intro o off hn
      rw [precise]
      split
      next b k hd => have := hr o b _ hd; omega
      next => exact ⟨_, rfl⟩
  | succ n ih =>
      intro o off hn
      rw [precise]
      split
      next b k hd => exact ih b _ (by have := hr o b _ hd; omega)
      next => exact ⟨_, rfl⟩

/-- How much is known already. -/
def pot (m : Map) : Nat := m.length + (m.filter fun e => e.2.isNone).length

theorem pot_le (m : Map) : pot m ≤ 2 * m.length := by
  have := List.length_filter_le (fun e : Out × Option Int => e.2.isNone) m
  unfold pot
  omega

theorem filter_absent {m : Map} {b : Out} (h : m.lookup b = none) : (m.filter fun e => e.1 ≠ b) = m := by
  rw [List.filter_eq_self]
  intro e he
  have : e.1 ≠ b := by
    intro hb
    induction m with
    | nil => simp at he
    | cons x m ih =>
        rw [List.lookup_cons] at h
        by_cases hx : b == x.1
        · rw [hx] at h; simp at h
        · have : (b == x.1) = false := by simpa using hx
          rw [this] at h
          rcases List.mem_cons.1 he with he | he
          · subst he; simp [hb] at hx
          · exact ih h he
  simpa using this

theorem pot_new {m : Map} {b : Out} {v : Option Int} (h : m.lookup b = none) :
    (m.set b v).length = m.length + 1 ∧ pot m + 1 ≤ pot (m.set b v) := by
  unfold Map.set
  rw [filter_absent h]
  refine ⟨rfl, ?_⟩
  unfold pot
  rw [List.filter_cons, List.length_cons]
  split
  · simp only [List.length_cons]
    omega
  · omega

theorem pot_none {b : Out} {prev : Int} : ∀ {m : Map}, (Keys m).Nodup → m.lookup b = some (some prev) →
    (m.set b none).length = m.length ∧ pot (m.set b none) = pot m + 1
  | [], _, h => by simp at h
  | e :: m, hn, h => by
      unfold Keys at hn
      rw [List.map_cons, List.nodup_cons] at hn
      rw [List.lookup_cons] at h
      by_cases hb : b = e.1
      · have hbe : (b == e.1) = true := by simpa using hb
        rw [hbe] at h
        have h2 : e.2 = some prev := by simpa using h
        have habs : m.lookup b = none := by
          cases hl : m.lookup b with
          | none => rfl
          | some w => exact absurd (List.mem_map.2 ⟨_, mem_of_lookup hl, hb⟩) hn.1
        have hf : (e :: m).filter (fun x => decide (x.1 ≠ b)) = m := by
          rw [List.filter_cons]
          have : decide (e.1 ≠ b) = false := by simp [hb]
          rw [this]
          exact filter_absent habs
        unfold Map.set
        rw [hf]
        refine ⟨rfl, ?_⟩
        unfold pot
        simp [h2]
        omega
      · have hbe : (b == e.1) = false := by simpa using hb
        rw [hbe] at h
        obtain ⟨h1, h2⟩ := pot_none (m := m) hn.2 h
        have hf : (e :: m).filter (fun x => decide (x.1 ≠ b)) = e :: m.filter fun x => decide (x.1 ≠ b) := by
          rw [List.filter_cons]
          have : decide (e.1 ≠ b) = true := by simpa using fun h => hb h.symm
          rw [this, if_pos rfl]
        unfold Map.set at h1 h2 ⊢
        rw [hf]
        unfold pot at h2 ⊢
        simp only [List.filter_cons, List.length_cons, Option.isNone_none, if_true] at h1 h2 ⊢
        refine ⟨by omega, ?_⟩
        split
        · simp only [List.length_cons] at h2 ⊢
          omega
        · omega

theorem traceAll_ends {max : Nat} : ∀ (n l : Nat) (stack : List (Out × Option Int)) (tc : TC), (Keys tc.all).Nodup →
    2 * max ≤ pot tc.all + n → stack.length ≤ l → ∃ fuel r, traceAll F max fuel stack tc = some r := by
  intro n
  induction n using Nat.strongRecOn with
  | _ n ihn =>
    intro l
    induction l with
    | zero =>
        intro stack tc _ _ hl
        have : stack = [] := List.length_eq_zero_iff.1 (by omega)
        subst this
        exact ⟨1, _, rfl⟩
    | succ l ihl =>
        intro stack tc hnd hpot hl
        cases stack with
        | nil => exact ⟨1, _, rfl⟩
        | cons x stack =>
            obtain ⟨p, off⟩ := x
            rw [List.length_cons] at hl
            by_cases hm : max ≤ tc.all.length
            · refine ⟨1, (false, tc), ?_⟩
              rw [traceAll, if_pos hm]
            · have hpl := pot_le tc.all
              -- the tracing goes on after an output is recorded
              have hexp : ∀ v, (Keys (tc.all.set (F.norm p) v)).Nodup → pot tc.all + 1 ≤ pot (tc.all.set (F.norm p) v) →
                  ∃ fuel r, traceAll F max fuel ((expand F (F.norm p) v tc).1 ++ stack) (expand F (F.norm p) v tc).2 =
                    some r := by
                intro v hk hp
                have hall : (expand F (F.norm p) v tc).2.all = tc.all.set (F.norm p) v := by
                  unfold expand
                  split <;> rfl
                exact ihn (n - 1) (by omega) _ _ _ (by rw [hall]; exact hk) (by rw [hall]; omega) Nat.le.refl
              cases hl' : tc.all.lookup (F.norm p) with
              | none =>
                  obtain ⟨fuel, r, h⟩ := hexp off (keys_set_nodup _ _ hnd) (pot_new hl').2
                  refine ⟨fuel + 1, r, ?_⟩
                  rw [traceAll, if_neg hm, hl']
                  exact h
              | some w =>
                  cases w with
                  | none =>
                      obtain ⟨fuel, r, h⟩ := ihl stack tc hnd hpot (by omega)
                      refine ⟨fuel + 1, r, ?_⟩
                      rw [traceAll, if_neg hm, hl']
                      exact h
                  | some prev =>
                      by_cases ho : off = some prev
                      · obtain ⟨fuel, r, h⟩ := ihl stack tc hnd hpot (by omega)
                        refine ⟨fuel + 1, r, ?_⟩
                        rw [traceAll, if_neg hm, hl']
                        simp only
                        rw [if_pos ho]
                        exact h
                      · obtain ⟨fuel, r, h⟩ := hexp none (keys_set_nodup _ _ hnd)
                          (by have := (pot_none hnd hl').2; omega)
                        refine ⟨fuel + 1, r, ?_⟩
                        rw [traceAll, if_neg hm, hl']
                        simp only
                        rw [if_neg ho]
                        exact h

theorem eraseDups_nodup : ∀ (n : Nat) (l : List Out), l.length ≤ n → l.eraseDups.Nodup := by
  intro n
  induction n with
  | zero =>
      intro l hl
      have : l = [] := List.length_eq_zero_iff.1 (by omega)
      subst this
      simp
  | succ n ih =>
      intro l hl
      cases l with
      | nil => simp
      | cons a l =>
          rw [List.eraseDups_cons, List.nodup_cons]
          refine ⟨?_, ih _ ?_⟩
          · rw [List.mem_eraseDups, List.mem_filter]
            simp
          · have := List.length_filter_le (fun b => !b == a) l
            rw [List.length_cons] at hl
            omega

theorem traceUsers_ends {n : Nat} (hb : ∀ o ts t, Use.flow ts ∈ F.users o → t ∈ ts → t < n) :
    ∀ (k : Nat) (queue added : List Out), added.Nodup → (∀ o ∈ added, o < n) → queue.length + n ≤ k + added.length →
      ∃ r, traceUsers F (k + 1) queue added = some r := by
  intro k
  induction k with
  | zero =>
      intro queue added hnd hlt hk
      have hle : added.length ≤ n := by
        have := (hnd.subperm (l₂ := List.range n) (fun o ho => List.mem_range.2 (hlt o ho))).length_le
        simpa using this
      have : queue = [] := List.length_eq_zero_iff.1 (by omega)
      subst this
      exact ⟨true, rfl⟩
  | succ k ih =>
      intro queue added hnd hlt hk
      cases queue with
      | nil => exact ⟨true, rfl⟩
      | cons p queue =>
          rw [traceUsers]
          by_cases he : Use.escape ∈ F.users p
          · exact ⟨false, by rw [if_pos he]⟩
          · rw [if_neg he]
            apply ih
            · rw [List.nodup_append]
              refine ⟨hnd, (eraseDups_nodup _ _ Nat.le.refl).filter _, ?_⟩
              intro a ha b hb' hab
              subst hab
              have := (List.mem_filter.1 hb').2
              simp at this
              exact this ha
            · intro o ho
              rcases List.mem_append.1 ho with ho | ho
              · exact hlt o ho
              · have := (List.mem_filter.1 ho).1
                rw [List.mem_eraseDups, List.mem_flatMap] at this
                obtain ⟨u, hu, hou⟩ := this
                cases u with
                | flow ts => exact hb p ts o hu hou
                | access => simp at hou
                | escape => simp at hou
            · simp only [List.length_append, List.length_cons] at hk ⊢
              omega

theorem onlyTraceable_ends {n : Nat} (hb : ∀ o ts t, Use.flow ts ∈ F.users o → t ∈ ts → t < n) :
    ∀ (m : Map), ∃ fuel r, onlyTraceable F fuel m = some r
  | [] => ⟨0, true, rfl⟩
  | e :: m => by
      obtain ⟨f2, r2, h2⟩ := onlyTraceable_ends hb m
      have h1 : ∃ f1 r1, fullyTraceable F f1 e.1 = some r1 := by
        by_cases ha : isAlloca (F.deff e.1) = true
        · obtain ⟨N, hN1, hN2⟩ : ∃ N : Nat, n ≤ N ∧ e.1 < N :=
            ⟨max n (Nat.succ e.1), Nat.le_max_left .., Nat.lt_of_lt_of_le (Nat.lt_succ_self _) (Nat.le_max_right ..)⟩
          obtain ⟨r, hr⟩ := traceUsers_ends (n := N) (F := F)
            (fun o ts t h1 h2 => Nat.lt_of_lt_of_le (hb o ts t h1 h2) hN1) N [e.1] [e.1] (by simp)
            (by intro o ho; simp at ho; rw [ho]; exact hN2) (by simp [Nat.add_comm])
          exact ⟨_, r, by unfold fullyTraceable; rw [if_pos ha]; exact hr⟩
        · exact ⟨0, false, by unfold fullyTraceable; rw [if_neg ha]⟩
      obtain ⟨f1, r1, h1⟩ := h1
      have h1' : fullyTraceable F (f1 + f2) e.1 = some r1 := by
        unfold fullyTraceable at h1 ⊢
        split
        next ha => rw [if_pos ha] at h1; exact traceUsers_mono _ _ _ _ _ h1
        next ha => rw [if_neg ha] at h1; exact h1
      have h2' := onlyTraceable_mono f2 f1 _ _ h2
      rw [Nat.add_comm] at h2'
      cases r1 with
      | false => exact ⟨f1 + f2, false, by rw [onlyTraceable, h1']; rfl⟩
      | true => exact ⟨f1 + f2, r2, by rw [onlyTraceable, h1']; exact h2'⟩

theorem queryTops_ends {n : Nat} (hb : ∀ o ts t, Use.flow ts ∈ F.users o → t ∈ ts → t < n) (strict : Bool) (off1 off2 : Int)
    (s1 s2 : Nat) (t1 t2 : TC) : ∃ fuel r, queryTops F strict fuel off1 s1 off2 s2 t1 t2 = some r := by
  unfold queryTops
  simp only
  split
  · exact ⟨0, _, rfl⟩
  · generalize removeWithin F s1 _ _ = m1
    generalize removeWithin F s2 _ _ = m2
    split
    · exact ⟨0, _, rfl⟩
    · split
      · exact ⟨0, _, rfl⟩
      · generalize (if onlyAlloca F m1 = true then removeParams F m2 else m2) = m2'
        generalize (if onlyAlloca F m1 = true then m1 else if onlyAlloca F m2 = true then removeParams F m1 else m1) = m1'
        split
        · exact ⟨0, _, rfl⟩
        · obtain ⟨f1, r1, h1⟩ := onlyTraceable_ends hb m1'
          obtain ⟨f2, r2, h2⟩ := onlyTraceable_ends hb m2'
          have h2' := onlyTraceable_mono f2 f1 _ _ h2
          rw [Nat.add_comm] at h2'
          refine ⟨f1 + f2, if r1 then .noAlias else if r2 then .noAlias else .mayAlias, ?_⟩
          rw [onlyTraceable_mono f1 f2 _ _ h1, h2']
          cases r1 <;> rfl

theorem query_ends (hF : F.Finite) (strict : Bool) (max : Nat) (p1 : Out) (s1 : Nat) (p2 : Out) (s2 : Nat) :
    ∃ fuel r, query F strict max fuel p1 s1 p2 s2 = some r := by
  obtain ⟨rank, hr⟩ := hF.acyclic
  obtain ⟨n, hb⟩ := hF.bound
  by_cases hn : F.norm p1 = F.norm p2
  · exact ⟨0, _, by unfold query; rw [if_pos hn]⟩
  · obtain ⟨r1, h1⟩ := precise_ends hr _ (F.norm p1) 0 Nat.le.refl
    obtain ⟨r2, h2⟩ := precise_ends hr _ (F.norm p2) 0 Nat.le.refl
    generalize rank (F.norm p1) + 1 = f1 at h1
    generalize rank (F.norm p2) + 1 = f2 at h2
    obtain ⟨f3, t1, h3⟩ := traceAll_ends (F := F) (max := max) (2 * max) 1 [(r1.1, some r1.2)] ⟨[], []⟩ List.nodup_nil
      (by simp [pot]) (by simp)
    obtain ⟨f4, t2, h4⟩ := traceAll_ends (F := F) (max := max) (2 * max) 1 [(r2.1, some r2.2)] ⟨[], []⟩ List.nodup_nil
      (by simp [pot]) (by simp)
    obtain ⟨f5, r5, h5⟩ := queryTops_ends hb strict r1.2 r2.2 s1 s2 t1.2 t2.2
    refine ⟨f1 + f2 + f3 + f4 + f5, if r1.1 = r2.1 then queryOffsets (some r1.2) s1 (some r2.2) s2
      else if max ≤ 1 then (if isOriginal (F.deff r1.1) && isOriginal (F.deff r2.1) then .noAlias else .mayAlias)
      else if !t1.1 then .mayAlias else if !t2.1 then .mayAlias else r5, ?_⟩
    unfold query
    rw [if_neg hn]
    have h1' := precise_mono f1 (f2 + f3 + f4 + f5) _ _ _ h1
    have h2' := precise_mono f2 (f1 + f3 + f4 + f5) _ _ _ h2
    have h3' := traceAll_mono f3 (f1 + f2 + f4 + f5) _ _ _ h3
    have h4' := traceAll_mono f4 (f1 + f2 + f3 + f5) _ _ _ h4
    have h5' := queryTops_mono (k := f1 + f2 + f3 + f4) h5
    rw [show f1 + (f2 + f3 + f4 + f5) = f1 + f2 + f3 + f4 + f5 by omega] at h1'
    rw [show f2 + (f1 + f3 + f4 + f5) = f1 + f2 + f3 + f4 + f5 by omega] at h2'
    rw [show f3 + (f1 + f2 + f4 + f5) = f1 + f2 + f3 + f4 + f5 by omega] at h3'
    rw [show f4 + (f1 + f2 + f3 + f5) = f1 + f2 + f3 + f4 + f5 by omega] at h4'
    rw [show f5 + (f1 + f2 + f3 + f4) = f1 + f2 + f3 + f4 + f5 by omega] at h5'
    rw [h1', h2', Option.bind_some, Option.bind_some, h3', Option.bind_some, h4', Option.bind_some, h5']
    split
    · rfl
    · split
      · rfl
      · split
        · rfl
        · split <;> rfl

end Jlm.Aa.Local
