import Verif.Util.IListProps
import Mathlib.Tactic.Convert

/-! # C46: histories of operations on intrusive lists -/

set_option linter.unusedSimpArgs false
set_option linter.unusedVariables false

namespace Jlm.Util.IL

variable {α : Type} [DecidableEq α]

/-- The lists of the state contain the sequences, and no element is in two lists. -/
structure Inv (s : State α) (A : Abs α) : Prop where
  rep : ∀ k : Nat, Rep (s.get k) (A k)
  disj : ∀ (k j : Nat) (x : α), x ∈ A k → x ∈ A j → k = j

theorem rep_frame {h h' : Heap α} {l : Lst α} {xs : List α} (hf : ∀ x ∈ xs, h'.next x = h.next x ∧ h'.prev x = h.prev x)
    (hr : Rep (h, l) xs) : Rep (h', l) xs := by
  refine ⟨hr.1, path_congr _ ?_ ?_ hr.2⟩
  · intro u hu
    have : u ∈ none :: xs.map some := by
      have h2 : ring xs = (none :: xs.map some) ++ [none] := by simp [ring]
      rw [h2, List.dropLast_concat] at hu
      exact hu
    rcases mem_left this with rfl | ⟨x, hx, rfl⟩
    · rfl
    · exact (hf x hx).1
  · intro u hu
    simp only [ring, List.cons_append, List.tail_cons, List.mem_append, List.mem_map, List.mem_singleton] at hu
    rcases hu with ⟨x, hx, rfl⟩ | rfl
    · exact (hf x hx).2
    · rfl

theorem rep_before {p : Pair α} {a b : List α} (h : Rep p (a ++ b)) : before p b.head? = a.getLast? := by
  have h3 := ((ring_append a b).1 h.2).2.2.1
  rw [← h3]
  cases hb : b.head? <;> rfl

theorem heap_set (p : Pair α) (u v w t : Option α) (z : α) (hu : u ≠ some z) (hw : w ≠ some z) :
    (setPrevOrLast (setNextOrFirst p u v) w t).1.next z = p.1.next z ∧ (setPrevOrLast (setNextOrFirst p u v) w t).1.prev z = p.1.prev z := by
  cases u with
  | none =>
    cases w with
    | none => simp [setPrevOrLast, setNextOrFirst]
    | some y =>
      have : z ≠ y := fun h => hw (by rw [h])
      simp [setPrevOrLast, setNextOrFirst, Heap.setPrev, this]
  | some y' =>
    have h' : z ≠ y' := fun h => hu (by rw [h])
    cases w with
    | none => simp [setPrevOrLast, setNextOrFirst, Heap.setNext, h']
    | some y =>
      have : z ≠ y := fun h => hw (by rw [h])
      simp [setPrevOrLast, setNextOrFirst, Heap.setPrev, Heap.setNext, this, h']

theorem unlink_frame {p : Pair α} {c : List α} {x : α} {m d : List α} (h : Rep p (c ++ (x :: m) ++ d)) {z : α} (hc : z ∉ c) (hd : z ∉ d) :
    (unlink p x d.head?).1.next z = p.1.next z ∧ (unlink p x d.head?).1.prev z = p.1.prev z := by
  have h3 : p.1.prev x = c.getLast? := ((ring_mid c x m d).1 h.2).2.2.1
  simp only [unlink, h3]
  exact heap_set p _ _ _ _ z (fun he => hc (last_mem he)) (fun he => hd (head_mem he))

theorem link_frame {p : Pair α} {a b : List α} (h : Rep p (a ++ b)) {x y z : α} (ha : z ∉ a) (hb : z ∉ b) (hx : z ≠ x) (hy : z ≠ y) :
    (link p b.head? x y).1.next z = p.1.next z ∧ (link p b.head? x y).1.prev z = p.1.prev z := by
  simp only [link, rep_before h]
  have := heap_set ((p.1.setPrev x a.getLast?).setNext y b.head?, p.2) a.getLast? (some x) b.head? (some y) z
    (fun he => ha (last_mem he)) (fun he => hb (head_mem he))
  rw [this.1, this.2]
  simp [Heap.setNext, Heap.setPrev, hx, hy]

theorem get_set_self (s : State α) (k : Nat) (p : Pair α) : (s.set k p).get k = p := by simp [State.get, State.set]

theorem get_set_ne (s : State α) {k j : Nat} (p : Pair α) (h : j ≠ k) : (s.set k p).get j = (p.1, s.lists j) := by
  simp [State.get, State.set, h]

theorem inv_unlink {s : State α} {A : Abs α} (hi : Inv s A) {j : Nat} {c : List α} {x : α} {m d : List α} (hA : A j = c ++ (x :: m) ++ d) :
    Inv (s.set j (unlink (s.get j) x d.head?)) (A.set j (c ++ d)) ∧
      Path (nx ((s.set j (unlink (s.get j) x d.head?)).get j)) (pv ((s.set j (unlink (s.get j) x d.head?)).get j)) ((x :: m).map some) := by
  have hr := hi.rep j
  rw [hA] at hr
  obtain ⟨h1, h2⟩ := unlink_spec hr
  rw [get_set_self]
  refine ⟨⟨?_, ?_⟩, h2⟩
  · intro k
    by_cases hk : k = j
    · subst hk
      rw [get_set_self]
      simpa [Abs.set] using h1
    · rw [get_set_ne _ _ hk]
      simp only [Abs.set, hk, if_false]
      refine rep_frame (h := s.heap) (fun z hz => ?_) (hi.rep k)
      refine unlink_frame hr ?_ ?_
      · intro hzc
        exact hk (hi.disj k j z hz (by rw [hA]; simp [hzc]))
      · intro hzd
        exact hk (hi.disj k j z hz (by rw [hA]; simp [hzd]))
  · have hsub : ∀ (k : Nat) (z : α), z ∈ A.set j (c ++ d) k → z ∈ A k := by
      intro k z hz
      simp only [Abs.set] at hz
      split at hz
      · rename_i hk
        subst hk
        rw [hA]
        simp only [List.mem_append] at hz ⊢
        rcases hz with hz | hz
        · exact .inl (.inl hz)
        · exact .inr hz
      · exact hz
    exact fun k k' z hz hz' => hi.disj k k' z (hsub k z hz) (hsub k' z hz')

theorem path_heap {p q : Pair α} (h : p.1 = q.1) (m : List α) (hp : Path (nx p) (pv p) (m.map some)) : Path (nx q) (pv q) (m.map some) := by
  refine path_congr _ ?_ ?_ hp
  · intro u hu
    obtain ⟨z, _, rfl⟩ := List.mem_map.1 (List.dropLast_subset _ hu)
    simp [nx, h]
  · intro u hu
    obtain ⟨z, _, rfl⟩ := List.mem_map.1 (List.mem_of_mem_tail hu)
    simp [pv, h]

theorem inv_link {s : State α} {A : Abs α} (hi : Inv s A) {k : Nat} {a b : List α} {x : α} {m : List α} {y : α} (hA : A k = a ++ b)
    (hy : (x :: m).getLast? = some y) (hm : (x :: m).Nodup) (hnew : ∀ (j : Nat), ∀ z ∈ x :: m, z ∉ A j)
    (hp : Path (nx (s.get k)) (pv (s.get k)) ((x :: m).map some)) :
    Inv (s.set k (link (s.get k) b.head? x y)) (A.set k (a ++ (x :: m) ++ b)) := by
  have hr := hi.rep k
  rw [hA] at hr
  have hn : (a ++ (x :: m) ++ b).Nodup := by
    have h1 := hr.1
    have h2 := hnew k
    rw [hA] at h2
    rw [List.nodup_append] at h1
    rw [List.nodup_append, List.nodup_append]
    refine ⟨⟨h1.1, hm, ?_⟩, h1.2.1, ?_⟩
    · intro u hu v hv huv
      exact h2 v hv (by rw [← huv]; simp [hu])
    · intro u hu v hv huv
      rcases List.mem_append.1 hu with hu | hu
      · exact h1.2.2 u hu v hv huv
      · exact h2 u hu (by rw [huv]; simp [hv])
  have h1 := link_spec hr hy hp hn
  have hym : y ∈ x :: m := last_mem hy
  refine ⟨?_, ?_⟩
  · intro j
    by_cases hj : j = k
    · subst hj
      rw [get_set_self]
      simpa [Abs.set] using h1
    · rw [get_set_ne _ _ hj]
      simp only [Abs.set, hj, if_false]
      refine rep_frame (h := s.heap) (fun z hz => ?_) (hi.rep j)
      refine link_frame hr ?_ ?_ ?_ ?_
      · intro hza
        exact hj (hi.disj j k z hz (by rw [hA]; simp [hza]))
      · intro hzb
        exact hj (hi.disj j k z hz (by rw [hA]; simp [hzb]))
      · rintro rfl
        exact hnew j z (by simp) hz
      · rintro rfl
        exact hnew j z hym hz
  · have hsub : ∀ (j : Nat) (z : α), z ∈ A.set k (a ++ (x :: m) ++ b) j → z ∈ A j ∨ (j = k ∧ z ∈ x :: m) := by
      intro j z hz
      simp only [Abs.set] at hz
      split at hz
      · rename_i hj
        subst hj
        rw [List.mem_append, List.mem_append] at hz
        rcases hz with (hz | hz) | hz
        · exact .inl (by rw [hA]; simp [hz])
        · exact .inr ⟨rfl, hz⟩
        · exact .inl (by rw [hA]; simp [hz])
      · exact .inl hz
    intro i j z hzi hzj
    rcases hsub i z hzi with h1 | ⟨h1, h1'⟩ <;> rcases hsub j z hzj with h2 | ⟨h2, h2'⟩
    · exact hi.disj i j z h1 h2
    · exact absurd h1 (hnew i z h2')
    · exact absurd h2 (hnew j z h1')
    · rw [h1, h2]

theorem insert_eq_link (p : Pair α) (i : Option α) (x : α) : insert p i x = link p i x x := rfl

theorem erase_eq_unlink (p : Pair α) (x : α) : erase p x = unlink p x (p.1.next x) := rfl

theorem pushBack_eq_insert (p : Pair α) (x : α) (h : ∀ y, p.2.last = some y → y ≠ x) (he : p.2.last = none → p.2.first = none) :
    pushBack p x = insert p none x := by
  cases hl : p.2.last with
  | none =>
    have := he hl
    simp [pushBack, insert, before, setNextOrFirst, setPrevOrLast, hl]
  | some y => simp [pushBack, insert, before, setNextOrFirst, setPrevOrLast, hl]

theorem pushFront_eq_insert (p : Pair α) (x : α) (h : before p p.2.first = none) : pushFront p x = insert p p.2.first x := by
  cases hl : p.2.first with
  | none =>
    rw [hl] at h
    simp [pushFront, insert, h, setNextOrFirst, setPrevOrLast, hl]
  | some y =>
    rw [hl] at h
    simp [pushFront, insert, h, setNextOrFirst, setPrevOrLast, hl]

theorem rep_first {p : Pair α} {xs : List α} (h : Rep p xs) : p.2.first = xs.head? := by
  have := ((ring_append [] xs).1 h.2).2.1
  simpa [nx] using this

theorem rep_last {p : Pair α} {xs : List α} (h : Rep p xs) : p.2.last = xs.getLast? := by
  have h' : Rep p (xs ++ []) := by simpa using h
  have := ((ring_append xs []).1 h'.2).2.2.1
  simpa [pv] using this

/-- One operation. -/
theorem exec_inv {s : State α} {A B : Abs α} {op : Op α} (hi : Inv s A) (h : Step A op B) : Inv (s.exec op) B := by
  cases h with
  | pushBack k x hx =>
    have he : IL.pushBack (s.get k) x = link (s.get k) ([] : List α).head? x x := by
      rw [pushBack_eq_insert]
      · rfl
      · intro y hy hyx
        rw [rep_last (hi.rep k)] at hy
        exact hx k (hyx ▸ last_mem hy)
      · intro hl
        rw [rep_last (hi.rep k)] at hl
        rw [rep_first (hi.rep k)]
        simpa using hl
    have := inv_link (y := x) hi (k := k) (a := A k) (b := []) (x := x) (m := []) (by simp) rfl (by simp) (by simpa using hx) trivial
    simp only [State.exec, he]
    simpa using this
  | pushFront k x hx =>
    have hb : before (s.get k) (s.get k).2.first = none := by
      have := rep_before (a := []) (b := A k) (p := s.get k) (hi.rep k)
      rw [rep_first (hi.rep k), this]
      rfl
    have he : IL.pushFront (s.get k) x = link (s.get k) (A k).head? x x := by
      rw [pushFront_eq_insert _ _ hb, rep_first (hi.rep k)]
      rfl
    have := inv_link (y := x) hi (k := k) (a := []) (b := A k) (x := x) (m := []) (by simp) rfl (by simp) (by simpa using hx) trivial
    simp only [State.exec, he]
    simpa using this
  | insert k x a b hx hA =>
    have := inv_link (y := x) hi (k := k) (a := a) (b := b) (x := x) (m := []) hA rfl (by simp) (by simpa using hx) trivial
    simp only [State.exec, insert_eq_link]
    simpa using this
  | erase k x a b hA =>
    have hA' : A k = a ++ [x] ++ b := by simp [hA]
    have hr := hi.rep k
    rw [hA'] at hr
    have hnx : (s.get k).1.next x = b.head? := ((ring_mid a x [] b).1 hr.2).2.2.2.2.1
    simp only [State.exec, erase_eq_unlink, hnx]
    exact (inv_unlink hi hA').1
  | splice k j c m d a b hj hk =>
    cases m with
    | nil =>
      have h1 : A.set j (c ++ d) = A := by
        funext i
        simp only [Abs.set]
        split
        · rename_i h
          rw [h, hj]
          simp
        · rfl
      rw [h1] at hk ⊢
      have h2 : A.set k (a ++ [] ++ b) = A := by
        funext i
        simp only [Abs.set]
        split
        · rename_i h
          rw [h, hk]
          simp
        · rfl
      rw [h2]
      simpa [State.exec] using hi
    | cons x m =>
      have hr := hi.rep j
      rw [hj] at hr
      have hn := hr.1
      rw [List.nodup_append, List.nodup_append] at hn
      have hne : some x ≠ d.head? := fun he => hn.2.2 x (by simp) x (head_mem he.symm) rfl
      have hlast : before (s.get j) d.head? = (x :: m).getLast? := by
        rw [rep_before hr, List.getLast?_append]
        cases hl : (x :: m).getLast? with
        | none => simp at hl
        | some y => rfl
      obtain ⟨y, hy⟩ : ∃ y, (x :: m).getLast? = some y := ⟨(x :: m).getLast (by simp), List.getLast?_eq_some_getLast (by simp)⟩
      obtain ⟨hi1, hp1⟩ := inv_unlink hi hj
      have hexec : s.exec (.splice k b.head? j ((x :: m) ++ d).head? d.head?) =
          (s.set j (unlink (s.get j) x d.head?)).set k (link ((s.set j (unlink (s.get j) x d.head?)).get k) b.head? x y) := by
        simp only [State.exec, List.cons_append, List.head?_cons, hne, if_false, hlast, hy]
      rw [hexec]
      refine inv_link hi1 hk hy hn.1.2.1 ?_ (path_heap (p := (s.set j (unlink (s.get j) x d.head?)).get j)
        (q := (s.set j (unlink (s.get j) x d.head?)).get k) rfl _ hp1)
      intro i z hz hzi
      simp only [Abs.set] at hzi
      split at hzi
      · rcases List.mem_append.1 hzi with h | h
        · exact hn.1.2.2 z h z hz rfl
        · exact hn.2.2 z (List.mem_append.2 (.inr hz)) z h rfl
      · rename_i hij
        exact hij (hi.disj i j z hzi (by rw [hj]; exact List.mem_append.2 (.inl (List.mem_append.2 (.inr hz)))))
  | clear k =>
    refine ⟨?_, ?_⟩
    · intro j
      by_cases hj : j = k
      · subst hj
        simp only [State.exec]
        rw [get_set_self]
        simp [Abs.set, Rep, ring, Path, nx, pv, Lst.nil]
      · simp only [State.exec]
        rw [get_set_ne _ _ hj]
        simp only [Abs.set, hj, if_false]
        exact hi.rep j
    · intro i j z hzi hzj
      simp only [Abs.set] at hzi hzj
      split at hzi
      · simp at hzi
      · split at hzj
        · simp at hzj
        · exact hi.disj i j z hzi hzj
  | swap k j =>
    refine ⟨?_, ?_⟩
    · intro i
      simp only [State.exec, State.get]
      split
      · exact hi.rep j
      · split
        · exact hi.rep k
        · exact hi.rep i
    · intro i i' z hz hz'
      have hd := hi.disj
      split at hz <;> split at hz' <;> (try split at hz) <;> (try split at hz') <;> (first | omega | skip) <;>
        (have := hd _ _ _ hz hz'; omega)

/-! ## What users see -/

theorem walk_seg {p : Pair α} : ∀ (xs : List α), Path (nx p) (pv p) (xs.map some ++ [none]) → ∀ n : Nat, walk p n xs.head? = xs.take n
  | [], _, n => by cases n <;> simp [walk]
  | x :: xs, h, 0 => by simp [walk]
  | [x], h, n + 1 => by
    have h1 : p.1.next x = none := h.1
    cases n <;> simp [walk, succ, h1]
  | x :: y :: xs, h, n + 1 => by
    have h1 : p.1.next x = some y := h.1
    simp only [List.head?_cons, walk, succ, h1, List.take_succ_cons]
    have := walk_seg (y :: xs) h.2.2 n
    rw [List.head?_cons] at this
    rw [this]

theorem walkBack_seg {p : Pair α} : ∀ (n : Nat) (xs : List α) (i : Option α), pv p i = xs.getLast? → Path (nx p) (pv p) (none :: xs.map some) →
    walkBack p n i = xs.reverse.take n
  | 0, xs, i, _, _ => by simp [walkBack]
  | n + 1, xs, i, hi, h => by
    have hpred : pred p i = pv p i := by cases i <;> rfl
    rcases xs.eq_nil_or_concat with rfl | ⟨t, y, rfl⟩
    · simp only [List.getLast?_nil] at hi
      simp [walkBack, hpred, hi]
    · rw [List.concat_eq_append] at *
      rw [List.getLast?_concat] at hi
      obtain ⟨r, hr, _⟩ := split_left t
      have h' : Path (nx p) (pv p) (r ++ t.getLast? :: some y :: []) := by
        have : none :: (t ++ [y]).map some = r ++ t.getLast? :: some y :: [] := by
          have h2 : (none :: (t ++ [y]).map some : List (Option α)) = (none :: t.map some) ++ [some y] := by simp
          rw [h2, hr]
          simp
        rw [← this]
        exact h
      rw [path_append] at h'
      simp only [walkBack, hpred, hi]
      rw [walkBack_seg n t (some y) h'.2.2.1 (by rw [hr]; exact h'.1)]
      simp

theorem rep_shows {p : Pair α} {xs : List α} (h : Rep p xs) : Shows p xs := by
  have hf := rep_first h
  have hl := rep_last h
  have h1 : Path (nx p) (pv p) (xs.map some ++ [none]) := ((ring_append [] xs).1 h.2).2.2.2
  have h2 : Path (nx p) (pv p) (none :: xs.map some) := by
    have h' : Rep p (xs ++ []) := by simpa using h
    exact ((ring_append xs []).1 h'.2).1
  refine ⟨hf, hl, ?_, ?_, ?_⟩
  · intro n
    rw [hf]
    exact walk_seg xs h1 n
  · intro n
    exact walkBack_seg n xs none hl h2
  · intro n hn
    rw [size, hf, walk_seg xs h1 n, List.take_of_length_le hn]

/-- Empty lists. -/
def State.empty (h : Heap α) : State α := ⟨h, fun _ => Lst.nil⟩

theorem run_inv {A B : Abs α} {ops : List (Op α)} (h : Steps A ops B) : ∀ s : State α, Inv s A → Inv (s.run ops) B := by
  induction h with
  | nil => exact fun s hi => hi
  | cons h1 _ ih => exact fun s hi => ih _ (exec_inv hi h1)

/-- **C46** After every history of operations on any number of lists (whatever the links contained at first), every list shows
exactly the sequence that the operations on sequences give: in both directions, with the right ends and the right size. -/
theorem C46_history (h : Heap α) (ops : List (Op α)) (B : Abs α) (hs : Steps (fun _ => []) ops B) (k : Nat) :
    Shows (((State.empty h).run ops).get k) (B k) := by
  refine rep_shows ((run_inv hs (State.empty h) ⟨?_, ?_⟩).rep k)
  · intro k
    simp [State.empty, State.get, Rep, ring, Path, nx, pv, Lst.nil]
  · intro k j x hx
    simp at hx

/-- **C46** No element is ever in two lists, nor twice in a list. -/
theorem C46_disjoint (ops : List (Op α)) (B : Abs α) (hs : Steps (fun _ => []) ops B) :
    (∀ k : Nat, (B k).Nodup) ∧ ∀ (k j : Nat) (x : α), x ∈ B k → x ∈ B j → k = j := by
  have h := run_inv hs (State.empty ⟨fun _ => none, fun _ => none⟩) ⟨fun k => by
    simp [State.empty, State.get, Rep, ring, Path, nx, pv, Lst.nil], fun k j x hx => by simp at hx⟩
  exact ⟨fun k => (h.rep k).1, h.disj⟩

theorem eraseRange_spec : ∀ (n : Nat) (p : Pair α) (c m d : List α), Rep p (c ++ m ++ d) → m.length < n →
    Shows (eraseRange n p (m ++ d).head? d.head?) (c ++ d)
  | 0, _, _, _, _, _, hn => by omega
  | n + 1, p, c, [], d, h, _ => by
    simp only [List.append_nil] at h
    simpa [eraseRange] using rep_shows h
  | n + 1, p, c, x :: m, d, h, hn => by
    have hn' := h.1
    rw [List.nodup_append, List.nodup_append] at hn'
    have hne : some x ≠ d.head? := fun he => hn'.2.2 x (by simp) x (head_mem he.symm) rfl
    have h' : Rep p (c ++ [x] ++ (m ++ d)) := by simpa using h
    have hnx : p.1.next x = (m ++ d).head? := ((ring_mid c x [] (m ++ d)).1 h'.2).2.2.2.2.1
    simp only [eraseRange, List.cons_append, List.head?_cons, hne, if_false, hnx]
    have he : erase p x = unlink p x (m ++ d).head? := by rw [erase_eq_unlink, hnx]
    refine eraseRange_spec n (erase p x) c m d ?_ (by simp at hn; omega)
    rw [he, List.append_assoc]
    exact (unlink_spec h').1

/-- **C46** `erase(begin, end)` removes the elements from `begin` up to `end`. -/
theorem C46_eraseRange (h : Heap α) (ops : List (Op α)) (B : Abs α) (hs : Steps (fun _ => []) ops B) (k : Nat) (c m d : List α)
    (hk : B k = c ++ m ++ d) (n : Nat) (hn : m.length < n) :
    Shows (eraseRange n (((State.empty h).run ops).get k) (m ++ d).head? d.head?) (c ++ d) := by
  have hi := run_inv hs (State.empty h) ⟨fun k => by
    simp [State.empty, State.get, Rep, ring, Path, nx, pv, Lst.nil], fun k j x hx => by simp at hx⟩
  exact eraseRange_spec n _ c m d (hk ▸ hi.rep k) hn

/-! ## Users of outputs -/

/-- `Output::divert_users` (node.hpp:300-308) with `Input::divert_to` (node.cpp:63-80), at most `n` users: the first user is taken
out of the list `k` of the users of this output (`remove_user`, node.cpp:173-190) and appended to the list `j` of the users of the
new origin (`add_user`, node.cpp:192-209). -/
def divertUsers (k j : Nat) : Nat → State α → State α
  | 0, s => s
  | n + 1, s =>
    match (s.lists k).first with
    | none => s
    | some x => divertUsers k j n ((s.exec (.erase k x)).exec (.pushBack j x))

theorem divertUsers_inv {k j : Nat} (hkj : k ≠ j) : ∀ (n : Nat) (s : State α) (A : Abs α), Inv s A → (A k).length ≤ n →
    Inv (divertUsers k j n s) ((A.set k []).set j (A j ++ A k)) := by
  have hjk : j ≠ k := fun h => hkj h.symm
  have base : ∀ A : Abs α, A k = [] → (A.set k []).set j (A j ++ A k) = A := by
    intro A h
    funext i
    simp only [Abs.set]
    split
    · rename_i hi
      rw [hi, h]
      simp
    · split
      · rename_i hi
        rw [hi, h]
      · rfl
  intro n
  induction n with
  | zero =>
    intro s A hi hn
    have h : A k = [] := List.length_eq_zero_iff.1 (by omega)
    rw [base A h]
    exact hi
  | succ n ih =>
    intro s A hi hn
    have hf : (s.lists k).first = (A k).head? := rep_first (hi.rep k)
    cases hA : A k with
    | nil =>
      have hb := base A hA
      rw [hA] at hb hf
      rw [hb]
      simpa [divertUsers, hf] using hi
    | cons x r =>
      rw [hA] at hf
      have h1 : Step A (.erase k x) (A.set k r) := by
        have := Step.erase (A := A) k x [] r (by simp [hA])
        simpa using this
      have hi1 := exec_inv hi h1
      have hxr : x ∉ r := by
        have := (hi.rep k).1
        rw [hA, List.nodup_cons] at this
        exact this.1
      have hx : ∀ i, x ∉ (A.set k r) i := by
        intro i hxi
        simp only [Abs.set] at hxi
        split at hxi
        · exact hxr hxi
        · rename_i hik
          exact hik (hi.disj i k x hxi (by rw [hA]; simp))
      have h2 : Step (A.set k r) (.pushBack j x) ((A.set k r).set j ((A.set k r) j ++ [x])) := .pushBack j x hx
      have hi2 := exec_inv hi1 h2
      have := ih _ _ hi2 (by simp [Abs.set, hkj]; rw [hA] at hn; simp at hn; omega)
      simp only [divertUsers, hf, List.head?_cons]
      convert this using 1
      funext i
      simp only [Abs.set, hjk, hkj, if_false, if_true]
      by_cases hij : i = j
      · simp [hij]
      · by_cases hik : i = k
        · simp [hij, hik, hkj]
        · simp [hij, hik]

/-- **C46** After `divert_users` the output has no users, the new origin has its old users followed by the diverted ones in order, and
the users of all other outputs are as before. -/
theorem C46_divert_users (h : Heap α) (ops : List (Op α)) (B : Abs α) (hs : Steps (fun _ => []) ops B) (k j : Nat) (hkj : k ≠ j) (n : Nat)
    (hn : (B k).length ≤ n) (i : Nat) :
    Shows ((divertUsers k j n ((State.empty h).run ops)).get i) (if i = j then B j ++ B k else if i = k then [] else B i) := by
  have hi := run_inv hs (State.empty h) ⟨fun k => by
    simp [State.empty, State.get, Rep, ring, Path, nx, pv, Lst.nil], fun k j x hx => by simp at hx⟩
  exact rep_shows ((divertUsers_inv hkj n _ B hi hn).rep i)

/-! ## Examples -/

/-- Lists `[1, 2, 3]` and `[7, 8]`; `2, 3` are moved before `8`; then `7` is moved to the end of its list, and `3` is erased. -/
example : ∃ B : Abs Nat, Steps (fun _ => [])
    [.pushBack 0 2, .pushBack 0 3, .pushFront 0 1, .pushBack 1 8, .insert 1 (some 8) 7, .splice 1 (some 8) 0 (some 2) none,
      .splice 1 none 1 (some 7) (some 2), .erase 1 3] B ∧ B 0 = [1] ∧ B 1 = [2, 8, 7] := by
  refine ⟨_, .cons (.pushBack 0 2 (by simp)) (.cons (.pushBack 0 3 ?_) (.cons (.pushFront 0 1 ?_) (.cons (.pushBack 1 8 ?_)
    (.cons (.insert 1 7 [] [8] ?_ ?_) (.cons (.splice 1 0 [1] [2, 3] [] [7] [8] ?_ ?_) (.cons (.splice 1 1 [] [7] [2, 3, 8] [2, 3, 8] [] ?_ ?_)
    (.cons (.erase 1 3 [2] [8, 7] ?_) (.nil _)))))))), ?_, ?_⟩ <;>
  first
  | rfl
  | (intro j; simp only [Abs.set]; repeat' split) <;> simp

end Jlm.Util.IL
