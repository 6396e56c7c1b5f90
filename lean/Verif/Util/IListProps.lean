import Verif.Util.IListSpec

/-! # C46: intrusive lists are sequences -/

set_option linter.unusedSimpArgs false
set_option linter.unusedVariables false

namespace Jlm.Util.IL

variable {α : Type} [DecidableEq α]

/-! ## Links with the end of the list as a sentinel -/

def nx (p : Pair α) : Option α → Option α
  | some x => p.1.next x
  | none => p.2.first

def pv (p : Pair α) : Option α → Option α
  | some x => p.1.prev x
  | none => p.2.last

def up (f : Option α → Option α) (u v : Option α) : Option α → Option α := fun w => if w = u then v else f w

theorem nx_setNext (p : Pair α) (u v : Option α) : nx (setNextOrFirst p u v) = up (nx p) u v := by
  funext w
  cases u <;> cases w <;> simp [nx, setNextOrFirst, up, Heap.setNext]

theorem pv_setNext (p : Pair α) (u v : Option α) : pv (setNextOrFirst p u v) = pv p := by
  funext w
  cases u <;> cases w <;> simp [pv, setNextOrFirst, up, Heap.setNext]

theorem nx_setPrev (p : Pair α) (u v : Option α) : nx (setPrevOrLast p u v) = nx p := by
  funext w
  cases u <;> cases w <;> simp [nx, setPrevOrLast, up, Heap.setPrev]

theorem pv_setPrev (p : Pair α) (u v : Option α) : pv (setPrevOrLast p u v) = up (pv p) u v := by
  funext w
  cases u <;> cases w <;> simp [pv, setPrevOrLast, up, Heap.setPrev]

/-- Consecutive elements are linked in both directions. -/
def Path (N P : Option α → Option α) : List (Option α) → Prop
  | u :: v :: r => N u = v ∧ P v = u ∧ Path N P (v :: r)
  | _ => True

theorem path_congr {N P N' P' : Option α → Option α} : ∀ l : List (Option α), (∀ u ∈ l.dropLast, N' u = N u) → (∀ u ∈ l.tail, P' u = P u) →
    Path N P l → Path N' P' l
  | [], _, _, _ => trivial
  | [_], _, _, _ => trivial
  | u :: v :: r, hN, hP, h => by
    refine ⟨by rw [hN u (by simp)]; exact h.1, by rw [hP v (by simp)]; exact h.2.1, ?_⟩
    exact path_congr (v :: r) (fun w hw => hN w (by simp [hw])) (fun w hw => hP w (by simp at hw ⊢; exact .inr hw)) h.2.2

theorem path_append {N P : Option α → Option α} (u v : Option α) (s : List (Option α)) : ∀ r : List (Option α),
    Path N P (r ++ u :: v :: s) ↔ Path N P (r ++ [u]) ∧ N u = v ∧ P v = u ∧ Path N P (v :: s)
  | [] => by simp [Path]
  | [w] => by simp [Path]; constructor <;> (intro h; simp_all)
  | w :: w' :: r => by
    have := path_append (N := N) (P := P) u v s (w' :: r)
    simp only [List.cons_append, Path] at this ⊢
    rw [this]
    constructor <;> (intro h; simp_all)

/-- The elements with the sentinel at both ends. -/
def ring (xs : List α) : List (Option α) := none :: xs.map some ++ [none]

/-- The list contains `xs`. -/
def Rep (p : Pair α) (xs : List α) : Prop := xs.Nodup ∧ Path (nx p) (pv p) (ring xs)

/-- Last element of the first part, or the sentinel. -/
def lst (a : List α) : Option α := a.getLast?

theorem split_left (a : List α) : ∃ r : List (Option α), none :: a.map some = r ++ [a.getLast?] ∧ (∀ u ∈ r, u = none ∨ ∃ x ∈ a, u = some x) ∧
    (a.Nodup → a.getLast? ∉ r) ∧ r.length = a.length := by
  rcases a.eq_nil_or_concat with rfl | ⟨b, y, rfl⟩
  · exact ⟨[], by simp⟩
  · refine ⟨none :: b.map some, by simp, ?_, ?_, by simp⟩
    · intro u hu
      simp only [List.mem_cons, List.mem_map] at hu
      rcases hu with rfl | ⟨x, hx, rfl⟩
      · exact .inl rfl
      · exact .inr ⟨x, by simp [hx], rfl⟩
    · intro hn
      simp [List.nodup_append] at hn ⊢
      intro h
      exact absurd h (hn.2 y · rfl)

theorem split_right (b : List α) : ∃ s : List (Option α), b.map some ++ [none] = b.head? :: s ∧ (∀ u ∈ s, u = none ∨ ∃ x ∈ b, u = some x) ∧
    (b.Nodup → b.head? ∉ s) := by
  cases b with
  | nil => exact ⟨[], by simp⟩
  | cons y b =>
    refine ⟨b.map some ++ [none], by simp, ?_, ?_⟩
    · intro u hu
      simp only [List.mem_append, List.mem_map, List.mem_singleton] at hu
      rcases hu with ⟨x, hx, rfl⟩ | rfl
      · exact .inr ⟨x, by simp [hx], rfl⟩
      · exact .inl rfl
    · intro hn
      simp only [List.nodup_cons] at hn
      simp [hn.1]

/-- Where two lists meet. -/
theorem ring_append {N P : Option α → Option α} (a b : List α) :
    Path N P (ring (a ++ b)) ↔ Path N P (none :: a.map some) ∧ N a.getLast? = b.head? ∧ P b.head? = a.getLast? ∧ Path N P (b.map some ++ [none]) := by
  obtain ⟨r, hr, _⟩ := split_left a
  obtain ⟨s, hs, _⟩ := split_right b
  have h : ring (a ++ b) = r ++ a.getLast? :: b.head? :: s := by
    have : ring (a ++ b) = (none :: a.map some) ++ (b.map some ++ [none]) := by simp [ring]
    rw [this, hr, hs]
    simp
  rw [h, path_append, hr, hs]

theorem ring_mid {N P : Option α → Option α} (a : List α) (x : α) (m : List α) (b : List α) :
    Path N P (ring (a ++ (x :: m) ++ b)) ↔ Path N P (none :: a.map some) ∧ N a.getLast? = some x ∧ P (some x) = a.getLast? ∧
      Path N P ((x :: m).map some) ∧ N ((x :: m).getLast?) = b.head? ∧ P b.head? = (x :: m).getLast? ∧ Path N P (b.map some ++ [none]) := by
  rw [List.append_assoc, ring_append]
  obtain ⟨s, hs, _⟩ := split_right b
  have hx : ((x :: m) ++ b).map some ++ [none] = (x :: m).map some ++ (b.map some ++ [none]) := by simp
  rw [hx, hs]
  rcases (x :: m).eq_nil_or_concat with h | ⟨t, y, h⟩
  · simp at h
  · have hy : (x :: m).getLast? = some y := by rw [h]; simp
    have hm : (x :: m).map some ++ b.head? :: s = t.map some ++ some y :: b.head? :: s := by rw [h]; simp
    have hm' : (x :: m).map some = t.map some ++ [some y] := by rw [h]; simp
    rw [hm, path_append, ← hm', hy]
    simp only [List.cons_append, List.head?_cons]

/-! ## Removing and inserting a segment -/

theorem mem_left {a : List α} {u : Option α} (h : u ∈ (none :: a.map some)) : u = none ∨ ∃ x ∈ a, u = some x := by
  simp only [List.mem_cons, List.mem_map] at h
  rcases h with rfl | ⟨x, hx, rfl⟩
  · exact .inl rfl
  · exact .inr ⟨x, hx, rfl⟩

theorem head_mem {b : List α} {x : α} (h : b.head? = some x) : x ∈ b := List.mem_of_mem_head? h
theorem last_mem {b : List α} {x : α} (h : b.getLast? = some x) : x ∈ b := List.mem_of_mem_getLast? h

/-- Changing the successor of the last element and the predecessors of elements elsewhere does not matter for the left part. -/
theorem keep_left {N P : Option α → Option α} {a : List α} (ha : a.Nodup) {N' P' : Option α → Option α}
    (hN : ∀ u, u ≠ a.getLast? → (u = none ∨ ∃ x ∈ a, u = some x) → N' u = N u) (hP : ∀ x ∈ a, P' (some x) = P (some x))
    (h : Path N P (none :: a.map some)) : Path N' P' (none :: a.map some) := by
  obtain ⟨r, hr, hr1, hr2, _⟩ := split_left a
  refine path_congr _ ?_ ?_ h
  · intro u hu
    rw [hr, List.dropLast_concat] at hu
    exact hN u (fun he => hr2 ha (he ▸ hu)) (hr1 u hu)
  · intro u hu
    simp only [List.tail_cons, List.mem_map] at hu
    obtain ⟨x, hx, rfl⟩ := hu
    exact hP x hx

theorem keep_right {N P : Option α → Option α} {b : List α} (hb : b.Nodup) {N' P' : Option α → Option α}
    (hP : ∀ u, u ≠ b.head? → (u = none ∨ ∃ x ∈ b, u = some x) → P' u = P u) (hN : ∀ x ∈ b, N' (some x) = N (some x))
    (h : Path N P (b.map some ++ [none])) : Path N' P' (b.map some ++ [none]) := by
  obtain ⟨s, hs, hs1, hs2⟩ := split_right b
  refine path_congr _ ?_ ?_ h
  · intro u hu
    rw [List.dropLast_concat, List.mem_map] at hu
    obtain ⟨x, hx, rfl⟩ := hu
    exact hN x hx
  · intro u hu
    rw [hs, List.tail_cons] at hu
    exact hP u (fun he => hs2 hb (he ▸ hu)) (hs1 u hu)

theorem keep_seg {N P N' P' : Option α → Option α} {m : List α} (hN : ∀ x ∈ m, some x ≠ m.getLast? → N' (some x) = N (some x))
    (hP : ∀ x ∈ m, some x ≠ m.head? → P' (some x) = P (some x)) (hm : m.Nodup) (h : Path N P (m.map some)) : Path N' P' (m.map some) := by
  refine path_congr _ ?_ ?_ h
  · intro u hu
    rcases m.eq_nil_or_concat with rfl | ⟨t, y, rfl⟩
    · simp at hu
    · rw [List.concat_eq_append] at *
      simp only [List.map_append, List.map_cons, List.map_nil, List.dropLast_concat, List.mem_map] at hu
      obtain ⟨x, hx, rfl⟩ := hu
      refine hN x (by simp [hx]) ?_
      have := (List.nodup_append.1 hm).2.2 x hx y (by simp)
      simpa using this
  · intro u hu
    cases m with
    | nil => simp at hu
    | cons y t =>
      simp only [List.map_cons, List.tail_cons, List.mem_map] at hu
      obtain ⟨x, hx, rfl⟩ := hu
      refine hP x (by simp [hx]) ?_
      simp only [List.nodup_cons] at hm
      simp only [List.head?_cons, ne_eq, Option.some.injEq]
      intro he
      exact hm.1 (he ▸ hx)

/-- `unlink` removes a segment and leaves it intact. -/
theorem unlink_spec {p : Pair α} {c : List α} {x : α} {m d : List α} (h : Rep p (c ++ (x :: m) ++ d)) :
    Rep (unlink p x d.head?) (c ++ d) ∧ Path (nx (unlink p x d.head?)) (pv (unlink p x d.head?)) ((x :: m).map some) := by
  obtain ⟨hn, hp⟩ := h
  rw [ring_mid] at hp
  obtain ⟨h1, h2, h3, h4, h5, h6, h7⟩ := hp
  have hbf : p.1.prev x = c.getLast? := h3
  have hN : nx (unlink p x d.head?) = up (nx p) c.getLast? d.head? := by
    rw [unlink, hbf, nx_setPrev, nx_setNext]
  have hP : pv (unlink p x d.head?) = up (pv p) d.head? c.getLast? := by
    rw [unlink, hbf, pv_setPrev, pv_setNext]
  rw [hN, hP]
  have hn' := hn
  rw [List.nodup_append, List.nodup_append] at hn'
  obtain ⟨⟨hc, hm, hcm⟩, hd, hcd⟩ := hn'
  have hcd' : ∀ y ∈ c, ∀ z ∈ d, y ≠ z := fun y hy z hz => hcd y (by simp [hy]) z hz
  have hmd' : ∀ y ∈ x :: m, ∀ z ∈ d, y ≠ z := fun y hy z hz => hcd y (List.mem_append.2 (.inr hy)) z hz
  refine ⟨⟨?_, ?_⟩, ?_⟩
  · rw [List.nodup_append]
    exact ⟨hc, hd, hcd'⟩
  · rw [hN, hP, ring_append]
    refine ⟨keep_left hc ?_ ?_ h1, by simp [up], by simp [up], keep_right hd ?_ ?_ h7⟩
    · intro u hu _
      simp [up, hu]
    · intro y hy
      have : some y ≠ d.head? := fun he => hcd' y hy y (head_mem he.symm) rfl
      simp [up, this]
    · intro u hu _
      simp [up, hu]
    · intro y hy
      have : some y ≠ c.getLast? := fun he => hcd' y (last_mem he.symm) y hy rfl
      simp [up, this]
  · refine keep_seg ?_ ?_ hm h4
    · intro y hy _
      have : some y ≠ c.getLast? := fun he => hcm y (last_mem he.symm) y hy rfl
      simp [up, this]
    · intro y hy _
      have : some y ≠ d.head? := fun he => hmd' y hy y (head_mem he.symm) rfl
      simp [up, this]

/-- `link` inserts a segment. -/
theorem link_spec {p : Pair α} {a b : List α} {x : α} {m : List α} {y : α} (h : Rep p (a ++ b)) (hy : (x :: m).getLast? = some y)
    (hs : Path (nx p) (pv p) ((x :: m).map some)) (hn : (a ++ (x :: m) ++ b).Nodup) : Rep (link p b.head? x y) (a ++ (x :: m) ++ b) := by
  obtain ⟨_, hp⟩ := h
  rw [ring_append] at hp
  obtain ⟨h1, h2, h3, h4⟩ := hp
  have hbf : before p b.head? = a.getLast? := by
    rw [← h3]
    cases hb : b.head? <;> rfl
  let q : Pair α := ((p.1.setPrev x a.getLast?).setNext y b.head?, p.2)
  have hqN : nx q = up (nx p) (some y) b.head? := by
    funext w
    cases w <;> simp [q, nx, up, Heap.setNext, Heap.setPrev]
  have hqP : pv q = up (pv p) (some x) a.getLast? := by
    funext w
    cases w <;> simp [q, pv, up, Heap.setNext, Heap.setPrev]
  have hlk : link p b.head? x y = setPrevOrLast (setNextOrFirst q a.getLast? (some x)) b.head? (some y) := by
    simp only [link, hbf]
    rfl
  have hN : nx (link p b.head? x y) = up (up (nx p) (some y) b.head?) a.getLast? (some x) := by
    rw [hlk, nx_setPrev, nx_setNext, hqN]
  have hP : pv (link p b.head? x y) = up (up (pv p) (some x) a.getLast?) b.head? (some y) := by
    rw [hlk, pv_setPrev, pv_setNext, hqP]
  refine ⟨hn, ?_⟩
  rw [hN, hP, ring_mid]
  have hn' := hn
  rw [List.nodup_append, List.nodup_append] at hn'
  obtain ⟨⟨ha, hm, ham⟩, hb, hab⟩ := hn'
  have hab' : ∀ u ∈ a, ∀ z ∈ b, u ≠ z := fun u hu z hz => hab u (by simp [hu]) z hz
  have hmb' : ∀ u ∈ x :: m, ∀ z ∈ b, u ≠ z := fun u hu z hz => hab u (List.mem_append.2 (.inr hu)) z hz
  have hym : y ∈ x :: m := last_mem hy
  have hxa : some x ≠ a.getLast? := fun he => ham x (last_mem he.symm) x (by simp) rfl
  have hya : some y ≠ a.getLast? := fun he => ham y (last_mem he.symm) y hym rfl
  have hxb : some x ≠ b.head? := fun he => hmb' x (by simp) x (head_mem he.symm) rfl
  refine ⟨keep_left ha ?_ ?_ h1, by simp [up], by simp [up, hxb], keep_seg ?_ ?_ hm hs, by rw [hy]; simp [up, hya], by rw [hy]; simp [up],
    keep_right hb ?_ ?_ h4⟩
  · intro u hu hu'
    have : u ≠ some y := by
      rintro rfl
      rcases hu' with h | ⟨z, hz, h⟩
      · simp at h
      · exact ham z hz y hym (by simpa using h.symm)
    simp [up, hu, this]
  · intro u hu
    have h1 : some u ≠ b.head? := fun he => hab' u hu u (head_mem he.symm) rfl
    have h2 : u ≠ x := fun he => ham u hu x (by simp) he
    simp [up, h1, h2]
  · intro u hu hne
    rw [hy] at hne
    have h1 : some u ≠ a.getLast? := fun he => ham u (last_mem he.symm) u hu rfl
    simp only [up, h1, if_false, hne]
  · intro u hu hne
    rw [List.head?_cons] at hne
    have h1 : some u ≠ b.head? := fun he => hmb' u hu u (head_mem he.symm) rfl
    simp only [up, h1, if_false, hne]
  · intro u hu hu'
    have : u ≠ some x := by
      rintro rfl
      rcases hu' with h | ⟨z, hz, h⟩
      · simp at h
      · exact hmb' x (by simp) z hz (by simpa using h)
    simp [up, hu, this]
  · intro u hu
    have h1 : some u ≠ a.getLast? := fun he => hab' u (last_mem he.symm) u hu rfl
    have h2 : u ≠ y := fun he => hmb' y hym u hu he.symm
    simp [up, h1, h2]

end Jlm.Util.IL
