import Verif.Opt.Tree

/-!
# Refinement of values, and monotonicity of the meaning of graphs

An optimisation that routes a value around a loop may turn an execution that never produces a
value (because the loop does not terminate) into one that does. `LeW a b` says that `b` is
at least as defined as `a`: whenever `a` is produced, `b` is produced and is the same value, and if
it stands for a function, the function gives the same results whenever the function of `a` gives
any. This file is part of the specification (first half) and of its proof infrastructure
(second half).
-/

set_option linter.unusedSimpArgs false
set_option linter.unusedVariables false

namespace Jlm.Opt

variable {V : Type}

/-- `b` is `a` if `a` is produced. -/
def LeO (a b : Option V) : Prop := a = none ∨ a = b

/-- The same for lists of values; missing values are not produced. -/
def LeL (xs ys : List (Option V)) : Prop := ∀ k : Nat, LeO (xs.getD k none) (ys.getD k none)

/-- A function that gives at least the same results if it is given at least the same arguments. -/
def MonoFun (f : List (Option V) → List (Option V)) : Prop := ∀ xs ys, LeL xs ys → LeL (f xs) (f ys)

/-- Refinement of functions and of initial contents. -/
def LeFun : Fun V → Fun V → Prop
  | .lam f, .lam g => MonoFun f ∧ MonoFun g ∧ ∀ xs, LeL (f xs) (g xs)
  | .dat a, .dat b => LeO a b
  | _, _ => False

def LeOF : Option (Fun V) → Option (Fun V) → Prop
  | none, none => True
  | some f, some g => LeFun f g
  | _, _ => False

/-- Refinement of values. Functions have to be monotone, also on the right of something that is
not produced. -/
def LeW : W V → W V → Prop
  | none, none => True
  | none, some b => LeOF b.2 b.2
  | some a, some b => a.1 = b.1 ∧ LeOF a.2 b.2
  | some _, none => False

/-- Refinement of lists of values; missing values are not produced. -/
def LeLW (xs ys : List (W V)) : Prop := ∀ k : Nat, LeW (xs.getD k none) (ys.getD k none)

/-- Every operation gives at least the same results if it is given at least the same arguments. -/
def Sem.Mono (sem : Sem V) : Prop :=
  ∀ op xs ys, xs.length = ys.length → LeLW xs ys → LeL (sem.apply op xs) (sem.apply op ys)

/-- What a module means is refined: the same number of exports, each refined. -/
def Refines (xs ys : List (W V)) : Prop := xs.length = ys.length ∧ LeLW xs ys

/-! ## order properties -/

theorem LeO.refl (a : Option V) : LeO a a := .inr rfl

theorem LeO.trans {a b c : Option V} (h1 : LeO a b) (h2 : LeO b c) : LeO a c := by
  rcases h1 with h | h
  · exact .inl h
  · subst h; exact h2

theorem LeL.refl (xs : List (Option V)) : LeL xs xs := fun _ => LeO.refl _

theorem LeL.trans {a b c : List (Option V)} (h1 : LeL a b) (h2 : LeL b c) : LeL a c :=
  fun k => (h1 k).trans (h2 k)

theorem LeOF.right {a b : Option (Fun V)} (h : LeOF a b) : LeOF b b := by
  rcases a with _ | (f | d) <;> rcases b with _ | (g | d') <;> simp_all [LeOF, LeFun, LeO, LeL.refl]

theorem LeOF.left {a b : Option (Fun V)} (h : LeOF a b) : LeOF a a := by
  rcases a with _ | (f | d) <;> rcases b with _ | (g | d') <;> simp_all [LeOF, LeFun, LeO, LeL.refl]

theorem LeOF.trans {a b c : Option (Fun V)} (h1 : LeOF a b) (h2 : LeOF b c) : LeOF a c := by
  rcases a with _ | (f | d) <;> rcases b with _ | (g | d') <;> rcases c with _ | (g' | d'') <;>
    simp only [LeOF, LeFun] at h1 h2 ⊢
  · exact ⟨h1.1, h2.2.1, fun xs => (h1.2.2 xs).trans (h2.2.2 xs)⟩
  · exact h1.trans h2

theorem LeW.right {a b : W V} (h : LeW a b) : LeW b b := by
  rcases a with _ | ⟨v, f⟩ <;> rcases b with _ | ⟨v', f'⟩ <;> simp_all [LeW]
  exact h.2.right

theorem LeW.left {a b : W V} (h : LeW a b) : LeW a a := by
  rcases a with _ | ⟨v, f⟩ <;> rcases b with _ | ⟨v', f'⟩ <;> simp_all [LeW]
  exact h.2.left

theorem LeW.trans {a b c : W V} (h1 : LeW a b) (h2 : LeW b c) : LeW a c := by
  rcases a with _ | ⟨v, f⟩ <;> rcases b with _ | ⟨v', f'⟩ <;> rcases c with _ | ⟨v'', f''⟩ <;>
    simp only [LeW] at h1 h2 ⊢
  · exact h2
  · exact h2.2.right
  · exact ⟨h1.1.trans h2.1, h1.2.trans h2.2⟩

theorem LeW.none_le {b : W V} (h : LeW b b) : LeW none b := by
  rcases b with _ | ⟨v, f⟩ <;> simp_all [LeW]

theorem LeW.none : LeW (none : W V) none := trivial

theorem LeLW.right {a b : List (W V)} (h : LeLW a b) : LeLW b b := fun k => (h k).right

theorem LeLW.trans {a b c : List (W V)} (h1 : LeLW a b) (h2 : LeLW b c) : LeLW a c :=
  fun k => (h1 k).trans (h2 k)

theorem LeLW.nil : LeLW ([] : List (W V)) [] := fun _ => trivial

theorem LeLW.nil_le {b : List (W V)} (h : LeLW b b) : LeLW [] b := fun k => LeW.none_le (h k)

theorem LeLW.cons {a b : W V} {as bs : List (W V)} (h : LeW a b) (hs : LeLW as bs) :
    LeLW (a :: as) (b :: bs)
  | 0 => by simpa using h
  | k + 1 => by simpa using hs k

theorem LeLW.head {a b : List (W V)} (h : LeLW a b) : LeW (a.headD Option.none) (b.headD Option.none) := by
  have := h 0
  cases a <;> cases b <;> simpa using this

theorem getD_tail {α : Type} (xs : List α) (k : Nat) (d : α) : xs.tail.getD k d = xs.getD (k + 1) d := by
  cases xs <;> simp

theorem LeLW.tail {a b : List (W V)} (h : LeLW a b) : LeLW a.tail b.tail := fun k => by
  rw [getD_tail, getD_tail]
  exact h (k + 1)

theorem LeLW.map {e e' : Env V} (l : List Out) (h : ∀ x ∈ l, LeW (e x) (e' x)) :
    LeLW (l.map e) (l.map e') := by
  induction l with
  | nil => exact LeLW.nil
  | cons a l ih => exact LeLW.cons (h a (by simp)) (ih fun x hx => h x (by simp [hx]))

theorem lift_le {xs ys : List (Option V)} (h : LeL xs ys) : LeLW (lift xs) (lift ys) := by
  intro k
  have hk := h k
  have e : ∀ zs : List (Option V), (lift zs).getD k none = (zs.getD k none).map fun v => (v, none) := by
    intro zs
    simp only [lift, List.getD_eq_getElem?_getD, List.getElem?_map]
    cases zs[k]? <;> rfl
  rw [e, e]
  rcases hk with hk | hk
  · rw [hk]
    cases ys.getD k none <;> simp [LeW, LeOF]
  · rw [hk]
    cases ys.getD k none <;> simp [LeW, LeOF]

theorem plain_le {xs ys : List (W V)} (h : LeLW xs ys) : LeL (plain xs) (plain ys) := by
  intro k
  have hk := h k
  have e : ∀ zs : List (W V), (plain zs).getD k none = (zs.getD k none).map (·.1) := by
    intro zs
    simp only [plain, List.getD_eq_getElem?_getD, List.getElem?_map]
    cases zs[k]? <;> rfl
  rw [e, e]
  revert hk
  rcases xs.getD k none with _ | ⟨v, f⟩ <;> rcases ys.getD k none with _ | ⟨v', f'⟩ <;>
    simp +contextual [LeW, LeO]

/-- Environments that are refined on the names in `Q`. -/
def LeOn (Q : Out → Prop) (e e' : Env V) : Prop := ∀ x, Q x → LeW (e x) (e' x)

theorem upd_le {Q : Out → Prop} {e e' : Env V} : ∀ (os : List Out) (ws ws' : List (W V)),
    (∀ x, Q x → x ∉ os → LeW (e x) (e' x)) →
    (∀ (k : Nat) (o : Out), os[k]? = some o → Q o → LeW (ws.getD k none) (ws'.getD k none)) →
    LeOn Q (upd e os ws) (upd e' os ws')
  | [], ws, ws', h, _, x, hx => h x hx (by simp)
  | o :: os, ws, ws', h, hw, x, hx => by
      simp only [upd]
      by_cases hxo : x = o
      · rw [if_pos hxo, if_pos hxo]
        have := hw 0 o (by simp) (hxo ▸ hx)
        cases ws <;> cases ws' <;> simpa using this
      · rw [if_neg hxo, if_neg hxo]
        refine upd_le (Q := fun y => Q y ∧ y ≠ o) os ws.tail ws'.tail ?_ ?_ x ⟨hx, hxo⟩
        · intro y hy hyo
          exact h y hy.1 (by simp [hyo, hy.2])
        · intro k o' hk hq
          rw [getD_tail, getD_tail]
          exact hw (k + 1) o' (by simpa using hk) hq.1

theorem upd_le' {e e' : Env V} (h : ∀ x, LeW (e x) (e' x)) (os : List Out) {ws ws' : List (W V)}
    (hw : LeLW ws ws') : ∀ x, LeW (upd e os ws x) (upd e' os ws' x) :=
  fun x => upd_le (Q := fun _ => True) os ws ws' (fun x _ _ => h x) (fun k _ _ _ => hw k) x trivial

theorem emptyEnv_le : ∀ x, LeW ((emptyEnv : Env V) x) (emptyEnv x) := fun _ => trivial

/-! ## loops and recursion -/

theorem loopState_le {f f' : List (W V) → List (W V)}
    (hf : ∀ ws ws', LeLW ws ws' → LeLW (f ws) (f' ws')) {init init' : List (W V)}
    (hi : LeLW init init') : ∀ m, LeLW (loopState f init m) (loopState f' init' m)
  | 0 => hi
  | m + 1 => (hf _ _ (loopState_le hf hi m)).tail

theorem ctl_le {sem : Sem V} {a b : W V} {c : Nat} (h : LeW a b)
    (ha : a.map (fun v => sem.ctl v.1) = some c) : b.map (fun v => sem.ctl v.1) = some c := by
  rcases a with _ | ⟨v, f⟩ <;> rcases b with _ | ⟨v', f'⟩ <;> simp_all [LeW]

theorem loopExits_le {sem : Sem V} {f f' : List (W V) → List (W V)} {init init' : List (W V)} {n : Nat}
    (h : ∀ m, m ≤ n → LeW ((f (loopState f init m)).headD none) ((f' (loopState f' init' m)).headD none))
    (hn : loopExits sem f init n) : loopExits sem f' init' n := by
  refine ⟨ctl_le (h n (Nat.le_refl n)) hn.1, fun m hm => ?_⟩
  obtain ⟨c, hc⟩ := hn.2 m hm
  exact ⟨c, ctl_le (h m (Nat.le_of_lt hm)) hc⟩

theorem loopVals_exit' {sem : Sem V} {f : List (W V) → List (W V)} {init : List (W V)} :
    (∃ n, loopExits sem f init n ∧ loopVals sem f init = loopState f init (n + 1)) ∨
    ((∀ n, ¬ loopExits sem f init n) ∧ loopVals sem f init = []) := by
  by_cases h : ∃ n, loopExits sem f init n
  · exact .inl ⟨h.choose, h.choose_spec, by rw [loopVals, dif_pos h]⟩
  · exact .inr ⟨fun n hn => h ⟨n, hn⟩, by rw [loopVals, dif_neg h]⟩

theorem loopVals_at {sem : Sem V} {f : List (W V) → List (W V)} {init : List (W V)} {n : Nat}
    (hn : loopExits sem f init n) : loopVals sem f init = loopState f init (n + 1) := by
  have uniq : ∀ a b, loopExits sem f init a → loopExits sem f init b → ¬ a < b := by
    intro a b ha hb hlt
    obtain ⟨c, hc⟩ := hb.2 a hlt
    rw [ha.1] at hc
    simp at hc
  have h : ∃ n, loopExits sem f init n := ⟨n, hn⟩
  have : h.choose = n := by
    have h1 := uniq _ _ h.choose_spec hn
    have h2 := uniq _ _ hn h.choose_spec
    omega
  rw [loopVals, dif_pos h, this]

theorem loopVals_ok {sem : Sem V} {f : List (W V) → List (W V)}
    (hf : ∀ ws ws', LeLW ws ws' → LeLW (f ws) (f ws')) {init : List (W V)}
    (hi : LeLW init init) : LeLW (loopVals sem f init) (loopVals sem f init) := by
  rcases loopVals_exit' (sem := sem) (f := f) (init := init) with ⟨n, _, h⟩ | ⟨_, h⟩
  · rw [h]; exact loopState_le hf hi (n + 1)
  · rw [h]; exact LeLW.nil

theorem loopVals_le {sem : Sem V} {f f' : List (W V) → List (W V)}
    (hf : ∀ ws ws', LeLW ws ws' → LeLW (f ws) (f' ws'))
    (hf' : ∀ ws ws', LeLW ws ws' → LeLW (f' ws) (f' ws')) {init init' : List (W V)}
    (hi : LeLW init init') : LeLW (loopVals sem f init) (loopVals sem f' init') := by
  rcases loopVals_exit' (sem := sem) (f := f) (init := init) with ⟨n, hn, h⟩ | ⟨_, h⟩
  · have hn' : loopExits sem f' init' n :=
      loopExits_le (fun m _ => (hf _ _ (loopState_le hf hi m)).head) hn
    rw [h, loopVals_at hn']
    exact loopState_le hf hi (n + 1)
  · rw [h]
    exact LeLW.nil_le (loopVals_ok hf' hi.right)

theorem phiVals_le {sem : Sem V} (outs : List Out) {f f' : List (W V) → List (W V)}
    (hl : ∀ ws ws', (f ws).length = (f' ws').length)
    (hf : ∀ ws ws', LeLW ws ws' → LeLW (f ws) (f' ws')) :
    ∀ d, LeLW (phiVals sem outs f d) (phiVals sem outs f' d)
  | 0 => by
      simp only [phiVals]
      intro k
      simp only [List.getD_eq_getElem?_getD, List.getElem?_map]
      cases outs[k]? <;> simp [LeW, LeOF]
  | d + 1 => by
      have ih := hf _ _ (phiVals_le (sem := sem) outs hl hf d)
      have hl' := hl (phiVals sem outs f d) (phiVals sem outs f' d)
      simp only [phiVals]
      generalize f (phiVals sem outs f d) = as at *
      generalize f' (phiVals sem outs f' d) = bs at *
      intro k
      have hk := ih k
      simp only [List.getD_eq_getElem?_getD, List.getElem?_map, List.zip, List.getElem?_zipWith] at hk ⊢
      have hkl : (as[k]?).isSome = (bs[k]?).isSome := by
        rw [Bool.eq_iff_iff]
        simp [hl']
      revert hk hkl
      cases outs[k]? with
      | none => simp [LeW]
      | some o =>
        rcases as[k]? with _ | (_ | ⟨v, f⟩) <;> rcases bs[k]? with _ | (_ | ⟨v', f'⟩) <;>
          simp +contextual [LeW, LeOF]

end Jlm.Opt
