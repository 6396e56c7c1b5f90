import Verif.Opt.PullModel
import Verif.Opt.ListNodes
import Mathlib.Tactic.Set

/-! # C41: moving one node into the branches of a gamma node -/

set_option linter.unusedSimpArgs false
set_option linter.unusedVariables false

namespace Jlm.Opt.Pull

open Jlm.Opt.Copy Jlm.Opt.Lst

variable {V : Type}

theorem lookup_zip : ∀ {ks vs : List Out} {k : Nat} {z v : Out}, ks.Nodup → ks[k]? = some z → vs[k]? = some v →
    (ks.zip vs).lookup z = some v
  | [], _, k, z, v, _, h, _ => by simp at h
  | _ :: _, [], k, z, v, _, _, h => by simp at h
  | a :: ks, b :: vs, 0, z, v, hn, h1, h2 => by
    simp only [List.getElem?_cons_zero, Option.some.injEq] at h1 h2
    simp [List.lookup, h1, h2]
  | a :: ks, b :: vs, k + 1, z, v, hn, h1, h2 => by
    simp only [List.getElem?_cons_succ] at h1 h2
    rw [List.nodup_cons] at hn
    have hz : (z == a) = false := by
      simp only [beq_eq_false_iff_ne, ne_eq]
      exact fun e => hn.1 (e ▸ List.mem_of_getElem? h1)
    simp only [List.zip_cons_cons, List.lookup, hz]
    exact lookup_zip hn.2 h1 h2

theorem lookup_zip_none : ∀ {ks vs : List Out} {z : Out}, z ∉ ks → (ks.zip vs).lookup z = none
  | [], _, z, _ => by simp
  | _ :: _, [], z, _ => by simp
  | a :: ks, b :: vs, z, h => by
    simp only [List.mem_cons, not_or] at h
    have hz : (z == a) = false := by simpa using h.1
    simp only [List.zip_cons_cons, List.lookup, hz]
    exact lookup_zip_none h.2

theorem lookup_zip_mem : ∀ {ks vs : List Out} {z v : Out}, (ks.zip vs).lookup z = some v → v ∈ vs
  | [], _, z, v, h => by simp at h
  | _ :: _, [], z, v, h => by simp at h
  | a :: ks, b :: vs, z, v, h => by
    simp only [List.zip_cons_cons, List.lookup] at h
    split at h
    · simp only [Option.some.injEq] at h; simp [h]
    · exact List.mem_cons_of_mem _ (lookup_zip_mem h)

/-! ## Copies of a node with given operands -/

structure IntoCopy (x : Node) (operands : List Out) (n : Nat) (x' : Node) (n' : Nat) : Prop where
  le : n ≤ n'
  nodup : (namesNode x').Nodup
  names : ∀ z : Nat, z ∈ namesNode x' → n ≤ z ∧ z < n'
  len : x.outs.length = x'.outs.length
  wf : ∀ B : List Out, (∀ z ∈ operands, z ∈ B) → wfNode B x' = true
  eval : ∀ {V : Type} (sem : Sem V) (F G : Env V), operands.map G = x.ins.map F → nodeVals sem x' G = nodeVals sem x F

theorem map_get {F G : Env V} {xs ys : List Out} {k : Nat} {a b : Out} (h : xs.map F = ys.map G) (h1 : xs[k]? = some a)
    (h2 : ys[k]? = some b) : F a = G b := by
  have := congrArg (·[k]?) h
  simpa [h1, h2] using this

theorem wfNode_own {A : List Out} {x : Node} (h : wfNode A x = true) : wfNode x.ins x = true := by
  have := Dne.wfNode_divert (τ := id) (A := A) (B := x.ins) (n := x) (fun o ho _ => ho) h
  rwa [Dne.Node.divert_id] at this

theorem copyInto_spec {A : List Out} {x x' : Node} {operands : List Out} {n n' : Nat} (hw : wfNode A x = true)
    (hn : (namesNode x).Nodup) (hA : ∀ o ∈ A, o ∉ namesNode x) (hl : operands.length = x.ins.length)
    (hlt : ∀ z : Nat, z ∈ operands → z < n) (h : copyInto x operands n = some (x', n')) :
    IntoCopy x operands n x' n' := by
  have key : ∀ r, copyNode x (SMap.empty.insertAll x.ins operands) n = some r → r.1 = x' → r.2.2 = n' →
      IntoCopy x operands n x' n' := by
    rintro ⟨y, m, k⟩ hr rfl rfl
    have hs := copyNode_spec x (wfNode_own hw) hn (fun o ho => hA o (wfNode_ins hw o ho)) hr
    refine ⟨hs.le, hs.nodup, hs.names, hs.len, fun B hB => hs.wf B fun o ho z hz => ?_, fun sem F G hFG => ?_⟩
    · rcases insertAll_cases hl.symm hz with ⟨_, k, _, h2⟩ | ⟨h1, _⟩
      · exact hB z (List.mem_of_getElem? h2)
      · exact absurd ho h1
    · refine hs.eval sem F G fun o ho z hz => ?_
      rcases insertAll_cases hl.symm hz with ⟨_, k, h1, h2⟩ | ⟨h1, _⟩
      · exact ⟨hlt z (List.mem_of_getElem? h2), map_get hFG h2 h1⟩
      · exact absurd ho h1
  cases x with
  | simple op ins outs =>
    simp only [copyInto, Option.some.injEq, Prod.mk.injEq] at h
    obtain ⟨rfl, rfl⟩ := h
    refine ⟨by omega, by simp [namesNode, List.nodup_range'], ?_, by simp [Node.outs], ?_, ?_⟩
    · intro z hz
      simp only [namesNode, mem_range'] at hz; exact hz
    · intro B hB
      simp only [wfNode, Bool.and_eq_true, mem_subset, List.length_range'] at hw ⊢
      simp only [Node.ins] at hl
      rw [hl]
      exact ⟨hB, hw.2⟩
    · intro V sem F G hFG
      simp only [Node.ins] at hFG
      simp only [nodeVals, hFG]
  | _ =>
    simp only [copyInto, Option.map_eq_some_iff, Prod.mk.injEq] at h
    obtain ⟨r, hr, h1, h2⟩ := h
    exact key r hr h1 h2

/-! ## One branch -/

section
variable {x : Node} {copies ins args : List Out}

theorem divertArgs_notin {z : Out} (h : z ∉ args.tail) : divertArgs x copies ins args z = z := by
  simp [divertArgs, lookup_zip_none h]

theorem divertArgs_kept {z o : Out} {k : Nat} (hn : args.Nodup) (h1 : args[k + 1]? = some z) (h2 : ins[k]? = some o)
    (ho : o ∉ x.outs) : divertArgs x copies ins args z = z := by
  rw [divertArgs, lookup_zip (k := k) (hn.sublist (List.tail_sublist _)) (by simpa using h1) h2]
  simp [lookup_zip_none ho]

theorem divertArgs_moved {z o c : Out} {k j : Nat} (hn : args.Nodup) (h1 : args[k + 1]? = some z)
    (h2 : ins[k]? = some o) (hx : x.outs.Nodup) (h3 : x.outs[j]? = some o) (h4 : copies[j]? = some c) :
    divertArgs x copies ins args z = c := by
  rw [divertArgs, lookup_zip (k := k) (hn.sublist (List.tail_sublist _)) (by simpa using h1) h2]
  simp [lookup_zip hx h3 h4]

theorem divertArgs_cases (z : Out) : divertArgs x copies ins args z = z ∨ divertArgs x copies ins args z ∈ copies := by
  rw [divertArgs]
  cases h : (args.tail.zip ins).lookup z with
  | none => exact .inl rfl
  | some o =>
    simp only [Option.elim_some]
    cases h' : (x.outs.zip copies).lookup o with
    | none => exact .inl rfl
    | some c => exact .inr (lookup_zip_mem h')

end

theorem upd_append {E : Env V} : ∀ {xs ys : List Out} {ws vs : List (W V)} {z : Out}, xs.length = ws.length →
    upd E (xs ++ ys) (ws ++ vs) z = upd (upd E ys vs) xs ws z
  | [], ys, ws, vs, z, h => by
    cases ws with
    | nil => rfl
    | cons w ws => simp at h
  | x :: xs, ys, ws, vs, z, h => by
    cases ws with
    | nil => simp at h
    | cons w ws =>
      simp only [List.cons_append, upd, List.headD_cons, List.tail_cons]
      split
      · rfl
      · exact upd_append (by simpa using h)

theorem map_upd_self {E : Env V} {xs : List Out} {ws : List (W V)} (hn : xs.Nodup) (hl : xs.length = ws.length) :
    xs.map (upd E xs ws) = ws := by
  refine List.ext_getElem? fun k => ?_
  rw [List.getElem?_map]
  cases h : xs[k]? with
  | none =>
    rw [List.getElem?_eq_none_iff] at h
    simp only [Option.map_none]
    exact (List.getElem?_eq_none_iff.2 (by omega)).symm
  | some o =>
    obtain ⟨hk, _⟩ := List.getElem?_eq_some_iff.1 h
    rw [Option.map_some, Cne.upd_get hn h, List.getD_eq_getElem?_getD, List.getElem?_eq_getElem (by omega)]
    rfl

/-- The entries of the masked list are the kept entries of the list. -/
theorem mem_mask_map {α β : Type} {f : β → Bool} : ∀ {xs : List α} {os : List β} {k : Nat} {z : α} {o : β},
    xs[k]? = some z → os[k]? = some o → f o = true → z ∈ mask (os.map f) xs
  | [], _, k, z, o, h, _, _ => by simp at h
  | _ :: _, [], k, z, o, _, h, _ => by simp at h
  | a :: xs, b :: os, 0, z, o, h1, h2, hf => by
    simp only [List.getElem?_cons_zero, Option.some.injEq] at h1 h2
    subst h1 h2
    simp [mask, hf]
  | a :: xs, b :: os, k + 1, z, o, h1, h2, hf => by
    simp only [List.getElem?_cons_succ] at h1 h2
    have := mem_mask_map h1 h2 hf
    simp only [List.map_cons]
    cases f b
    · simpa [mask] using this
    · simp [mask, this]

theorem cover_kept {f : Out → Bool} : ∀ {args ins : List Out} {P : Out → Prop}, args.length = ins.length →
    (∀ (k : Nat) z o, args[k]? = some z → ins[k]? = some o → P z → f o = true) → Cover P args (ins.map f)
  | [], _, P, _, _ => trivial
  | a :: args, [], P, hl, _ => by simp at hl
  | a :: args, i :: ins, P, hl, h => by
    refine ⟨fun hp => h 0 a i (by simp) (by simp) hp, cover_kept (by simpa using hl) fun k z o h1 h2 hp => ?_⟩
    exact h (k + 1) z o (by simpa using h1) (by simpa using h2) hp

section
variable {x x' : Node} {ins args : List Out} {n : Nat}

/-- The arguments of a branch after the step. -/
def newArgs (x : Node) (ins args : List Out) (n : Nat) : List Out :=
  mask (true :: ins.map fun o => !x.outs.contains o) args ++ List.range' n x.ins.length

theorem newArgs_cases {z : Nat} (h : z ∈ newArgs x ins args n) : z ∈ args ∨ n ≤ z ∧ z < n + x.ins.length := by
  rw [newArgs, List.mem_append, mem_range'] at h
  exact h.imp (fun h => (mask_sublist _ _).subset h) id

theorem newArgs_nodup (hn : args.Nodup) (hlt : ∀ z : Nat, z ∈ args → z < n) : (newArgs x ins args n).Nodup := by
  rw [newArgs, List.nodup_append]
  refine ⟨hn.sublist (mask_sublist _ _), List.nodup_range', fun a ha b hb e => ?_⟩
  have := hlt a ((mask_sublist _ _).subset ha)
  subst e
  rw [mem_range'] at hb
  omega

/-- The values of the old arguments, in the environment in which the copy has been evaluated. -/
theorem args_eval (hn : args.Nodup) (hl : args.length = ins.length + 1) (hlt : ∀ z : Nat, z ∈ args → z < n)
    (hx : x.outs.Nodup) (hx' : x'.outs.Nodup) (hlen : x.outs.length = x'.outs.length)
    (hge : ∀ z : Nat, z ∈ x'.outs → n + x.ins.length ≤ z)
    (sem : Sem V) (c : W V) (F : Env V)
    (he : ∀ G : Env V, (List.range' n x.ins.length).map G = x.ins.map F → nodeVals sem x' G = nodeVals sem x F) {z : Out}
    (hz : z ∈ args) :
    upd (upd emptyEnv (newArgs x ins args n) (c :: (pullIns x ins).map F)) x'.outs
        (nodeVals sem x' (upd emptyEnv (newArgs x ins args n) (c :: (pullIns x ins).map F)))
        (divertArgs x x'.outs ins args z) =
      upd emptyEnv args (c :: ins.map (upd F x.outs (nodeVals sem x F))) z := by
  set G := upd emptyEnv (newArgs x ins args n) (c :: (pullIns x ins).map F) with hG
  have hna := newArgs_nodup (x := x) (ins := ins) hn hlt
  have hlm : (mask (true :: ins.map fun o => !x.outs.contains o) args).length =
      (mask (true :: ins.map fun o => !x.outs.contains o) (c :: ins.map F)).length :=
    mask_length _ _ _ (by simp [hl])
  have hvals : c :: (pullIns x ins).map F =
      mask (true :: ins.map fun o => !x.outs.contains o) (c :: ins.map F) ++ x.ins.map F := by
    simp only [pullIns, mask, mask_map, List.map_append, List.cons_append]
  have hGlen : (newArgs x ins args n).length = (c :: (pullIns x ins).map F).length := by
    rw [hvals, newArgs, List.length_append, List.length_append, hlm]; simp
  have hfresh : (List.range' n x.ins.length).map G = x.ins.map F := by
    have := map_upd_self (E := emptyEnv) hna hGlen
    rw [← hG, hvals, newArgs, List.map_append] at this
    exact (List.append_inj this (by rw [List.length_map, hlm])).2
  have hkeep : ∀ z' : Out, z' ∈ args → (∀ (k : Nat) o, args[k + 1]? = some z' → ins[k]? = some o → o ∉ x.outs) →
      G z' = upd emptyEnv args (c :: ins.map F) z' := by
    intro z' hz' hk
    rw [hG, hvals, newArgs, upd_append hlm]
    refine agree_upd_mask (P := fun y => y = z') (e2 := emptyEnv) ?_ args _ _ ?_ z' rfl
    · rintro y rfl
      exact upd_notin _ _ _ _ fun h => by
        have := hlt y hz'
        rw [mem_range'] at h
        omega
    · obtain ⟨a0, at', rfl⟩ : ∃ a b, args = a :: b := by
        cases args with
        | nil => simp at hl
        | cons a b => exact ⟨a, b, rfl⟩
      refine ⟨fun _ => rfl, cover_kept (by simpa using hl) fun k y o h1 h2 hy => ?_⟩
      subst hy
      simpa using hk k o (by simpa using h1) h2
  have hout : z ∉ x'.outs := fun h => by
    have h1 := hlt z hz
    have h2 := hge z h
    have h3 : (z : Nat) < z := by omega
    exact Nat.lt_irrefl _ h3
  obtain ⟨k, hk⟩ := List.mem_iff_getElem?.1 hz
  cases k with
  | zero =>
    have hzt : z ∉ args.tail := by
      cases args with
      | nil => simp at hz
      | cons a as =>
        simp only [List.getElem?_cons_zero, Option.some.injEq] at hk
        subst hk
        exact (List.nodup_cons.1 hn).1
    rw [divertArgs_notin hzt, upd_notin _ _ _ _ hout, hkeep z hz, Cne.upd_get hn hk, Cne.upd_get hn hk]
    · rfl
    · intro k o h1 _
      exact absurd (by rw [← List.drop_one]; exact List.mem_of_getElem? (by simpa using h1)) hzt
  | succ k =>
    have hkl : k < ins.length := by
      obtain ⟨h, _⟩ := List.getElem?_eq_some_iff.1 hk
      omega
    obtain ⟨o, ho⟩ : ∃ o, ins[k]? = some o := ⟨_, List.getElem?_eq_getElem hkl⟩
    have hval : upd emptyEnv args (c :: ins.map (upd F x.outs (nodeVals sem x F))) z =
        upd F x.outs (nodeVals sem x F) o := by
      rw [Cne.upd_get hn hk, List.getD_eq_getElem?_getD]
      simp [ho]
    rw [hval]
    by_cases hox : o ∈ x.outs
    · obtain ⟨j, hj⟩ := List.mem_iff_getElem?.1 hox
      have hjl : j < x'.outs.length := by
        obtain ⟨h, _⟩ := List.getElem?_eq_some_iff.1 hj
        omega
      obtain ⟨d, hd⟩ : ∃ d, x'.outs[j]? = some d := ⟨_, List.getElem?_eq_getElem hjl⟩
      rw [divertArgs_moved hn hk ho hx hj hd, he G hfresh]
      exact upd_pair hx hx' hj hd
    · rw [divertArgs_kept hn hk ho hox, upd_notin _ _ _ _ hout, hkeep z hz, Cne.upd_get hn hk, upd_notin _ _ _ _ hox,
        List.getD_eq_getElem?_getD]
      · simp [ho]
      · intro k' o' h1 h2
        have : k' = k := by
          have := (List.getElem?_inj (i := k' + 1) (j := k + 1) (by
            obtain ⟨h, _⟩ := List.getElem?_eq_some_iff.1 h1; exact h) hn).1 (h1.trans hk.symm)
          omega
        subst this
        rw [ho] at h2; cases h2
        exact hox

end

/-! ## All branches -/

structure SubsPull (x : Node) (ins : List Out) (nr : Nat) (subs : Regions) (n : Nat) (subs' : Regions) (n' : Nat) :
    Prop where
  le : n ≤ n'
  nodup : (namesRegions subs').Nodup
  names : ∀ z : Nat, z ∈ namesRegions subs' → z ∈ namesRegions subs ∨ n ≤ z ∧ z < n'
  wf : wfRegions ((pullIns x ins).length + 1) nr subs' = true
  eval : ∀ {V : Type} (sem : Sem V) (k : Nat) (c : W V) (F : Env V),
    regionVals sem subs' k (c :: (pullIns x ins).map F) =
      regionVals sem subs k (c :: ins.map (upd F x.outs (nodeVals sem x F)))

theorem pullRegions_spec {A : List Out} {x : Node} {ins : List Out} {nr : Nat} (hw : wfNode A x = true)
    (hn : (namesNode x).Nodup) (hA : ∀ o ∈ A, o ∉ namesNode x) : ∀ (subs : Regions) {n : Nat} {r : Regions × Nat},
    wfRegions (ins.length + 1) nr subs = true → (namesRegions subs).Nodup →
    (∀ z : Nat, z ∈ namesRegions subs → z < n) → pullRegions x ins subs n = some r →
    SubsPull x ins nr subs n r.1 r.2
  | .nil, n, r, hwr, hnr, hlt, h => by
    simp only [pullRegions, Option.some.injEq] at h
    subst h
    exact ⟨Nat.le_refl _, by simp [namesRegions], by simp [namesRegions], by simp [wfRegions], fun _ _ _ _ => rfl⟩
  | .cons args results sub rest, n, r, hwr, hnr, hlt, h => by
    simp only [pullRegions, Option.bind_eq_some_iff, Option.map_eq_some_iff] at h
    obtain ⟨⟨x', n1⟩, hc, q, hq, rfl⟩ := h
    simp only at hq ⊢
    simp only [wfRegions, Bool.and_eq_true, mem_subset, beq_iff_eq] at hwr
    obtain ⟨⟨⟨⟨hl1, hl2⟩, hwf⟩, hsub⟩, hrest⟩ := hwr
    rw [namesRegions, List.nodup_append, List.nodup_append] at hnr
    obtain ⟨⟨hna, hns, hd1⟩, hnr', hd2⟩ := hnr
    simp only [namesRegions, List.mem_append] at hlt
    have hcs := copyInto_spec hw hn hA (by simp) (fun z hz => by rw [mem_range'] at hz; omega) hc
    have hle1 := hcs.le
    have ht := pullRegions_spec hw hn hA rest (n := n1) hrest hnr' (fun z hz => by
      have := hlt z (.inr hz); omega) hq
    have hle2 := ht.le
    have hxo : ∀ z : Nat, z ∈ x'.outs → n + x.ins.length ≤ z ∧ z < n1 := fun z hz => hcs.names z (outs_names x' z hz)
    have hlta : ∀ z : Nat, z ∈ args → z < n := fun z hz => hlt z (.inl (.inl hz))
    have hlts : ∀ z : Nat, z ∈ namesNodes sub → z < n := fun z hz => hlt z (.inl (.inr hz))
    have hfix : ∀ o ∈ sub.outs, divertArgs x x'.outs ins args o = o := fun o ho =>
      divertArgs_notin fun h' => hd1 o (List.mem_of_mem_tail h') o (outs_namesNodes sub o ho) rfl
    have hkept : ∀ z ∈ args, divertArgs x x'.outs ins args z ∈ x'.outs ++ newArgs x ins args n := by
      intro z hz
      rw [List.mem_append]
      obtain ⟨k, hk⟩ := List.mem_iff_getElem?.1 hz
      rcases divertArgs_cases (x := x) (copies := x'.outs) (ins := ins) (args := args) z with e | e
      · rw [e]
        right
        rw [newArgs, List.mem_append]
        left
        cases k with
        | zero =>
          cases args with
          | nil => simp at hz
          | cons a as =>
            simp only [List.getElem?_cons_zero, Option.some.injEq] at hk
            simp [mask, hk]
        | succ k =>
          have hkl : k < ins.length := by
            obtain ⟨h, _⟩ := List.getElem?_eq_some_iff.1 hk
            omega
          obtain ⟨o, ho⟩ : ∃ o, ins[k]? = some o := ⟨_, List.getElem?_eq_getElem hkl⟩
          by_cases hox : o ∈ x.outs
          · obtain ⟨j, hj⟩ := List.mem_iff_getElem?.1 hox
            have hjl : j < x'.outs.length := by
              obtain ⟨h, _⟩ := List.getElem?_eq_some_iff.1 hj
              have := hcs.len
              omega
            have hd := List.getElem?_eq_getElem hjl
            rw [divertArgs_moved hna hk ho (nodup_outs hn) hj hd] at e
            have h1 := hlta z hz
            have h2 := (hxo z (e ▸ List.mem_of_getElem? hd)).1
            exact absurd (Nat.lt_of_lt_of_le h1 (Nat.le_trans (Nat.le_add_right _ _) h2)) (Nat.lt_irrefl _)
          · cases args with
            | nil => simp at hz
            | cons a as =>
              simp only [List.getElem?_cons_succ] at hk
              simp only [mask, List.mem_cons]
              exact .inr (mem_mask_map hk ho (by simpa using hox))
      · exact .inl e
    refine ⟨by omega, ?_, ?_, ?_, ?_⟩
    · simp only [namesRegions, namesNodes, Dne.Nodes.divert_names]
      show ((newArgs x ins args n ++ (namesNode x' ++ namesNodes sub)) ++ namesRegions q.1).Nodup
      rw [List.nodup_append, List.nodup_append, List.nodup_append]
      refine ⟨⟨newArgs_nodup hna hlta, ⟨hcs.nodup, hns, fun a ha b hb e => ?_⟩, fun a ha b hb e => ?_⟩, ht.nodup,
        fun a ha b hb e => ?_⟩
      · have h1 := (hcs.names a ha).1
        have h2 := hlts b hb
        subst e; omega
      · subst e
        rcases newArgs_cases ha with ha | ha <;> rcases List.mem_append.1 hb with hb | hb
        · have h1 := hlta a ha
          have h2 := (hcs.names a hb).1
          omega
        · exact hd1 a ha a hb rfl
        · have h2 := (hcs.names a hb).1
          omega
        · have h2 := hlts a hb
          omega
      · subst e
        have hb' := ht.names a hb
        have hcl : ∀ a : Nat, a ∈ newArgs x ins args n ++ (namesNode x' ++ namesNodes sub) →
            a ∈ args ∨ a ∈ namesNodes sub ∨ n ≤ a ∧ a < n1 := by
          intro a ha
          rcases List.mem_append.1 ha with ha | ha
          · rcases newArgs_cases ha with ha | ha
            · exact .inl ha
            · exact .inr (.inr ⟨ha.1, by omega⟩)
          · rcases List.mem_append.1 ha with ha | ha
            · have := hcs.names a ha
              exact .inr (.inr ⟨by omega, by omega⟩)
            · exact .inr (.inl ha)
        have ha' := hcl a ha
        clear hcl
        rcases hb' with hb' | hb'
        · have h3 := hlt a (.inr hb')
          rcases ha' with ha' | ha' | ha'
          · exact hd2 a (by simp [ha']) a hb' rfl
          · exact hd2 a (by simp [ha']) a hb' rfl
          · omega
        · rcases ha' with ha' | ha' | ha'
          · have := hlta a ha'; omega
          · have := hlts a ha'; omega
          · omega
    · intro z hz
      simp only [namesRegions, namesNodes, Dne.Nodes.divert_names, List.mem_append] at hz ⊢
      rcases hz with (hz | hz | hz) | hz
      · rcases newArgs_cases (x := x) (ins := ins) (List.mem_append.2 hz) with h | h
        · exact .inl (.inl (.inl h))
        · exact .inr ⟨h.1, by omega⟩
      · have := hcs.names z hz
        exact .inr ⟨by omega, by omega⟩
      · exact .inl (.inl (.inr hz))
      · rcases ht.names z hz with h | h
        · exact .inl (.inr h)
        · exact .inr ⟨by omega, h.2⟩
    · simp only [wfRegions, Bool.and_eq_true, mem_subset, beq_iff_eq, List.length_map]
      refine ⟨⟨⟨⟨?_, hl2⟩, ?_⟩, ?_⟩, ht.wf⟩
      · simp only [pullIns, List.length_append, List.length_range']
        rw [mask_length (true :: ins.map fun o => !x.outs.contains o) args (0 :: ins) (by simp [hl1])]
        simp only [mask, List.length_cons]
        omega
      · simp only [wfNodes, Bool.and_eq_true]
        refine ⟨hcs.wf _ fun z hz => List.mem_append_right _ hz, ?_⟩
        exact Dne.wfNodes_divert sub args _ (fun o _ ho => hkept o ho) hfix hwf
      · intro z hz
        rw [List.mem_map] at hz
        obtain ⟨o, ho, rfl⟩ := hz
        have := hsub o ho
        simp only [List.mem_append, Nodes.outs, Nodes.divert_outs] at this ⊢
        rcases this with h | h
        · have := hkept o h
          rw [newArgs, List.mem_append, List.mem_append] at this
          tauto
        · rw [hfix o h]; tauto
    · intro V sem k c F
      cases k with
      | succ k => simp only [regionVals]; exact ht.eval sem k c F
      | zero =>
        simp only [regionVals, List.map_map]
        refine List.map_congr_left fun o ho => ?_
        simp only [Function.comp, evalNodes]
        refine evalNodes_divert sem _ (fun z => z ∈ args ++ sub.outs) sub _ _ (fun i hi => wf_ins sub hwf i hi) hfix
          ?_ ?_ o (hsub o ho)
        · intro z _ hz h'
          rcases divertArgs_cases (x := x) (copies := x'.outs) (ins := ins) (args := args) z with e | e
          · rw [e] at h'; exact hz h'
          · have h1 := (hxo _ e).1
            have h2 := hlts _ (outs_namesNodes sub _ h')
            omega
        · intro z hz
          rcases List.mem_append.1 hz with hz | hz
          · exact args_eval hna hl1 hlta (nodup_outs hn) (nodup_outs hcs.nodup) hcs.len (fun z hz => (hxo z hz).1) sem c F
              (fun G hG => hcs.eval sem F G hG) hz
          · rw [hfix z hz]
            have hzs := outs_namesNodes sub z hz
            have hz1 : z ∉ x'.outs := fun h' => by
              have h1 := (hxo _ h').1
              have h2 := hlts _ hzs
              exact absurd (Nat.lt_of_lt_of_le h2 (Nat.le_trans (Nat.le_add_right _ _) h1)) (Nat.lt_irrefl _)
            have hz2 : z ∉ newArgs x ins args n := fun h' => by
              rcases newArgs_cases h' with h' | h'
              · exact hd1 z h' z hzs rfl
              · have h2 := hlts _ hzs
                exact absurd (Nat.lt_of_lt_of_le h2 h'.1) (Nat.lt_irrefl _)
            have hz3 : z ∉ args := fun h' => hd1 z h' z hzs rfl
            rw [upd_notin _ _ _ _ hz1, upd_notin _ _ _ _ hz3]
            exact upd_notin _ _ _ _ hz2

end Jlm.Opt.Pull
