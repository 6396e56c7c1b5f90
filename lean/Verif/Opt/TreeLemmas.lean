import Verif.Opt.DneModel

/-! # Lemmas about environments, evaluation and diversion of inputs -/

set_option linter.unusedSimpArgs false
set_option linter.unusedVariables false

namespace Jlm.Opt

variable {V : Type}

/-- The environments agree on the names in `P`. -/
def AgreeOn (P : Out → Prop) (e1 e2 : Env V) : Prop := ∀ x, P x → e1 x = e2 x

theorem upd_notin (env : Env V) : ∀ (os : List Out) (ws : List (W V)) (x : Out), x ∉ os →
    upd env os ws x = env x
  | [], _, _, _ => rfl
  | o :: os, ws, x, h => by
      simp only [List.mem_cons, not_or] at h
      simp only [upd, if_neg h.1]
      exact upd_notin env os ws.tail x h.2

theorem upd_congr {e1 e2 : Env V} : ∀ (os : List Out) (ws : List (W V)) (x : Out),
    (x ∉ os → e1 x = e2 x) → upd e1 os ws x = upd e2 os ws x
  | [], _, _, h => h (by simp)
  | o :: os, ws, x, h => by
      simp only [upd]
      by_cases hx : x = o
      · simp [hx]
      · simp only [if_neg hx]
        exact upd_congr os ws.tail x (fun h' => h (by simp [hx, h']))

theorem agree_upd {P : Out → Prop} {e1 e2 : Env V} (h : AgreeOn P e1 e2) (os : List Out)
    (ws : List (W V)) : AgreeOn P (upd e1 os ws) (upd e2 os ws) :=
  fun x hx => upd_congr os ws x (fun _ => h x hx)

/-- Values that agree where needed. -/
theorem agree_upd_map {P : Out → Prop} {e1 e2 : Env V} (h : AgreeOn P e1 e2) {f g : Out → W V} :
    ∀ (os is : List Out), (∀ p ∈ os.zip is, P p.1 → f p.2 = g p.2) →
      AgreeOn P (upd e1 os (is.map f)) (upd e2 os (is.map g))
  | [], _, _ => h
  | o :: os, [], _ => fun x hx => by
      simpa using upd_congr (o :: os) [] x (fun _ => h x hx)
  | o :: os, i :: is, hp => fun x hx => by
      simp only [upd, List.map_cons, List.headD_cons, List.tail_cons]
      by_cases hxo : x = o
      · subst hxo
        simpa using hp (x, i) (by simp) hx
      · simp only [if_neg hxo]
        exact agree_upd_map h os is (fun p hp' => hp p (by simp [hp'])) x hx

/-- All names in `P` are kept by the mask. -/
def Cover (P : Out → Prop) : List Out → List Bool → Prop
  | [], _ => True
  | o :: os, b :: bs => (P o → b = true) ∧ Cover P os bs
  | o :: os, [] => ¬ P o ∧ Cover P os []

theorem mask_nil {α : Type} (bs : List Bool) : mask bs ([] : List α) = [] := by
  cases bs with
  | nil => rfl
  | cons b bs => cases b <;> rfl

theorem mask_nil_left {α : Type} (xs : List α) : mask [] xs = [] := rfl

theorem mask_map {α β : Type} (f : α → β) : ∀ (bs : List Bool) (xs : List α),
    mask bs (xs.map f) = (mask bs xs).map f
  | [], xs => by simp [mask]
  | b :: bs, [] => by simp [mask_nil]
  | true :: bs, x :: xs => by simp [mask, mask_map f bs xs]
  | false :: bs, x :: xs => by simp [mask, mask_map f bs xs]

theorem mask_sublist {α : Type} : ∀ (bs : List Bool) (xs : List α), (mask bs xs).Sublist xs
  | [], xs => by simp [mask]
  | b :: bs, [] => by simp [mask_nil]
  | true :: bs, x :: xs => by simpa [mask] using mask_sublist bs xs
  | false :: bs, x :: xs => by simpa [mask] using (mask_sublist bs xs).cons x

theorem mask_length {α β : Type} : ∀ (bs : List Bool) (xs : List α) (ys : List β),
    xs.length = ys.length → (mask bs xs).length = (mask bs ys).length
  | [], xs, ys, h => by simp [mask]
  | b :: bs, [], [], _ => by simp [mask_nil]
  | true :: bs, x :: xs, y :: ys, h => by
      simp only [mask, List.length_cons]
      rw [mask_length bs xs ys (by simpa using h)]
  | false :: bs, x :: xs, y :: ys, h => by
      simp only [mask]
      exact mask_length bs xs ys (by simpa using h)

theorem mem_mask_zip {α : Type} : ∀ (bs : List Bool) (xs : List α) (x : α), x ∈ mask bs xs →
    (x, true) ∈ xs.zip bs
  | [], xs, x, h => by simp [mask] at h
  | b :: bs, [], x, h => by simp [mask_nil] at h
  | true :: bs, y :: ys, x, h => by
      simp only [mask, List.mem_cons] at h
      rcases h with rfl | h
      · simp
      · simp [mem_mask_zip bs ys x h]
  | false :: bs, y :: ys, x, h => by
      simp only [mask] at h
      simp [mem_mask_zip bs ys x h]

theorem mask_zip {α β : Type} : ∀ (bs : List Bool) (xs : List α) (ys : List β),
    (mask bs xs).zip (mask bs ys) = mask bs (xs.zip ys)
  | [], xs, ys => by simp [mask]
  | b :: bs, [], ys => by simp [mask_nil]
  | b :: bs, x :: xs, [] => by simp [mask_nil]
  | true :: bs, x :: xs, y :: ys => by simp [mask, mask_zip bs xs ys]
  | false :: bs, x :: xs, y :: ys => by simp [mask, mask_zip bs xs ys]

/-- Masking the names and the values does not change the value of a name that is kept. -/
theorem agree_upd_mask {P : Out → Prop} {e1 e2 : Env V} (h : AgreeOn P e1 e2) :
    ∀ (os : List Out) (bs : List Bool) (ws : List (W V)), Cover P os bs →
      AgreeOn P (upd e1 (mask bs os) (mask bs ws)) (upd e2 os ws)
  | [], bs, ws, _ => by
      rw [mask_nil]
      exact h
  | o :: os, [], ws, hc => fun x hx => by
      have hxo : x ≠ o := fun e => hc.1 (e ▸ hx)
      simp only [mask, upd, if_neg hxo]
      have := agree_upd_mask h os [] ws.tail hc.2 x hx
      simpa [mask, upd] using this
  | o :: os, true :: bs, ws, hc => fun x hx => by
      cases ws with
      | nil =>
        simp only [mask, upd]
        by_cases hxo : x = o
        · simp [hxo]
        · simp only [if_neg hxo]
          have := agree_upd_mask h os bs [] hc.2 x hx
          simpa [mask_nil] using this
      | cons w ws =>
        simp only [mask, upd]
        by_cases hxo : x = o
        · simp [hxo]
        · simp only [if_neg hxo]
          exact agree_upd_mask h os bs ws hc.2 x hx
  | o :: os, false :: bs, ws, hc => fun x hx => by
      have hxo : x ≠ o := fun e => by simpa using hc.1 (e ▸ hx)
      cases ws with
      | nil =>
        simp only [mask, upd, if_neg hxo]
        have := agree_upd_mask h os bs [] hc.2 x hx
        simpa [mask_nil] using this
      | cons w ws =>
        simp only [mask, upd, if_neg hxo]
        exact agree_upd_mask h os bs ws hc.2 x hx

theorem cover_map {P : Out → Prop} {f : Out → Bool} : ∀ (os : List Out),
    (∀ o ∈ os, P o → f o = true) → Cover P os (os.map f)
  | [], _ => trivial
  | o :: os, h => ⟨h o (by simp), cover_map os (fun o' ho' => h o' (by simp [ho']))⟩

theorem cover_iff {P : Out → Prop} : ∀ (os : List Out) (bs : List Bool), os.length = bs.length →
    (Cover P os bs ↔ ∀ p ∈ os.zip bs, P p.1 → p.2 = true)
  | [], bs, _ => by simp [Cover]
  | o :: os, b :: bs, h => by
      simp only [Cover, cover_iff os bs (by simpa using h), List.zip_cons_cons, List.mem_cons,
        forall_eq_or_imp]

/-! ## Evaluation depends only on the inputs -/

theorem nodeVals_congr (sem : Sem V) (n : Node) (e1 e2 : Env V) (h : ∀ i ∈ n.ins, e1 i = e2 i) :
    nodeVals sem n e1 = nodeVals sem n e2 := by
  have hm : ∀ l : List Out, (∀ i ∈ l, i ∈ n.ins) → l.map e1 = l.map e2 :=
    fun l hl => List.map_congr_left fun i hi => h i (hl i hi)
  cases n with
  | simple op ins outs => simp only [nodeVals]; rw [hm ins (by simp [Node.ins])]
  | gamma pred ins outs subs =>
    simp only [nodeVals]; rw [hm ins (by simp +contextual [Node.ins]), h pred (by simp [Node.ins])]
  | theta ins outs args pred posts sub =>
    simp only [nodeVals]; rw [hm ins (by simp [Node.ins])]
  | lambda ins args params results out sub =>
    simp only [nodeVals]; rw [hm ins (by simp [Node.ins])]
  | phi ins args recs results outs sub =>
    simp only [nodeVals]; rw [hm ins (by simp [Node.ins])]
  | delta ins args result out sub =>
    simp only [nodeVals]; rw [hm ins (by simp [Node.ins])]

theorem Node.divert_outs (τ : Out → Out) (n : Node) : (n.divert τ).outs = n.outs := by
  cases n <;> rfl

theorem Node.divert_ins (τ : Out → Out) (n : Node) : (n.divert τ).ins = n.ins.map τ := by
  cases n <;> rfl

theorem Nodes.divert_outs (τ : Out → Out) : ∀ ns : Nodes, (ns.divert τ).outs = ns.outs
  | .nil => rfl
  | .cons n ns => by simp [Nodes.divert, Nodes.outs, Node.divert_outs, Nodes.divert_outs τ ns]

theorem Nodes.divert_ins (τ : Out → Out) : ∀ ns : Nodes, (ns.divert τ).ins = ns.ins.map τ
  | .nil => rfl
  | .cons n ns => by simp [Nodes.divert, Nodes.ins, Node.divert_ins, Nodes.divert_ins τ ns]

theorem nodeVals_divert (sem : Sem V) (τ : Out → Out) (n : Node) (e1 e2 : Env V)
    (h : ∀ i ∈ n.ins, e1 (τ i) = e2 i) : nodeVals sem (n.divert τ) e1 = nodeVals sem n e2 := by
  have hm : ∀ l : List Out, (∀ i ∈ l, i ∈ n.ins) → (l.map τ).map e1 = l.map e2 :=
    fun l hl => by
      rw [List.map_map]
      exact List.map_congr_left fun i hi => h i (hl i hi)
  cases n with
  | simple op ins outs => simp only [nodeVals, Node.divert]; rw [hm ins (by simp [Node.ins])]
  | gamma pred ins outs subs =>
    simp only [nodeVals, Node.divert]
    rw [hm ins (by simp +contextual [Node.ins]), h pred (by simp [Node.ins])]
  | theta ins outs args pred posts sub =>
    simp only [nodeVals, Node.divert]; rw [hm ins (by simp [Node.ins])]
  | lambda ins args params results out sub =>
    simp only [nodeVals, Node.divert]; rw [hm ins (by simp [Node.ins])]
  | phi ins args recs results outs sub =>
    simp only [nodeVals, Node.divert]; rw [hm ins (by simp [Node.ins])]
  | delta ins args result out sub =>
    simp only [nodeVals, Node.divert]; rw [hm ins (by simp [Node.ins])]

/-- Evaluation depends only on the names that are used. -/
theorem evalNodes_agree (sem : Sem V) (Q : Out → Prop) : ∀ (ns : Nodes) (e1 e2 : Env V),
    (∀ i ∈ ns.ins, Q i) → AgreeOn Q e1 e2 → AgreeOn Q (evalNodes sem ns e1) (evalNodes sem ns e2)
  | .nil, e1, e2, _, h => by simpa [evalNodes] using h
  | .cons n ns, e1, e2, hq, h => by
      simp only [evalNodes]
      rw [nodeVals_congr sem n e1 e2 (fun i hi => h i (hq i (by simp [Nodes.ins, hi])))]
      exact evalNodes_agree sem Q ns _ _ (fun i hi => hq i (by simp [Nodes.ins, hi]))
        (agree_upd h n.outs _)

theorem evalNodes_notin (sem : Sem V) : ∀ (ns : Nodes) (e : Env V) (x : Out), x ∉ ns.outs →
    evalNodes sem ns e x = e x
  | .nil, e, x, _ => by simp [evalNodes]
  | .cons n ns, e, x, h => by
      simp only [Nodes.outs, List.mem_append, not_or] at h
      simp only [evalNodes]
      rw [evalNodes_notin sem ns _ x h.2, upd_notin _ _ _ _ h.1]

/-- Evaluation after a diversion of inputs to outputs that are defined before the nodes. -/
theorem evalNodes_divert (sem : Sem V) (τ : Out → Out) (Q : Out → Prop) :
    ∀ (ns : Nodes) (e1 e2 : Env V), (∀ i ∈ ns.ins, Q i) → (∀ o ∈ ns.outs, τ o = o) →
      (∀ x, Q x → x ∉ ns.outs → τ x ∉ ns.outs) → (∀ x, Q x → e1 (τ x) = e2 x) →
      ∀ x, Q x → evalNodes sem (ns.divert τ) e1 (τ x) = evalNodes sem ns e2 x
  | .nil, e1, e2, _, _, _, h, x, hx => by simpa [evalNodes, Nodes.divert] using h x hx
  | .cons n ns, e1, e2, hq, hfix, hout, h, x, hx => by
      simp only [Nodes.divert, evalNodes, Node.divert_outs]
      rw [nodeVals_divert sem τ n e1 e2 (fun i hi => h i (hq i (by simp [Nodes.ins, hi])))]
      refine evalNodes_divert sem τ Q ns _ _ (fun i hi => hq i (by simp [Nodes.ins, hi]))
        (fun o ho => hfix o (by simp [Nodes.outs, ho])) ?_ ?_ x hx
      · intro y hy hyn
        by_cases hyo : y ∈ n.outs
        · rw [hfix y (by simp [Nodes.outs, hyo])]
          exact hyn
        · intro hc
          exact hout y hy (by simp [Nodes.outs, hyo, hyn]) (by simp [Nodes.outs, hc])
      · intro y hy
        by_cases hyo : y ∈ n.outs
        · rw [hfix y (by simp [Nodes.outs, hyo])]
          exact upd_congr _ _ _ (fun hc => absurd hyo hc)
        · by_cases hyn : y ∈ ns.outs
          · rw [hfix y (by simp [Nodes.outs, hyn])]
            rw [upd_notin _ _ _ _ hyo, upd_notin _ _ _ _ hyo]
            have := h y hy
            rwa [hfix y (by simp [Nodes.outs, hyn])] at this
          · have h1 := hout y hy (by simp [Nodes.outs, hyo, hyn])
            simp only [Nodes.outs, List.mem_append, not_or] at h1
            rw [upd_notin _ _ _ _ h1.1, upd_notin _ _ _ _ hyo]
            exact h y hy

end Jlm.Opt
