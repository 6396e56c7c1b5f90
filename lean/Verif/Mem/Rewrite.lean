import Verif.Mem.Sched
import Mathlib.Data.List.Induction
/-
A rewrite of a region that keeps the flow of memory states between the accesses that remain, and
removes only accesses whose effect is not observed, is correct.
-/
set_option linter.unusedSimpArgs false
set_option linter.unusedVariables false
namespace Jlm.Mem

variable {V B : Type} {sem : Sem V B}

/-- the operations that compute values or access memory -/
def Op.isEff : Op → Bool
  | .load _ => true
  | .store _ => true
  | .alloca _ => true
  | .other _ => true
  | _ => false

theorem not_eff_reads {op : Op} (h : op.isEff = false) (vs : List V) (b : Nat) :
    ¬ sem.reads op vs b := by
  cases op <;> simp_all [Op.isEff, Sem.reads]

theorem not_eff_writes {op : Op} (h : op.isEff = false) (vs : List V) (b : Nat) :
    ¬ sem.writes op vs b := by
  cases op <;> simp_all [Op.isEff, Sem.writes]

theorem step_not_eff {x : Node} (h : x.op.isEff = false) (s : State V B) : step sem s x = s := by
  have : sem.apply x.op (x.vals.map s.env) s.mem = ([], s.mem) := by
    cases ho : x.op <;> simp_all [Op.isEff, Sem.apply]
  apply State.ext'
  · funext v
    cases v with
    | arg i => rfl
    | res i k =>
      simp only [step, this]
      simp
  · simp only [step, this]

theorem exec_eff (s : State V B) (l : List Node) :
    exec sem s l = exec sem s (l.filter fun x => x.op.isEff) := by
  induction l generalizing s with
  | nil => rfl
  | cons x l ih =>
    rw [exec_cons, List.filter_cons]
    split
    · rw [exec_cons, ih]
    · rename_i h
      rw [step_not_eff (by simpa using h), ih]

/-- byte `b` was last written by a node that has no counterpart -/
def Dirty (sem : Sem V B) (F : VOut → V) (lv : Node → Bool) (ret : Node → Prop) (l : List Node)
    (b : Nat) : Prop :=
  ∃ p1 z p2, l = p1 ++ z :: p2 ∧ lv z = true ∧ ¬ ret z ∧ sem.writes z.op (z.vals.map F) b ∧
    ∀ w ∈ p2, lv w = true → ¬ sem.writes w.op (w.vals.map F) b

/-- Executing part of the nodes, in the same order, with operands of the same value. `N` are the
nodes of the old region, `g x` those that take the place of `x`. -/
theorem run_sub (s : State V B) (N : List Node) (g : Node → List Node) (lv lv' : Node → Bool)
    (F : VOut → V) (hF : F = (exec sem s (N.filter lv)).env)
    (hnd : (N.map Node.id).Nodup)
    (ht : Topo (N.filter lv)) (ht' : Topo ((N.flatMap g).filter lv'))
    (hnd' : ((N.flatMap g).map Node.id).Nodup)
    (hid : ∀ x ∈ N, ∀ x' ∈ g x, x'.id = x.id ∨ x'.id ∉ N.map Node.id)
    (hS : ∀ x ∈ N, ∀ x' ∈ g x, x'.op.isEff = false → ∀ y ∈ N, y.op.isEff = true → y.id ≠ x'.id)
    (hg : ∀ x ∈ N, ∀ x' ∈ g x, lv' x' = true → x'.op.isEff = true →
      x'.id = x.id ∧ x'.op = x.op ∧ x'.vals.map F = x.vals.map F ∧ lv x = true ∧
      (g x).filter (fun y => y.op.isEff) = [x'])
    (ret : Node → Prop)
    (hret : ∀ x, ret x ↔ ∃ x' ∈ g x, lv' x' = true ∧ x'.op.isEff = true)
    (hread : ∀ p x q, N = p ++ x :: q → ret x → ∀ b, sem.reads x.op (x.vals.map F) b →
      ¬ Dirty sem F lv ret p b) :
    (∀ i ∈ ((N.flatMap g).filter lv').map Node.id, ∀ k,
      (exec sem s ((N.flatMap g).filter lv')).env (.res i k) = F (.res i k)) ∧
    (∀ i, (exec sem s ((N.flatMap g).filter lv')).env (.arg i) = F (.arg i)) ∧
    (∀ b, ¬ Dirty sem F lv ret N b →
      (exec sem s ((N.flatMap g).filter lv')).mem b = (exec sem s (N.filter lv)).mem b) := by
  have harg : ∀ (l : List Node) i, (exec sem s l).env (.arg i) = s.env (.arg i) := fun l i =>
    exec_env_other l s (.arg i) (by simp [VOut.owners])
  have hres : ∀ (l : List Node) i k, i ∉ l.map Node.id →
      (exec sem s l).env (.res i k) = s.env (.res i k) := fun l i k h =>
    exec_env_other l s (.res i k) (by simpa [VOut.owners] using h)
  have hstep : ∀ (A : State V B) (x : Node) i k, i ≠ x.id →
      (step sem A x).env (.res i k) = A.env (.res i k) := fun A x i k h =>
    step_env_other _ _ _ (by simpa [VOut.owners] using Ne.symm h)
  -- the invariant after a prefix
  have main : ∀ p q, N = p ++ q →
      (∀ i ∈ ((p.flatMap g).filter lv').map Node.id, ∀ k,
        (exec sem s ((p.flatMap g).filter lv')).env (.res i k) =
          (exec sem s (p.filter lv)).env (.res i k)) ∧
      (∀ b, ¬ Dirty sem F lv ret p b →
        (exec sem s ((p.flatMap g).filter lv')).mem b = (exec sem s (p.filter lv)).mem b) := by
    intro p
    induction p using List.reverseRecOn with
    | nil =>
      intro q _
      exact ⟨by simp, fun b _ => by simp⟩
    | append_singleton p x ih =>
      intro q e
      have e' : N = p ++ x :: q := by rw [e]; simp
      obtain ⟨ih1, ih2⟩ := ih (x :: q) e'
      have hxN : x ∈ N := by rw [e']; simp
      have hpN : ∀ z ∈ p, z ∈ N := fun z hz => by rw [e']; simp [hz]
      rw [List.flatMap_append, List.filter_append, List.filter_append, exec_append, exec_append]
      have hfx : (([x] : List Node).flatMap g).filter lv' = (g x).filter lv' := by simp
      rw [hfx]
      -- ids of the processed new nodes
      have hidp : ∀ i ∈ ((p.flatMap g).filter lv').map Node.id, i ∉ (x :: q).map Node.id := by
        intro i hi hin
        simp only [List.mem_map, List.mem_filter, List.mem_flatMap] at hi
        obtain ⟨z', ⟨⟨z, hz, hz'⟩, _⟩, rfl⟩ := hi
        rcases hid z (hpN z hz) z' hz' with h | h
        · rw [h] at hin
          rw [e', List.map_append, List.nodup_append] at hnd
          exact hnd.2.2 _ (List.mem_map_of_mem hz) _ hin rfl
        · apply h
          rw [e', List.map_append, List.mem_append]
          exact Or.inr hin
      have hxp : x.id ∉ (p.filter lv).map Node.id := by
        intro hin
        simp only [List.mem_map, List.mem_filter] at hin
        obtain ⟨z, ⟨hz, _⟩, hzx⟩ := hin
        rw [e', List.map_append, List.nodup_append] at hnd
        exact hnd.2.2 _ (List.mem_map_of_mem hz) _ (by simp) hzx
      have hxp' : x.id ∉ ((p.flatMap g).filter lv').map Node.id := fun h => hidp _ h (by simp)
      have hdisj : ∀ z' ∈ g x, z'.id ∉ ((p.flatMap g).filter lv').map Node.id := by
        intro z' hz' hin
        rw [e', List.flatMap_append, List.flatMap_cons, List.map_append, List.nodup_append] at hnd'
        refine hnd'.2.2 z'.id ?_ z'.id ?_ rfl
        · simp only [List.mem_map, List.mem_filter] at hin ⊢
          obtain ⟨w, ⟨hw, _⟩, hwz⟩ := hin
          exact ⟨w, hw, hwz⟩
        · simp only [List.map_append, List.mem_append, List.mem_map]
          exact Or.inl ⟨z', hz', rfl⟩
      have hpfresh : ∀ i, i ∉ N.map Node.id → i ∉ (p.filter lv).map Node.id := by
        intro i hi hin
        apply hi
        simp only [List.mem_map, List.mem_filter] at hin ⊢
        obtain ⟨z, ⟨hz, _⟩, hzx⟩ := hin
        exact ⟨z, hpN z hz, hzx⟩
      have hsame : ∀ z' ∈ g x, z'.id ∉ (p.filter lv).map Node.id →
          ∀ k, (exec sem s ((p.flatMap g).filter lv')).env (.res z'.id k) =
            (exec sem s (p.filter lv)).env (.res z'.id k) := by
        intro z' hz' hf k
        rw [hres _ _ _ (hdisj z' hz'), hres _ _ _ hf]
      have hsamex : ∀ k, (exec sem s ((p.flatMap g).filter lv')).env (.res x.id k) =
            (exec sem s (p.filter lv)).env (.res x.id k) := by
        intro k
        rw [hres _ _ _ hxp', hres _ _ _ hxp]
      have hFfresh : ∀ i k, i ∉ N.map Node.id → F (.res i k) = s.env (.res i k) := by
        intro i k hi
        rw [hF, hres]
        intro hin
        apply hi
        simp only [List.mem_map, List.mem_filter] at hin ⊢
        obtain ⟨z, ⟨hz, _⟩, hzx⟩ := hin
        exact ⟨z, hz, hzx⟩
      generalize hA : exec sem s (p.filter lv) = A at *
      generalize hA' : exec sem s ((p.flatMap g).filter lv') = A' at *
      have hAF : ∀ i, i ∉ (x :: q).map Node.id → ∀ k, A.env (.res i k) = F (.res i k) := by
        intro i hi k
        rw [hF, e', List.filter_append, exec_append, hA, exec_env_other]
        intro j hj hjl
        simp only [VOut.owners, List.mem_singleton] at hj
        subst hj
        apply hi
        simp only [List.mem_map, List.mem_filter] at hjl ⊢
        obtain ⟨z, ⟨hz, _⟩, hzj⟩ := hjl
        exact ⟨z, hz, hzj⟩
      have hAFarg : ∀ i, A.env (.arg i) = F (.arg i) := by
        intro i; rw [← hA, harg, hF, harg]
      -- x itself in the old run
      have hxA : lv x = true → x.vals.map A.env = x.vals.map F := by
        intro hlx
        apply map_env_congr
        intro v hv
        cases v with
        | arg i => exact hAFarg i
        | res i k =>
          apply hAF
          have hsplit : N.filter lv = p.filter lv ++ x :: q.filter lv := by
            rw [e', List.filter_append, List.filter_cons, if_pos hlx]
          have := ht _ _ _ hsplit i (mem_needs_vals hv (by simp [VOut.owners]))
          intro hin
          simp only [List.mem_map, List.mem_filter] at this
          obtain ⟨z, ⟨hz, _⟩, hzi⟩ := this
          rw [e', List.map_append, List.nodup_append] at hnd
          exact hnd.2.2 _ (List.mem_map_of_mem hz) _ (hzi ▸ hin) rfl
      by_cases hr : ret x
      · -- retained
        obtain ⟨x', hx', hlx', hex'⟩ := (hret x).mp hr
        obtain ⟨hidx, hopx, hvx, hlx, hsing⟩ := hg x hxN x' hx' hlx' hex'
        have hlast : (([x] : List Node).filter lv) = [x] := by simp [hlx]
        rw [hlast]
        have hfe : ((g x).filter lv').filter (fun y => y.op.isEff) = [x'] := by
          rw [List.filter_filter]
          have : (g x).filter (fun a => a.op.isEff && lv' a) =
              ((g x).filter fun y => y.op.isEff).filter lv' := by
            rw [List.filter_filter]; congr 1; funext a; exact Bool.and_comm _ _
          rw [this, hsing]
          simp [hlx']
        have hrun : exec sem A' ((g x).filter lv') = step sem A' x' := by
          rw [exec_eff, hfe]; rfl
        rw [hrun]
        -- the values of the operands
        have hx'A' : x'.vals.map A'.env = x'.vals.map F := by
          apply map_env_congr
          intro v hv
          cases v with
          | arg i => rw [← hA', harg, hF, harg]
          | res i k =>
            obtain ⟨a, c, hac⟩ : ∃ a c, (g x).filter lv' = a ++ x' :: c :=
              List.append_of_mem (by simp [hx', hlx'])
            have hsplit : (N.flatMap g).filter lv' =
                ((p.flatMap g).filter lv' ++ a) ++ x' :: (c ++ (q.flatMap g).filter lv') := by
              rw [e', List.flatMap_append, List.flatMap_cons, List.filter_append,
                List.filter_append, hac]
              simp
            have hin := ht' _ _ _ hsplit i (mem_needs_vals hv (by simp [VOut.owners]))
            rw [List.map_append, List.mem_append] at hin
            rcases hin with hin | hin
            · rw [ih1 i hin, hAF i (hidp i hin)]
            · -- an operand made by the same replacement: not an effect
              simp only [List.mem_map] at hin
              obtain ⟨z', hz', rfl⟩ := hin
              have hz'g : z' ∈ g x := (List.mem_filter.mp (hac ▸ (by simp [hz'] :
                z' ∈ a ++ x' :: c))).1
              have hzx : z'.id ∉ N.map Node.id := by
                rcases hid x hxN z' hz'g with h | h
                · exfalso
                  have hn2 : (((N.flatMap g).filter lv').map Node.id).Nodup :=
                    List.Nodup.sublist (List.filter_sublist.map _) hnd'
                  rw [hsplit] at hn2
                  simp only [List.map_append, List.map_cons] at hn2
                  rw [List.nodup_append] at hn2
                  refine hn2.2.2 z'.id ?_ x'.id (by simp) (by rw [h, hidx])
                  simp only [List.mem_append, List.mem_map]
                  exact Or.inr ⟨z', hz', rfl⟩
                · exact h
              rw [hsame z' hz'g (hpfresh _ hzx), ← hA, hres _ _ _ (hpfresh _ hzx), hFfresh _ _ hzx]
        have hrd : ∀ b, sem.reads x.op (x.vals.map F) b → A'.mem b = A.mem b := fun b hb =>
          ih2 b (hread p x q e' hr b hb)
        constructor
        · intro i hi k
          by_cases hix : i = x.id
          · subst hix
            show (if x.id = x'.id then _ else _) = (if x.id = x.id then _ else _)
            rw [if_pos hidx.symm, if_pos rfl, hx'A', hvx, hopx, hxA hlx, hsamex,
              apply_vals _ _ _ _ hrd]
          · show _ = (step sem A x).env _
            rw [hstep _ _ _ _ hix, hstep _ _ _ _ (by rw [hidx]; exact hix)]
            rw [List.map_append, List.mem_append] at hi
            rcases hi with hi | hi
            · exact ih1 i hi k
            · simp only [List.mem_map, List.mem_filter] at hi
              obtain ⟨z', ⟨hz', _⟩, rfl⟩ := hi
              rcases hid x hxN z' hz' with h | h
              · exact absurd h hix
              · exact hsame z' hz' (hpfresh _ h) k
        · intro b hb
          show (sem.apply x'.op (x'.vals.map A'.env) A'.mem).2 b =
            (sem.apply x.op (x.vals.map A.env) A.mem).2 b
          rw [hx'A', hvx, hopx, hxA hlx]
          by_cases hw : sem.writes x.op (x.vals.map F) b
          · exact apply_mem _ _ _ _ hrd b hw
          · rw [apply_frame _ _ _ _ hw, apply_frame _ _ _ _ hw]
            apply ih2
            rintro ⟨p1, z, p2, ep, h1, h2, h3, h4⟩
            refine hb ⟨p1, z, p2 ++ [x], by rw [ep]; simp, h1, h2, h3, ?_⟩
            intro w hw' hlw
            rw [List.mem_append, List.mem_singleton] at hw'
            rcases hw' with h | h
            · exact h4 w h hlw
            · rw [h]; exact hw
      · -- not retained: the new run does nothing
        have hno : ∀ x' ∈ (g x).filter lv', x'.op.isEff = false := by
          intro x' hx'
          simp only [List.mem_filter] at hx'
          cases he : x'.op.isEff with
          | false => rfl
          | true => exact absurd ((hret x).mpr ⟨x', hx'.1, hx'.2, he⟩) hr
        have hrun : exec sem A' ((g x).filter lv') = A' := by
          rw [exec_eff, List.filter_eq_nil_iff.mpr]
          · rfl
          · intro a ha; simp [hno a ha]
        rw [hrun]
        constructor
        · intro i hi k
          rw [List.map_append, List.mem_append] at hi
          have hA1 : i ≠ x.id → (exec sem A ([x].filter lv)).env (.res i k) = A.env (.res i k) := by
            intro h
            cases hl : lv x with
            | true =>
              have : ([x].filter lv) = [x] := by simp [hl]
              rw [this]; exact hstep _ _ _ _ h
            | false =>
              have : ([x].filter lv) = [] := by simp [hl]
              rw [this]; rfl
          rcases hi with hi | hi
          · rw [hA1 (fun h => hxp' (h ▸ hi))]
            exact ih1 i hi k
          · simp only [List.mem_map] at hi
            obtain ⟨z', hz', rfl⟩ := hi
            have hz'g := (List.mem_filter.mp hz').1
            rcases hid x hxN z' hz'g with h | h
            · have hxe : x.op.isEff = false := by
                cases he : x.op.isEff with
                | false => rfl
                | true => exact absurd h.symm (hS x hxN z' hz'g (hno z' hz') x hxN he)
              have : exec sem A ([x].filter lv) = A := by
                rw [exec_eff]
                have : ([x].filter lv).filter (fun y => y.op.isEff) = [] := by
                  rw [List.filter_eq_nil_iff]
                  intro a ha
                  simp only [List.mem_filter, List.mem_singleton] at ha
                  rw [ha.1]; simp [hxe]
                rw [this]; rfl
              rw [this, h]
              exact hsamex k
            · rw [hA1 (fun hh => h (hh ▸ List.mem_map_of_mem hxN))]
              exact hsame z' hz'g (hpfresh _ h) k
        · intro b hb
          have hpb : ¬ Dirty sem F lv ret p b ∧ (lv x = true → ¬ sem.writes x.op (x.vals.map F) b) := by
            have h2 : lv x = true → ¬ sem.writes x.op (x.vals.map F) b := fun hl hw =>
              hb ⟨p, x, [], rfl, hl, hr, hw, by simp⟩
            refine ⟨?_, h2⟩
            rintro ⟨p1, z, p2, ep, h1, h3, h4, h5⟩
            refine hb ⟨p1, z, p2 ++ [x], by rw [ep]; simp, h1, h3, h4, ?_⟩
            intro w hw' hlw
            rw [List.mem_append, List.mem_singleton] at hw'
            rcases hw' with h | h
            · exact h5 w h hlw
            · rw [h]; exact h2 (h ▸ hlw)
          rw [ih2 b hpb.1]
          cases hl : lv x with
          | true =>
            have : ([x].filter lv) = [x] := by simp [hl]
            rw [this]
            show _ = (sem.apply x.op (x.vals.map A.env) A.mem).2 b
            rw [hxA hl, apply_frame _ _ _ _ (hpb.2 hl)]
          | false =>
            have : ([x].filter lv) = [] := by simp [hl]
            rw [this]; rfl
  obtain ⟨m1, m2⟩ := main N [] (by simp)
  refine ⟨fun i hi k => by rw [m1 i hi k, hF], fun i => by rw [harg, hF, harg], m2⟩

end Jlm.Mem
