import Verif.Opt.SvfTrace

set_option linter.unusedSimpArgs false
set_option linter.unusedVariables false

/-!
# Store value forwarding: all the variables that are needed are created
-/

namespace Jlm.Opt.Svf

theorem made_mono {c c' : Nat → Bool} (h : ∀ id, c id = true → c' id = true) {r : Origin} (hr : r.made c) : r.made c' := by
  cases r <;> simp only [Origin.made] at hr ⊢ <;> exact h _ hr

/-- New variables are complete, except for the posts of loop variables. -/
structure Grow (own : Cons → Option Origin) (regions : Nat → Nat) (st st' : Made) : Prop where
  gm : ∀ id ∈ st.gammas, id ∈ st'.gammas
  tm : ∀ id ∈ st.thetas, id ∈ st'.thetas
  pm : ∀ id ∈ st.pending, id ∈ st'.pending
  gn : ∀ id ∈ st'.gammas, id ∈ st.gammas ∨
    (∃ c, own c = some (.gammaOut id)) ∧ ∀ b < regions id, ∀ r, own (.rg id b) = some r → r.made st'.created
  tn : ∀ id ∈ st'.thetas, id ∈ st.thetas ∨
    ((∃ c, own c = some (.thetaOut id)) ∨ ∃ c, own c = some (.thetaPre id)) ∧ (∀ r, own (.nd id) = some r → r.made st'.created) ∧
      id ∈ st'.pending

section
variable {own : Cons → Option Origin} {regions : Nat → Nat}

theorem Grow.created {st st' : Made} (h : Grow own regions st st') : ∀ id, st.created id = true → st'.created id = true := by
  intro id hid
  rcases Made.created_iff.mp hid with hid | hid
  · exact Made.created_iff.mpr (Or.inl (h.gm id hid))
  · exact Made.created_iff.mpr (Or.inr (h.tm id hid))

theorem Grow.refl (st : Made) : Grow own regions st st :=
  ⟨fun _ h => h, fun _ h => h, fun _ h => h, fun _ h => Or.inl h, fun _ h => Or.inl h⟩

theorem Grow.trans {a b c : Made} (h1 : Grow own regions a b) (h2 : Grow own regions b c) : Grow own regions a c where
  gm id h := h2.gm id (h1.gm id h)
  tm id h := h2.tm id (h1.tm id h)
  pm id h := h2.pm id (h1.pm id h)
  gn id h := by
    rcases h2.gn id h with h | h
    · rcases h1.gn id h with h | ⟨h, h'⟩
      · exact Or.inl h
      · exact Or.inr ⟨h, fun b hb r hr => made_mono h2.created (h' b hb r hr)⟩
    · exact Or.inr h
  tn id h := by
    rcases h2.tn id h with h | h
    · rcases h1.tn id h with h | ⟨h, h', h''⟩
      · exact Or.inl h
      · exact Or.inr ⟨h, fun r hr => made_mono h2.created (h' r hr), h2.pm id h''⟩
    · exact Or.inr h

/-- What a recursive call does. -/
def CRec (own : Cons → Option Origin) (regions : Nat → Nat) (f : Made → Origin → Option Made) : Prop :=
  ∀ st st' o, (∃ c, own c = some o) → f st o = some st' → Grow own regions st st' ∧ o.made st'.created

theorem createRegions_grow {f : Made → Origin → Option Made} (hf : CRec own regions f) {id : Nat} : ∀ {bs : List Nat} {st st' : Made},
    createRegions f own id bs st = some st' →
      Grow own regions st st' ∧ ∀ b ∈ bs, ∀ r, own (.rg id b) = some r → r.made st'.created
  | [], st, st', h => by
    simp only [createRegions, Option.some.injEq] at h
    subst h
    exact ⟨.refl _, by simp⟩
  | b :: bs, st, st', h => by
    simp only [createRegions] at h
    cases ho : own (.rg id b) with
    | none => rw [ho] at h; simp at h
    | some o =>
      rw [ho] at h
      simp only at h
      cases hc : f st o with
      | none => rw [hc] at h; simp at h
      | some st1 =>
        rw [hc] at h
        simp only at h
        obtain ⟨g1, h1⟩ := hf st st1 o ⟨_, ho⟩ hc
        obtain ⟨g2, h2⟩ := createRegions_grow hf h
        refine ⟨g1.trans g2, fun b' hb' r hr => ?_⟩
        rcases List.mem_cons.mp hb' with rfl | hb'
        · rw [ho] at hr
          injection hr with hr
          subst hr
          exact made_mono g2.created h1
        · exact h2 b' hb' r hr

theorem theta_grow {f : Made → Origin → Option Made} (hf : CRec own regions f) {st st' : Made} {id : Nat}
    (hsrc : (∃ c, own c = some (.thetaOut id)) ∨ ∃ c, own c = some (.thetaPre id))
    (h : (if st.thetas.contains id then some st
      else
        match (match own (.nd id) with
          | none => some st
          | some o => f st o) with
        | none => none
        | some st => some { st with thetas := id :: st.thetas, pending := st.pending ++ [id] }) = some st') :
    Grow own regions st st' ∧ st'.created id = true := by
  by_cases hc : st.thetas.contains id = true
  · rw [if_pos hc] at h
    injection h with h
    subst h
    exact ⟨.refl _, Made.created_iff.mpr (Or.inr (by simpa using hc))⟩
  · rw [if_neg hc] at h
    have hst : ∃ st1, (match own (.nd id) with
          | none => some st
          | some o => f st o) = some st1 ∧ st' = { st1 with thetas := id :: st1.thetas, pending := st1.pending ++ [id] } := by
      split at h
      · simp at h
      next st1 he =>
        injection h with h
        exact ⟨st1, he, h.symm⟩
    obtain ⟨st1, he, rfl⟩ := hst
    have hg : Grow own regions st st1 ∧ ∀ r, own (.nd id) = some r → r.made st1.created := by
      cases ho : own (.nd id) with
      | none =>
        rw [ho] at he
        simp only [Option.some.injEq] at he
        subst he
        exact ⟨.refl _, by simp⟩
      | some o =>
        rw [ho] at he
        simp only at he
        obtain ⟨g1, h1⟩ := hf st st1 o ⟨_, ho⟩ he
        refine ⟨g1, fun r hr => ?_⟩
        injection hr with hr
        subst hr
        exact h1
    obtain ⟨g1, h1⟩ := hg
    have hcm : ∀ id', st1.created id' = true →
        Made.created { st1 with thetas := id :: st1.thetas, pending := st1.pending ++ [id] } id' = true := by
      intro id' h
      rcases Made.created_iff.mp h with h | h
      · exact Made.created_iff.mpr (Or.inl h)
      · exact Made.created_iff.mpr (Or.inr (List.mem_cons_of_mem _ h))
    refine ⟨⟨g1.gm, fun i hi => List.mem_cons_of_mem _ (g1.tm i hi), fun i hi => List.mem_append.mpr (Or.inl (g1.pm i hi)), ?_, ?_⟩,
      Made.created_iff.mpr (Or.inr (List.mem_cons_self ..))⟩
    · intro i hi
      rcases g1.gn i hi with h | ⟨h, h'⟩
      · exact Or.inl h
      · exact Or.inr ⟨h, fun b hb r hr => made_mono hcm (h' b hb r hr)⟩
    · intro i hi
      rcases List.mem_cons.mp hi with rfl | hi
      · exact Or.inr ⟨hsrc, fun r hr => made_mono hcm (h1 r hr), by simp⟩
      · rcases g1.tn i hi with h | ⟨h, h', h''⟩
        · exact Or.inl h
        · exact Or.inr ⟨h, fun r hr => made_mono hcm (h' r hr), List.mem_append.mpr (Or.inl h'')⟩

theorem create_grow : ∀ n, CRec own regions (create regions own n)
  | 0 => by
    intro st st' o _ h
    simp [create] at h
  | n + 1 => by
    intro st st' o hs h
    have ih := create_grow n
    cases o <;> simp only [create] at h <;> simp only [Origin.made]
    case uninit => injection h with h; subst h; exact ⟨.refl _, trivial⟩
    case load => injection h with h; subst h; exact ⟨.refl _, trivial⟩
    case store => injection h with h; subst h; exact ⟨.refl _, trivial⟩
    case gammaOut id =>
      by_cases hc : st.gammas.contains id = true
      · rw [if_pos hc] at h
        injection h with h
        subst h
        exact ⟨.refl _, Made.created_iff.mpr (Or.inl (by simpa using hc))⟩
      · rw [if_neg hc] at h
        obtain ⟨g, hall⟩ := createRegions_grow ih h
        have hin : id ∈ st'.gammas := g.gm id (List.mem_cons_self ..)
        refine ⟨⟨fun i hi => g.gm i (List.mem_cons_of_mem _ hi), g.tm, g.pm, fun i hi => ?_, g.tn⟩, Made.created_iff.mpr (Or.inl hin)⟩
        rcases g.gn i hi with h | h
        · rcases List.mem_cons.mp h with rfl | h
          · exact Or.inr ⟨hs, fun b hb r hr => hall b (List.mem_range.mpr hb) r hr⟩
          · exact Or.inl h
        · exact Or.inr h
    case thetaOut id => exact theta_grow ih (Or.inl hs) h
    case thetaPre id => exact theta_grow ih (Or.inr hs) h

/-- Everything is complete, except for the posts that have not been connected. -/
structure CInv (own : Cons → Option Origin) (regions : Nat → Nat) (st : Made) : Prop where
  gamma : ∀ id ∈ st.gammas, (∃ c, own c = some (.gammaOut id)) ∧ ∀ b < regions id, ∀ r, own (.rg id b) = some r → r.made st.created
  theta : ∀ id ∈ st.thetas, ((∃ c, own c = some (.thetaOut id)) ∨ ∃ c, own c = some (.thetaPre id)) ∧
    (∀ r, own (.nd id) = some r → r.made st.created) ∧ (id ∈ st.pending ∨ ∀ r, own (.rg id 0) = some r → r.made st.created)

theorem connect_inv {n : Nat} : ∀ {k : Nat} {st st' : Made}, CInv own regions st → connect regions own n k st = some st' →
    CInv own regions st' ∧ st'.pending = [] ∧ ∀ id, st.created id = true → st'.created id = true
  | 0, st, st', _, h => by simp [connect] at h
  | k + 1, st, st', hi, h => by
    simp only [connect] at h
    split at h
    next hp =>
      injection h with h
      subst h
      exact ⟨hi, hp, fun _ h => h⟩
    next id ps hp =>
      cases ho : own (.rg id 0) with
      | none => rw [ho] at h; simp at h
      | some o =>
        rw [ho] at h
        simp only at h
        cases hc : create regions own n { st with pending := ps } o with
        | none => rw [hc] at h; simp at h
        | some st1 =>
          rw [hc] at h
          simp only at h
          obtain ⟨g, hm⟩ := create_grow n _ st1 o ⟨_, ho⟩ hc
          have hcr : ∀ id, st.created id = true → st1.created id = true := g.created
          have h1 : CInv own regions st1 := by
            refine ⟨fun i hi' => ?_, fun i hi' => ?_⟩
            · rcases g.gn i hi' with h | h
              · obtain ⟨h2, h3⟩ := hi.gamma i h
                exact ⟨h2, fun b hb r hr => made_mono hcr (h3 b hb r hr)⟩
              · exact h
            · rcases g.tn i hi' with h | ⟨h2, h3, h4⟩
              · obtain ⟨h2, h3, h4⟩ := hi.theta i h
                refine ⟨h2, fun r hr => made_mono hcr (h3 r hr), ?_⟩
                rcases h4 with h4 | h4
                · rw [hp] at h4
                  rcases List.mem_cons.mp h4 with rfl | h4
                  · refine Or.inr fun r hr => ?_
                    rw [ho] at hr
                    injection hr with hr
                    subst hr
                    exact hm
                  · exact Or.inl (g.pm i h4)
                · exact Or.inr fun r hr => made_mono hcr (h4 r hr)
              · exact ⟨h2, h3, Or.inl h4⟩
          obtain ⟨h2, h3, h4⟩ := connect_inv h1 h
          exact ⟨h2, h3, fun id hid => h4 id (hcr id hid)⟩

theorem createAll_closed {L n : Nat} {st : Made} (h : createAll regions own L n = some st) : st.Closed own regions L := by
  unfold createAll at h
  cases ho : own (.nd L) with
  | none => rw [ho] at h; simp at h
  | some o =>
    rw [ho] at h
    simp only at h
    cases hc : create regions own n {} o with
    | none => rw [hc] at h; simp at h
    | some st1 =>
      rw [hc] at h
      simp only at h
      obtain ⟨g, hm⟩ := create_grow n _ st1 o ⟨_, ho⟩ hc
      have h1 : CInv own regions st1 := by
        refine ⟨fun i hi' => ?_, fun i hi' => ?_⟩
        · rcases g.gn i hi' with h | h
          · simp at h
          · exact h
        · rcases g.tn i hi' with h | ⟨h2, h3, h4⟩
          · simp at h
          · exact ⟨h2, h3, Or.inl h4⟩
      obtain ⟨h2, h3, h4⟩ := connect_inv h1 h
      refine ⟨fun r hr => ?_, h2.gamma, fun id hid => ?_⟩
      · rw [ho] at hr
        injection hr with hr
        subst hr
        exact made_mono h4 hm
      · obtain ⟨h5, h6, h7⟩ := h2.theta id hid
        refine ⟨h5, h6, ?_⟩
        rcases h7 with h7 | h7
        · rw [h3] at h7; simp at h7
        · exact h7

end

end Jlm.Opt.Svf
