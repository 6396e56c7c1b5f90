import Verif.Hls.GammaTheorems
set_option linter.unusedSimpArgs false
/-
C63: no further tokens appear.
-/
namespace Jlm.Hls.Gam
variable {V : Type} {I : Interp V}

/-- `st` has at most one token for each instance of `c` -/
def Only (c : Nat → Bool) (st : Stream V) : Prop := ∀ j, st j ≠ none → ∃ i, c i = true ∧ count c i = j

/-- the wires that do not depend on nodes without operands only -/
def HNode.driven (fs : List Bool) : HNode → Bool
  | .op _ args => args.any fun a => fs.getD a false
  | .branch _ _ p x => fs.getD p false || fs.getD x false
  | .mux _ p _ => fs.getD p false

def flags (l : List HNode) (fs : List Bool) : List Bool := l.foldl (fun fs n => fs ++ [n.driven fs]) fs

theorem flags_length (l : List HNode) : ∀ fs, (flags l fs).length = fs.length + l.length := by
  induction l with
  | nil => intro fs; rfl
  | cons n l ih =>
    intro fs
    show (flags l (fs ++ [n.driven fs])).length = _
    rw [ih]; simp; omega

theorem flags_append (l l' : List HNode) (fs : List Bool) : flags (l ++ l') fs = flags l' (flags l fs) := List.foldl_append

theorem flags_old (l : List HNode) : ∀ fs i, i < fs.length → (flags l fs).getD i false = fs.getD i false := by
  induction l with
  | nil => intro fs i _; rfl
  | cons n l ih =>
    intro fs i hi
    show (flags l (fs ++ [n.driven fs])).getD i false = _
    rw [ih _ _ (by simp; omega)]
    simp only [List.getD_eq_getElem?_getD]
    rw [List.getElem?_append_left hi]

variable {c : Nat → Bool}

/-- every number below a count is the count at an instance -/
theorem count_surj (c : Nat → Bool) {j : Nat} : ∀ {n : Nat}, j < count c n → ∃ i, c i = true ∧ count c i = j
  | 0, h => absurd h (Nat.not_lt_zero _)
  | n + 1, h => by
    by_cases hj : j < count c n
    · exact count_surj c hj
    · have e : count c (n + 1) = count c n + if c n then 1 else 0 := rfl
      rw [e] at h
      split at h
      · rename_i hn; exact ⟨n, hn, by omega⟩
      · omega

theorem count_mono {c' : Nat → Bool} (h : ∀ i, c' i = true → c i = true) : ∀ i, count c' i ≤ count c i
  | 0 => Nat.le_refl _
  | i + 1 => by
    have := count_mono h i
    show count c' i + (if c' i then 1 else 0) ≤ count c i + if c i then 1 else 0
    by_cases h' : c' i = true
    · rw [if_pos h', if_pos (h i h')]; omega
    · rw [if_neg h']; omega

theorem Only.mono {c' : Nat → Bool} (h : ∀ i, c' i = true → c i = true) {st : Stream V} (hs : Only c' st) : Only c st := by
  intro j hj
  obtain ⟨i, h1, h2⟩ := hs j hj
  have h3 := count_mono h i
  have h4 : count c i < count c (i + 1) := count_lt c (Nat.lt_succ_self i) (h i h1)
  exact count_surj c (n := i + 1) (by omega)

theorem only_pointwise (f : Nat) (args : List (Stream V)) {a : Stream V} (ha : a ∈ args) (h : Only c a) : Only c (pointwise I f args) := by
  intro j hj
  unfold pointwise at hj
  split at hj
  · rename_i hall
    rw [List.all_eq_true] at hall
    have := hall a ha
    exact h j (by intro e; rw [e] at this; cases this)
  · exact absurd rfl hj

theorem only_mux (d : Bool) (p : Stream V) (alts : List (Stream V)) (h : Only c p) : Only c (muxStream I d p alts) := by
  intro j hj
  refine h j fun e => hj ?_
  unfold muxStream
  rw [e]

theorem only_branch {pv : Nat → V} {p x : Stream V} (hp : Rep c pv p) (k s : Nat) (h : Only c p ∨ Only c x) : Only (sub I c k s pv) (branchStream I k s p x) := by
  intro j hj
  unfold branchStream at hj
  split at hj
  · rename_i hex
    obtain ⟨h1, h2⟩ := Classical.choose_spec hex
    generalize Classical.choose hex = i at h1 h2 hj
    have : ∃ i', c i' = true ∧ count c i' = i := by
      rcases h with h | h
      · refine h i fun e => ?_
        unfold hits at h1
        rw [e] at h1
        cases h1
      · exact h i hj
    obtain ⟨i', h3, rfl⟩ := this
    refine ⟨i', ?_, by rw [← count_hits I hp]; exact h2⟩
    rw [hits_count I hp k s i' h3] at h1
    unfold sub
    rw [h3, h1]; rfl
  · exact absurd rfl hj

/-- the wires `env` have at most one token per instance, if they are driven -/
structure Onlys (c : Nat → Bool) (ss : List (Stream V)) (fs : List Bool) (env : List Nat) : Prop where
  len : fs.length = ss.length
  lt : ∀ j < env.length, look env j < ss.length
  only : ∀ j < env.length, fs.getD (look env j) false = true → Only c (wire ss (look env j))

/-- so do the wires from number `b` on -/
def News (c : Nat → Bool) (b : Nat) (ss : List (Stream V)) (fs : List Bool) : Prop :=
  ∀ i, b ≤ i → i < ss.length → fs.getD i false = true → Only c (wire ss i)

variable {ss : List (Stream V)} {fs : List Bool} {env env' : List Nat}

theorem Onlys.run (h : Onlys c ss fs env) (l : List HNode) : Onlys c (run I l ss) (flags l fs) env where
  len := by rw [run_length, flags_length, h.len]
  lt := fun j hj => by rw [run_length]; have := h.lt j hj; omega
  only := fun j hj hf => by
    have := h.lt j hj
    rw [wire_run I l ss _ this]
    rw [flags_old l fs _ (by rw [h.len]; exact this)] at hf
    exact h.only j hj hf

theorem News.trans {b : Nat} (h : News c b ss fs) (hl : fs.length = ss.length) (l : List HNode) (h' : News c ss.length (run I l ss) (flags l fs)) :
    News c b (run I l ss) (flags l fs) := by
  intro i h1 h2 h3
  by_cases hi : i < ss.length
  · rw [wire_run I l ss i hi]
    rw [flags_old l fs i (by omega)] at h3
    exact h i h1 hi h3
  · exact h' i (by omega) h2 h3

theorem News.mono {c' : Nat → Bool} {b : Nat} (hc : ∀ i, c' i = true → c i = true) (h : News c' b ss fs) : News c b ss fs :=
  fun i h1 h2 h3 => (h i h1 h2 h3).mono hc

theorem news_new (l : List HNode) (ss : List (Stream V)) (fs : List Bool) (hl : fs.length = ss.length)
    (h : ∀ j (hj : j < l.length) l', l[j].driven (flags l' fs) = true → Only c (l[j].stream I (run I l' ss))) :
    News c ss.length (run I l ss) (flags l fs) := by
  intro i h1 h2 h3
  rw [run_length] at h2
  obtain ⟨j, rfl⟩ := Nat.exists_eq_add_of_le h1
  have hj : j < l.length := by omega
  have e : l = l.take j ++ l[j] :: l.drop (j + 1) := by simp
  have e2 : run I l ss = run I (l.drop (j + 1)) (run I (l.take j) ss ++ [l[j].stream I (run I (l.take j) ss)]) := by
    conv => lhs; rw [e]
    rw [run_append]; rfl
  have e3 : flags l fs = flags (l.drop (j + 1)) (flags (l.take j) fs ++ [l[j].driven (flags (l.take j) fs)]) := by
    conv => lhs; rw [e]
    rw [flags_append]; rfl
  have hl1 : (run I (l.take j) ss).length = ss.length + j := by rw [run_length]; simp; omega
  have hl2 : (flags (l.take j) fs).length = ss.length + j := by rw [flags_length, hl]; simp; omega
  rw [e2, wire_run _ _ _ _ (by simp [hl1]), ← hl1, wire_last]
  refine h j hj _ ?_
  rw [e3, flags_old _ _ _ (by simp [hl2]), ← hl2] at h3
  simpa [List.getD_eq_getElem?_getD] using h3

theorem look_append (env env' : List Nat) (j : Nat) (hj : j < (env ++ env').length) :
    (j < env.length ∧ look (env ++ env') j = look env j) ∨ (j - env.length < env'.length ∧ look (env ++ env') j = look env' (j - env.length)) := by
  unfold look
  simp only [List.getD_eq_getElem?_getD]
  by_cases h1 : j < env.length
  · exact Or.inl ⟨h1, by rw [List.getElem?_append_left h1]⟩
  · exact Or.inr ⟨by simp at hj; omega, by rw [List.getElem?_append_right (by omega)]⟩

theorem look_map (g : Nat → Nat) (l : List Nat) (j : Nat) (hj : j < l.length) : look (l.map g) j = g (look l j) := getD_map g l j 0 0 hj

theorem look_mem {l : List Nat} {j : Nat} (hj : j < l.length) : look l j ∈ l := by
  unfold look
  rw [List.getD_eq_getElem?_getD, List.getElem?_eq_getElem hj]
  exact List.getElem_mem hj

theorem node_new (n : Node) (env : List Nat) (base : Nat) : ∀ o ∈ (n.convert env base).2, base ≤ o := by
  cases n with
  | op f b args => simp [Node.convert]
  | gamma p es st nout regs =>
    simp only [Node.convert]
    intro o ho
    rw [List.mem_map] at ho
    obtain ⟨j, _, rfl⟩ := ho
    omega

mutual
  theorem node_only : ∀ (n : Node) (m : Nat) (c : Nat → Bool) (vals : Nat → List V) (ss : List (Stream V)) (fs : List Bool) (env : List Nat),
      n.wf env.length m → Reps I c vals ss env → Onlys c ss fs env →
      News c ss.length (run I (n.convert env ss.length).1 ss) (flags (n.convert env ss.length).1 fs)
    | .op f b args, m, c, vals, ss, fs, env, hw, h, ho => by
      obtain ⟨h1, rfl⟩ := hw
      refine news_new [.op f (args.map (look env))] ss fs ho.len fun j hj l' hd => ?_
      have hj0 : j = 0 := by simp at hj; omega
      subst hj0
      have hd : ((args.map (look env)).any fun a => (flags l' fs).getD a false) = true := hd
      rw [List.any_eq_true] at hd
      obtain ⟨a, ha, hf⟩ := hd
      obtain ⟨x, hx, rfl⟩ := List.mem_map.1 ha
      exact only_pointwise f _ (List.mem_map_of_mem ha) ((ho.run l').only x (h1 x hx) hf)
    | .gamma p es st nout regs, m, c, vals, ss, fs, env, hw, h, ho => by
      obtain ⟨h1, h2, rfl, h3, h4⟩ := hw
      simp only [Node.convert]
      generalize (Node.gamma p es st m regs).canSpeculate = spec
      have hes : Onlys c ss fs (es.map (look env)) := by
        refine ⟨ho.len, fun j hj => ?_, fun j hj hf => ?_⟩
        · rw [List.length_map] at hj
          rw [look_map _ _ _ hj]
          exact ho.lt _ (h2 _ (look_mem hj))
        · rw [List.length_map] at hj
          rw [look_map _ _ _ hj] at hf ⊢
          exact ho.only _ (h2 _ (look_mem hj)) hf
      have h5 := regs_only regs spec regs.length 0 m c (fun i => (vals i).getD p I.dflt) (look env p) (fun i => es.map fun j => (vals i).getD j I.dflt)
        ss fs (es.map (look env)) (by rw [List.length_map]; exact h4) (h.lt p h1) (h.rep p h1) (ho.only p h1) (h.map es h2) hes
      generalize regs.convert spec regs.length 0 (look env p) (es.map (look env)) ss.length = r at h5 ⊢
      rw [run_append, flags_append]
      have hl : (flags r.1 fs).length = (run I r.1 ss).length := (ho.run r.1).len
      refine h5.trans hl _ (news_new _ _ _ hl fun j hj l' hd => ?_)
      simp only [List.getElem_map, List.getElem_range] at hd ⊢
      exact only_mux _ _ _ (((ho.run r.1).run l').only p h1 hd)
  theorem nodes_only : ∀ (ns : Nodes) (m : Nat) (c : Nat → Bool) (vals : Nat → List V) (ss : List (Stream V)) (fs : List Bool) (env : List Nat),
      ns.wf env.length m → Reps I c vals ss env → Onlys c ss fs env →
      News c ss.length (run I (ns.convert env ss.length).1 ss) (flags (ns.convert env ss.length).1 fs) ∧
      Onlys c (run I (ns.convert env ss.length).1 ss) (flags (ns.convert env ss.length).1 fs) (ns.convert env ss.length).2
    | .nil rs, m, c, vals, ss, fs, env, hw, h, ho => by
      obtain ⟨h1, rfl⟩ := hw
      refine ⟨fun i a b => by simp [Nodes.convert, run] at b; omega, ho.len, fun j hj => ?_, fun j hj hf => ?_⟩
      · simp only [Nodes.convert, List.length_map] at hj ⊢
        rw [look_map _ _ _ hj]
        exact ho.lt _ (h1 _ (look_mem hj))
      · simp only [Nodes.convert, List.length_map] at hj hf ⊢
        rw [look_map _ _ _ hj] at hf ⊢
        exact ho.only _ (h1 _ (look_mem hj)) hf
    | .cons n ns, m, c, vals, ss, fs, env, hw, h, ho => by
      obtain ⟨k, h1, h2⟩ := hw
      obtain ⟨h3, h4⟩ := node_correct n k c vals ss env h1 h
      have h5 := node_only n k c vals ss fs env h1 h ho
      have h6 : Onlys c (run I (n.convert env ss.length).1 ss) (flags (n.convert env ss.length).1 fs) (env ++ (n.convert env ss.length).2) := by
        refine ⟨(ho.run _).len, fun j hj => ?_, fun j hj hf => ?_⟩
        · rcases look_append _ _ j hj with ⟨a, b⟩ | ⟨a, b⟩
          · rw [b]; exact (ho.run _).lt j a
          · rw [b]; exact h3.lt _ a
        · rcases look_append _ _ j hj with ⟨a, b⟩ | ⟨a, b⟩
          · rw [b] at hf ⊢; exact (ho.run _).only j a hf
          · rw [b] at hf ⊢
            exact h5 _ (node_new n env _ _ (look_mem a)) (h3.lt _ a) hf
      have h7 := nodes_only ns m c (fun i => vals i ++ n.eval I (vals i)) _ _ (env ++ (n.convert env ss.length).2)
        (by rw [List.length_append, h4]; exact h2) ((h.run _).append h3) h6
      have hl := h6.len
      have h8 := h5.trans hl _ h7.1
      rw [run_length] at h7 h8
      simp only [Nodes.convert]
      rw [run_append, flags_append]
      exact ⟨h8, h7.2⟩
  theorem regs_only : ∀ (rs : Regs) (spec : Bool) (k s m : Nat) (c : Nat → Bool) (pv : Nat → V) (p : Nat) (xs : Nat → List V) (ss : List (Stream V)) (fs : List Bool)
      (es : List Nat), rs.wf es.length m → p < ss.length → Rep c pv (wire ss p) → (fs.getD p false = true → Only c (wire ss p)) → Reps I c xs ss es → Onlys c ss fs es →
      News c ss.length (run I (rs.convert spec k s p es ss.length).1 ss) (flags (rs.convert spec k s p es ss.length).1 fs)
    | .nil, _, _, _, _, _, _, _, _, _, _, _, _, _, _, _, _, _ => fun i a b => by simp [Regs.convert, run] at b; omega
    | .cons r rs, spec, k, s, m, c, pv, p, xs, ss, fs, es, hw, hp, hpr, hpo, h, ho => by
      obtain ⟨h1, h2⟩ := hw
      have hsub : ∀ i, clock I spec c k s pv i = true → c i = true := by
        intro i hi
        unfold clock at hi
        cases spec with
        | true => exact hi
        | false => unfold sub at hi; simp at hi; exact hi.1
      obtain ⟨h3, h4, h5⟩ := region_only r spec k s m c pv p xs ss fs es h1 hp hpr hpo h ho
      simp only [Regs.convert]
      generalize (if spec then es else (List.range es.length).map fun i => ss.length + i) = env at h3 h4 h5 ⊢
      generalize (if spec then [] else es.map fun e => HNode.branch k s p e) = bs at h3 h4 h5 ⊢
      generalize r.convert env (ss.length + bs.length) = q at h3 h4 h5 ⊢
      have hpr2 : Rep c pv (wire (run I (bs ++ q.1) ss) p) := by rw [wire_run I _ ss p hp]; exact hpr
      have hpo2 : (flags (bs ++ q.1) fs).getD p false = true → Only c (wire (run I (bs ++ q.1) ss) p) := by
        rw [wire_run I _ ss p hp, flags_old _ _ _ (by rw [ho.len]; exact hp)]; exact hpo
      have h6 := regs_only rs spec k (s + 1) m c pv p xs (run I (bs ++ q.1) ss) (flags (bs ++ q.1) fs) es h2 (by rw [run_length]; omega) hpr2 hpo2
        (h.run _) (ho.run _)
      have h7 := (h3.mono hsub).trans (ho.run _).len _ h6
      rw [run_length, List.length_append, ← Nat.add_assoc] at h7
      rw [run_append, flags_append]
      exact h7
  /-- the nodes of one subregion, with the branches in front of it, take tokens only for the instances that select it -/
  theorem region_only : ∀ (r : Nodes) (spec : Bool) (k s m : Nat) (c : Nat → Bool) (pv : Nat → V) (p : Nat) (xs : Nat → List V) (ss : List (Stream V)) (fs : List Bool)
      (es : List Nat), r.wf es.length m → p < ss.length → Rep c pv (wire ss p) → (fs.getD p false = true → Only c (wire ss p)) → Reps I c xs ss es → Onlys c ss fs es →
      let bs := if spec then [] else es.map fun e => HNode.branch k s p e
      let env := if spec then es else (List.range es.length).map fun i => ss.length + i
      let q := r.convert env (ss.length + bs.length)
      News (clock I spec c k s pv) ss.length (run I (bs ++ q.1) ss) (flags (bs ++ q.1) fs) ∧
      Reps I (clock I spec c k s pv) xs (run I bs ss) env ∧ Onlys (clock I spec c k s pv) (run I bs ss) (flags bs fs) env
    | r, spec, k, s, m, c, pv, p, xs, ss, fs, es, h1, hp, hpr, hpo, h, ho => by
      dsimp only
      have hbl : (if spec then es else (List.range es.length).map fun i => ss.length + i).length = es.length := by cases spec <;> simp
      have hb : Reps I (clock I spec c k s pv) xs (run I (if spec then [] else es.map fun e => HNode.branch k s p e) ss)
            (if spec then es else (List.range es.length).map fun i => ss.length + i) ∧
          News (clock I spec c k s pv) ss.length (run I (if spec then [] else es.map fun e => HNode.branch k s p e) ss)
            (flags (if spec then [] else es.map fun e => HNode.branch k s p e) fs) ∧
          Onlys (clock I spec c k s pv) (run I (if spec then [] else es.map fun e => HNode.branch k s p e) ss)
            (flags (if spec then [] else es.map fun e => HNode.branch k s p e) fs) (if spec then es else (List.range es.length).map fun i => ss.length + i) := by
        cases spec with
        | true => exact ⟨h, fun i a b => by simp [run] at b; omega, ho⟩
        | false =>
          have h3 := reps_new (I := I) (c := sub I c k s pv) (es.map fun e => HNode.branch k s p e) ss xs (by intro i; rw [h.length]; simp) (by
            intro j hj l'
            rw [List.length_map] at hj
            rw [List.getElem_map]
            have h3 : Rep c pv (wire (run I l' ss) p) := by rw [wire_run I l' ss p hp]; exact hpr
            have h4 := (h.run l').rep j hj
            unfold look at h4
            rw [List.getD_eq_getElem?_getD, List.getElem?_eq_getElem hj] at h4
            exact rep_branch I h3 h4 k s)
          rw [List.length_map] at h3
          have h4 : News (sub I c k s pv) ss.length (run I (es.map fun e => HNode.branch k s p e) ss) (flags (es.map fun e => HNode.branch k s p e) fs) := by
            refine news_new _ ss fs ho.len fun j hj l' hd => ?_
            rw [List.length_map] at hj
            rw [List.getElem_map] at hd ⊢
            have hpr' : Rep c pv (wire (run I l' ss) p) := by rw [wire_run I l' ss p hp]; exact hpr
            have hd : ((flags l' fs).getD p false || (flags l' fs).getD es[j] false) = true := hd
            rw [Bool.or_eq_true] at hd
            refine only_branch hpr' k s ?_
            rcases hd with hd | hd
            · left
              rw [wire_run I l' ss p hp]
              rw [flags_old _ _ _ (by rw [ho.len]; exact hp)] at hd
              exact hpo hd
            · right
              have e : look es j = es[j] := by unfold look; rw [List.getD_eq_getElem?_getD, List.getElem?_eq_getElem hj]; rfl
              rw [← e] at hd ⊢
              exact (ho.run l').only j hj hd
          refine ⟨h3, h4, (ho.run _).len, h3.lt, fun j hj hf => ?_⟩
          refine h4 _ ?_ (h3.lt j hj) hf
          simp only [Bool.false_eq_true, if_false, List.length_map, List.length_range] at hj ⊢
          rw [look_map _ _ _ (by simpa using hj)]
          omega
      generalize (if spec then es else (List.range es.length).map fun i => ss.length + i) = env at hb hbl ⊢
      generalize (if spec then [] else es.map fun e => HNode.branch k s p e) = bs at hb ⊢
      obtain ⟨h3, h4, h5⟩ := hb
      have h6 := (nodes_only r m _ xs (run I bs ss) (flags bs fs) env (by rw [hbl]; exact h1) h3 h5).1
      have h7 := h4.trans h5.len _ h6
      rw [run_length] at h7
      rw [run_append, flags_append]
      exact ⟨h7, h3, h5⟩
end

/-- **C63.** The network into which a region is converted, gammas at all depths included, computes the region: if the `env`
wires carry the arguments of the region for a sequence of instances, the wires of the results carry, in the same order, the results of
evaluating the region on these arguments, whether gammas become speculative or not. If the `env` wires that are marked in `fs` carry nothing
else, neither do the result wires that depend on them. -/
theorem C63_convert (I : Interp V) (ns : Nodes) (m : Nat) (c : Nat → Bool) (vals : Nat → List V) (ss : List (Stream V)) (env : List Nat)
    (hw : ns.wf env.length m) (h : Reps I c vals ss env) :
    Reps I c (fun i => ns.eval I (vals i)) (run I (ns.convert env ss.length).1 ss) (ns.convert env ss.length).2 ∧
    ∀ fs, Onlys c ss fs env → Onlys c (run I (ns.convert env ss.length).1 ss) (flags (ns.convert env ss.length).1 fs) (ns.convert env ss.length).2 :=
  ⟨(nodes_correct ns m c vals ss env hw h).1, fun fs ho => (nodes_only ns m c vals ss fs env hw h ho).2⟩

def Regs.nth : Regs → Nat → Option Nodes
  | .nil, _ => none
  | .cons r _, 0 => some r
  | .cons _ rs, t + 1 => rs.nth t

/-- the nodes that are added for subregion `t` -/
theorem regs_unselected : ∀ (rs : Regs) (k s m : Nat) (c : Nat → Bool) (pv : Nat → V) (p : Nat) (xs : Nat → List V) (ss : List (Stream V)) (fs : List Bool)
    (es : List Nat), rs.wf es.length m → p < ss.length → Rep c pv (wire ss p) → (fs.getD p false = true → Only c (wire ss p)) → Reps I c xs ss es → Onlys c ss fs es →
    ∀ t r, rs.nth t = some r → ∃ pre mid post, (rs.convert false k s p es ss.length).1 = pre ++ mid ++ post ∧
      (∃ env', mid = es.map (fun e => HNode.branch k (s + t) p e) ++ (r.convert env' (ss.length + pre.length + es.length)).1) ∧
      News (sub I c k (s + t) pv) (ss.length + pre.length) (run I (pre ++ mid) ss) (flags (pre ++ mid) fs)
  | .nil, _, _, _, _, _, _, _, _, _, _, _, _, _, _, _, _, t, r, hr => by cases hr
  | .cons q rs, k, s, m, c, pv, p, xs, ss, fs, es, hw, hp, hpr, hpo, h, ho, t, r, hr => by
    obtain ⟨h1, h2⟩ := hw
    have h3 := (region_only q false k s m c pv p xs ss fs es h1 hp hpr hpo h ho).1
    simp only [Regs.convert, Bool.false_eq_true, if_false, List.length_map] at h3 ⊢
    cases t with
    | zero =>
      cases hr
      exact ⟨[], _, _, rfl, ⟨_, rfl⟩, h3⟩
    | succ t =>
      generalize hq : es.map (fun e => HNode.branch k s p e) ++ (q.convert ((List.range es.length).map fun i => ss.length + i) (ss.length + es.length)).1 = l
      have hl : ss.length + es.length + (q.convert ((List.range es.length).map fun i => ss.length + i) (ss.length + es.length)).1.length = (run I l ss).length := by
        rw [run_length, ← hq]; simp; omega
      rw [hl]
      have hpr2 : Rep c pv (wire (run I l ss) p) := by rw [wire_run I _ ss p hp]; exact hpr
      have hpo2 : (flags l fs).getD p false = true → Only c (wire (run I l ss) p) := by
        rw [wire_run I _ ss p hp, flags_old _ _ _ (by rw [ho.len]; exact hp)]; exact hpo
      obtain ⟨pre, mid, post, e1, ⟨env', e2⟩, e3⟩ := regs_unselected rs k (s + 1) m c pv p xs (run I l ss) (flags l fs) es h2
        (by rw [run_length]; omega) hpr2 hpo2 (h.run _) (ho.run _) t r hr
      have ha : s + 1 + t = s + (t + 1) := by omega
      rw [ha] at e2 e3
      have hll : (run I l ss).length + pre.length = ss.length + (l ++ pre).length := by rw [run_length]; simp; omega
      rw [hll] at e2 e3
      refine ⟨l ++ pre, mid, post, by rw [e1]; simp only [List.append_assoc], ⟨env', e2⟩, ?_⟩
      rw [List.append_assoc, run_append, flags_append]
      exact e3

/-- **C63, subregions that are not selected.** If a gamma is not speculated, the nodes that are added for its subregion `t`, with the branches in
front of them, deliver at most one token for each instance that selects `t`: none, if none does. (Nodes that depend on constants only, which `flags` does
not mark, are excluded.) -/
theorem C63_unselected (I : Interp V) (p : Nat) (es : List Nat) (st : Bool) (nout : Nat) (regs : Regs) (m : Nat) (c : Nat → Bool) (vals : Nat → List V)
    (ss : List (Stream V)) (fs : List Bool) (env : List Nat) (hw : (Node.gamma p es st nout regs).wf env.length m) (h : Reps I c vals ss env)
    (ho : Onlys c ss fs env) (hs : (Node.gamma p es st nout regs).canSpeculate = false) (t : Nat) (r : Nodes) (hr : regs.nth t = some r) :
    ∃ pre mid post, ((Node.gamma p es st nout regs).convert env ss.length).1 = pre ++ mid ++ post ∧
      (∃ env', mid = es.map (fun e => HNode.branch regs.length t (look env p) (look env e)) ++ (r.convert env' (ss.length + pre.length + es.length)).1) ∧
      ∀ i < mid.length, (flags (pre ++ mid ++ post) fs).getD (ss.length + pre.length + i) false = true →
        Only (fun j => c j && (I.ctl regs.length ((vals j).getD p I.dflt) == t)) (wire (run I (pre ++ mid ++ post) ss) (ss.length + pre.length + i)) := by
  obtain ⟨h1, h2, rfl, h3, h4⟩ := hw
  have hes : Onlys c ss fs (es.map (look env)) := by
    refine ⟨ho.len, fun j hj => ?_, fun j hj hf => ?_⟩
    · rw [List.length_map] at hj
      rw [look_map _ _ _ hj]
      exact ho.lt _ (h2 _ (look_mem hj))
    · rw [List.length_map] at hj
      rw [look_map _ _ _ hj] at hf ⊢
      exact ho.only _ (h2 _ (look_mem hj)) hf
  obtain ⟨pre, mid, post, e1, ⟨env', e2⟩, e3⟩ := regs_unselected regs regs.length 0 m c (fun i => (vals i).getD p I.dflt) (look env p)
    (fun i => es.map fun j => (vals i).getD j I.dflt) ss fs (es.map (look env)) (by rw [List.length_map]; exact h4) (h.lt p h1) (h.rep p h1) (ho.only p h1)
    (h.map es h2) hes t r hr
  rw [Nat.zero_add] at e2 e3
  simp only [Node.convert, hs]
  rw [e1]
  refine ⟨pre, mid, _, List.append_assoc _ _ _, ⟨env', by rw [e2]; simp [Function.comp_def]⟩, fun i hi hf => ?_⟩
  have hlt : ss.length + pre.length + i < (run I (pre ++ mid) ss).length := by rw [run_length]; simp; omega
  rw [run_append, wire_run I _ _ _ hlt]
  rw [flags_append, flags_old _ _ _ (by rw [flags_length, ho.len]; simp; omega)] at hf
  exact e3 _ (by omega) hlt hf

end Jlm.Hls.Gam
