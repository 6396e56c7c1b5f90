import Verif.Tooling.JlcGraph

set_option linter.unusedSimpArgs false
set_option linter.unusedVariables false

/-! # What `jlc` writes -/

namespace Jlm.Tooling

variable {C : Type}

theorem execAll_split (t : Tools C) (cs : List Comp) (out : Path) {P : List Cmd → FS C → Prop} {l : List Cmd}
    (step : ∀ S c rest fs, l = S ++ c :: rest → P S fs → ∃ fs', exec t cs out fs c = some fs' ∧ P (S ++ [c]) fs') :
    ∀ (rest S : List Cmd) (fs : FS C), l = S ++ rest → P S fs → ∃ fs', execAll t cs out fs rest = some fs' ∧ P l fs' := by
  intro rest
  induction rest with
  | nil => intro S fs h hp; rw [List.append_nil] at h; subst h; exact ⟨fs, rfl, hp⟩
  | cons c rest ih =>
      intro S fs h hp
      obtain ⟨fs1, h1, hp1⟩ := step S c rest fs h hp
      obtain ⟨fs', h2, hp2⟩ := ih (S ++ [c]) fs1 (by simp [h]) hp1
      exact ⟨fs', by simp [execAll, h1, h2], hp2⟩

theorem readAll_map {fs : FS C} {α : Type} (f : α → File) (g : α → C) :
    ∀ l : List α, (∀ a ∈ l, fs (f a) = some (g a)) → readAll fs (l.map f) = some (l.map g)
  | [], _ => rfl
  | a :: l, h => by
      simp only [List.map_cons, readAll, h a (by simp), readAll_map f g l (fun b hb => h b (by simp [hb])), Option.bind_some,
        Option.map_some]

theorem readAll_none {fs : FS C} {f : File} (h : fs f = none) : ∀ l : List File, f ∈ l → readAll fs l = none
  | [], hm => by simp at hm
  | g :: l, hm => by
      rcases List.mem_cons.1 hm with rfl | hm
      · simp [readAll, h]
      · simp only [readAll, readAll_none h l hm]
        cases fs g <;> rfl

theorem pairwise_before {α : Type} {R : α → α → Prop} {S rest : List α} {c q : α} (h : (S ++ c :: rest).Pairwise R) (hq : q ∈ S) :
    R q c := (List.pairwise_append.1 h).2.2 q hq c (by simp)

theorem before {α : Type} {R : α → α → Prop} {S rest : List α} {c p : α} (h : (S ++ c :: rest).Pairwise R) (hp : p ∈ S ++ c :: rest)
    (hne : p ≠ c) (hn : ¬ R c p) : p ∈ S := by
  rcases List.mem_append.1 hp with hp | hp
  · exact hp
  · rcases List.mem_cons.1 hp with rfl | hp
    · exact absurd rfl hne
    · exact absurd ((List.pairwise_cons.1 (List.pairwise_append.1 h).2.1).1 p hp) hn

/-- What holds when the commands `S` have been run and all input files are source files. -/
structure Inv (t : Tools C) (cs : List Comp) (out : Path) (src : Path → C) (fs0 : FS C) (S : List Cmd) (fs : FS C) : Prop where
  clang : ∀ i c, cs[i]? = some c → .clang i ∈ S → fs (.clangOut i) = some (t.clang (src c.inFile))
  opt : ∀ i c, cs[i]? = some c → .opt i ∈ S → fs (.optOut i) = some (t.opt (t.clang (src c.inFile)))
  llc : ∀ i c, cs[i]? = some c → .llc i ∈ S → (.link ∈ S → c.outFile ≠ out) → fs (.user c.outFile) = some (t.compile (src c.inFile))
  other : ∀ p, (.link ∈ S → p ≠ out) → (∀ c ∈ cs, c.outFile ≠ p) → fs (.user p) = fs0 (.user p)
  link : .link ∈ S → fs (.user out) = some (t.link (cs.map fun c => t.compile (src c.inFile)))

theorem clang_valid {cs : List Comp} {succ : Cmd → List Cmd} (hs : IsSucc (edges cs) succ) {n : Nat} {v : Cmd}
    (h : Walk succ .entry n v) {i : Nat} (hv : v = .clang i ∨ v = .opt i ∨ v = .llc i) : ∃ c, cs[i]? = some c := by
  cases h with
  | here => simp at hv
  | step hu he =>
      rw [hs, mem_edges] at he
      rcases he with ⟨j, c, h1, _, h⟩ | ⟨_, ⟨h, _⟩ | ⟨_, h⟩⟩ | ⟨_, h, _⟩
      · rcases h with ⟨rfl, rfl⟩ | ⟨rfl, rfl⟩ | ⟨rfl, rfl⟩ <;> simp at hv <;> subst hv <;> exact ⟨c, h1⟩
      · subst h; simp at hv
      · subst h; simp at hv
      · subst h; simp at hv

/-- Source files only. -/
theorem run_sources (t : Tools C) (cs : List Comp) (out : Path) (src : Path → C) (fs0 : FS C) (succ : Cmd → List Cmd)
    (hs : IsSucc (edges cs) succ) (hsrc : ∀ c ∈ cs, c.source = true)
    (hlink : (∀ c ∈ cs, c.link = true) ∨ (∀ c ∈ cs, c.link = false))
    (hnodup : (cs.map (·.outFile)).Nodup) (hex : ∀ c ∈ cs, fs0 (.user c.inFile) = some (src c.inFile))
    (hdisj : ∀ c ∈ cs, ∀ c' ∈ cs, c'.outFile ≠ c.inFile) :
    ∃ fs', runJlc t succ cs out fs0 = some fs' ∧ Inv t cs out src fs0 (sortNodes succ .entry (3 * cs.length + 3)) fs' := by
  obtain ⟨hnd, hmem, hpw⟩ := order hs
  unfold runJlc
  generalize sortNodes succ Cmd.entry (3 * cs.length + 3) = l at hnd hmem hpw
  refine execAll_split t cs out ?_ l [] fs0 rfl ⟨by simp, by simp, by simp, by simp, by simp⟩
  intro S c rest fs hl hI
  subst hl
  obtain ⟨n, hn⟩ := (hmem c).1 (by simp)
  have hwc : ∀ {n' : Nat} {v : Cmd}, Walk succ .entry n' v → _ := fun h => walk_chain hs h
  have hwe : ∀ {n' : Nat} {v : Cmd}, Walk succ .entry n' v → _ := fun h => walk_end hsrc hs h
  -- the linker has not been run before commands of source files
  have nolink : n < 4 → Cmd.link ∉ S := by
    intro hlt hin
    obtain ⟨m, hm, hw⟩ := pairwise_before hpw hin n hn
    have := (hwe hw).1 rfl
    omega
  have earlier : ∀ {p : Cmd} {m : Nat}, Walk succ .entry m p → (∀ k, Walk succ .entry k c → m < k) → p ∈ S := by
    intro p m hp hk
    refine before hpw ((hmem p).2 ⟨m, hp⟩) ?_ ?_
    · rintro rfl; exact absurd (hk m hp) (by omega)
    · intro hR
      obtain ⟨k, hkm, hkw⟩ := hR m hp
      have := hk k hkw
      omega
  cases c with
  | entry =>
      refine ⟨fs, rfl, ?_⟩
      exact ⟨fun i c h1 h2 => hI.clang i c h1 (by simpa using h2), fun i c h1 h2 => hI.opt i c h1 (by simpa using h2),
        fun i c h1 h2 h3 => hI.llc i c h1 (by simpa using h2) (by simpa using h3), fun p h1 h2 => hI.other p (by simpa using h1) h2,
        fun h => hI.link (by simpa using h)⟩
  | exit =>
      refine ⟨fs, rfl, ?_⟩
      exact ⟨fun i c h1 h2 => hI.clang i c h1 (by simpa using h2), fun i c h1 h2 => hI.opt i c h1 (by simpa using h2),
        fun i c h1 h2 h3 => hI.llc i c h1 (by simpa using h2) (by simpa using h3), fun p h1 h2 => hI.other p (by simpa using h1) h2,
        fun h => hI.link (by simpa using h)⟩
  | clang i =>
      obtain ⟨c, hc⟩ := clang_valid hs hn (Or.inl rfl)
      have hcm := List.mem_of_getElem? hc
      have hnl := nolink (by have := (hwc hn).2.1 i rfl; omega)
      have hread : fs (.user c.inFile) = some (src c.inFile) := by
        rw [hI.other c.inFile (fun h => absurd h hnl) (fun c' hc' => hdisj c hcm c' hc')]; exact hex c hcm
      refine ⟨fs.write (.clangOut i) (t.clang (src c.inFile)), by simp [exec, hc, convert, hread], ?_⟩
      refine ⟨?_, ?_, ?_, ?_, ?_⟩
      · intro j c' h1 h2
        by_cases hj : j = i
        · subst hj; rw [hc] at h1; cases h1; simp [FS.write]
        · simp [FS.write, hj]; exact hI.clang j c' h1 (by simpa [hj] using h2)
      · intro j c' h1 h2; simp [FS.write]; exact hI.opt j c' h1 (by simpa using h2)
      · intro j c' h1 h2 h3; simp [FS.write]; exact hI.llc j c' h1 (by simpa using h2) (fun h => h3 (by simp [h]))
      · intro p h1 h2; simp [FS.write]; exact hI.other p (fun h => h1 (by simp [h])) h2
      · intro h; exact absurd (by simpa using h) hnl
  | opt i =>
      obtain ⟨c, hc⟩ := clang_valid hs hn (Or.inr (Or.inl rfl))
      have hcm := List.mem_of_getElem? hc
      have hnl := nolink (by have := (hwc hn).2.2.1 i rfl; omega)
      have hprev : Cmd.clang i ∈ S := earlier (walks hs hc (hsrc c hcm)).1 (fun k hk => by have := (hwc hk).2.2.1 i rfl; omega)
      have hread := hI.clang i c hc hprev
      refine ⟨fs.write (.optOut i) (t.opt (t.clang (src c.inFile))), by simp [exec, convert, hread], ?_⟩
      refine ⟨?_, ?_, ?_, ?_, ?_⟩
      · intro j c' h1 h2; simp [FS.write]; exact hI.clang j c' h1 (by simpa using h2)
      · intro j c' h1 h2
        by_cases hj : j = i
        · subst hj; rw [hc] at h1; cases h1; simp [FS.write]
        · simp [FS.write, hj]; exact hI.opt j c' h1 (by simpa [hj] using h2)
      · intro j c' h1 h2 h3; simp [FS.write]; exact hI.llc j c' h1 (by simpa using h2) (fun h => h3 (by simp [h]))
      · intro p h1 h2; simp [FS.write]; exact hI.other p (fun h => h1 (by simp [h])) h2
      · intro h; exact absurd (by simpa using h) hnl
  | llc i =>
      obtain ⟨c, hc⟩ := clang_valid hs hn (Or.inr (Or.inr rfl))
      have hcm := List.mem_of_getElem? hc
      have hnl := nolink (by have := (hwc hn).2.2.2 i rfl; omega)
      have hprev : Cmd.opt i ∈ S := earlier (walks hs hc (hsrc c hcm)).2.1 (fun k hk => by have := (hwc hk).2.2.2 i rfl; omega)
      have hread := hI.opt i c hc hprev
      refine ⟨fs.write (.user c.outFile) (t.compile (src c.inFile)), by simp [exec, hc, convert, hread, Tools.compile], ?_⟩
      refine ⟨?_, ?_, ?_, ?_, ?_⟩
      · intro j c' h1 h2; simp [FS.write]; exact hI.clang j c' h1 (by simpa using h2)
      · intro j c' h1 h2; simp [FS.write]; exact hI.opt j c' h1 (by simpa using h2)
      · intro j c' h1 h2 h3
        by_cases hj : j = i
        · subst hj; rw [hc] at h1; cases h1; simp [FS.write]
        · have hne : c'.outFile ≠ c.outFile := by
            intro he
            have h1' : (cs.map (·.outFile))[j]? = some c'.outFile := by simp [h1]
            have h2' : (cs.map (·.outFile))[i]? = some c.outFile := by simp [hc]
            rw [he, ← h2'] at h1'
            exact hj ((List.getElem?_inj (by have := getElem?_lt h1; simpa using this) hnodup).1 h1')
          simp [FS.write, hne]
          exact hI.llc j c' h1 (by simpa [hj] using h2) (fun h => h3 (by simp [h]))
      · intro p h1 h2
        have hne : p ≠ c.outFile := fun he => h2 c hcm he.symm
        simp [FS.write, hne]
        exact hI.other p (fun h => h1 (by simp [h])) h2
      · intro h; exact absurd (by simpa using h) hnl
  | link =>
      have hnl : Cmd.link ∉ S := by
        intro h
        have := List.nodup_append.1 hnd
        exact this.2.2 _ h _ (by simp) rfl
      have hall : ∀ c ∈ cs, c.link = true := by
        rcases hlink with h | h
        · exact h
        · exfalso
          have hany : cs.any (·.link) = false := by simp [List.any_eq_false]; exact h
          cases hn with
          | step hu he =>
              rw [hs, mem_edges] at he
              rcases he with ⟨j, c, h1, _, h⟩ | ⟨h, _⟩ | ⟨_, h, _⟩
              · rcases h with ⟨_, h⟩ | ⟨_, h⟩ | ⟨_, h⟩ <;> cases h
              · rw [hany] at h; cases h
              · cases h
      have hfilter : cs.filter (·.link) = cs := List.filter_eq_self.2 hall
      have hread : readAll fs (cs.map fun c => .user c.outFile) = some (cs.map fun c => t.compile (src c.inFile)) := by
        refine readAll_map (fun c : Comp => File.user c.outFile) (fun c => t.compile (src c.inFile)) cs ?_
        intro c hc
        obtain ⟨i, hi⟩ := List.getElem?_of_mem hc
        have hprev : Cmd.llc i ∈ S := earlier (walks hs hi (hsrc c hc)).2.2 (fun k hk => by have := (hwe hk).1 rfl; omega)
        exact hI.llc i c hi hprev (fun h => absurd h hnl)
      refine ⟨fs.write (.user out) (t.link (cs.map fun c => t.compile (src c.inFile))), by simp [exec, hfilter, hread], ?_⟩
      refine ⟨?_, ?_, ?_, ?_, ?_⟩
      · intro j c' h1 h2; simp [FS.write]; exact hI.clang j c' h1 (by simpa using h2)
      · intro j c' h1 h2; simp [FS.write]; exact hI.opt j c' h1 (by simpa using h2)
      · intro j c' h1 h2 h3
        have hne : c'.outFile ≠ out := h3 (by simp)
        simp [FS.write, hne]
        exact hI.llc j c' h1 (by simpa using h2) (fun h => absurd h hnl)
      · intro p h1 h2
        have hne : p ≠ out := h1 (by simp)
        simp [FS.write, hne]
        exact hI.other p (fun h => absurd h hnl) h2
      · intro _; simp [FS.write]

theorem any_true_of {cs : List Comp} (hne : cs ≠ []) (h : ∀ c ∈ cs, c.link = true) : cs.any (·.link) = true := by
  cases cs with
  | nil => exact absurd rfl hne
  | cons c cs => simp [h c (by simp)]

/-- **C48** The object file is in the directory of the source file; its name is the part of that file's name before the first dot,
followed by ".o". -/
theorem C48_object_path (d f b r : Path) (hf : f = b ++ '.' :: r) (hfs : ∀ a ∈ f, a ≠ '/') (hb : ∀ a ∈ b, a ≠ '.') :
    toObjectFile f = b ++ ".o".toList ∧ toObjectFile ('/' :: f) = '/' :: b ++ ".o".toList ∧
      (d ≠ [] → d ≠ ['.'] → d.getLast? ≠ some '/' → toObjectFile (d ++ '/' :: f) = d ++ '/' :: b ++ ".o".toList) := by
  have hne : f ≠ [] := by rw [hf]; simp
  have hbase : base f = b := by
    rw [base, name_self hfs, hf, takeWhile_prefix (p := (· != '.')) (by simpa using hb)]; simp
  have hbase' : ∀ d, base (d ++ '/' :: f) = b := by
    intro d
    rw [base, name_slash hfs, hf, takeWhile_prefix (p := (· != '.')) (by simpa using hb)]; simp
  have hhead : (b ++ ['.', 'o']).head? ≠ some '/' := by
    cases b with
    | nil => simp
    | cons a b => simp; exact hfs a (by simp [hf])
  have hdrop : ∀ d : Path, ((d ++ '/' :: f).dropLast.reverse.dropWhile (· != '/')).reverse = d ++ ['/'] := by
    intro d
    have hdl : (d ++ '/' :: f).dropLast = d ++ '/' :: f.dropLast := by
      rw [List.dropLast_append_of_ne_nil (by simp), List.dropLast_cons_of_ne_nil hne]
    rw [hdl, List.reverse_append, List.reverse_cons, List.append_assoc]
    have : ∀ a ∈ f.dropLast.reverse, (a != '/') = true := by
      intro a ha; simpa using hfs a (List.dropLast_subset _ (by simpa using ha))
    rw [List.dropWhile_append_of_pos this]
    simp
  refine ⟨?_, ?_, ?_⟩
  · unfold toObjectFile
    rw [hbase]
    have hd : dirname f = ['.'] := by
      unfold dirname
      have h0 : f.dropLast.reverse.dropWhile (· != '/') = [] := by
        have : ∀ a ∈ f.dropLast.reverse, (a != '/') = true := by
          intro a ha; simpa using hfs a (List.dropLast_subset _ (by simpa using ha))
        have := List.dropWhile_append_of_pos (l₂ := []) this
        simpa using this
      have h1 : f ≠ ['/'] := by rintro rfl; exact hfs '/' (by simp) rfl
      simp only [h0]
      simp [hne, h1]
    rw [hd]; simp [join, hhead]
  · unfold toObjectFile
    have hd : dirname ('/' :: f) = ['/'] := by
      have := hdrop []
      simp only [List.nil_append] at this
      unfold dirname
      simp only [this]
      simp [hne]
    rw [hd, show '/' :: f = [] ++ '/' :: f from rfl, hbase']
    simp only [join, hhead, if_false]
    simp
  · intro h1 h2 h3
    unfold toObjectFile
    have hd : dirname (d ++ '/' :: f) = d := by
      unfold dirname
      simp only [hdrop]
      have e1 : d ++ '/' :: f ≠ [] := by simp
      have e2 : d ++ '/' :: f ≠ ['/'] := by
        cases d with
        | nil => exact absurd rfl h1
        | cons a d => simp
      have e3 : d ++ ['/'] ≠ ['/'] := by simpa using h1
      rw [if_neg e1, if_neg e2, if_neg (by simp), if_neg e3]
      simp
    rw [hd, hbase']
    simp only [join, hhead, h1, h2, h3, if_false, or_self]
    simp

/-- **C48** Source files, linking: if no two of them have the same object file, then - whatever the order of outgoing edges - all commands
succeed, the output file is linked from the object code of the input files, in their order, every object file holds the object code
of its source file, and no other file is touched. -/
theorem C48_jlc_links (t : Tools C) (o : Options) (cs : List Comp) (out : Path) (hp : parse o = some (cs, out)) (hno : o.noLinking = false)
    (hsrc : ∀ p ∈ o.inputs, isObjectFile p = false) (hnodup : (o.inputs.map toObjectFile).Nodup)
    (fs : FS C) (src : Path → C) (hex : ∀ p ∈ o.inputs, fs (.user p) = some (src p))
    (succ : Cmd → List Cmd) (hs : IsSucc (edges cs) succ) :
    out = o.output.getD "a.out".toList ∧
    ∃ fs', runJlc t succ cs out fs = some fs' ∧
      fs' (.user out) = some (t.link (o.inputs.map fun p => t.compile (src p))) ∧
      (∀ p ∈ o.inputs, toObjectFile p ≠ out → fs' (.user (toObjectFile p)) = some (t.compile (src p))) ∧
      ∀ f, f ≠ out → (∀ p ∈ o.inputs, toObjectFile p ≠ f) → fs' (.user f) = fs (.user f) := by
  obtain ⟨nol, output, inputs⟩ := o
  simp only at hno hsrc hnodup hex
  subst hno
  have hmap : inputs.map (compilation false) = inputs.map fun p => (⟨p, toObjectFile p, true, true⟩ : Comp) :=
    List.map_congr_left fun p hp => by simp [compilation, hsrc p hp]
  have hcs : inputs ≠ [] ∧ cs = inputs.map (fun p => (⟨p, toObjectFile p, true, true⟩ : Comp)) ∧ out = output.getD "a.out".toList := by
    unfold parse at hp
    simp only [hmap] at hp
    split at hp
    · cases hp
    · next hne =>
      refine ⟨hne, ?_⟩
      cases output with
      | none => simp at hp; exact ⟨hp.1.symm, by simpa using hp.2.symm⟩
      | some x => simp at hp; exact ⟨hp.1.symm, by simpa using hp.2.symm⟩
  obtain ⟨hne, rfl, hout⟩ := hcs
  refine ⟨hout, ?_⟩
  clear hout hp hmap
  generalize hgen : inputs.map (fun p => (⟨p, toObjectFile p, true, true⟩ : Comp)) = cs at hs
  have hm : ∀ c ∈ cs, ∃ p ∈ inputs, c = ⟨p, toObjectFile p, true, true⟩ := by
    intro c hc; rw [← hgen] at hc; obtain ⟨p, hp, rfl⟩ := List.mem_map.1 hc; exact ⟨p, hp, rfl⟩
  have hm' : ∀ p ∈ inputs, (⟨p, toObjectFile p, true, true⟩ : Comp) ∈ cs := by
    intro p hp; rw [← hgen]; exact List.mem_map.2 ⟨p, hp, rfl⟩
  have hall : ∀ c ∈ cs, c.link = true := by intro c hc; obtain ⟨p, _, rfl⟩ := hm c hc; rfl
  have hallsrc : ∀ c ∈ cs, c.source = true := by intro c hc; obtain ⟨p, _, rfl⟩ := hm c hc; rfl
  obtain ⟨fs', hrun, hI⟩ := run_sources t cs out src fs succ hs hallsrc
    (Or.inl hall) (by rw [← hgen]; simpa [Function.comp_def] using hnodup)
    (by intro c hc; obtain ⟨p, hp, rfl⟩ := hm c hc; exact hex p hp)
    (by
      intro c hc c' hc'
      obtain ⟨p, hp, rfl⟩ := hm c hc
      obtain ⟨p', hp', rfl⟩ := hm c' hc'
      intro he
      have h1 := object_toObjectFile p'
      simp only at he
      rw [he, hsrc p hp] at h1
      cases h1)
  refine ⟨fs', hrun, ?_⟩
  obtain ⟨_, hmem, _⟩ := order hs
  have hcsne : cs ≠ [] := by rw [← hgen]; simpa using hne
  have hlinkmem : Cmd.link ∈ sortNodes succ .entry (3 * cs.length + 3) := by
    rw [hmem]
    obtain ⟨c, hc⟩ := List.exists_mem_of_ne_nil _ hcsne
    obtain ⟨i, hi⟩ := List.getElem?_of_mem hc
    refine ⟨4, (walks hs hi (hallsrc c hc)).2.2.step ((hs _ _).2 ((mem_edges cs).2 (Or.inr (Or.inl ⟨any_true_of hcsne hall, Or.inl ⟨rfl, i, c, hi, ?_⟩⟩))))⟩
    simp [leaf, hallsrc c hc]
  refine ⟨?_, ?_, ?_⟩
  · rw [hI.link hlinkmem, ← hgen]; simp [Function.comp_def]
  · intro p hp hne'
    obtain ⟨i, hi⟩ := List.getElem?_of_mem (hm' p hp)
    exact hI.llc i _ hi ((hmem _).2 ⟨3, (walks hs hi rfl).2.2⟩) (fun _ => hne')
  · intro f hf1 hf2
    refine hI.other f (fun _ => hf1) ?_
    intro c hc
    obtain ⟨p, hp, rfl⟩ := hm c hc
    exact hf2 p hp

/-- **C48** `jlc -c` on source files without `-o`: every object file holds the object code of its source file, no other file is touched. -/
theorem C48_jlc_compiles (t : Tools C) (o : Options) (cs : List Comp) (out : Path) (hp : parse o = some (cs, out)) (hno : o.noLinking = true)
    (hout : o.output = none) (hsrc : ∀ p ∈ o.inputs, isObjectFile p = false) (hnodup : (o.inputs.map toObjectFile).Nodup)
    (fs : FS C) (src : Path → C) (hex : ∀ p ∈ o.inputs, fs (.user p) = some (src p))
    (succ : Cmd → List Cmd) (hs : IsSucc (edges cs) succ) :
    ∃ fs', runJlc t succ cs out fs = some fs' ∧
      (∀ p ∈ o.inputs, fs' (.user (toObjectFile p)) = some (t.compile (src p))) ∧
      ∀ f, (∀ p ∈ o.inputs, toObjectFile p ≠ f) → fs' (.user f) = fs (.user f) := by
  obtain ⟨nol, output, inputs⟩ := o
  simp only at hno hsrc hnodup hex hout
  subst hno hout
  have hmap : inputs.map (compilation true) = inputs.map fun p => (⟨p, toObjectFile p, true, false⟩ : Comp) :=
    List.map_congr_left fun p hp => by simp [compilation, hsrc p hp]
  have hcs : cs = inputs.map (fun p => (⟨p, toObjectFile p, true, false⟩ : Comp)) := by
    unfold parse at hp
    simp only [hmap] at hp
    split at hp
    · cases hp
    · simp at hp; exact hp.1.symm
  subst hcs
  clear hp hmap
  generalize hgen : inputs.map (fun p => (⟨p, toObjectFile p, true, false⟩ : Comp)) = cs at hs
  have hm : ∀ c ∈ cs, ∃ p ∈ inputs, c = ⟨p, toObjectFile p, true, false⟩ := by
    intro c hc; rw [← hgen] at hc; obtain ⟨p, hp, rfl⟩ := List.mem_map.1 hc; exact ⟨p, hp, rfl⟩
  have hm' : ∀ p ∈ inputs, (⟨p, toObjectFile p, true, false⟩ : Comp) ∈ cs := by
    intro p hp; rw [← hgen]; exact List.mem_map.2 ⟨p, hp, rfl⟩
  have hall : ∀ c ∈ cs, c.link = false := by intro c hc; obtain ⟨p, _, rfl⟩ := hm c hc; rfl
  have hallsrc : ∀ c ∈ cs, c.source = true := by intro c hc; obtain ⟨p, _, rfl⟩ := hm c hc; rfl
  obtain ⟨fs', hrun, hI⟩ := run_sources t cs out src fs succ hs hallsrc
    (Or.inr hall) (by rw [← hgen]; simpa [Function.comp_def] using hnodup)
    (by intro c hc; obtain ⟨p, hp, rfl⟩ := hm c hc; exact hex p hp)
    (by
      intro c hc c' hc'
      obtain ⟨p, hp, rfl⟩ := hm c hc
      obtain ⟨p', hp', rfl⟩ := hm c' hc'
      intro he
      have h1 := object_toObjectFile p'
      simp only at he
      rw [he, hsrc p hp] at h1
      cases h1)
  refine ⟨fs', hrun, ?_⟩
  obtain ⟨_, hmem, _⟩ := order hs
  have hany : cs.any (·.link) = false := by simp [List.any_eq_false]; exact hall
  have hnolink : Cmd.link ∉ sortNodes succ .entry (3 * cs.length + 3) := by
    rw [hmem]
    rintro ⟨n, hn⟩
    cases hn with
    | step hu he =>
        rw [hs, mem_edges] at he
        rcases he with ⟨j, c, h1, _, h⟩ | ⟨h, _⟩ | ⟨_, h, _⟩
        · rcases h with ⟨_, h⟩ | ⟨_, h⟩ | ⟨_, h⟩ <;> cases h
        · rw [hany] at h; cases h
        · cases h
  refine ⟨?_, ?_⟩
  · intro p hp
    obtain ⟨i, hi⟩ := List.getElem?_of_mem (hm' p hp)
    exact hI.llc i _ hi ((hmem _).2 ⟨3, (walks hs hi rfl).2.2⟩) (fun h => absurd h hnolink)
  · intro f hf2
    refine hI.other f (fun h => absurd h hnolink) ?_
    intro c hc
    obtain ⟨p, hp, rfl⟩ := hm c hc
    exact hf2 p hp

/-- **C48** `jlc -c p -o out` on a source file: the output file holds the object code, no other file is touched. -/
theorem C48_jlc_compiles_to (t : Tools C) (p out : Path) (cs : List Comp) (out' : Path) (hp : parse ⟨true, some out, [p]⟩ = some (cs, out'))
    (hsrc : isObjectFile p = false) (hne : out ≠ p) (fs : FS C) (c : C) (hex : fs (.user p) = some c)
    (succ : Cmd → List Cmd) (hs : IsSucc (edges cs) succ) :
    ∃ fs', runJlc t succ cs out' fs = some fs' ∧ fs' (.user out) = some (t.compile c) ∧ ∀ f, f ≠ out → fs' (.user f) = fs (.user f) := by
  simp [parse, compilation, hsrc] at hp
  obtain ⟨rfl, rfl⟩ := hp
  obtain ⟨fs', hrun, hI⟩ := run_sources t _ "a.out".toList (fun _ => c) fs succ hs (by simp) (Or.inr (by simp)) (by simp)
    (by simpa using hex) (by simpa using hne)
  refine ⟨fs', hrun, ?_⟩
  obtain ⟨_, hmem, _⟩ := order hs
  have hnolink : Cmd.link ∉ sortNodes succ .entry (3 * 1 + 3) := by
    rw [show 3 * 1 + 3 = 3 * [(⟨p, out, true, false⟩ : Comp)].length + 3 from rfl, hmem]
    rintro ⟨n, hn⟩
    cases hn with
    | step hu he =>
        rw [hs, mem_edges] at he
        rcases he with ⟨j, c, h1, _, h⟩ | ⟨h, _⟩ | ⟨_, h, _⟩
        · rcases h with ⟨_, h⟩ | ⟨_, h⟩ | ⟨_, h⟩ <;> cases h
        · simp at h
        · cases h
  refine ⟨hI.llc 0 _ rfl ((hmem _).2 ⟨3, (walks hs rfl rfl).2.2⟩) (fun h => absurd h hnolink), ?_⟩
  intro f hf
  exact hI.other f (fun h => absurd h hnolink) (by simpa using fun h => hf h.symm)

/-- **C48** Object files only: the linker gets their contents. -/
theorem C48_jlc_objects (t : Tools C) (o : Options) (cs : List Comp) (out : Path) (hp : parse o = some (cs, out)) (hno : o.noLinking = false)
    (hobj : ∀ p ∈ o.inputs, isObjectFile p = true) (fs : FS C) (obj : Path → C) (hex : ∀ p ∈ o.inputs, fs (.user p) = some (obj p))
    (succ : Cmd → List Cmd) (hs : IsSucc (edges cs) succ) :
    ∃ fs', runJlc t succ cs out fs = some fs' ∧ fs' (.user out) = some (t.link (o.inputs.map obj)) ∧
      ∀ f, f ≠ out → fs' (.user f) = fs (.user f) := by
  obtain ⟨nol, output, inputs⟩ := o
  simp only at hno hobj hex
  subst hno
  have hmap : inputs.map (compilation false) = inputs.map fun p => (⟨p, p, false, true⟩ : Comp) :=
    List.map_congr_left fun p hp => by simp [compilation, hobj p hp]
  have hcs : inputs ≠ [] ∧ cs = inputs.map (fun p => (⟨p, p, false, true⟩ : Comp)) := by
    unfold parse at hp
    simp only [hmap] at hp
    split at hp
    · cases hp
    · next hne =>
      refine ⟨hne, ?_⟩
      cases output <;> simp at hp <;> exact hp.1.symm
  obtain ⟨hne, rfl⟩ := hcs
  clear hp hmap
  generalize hgen : inputs.map (fun p => (⟨p, p, false, true⟩ : Comp)) = cs at hs
  have hm : ∀ c ∈ cs, ∃ p ∈ inputs, c = ⟨p, p, false, true⟩ := by
    intro c hc; rw [← hgen] at hc; obtain ⟨p, hp, rfl⟩ := List.mem_map.1 hc; exact ⟨p, hp, rfl⟩
  have hcsne : cs ≠ [] := by rw [← hgen]; simpa using hne
  have hall : ∀ c ∈ cs, c.link = true := by intro c hc; obtain ⟨p, _, rfl⟩ := hm c hc; rfl
  have hfilter : cs.filter (·.link) = cs := List.filter_eq_self.2 hall
  obtain ⟨hnd, hmem, hpw⟩ := order hs
  have hlinkmem : Cmd.link ∈ sortNodes succ .entry (3 * cs.length + 3) := by
    rw [hmem]
    obtain ⟨c, hc⟩ := List.exists_mem_of_ne_nil _ hcsne
    obtain ⟨i, hi⟩ := List.getElem?_of_mem hc
    refine ⟨1, Walk.here.step ((hs _ _).2 ((mem_edges cs).2 (Or.inr (Or.inl ⟨any_true_of hcsne hall, Or.inl ⟨rfl, i, c, hi, ?_⟩⟩))))⟩
    obtain ⟨p, _, rfl⟩ := hm c hc
    simp [leaf]
  have hkind : ∀ v ∈ sortNodes succ .entry (3 * cs.length + 3), v = .entry ∨ v = .link ∨ v = .exit := by
    intro v hv
    obtain ⟨n, hn⟩ := (hmem v).1 hv
    cases hn with
    | here => simp
    | step hu he =>
        rw [hs, mem_edges] at he
        rcases he with ⟨j, c, h1, h2, h⟩ | ⟨_, ⟨h, _⟩ | ⟨_, h⟩⟩ | ⟨_, h, _⟩
        · obtain ⟨p, _, rfl⟩ := hm c (List.mem_of_getElem? h1); cases h2
        · simp [h]
        · simp [h]
        · simp [h]
  have hread : ∀ g : FS C, (∀ p ∈ inputs, g (.user p) = some (obj p)) →
      readAll g ((cs.filter (·.link)).map fun c => .user c.outFile) = some (inputs.map obj) := by
    intro g hg
    rw [hfilter, ← hgen, List.map_map]
    exact readAll_map (fun p => File.user p) obj inputs hg
  unfold runJlc
  generalize sortNodes succ Cmd.entry (3 * cs.length + 3) = l at hnd hmem hpw hlinkmem hkind
  obtain ⟨fs', hrun, h1, h2⟩ := execAll_split t cs out
    (P := fun S g => (.link ∉ S → g = fs) ∧ (.link ∈ S → g = fs.write (.user out) (t.link (inputs.map obj)))) (l := l) (by
      intro S c rest g hl hP
      subst hl
      rcases hkind c (by simp) with rfl | rfl | rfl
      · exact ⟨g, rfl, by simpa using hP.1, by simpa using hP.2⟩
      · have hnl : Cmd.link ∉ S := fun h => (List.nodup_append.1 hnd).2.2 _ h _ (by simp) rfl
        have hg := hP.1 hnl
        subst hg
        exact ⟨_, by simp only [exec, hread g hex, Option.map_some], by simp, fun _ => rfl⟩
      · exact ⟨g, rfl, by simpa using hP.1, by simpa using hP.2⟩) l [] fs rfl ⟨fun _ => rfl, by simp⟩
  refine ⟨fs', hrun, ?_, ?_⟩
  · rw [h2 hlinkmem]; simp [FS.write]
  · intro f hf; rw [h2 hlinkmem]; simp [FS.write, hf]

/-- **C48** The order is no topological order: `jlc` with a source file and an object file runs the linker before the commands that make
object files, so it fails, whatever the order of outgoing edges, unless all object files are there beforehand. -/
theorem C48_mixed_fails (t : Tools C) (o : Options) (cs : List Comp) (out : Path) (hp : parse o = some (cs, out)) (hno : o.noLinking = false)
    (p q : Path) (hpm : p ∈ o.inputs) (hqm : q ∈ o.inputs) (hsrc : isObjectFile p = false) (hobj : isObjectFile q = true)
    (fs : FS C) (habsent : fs (.user (toObjectFile p)) = none)
    (succ : Cmd → List Cmd) (hs : IsSucc (edges cs) succ) : runJlc t succ cs out fs = none := by
  obtain ⟨nol, output, inputs⟩ := o
  simp only at hno hpm hqm
  subst hno
  have hcs : cs = inputs.map (compilation false) := by
    unfold parse at hp
    split at hp
    · cases hp
    · cases output <;> simp at hp <;> exact hp.1.symm
  have hpc : (⟨p, toObjectFile p, true, true⟩ : Comp) ∈ cs := by
    rw [hcs]; exact List.mem_map.2 ⟨p, hpm, by simp [compilation, hsrc]⟩
  have hqc : (⟨q, q, false, true⟩ : Comp) ∈ cs := by
    rw [hcs]; exact List.mem_map.2 ⟨q, hqm, by simp [compilation, hobj]⟩
  clear hcs hp
  have hany : cs.any (·.link) = true := List.any_eq_true.2 ⟨_, hpc, rfl⟩
  obtain ⟨j, hj⟩ := List.getElem?_of_mem hqc
  have hw : Walk succ .entry 1 .link :=
    Walk.here.step ((hs _ _).2 ((mem_edges cs).2 (Or.inr (Or.inl ⟨hany, Or.inl ⟨rfl, j, _, hj, by simp [leaf]⟩⟩))))
  obtain ⟨hnd, hmem, hpw⟩ := order hs
  have hlinkmem := (hmem .link).2 ⟨1, hw⟩
  unfold runJlc
  generalize sortNodes succ Cmd.entry (3 * cs.length + 3) = l at hnd hmem hpw hlinkmem
  obtain ⟨S, rest, rfl⟩ := List.append_of_mem hlinkmem
  -- no command before the linker writes a file of the user
  have hno : ∀ i, Cmd.llc i ∉ S := by
    intro i hi
    obtain ⟨n, hn, hwn⟩ := pairwise_before hpw hi 1 hw
    have := (walk_chain hs hwn).2.2.2 i rfl
    omega
  have hnl : Cmd.link ∉ S := fun h => (List.nodup_append.1 hnd).2.2 _ h _ (by simp) rfl
  clear hnd hmem hpw hlinkmem
  suffices h : ∀ (S : List Cmd), (∀ i, Cmd.llc i ∉ S) → Cmd.link ∉ S → ∀ g : FS C, g (.user (toObjectFile p)) = none →
      execAll t cs out g (S ++ .link :: rest) = none from h S hno hnl fs habsent
  intro S
  induction S with
  | nil =>
      intro _ _ g hg
      have : readAll g ((cs.filter (·.link)).map fun c => .user c.outFile) = none :=
        readAll_none hg _ (List.mem_map.2 ⟨⟨p, toObjectFile p, true, true⟩, by simp [hpc], rfl⟩)
      simp [execAll, exec, this]
  | cons c S ih =>
      intro h1 h2 g hg
      simp only [List.cons_append, execAll]
      cases he : exec t cs out g c with
      | none => rfl
      | some g' =>
          refine ih (fun i hi => h1 i (by simp [hi])) (fun hi => h2 (by simp [hi])) g' ?_
          cases c with
          | entry => simp [exec] at he; rw [← he]; exact hg
          | exit => simp [exec] at he; rw [← he]; exact hg
          | clang i =>
              simp only [exec, convert, Option.bind_eq_some_iff, Option.map_eq_some_iff] at he
              obtain ⟨_, _, _, _, rfl⟩ := he
              simpa [FS.write] using hg
          | opt i =>
              simp only [exec, convert, Option.map_eq_some_iff] at he
              obtain ⟨_, _, rfl⟩ := he
              simpa [FS.write] using hg
          | llc i => exact absurd (by simp) (h1 i)
          | link => exact absurd (by simp) h2

end Jlm.Tooling
