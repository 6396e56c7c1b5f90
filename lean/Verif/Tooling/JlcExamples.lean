import Verif.Tooling.JlcProps

/-! # C48: examples -/

namespace Jlm.Tooling

/-- Contents are texts that tell how a file came about. -/
def exTools : Tools String := ⟨fun s => "clang(" ++ s ++ ")", fun s => "opt(" ++ s ++ ")", fun s => "llc(" ++ s ++ ")",
  fun l => "link(" ++ " ".intercalate l ++ ")"⟩

def succOf (es : List (Cmd × Cmd)) (u : Cmd) : List Cmd := (es.filter (·.1 = u)).map (·.2)

theorem succOf_isSucc (es : List (Cmd × Cmd)) : IsSucc es (succOf es) := by
  intro u v
  simp [succOf]

/-! ## Paths -/

example : name "/a/b/file.c".toList = "file.c".toList := by decide +kernel
example : base "/a/b/archive.tar.gz".toList = "archive".toList := by decide +kernel
example : suffix "/a/b/archive.tar.gz".toList = "gz".toList := by decide +kernel
example : dirname "/tmp/archive.txt".toList = "/tmp".toList := by decide +kernel
example : dirname "file.txt".toList = ".".toList := by decide +kernel
example : dirname "/file.txt".toList = "/".toList := by decide +kernel
example : dirname "/foo/bar/".toList = "/foo".toList := by decide +kernel
example : toObjectFile "src/file.c".toList = "src/file.o".toList := by decide +kernel
example : toObjectFile "file.c".toList = "file.o".toList := by decide +kernel
/-- `Dirname` and repeated slashes: GNU's dirname gives "a" and ".". -/
example : dirname "a//b".toList = "a/".toList ∧ dirname "a//".toList = "a".toList := by decide +kernel

/-- The hypotheses of `C48_object_path` are met. -/
example : toObjectFile "/tmp/archive.tar.gz".toList = "/tmp/archive.o".toList :=
  (C48_object_path "/tmp".toList "archive.tar.gz".toList "archive".toList "tar.gz".toList (by decide +kernel) (by decide +kernel)
    (by decide +kernel)).2.2 (by decide +kernel) (by decide +kernel) (by decide +kernel)

/-! ## Source files -/

def exFs : FS String := fun f => if f = .user "d/a.c".toList then some "A" else if f = .user "b.c".toList then some "B" else none

def exOptions : Options := ⟨false, some "prog".toList, ["d/a.c".toList, "b.c".toList]⟩

def exCs : List Comp := [⟨"d/a.c".toList, "d/a.o".toList, true, true⟩, ⟨"b.c".toList, "b.o".toList, true, true⟩]

theorem exParse : parse exOptions = some (exCs, "prog".toList) := by decide +kernel

/-- The hypotheses of `C48_jlc_links` are met. -/
example : ∃ fs', runJlc exTools (succOf (edges exCs)) exCs "prog".toList exFs = some fs' ∧
    fs' (.user "prog".toList) = some "link(llc(opt(clang(A))) llc(opt(clang(B))))" := by
  obtain ⟨_, fs', h1, h2, _⟩ := C48_jlc_links exTools exOptions exCs _ exParse rfl
    (by decide +kernel) (by decide +kernel) exFs (fun p => if p = "d/a.c".toList then "A" else "B") (by decide +kernel) _ (succOf_isSucc _)
  refine ⟨fs', h1, h2.trans ?_⟩
  decide +kernel

/-- Those of `C48_jlc_compiles` and `C48_jlc_compiles_to`. -/
example : ∃ cs out fs', parse ⟨true, none, ["d/a.c".toList, "b.c".toList]⟩ = some (cs, out) ∧
    runJlc exTools (succOf (edges cs)) cs out exFs = some fs' ∧ fs' (.user "d/a.o".toList) = some "llc(opt(clang(A)))" := by
  obtain ⟨fs', h1, h2, _⟩ := C48_jlc_compiles exTools ⟨true, none, ["d/a.c".toList, "b.c".toList]⟩
    [⟨"d/a.c".toList, "d/a.o".toList, true, false⟩, ⟨"b.c".toList, "b.o".toList, true, false⟩] "a.out".toList (by decide +kernel) rfl rfl
    (by decide +kernel) (by decide +kernel) exFs (fun p => if p = "d/a.c".toList then "A" else "B") (by decide +kernel) _ (succOf_isSucc _)
  refine ⟨_, _, fs', by decide +kernel, h1, ?_⟩
  have := h2 "d/a.c".toList (by decide +kernel)
  have e : toObjectFile "d/a.c".toList = "d/a.o".toList := by decide +kernel
  rw [e] at this
  exact this.trans (by decide +kernel)

example : ∃ fs', runJlc exTools (succOf (edges [⟨"b.c".toList, "x".toList, true, false⟩])) [⟨"b.c".toList, "x".toList, true, false⟩] "a.out".toList exFs
    = some fs' ∧ fs' (.user "x".toList) = some "llc(opt(clang(B)))" := by
  obtain ⟨fs', h1, h2, _⟩ := C48_jlc_compiles_to exTools "b.c".toList "x".toList [⟨"b.c".toList, "x".toList, true, false⟩] "a.out".toList
    (by decide +kernel) (by decide +kernel) (by decide +kernel) exFs "B" (by decide +kernel) _ (succOf_isSucc _)
  exact ⟨fs', h1, h2.trans (by decide +kernel)⟩

/-! ## Object files -/

def exObj : FS String := fun f => if f = .user "a.o".toList then some "A" else if f = .user "b.c".toList then some "B" else none

example : ∃ fs', runJlc exTools (succOf (edges [⟨"a.o".toList, "a.o".toList, false, true⟩])) [⟨"a.o".toList, "a.o".toList, false, true⟩]
    "a.out".toList exObj = some fs' ∧ fs' (.user "a.out".toList) = some "link(A)" := by
  obtain ⟨fs', h1, h2, _⟩ := C48_jlc_objects exTools ⟨false, none, ["a.o".toList]⟩ [⟨"a.o".toList, "a.o".toList, false, true⟩] "a.out".toList
    (by decide +kernel) rfl (by decide +kernel) exObj (fun _ => "A") (by decide +kernel) _ (succOf_isSucc _)
  exact ⟨fs', h1, h2.trans (by decide +kernel)⟩

/-- `jlc a.o b.c`: the hypotheses of `C48_mixed_fails` are met. -/
def exMixed : List Comp := [⟨"a.o".toList, "a.o".toList, false, true⟩, ⟨"b.c".toList, "b.o".toList, true, true⟩]

example : runJlc exTools (succOf (edges exMixed)) exMixed "a.out".toList exObj = none :=
  C48_mixed_fails exTools ⟨false, none, ["a.o".toList, "b.c".toList]⟩ exMixed "a.out".toList (by decide +kernel) rfl
    "b.c".toList "a.o".toList (by decide +kernel) (by decide +kernel) (by decide +kernel) (by decide +kernel) exObj (by decide +kernel) _ (succOf_isSucc _)

/-- The order in that case. -/
example : sortNodes (succOf (edges exMixed)) .entry 9 = [.entry, .clang 1, .link, .opt 1, .exit, .llc 1] := by decide +kernel

/-! ## Object files with the same name -/

def exSame : FS String := fun f => if f = .user "a.1.c".toList then some "A" else if f = .user "a.2.c".toList then some "B" else none

/-- **C48** Two source files whose names have the same part before the first dot share an object file: the program contains one of them twice
and the other one not at all. -/
theorem C48_same_base : ∃ cs out, parse ⟨false, none, ["a.1.c".toList, "a.2.c".toList]⟩ = some (cs, out) ∧
    (runJlc exTools (succOf (edges cs)) cs out exSame).map (· (.user out)) =
      some (some "link(llc(opt(clang(B))) llc(opt(clang(B))))") :=
  ⟨[⟨"a.1.c".toList, "a.o".toList, true, true⟩, ⟨"a.2.c".toList, "a.o".toList, true, true⟩], "a.out".toList, by decide +kernel, by decide +kernel⟩

/-- **C48** `jlc -c b.o -o x` links although it must not. -/
theorem C48_object_c : ∃ cs out, parse ⟨true, some "x".toList, ["a.o".toList]⟩ = some (cs, out) ∧ Cmd.link ∈ sortNodes (succOf (edges cs)) .entry 6 :=
  ⟨[⟨"a.o".toList, "x".toList, false, true⟩], "a.out".toList, by decide +kernel, by decide +kernel⟩

end Jlm.Tooling
