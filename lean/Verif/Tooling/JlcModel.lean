/-!
# Model of the compiler driver `jlc`

* `jlm/util/file.hpp`: `FilePath`.
* `jlm/tooling/CommandLine.cpp:620-660`: which steps an input file needs, and which files they write.
* `jlm/tooling/CommandGraphGenerator.cpp:105-201`: the graph of commands.
* `jlm/tooling/CommandGraph.cpp:57-88`: the order in which they are run.

A file system maps files to contents of an arbitrary type; what clang, jlm-opt, llc and the linker do to contents is arbitrary.
Names of temporary files are random in /repo (`createUniqueFileName`, file.hpp:300-311); here they are distinct from each other and
from the files of the user. Options other than `-c` and `-o`, and the dependency file that clang writes besides its output, are not modelled.
-/

namespace Jlm.Tooling

abbrev Path := List Char

/-! ## File paths -/

/-- `FilePath::name` (file.hpp:77-85): what follows the last slash. -/
def name (p : Path) : Path := (p.reverse.takeWhile (· != '/')).reverse

/-- `FilePath::base` (file.hpp:59-67): the name up to its first dot. -/
def base (p : Path) : Path := (name p).takeWhile (· != '.')

/-- `FilePath::suffix` (file.hpp:112-120): what follows the last dot of the name; the whole name if there is none. -/
def suffix (p : Path) : Path := ((name p).reverse.takeWhile (· != '.')).reverse

/-- `FilePath::Dirname` (file.hpp:143-167): what precedes the last slash, a trailing slash is ignored. -/
def dirname (p : Path) : Path :=
  if p = [] then ['.']
  else if p = ['/'] then ['/']
  else
    -- what precedes the last slash of all characters but the last, with that slash
    let q := (p.dropLast.reverse.dropWhile (· != '/')).reverse
    if q = [] then ['.'] else if q = ['/'] then ['/'] else q.dropLast

/-- `FilePath::Join` (file.hpp:190-196), `std::filesystem::path::append`. -/
def join (p other : Path) : Path :=
  let p := if p = ['.'] then [] else p
  if other.head? = some '/' then other
  else if p = [] ∨ p.getLast? = some '/' then p ++ other
  else p ++ '/' :: other

/-! ## Compilations -/

/-- `JlcCommandLineParser::IsObjectFile` (CommandLine.hpp:619-623). -/
def isObjectFile (p : Path) : Bool := suffix p = ['o']

/-- `JlcCommandLineParser::ToObjectFile` (CommandLine.hpp:625-629). -/
def toObjectFile (p : Path) : Path := join (dirname p) (base p ++ ['.', 'o'])

/-- `JlcCommandLineOptions::Compilation`. The flags for parsing, optimisation and assembly are always equal: `source`. -/
structure Comp where
  inFile : Path
  outFile : Path
  source : Bool
  link : Bool
  deriving DecidableEq

/-- CommandLine.cpp:623-644 -/
def compilation (noLinking : Bool) (p : Path) : Comp :=
  if isObjectFile p then ⟨p, p, false, true⟩ else ⟨p, toObjectFile p, true, !noLinking⟩

/-- What the user asks for: `jlc [-c] [-o outputFile] inputs`. -/
structure Options where
  noLinking : Bool
  output : Option Path
  inputs : List Path

/-- Compilations and output file (CommandLine.cpp:623-658, `a.out`: CommandLine.cpp:69); `none`: the options are rejected
(CommandLine.cpp:591-601). -/
def parse (o : Options) : Option (List Comp × Path) :=
  let cs := o.inputs.map (compilation o.noLinking)
  if o.inputs = [] then none
  else
    match o.output with
    | none => some (cs, "a.out".toList)
    | some out =>
        if o.noLinking then
          match cs with
          | [c] => some ([{ c with outFile := out }], "a.out".toList)
          | _ => none
        else some (cs, out)

/-! ## The command graph -/

/-- Commands: number `i` belongs to the `i`-th input file. -/
inductive Cmd
  | entry
  | exit
  | clang (i : Nat)
  | opt (i : Nat)
  | llc (i : Nat)
  | link
  deriving DecidableEq

/-- CommandGraphGenerator.cpp:112-167 -/
def chain (i : Nat) (c : Comp) : List (Cmd × Cmd) :=
  if c.source then [(.entry, .clang i), (.clang i, .opt i), (.opt i, .llc i)] else []

/-- `lastNode` (CommandGraphGenerator.cpp:169). -/
def leaf (i : Nat) (c : Comp) : Cmd := if c.source then .llc i else .entry

def chains : Nat → List Comp → List (Cmd × Cmd)
  | _, [] => []
  | i, c :: cs => chain i c ++ chains (i + 1) cs

def leaves : Nat → List Comp → List Cmd
  | _, [] => []
  | i, c :: cs => leaf i c :: leaves (i + 1) cs

/-- `GenerateCommandGraph` (CommandGraphGenerator.cpp:105-201): the edges. -/
def edges (cs : List Comp) : List (Cmd × Cmd) :=
  if cs.any (·.link) then chains 0 cs ++ (leaves 0 cs).map (·, .link) ++ [(.link, .exit)]
  else chains 0 cs ++ (leaves 0 cs).map (·, .exit)

/-! ## The order of the commands -/

structure Bfs (N : Type) where
  nodes : List N
  toVisit : List N
  visited : List N

/-- CommandGraph.cpp:70-76 -/
def Bfs.visit {N : Type} [DecidableEq N] (s : Bfs N) (v : N) : Bfs N :=
  if v ∈ s.visited then s else ⟨s.nodes ++ [v], s.toVisit ++ [v], v :: s.visited⟩

/-- CommandGraph.cpp:63-79; `succ u`: the sinks of the outgoing edges of `u` in the order of the hash set. -/
def Bfs.loop {N : Type} [DecidableEq N] (succ : N → List N) : Nat → Bfs N → Bfs N
  | 0, s => s
  | fuel + 1, s =>
      match s.toVisit with
      | [] => s
      | u :: q => Bfs.loop succ fuel ((succ u).foldl Bfs.visit { s with toVisit := q })

/-- `SortNodesTopological` (CommandGraph.cpp:57-80), with a bound on the number of iterations. -/
def sortNodes {N : Type} [DecidableEq N] (succ : N → List N) (entry : N) (fuel : Nat) : List N :=
  (Bfs.loop succ fuel ⟨[entry], [entry], [entry]⟩).nodes

/-! ## Running the commands -/

/-- Files: those of the user and temporary ones. -/
inductive File
  | user (p : Path)
  | clangOut (i : Nat)
  | optOut (i : Nat)
  deriving DecidableEq

/-- What the tools do to the contents of files. -/
structure Tools (C : Type) where
  clang : C → C
  opt : C → C
  llc : C → C
  link : List C → C

abbrev FS (C : Type) := File → Option C

def FS.write {C : Type} (fs : FS C) (f : File) (c : C) : FS C := fun g => if g = f then some c else fs g

/-- A command that turns one file into another one fails if there is no such file. -/
def convert {C : Type} (t : C → C) (src dst : File) (fs : FS C) : Option (FS C) := (fs src).map fun c => fs.write dst (t c)

/-- Contents of several files. -/
def readAll {C : Type} (fs : FS C) : List File → Option (List C)
  | [] => some []
  | f :: fs' => (fs f).bind fun c => (readAll fs fs').map (c :: ·)

/-- `Command::Run` (Command.cpp:62-71, JlmOptCommand: 350 ff.); `none`: an exception is thrown. The files: CommandGraphGenerator.cpp:116-189. -/
def exec {C : Type} (t : Tools C) (cs : List Comp) (out : Path) (fs : FS C) : Cmd → Option (FS C)
  | .entry => some fs
  | .exit => some fs
  | .clang i => (cs[i]?).bind fun c => convert t.clang (.user c.inFile) (.clangOut i) fs
  | .opt i => convert t.opt (.clangOut i) (.optOut i) fs
  | .llc i => (cs[i]?).bind fun c => convert t.llc (.optOut i) (.user c.outFile) fs
  | .link => (readAll fs ((cs.filter (·.link)).map fun c => .user c.outFile)).map fun xs => fs.write (.user out) (t.link xs)

def execAll {C : Type} (t : Tools C) (cs : List Comp) (out : Path) : FS C → List Cmd → Option (FS C)
  | fs, [] => some fs
  | fs, c :: rest => (exec t cs out fs c).bind fun fs => execAll t cs out fs rest

/-- `CommandGraph::Run` (CommandGraph.cpp:82-88) on the graph for the compilations `cs`. -/
def runJlc {C : Type} (t : Tools C) (succ : Cmd → List Cmd) (cs : List Comp) (out : Path) (fs : FS C) : Option (FS C) :=
  execAll t cs out fs (sortNodes succ .entry (3 * cs.length + 3))

end Jlm.Tooling
