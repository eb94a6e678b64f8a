import Verif.Model.Files

/-
Model of src/main.rs.
-/
namespace Luafmt

/-- `ProgramOpts`, src/main.rs:19-30. -/
structure ProgramOpts where
  inplace : Bool
  recursive : Bool
  verbose : Bool
  deriving DecidableEq, Repr

/-- Lines on stderr. -/
inductive Msg where
  | unrecognizedOption (s : Str)
  | invalidName (name : Str)
  | invalidOption (name value : Str)
  | unresolvedPath (s : Str)
  | processing (p : Path) (e : FErr)
  | processingBuffer (e : FErr)
  | writing (p : Path)
  deriving DecidableEq, Repr

/-- What is printed on stdout: formatted text, or lines of the verbose mode (their text is not
modelled). -/
inductive Print where
  | text (s : Str)
  | verbose
  deriving DecidableEq, Repr

/-- Split off the longest prefix of characters with `p`. -/
def spanStr (p : Char → Bool) (s : Str) : Str × Str := (s.takeWhile p, s.dropWhile p)

/-- `^--([a-zA-Z_0-9]+)=(.*)$`, src/main.rs:37; `.` does not match a newline. -/
def matchConfigOpt (s : Str) : Option (Str × Str) :=
  match s with
  | '-' :: '-' :: r =>
    let x := spanStr isIdent r
    match x.2 with
    | '=' :: v => if x.1 ≠ [] ∧ '\n' ∉ v then some (x.1, v) else none
    | _ => none
  | _ => none

/-- `[a-z]`. -/
def isLower (c : Char) : Bool := 97 ≤ c.toNat && c.toNat ≤ 122

/-- `^[-]{1,2}([a-z]+)$`, src/main.rs:38. -/
def matchProgramOpt (s : Str) : Option Str :=
  let name : Option Str := match s with
    | '-' :: '-' :: r => some r
    | '-' :: r => some r
    | _ => none
  name.bind fun r => if r ≠ [] ∧ r.all isLower = true then some r else none

/-- Does `Config::set` print a message? src/config.rs:180-275. -/
def Config.setMsg (name value : Str) : Option Msg :=
  match optTable.lookup name with
  | none => some (.invalidName name)
  | some (.b _) => if (parseBool value).isSome then none else some (.invalidOption name value)
  | some (.n _) => if (parseUsize value).isSome then none else some (.invalidOption name value)
  | some (.s _) => none
  | some .line => if (parseLineRange value).isSome then none else some (.invalidOption name value)

/-- One round of the loop of `parse_options`, src/main.rs:36-49. -/
def parseOption (s : Str) (c : Config) (o : ProgramOpts) : Config × ProgramOpts × List Msg :=
  match matchConfigOpt s with
  | some (n, v) => (c.set n v, o, (Config.setMsg n v).toList)
  | none =>
    match matchProgramOpt s with
    | some n =>
      if n = L!"i" ∨ n = L!"inplace" then (c, { o with inplace := true }, [])
      else if n = L!"r" ∨ n = L!"recursive" then (c, { o with recursive := true }, [])
      else if n = L!"v" ∨ n = L!"verbose" then (c, { o with verbose := true }, [])
      else (c, o, [.unrecognizedOption s])
    | none => (c, o, [.unrecognizedOption s])

/-- `parse_options`, src/main.rs:32-52. -/
def parseOptions : List Str → Config → ProgramOpts → Config × ProgramOpts × List Msg
  | [], c, o => (c, o, [])
  | s :: ss, c, o =>
    let (c, o, m) := parseOption s c o
    let (c, o, ms) := parseOptions ss c o
    (c, o, m ++ ms)

/-- Comparison of strings (UTF-8 byte order is the order of the code points). -/
def strLe : Str → Str → Bool
  | [], _ => true
  | _ :: _, [] => false
  | a :: s, b :: t => if a.toNat < b.toNat then true else if b.toNat < a.toNat then false else strLe s t

/-- Insert into a sorted list. -/
def insertStr (s : Str) : List Str → List Str
  | [] => [s]
  | t :: ts => if strLe s t then s :: t :: ts else t :: insertStr s ts

/-- `sources.sort()`. -/
def sortStrs : List Str → List Str
  | [] => []
  | s :: ss => insertStr s (sortStrs ss)

/-- Does the argument start with a dash? -/
def isOption (s : Str) : Bool := s.head? == some '-'

/-- `get_options_and_filenames`, src/main.rs:11-17. -/
def splitArgs (args : List Str) : List Str × List Str :=
  (args.filter isOption, sortStrs (args.filter fun s => !isOption s))

/-- The components of a path text. -/
def splitSlash (cur : Str) : Str → List Str
  | [] => [cur]
  | c :: s => if c = '/' then cur :: splitSlash [] s else splitSlash (cur ++ [c]) s

/-- Apply the components of a path text to a directory. -/
def walkNames (p : Path) : List Str → Path
  | [] => p
  | n :: ns =>
    if n = [] ∨ n = L!"." then walkNames p ns
    else if n = L!".." then walkNames p.dropLast ns
    else walkNames (p ++ [n]) ns

/-- The file that a path text means when the current directory is `cwd`. -/
def resolve (cwd : Path) (s : Str) : Path :=
  walkNames (if s.head? = some '/' then [] else cwd) (splitSlash [] s)

/-- State of a run: the file system, what has been printed, and whether a panic ended the run. -/
structure World where
  fs : FS
  out : List Print
  err : List Msg
  aborted : Bool

/-- The messages that `Config::set` prints while the configuration file of a file is read, in order,
src/formatter.rs:43-54 and src/config.rs:179-326. -/
def configMsgs (fs : FS) (c : Config) (p : Path) : List Msg :=
  if fs.isFile p && (fs.read p).isSome && c.hasEmptyFormat then
    match (((fileConfig fs p).bind fs.read).bind parseLua).bind chunkBody with
    | some b => (configAssignments b).filterMap fun x => Config.setMsg x.1 x.2
    | none => []
  else []

/-- `process_file_path`, src/main.rs:54-69. -/
def processPath (c : Config) (o : ProgramOpts) (p : Path) (w : World) : World :=
  if w.aborted then w
  else
    let notes : List Print := if o.verbose then [.verbose] else []
    let msgs := configMsgs w.fs c p
    match processFile w.fs c p with
    | .panic => { w with out := w.out ++ notes, err := w.err ++ msgs, aborted := true }
    | .error e => { w with out := w.out ++ notes, err := w.err ++ msgs ++ [.processing p e] }
    | .ok s =>
      if o.inplace then
        if w.fs.canWrite p then { w with fs := w.fs.setText s p, out := w.out ++ notes, err := w.err ++ msgs }
        else { w with out := w.out ++ notes, err := w.err ++ msgs ++ [.writing p] }
      else { w with out := w.out ++ notes ++ [.text s], err := w.err ++ msgs }

/-- One source argument, src/main.rs:89-100. -/
def processArg (cwd : Path) (c : Config) (o : ProgramOpts) (s : Str) (w : World) : World :=
  if w.aborted then w
  else
    match getPathFiles w.fs o.recursive (resolve cwd s) with
    | some ps => ps.foldl (fun w p => processPath c o p w) w
    | none => { w with err := w.err ++ [.unresolvedPath s] }

/-- `main`, src/main.rs:71-102. `stdin` is `none` if it is not Unicode text. -/
def runMain (args : List Str) (cwd : Path) (stdin : Option Str) (fs : FS) : World :=
  let (options, sources) := splitArgs args
  let (c, o, msgs) := parseOptions options .default ⟨false, false, false⟩
  let notes : List Print := if o.verbose then [.verbose] else []
  let w : World := ⟨fs, notes, msgs, false⟩
  if sources = [] then
    match stdin with
    | none => { w with aborted := true }
    | some text =>
      let w := { w with out := w.out ++ notes }
      match format c text with
      | .ok s => { w with out := w.out ++ [.text s] }
      | .error e => { w with err := w.err ++ [.processingBuffer e] }
      | .panic => { w with aborted := true }
  else sources.foldl (fun w s => processArg cwd c o s w) w

end Luafmt
