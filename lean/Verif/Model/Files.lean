import Verif.Model.Formatter

/-
Model of the file system as src/file_util.rs and src/formatter.rs see it.

The file system is a tree. The order of the entries of a directory is the order in which
`fs::read_dir` returns them. Symbolic links and names that are not Unicode are not modelled; errors
while a directory is being read are modelled for the directory as a whole.
-/
namespace Luafmt

abbrev Name := Str

/-- Where a file or directory is: the names from the root. -/
abbrev Path := List Name

/-- A file or directory. `text = none`: the content cannot be read as Unicode text. `readable`: does
`fs::read_dir` succeed. `other`: something that is neither a file nor a directory. -/
inductive FS where
  | file (text : Option Str) (writable : Bool)
  | dir (readable : Bool) (entries : List (Name × FS))
  | other

/-- Follow one name. -/
def FS.child (n : Name) : FS → Option FS
  | .dir _ es => es.lookup n
  | _ => none

/-- What is at a path. -/
def FS.get : FS → Path → Option FS
  | fs, [] => some fs
  | fs, n :: p => (fs.child n).bind (FS.get · p)

/-- `Path::is_file`. -/
def FS.isFile (fs : FS) (p : Path) : Bool :=
  match fs.get p with
  | some (.file _ _) => true
  | _ => false

/-- `fs::read_to_string`. -/
def FS.read (fs : FS) (p : Path) : Option Str :=
  match fs.get p with
  | some (.file t _) => t
  | _ => none

/-- `Path::extension` of a file name: the part after the last dot, if something precedes the dot. -/
def extension (n : Name) : Option Str :=
  match splitAtChar '.' n.reverse with
  | some (ext, before) => if before = [] then none else some ext.reverse
  | none => none

/-- `CFG_PREFIX`, src/lib.rs:8. -/
def cfgPrefix : Str := L!".luafmt"

/-- The file test of `get_path_files`, src/file_util.rs:16-19. -/
def isLuaName (n : Name) : Bool := extension n == some L!"lua" && !cfgPrefix.isPrefixOf n

/-- The file test of `test_file_in_dir`, src/file_util.rs:37-39. -/
def isConfigName (n : Name) : Bool := cfgPrefix.isPrefixOf n && extension n == some L!"lua"

mutual
/-- `get_path_files` on a directory, src/file_util.rs:9-24; the result is the list of paths below the
directory. `none` is the `?` on an unreadable directory. -/
def dirFiles (recursive : Bool) : FS → Option (List Path)
  | .dir readable es => if readable then entryFiles recursive es else none
  | _ => some []
/-- The loop over the entries. -/
def entryFiles (recursive : Bool) : List (Name × FS) → Option (List Path)
  | [] => some []
  | (n, .dir r es) :: rest =>
    if recursive then
      match dirFiles true (.dir r es), entryFiles recursive rest with
      | some ps, some qs => some (ps.map (n :: ·) ++ qs)
      | _, _ => none
    else entryFiles recursive rest
  | (n, .file _ _) :: rest =>
    (entryFiles recursive rest).map fun qs => if isLuaName n then [n] :: qs else qs
  | (_, .other) :: rest => entryFiles recursive rest
end

/-- `get_path_files`, src/file_util.rs:6-29. -/
def getPathFiles (fs : FS) (recursive : Bool) (p : Path) : Option (List Path) :=
  match fs.get p with
  | some (.dir r es) => (dirFiles recursive (.dir r es)).map (·.map (p ++ ·))
  | some (.file _ _) => some [p]
  | _ => none

/-- `test_file_in_dir`, src/file_util.rs:31-45; an error is treated like "not found" by its caller. -/
def configInDir (fs : FS) (p : Path) : Option Path :=
  match fs.get p with
  | some (.dir true es) =>
    (es.find? fun e => (match e.2 with
      | .file _ _ => true
      | _ => false) && isConfigName e.1).map fun e => p ++ [e.1]
  | _ => none

/-- The loop of `get_file_config`, src/file_util.rs:50-55: `n` is the number of names of the
directory that is tried next. -/
def configUp (fs : FS) (p : Path) : Nat → Option Path
  | 0 => configInDir fs []
  | n + 1 => (configInDir fs (p.take (n + 1))).or (configUp fs p n)

/-- `get_file_config`, src/file_util.rs:47-61, for a file at the (canonical) path `p`. -/
def fileConfig (fs : FS) (p : Path) : Option Path :=
  match p with
  | [] => none
  | _ :: _ => configUp fs p (p.length - 1)

/-- `process_file`, src/formatter.rs:34-62. An unreadable configuration file is the `expect` in
`reload_format_from_file`. -/
def processFile (fs : FS) (c : Config) (p : Path) : Out :=
  if !fs.isFile p then .error .reading
  else
    match fs.read p with
    | none => .error .reading
    | some text =>
      if c.hasEmptyFormat then
        match fileConfig fs p with
        | none => .error .noConfigureFile
        | some q =>
          match fs.read q with
          | none => .panic
          | some content =>
            match c.reload content with
            | none => .error .invalidConfigFile
            | some c' => format c' text
      else format c text

mutual
/-- Replace the content of a file. -/
def FS.setText (text : Str) : Path → FS → FS
  | [], .file _ w => .file (some text) w
  | n :: p, .dir r es => .dir r (FS.setEntry text n p es)
  | _, fs => fs
/-- In the first entry with the given name. -/
def FS.setEntry (text : Str) (n : Name) (p : Path) : List (Name × FS) → List (Name × FS)
  | [] => []
  | (m, e) :: es => if m = n then (m, FS.setText text p e) :: es else (m, e) :: FS.setEntry text n p es
end

/-- May the file be written? -/
def FS.canWrite (fs : FS) (p : Path) : Bool :=
  match fs.get p with
  | some (.file _ w) => w
  | _ => false

/-- The file systems that can be seen while `fs::write(p, text)` runs (src/main.rs:57): the file is
truncated and then the text is written piece by piece. The last one is the final one. A crash leaves
one of these. -/
def FS.writeStates (fs : FS) (p : Path) (text : Str) : List FS :=
  fs :: (List.range (text.length + 1)).map fun i => fs.setText (text.take i) p

end Luafmt
