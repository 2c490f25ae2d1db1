import Verif.Basic
/-! Model of ab/src/ab-main.cpp, the `ab` command. Strings are lists of characters; those that come from the
environment or the command line are C strings and contain no NUL. -/
namespace Ab.Driver

abbrev Str := List Char

/-- What `opendir` and `pathconf` say of a directory name: it cannot be opened; it can, but `pathconf` fails;
or the names `readdir_r` delivers (up to the end or an error). -/
inductive Dir
  | absent
  | noLimit
  | names (l : List Str)
deriving Repr, DecidableEq

/-- The surroundings of the process: the environment, the directories, and whether `execv` of a path
succeeds. -/
structure World where
  abPath : Option Str
  abHome : Option Str
  path   : Option Str
  dir    : Str → Dir
  exec   : Str → Bool

/-- `find_file_in_dir` (ab-main.cpp:47-69) with `alloc_dirent` (37-42). The buffer is released with `delete`
though it came from `malloc`; that is taken to work. -/
def findInDir (w : World) (name dir : Str) : Outcome (Option Str) :=
  match w.dir dir with
  | .absent => .ok none
  | .noLimit => .trap "name_max != -1"
  | .names l => if name ∈ l then .ok (some (dir ++ '/' :: name)) else .ok none

/-- `find_sep` (ab-main.cpp:72-78): the position of the first `sep` at or after `pos`, or the length. -/
def findSep (s : Str) (sep : Char) (pos : Nat) : Nat :=
  pos + ((s.drop pos).takeWhile (· ≠ sep)).length

/-- The loop of `find_file_in_search_path` (ab-main.cpp:89-100); `a`, `b` as there. -/
def searchLoop (w : World) (name path : Str) (fuel a b : Nat) : Outcome (Option Str) :=
  match fuel with
  | 0 => .fuel
  | fuel + 1 =>
    if b < path.length then
      let b := findSep path ':' a
      let dir := (path.drop a).take (b - a)
      match findInDir w name dir with
      | .ok (some r) => .ok (some r)
      | .ok none => searchLoop w name path fuel (b + 1) b
      | e => e
    else .ok none

/-- `find_file_in_search_path` (ab-main.cpp:80-103). -/
def findInSearchPath (w : World) (name path : Str) : Outcome (Option Str) :=
  if path.length = 0 then .ok none
  else searchLoop w name path (path.length + 2) 0 0

/-- `find_file_in_env_search_path` (ab-main.cpp:105-111). -/
def findInEnv (w : World) (name : Str) (var : Option Str) : Outcome (Option Str) :=
  match var with
  | some p => findInSearchPath w name p
  | none => .ok none

/-- `cmd_exe_name` (ab-main.cpp:115). -/
def exeName (cmd : Str) : Str := 'a' :: 'b' :: '-' :: cmd

/-- The middle of `find_cmd` (ab-main.cpp:126-132). -/
def findInHome (w : World) (name : Str) : Outcome (Option Str) :=
  match w.abHome with
  | some h => findInDir w name (h ++ ['/', 'b', 'i', 'n'])
  | none => .ok none

/-- `find_cmd` (ab-main.cpp:117-140). -/
def findCmd (w : World) (cmd : Str) : Outcome (Option Str) := do
  let name := exeName cmd
  let exe ← findInEnv w name w.abPath
  match exe with
  | some e => pure (some e)
  | none =>
    let exe ← findInHome w name
    match exe with
    | some e => pure (some e)
    | none => findInEnv w name w.path

/-- How the process ends. -/
inductive End
  | usage                              -- usage printed, status 0
  | version                            -- version printed, status 0
  | badOption (arg : Str)              -- error printed, status 1
  | missing                            -- error and usage printed, status 1
  | notFound (cmd : Str)               -- error printed, status 1
  | execFailed (bin : Str)             -- error printed, status 1
  | became (bin : Str) (argv : List Str)  -- the process now runs `bin` with these arguments
deriving Repr, DecidableEq

/-- `run_cmd` (ab-main.cpp:146-159) and `exec_cmd` (142-144). -/
def runCmd (w : World) (cmd : Str) (argv : List Str) : Outcome End := do
  let s ← findCmd w cmd
  match s with
  | none => pure (.notFound cmd)
  | some bin => if w.exec bin then pure (.became bin argv) else pure (.execFailed bin)

/-- `main` (ab-main.cpp:161-196); `args` is `argv[1..]`. The loop ends in its first round in every case, so
`i` is 1, or 2 after `--`; the command always gets `argv + 1`. -/
def main (w : World) (args : List Str) : Outcome End :=
  match args with
  | [] => .ok .missing
  | arg :: rest =>
    if arg = "-h".toList ∨ arg = "--help".toList then .ok .usage
    else if arg = "-v".toList ∨ arg = "--version".toList then .ok .version
    else if arg = "--".toList then
      match rest with
      | [] => .ok .missing
      | cmd :: _ => runCmd w cmd args
    else if arg.head? = some '-' then .ok (.badOption arg)
    else runCmd w arg args

end Ab.Driver
