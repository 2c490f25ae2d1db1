import Verif.Model.Wast
import Verif.Model.Driver
/-!
Model of the commands `ab-asm` (asm/src/ab-asm-main.cpp), `ab-run` (run/src/ab-run-main.cpp) and `ab-help` (help/src/ab-help-main.cpp).
`args` is `argv[1..]`; a process is taken to be started with a name, so `argc ≥ 1`. What is printed on the error stream is shown by
the way the process ends.
-/
namespace Ab.Tools

abbrev Str := List Char

/-- What the operating system makes of a file name: `open` fails; or it gives a descriptor, and the file has these bytes, and `fstat` and
`mmap` work or not. -/
inductive Opened where
  | failed
  | file (fd : Nat) (bytes : List Char) (statOk mapOk : Bool)
deriving Repr, DecidableEq

/-- `Input::open` (ab-asm-main.cpp:22-51): the mapped bytes, or `none` if `ok()` (58-60) will be false. A descriptor below 1 counts as a failure;
mapping no bytes fails (mmap(2): EINVAL). -/
def inputOpen : Opened → Option (List Char)
  | .failed => none
  | .file fd bytes statOk mapOk =>
    if fd < 1 then none
    else if ¬ statOk then none
    else if bytes = [] ∨ ¬ mapOk then none
    else some bytes

/-- How `ab-asm` ends: with what status, and what it printed on the standard output about the file. -/
inductive AsmEnd where
  | help                         -- usage, status 0
  | missing                      -- "missing <abt>", status 1
  | unhandled (arg : Str)        -- "unhandled argument", status 1
  | cannotOpen (name : Str)      -- "could not open file", status 1
  | done (out : List Char)       -- status 0
deriving Repr, DecidableEq

/-- The exit status. -/
def AsmEnd.status : AsmEnd → Nat
  | .help | .done _ => 0
  | _ => 1

/-- The loop of `go` (ab-asm-main.cpp:79-83). -/
def tokenLines : List Wast.Token → List Char
  | [] => []
  | t :: ts => "!(token  :range ".toList ++ t.location.start.fmt ++ " - ".toList ++ t.location.stop.fmt ++ ")\n".toList ++ tokenLines ts

/-- `go` (ab-asm-main.cpp:69-85): everything printed. -/
def go (bytes : List Char) : Outcome (List Char) := do
  let s ← Wast.lex (fun _ => bytes) (Wast.Lexer.make Wast.Loc.first Wast.Loc.first) ⟨0, 0⟩ bytes.length true
  .ok (s.printed ++ tokenLines s.output)

/-- `main` from line 156 on; `in` may be null. -/
def asmRun (os : Str → Opened) (name : Option Str) : Outcome AsmEnd :=
  match name with
  | none => .ub "string_view of a null pointer"
  | some name =>
    match inputOpen (os name) with
    | none => .ok (.cannotOpen name)
    | some bytes => do
      let out ← go bytes
      .ok (.done out)

/-- The `switch` (ab-asm-main.cpp:135-154): `n` is `argc - i`. The input is always `argv[1]`. -/
def asmSwitch (os : Str → Opened) (args : List Str) (n : Nat) : Outcome AsmEnd :=
  if n = 0 then .ok .missing
  else if n = 1 then asmRun os none
  else if n = 2 then
    match args[0]? with
    | some a => asmRun os (some a)
    | none => .ub "argv[1]"
  else -- case 3 falls through to default; argv[argc - i - 1]
    match args[n - 2]? with
    | some a => .ok (.unhandled a)
    | none => .ub "argv[argc - i - 1]"

/-- `ab-asm`'s `main` (ab-asm-main.cpp:114-166). The loop (122-133) ends in its first round. -/
def asmMain (os : Str → Opened) (args : List Str) : Outcome AsmEnd :=
  match args with
  | [] => asmSwitch os args 0
  | arg :: rest =>
    if arg = "--".toList then asmSwitch os args rest.length
    else if arg = "-h".toList ∨ arg = "--help".toList then .ok .help
    else asmSwitch os args args.length

/-- How `ab-run` ends. -/
inductive RunEnd where
  | help                         -- usage, status 0
  | badOption (arg : Str)        -- "unrecognized option", status 1
  | missing                      -- status 1
  | unexpected (arg : Str)       -- "unexpected argument", status 1
  | ran                          -- status 0
deriving Repr, DecidableEq

/-- `run_file` (ab-run-main.cpp:13-46): after setting up a VM, `instantiate_file`
(core/src/ab-core-VirtualMachine.cpp:25-29), which is not implemented. -/
def runFile (_ : Str) : Outcome RunEnd := .trap "Unimplemented function called"

/-- The `switch` (ab-run-main.cpp:78-92) on the arguments that are left. -/
def runSwitch : List Str → Outcome RunEnd
  | [] => .ok .missing
  | [file] => runFile file
  | _ :: arg :: _ => .ok (.unexpected arg)

/-- `ab-run`'s `main` (ab-run-main.cpp:54-95). The loop ends in its first round. -/
def runMain (args : List Str) : Outcome RunEnd :=
  match args with
  | [] => runSwitch []
  | arg :: rest =>
    if arg = "--".toList then runSwitch rest
    else if arg = "--help".toList ∨ arg = "-h".toList then .ok .help
    else if arg.head? = some '-' then .ok (.badOption arg)
    else runSwitch args

/-- How `ab-help` ends (ab-help-main.cpp:19-36): the help text with status 0; the process becomes `man` on a page; `man` cannot be
started, status 2; too many arguments, status 1. -/
inductive HelpEnd where
  | text
  | man (page : Str)
  | noMan
  | tooMany
deriving Repr, DecidableEq

/-- `ab-help`'s `main` (ab-help-main.cpp:19-36); `exec` says whether `man` can be started. -/
def helpMain (exec : Bool) (args : List Str) : HelpEnd :=
  match args with
  | [] => .text
  | [page] => if exec then .man page else .noMan
  | _ => .tooMany

end Ab.Tools
