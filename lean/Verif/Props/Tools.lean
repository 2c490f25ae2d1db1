import Verif.Model.Tools
import Verif.Props.Wast
/-!
Property theorems C75–C77: the commands `ab-asm` and `ab-run`.
-/
namespace Ab.Tools
open Spec.Wast

/-! ## Specification -/

/-- The file can be opened, read and mapped, and is not empty. -/
def Readable (os : Str → Opened) (name : Str) (bytes : List Char) : Prop :=
  (∃ fd, os name = .file fd bytes true true ∧ 0 < fd) ∧ bytes ≠ []

/-- A word that is not an option. -/
def Plain (a : Str) : Prop := ∀ c t, a = c :: t → c ≠ '-'

/-- The line `ab-asm` prints for a token. -/
def tokenLine (t : Seen) : List Char :=
  "!(token  :range ".toList ++ showPlace t.range.start ++ " - ".toList ++ showPlace t.range.stop ++ ")\n".toList

/-- What `ab-asm` prints for a sequence of lexemes: a line for every lexeme as it is read, then a line for every token. -/
def listing (ls : List Lexeme) : List Char :=
  lines ⟨0, 1, 1⟩ [] ls ++ ((tokens ⟨0, 1, 1⟩ [] ls).map tokenLine).flatten

/-! ## Lemmas -/

theorem inputOpen_readable {os : Str → Opened} {name : Str} {bytes : List Char} (h : Readable os name bytes) :
    inputOpen (os name) = some bytes := by
  obtain ⟨⟨fd, e, hfd⟩, hne⟩ := h
  rw [e]
  unfold inputOpen
  simp only
  rw [if_neg (by omega), if_neg (by simp), if_neg (by simp [hne])]

theorem tokenLines_cons (t : Wast.Token) (ts : List Wast.Token) :
    tokenLines (t :: ts) = "!(token  :range ".toList ++ t.location.start.fmt ++ " - ".toList ++ t.location.stop.fmt ++ ")\n".toList ++ tokenLines ts := by
  rfl

attribute [local irreducible] String.toList in
theorem tokenLines_eq (text : Nat → List Char) : ∀ (ts : List Wast.Token),
    tokenLines ts = ((ts.map (seen text)).map tokenLine).flatten
  | [] => rfl
  | t :: ts => by
    rw [tokenLines_cons, tokenLines_eq text ts, Wast.fmt_eq, Wast.fmt_eq]
    simp only [List.map_cons, List.flatten_cons]
    rfl

theorem go_eq {bytes rest : List Char} {ls : List Lexeme} (hp : Proper ls) (hr : rest = [] ∨ Unreadable rest) (e : bytes = write ls ++ rest)
    (hn : bytes.length < 2147483647) : go bytes = .ok (listing ls) := by
  have h : ∃ s, Wast.lex (fun _ => bytes) (Wast.Lexer.make Wast.Loc.first Wast.Loc.first) ⟨0, 0⟩ bytes.length true = .ok s ∧
      s.output.map (seen (fun _ => bytes)) = tokens ⟨0, 1, 1⟩ [] ls ∧ s.printed = lines ⟨0, 1, 1⟩ [] ls := by
    rcases hr with rfl | hu
    · exact Wast.C72_tokens (fun _ => bytes) 0 ls _ hp (by rw [e, List.append_nil]) hn
    · exact Wast.C73_the_rest_is_lost (fun _ => bytes) 0 ls rest _ hp hu e hn
  obtain ⟨s, e1, e2, e3⟩ := h
  unfold go
  rw [e1]
  simp only [Outcome.ok_bind]
  rw [e3, tokenLines_eq (fun _ => bytes), e2]
  rfl

theorem plain_ne {a : Str} (h : Plain a) : a ≠ "--".toList ∧ a ≠ "-h".toList ∧ a ≠ "--help".toList := by
  refine ⟨?_, ?_, ?_⟩ <;> rintro rfl
  · exact h '-' ['-'] (by decide) rfl
  · exact h '-' ['h'] (by decide) rfl
  · exact h '-' "-help".toList (by decide) rfl

/-! ## C75 the assembler's command line -/

/-- **C75**, full statement (the usage text and ab-asm(1)): `ab-asm [--] <abt> [<abx>]` reads `<abt>`, whatever it is called after `--` and if it
is not an option otherwise; `--help` prints the usage; without arguments or with too many there is an error, and `--version` is
never taken for a file. -/
def C75_full : Prop :=
  ∀ (os : Str → Opened) (i o : Str),
    (Plain i → asmMain os [i] = asmRun os (some i) ∧ asmMain os [i, o] = asmRun os (some i)) ∧
    asmMain os ["--".toList, i] = asmRun os (some i) ∧
    asmMain os ["--".toList, i, o] = asmRun os (some i) ∧
    asmMain os ["--help".toList] = .ok .help ∧
    (asmMain os ["--version".toList]).isUb = false ∧
    asmMain os [] = .ok .missing

/-- **C75 is false of the code**: with just the input file – the usage of the manual page – the program has undefined behaviour. -/
theorem C75_negation : ¬ C75_full := by
  intro h
  have := ((h (fun _ => .failed) ['a'] ['b']).1 (by intro c t e; injection e with e; rw [← e]; decide)).1
  revert this
  decide

/-- How it fails: one argument that is not a help option, with or without `--`, is undefined behaviour – `--version` too. -/
theorem C75_one_argument_undefined (os : Str → Opened) (a : Str) (h1 : a ≠ "--".toList) (h2 : a ≠ "-h".toList) (h3 : a ≠ "--help".toList) :
    (asmMain os [a]).isUb = true ∧ (asmMain os ["--".toList, a]).isUb = true ∧ (asmMain os ["--version".toList]).isUb = true := by
  refine ⟨?_, rfl, rfl⟩
  unfold asmMain
  simp only
  rw [if_neg h1, if_neg (by simp only [not_or]; exact ⟨h2, h3⟩)]
  rfl

/-- … and after `--` two arguments are there, but the file called `--` is read. -/
theorem C75_double_dash_reads_double_dash (os : Str → Opened) (a b : Str) :
    asmMain os ["--".toList, a, b] = asmRun os (some "--".toList) := rfl

/-- **C75**, what holds: `ab-asm <abt> <abx>` reads `<abt>` if it is not an option; a help option in front prints the usage; without
arguments, and with three or more, there is an error and nothing is read; the status is 0 for the usage and 1 for these errors.
Missing: a single argument and `--`. -/
theorem C75_command_line_partial (os : Str → Opened) (a b : Str) (rest : List Str) (ha : Plain a) :
    asmMain os [a, b] = asmRun os (some a) ∧
    asmMain os ("-h".toList :: rest) = .ok .help ∧ asmMain os ("--help".toList :: rest) = .ok .help ∧
    asmMain os [] = .ok .missing ∧ asmMain os ["--".toList] = .ok .missing ∧
    (∀ c, ∃ x ∈ a :: b :: c :: rest, asmMain os (a :: b :: c :: rest) = .ok (.unhandled x)) ∧
    AsmEnd.help.status = 0 ∧ AsmEnd.missing.status = 1 ∧ ∀ x, (AsmEnd.unhandled x).status = 1 := by
  obtain ⟨h1, h2, h3⟩ := plain_ne ha
  have hno : ¬ (a = "-h".toList ∨ a = "--help".toList) := by simp only [not_or]; exact ⟨h2, h3⟩
  refine ⟨?_, ?_, ?_, rfl, rfl, ?_, rfl, rfl, fun _ => rfl⟩
  · unfold asmMain
    simp only
    rw [if_neg h1, if_neg hno]
    rfl
  · unfold asmMain
    simp only
    rw [if_neg (by decide), if_pos (Or.inl trivial)]
  · unfold asmMain
    simp only
    rw [if_neg (by decide), if_pos (Or.inr trivial)]
  · intro c
    unfold asmMain
    simp only
    rw [if_neg h1, if_neg hno]
    unfold asmSwitch
    have hl : (a :: b :: c :: rest).length = rest.length + 3 := rfl
    rw [hl, if_neg (by omega), if_neg (by omega), if_neg (by omega)]
    have hlt : rest.length + 3 - 2 < (a :: b :: c :: rest).length := by rw [hl]; omega
    rw [List.getElem?_eq_getElem hlt]
    exact ⟨_, List.getElem_mem hlt, rfl⟩

/-- A file that cannot be opened is reported with status 1. -/
theorem C75_unreadable_reported (os : Str → Opened) (a b : Str) (ha : Plain a) (h : os a = .failed) :
    asmMain os [a, b] = .ok (.cannotOpen a) ∧ (AsmEnd.cannotOpen a).status = 1 := by
  refine ⟨?_, rfl⟩
  rw [(C75_command_line_partial os a b [] ha).1]
  unfold asmRun
  simp only [h, inputOpen]

example : Plain "x.wast".toList := by
  intro c t e
  have : "x.wast".toList = ['x', '.', 'w', 'a', 's', 't'] := by decide
  rw [this] at e
  injection e with e
  rw [← e]
  decide

/-! ## C76 what the assembler says of a file -/

/-- **C76**, full statement: `ab-asm <abt> <abx>` on a readable file prints the listing of its tokens and ends with status 0 if all of the file could be
read, and ends with another status if something in it could not. -/
def C76_full : Prop :=
  ∀ (os : Str → Opened) (a b : Str) (ls : List Lexeme) (rest : List Char), Plain a → Readable os a (write ls ++ rest) →
    (write ls ++ rest).length < 2147483647 → Proper ls →
    (rest = [] → asmMain os [a, b] = .ok (.done (listing ls))) ∧
    (Unreadable rest → ∀ e, asmMain os [a, b] = .ok e → e.status ≠ 0)

/-- **C76**, exactly what happens for every readable file below two gigabytes: the listing of the lexemes up to the first thing that cannot be
read, status 0. -/
theorem C76_listing_partial (os : Str → Opened) (a b : Str) (bytes : List Char) (ha : Plain a) (hr : Readable os a bytes)
    (hn : bytes.length < 2147483647) :
    ∃ ls rest, bytes = write ls ++ rest ∧ Proper ls ∧ (rest = [] ∨ Unreadable rest) ∧
      asmMain os [a, b] = .ok (.done (listing ls)) ∧ (AsmEnd.done (listing ls)).status = 0 := by
  obtain ⟨ls, rest, e, hp, hu⟩ := Wast.split_exists bytes
  refine ⟨ls, rest, e, hp, hu, ?_, rfl⟩
  rw [(C75_command_line_partial os a b [] ha).1]
  unfold asmRun
  simp only
  rw [inputOpen_readable hr]
  simp only
  rw [go_eq hp hu e hn]
  rfl

/-- **C76**, what holds: the listing of a file that can be read completely.
Missing: files with something unreadable in them. -/
theorem C76_complete_files_partial (os : Str → Opened) (a b : Str) (ls : List Lexeme) (ha : Plain a) (hr : Readable os a (write ls))
    (hn : (write ls).length < 2147483647) (hp : Proper ls) :
    asmMain os [a, b] = .ok (.done (listing ls)) := by
  rw [(C75_command_line_partial os a b [] ha).1]
  unfold asmRun
  simp only
  rw [inputOpen_readable hr]
  simp only
  rw [go_eq hp (Or.inl rfl) (List.append_nil _).symm hn]
  rfl

/-- **C76 is false of the code**: a file with a comment is not read completely, with status 0. -/
theorem C76_negation : ¬ C76_full := by
  intro h
  have ha : Plain ['a'] := by intro c t e; injection e with e; rw [← e]; decide
  have hr : Readable (fun _ => .file 3 [';'] true true) ['a'] (write [] ++ [';']) := ⟨⟨3, rfl, by decide⟩, by decide⟩
  have h2 := (h (fun _ => .file 3 [';'] true true) ['a'] ['b'] [] [';'] ha hr (by decide) trivial).2 (Wast.semicolon_unreadable [])
  obtain ⟨ls, rest, _, _, _, e, hs⟩ := C76_listing_partial (fun _ => .file 3 [';'] true true) ['a'] ['b'] _ ha hr (by decide)
  exact h2 _ e hs

/-- An empty file, which is a sequence of no lexemes, is reported as one that cannot be opened. -/
theorem C76_empty_file (os : Str → Opened) (a b : Str) (fd : Nat) (s m : Bool) (ha : Plain a) (h : os a = .file fd [] s m) :
    asmMain os [a, b] = .ok (.cannotOpen a) := by
  rw [(C75_command_line_partial os a b [] ha).1]
  unfold asmRun inputOpen
  simp only [h, true_or, if_true]
  split
  · rename_i x; revert x; split <;> simp
  · rename_i x; revert x; split
    · simp
    · split <;> simp

/-- A file opened on descriptor 0, as when the standard input is closed, is reported as one that cannot be opened; on any other it is
not. -/
theorem C76_descriptor_zero (os : Str → Opened) (a b : Str) (fd : Nat) (bytes : List Char) (ha : Plain a) (hb : bytes ≠ [])
    (h : os a = .file fd bytes true true) : asmMain os [a, b] = .ok (.cannotOpen a) ↔ fd = 0 := by
  rw [(C75_command_line_partial os a b [] ha).1]
  unfold asmRun
  simp only [h, inputOpen]
  by_cases hf : fd < 1
  · simp only [hf, if_true]
    exact ⟨fun _ => by omega, fun _ => trivial⟩
  · simp only [hf, if_false, not_true, hb, or_false]
    constructor
    · intro e
      exfalso; revert e
      cases go bytes <;> simp [Bind.bind, Outcome.bind]
    · omega

example : Readable (fun _ => .file 3 (write Wast.exLexemes) true true) ['a'] (write Wast.exLexemes) :=
  ⟨⟨3, rfl, by decide⟩, by decide⟩

/-! ## C77 running a module -/

/-- **C77**, full statement: `ab-run [--] <abx>` runs the module; anything else is answered with the usage or an error. -/
def C77_full : Prop :=
  ∀ (a b : Str) (rest : List Str),
    (Plain a → runMain [a] = .ok .ran) ∧ runMain ["--".toList, a] = .ok .ran ∧
    runMain ("--help".toList :: rest) = .ok .help ∧ runMain ("-h".toList :: rest) = .ok .help ∧
    runMain [] = .ok .missing ∧ (Plain a → runMain (a :: b :: rest) = .ok (.unexpected b))

/-- **C77 is false of the code**: no module is ever run – the process is ended, whatever the file. -/
theorem C77_negation (a : Str) (ha : Plain a) : runMain [a] = .trap "Unimplemented function called" ∧
    runMain ["--".toList, a] = .trap "Unimplemented function called" ∧ ¬ C77_full := by
  have h1 : runMain [a] = .trap "Unimplemented function called" := by
    obtain ⟨x, y, z⟩ := plain_ne ha
    unfold runMain
    simp only
    rw [if_neg x, if_neg (by simp only [not_or]; exact ⟨z, y⟩), if_neg]
    · rfl
    · cases a with
      | nil => simp
      | cons c t => simp only [List.head?_cons, Option.some.injEq]; exact ha c t rfl
  refine ⟨h1, rfl, ?_⟩
  intro h
  rw [(h a [] []).1 ha] at h1
  cases h1

/-- No command line makes `ab-run` run anything. -/
theorem C77_nothing_is_run (args : List Str) : runMain args ≠ .ok .ran := by
  have hs : ∀ l, runSwitch l ≠ .ok .ran := by
    intro l
    match l with
    | [] => simp [runSwitch]
    | [f] => simp [runSwitch, runFile]
    | _ :: _ :: _ => simp [runSwitch]
  unfold runMain
  split
  · exact hs _
  · split
    · exact hs _
    · split
      · simp
      · split
        · simp
        · exact hs _

/-- **C77**, what holds: the rest of the command line.
Missing: running a module. -/
theorem C77_command_line_partial (a b : Str) (rest : List Str) :
    runMain ("--help".toList :: rest) = .ok .help ∧ runMain ("-h".toList :: rest) = .ok .help ∧
    runMain [] = .ok .missing ∧ runMain ["--".toList] = .ok .missing ∧
    (Plain a → runMain (a :: b :: rest) = .ok (.unexpected b)) ∧
    runMain ("--".toList :: a :: b :: rest) = .ok (.unexpected b) ∧
    (∀ o t, o = '-' :: t → o ≠ "--".toList → o ≠ "-h".toList → o ≠ "--help".toList → runMain (o :: rest) = .ok (.badOption o)) := by
  refine ⟨?_, ?_, rfl, rfl, ?_, rfl, ?_⟩
  · unfold runMain
    simp only
    rw [if_neg (by decide), if_pos (Or.inl trivial)]
  · unfold runMain
    simp only
    rw [if_neg (by decide), if_pos (Or.inr trivial)]
  · intro ha
    obtain ⟨x, y, z⟩ := plain_ne ha
    unfold runMain
    simp only
    rw [if_neg x, if_neg (by simp only [not_or]; exact ⟨z, y⟩), if_neg]
    · rfl
    · cases a with
      | nil => simp
      | cons c t => simp only [List.head?_cons, Option.some.injEq]; exact ha c t rfl
  · intro o t ho h1 h2 h3
    unfold runMain
    simp only
    rw [if_neg h1, if_neg (by simp only [not_or]; exact ⟨h3, h2⟩), if_pos (by rw [ho]; rfl)]

/-- End to end: whenever `ab run <file>` finds and starts `ab-run`, the process is ended without running anything. -/
theorem C77_ab_run_never_runs (w : Driver.World) (file : Str) (bin : Str) (argv : List Str) (hf : Plain file)
    (h : Driver.main w ["run".toList, file] = .ok (.became bin argv)) :
    argv = ["run".toList, file] ∧ runMain argv.tail = .trap "Unimplemented function called" := by
  have hm : Driver.main w ["run".toList, file] = Driver.runCmd w "run".toList ["run".toList, file] := by
    unfold Driver.main
    simp only
    rw [if_neg (by decide), if_neg (by decide), if_neg (by decide), if_neg (by decide)]
  rw [hm] at h
  unfold Driver.runCmd at h
  obtain ⟨s, _, h⟩ := Outcome.bind_eq_ok.1 h
  have hargv : argv = ["run".toList, file] := by
    cases s with
    | none => cases h
    | some b =>
      simp only at h
      split at h
      · cases h; rfl
      · cases h
  refine ⟨hargv, ?_⟩
  rw [hargv]
  exact (C77_negation file hf).1

/-! ### C94 -/

theorem became_argv {w : Driver.World} {cmd : Str} {args argv : List Str} {bin : Str} (h : Driver.runCmd w cmd args = .ok (.became bin argv)) :
    Driver.findCmd w cmd = .ok (some bin) ∧ w.exec bin = true ∧ argv = args := by
  unfold Driver.runCmd at h
  obtain ⟨s, hs, h⟩ := Outcome.bind_eq_ok.1 h
  cases s with
  | none => cases h
  | some b =>
    simp only at h
    split at h
    · rename_i hx
      cases h; exact ⟨hs, hx, rfl⟩
    · cases h

/-- C94: whenever `ab help …` finds and starts `ab-help`, it prints the help text when no more is said; becomes `man` on the page named, or says that
`man` cannot be started, when one word follows; and refuses more. Missing: the command after `--`. -/
theorem C94_help_partial (w : Driver.World) (exec : Bool) (args : List Str) (bin : Str) (argv : List Str)
    (h : Driver.main w ("help".toList :: args) = .ok (.became bin argv)) :
    Driver.findCmd w "help".toList = .ok (some bin) ∧ w.exec bin = true ∧
    (args = [] → helpMain exec argv.tail = .text) ∧
    (∀ page, args = [page] → (exec = true → helpMain exec argv.tail = .man page) ∧ (exec = false → helpMain exec argv.tail = .noMan)) ∧
    (∀ a b rest, args = a :: b :: rest → helpMain exec argv.tail = .tooMany) := by
  have hm : Driver.main w ("help".toList :: args) = Driver.runCmd w "help".toList ("help".toList :: args) := by
    unfold Driver.main
    simp only
    rw [if_neg (by decide), if_neg (by decide), if_neg (by decide), if_neg (by decide)]
  rw [hm] at h
  obtain ⟨h1, h2, h3⟩ := became_argv h
  subst h3
  refine ⟨h1, h2, ?_, ?_, ?_⟩
  · rintro rfl; rfl
  · rintro page rfl
    constructor <;> (rintro rfl; rfl)
  · rintro a b rest rfl; rfl

/-- C94 fails: `ab -- help run`, which the usage message allows, refuses to show the page. -/
theorem C94_negation (w : Driver.World) (exec : Bool) (page : Str) (bin : Str) (argv : List Str)
    (h : Driver.main w ["--".toList, "help".toList, page] = .ok (.became bin argv)) : helpMain exec argv.tail = .tooMany := by
  have hm : Driver.main w ["--".toList, "help".toList, page] = Driver.runCmd w "help".toList ["--".toList, "help".toList, page] := by
    unfold Driver.main
    simp only
    rw [if_neg (by decide), if_neg (by decide), if_pos trivial]
  rw [hm] at h
  obtain ⟨-, -, h3⟩ := became_argv h
  subst h3
  rfl

/-- A world with `ab-help` in it. -/
def helpWorld : Driver.World where
  abPath := none
  abHome := none
  path := some "/b".toList
  dir := fun d => if d = "/b".toList then .names ["ab-help".toList] else .absent
  exec := fun _ => true

example : Driver.main helpWorld ["help".toList, "run".toList] = .ok (.became "/b/ab-help".toList ["help".toList, "run".toList]) ∧
    Driver.main helpWorld ["--".toList, "help".toList, "run".toList] =
      .ok (.became "/b/ab-help".toList ["--".toList, "help".toList, "run".toList]) := by
  decide +kernel

end Ab.Tools
