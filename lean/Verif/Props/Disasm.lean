import Verif.Proof.Disasm
import Verif.Props.Wasm
/-! C64: the disassembler's command line; C65: disassembling code; C66: the text; C67: reading ends. -/
namespace Ab.Wasm
open Sexpr Spec Spec.Wasm Spec.Disasm

/-! ### C64 -/

/-- An option. -/
inductive Opt
  | output (file : String)
  | debug
  | verbose

/-- How options are written. -/
inductive Written : List String → List Opt → Prop
  | nil : Written [] []
  | output {l os} (file : String) : Written l os → Written ("-o" :: file :: l) (.output file :: os)
  | debug {l os} (a : String) : a = "-d" ∨ a = "--debug" → Written l os → Written (a :: l) (.debug :: os)
  | verbose {l os} (a : String) : a = "-v" ∨ a = "--verbose" → Written l os → Written (a :: l) (.verbose :: os)

/-- What options ask for; the last output file counts. -/
def Opt.apply (c : Config) : Opt → Config
  | .output f => { c with output := some f }
  | .debug => { c with debug := true }
  | .verbose => { c with verbose := true }

theorem parseFlags_written {l : List String} {os : List Opt} (h : Written l os) (c : Config) (rest : List String) :
    parseFlags c (l ++ rest) = parseFlags (os.foldl Opt.apply c) rest := by
  induction h generalizing c with
  | nil => rfl
  | output file _ ih =>
    rw [List.cons_append, List.cons_append, parseFlags]
    simp only [true_or, if_true]
    rw [ih]
    rfl
  | debug a ha _ ih =>
    rw [List.cons_append, parseFlags.eq_def]
    rcases ha with rfl | rfl <;> simp [ih, Opt.apply]
  | verbose a ha _ ih =>
    rw [List.cons_append, parseFlags.eq_def]
    rcases ha with rfl | rfl <;> simp [ih, Opt.apply]

/-- C64: any options, then `--` or nothing, then an input file or nothing, are understood: the files and
switches are those asked for. A file not after `--` must not begin with a dash. Missing: `--output` and a `-o`
with no file (see `C64_negation`). -/
theorem C64_options_partial (l : List String) (os : List Opt) (h : Written l os) :
    parseArguments l = .ok (.config (os.foldl Opt.apply {})) ∧
    parseArguments (l ++ ["--"]) = .ok (.config (os.foldl Opt.apply {})) ∧
    (∀ file, parseArguments (l ++ ["--", file]) = .ok (.config { os.foldl Opt.apply {} with input := some file })) ∧
    (∀ file : String, file.toList.head? ≠ some '-' →
      parseArguments (l ++ [file]) = .ok (.config { os.foldl Opt.apply {} with input := some file })) := by
  unfold parseArguments
  refine ⟨?_, ?_, ?_, ?_⟩
  · have := parseFlags_written h {} []
    rw [List.append_nil] at this
    rw [this, parseFlags]
  · rw [parseFlags_written h, parseFlags]
    simp [positional]
  · intro file
    rw [parseFlags_written h, parseFlags]
    simp [positional]
  · intro file hf
    rw [parseFlags_written h, parseFlags]
    have ne : ∀ s : String, s.toList.head? = some '-' → file ≠ s := by
      rintro s hs rfl
      exact hf hs
    simp [ne "-o" (by decide), ne "--ouput" (by decide), ne "-h" (by decide), ne "--help" (by decide),
      ne "--version" (by decide), ne "--debug" (by decide), ne "-d" (by decide), ne "--verbose" (by decide), ne "-v" (by decide),
      ne "--" (by decide), positional]

/-- C64, help: after any options, help and the version are recognised, whatever follows. -/
theorem C64_help_partial (l : List String) (os : List Opt) (h : Written l os) (rest : List String) :
    parseArguments (l ++ "-h" :: rest) = .ok .usage ∧ parseArguments (l ++ "--help" :: rest) = .ok .usage ∧
    parseArguments (l ++ "--version" :: rest) = .ok .version := by
  unfold parseArguments
  refine ⟨?_, ?_, ?_⟩ <;> rw [parseFlags_written h, parseFlags.eq_def] <;> simp

example : Written ["-v", "-o", "x.wat", "--debug"] [.verbose, .output "x.wat", .debug] :=
  .verbose _ (Or.inl rfl) (.output _ (.debug _ (Or.inr rfl) .nil))

/-- C64 fails: the long form of -o is misspelt, so that `--output out.wat in.wasm` is taken for an input file
of that name, the rest dropped; and -o with nothing after it is undefined behaviour. -/
theorem C64_negation :
    parseArguments ["--output", "out.wat", "in.wasm"] = .ok (.config { input := some "--output" }) ∧
    parseArguments ["--ouput", "out.wat", "in.wasm"] = .ok (.config { input := some "in.wasm", output := some "out.wat" }) ∧
    (parseArguments ["-o"]).isUb = true ∧
    (∀ l os, Written l os → (parseArguments (l ++ ["-o"])).isUb = true) := by
  refine ⟨rfl, rfl, rfl, ?_⟩
  intro l os h
  unfold parseArguments
  rw [parseFlags_written h]
  rfl

/-! ### C65 -/

/-- The printer on function bodies, in none of which it keeps its part of the protocol. -/
theorem printer_reads (mem : Nat) (verbose : Bool) :
    ReadsBodies (wastPrinter mem verbose) (fun p _ _ _ => .ok p) (fun _ _ => False) :=
  fun _ _ _ _ _ _ h => h.elim

/-- Handed a body whose instructions are all that is left, the printer does not return: its count starts
after the locals, and so it wants more bytes than there are. -/
theorem printer_overreads (mem : Nat) (p : Printer) (k : Nat) (b : FunctionBody) (code : List Byte) (off : Nat)
    (h : code.length < b.size.toNat) : (Printer.body mem p k b (good code off)).isOk = false := by
  unfold Printer.body
  simp only
  split
  · rfl
  · rename_i t _
    have key : ∀ f : Formatter, ∀ x, readExprs mem printExpr (good code off).offset b.size.toNat ((good code off).rest.length + 1) ⟨f, 0⟩ (good code off) ≠ .ok x := by
      intro f x hx
      have h1 := readExprs_size mem _ _ _ _ _ _ _ hx
      have h2 := ((readExprs_fine mem printExpr_returns _ _ _ _ _ (Nat.le_refl _)).2 _ _ hx).1
      simp only at h1 h2
      omega
    revert key
    generalize (putBody _ b) = f
    intro key
    have := key f
    cases hx : readExprs mem printExpr (good code off).offset b.size.toNat ((good code off).rest.length + 1) ⟨f, 0⟩ (good code off) with
    | ok x => exact absurd hx (this x)
    | _ => rfl

/-- C65 fails, for every module: when the last section is a code section with one function, whatever the
function and the sections before, the disassembler prints nothing: it throws, ends the process, or its
behaviour is undefined. -/
theorem C65_negation (mem : Nat) (verbose : Bool) (bytes : List Byte) (m : List WSection) (f : Function) (len : U32)
    (h : EncModule NotLongNegative bytes (m ++ [⟨.code [f], len⟩]))
    (hm : ∀ s ∈ m, Readable (fun _ _ => False) s.content) (hmem : 8 * bytes.length ≤ mem) :
    (dump mem verbose bytes).isOk = false := by
  obtain ⟨cs, rfl, hs⟩ := h
  obtain ⟨as, bs, rfl, ha, hb⟩ : ∃ as bs, cs = as ++ bs ∧ EncSeq (EncSection NotLongNegative) as m ∧
      EncSeq (EncSection NotLongNegative) bs [⟨.code [f], len⟩] := by
    clear hm hmem
    induction m generalizing cs with
    | nil => exact ⟨[], cs, rfl, .nil, hs⟩
    | cons x m ih =>
      cases hs with
      | @cons ds _ es _ hx hs =>
        obtain ⟨as, bs, rfl, h1, h2⟩ := ih es hs
        exact ⟨ds ++ as, bs, by simp, .cons hx h1, h2⟩
  simp only [List.length_append, List.length_cons, List.length_nil] at hmem
  cases hb with
  | @cons ds _ es _ hx hs =>
  cases hs
  obtain ⟨n, q, rfl, hn, hq, hv⟩ := hx
  obtain ⟨c, fs, rfl, hlt, hc, hfs⟩ := hv
  cases hfs with
  | @cons gs _ hs _ hg hh =>
  cases hh
  obtain ⟨sz, ls, rfl, hsz, hsize, hls⟩ := hg
  have hlen := encVec_pos hls
  simp only [List.append_nil] at *
  -- everything but `ok` from the section
  have nok : ∀ (s : Printer) (off : Nat), ∀ x, «section» (wastPrinter mem verbose) 10#8 s (good (n ++ (c ++ (sz ++ (ls ++ f.code)))) off) ≠ .ok x := by
    intro s off x hx
    unfold «section» at hx
    rw [reads_u32 hn] at hx
    simp only [Outcome.ok_bind] at hx
    unfold sectionName at hx
    rw [if_neg (by decide)] at hx
    simp only [Outcome.ok_bind, set32_64] at hx
    cases hs : (wastPrinter mem verbose).event s (.sectionStart ⟨10#8, len, []⟩) with
    | ok s =>
      rw [hs] at hx
      simp only [Outcome.ok_bind] at hx
      rw [show sectionBody (wastPrinter mem verbose) ⟨10#8, len, []⟩ s =
        codeSection (wastPrinter mem verbose) s from rfl] at hx
      unfold codeSection at hx
      rw [reads_u32 hc] at hx
      simp only [Outcome.ok_bind] at hx
      rw [show ((BitVec.setWidth 64 (BitVec.ofNat 32 [f].length)).toNat) = 0 + 1 from rfl, rounds] at hx
      unfold bodyRound at hx
      rw [reads_u32 hsz] at hx
      simp only [Outcome.ok_bind, set32_64] at hx
      obtain ⟨lc, lb, rfl, hlt2, hlc, hlb⟩ := hls
      have hcount : lb.length ≥ f.locals.length := encSeq_length hlb (fun bs l h => by
        obtain ⟨n, rfl, hn⟩ := h
        simp)
      rw [List.append_assoc, reads_count hlt2 hlc] at hx
      simp only [Outcome.ok_bind] at hx
      rw [count_toNat hlt2, if_neg (by
        simp only [wastPrinter]
        simp only [List.length_append, List.length_cons] at hmem
        omega)] at hx
      have ht : Reads (times localEntry f.locals.length) lb f.locals := by
        have := reads_times (f := localEntry) (g := id) hlb (fun bs l _ h => reads_local h)
        simpa using this
      rw [ht] at hx
      simp only [Outcome.ok_bind] at hx
      have hov := printer_overreads mem s 0 ⟨f.size, f.locals⟩ f.code (off + n.length + c.length + sz.length + lc.length + lb.length) (by
        simp only [List.length_append] at hsize hlen
        show f.code.length < f.size.toNat
        omega)
      rw [show (wastPrinter mem verbose).body = Printer.body mem from rfl] at hx
      cases hb : Printer.body mem s 0 ⟨f.size, f.locals⟩ (good f.code (off + n.length + c.length + sz.length + lc.length + lb.length)) with
      | ok y => rw [hb] at hov; cases hov
      | _ => rw [hb] at hx; cases hx
    | _ => rw [hs] at hx; cases hx
  unfold dump readModule
  cases hev : (wastPrinter mem verbose).event Printer.new .moduleStart with
  | ok s =>
    simp only [Outcome.ok_bind]
    have hh := header_good (wastPrinter mem verbose) s (as ++ ((Content.code [f]).code' :: (n ++ (c ++ (sz ++ (ls ++ f.code))))))
    simp only [In.start]
    rw [show (⟨_, false, false, 0⟩ : In) = good _ 0 from rfl, hh]
    cases (wastPrinter mem verbose).event s (.header 0x6d736100#32 1#32) with
    | ok s =>
      simp only [Outcome.ok_bind]
      obtain ⟨fuel', hle, he⟩ := sections_seq (wastPrinter mem verbose) _ (printer_reads mem verbose) ha hm (by
          simp only [wastPrinter]; omega)
        (([0x00#8, 0x61#8, 0x73#8, 0x6d#8, 0x01#8, 0x00#8, 0x00#8, 0x00#8] ++
          (as ++ ((Content.code [f]).code' :: (n ++ (c ++ (sz ++ (ls ++ f.code))))))).length + 2) s
        ((Content.code [f]).code' :: (n ++ (c ++ (sz ++ (ls ++ f.code))))) 8 (by simp; omega)
      rw [he]
      cases tell (wastPrinter mem verbose) (fun p _ _ _ => .ok p) s (m.flatMap sectionCalls) with
      | ok s =>
        simp only [Outcome.ok_bind]
        simp only [List.length_cons, List.length_append] at hle
        obtain ⟨fu, rfl⟩ : ∃ f, fuel' = f + 1 := ⟨fuel' - 1, by omega⟩
        rw [sections, if_neg (by simp), show ∀ l : List Byte, (Content.code [f]).code' :: l = [10#8] ++ l from fun _ => rfl,
          reads_digit _ (by decide)]
        simp only [Outcome.ok_bind]
        rw [if_neg (by simp), show ((BitVec.ofNat 64 (10#8 : Byte).toNat).setWidth 8 : Byte) = 10#8 from rfl]
        cases hsec : «section» (wastPrinter mem verbose) 10#8 s (good (n ++ (c ++ (sz ++ (ls ++ f.code)))) (8 + as.length + [10#8].length)) with
        | ok x => exact absurd hsec (nok _ _ _)
        | _ => rfl
      | _ => rfl
    | _ => rfl
  | _ => rfl

/-- The module with one function that takes nothing, returns nothing and does nothing is such a module; the
disassembler ends the process. -/
theorem C65_example_negation :
    EncModule NotLongNegative (hdr ++ [1, 4, 1, 0x60, 0, 0, 3, 2, 1, 0, 10, 4, 1, 2, 0, 0x0b])
      ([⟨.types [⟨[], false, 0x40⟩], 4⟩, ⟨.functions [0], 2⟩] ++ [⟨.code [⟨[], [0x0b], 2⟩], 4⟩]) ∧
    dump 1000 false (hdr ++ [1, 4, 1, 0x60, 0, 0, 3, 2, 1, 0, 10, 4, 1, 2, 0, 0x0b]) = .trap "exit(-1)" := by
  refine ⟨⟨_, rfl, ?_⟩, by decide +kernel⟩
  refine .cons (bs := [1, 4, 1, 0x60, 0, 0]) ⟨[4], [1, 0x60, 0, 0], rfl, encU32_digit 4 (by decide), rfl, ?_⟩ ?_
  · exact encVec_cons (.cons (bs := [0x60, 0, 0]) (.void (bs := [0]) (encVec_bytes (s := []) 0 rfl (by decide))) .nil) 1 rfl (by decide)
  refine .cons (bs := [3, 2, 1, 0]) ⟨[2], [1, 0], rfl, encU32_digit 2 (by decide), rfl, ?_⟩ ?_
  · exact encVec_cons (.cons (bs := [0]) (encU32_digit 0 (by decide)) .nil) 1 rfl (by decide)
  refine .cons (bs := [10, 4, 1, 2, 0, 0x0b]) ⟨[4], [1, 2, 0, 0x0b], rfl, encU32_digit 4 (by decide), rfl, ?_⟩ .nil
  exact encVec_cons (.cons (bs := [2, 0, 0x0b]) ⟨[2], [0], rfl, encU32_digit 2 (by decide), rfl,
    encVec_cons .nil 0 rfl (by decide)⟩ .nil) 1 rfl (by decide)

/-! ### C66 -/

/-- C66: the disassembly of any module of version 1 without function bodies is its entries, one a line, in
order; nothing else is printed. Missing: numbers, which appear as the character whose code is their last eight
bits, not in decimal (see `C66_negation`); and as for C62 table, memory and start sections, custom sections
before the end, names with zero bytes, long negative constants. -/
theorem C66_text_partial (mem : Nat) (bytes : List Byte) (m last : List WSection) (h : EncModule NotLongNegative bytes (m ++ last))
    (hm : ∀ s ∈ m, Readable (fun _ _ => False) s.content)
    (hl : last = [] ∨ ∃ name payload len, last = [⟨.custom name payload, len⟩] ∧ NoNul name)
    (hmem : 8 * bytes.length ≤ mem) :
    dump mem false bytes = .ok ⟨[], text asCharacter (m ++ last)⟩ := by
  have hC := C62_module_partial (wastPrinter mem false) _ _ (printer_reads mem false) bytes m last h hm hl hmem Printer.new
  obtain ⟨cs, -, hs⟩ := h
  have hr : ∀ s ∈ m ++ last, Readable (fun _ _ => False) s.content ∨ ∃ n q, s.content = .custom n q := by
    intro s hs
    rcases List.mem_append.1 hs with hs | hs
    · exact Or.inl (hm s hs)
    · rcases hl with rfl | ⟨name, payload, len, rfl, -⟩
      · cases hs
      · rw [List.mem_singleton] at hs
        subst hs
        exact Or.inr ⟨_, _, rfl⟩
  obtain ⟨q, h1, h2⟩ := tell_sections mem (fun p _ _ _ => .ok p) hs hr ⟨⟨"(module".toList, 1, false, true⟩, [], []⟩ "(module".toList ⟨rfl, rfl⟩
  have ht : tell (wastPrinter mem false) (fun p _ _ _ => .ok p) Printer.new (moduleCalls (m ++ last)) =
      .ok { q with out := q.out.stop.freshen } := by
    unfold moduleCalls
    rw [List.append_assoc, List.cons_append, List.cons_append, List.nil_append]
    simp only [tell]
    rw [show (wastPrinter mem false).event = Printer.event false from rfl,
      show Printer.event false Printer.new .moduleStart = .ok ⟨⟨"(module".toList, 1, false, true⟩, [], []⟩ by decide +kernel]
    simp only [Outcome.ok_bind, Printer.event]
    rw [tell_append, h1]
    rfl
  rw [ht] at hC
  unfold dump
  have hfin : ∀ q : Printer, Inside q ("(module".toList ++ ((m ++ last).flatMap fun s => items asCharacter s.content).flatMap line) →
      (⟨q.console, q.out.stop.freshen.buffer⟩ : Dumped) = ⟨[], text asCharacter (m ++ last)⟩ := by
    intro q h2
    rw [h2.2, h2.1]
    unfold text Formatter.stop Formatter.freshen
    simp only [Bool.false_eq_true, if_false]
    rw [List.append_assoc, List.append_assoc, List.append_assoc]
    rfl
  revert hC
  generalize readModule (wastPrinter mem false) Printer.new bytes = o
  intro hC
  obtain ⟨x, hx⟩ : ∃ x, o = .ok x := by
    cases o with
    | ok x => exact ⟨x, rfl⟩
    | _ => exact absurd hC nofun
  subst hx
  have hq : x.1 = { q with out := q.out.stop.freshen } := by
    injection hC
  show Outcome.ok (⟨x.1.console, x.1.out.buffer⟩ : Dumped) = _
  rw [hq, ← hfin q h2]

theorem encModule_export (n : Byte) (hn : n.toNat < 128) :
    EncModule NotLongNegative (hdr ++ [7, 5, 1, 1, 0x66, 0, n]) ([⟨.exports [⟨[0x66], 0, n.setWidth 32⟩], 5⟩] ++ []) := by
  refine ⟨_, rfl, .cons (bs := [7, 5, 1, 1, 0x66, 0, n]) ⟨[5], [1, 1, 0x66, 0, n], rfl, encU32_digit 5 (by decide), rfl, ?_⟩ .nil⟩
  exact encVec_cons (.cons (bs := [1, 0x66, 0, n]) ⟨[1, 0x66], [n], rfl,
    encVec_bytes 1 rfl (by decide), encU32_digit n hn⟩ .nil) 1 rfl (by simp)

/-- A module that exports function 65 as "f": the number comes out as A. -/
example : dump 1000 false (hdr ++ [7, 5, 1, 1, 0x66, 0, 65]) = .ok ⟨[], "(module\n  (export \"f\" (func A)))\n".toList⟩ := by
  rw [C66_text_partial 1000 _ _ _ (encModule_export 65 (by decide)) (by simp [Readable, NoNul]) (Or.inl rfl) (by decide)]
  decide +kernel

/-- C66 fails: the text of a module that exports function 65 should show the number; two modules that export
different functions have the same text; and of the targets of a branch table only the default and the first
are printed. -/
theorem C66_negation :
    dump 1000 false (hdr ++ [7, 5, 1, 1, 0x66, 0, 65]) ≠ .ok ⟨[], text inDecimal [⟨.exports [⟨[0x66], 0, 65⟩], 5⟩]⟩ ∧
    dump 1000 false (hdr ++ [7, 6, 1, 1, 0x66, 0, 0x80, 2]) = dump 1000 false (hdr ++ [7, 5, 1, 1, 0x66, 0, 0]) ∧
    (∀ (f : Formatter) (t d : U32) (l l' : List U32),
      putExpr f ⟨0x0e, .table (t :: l) d⟩ = putExpr f ⟨0x0e, .table (t :: l') d⟩) := by
  refine ⟨by decide +kernel, by decide +kernel, fun f t d l l' => rfl⟩

/-! ### C67 -/

/-- C67: reading ends on every file, for every visitor whose callbacks return. -/
theorem C67_reading_ends_partial (V : Visitor σ) (hV : Returns V) (s : σ) (bytes : List Byte) : readModule V s bytes ≠ .fuel :=
  (readModule_fine hV s bytes).1

/-- C67: disassembling ends on every file. -/
theorem C67_disassembling_ends_partial (mem : Nat) (verbose : Bool) (bytes : List Byte) : dump mem verbose bytes ≠ .fuel := by
  have := (readModule_fine (printer_returns mem verbose) Printer.new bytes).1
  unfold dump
  cases h : readModule (wastPrinter mem verbose) Printer.new bytes with
  | fuel => exact absurd h this
  | _ => exact nofun

/-- No file makes the reader consume a byte twice, or one that is not there. -/
theorem C67_consumed_partial (V : Visitor σ) (hV : Returns V) (s t : σ) (bytes : List Byte) (i : In)
    (h : readModule V s bytes = .ok (t, i)) : i.offset + i.rest.length ≤ bytes.length := by
  have := ((readModule_fine hV s bytes).2 t i h).1
  simpa [In.start] using this

/-- A visitor that counts the calls. -/
def counter (mem : Nat) : Visitor Nat := ⟨mem, fun s _ => .ok (s + 1), fun s _ _ i => .ok (s + 1, i)⟩

theorem counter_returns (mem : Nat) : Returns (counter mem) := ⟨fun _ _ => nofun, fun _ _ _ i => Fine.ok (Later.refl i)⟩

example : readModule (counter 10) 0 (hdr ++ [3, 3, 2, 0, 1]) ≠ .fuel := C67_reading_ends_partial _ (counter_returns 10) _ _

theorem uleb_ended (o : Nat) : uleb ⟨[], true, true, o⟩ = .ok (0x7f#64, ⟨[], true, true, o⟩) := rfl

theorem count_ended (mem n k s o : Nat) :
    rounds (functionRound (counter mem)) n k s ⟨[], true, true, o⟩ = .ok (s + n, ⟨[], true, true, o⟩) := by
  induction n generalizing k s with
  | zero => rfl
  | succ n ih =>
    rw [rounds]
    have : functionRound (counter mem) k s ⟨[], true, true, o⟩ = .ok (s + 1, ⟨[], true, true, o⟩) := by
      unfold functionRound
      rw [uleb_ended]
      rfl
    rw [this]
    simp only [Outcome.ok_bind]
    rw [ih, Nat.add_assoc, Nat.add_comm 1]

/-- A function section with `n + 1` entries of which none is there. -/
theorem count_missing (mem : Nat) (s : Nat) (i : In) (c : U64) (o n : Nat) (h : uleb i = .ok (c, good [] o)) (hn : c.toNat = n + 1) :
    functionSection (counter mem) s i = .ok (s + 1 + n, ⟨[], true, true, o⟩) := by
  unfold functionSection
  rw [h]
  simp only [Outcome.ok_bind]
  rw [hn, rounds]
  have : functionRound (counter mem) 0 s (good [] o) = .ok (s + 1, ⟨[], true, true, o⟩) := rfl
  rw [this]
  simp only [Outcome.ok_bind]
  rw [count_ended]

/-- A module whose only section is such a function section. -/
theorem count_module (mem : Nat) (cs : List Byte) (c : U64) (o n : Nat) (h : uleb (good cs 10) = .ok (c, good [] o)) (hn : c.toNat = n + 1) :
    readModule (counter mem) 0 (hdr ++ 3 :: 0 :: cs) = .ok (n + 6, ⟨[], true, true, o⟩) := by
  unfold readModule
  have hh := header_good (counter mem) 1 (3 :: 0 :: cs)
  rw [show (counter mem).event 0 .moduleStart = .ok 1 from rfl]
  simp only [Outcome.ok_bind]
  rw [show In.start (hdr ++ 3 :: 0 :: cs) =
    good ([0x00#8, 0x61#8, 0x73#8, 0x6d#8, 0x01#8, 0x00#8, 0x00#8, 0x00#8] ++ 3 :: 0 :: cs) 0 from rfl, hh]
  rw [show (counter mem).event 1 (.header 0x6d736100#32 1#32) = .ok 2 from rfl]
  simp only [Outcome.ok_bind]
  rw [show (hdr ++ 3 :: 0 :: cs).length + 2 = (cs.length + 10) + 1 + 1 from by simp [hdr], sections, if_neg (by simp)]
  have e1 : uleb (good (3 :: 0 :: cs) 8) = .ok (3#64, good (0 :: cs) 9) := reads_digit 3 (by decide) (0 :: cs) 8
  have e2 : uleb (good (0 :: cs) 9) = .ok (0#64, good cs 10) := reads_digit 0 (by decide) cs 9
  rw [e1]
  simp only [Outcome.ok_bind]
  rw [if_neg (by simp), show (BitVec.setWidth 8 3#64) = 3#8 from rfl]
  unfold «section»
  rw [e2]
  simp only [Outcome.ok_bind]
  unfold sectionName
  rw [if_neg (by decide)]
  simp only [Outcome.ok_bind]
  rw [show ∀ x, (counter mem).event 2 x = .ok 3 from fun _ => rfl]
  simp only [Outcome.ok_bind]
  rw [show sectionBody (counter mem) ⟨3#8, BitVec.setWidth 32 0#64, []⟩ 3 = functionSection (counter mem) 3 from rfl]
  rw [count_missing mem 3 _ c o n h hn]
  simp only [Outcome.ok_bind]
  rw [show ∀ x y, (counter mem).event x y = .ok (x + 1) from fun _ _ => rfl]
  simp only [Outcome.ok_bind, Outcome.pure_eq]
  rw [sections, if_pos rfl]
  simp only [Outcome.ok_bind]
  rw [show ∀ x y, (counter mem).event x y = .ok (x + 1) from fun _ _ => rfl]
  simp only [Outcome.ok_bind]
  congr 2
  omega

/-- C67 fails: the work is not bounded by the size of the file. A file of twenty bytes makes the reader call
its visitor more than 2^64 times: the count of a section is believed whatever is left of the file. -/
theorem C67_negation (mem : Nat) :
    (hdr ++ [3, 0, 0xff, 0xff, 0xff, 0xff, 0xff, 0xff, 0xff, 0xff, 0xff, 1] : List Byte).length = 20 ∧
    ∃ calls i, 2^64 < calls ∧
      readModule (counter mem) 0 (hdr ++ [3, 0, 0xff, 0xff, 0xff, 0xff, 0xff, 0xff, 0xff, 0xff, 0xff, 1]) = .ok (calls, i) := by
  refine ⟨rfl, 18446744073709551614 + 6, ⟨[], true, true, 20⟩, by omega, ?_⟩
  exact count_module mem [0xff, 0xff, 0xff, 0xff, 0xff, 0xff, 0xff, 0xff, 0xff, 1] (BitVec.allOnes 64) 20 18446744073709551614
    (by decide +kernel) (by rw [BitVec.toNat_allOnes])

end Ab.Wasm
