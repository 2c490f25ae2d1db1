import Verif.Proof.Module5

/-!
Property theorems C06–C11: the module format (writer and loader).
-/

namespace Ab
open Spec

/-- A small module used in the examples: two types, two functions. -/
def exampleModule : WModule :=
  ⟨[⟨[I32, I32], [I32]⟩, ⟨[], []⟩], [0#32, 1#32],
    [⟨1#32, [0x6a#8, 2#8, 0#8, 1#8, 0x0d#8, 2#8]⟩, ⟨0#32, [0x01#8, 0x0c#8]⟩]⟩

/-! ## C06 write / compile round trip -/

/-- **C06.** Compiling the bytes of a written module succeeds and gives back the types, the declarations,
the register counts, and for every function a body pointer at exactly its instruction bytes. -/
theorem C06_write_compile_roundtrip (wm : WModule) (hwf : WellFormed wm) (hfit : Fits wm) :
    ∃ lm, compile (writeModule wm) = .ok lm ∧ Loaded wm (writeModule wm) lm :=
  compile_write wm hwf hfit

example : WellFormed exampleModule ∧ Fits exampleModule :=
  ⟨⟨rfl, by simp [exampleModule]⟩, by decide +kernel⟩

/-! ## C07 total and memory safe -/

/-- **C07.** On any byte string `compile` terminates (the fuel is never used up) and never reads outside
the string (no undefined behaviour): it returns a module, raises an exception, or ends the process. -/
theorem C07_compile_total_and_safe (bs : List Byte) :
    (∃ lm, compile bs = .ok lm) ∨ (∃ m, compile bs = .throw m) ∨ (∃ w, compile bs = .trap w) := by
  have hnot : (∀ w, compile bs ≠ .ub w) ∧ compile bs ≠ .fuel := by
    unfold compile
    rcases readHeader_cases bs with ⟨e, hl⟩ | ⟨m, e⟩ <;> rw [e]
    · exact compileLoop_safe bs (bs.length + 1) Module.empty 8 hl (by omega)
    · simp
  cases h : compile bs with
  | ok lm => exact Or.inl ⟨lm, rfl⟩
  | throw m => exact Or.inr (Or.inl ⟨m, rfl⟩)
  | trap w => exact Or.inr (Or.inr ⟨w, rfl⟩)
  | ub w => exact absurd h (hnot.1 w)
  | fuel => exact absurd h hnot.2

/-- **C07.** Whenever a module is returned, every function's body lies inside the bytes and the function
carries the type its declaration names, with that type's register counts. -/
theorem C07_loaded_functions_sound (bs : List Byte) (lm : Module) (h : compile bs = .ok lm) :
    FuncsSound bs lm :=
  compileLoop_sound (funcsSound_empty bs) (compile_ok_header h).2.2

example : (compile (writeModule exampleModule)).isOk = true := by decide +kernel

/-! ## C08 malformed input is an exception, not an abort -/

/-- **C08**, full statement. -/
def C08_full : Prop := ∀ (bs : List Byte) (w : String), compile bs ≠ .trap w

/-- **C08 is false of the code**: an (empty) import section ends the process. -/
theorem C08_negation : ¬ C08_full := by
  intro h
  exact h (header ++ [0x02#8, 0x00#8]) "AB_ASSERT_UNREACHABLE: unhandled section" (by decide +kernel)

/-- How it fails, 1: any accepted file followed by a section with one of the legal codes 0, 2, 4–9, 11 ends
the process. -/
theorem C08_unsupported_section_aborts (bs : List Byte) (lm : Module) (h : compile bs = .ok lm)
    (c : Byte) (hc : c.toNat ≤ 11) (h1 : c ≠ 1#8) (h3 : c ≠ 3#8) (ha : c ≠ 10#8) (size : U32)
    (rest : List Byte) :
    ∃ w, compile (bs ++ (c :: appendVaruint32 size) ++ rest) = .trap w := by
  obtain ⟨k, _, e⟩ := compile_extend ((c :: appendVaruint32 size) ++ rest) h
  rw [List.append_assoc, e, compileLoop, if_neg (by simp)]
  have hat : At (bs ++ (c :: appendVaruint32 size ++ rest)) bs.length ([c] ++ appendVaruint32 size) :=
    ⟨bs, rest, by simp, rfl⟩
  have hsz := hat.right
  simp only [List.length_singleton] at hsz
  rw [decodeSection_head hat.left (by rw [BitVec.lt_def]; simp [SEC_LAST]; omega) hsz,
    if_neg (show ¬ c = SEC_TYPE from h1), if_neg (show ¬ c = SEC_FUNC from h3),
    if_neg (show ¬ c = SEC_CODE from ha)]
  exact ⟨_, rfl⟩

/-- How it fails, 2: a written module with a declaration naming a type that does not exist ends the process. -/
theorem C08_bad_type_index_aborts (wm : WModule) (hcount : wm.funcs.length = wm.codes.length)
    (hfit : Fits wm) (hbad : ∃ ti ∈ wm.funcs, wm.types.length ≤ ti.toNat) :
    ∃ w, compile (writeModule wm) = .trap w :=
  compile_bad_type wm hcount hfit hbad

example : ∃ wm : WModule, wm.funcs.length = wm.codes.length ∧ Fits wm ∧
    (∃ ti ∈ wm.funcs, wm.types.length ≤ ti.toNat) :=
  ⟨⟨[], [7#32], [⟨0#32, [0x0c#8]⟩]⟩, rfl, by decide +kernel, 7#32, by simp, by simp⟩

/-- How it fails, 3: a code entry whose size runs past the end of the file. -/
theorem C08_entry_past_end_aborts :
    compile (header ++ [0x01#8, 0x04#8, 0x01#8, 0x60#8, 0x00#8, 0x00#8] ++ [0x03#8, 0x02#8, 0x01#8, 0x00#8]
      ++ [0x0a#8, 0x03#8, 0x01#8, 0x7f#8, 0x00#8])
    = .trap "AB_ASSERT(begin() <= p && p <= end())" := by decide +kernel

/-- **C08**, what holds: the process ends only at a section that is neither a type nor a function section,
after a header and correctly sized sections; so a file made of type and function sections (whatever their
content, and whatever garbage follows with an illegal code) never ends the process.
Missing: the code section (see the three theorems above for how it and the unsupported sections fail). -/
theorem C08_aborts_only_at_other_sections_partial (bs : List Byte) (w : String)
    (h : compile bs = .trap w) :
    ∃ ss c t, bs = header ++ sectionsBytes ss ++ c :: t ∧ c.toNat ≤ 11 ∧ c ≠ 1#8 ∧ c ≠ 3#8 := by
  unfold compile at h
  rcases readHeader_cases bs with ⟨e, hl⟩ | ⟨m, e⟩
  · obtain ⟨_, _, hb⟩ := readHeader_ok e
    rw [e] at h
    obtain ⟨ss, c, t, hd, _, h1, h2, h3⟩ := compileLoop_trap hl h
    exact ⟨ss, c, t, by rw [List.append_assoc, ← hd]; exact hb, h1, h2, h3⟩
  · rw [e] at h; cases h

/-! ## C09 header and section codes -/

/-- **C09.** A module is returned only for bytes starting with the eight header bytes. -/
theorem C09_accepts_only_header (bs : List Byte) (lm : Module) (h : compile bs = .ok lm) :
    bs.take 8 = header := by
  have := (compile_ok_header h).2.1
  rw [this]
  rfl

/-- **C09.** Bytes that do not start with the header (wrong, or too short) raise an exception. -/
theorem C09_rejects_bad_header (bs : List Byte) (h : bs.take 8 ≠ header) :
    ∃ m, compile bs = .throw m := by
  unfold compile
  rcases readHeader_cases bs with ⟨e, hl⟩ | ⟨m, e⟩
  · obtain ⟨_, _, hb⟩ := readHeader_ok e
    exfalso; apply h; rw [hb]; rfl
  · rw [e]; exact ⟨m, rfl⟩

example : ([0x61#8, 0x62#8, 0x61#8, 0x62#8, 0x02#8, 0#8, 0#8, 0#8] : List Byte).take 8 ≠ header := by decide

/-- **C09.** After any accepted bytes, a section code above 0x0b raises an exception, whatever follows. -/
theorem C09_rejects_bad_section_code (bs : List Byte) (lm : Module) (h : compile bs = .ok lm)
    (c : Byte) (hc : 11 < c.toNat) (rest : List Byte) :
    compile (bs ++ c :: rest) = .throw "Invalid section code" := by
  obtain ⟨k, _, e⟩ := compile_extend (c :: rest) h
  rw [e, compileLoop, if_neg (by simp)]
  unfold decodeSection readSectionCode
  have hat : At (bs ++ c :: rest) bs.length [c] := ⟨bs, rest, by simp, rfl⟩
  rw [readByte_at hat]
  simp only [Outcome.ok_bind]
  rw [if_pos (by rw [BitVec.lt_def]; simpa [SEC_LAST] using hc)]
  rfl

example : (compile header).isOk = true ∧ 11 < (0x0c#8).toNat := by decide +kernel

/-! ## C10 declared section sizes -/

/-- **C10**, full statement: an accepted file is the header followed by sections, each as long as its
size field says. -/
def C10_full : Prop :=
  ∀ (bs : List Byte) (lm : Module), compile bs = .ok lm →
    ∃ ss, bs = header ++ sectionsBytes ss ∧
      ∀ s ∈ ss, IsLeb s.2.1 ∧ s.2.2.length = lebValue s.2.1

/-- **C10 is false of the code**: a code section of one byte that claims to be 99 bytes long is accepted. -/
theorem C10_negation : ¬ C10_full := by
  intro h
  obtain ⟨ss, hb, hs⟩ := h (header ++ [0x0a#8, 0x63#8, 0x00#8]) Module.empty (by decide +kernel)
  have hb := List.append_cancel_left hb
  cases ss with
  | nil => simp [sectionsBytes] at hb
  | cons s ss =>
    obtain ⟨hl, hlen⟩ := hs s (by simp)
    rw [sectionsBytes_cons, List.cons_append] at hb
    injection hb with _ hb
    rw [List.append_assoc] at hb
    have : IsLeb [0x63#8] := by simp [IsLeb, Continues]
    have heq := isLeb_prefix_unique this hl (s1 := [0x00#8]) (s2 := s.2.2 ++ sectionsBytes ss) hb
    rw [← heq] at hb hlen
    have h2 := congrArg List.length hb
    have h3 : lebValue [0x63#8] = 99 := by decide
    simp only [List.length_append, List.length_cons, List.length_nil] at h2
    omega

/-- **C10**, what holds: an accepted file is the header followed by type, function and code sections, and
every type and function section is exactly as long as its size field says (the size field is read modulo
2^32, see C04). Missing: the size of code sections, which the loader ignores. -/
theorem C10_section_sizes_partial (bs : List Byte) (lm : Module) (h : compile bs = .ok lm) :
    ∃ ss, bs = header ++ sectionsBytes ss ∧
      ∀ s ∈ ss, IsLeb s.2.1 ∧ (s.1 = 1#8 ∨ s.1 = 3#8 ∨ s.1 = 10#8) ∧
        (s.1 ≠ 10#8 → s.2.2.length = lebValue s.2.1 % 2 ^ 32) := by
  obtain ⟨hl, hb, hc⟩ := compile_ok_header h
  obtain ⟨ss, hss, hg⟩ := compileLoop_ok hl hc
  exact ⟨ss, by rw [← hss]; exact hb, hg⟩

/-- **C10**, what holds, seen from the other side: after any accepted bytes, a type section with valid content but
a size field that differs from the content's length is rejected with an exception. -/
theorem C10_wrong_type_section_size_rejected (bs : List Byte) (lm : Module) (h : compile bs = .ok lm)
    (ts : List FuncType) (size : U32) (rest : List Byte)
    (hts : (varSize ts.length ++ (ts.map appendType).flatten).length < 2 ^ 32)
    (hsize : size.toNat ≠ (varSize ts.length ++ (ts.map appendType).flatten).length) :
    compile (bs ++ [0x01#8] ++ appendVaruint32 size ++ (varSize ts.length ++ (ts.map appendType).flatten) ++ rest)
      = .throw "Section is the wrong size" := by
  obtain ⟨k, _, e⟩ := compile_extend ([0x01#8] ++ appendVaruint32 size ++
    (varSize ts.length ++ (ts.map appendType).flatten) ++ rest) h
  have hat : At (bs ++ ([0x01#8] ++ appendVaruint32 size ++
      (varSize ts.length ++ (ts.map appendType).flatten) ++ rest)) bs.length
      ([0x01#8] ++ (appendVaruint32 size ++ (varSize ts.length ++ (ts.map appendType).flatten))) :=
    ⟨bs, rest, by simp, rfl⟩
  rw [show bs ++ [0x01#8] ++ appendVaruint32 size ++ (varSize ts.length ++ (ts.map appendType).flatten) ++ rest
    = bs ++ ([0x01#8] ++ appendVaruint32 size ++
      (varSize ts.length ++ (ts.map appendType).flatten) ++ rest) by simp]
  rw [e, compileLoop, if_neg (by simp)]
  generalize bs ++ ([0x01#8] ++ appendVaruint32 size ++
      (varSize ts.length ++ (ts.map appendType).flatten) ++ rest) = B at *
  have hsz := hat.right.left
  have hcont := hat.right.right
  simp only [List.length_singleton] at hsz hcont
  rw [decodeSection_head hat.left (by decide) hsz, if_pos (show (1#8 : Byte) = SEC_TYPE from rfl)]
  unfold decodeTypeSection
  rw [List.length_append] at hts hsize
  have hbig : ∀ t ∈ ts, (appendType t).length ≤ (ts.map appendType).flatten.length :=
    fun t ht => flatten_mem_length (List.mem_map_of_mem ht)
  have hw : ∀ t ∈ ts, t.args.length < 2 ^ 32 ∧ t.rets.length < 2 ^ 32 := by
    intro t ht
    have := hbig t ht
    rw [appendType_length] at this
    omega
  have hcnt : ts.length ≤ (ts.map appendType).flatten.length :=
    flatten_length_ge appendType ts (fun t _ => by rw [appendType_length]; omega)
  obtain ⟨v, hv, e1⟩ := readVaru32_size_at hcont.left (by omega)
  rw [e1]
  simp only [Outcome.ok_bind]
  rw [hv, readFuncTypes_at hcont.right hw]
  simp only [Outcome.ok_bind]
  rw [if_pos (by omega)]
  rfl

example : (compile header).isOk = true ∧
    (3#32).toNat ≠ (varSize [(⟨[], []⟩ : FuncType)].length ++
      ([(⟨[], []⟩ : FuncType)].map appendType).flatten).length := by decide +kernel

/-! ## C11 function bodies stay within their code entries -/

/-- **C11**, full statement, about one code entry at offset `pos`: the body starts no later than the entry
ends (`p` is the offset just after the entry, as its declared size says). -/
def C11_full : Prop :=
  ∀ (bs : List Byte) (m : Module) (i pos : Nat) (f : Func) (p : Nat),
    decodeCodeEntry bs m i pos = .ok (f, p) → f.body ≤ p

/-- **C11 is false of the code**: with a declared entry size of 0 the register count is read from behind the entry. -/
theorem C11_negation : ¬ C11_full := by
  intro h
  have := h [0x00#8, 0x05#8, 0x0c#8] ⟨[⟨[], []⟩], [0#32], []⟩ 0 0
    (Func.make 0 1 ⟨[], []⟩ 2 5#32) 1 (by decide +kernel)
  revert this
  decide

/-- The same in a whole file: the only function of this accepted file has its body (offset 23) inside the
*type section* (offsets 22–24) that follows the code section, and its register count is that section's code. -/
theorem C11_witness_file :
    ∃ lm f, compile (header ++ [0x01#8, 0x04#8, 0x01#8, 0x60#8, 0x00#8, 0x00#8]
        ++ [0x03#8, 0x02#8, 0x01#8, 0x00#8] ++ [0x0a#8, 0x02#8, 0x01#8, 0x00#8] ++ [0x01#8, 0x01#8, 0x00#8])
        = .ok lm ∧ lm.funcs = [f] ∧ f.body = 23 ∧ f.varNregs = 1#32 :=
  ⟨⟨[⟨[], []⟩], [0#32], [Func.make 0 1 ⟨[], []⟩ 23 1#32]⟩, Func.make 0 1 ⟨[], []⟩ 23 1#32,
    by decide +kernel, rfl, rfl, rfl⟩

/-- **C11**, what holds for every input: a code entry's body starts inside the file, after the entry's own
header, and it starts inside the entry exactly when the declared size covers the register-count field; and
the functions of one code section have strictly increasing body offsets (no two share a start).
Missing: rejection of entries whose size is too small. -/
theorem C11_entry_bodies_partial (bs : List Byte) (m : Module) (n pos : Nat) (fs : List Func) (p : Nat)
    (hp : pos ≤ bs.length) (h : decodeCodeEntries bs m n 0 pos = .ok (fs, p)) :
    (∀ f ∈ fs, pos < f.body) ∧ fs.Pairwise (fun f g => f.body < g.body) := by
  refine decodeCodeEntries_bodies hp ?_ h
  intro v q hq
  have := readVaru32_safe bs pos
  rw [hq] at this
  exact this.1

example : ∃ fs p, decodeCodeEntries [0x02#8, 0x00#8, 0x0c#8, 0x02#8, 0x00#8, 0x04#8]
    ⟨[⟨[], []⟩], [0#32, 0#32], []⟩ 2 0 0 = .ok (fs, p) ∧ fs.length = 2 :=
  ⟨[Func.make 0 1 ⟨[], []⟩ 2 0#32, Func.make 0 1 ⟨[], []⟩ 5 0#32], 6, by decide +kernel, rfl⟩

/-- **C11**, what holds for one entry: with `size` the declared entry size, the entry ends `size` bytes after
its size field, and the body starts within the entry iff the size covers the register-count field. -/
theorem C11_entry_body_inside_iff_partial (bs : List Byte) (m : Module) (i pos : Nat) (f : Func) (p : Nat)
    (hp : pos ≤ bs.length) (h : decodeCodeEntry bs m i pos = .ok (f, p)) :
    ∃ sizeEnc nregsEnc, IsLeb sizeEnc ∧ IsLeb nregsEnc ∧ OccursAt bs pos (sizeEnc ++ nregsEnc) ∧
      p = pos + sizeEnc.length + lebValue sizeEnc % 2 ^ 32 ∧
      f.body = pos + sizeEnc.length + nregsEnc.length ∧
      (f.body ≤ p ↔ nregsEnc.length ≤ lebValue sizeEnc % 2 ^ 32) := by
  obtain ⟨size, start, r1, r2, hp1, hlt, hst, hb, hple⟩ := decodeCodeEntry_parts hp h
  obtain ⟨e1, l1, _, v1, q1, d1⟩ := readVaru32_ok hp r1
  obtain ⟨e2, l2, _, v2, q2, d2⟩ := readVaru32_ok hst r2
  have hbl := readVaru32_safe bs start
  rw [r2] at hbl
  have hbl := hbl.2
  subst q1
  rw [v1, BitVec.toNat_ofNat] at hp1
  refine ⟨e1, e2, l1, l2, ⟨?_, ?_⟩, hp1, q2, by omega⟩
  · rw [List.length_append]; omega
  · rw [d1, d2, ← List.append_assoc, List.take_left]

example : ∃ f p, decodeCodeEntry [0x02#8, 0x00#8, 0x0c#8] ⟨[⟨[], []⟩], [0#32], []⟩ 0 0 = .ok (f, p) :=
  ⟨Func.make 0 1 ⟨[], []⟩ 2 0#32, 3, by decide +kernel⟩

end Ab
