import Verif.Proof.Wasm2
/-! C61: instructions; C62: modules; C63: malformed modules. -/
namespace Ab.Wasm
open Spec Spec.Wasm

/-! ### C61 -/

/-- Reading instructions one after the other. -/
theorem readExprs_seq (mem : Nat) (f : σ → Expr → Outcome σ) {bs : List Byte} {l : List Expr}
    (h : EncSeq (EncInstr NotLongNegative) bs l) (hne : l ≠ []) (hm : ∀ e ∈ l, ¬ Missing e.op.toNat)
    (hmem : 4 * bs.length ≤ mem) (start size : Nat) (suf : List Byte) (off fuel : Nat) (s : σ)
    (hs : off - start + bs.length = size) (ho : start ≤ off) (hf : bs.length ≤ fuel) :
    readExprs mem f start size fuel s (good (bs ++ suf) off) =
      (l.foldlM f s >>= fun s => .ok (s, good suf (off + bs.length))) := by
  induction h generalizing s off fuel with
  | nil => exact absurd rfl hne
  | @cons cs e ds l hc hd ih =>
    have hp := encInstr_pos hc
    rw [List.length_append] at hmem hs hf
    obtain ⟨fuel, rfl⟩ : ∃ f, fuel = f + 1 := ⟨fuel - 1, by omega⟩
    rw [readExprs, List.append_assoc, reads_instr mem hc (hm e (by simp)) (by omega)]
    simp only [Outcome.ok_bind, List.foldlM_cons]
    cases f s e with
    | ok s =>
      simp only [Outcome.ok_bind]
      cases l with
      | nil =>
        cases hd
        simp only [List.length_nil] at hs
        rw [if_neg (by omega)]
        simp
      | cons e' l' =>
        have hd1 : 1 ≤ ds.length := by
          have := encSeq_length hd (fun _ _ => encInstr_pos)
          rw [List.length_cons] at this
          omega
        rw [if_pos (by omega), ih (by simp) (fun e he => hm e (by simp [he])) (by omega) (off + cs.length) fuel s
          (by omega) (by omega) (by omega), List.length_append, Nat.add_assoc]
    | _ => rfl

/-- C61: whatever instructions of version 1 the next bytes of the stream encode, reading as many bytes as they
take hands exactly these instructions, with their immediates, in order, to the consumer, and consumes exactly
their bytes. Missing: memory.size, memory.grow and the conversions, which the operator table lacks, and
negative 64-bit constants encoded in ten bytes. -/
theorem C61_instructions_partial (mem : Nat) (f : σ → Expr → Outcome σ) (bs : List Byte) (l : List Expr)
    (h : EncSeq (EncInstr NotLongNegative) bs l) (hne : l ≠ []) (hm : ∀ e ∈ l, ¬ Missing e.op.toNat)
    (hmem : 4 * bs.length ≤ mem) (suf : List Byte) (off : Nat) (s : σ) :
    readExprs mem f off bs.length ((bs ++ suf).length + 1) s (good (bs ++ suf) off) =
      (l.foldlM f s >>= fun s => .ok (s, good suf (off + bs.length))) :=
  readExprs_seq mem f h hne hm hmem off bs.length suf off _ s (by omega) (Nat.le_refl _) (by simp; omega)

/-- One instruction. -/
theorem C61_instruction_partial (mem : Nat) (bs : List Byte) (e : Expr) (h : EncInstr NotLongNegative bs e)
    (hm : ¬ Missing e.op.toNat) (hmem : 4 * bs.length ≤ mem) (suf : List Byte) (off : Nat) :
    readExpr mem (good (bs ++ suf) off) = .ok (e, good suf (off + bs.length)) :=
  reads_instr mem h hm hmem suf off

/-- A recorder of expressions. -/
def collect (s : List Expr) (e : Expr) : Outcome (List Expr) := .ok (s ++ [e])

/-- `block i32; i32.const -5; br_table [1, 200] 0; end`. -/
example : EncSeq (EncInstr NotLongNegative) [0x02, 0x7f, 0x41, 0x7b, 0x0e, 2, 1, 0xc8, 1, 0, 0x0b]
      [⟨0x02, .typeCode 0x7f⟩, ⟨0x41, .int (BitVec.ofInt 64 (-5))⟩, ⟨0x0e, .table [1, 200] 0⟩, ⟨0x0b, .none⟩] ∧
    readExprs 100 collect 0 11 20 [] (good ([0x02, 0x7f, 0x41, 0x7b, 0x0e, 2, 1, 0xc8, 1, 0, 0x0b] ++ [9]) 0) =
      .ok ([⟨0x02, .typeCode 0x7f⟩, ⟨0x41, .int (BitVec.ofInt 64 (-5))⟩, ⟨0x0e, .table [1, 200] 0⟩, ⟨0x0b, .none⟩],
        good [9] 11) := by
  refine ⟨?_, by decide +kernel⟩
  refine .cons (bs := [0x02, 0x7f]) (.block (by simp [BlockOp])) ?_
  refine .cons (bs := [0x41, 0x7b]) (.i32 (n := -5) ⟨by simp [IsLeb, Continues], by simp, by decide, by decide, by decide⟩) ?_
  refine .cons (bs := [0x0e, 2, 1, 0xc8, 1, 0]) (.table (ls := [2, 1, 0xc8, 1]) (ds := [0])
    ⟨[2], [1, 0xc8, 1], rfl, by decide, ⟨by simp [IsLeb, Continues], by simp, by decide⟩,
      .cons (bs := [1]) ⟨by simp [IsLeb, Continues], by simp, by decide⟩
        (.cons (bs := [0xc8, 1]) ⟨by simp [IsLeb, Continues], by simp, by decide⟩ .nil)⟩
    ⟨by simp [IsLeb, Continues], by simp, by decide⟩) ?_
  exact .cons (bs := [0x0b]) (.plain (by simp [PlainOp, Opcode, BlockOp, IndexOp, MemoryOp, ReservedOp])) .nil

/-- C61, the rest: an opcode that is not in the table ends the process, whatever follows. In version 1 these
are memory.size, memory.grow and every conversion; and every byte that is no opcode. -/
theorem C61_missing_partial (mem : Nat) (op : Byte) (suf : List Byte) (off : Nat) :
    (readExpr mem (good (op :: suf) off) = .trap "exit(-1)") ↔ (¬ Opcode op.toNat ∨ Missing op.toNat) := by
  constructor
  · intro h
    rcases Classical.em (Opcode op.toNat ∧ ¬ Missing op.toNat) with hk | hk
    · rw [readExpr_known mem op hk.1 hk.2] at h
      have notrap : ∀ k i, (∀ w, readImm mem k i ≠ .trap w) := by
        have lt : ∀ fuel i r sh w, lebLoop fuel i r sh ≠ .trap w := by
          intro fuel
          induction fuel with
          | zero => intro i r sh w h; cases h
          | succ fuel ih =>
            intro i r sh w h
            rw [lebLoop] at h
            simp only at h
            split at h
            · cases h
            · split at h
              · exact ih _ _ _ _ h
              · cases h
        have ut : ∀ i w, uleb i ≠ .trap w := by
          intro i w h
          unfold uleb at h
          cases hl : lebLoop 11 i 0#64 0 with
          | trap w => exact lt _ _ _ _ _ hl
          | _ => rw [hl] at h; cases h
        have st : ∀ i w, sleb i ≠ .trap w := by
          intro i w h
          unfold sleb at h
          cases hl : lebLoop 11 i 0#64 0 with
          | trap w => exact lt _ _ _ _ _ hl
          | ok x =>
            rw [hl] at h
            simp only [Outcome.ok_bind] at h
            split at h
            · split at h <;> cases h
            · cases h
          | _ => rw [hl] at h; cases h
        have tt : ∀ n i w, times uleb n i ≠ .trap w := by
          intro n
          induction n with
          | zero => intro i w h; cases h
          | succ n ih =>
            intro i w h
            rw [times] at h
            cases hu : uleb i with
            | trap w => exact ut _ _ hu
            | ok x =>
              rw [hu] at h
              simp only [Outcome.ok_bind] at h
              cases ht : times uleb n x.2 with
              | trap w => exact ih _ _ ht
              | _ => rw [ht] at h; cases h
            | _ => rw [hu] at h; cases h
        have nt : ∀ n i w, readNumber n i ≠ .trap w := by
          intro n i w h
          unfold readNumber at h
          simp only at h
          split at h <;> cases h
        intro k i w h
        cases k with
        | none => cases h
        | typeCode => cases h
        | index =>
          rw [readImm] at h
          cases hu : uleb i with
          | trap w => exact ut _ _ hu
          | _ => rw [hu] at h; cases h
        | signature =>
          rw [readImm] at h
          cases hu : uleb i with
          | trap w => exact ut _ _ hu
          | ok x =>
            rw [hu] at h
            simp only [Outcome.ok_bind] at h
            cases hv : uleb x.2 with
            | trap w => exact ut _ _ hv
            | _ => rw [hv] at h; cases h
          | _ => rw [hu] at h; cases h
        | int =>
          rw [readImm] at h
          cases hu : sleb i with
          | trap w => exact st _ _ hu
          | _ => rw [hu] at h; cases h
        | u32 =>
          rw [readImm] at h
          cases hu : readNumber 4 i with
          | trap w => exact nt _ _ _ hu
          | _ => rw [hu] at h; cases h
        | u64 =>
          rw [readImm] at h
          cases hu : readNumber 8 i with
          | trap w => exact nt _ _ _ hu
          | _ => rw [hu] at h; cases h
        | table =>
          rw [readImm] at h
          cases hu : uleb i with
          | trap w => exact ut _ _ hu
          | ok x =>
            rw [hu] at h
            simp only [Outcome.ok_bind] at h
            split at h
            · cases h
            · cases hv : times uleb x.1.toNat x.2 with
              | trap w => exact tt _ _ _ hv
              | ok y =>
                rw [hv] at h
                simp only [Outcome.ok_bind] at h
                cases hw : uleb y.2 with
                | trap w => exact ut _ _ hw
                | _ => rw [hw] at h; cases h
              | _ => rw [hv] at h; cases h
          | _ => rw [hu] at h; cases h
        | memory =>
          rw [readImm] at h
          cases hu : uleb i with
          | trap w => exact ut _ _ hu
          | ok x =>
            rw [hu] at h
            simp only [Outcome.ok_bind] at h
            cases hv : uleb x.2 with
            | trap w => exact ut _ _ hv
            | _ => rw [hv] at h; cases h
          | _ => rw [hu] at h; cases h
      cases hr : readImm mem (immKind op.toNat) (good suf (off + 1)) with
      | trap w => exact absurd hr (notrap _ _ _)
      | _ => rw [hr] at h; cases h
    · rcases Classical.em (Opcode op.toNat) with ho | ho
      · right
        apply Classical.byContradiction
        intro hm
        exact hk ⟨ho, hm⟩
      · exact Or.inl ho
  · intro h
    apply readExpr_missing
    rintro ⟨h1, h2⟩
    rcases h with h | h
    · exact h h1
    · exact h2 h

/-- C61 fails: memory.size and i32.wrap_i64 are instructions of version 1, and end the process; the least
64-bit constant is one, and is undefined behaviour. -/
theorem C61_negation :
    EncInstr AnyLength [0x3f, 0] ⟨0x3f, .index 0⟩ ∧ readExpr 100 (In.start [0x3f, 0]) = .trap "exit(-1)" ∧
    EncInstr AnyLength [0xa7] ⟨0xa7, .none⟩ ∧ readExpr 100 (In.start [0xa7]) = .trap "exit(-1)" ∧
    EncInstr AnyLength [0x42, 0x80, 0x80, 0x80, 0x80, 0x80, 0x80, 0x80, 0x80, 0x80, 0x7f]
      ⟨0x42, .int (BitVec.ofInt 64 (-2^63))⟩ ∧
    (readExpr 100 (In.start [0x42, 0x80, 0x80, 0x80, 0x80, 0x80, 0x80, 0x80, 0x80, 0x80, 0x7f])).isUb = true := by
  refine ⟨.reserved (by simp [ReservedOp]), by decide +kernel,
    .plain (by simp [PlainOp, Opcode, BlockOp, IndexOp, MemoryOp, ReservedOp]), by decide +kernel, ?_, by decide +kernel⟩
  exact .i64 ⟨by simp [IsLeb, Continues], by simp, by decide +kernel, by decide, by decide⟩ trivial

/-! ### C62 -/

/-- C62: whatever module of version 1 a file is, reading it tells the visitor exactly what the module
contains, in order: if the visitor throws at some call, that is what the reader does; otherwise the reader
returns. `last` is a custom section at the end, if there is one. Missing: table, memory and start sections;
custom sections before the end; names with zero bytes; negative 64-bit constants encoded in ten bytes; and
function bodies that the visitor does not consume exactly. -/
theorem C62_module_partial (V : Visitor σ) (be : σ → Nat → FunctionBody → List Byte → Outcome σ)
    (B : FunctionBody → List Byte → Prop) (hB : ReadsBodies V be B)
    (bytes : List Byte) (m last : List WSection) (h : EncModule NotLongNegative bytes (m ++ last))
    (hm : ∀ s ∈ m, Readable B s.content)
    (hl : last = [] ∨ ∃ name payload len, last = [⟨.custom name payload, len⟩] ∧ NoNul name)
    (hmem : 8 * bytes.length ≤ V.mem) (s : σ) :
    (readModule V s bytes >>= fun x => .ok x.1) = tell V be s (moduleCalls (m ++ last)) := by
  obtain ⟨cs, rfl, hs⟩ := h
  obtain ⟨as, bs, rfl, ha, hb⟩ : ∃ as bs, cs = as ++ bs ∧ EncSeq (EncSection NotLongNegative) as m ∧
      EncSeq (EncSection NotLongNegative) bs last := by
    clear hm hmem
    induction m generalizing cs with
    | nil => exact ⟨[], cs, rfl, .nil, hs⟩
    | cons x m ih =>
      cases hs with
      | @cons ds _ es _ hx hs =>
        obtain ⟨as, bs, rfl, h1, h2⟩ := ih es hs
        exact ⟨ds ++ as, bs, by simp, .cons hx h1, h2⟩
  simp only [List.length_append, List.length_cons, List.length_nil] at hmem
  unfold readModule moduleCalls
  simp only [List.cons_append, List.nil_append, tell]
  cases V.event s .moduleStart with
  | ok s =>
    simp only [Outcome.ok_bind]
    have hh := header_good V s (as ++ bs)
    simp only [List.cons_append, List.nil_append] at hh
    simp only [In.start]
    rw [hh]
    cases V.event s (.header 0x6d736100#32 1#32) with
    | ok s =>
      simp only [Outcome.ok_bind]
      obtain ⟨fuel', hle, he⟩ := sections_seq V be hB ha hm (by omega)
        ((0#8 :: 97#8 :: 115#8 :: 109#8 :: 1#8 :: 0#8 :: 0#8 :: 0#8 :: (as ++ bs)).length + 2) s bs 8
        (by simp; omega)
      rw [he, List.flatMap_append, List.append_assoc, tell_append]
      simp only [List.length_cons, List.length_append] at hle
      cases tell V be s (m.flatMap sectionCalls) with
      | ok s =>
        simp only [Outcome.ok_bind]
        rcases hl with rfl | ⟨name, payload, len, rfl, hn⟩
        · cases hb
          obtain ⟨f, rfl⟩ : ∃ f, fuel' = f + 1 := ⟨fuel' - 1, by omega⟩
          rw [sections_end]
          simp only [Outcome.ok_bind, List.flatMap_nil, List.nil_append, tell]
          cases V.event s .moduleEnd <;> rfl
        · cases hb with
          | @cons ds _ es _ hx hs =>
            cases hs
            rw [List.append_nil]
            rw [List.append_nil] at hmem
            obtain ⟨f, rfl⟩ : ∃ f, fuel' = f + 2 := ⟨fuel' - 2, by simp at hle; omega⟩
            have := sections_custom V be hx hn (by omega) f s (8 + as.length)
            rw [List.flatMap_cons, List.flatMap_nil, List.append_nil, tell_append, ← this]
            cases sections V (f + 2) s (good ds (8 + as.length)) with
            | ok x =>
              simp only [Outcome.ok_bind, tell]
              cases V.event x.1 .moduleEnd <;> rfl
            | _ => rfl
      | _ => rfl
    | _ => rfl
  | _ => rfl

/-- A visitor that records what it is told; handed a function body it consumes the one byte 0x0b. -/
def recorder : Visitor (List Event) :=
  ⟨1000, fun s e => .ok (s ++ [e]), fun s _ _ i => .ok (s, i.get.1)⟩

theorem recorder_reads : ReadsBodies recorder (fun s _ _ _ => .ok s) (fun _ code => code = [0x0b]) := by
  intro s k b code suf off h
  subst h
  rfl

/-- The header. -/
def hdr : List Byte := [0x00, 0x61, 0x73, 0x6d, 0x01, 0x00, 0x00, 0x00]

theorem encU32_digit (b : Byte) (h : b.toNat < 128) : EncU32 [b] (b.setWidth 32) :=
  ⟨by simp only [IsLeb, Continues]; omega, by simp, by
    rw [BitVec.toNat_setWidth]; simp only [lebValue]; omega⟩

theorem encVec_cons {P : List Byte → α → Prop} {cs : List Byte} {l : List α} (h : EncSeq P cs l) (b : Byte)
    (hb : b.toNat = l.length) (hl : l.length < 128) : EncVec P (b :: cs) l := by
  refine ⟨[b], cs, rfl, by omega, ?_, h⟩
  have := encU32_digit b (by omega)
  rwa [show b.setWidth 32 = BitVec.ofNat 32 l.length from by
    apply BitVec.eq_of_toNat_eq
    rw [BitVec.toNat_setWidth, BitVec.toNat_ofNat, hb]] at this

theorem encSeq_bytes (s : List Byte) : EncSeq EncByte s s := by
  induction s with
  | nil => exact .nil
  | cons b s ih => exact .cons (bs := [b]) rfl ih

theorem encVec_bytes {s : List Byte} (b : Byte) (hb : b.toNat = s.length) (hl : s.length < 128) :
    EncVec EncByte (b :: s) s := encVec_cons (encSeq_bytes s) b hb hl

/-- A module with a type, an import, a function exported as "f", a global initialised with 7, the function's
body, and a custom section. -/
example :
    let m : List WSection := [⟨.types [⟨[0x7f], true, 0x7f⟩], 6⟩, ⟨.imports [⟨[0x61], [0x62], .memory ⟨1, 2, true⟩⟩], 9⟩,
      ⟨.functions [0], 2⟩, ⟨.globals [(⟨0x7f, true⟩, ⟨0x41, .int 7⟩)], 6⟩, ⟨.exports [⟨[0x66], 0, 0⟩], 5⟩,
      ⟨.code [⟨[], [0x0b], 2⟩], 4⟩]
    let last : List WSection := [⟨.custom [0x7a] [9, 9], 4⟩]
    let bytes := hdr ++ [1, 6, 1, 0x60, 1, 0x7f, 1, 0x7f, 2, 9, 1, 1, 0x61, 1, 0x62, 2, 1, 1, 2, 3, 2, 1, 0,
      6, 6, 1, 0x7f, 1, 0x41, 7, 0x0b, 7, 5, 1, 1, 0x66, 0, 0, 10, 4, 1, 2, 0, 0x0b, 0, 4, 1, 0x7a, 9, 9]
    EncModule NotLongNegative bytes (m ++ last) ∧ (∀ s ∈ m, Readable (fun _ code => code = [0x0b]) s.content) ∧
    (readModule recorder [] bytes).isOk = true := by
  refine ⟨⟨_, rfl, ?_⟩, ?_, by decide +kernel⟩
  · refine .cons (bs := [1, 6, 1, 0x60, 1, 0x7f, 1, 0x7f]) ⟨[6], [1, 0x60, 1, 0x7f, 1, 0x7f], rfl, encU32_digit 6 (by decide), rfl, ?_⟩ ?_
    · exact encVec_cons (.cons (bs := [0x60, 1, 0x7f, 1, 0x7f])
        (.value (bs := [1, 0x7f]) (encVec_bytes (s := [0x7f]) 1 rfl (by decide))) .nil) 1 rfl (by decide)
    refine .cons (bs := [2, 9, 1, 1, 0x61, 1, 0x62, 2, 1, 1, 2]) ⟨[9], [1, 1, 0x61, 1, 0x62, 2, 1, 1, 2], rfl, encU32_digit 9 (by decide), rfl, ?_⟩ ?_
    · exact encVec_cons (.cons (bs := [1, 0x61, 1, 0x62, 2, 1, 1, 2]) ⟨[1, 0x61], [1, 0x62], [2, 1, 1, 2], rfl,
        encVec_bytes 1 rfl (by decide),
        encVec_bytes 1 rfl (by decide),
        .memory (.minMax (bs := [1]) (cs := [2]) (encU32_digit 1 (by decide)) (encU32_digit 2 (by decide)))⟩ .nil) 1 rfl (by decide)
    refine .cons (bs := [3, 2, 1, 0]) ⟨[2], [1, 0], rfl, encU32_digit 2 (by decide), rfl, ?_⟩ ?_
    · exact encVec_cons (.cons (bs := [0]) (encU32_digit 0 (by decide)) .nil) 1 rfl (by decide)
    refine .cons (bs := [6, 6, 1, 0x7f, 1, 0x41, 7, 0x0b]) ⟨[6], [1, 0x7f, 1, 0x41, 7, 0x0b], rfl, encU32_digit 6 (by decide), rfl, ?_⟩ ?_
    · exact encVec_cons (.cons (bs := [0x7f, 1, 0x41, 7, 0x0b]) ⟨[0x7f, 1], [0x41, 7, 0x0b], rfl, .var,
        [0x41, 7], rfl, .i32 (n := 7) ⟨by simp [IsLeb, Continues], by simp, by decide, by decide, by decide⟩, by decide⟩ .nil) 1 rfl (by decide)
    refine .cons (bs := [7, 5, 1, 1, 0x66, 0, 0]) ⟨[5], [1, 1, 0x66, 0, 0], rfl, encU32_digit 5 (by decide), rfl, ?_⟩ ?_
    · exact encVec_cons (.cons (bs := [1, 0x66, 0, 0]) ⟨[1, 0x66], [0], rfl,
        encVec_bytes 1 rfl (by decide), encU32_digit 0 (by decide)⟩ .nil) 1 rfl (by decide)
    refine .cons (bs := [10, 4, 1, 2, 0, 0x0b]) ⟨[4], [1, 2, 0, 0x0b], rfl, encU32_digit 4 (by decide), rfl, ?_⟩ ?_
    · exact encVec_cons (.cons (bs := [2, 0, 0x0b]) ⟨[2], [0], rfl, encU32_digit 2 (by decide), rfl,
        encVec_cons .nil 0 rfl (by decide)⟩ .nil) 1 rfl (by decide)
    refine .cons (bs := [0, 4, 1, 0x7a, 9, 9]) ⟨[4], [1, 0x7a, 9, 9], rfl, encU32_digit 4 (by decide), rfl, ?_⟩ .nil
    exact ⟨[1, 0x7a], rfl, encVec_bytes 1 rfl (by decide)⟩
  · intro s hs
    simp only [List.mem_cons, List.not_mem_nil, or_false] at hs
    rcases hs with rfl | rfl | rfl | rfl | rfl | rfl <;> simp [Readable, NoNul]

/-- C62, table, memory and start sections: nothing of their contents is consumed; it is taken for the sections
that follow. -/
theorem C62_unread_partial (V : Visitor σ) (code : Byte) (h : code = 4 ∨ code = 5 ∨ code = 8) (n : List Byte) (len : U32)
    (hn : EncU32 n len) (contents : List Byte) (s : σ) (off : Nat) :
    «section» V code s (good (n ++ contents) off) =
      (V.event s (.sectionStart ⟨code, len, []⟩) >>= fun s => V.event s (.sectionEnd ⟨code, len, []⟩) >>= fun s =>
        .ok (s, good contents (off + n.length))) := by
  unfold «section»
  rw [reads_u32 hn]
  simp only [Outcome.ok_bind]
  unfold sectionName
  rw [if_neg (by rcases h with rfl | rfl | rfl <;> simp)]
  simp only [Outcome.ok_bind, set32_64]
  have : ∀ s, sectionBody V ⟨code, len, []⟩ s (good contents (off + n.length)) = .ok (s, good contents (off + n.length)) := by
    intro s
    rcases h with rfl | rfl | rfl <;> rfl
  cases V.event s (.sectionStart ⟨code, len, []⟩) with
  | ok s =>
    simp only [Outcome.ok_bind, this]
    rfl
  | _ => rfl

/-- C62 fails: a module with a memory of one page is rejected; so is one with a start section; a custom
section before the end makes the reader lose its place; and a name is cut at a zero byte. -/
theorem C62_negation :
    EncModule AnyLength (hdr ++ [5, 3, 1, 0, 1]) [⟨.memories [⟨1, 0, false⟩], 3⟩] ∧
    readModule recorder [] (hdr ++ [5, 3, 1, 0, 1]) = .throw "Expected function type, got something else." ∧
    EncModule AnyLength (hdr ++ [8, 1, 0]) [⟨.start 0, 1⟩] ∧
    readModule recorder [] (hdr ++ [8, 1, 0]) = .throw "Bad section" ∧
    EncModule AnyLength (hdr ++ [0, 2, 1, 0x61, 1, 1, 0]) [⟨.custom [0x61] [], 2⟩, ⟨.types [], 1⟩] ∧
    readModule recorder [] (hdr ++ [0, 2, 1, 0x61, 1, 1, 0]) = .throw "Bad section" ∧
    EncModule AnyLength (hdr ++ [7, 7, 1, 3, 0x61, 0, 0x62, 0, 0]) [⟨.exports [⟨[0x61, 0, 0x62], 0, 0⟩], 7⟩] ∧
    (∃ i, readModule recorder [] (hdr ++ [7, 7, 1, 3, 0x61, 0, 0x62, 0, 0]) = .ok ([.moduleStart, .header 0x6d736100 1,
      .sectionStart ⟨7, 7, []⟩, .exportEntry ⟨[0x61], 0, 0⟩, .sectionEnd ⟨7, 7, []⟩, .moduleEnd], i)) := by
  refine ⟨⟨_, rfl, ?_⟩, by decide +kernel, ⟨_, rfl, ?_⟩, by decide +kernel, ⟨_, rfl, ?_⟩, by decide +kernel, ⟨_, rfl, ?_⟩,
    ⟨⟨[], true, true, 17⟩, by decide +kernel⟩⟩
  · refine .cons (bs := [5, 3, 1, 0, 1]) ⟨[3], [1, 0, 1], rfl, encU32_digit 3 (by decide), rfl, ?_⟩ .nil
    exact encVec_cons (.cons (bs := [0, 1]) (.min (encU32_digit 1 (by decide))) .nil) 1 rfl (by decide)
  · exact .cons (bs := [8, 1, 0]) ⟨[1], [0], rfl, encU32_digit 1 (by decide), rfl, encU32_digit 0 (by decide)⟩ .nil
  · refine .cons (bs := [0, 2, 1, 0x61]) ⟨[2], [1, 0x61], rfl, encU32_digit 2 (by decide), rfl, ?_⟩ ?_
    · exact ⟨[1, 0x61], rfl, encVec_bytes 1 rfl (by decide)⟩
    · exact .cons (bs := [1, 1, 0]) ⟨[1], [0], rfl, encU32_digit 1 (by decide), rfl, encVec_cons .nil 0 rfl (by decide)⟩ .nil
  · refine .cons (bs := [7, 7, 1, 3, 0x61, 0, 0x62, 0, 0]) ⟨[7], [1, 3, 0x61, 0, 0x62, 0, 0], rfl, encU32_digit 7 (by decide), rfl, ?_⟩ .nil
    exact encVec_cons (.cons (bs := [3, 0x61, 0, 0x62, 0, 0]) ⟨[3, 0x61, 0, 0x62], [0], rfl,
      encVec_bytes 3 rfl (by decide),
      encU32_digit 0 (by decide)⟩ .nil) 1 rfl (by decide)


/-! ### C63 -/

theorem leNat_inj : ∀ (a b : List Byte), a.length = b.length → leNat a = leNat b → a = b := by
  intro a
  induction a with
  | nil => intro b h _; cases b with
    | nil => rfl
    | cons => cases h
  | cons x a ih =>
    intro b hl h
    cases b with
    | nil => cases hl
    | cons y b =>
      have hx := x.isLt
      have hy := y.isLt
      have e : x.toNat + 256 * leNat a = y.toNat + 256 * leNat b := h
      have h1 : x.toNat = y.toNat := by omega
      have h2 : leNat a = leNat b := by omega
      rw [BitVec.eq_of_toNat_eq h1, ih b (by simpa using hl) h2]

theorem leNat_lt (a : List Byte) : leNat a < 256 ^ a.length := by
  induction a with
  | nil => simp [leNat]
  | cons x a ih =>
    have hx := x.isLt
    have e : leNat (x :: a) = x.toNat + 256 * leNat a := rfl
    rw [List.length_cons, Nat.pow_succ, e]
    omega

theorem uint_good (n : Nat) (bs : List Byte) (off : Nat) : uint n (good bs off) =
    if n ≤ bs.length then .ok (leNat (bs.take n), good (bs.drop n) (off + n)) else .ok (leNat bs, ⟨[], true, true, off⟩) := by
  unfold uint In.read
  simp only [good, Bool.or_self, Bool.false_eq_true, if_false]
  split <;> rfl

/-- C63, the header: a file of at least eight bytes, or fewer than five, that does not begin with the magic
number and the version is rejected, and the visitor is told nothing but that a module starts. Missing: the
files of five, six and seven bytes (see `C63_negation`). -/
theorem C63_header_partial (V : Visitor σ) (bytes : List Byte)
    (h : ¬ [0x00#8, 0x61#8, 0x73#8, 0x6d#8, 0x01#8, 0x00#8, 0x00#8, 0x00#8] <+: bytes)
    (hl : bytes.length < 5 ∨ 8 ≤ bytes.length) (s : σ) :
    readModule V s bytes = (V.event s .moduleStart >>= fun _ => .throw "Invalid Header") := by
  unfold readModule
  cases V.event s .moduleStart with
  | ok s =>
    simp only [Outcome.ok_bind]
    have h1 : leNat [0x00#8, 0x61#8, 0x73#8, 0x6d#8] = 0x6d736100 := by simp [leNat]
    have h2 : leNat [0x01#8, 0x00#8, 0x00#8, 0x00#8] = 1 := by simp [leNat]
    have : header V s (In.start bytes) = .throw "Invalid Header" := by
      unfold header
      rw [show In.start bytes = good bytes 0 from rfl, uint_good]
      rcases Classical.em (4 ≤ bytes.length) with h4 | h4
      · rw [if_pos h4]
        simp only [Outcome.ok_bind]
        rcases Classical.em (leNat (bytes.take 4) = 0x6d736100) with hm | hm
        · rw [if_neg (by simpa using hm)]
          rw [uint_good]
          rcases hl with hl | hl
          · have hd : bytes.drop 4 = [] := by
              rw [List.drop_eq_nil_iff]; omega
            rw [hd]
            simp [leNat]
          · rw [if_pos (by rw [List.length_drop]; omega)]
            simp only [Outcome.ok_bind]
            rw [if_pos]
            intro hv
            apply h
            have e1 := leNat_inj (bytes.take 4) [0x00#8, 0x61#8, 0x73#8, 0x6d#8] (by simp; omega) (by rw [hm, h1])
            have e2 := leNat_inj ((bytes.drop 4).take 4) [0x01#8, 0x00#8, 0x00#8, 0x00#8] (by simp; omega) (by rw [hv, h2])
            refine ⟨(bytes.drop 4).drop 4, ?_⟩
            calc _ = [0x00#8, 0x61#8, 0x73#8, 0x6d#8] ++ ([0x01#8, 0x00#8, 0x00#8, 0x00#8] ++ (bytes.drop 4).drop 4) := rfl
              _ = bytes := by rw [← e1, ← e2, List.take_append_drop, List.take_append_drop]
        · rw [if_pos hm]
      · rw [if_neg h4]
        simp only [Outcome.ok_bind]
        rw [if_pos]
        intro hm
        have := leNat_lt bytes
        have h3 : 256 ^ bytes.length ≤ 256 ^ 3 := Nat.pow_le_pow_right (by decide) (by omega)
        omega
    rw [this]
    rfl
  | _ => rfl

example : ¬ [0x00#8, 0x61#8, 0x73#8, 0x6d#8, 0x01#8, 0x00#8, 0x00#8, 0x00#8] <+: [0x00#8, 0x61, 0x73, 0x6d, 0x0d, 0, 0, 0, 1] := by
  simp

/-- C63, section numbers: a module is rejected when after any sections that are read properly a section comes
whose number is none of 0 to 11; the visitor has been told everything up to there. Missing: section numbers
encoded in more than one byte, of which only the last eight bits count (see `C63_negation`). -/
theorem C63_section_partial (V : Visitor σ) (be : σ → Nat → FunctionBody → List Byte → Outcome σ)
    (B : FunctionBody → List Byte → Prop) (hB : ReadsBodies V be B)
    (bytes : List Byte) (m : List WSection) (h : EncModule NotLongNegative bytes m)
    (hm : ∀ s ∈ m, Readable B s.content) (code : Byte) (hc : 12 ≤ code.toNat ∧ code.toNat < 128)
    (n : List Byte) (len : U32) (hn : EncU32 n len) (rest : List Byte) (hmem : 8 * bytes.length ≤ V.mem) (s : σ) :
    readModule V s (bytes ++ [code] ++ n ++ rest) =
      (tell V be s ([.event .moduleStart, .event (.header 0x6d736100#32 1#32)] ++ m.flatMap sectionCalls ++
        [.event (.sectionStart ⟨code, len, []⟩)]) >>= fun _ => .throw "Bad section") := by
  obtain ⟨cs, rfl, hs⟩ := h
  simp only [List.length_append, List.length_cons, List.length_nil] at hmem
  unfold readModule
  simp only [List.cons_append, List.nil_append, tell, List.append_assoc]
  cases V.event s .moduleStart with
  | ok s =>
    simp only [Outcome.ok_bind]
    have hh := header_good V s (cs ++ code :: (n ++ rest))
    simp only [List.cons_append, List.nil_append] at hh
    simp only [In.start]
    rw [hh]
    cases V.event s (.header 0x6d736100#32 1#32) with
    | ok s =>
      simp only [Outcome.ok_bind]
      obtain ⟨fuel', hle, he⟩ := sections_seq V be hB hs hm (by omega)
        ((0#8 :: 97#8 :: 115#8 :: 109#8 :: 1#8 :: 0#8 :: 0#8 :: 0#8 :: (cs ++ code :: (n ++ rest))).length + 2) s
        (code :: (n ++ rest)) 8 (by simp; omega)
      rw [he, tell_append]
      simp only [List.length_cons, List.length_append] at hle
      cases tell V be s (m.flatMap sectionCalls) with
      | ok s =>
        simp only [Outcome.ok_bind, tell]
        obtain ⟨f, rfl⟩ : ∃ f, fuel' = f + 1 := ⟨fuel' - 1, by omega⟩
        rw [sections, if_neg (by simp), show code :: (n ++ rest) = [code] ++ (n ++ rest) from rfl, reads_digit _ hc.2]
        simp only [Outcome.ok_bind]
        rw [if_neg (by simp), show (BitVec.ofNat 64 code.toNat).setWidth 8 = code from by
          apply BitVec.eq_of_toNat_eq
          rw [BitVec.toNat_setWidth, BitVec.toNat_ofNat]
          omega]
        unfold «section»
        rw [reads_u32 hn]
        simp only [Outcome.ok_bind]
        unfold sectionName
        rw [if_neg (by rintro rfl; simp at hc)]
        simp only [Outcome.ok_bind, set32_64]
        cases V.event s (.sectionStart ⟨code, len, []⟩) with
        | ok s =>
          simp only [Outcome.ok_bind]
          have hb : sectionBody V ⟨code, len, []⟩ s (good rest (8 + cs.length + [code].length + n.length)) = .throw "Bad section" := by
            unfold sectionBody
            have ne : ∀ k : Byte, k.toNat < 12 → code ≠ k := by
              rintro k hk rfl
              omega
            simp only
            rw [if_neg (ne _ (by decide)), if_neg (ne _ (by decide)), if_neg (ne _ (by decide)), if_neg (ne _ (by decide)),
              if_neg (ne _ (by decide)), if_neg (ne _ (by decide)), if_neg (ne _ (by decide)), if_neg (ne _ (by decide)),
              if_neg (ne _ (by decide)), if_neg (ne _ (by decide)), if_neg (ne _ (by decide)), if_neg (ne _ (by decide))]
          rw [hb]
          rfl
        | _ => rfl
      | _ => rfl
    | _ => rfl
  | _ => rfl

/-- A function section, then a section numbered 13. -/
example : EncModule NotLongNegative (hdr ++ [3, 2, 1, 0]) [⟨.functions [0], 2⟩] ∧ EncU32 [5] 5 ∧
    readModule recorder [] (hdr ++ [3, 2, 1, 0] ++ [13] ++ [5] ++ [0]) = .throw "Bad section" := by
  refine ⟨⟨_, rfl, .cons (bs := [3, 2, 1, 0]) ⟨[2], [1, 0], rfl, encU32_digit 2 (by decide), rfl, ?_⟩ .nil⟩,
    encU32_digit 5 (by decide), by decide +kernel⟩
  exact encVec_cons (.cons (bs := [0]) (encU32_digit 0 (by decide)) .nil) 1 rfl (by decide)

/-- C63, a type section: a function type that does not begin with 0x60 is rejected. -/
theorem C63_function_type_partial (mem : Nat) (tag : Byte) (h : tag ≠ 0x60#8) (rest : List Byte) (off : Nat) :
    functionType mem (good (tag :: rest) off) = .throw "Expected function type, got something else." := by
  unfold functionType
  rw [show tag :: rest = [tag] ++ rest from rfl, reads_byte]
  simp only [Outcome.ok_bind]
  rw [if_pos h]

/-- C63, an import: a kind that is none of 0 to 3 is rejected. -/
theorem C63_import_kind_partial (mem : Nat) (m f : List Byte) (ms fs : List Byte) (hm : EncName ms m) (hf : EncName fs f)
    (nm : NoNul m) (nf : NoNul f) (hmem : (ms ++ fs).length ≤ mem) (kind : Byte) (h : 4 ≤ kind.toNat) (rest : List Byte) (off : Nat) :
    importEntry mem (good (ms ++ fs ++ [kind] ++ rest) off) = .throw "Unknown external kind code" := by
  rw [List.length_append] at hmem
  unfold importEntry
  simp only [List.append_assoc]
  rw [reads_string mem hm nm (by omega)]
  simp only [Outcome.ok_bind]
  rw [reads_string mem hf nf (by omega)]
  simp only [Outcome.ok_bind]
  rw [reads_byte]
  simp only [Outcome.ok_bind]
  have ne : ∀ k : Byte, k.toNat < 4 → kind ≠ k := by
    rintro k hk rfl
    omega
  unfold importType
  rw [if_neg (ne _ (by decide)), if_neg (ne _ (by decide)), if_neg (ne _ (by decide)), if_neg (ne _ (by decide))]
  rfl

example : importEntry 100 (good ([1, 0x61] ++ [1, 0x62] ++ [4] ++ []) 0) = .throw "Unknown external kind code" :=
  C63_import_kind_partial 100 [0x61] [0x62] [1, 0x61] [1, 0x62] (encVec_bytes 1 rfl (by decide)) (encVec_bytes 1 rfl (by decide))
    (by simp [NoNul]) (by simp [NoNul]) (by decide) 4 (by decide) [] 0

/-- C63, an initializer: an instruction that may not stand there is rejected. -/
theorem C63_initializer_partial (mem : Nat) (bs : List Byte) (e : Expr) (h : EncInstr NotLongNegative bs e)
    (hm : ¬ Missing e.op.toNat) (hmem : 4 * bs.length ≤ mem)
    (hi : ¬ (e.op = 0x23#8 ∨ e.op = 0x41#8 ∨ e.op = 0x42#8 ∨ e.op = 0x43#8 ∨ e.op = 0x44#8)) (suf : List Byte) (off : Nat) :
    initExpr mem (good (bs ++ suf) off) = .throw "Unexpected expression in initialization expression" := by
  unfold initExpr
  rw [reads_instr mem h hm hmem]
  simp only [Outcome.ok_bind]
  rw [if_neg hi]

/-- C63 fails: a five-byte file is accepted; section number 257 is taken for 1; a file that ends in the middle
of a data segment is accepted, and zeros reported in place of what is missing; a byte that is no opcode in an
initializer ends the process; and the longest length of a name is undefined behaviour. -/
theorem C63_negation :
    (∃ i, readModule recorder [] [0, 0x61, 0x73, 0x6d, 1] = .ok ([.moduleStart, .header 0x6d736100 1, .moduleEnd], i)) ∧
    (∃ i, readModule recorder [] (hdr ++ [0x81, 2, 1, 0]) = .ok ([.moduleStart, .header 0x6d736100 1, .sectionStart ⟨1, 1, []⟩,
      .typeSection 0, .sectionEnd ⟨1, 1, []⟩, .moduleEnd], i)) ∧
    (∃ i, readModule recorder [] (hdr ++ [11, 8, 1, 0, 0x41, 0, 0x0b, 3, 7]) = .ok ([.moduleStart, .header 0x6d736100 1,
      .sectionStart ⟨11, 8, []⟩, .dataSegment ⟨0, ⟨0x41, .int 0⟩, [7, 0, 0]⟩, .sectionEnd ⟨11, 8, []⟩, .moduleEnd], i)) ∧
    readModule recorder [] (hdr ++ [6, 4, 1, 0x7f, 0, 0xff]) = .trap "exit(-1)" ∧
    (readModule recorder [] (hdr ++ [2, 0, 1, 0xff, 0xff, 0xff, 0xff, 0xff, 0xff, 0xff, 0xff, 0xff, 1])).isUb = true := by
  refine ⟨⟨⟨[], true, true, 4⟩, ?_⟩, ⟨⟨[], true, true, 12⟩, ?_⟩, ⟨⟨[], true, true, 16⟩, ?_⟩, ?_, ?_⟩ <;> decide +kernel

/-- C63 fails: the sizes of sections are not checked. A file whose sections, whatever their contents, state any
sizes whatsoever is accepted, and its contents are reported. -/
theorem C63_sizes_negation (V : Visitor σ) (be : σ → Nat → FunctionBody → List Byte → Outcome σ)
    (B : FunctionBody → List Byte → Prop) (hB : ReadsBodies V be B) (cs : List Byte) (m : List WSection)
    (h : EncSeq (EncAnySize NotLongNegative) cs m) (hm : ∀ s ∈ m, Readable B s.content)
    (hmem : 8 * cs.length ≤ V.mem) (s : σ) :
    (readModule V s (hdr ++ cs) >>= fun x => .ok x.1) = tell V be s (moduleCalls m) := by
  unfold readModule moduleCalls
  rw [show hdr = [0x00#8, 0x61#8, 0x73#8, 0x6d#8, 0x01#8, 0x00#8, 0x00#8, 0x00#8] from rfl]
  simp only [List.cons_append, List.nil_append, tell]
  cases V.event s .moduleStart with
  | ok s =>
    simp only [Outcome.ok_bind]
    have hh := header_good V s cs
    simp only [List.cons_append, List.nil_append] at hh
    simp only [In.start]
    rw [hh]
    cases V.event s (.header 0x6d736100#32 1#32) with
    | ok s =>
      simp only [Outcome.ok_bind]
      obtain ⟨fuel', hle, he⟩ := sections_any V be hB h hm hmem
        ((0#8 :: 97#8 :: 115#8 :: 109#8 :: 1#8 :: 0#8 :: 0#8 :: 0#8 :: cs).length + 2) s [] 8 (by simp; omega)
      simp only [List.length_cons] at hle
      rw [List.append_nil] at he
      rw [he, tell_append]
      cases tell V be s (m.flatMap sectionCalls) with
      | ok s =>
        simp only [Outcome.ok_bind, tell]
        obtain ⟨f, rfl⟩ : ∃ f, fuel' = f + 1 := ⟨fuel' - 1, by omega⟩
        rw [sections_end]
        simp only [Outcome.ok_bind]
        cases V.event s .moduleEnd <;> rfl
      | _ => rfl
    | _ => rfl
  | _ => rfl

/-- A function section of two bytes that says that it has a hundred, and a global section after it. -/
example : EncSeq (EncAnySize NotLongNegative) [3, 100, 1, 0, 6, 0, 0] [⟨.functions [0], 100⟩, ⟨.globals [], 0⟩] ∧
    (readModule recorder [] (hdr ++ [3, 100, 1, 0, 6, 0, 0]) >>= fun x => .ok x.1) = .ok [.moduleStart, .header 0x6d736100 1,
      .sectionStart ⟨3, 100, []⟩, .functionEntry 0 0, .sectionEnd ⟨3, 100, []⟩, .sectionStart ⟨6, 0, []⟩,
      .sectionEnd ⟨6, 0, []⟩, .moduleEnd] := by
  refine ⟨.cons (bs := [3, 100, 1, 0]) ⟨[100], [1, 0], rfl, encU32_digit 100 (by decide), ?_⟩
    (.cons (bs := [6, 0, 0]) ⟨[0], [0], rfl, encU32_digit 0 (by decide), ?_⟩ .nil), by decide +kernel⟩
  · exact encVec_cons (.cons (bs := [0]) (encU32_digit 0 (by decide)) .nil) 1 rfl (by decide)
  · exact encVec_cons .nil 0 rfl (by decide)

end Ab.Wasm
