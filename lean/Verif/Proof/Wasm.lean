import Verif.Props.LebStream
import Verif.Spec.Wasm
/-! Reading what the specification encodes. -/
namespace Ab.Wasm
open Spec Spec.Wasm

/-- A stream in a good state. -/
abbrev good (bs : List Byte) (off : Nat) : In := ⟨bs, false, false, off⟩

/-- `f` reads `bs` as `a`: it consumes exactly `bs`. -/
def Reads (f : In → Outcome (α × In)) (bs : List Byte) (a : α) : Prop :=
  ∀ suf off, f (good (bs ++ suf) off) = .ok (a, good suf (off + bs.length))

theorem get_good (b : Byte) (bs : List Byte) (off : Nat) : In.get (good (b :: bs) off) = (good bs (off + 1), b) := rfl

/-! ### Numbers -/

/-- The stream of the model of leb128.hpp as one of ours. -/
def lift (i : LebStream.In) : In := ⟨i.rest, i.eof, i.eof, i.offset⟩

/-- The loop agrees with the model of leb128.hpp (C44, C55) on a stream that has not failed. -/
theorem lebLoop_eq (fuel : Nat) (s : List Byte) (off : Nat) (r : U64) (sh : Nat) :
    lebLoop fuel (good s off) r sh =
      (LebStream.loop fuel ⟨s, false, off⟩ r sh >>= fun x => .ok (lift x.1, x.2.1, x.2.2.1, x.2.2.2)) := by
  induction fuel generalizing s off r sh with
  | zero => rfl
  | succ fuel ih =>
    rw [lebLoop, LebStream.loop]
    by_cases h63 : 63 < sh
    · rw [if_pos h63, if_pos h63]; rfl
    · rw [if_neg h63, if_neg h63]
      cases s with
      | nil =>
        simp only [In.get, LebStream.In.get]
        simp [lift]
      | cons b bs =>
        simp only [get_good, LebStream.get_cons]
        by_cases hc : b &&& 0x80#8 ≠ 0#8 ∧ sh + 7 < 64 ∧ True
        · rw [if_pos hc, if_pos hc, ih]
        · rw [if_neg hc, if_neg hc]; rfl

theorem uleb_eq (s : List Byte) (off : Nat) :
    uleb (good s off) = (LebStream.uleb128 ⟨s, false, off⟩ >>= fun x => .ok (x.2, lift x.1)) := by
  unfold uleb LebStream.uleb128
  rw [lebLoop_eq]
  cases LebStream.loop 11 ⟨s, false, off⟩ 0#64 0 <;> rfl

theorem sleb_eq (s : List Byte) (off : Nat) :
    sleb (good s off) = (LebStream.leb128 ⟨s, false, off⟩ >>= fun x => .ok (x.2, lift x.1)) := by
  unfold sleb LebStream.leb128
  rw [lebLoop_eq]
  cases LebStream.loop 11 ⟨s, false, off⟩ 0#64 0 with
  | ok x =>
    obtain ⟨i, r, sh, b⟩ := x
    simp only [Outcome.ok_bind]
    by_cases hb : b &&& 0x40#8 ≠ 0#8
    · rw [if_pos hb, if_pos hb]
      by_cases hs : sh < 64
      · rw [if_pos hs, if_pos hs]; rfl
      · rw [if_neg hs, if_neg hs]; rfl
    · rw [if_neg hb, if_neg hb]; rfl
  | _ => rfl

theorem reads_uleb (bs : List Byte) (h : IsLeb bs) (hl : bs.length ≤ 10) :
    Reads uleb bs (BitVec.ofNat 64 (lebValue bs)) := by
  intro suf off
  rw [uleb_eq, LebStream.C44_complete_number_partial bs suf h hl off]
  rfl

theorem reads_sleb (bs : List Byte) (h : IsLeb bs) (hl : bs.length ≤ 10) (hn : NotLongNegative bs) :
    Reads sleb bs (BitVec.ofInt 64 (slebValue bs)) := by
  intro suf off
  rw [sleb_eq, LebStream.C55_signed_number_partial bs suf h hl off hn]
  rfl

theorem reads_u32 {bs : List Byte} {n : U32} (h : EncU32 bs n) : Reads uleb bs (n.setWidth 64) := by
  have := reads_uleb bs h.1 (by have := h.2.1; omega)
  rw [h.2.2] at this
  rwa [show BitVec.ofNat 64 n.toNat = n.setWidth 64 from by
    apply BitVec.eq_of_toNat_eq
    rw [BitVec.toNat_ofNat, BitVec.toNat_setWidth]] at this

theorem encU32_pos {bs : List Byte} {n : U32} (h : EncU32 bs n) : 1 ≤ bs.length := by
  cases bs with
  | nil => exact absurd h.1 id
  | cons _ _ => simp

@[simp] theorem set32_64 (n : U32) : (n.setWidth 64).setWidth 32 = n := by
  apply BitVec.eq_of_toNat_eq
  rw [BitVec.toNat_setWidth, BitVec.toNat_setWidth]
  have := n.isLt
  omega

@[simp] theorem toNat_64 (n : U32) : (n.setWidth 64).toNat = n.toNat := by
  rw [BitVec.toNat_setWidth]
  have := n.isLt
  omega

theorem read_good (bs suf : List Byte) (off : Nat) (n : Nat) (h : bs.length = n) :
    In.read (good (bs ++ suf) off) n = (good suf (off + n), bs) := by
  subst h
  unfold In.read
  simp

theorem leNat_leBytes (k n : Nat) : leNat (leBytes k n) = n % 256 ^ k := by
  induction k generalizing n with
  | zero => simp [leBytes, leNat]; omega
  | succ k ih =>
    have : leNat (leBytes (k + 1) n) = (BitVec.ofNat 8 n).toNat + 256 * leNat (leBytes k (n / 256)) := rfl
    rw [this, ih, BitVec.toNat_ofNat, Nat.pow_succ 256 k, Nat.mul_comm (256 ^ k), Nat.mod_mul]

theorem leBytes_length (k n : Nat) : (leBytes k n).length = k := by
  induction k generalizing n with
  | zero => rfl
  | succ k ih => simp [leBytes, ih]

theorem reads_number (k n : Nat) (h : n < 256 ^ k) : Reads (readNumber k) (leBytes k n) n := by
  intro suf off
  unfold readNumber
  rw [read_good _ _ _ _ (leBytes_length k n)]
  simp only
  rw [if_neg (by simp [leBytes_length]), leNat_leBytes, Nat.mod_eq_of_lt h, leBytes_length]

theorem reads_byte (b : Byte) : Reads uint8 [b] b := by
  intro suf off
  unfold uint8 uint
  rw [if_neg (by simp), read_good [b] suf off 1 rfl]
  simp only [Outcome.ok_bind, Outcome.pure_eq, leNat, List.foldr_cons, List.foldr_nil]
  simp

/-! ### Sequences -/

theorem reads_times {f : In → Outcome (β × In)} {P : List Byte → α → Prop} {g : α → β}
    {bs : List Byte} {l : List α} (h : EncSeq P bs l) (hp : ∀ cs a, cs.length ≤ bs.length → P cs a → Reads f cs (g a)) :
    Reads (times f l.length) bs (l.map g) := by
  induction h with
  | nil => intro suf off; rfl
  | @cons cs a ds l hc hd ih =>
    intro suf off
    rw [List.length_cons, times, List.append_assoc, hp cs a (by simp) hc]
    simp only [Outcome.ok_bind]
    rw [ih (fun cs a hl => hp cs a (by rw [List.length_append]; omega))]
    simp only [Outcome.ok_bind, Outcome.pure_eq, List.map_cons, List.length_append]
    rw [Nat.add_assoc]

theorem encSeq_length {P : List Byte → α → Prop} {bs : List Byte} {l : List α} (h : EncSeq P bs l)
    (hp : ∀ cs a, P cs a → 1 ≤ cs.length) : l.length ≤ bs.length := by
  induction h with
  | nil => simp
  | cons hc _ ih =>
    have := hp _ _ hc
    rw [List.length_append, List.length_cons]
    omega

theorem encSeq_byte {bs : List Byte} {l : List Byte} (h : EncSeq EncByte bs l) : bs = l := by
  induction h with
  | nil => rfl
  | cons hc _ ih => rw [hc, ih]; rfl

/-- The count of a vector. -/
theorem reads_count {n : Nat} {c : List Byte} (hn : n < 2 ^ 32) (h : EncU32 c (BitVec.ofNat 32 n)) :
    Reads uleb c (BitVec.ofNat 64 n) := by
  have := reads_u32 h
  rwa [show (BitVec.ofNat 32 n).setWidth 64 = BitVec.ofNat 64 n from by
    apply BitVec.eq_of_toNat_eq
    rw [BitVec.toNat_setWidth, BitVec.toNat_ofNat, BitVec.toNat_ofNat]
    omega] at this

theorem count_toNat {n : Nat} (hn : n < 2 ^ 32) : (BitVec.ofNat 64 n).toNat = n := by
  rw [BitVec.toNat_ofNat]; omega

/-! ### Instructions -/

theorem opName_known : ∀ op : Byte, (Opcode op.toNat ∧ ¬ Missing op.toNat) → (opName op).isSome = true := by
  unfold Opcode Missing ReservedOp
  decide +kernel

theorem opName_only : ∀ op : Byte, (opName op).isSome = true → Opcode op.toNat ∧ ¬ Missing op.toNat := by
  unfold Opcode Missing ReservedOp
  decide +kernel

theorem readExpr_known (mem : Nat) (op : Byte) (h : Opcode op.toNat) (hm : ¬ Missing op.toNat) (s : List Byte) (off : Nat) :
    readExpr mem (good (op :: s) off) =
      (readImm mem (immKind op.toNat) (good s (off + 1)) >>= fun x => .ok (⟨op, x.1⟩, x.2)) := by
  unfold readExpr
  rw [get_good]
  have := opName_known op ⟨h, hm⟩
  cases ho : opName op with
  | none => rw [ho] at this; cases this
  | some _ => simp only [ho]; rfl

theorem readExpr_missing (mem : Nat) (op : Byte) (h : ¬ (Opcode op.toNat ∧ ¬ Missing op.toNat)) (s : List Byte) (off : Nat) :
    readExpr mem (good (op :: s) off) = .trap "exit(-1)" := by
  unfold readExpr
  rw [get_good]
  cases ho : opName op with
  | none => simp only [ho]
  | some _ => exact absurd (opName_only op (by rw [ho]; rfl)) h

theorem kind_block {op : Nat} (h : BlockOp op) : immKind op = .typeCode ∧ Opcode op ∧ ¬ Missing op := by
  unfold BlockOp at h
  have : op = 2 ∨ op = 3 ∨ op = 4 := by omega
  rcases this with rfl | rfl | rfl <;> simp [immKind, Opcode, Missing, ReservedOp]

theorem kind_index {op : Nat} (h : IndexOp op) : immKind op = .index ∧ Opcode op ∧ ¬ Missing op := by
  unfold IndexOp at h
  have : op = 0xc ∨ op = 0xd ∨ op = 0x10 ∨ op = 0x20 ∨ op = 0x21 ∨ op = 0x22 ∨ op = 0x23 ∨ op = 0x24 := by omega
  rcases this with rfl | rfl | rfl | rfl | rfl | rfl | rfl | rfl <;> simp [immKind, Opcode, Missing, ReservedOp]

theorem kind_memory {op : Nat} (h : MemoryOp op) : immKind op = .memory ∧ Opcode op ∧ ¬ Missing op := by
  unfold MemoryOp at h
  refine ⟨?_, ?_, ?_⟩
  · unfold immKind
    rw [if_neg (by omega), if_neg (by omega), if_neg (by omega), if_neg (by omega), if_neg (by omega), if_pos h]
  · unfold Opcode; omega
  · unfold Missing ReservedOp; omega

theorem kind_plain {op : Nat} (h : PlainOp op) : immKind op = .none ∧ Opcode op := by
  unfold PlainOp BlockOp IndexOp MemoryOp at h
  refine ⟨?_, h.1⟩
  unfold immKind
  rw [if_neg (by omega), if_neg (by omega), if_neg (by omega), if_neg (by omega), if_neg (by omega), if_neg (by omega),
    if_neg (by omega), if_neg (by omega), if_neg (by omega)]

theorem encU32_1 {bs : List Byte} {n : U32} : EncU32 bs n → 1 ≤ bs.length := encU32_pos

/-- Every instruction that is not missing from the table is read. -/
theorem reads_instr (mem : Nat) {bs : List Byte} {e : Expr} (h : EncInstr NotLongNegative bs e)
    (hm : ¬ Missing e.op.toNat) (hmem : 4 * bs.length ≤ mem) : Reads (readExpr mem) bs e := by
  intro suf off
  cases h with
  | plain hp =>
    have hk := kind_plain hp
    rw [List.cons_append, readExpr_known mem _ hk.2 hm, hk.1]
    simp [readImm]
  | block hp =>
    have hk := kind_block hp
    rw [List.cons_append, readExpr_known mem _ hk.2.1 hm, hk.1]
    simp only [readImm, List.cons_append, get_good, Outcome.ok_bind, List.nil_append, List.length_cons, List.length_nil]
  | index hp hn =>
    have hk := kind_index hp
    rw [List.cons_append, readExpr_known mem _ hk.2.1 hm, hk.1, readImm, reads_u32 hn]
    simp only [Outcome.ok_bind, Outcome.pure_eq, List.length_cons, Outcome.ok.injEq, Prod.mk.injEq, In.mk.injEq,
      true_and]
    omega
  | memory hp ha ho =>
    have hk := kind_memory hp
    rw [List.cons_append, readExpr_known mem _ hk.2.1 hm, hk.1, readImm, List.append_assoc, reads_u32 ha]
    simp only [Outcome.ok_bind]
    rw [reads_u32 ho]
    simp only [Outcome.ok_bind, Outcome.pure_eq, List.length_cons, List.length_append, Outcome.ok.injEq, Prod.mk.injEq,
      In.mk.injEq, true_and]
    omega
  | reserved hr => exact absurd (Or.inl hr) hm
  | @table ls l ds d hv hd =>
    obtain ⟨c, cs, rfl, hlt, hc, hs⟩ := hv
    rw [List.cons_append, readExpr_known mem 14#8 (by unfold Opcode; decide) hm,
      show immKind (14#8 : Byte).toNat = .table from rfl, readImm, List.append_assoc, List.append_assoc, reads_count hlt hc]
    simp only [Outcome.ok_bind]
    have hlen := encSeq_length hs (fun _ _ => encU32_pos)
    rw [count_toNat hlt, if_neg (by simp only [List.length_cons, List.length_append] at hmem; omega),
      reads_times (g := fun (n : U32) => n.setWidth 64) hs (fun cs a _ h => reads_u32 h)]
    simp only [Outcome.ok_bind]
    rw [reads_u32 hd]
    simp only [Outcome.ok_bind, Outcome.pure_eq, List.map_map, set32_64, List.length_cons, List.length_append]
    rw [show ((fun x : U64 => x.setWidth 32) ∘ fun (n : U32) => n.setWidth 64) = id from by
      funext x; exact set32_64 x, List.map_id]
    simp only [Outcome.ok.injEq, Prod.mk.injEq, In.mk.injEq, true_and]
    omega
  | callIndirect hn =>
    rw [List.cons_append, readExpr_known mem 17#8 (by unfold Opcode; decide) hm,
      show immKind (17#8 : Byte).toNat = .signature from rfl, readImm, List.append_assoc, reads_u32 hn]
    simp only [Outcome.ok_bind]
    rw [reads_uleb [0#8] (by simp [IsLeb, Continues]) (by simp)]
    simp only [Outcome.ok_bind, Outcome.pure_eq, set32_64, List.length_cons, List.length_append, Outcome.ok.injEq,
      Prod.mk.injEq, In.mk.injEq, true_and, List.length_nil]
    exact ⟨rfl, by omega⟩
  | i32 hn =>
    obtain ⟨h1, h2, rfl, -, -⟩ := hn
    rw [List.cons_append, readExpr_known mem 65#8 (by unfold Opcode; decide) hm,
      show immKind (65#8 : Byte).toNat = .int from rfl, readImm, reads_sleb _ h1 (by omega) (fun h => by omega)]
    simp only [Outcome.ok_bind, Outcome.pure_eq, List.length_cons, Outcome.ok.injEq, Prod.mk.injEq, In.mk.injEq,
      true_and]
    omega
  | i64 hn hl =>
    obtain ⟨h1, h2, rfl, -, -⟩ := hn
    rw [List.cons_append, readExpr_known mem 66#8 (by unfold Opcode; decide) hm,
      show immKind (66#8 : Byte).toNat = .int from rfl, readImm, reads_sleb _ h1 (by omega) hl]
    simp only [Outcome.ok_bind, Outcome.pure_eq, List.length_cons, Outcome.ok.injEq, Prod.mk.injEq, In.mk.injEq,
      true_and]
    omega
  | @f32 n =>
    rw [List.cons_append, readExpr_known mem 67#8 (by unfold Opcode; decide) hm,
      show immKind (67#8 : Byte).toNat = .u32 from rfl, readImm, reads_number 4 _ (by have := n.isLt; simpa using this)]
    simp only [Outcome.ok_bind, Outcome.pure_eq, List.length_cons, Outcome.ok.injEq, Prod.mk.injEq, In.mk.injEq,
      true_and, BitVec.ofNat_toNat, BitVec.setWidth_eq]
    omega
  | @f64 n =>
    rw [List.cons_append, readExpr_known mem 68#8 (by unfold Opcode; decide) hm,
      show immKind (68#8 : Byte).toNat = .u64 from rfl, readImm, reads_number 8 _ (by have := n.isLt; simpa using this)]
    simp only [Outcome.ok_bind, Outcome.pure_eq, List.length_cons, Outcome.ok.injEq, Prod.mk.injEq, In.mk.injEq,
      true_and, BitVec.ofNat_toNat, BitVec.setWidth_eq]
    omega

theorem encInstr_pos {L : List Byte → Prop} {bs : List Byte} {e : Expr} (h : EncInstr L bs e) : 1 ≤ bs.length := by
  cases h <;> simp

end Ab.Wasm
