import Verif.Model.Builder
import Verif.Spec.Machine

/-!
Property theorems C12, C13: the module builder's instruction stream and the instruction list reader.
-/

namespace Ab
open Spec

/-! ## C12 builder preserves instructions -/

/-- The instruction a builder node stands for (registers as numbers). -/
def Insn.meaning : Insn → Instr
  | .unreachable => .unreachable
  | .halt => .halt
  | .nop => .nop
  | .i32Add d l r => .add d.toNat l.toNat r.toNat
  | .ret => .ret
  | .x32Return s => .x32ret s.toNat
  | .x64Return s => .x64ret s.toNat

/-- The instruction with its register numbers reduced modulo 256. -/
def Insn.meaning256 : Insn → Instr
  | .unreachable => .unreachable
  | .halt => .halt
  | .nop => .nop
  | .i32Add d l r => .add (d.toNat % 256) (l.toNat % 256) (r.toNat % 256)
  | .ret => .ret
  | .x32Return s => .x32ret (s.toNat % 256)
  | .x64Return s => .x64ret (s.toNat % 256)

/-- All register operands fit in 8 bits. -/
def Insn.small : Insn → Prop
  | .i32Add d l r => d.toNat < 256 ∧ l.toNat < 256 ∧ r.toNat < 256
  | .x32Return s => s.toNat < 256
  | .x64Return s => s.toNat < 256
  | _ => True

theorem narrow8_toNat (r : U32) : (narrow8 r).toNat = r.toNat % 256 := by
  unfold narrow8; simp [BitVec.toNat_setWidth]

theorem decode_writeInsn (i : Insn) (rest : List Byte) :
    decode (writeInsn i ++ rest) = some i.meaning256 ∧ (writeInsn i).length = i.meaning256.size := by
  cases i <;> simp [writeInsn, decode, Insn.meaning256, Instr.size, narrow8_toNat]

/-- **C12**, exact behaviour for all register numbers: the written stream decodes, instruction by instruction
and in order, to the pushed instructions with register numbers modulo 256. -/
theorem C12_stream_decodes_modulo_256 (is : List Insn) :
    DecodesTo (is.map writeInsn).flatten (is.map Insn.meaning256) := by
  induction is with
  | nil => exact .nil
  | cons i is ih =>
    obtain ⟨h1, h2⟩ := decode_writeInsn i (is.map writeInsn).flatten
    rw [List.map_cons, List.map_cons, List.flatten_cons]
    refine .cons h1 ?_ ?_
    · rw [List.length_append, h2]; omega
    · rw [← h2, List.drop_left]; exact ih

/-- **C12**, full statement. -/
def C12_full : Prop :=
  ∀ f : FuncNode, DecodesTo f.code.body (f.insns.map Insn.meaning) ∧ f.code.nregs = f.nregs

/-- **C12 is false of the code**: `x32.return` of register 256 is written as register 0. -/
theorem C12_negation : ¬ C12_full := by
  intro h
  have h1 := (h ⟨0#32, 300#32, [.x32Return 256#32]⟩).1
  have h2 := C12_stream_decodes_modulo_256 [.x32Return 256#32]
  have := h1.unique h2
  revert this
  decide

/-- **C12**, what holds: functions whose register operands are below 256 are written faithfully.
Missing: larger register numbers, which the builder accepts and silently reduces modulo 256. -/
theorem C12_stream_decodes_partial (f : FuncNode) (h : ∀ i ∈ f.insns, i.small) :
    DecodesTo f.code.body (f.insns.map Insn.meaning) ∧ f.code.nregs = f.nregs := by
  refine ⟨?_, rfl⟩
  have : f.insns.map Insn.meaning = f.insns.map Insn.meaning256 := by
    apply List.map_congr_left
    intro i hi
    have := h i hi
    cases i <;> simp_all [Insn.meaning, Insn.meaning256, Insn.small, Nat.mod_eq_of_lt]
  rw [this]
  exact C12_stream_decodes_modulo_256 f.insns

example : ∀ i ∈ [Insn.i32Add 2#32 0#32 1#32, .x32Return 2#32], i.small := by
  simp [Insn.small]

/-! ## C13 instruction list reader -/

/-- The events expected for an instruction. -/
def eventOf : Instr → Option ReaderEvent
  | .unreachable => some .unreachable
  | .nop => some .nop
  | .halt => some .halt
  | _ => none

/-- **C13**, full statement: on every stream the code writer can produce, the reader terminates and reports as many
instructions as were written. -/
def C13_full : Prop :=
  ∀ is : List Insn, ∃ fuel es, readInsnList (is.map writeInsn).flatten fuel 0 = .ok es ∧ es.length = is.length

theorem readInsnList_stuck (pre : List Byte) (op : Byte) (rest : List Byte)
    (h0 : op ≠ 0x00#8) (h1 : op ≠ 0x01#8) (h4 : op ≠ 0x04#8) (fuel : Nat) :
    readInsnList (pre ++ op :: rest) fuel pre.length = .fuel := by
  induction fuel with
  | zero => rfl
  | succ fuel ih =>
    rw [readInsnList, if_pos (by simp), List.getElem?_append_right (Nat.le_refl _), Nat.sub_self,
      List.getElem?_cons_zero]
    simp only
    rw [if_neg h0, if_neg h1, if_neg h4]
    exact ih

/-- **C13 fails for every other instruction**: whenever the stream contains, after any number of unreachable / nop / halt
instructions, some other instruction, the reader never terminates (it is still running after any number of
steps). -/
theorem C13_diverges_on_other_instructions (pre : List Insn) (i : Insn) (rest : List Insn)
    (hpre : ∀ j ∈ pre, j = .unreachable ∨ j = .nop ∨ j = .halt)
    (hi : i ≠ .unreachable ∧ i ≠ .nop ∧ i ≠ .halt) (fuel : Nat) :
    readInsnList ((pre ++ i :: rest).map writeInsn).flatten fuel 0 = .fuel := by
  have hop : ∃ op t, writeInsn i = op :: t ∧ op ≠ 0x00#8 ∧ op ≠ 0x01#8 ∧ op ≠ 0x04#8 := by
    cases i <;> simp [writeInsn] at hi ⊢ <;> decide
  obtain ⟨op, t, hw, h0, h1, h4⟩ := hop
  have key : ∀ (done todo : List Insn), (∀ j ∈ todo, j = .unreachable ∨ j = .nop ∨ j = .halt) →
      ∀ fuel, readInsnList (((done ++ todo) ++ i :: rest).map writeInsn).flatten fuel
        ((done.map writeInsn).flatten.length) = .fuel := by
    intro done todo
    induction todo generalizing done with
    | nil =>
      intro _ fuel
      have := readInsnList_stuck (done.map writeInsn).flatten op (t ++ (rest.map writeInsn).flatten) h0 h1 h4 fuel
      simp only [List.append_nil, List.map_append, List.map_cons, List.flatten_append, List.flatten_cons, hw,
        List.cons_append]
      exact this
    | cons j todo ih =>
      intro hj fuel
      cases fuel with
      | zero => rfl
      | succ fuel =>
        have hrec := ih (done ++ [j]) (fun k hk => hj k (by simp [hk])) fuel
        have hlen : ((done ++ [j]).map writeInsn).flatten.length = (done.map writeInsn).flatten.length + 1 := by
          rcases hj j (by simp) with rfl | rfl | rfl <;> simp [writeInsn]
        rw [hlen, show done ++ [j] ++ todo = done ++ j :: todo by simp] at hrec
        have hget : (((done ++ j :: todo) ++ i :: rest).map writeInsn).flatten[(done.map writeInsn).flatten.length]?
            = (writeInsn j)[0]? := by
          rw [List.append_assoc, List.map_append, List.flatten_append, List.getElem?_append_right (Nat.le_refl _),
            Nat.sub_self, List.cons_append, List.map_cons, List.flatten_cons]
          rcases hj j (by simp) with rfl | rfl | rfl <;> simp [writeInsn]
        have hlt : (done.map writeInsn).flatten.length
            < (((done ++ j :: todo) ++ i :: rest).map writeInsn).flatten.length := by
          rw [List.append_assoc, List.map_append, List.flatten_append, List.length_append, List.cons_append,
            List.map_cons, List.flatten_cons, List.length_append]
          have : 1 ≤ (writeInsn j).length := by cases j <;> simp [writeInsn]
          omega
        rw [readInsnList, if_pos hlt, hget]
        rcases hj j (by simp) with rfl | rfl | rfl
        · simp only [writeInsn, List.getElem?_cons_zero, if_true]; rw [hrec]; rfl
        · simp only [writeInsn, List.getElem?_cons_zero, if_true]; rw [hrec]; rfl
        · simp only [writeInsn, List.getElem?_cons_zero, if_true]; rw [hrec]; rfl
  have := key [] pre hpre fuel
  simpa using this

example : (∀ j ∈ [Insn.nop], j = .unreachable ∨ j = .nop ∨ j = .halt) ∧
    (Insn.ret ≠ .unreachable ∧ Insn.ret ≠ .nop ∧ Insn.ret ≠ .halt) := by simp

/-- **C13 is false of the code**: a single `return` makes the reader loop for ever. -/
theorem C13_negation : ¬ C13_full := by
  intro h
  obtain ⟨fuel, es, h1, _⟩ := h [.ret]
  have := C13_diverges_on_other_instructions [] .ret [] (by simp) (by simp) fuel
  rw [List.nil_append] at this
  rw [this] at h1
  cases h1

/-- **C13**, what holds: on a stream of unreachable, nop and halt instructions the reader terminates and reports each
instruction once, in order. Missing: all other instructions (`C13_diverges_on_other_instructions`). -/
theorem C13_reads_handled_instructions_partial (is : List Insn)
    (h : ∀ j ∈ is, j = .unreachable ∨ j = .nop ∨ j = .halt) :
    ∃ es, readInsnList (is.map writeInsn).flatten (is.length + 1) 0 = .ok es ∧
      es.map some = is.map (fun i => eventOf i.meaning) := by
  have key : ∀ (done todo : List Insn), (∀ j ∈ done ++ todo, j = .unreachable ∨ j = .nop ∨ j = .halt) →
      ∃ es, readInsnList ((done ++ todo).map writeInsn).flatten (todo.length + 1) done.length = .ok es ∧
        es.map some = todo.map (fun i => eventOf i.meaning) := by
    intro done todo
    have hlen : ∀ l : List Insn, (∀ j ∈ l, j = .unreachable ∨ j = .nop ∨ j = .halt) →
        (l.map writeInsn).flatten.length = l.length := by
      intro l hl
      induction l with
      | nil => rfl
      | cons j l ih =>
        rw [List.map_cons, List.flatten_cons, List.length_append, ih (fun k hk => hl k (by simp [hk]))]
        rcases hl j (by simp) with rfl | rfl | rfl <;> simp [writeInsn] <;> omega
    induction todo generalizing done with
    | nil =>
      intro hd
      refine ⟨[], ?_, rfl⟩
      rw [readInsnList, if_neg]
      rw [hlen _ hd]; simp
    | cons j todo ih =>
      intro hd
      obtain ⟨es, h1, h2⟩ := ih (done ++ [j]) (by simpa using hd)
      rw [show done ++ [j] ++ todo = done ++ j :: todo by simp, List.length_append, List.length_singleton] at h1
      have hdl := hlen done (fun k hk => hd k (by simp [hk]))
      have hget : ((done ++ j :: todo).map writeInsn).flatten[done.length]? = (writeInsn j)[0]? := by
        rw [List.map_append, List.flatten_append, List.getElem?_append_right (by omega), hdl, Nat.sub_self,
          List.map_cons, List.flatten_cons]
        rcases hd j (by simp) with rfl | rfl | rfl <;> simp [writeInsn]
      rw [List.length_cons, readInsnList, if_pos (by rw [hlen _ hd]; simp), hget]
      rcases hd j (by simp) with rfl | rfl | rfl
      · refine ⟨.unreachable :: es, ?_, by simp [h2, eventOf, Insn.meaning]⟩
        simp only [writeInsn, List.getElem?_cons_zero, if_true]; rw [h1]; rfl
      · refine ⟨.nop :: es, ?_, by simp [h2, eventOf, Insn.meaning]⟩
        simp only [writeInsn, List.getElem?_cons_zero, if_true]; rw [h1]; rfl
      · refine ⟨.halt :: es, ?_, by simp [h2, eventOf, Insn.meaning]⟩
        simp only [writeInsn, List.getElem?_cons_zero, if_true]; rw [h1]; rfl
  have := key [] is (by simpa using h)
  simpa using this

example : ∀ j ∈ [Insn.nop, .halt, .unreachable], j = .unreachable ∨ j = .nop ∨ j = .halt := by simp

end Ab
