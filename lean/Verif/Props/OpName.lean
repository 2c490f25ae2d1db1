import Verif.Model.OpName
/-! C111: opcodes are told apart by name. -/
namespace Ab.OpName

/-- C111, the part that holds: two opcodes with the same name, if it is not "unknown", are the same; and whatever the state, an opcode
that the interpreter does not refuse by aborting has a name, unless it is 0x6b. Missing: 0x6b, see `C111_negation`. -/
theorem C111_names_partial :
    (∀ a b : Byte, name a = name b → name a ≠ "unknown" → a = b) ∧
    ∀ (e : Env) (func : FuncInst) (sp ip : Nat) (mem : Mem) (op : Byte), fetch e ip = .ok op → (step e func sp ip mem).isTrap = false →
      op ≠ 0x6b#8 → name op ≠ "unknown" := by
  constructor
  · have key : ∀ a : Byte, name a = "unknown" ∨ ∀ b : Byte, name a = name b → a = b := by decide +kernel
    intro a b h hu
    rcases key a with hk | hk
    · exact absurd hk hu
    · exact hk b h
  · intro e func sp ip mem op hf ht hne
    have key : ∀ op : Byte, name op ≠ "unknown" ∨ op = 0x6b#8 ∨ (op.toNat ≠ 0 ∧ op.toNat ≠ 1 ∧ op.toNat ≠ 2 ∧ op.toNat ≠ 4 ∧ op.toNat ≠ 12 ∧
        op.toNat ≠ 13 ∧ op.toNat ≠ 22 ∧ op.toNat ≠ 23 ∧ op.toNat ≠ 24 ∧ op.toNat ≠ 106 ∧ op.toNat ≠ 107) := by decide +kernel
    rcases key op with hk | hk | ⟨a0, a1, a2, a4, a12, a13, a22, a23, a24, a106, a107⟩
    · exact hk
    · exact absurd hk hne
    · exfalso
      have : step e func sp ip mem = .trap "AB_ASSERT_UNREACHABLE: unimplemented" := by
        unfold step
        rw [hf, Outcome.ok_bind]
        split <;> first | contradiction | rfl
      rw [this] at ht
      exact absurd ht (by decide)

/-- C111 is false of the code: 0x6b runs (here `i32.sub r0 r0 r1`) and is called "unknown", as opcodes are that the interpreter refuses. -/
theorem C111_negation :
    ∃ (e : Env) (func : FuncInst) (mem : Mem), fetch e 64 = .ok 0x6b#8 ∧ (step e func 4096 64 mem).isOk = true ∧
      name 0x6b#8 = "unknown" ∧ name 0x6c#8 = "unknown" :=
  ⟨⟨4096, 64, [0x6b#8, 0#8, 0#8, 1#8]⟩, ⟨⟨[], []⟩, 2#32, 64⟩, fun _ => 0#8, rfl, by decide, by decide, by decide⟩

/-- `i32.add` runs and is named. -/
example : fetch ⟨4096, 64, [0x6a#8, 0#8, 0#8, 1#8]⟩ 64 = .ok 0x6a#8 ∧
    (step ⟨4096, 64, [0x6a#8, 0#8, 0#8, 1#8]⟩ ⟨⟨[], []⟩, 2#32, 64⟩ 4096 64 (fun _ => 0#8)).isTrap = false ∧ name 0x6a#8 = "i32.add" :=
  ⟨rfl, by decide, by decide⟩

end Ab.OpName
