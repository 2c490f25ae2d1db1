import Verif.Proof.Interp2
import Verif.Model.Builder

/-!
Property theorems C17, C18, C22–C25: the interpreter loop.
-/

namespace Ab
open Spec

/-! A concrete context used in the non-vacuity examples: a function of two registers whose body
(`i32.add r0 r0 r1; goto_if r1, +0; x32.return r0`) starts at offset 2 of the module bytes. -/

def exBody : List Byte := [106#8, 0#8, 0#8, 1#8, 23#8, 1#8, 0#8, 13#8, 0#8]
def exEnv : Env := ⟨4096, 64, [7#8, 7#8] ++ exBody ++ [0#8]⟩
def exFunc : FuncInst := ⟨⟨[I32, I32], [I32]⟩, 2#32, 66⟩
def exInstrs : List Instr := [.add 0 0 1, .gotoIf 1 0, .x32ret 0]

theorem exBodyAt : BodyAt exEnv exFunc.body exBody := ⟨[7#8, 7#8], [0#8], rfl, rfl⟩

theorem exFrameOk : FrameOk exEnv exFunc 6096 := ⟨by decide, by decide⟩

theorem exWellFormed : WellFormedBody exBody exFunc.nregs.toNat exInstrs where
  decodes := .cons rfl (by decide) (.cons rfl (by decide) (.cons rfl (by decide) .nil))
  nonempty := by simp [exInstrs]
  regs := by simp [exInstrs, Instr.regs, exFunc]
  supported := by simp [exInstrs]
  last := by
    intro i hi
    simp only [exInstrs, List.getLast?_cons_cons, List.getLast?_singleton, Option.some.injEq] at hi
    subst hi; rfl
  targets := by
    intro pre i post h off ho
    match pre, h with
    | [], h =>
      simp only [exInstrs, List.nil_append, List.cons.injEq] at h
      rw [← h.1] at ho; simp [Instr.branch] at ho
    | [a], h =>
      simp only [exInstrs, List.cons_append, List.nil_append, List.cons.injEq] at h
      obtain ⟨rfl, rfl, rfl⟩ := h
      simp only [Instr.branch, Option.some.injEq] at ho
      subst ho
      exact ⟨[.add 0 0 1, .gotoIf 1 0], .x32ret 0, [], rfl, by simp [bytesOf, Instr.size]⟩
    | [a, b], h =>
      simp only [exInstrs, List.cons_append, List.nil_append, List.cons.injEq] at h
      rw [← h.2.2.1] at ho; simp [Instr.branch] at ho
    | a :: b :: c :: t, h =>
      simp [exInstrs] at h

/-! ## C17 -/

/-- **C17**: for every well-formed body, every start memory (hence all argument values) and every number `k` of steps,
the interpreter loop started at the body does what the abstract register machine does in `k` steps: see `RunOk`
(same position, same registers, same exit kind and value, overflow where the machine overflows, nothing outside the
register area changed); and the abstract machine never gets stuck. -/
theorem C17_interpreter_refines_machine {e : Env} {func : FuncInst} {sp : Nat} {body : List Byte} {is : List Instr}
    (hb : BodyAt e func.body body) (hf : FrameOk e func sp) (hw : WellFormedBody body func.nregs.toNat is)
    (mem : Mem) (k : Nat) :
    RunOk e func sp func.body func.body mem k (arun body func.nregs.toNat k (.running 0 (regView mem sp))) ∧
    arun body func.nregs.toNat k (.running 0 (regView mem sp)) ≠ .stuck := by
  refine ⟨?_, never_stuck hw k _⟩
  have := run_sim hb hf k 0 (regView mem sp) mem (fun i _ => rfl)
  rwa [Nat.add_zero] at this

/-- **C17**, non-termination: if the abstract machine runs for ever, so does the interpreter. -/
theorem C17_divergence {e : Env} {func : FuncInst} {sp : Nat} {body : List Byte}
    (hb : BodyAt e func.body body) (hf : FrameOk e func sp) (mem : Mem)
    (hdiv : ∀ k, ∃ pc regs, arun body func.nregs.toNat k (.running 0 (regView mem sp)) = .running pc regs) (fuel : Nat) :
    run e func sp fuel func.body mem = .fuel := by
  have := run_sim hb hf fuel 0 (regView mem sp) mem (fun i _ => rfl)
  obtain ⟨pc, regs, h⟩ := hdiv fuel
  rw [h, Nat.add_zero] at this
  obtain ⟨mem', h1, _⟩ := this
  have := h1 0
  rw [Nat.add_zero] at this
  rw [this]; rfl

/-- **C17**, converse: whenever the interpreter ends normally, the abstract machine stopped too, at the same place, with
the same registers, for the same reason and with the same value. -/
theorem C17_every_exit_is_explained {e : Env} {func : FuncInst} {sp : Nat} {body : List Byte} {is : List Instr}
    (hb : BodyAt e func.body body) (hf : FrameOk e func sp) (hw : WellFormedBody body func.nregs.toNat is)
    (mem : Mem) (fuel : Nat) (x : Exit) (hx : run e func sp fuel func.body mem = .ok x) :
    ∃ pc regs, x.ip = func.body + pc ∧ (∀ i, i < func.nregs.toNat → regView x.mem sp i = regs i) ∧
      ((arun body func.nregs.toNat fuel (.running 0 (regView mem sp)) = .halted pc regs ∧ x.ret = 0 ∧ x.error = false) ∨
       (arun body func.nregs.toNat fuel (.running 0 (regView mem sp)) = .unreachable pc regs ∧ x.ret = 0 ∧
          x.error = true) ∨
       (arun body func.nregs.toNat fuel (.running 0 (regView mem sp)) = .returned pc none regs ∧ x.ret = 0 ∧
          x.error = false) ∨
       (∃ i, arun body func.nregs.toNat fuel (.running 0 (regView mem sp)) = .returned pc (some i) regs ∧
          x.ret = sp + 4 * i ∧ x.error = false)) := by
  obtain ⟨hr, hns⟩ := C17_interpreter_refines_machine hb hf hw mem fuel
  cases hs : arun body func.nregs.toNat fuel (.running 0 (regView mem sp)) with
  | running pc regs =>
    rw [hs] at hr
    obtain ⟨mem', h1, _⟩ := hr
    have := h1 0
    rw [Nat.add_zero, hx] at this
    cases this
  | halted pc regs =>
    rw [hs] at hr
    obtain ⟨mem', h1, h2, _⟩ := hr
    have := h1 fuel (Nat.le_refl _)
    rw [hx] at this; cases this
    exact ⟨pc, regs, rfl, h2, .inl ⟨rfl, rfl, rfl⟩⟩
  | unreachable pc regs =>
    rw [hs] at hr
    obtain ⟨mem', h1, h2, _⟩ := hr
    have := h1 fuel (Nat.le_refl _)
    rw [hx] at this; cases this
    exact ⟨pc, regs, rfl, h2, .inr <| .inl ⟨rfl, rfl, rfl⟩⟩
  | returned pc src regs =>
    rw [hs] at hr
    obtain ⟨mem', h1, h1', _, h2, _⟩ := hr
    by_cases hz : mem (sp + 4 * func.nregs.toNat) = 0#8
    · have := h1 hz fuel (Nat.le_refl _)
      rw [hx] at this; cases this
      cases src with
      | none => exact ⟨pc, regs, rfl, h2, .inr <| .inr <| .inl ⟨rfl, rfl, rfl⟩⟩
      | some i => exact ⟨pc, regs, rfl, h2, .inr <| .inr <| .inr ⟨i, rfl, rfl, rfl⟩⟩
    · have := h1' hz fuel (Nat.le_refl _)
      rw [hx] at this; simp [Outcome.isTrap] at this
  | overflow =>
    rw [hs] at hr
    have := hr fuel (Nat.le_refl _)
    rw [hx] at this; simp [Outcome.isUb] at this
  | stuck => exact absurd hs hns

example : BodyAt exEnv exFunc.body exBody ∧ FrameOk exEnv exFunc 6096 ∧
    WellFormedBody exBody exFunc.nregs.toNat exInstrs := ⟨exBodyAt, exFrameOk, exWellFormed⟩

/-- A machine that runs for ever: `goto -2`. -/
theorem C17_divergence_nonvacuous :
    ∀ k, ∃ pc regs, arun [22#8, 0xfe#8] 2 k (.running 0 (regView (fun _ => 0#8) 6096)) = .running pc regs := by
  intro k
  refine ⟨0, regView (fun _ => 0#8) 6096, ?_⟩
  induction k with
  | zero => rfl
  | succ k ih =>
    rw [arun]
    have : astep [22#8, 0xfe#8] 2 (.running 0 (regView (fun _ => 0#8) 6096))
        = .running 0 (regView (fun _ => 0#8) 6096) := rfl
    rw [this, ih]

/-! ## C18 -/

theorem step_SameOutside_256 {e : Env} {func : FuncInst} {sp ip ip' : Nat} {mem mem' : Mem}
    (h : step e func sp ip mem = .ok (.next ip' mem')) : SameOutside mem mem' sp 256 := by
  have hst : ∀ (dst : Byte) (v : Nat) (m' : Mem), store e mem (regAddr sp dst) 4 v = .ok m' →
      SameOutside mem m' sp 256 := by
    intro dst v m' hm x hx
    unfold store at hm
    split at hm
    · cases hm
      apply writeAt_outside
      rw [natBytes_length]
      unfold regAddr SIZEOF_SLOT
      have := dst.isLt
      omega
    · cases hm
  unfold step at h
  obtain ⟨op, _, h⟩ := Outcome.bind_eq_ok.mp h
  split at h <;> try (cases h <;> exact .refl _ _ _)
  · obtain ⟨_, _, h⟩ := Outcome.bind_eq_ok.mp h
    split at h <;> cases h
  · obtain ⟨_, _, h⟩ := Outcome.bind_eq_ok.mp h
    obtain ⟨_, _, h⟩ := Outcome.bind_eq_ok.mp h
    obtain ⟨_, _, h⟩ := Outcome.bind_eq_ok.mp h
    split at h <;> cases h
  · obtain ⟨_, _, h⟩ := Outcome.bind_eq_ok.mp h
    obtain ⟨_, _, h⟩ := Outcome.bind_eq_ok.mp h
    cases h; exact .refl _ _ _
  · obtain ⟨_, _, h⟩ := Outcome.bind_eq_ok.mp h
    obtain ⟨_, _, h⟩ := Outcome.bind_eq_ok.mp h
    obtain ⟨_, _, h⟩ := Outcome.bind_eq_ok.mp h
    obtain ⟨_, _, h⟩ := Outcome.bind_eq_ok.mp h
    cases h; exact .refl _ _ _
  · obtain ⟨_, _, h⟩ := Outcome.bind_eq_ok.mp h
    obtain ⟨_, _, h⟩ := Outcome.bind_eq_ok.mp h
    obtain ⟨_, _, h⟩ := Outcome.bind_eq_ok.mp h
    obtain ⟨_, _, h⟩ := Outcome.bind_eq_ok.mp h
    cases h; exact .refl _ _ _
  · obtain ⟨_, _, h⟩ := Outcome.bind_eq_ok.mp h
    obtain ⟨_, _, h⟩ := Outcome.bind_eq_ok.mp h
    obtain ⟨_, _, h⟩ := Outcome.bind_eq_ok.mp h
    obtain ⟨_, _, h⟩ := Outcome.bind_eq_ok.mp h
    obtain ⟨_, _, h⟩ := Outcome.bind_eq_ok.mp h
    obtain ⟨_, _, h⟩ := Outcome.bind_eq_ok.mp h
    obtain ⟨m', hm, h⟩ := Outcome.bind_eq_ok.mp h
    cases h; exact hst _ _ _ hm
  · obtain ⟨_, _, h⟩ := Outcome.bind_eq_ok.mp h
    obtain ⟨_, _, h⟩ := Outcome.bind_eq_ok.mp h
    obtain ⟨_, _, h⟩ := Outcome.bind_eq_ok.mp h
    obtain ⟨_, _, h⟩ := Outcome.bind_eq_ok.mp h
    obtain ⟨_, _, h⟩ := Outcome.bind_eq_ok.mp h
    obtain ⟨_, _, h⟩ := Outcome.bind_eq_ok.mp h
    obtain ⟨m', hm, h⟩ := Outcome.bind_eq_ok.mp h
    cases h; exact hst _ _ _ hm

/-- **C18**: after any number of executed instructions of a well-formed body, from any memory, every stack byte outside
the function's register area is unchanged. -/
theorem C18_only_own_frame_written {e : Env} {func : FuncInst} {sp : Nat} {body : List Byte} {is : List Instr}
    (hb : BodyAt e func.body body) (hf : FrameOk e func sp) (hw : WellFormedBody body func.nregs.toNat is)
    (mem : Mem) (k : Nat) (ip' : Nat) (mem' : Mem) (h : iterSteps e func sp k (func.body, mem) = .ok (ip', mem')) :
    ∀ x, x < sp ∨ sp + 4 * func.nregs.toNat ≤ x → mem' x = mem x := by
  have key : ∀ k pc regs m, AtBoundary is (.running pc regs) → RegsMatch m sp func.nregs.toNat regs →
      iterSteps e func sp k (func.body + pc, m) = .ok (ip', mem') → SameOutside m mem' sp func.nregs.toNat := by
    intro k
    induction k with
    | zero => intro pc regs m _ _ hi; cases hi; exact .refl _ _ _
    | succ k ih =>
      intro pc regs m hbd hm hi
      have hs := step_sim hb hf pc regs m hm
      have hb' := astep_boundary hw hbd
      generalize astep body func.nregs.toNat (.running pc regs) = s at hs hb'
      rw [iterSteps] at hi
      cases s with
      | running pc1 regs1 =>
        obtain ⟨m1, h1, h2, h3⟩ := hs
        simp only [h1, Outcome.ok_bind] at hi
        exact h3.trans (ih pc1 regs1 m1 hb' h2 hi)
      | halted pc1 regs1 =>
        simp only [hs.2.2, Outcome.ok_bind] at hi
        cases hi; exact .refl _ _ _
      | unreachable pc1 regs1 =>
        simp only [hs.2.2, Outcome.ok_bind] at hi
        cases hi; exact .refl _ _ _
      | returned pc1 src regs1 =>
        obtain ⟨_, _, h1, h2, _⟩ := hs
        by_cases hz : m (sp + 4 * func.nregs.toNat) = 0#8
        · simp only [h1 hz, Outcome.ok_bind] at hi
          cases hi; exact .refl _ _ _
        · have := h2 hz
          cases hst : step e func sp (func.body + pc) m <;> rw [hst] at this <;> simp_all [Outcome.isTrap]
      | overflow =>
        simp only [StepOk] at hs
        cases hst : step e func sp (func.body + pc) m <;> rw [hst] at hs <;> simp_all [Outcome.isUb]
      | stuck => exact hb'.elim
  have h0 : AtBoundary is (.running 0 (regView mem sp)) := by
    cases his : is with
    | nil => exact absurd his hw.nonempty
    | cons i post => exact ⟨[], i, post, rfl, rfl⟩
  exact key k 0 (regView mem sp) mem h0 (fun i _ => rfl) (by rw [Nat.add_zero]; exact h)

/-- **C18**, for code of any kind (well formed or not): no instruction changes a byte outside the 1024 bytes that the
256 encodable registers occupy. -/
theorem C18_any_code_writes_within_256_registers {e : Env} {func : FuncInst} {sp : Nat} (k : Nat) (ip : Nat) (mem : Mem)
    (ip' : Nat) (mem' : Mem) (h : iterSteps e func sp k (ip, mem) = .ok (ip', mem')) :
    ∀ x, x < sp ∨ sp + 1024 ≤ x → mem' x = mem x := by
  have key : SameOutside mem mem' sp 256 := by
    induction k generalizing ip mem with
    | zero => cases h; exact .refl _ _ _
    | succ k ih =>
      rw [iterSteps] at h
      obtain ⟨r, hr, h⟩ := Outcome.bind_eq_ok.mp h
      cases r with
      | next ip1 mem1 => exact (step_SameOutside_256 hr).trans (ih ip1 mem1 h)
      | exit _ _ => cases h; exact .refl _ _ _
  exact key

example : ∃ ip' mem', iterSteps exEnv exFunc 6096 2 (66, fun _ => 0#8) = .ok (ip', mem') := ⟨_, _, rfl⟩

/-! ## C22 -/

/-- The four bytes of an arithmetic instruction are at `ip`, and its registers are inside the stack. -/
structure ArithAt (e : Env) (sp ip : Nat) (op d l r : Byte) : Prop where
  f0 : fetch e ip = .ok op
  f1 : fetch e (ip + 1) = .ok d
  f2 : fetch e (ip + 2) = .ok l
  f3 : fetch e (ip + 3) = .ok r
  lo : e.stackLo ≤ sp
  hd : sp + 4 * d.toNat + 4 ≤ e.stackHi
  hl : sp + 4 * l.toNat + 4 ≤ e.stackHi
  hr : sp + 4 * r.toNat + 4 ≤ e.stackHi

/-- What `i32.add` / `i32.sub` must do for operands `a`, `b` and result `v`: continue with the next instruction, the destination
register holds `v`, no other register and no other byte has changed. -/
def ArithResult (o : Outcome StepRes) (sp ip : Nat) (mem : Mem) (d : Byte) (v : U32) : Prop :=
  ∃ mem', o = .ok (.next (ip + 4) mem') ∧ regView mem' sp d.toNat = v ∧
    (∀ i, i ≠ d.toNat → regView mem' sp i = regView mem sp i) ∧
    (∀ x, x < sp + 4 * d.toNat ∨ sp + 4 * d.toNat + 4 ≤ x → mem' x = mem x)

/-- **C22**, full statement: two's-complement addition and subtraction for all operand pairs. -/
def C22_full : Prop :=
  ∀ (e : Env) (func : FuncInst) (sp ip : Nat) (mem : Mem) (d l r : Byte),
    (ArithAt e sp ip 106#8 d l r →
      ArithResult (step e func sp ip mem) sp ip mem d (regView mem sp l.toNat + regView mem sp r.toNat)) ∧
    (ArithAt e sp ip 107#8 d l r →
      ArithResult (step e func sp ip mem) sp ip mem d (regView mem sp l.toNat - regView mem sp r.toNat))

theorem loadReg_at (e : Env) (mem : Mem) (sp : Nat) (i : Byte) (h1 : e.stackLo ≤ sp)
    (h2 : sp + 4 * i.toNat + 4 ≤ e.stackHi) : loadReg e mem sp i = .ok (regView mem sp i.toNat) := by
  unfold loadReg regAddr SIZEOF_SLOT
  rw [load_ok e mem _ _ (by omega) (by omega)]
  simp only [Outcome.ok_bind, regView]
  rw [Nat.mul_comm]

theorem ofInt_toInt_sub (a b : U32) : BitVec.ofInt 32 (a.toInt - b.toInt) = a - b := by
  apply BitVec.eq_of_toInt_eq
  rw [BitVec.toInt_ofInt, BitVec.toInt_sub]

theorem step_add {e : Env} (func : FuncInst) {sp ip : Nat} (mem : Mem) {d l r : Byte} (h : ArithAt e sp ip 106#8 d l r) :
    step e func sp ip mem = (do
      let v ← checkedI32 ((regView mem sp l.toNat).toInt + (regView mem sp r.toNat).toInt)
      let mem ← store e mem (regAddr sp d) 4 v.toNat
      .ok (.next (ip + 4) mem)) := by
  unfold step
  rw [h.f0]
  simp only [Outcome.ok_bind, BitVec.toNat_ofNat, Nat.reducePow, Nat.reduceMod]
  rw [h.f1, Outcome.ok_bind, h.f2, Outcome.ok_bind, h.f3, Outcome.ok_bind, loadReg_at e mem sp l h.lo h.hl,
    Outcome.ok_bind, loadReg_at e mem sp r h.lo h.hr, Outcome.ok_bind]

theorem step_sub {e : Env} (func : FuncInst) {sp ip : Nat} (mem : Mem) {d l r : Byte} (h : ArithAt e sp ip 107#8 d l r) :
    step e func sp ip mem = (do
      let v ← checkedI32 ((regView mem sp l.toNat).toInt - (regView mem sp r.toNat).toInt)
      let mem ← store e mem (regAddr sp d) 4 v.toNat
      .ok (.next (ip + 4) mem)) := by
  unfold step
  rw [h.f0]
  simp only [Outcome.ok_bind, BitVec.toNat_ofNat, Nat.reducePow, Nat.reduceMod]
  rw [h.f1, Outcome.ok_bind, h.f2, Outcome.ok_bind, h.f3, Outcome.ok_bind, loadReg_at e mem sp l h.lo h.hl,
    Outcome.ok_bind, loadReg_at e mem sp r h.lo h.hr, Outcome.ok_bind]

theorem arithResult_store {e : Env} {sp ip : Nat} {mem : Mem} {d : Byte} (h1 : e.stackLo ≤ sp)
    (h2 : sp + 4 * d.toNat + 4 ≤ e.stackHi) (v : U32) :
    ArithResult (do
      let mem ← store e mem (regAddr sp d) 4 v.toNat
      .ok (.next (ip + 4) mem)) sp ip mem d v := by
  unfold regAddr SIZEOF_SLOT
  rw [store_ok e mem _ _ _ (by omega) (by omega)]
  refine ⟨_, rfl, ?_, ?_, ?_⟩
  · rw [regView_write, if_pos rfl]
  · intro i hi
    rw [regView_write, if_neg hi]
  · intro x hx
    apply writeAt_outside
    rw [natBytes_length]; omega

/-- **C22**, what holds: whenever the exact result fits in 32 bits, `i32.add` and `i32.sub` store it, for every aliasing of
destination and operands, and change nothing else. Missing: overflowing operand pairs (`C22_negation`). -/
theorem C22_add_sub_partial (e : Env) (func : FuncInst) (sp ip : Nat) (mem : Mem) (d l r : Byte) :
    (ArithAt e sp ip 106#8 d l r →
      inI32 ((regView mem sp l.toNat).toInt + (regView mem sp r.toNat).toInt) →
      ArithResult (step e func sp ip mem) sp ip mem d (regView mem sp l.toNat + regView mem sp r.toNat)) ∧
    (ArithAt e sp ip 107#8 d l r →
      inI32 ((regView mem sp l.toNat).toInt - (regView mem sp r.toNat).toInt) →
      ArithResult (step e func sp ip mem) sp ip mem d (regView mem sp l.toNat - regView mem sp r.toNat)) := by
  constructor
  · intro h hin
    rw [step_add func mem h, checkedI32_ok hin, Outcome.ok_bind, BitVec.ofInt_add, BitVec.ofInt_toInt, BitVec.ofInt_toInt]
    exact arithResult_store h.lo h.hd _
  · intro h hin
    rw [step_sub func mem h, checkedI32_ok hin, Outcome.ok_bind, ofInt_toInt_sub]
    exact arithResult_store h.lo h.hd _

/-- **C22**, the excluded operand pairs are exactly the undefined ones: on overflow the program has no defined behaviour. -/
theorem C22_overflow_is_undefined (e : Env) (func : FuncInst) (sp ip : Nat) (mem : Mem) (d l r : Byte) :
    (ArithAt e sp ip 106#8 d l r →
      ¬ inI32 ((regView mem sp l.toNat).toInt + (regView mem sp r.toNat).toInt) →
      (step e func sp ip mem).isUb = true) ∧
    (ArithAt e sp ip 107#8 d l r →
      ¬ inI32 ((regView mem sp l.toNat).toInt - (regView mem sp r.toNat).toInt) →
      (step e func sp ip mem).isUb = true) := by
  constructor
  · intro h hin
    rw [step_add func mem h, checkedI32_ub hin]; rfl
  · intro h hin
    rw [step_sub func mem h, checkedI32_ub hin]; rfl

/-- A memory in which every register holds `2^31 - 1`. -/
def maxMem : Mem := fun x => if x % 4 = 3 then 0x7f#8 else 0xff#8

theorem exArithAt : ArithAt exEnv 6096 66 106#8 0#8 0#8 1#8 :=
  ⟨rfl, rfl, rfl, rfl, by decide, by decide, by decide, by decide⟩

/-- **C22 is false of the code**: adding `2^31 - 1` to itself is a signed overflow, undefined in C++. -/
theorem C22_negation : ¬ C22_full := by
  intro h
  obtain ⟨mem', h1, _⟩ := (h exEnv exFunc 6096 66 maxMem 0#8 0#8 1#8).1 exArithAt
  have := (C22_overflow_is_undefined exEnv exFunc 6096 66 maxMem 0#8 0#8 1#8).1 exArithAt (by decide)
  rw [h1] at this
  simp [Outcome.isUb] at this

example : inI32 ((regView (fun _ => 1#8) 6096 0).toInt + (regView (fun _ => 1#8) 6096 1).toInt) := by decide

/-! ## C23 -/

/-- **C23**, `goto`: from any memory and for every offset byte, execution continues at the end of the instruction plus the
signed offset, and memory is unchanged. -/
theorem C23_goto (e : Env) (func : FuncInst) (sp ip : Nat) (mem : Mem) (off : Byte)
    (f0 : fetch e ip = .ok 22#8) (f1 : fetch e (ip + 1) = .ok off)
    (t : Nat) (ht : (t : Int) = (ip : Int) + 2 + off.toInt) :
    step e func sp ip mem = .ok (.next t mem) := by
  unfold step
  rw [f0]
  simp only [Outcome.ok_bind, BitVec.toNat_ofNat, Nat.reducePow, Nat.reduceMod]
  rw [f1, Outcome.ok_bind]
  have := offsetIp_ok 0 ip off 2 t (by omega) (by omega)
  simp only [Nat.zero_add, Int.toNat_natCast] at this
  rw [this]; rfl

/-- **C23**, `goto_if`: taken exactly when the register is non-zero. -/
theorem C23_goto_if (e : Env) (func : FuncInst) (sp ip : Nat) (mem : Mem) (idx off : Byte)
    (f0 : fetch e ip = .ok 23#8) (f1 : fetch e (ip + 1) = .ok idx) (f2 : fetch e (ip + 2) = .ok off)
    (hlo : e.stackLo ≤ sp) (hhi : sp + 4 * idx.toNat + 4 ≤ e.stackHi) (t : Nat)
    (ht : (t : Int) = if regView mem sp idx.toNat = 0 then (ip : Int) + 3 else (ip : Int) + 3 + off.toInt) :
    step e func sp ip mem = .ok (.next t mem) := by
  unfold step
  rw [f0]
  simp only [Outcome.ok_bind, BitVec.toNat_ofNat, Nat.reducePow, Nat.reduceMod]
  rw [f1, Outcome.ok_bind, f2, Outcome.ok_bind, loadReg_at e mem sp idx hlo hhi, Outcome.ok_bind]
  have := offsetIp_ok 0 ip (if regView mem sp idx.toNat ≠ 0#32 then off else 0#8) 3 t (by omega)
    (by rw [ht]; split <;> simp_all)
  simp only [Nat.zero_add, Int.toNat_natCast] at this
  rw [this]; rfl

/-- **C23**, `goto_unless`: taken exactly when the register is zero. -/
theorem C23_goto_unless (e : Env) (func : FuncInst) (sp ip : Nat) (mem : Mem) (idx off : Byte)
    (f0 : fetch e ip = .ok 24#8) (f1 : fetch e (ip + 1) = .ok idx) (f2 : fetch e (ip + 2) = .ok off)
    (hlo : e.stackLo ≤ sp) (hhi : sp + 4 * idx.toNat + 4 ≤ e.stackHi) (t : Nat)
    (ht : (t : Int) = if regView mem sp idx.toNat = 0 then (ip : Int) + 3 + off.toInt else (ip : Int) + 3) :
    step e func sp ip mem = .ok (.next t mem) := by
  unfold step
  rw [f0]
  simp only [Outcome.ok_bind, BitVec.toNat_ofNat, Nat.reducePow, Nat.reduceMod]
  rw [f1, Outcome.ok_bind, f2, Outcome.ok_bind, loadReg_at e mem sp idx hlo hhi, Outcome.ok_bind]
  have := offsetIp_ok 0 ip (if regView mem sp idx.toNat = 0#32 then off else 0#8) 3 t (by omega)
    (by rw [ht]; split <;> simp_all)
  simp only [Nat.zero_add, Int.toNat_natCast] at this
  rw [this]; rfl

example : fetch exEnv 70 = .ok 23#8 ∧ fetch exEnv 71 = .ok 1#8 ∧ fetch exEnv 72 = .ok 0#8 := ⟨rfl, rfl, rfl⟩

/-- A backward branch: `goto -2` at address 100 continues at address 100. -/
example : step ⟨4096, 100, [22#8, 0xfe#8]⟩ exFunc 6096 100 (fun _ => 0#8) = .ok (.next 100 (fun _ => 0#8)) :=
  C23_goto _ _ _ _ _ _ rfl rfl 100 (by decide)

/-! ## C24 -/

/-- **C24**, `halt`: the interpreter stops here, without error; nothing else changes. -/
theorem C24_halt (e : Env) (func : FuncInst) (sp ip : Nat) (mem : Mem) (h : fetch e ip = .ok 4#8) (fuel : Nat) :
    run e func sp (fuel + 1) ip mem = .ok ⟨0, ip, mem, false⟩ := by
  apply run_exit
  unfold step; rw [h]; rfl

/-- **C24**, `unreachable`: the interpreter stops here with the error flag set; nothing else changes. -/
theorem C24_unreachable (e : Env) (func : FuncInst) (sp ip : Nat) (mem : Mem) (h : fetch e ip = .ok 0#8) (fuel : Nat) :
    run e func sp (fuel + 1) ip mem = .ok ⟨0, ip, mem, true⟩ := by
  apply run_exit
  unfold step; rw [h]; rfl

/-- **C24**, every opcode outside the implemented set aborts the process. -/
theorem C24_unimplemented_aborts (e : Env) (func : FuncInst) (sp ip : Nat) (mem : Mem) (op : Byte)
    (h : fetch e ip = .ok op) (hop : op.toNat ∉ [0, 1, 4, 12, 13, 22, 23, 24, 106, 107]) (fuel : Nat) :
    (run e func sp (fuel + 1) ip mem).isTrap = true := by
  simp only [List.mem_cons, List.not_mem_nil, or_false, not_or] at hop
  rw [run]
  unfold step
  rw [h]
  simp only [Outcome.ok_bind]
  split <;> first | omega | rfl

/-- An instruction never clears or sets the flag otherwise: `flags.error` after a run is the old flag or the run's. -/
theorem interpretFunc_error {e : Env} {fuel : Nat} {st st' : ExecState} {func : FuncInst} {ret : Nat}
    (h : interpretFunc e fuel st func = .ok (st', ret)) (he : st.error = true) : st'.error = true := by
  unfold interpretFunc at h
  obtain ⟨x, _, h⟩ := Outcome.bind_eq_ok.mp h
  cases h
  simp [he]

theorem enterNativeFrame_error {e : Env} {st st' : ExecState} {n : Nat}
    (h : enterNativeFrame e st n = .ok st') : st'.error = st.error := by
  unfold enterNativeFrame at h
  obtain ⟨_, _, h⟩ := Outcome.bind_eq_ok.mp h
  obtain ⟨_, _, h⟩ := Outcome.bind_eq_ok.mp h
  obtain ⟨_, _, h⟩ := Outcome.bind_eq_ok.mp h
  obtain ⟨_, _, h⟩ := Outcome.bind_eq_ok.mp h
  obtain ⟨_, _, h⟩ := Outcome.bind_eq_ok.mp h
  obtain ⟨_, _, h⟩ := Outcome.bind_eq_ok.mp h
  obtain ⟨_, _, h⟩ := Outcome.bind_eq_ok.mp h
  obtain ⟨_, _, h⟩ := Outcome.bind_eq_ok.mp h
  cases h; rfl

theorem leaveNativeFrame_error {e : Env} {st st' : ExecState} {n : Nat}
    (h : leaveNativeFrame e st n = .ok st') : st'.error = st.error := by
  unfold leaveNativeFrame at h
  obtain ⟨_, _, h⟩ := Outcome.bind_eq_ok.mp h
  obtain ⟨_, _, h⟩ := Outcome.bind_eq_ok.mp h
  obtain ⟨_, _, h⟩ := Outcome.bind_eq_ok.mp h
  obtain ⟨_, _, h⟩ := Outcome.bind_eq_ok.mp h
  split at h <;> cases h
  rfl

theorem staticCall_error {e : Env} {fuel : Nat} {st st' : ExecState} {func : FuncInst} {rets : List CType}
    {args : List (CType × Nat)} {vs : List Nat}
    (h : staticCall e fuel st func rets args = .ok (vs, st')) (he : st.error = true) : st'.error = true := by
  unfold staticCall at h
  obtain ⟨_, _, h⟩ := Outcome.bind_eq_ok.mp h
  split at h
  · cases h
  obtain ⟨_, _, h⟩ := Outcome.bind_eq_ok.mp h
  split at h
  · cases h
  obtain ⟨st1, h1, h⟩ := Outcome.bind_eq_ok.mp h
  obtain ⟨_, _, h⟩ := Outcome.bind_eq_ok.mp h
  obtain ⟨⟨st2, _⟩, h2, h⟩ := Outcome.bind_eq_ok.mp h
  obtain ⟨_, _, h⟩ := Outcome.bind_eq_ok.mp h
  obtain ⟨st3, h3, h⟩ := Outcome.bind_eq_ok.mp h
  cases h
  rw [leaveNativeFrame_error h3]
  exact interpretFunc_error h2 (by simpa [enterNativeFrame_error h1] using he)

/-- The operations of the public API that touch the interpreter state. -/
inductive ApiCall where
  | staticCall (func : FuncInst) (rets : List CType) (args : List (CType × Nat))
  | interpret (func : FuncInst)
  | enter (nregs : Nat)
  | leave (nregs : Nat)

/-- The state after one API operation. -/
def ApiCall.exec (e : Env) (fuel : Nat) (st : ExecState) : ApiCall → Outcome ExecState
  | .staticCall func rets args => do
    let r ← Ab.staticCall e fuel st func rets args
    .ok r.2
  | .interpret func => do
    let r ← interpretFunc e fuel st func
    .ok r.1
  | .enter n => enterNativeFrame e st n
  | .leave n => leaveNativeFrame e st n

/-- The state after a history of API operations. -/
def execHistory (e : Env) (fuel : Nat) : ExecState → List ApiCall → Outcome ExecState
  | st, [] => .ok st
  | st, c :: cs => do
    let st ← c.exec e fuel st
    execHistory e fuel st cs

/-- **C24**, the error flag is never cleared: in any history of API operations that the process survives, once set it stays
set. -/
theorem C24_error_flag_is_sticky (e : Env) (fuel : Nat) (st st' : ExecState) (cs : List ApiCall)
    (h : execHistory e fuel st cs = .ok st') (he : st.error = true) : st'.error = true := by
  induction cs generalizing st with
  | nil => cases h; exact he
  | cons c cs ih =>
    obtain ⟨st1, h1, h⟩ := Outcome.bind_eq_ok.mp h
    refine ih st1 h ?_
    cases c with
    | staticCall func rets args =>
      obtain ⟨r, hr, h1⟩ := Outcome.bind_eq_ok.mp h1
      cases h1
      exact staticCall_error hr he
    | interpret func =>
      obtain ⟨r, hr, h1⟩ := Outcome.bind_eq_ok.mp h1
      cases h1
      exact interpretFunc_error hr he
    | enter n => rw [enterNativeFrame_error h1]; exact he
    | leave n => rw [leaveNativeFrame_error h1]; exact he

/-- Non-vacuity: `interpret` of a function that executes `unreachable`, then entering and leaving a frame. -/
example : ∃ st', execHistory ⟨4096, 64, [0#8]⟩ 1 (.init ⟨4096, 64, [0#8]⟩ (fun _ => 0#8))
    [.interpret ⟨⟨[], []⟩, 0#32, 64⟩] = .ok st' ∧ st'.error = true := ⟨_, rfl, rfl⟩

example : (3#8).toNat ∉ [0, 1, 4, 12, 13, 22, 23, 24, 106, 107] := by decide

/-! ## C25 -/

/-- **C25**, full statement: no instruction the code writer emits ends in the `unimplemented` handler. -/
def C25_full : Prop :=
  ∀ (e : Env) (func : FuncInst) (sp ip : Nat) (mem : Mem) (i : Insn), BodyAt e ip (writeInsn i) →
    step e func sp ip mem ≠ .trap "AB_ASSERT_UNREACHABLE: unimplemented"

/-- **C25 fails for `x64.return`** in every state: it always aborts. -/
theorem C25_x64_return_always_aborts (e : Env) (func : FuncInst) (sp ip : Nat) (mem : Mem) (src : U32)
    (h : BodyAt e ip (writeInsn (.x64Return src))) (fuel : Nat) :
    (run e func sp (fuel + 1) ip mem).isTrap = true := by
  refine C24_unimplemented_aborts e func sp ip mem 14#8 ?_ (by decide) fuel
  have := fetch_body h (i := 0) (b := 14#8) rfl
  exact this

/-- **C25 is false of the code** (`x64.return`). -/
theorem C25_negation : ¬ C25_full := by
  intro h
  exact h ⟨4096, 64, [14#8, 0#8]⟩ exFunc 6096 64 (fun _ => 0#8) (.x64Return 0#32) ⟨[], [], rfl, rfl⟩ rfl

/-- **C25**, what holds: every other emitted instruction whose registers exist is executed by its handler inside a native
frame: it never aborts, and its only undefined case is integer overflow. Missing: `x64.return`. -/
theorem C25_executable_partial (e : Env) (func : FuncInst) (sp ip : Nat) (mem : Mem) (i : Insn)
    (hb : BodyAt e ip (writeInsn i)) (hf : FrameOk e func sp) (htag : mem (sp + 4 * func.nregs.toNat) = 0#8)
    (hi : match i with
      | .i32Add d l r => (narrow8 d).toNat < func.nregs.toNat ∧ (narrow8 l).toNat < func.nregs.toNat ∧
          (narrow8 r).toNat < func.nregs.toNat ∧
          inI32 ((regView mem sp (narrow8 l).toNat).toInt + (regView mem sp (narrow8 r).toNat).toInt)
      | .x32Return s => (narrow8 s).toNat < func.nregs.toNat
      | .x64Return _ => False
      | _ => True) :
    (step e func sp ip mem).isOk = true := by
  have hlo := hf.lo
  have hhi := hf.hi
  have f0 : ∀ b, (writeInsn i)[0]? = some b → fetch e ip = .ok b := by
    intro b h; have := fetch_body hb h; rwa [Nat.add_zero] at this
  cases i with
  | unreachable => unfold step; rw [f0 _ rfl]; rfl
  | halt => unfold step; rw [f0 _ rfl]; rfl
  | nop => unfold step; rw [f0 _ rfl]; rfl
  | i32Add d l r =>
    obtain ⟨h1, h2, h3, h4⟩ := hi
    have ha : ArithAt e sp ip 106#8 (narrow8 d) (narrow8 l) (narrow8 r) :=
      ⟨f0 _ rfl, fetch_body hb rfl, fetch_body hb rfl, fetch_body hb rfl, hlo, by omega, by omega, by omega⟩
    obtain ⟨mem', h5, _⟩ := (C22_add_sub_partial e func sp ip mem _ _ _).1 ha h4
    rw [h5]; rfl
  | ret =>
    unfold step; rw [f0 _ rfl]
    simp only [Outcome.ok_bind, BitVec.toNat_ofNat, Nat.reducePow, Nat.reduceMod]
    rw [frameKind_ok hf, Outcome.ok_bind, if_pos htag]; rfl
  | x32Return s =>
    have f1 : fetch e (ip + 1) = .ok (narrow8 s) := fetch_body hb rfl
    unfold step; rw [f0 _ rfl]
    simp only [Outcome.ok_bind, BitVec.toNat_ofNat, Nat.reducePow, Nat.reduceMod]
    rw [f1, Outcome.ok_bind, loadReg_ok hf mem _ hi, Outcome.ok_bind, frameKind_ok hf, Outcome.ok_bind, if_pos htag]; rfl
  | x64Return s => exact hi.elim

example : BodyAt exEnv 66 (writeInsn (.i32Add 0#32 0#32 1#32)) :=
  ⟨[7#8, 7#8], [23#8, 1#8, 0#8, 13#8, 0#8, 0#8], rfl, rfl⟩

end Ab
