import Verif.Proof.Call3
import Verif.Props.Interp

/-!
Property theorems C16 (the call), C19, C20, C21, C26: native frames and `static_call`.
-/

namespace Ab
open Spec

/-! ## C16 signature check at the call -/

/-- **C16**, mismatch: whatever the state and the function, a call whose argument or return types are not the declared ones ends the
process (at the assertion, before any frame is built: the outcome does not depend on the state or on whether the frame
would fit). -/
theorem C16_mismatch_aborts (e : Env) (fuel : Nat) (st : ExecState) (func : FuncInst) (rets : List CType)
    (args : List (CType × Nat))
    (h : args.map (fun a => a.1.toValType) ≠ func.type.args ∨ rets.map CType.toValType ≠ func.type.rets) :
    staticCall e fuel st func rets args = .trap "AB_ASSERT((types_match<As...>(func_type.args)))" ∨
    staticCall e fuel st func rets args = .trap "AB_ASSERT((types_match<Rs...>(func_type.rets)))" := by
  unfold staticCall
  rw [C16_types_match, Outcome.ok_bind]
  have hm : (args.map (·.1)).map CType.toValType = args.map (fun a => a.1.toValType) := by
    rw [List.map_map]; rfl
  rw [hm]
  by_cases h1 : args.map (fun a => a.1.toValType) = func.type.args
  · right
    rw [decide_eq_true h1, if_neg (by simp), C16_types_match, Outcome.ok_bind,
      decide_eq_false (h.resolve_left (fun hn => hn h1)), if_pos (by simp)]
  · left
    rw [decide_eq_false h1, if_pos (by simp)]

/-- **C16**, match: a call with the declared types passes both assertions and is the unchecked call. -/
theorem C16_match_runs (e : Env) (fuel : Nat) (st : ExecState) (func : FuncInst) (rets : List CType)
    (args : List (CType × Nat))
    (h1 : args.map (fun a => a.1.toValType) = func.type.args) (h2 : rets.map CType.toValType = func.type.rets) :
    staticCall e fuel st func rets args = callUnchecked e fuel st func rets args :=
  staticCall_match e fuel st func rets args (by rw [List.map_map]; exact h1) h2

/-- `int64_t` for a declared i32 is a mismatch; `uint32_t, int32_t` for i32, i32 is not. -/
example : [(CType.i64, 5)].map (fun a => a.1.toValType) ≠ [I32] ∧
    [(CType.u32, 5), (CType.i32, 6)].map (fun a => a.1.toValType) = exFunc.type.args := by decide

/-! ## C19 native frames nest -/

/-- What native code does between entering and leaving frames: it writes bytes, runs things that change the instruction and function
pointers, and enters and leaves further frames. -/
inductive Script where
  | done
  | write (a : Nat) (b : Byte) (rest : Script)
  | setRegs (ip fn : Nat) (rest : Script)
  | frame (nregs : Nat) (inner rest : Script)

/-- The caller-visible part of the state. -/
structure Saved where
  sp : Nat
  ip : Nat
  fn : Nat
deriving DecidableEq

def ExecState.saved (st : ExecState) : Saved := ⟨st.sp, st.ip, st.fn⟩

/-- Run a script; the log has one entry per frame: the state before `enter_native_frame` and after the matching
`leave_native_frame`. -/
def Script.exec (e : Env) : Script → ExecState → Outcome (ExecState × List (Saved × Saved))
  | .done, st => .ok (st, [])
  | .write a b rest, st => rest.exec e { st with mem := writeAt st.mem a [b] }
  | .setRegs ip fn rest, st => rest.exec e { st with ip := ip, fn := fn }
  | .frame n inner rest, st => do
    let st1 ← enterNativeFrame e st n
    let (st2, log) ← inner.exec e st1
    let st3 ← leaveNativeFrame e st2 n
    let (st4, log') ← rest.exec e st3
    .ok (st4, (st.saved, st3.saved) :: log ++ log')

/-- The script is well behaved: frames fit on the stack, writes go below the innermost frame header (`limit`), pointers are
64-bit. `sp` is the stack pointer at this nesting level. -/
def Script.Respects (e : Env) : Nat → Nat → Script → Prop
  | _, _, .done => True
  | sp, limit, .write a _ rest => a < limit ∧ rest.Respects e sp limit
  | sp, limit, .setRegs ip fn rest => ip < 2 ^ 64 ∧ fn < 2 ^ 64 ∧ rest.Respects e sp limit
  | sp, limit, .frame n inner rest => e.stackLo + 40 + 4 * n ≤ sp ∧
      inner.Respects e (sp - 40 - 4 * n) (sp - 40) ∧ rest.Respects e sp limit

def Script.frames : Script → Nat
  | .done => 0
  | .write _ _ rest => rest.frames
  | .setRegs _ _ rest => rest.frames
  | .frame _ inner rest => 1 + inner.frames + rest.frames

/-- **C19**: every well-behaved script, of any nesting depth and length, runs to its end (all eye-catcher checks succeed), there is
one log entry per frame, each leave restores the stack pointer, instruction pointer and function pointer that its enter
found, and the bytes at or above the outer limit are unchanged. -/
theorem C19_frames_nest_and_restore (e : Env) (h64 : e.stackHi < 2 ^ 64) (s : Script) :
    ∀ (st : ExecState) (limit : Nat), st.sp ≤ limit → limit ≤ e.stackHi → st.ip < 2 ^ 64 → st.fn < 2 ^ 64 →
      s.Respects e st.sp limit →
      ∃ st' log, s.exec e st = .ok (st', log) ∧ st'.sp = st.sp ∧ log.length = s.frames ∧
        (∀ r ∈ log, r.2 = r.1) ∧ (∀ x, limit ≤ x → st'.mem x = st.mem x) := by
  suffices H : ∀ (st : ExecState) (limit : Nat), st.sp ≤ limit → limit ≤ e.stackHi → st.ip < 2 ^ 64 → st.fn < 2 ^ 64 →
      s.Respects e st.sp limit →
      ∃ st' log, s.exec e st = .ok (st', log) ∧ st'.sp = st.sp ∧ log.length = s.frames ∧
        (∀ r ∈ log, r.2 = r.1) ∧ (∀ x, limit ≤ x → st'.mem x = st.mem x) ∧ st'.ip < 2 ^ 64 ∧ st'.fn < 2 ^ 64 by
    intro st limit h1 h2 h3 h4 h5
    obtain ⟨st', log, g1, g2, g3, g4, g5, _⟩ := H st limit h1 h2 h3 h4 h5
    exact ⟨st', log, g1, g2, g3, g4, g5⟩
  induction s with
  | done =>
    intro st limit _ _ h3 h4 _
    exact ⟨st, [], rfl, rfl, rfl, by simp, fun _ _ => rfl, h3, h4⟩
  | write a b rest ih =>
    intro st limit h1 h2 h3 h4 h5
    obtain ⟨st', log, g1, g2, g3, g4, g5, g6⟩ := ih { st with mem := writeAt st.mem a [b] } limit h1 h2 h3 h4 h5.2
    refine ⟨st', log, g1, g2, g3, g4, ?_, g6⟩
    intro x hx
    rw [g5 x hx]
    apply writeAt_outside
    have := h5.1
    simp; omega
  | setRegs ip fn rest ih =>
    intro st limit h1 h2 h3 h4 h5
    obtain ⟨st', log, g1, g2, g3, g4, g5, g6⟩ := ih { st with ip := ip, fn := fn } limit h1 h2 h5.1 h5.2.1 h5.2.2
    exact ⟨st', log, g1, g2, g3, g4, g5, g6⟩
  | frame n inner rest ihi ihr =>
    intro st limit h1 h2 h3 h4 h5
    obtain ⟨hfit, hin, hre⟩ := h5
    obtain ⟨mem0, he, hh, hm⟩ := enterNativeFrame_ok e st n hfit (by omega) (by omega) h3 h4
    obtain ⟨st2, log2, g1, g2, g3, g4, g5, _⟩ :=
      ihi { st with sp := st.sp - 40 - 4 * n, mem := mem0 } (st.sp - 40) (by simp) (by omega) h3 h4 hin
    have hl := leaveNativeFrame_ok e st2 n (st.sp - 40) st.ip st.sp st.fn (by omega) (by omega)
      (by rw [g2]; simp only; omega) (hh.congr (fun x hx1 hx2 => g5 x hx1))
    obtain ⟨st4, log4, k1, k2, k3, k4, k5, k6⟩ :=
      ihr { st2 with sp := st.sp, ip := st.ip, fn := st.fn } limit h1 h2 h3 h4 hre
    refine ⟨st4, (st.saved, st.saved) :: log2 ++ log4, ?_, k2, ?_, ?_, ?_, k6⟩
    · rw [Script.exec, he, Outcome.ok_bind, g1, Outcome.ok_bind]
      simp only
      rw [hl, Outcome.ok_bind, k1, Outcome.ok_bind]
      rfl
    · simp [g3, k3, Script.frames]; omega
    · intro r hr
      simp only [List.cons_append, List.mem_cons, List.mem_append] at hr
      rcases hr with rfl | hr | hr
      · rfl
      · exact g4 r hr
      · exact k4 r hr
    · intro x hx
      rw [k5 x hx]
      simp only
      rw [g5 x (by omega)]
      exact hm x (by omega)

/-- A script of three frames, two of them nested, with writes into the registers and changed pointers. -/
def exScript : Script :=
  .frame 2 (.write 6048 7#8 (.setRegs 77 5 (.frame 1 (.write 6000 1#8 .done) .done))) (.frame 0 .done .done)

example : exScript.Respects exEnv 6144 6144 ∧ exScript.frames = 3 := by
  simp [exScript, Script.Respects, Script.frames, exEnv]

/-! ## C20 results and restoration -/

/-- The caller's state is what it was: stack pointer, instruction pointer, function pointer, and every stack byte at or above the
stack pointer (and below the callee's frame). -/
def Restored (st st' : ExecState) (func : FuncInst) : Prop :=
  st'.sp = st.sp ∧ st'.ip = st.ip ∧ st'.fn = st.fn ∧
    ∀ x, x < calleeSp st func ∨ st.sp ≤ x → st'.mem x = st.mem x

/-- **C20**: a call, from a state whose saved instruction pointer has a zero low byte (as at top level, where it is null), to a
function for which the abstract machine started on the arguments returns registers `regs'` from register `i`, yields
exactly the values in those registers and restores the caller's state; the error flag is unchanged. -/
theorem C20_static_call_returns_and_restores {e : Env} {st : ExecState} {func : FuncInst} {rets : List CType}
    {args : List (CType × Nat)} (h : CallFits e st func rets args) (hip : st.ip % 256 = 0) {body : List Byte}
    (hb : BodyAt e func.body body) (k pc i : Nat) (regs' : Regs)
    (hk : arun body func.nregs.toNat k (.running 0 (startRegs st.mem (calleeSp st func) args)) = .returned pc (some i) regs')
    (hi : i + regTotal rets ≤ func.nregs.toNat) (fuel : Nat) (hfuel : k ≤ fuel) :
    ∃ st', staticCall e fuel st func rets args = .ok (retVals regs' i rets, st') ∧ Restored st st' func ∧
      st'.error = st.error := by
  obtain ⟨mem1, hc, hf, hr, hh, ht, hm⟩ := call_prologue h
  have hsim := run_sim hb hf k 0 _ mem1 hr
  rw [hk, Nat.add_zero] at hsim
  obtain ⟨mem2, h1, _, _, h2, h3⟩ := hsim
  have hz : mem1 (calleeSp st func + 4 * func.nregs.toNat) = 0#8 := by
    rw [ht]
    apply BitVec.eq_of_toNat_eq
    simpa using hip
  have hx := h1 hz fuel hfuel
  obtain ⟨hl, hmo⟩ := call_epilogue h hh hm h3 (func.body + pc) st.error
  refine ⟨{ ip := st.ip, sp := st.sp, fn := st.fn, func := some func, error := st.error, mem := mem2 }, ?_, ⟨rfl, rfl, rfl, hmo⟩, rfl⟩
  rw [hc fuel, hx, Outcome.ok_bind]
  simp only
  have hg := getStackElements_ok e mem2 (calleeSp st func + 4 * i) [] rets (by have := hf.lo; omega)
    (by have := hf.hi; simp only [regTotal, List.map_nil, List.sum_nil] at hi ⊢; omega)
  simp only [List.nil_append, List.length_nil, show regTotal [] = 0 from rfl] at hg
  rw [hg, Outcome.ok_bind, retVals_shift, Nat.add_zero, Bool.or_false, hl, Outcome.ok_bind,
    retVals_congr h2 rets i hi]

/-- **C20**, the usual case spelled out: a function of type `… → i32` called at top level from a fresh context. -/
theorem C20_top_level_u32 {e : Env} {mem : Mem} {func : FuncInst} {args : List (CType × Nat)}
    (h : CallFits e (.init e mem) func [.u32] args) {body : List Byte}
    (hb : BodyAt e func.body body) (k pc i : Nat) (regs' : Regs)
    (hk : arun body func.nregs.toNat k (.running 0 (startRegs mem (calleeSp (.init e mem) func) args))
      = .returned pc (some i) regs') (hi : i < func.nregs.toNat) (fuel : Nat) (hfuel : k ≤ fuel) :
    ∃ st', staticCall e fuel (.init e mem) func [.u32] args = .ok ([(regs' i).toNat], st') ∧
      st'.sp = e.stackHi ∧ st'.ip = 0 ∧ st'.fn = 0 ∧ st'.error = false := by
  obtain ⟨st', h1, h2, h3⟩ := C20_static_call_returns_and_restores h rfl hb k pc i regs' hk
    (by simp [regTotal, regCount]; omega) fuel hfuel
  exact ⟨st', h1, h2.1, h2.2.1, h2.2.2.1, h3⟩

/-- **C20**, functions that return no value (or halt, or hit `unreachable`) called with no return types: state restored, error
flag set exactly by `unreachable`. -/
theorem C20_no_value {e : Env} {st : ExecState} {func : FuncInst} {args : List (CType × Nat)}
    (h : CallFits e st func [] args) (hip : st.ip % 256 = 0) {body : List Byte} (hb : BodyAt e func.body body) (k pc : Nat)
    (regs' : Regs) (s : AState)
    (hk : arun body func.nregs.toNat k (.running 0 (startRegs st.mem (calleeSp st func) args)) = s)
    (hs : s = .returned pc none regs' ∨ s = .halted pc regs' ∨ s = .unreachable pc regs') (fuel : Nat) (hfuel : k ≤ fuel) :
    ∃ st', staticCall e fuel st func [] args = .ok ([], st') ∧ Restored st st' func ∧
      (st'.error = true ↔ st.error = true ∨ s = .unreachable pc regs') := by
  obtain ⟨mem1, hc, hf, hr, hh, ht, hm⟩ := call_prologue h
  have hsim := run_sim hb hf k 0 _ mem1 hr
  rw [hk, Nat.add_zero] at hsim
  have hz : mem1 (calleeSp st func + 4 * func.nregs.toNat) = 0#8 := by
    rw [ht]
    apply BitVec.eq_of_toNat_eq
    simpa using hip
  rcases hs with rfl | rfl | rfl
  · obtain ⟨mem2, h1, _, _, h2, h3⟩ := hsim
    have hx := h1 hz fuel hfuel
    obtain ⟨hl, hmo⟩ := call_epilogue h hh hm h3 (func.body + pc) st.error
    refine ⟨{ ip := st.ip, sp := st.sp, fn := st.fn, func := some func, error := st.error, mem := mem2 }, ?_, ⟨rfl, rfl, rfl, hmo⟩, by simp⟩
    rw [hc fuel, hx]
    simp only [Outcome.ok_bind, List.length_nil, getStackElements, Bool.or_false, hl]
  · obtain ⟨mem2, h1, h2, h3⟩ := hsim
    have hx := h1 fuel hfuel
    obtain ⟨hl, hmo⟩ := call_epilogue h hh hm h3 (func.body + pc) st.error
    refine ⟨{ ip := st.ip, sp := st.sp, fn := st.fn, func := some func, error := st.error, mem := mem2 }, ?_, ⟨rfl, rfl, rfl, hmo⟩, by simp⟩
    rw [hc fuel, hx]
    simp only [Outcome.ok_bind, List.length_nil, getStackElements, Bool.or_false, hl]
  · obtain ⟨mem2, h1, h2, h3⟩ := hsim
    have hx := h1 fuel hfuel
    obtain ⟨hl, hmo⟩ := call_epilogue h hh hm h3 (func.body + pc) true
    refine ⟨{ ip := st.ip, sp := st.sp, fn := st.fn, func := some func, error := true, mem := mem2 }, ?_, ⟨rfl, rfl, rfl, hmo⟩, by simp⟩
    rw [hc fuel, hx]
    simp only [Outcome.ok_bind, List.length_nil, getStackElements, Bool.or_true, hl]

/-- Outside C20's claim, what happens when a function declared to return a value stops without one: `static_call` reads through a null
pointer. -/
theorem C20_missing_value_is_undefined {e : Env} {st : ExecState} {func : FuncInst} {t : CType} {rets : List CType}
    {args : List (CType × Nat)} (h : CallFits e st func (t :: rets) args) (hip : st.ip % 256 = 0) {body : List Byte}
    (hb : BodyAt e func.body body) (k pc : Nat) (regs' : Regs)
    (hk : arun body func.nregs.toNat k (.running 0 (startRegs st.mem (calleeSp st func) args)) = .returned pc none regs')
    (fuel : Nat) (hfuel : k ≤ fuel) :
    (staticCall e fuel st func (t :: rets) args).isUb = true := by
  obtain ⟨mem1, hc, hf, hr, hh, ht, hm⟩ := call_prologue h
  have hsim := run_sim hb hf k 0 _ mem1 hr
  rw [hk, Nat.add_zero] at hsim
  obtain ⟨mem2, h1, _, _, h2, h3⟩ := hsim
  have hz : mem1 (calleeSp st func + 4 * func.nregs.toNat) = 0#8 := by
    rw [ht]
    apply BitVec.eq_of_toNat_eq
    simpa using hip
  rw [hc fuel, h1 hz fuel hfuel]
  have hoff : nthSlotOffset 0 (t :: rets) = 0 := by simp [nthSlotOffset, nthSlotIndex]
  have hl : load e mem2 (0 + 0) (((t :: rets).getD 0 .u32).sizeof) = .ub "load outside the stack" := by
    unfold load Env.inStack
    rw [if_neg]
    have := h.null
    simp; omega
  simp only [Outcome.ok_bind, List.length_cons, getStackElements, hoff]
  rw [hl]; rfl

/-- Non-vacuity: calling the example function `r0 + r1` with 3 and 4 on a fresh context. -/
example : CallFits exEnv (.init exEnv (fun _ => 0#8)) exFunc [.u32] [(.u32, 3), (.i32, 4)] := by
  refine ⟨by decide, by decide, by decide, by decide, by decide, by decide, by decide, by decide, by decide⟩

example : ∃ pc regs', arun exBody 2 3 (.running 0
    (startRegs (fun _ => 0#8) (calleeSp (.init exEnv (fun _ => 0#8)) exFunc) [(.u32, 3), (.i32, 4)]))
      = .returned pc (some 0) regs' ∧ (regs' 0).toNat = 7 := ⟨_, _, rfl, by decide⟩

/-! ## C21 nested calls -/

/-- **C21**, full statement: a call that returns, returns like a top-level one, whatever instruction pointer the caller's state
holds. -/
def C21_full : Prop :=
  ∀ (e : Env) (st : ExecState) (func : FuncInst) (rets : List CType) (args : List (CType × Nat)) (body : List Byte)
    (k pc i : Nat) (regs' : Regs), CallFits e st func rets args → BodyAt e func.body body →
    arun body func.nregs.toNat k (.running 0 (startRegs st.mem (calleeSp st func) args)) = .returned pc (some i) regs' →
    i + regTotal rets ≤ func.nregs.toNat →
    ∃ st', staticCall e k st func rets args = .ok (retVals regs' i rets, st') ∧ Restored st st' func

/-- **C21 fails whenever the saved instruction pointer does not end in a zero byte**: every call that reaches a return instruction ends
the process. -/
theorem C21_nested_return_aborts {e : Env} {st : ExecState} {func : FuncInst} {rets : List CType}
    {args : List (CType × Nat)} (h : CallFits e st func rets args) (hip : st.ip % 256 ≠ 0) {body : List Byte}
    (hb : BodyAt e func.body body) (k pc : Nat) (src : Option Nat) (regs' : Regs)
    (hk : arun body func.nregs.toNat k (.running 0 (startRegs st.mem (calleeSp st func) args)) = .returned pc src regs')
    (fuel : Nat) (hfuel : k ≤ fuel) :
    (staticCall e fuel st func rets args).isTrap = true := by
  obtain ⟨mem1, hc, hf, hr, hh, ht, hm⟩ := call_prologue h
  have hsim := run_sim hb hf k 0 _ mem1 hr
  rw [hk, Nat.add_zero] at hsim
  obtain ⟨mem2, _, h1, _⟩ := hsim
  have hz : mem1 (calleeSp st func + 4 * func.nregs.toNat) ≠ 0#8 := by
    rw [ht]
    intro hc
    have := congrArg BitVec.toNat hc
    rw [BitVec.toNat_ofNat] at this
    exact hip (by simpa using this)
  rw [hc fuel]
  have := h1 hz fuel hfuel
  cases hrun : run e func (calleeSp st func) fuel func.body mem1 <;> rw [hrun] at this <;> simp_all [Outcome.isTrap]

/-- A history of documented API calls that shows it: push a native frame, run `exFunc` in it, and call `exFunc` again before leaving the
frame. The second call ends the process. -/
theorem C21_api_witness :
    (execHistory exEnv 10 (.init exEnv (fun _ => 0#8))
      [.enter 2, .interpret exFunc, .staticCall exFunc [.u32] [(.u32, 3), (.i32, 4)]]).isTrap = true := by
  decide +kernel

/-- **C21 is false of the code.** -/
theorem C21_negation : ¬ C21_full := by
  intro hfull
  have hfits : CallFits exEnv { (ExecState.init exEnv (fun _ => 0#8)) with ip := 73 } exFunc [.u32] [(.u32, 3), (.i32, 4)] := by
    refine ⟨by decide, by decide, by decide, by decide, by decide, by decide, by decide, by decide, by decide⟩
  have hk : ∃ pc regs', arun exBody exFunc.nregs.toNat 3 (.running 0
      (startRegs (fun _ => 0#8) (calleeSp { (ExecState.init exEnv (fun _ => 0#8)) with ip := 73 } exFunc) [(.u32, 3), (.i32, 4)]))
      = .returned pc (some 0) regs' := ⟨_, _, rfl⟩
  obtain ⟨pc, regs', hk⟩ := hk
  obtain ⟨st', h1, _⟩ := hfull exEnv _ exFunc [.u32] _ exBody 3 pc 0 regs' hfits exBodyAt hk (by decide)
  have h2 := C21_nested_return_aborts hfits (by decide) exBodyAt 3 pc (some 0) regs' hk 3 (Nat.le_refl _)
  rw [h1] at h2
  simp [Outcome.isTrap] at h2

/-- **C21**, what holds: a nested call works like a top-level one when the instruction pointer in the caller's state has a zero low
byte. In particular inside frames that were entered but have not run anything (the instruction pointer is still null).
Missing: every other saved instruction pointer (`C21_nested_return_aborts`). -/
theorem C21_nested_call_partial {e : Env} {st : ExecState} {func : FuncInst} {rets : List CType}
    {args : List (CType × Nat)} {body : List Byte} (n : Nat) (st1 : ExecState) (henter : enterNativeFrame e st n = .ok st1)
    (h : CallFits e st1 func rets args) (hip : st.ip % 256 = 0)
    (hb : BodyAt e func.body body) (k pc i : Nat) (regs' : Regs)
    (hk : arun body func.nregs.toNat k (.running 0 (startRegs st1.mem (calleeSp st1 func) args)) = .returned pc (some i) regs')
    (hi : i + regTotal rets ≤ func.nregs.toNat) (fuel : Nat) (hfuel : k ≤ fuel) :
    ∃ st', staticCall e fuel st1 func rets args = .ok (retVals regs' i rets, st') ∧ Restored st1 st' func := by
  have hip1 : st1.ip = st.ip := by
    unfold enterNativeFrame at henter
    obtain ⟨_, _, h⟩ := Outcome.bind_eq_ok.mp henter
    obtain ⟨_, _, h⟩ := Outcome.bind_eq_ok.mp h
    obtain ⟨_, _, h⟩ := Outcome.bind_eq_ok.mp h
    obtain ⟨_, _, h⟩ := Outcome.bind_eq_ok.mp h
    obtain ⟨_, _, h⟩ := Outcome.bind_eq_ok.mp h
    obtain ⟨_, _, h⟩ := Outcome.bind_eq_ok.mp h
    obtain ⟨_, _, h⟩ := Outcome.bind_eq_ok.mp h
    obtain ⟨_, _, h⟩ := Outcome.bind_eq_ok.mp h
    cases h; rfl
  obtain ⟨st', h1, h2, _⟩ := C20_static_call_returns_and_restores h (by rw [hip1]; exact hip) hb k pc i regs' hk hi fuel hfuel
  exact ⟨st', h1, h2⟩

/-- Non-vacuity: a nested call inside an entered frame. -/
example : (execHistory exEnv 10 (.init exEnv (fun _ => 0#8))
      [.enter 2, .staticCall exFunc [.u32] [(.u32, 3), (.i32, 4)], .leave 2]).isOk = true := by
  decide +kernel

/-! ## C26 stack bounds -/

/-- **C26**, full statement: building the frame of a call on a fresh context never leaves the stack allocation. -/
def C26_full : Prop :=
  ∀ (e : Env) (mem : Mem) (func : FuncInst), e.stackHi < 2 ^ 64 →
    (enterNativeFrame e (.init e mem) func.nregs.toNat).isUb = false

/-- **C26**, the exact bound, for every function and every state: the frame stays inside the allocation exactly when there are
`40 + 4 * nregs` bytes between the bottom of the stack and the stack pointer; on a fresh context, when the function has
at most 502 registers. -/
theorem C26_exact_bound (e : Env) (st : ExecState) (n : Nat) (hhi : st.sp ≤ e.stackHi) (h64 : e.stackHi < 2 ^ 64)
    (hip : st.ip < 2 ^ 64) (hfn : st.fn < 2 ^ 64) :
    ((enterNativeFrame e st n).isOk = true ↔ e.stackLo + 40 + 4 * n ≤ st.sp) ∧
    ((enterNativeFrame e st n).isUb = true ↔ st.sp < e.stackLo + 40 + 4 * n) := by
  by_cases h : e.stackLo + 40 + 4 * n ≤ st.sp
  · obtain ⟨mem', h1, _⟩ := enterNativeFrame_ok e st n h hhi (by omega) hip hfn
    rw [h1]
    simp [Outcome.isOk, Outcome.isUb, h]
  · have h1 := enterNativeFrame_ub e st n (by omega)
    cases hx : enterNativeFrame e st n <;> rw [hx] at h1 <;> simp [Outcome.isUb, Outcome.isOk] at h1 ⊢
    omega

theorem C26_fresh_context_502_registers_partial (e : Env) (mem : Mem) (func : FuncInst) (h64 : e.stackHi < 2 ^ 64) :
    (enterNativeFrame e (.init e mem) func.nregs.toNat).isUb = false ↔ func.nregs.toNat ≤ 502 := by
  have := C26_exact_bound e (.init e mem) func.nregs.toNat (Nat.le_refl _) h64 (by simp [ExecState.init]) (by simp [ExecState.init])
  have hsp : (ExecState.init e mem).sp = e.stackLo + 2048 := rfl
  rw [hsp] at this
  rw [Bool.eq_false_iff, ne_eq, this.2]
  omega

/-- **C26 fails for every function with more than 502 registers**: any call with the right signature writes below the stack. -/
theorem C26_call_overflows (e : Env) (fuel : Nat) (mem : Mem) (func : FuncInst) (rets : List CType) (args : List (CType × Nat))
    (h1 : args.map (fun a => a.1.toValType) = func.type.args)
    (h2 : rets.map CType.toValType = func.type.rets) (hn : 502 < func.nregs.toNat) :
    (staticCall e fuel (.init e mem) func rets args).isUb = true := by
  rw [C16_match_runs e fuel _ func rets args h1 h2]
  have hu : (enterNativeFrame e (.init e mem) func.nregs.toNat).isUb = true := by
    apply enterNativeFrame_ub
    show e.stackLo + 2048 < _
    omega
  unfold callUnchecked
  cases hx : enterNativeFrame e (.init e mem) func.nregs.toNat <;> rw [hx] at hu <;> simp_all [Outcome.isUb]

/-- **C26 is false of the code.** -/
theorem C26_negation : ¬ C26_full := by
  intro h
  have := h exEnv (fun _ => 0#8) ⟨⟨[], []⟩, 600#32, 64⟩ (by decide)
  rw [C26_fresh_context_502_registers_partial _ _ _ (by decide)] at this
  revert this; decide

example : ([] : List (CType × Nat)).map (fun a => a.1.toValType) = (⟨⟨[], []⟩, 600#32, 64⟩ : FuncInst).type.args ∧
    502 < (⟨⟨[], []⟩, 600#32, 64⟩ : FuncInst).nregs.toNat := by decide

end Ab
