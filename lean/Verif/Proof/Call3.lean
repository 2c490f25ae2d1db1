import Verif.Proof.Call2

/-! What `static_call` does, in terms of the abstract machine (helpers for C16, C20, C21, C26, C27). -/

namespace Ab
open Spec

/-- The register file a call starts with: arguments first, the rest is whatever the stack held. -/
def startRegs (mem : Mem) (sp : Nat) (args : List (CType × Nat)) : Regs :=
  fun i => if i < (argRegs args).length then (argRegs args).getD i 0#32 else regView mem sp i

/-- A call that fits: the signature matches, the frame fits on the stack, the arguments fit in the registers, and addresses are
64-bit (and the stack is not at address zero). -/
structure CallFits (e : Env) (st : ExecState) (func : FuncInst) (rets : List CType) (args : List (CType × Nat)) : Prop where
  argTypes : (args.map (·.1)).map CType.toValType = func.type.args
  retTypes : rets.map CType.toValType = func.type.rets
  lo : e.stackLo + 40 + 4 * func.nregs.toNat ≤ st.sp
  hi : st.sp ≤ e.stackHi
  null : 0 < e.stackLo
  stack64 : e.stackHi < 2 ^ 64
  ip64 : st.ip < 2 ^ 64
  fn64 : st.fn < 2 ^ 64
  args : regTotal (args.map (·.1)) ≤ func.nregs.toNat

/-- The register area of the callee's frame. -/
def calleeSp (st : ExecState) (func : FuncInst) : Nat := st.sp - 40 - 4 * func.nregs.toNat

/-- The part of `static_call` after the checks: frame, arguments, run, results, frame. -/
def callUnchecked (e : Env) (fuel : Nat) (st : ExecState) (func : FuncInst) (rets : List CType)
    (args : List (CType × Nat)) : Outcome (List Nat × ExecState) := do
  let st ← enterNativeFrame e st func.nregs.toNat
  let mem ← setStackElements e st.sp (args.map (·.1)) 0 (args.map (·.2)) st.mem
  let (st, ret) ← interpretFunc e fuel { st with mem := mem } func
  let vs ← getStackElements e st.mem ret rets 0 rets.length
  let st ← leaveNativeFrame e st func.nregs.toNat
  .ok (vs, st)

theorem staticCall_match (e : Env) (fuel : Nat) (st : ExecState) (func : FuncInst) (rets : List CType)
    (args : List (CType × Nat)) (h1 : (args.map (·.1)).map CType.toValType = func.type.args)
    (h2 : rets.map CType.toValType = func.type.rets) :
    staticCall e fuel st func rets args = callUnchecked e fuel st func rets args := by
  unfold staticCall callUnchecked
  rw [C16_types_match, Outcome.ok_bind, decide_eq_true h1, if_neg (by simp), C16_types_match, Outcome.ok_bind,
    decide_eq_true h2, if_neg (by simp)]

/-- The state in which the callee starts. -/
theorem call_prologue {e : Env} {st : ExecState} {func : FuncInst} {rets : List CType} {args : List (CType × Nat)}
    (h : CallFits e st func rets args) :
    ∃ mem1, (∀ fuel, staticCall e fuel st func rets args = (do
        let x ← run e func (calleeSp st func) fuel func.body mem1
        let vs ← getStackElements e x.mem x.ret rets 0 rets.length
        let st ← leaveNativeFrame e { ip := x.ip, sp := calleeSp st func, fn := 0, func := some func, error := st.error || x.error, mem := x.mem } func.nregs.toNat
        .ok (vs, st))) ∧
      FrameOk e func (calleeSp st func) ∧
      RegsMatch mem1 (calleeSp st func) func.nregs.toNat (startRegs st.mem (calleeSp st func) args) ∧
      HeaderAt mem1 (st.sp - 40) st.ip st.sp st.fn ∧
      mem1 (calleeSp st func + 4 * func.nregs.toNat) = BitVec.ofNat 8 st.ip ∧
      (∀ x, x < calleeSp st func ∨ st.sp ≤ x → mem1 x = st.mem x) := by
  have hlo := h.lo
  have hhi := h.hi
  have h64 := h.stack64
  have hargs := h.args
  have hsp : calleeSp st func = st.sp - 40 - 4 * func.nregs.toNat := rfl
  obtain ⟨mem0, he, hh, hm⟩ := enterNativeFrame_ok e st func.nregs.toNat hlo hhi (by omega) h.ip64 h.fn64
  rw [← hsp] at he
  obtain ⟨mem1, hs, hr, ho⟩ := setStackElements_ok e (calleeSp st func) [] args mem0 (by omega)
    (by simp only [regTotal, List.map_nil, List.sum_nil] at hargs ⊢; omega)
  simp only [List.nil_append, List.length_nil, show regTotal [] = 0 from rfl, Nat.zero_add, Nat.mul_zero,
    Nat.add_zero, Nat.zero_le, true_and, Nat.sub_zero] at hs hr ho
  have hh1 : HeaderAt mem1 (st.sp - 40) st.ip st.sp st.fn := hh.congr (fun x h1 h2 => ho x (by omega))
  refine ⟨mem1, ?_, ⟨by omega, by omega⟩, ?_, hh1, ?_, ?_⟩
  · intro fuel
    rw [staticCall_match e fuel st func rets args h.argTypes h.retTypes]
    unfold callUnchecked
    rw [he, Outcome.ok_bind]
    simp only
    rw [hs, Outcome.ok_bind]
    unfold interpretFunc
    simp only [Outcome.bind_assoc', Outcome.ok_bind]
  · intro i hi
    rw [hr i]
    unfold startRegs
    rw [argRegs_length]
    split
    · rfl
    · unfold regView
      rw [readLE_congr]
      intro x h1 h2
      exact hm x (by omega)
  · have := readLE_mod_256 mem1 (st.sp - 40) 7
    rw [hh1.ip] at this
    apply BitVec.eq_of_toNat_eq
    rw [BitVec.toNat_ofNat, show calleeSp st func + 4 * func.nregs.toNat = st.sp - 40 by omega]
    exact this.symm
  · intro x hx
    rw [ho x (by omega), hm x (by omega)]

theorem retVals_shift (mem : Mem) (sp i s : Nat) (ts : List CType) :
    retVals (regView mem (sp + 4 * i)) s ts = retVals (regView mem sp) (i + s) ts := by
  have hv : ∀ j, regView mem (sp + 4 * i) j = regView mem sp (i + j) := by
    intro j; unfold regView; rw [show sp + 4 * i + 4 * j = sp + 4 * (i + j) by omega]
  induction ts generalizing s with
  | nil => rfl
  | cons t ts ih =>
    rw [retVals, retVals, ih, Nat.add_assoc]
    congr 1
    unfold valueAt
    rw [hv, hv, Nat.add_assoc]

theorem retVals_congr {r1 r2 : Regs} {n : Nat} (h : ∀ i, i < n → r1 i = r2 i) (ts : List CType) (s : Nat)
    (hs : s + regTotal ts ≤ n) : retVals r1 s ts = retVals r2 s ts := by
  induction ts generalizing s with
  | nil => rfl
  | cons t ts ih =>
    have htot : regTotal (t :: ts) = regCount t + regTotal ts := by simp [regTotal]
    rw [htot] at hs
    rw [retVals, retVals, ih _ (by omega)]
    congr 1
    unfold valueAt
    rcases regCount_cases t with hc | hc
    · rw [hc, if_neg (by omega), if_neg (by omega), h s (by omega)]
    · rw [hc, if_pos rfl, if_pos rfl, h s (by omega), h (s + 1) (by omega)]

/-- After the callee's exit: results and frame. -/
theorem call_epilogue {e : Env} {st : ExecState} {func : FuncInst} {rets : List CType} {args : List (CType × Nat)}
    (h : CallFits e st func rets args) {mem1 mem2 : Mem} (hh : HeaderAt mem1 (st.sp - 40) st.ip st.sp st.fn)
    (hm : ∀ x, x < calleeSp st func ∨ st.sp ≤ x → mem1 x = st.mem x)
    (hs : SameOutside mem1 mem2 (calleeSp st func) func.nregs.toNat) (ip : Nat) (err : Bool) :
    leaveNativeFrame e { ip := ip, sp := calleeSp st func, fn := 0, func := some func, error := err, mem := mem2 }
      func.nregs.toNat = .ok { ip := st.ip, sp := st.sp, fn := st.fn, func := some func, error := err, mem := mem2 } ∧
    (∀ x, x < calleeSp st func ∨ st.sp ≤ x → mem2 x = st.mem x) := by
  have hlo := h.lo
  have hhi := h.hi
  have hsp : calleeSp st func = st.sp - 40 - 4 * func.nregs.toNat := rfl
  constructor
  · rw [leaveNativeFrame_ok e _ func.nregs.toNat (st.sp - 40) st.ip st.sp st.fn (by omega) (by omega)
      (by show calleeSp st func + _ = _; omega) (hh.congr (fun x h1 h2 => hs x (by omega)))]
  · intro x hx
    rw [hs x (by omega), hm x hx]

end Ab
