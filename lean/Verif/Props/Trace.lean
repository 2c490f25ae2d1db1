import Verif.Spec.Trace
import Verif.Proof.Interp2
import Verif.Props.Interp
/-! C112: the trace tells what was executed. -/
namespace Ab.Trace
open Spec Spec.Trace

/-- Tracing does not change what happens. -/
theorem run_erase (e : Env) (func : FuncInst) (sp : Nat) (fuel ip : Nat) (mem : Mem) :
    (run e func sp fuel ip mem).2 = Ab.run e func sp fuel ip mem := by
  induction fuel generalizing ip mem with
  | zero => rfl
  | succ fuel ih =>
    rw [run, Ab.run]
    cases hs : step e func sp ip mem with
    | ok r =>
      cases r with
      | next ip' mem' => simp only [Outcome.ok_bind]; exact ih ip' mem'
      | exit ret err => rfl
    | _ => rfl

theorem regAddr_eq (sp : Nat) (b : Byte) : regAddr sp b = sp + 4 * b.toNat := by
  unfold regAddr SIZEOF_SLOT; omega

theorem operandLine_eq {e : Env} {sp n : Nat} {mem : Mem} {regs : Regs} (hr : RegsMatch mem sp n regs) (what : String) {a : Nat} {b : Byte}
    (hf : fetch e a = .ok b) (hb : b.toNat < n) :
    operandLine e sp mem what a = [.shown what b.toNat (sp + 4 * b.toNat) (regs b.toNat).toInt] := by
  unfold operandLine
  rw [hf]
  simp only [regAddr_eq]
  rw [← hr _ hb]
  rfl

theorem returnLine_eq {e : Env} {sp n : Nat} {mem : Mem} {regs : Regs} (hr : RegsMatch mem sp n regs) {a : Nat} {b : Byte}
    (hf : fetch e a = .ok b) (hb : b.toNat < n) :
    returnLine e sp mem a = [.shown "ret" b.toNat (sp + 4 * b.toNat) (regs b.toNat).toNat] := by
  unfold returnLine
  rw [hf]
  simp only [regAddr_eq]
  rw [← hr _ hb]
  rfl

/-- The handler of a decoded instruction prints its name and its values as they are afterwards. -/
theorem handlerLines_eq {e : Env} {sp addr n : Nat} {body : List Byte} (hb : BodyAt e addr body) {pc : Nat} {i : Instr}
    (hd : decode (body.drop pc) = some i) (hn : ∀ r ∈ i.regs, r < n) (hx : ∀ s, i ≠ .x64ret s) {mem : Mem} {regs : Regs}
    (hr : RegsMatch mem sp n regs) :
    handlerLines e sp (addr + pc) mem = .enter (title i) (addr + pc) :: values sp regs regs i := by
  have fet : ∀ (l : List Byte), body.drop pc = l → ∀ j b, l[j]? = some b → fetch e (addr + pc + j) = .ok b := by
    intro l hl j b hj
    rw [Nat.add_assoc]
    exact fetch_body hb (by rw [getElem?_of_drop hl, hj])
  rcases decode_cases hd with ⟨rfl, t, ht⟩ | ⟨rfl, t, ht⟩ | ⟨rfl, t, ht⟩ | ⟨rfl, t, ht⟩ |
      ⟨r, t, rfl, ht⟩ | ⟨r, t, rfl, ht⟩ | ⟨o, t, rfl, ht⟩ | ⟨r, o, t, rfl, ht⟩ | ⟨r, o, t, rfl, ht⟩ |
      ⟨d, l, r, t, rfl, ht⟩ | ⟨d, l, r, t, rfl, ht⟩ <;>
      (have f0 := fet _ ht 0 _ rfl; rw [Nat.add_zero] at f0; unfold handlerLines; rw [f0])
  · rfl
  · rfl
  · rfl
  · rfl
  · rw [← returnLine_eq hr (fet _ ht 1 _ rfl) (hn _ (List.mem_cons_self ..)) |> fun h => show _ = values sp regs regs (.x32ret r.toNat) from h]
    rfl
  · exact absurd rfl (hx _)
  · rfl
  · rfl
  · rfl
  · show _ :: _ = _
    rw [operandLine_eq hr "rhs" (fet _ ht 3 _ rfl) (hn _ (by simp [Instr.regs])),
      operandLine_eq hr "lhs" (fet _ ht 2 _ rfl) (hn _ (by simp [Instr.regs])),
      operandLine_eq hr "dst" (fet _ ht 1 _ rfl) (hn _ (by simp [Instr.regs]))]
    rfl
  · show _ :: _ = _
    rw [operandLine_eq hr "rhs" (fet _ ht 3 _ rfl) (hn _ (by simp [Instr.regs])),
      operandLine_eq hr "lhs" (fet _ ht 2 _ rfl) (hn _ (by simp [Instr.regs])),
      operandLine_eq hr "dst" (fet _ ht 1 _ rfl) (hn _ (by simp [Instr.regs]))]
    rfl

/-- A machine that has stopped shows nothing more. -/
theorem trace_stopped (late : Bool) (body : List Byte) (n addr sp k : Nat) {s : AState} (h : ∀ pc regs, s ≠ .running pc regs) :
    trace late body n addr sp k s = [] := by
  cases k with
  | zero => cases s <;> rfl
  | succ k =>
    cases s with
    | running pc regs => exact absurd rfl (h pc regs)
    | _ => rfl

theorem arun_stopped (body : List Byte) (n : Nat) (k : Nat) {s : AState} (h : astep body n s = s) : arun body n k s = s := by
  induction k with
  | zero => rfl
  | succ k ih => rw [arun, h, ih]

theorem run_trace {e : Env} {func : FuncInst} {sp addr : Nat} {body : List Byte} {is : List Instr} (hb : BodyAt e addr body)
    (hf : FrameOk e func sp) (hw : WellFormedBody body func.nregs.toNat is) (k : Nat) (pc : Nat) (regs : Regs) (mem : Mem)
    (hr : RegsMatch mem sp func.nregs.toNat regs) (ha : AtBoundary is (.running pc regs))
    (ho : arun body func.nregs.toNat k (.running pc regs) ≠ .overflow) :
    (run e func sp k (addr + pc) mem).1 = trace true body func.nregs.toNat addr sp k (.running pc regs) := by
  induction k generalizing pc regs mem with
  | zero => rfl
  | succ k ih =>
    have hsim := step_sim hb hf pc regs mem hr
    have hbd := astep_boundary hw ha
    obtain ⟨pre, i, post, his, hpc⟩ := ha
    have hdec : decode (body.drop pc) = some i := by
      have := hw.decodes
      rw [his] at this
      have h2 := this.drop
      rw [← hpc] at h2
      generalize body.drop pc = bs at h2
      cases h2 with
      | cons h1 _ _ => exact h1
    have hmem : i ∈ is := by rw [his]; simp
    have lines : ∀ {mem' : Mem} {regs' : Regs}, RegsMatch mem' sp func.nregs.toNat regs' → _ := fun {_ _} h =>
      handlerLines_eq (e := e) (sp := sp) hb hdec (hw.regs i hmem) (hw.supported i hmem) h
    rw [run]
    simp only [trace, hdec, if_true]
    rw [arun] at ho
    generalize hn : astep body func.nregs.toNat (.running pc regs) = next at hsim hbd ho ⊢
    cases next with
    | running pc' regs' =>
      obtain ⟨mem', h1, h2, _⟩ := hsim
      rw [h1]
      simp only [regsOf]
      rw [lines h2, ih pc' regs' mem' h2 hbd ho, List.cons_append]
    | halted pc' regs' =>
      obtain ⟨rfl, rfl, h1⟩ := hsim
      rw [h1]
      simp only [regsOf]
      rw [lines hr, trace_stopped (h := by intro _ _ h; cases h), List.append_nil]
    | unreachable pc' regs' =>
      obtain ⟨rfl, rfl, h1⟩ := hsim
      rw [h1]
      simp only [regsOf]
      rw [lines hr, trace_stopped (h := by intro _ _ h; cases h), List.append_nil]
    | returned pc' src regs' =>
      obtain ⟨rfl, rfl, h1, h2, _⟩ := hsim
      simp only [regsOf]
      rw [trace_stopped (h := by intro _ _ h; cases h), List.append_nil, ← lines hr]
      by_cases hz : mem (sp + 4 * func.nregs.toNat) = 0#8
      · rw [h1 hz]
      · have := h2 hz
        cases hs : step e func sp (addr + pc') mem with
        | trap w => rfl
        | _ => rw [hs] at this; exact absurd this (by simp [Outcome.isTrap])
    | overflow => rw [arun_stopped body _ k (s := .overflow) rfl] at ho; exact absurd rfl ho
    | stuck => exact hbd.elim

theorem trace_late {body : List Byte} {n : Nat} {is : List Instr} (hw : WellFormedBody body n is) (hn : ∀ i ∈ is, ¬ Overwrites i)
    (addr sp k pc : Nat) (regs : Regs) (ha : AtBoundary is (.running pc regs)) :
    trace true body n addr sp k (.running pc regs) = trace false body n addr sp k (.running pc regs) := by
  induction k generalizing pc regs with
  | zero => rfl
  | succ k ih =>
    have hbd := astep_boundary hw ha
    obtain ⟨pre, i, post, his, hpc⟩ := ha
    have hdec : decode (body.drop pc) = some i := by
      have := hw.decodes
      rw [his] at this
      have h2 := this.drop
      rw [← hpc] at h2
      generalize body.drop pc = bs at h2
      cases h2 with
      | cons h1 _ _ => exact h1
    have hmem : i ∈ is := by rw [his]; simp
    simp only [trace, hdec, if_true, Bool.false_eq_true, if_false]
    have htail : trace true body n addr sp k (astep body n (.running pc regs)) =
        trace false body n addr sp k (astep body n (.running pc regs)) := by
      generalize astep body n (.running pc regs) = next at hbd
      cases next with
      | running pc' regs' => exact ih pc' regs' hbd
      | _ => rw [trace_stopped (h := by intro _ _ h; cases h), trace_stopped (h := by intro _ _ h; cases h)]
    rw [htail]
    have hv : values sp (regsOf regs (astep body n (.running pc regs))) (regsOf regs (astep body n (.running pc regs))) i =
        values sp regs (regsOf regs (astep body n (.running pc regs))) i := by
      have ho := hn i hmem
      simp only [astep, hdec]
      cases i with
      | x32ret s => simp only; split <;> rfl
      | add d l r =>
        simp only [Overwrites, not_or] at ho
        simp only [values]
        split
        · split
          · unfold jump; split
            · simp [regsOf, Regs.set, Ne.symm ho.1, Ne.symm ho.2]
            · rfl
          · rfl
        · rfl
      | sub d l r =>
        simp only [Overwrites, not_or] at ho
        simp only [values]
        split
        · split
          · unfold jump; split
            · simp [regsOf, Regs.set, Ne.symm ho.1, Ne.symm ho.2]
            · rfl
          · rfl
        · rfl
      | _ => rfl
    rw [hv]

/-- C112, the part that holds of every well-formed body: as long as no arithmetic overflows, the trace of `k` instructions names those
the abstract machine executes, in order, each with its address, and shows each result; the operands it shows are what their
registers hold after the instruction. Missing: the operands as they were, see `C112_negation`. -/
theorem C112_trace_partial {e : Env} {func : FuncInst} {sp : Nat} {body : List Byte} {is : List Instr}
    (hb : BodyAt e func.body body) (hf : FrameOk e func sp) (hw : WellFormedBody body func.nregs.toNat is) (mem : Mem) (k : Nat)
    (ho : arun body func.nregs.toNat k (.running 0 (regView mem sp)) ≠ .overflow) :
    (run e func sp k func.body mem).1 = trace true body func.nregs.toNat func.body sp k (.running 0 (regView mem sp)) ∧
    (run e func sp k func.body mem).2 = Ab.run e func sp k func.body mem := by
  refine ⟨?_, run_erase ..⟩
  have h0 : AtBoundary is (.running 0 (regView mem sp)) := by
    cases his : is with
    | nil => exact absurd his hw.nonempty
    | cons i post => exact ⟨[], i, post, rfl, rfl⟩
  exact run_trace hb hf hw k 0 (regView mem sp) mem (fun i _ => rfl) h0 ho

/-- C112, bodies in which no instruction overwrites an operand of its own: the trace is what it should be, operands included. -/
theorem C112_operands_partial {e : Env} {func : FuncInst} {sp : Nat} {body : List Byte} {is : List Instr}
    (hb : BodyAt e func.body body) (hf : FrameOk e func sp) (hw : WellFormedBody body func.nregs.toNat is)
    (hn : ∀ i ∈ is, ¬ Overwrites i) (mem : Mem) (k : Nat)
    (ho : arun body func.nregs.toNat k (.running 0 (regView mem sp)) ≠ .overflow) :
    (run e func sp k func.body mem).1 = trace false body func.nregs.toNat func.body sp k (.running 0 (regView mem sp)) := by
  rw [(C112_trace_partial hb hf hw mem k ho).1]
  refine trace_late hw hn _ _ _ _ _ ?_
  cases his : is with
  | nil => exact absurd his hw.nonempty
  | cons i post => exact ⟨[], i, post, rfl, rfl⟩

/-- `i32.sub r2 r0 r1; x32.return r2` meets the hypotheses, and is traced as it should be. -/
example : let body : List Byte := [107#8, 2#8, 0#8, 1#8, 13#8, 2#8]
    let e : Env := ⟨4096, 64, body⟩
    let func : FuncInst := ⟨⟨[I32, I32], [I32]⟩, 3#32, 64⟩
    let mem : Mem := fun a => if a = 6096 then 1#8 else if a = 6100 then 3#8 else 0#8
    BodyAt e func.body body ∧ FrameOk e func 6096 ∧ WellFormedBody body func.nregs.toNat [.sub 2 0 1, .x32ret 2] ∧
    (∀ i ∈ [Instr.sub 2 0 1, .x32ret 2], ¬ Overwrites i) ∧
    (run e func 6096 2 64 mem).1 = [.enter "i32.sub" 64, .shown "rhs" 1 6100 3, .shown "lhs" 0 6096 1, .shown "dst" 2 6104 (-2),
      .enter "x32.return" 68, .shown "ret" 2 6104 (2 ^ 32 - 2)] := by
  refine ⟨⟨[], [], rfl, rfl⟩, ⟨by decide, by decide⟩, ⟨?_, by simp, by simp [Instr.regs], by simp, ?_, ?_⟩, ?_, by decide +kernel⟩
  · exact .cons rfl (by decide) (.cons rfl (by decide) .nil)
  · intro i hi
    simp only [List.getLast?_cons_cons, List.getLast?_singleton, Option.some.injEq] at hi
    subst hi; rfl
  · intro pre i post h off ho
    have hm : i ∈ [Instr.sub 2 0 1, .x32ret 2] := by rw [h]; simp
    simp only [List.mem_cons, List.not_mem_nil, or_false] at hm
    rcases hm with rfl | rfl <;> simp [Instr.branch] at ho
  · intro i hm
    simp only [List.mem_cons, List.not_mem_nil, or_false] at hm
    rcases hm with rfl | rfl <;> simp [Overwrites]

/-- C112 is false of the code: `i32.add r0 r0 r1` with `r0 = 1` and `r1 = 2` shows 3 for its left operand. -/
theorem C112_negation :
    let mem : Mem := fun a => if a = 6096 then 1#8 else if a = 6100 then 2#8 else 0#8
    regView mem 6096 0 = 1#32 ∧ regView mem 6096 1 = 2#32 ∧
    (run exEnv exFunc 6096 1 66 mem).1 = [.enter "i32.add" 66, .shown "rhs" 1 6100 2, .shown "lhs" 0 6096 3, .shown "dst" 0 6096 3] ∧
    trace false exBody 2 66 6096 1 (.running 0 (regView mem 6096)) =
      [.enter "i32.add" 66, .shown "rhs" 1 6100 2, .shown "lhs" 0 6096 1, .shown "dst" 0 6096 3] := by
  refine ⟨by decide, by decide, by decide +kernel, by decide +kernel⟩

/-- The hypotheses are met by the example body, with all registers 0, and the trace goes to the end. -/
example : BodyAt exEnv exFunc.body exBody ∧ FrameOk exEnv exFunc 6096 ∧ WellFormedBody exBody exFunc.nregs.toNat exInstrs ∧
    (run exEnv exFunc 6096 3 66 (fun _ => 0#8)).1 =
      [.enter "i32.add" 66, .shown "rhs" 1 6100 0, .shown "lhs" 0 6096 0, .shown "dst" 0 6096 0, .enter "goto_if" 70,
        .enter "x32.return" 73, .shown "ret" 0 6096 0] :=
  ⟨exBodyAt, exFrameOk, exWellFormed, by decide +kernel⟩

end Ab.Trace
