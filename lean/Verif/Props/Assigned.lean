import Verif.Proof.Assigned
import Verif.Props.Interp
import Verif.Props.Call

/-!
Property theorems C95 (code without backward branches finishes) and C96 (what a call's result depends on).
-/

namespace Ab
open Spec

/-! ## C95 -/

/-- **C95**: for every well-formed body all of whose branches go forward, whatever the memory (so whatever the arguments),
the interpreter loop leaves within as many instructions as the body has. -/
theorem C95_forward_code_finishes {e : Env} {func : FuncInst} {sp : Nat} {body : List Byte} {is : List Instr}
    (hb : BodyAt e func.body body) (hf : FrameOk e func sp) (hw : WellFormedBody body func.nregs.toNat is)
    (hfw : ForwardOnly is) (mem : Mem) (fuel : Nat) (hfuel : is.length ≤ fuel) :
    run e func sp fuel func.body mem ≠ .fuel := by
  obtain ⟨hr, hns⟩ := C17_interpreter_refines_machine hb hf hw mem fuel
  have hstop := arun_stops hw hfw (regView mem sp) fuel hfuel
  intro hx
  cases hs : arun body func.nregs.toNat fuel (.running 0 (regView mem sp)) with
  | running pc regs => exact hstop pc regs hs
  | halted pc regs =>
    rw [hs] at hr
    obtain ⟨mem', h1, _⟩ := hr
    have := h1 fuel (Nat.le_refl _)
    rw [hx] at this; cases this
  | unreachable pc regs =>
    rw [hs] at hr
    obtain ⟨mem', h1, _⟩ := hr
    have := h1 fuel (Nat.le_refl _)
    rw [hx] at this; cases this
  | returned pc src regs =>
    rw [hs] at hr
    obtain ⟨mem', h1, h1', _⟩ := hr
    by_cases hz : mem (sp + 4 * func.nregs.toNat) = 0#8
    · have := h1 hz fuel (Nat.le_refl _)
      rw [hx] at this; cases this
    · have := h1' hz fuel (Nat.le_refl _)
      rw [hx] at this; simp [Outcome.isTrap] at this
  | overflow =>
    rw [hs] at hr
    have := hr fuel (Nat.le_refl _)
    rw [hx] at this; simp [Outcome.isUb] at this
  | stuck => exact hns hs

/-- **C95**, the call: a call to such a function comes back (or ends the program) after at most as many instructions as the
function has. -/
theorem C95_call_finishes {e : Env} {st : ExecState} {func : FuncInst} {rets : List CType} {args : List (CType × Nat)}
    (h : CallFits e st func rets args) {body : List Byte} {is : List Instr} (hb : BodyAt e func.body body)
    (hw : WellFormedBody body func.nregs.toNat is) (hfw : ForwardOnly is) (fuel : Nat) (hfuel : is.length ≤ fuel) :
    staticCall e fuel st func rets args ≠ .fuel := by
  obtain ⟨mem1, hc, hf, _⟩ := call_prologue h
  have hr := C95_forward_code_finishes hb hf hw hfw mem1 fuel hfuel
  rw [hc fuel]
  cases hx : run e func (calleeSp st func) fuel func.body mem1 with
  | ok x =>
    rw [Outcome.ok_bind]
    have hg := getStackElements_ne_fuel e x.mem x.ret rets rets.length 0
    cases hv : getStackElements e x.mem x.ret rets 0 rets.length with
    | ok vs =>
      rw [Outcome.ok_bind]
      have hl := leaveNativeFrame_ne_fuel e { ip := x.ip, sp := calleeSp st func, fn := 0, func := some func, error := st.error || x.error, mem := x.mem } func.nregs.toNat
      cases hv : leaveNativeFrame e { ip := x.ip, sp := calleeSp st func, fn := 0, func := some func, error := st.error || x.error, mem := x.mem } func.nregs.toNat with
      | fuel => exact absurd hv hl
      | _ => simp [bind, Outcome.bind]
    | fuel => exact absurd hv hg
    | _ => simp [bind, Outcome.bind]
  | fuel => exact absurd hx hr
  | _ => simp [bind, Outcome.bind]

example : BodyAt exEnv exFunc.body exBody ∧ WellFormedBody exBody exFunc.nregs.toNat exInstrs ∧ ForwardOnly exInstrs ∧
    CallFits exEnv (.init exEnv (fun _ => 5#8)) exFunc [.i32] [(.i32, 1), (.i32, 2)] :=
  ⟨exBodyAt, exWellFormed, by decide, ⟨rfl, rfl, by decide, by decide, by decide, by decide, by decide, by decide, by decide⟩⟩

/-- **C95**, the bound is the best one: two instructions need two. -/
theorem C95_bound_is_exact (e : Env) (func : FuncInst) (sp : Nat) (mem : Mem)
    (hb : BodyAt e func.body [1#8, 4#8]) : run e func sp 1 func.body mem = .fuel ∧
      run e func sp 2 func.body mem = .ok ⟨0, func.body + 1, mem, false⟩ := by
  have h0 := fetch_body hb (i := 0) (b := 1#8) rfl
  have h1 := fetch_body hb (i := 1) (b := 4#8) rfl
  rw [Nat.add_zero] at h0
  constructor
  · simp [run, step, h0, Outcome.ok_bind]
  · simp [run, step, h0, h1, Outcome.ok_bind]

/-! ## C96 -/

/-- The same answer: both calls return, the same values and the same error flag; or neither ends; or both are undefined, or both
abort. -/
def SameAnswer : Outcome (List Nat × ExecState) → Outcome (List Nat × ExecState) → Prop
  | .ok (vs, st), .ok (vs', st') => vs = vs' ∧ st.error = st'.error
  | .fuel, .fuel => True
  | .ub _, .ub _ => True
  | .trap _, .trap _ => True
  | .throw _, .throw _ => True
  | _, _ => False

theorem sameAnswer_ub {o o' : Outcome (List Nat × ExecState)} (h : o.isUb = true) (h' : o'.isUb = true) : SameAnswer o o' := by
  cases o <;> cases o' <;> simp_all [Outcome.isUb, SameAnswer]

/-- The full claim: a call's answer depends on the function and the arguments only, not on what earlier calls left behind on
the context. -/
def C96_full : Prop :=
  ∀ (e : Env) (mem : Mem) (func : FuncInst) (rets : List CType) (args : List (CType × Nat)) (fuel : Nat) (body : List Byte)
    (is : List Instr) (vs : List Nat) (st : ExecState), BodyAt e func.body body → WellFormedBody body func.nregs.toNat is →
    CallFits e (.init e mem) func rets args → staticCall e fuel (.init e mem) func rets args = .ok (vs, st) →
    SameAnswer (.ok (vs, st)) (staticCall e fuel st func rets args)

/-- **C96**, the part that holds: if the body writes every register before reading it (arguments count as written), then two
calls with the same arguments, on any two contexts, at any stack depths and whatever their stacks hold, give the same answer
(from states whose saved instruction pointer has a zero low byte, as at top level: see C21). -/
theorem C96_same_answer_partial {e₁ e₂ : Env} {st₁ st₂ : ExecState} {f₁ f₂ : FuncInst} {rets : List CType}
    {args : List (CType × Nat)} {body : List Byte} {is : List Instr}
    (h₁ : CallFits e₁ st₁ f₁ rets args) (h₂ : CallFits e₂ st₂ f₂ rets args) (hn : f₁.nregs = f₂.nregs)
    (hb₁ : BodyAt e₁ f₁.body body) (hb₂ : BodyAt e₂ f₂.body body) (hw : WellFormedBody body f₁.nregs.toNat is)
    (hd : WrittenBeforeRead is (regTotal (args.map (·.1))) (regTotal rets))
    (hip₁ : st₁.ip % 256 = 0) (hip₂ : st₂.ip % 256 = 0) (herr : st₁.error = st₂.error) (fuel : Nat) :
    SameAnswer (staticCall e₁ fuel st₁ f₁ rets args) (staticCall e₂ fuel st₂ f₂ rets args) := by
  have g₁ := call_gives h₁ hip₁ hb₁ fuel
  have g₂ := call_gives h₂ hip₂ hb₂ fuel
  rw [← hn, ← herr] at g₂
  have hb0 : AtBoundary is (.running 0 (startRegs st₁.mem (calleeSp st₁ f₁) args)) := by
    cases his : is with
    | nil => exact absurd his hw.nonempty
    | cons i post => exact ⟨[], i, post, rfl, rfl⟩
  have hl := arun_lockstep hw hd fuel (s2 := .running 0 (startRegs st₂.mem (calleeSp st₂ f₂) args))
    (.running .start (by
      intro r hr
      have hr := List.mem_range.1 hr
      unfold startRegs
      rw [argRegs_length, if_pos hr, if_pos hr])) hb0
  have hns := arun_boundary hw fuel hb0
  have hargs := h₁.args
  generalize arun body f₁.nregs.toNat fuel (.running 0 (startRegs st₁.mem (calleeSp st₁ f₁) args)) = s₁ at g₁ hl hns
  generalize arun body f₁.nregs.toNat fuel (.running 0 (startRegs st₂.mem (calleeSp st₂ f₂) args)) = s₂ at g₂ hl
  have none_case : ∀ (err : Bool),
      (if rets = [] then ∃ st', staticCall e₁ fuel st₁ f₁ rets args = .ok ([], st') ∧ st'.error = err
        else (staticCall e₁ fuel st₁ f₁ rets args).isUb = true) →
      (if rets = [] then ∃ st', staticCall e₂ fuel st₂ f₂ rets args = .ok ([], st') ∧ st'.error = err
        else (staticCall e₂ fuel st₂ f₂ rets args).isUb = true) →
      SameAnswer (staticCall e₁ fuel st₁ f₁ rets args) (staticCall e₂ fuel st₂ f₂ rets args) := by
    intro err q₁ q₂
    split at q₁
    · rename_i hr
      rw [if_pos hr] at q₂
      obtain ⟨s, hs, he⟩ := q₁
      obtain ⟨s', hs', he'⟩ := q₂
      rw [hs, hs']
      exact ⟨rfl, by rw [he, he']⟩
    · rename_i hr
      rw [if_neg hr] at q₂
      exact sameAnswer_ub q₁ q₂
  cases hl with
  | running hp ha =>
    rw [show staticCall e₁ fuel st₁ f₁ rets args = .fuel from g₁, show staticCall e₂ fuel st₂ f₂ rets args = .fuel from g₂]
    trivial
  | halted => exact none_case _ g₁ g₂
  | unreachable => exact none_case _ g₁ g₂
  | returnedNone => exact none_case _ g₁ g₂
  | returned hlt hp hin ha =>
    rename_i pc s w r₁ r₂
    by_cases hk : regTotal rets = 0
    · have hr0 : rets = [] := by
        cases rets with
        | nil => rfl
        | cons t ts =>
          exfalso
          simp only [regTotal, List.map_cons, List.sum_cons] at hk
          rcases regCount_cases t with hc | hc <;> omega
      subst hr0
      have hs : s + regTotal [] ≤ f₁.nregs.toNat := by simp only [regTotal, List.map_nil, List.sum_nil]; omega
      obtain ⟨s1, hs1, he1⟩ := g₁ hs
      obtain ⟨s2, hs2, he2⟩ := g₂ hs
      rw [hs1, hs2]
      exact ⟨rfl, by rw [he1, he2]⟩
    · have hlt := path_lt hw hargs hp
      have hs : s + regTotal rets ≤ f₁.nregs.toNat := by
        have := hlt (s + (regTotal rets - 1)) (hin _ (by simp; omega))
        omega
      obtain ⟨s1, hs1, he1⟩ := g₁ hs
      obtain ⟨s2, hs2, he2⟩ := g₂ hs
      rw [hs1, hs2]
      refine ⟨retVals_agree rets s ?_, by rw [he1, he2]⟩
      intro i hi1 hi2
      exact ha i (hin i (by simp; omega))
  | overflow => exact sameAnswer_ub g₁ g₂
  | stuck => exact hns.elim

/-! A loop: `r3 := r0 - r0; while r0 ≠ 0 { r3 := r3 + r1; r0 := r0 - r2 }; return r3`, which multiplies `r0` by `r1` when `r2`
is 1. Register 3 is not an argument. -/

def loopInstrs : List Instr :=
  [.sub 3 0 0, .gotoUnless 0 10, .add 3 3 1, .sub 0 0 2, .goto (-13), .x32ret 3]

def loopBody : List Byte :=
  [107#8, 3#8, 0#8, 0#8, 24#8, 0#8, 10#8, 106#8, 3#8, 3#8, 1#8, 107#8, 0#8, 0#8, 2#8, 22#8, 0xf3#8, 13#8, 3#8]

def loopEnv : Env := ⟨4096, 64, [9#8] ++ loopBody ++ [7#8]⟩
def loopFunc : FuncInst := ⟨⟨[I32, I32, I32], [I32]⟩, 4#32, 65⟩

/-- The ways to split a list of six. -/
theorem split6 {a b c d e f : Instr} {pre post : List Instr} {i : Instr} (h : [a, b, c, d, e, f] = pre ++ i :: post) :
    (pre = [] ∧ i = a) ∨ (pre = [a] ∧ i = b) ∨ (pre = [a, b] ∧ i = c) ∨ (pre = [a, b, c] ∧ i = d) ∨
      (pre = [a, b, c, d] ∧ i = e) ∨ (pre = [a, b, c, d, e] ∧ i = f) := by
  match pre, h with
  | [], h => simp at h; simp [h.1]
  | [p], h => simp at h; simp [h.1, h.2.1]
  | [p, q], h => simp at h; simp [h.1, h.2.1, h.2.2.1]
  | [p, q, r], h => simp at h; simp [h.1, h.2.1, h.2.2.1, h.2.2.2.1]
  | [p, q, r, s], h => simp at h; simp [h.1, h.2.1, h.2.2.1, h.2.2.2.1, h.2.2.2.2.1]
  | [p, q, r, s, t], h => simp at h; simp [h.1, h.2.1, h.2.2.1, h.2.2.2.1, h.2.2.2.2.1, h.2.2.2.2.2.1]
  | p :: q :: r :: s :: t :: u :: v, h => simp at h

theorem loopWellFormed : WellFormedBody loopBody loopFunc.nregs.toNat loopInstrs where
  decodes := .cons rfl (by decide) (.cons rfl (by decide) (.cons rfl (by decide) (.cons rfl (by decide)
    (.cons rfl (by decide) (.cons rfl (by decide) .nil)))))
  nonempty := by simp [loopInstrs]
  regs := by simp [loopInstrs, Instr.regs, loopFunc]
  supported := by simp [loopInstrs]
  last := by
    intro i hi
    simp only [loopInstrs, List.getLast?_cons_cons, List.getLast?_singleton, Option.some.injEq] at hi
    subst hi; rfl
  targets := by
    intro pre i post h off ho
    rcases split6 h with ⟨rfl, rfl⟩ | ⟨rfl, rfl⟩ | ⟨rfl, rfl⟩ | ⟨rfl, rfl⟩ | ⟨rfl, rfl⟩ | ⟨rfl, rfl⟩ <;>
      simp only [Instr.branch, Option.some.injEq, reduceCtorEq] at ho
    · subst ho
      exact ⟨[.sub 3 0 0, .gotoUnless 0 10, .add 3 3 1, .sub 0 0 2, .goto (-13)], _, [], rfl, by decide⟩
    · subst ho
      exact ⟨[.sub 3 0 0], _, _, rfl, by decide⟩

/-- On every path register 3 is written by the first instruction. -/
theorem loopPaths {pc : Nat} {w : List Nat} (h : Path loopInstrs 3 pc w) :
    0 ∈ w ∧ 1 ∈ w ∧ 2 ∈ w ∧ (pc ≠ 0 → 3 ∈ w) := by
  induction h with
  | start => simp
  | next _ his hf ih =>
    refine ⟨List.mem_append_right _ ih.1, List.mem_append_right _ ih.2.1, List.mem_append_right _ ih.2.2.1, fun _ => ?_⟩
    rcases split6 his with ⟨rfl, rfl⟩ | ⟨rfl, rfl⟩ | ⟨rfl, rfl⟩ | ⟨rfl, rfl⟩ | ⟨rfl, rfl⟩ | ⟨rfl, rfl⟩
    · simp [Instr.writes]
    all_goals exact List.mem_append_right _ (ih.2.2.2 (by decide))
  | branch _ his hb hpc ih =>
    refine ⟨ih.1, ih.2.1, ih.2.2.1, fun _ => ?_⟩
    rcases split6 his with ⟨rfl, rfl⟩ | ⟨rfl, rfl⟩ | ⟨rfl, rfl⟩ | ⟨rfl, rfl⟩ | ⟨rfl, rfl⟩ | ⟨rfl, rfl⟩
    · simp [Instr.branch] at hb
    all_goals exact ih.2.2.2 (by decide)

theorem loopWritten : WrittenBeforeRead loopInstrs 3 1 := by
  intro pre i post w his hp r hr
  have := loopPaths hp
  rcases split6 his with ⟨rfl, rfl⟩ | ⟨rfl, rfl⟩ | ⟨rfl, rfl⟩ | ⟨rfl, rfl⟩ | ⟨rfl, rfl⟩ | ⟨rfl, rfl⟩ <;>
    simp [Instr.reads] at hr <;> rcases hr with rfl | rfl <;> first | exact this.1 | exact this.2.1 | exact this.2.2.1 |
      exact this.2.2.2 (by decide)

example (mem : Mem) : CallFits loopEnv (.init loopEnv mem) loopFunc [.i32] [(.i32, 6), (.i32, 7), (.i32, 1)] ∧
    BodyAt loopEnv loopFunc.body loopBody ∧
    WrittenBeforeRead loopInstrs (regTotal ([(.i32, 6), (.i32, 7), (.i32, 1)].map (·.1))) (regTotal [.i32]) :=
  ⟨⟨rfl, rfl, by simp [ExecState.init, loopEnv, loopFunc, Env.stackHi, STACK_SIZE], Nat.le_refl _, by decide, by decide,
    by simp [ExecState.init], by simp [ExecState.init], by decide⟩, ⟨[9#8], [7#8], rfl, rfl⟩, loopWritten⟩

/-! The counterexample: `r1 := r1 + r0; return r1`, one argument, one more register. -/

def countInstrs : List Instr := [.add 1 1 0, .x32ret 1]
def countBody : List Byte := [106#8, 1#8, 1#8, 0#8, 13#8, 1#8]
def countEnv : Env := ⟨4096, 64, countBody⟩
def countFunc : FuncInst := ⟨⟨[I32], [I32]⟩, 2#32, 64⟩

theorem countWellFormed : WellFormedBody countBody countFunc.nregs.toNat countInstrs where
  decodes := .cons rfl (by decide) (.cons rfl (by decide) .nil)
  nonempty := by simp [countInstrs]
  regs := by simp [countInstrs, Instr.regs, countFunc]
  supported := by simp [countInstrs]
  last := by
    intro i hi
    simp only [countInstrs, List.getLast?_cons_cons, List.getLast?_singleton, Option.some.injEq] at hi
    subst hi; rfl
  targets := by
    intro pre i post h off ho
    match pre, h with
    | [], h => simp [countInstrs] at h; rw [← h.1] at ho; simp [Instr.branch] at ho
    | [a], h => simp [countInstrs] at h; rw [← h.2.1] at ho; simp [Instr.branch] at ho
    | a :: b :: t, h => simp [countInstrs] at h

/-- The values of two calls in a row. -/
def twice (e : Env) (fuel : Nat) (st : ExecState) (func : FuncInst) (rets : List CType) (args : List (CType × Nat)) :
    Outcome (List Nat × List Nat) := do
  let (v, st) ← staticCall e fuel st func rets args
  let (w, _) ← staticCall e fuel st func rets args
  .ok (v, w)

/-- Calling it twice with 1 on a context whose stack is zeroed gives 1, then 2. -/
theorem C96_counts : twice countEnv 5 (.init countEnv (fun _ => 0#8)) countFunc [.i32] [(.i32, 1)] = .ok ([1], [2]) := by
  decide +kernel

/-- **C96**, the full claim is false: the registers after the arguments keep what the last call left there, so a function can count
its calls. -/
theorem C96_negation : ¬ C96_full := by
  intro h
  have h2 := C96_counts
  unfold twice at h2
  cases h1 : staticCall countEnv 5 (.init countEnv (fun _ => 0#8)) countFunc [.i32] [(.i32, 1)] with
  | ok p =>
    obtain ⟨v, st⟩ := p
    have := h countEnv (fun _ => 0#8) countFunc [.i32] [(.i32, 1)] 5 countBody countInstrs v st ⟨[], [], rfl, rfl⟩
      countWellFormed ⟨rfl, rfl, by decide, Nat.le_refl _, by decide, by decide, by decide, by decide, by decide⟩ h1
    rw [h1, Outcome.ok_bind] at h2
    simp only at h2
    cases hw : staticCall countEnv 5 st countFunc [.i32] [(.i32, 1)] with
    | ok q =>
      obtain ⟨w, st'⟩ := q
      rw [hw] at this h2
      rw [Outcome.ok_bind] at h2
      injection h2 with h2
      injection h2 with h3 h4
      have := this.1
      dsimp only at h4
      rw [h3, h4] at this
      exact absurd this (by decide)
    | _ => rw [hw] at h2; simp [bind, Outcome.bind] at h2
  | _ => rw [h1] at h2; simp [bind, Outcome.bind] at h2

end Ab
