import Verif.Spec.Answer
import Verif.Props.EndToEnd
import Verif.Props.Assigned

/-!
Property theorems C27 (any code the builder can make) and C99 (any code): from the module to the answer of a call.
-/

namespace Ab
open Spec

/-- What the caller sees of an outcome (`none`: an exception or an abort). -/
def answerOf : Outcome (List Nat × ExecState) → Option Answer
  | .ok (vs, st) => some (.values vs st.error)
  | .ub _ => some .undefined
  | .fuel => some .pending
  | _ => none

theorem answerOf_ub {o : Outcome (List Nat × ExecState)} (h : o.isUb = true) : answerOf o = some .undefined := by
  cases o <;> simp_all [Outcome.isUb, answerOf]

/-- Returned registers are named by a return instruction of the code. -/
def ReturnedFrom (is : List Instr) : AState → Prop
  | .returned _ (some s) _ => .x32ret s ∈ is
  | _ => True

theorem astep_returned {body : List Byte} {n : Nat} {is : List Instr} (hw : WellFormedBody body n is) {s : AState}
    (hb : AtBoundary is s) (h : ReturnedFrom is s) : ReturnedFrom is (astep body n s) := by
  cases s with
  | running pc regs =>
    obtain ⟨pre, i, post, his, rfl⟩ := hb
    have hdec : decode (body.drop (bytesOf pre)) = some i := by
      have := hw.decodes
      rw [his] at this
      have h2 := this.drop
      generalize body.drop (bytesOf pre) = bs at h2
      cases h2 with
      | cons h1 _ _ => exact h1
    have hj : ∀ t r, ReturnedFrom is (jump body t r) := by
      intro t r; unfold jump; split <;> trivial
    simp only [astep, hdec]
    cases i with
    | x32ret s =>
      simp only
      split
      · show _ ∈ _
        rw [his]; simp
      · trivial
    | gotoIf t o => simp only; split; exact hj _ _; trivial
    | gotoUnless t o => simp only; split; exact hj _ _; trivial
    | add d l r => simp only; split; split; exact hj _ _; trivial; trivial
    | sub d l r => simp only; split; split; exact hj _ _; trivial; trivial
    | nop => exact hj _ _
    | goto o => exact hj _ _
    | _ => trivial
  | _ => exact h

theorem arun_returned {body : List Byte} {n : Nat} {is : List Instr} (hw : WellFormedBody body n is) (k : Nat) {s : AState}
    (hb : AtBoundary is s) (h : ReturnedFrom is s) : ReturnedFrom is (arun body n k s) := by
  induction k generalizing s with
  | zero => exact h
  | succ k ih => exact ih (astep_boundary hw hb) (astep_returned hw hb h)

theorem start_boundary {body : List Byte} {n : Nat} {is : List Instr} (hw : WellFormedBody body n is) (regs : Regs) :
    AtBoundary is (.running 0 regs) := by
  cases his : is with
  | nil => exact absurd his hw.nonempty
  | cons i post => exact ⟨[], i, post, rfl, rfl⟩

theorem startsWith_startRegs (mem : Mem) (sp : Nat) (args : List (CType × Nat)) :
    StartsWith (startRegs mem sp args) args := by
  intro j v hj
  rw [List.getElem?_eq_some_iff] at hj
  obtain ⟨hl, hj⟩ := hj
  unfold startRegs
  rw [if_pos hl]
  simp [List.getD_eq_getElem?_getD, List.getElem?_eq_getElem hl, hj]

/-- A call from top level answers as the machine says. -/
theorem call_answer {e : Env} {st : ExecState} {func : FuncInst} {rets : List CType} {args : List (CType × Nat)}
    (h : CallFits e st func rets args) (hip : st.ip % 256 = 0) (herr : st.error = false) {body : List Byte} {is : List Instr}
    (hb : BodyAt e func.body body) (hw : WellFormedBody body func.nregs.toNat is)
    (hr : ReturnsFit is rets func.nregs.toNat) (fuel : Nat) :
    answerOf (staticCall e fuel st func rets args) =
      (arun body func.nregs.toNat fuel (.running 0 (startRegs st.mem (calleeSp st func) args))).answer rets := by
  have g := call_gives h hip hb fuel
  have hbd := start_boundary hw (startRegs st.mem (calleeSp st func) args)
  have hret := arun_returned hw fuel hbd trivial
  have hns := arun_boundary hw fuel hbd
  generalize arun body func.nregs.toNat fuel (.running 0 (startRegs st.mem (calleeSp st func) args)) = s at g hret hns
  rw [herr] at g
  have noval : ∀ err, (if rets = [] then ∃ st', staticCall e fuel st func rets args = .ok ([], st') ∧ st'.error = err
      else (staticCall e fuel st func rets args).isUb = true) →
      answerOf (staticCall e fuel st func rets args) = some (.noValue rets err) := by
    intro err q
    unfold Answer.noValue
    split at q
    · rename_i h0
      obtain ⟨st', h1, h2⟩ := q
      rw [h1, if_pos h0, answerOf, h2]
    · rename_i h0
      rw [if_neg h0, answerOf_ub q]
  cases s with
  | running pc regs => rw [show staticCall e fuel st func rets args = .fuel from g]; rfl
  | halted pc regs => exact noval _ g
  | unreachable pc regs => exact noval _ g
  | returned pc src regs =>
    cases src with
    | none => exact noval _ g
    | some i =>
      obtain ⟨st', h1, h2⟩ := g (hr i hret)
      rw [h1, answerOf, h2]; rfl
  | overflow => exact answerOf_ub g
  | stuck => exact hns.elim

theorem loaded_call_fits {wm : WModule} (hwf : WellFormed wm) (hfit : Fits wm) {i : Nat} {c : CodeEntry} {ti : U32} {t : FuncType}
    (hc : wm.codes[i]? = some c) (hd : wm.funcs[i]? = some ti) (ht : wm.types[ti.toNat]? = some t)
    {rets : List CType} {args : List (CType × Nat)} (hargs : (args.map (·.1)).map CType.toValType = t.args)
    (hrets : rets.map CType.toValType = t.rets) {n : Nat} (hn : n = c.nregs.toNat + regTotal (args.map (·.1))) {e : Env}
    (hcode : e.code = writeModule wm) (hstack : 0 < e.stackLo) (h64 : e.stackHi < 2 ^ 64) (hroom : 40 + 4 * n ≤ STACK_SIZE)
    (mem : Mem) :
    ∃ lm fn, compile (writeModule wm) = .ok lm ∧ lm.funcs[i]? = some fn ∧
      CallFits e (.init e mem) (instantiateFunc e.codeLo fn) rets args ∧
      (instantiateFunc e.codeLo fn).nregs.toNat = n ∧ BodyAt e (instantiateFunc e.codeLo fn).body c.body := by
  obtain ⟨lm, hcomp, hl⟩ := C06_write_compile_roundtrip wm hwf hfit
  have hilt : i < lm.funcs.length := by
    rw [hl.count]
    rw [List.getElem?_eq_some_iff] at hc
    exact hc.1
  have hfn : lm.funcs[i]? = some lm.funcs[i] := List.getElem?_eq_getElem hilt
  refine ⟨lm, lm.funcs[i], hcomp, hfn, ?_⟩
  generalize lm.funcs[i] = fn at hfn
  obtain ⟨k1, _, _, _, _, k6, k7⟩ := hl.each i c fn ti _ hc hfn hd ht
  unfold STACK_SIZE at hroom
  have hargn : t.argNregs.toNat = regTotal (args.map (·.1)) := by
    have := (C14_slots_cover (args.map (·.1)) t.rets).1
    rw [hargs] at this
    rw [this]
    have h2 := nthSlotIndex_append (args.map (·.1)) []
    rw [List.append_nil] at h2
    rw [h2]
    omega
  have hnregs : fn.nregs.toNat = n := by
    rw [k6, BitVec.toNat_add, hargn]
    omega
  generalize hfi : instantiateFunc e.codeLo fn = fi
  have hfin : fi.nregs.toNat = n := by rw [← hfi]; exact hnregs
  have hfit' : fi.type = t := by rw [← hfi]; exact k1
  refine ⟨?_, hfin, ?_⟩
  · refine ⟨?_, ?_, ?_, ?_, hstack, h64, by simp [ExecState.init], by simp [ExecState.init], ?_⟩
    · rw [hargs, hfit']
    · rw [hrets, hfit']
    · rw [hfin]; show _ ≤ e.stackLo + 2048; omega
    · exact Nat.le_refl _
    · rw [hfin]; omega
  · rw [← hfi]
    apply occursAt_bodyAt
    rw [hcode]; exact k7

/-- **C99**: write a module whose `i`-th function has a well-formed body (any instructions, any branches), compile and instantiate it
and call the function on a fresh context: after any number of instructions the answer is that of the register machine started with
the arguments in the first registers. -/
theorem C99_written_code_runs (wm : WModule) (hwf : WellFormed wm) (hfit : Fits wm) (i : Nat) (c : CodeEntry) (ti : U32)
    (t : FuncType) (hc : wm.codes[i]? = some c) (hd : wm.funcs[i]? = some ti) (ht : wm.types[ti.toNat]? = some t)
    (rets : List CType) (args : List (CType × Nat)) (hargs : (args.map (·.1)).map CType.toValType = t.args)
    (hrets : rets.map CType.toValType = t.rets) (n : Nat) (hn : n = c.nregs.toNat + regTotal (args.map (·.1)))
    (is : List Instr) (hw : WellFormedBody c.body n is) (hr : ReturnsFit is rets n)
    (e : Env) (hcode : e.code = writeModule wm) (hstack : 0 < e.stackLo) (h64 : e.stackHi < 2 ^ 64)
    (hroom : 40 + 4 * n ≤ STACK_SIZE) (mem : Mem) :
    ∃ lm fn regs, compile (writeModule wm) = .ok lm ∧ lm.funcs[i]? = some fn ∧ StartsWith regs args ∧
      ∀ fuel, answerOf (staticCall e fuel (.init e mem) (instantiateFunc e.codeLo fn) rets args) =
        (arun c.body n fuel (.running 0 regs)).answer rets := by
  obtain ⟨lm, fn, h1, h2, h3, h4, h5⟩ := loaded_call_fits hwf hfit hc hd ht hargs hrets hn hcode hstack h64 hroom mem
  refine ⟨lm, fn, startRegs mem (calleeSp (.init e mem) (instantiateFunc e.codeLo fn)) args, h1, h2,
    startsWith_startRegs _ _ _, fun fuel => ?_⟩
  have := call_answer h3 rfl rfl h5 (is := is) (by rw [h4]; exact hw) (by rw [h4]; exact hr) fuel
  rw [h4] at this
  exact this

/-! ### Code in order -/

theorem in_order_run {body : List Byte} {n : Nat} {is : List Instr} (hw : WellFormedBody body n is)
    (hb : ∀ i ∈ is, i.branch = none) (rets : List CType) : ∀ (rest pre : List Instr) (regs : Regs) (fuel : Nat),
      is = pre ++ rest → rest ≠ [] → rest.length ≤ fuel →
      (arun body n fuel (.running (bytesOf pre) regs)).answer rets = inOrder rets rest regs
  | [], _, _, _, _, h, _ => absurd rfl h
  | i :: rest, pre, regs, 0, _, _, hf => by simp at hf
  | i :: rest, pre, regs, fuel + 1, his, _, hf => by
    have hdec : decode (body.drop (bytesOf pre)) = some i := by
      have := hw.decodes
      rw [his] at this
      have h2 := this.drop
      generalize body.drop (bytesOf pre) = bs at h2
      cases h2 with
      | cons h1 _ _ => exact h1
    have hmem : i ∈ is := by rw [his]; simp
    have hregs := hw.regs i hmem
    have hbr := hb i hmem
    have hsup := hw.supported i hmem
    have stop : ∀ {s : AState}, astep body n (.running (bytesOf pre) regs) = s → s.stopped →
        (arun body n (fuel + 1) (.running (bytesOf pre) regs)).answer rets = s.answer rets := by
      intro s hs hst
      rw [arun, hs, arun_stopped hst fuel]
    have go : ∀ (regs' : Regs), i.noFallThrough = false →
        astep body n (.running (bytesOf pre) regs) = jump body (bytesOf pre + i.size) regs' →
        (arun body n (fuel + 1) (.running (bytesOf pre) regs)).answer rets = inOrder rets rest regs' := by
      intro regs' hnf hs
      have hne : rest ≠ [] := by
        rintro rfl
        have := hw.last i (by rw [his]; simp)
        rw [hnf] at this; cases this
      rw [arun, hs]
      have hlen := hw.decodes.length
      rw [his, bytesOf_append] at hlen
      have hr : 1 ≤ bytesOf rest := by
        cases rest with
        | nil => exact absurd rfl hne
        | cons j post =>
          simp only [bytesOf, List.map_cons, List.sum_cons]
          cases j <;> simp [Instr.size] <;> omega
      have hcons : bytesOf (i :: rest) = i.size + bytesOf rest := by simp [bytesOf]
      unfold jump
      rw [if_pos (by omega)]
      have := in_order_run hw hb rets rest (pre ++ [i]) regs' fuel (by rw [his]; simp) hne (by simp at hf; omega)
      rw [bytesOf_append, show bytesOf [i] = i.size by simp [bytesOf]] at this
      rw [← this]
      congr 2
    cases i with
    | unreachable => exact stop (s := .unreachable (bytesOf pre) regs) (by simp only [astep, hdec]) trivial
    | nop => exact go regs rfl (by simp only [astep, hdec, Instr.size]; rfl)
    | halt => exact stop (s := .halted (bytesOf pre) regs) (by simp only [astep, hdec]) trivial
    | ret => exact stop (s := .returned (bytesOf pre) none regs) (by simp only [astep, hdec]) trivial
    | x32ret src =>
      refine stop (s := .returned (bytesOf pre) (some src) regs) ?_ trivial
      simp only [astep, hdec]
      rw [if_pos (hregs src (by simp [Instr.regs]))]
    | x64ret src => exact absurd rfl (hsup src)
    | goto off => simp [Instr.branch] at hbr
    | gotoIf t off => simp [Instr.branch] at hbr
    | gotoUnless t off => simp [Instr.branch] at hbr
    | add d l r =>
      have hreg : d < n ∧ l < n ∧ r < n :=
        ⟨hregs d (by simp [Instr.regs]), hregs l (by simp [Instr.regs]), hregs r (by simp [Instr.regs])⟩
      rw [inOrder]
      split
      · rename_i hin
        refine go _ rfl ?_
        simp only [astep, hdec]
        rw [if_pos hreg, if_pos hin]; rfl
      · rename_i hin
        refine stop (s := .overflow) ?_ trivial
        simp only [astep, hdec]
        rw [if_pos hreg, if_neg hin]
    | sub d l r =>
      have hreg : d < n ∧ l < n ∧ r < n :=
        ⟨hregs d (by simp [Instr.regs]), hregs l (by simp [Instr.regs]), hregs r (by simp [Instr.regs])⟩
      rw [inOrder]
      split
      · rename_i hin
        refine go _ rfl ?_
        simp only [astep, hdec]
        rw [if_pos hreg, if_pos hin]; rfl
      · rename_i hin
        refine stop (s := .overflow) ?_ trivial
        simp only [astep, hdec]
        rw [if_pos hreg, if_neg hin]

/-- What the builder's instruction is, in the specification's terms. -/
theorem built_wellFormed (f : FuncNode) (n : Nat) (hn : n ≤ 256) (hne : f.insns ≠ [])
    (hregs : ∀ i ∈ f.insns, ∀ r ∈ i.meaning.regs, r < n) (hx : ∀ i ∈ f.insns, ∀ s, i ≠ .x64Return s)
    (hlast : ∀ i, f.insns.getLast? = some i → i.meaning.noFallThrough = true) :
    WellFormedBody f.code.body n (f.insns.map Insn.meaning) ∧ ∀ i ∈ f.insns.map Insn.meaning, i.branch = none := by
  have hb : ∀ i ∈ f.insns.map Insn.meaning, i.branch = none := by
    intro i hi
    obtain ⟨j, _, rfl⟩ := List.mem_map.1 hi
    cases j <;> rfl
  refine ⟨⟨?_, by simpa using hne, ?_, ?_, ?_, ?_⟩, hb⟩
  · refine (C12_stream_decodes_partial f fun i hi => ?_).1
    have := hregs i hi
    cases i <;> simp [Insn.meaning, Instr.regs, Insn.small] at this ⊢ <;> omega
  · intro i hi
    obtain ⟨j, hj, rfl⟩ := List.mem_map.1 hi
    exact hregs j hj
  · intro i hi s
    obtain ⟨j, hj, rfl⟩ := List.mem_map.1 hi
    have := hx j hj
    cases j <;> simp [Insn.meaning] at this ⊢
  · intro i hi
    rw [List.getLast?_map] at hi
    obtain ⟨j, hj, rfl⟩ := Option.map_eq_some_iff.1 hi
    exact hlast j hj
  · intro pre i post h off ho
    have := hb i (by rw [h]; simp)
    rw [this] at ho; cases ho

/-- **C27**, any code: for every function made with the builder whose code uses the registers the function has (at most 256), ends in an
instruction that does not go on, and does not use `x64.return`: the written module compiles, and a call on a fresh context, with
arguments and results of any types, answers what the instructions in order say. -/
theorem C27_any_code (m : ModuleNode) (hwf : WellFormed m.accept) (hfit : Fits m.accept)
    (i : Nat) (f : FuncNode) (hf : m.funcs[i]? = some f) (t : FuncType) (ht : m.types[f.typeIdx.toNat]? = some t)
    (rets : List CType) (args : List (CType × Nat)) (hargs : (args.map (·.1)).map CType.toValType = t.args)
    (hrets : rets.map CType.toValType = t.rets) (n : Nat) (hn : n = f.nregs.toNat + regTotal (args.map (·.1)))
    (hn256 : n ≤ 256) (hne : f.insns ≠ [])
    (hregs : ∀ i ∈ f.insns, ∀ r ∈ i.meaning.regs, r < n) (hx : ∀ i ∈ f.insns, ∀ s, i ≠ .x64Return s)
    (hlast : ∀ i, f.insns.getLast? = some i → i.meaning.noFallThrough = true)
    (hr : ReturnsFit (f.insns.map Insn.meaning) rets n)
    (e : Env) (hcode : e.code = m.write) (hstack : 0 < e.stackLo) (h64 : e.stackHi < 2 ^ 64) (mem : Mem) :
    ∃ lm fn regs, compile m.write = .ok lm ∧ lm.funcs[i]? = some fn ∧ StartsWith regs args ∧
      ∀ fuel, f.insns.length ≤ fuel →
        answerOf (staticCall e fuel (.init e mem) (instantiateFunc e.codeLo fn) rets args) =
          inOrder rets (f.insns.map Insn.meaning) regs := by
  obtain ⟨hw, hb⟩ := built_wellFormed f n hn256 hne hregs hx hlast
  obtain ⟨lm, fn, regs, h1, h2, h3, h4⟩ := C99_written_code_runs m.accept hwf hfit i f.code f.typeIdx t
    (by simp [ModuleNode.accept, hf]) (by simp [ModuleNode.accept, hf]) ht rets args hargs hrets n hn _ hw hr e hcode
    hstack h64 (by unfold STACK_SIZE; omega) mem
  refine ⟨lm, fn, regs, h1, h2, h3, fun fuel hfuel => ?_⟩
  rw [h4 fuel]
  have := in_order_run hw hb rets (f.insns.map Insn.meaning) [] regs fuel rfl (by simpa using hne) (by simpa using hfuel)
  exact this

/-- Non-vacuity: the module of C27 with `r2 := r0 + r1; r2 := r2 + r2; return r2`. -/
example : ∃ f t, exNode.funcs[0]? = some f ∧ exNode.types[f.typeIdx.toNat]? = some t ∧
    ([(CType.i32, 3), (.i32, 4)].map (·.1)).map CType.toValType = t.args ∧ [CType.i32].map CType.toValType = t.rets ∧
    f.insns ≠ [] ∧ (∀ i ∈ f.insns, ∀ r ∈ i.meaning.regs, r < 3) ∧
    (∀ i, f.insns.getLast? = some i → i.meaning.noFallThrough = true) ∧
    ReturnsFit (f.insns.map Insn.meaning) [.i32] 3 ∧
    ∀ regs : Regs, StartsWith regs [(.i32, 3), (.i32, 4)] →
      inOrder [.i32] (f.insns.map Insn.meaning) regs = some (.values [14] false) := by
  refine ⟨_, _, rfl, rfl, rfl, rfl, by simp, by simp [Insn.meaning, Instr.regs], ?_, ?_, ?_⟩
  · intro i hi
    simp only [List.getLast?_cons_cons, List.getLast?_singleton, Option.some.injEq] at hi
    subst hi; rfl
  · intro s hs
    simp [Insn.meaning] at hs
    subst hs; decide
  · intro regs h
    have h0 := h 0 3#32 rfl
    have h1 := h 1 4#32 rfl
    simp [Insn.meaning, inOrder, Regs.set, h0, h1, inI32, retVals, valueAt, regCount]

/-! ### A loop, from the module to the answer -/

/-- A module with the loop of C96: `f(a, b, 1)` adds up `a` times `b`. -/
def mulModule : WModule := ⟨[⟨[I32, I32, I32], [I32]⟩], [0#32], [⟨1#32, loopBody⟩]⟩

theorem mulModule_ok : WellFormed mulModule ∧ Fits mulModule :=
  ⟨⟨rfl, by simp [mulModule]⟩, by decide +kernel⟩

/-- The registers of the loop: `k` left to do, `acc` so far. -/
structure LoopAt (regs : Regs) (k b acc : Int) : Prop where
  r0 : (regs 0).toInt = k
  r1 : (regs 1).toInt = b
  r2 : (regs 2).toInt = 1
  r3 : (regs 3).toInt = acc

theorem toInt_inI32 (v : U32) : inI32 v.toInt := by
  unfold inI32
  have h1 := BitVec.le_toInt v
  have h2 := BitVec.toInt_lt (x := v)
  omega

/-- One turn. -/
theorem loop_turn {regs : Regs} {k b acc : Int} (h : LoopAt regs k b acc) (hk : 0 < k) (hin : inI32 (acc + b)) :
    ∃ regs', arun loopBody 4 4 (.running 4 regs) = .running 4 regs' ∧ LoopAt regs' (k - 1) b (acc + b) := by
  have hki := h.r0 ▸ toInt_inI32 (regs 0)
  have hne : regs 0 ≠ 0 := by
    intro he
    have := h.r0
    rw [he] at this
    simp at this
    omega
  have hin2 : inI32 (k - 1) := by unfold inI32 at hki ⊢; omega
  refine ⟨(regs.set 3 (BitVec.ofInt 32 (acc + b))).set 0 (BitVec.ofInt 32 (k - 1)), ?_, ?_⟩
  · simp only [arun]
    have s1 : astep loopBody 4 (.running 4 regs) = .running 7 regs := by
      simp only [astep, show decode (loopBody.drop 4) = some (.gotoUnless 0 10) from rfl]
      rw [if_pos (by decide), if_neg hne]; rfl
    have s2 : astep loopBody 4 (.running 7 regs) = .running 11 (regs.set 3 (BitVec.ofInt 32 (acc + b))) := by
      simp only [astep, show decode (loopBody.drop 7) = some (.add 3 3 1) from rfl]
      rw [if_pos (by decide), h.r3, h.r1, if_pos hin]; rfl
    have s3 : astep loopBody 4 (.running 11 (regs.set 3 (BitVec.ofInt 32 (acc + b)))) =
        .running 15 ((regs.set 3 (BitVec.ofInt 32 (acc + b))).set 0 (BitVec.ofInt 32 (k - 1))) := by
      simp only [astep, show decode (loopBody.drop 11) = some (.sub 0 0 2) from rfl]
      rw [if_pos (by decide)]
      simp only [show (regs.set 3 (BitVec.ofInt 32 (acc + b))) 0 = regs 0 from rfl,
        show (regs.set 3 (BitVec.ofInt 32 (acc + b))) 2 = regs 2 from rfl]
      rw [h.r0, h.r2, if_pos hin2]; rfl
    rw [s1, s2, s3]
    rfl
  · refine ⟨?_, h.r1, h.r2, ?_⟩
    · exact toInt_ofInt_inI32 hin2
    · exact toInt_ofInt_inI32 hin

/-- The rest of the loop. -/
theorem loop_run (b : Int) (k : Nat) : ∀ (regs : Regs) (acc : Int), LoopAt regs k b acc →
    (∀ j : Nat, j ≤ k → inI32 (acc + j * b)) →
    ∃ pc regs', arun loopBody 4 (4 * k + 2) (.running 4 regs) = .returned pc (some 3) regs' ∧
      (regs' 3).toInt = acc + k * b := by
  induction k with
  | zero =>
    intro regs acc h _
    refine ⟨17, regs, ?_, by simpa using h.r3⟩
    have h0 : regs 0 = 0 := by
      have := h.r0
      exact BitVec.toInt_inj.1 (by simpa using this)
    simp only [Nat.mul_zero, Nat.zero_add, arun]
    have s1 : astep loopBody 4 (.running 4 regs) = .running 17 regs := by
      simp only [astep, show decode (loopBody.drop 4) = some (.gotoUnless 0 10) from rfl]
      rw [if_pos (by decide), if_pos h0]; rfl
    rw [s1]; rfl
  | succ k ih =>
    intro regs acc h hin
    obtain ⟨regs', h1, h2⟩ := loop_turn h (by omega) (by have := hin 1 (by omega); simpa using this)
    rw [show ((k + 1 : Nat) : Int) - 1 = k by omega] at h2
    obtain ⟨pc, r, h3, h4⟩ := ih regs' (acc + b) h2 (by
      intro j hj
      have := hin (j + 1) (by omega)
      rw [show ((j + 1 : Nat) : Int) = j + 1 by omega, Int.add_mul] at this
      rw [show acc + b + (j : Int) * b = acc + (j * b + 1 * b) by omega]
      exact this)
    refine ⟨pc, r, ?_, ?_⟩
    · rw [show 4 * (k + 1) + 2 = 4 + (4 * k + 2) by omega, arun_add, h1, h3]
    · rw [h4, show ((k + 1 : Nat) : Int) = k + 1 by omega, Int.add_mul]; omega

theorem loop_products {a b : Int} (ha : 0 ≤ a) (hb : inI32 b) (hab : inI32 (a * b)) (j : Nat) (hj : (j : Int) ≤ a) :
    inI32 ((j : Int) * b) := by
  unfold inI32 at hab ⊢
  rcases Int.le_total 0 b with h | h
  · have h1 : 0 ≤ (j : Int) * b := Int.mul_nonneg (by omega) h
    have h2 : (j : Int) * b ≤ a * b := Int.mul_le_mul_of_nonneg_right hj h
    omega
  · have h1 : (j : Int) * b ≤ 0 := Int.mul_nonpos_of_nonneg_of_nonpos (by omega) h
    have h2 : a * b ≤ (j : Int) * b := Int.mul_le_mul_of_nonpos_right hj h
    omega

/-- **C99**, used on a loop: for every `a ≥ 0` and `b` whose product fits in 32 bits, writing the module, compiling it and calling
the function with `a`, `b` and 1 returns `a * b`, after `4 a + 3` instructions, whatever the stack held. -/
theorem C99_multiplication (a b : Int) (ha : 0 ≤ a) (ha' : inI32 a) (hb : inI32 b) (hab : inI32 (a * b)) (e : Env)
    (hcode : e.code = writeModule mulModule) (hstack : 0 < e.stackLo) (h64 : e.stackHi < 2 ^ 64) (mem : Mem) :
    ∃ lm fn, compile (writeModule mulModule) = .ok lm ∧ lm.funcs[0]? = some fn ∧
      ∀ fuel : Nat, 4 * a + 3 ≤ fuel →
        answerOf (staticCall e fuel (.init e mem) (instantiateFunc e.codeLo fn) [.i32] ([a, b, 1].map i32Arg)) =
          some (.values [(BitVec.ofInt 32 (a * b)).toNat] false) := by
  obtain ⟨lm, fn, regs, h1, h2, h3, h4⟩ := C99_written_code_runs mulModule mulModule_ok.1 mulModule_ok.2 0 ⟨1#32, loopBody⟩ 0#32
    ⟨[I32, I32, I32], [I32]⟩ rfl rfl rfl [.i32] ([a, b, 1].map i32Arg) rfl rfl 4 rfl loopInstrs loopWellFormed
    (by intro s hs; simp [loopInstrs] at hs; subst hs; decide) e hcode hstack h64 (by decide) mem
  refine ⟨lm, fn, h1, h2, fun fuel hf => ?_⟩
  rw [h4 fuel]
  obtain ⟨n, rfl⟩ := Int.eq_ofNat_of_zero_le ha
  have r0 : regs 0 = BitVec.ofInt 32 n := h3 0 _ (by rw [argRegs_i32]; rfl)
  have r1 : regs 1 = BitVec.ofInt 32 b := h3 1 _ (by rw [argRegs_i32]; rfl)
  have r2 : regs 2 = BitVec.ofInt 32 1 := h3 2 _ (by rw [argRegs_i32]; rfl)
  have s1 : astep loopBody 4 (.running 0 regs) = .running 4 (regs.set 3 0) := by
    simp only [astep, show decode (loopBody.drop 0) = some (.sub 3 0 0) from rfl]
    rw [if_pos (by decide), Int.sub_self, if_pos (by decide)]; rfl
  have hl : LoopAt (regs.set 3 0) n b 0 := by
    refine ⟨?_, ?_, ?_, rfl⟩
    · show (regs 0).toInt = _; rw [r0, toInt_ofInt_inI32 ha']
    · show (regs 1).toInt = _; rw [r1, toInt_ofInt_inI32 hb]
    · show (regs 2).toInt = _; rw [r2]; decide
  obtain ⟨pc, r, h5, h6⟩ := loop_run b n _ 0 hl (by
    intro j hj
    have := loop_products ha hb hab j (by omega)
    simpa using this)
  obtain ⟨k, rfl⟩ : ∃ k, fuel = 1 + (4 * n + 2) + k := ⟨fuel - (4 * n + 3), by omega⟩
  rw [arun_add, arun_add, show arun loopBody 4 1 (.running 0 regs) = astep loopBody 4 (.running 0 regs) from rfl, s1, h5,
    arun_stopped (s := .returned pc (some 3) r) trivial]
  have h7 : r 3 = BitVec.ofInt 32 (n * b) := by
    apply BitVec.eq_of_toInt_eq
    rw [h6, toInt_ofInt_inI32 hab]; omega
  simp [AState.answer, retVals, valueAt, regCount, h7]

/-- 6 times -7. -/
example : (0 : Int) ≤ 6 ∧ inI32 6 ∧ inI32 (-7) ∧ inI32 (6 * -7) := by decide

end Ab
