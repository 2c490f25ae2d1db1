import Verif.Props.Call
import Verif.Props.Module
import Verif.Props.Builder
import Verif.Spec.StraightLine

/-!
Property theorem C27: build, write, compile, instantiate and call.
-/

namespace Ab
open Spec

/-- The machine registers hold the known integers. -/
def EnvMatch (env : IntEnv) (regs : Regs) : Prop := ∀ j v, env j = some v → regs j = BitVec.ofInt 32 v ∧ inI32 v

theorem toInt_ofInt_inI32 {v : Int} (h : inI32 v) : (BitVec.ofInt 32 v).toInt = v := by
  unfold inI32 at h
  rw [BitVec.toInt_ofInt]
  apply Int.bmod_eq_of_le <;> omega

/-- An instruction list built from additions. -/
def addInsns (adds : List (U32 × U32 × U32)) : List Insn := adds.map fun a => .i32Add a.1 a.2.1 a.2.2

def addNats (adds : List (U32 × U32 × U32)) : List (Nat × Nat × Nat) :=
  adds.map fun a => (a.1.toNat, a.2.1.toNat, a.2.2.toNat)

theorem straight_line_run (adds : List (U32 × U32 × U32)) (s : U32) (n : Nat) (hn : n ≤ 256)
    (hr : ∀ a ∈ adds, a.1.toNat < n ∧ a.2.1.toNat < n ∧ a.2.2.toNat < n) (hs : s.toNat < n) :
    ∀ (pre : List Byte) (regs : Regs) (env env' : IntEnv), EnvMatch env regs → denote (addNats adds) env = some env' →
      ∃ pc regs', arun (pre ++ ((addInsns adds ++ [Insn.x32Return s]).map writeInsn).flatten) n (adds.length + 1)
        (.running pre.length regs) = .returned pc (some s.toNat) regs' ∧ EnvMatch env' regs' := by
  induction adds with
  | nil =>
    intro pre regs env env' hm hd
    simp only [addNats, List.map_nil, denote, Option.some.injEq] at hd
    subst hd
    refine ⟨pre.length, regs, ?_, hm⟩
    have hdec : decode ((pre ++ ((addInsns [] ++ [Insn.x32Return s]).map writeInsn).flatten).drop pre.length)
        = some (.x32ret s.toNat) := by
      rw [List.drop_left]
      have := (decode_writeInsn (.x32Return s) []).1
      simp only [Insn.meaning256] at this
      rw [Nat.mod_eq_of_lt (by omega)] at this
      simpa [addInsns] using this
    simp only [List.length_nil, arun, astep, hdec]
    rw [if_pos hs]
  | cons a adds ih =>
    obtain ⟨d, l, r⟩ := a
    intro pre regs env env' hm hd
    obtain ⟨h1, h2, h3⟩ := hr (d, l, r) (by simp)
    simp only at h1 h2 h3
    simp only [addNats, List.map_cons, denote] at hd
    split at hd
    · rename_i va vb hva hvb
      split at hd
      · rename_i hin
        have hla := hm _ _ hva
        have hrb := hm _ _ hvb
        have hbytes : pre ++ ((addInsns ((d, l, r) :: adds) ++ [Insn.x32Return s]).map writeInsn).flatten
            = (pre ++ writeInsn (.i32Add d l r)) ++ ((addInsns adds ++ [Insn.x32Return s]).map writeInsn).flatten := by
          simp [addInsns]
        have hdec : decode ((pre ++ ((addInsns ((d, l, r) :: adds) ++ [Insn.x32Return s]).map writeInsn).flatten).drop pre.length)
            = some (.add d.toNat l.toNat r.toNat) := by
          rw [hbytes, List.append_assoc, List.drop_left]
          have := (decode_writeInsn (.i32Add d l r) (((addInsns adds ++ [Insn.x32Return s]).map writeInsn).flatten)).1
          simp only [Insn.meaning256] at this
          rwa [Nat.mod_eq_of_lt (by omega), Nat.mod_eq_of_lt (by omega), Nat.mod_eq_of_lt (by omega)] at this
        have hlen : (pre ++ writeInsn (.i32Add d l r)).length = pre.length + 4 := by simp [writeInsn]
        have hstep : astep (pre ++ ((addInsns ((d, l, r) :: adds) ++ [Insn.x32Return s]).map writeInsn).flatten) n
            (.running pre.length regs) = .running (pre.length + 4) (regs.set d.toNat (BitVec.ofInt 32 (va + vb))) := by
          simp only [astep, hdec]
          rw [if_pos ⟨h1, h2, h3⟩, hla.1, hrb.1, toInt_ofInt_inI32 hla.2, toInt_ofInt_inI32 hrb.2, if_pos hin]
          unfold jump
          rw [if_pos]
          · congr 1
          · refine ⟨by omega, ?_⟩
            rw [hbytes, List.length_append, hlen]
            have : 1 ≤ (((addInsns adds ++ [Insn.x32Return s]).map writeInsn).flatten).length := by
              simp [writeInsn]
            omega
        have hm' : EnvMatch (env.set d.toNat (va + vb)) (regs.set d.toNat (BitVec.ofInt 32 (va + vb))) := by
          intro j v hj
          unfold IntEnv.set at hj
          unfold Regs.set
          split at hj
          · rename_i hjd
            rw [if_pos hjd]
            cases hj
            exact ⟨rfl, hin⟩
          · rename_i hjd
            rw [if_neg hjd]
            exact hm j v hj
        obtain ⟨pc, regs', k1, k2⟩ := ih (fun a ha => hr a (by simp [ha])) (pre ++ writeInsn (.i32Add d l r)) _ _ env' hm' hd
        refine ⟨pc, regs', ?_, k2⟩
        rw [List.length_cons, arun, hstep]
        rw [hbytes]
        rwa [hlen] at k1
      · cases hd
    · cases hd

theorem occursAt_bodyAt {e : Env} {p : Nat} {body : List Byte} (h : OccursAt e.code p body) : BodyAt e (e.codeLo + p) body := by
  refine ⟨e.code.take p, e.code.drop (p + body.length), ?_, ?_⟩
  · have h2 := h.2
    rw [List.append_assoc]
    conv => lhs; rw [← List.take_append_drop p e.code]
    congr 1
    conv => lhs; rw [← List.take_append_drop body.length (e.code.drop p)]
    rw [h2, List.drop_drop]
  · have := h.1
    rw [List.length_take, Nat.min_eq_left (by omega)]

/-- The bits of an `int32_t` argument. -/
def i32Arg (v : Int) : CType × Nat := (.i32, (BitVec.ofInt 32 v).toNat)

theorem argRegs_i32 (vs : List Int) : argRegs (vs.map i32Arg) = vs.map (BitVec.ofInt 32) := by
  induction vs with
  | nil => rfl
  | cons v vs ih =>
    rw [List.map_cons, i32Arg, argRegs, ih, List.map_cons]
    have : slotVals .i32 (BitVec.ofInt 32 v).toNat = [BitVec.ofInt 32 v] := by
      unfold slotVals regCount
      rw [if_neg (by decide), BitVec.ofNat_toNat, BitVec.setWidth_eq]
    rw [this]; rfl

theorem map_replicate_i32 (vs : List Int) : (vs.map i32Arg).map (·.1) = List.replicate vs.length .i32 := by
  induction vs with
  | nil => rfl
  | cons v vs ih => rw [List.map_cons, List.map_cons, ih, List.length_cons, List.replicate_succ]; rfl

theorem regTotal_i32 (k : Nat) : regTotal (List.replicate k .i32) = k := by
  simp [regTotal, regCount]

/-- **C27**: for every module whose `i`-th function is a straight-line sequence of additions over registers the function has
(at most 256, all the byte code can name), ending in the return of register `s`, with `i32` arguments and an `i32`
result: the written bytes compile, and calling the loaded function on a fresh context (whatever the uninitialised stack
holds) with in-range arguments returns the integer that the additions denote. -/
theorem C27_end_to_end (m : ModuleNode) (hwf : WellFormed m.accept) (hfit : Fits m.accept)
    (i : Nat) (f : FuncNode) (hf : m.funcs[i]? = some f) (adds : List (U32 × U32 × U32)) (s : U32)
    (hins : f.insns = addInsns adds ++ [Insn.x32Return s])
    (vs : List Int) (hvs : ∀ v ∈ vs, inI32 v)
    (htype : m.types[f.typeIdx.toNat]? = some ⟨List.replicate vs.length I32, [I32]⟩)
    (hn : vs.length + f.nregs.toNat ≤ 256)
    (hregs : ∀ a ∈ adds, a.1.toNat < vs.length + f.nregs.toNat ∧ a.2.1.toNat < vs.length + f.nregs.toNat ∧
      a.2.2.toNat < vs.length + f.nregs.toNat)
    (hs : s.toNat < vs.length + f.nregs.toNat)
    (env' : IntEnv) (hden : denote (addNats adds) (argEnv vs) = some env') (v : Int) (hv : env' s.toNat = some v)
    (e : Env) (hcode : e.code = m.write) (hstack : 0 < e.stackLo) (h64 : e.stackHi < 2 ^ 64) (mem : Mem) :
    ∃ lm fn, compile m.write = .ok lm ∧ lm.funcs[i]? = some fn ∧
      ∀ fuel, adds.length + 1 ≤ fuel → ∃ st',
        staticCall e fuel (.init e mem) (instantiateFunc e.codeLo fn) [.i32] (vs.map i32Arg)
          = .ok ([(BitVec.ofInt 32 v).toNat], st') ∧ st'.sp = e.stackHi ∧ st'.error = false := by
  obtain ⟨lm, hc, hl⟩ := C06_write_compile_roundtrip m.accept hwf hfit
  have hcodes : m.accept.codes[i]? = some f.code := by simp [ModuleNode.accept, hf]
  have hdecl : m.accept.funcs[i]? = some f.typeIdx := by simp [ModuleNode.accept, hf]
  have hilt : i < lm.funcs.length := by
    rw [hl.count]
    rw [List.getElem?_eq_some_iff] at hcodes
    exact hcodes.1
  have hfn : lm.funcs[i]? = some lm.funcs[i] := List.getElem?_eq_getElem hilt
  refine ⟨lm, lm.funcs[i], hc, hfn, ?_⟩
  generalize lm.funcs[i] = fn at hfn
  obtain ⟨k1, _, _, _, _, k6, k7⟩ := hl.each i f.code fn f.typeIdx _ hcodes hfn hdecl htype
  have hargn : (FuncType.argNregs ⟨List.replicate vs.length I32, [I32]⟩).toNat = vs.length := by
    have := (C14_slots_cover (List.replicate vs.length .i32) [I32]).1
    rw [List.map_replicate, show CType.i32.toValType = I32 from rfl] at this
    rw [this]
    have h2 := nthSlotIndex_append (List.replicate vs.length .i32) []
    rw [List.append_nil, regTotal_i32] at h2
    rw [h2]
    omega
  have hnregs : fn.nregs.toNat = vs.length + f.nregs.toNat := by
    rw [k6, BitVec.toNat_add, hargn]
    show (f.nregs.toNat + vs.length) % 2 ^ 32 = _
    omega
  generalize hfi : instantiateFunc e.codeLo fn = fi
  have hfin : fi.nregs.toNat = vs.length + f.nregs.toNat := by rw [← hfi]; exact hnregs
  have hfit' : fi.type = ⟨List.replicate vs.length I32, [I32]⟩ := by rw [← hfi]; exact k1
  have hbody : BodyAt e fi.body f.code.body := by
    rw [← hfi]
    apply occursAt_bodyAt
    rw [hcode]; exact k7
  have hfits : CallFits e (.init e mem) fi [.i32] (vs.map i32Arg) := by
    refine ⟨?_, ?_, ?_, ?_, hstack, h64, by simp [ExecState.init], by simp [ExecState.init], ?_⟩
    · rw [map_replicate_i32, hfit', List.map_replicate]; rfl
    · rw [hfit']; rfl
    · rw [hfin]; show _ ≤ e.stackLo + 2048; omega
    · exact Nat.le_refl _
    · rw [map_replicate_i32, regTotal_i32, hfin]; omega
  have hm0 : EnvMatch (argEnv vs) (startRegs mem (calleeSp (.init e mem) fi) (vs.map i32Arg)) := by
    intro j w hj
    unfold argEnv at hj
    unfold startRegs
    rw [argRegs_i32, List.length_map]
    rw [List.getElem?_eq_some_iff] at hj
    obtain ⟨hjl, hj⟩ := hj
    rw [if_pos hjl]
    subst hj
    refine ⟨?_, hvs _ (List.getElem_mem hjl)⟩
    simp [List.getD_eq_getElem?_getD, List.getElem?_eq_getElem hjl]
  obtain ⟨pc, regs', hrun, hm'⟩ := straight_line_run adds s (vs.length + f.nregs.toNat) hn hregs hs [] _ _ env' hm0 hden
  rw [List.nil_append, List.length_nil, ← hfin] at hrun
  have hcodebody : f.code.body = ((addInsns adds ++ [Insn.x32Return s]).map writeInsn).flatten := by
    unfold FuncNode.code; rw [hins]
  rw [← hcodebody] at hrun
  intro fuel hfuel
  obtain ⟨st', h1, h2, h3⟩ := C20_static_call_returns_and_restores hfits rfl hbody (adds.length + 1) pc s.toNat regs' hrun
    (by rw [hfin]; simp [regTotal, regCount]; omega) fuel hfuel
  refine ⟨st', ?_, h2.1, h3⟩
  rw [h1]
  congr 2
  simp [retVals, valueAt, regCount, (hm' _ _ hv).1]

/-- Non-vacuity: `r2 := r0 + r1; r2 := r2 + r2; return r2` in a module with one function, on 3 and -5. -/
def exNode : ModuleNode :=
  ⟨[⟨[I32, I32], [I32]⟩], [⟨0#32, 1#32, [.i32Add 2#32 0#32 1#32, .i32Add 2#32 2#32 2#32, .x32Return 2#32]⟩]⟩

example : WellFormed exNode.accept ∧ Fits exNode.accept :=
  ⟨⟨rfl, by simp [exNode, ModuleNode.accept]⟩, by decide +kernel⟩

example : ∃ env', denote (addNats [(2#32, 0#32, 1#32), (2#32, 2#32, 2#32)]) (argEnv [3, -5]) = some env' ∧
    env' 2 = some (-4) := by
  refine ⟨_, rfl, by decide⟩

end Ab
