import Verif.Proof.Mem
import Verif.Spec.Frame

/-! Simulation of the abstract register machine by the interpreter loop (helpers for C17–C27). -/

namespace Ab
open Spec

theorem SameOutside.refl (mem : Mem) (sp n : Nat) : SameOutside mem mem sp n := fun _ _ => rfl

theorem SameOutside.trans {m1 m2 m3 : Mem} {sp n : Nat} (h1 : SameOutside m1 m2 sp n)
    (h2 : SameOutside m2 m3 sp n) : SameOutside m1 m3 sp n :=
  fun x hx => (h2 x hx).trans (h1 x hx)

theorem fetch_body {e : Env} {addr : Nat} {body : List Byte} (h : BodyAt e addr body) {i : Nat} {b : Byte}
    (hb : body[i]? = some b) : fetch e (addr + i) = .ok b := by
  obtain ⟨pre, post, hc, ha⟩ := h
  have hi : i < body.length := by
    rw [List.getElem?_eq_some_iff] at hb; exact hb.1
  have : e.code[addr + i - e.codeLo]? = some b := by
    rw [hc, ha, show e.codeLo + pre.length + i - e.codeLo = pre.length + i by omega, List.append_assoc,
      List.getElem?_append_right (by omega), Nat.add_sub_cancel_left, List.getElem?_append_left hi, hb]
  unfold fetch
  rw [if_pos (by omega), this]

theorem getElem?_of_drop {body : List Byte} {pc : Nat} {l : List Byte} (h : body.drop pc = l) (j : Nat) :
    body[pc + j]? = l[j]? := by
  rw [← h, List.getElem?_drop]

/-- The byte shapes of decodable instructions. -/
theorem decode_cases {bs : List Byte} {i : Instr} (h : decode bs = some i) :
    (i = .unreachable ∧ ∃ t, bs = 0#8 :: t) ∨ (i = .nop ∧ ∃ t, bs = 1#8 :: t) ∨
    (i = .halt ∧ ∃ t, bs = 4#8 :: t) ∨ (i = .ret ∧ ∃ t, bs = 12#8 :: t) ∨
    (∃ r t, i = .x32ret r.toNat ∧ bs = 13#8 :: r :: t) ∨
    (∃ r t, i = .x64ret r.toNat ∧ bs = 14#8 :: r :: t) ∨
    (∃ o t, i = .goto o.toInt ∧ bs = 22#8 :: o :: t) ∨
    (∃ r o t, i = .gotoIf r.toNat o.toInt ∧ bs = 23#8 :: r :: o :: t) ∨
    (∃ r o t, i = .gotoUnless r.toNat o.toInt ∧ bs = 24#8 :: r :: o :: t) ∨
    (∃ d l r t, i = .add d.toNat l.toNat r.toNat ∧ bs = 106#8 :: d :: l :: r :: t) ∨
    (∃ d l r t, i = .sub d.toNat l.toNat r.toNat ∧ bs = 107#8 :: d :: l :: r :: t) := by
  match bs, h with
  | [], h => simp [decode] at h
  | op :: rest, h =>
    have key : ∀ n : Nat, n < 256 → op.toNat = n → op = BitVec.ofNat 8 n := by
      intro n hn ho
      apply BitVec.eq_of_toNat_eq
      rw [ho, BitVec.toNat_ofNat, Nat.mod_eq_of_lt hn]
    simp only [decode] at h
    split at h <;> first | (cases h; done) | (simp only [Option.some.injEq] at h)
    · rename_i ho; subst h; simp [key 0 (by omega) ho]
    · rename_i ho; subst h; simp [key 1 (by omega) ho]
    · rename_i ho; subst h; simp [key 4 (by omega) ho]
    · rename_i ho; subst h; simp [key 12 (by omega) ho]
    · rename_i r t ho; subst h; rw [key 13 (by omega) ho]
      exact Or.inr <| Or.inr <| Or.inr <| Or.inr <| Or.inl ⟨r, t, rfl, rfl⟩
    · rename_i r t ho; subst h; rw [key 14 (by omega) ho]
      exact Or.inr <| Or.inr <| Or.inr <| Or.inr <| Or.inr <| Or.inl ⟨r, t, rfl, rfl⟩
    · rename_i r t ho; subst h; rw [key 22 (by omega) ho]
      exact Or.inr <| Or.inr <| Or.inr <| Or.inr <| Or.inr <| Or.inr <| Or.inl ⟨r, t, rfl, rfl⟩
    · rename_i r o t ho; subst h; rw [key 23 (by omega) ho]
      exact Or.inr <| Or.inr <| Or.inr <| Or.inr <| Or.inr <| Or.inr <| Or.inr <| Or.inl ⟨r, o, t, rfl, rfl⟩
    · rename_i r o t ho; subst h; rw [key 24 (by omega) ho]
      exact Or.inr <| Or.inr <| Or.inr <| Or.inr <| Or.inr <| Or.inr <| Or.inr <| Or.inr <|
        Or.inl ⟨r, o, t, rfl, rfl⟩
    · rename_i d l r t ho; subst h; rw [key 106 (by omega) ho]
      exact Or.inr <| Or.inr <| Or.inr <| Or.inr <| Or.inr <| Or.inr <| Or.inr <| Or.inr <| Or.inr <|
        Or.inl ⟨d, l, r, t, rfl, rfl⟩
    · rename_i d l r t ho; subst h; rw [key 107 (by omega) ho]
      exact Or.inr <| Or.inr <| Or.inr <| Or.inr <| Or.inr <| Or.inr <| Or.inr <| Or.inr <| Or.inr <|
        Or.inr ⟨d, l, r, t, rfl, rfl⟩

theorem loadReg_ok {e : Env} {func : FuncInst} {sp : Nat} (hf : FrameOk e func sp) (mem : Mem) (idx : Byte)
    (hi : idx.toNat < func.nregs.toNat) : loadReg e mem sp idx = .ok (regView mem sp idx.toNat) := by
  have h1 := hf.lo
  have h2 := hf.hi
  unfold loadReg regAddr SIZEOF_SLOT
  rw [load_ok e mem _ _ (by omega) (by omega)]
  simp only [Outcome.ok_bind, regView]
  rw [Nat.mul_comm]

theorem nregBytes_eq {e : Env} {func : FuncInst} {sp : Nat} (hf : FrameOk e func sp) :
    func.nregBytes = 4 * func.nregs.toNat := by
  have h1 := hf.lo
  have h2 := hf.hi
  unfold Env.stackHi STACK_SIZE at h2
  unfold FuncInst.nregBytes
  rw [BitVec.toNat_mul, BitVec.toNat_ofNat]
  omega

/-- The low byte of the first word above the register area: what the return handlers look at. -/
theorem frameKind_ok {e : Env} {func : FuncInst} {sp : Nat} (hf : FrameOk e func sp) (mem : Mem) :
    frameKind e mem sp func = .ok (mem (sp + 4 * func.nregs.toNat)) := by
  have h1 := hf.lo
  have h2 := hf.hi
  unfold frameKind
  rw [nregBytes_eq hf, load_ok e mem _ _ (by omega) (by omega)]
  simp only [Outcome.ok_bind]
  congr 1
  apply BitVec.eq_of_toNat_eq
  rw [BitVec.toNat_ofNat]
  exact readLE_mod_256 mem _ 3

theorem regView_write (mem : Mem) (sp d i : Nat) (v : U32) :
    regView (writeAt mem (sp + d * 4) (natBytes v.toNat 4)) sp i = if i = d then v else regView mem sp i := by
  unfold regView
  split
  · rename_i h
    subst h
    rw [Nat.mul_comm 4 i, readLE_writeAt_same]
    apply BitVec.eq_of_toNat_eq
    rw [BitVec.toNat_ofNat]
    have := v.isLt
    omega
  · rename_i h
    rw [readLE_writeAt_disjoint _ _ _ _ _ _ (by omega)]

theorem checkedI32_ok {v : Int} (h : inI32 v) : checkedI32 v = .ok (BitVec.ofInt 32 v) := by
  unfold inI32 at h; unfold checkedI32; rw [if_pos h]

theorem checkedI32_ub {v : Int} (h : ¬ inI32 v) : checkedI32 v = .ub "signed integer overflow" := by
  unfold inI32 at h; unfold checkedI32; rw [if_neg h]

/-- What one step of the interpreter does, by the state the abstract machine steps to. -/
def StepOk (e : Env) (func : FuncInst) (sp addr : Nat) (pc : Nat) (regs : Regs) (mem : Mem) : AState → Prop
  | .running pc' regs' => ∃ mem', step e func sp (addr + pc) mem = .ok (.next (addr + pc') mem') ∧
      RegsMatch mem' sp func.nregs.toNat regs' ∧ SameOutside mem mem' sp func.nregs.toNat
  | .halted pc' regs' => pc' = pc ∧ regs' = regs ∧ step e func sp (addr + pc) mem = .ok (.exit 0 false)
  | .unreachable pc' regs' => pc' = pc ∧ regs' = regs ∧ step e func sp (addr + pc) mem = .ok (.exit 0 true)
  | .returned pc' src regs' => pc' = pc ∧ regs' = regs ∧
      (mem (sp + 4 * func.nregs.toNat) = 0#8 →
        step e func sp (addr + pc) mem =
          .ok (.exit (match src with | none => 0 | some i => sp + 4 * i) false)) ∧
      (mem (sp + 4 * func.nregs.toNat) ≠ 0#8 → (step e func sp (addr + pc) mem).isTrap = true) ∧
      (∀ i, src = some i → i < func.nregs.toNat)
  | .overflow => (step e func sp (addr + pc) mem).isUb = true
  | .stuck => True

theorem offsetIp_ok (addr pc : Nat) (off : Byte) (size : Nat) (t : Int) (h0 : 0 ≤ t)
    (h : (pc : Int) + size + off.toInt = t) : offsetIp (addr + pc) off size = .ok (addr + t.toNat) := by
  unfold offsetIp
  have : ((addr + pc : Nat) : Int) + off.toInt + size = addr + t := by omega
  simp only [this]
  rw [if_pos (by omega)]
  congr 1; omega

theorem StepOk_jump {e : Env} {func : FuncInst} {sp addr pc : Nat} {regs : Regs} {mem : Mem}
    {body : List Byte} (t : Int) (regs' : Regs)
    (h : 0 ≤ t → ∃ mem', step e func sp (addr + pc) mem = .ok (.next (addr + t.toNat) mem') ∧
      RegsMatch mem' sp func.nregs.toNat regs' ∧ SameOutside mem mem' sp func.nregs.toNat) :
    StepOk e func sp addr pc regs mem (jump body t regs') := by
  unfold jump
  split
  · rename_i ht; exact h ht.1
  · exact trivial

theorem step_sim {e : Env} {func : FuncInst} {sp addr : Nat} {body : List Byte} (hb : BodyAt e addr body)
    (hf : FrameOk e func sp) (pc : Nat) (regs : Regs) (mem : Mem)
    (hr : RegsMatch mem sp func.nregs.toNat regs) :
    StepOk e func sp addr pc regs mem (astep body func.nregs.toNat (.running pc regs)) := by
  have hlo := hf.lo
  have hhi := hf.hi
  cases hd : decode (body.drop pc) with
  | none => simp only [astep, hd, StepOk]
  | some i =>
    have fet : ∀ (l : List Byte), body.drop pc = l → ∀ j b, l[j]? = some b →
        fetch e (addr + pc + j) = .ok b := by
      intro l hl j b hj
      rw [Nat.add_assoc]
      exact fetch_body hb (by rw [getElem?_of_drop hl, hj])
    rcases decode_cases hd with ⟨rfl, t, ht⟩ | ⟨rfl, t, ht⟩ | ⟨rfl, t, ht⟩ | ⟨rfl, t, ht⟩ |
      ⟨r, t, rfl, ht⟩ | ⟨r, t, rfl, ht⟩ | ⟨o, t, rfl, ht⟩ | ⟨r, o, t, rfl, ht⟩ | ⟨r, o, t, rfl, ht⟩ |
      ⟨d, l, r, t, rfl, ht⟩ | ⟨d, l, r, t, rfl, ht⟩ <;>
      (have f0 := fet _ ht 0 _ rfl; rw [Nat.add_zero] at f0)
    · -- unreachable
      simp only [astep, hd, StepOk, true_and]
      unfold step; rw [f0]; rfl
    · -- nop
      simp only [astep, hd]
      apply StepOk_jump
      intro _
      refine ⟨mem, ?_, hr, .refl _ _ _⟩
      unfold step; rw [f0]
      simp only [Outcome.ok_bind, BitVec.toNat_ofNat, Nat.reducePow, Nat.reduceMod]
      congr 2
    · simp only [astep, hd, StepOk, true_and]
      unfold step; rw [f0]; rfl
    · -- ret
      simp only [astep, hd, StepOk, true_and]
      refine ⟨?_, ?_, by simp⟩
      · intro hz
        unfold step; rw [f0]
        simp only [Outcome.ok_bind, BitVec.toNat_ofNat, Nat.reducePow, Nat.reduceMod]
        rw [frameKind_ok hf, Outcome.ok_bind, if_pos hz]
      · intro hz
        unfold step; rw [f0]
        simp only [Outcome.ok_bind, BitVec.toNat_ofNat, Nat.reducePow, Nat.reduceMod]
        rw [frameKind_ok hf, Outcome.ok_bind, if_neg hz]; rfl
    · -- x32ret
      have f1 := fet _ ht 1 _ rfl
      simp only [astep, hd]
      split
      · rename_i hr'
        simp only [StepOk, true_and]
        refine ⟨?_, ?_, by intro i hi; cases hi; exact hr'⟩
        · intro hz
          unfold step; rw [f0]
          simp only [Outcome.ok_bind, BitVec.toNat_ofNat, Nat.reducePow, Nat.reduceMod]
          rw [f1, Outcome.ok_bind, loadReg_ok hf mem r hr', Outcome.ok_bind, frameKind_ok hf, Outcome.ok_bind,
            if_pos hz]
          unfold regAddr SIZEOF_SLOT
          rw [Nat.mul_comm]
        · intro hz
          unfold step; rw [f0]
          simp only [Outcome.ok_bind, BitVec.toNat_ofNat, Nat.reducePow, Nat.reduceMod]
          rw [f1, Outcome.ok_bind, loadReg_ok hf mem r hr', Outcome.ok_bind, frameKind_ok hf, Outcome.ok_bind,
            if_neg hz]
          rfl
      · exact trivial
    · simp only [astep, hd, StepOk]
    · -- goto
      have f1 := fet _ ht 1 _ rfl
      simp only [astep, hd]
      apply StepOk_jump
      intro h0
      refine ⟨mem, ?_, hr, .refl _ _ _⟩
      unfold step; rw [f0]
      simp only [Outcome.ok_bind, BitVec.toNat_ofNat, Nat.reducePow, Nat.reduceMod]
      rw [f1, Outcome.ok_bind, offsetIp_ok addr pc o 2 _ h0 rfl]; rfl
    · -- gotoIf
      have f1 := fet _ ht 1 _ rfl
      have f2 := fet _ ht 2 _ rfl
      simp only [astep, hd]
      split
      · rename_i hr'
        apply StepOk_jump
        intro h0
        refine ⟨mem, ?_, hr, .refl _ _ _⟩
        unfold step; rw [f0]
        simp only [Outcome.ok_bind, BitVec.toNat_ofNat, Nat.reducePow, Nat.reduceMod]
        rw [f1, Outcome.ok_bind, f2, Outcome.ok_bind, loadReg_ok hf mem r hr', Outcome.ok_bind, hr _ hr',
          offsetIp_ok addr pc _ 3 _ h0 (by split <;> simp_all)]; rfl
      · exact trivial
    · -- gotoUnless
      have f1 := fet _ ht 1 _ rfl
      have f2 := fet _ ht 2 _ rfl
      simp only [astep, hd]
      split
      · rename_i hr'
        apply StepOk_jump
        intro h0
        refine ⟨mem, ?_, hr, .refl _ _ _⟩
        unfold step; rw [f0]
        simp only [Outcome.ok_bind, BitVec.toNat_ofNat, Nat.reducePow, Nat.reduceMod]
        rw [f1, Outcome.ok_bind, f2, Outcome.ok_bind, loadReg_ok hf mem r hr', Outcome.ok_bind, hr _ hr',
          offsetIp_ok addr pc _ 3 _ h0 (by split <;> simp_all)]; rfl
      · exact trivial
    · -- add
      have f1 := fet _ ht 1 _ rfl
      have f2 := fet _ ht 2 _ rfl
      have f3 := fet _ ht 3 _ rfl
      simp only [astep, hd]
      split
      · rename_i hr'
        obtain ⟨hd', hl', hr'⟩ := hr'
        split
        · rename_i hin
          apply StepOk_jump
          intro h0
          refine ⟨writeAt mem (sp + d.toNat * 4)
            (natBytes (BitVec.ofInt 32 ((regs l.toNat).toInt + (regs r.toNat).toInt)).toNat 4), ?_, ?_, ?_⟩
          · unfold step; rw [f0]
            simp only [Outcome.ok_bind, BitVec.toNat_ofNat, Nat.reducePow, Nat.reduceMod]
            rw [f1, Outcome.ok_bind, f2, Outcome.ok_bind, f3, Outcome.ok_bind, loadReg_ok hf mem l hl',
              Outcome.ok_bind, loadReg_ok hf mem r hr', Outcome.ok_bind, hr _ hl', hr _ hr', checkedI32_ok hin,
              Outcome.ok_bind]
            unfold regAddr SIZEOF_SLOT
            rw [store_ok e mem _ _ _ (by omega) (by omega)]
            rfl
          · intro i hi
            rw [regView_write]
            unfold Regs.set
            split
            · rfl
            · exact hr i hi
          · intro x hx
            apply writeAt_outside
            rw [natBytes_length]; omega
        · rename_i hin
          simp only [StepOk]
          unfold step; rw [f0]
          simp only [Outcome.ok_bind, BitVec.toNat_ofNat, Nat.reducePow, Nat.reduceMod]
          rw [f1, Outcome.ok_bind, f2, Outcome.ok_bind, f3, Outcome.ok_bind, loadReg_ok hf mem l hl',
            Outcome.ok_bind, loadReg_ok hf mem r hr', Outcome.ok_bind, hr _ hl', hr _ hr', checkedI32_ub hin]
          rfl
      · exact trivial
    · -- sub
      have f1 := fet _ ht 1 _ rfl
      have f2 := fet _ ht 2 _ rfl
      have f3 := fet _ ht 3 _ rfl
      simp only [astep, hd]
      split
      · rename_i hr'
        obtain ⟨hd', hl', hr'⟩ := hr'
        split
        · rename_i hin
          apply StepOk_jump
          intro h0
          refine ⟨writeAt mem (sp + d.toNat * 4)
            (natBytes (BitVec.ofInt 32 ((regs l.toNat).toInt - (regs r.toNat).toInt)).toNat 4), ?_, ?_, ?_⟩
          · unfold step; rw [f0]
            simp only [Outcome.ok_bind, BitVec.toNat_ofNat, Nat.reducePow, Nat.reduceMod]
            rw [f1, Outcome.ok_bind, f2, Outcome.ok_bind, f3, Outcome.ok_bind, loadReg_ok hf mem l hl',
              Outcome.ok_bind, loadReg_ok hf mem r hr', Outcome.ok_bind, hr _ hl', hr _ hr', checkedI32_ok hin,
              Outcome.ok_bind]
            unfold regAddr SIZEOF_SLOT
            rw [store_ok e mem _ _ _ (by omega) (by omega)]
            rfl
          · intro i hi
            rw [regView_write]
            unfold Regs.set
            split
            · rfl
            · exact hr i hi
          · intro x hx
            apply writeAt_outside
            rw [natBytes_length]; omega
        · rename_i hin
          simp only [StepOk]
          unfold step; rw [f0]
          simp only [Outcome.ok_bind, BitVec.toNat_ofNat, Nat.reducePow, Nat.reduceMod]
          rw [f1, Outcome.ok_bind, f2, Outcome.ok_bind, f3, Outcome.ok_bind, loadReg_ok hf mem l hl',
            Outcome.ok_bind, loadReg_ok hf mem r hr', Outcome.ok_bind, hr _ hl', hr _ hr', checkedI32_ub hin]
          rfl
      · exact trivial

end Ab
