import Verif.Proof.Interp
import Verif.Spec.WellFormed

/-! Multi-step simulation, and a static condition under which the abstract machine is never stuck
(helpers for C17–C27). -/

namespace Ab
open Spec

/-- A state in which the abstract machine has stopped. -/
def Spec.AState.stopped : AState → Prop
  | .running _ _ => False
  | _ => True

theorem astep_stopped {body : List Byte} {n : Nat} {s : AState} (h : s.stopped) : astep body n s = s := by
  cases s <;> first | rfl | exact h.elim

theorem arun_stopped {body : List Byte} {n : Nat} {s : AState} (h : s.stopped) (k : Nat) : arun body n k s = s := by
  induction k with
  | zero => rfl
  | succ k ih => rw [arun, astep_stopped h, ih]

theorem arun_add (body : List Byte) (n j k : Nat) (s : AState) :
    arun body n (j + k) s = arun body n k (arun body n j s) := by
  induction j generalizing s with
  | zero => rw [Nat.zero_add]; rfl
  | succ j ih => rw [Nat.succ_add, arun, ih]; rfl

/-- `run` unrolled by one `next` step. -/
theorem run_next {e : Env} {func : FuncInst} {sp ip ip' : Nat} {mem mem' : Mem}
    (h : step e func sp ip mem = .ok (.next ip' mem')) (fuel : Nat) :
    run e func sp (fuel + 1) ip mem = run e func sp fuel ip' mem' := by
  rw [run, h]; rfl

theorem run_exit {e : Env} {func : FuncInst} {sp ip ret : Nat} {err : Bool} {mem : Mem}
    (h : step e func sp ip mem = .ok (.exit ret err)) (fuel : Nat) :
    run e func sp (fuel + 1) ip mem = .ok ⟨ret, ip, mem, err⟩ := by
  rw [run, h]; rfl

theorem run_sim {e : Env} {func : FuncInst} {sp addr : Nat} {body : List Byte} (hb : BodyAt e addr body)
    (hf : FrameOk e func sp) (k : Nat) (pc : Nat) (regs : Regs) (mem : Mem)
    (hr : RegsMatch mem sp func.nregs.toNat regs) :
    RunOk e func sp addr (addr + pc) mem k (arun body func.nregs.toNat k (.running pc regs)) := by
  induction k generalizing pc regs mem with
  | zero => exact ⟨mem, fun fuel => by rw [Nat.zero_add], hr, .refl _ _ _⟩
  | succ k ih =>
    have hs := step_sim hb hf pc regs mem hr
    rw [arun]
    generalize astep body func.nregs.toNat (.running pc regs) = s at hs ⊢
    cases s with
    | running pc1 regs1 =>
      obtain ⟨mem1, h1, h2, h3⟩ := hs
      have := ih pc1 regs1 mem1 h2
      have htag : mem1 (sp + 4 * func.nregs.toNat) = mem (sp + 4 * func.nregs.toNat) := h3 _ (by omega)
      generalize arun body func.nregs.toNat k (.running pc1 regs1) = s' at this ⊢
      have hrun : ∀ fuel, k + 1 ≤ fuel → ∃ f, k ≤ f ∧
          run e func sp fuel (addr + pc) mem = run e func sp f (addr + pc1) mem1 := by
        intro fuel hfu
        obtain ⟨f, rfl⟩ : ∃ f, fuel = f + 1 := ⟨fuel - 1, by omega⟩
        exact ⟨f, by omega, run_next h1 f⟩
      cases s' with
      | running pc2 regs2 =>
        obtain ⟨mem2, g1, g2, g3⟩ := this
        refine ⟨mem2, ?_, g2, h3.trans g3⟩
        intro fuel
        rw [← g1 fuel, show k + 1 + fuel = (k + fuel) + 1 by omega, run_next h1]
      | halted pc2 regs2 =>
        obtain ⟨mem2, g1, g2, g3⟩ := this
        refine ⟨mem2, ?_, g2, h3.trans g3⟩
        intro fuel hfu
        obtain ⟨f, hf', hf2⟩ := hrun fuel hfu
        rw [hf2, g1 f hf']
      | unreachable pc2 regs2 =>
        obtain ⟨mem2, g1, g2, g3⟩ := this
        refine ⟨mem2, ?_, g2, h3.trans g3⟩
        intro fuel hfu
        obtain ⟨f, hf', hf2⟩ := hrun fuel hfu
        rw [hf2, g1 f hf']
      | returned pc2 src regs2 =>
        obtain ⟨mem2, g1, g1', gs, g2, g3⟩ := this
        refine ⟨mem2, ?_, ?_, gs, g2, h3.trans g3⟩
        · intro hz fuel hfu
          obtain ⟨f, hf', hf2⟩ := hrun fuel hfu
          rw [hf2, g1 (by rw [htag]; exact hz) f hf']
        · intro hz fuel hfu
          obtain ⟨f, hf', hf2⟩ := hrun fuel hfu
          rw [hf2, g1' (by rw [htag]; exact hz) f hf']
      | overflow =>
        intro fuel hfu
        obtain ⟨f, hf', hf2⟩ := hrun fuel hfu
        rw [hf2, this f hf']
      | stuck => exact trivial
    | halted pc1 regs1 =>
      obtain ⟨rfl, rfl, h3⟩ := hs
      rw [arun_stopped (by exact trivial)]
      refine ⟨mem, ?_, hr, .refl _ _ _⟩
      intro fuel hfu
      obtain ⟨f, rfl⟩ : ∃ f, fuel = f + 1 := ⟨fuel - 1, by omega⟩
      exact run_exit h3 f
    | unreachable pc1 regs1 =>
      obtain ⟨rfl, rfl, h3⟩ := hs
      rw [arun_stopped (by exact trivial)]
      refine ⟨mem, ?_, hr, .refl _ _ _⟩
      intro fuel hfu
      obtain ⟨f, rfl⟩ : ∃ f, fuel = f + 1 := ⟨fuel - 1, by omega⟩
      exact run_exit h3 f
    | returned pc1 src regs1 =>
      obtain ⟨rfl, rfl, h3, h4, h5⟩ := hs
      rw [arun_stopped (by exact trivial)]
      refine ⟨mem, ?_, ?_, h5, hr, .refl _ _ _⟩
      · intro hz fuel hfu
        obtain ⟨f, rfl⟩ : ∃ f, fuel = f + 1 := ⟨fuel - 1, by omega⟩
        exact run_exit (h3 hz) f
      · intro hz fuel hfu
        obtain ⟨f, rfl⟩ : ∃ f, fuel = f + 1 := ⟨fuel - 1, by omega⟩
        have := h4 hz
        rw [run]
        cases hst : step e func sp (addr + pc1) mem <;> rw [hst] at this <;> simp_all [Outcome.isTrap]
    | overflow =>
      rw [arun_stopped (by exact trivial)]
      intro fuel hfu
      obtain ⟨f, rfl⟩ : ∃ f, fuel = f + 1 := ⟨fuel - 1, by omega⟩
      simp only [StepOk] at hs
      rw [run]
      cases hst : step e func sp (addr + pc) mem <;> rw [hst] at hs <;> simp_all [Outcome.isUb]
    | stuck =>
      rw [arun_stopped (by exact trivial)]
      exact trivial

/-! ### A static condition -/

theorem bytesOf_append (a b : List Instr) : bytesOf (a ++ b) = bytesOf a + bytesOf b := by
  simp [bytesOf]

theorem Spec.DecodesTo.length {bs : List Byte} {is : List Instr} (h : DecodesTo bs is) : bs.length = bytesOf is := by
  induction h with
  | nil => rfl
  | cons _ h2 _ ih =>
    rw [List.length_drop] at ih
    simp only [bytesOf, List.map_cons, List.sum_cons] at ih ⊢
    omega

theorem Spec.DecodesTo.drop {bs : List Byte} {pre post : List Instr} (h : DecodesTo bs (pre ++ post)) :
    DecodesTo (bs.drop (bytesOf pre)) post := by
  induction pre generalizing bs with
  | nil => simpa [bytesOf] using h
  | cons i pre ih =>
    cases h with
    | cons _ _ h3 =>
      have := ih h3
      rw [List.drop_drop] at this
      simpa [bytesOf, Nat.add_comm] using this

/-- The abstract machine stands at an instruction boundary (or has stopped without being stuck). -/
def AtBoundary (is : List Instr) : AState → Prop
  | .running pc _ => ∃ pre i post, is = pre ++ i :: post ∧ pc = bytesOf pre
  | .stuck => False
  | _ => True

theorem jump_boundary {body : List Byte} {is : List Instr} (hd : DecodesTo body is) {pre post : List Instr} {i : Instr}
    (h : is = pre ++ i :: post) {t : Int} (ht : (bytesOf pre : Int) = t) (regs : Regs) :
    AtBoundary is (jump body t regs) := by
  have hl := hd.length
  rw [h, bytesOf_append] at hl
  have : 1 ≤ bytesOf (i :: post) := by
    simp only [bytesOf, List.map_cons, List.sum_cons]
    cases i <;> simp [Instr.size] <;> omega
  unfold jump
  rw [if_pos (by omega)]
  exact ⟨pre, i, post, h, by omega⟩

theorem next_boundary {body : List Byte} {n : Nat} {is : List Instr} (hw : WellFormedBody body n is)
    {pre post : List Instr} {i : Instr} (h : is = pre ++ i :: post) (hi : i.noFallThrough = false) (regs : Regs)
    {t : Int} (ht : t = bytesOf pre + i.size) : AtBoundary is (jump body t regs) := by
  cases post with
  | nil =>
    have := hw.last i (by rw [h]; simp)
    rw [hi] at this; cases this
  | cons j post =>
    refine jump_boundary hw.decodes (pre := pre ++ [i]) (i := j) (post := post) (by simpa using h) ?_ regs
    rw [ht, bytesOf_append]
    simp [bytesOf]

theorem astep_boundary {body : List Byte} {n : Nat} {is : List Instr} (hw : WellFormedBody body n is) {s : AState}
    (h : AtBoundary is s) : AtBoundary is (astep body n s) := by
  cases s with
  | running pc regs =>
    obtain ⟨pre, i, post, his, rfl⟩ := h
    have hdec : decode (body.drop (bytesOf pre)) = some i := by
      have := hw.decodes
      rw [his] at this
      have h2 := this.drop
      generalize body.drop (bytesOf pre) = bs at h2
      cases h2 with
      | cons h1 _ _ => exact h1
    have hmem : i ∈ is := by rw [his]; simp
    have hregs := hw.regs i hmem
    have htgt := hw.targets pre i post his
    have hsup := hw.supported i hmem
    simp only [astep, hdec]
    cases i with
    | unreachable => trivial
    | nop => exact next_boundary hw his rfl regs (by simp [Instr.size])
    | halt => trivial
    | ret => trivial
    | x32ret src =>
      simp only
      rw [if_pos (hregs src (by simp [Instr.regs]))]
      trivial
    | x64ret src => exact absurd rfl (hsup src)
    | goto off =>
      obtain ⟨pre', j, post', h1, h2⟩ := htgt off rfl
      exact jump_boundary hw.decodes h1 (by rw [h2]; rfl) regs
    | gotoIf t off =>
      simp only
      rw [if_pos (hregs t (by simp [Instr.regs]))]
      split
      · obtain ⟨pre', j, post', h1, h2⟩ := htgt off rfl
        exact jump_boundary hw.decodes h1 (by rw [h2]; rfl) regs
      · exact next_boundary hw his rfl regs (by simp [Instr.size])
    | gotoUnless t off =>
      simp only
      rw [if_pos (hregs t (by simp [Instr.regs]))]
      split
      · obtain ⟨pre', j, post', h1, h2⟩ := htgt off rfl
        exact jump_boundary hw.decodes h1 (by rw [h2]; rfl) regs
      · exact next_boundary hw his rfl regs (by simp [Instr.size])
    | add d l r =>
      simp only
      rw [if_pos ⟨hregs d (by simp [Instr.regs]), hregs l (by simp [Instr.regs]), hregs r (by simp [Instr.regs])⟩]
      split
      · exact next_boundary hw his rfl _ (by simp [Instr.size])
      · trivial
    | sub d l r =>
      simp only
      rw [if_pos ⟨hregs d (by simp [Instr.regs]), hregs l (by simp [Instr.regs]), hregs r (by simp [Instr.regs])⟩]
      split
      · exact next_boundary hw his rfl _ (by simp [Instr.size])
      · trivial
  | stuck => exact h.elim
  | _ => trivial

theorem arun_boundary {body : List Byte} {n : Nat} {is : List Instr} (hw : WellFormedBody body n is) (k : Nat) {s : AState}
    (h : AtBoundary is s) : AtBoundary is (arun body n k s) := by
  induction k generalizing s with
  | zero => exact h
  | succ k ih => exact ih (astep_boundary hw h)

/-- A well-formed body never gets stuck. -/
theorem never_stuck {body : List Byte} {n : Nat} {is : List Instr} (hw : WellFormedBody body n is) (k : Nat) (regs : Regs) :
    arun body n k (.running 0 regs) ≠ .stuck := by
  have : AtBoundary is (.running 0 regs) := by
    cases his : is with
    | nil => exact absurd his hw.nonempty
    | cons i post => exact ⟨[], i, post, rfl, rfl⟩
  have := arun_boundary hw k this
  intro h
  rw [h] at this
  exact this

end Ab
