import Verif.Proof.Interp2
import Verif.Props.Types

/-! Native frames and stack elements (helpers for C19–C27). -/

namespace Ab
open Spec

/-- What the 40 bytes of frame header and eye-catcher at `f` hold. -/
structure HeaderAt (mem : Mem) (f ip sp fn : Nat) : Prop where
  ip : readLE mem f 8 = ip
  sp : readLE mem (f + 8) 8 = sp
  fn : readLE mem (f + 16) 8 = fn
  eye : readLE mem (f + 32) 8 = EYECATCHER

theorem HeaderAt.congr {m1 m2 : Mem} {f ip sp fn : Nat} (h : HeaderAt m1 f ip sp fn)
    (hc : ∀ x, f ≤ x → x < f + 40 → m2 x = m1 x) : HeaderAt m2 f ip sp fn where
  ip := by rw [readLE_congr (fun x h1 h2 => hc x (by omega) (by omega))]; exact h.ip
  sp := by rw [readLE_congr (fun x h1 h2 => hc x (by omega) (by omega))]; exact h.sp
  fn := by rw [readLE_congr (fun x h1 h2 => hc x (by omega) (by omega))]; exact h.fn
  eye := by rw [readLE_congr (fun x h1 h2 => hc x (by omega) (by omega))]; exact h.eye

/-- Entering a frame that fits. -/
theorem enterNativeFrame_ok (e : Env) (st : ExecState) (n : Nat) (hlo : e.stackLo + 40 + 4 * n ≤ st.sp)
    (hhi : st.sp ≤ e.stackHi) (h64 : st.sp < 2 ^ 64) (hip : st.ip < 2 ^ 64) (hfn : st.fn < 2 ^ 64) :
    ∃ mem', enterNativeFrame e st n = .ok { st with sp := st.sp - 40 - 4 * n, mem := mem' } ∧
      HeaderAt mem' (st.sp - 40) st.ip st.sp st.fn ∧
      (∀ x, x < st.sp - 40 ∨ st.sp ≤ x → mem' x = st.mem x) := by
  obtain ⟨f, hf⟩ : ∃ f, st.sp = f + 40 := ⟨st.sp - 40, by omega⟩
  unfold enterNativeFrame NATIVE_FRAME_SIZE SIZEOF_SLOT
  rw [pushBytes_ok e st.sp 8 (by omega), Outcome.ok_bind,
    show st.sp - 8 = f + 32 by omega, store_ok e _ _ _ _ (by omega) (by omega), Outcome.ok_bind,
    pushBytes_ok e (f + 32) 32 (by omega), Outcome.ok_bind, show f + 32 - 32 = f by omega,
    store_ok e _ _ _ _ (by omega) (by omega), Outcome.ok_bind,
    store_ok e _ _ _ _ (by omega) (by omega), Outcome.ok_bind,
    store_ok e _ _ _ _ (by omega) (by omega), Outcome.ok_bind,
    store_ok e _ _ _ _ (by omega) (by omega), Outcome.ok_bind,
    pushBytes_ok e f (n * 4) (by omega), Outcome.ok_bind, show st.sp - 40 = f by omega]
  refine ⟨_, by rw [Nat.mul_comm n 4], ⟨?_, ?_, ?_, ?_⟩, ?_⟩
  · rw [readLE_writeAt_disjoint _ _ _ _ _ _ (by omega), readLE_writeAt_same]
    exact Nat.mod_eq_of_lt hip
  · rw [readLE_writeAt_disjoint _ _ _ _ _ _ (by omega), readLE_writeAt_disjoint _ _ _ _ _ _ (by omega),
      readLE_writeAt_same]
    exact Nat.mod_eq_of_lt h64
  · rw [readLE_writeAt_same]
    exact Nat.mod_eq_of_lt hfn
  · rw [readLE_writeAt_disjoint _ _ _ _ _ _ (by omega), readLE_writeAt_disjoint _ _ _ _ _ _ (by omega),
      readLE_writeAt_disjoint _ _ _ _ _ _ (by omega), readLE_writeAt_disjoint _ _ _ _ _ _ (by omega),
      readLE_writeAt_same]
    rfl
  · intro x hx
    rw [writeAt_outside _ _ _ _ (by rw [natBytes_length]; omega), writeAt_outside _ _ _ _ (by rw [natBytes_length]; omega),
      writeAt_outside _ _ _ _ (by rw [natBytes_length]; omega), writeAt_outside _ _ _ _ (by rw [natBytes_length]; omega),
      writeAt_outside _ _ _ _ (by rw [natBytes_length]; omega)]

/-- Entering a frame that does not fit. -/
theorem enterNativeFrame_ub (e : Env) (st : ExecState) (n : Nat) (hlo : st.sp < e.stackLo + 40 + 4 * n) :
    (enterNativeFrame e st n).isUb = true := by
  have hpush : ∀ sp k, pushBytes e sp k = .ok (sp - k) ∧ e.stackLo + k ≤ sp ∨ pushBytes e sp k = .ub "stack overflow" := by
    intro sp k
    unfold pushBytes; split
    · rename_i h; exact .inl ⟨rfl, h⟩
    · exact .inr rfl
  have hstore : ∀ mem a k v, (∃ m, store e mem a k v = .ok m) ∨ (store e mem a k v) = .ub "store outside the stack" := by
    intro mem a k v
    unfold store; split
    · exact .inl ⟨_, rfl⟩
    · exact .inr rfl
  unfold enterNativeFrame NATIVE_FRAME_SIZE SIZEOF_SLOT
  rcases hpush st.sp 8 with ⟨h1, g1⟩ | h1 <;> rw [h1] <;> try rfl
  rw [Outcome.ok_bind]
  rcases hstore st.mem (st.sp - 8) 8 EYECATCHER with ⟨m, h2⟩ | h2 <;> rw [h2] <;> try rfl
  rw [Outcome.ok_bind]
  rcases hpush (st.sp - 8) 32 with ⟨h3, g3⟩ | h3 <;> rw [h3] <;> try rfl
  rw [Outcome.ok_bind]
  rcases hstore m (st.sp - 8 - 32 + 24) 4 0 with ⟨m, h4⟩ | h4 <;> rw [h4] <;> try rfl
  rw [Outcome.ok_bind]
  rcases hstore m (st.sp - 8 - 32 + 8) 8 st.sp with ⟨m, h5⟩ | h5 <;> rw [h5] <;> try rfl
  rw [Outcome.ok_bind]
  rcases hstore m (st.sp - 8 - 32) 8 st.ip with ⟨m, h6⟩ | h6 <;> rw [h6] <;> try rfl
  rw [Outcome.ok_bind]
  rcases hstore m (st.sp - 8 - 32 + 16) 8 st.fn with ⟨m, h7⟩ | h7 <;> rw [h7] <;> try rfl
  rw [Outcome.ok_bind]
  rcases hpush (st.sp - 8 - 32) (n * 4) with ⟨h8, g8⟩ | h8 <;> rw [h8] <;> try rfl
  omega

/-- Leaving a frame whose header is intact. -/
theorem leaveNativeFrame_ok (e : Env) (st : ExecState) (n f ip sp fn : Nat) (hlo : e.stackLo ≤ f)
    (hhi : f + 40 ≤ e.stackHi) (hsp : st.sp + 4 * n = f) (h : HeaderAt st.mem f ip sp fn) :
    leaveNativeFrame e st n = .ok { st with sp := sp, ip := ip, fn := fn } := by
  unfold leaveNativeFrame NATIVE_FRAME_SIZE SIZEOF_SLOT
  have hf : st.sp + n * 4 = f := by omega
  simp only [hf]
  rw [load_ok e _ _ _ (by omega) (by omega), Outcome.ok_bind, load_ok e _ _ _ (by omega) (by omega), Outcome.ok_bind,
    load_ok e _ _ _ (by omega) (by omega), Outcome.ok_bind, load_ok e _ _ _ (by omega) (by omega), Outcome.ok_bind,
    if_pos h.eye, h.ip, h.sp, h.fn]

end Ab
