import Verif.Proof.Call
import Verif.Spec.Call

/-! Arguments and results on the interpreter stack (helpers for C20–C27). -/

namespace Ab
open Spec

theorem slots_eq_regCount (t : CType) : t.slots = regCount t := by cases t <;> rfl

theorem sizeof_eq (t : CType) : t.sizeof = 4 * regCount t := by cases t <;> rfl

theorem regCount_cases (t : CType) : regCount t = 1 ∨ regCount t = 2 := by cases t <;> simp [regCount]

theorem natBytes_append (v a b : Nat) : natBytes v (a + b) = natBytes v a ++ natBytes (v / 256 ^ a) b := by
  induction a generalizing v with
  | zero => simp [natBytes]
  | succ a ih =>
    rw [show a + 1 + b = (a + b) + 1 by omega, natBytes, natBytes, ih, List.cons_append, Nat.div_div_eq_div_mul,
      Nat.pow_succ, Nat.mul_comm]

theorem writeAt_append (mem : Mem) (a : Nat) (l1 l2 : List Byte) :
    writeAt mem a (l1 ++ l2) = writeAt (writeAt mem a l1) (a + l1.length) l2 := by
  funext x
  unfold writeAt
  rw [List.length_append]
  by_cases h1 : x < a
  · rw [if_neg (by omega), if_neg (by omega), if_neg (by omega)]
  · by_cases h2 : x < a + l1.length
    · rw [if_pos (by omega), if_neg (by omega), if_pos (by omega)]
      simp only [List.getD_eq_getElem?_getD]
      rw [List.getElem?_append_left (by omega)]
    · by_cases h3 : x < a + (l1.length + l2.length)
      · rw [if_pos (by omega), if_pos (by omega)]
        simp only [List.getD_eq_getElem?_getD]
        rw [List.getElem?_append_right (by omega), Nat.sub_sub]
      · rw [if_neg (by omega), if_neg (by omega), if_neg (by omega)]

theorem natBytes_mod (v n : Nat) : natBytes (v % 256 ^ n) n = natBytes v n := by
  induction n generalizing v with
  | zero => rfl
  | succ n ih =>
    have h : 256 ^ (n + 1) = 256 * 256 ^ n := by rw [Nat.pow_succ, Nat.mul_comm]
    rw [natBytes, natBytes, h]
    congr 1
    · apply BitVec.eq_of_toNat_eq
      rw [BitVec.toNat_ofNat, BitVec.toNat_ofNat]
      exact Nat.mod_mul_right_mod v 256 (256 ^ n)
    · rw [Nat.mod_mul_right_div_self, ih]

theorem natBytes4 (v : Nat) : natBytes v 4 = natBytes (BitVec.ofNat 32 v).toNat 4 := by
  rw [BitVec.toNat_ofNat, show (2 : Nat) ^ 32 = 256 ^ 4 by decide, natBytes_mod]

/-- What registers look like after storing a value of type `t`. -/
theorem regView_storeVal (mem : Mem) (base s : Nat) (t : CType) (v j : Nat) :
    regView (writeAt mem (base + s * 4) (natBytes v t.sizeof)) base j =
      if s ≤ j ∧ j < s + regCount t then (slotVals t v).getD (j - s) 0#32 else regView mem base j := by
  rcases regCount_cases t with h | h
  · rw [sizeof_eq, h, Nat.mul_one, natBytes4, regView_write]
    have hs : slotVals t v = [BitVec.ofNat 32 v] := by unfold slotVals; rw [h]; rfl
    rw [hs]
    by_cases hj : j = s
    · rw [if_pos hj, if_pos (by omega), hj, Nat.sub_self]; rfl
    · rw [if_neg hj, if_neg (by omega)]
  · have hs : slotVals t v = [BitVec.ofNat 32 v, BitVec.ofNat 32 (v / 2 ^ 32)] := by unfold slotVals; rw [h]; rfl
    rw [sizeof_eq, h, show 4 * 2 = 4 + 4 by rfl, natBytes_append, writeAt_append, natBytes_length, natBytes4,
      show base + s * 4 + 4 = base + (s + 1) * 4 by omega, show 256 ^ 4 = 2 ^ 32 by decide, natBytes4 (v / 2 ^ 32),
      regView_write, regView_write, hs]
    by_cases hj : j = s + 1
    · rw [if_pos hj, if_pos (by omega), hj, Nat.add_sub_cancel_left]; rfl
    · rw [if_neg hj]
      by_cases hj' : j = s
      · rw [if_pos hj', if_pos (by omega), hj', Nat.sub_self]; rfl
      · rw [if_neg hj', if_neg (by omega)]

theorem slotVals_length (t : CType) (v : Nat) : (slotVals t v).length = regCount t := by
  unfold slotVals
  rcases regCount_cases t with h | h <;> rw [h] <;> rfl

theorem argRegs_length (args : List (CType × Nat)) : (argRegs args).length = regTotal (args.map (·.1)) := by
  induction args with
  | nil => rfl
  | cons a rest ih =>
    obtain ⟨t, v⟩ := a
    rw [argRegs, List.length_append, ih, slotVals_length]
    simp [regTotal]

theorem nthSlotIndex_append (pre post : List CType) : nthSlotIndex pre.length (pre ++ post) = regTotal pre := by
  unfold nthSlotIndex regTotal
  rw [List.take_left]
  congr 1
  apply List.map_congr_left
  intro t _
  exact slots_eq_regCount t

theorem regTotal_append (a b : List CType) : regTotal (a ++ b) = regTotal a + regTotal b := by
  simp [regTotal]

/-- Storing the arguments: registers hold them, nothing else changes. -/
theorem setStackElements_ok (e : Env) (base : Nat) (pre : List CType) (args : List (CType × Nat)) (mem : Mem)
    (hlo : e.stackLo ≤ base) (hhi : base + 4 * (regTotal pre + regTotal (args.map (·.1))) ≤ e.stackHi) :
    ∃ mem', setStackElements e base (pre ++ args.map (·.1)) pre.length (args.map (·.2)) mem = .ok mem' ∧
      (∀ j, regView mem' base j = if regTotal pre ≤ j ∧ j < regTotal pre + regTotal (args.map (·.1))
        then (argRegs args).getD (j - regTotal pre) 0#32 else regView mem base j) ∧
      (∀ x, x < base + 4 * regTotal pre ∨ base + 4 * (regTotal pre + regTotal (args.map (·.1))) ≤ x →
        mem' x = mem x) := by
  induction args generalizing pre mem with
  | nil =>
    refine ⟨mem, rfl, ?_, fun _ _ => rfl⟩
    intro j
    rw [if_neg]
    simp [regTotal]
  | cons a rest ih =>
    obtain ⟨t, v⟩ := a
    simp only [List.map_cons] at hhi ⊢
    have htot : regTotal (t :: rest.map (·.1)) = regCount t + regTotal (rest.map (·.1)) := by simp [regTotal]
    have hpre : regTotal (pre ++ [t]) = regTotal pre + regCount t := by simp [regTotal]
    have hsz := sizeof_eq t
    rw [htot] at hhi
    rw [setStackElements]
    have hget : (pre ++ t :: rest.map (·.1)).getD pre.length .u32 = t := by
      simp [List.getD_eq_getElem?_getD]
    have hoff : nthSlotOffset pre.length (pre ++ t :: rest.map (·.1)) = regTotal pre * 4 := by
      unfold nthSlotOffset
      rw [nthSlotIndex_append]; rfl
    rw [hget, hoff, store_ok e mem _ _ _ (by omega) (by omega), Outcome.ok_bind]
    have := ih (pre ++ [t]) (writeAt mem (base + regTotal pre * 4) (natBytes v t.sizeof)) (by rw [hpre]; omega)
    rw [List.append_assoc, List.length_append, List.length_singleton, List.singleton_append, hpre] at this
    obtain ⟨mem', h1, h2, h3⟩ := this
    refine ⟨mem', h1, ?_, ?_⟩
    · intro j
      rw [h2 j, regView_storeVal, htot]
      by_cases hA : regTotal pre + regCount t ≤ j ∧ j < regTotal pre + regCount t + regTotal (rest.map (·.1))
      · rw [if_pos hA, if_pos (by omega), argRegs]
        simp only [List.getD_eq_getElem?_getD]
        rw [List.getElem?_append_right (by rw [slotVals_length]; omega), slotVals_length, Nat.sub_sub]
      · rw [if_neg hA]
        by_cases hB : regTotal pre ≤ j ∧ j < regTotal pre + regCount t
        · rw [if_pos hB, if_pos (by omega), argRegs]
          simp only [List.getD_eq_getElem?_getD]
          rw [List.getElem?_append_left (by rw [slotVals_length]; omega)]
        · rw [if_neg hB, if_neg (by omega)]
    · intro x hx
      rw [htot] at hx
      rw [h3 x (by omega)]
      apply writeAt_outside
      rw [natBytes_length, hsz]; omega

theorem readLE_add (mem : Mem) (a n k : Nat) : readLE mem a (n + k) = readLE mem a n + 256 ^ n * readLE mem (a + n) k := by
  induction n generalizing a with
  | zero => simp [readLE]
  | succ n ih =>
    rw [show n + 1 + k = (n + k) + 1 by omega, readLE, readLE, ih, Nat.pow_succ, Nat.mul_add,
      show a + 1 + n = a + (n + 1) by omega, Nat.add_assoc, ← Nat.mul_assoc, Nat.mul_comm 256 (256 ^ n)]

theorem regView_toNat (mem : Mem) (base j : Nat) : (regView mem base j).toNat = readLE mem (base + 4 * j) 4 := by
  unfold regView
  rw [BitVec.toNat_ofNat]
  have := readLE_lt mem (base + 4 * j) 4
  omega

theorem readLE_valueAt (mem : Mem) (base s : Nat) (t : CType) :
    readLE mem (base + s * 4) t.sizeof = valueAt (regView mem base) s t := by
  unfold valueAt
  rcases regCount_cases t with h | h
  · rw [sizeof_eq, h, if_neg (by omega), regView_toNat, Nat.mul_comm s 4, Nat.mul_one]
  · rw [sizeof_eq, h, if_pos rfl, regView_toNat, regView_toNat, show 4 * 2 = 4 + 4 by rfl, readLE_add,
      Nat.mul_comm s 4, show base + 4 * s + 4 = base + 4 * (s + 1) by omega]

/-- Reading the results. -/
theorem getStackElements_ok (e : Env) (mem : Mem) (base : Nat) (pre post : List CType)
    (hlo : e.stackLo ≤ base) (hhi : base + 4 * (regTotal pre + regTotal post) ≤ e.stackHi) :
    getStackElements e mem base (pre ++ post) pre.length post.length =
      .ok (retVals (regView mem base) (regTotal pre) post) := by
  induction post generalizing pre with
  | nil => rfl
  | cons t post ih =>
    have htot : regTotal (t :: post) = regCount t + regTotal post := by simp [regTotal]
    have hpre : regTotal (pre ++ [t]) = regTotal pre + regCount t := by simp [regTotal]
    rw [htot] at hhi
    have hsz := sizeof_eq t
    rw [List.length_cons, getStackElements]
    have hget : (pre ++ t :: post).getD pre.length .u32 = t := by
      simp [List.getD_eq_getElem?_getD]
    have hoff : nthSlotOffset pre.length (pre ++ t :: post) = regTotal pre * 4 := by
      unfold nthSlotOffset
      rw [nthSlotIndex_append]; rfl
    rw [hget, hoff, load_ok e mem _ _ (by omega) (by omega), Outcome.ok_bind]
    have := ih (pre ++ [t]) (by rw [hpre]; omega)
    rw [List.append_assoc, List.length_append, List.length_singleton, List.singleton_append, hpre] at this
    rw [this, Outcome.ok_bind, retVals, readLE_valueAt]

end Ab
