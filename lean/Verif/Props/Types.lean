import Verif.Model.Types

/-!
Property theorems C14, C15 and the type-matching part of C16.
-/

namespace Ab

/-! ## C14 argument slot layout -/

/-- Bytes a C++ value of the type needs, as the spec sees it: 8 for 64-bit types, 4 for 32-bit types. -/
def Spec.width : CType → Nat
  | .u64 => 8 | .i64 => 8 | .f64 => 8
  | .u32 => 4 | .i32 => 4 | .f32 => 4

theorem nthSlotIndex_succ (ts : List CType) (i : Nat) (h : i < ts.length) :
    nthSlotIndex (i + 1) ts = nthSlotIndex i ts + (ts[i]).slots := by
  unfold nthSlotIndex
  rw [List.take_succ_eq_append_getElem h, List.map_append, List.sum_append]
  simp only [List.map_cons, List.map_nil, List.sum_cons, List.sum_nil, Nat.add_zero]

theorem nthSlotIndex_mono (ts : List CType) (i j : Nat) (h : i ≤ j) :
    nthSlotIndex i ts ≤ nthSlotIndex j ts := by
  induction j with
  | zero => rw [Nat.le_zero.1 h]; exact Nat.le_refl _
  | succ j ih =>
    rcases Nat.lt_or_eq_of_le h with hlt | rfl
    · refine Nat.le_trans (ih (by omega)) ?_
      by_cases hj : j < ts.length
      · rw [nthSlotIndex_succ ts j hj]; omega
      · unfold nthSlotIndex
        rw [List.take_of_length_le (by omega), List.take_of_length_le (by omega)]
        exact Nat.le_refl _
    · exact Nat.le_refl _

/-- **C14.** Argument 0 is at offset 0; every argument's slots end exactly where the next begin, and are as
many bytes as the argument needs. -/
theorem C14_slots_contiguous (ts : List CType) :
    nthSlotOffset 0 ts = 0 ∧
    ∀ (i : Nat) (h : i < ts.length), nthSlotOffset (i + 1) ts = nthSlotOffset i ts + Spec.width ts[i] := by
  refine ⟨by simp [nthSlotOffset, nthSlotIndex], fun i h => ?_⟩
  unfold nthSlotOffset
  rw [nthSlotIndex_succ ts i h, Nat.add_mul]
  congr 1
  cases ts[i] <;> rfl

example : (1 : Nat) < [CType.i64, CType.i32].length := by decide

/-- **C14.** Slots of different arguments do not overlap. -/
theorem C14_slots_disjoint (ts : List CType) (i j : Nat) (hij : i < j) (hj : j < ts.length) :
    nthSlotOffset i ts + Spec.width (ts[i]'(by omega)) ≤ nthSlotOffset j ts := by
  rw [← (C14_slots_contiguous ts).2 i (by omega)]
  exact Nat.mul_le_mul_right _ (nthSlotIndex_mono ts (i + 1) j hij)

example : (0 : Nat) < 1 ∧ 1 < [CType.i64, CType.i32].length := by decide

theorem nreg_slots (t : CType) : nreg t.toValType = BitVec.ofNat 64 t.slots := by
  cases t <;> decide

theorem sumNregs_aux (ts : List CType) (n : U32) :
    (ts.map CType.toValType).foldl (fun n ty => (n.setWidth 64 + nreg ty).setWidth 32) n
      = n + BitVec.ofNat 32 ((ts.map CType.slots).sum) := by
  induction ts generalizing n with
  | nil => simp
  | cons t ts ih =>
    rw [List.map_cons, List.foldl_cons, ih, List.map_cons, List.sum_cons, nreg_slots]
    apply BitVec.eq_of_toNat_eq
    simp only [BitVec.toNat_add, BitVec.toNat_setWidth, BitVec.toNat_ofNat]
    omega

/-- **C14.** The slots of all arguments together are exactly the number of argument registers that the
function type with these argument types reports (a 32-bit number, hence the `mod`; likewise for bytes). -/
theorem C14_slots_cover (ts : List CType) (rets : List Byte) :
    (FuncType.argNregs ⟨ts.map CType.toValType, rets⟩).toNat = nthSlotIndex ts.length ts % 2 ^ 32 ∧
    (FuncType.argNbytes ⟨ts.map CType.toValType, rets⟩).toNat = nthSlotOffset ts.length ts % 2 ^ 32 := by
  have h1 : (FuncType.argNregs ⟨ts.map CType.toValType, rets⟩).toNat = nthSlotIndex ts.length ts % 2 ^ 32 := by
    unfold FuncType.argNregs sumNregs
    simp only
    rw [sumNregs_aux]
    unfold nthSlotIndex
    rw [List.take_length]
    simp
  refine ⟨h1, ?_⟩
  unfold FuncType.argNbytes nthSlotOffset
  simp only [BitVec.toNat_setWidth, BitVec.toNat_mul, BitVec.toNat_ofNat, h1, SIZEOF_SLOT]
  omega

/-- **C14**, the same for return values: their registers, and their bytes, which are as many as the values
need. -/
theorem C14_ret_slots_cover (ts : List CType) (args : List Byte) :
    (FuncType.retNregs ⟨args, ts.map CType.toValType⟩).toNat = nthSlotIndex ts.length ts % 2 ^ 32 ∧
    (FuncType.retNbytes ⟨args, ts.map CType.toValType⟩).toNat = (ts.map Spec.width).sum % 2 ^ 32 := by
  refine ⟨(C14_slots_cover ts []).1, ?_⟩
  have h : (FuncType.retNbytes ⟨args, ts.map CType.toValType⟩).toNat = nthSlotOffset ts.length ts % 2 ^ 32 :=
    (C14_slots_cover ts []).2
  have hw : nthSlotOffset ts.length ts = (ts.map Spec.width).sum := by
    unfold nthSlotOffset nthSlotIndex
    rw [List.take_length]
    clear h
    induction ts with
    | nil => rfl
    | cons t ts ih =>
      have hih := ih
      simp only [List.map_cons, List.sum_cons, SIZEOF_SLOT] at hih ⊢
      have ht : t.slots * 4 = Spec.width t := by cases t <;> rfl
      omega
  rw [h, hw]

example : (FuncType.retNbytes ⟨[I32], [CType.i64, CType.i32].map CType.toValType⟩).toNat = 12 := by decide

/-! ## C15 equality and hashing -/

theorem vecEqLoop_eq (xs ys : List Byte) (h : xs.length = ys.length) :
    vecEqLoop xs ys = .ok (decide (xs = ys)) := by
  induction xs generalizing ys with
  | nil =>
    cases ys with
    | nil => rfl
    | cons _ _ => simp at h
  | cons x xs ih =>
    cases ys with
    | nil => simp at h
    | cons y ys =>
      rw [vecEqLoop]
      by_cases hxy : x = y
      · rw [if_neg (by simpa using hxy), ih ys (by simpa using h)]
        simp [hxy]
      · rw [if_pos hxy]
        simp [hxy]

/-- **C15.** Comparing two function types always completes (in particular it never reads past either
vector) and yields `true` exactly when both type sequences are identical. -/
theorem C15_functype_eq (a b : FuncType) :
    FuncType.eq a b = .ok (decide (a.args = b.args ∧ a.rets = b.rets)) := by
  unfold FuncType.eq
  by_cases h1 : a.args.length = b.args.length
  · rw [if_neg (by simpa using h1)]
    by_cases h2 : a.rets.length = b.rets.length
    · rw [if_neg (by simpa using h2), vecEqLoop_eq _ _ h1, vecEqLoop_eq _ _ h2]
      by_cases h3 : a.args = b.args <;> by_cases h4 : a.rets = b.rets <;> simp [h3, h4]
    · rw [if_pos (by simpa using h2)]
      have : a.rets ≠ b.rets := fun h => h2 (by rw [h])
      simp [this]
  · rw [if_pos (by simpa using h1)]
    have : a.args ≠ b.args := fun h => h1 (by rw [h])
    simp [this]

/-- **C15.** Equality is an equivalence relation. -/
theorem C15_functype_eq_equivalence :
    (∀ a : FuncType, FuncType.eq a a = .ok true) ∧
    (∀ a b, FuncType.eq a b = .ok true → FuncType.eq b a = .ok true) ∧
    (∀ a b c, FuncType.eq a b = .ok true → FuncType.eq b c = .ok true → FuncType.eq a c = .ok true) := by
  refine ⟨fun a => ?_, fun a b h => ?_, fun a b c h1 h2 => ?_⟩
  · rw [C15_functype_eq]; simp
  · rw [C15_functype_eq] at h ⊢
    simp only [Outcome.ok.injEq, decide_eq_true_eq] at h ⊢
    exact ⟨h.1.symm, h.2.symm⟩
  · rw [C15_functype_eq] at h1 h2 ⊢
    simp only [Outcome.ok.injEq, decide_eq_true_eq] at h1 h2 ⊢
    exact ⟨h1.1.trans h2.1, h1.2.trans h2.2⟩

example : FuncType.eq ⟨[I32, I64], [F32]⟩ ⟨[I32, I64], [F32]⟩ = .ok true := by decide

/-- **C15.** Function types that compare equal have equal hashes, whatever `std::hash` does on value types. -/
theorem C15_functype_hash (stdHash : Byte → U64) (a b : FuncType) (h : FuncType.eq a b = .ok true) :
    a.hash stdHash = b.hash stdHash := by
  rw [C15_functype_eq] at h
  simp only [Outcome.ok.injEq, decide_eq_true_eq] at h
  cases a; cases b
  simp only at h
  rw [h.1, h.2]

/-- **C15.** Limits compare equal exactly when they have the same minimum and the same optional maximum. -/
theorem C15_limits_eq (a b : Limits) :
    Limits.eq a b = true ↔
      a.min = b.min ∧ (if a.hasMax then some a.max else none) = (if b.hasMax then some b.max else none) := by
  unfold Limits.eq
  by_cases h1 : a.min = b.min
  · cases ha : a.hasMax <;> cases hb : b.hasMax <;> simp [h1]
  · simp [h1]

/-- **C15.** Limits that compare equal have equal hashes. -/
theorem C15_limits_hash (stdHash : U32 → U64) (a b : Limits) (h : Limits.eq a b = true) :
    a.hash stdHash = b.hash stdHash := by
  rw [C15_limits_eq] at h
  obtain ⟨h1, h2⟩ := h
  unfold Limits.hash
  cases ha : a.hasMax <;> cases hb : b.hasMax <;> simp [ha, hb] at h2 ⊢ <;> simp [h1, h2]

example : Limits.eq ⟨1#32, 5#32, false⟩ ⟨1#32, 9#32, false⟩ = true := by decide

/-! ## C16 signature check (the comparison itself; the call is in `Verif/Props/Call.lean`) -/

theorem typesMatchLoop_eq (xs ys : List Byte) (h : xs.length = ys.length) :
    typesMatchLoop xs ys = .ok (decide (xs = ys)) := by
  induction xs generalizing ys with
  | nil =>
    cases ys with
    | nil => rfl
    | cons _ _ => simp at h
  | cons x xs ih =>
    cases ys with
    | nil => simp at h
    | cons y ys =>
      rw [typesMatchLoop]
      by_cases hxy : x = y
      · rw [if_neg (by simpa using hxy), ih ys (by simpa using h)]
        simp [hxy]
      · rw [if_pos hxy]
        simp [hxy]

/-- **C16.** The signature comparison completes for every pair and answers `true` exactly when the C++ types
map one-for-one to the declared value types. -/
theorem C16_types_match (ts : List CType) (dyn : List Byte) :
    typesMatch ts dyn = .ok (decide (ts.map CType.toValType = dyn)) := by
  unfold typesMatch
  simp only
  by_cases h : (ts.map CType.toValType).length = dyn.length
  · rw [if_neg (by simpa using h), typesMatchLoop_eq _ _ h]
  · rw [if_pos (by simpa using h)]
    have : ts.map CType.toValType ≠ dyn := fun e => h (by rw [e])
    simp [this]

end Ab
