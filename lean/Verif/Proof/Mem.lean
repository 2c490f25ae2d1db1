import Verif.Model.Interp

/-! Lemmas about little-endian memory access (helpers for C17–C27). -/

namespace Ab

theorem natBytes_length (v n : Nat) : (natBytes v n).length = n := by
  induction n generalizing v with
  | zero => rfl
  | succ n ih => simp [natBytes, ih]

theorem readLE_congr {m1 m2 : Mem} {a n : Nat} (h : ∀ x, a ≤ x → x < a + n → m1 x = m2 x) :
    readLE m1 a n = readLE m2 a n := by
  induction n generalizing a with
  | zero => rfl
  | succ n ih =>
    rw [readLE, readLE, h a (Nat.le_refl _) (by omega), ih (fun x h1 h2 => h x (by omega) (by omega))]

theorem writeAt_outside (mem : Mem) (a : Nat) (bs : List Byte) (x : Nat) (h : x < a ∨ a + bs.length ≤ x) :
    writeAt mem a bs x = mem x := by
  unfold writeAt; rw [if_neg (by omega)]

theorem writeAt_inside (mem : Mem) (a : Nat) (bs : List Byte) (i : Nat) (h : i < bs.length) :
    writeAt mem a bs (a + i) = bs.getD i 0#8 := by
  unfold writeAt; rw [if_pos (by omega), Nat.add_sub_cancel_left]

theorem readLE_of_bytes (mem : Mem) (a : Nat) (v n : Nat)
    (h : ∀ i, i < n → mem (a + i) = (natBytes v n).getD i 0#8) : readLE mem a n = v % 256 ^ n := by
  induction n generalizing a v with
  | zero => simp [readLE, Nat.mod_one]
  | succ n ih =>
    rw [readLE, ih (a + 1) (v / 256)]
    · have := h 0 (by omega)
      simp only [natBytes, Nat.add_zero, List.getD_cons_zero] at this
      rw [this, BitVec.toNat_ofNat, show 256 ^ (n + 1) = 256 * 256 ^ n from by rw [Nat.pow_succ, Nat.mul_comm], Nat.mod_mul]
    · intro i hi
      have := h (i + 1) (by omega)
      simp only [natBytes, List.getD_cons_succ] at this
      rw [← this]; congr 1; omega

theorem readLE_writeAt_same (mem : Mem) (a v n : Nat) :
    readLE (writeAt mem a (natBytes v n)) a n = v % 256 ^ n := by
  apply readLE_of_bytes
  intro i hi
  exact writeAt_inside _ _ _ _ (by rw [natBytes_length]; exact hi)

theorem readLE_writeAt_disjoint (mem : Mem) (a v n b k : Nat) (h : b + k ≤ a ∨ a + n ≤ b) :
    readLE (writeAt mem a (natBytes v n)) b k = readLE mem b k := by
  apply readLE_congr
  intro x h1 h2
  apply writeAt_outside
  rw [natBytes_length]; omega

theorem readLE_lt (mem : Mem) (a n : Nat) : readLE mem a n < 256 ^ n := by
  induction n generalizing a with
  | zero => simp [readLE]
  | succ n ih =>
    rw [readLE, Nat.pow_succ]
    have := ih (a + 1)
    have := (mem a).isLt
    omega

theorem readLE_mod_256 (mem : Mem) (a n : Nat) : readLE mem a (n + 1) % 256 = (mem a).toNat := by
  rw [readLE]
  have := (mem a).isLt
  omega

theorem store_ok (e : Env) (mem : Mem) (a n v : Nat) (h1 : e.stackLo ≤ a) (h2 : a + n ≤ e.stackHi) :
    store e mem a n v = .ok (writeAt mem a (natBytes v n)) := by
  unfold store Env.inStack
  rw [if_pos (by simp [h1, h2])]

theorem load_ok (e : Env) (mem : Mem) (a n : Nat) (h1 : e.stackLo ≤ a) (h2 : a + n ≤ e.stackHi) :
    load e mem a n = .ok (readLE mem a n) := by
  unfold load Env.inStack
  rw [if_pos (by simp [h1, h2])]

theorem pushBytes_ok (e : Env) (sp n : Nat) (h : e.stackLo + n ≤ sp) : pushBytes e sp n = .ok (sp - n) := by
  unfold pushBytes; rw [if_pos h]

end Ab
