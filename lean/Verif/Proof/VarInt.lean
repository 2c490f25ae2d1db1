import Verif.Model.VarInt
import Verif.Spec.Leb

namespace Ab
open Spec

/-! ### Bit facts -/

theorem byte_flag_iff (b : Byte) : (b &&& 0x80#8) ≠ 0#8 ↔ Continues b := by
  have : ∀ b : Byte, ((b &&& 0x80#8) ≠ 0#8) ↔ 128 ≤ b.toNat := by decide +kernel
  exact this b

theorem byte_data (b : Byte) : (b &&& 0x7f#8).toNat = b.toNat % 128 := by
  have : ∀ b : Byte, (b &&& 0x7f#8).toNat = b.toNat % 128 := by decide +kernel
  exact this b

theorem byte_or_flag (b : Byte) (h : b.toNat < 128) : (b ||| 0x80#8).toNat = b.toNat + 128 := by
  have : ∀ b : Byte, b.toNat < 128 → (b ||| 0x80#8).toNat = b.toNat + 128 := by decide +kernel
  exact this b h

/-- or-ing in the next digit is adding it. -/
theorem or_digit (w shift r d : Nat) (hr : r < 2 ^ shift) :
    (BitVec.ofNat w r ||| (BitVec.ofNat w d <<< shift)) = BitVec.ofNat w (r + d * 2 ^ shift) := by
  apply BitVec.eq_of_toNat_eq
  have h1 : r ||| d * 2 ^ shift = r + d * 2 ^ shift := by
    have := Nat.shiftLeft_add_eq_or_of_lt hr d
    rw [Nat.shiftLeft_eq] at this
    rw [Nat.or_comm, ← this, Nat.add_comm]
  rw [BitVec.toNat_or, BitVec.toNat_shiftLeft, BitVec.toNat_ofNat, BitVec.toNat_ofNat,
    BitVec.toNat_ofNat, Nat.shiftLeft_eq]
  rw [← h1, Nat.or_mod_two_pow]
  congr 1
  rw [Nat.mul_mod, Nat.mod_mod, ← Nat.mul_mod]

theorem setWidth_digit (w : Nat) (b : Byte) :
    (b &&& 0x7f#8).setWidth w = BitVec.ofNat w (b.toNat % 128) := by
  apply BitVec.eq_of_toNat_eq
  rw [BitVec.toNat_setWidth, BitVec.toNat_ofNat, byte_data]

/-! ### readByte -/

theorem readByte_lt {bs : List Byte} {pos : Nat} (h : pos < bs.length) :
    readByte bs pos = .ok (bs[pos], pos + 1) := by
  unfold readByte
  rw [if_neg (by omega), List.getElem?_eq_getElem h]

theorem readByte_ge {bs : List Byte} {pos : Nat} (h : bs.length ≤ pos) :
    readByte bs pos = .throw "Read past end of buffer" := by
  unfold readByte
  rw [if_pos (by omega)]

theorem readByte_append (pre : List Byte) (b : Byte) (suf : List Byte) :
    readByte (pre ++ b :: suf) pre.length = .ok (b, pre.length + 1) := by
  rw [readByte_lt (by simp)]
  simp

/-! ### The unsigned reader on a complete number -/

theorem isLeb_ne_nil {enc : List Byte} (h : IsLeb enc) : enc ≠ [] := by
  intro h0; subst h0; exact h

theorem isLeb_cons {b : Byte} {t : List Byte} (h : IsLeb (b :: t)) :
    (¬ Continues b ∧ t = []) ∨ (Continues b ∧ IsLeb t) := by
  cases t with
  | nil => left; exact ⟨h, rfl⟩
  | cons c t => right; exact h

theorem isLeb_cons_of {b : Byte} {t : List Byte} (hb : Continues b) (h : IsLeb t) :
    IsLeb (b :: t) := by
  cases t with
  | nil => exact absurd h id
  | cons c t => exact ⟨hb, h⟩

theorem readVaruLoop_leb (N w : Nat) (enc : List Byte) (henc : IsLeb enc) (pre suf : List Byte)
    (shift r : Nat) (hr : r < 2 ^ shift) (hN : shift + 7 * (enc.length - 1) < N) :
    readVaruLoop N w (pre ++ enc ++ suf) pre.length shift (BitVec.ofNat w r)
      = .ok (BitVec.ofNat w (r + lebValue enc * 2 ^ shift), pre.length + enc.length) := by
  induction enc generalizing pre shift r with
  | nil => exact absurd henc id
  | cons b t ih =>
    have hsh : ¬ N ≤ shift := by omega
    rw [readVaruLoop, dif_neg hsh]
    have hrd : readByte (pre ++ b :: t ++ suf) pre.length = .ok (b, pre.length + 1) := by
      have := readByte_append pre b (t ++ suf); simpa using this
    rw [hrd]
    simp only
    rw [setWidth_digit, or_digit w shift r _ hr]
    rcases isLeb_cons henc with ⟨hb, ht⟩ | ⟨hb, ht⟩
    · rw [if_neg (by rw [byte_flag_iff]; exact hb)]
      subst ht
      simp [lebValue]
    · rw [if_pos (by rw [byte_flag_iff]; exact hb)]
      have hlen : 1 ≤ t.length := by
        cases t with
        | nil => exact absurd ht id
        | cons _ _ => simp
      have hd : b.toNat % 128 < 2 ^ 7 := Nat.mod_lt _ (by decide)
      have hr' : r + b.toNat % 128 * 2 ^ shift < 2 ^ (shift + 7) := by
        rw [Nat.pow_add]
        have : (b.toNat % 128) * 2 ^ shift ≤ 127 * 2 ^ shift :=
          Nat.mul_le_mul_right _ (by omega)
        have h2 : 2 ^ shift * 2 ^ 7 = 128 * 2 ^ shift := by rw [Nat.mul_comm]
        omega
      have := ih ht (pre ++ [b]) (shift + 7) (r + b.toNat % 128 * 2 ^ shift) hr'
        (by simp only [List.length_cons] at hN; omega)
      simp only [List.length_append, List.length_cons, List.length_nil, List.append_assoc,
        List.cons_append, List.nil_append] at this ⊢
      simp only [Nat.zero_add] at this
      rw [this]
      congr 1
      congr 1
      · congr 1
        rw [lebValue, Nat.pow_add, Nat.add_mul]
        have : 128 * lebValue t * 2 ^ shift = lebValue t * (2 ^ shift * 2 ^ 7) := by
          rw [Nat.mul_comm 128, Nat.mul_assoc, Nat.mul_comm 128]
        omega
      · omega

theorem readVaru_leb (N w : Nat) (enc : List Byte) (henc : IsLeb enc) (pre suf : List Byte)
    (hN : 7 * (enc.length - 1) < N) :
    readVaru N w (pre ++ enc ++ suf) pre.length
      = .ok (BitVec.ofNat w (lebValue enc), pre.length + enc.length) := by
  unfold readVaru
  have := readVaruLoop_leb N w enc henc pre suf 0 0 (by simp) (by omega)
  simpa using this

/-! ### The unsigned reader when there is no complete number in the window -/

/-- Every byte list either starts with a complete number, or consists of continuing bytes only. -/
theorem leb_split (l : List Byte) :
    (∃ enc suf, IsLeb enc ∧ l = enc ++ suf) ∨ (∀ b ∈ l, Continues b) := by
  induction l with
  | nil => right; simp
  | cons b t ih =>
    by_cases hb : Continues b
    · rcases ih with ⟨enc, suf, he, rfl⟩ | h
      · left; exact ⟨b :: enc, suf, isLeb_cons_of hb he, rfl⟩
      · right; simp [hb]; exact h
    · left; exact ⟨[b], t, hb, rfl⟩

/-- A complete number is determined by the bytes it is a prefix of. -/
theorem isLeb_prefix_unique {e1 e2 s1 s2 : List Byte} (h1 : IsLeb e1) (h2 : IsLeb e2)
    (h : e1 ++ s1 = e2 ++ s2) : e1 = e2 := by
  induction e1 generalizing e2 with
  | nil => exact absurd h1 id
  | cons b t ih =>
    cases e2 with
    | nil => exact absurd h2 id
    | cons c u =>
      simp only [List.cons_append, List.cons.injEq] at h
      obtain ⟨rfl, h⟩ := h
      rcases isLeb_cons h1 with ⟨hb, rfl⟩ | ⟨hb, ht⟩ <;> rcases isLeb_cons h2 with ⟨hb', rfl⟩ | ⟨hb', hu⟩
      · rfl
      · exact absurd hb' hb
      · exact absurd hb hb'
      · rw [ih ht hu h]

/-- `k` continuing bytes followed by the end of the buffer, or filling the window, raise an exception. -/
theorem readVaruLoop_throw (N w : Nat) (l : List Byte) (hl : ∀ b ∈ l, Continues b)
    (pre suf : List Byte) (shift : Nat) (result : BitVec w)
    (hend : suf = [] ∨ N ≤ shift + 7 * l.length) :
    ∃ m, readVaruLoop N w (pre ++ l ++ suf) pre.length shift result = .throw m := by
  induction l generalizing pre shift result with
  | nil =>
    rw [readVaruLoop]
    split
    · exact ⟨_, rfl⟩
    · rcases hend with rfl | h
      · rw [readByte_ge (by simp)]; exact ⟨_, rfl⟩
      · simp at h; omega
  | cons b t ih =>
    rw [readVaruLoop]
    split
    · exact ⟨_, rfl⟩
    · have hrd : readByte (pre ++ b :: t ++ suf) pre.length = .ok (b, pre.length + 1) := by
        have := readByte_append pre b (t ++ suf); simpa using this
      rw [hrd]
      simp only
      rw [if_pos (by rw [byte_flag_iff]; exact hl b (by simp))]
      have := ih (fun c hc => hl c (by simp [hc])) (pre ++ [b]) (shift + 7)
        (result ||| ((b &&& 0x7f#8).setWidth w <<< shift))
        (by rcases hend with h | h
            · exact Or.inl h
            · right; simp only [List.length_cons] at h; omega)
      simpa using this

/-! ### The writer -/

theorem shiftRight7_toNat {w : Nat} (v : BitVec w) : (v >>> 7).toNat = v.toNat / 128 := by
  simp [BitVec.toNat_ushiftRight, Nat.shiftRight_eq_div_pow]

theorem shiftRight7_ne_zero {w : Nat} (v : BitVec w) : (v >>> 7 ≠ 0#w) ↔ 128 ≤ v.toNat := by
  rw [ne_eq, ← BitVec.toNat_inj, shiftRight7_toNat]
  simp

theorem trunc_digit {w : Nat} (v : BitVec w) :
    (v.setWidth 8 &&& 0x7f#8).toNat = v.toNat % 128 := by
  rw [byte_data, BitVec.toNat_setWidth]
  omega

theorem appendVaruint_lt {w : Nat} (v : BitVec w) (h : v.toNat < 128) :
    appendVaruint v = [v.setWidth 8 &&& 0x7f#8] := by
  rw [appendVaruint]
  simp only [dite_not]
  have : v >>> 7 = 0#w := by
    by_cases h0 : v >>> 7 = 0#w
    · exact h0
    · have := (shiftRight7_ne_zero v).1 h0; omega
  rw [dif_pos this]

theorem appendVaruint_ge {w : Nat} (v : BitVec w) (h : 128 ≤ v.toNat) :
    appendVaruint v = ((v.setWidth 8 &&& 0x7f#8) ||| 0x80#8) :: appendVaruint (v >>> 7) := by
  rw [appendVaruint]
  rw [dif_pos ((shiftRight7_ne_zero v).2 h)]

theorem appendVaruint_spec {w : Nat} (v : BitVec w) :
    IsLeb (appendVaruint v) ∧ lebValue (appendVaruint v) = v.toNat ∧
      (appendVaruint v).length = digits128 v.toNat := by
  generalize hn : v.toNat = n
  induction n using Nat.strongRecOn generalizing v with
  | _ n ih =>
    by_cases h : n < 128
    · rw [appendVaruint_lt v (by omega)]
      refine ⟨?_, ?_, ?_⟩
      · show ¬ (128 ≤ _); rw [trunc_digit]; omega
      · simp only [lebValue, trunc_digit]; omega
      · rw [digits128]; simp [h]
    · rw [appendVaruint_ge v (by omega)]
      have hd : (v.setWidth 8 &&& 0x7f#8).toNat < 128 := by rw [trunc_digit]; omega
      obtain ⟨h1, h2, h3⟩ := ih (n / 128) (by omega) (v >>> 7) (by rw [shiftRight7_toNat, hn])
      refine ⟨?_, ?_, ?_⟩
      · apply isLeb_cons_of _ h1
        show 128 ≤ _
        rw [byte_or_flag _ hd]; omega
      · rw [lebValue, byte_or_flag _ hd, h2, trunc_digit]; omega
      · rw [List.length_cons, h3, digits128.eq_def n, if_neg h]; omega

/-! ### The signed reader -/

theorem readVariLoop_leb (enc : List Byte) (henc : IsLeb enc) (pre suf : List Byte)
    (shift r : Nat) (hr : r < 2 ^ shift) (hN : shift + 7 * (enc.length - 1) < 32) :
    ∃ last, enc.getLast? = some last ∧
    readVariLoop 32 32 (pre ++ enc ++ suf) pre.length shift (BitVec.ofNat 32 r)
      = .ok ((last, shift + 7 * enc.length),
          (BitVec.ofNat 32 (r + lebValue enc * 2 ^ shift), pre.length + enc.length)) := by
  induction enc generalizing pre shift r with
  | nil => exact absurd henc id
  | cons b t ih =>
    have hsh : ¬ 32 ≤ shift := by omega
    rw [readVariLoop, dif_neg hsh]
    have hrd : readByte (pre ++ b :: t ++ suf) pre.length = .ok (b, pre.length + 1) := by
      have := readByte_append pre b (t ++ suf); simpa using this
    rw [hrd]
    simp only
    rw [if_neg hsh, BitVec.setWidth_eq, setWidth_digit, or_digit 32 shift r _ hr]
    rcases isLeb_cons henc with ⟨hb, ht⟩ | ⟨hb, ht⟩
    · rw [if_neg (by rw [byte_flag_iff]; exact hb)]
      subst ht
      exact ⟨b, by simp, by simp [lebValue]⟩
    · rw [if_pos (by rw [byte_flag_iff]; exact hb)]
      have hlen : t ≠ [] := isLeb_ne_nil ht
      have hlen' : 1 ≤ t.length := by
        cases t with
        | nil => exact absurd ht id
        | cons _ _ => simp
      have hd : b.toNat % 128 < 2 ^ 7 := Nat.mod_lt _ (by decide)
      have hr' : r + b.toNat % 128 * 2 ^ shift < 2 ^ (shift + 7) := by
        rw [Nat.pow_add]
        have : (b.toNat % 128) * 2 ^ shift ≤ 127 * 2 ^ shift :=
          Nat.mul_le_mul_right _ (by omega)
        have h2 : 2 ^ shift * 2 ^ 7 = 128 * 2 ^ shift := by rw [Nat.mul_comm]
        omega
      obtain ⟨last, hl, h⟩ := ih ht (pre ++ [b]) (shift + 7) (r + b.toNat % 128 * 2 ^ shift) hr'
        (by simp only [List.length_cons] at hN; omega)
      refine ⟨last, ?_, ?_⟩
      · rw [List.getLast?_cons, hl]; rfl
      simp only [List.length_append, List.length_cons, List.length_nil, List.append_assoc,
        List.cons_append, List.nil_append] at h ⊢
      simp only [Nat.zero_add] at h
      rw [h]
      congr 1
      congr 1
      · congr 1; omega
      · congr 1
        · congr 1
          rw [lebValue, Nat.pow_add, Nat.add_mul]
          have : 128 * lebValue t * 2 ^ shift = lebValue t * (2 ^ shift * 2 ^ 7) := by
            rw [Nat.mul_comm 128, Nat.mul_assoc, Nat.mul_comm 128]
          omega
        · omega

theorem byte_sign_iff (b : Byte) : (b &&& 0x40#8) ≠ 0#8 ↔ 64 ≤ b.toNat % 128 := by
  have : ∀ b : Byte, ((b &&& 0x40#8) ≠ 0#8) ↔ 64 ≤ b.toNat % 128 := by decide +kernel
  exact this b

theorem lebValue_lt (enc : List Byte) : lebValue enc < 2 ^ (7 * enc.length) := by
  induction enc with
  | nil => simp [lebValue]
  | cons b t ih =>
    rw [lebValue, List.length_cons, Nat.mul_add, Nat.pow_add]
    have : 2 ^ (7 * t.length) * 2 ^ (7 * 1) = 128 * 2 ^ (7 * t.length) := by
      rw [Nat.mul_comm]
    omega

theorem slebValue_eq (enc : List Byte) (last : Byte) (h : enc.getLast? = some last) :
    slebValue enc = (lebValue enc : Int) -
      (if 64 ≤ last.toNat % 128 then (2 : Int) ^ (7 * enc.length) else 0) := by
  induction enc with
  | nil => simp at h
  | cons b t ih =>
    cases t with
    | nil =>
      simp only [List.getLast?_singleton, Option.some.injEq] at h
      subst h
      simp only [slebValue, lebValue, List.length_singleton]
      split <;> simp
    | cons c t =>
      rw [List.getLast?_cons_cons] at h
      have := ih h
      have e : (lebValue (b :: c :: t) : Int) = (b.toNat % 128 : Int) + 128 * (lebValue (c :: t) : Int) := by
        rw [lebValue]; push_cast; rfl
      rw [slebValue, this, e]
      · rw [show 7 * (b :: c :: t).length = 7 * (c :: t).length + 7 by
          simp only [List.length_cons]; omega]
        rw [Int.pow_add]
        split
        · generalize (lebValue (c :: t) : Int) = x
          generalize (2 : Int) ^ (7 * (c :: t).length) = y
          omega
        · omega
      · simp

theorem sign_fill (shift r : Nat) (h1 : 1 ≤ shift) (h2 : shift < 32) (hr : r < 2 ^ shift) :
    (BitVec.ofNat 32 r ||| (((BitVec.intMax 32).setWidth 32 <<< shift).setWidth 32))
      = BitVec.ofInt 32 ((r : Int) - 2 ^ shift) := by
  rw [BitVec.setWidth_eq, BitVec.setWidth_eq]
  have : BitVec.intMax 32 = BitVec.ofNat 32 (2 ^ 31 - 1) := by decide
  rw [this, or_digit 32 shift r _ hr]
  rw [← BitVec.ofInt_natCast]
  apply BitVec.eq_of_toInt_eq
  rw [BitVec.toInt_ofInt, BitVec.toInt_ofInt]
  have h3 : ((r + (2 ^ 31 - 1) * 2 ^ shift : Nat) : Int) = ((r : Int) - 2 ^ shift) + (2 ^ (shift - 1) : Int) * ((2 ^ 32 : Nat) : Int) := by
    obtain ⟨k, rfl⟩ : ∃ k, shift = k + 1 := ⟨shift - 1, by omega⟩
    rw [Nat.add_sub_cancel, Int.pow_succ]
    have e : ((2 ^ k : Nat) : Int) = (2 : Int) ^ k := by push_cast; rfl
    rw [show (2:Nat) ^ (k + 1) = 2 ^ k * 2 from Nat.pow_succ 2 k]
    generalize (2 : Int) ^ k = y at e ⊢
    generalize (2 ^ k : Nat) = z at e ⊢
    omega
  rw [h3, Int.mul_comm, Int.add_mul_bmod_self_left]

theorem digits128_pos (n : Nat) : 1 ≤ digits128 n := by
  rw [digits128]; split <;> omega

theorem digits128_le (n k : Nat) (h : n < 128 ^ (k + 1)) : digits128 n ≤ k + 1 := by
  induction k generalizing n with
  | zero => rw [digits128]; simp at h; rw [if_pos h]; omega
  | succ k ih =>
    rw [digits128]
    split
    · omega
    · have := ih (n / 128) (by
        rw [Nat.pow_succ] at h
        exact Nat.div_lt_of_lt_mul (by rw [Nat.mul_comm]; exact h))
      omega

end Ab
