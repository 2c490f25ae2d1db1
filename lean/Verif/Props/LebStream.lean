import Verif.Model.LebStream
import Verif.Proof.VarInt
/-! C44: LEB128 numbers read from a stream. -/
namespace Ab.LebStream
open Spec

theorem get_cons (b : Byte) (bs : List Byte) (off : Nat) :
    In.get ⟨b :: bs, false, off⟩ = (⟨bs, false, off + 1⟩, b) := rfl

theorem get_nil (off : Nat) : In.get ⟨[], false, off⟩ = (⟨[], true, off⟩, 0xff#8) := rfl

theorem step_bound {shift r d : Nat} (hr : r < 2 ^ shift) (hd : d < 128) : r + d * 2 ^ shift < 2 ^ (shift + 7) := by
  rw [Nat.pow_add]
  have : d * 2 ^ shift ≤ 127 * 2 ^ shift := Nat.mul_le_mul_right _ (by omega)
  have h2 : 2 ^ shift * 2 ^ 7 = 128 * 2 ^ shift := by rw [Nat.mul_comm]
  omega

theorem value_step (r d v shift : Nat) : r + d * 2 ^ shift + v * 2 ^ (shift + 7) = r + (d + 128 * v) * 2 ^ shift := by
  rw [Nat.pow_add, Nat.add_mul]
  have : 128 * v * 2 ^ shift = v * (2 ^ shift * 2 ^ 7) := by rw [Nat.mul_comm 128, Nat.mul_assoc, Nat.mul_comm 128]
  omega

/-- One round of the loop on a byte that is there. -/
theorem loop_cons (fuel : Nat) (b : Byte) (t : List Byte) (off shift r : Nat) (hr : r < 2 ^ shift) (hs : shift ≤ 63) :
    loop (fuel + 1) ⟨b :: t, false, off⟩ (BitVec.ofNat 64 r) shift =
      if Continues b ∧ shift + 7 < 64 then
        loop fuel ⟨t, false, off + 1⟩ (BitVec.ofNat 64 (r + b.toNat % 128 * 2 ^ shift)) (shift + 7)
      else .ok (⟨t, false, off + 1⟩, BitVec.ofNat 64 (r + b.toNat % 128 * 2 ^ shift), shift + 7, b) := by
  rw [loop, if_neg (by omega), get_cons]
  simp only [BitVec.zeroExtend, setWidth_digit, or_digit 64 shift r _ hr]
  by_cases h : Continues b ∧ shift + 7 < 64
  · rw [if_pos h, if_pos ⟨(byte_flag_iff b).mpr h.1, h.2, trivial⟩]
  · rw [if_neg h, if_neg (fun h' => h ⟨(byte_flag_iff b).mp h'.1, h'.2.1⟩)]

/-- The loop on a complete number. -/
theorem loop_leb (enc : List Byte) (henc : IsLeb enc) (suf : List Byte) (fuel off shift r : Nat)
    (hr : r < 2 ^ shift) (hN : shift + 7 * (enc.length - 1) ≤ 63) (hf : enc.length ≤ fuel) :
    ∃ last, enc.getLast? = some last ∧
    loop fuel ⟨enc ++ suf, false, off⟩ (BitVec.ofNat 64 r) shift =
      .ok (⟨suf, false, off + enc.length⟩, BitVec.ofNat 64 (r + lebValue enc * 2 ^ shift),
        shift + 7 * enc.length, last) := by
  induction enc generalizing fuel off shift r with
  | nil => exact absurd henc id
  | cons b t ih =>
    obtain ⟨fuel, rfl⟩ : ∃ f, fuel = f + 1 := ⟨fuel - 1, by simp at hf; omega⟩
    rw [List.cons_append, loop_cons _ _ _ _ _ _ hr (by omega)]
    rcases isLeb_cons henc with ⟨hb, rfl⟩ | ⟨hb, ht⟩
    · rw [if_neg (fun h => hb h.1)]
      exact ⟨b, rfl, by simp [lebValue]⟩
    · have hlen : 1 ≤ t.length := by
        cases t with
        | nil => exact absurd ht id
        | cons _ _ => simp
      simp only [List.length_cons] at hN hf
      rw [if_pos ⟨hb, by omega⟩]
      obtain ⟨last, h1, h2⟩ := ih ht fuel (off + 1) (shift + 7) _
        (step_bound hr (Nat.mod_lt b.toNat (by decide))) (by omega) (by omega)
      refine ⟨last, ?_, ?_⟩
      · cases t with
        | nil => simp at hlen
        | cons c t => rw [List.getLast?_cons_cons]; exact h1
      · rw [h2, value_step, lebValue]
        simp only [List.length_cons, Outcome.ok.injEq, Prod.mk.injEq, In.mk.injEq, true_and, and_true]
        omega

/-- C44, complete numbers: whenever the unread part of the stream starts with a complete number of at most ten
bytes, reading returns the number (modulo 2^64) and consumes exactly those bytes: the rest of the stream is
as it was, the offset advances by the length, and the stream is not at its end. Missing: truncated numbers. -/
theorem C44_complete_number_partial (enc suf : List Byte) (h : IsLeb enc) (hl : enc.length ≤ 10) (off : Nat) :
    uleb128 ⟨enc ++ suf, false, off⟩ = .ok (⟨suf, false, off + enc.length⟩, BitVec.ofNat 64 (lebValue enc)) := by
  obtain ⟨last, -, h2⟩ := loop_leb enc h suf 11 off 0 0 (by simp) (by omega) (by omega)
  unfold uleb128
  rw [show (0#64 : U64) = BitVec.ofNat 64 0 from rfl, h2]
  simp

/-- For every 64-bit value that some encoding of at most ten bytes denotes, the value comes back. -/
theorem C44_value_partial (enc suf : List Byte) (h : IsLeb enc) (hl : enc.length ≤ 10)
    (hv : lebValue enc < 2^64) :
    ∃ i v, uleb128 (In.start (enc ++ suf)) = .ok (i, v) ∧ v.toNat = lebValue enc ∧ i.rest = suf ∧
      i.offset = enc.length ∧ i.eof = false :=
  ⟨_, _, C44_complete_number_partial enc suf h hl 0, by rw [BitVec.toNat_ofNat, Nat.mod_eq_of_lt hv],
    rfl, by simp, rfl⟩

/-- The standard's example, 624485, followed by another byte. -/
example : IsLeb [0xe5, 0x8e, 0x26] ∧ lebValue [0xe5, 0x8e, 0x26] = 624485 ∧
    uleb128 (In.start ([0xe5, 0x8e, 0x26] ++ [7])) = .ok (⟨[7], false, 3⟩, 624485#64) := by
  refine ⟨?_, by decide, by decide +kernel⟩
  simp [IsLeb, Continues]

/-- The loop on continuing bytes only. -/
theorem loop_open (s : List Byte) (hs : ∀ b ∈ s, Continues b) (fuel off j r : Nat)
    (hr : r < 2 ^ (7 * j)) (hj : j ≤ 9) (hf : 10 ≤ fuel + j) :
    (10 - j ≤ s.length → ∃ last, (s.take (10 - j)).getLast? = some last ∧
      loop fuel ⟨s, false, off⟩ (BitVec.ofNat 64 r) (7 * j) =
        .ok (⟨s.drop (10 - j), false, off + (10 - j)⟩,
          BitVec.ofNat 64 (r + lebValue (s.take (10 - j)) * 2 ^ (7 * j)), 70, last)) ∧
    (s.length < 10 - j →
      loop fuel ⟨s, false, off⟩ (BitVec.ofNat 64 r) (7 * j) =
        .ok (⟨[], true, off + s.length⟩,
          BitVec.ofNat 64 (r + lebValue (s ++ [0xff]) * 2 ^ (7 * j)), 7 * j + 7 * (s.length + 1), 0xff)) := by
  induction s generalizing fuel off j r with
  | nil =>
    refine ⟨fun h => by simp at h; omega, fun _ => ?_⟩
    obtain ⟨fuel, rfl⟩ : ∃ f, fuel = f + 1 := ⟨fuel - 1, by omega⟩
    rw [loop, if_neg (by omega), get_nil]
    simp only [BitVec.zeroExtend, setWidth_digit, or_digit 64 (7 * j) r _ hr]
    rw [if_neg (by simp)]
    simp [lebValue]
  | cons b t ih =>
    obtain ⟨fuel, rfl⟩ : ∃ f, fuel = f + 1 := ⟨fuel - 1, by omega⟩
    have hb := hs b (by simp)
    rw [loop_cons _ _ _ _ _ _ hr (by omega)]
    by_cases h9 : j = 9
    · subst h9
      rw [if_neg (by omega)]
      refine ⟨fun _ => ⟨b, rfl, ?_⟩, fun h => by simp at h⟩
      simp [lebValue]
    · rw [if_pos ⟨hb, by omega⟩]
      have hr' := step_bound hr (Nat.mod_lt b.toNat (show 0 < 128 by decide))
      rw [show 7 * j + 7 = 7 * (j + 1) by omega] at hr' ⊢
      obtain ⟨h1, h2⟩ := ih (fun c hc => hs c (by simp [hc])) fuel (off + 1) (j + 1) _ hr' (by omega) (by omega)
      obtain ⟨k, hk⟩ : ∃ k, 10 - j = k + 1 := ⟨9 - j, by omega⟩
      have hk' : 10 - (j + 1) = k := by omega
      rw [hk'] at h1 h2
      rw [hk]
      refine ⟨fun h => ?_, fun h => ?_⟩
      · obtain ⟨last, h3, h4⟩ := h1 (by simp at h; omega)
        refine ⟨last, ?_, ?_⟩
        · rw [List.take_succ_cons]
          cases hq : t.take k with
          | nil => rw [hq] at h3; cases h3
          | cons c u => rw [List.getLast?_cons_cons, ← hq]; exact h3
        · rw [h4, show 7 * (j + 1) = 7 * j + 7 by omega, value_step, List.take_succ_cons, lebValue, List.drop_succ_cons]
          simp only [Outcome.ok.injEq, Prod.mk.injEq, In.mk.injEq, true_and, and_true]
          omega
      · rw [h2 (by simp at h; omega), show 7 * (j + 1) = 7 * j + 7 by omega, value_step, List.cons_append, lebValue]
        simp only [List.length_cons, Outcome.ok.injEq, Prod.mk.injEq, In.mk.injEq, true_and]
        exact ⟨by omega, by omega, trivial⟩

/-- C44, the rest, exactly. If the stream has at least ten bytes left and the first ten all carry the
continuation flag, they are consumed and their digits returned although the number does not end there. If it
has fewer than ten and all carry the flag, the number is truncated: nothing is thrown, the result is as if a
byte 0xff followed, and the stream is at its end. -/
theorem C44_incomplete_number_partial (s : List Byte) (hs : ∀ b ∈ s.take 10, Continues b) (off : Nat) :
    (10 ≤ s.length → uleb128 ⟨s, false, off⟩ =
      .ok (⟨s.drop 10, false, off + 10⟩, BitVec.ofNat 64 (lebValue (s.take 10)))) ∧
    (s.length < 10 → uleb128 ⟨s, false, off⟩ =
      .ok (⟨[], true, off + s.length⟩, BitVec.ofNat 64 (lebValue (s ++ [0xff])))) := by
  constructor
  · intro h
    -- only the first ten bytes matter
    have key : ∀ (j fuel off r : Nat) (t : List Byte), (∀ b ∈ t.take (10 - j), Continues b) → j ≤ 9 → 10 ≤ fuel + j →
        10 - j ≤ t.length → r < 2 ^ (7 * j) → ∃ last,
        loop fuel ⟨t, false, off⟩ (BitVec.ofNat 64 r) (7 * j) =
          .ok (⟨t.drop (10 - j), false, off + (10 - j)⟩,
            BitVec.ofNat 64 (r + lebValue (t.take (10 - j)) * 2 ^ (7 * j)), 70, last) := by
      intro j fuel off r t
      induction t generalizing j fuel off r with
      | nil => intro _ h9 _ hl; simp at hl; omega
      | cons b t ih =>
        intro hc h9 hf hl hr
        obtain ⟨fuel, rfl⟩ : ∃ f, fuel = f + 1 := ⟨fuel - 1, by omega⟩
        obtain ⟨k, hk⟩ : ∃ k, 10 - j = k + 1 := ⟨9 - j, by omega⟩
        rw [hk, List.take_succ_cons] at hc
        rw [loop_cons _ _ _ _ _ _ hr (by omega), hk]
        by_cases hj : j = 9
        · subst hj
          rw [if_neg (by omega)]
          have : k = 0 := by omega
          subst this
          exact ⟨b, by simp [lebValue]⟩
        · rw [if_pos ⟨hc b (by simp), by omega⟩]
          have hr' := step_bound hr (Nat.mod_lt b.toNat (show 0 < 128 by decide))
          rw [show 7 * j + 7 = 7 * (j + 1) by omega] at hr' ⊢
          have hk' : 10 - (j + 1) = k := by omega
          obtain ⟨last, h4⟩ := ih (j + 1) fuel (off + 1) _
            (by rw [hk']; exact fun c hc' => hc c (by simp [hc'])) (by omega) (by omega)
            (by simp at hl; omega) hr'
          rw [hk'] at h4
          refine ⟨last, ?_⟩
          rw [h4, show 7 * (j + 1) = 7 * j + 7 by omega, value_step, List.take_succ_cons, lebValue, List.drop_succ_cons]
          simp only [Outcome.ok.injEq, Prod.mk.injEq, In.mk.injEq, true_and, and_true]
          omega
    obtain ⟨last, hl⟩ := key 0 11 off 0 s (by simpa using hs) (by omega) (by omega) h (by simp)
    unfold uleb128
    rw [show (0#64 : U64) = BitVec.ofNat 64 0 from rfl, show (0 : Nat) = 7 * 0 from rfl, hl]
    simp
  · intro h
    have hs' : ∀ b ∈ s, Continues b := by rwa [List.take_of_length_le (by omega)] at hs
    have := (loop_open s hs' 11 off 0 0 (by simp) (by omega) (by omega)).2 h
    unfold uleb128
    rw [show (0#64 : U64) = BitVec.ofNat 64 0 from rfl, show (0 : Nat) = 7 * 0 from rfl, this]
    simp

/-- A truncated number. -/
example : (∀ b ∈ ([0x85] : List Byte).take 10, Continues b) ∧
    uleb128 (In.start [0x85]) = .ok (⟨[], true, 1⟩, 0x3f85#64) := by
  refine ⟨?_, by decide +kernel⟩
  simp [Continues]

/-- C44 fails on truncated numbers: an empty stream gives 127, and a continuing byte at the end of the stream
gives a number, neither an error. -/
theorem C44_negation : uleb128 (In.start []) = .ok (⟨[], true, 0⟩, 127#64) ∧
    uleb128 (In.start [0x85]) = .ok (⟨[], true, 1⟩, 0x3f85#64) := by decide +kernel

/-- C44 never reports an error: whatever the stream, unsigned reading returns a number. -/
theorem C44_never_an_error_partial (s : List Byte) (off : Nat) :
    ∃ i v, uleb128 ⟨s, false, off⟩ = .ok (i, v) := by
  by_cases hc : ∀ b ∈ s.take 10, Continues b
  · rcases Nat.lt_or_ge s.length 10 with h | h
    · exact ⟨_, _, (C44_incomplete_number_partial s hc off).2 h⟩
    · exact ⟨_, _, (C44_incomplete_number_partial s hc off).1 h⟩
  · rcases leb_split (s.take 10) with ⟨enc, suf, he, hs⟩ | h
    · have hl : enc.length ≤ 10 := by
        have := congrArg List.length hs
        rw [List.length_append, List.length_take] at this
        omega
      have : s = enc ++ (suf ++ s.drop 10) := by
        rw [← List.append_assoc, ← hs, List.take_append_drop]
      rw [this]
      exact ⟨_, _, C44_complete_number_partial enc _ he hl off⟩
    · exact absurd h hc

/-! ### C55: the signed reader -/

theorem allOnes_eq : (BitVec.allOnes 64) = BitVec.ofNat 64 (2^64 - 1) := by decide

/-- C55: reading a complete signed number of at most ten bytes gives the number (modulo 2^64) and consumes
exactly its bytes, unless it has ten bytes and its sign bit is set. -/
theorem C55_signed_number_partial (enc suf : List Byte) (h : IsLeb enc) (hl : enc.length ≤ 10) (off : Nat)
    (hn : enc.length = 10 → 0 ≤ slebValue enc) :
    leb128 ⟨enc ++ suf, false, off⟩ = .ok (⟨suf, false, off + enc.length⟩, BitVec.ofInt 64 (slebValue enc)) := by
  obtain ⟨last, h1, h2⟩ := loop_leb enc h suf 11 off 0 0 (by simp) (by omega) (by omega)
  have hsv := slebValue_eq enc last h1
  have hlt := lebValue_lt enc
  unfold leb128
  rw [show (0#64 : U64) = BitVec.ofNat 64 0 from rfl, h2]
  simp only [Outcome.ok_bind, Nat.zero_add, Nat.pow_zero, Nat.mul_one]
  by_cases hsg : 64 ≤ last.toNat % 128
  · rw [if_pos ((byte_sign_iff last).mpr hsg)]
    rw [if_pos hsg] at hsv
    have hne : enc.length ≠ 10 := by
      intro he
      have := hn he
      rw [hsv] at this
      have : (lebValue enc : Int) < 2 ^ (7 * enc.length) := by exact_mod_cast hlt
      omega
    rw [if_pos (by omega), allOnes_eq, or_digit 64 _ _ _ hlt]
    show Outcome.ok _ = _
    congr 2
    rw [hsv]
    have hp : (2^64 - 1) * 2 ^ (7 * enc.length) = 2^64 * 2 ^ (7 * enc.length) - 2 ^ (7 * enc.length) := by
      rw [Nat.sub_mul, Nat.one_mul]
    have hge : 2 ^ (7 * enc.length) ≤ 2^64 * 2 ^ (7 * enc.length) := Nat.le_mul_of_pos_left _ (by decide)
    rw [← BitVec.ofInt_natCast]
    apply BitVec.eq_of_toNat_eq
    rw [BitVec.toNat_ofInt, BitVec.toNat_ofInt]
    have e : ((lebValue enc + (2^64 - 1) * 2 ^ (7 * enc.length) : Nat) : Int) =
        ((lebValue enc : Int) - 2 ^ (7 * enc.length)) + 2^64 * ((2 ^ (7 * enc.length) : Nat) : Int) := by
      rw [hp, ← show ((2 ^ (7 * enc.length) : Nat) : Int) = 2 ^ (7 * enc.length) by push_cast; rfl]
      generalize 2 ^ (7 * enc.length) = q at hge ⊢
      omega
    rw [e]
    simp
  · rw [if_neg (fun hh => hsg ((byte_sign_iff last).mp hh))]
    rw [if_neg hsg] at hsv
    rw [hsv]
    simp

/-- A complete number of ten bytes with the sign bit set is undefined behaviour: `~0 << 70`. -/
theorem C55_ten_bytes_negative_partial (enc suf : List Byte) (h : IsLeb enc) (hl : enc.length = 10) (off : Nat)
    (hn : slebValue enc < 0) : (leb128 ⟨enc ++ suf, false, off⟩).isUb = true := by
  obtain ⟨last, h1, h2⟩ := loop_leb enc h suf 11 off 0 0 (by simp) (by omega) (by omega)
  have hsv := slebValue_eq enc last h1
  unfold leb128
  rw [show (0#64 : U64) = BitVec.ofNat 64 0 from rfl, h2]
  simp only [Outcome.ok_bind]
  have hsg : 64 ≤ last.toNat % 128 := by
    apply Classical.byContradiction
    intro hc
    rw [if_neg hc] at hsv
    omega
  rw [if_pos ((byte_sign_iff last).mpr hsg), if_neg (by omega)]
  rfl

/-- C55 fails: the ten-byte encoding of the least 64-bit integer is undefined behaviour. -/
theorem C55_negation :
    IsLeb [0x80, 0x80, 0x80, 0x80, 0x80, 0x80, 0x80, 0x80, 0x80, 0x7f] ∧
    slebValue [0x80, 0x80, 0x80, 0x80, 0x80, 0x80, 0x80, 0x80, 0x80, 0x7f] = -2^63 ∧
    (leb128 (In.start [0x80, 0x80, 0x80, 0x80, 0x80, 0x80, 0x80, 0x80, 0x80, 0x7f])).isUb = true := by
  refine ⟨?_, by decide +kernel, by decide +kernel⟩
  simp [IsLeb, Continues]

/-- -624485, two more bytes following. -/
example : slebValue [0x9b, 0xf1, 0x59] = -624485 ∧
    leb128 (In.start [0x9b, 0xf1, 0x59, 1, 2]) = .ok (⟨[1, 2], false, 3⟩, BitVec.ofInt 64 (-624485)) := by
  decide +kernel

/-! ### Fixed-width numbers -/

/-- C56: `readNumber<uint32_t>` returns the little-endian number of the next four bytes and consumes exactly
them; with fewer left it throws. -/
theorem C56_fixed_width_number (s : List Byte) (off : Nat) :
    (∀ a b c d rest, s = a :: b :: c :: d :: rest →
      ∃ v, readU32 ⟨s, false, off⟩ = (⟨rest, false, off + 4⟩, .ok v) ∧
        v.toNat = a.toNat + 256 * b.toNat + 65536 * c.toNat + 16777216 * d.toNat) ∧
    (s.length < 4 → (readU32 ⟨s, false, off⟩).2.isThrow = true) := by
  constructor
  · rintro a b c d rest rfl
    refine ⟨_, rfl, ?_⟩
    have := a.isLt; have := b.isLt; have := c.isLt; have := d.isLt
    simp only [List.take_succ_cons, List.take_zero, List.foldr_cons, List.foldr_nil, BitVec.toNat_ofNat]
    omega
  · intro h
    unfold readU32 In.read
    rw [if_neg (by simp), if_neg (by simp; omega)]
    rfl

/-- The wasm magic number. -/
example : readU32 (In.start [0x00, 0x61, 0x73, 0x6d, 1]) = (⟨[1], false, 4⟩, .ok 0x6d736100#32) := by
  decide +kernel

end Ab.LebStream
