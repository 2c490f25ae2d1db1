import Verif.Proof.VarInt

/-!
Property theorems C01–C05: variable-length integers.
-/

namespace Ab
open Spec

/-! ## C01 varuint32 round trip -/

/-- **C01.** Whatever is appended with `append_varuint32`, reading a varuint32 at that position gives
the number back and leaves the position just after the appended bytes. -/
theorem C01_varuint32_roundtrip (v : U32) (pre suf : List Byte) :
    readVaru32 (pre ++ appendVaruint32 v ++ suf) pre.length
      = .ok (v, pre.length + (appendVaruint32 v).length) := by
  obtain ⟨h1, h2, h3⟩ := appendVaruint_spec v
  have hlen : (appendVaruint v).length ≤ 5 := by
    rw [h3]; exact digits128_le _ 4 (by have := v.isLt; omega)
  have := readVaru_leb 32 32 (appendVaruint v) h1 pre suf (by omega)
  unfold readVaru32 appendVaruint32
  rw [this, h2, BitVec.ofNat_toNat, BitVec.setWidth_eq]

example : readVaru32 ([1#8, 2#8] ++ appendVaruint32 300#32 ++ [9#8]) 2 = .ok (300#32, 4) :=
  C01_varuint32_roundtrip 300#32 [1#8, 2#8] [9#8] ▸ by decide +kernel

/-- **C01**, 7-bit variant: `append_varuint7` / `read_varu7` round trip for numbers below 128. -/
theorem C01_varuint7_roundtrip (v : BitVec 8) (hv : v.toNat < 128) (pre suf : List Byte) :
    readVaru7 (pre ++ appendVaruint7 v ++ suf) pre.length = .ok (v, pre.length + 1) := by
  obtain ⟨h1, h2, h3⟩ := appendVaruint_spec v
  have hlen : (appendVaruint v).length = 1 := by
    rw [h3, digits128, if_pos hv]
  have := readVaru_leb 7 8 (appendVaruint v) h1 pre suf (by omega)
  unfold readVaru7 appendVaruint7
  rw [this, h2, BitVec.ofNat_toNat, BitVec.setWidth_eq, hlen]

example : (100#8).toNat < 128 := by decide

/-- Beyond 7 bits the varuint7 writer silently produces bytes its reader rejects
(the writer does not check `N`). -/
theorem C01_varuint7_out_of_range_not_readable (v : BitVec 8) (hv : 128 ≤ v.toNat)
    (pre suf : List Byte) :
    ∃ m, readVaru7 (pre ++ appendVaruint7 v ++ suf) pre.length = .throw m := by
  unfold readVaru7 appendVaruint7 readVaru
  rw [appendVaruint_ge v hv]
  have hc : Continues ((v.setWidth 8 &&& 0x7f#8) ||| 0x80#8) := by
    show 128 ≤ _
    rw [byte_or_flag _ (by rw [trunc_digit]; omega)]; omega
  have := readVaruLoop_throw 7 8 [(v.setWidth 8 &&& 0x7f#8) ||| 0x80#8] (by simpa using hc) pre
    (appendVaruint (v >>> 7) ++ suf) 0 0#8 (Or.inr (by simp))
  simpa using this

example : 128 ≤ (200#8).toNat := by decide

/-! ## C02 minimal, prefix-free, injective -/

/-- **C02.** The encoding is a complete base-128 number, denotes the value, has exactly as many bytes as
the value has base-128 digits, and that is between 1 and 5. -/
theorem C02_varuint32_minimal (v : U32) :
    IsLeb (appendVaruint32 v) ∧ lebValue (appendVaruint32 v) = v.toNat ∧
    (appendVaruint32 v).length = digits128 v.toNat ∧
    1 ≤ (appendVaruint32 v).length ∧ (appendVaruint32 v).length ≤ 5 := by
  obtain ⟨h1, h2, h3⟩ := appendVaruint_spec v
  refine ⟨h1, h2, h3, ?_, ?_⟩
  · show 1 ≤ (appendVaruint v).length
    rw [h3]; exact digits128_pos _
  · show (appendVaruint v).length ≤ 5
    rw [h3]; exact digits128_le _ 4 (by have := v.isLt; omega)

/-- **C02.** No encoding is a prefix of the encoding of another value: if the encodings of `a` and `b`,
each followed by anything, are the same bytes, then `a = b`. -/
theorem C02_varuint32_prefix_free (a b : U32) (s t : List Byte)
    (h : appendVaruint32 a ++ s = appendVaruint32 b ++ t) : a = b := by
  obtain ⟨ha, hav, _⟩ := appendVaruint_spec a
  obtain ⟨hb, hbv, _⟩ := appendVaruint_spec b
  have := isLeb_prefix_unique ha hb h
  apply BitVec.eq_of_toNat_eq
  rw [← hav, ← hbv, this]

example : appendVaruint32 5#32 ++ [1#8] = appendVaruint32 5#32 ++ [1#8] := rfl

/-! ## C03 the unsigned reader on arbitrary bytes -/

/-- **C03.** On any buffer and position, reading a varuint32 either consumes the (unique) complete
base-128 number of at most five bytes at that position and returns its value modulo 2^32, or, exactly
when there is no such number there, raises an exception. There is no third possibility: no out-of-bounds
read, no abort. -/
theorem C03_read_varu32 (bs : List Byte) (pos : Nat) (hpos : pos ≤ bs.length) :
    (∃ enc suf, IsLeb enc ∧ enc.length ≤ 5 ∧ bs.drop pos = enc ++ suf ∧
        readVaru32 bs pos = .ok (BitVec.ofNat 32 (lebValue enc), pos + enc.length)) ∨
    ((¬ ∃ enc suf, IsLeb enc ∧ enc.length ≤ 5 ∧ bs.drop pos = enc ++ suf) ∧
        ∃ m, readVaru32 bs pos = .throw m) := by
  have hsplit : bs = bs.take pos ++ bs.drop pos := (List.take_append_drop pos bs).symm
  have hplen : (bs.take pos).length = pos := by simp; omega
  -- split the window of (up to) five bytes from the rest
  rcases leb_split ((bs.drop pos).take 5) with ⟨enc, suf, he, hw⟩ | hall
  · left
    have hlen : enc.length ≤ 5 := by
      have := congrArg List.length hw
      simp only [List.length_take, List.length_append] at this
      omega
    have hd : bs.drop pos = enc ++ (suf ++ (bs.drop pos).drop 5) := by
      rw [← List.append_assoc, ← hw, List.take_append_drop]
    refine ⟨enc, _, he, hlen, hd, ?_⟩
    have := readVaru_leb 32 32 enc he (bs.take pos) (suf ++ (bs.drop pos).drop 5) (by omega)
    rw [List.append_assoc, ← hd, ← hsplit, hplen] at this
    exact this
  · right
    constructor
    · rintro ⟨enc, suf, he, hlen, hd⟩
      rw [hd, List.take_append_of_le_length' hlen] at hall
      exact absurd hall (notAll enc he suf (5 - enc.length))
    · have hlw : ((bs.drop pos).drop 5) = [] ∨ 32 ≤ 0 + 7 * ((bs.drop pos).take 5).length := by
        by_cases h : 5 ≤ (bs.drop pos).length
        · right; simp only [List.length_take]; omega
        · left; apply List.drop_of_length_le; omega
      have := readVaruLoop_throw 32 32 ((bs.drop pos).take 5) hall (bs.take pos)
        ((bs.drop pos).drop 5) 0 0#32 hlw
      rw [List.append_assoc, List.take_append_drop, ← hsplit, hplen] at this
      exact this
where
  List.take_append_of_le_length' {enc suf : List Byte} (h : enc.length ≤ 5) :
      (enc ++ suf).take 5 = enc ++ suf.take (5 - enc.length) := by
    rw [List.take_append, List.take_of_length_le h]
  notAll (enc : List Byte) (he : IsLeb enc) (suf : List Byte) (k : Nat) :
      ¬ ∀ b ∈ enc ++ suf.take k, Continues b := by
    intro hall
    induction enc with
    | nil => exact absurd he id
    | cons b t ih =>
      rcases isLeb_cons he with ⟨hb, _⟩ | ⟨_, ht⟩
      · exact hb (hall b (by simp))
      · exact ih ht (fun c hc => hall c (List.mem_cons_of_mem _ hc))

example : (3 : Nat) ≤ [0x80#8, 0x80#8, 0x80#8, 0x80#8].length := by decide
example : readVaru32 [0x80#8, 0x80#8] 0 = .throw "Read past end of buffer" := by decide +kernel
example : readVaru32 [0x80#8, 0x80#8, 0x80#8, 0x80#8, 0x80#8, 0#8] 0
    = .throw "Number exeeded maximum size" := by decide +kernel

/-! ## C04 out-of-range values -/

/-- The bytes of a number before the `k`-th all continue when it is longer than `k`. -/
theorem leb_prefix_continues (k : Nat) : ∀ (e : List Byte), IsLeb e → k < e.length →
    ∀ b ∈ e.take k, Continues b := by
  induction k with
  | zero => intro e _ _ b hb; simp at hb
  | succ k ih =>
    intro e he hk b hb
    cases e with
    | nil => simp at hb
    | cons c t =>
      rcases isLeb_cons he with ⟨_, rfl⟩ | ⟨hc, ht⟩
      · simp at hk
      · rw [List.take_succ_cons, List.mem_cons] at hb
        rcases hb with rfl | hb
        · exact hc
        · exact ih t ht (by simpa using hk) b hb

/-- **C04**, full statement: every complete number that does not fit in 32 bits is rejected. -/
def C04_full : Prop :=
  ∀ (enc pre suf : List Byte), IsLeb enc → 2 ^ 32 ≤ lebValue enc →
    ∃ m, readVaru32 (pre ++ enc ++ suf) pre.length = .throw m

/-- **C04 is false of the code**: `FF FF FF FF 7F` denotes 2^35 - 1 and is read as 2^32 - 1. -/
theorem C04_negation : ¬ C04_full := by
  intro h
  obtain ⟨m, hm⟩ := h [0xff#8, 0xff#8, 0xff#8, 0xff#8, 0x7f#8] [] [] (by simp [IsLeb, Continues])
    (by decide)
  have : readVaru32 ([] ++ [0xff#8, 0xff#8, 0xff#8, 0xff#8, 0x7f#8] ++ []) ([] : List Byte).length
      = .ok (0xffffffff#32, 5) := by decide +kernel
  rw [this] at hm
  cases hm

/-- **C04**, what holds: a number that does fit is never changed, whatever (possibly padded) encoding
it has, as long as the encoding is at most five bytes; an encoding longer than five bytes is rejected.
Missing from the full statement: rejection of 5-byte encodings of numbers ≥ 2^32, which the code
reads modulo 2^32. -/
theorem C04_read_varu32_in_range_partial (enc pre suf : List Byte) (he : IsLeb enc) :
    (enc.length ≤ 5 → lebValue enc < 2 ^ 32 →
      ∃ v, readVaru32 (pre ++ enc ++ suf) pre.length = .ok (v, pre.length + enc.length) ∧
        v.toNat = lebValue enc) ∧
    (5 < enc.length → ∃ m, readVaru32 (pre ++ enc ++ suf) pre.length = .throw m) := by
  constructor
  · intro hlen hv
    refine ⟨_, readVaru_leb 32 32 enc he pre suf (by omega), ?_⟩
    rw [BitVec.toNat_ofNat, Nat.mod_eq_of_lt hv]
  · intro hlen
    have hpre : ∀ b ∈ enc.take 5, Continues b := by
      exact leb_prefix_continues 5 enc he hlen
    have := readVaruLoop_throw 32 32 (enc.take 5) hpre pre (enc.drop 5 ++ suf) 0 0#32
      (Or.inr (by simp only [List.length_take]; omega))
    rw [← List.append_assoc, List.append_assoc pre, List.take_append_drop] at this
    exact this

example : IsLeb [0x80#8, 0#8] ∧ [0x80#8, 0#8].length ≤ 5 ∧ lebValue [0x80#8, 0#8] < 2 ^ 32 := by
  simp [IsLeb, Continues, lebValue]

/-- **C04**, exactly what happens instead: a complete number is rejected exactly when it is longer than
five bytes; otherwise the reader delivers it modulo 2^32, silently. So a number that does not fit goes
unnoticed exactly when it is written in five bytes. -/
theorem C04_read_varu32_exact (enc pre suf : List Byte) (he : IsLeb enc) :
    ((∃ m, readVaru32 (pre ++ enc ++ suf) pre.length = .throw m) ↔ 5 < enc.length) ∧
    (enc.length ≤ 5 → ∃ v, readVaru32 (pre ++ enc ++ suf) pre.length = .ok (v, pre.length + enc.length) ∧
      v.toNat = lebValue enc % 2 ^ 32) := by
  have hok : enc.length ≤ 5 → ∃ v, readVaru32 (pre ++ enc ++ suf) pre.length
      = .ok (v, pre.length + enc.length) ∧ v.toNat = lebValue enc % 2 ^ 32 := fun hlen =>
    ⟨_, readVaru_leb 32 32 enc he pre suf (by omega), BitVec.toNat_ofNat ..⟩
  refine ⟨⟨fun ⟨m, hm⟩ => ?_, (C04_read_varu32_in_range_partial enc pre suf he).2⟩, hok⟩
  rcases Nat.lt_or_ge 5 enc.length with h | h
  · exact h
  · obtain ⟨v, hv, -⟩ := hok h
    rw [hv] at hm; cases hm

example : IsLeb [0xff#8, 0xff#8, 0xff#8, 0xff#8, 0x7f#8] ∧
    lebValue [0xff#8, 0xff#8, 0xff#8, 0xff#8, 0x7f#8] = 2 ^ 35 - 1 := by
  refine ⟨by simp [IsLeb, Continues], by decide⟩

/-! ## C05 signed reader -/

/-- **C05**, full statement: every complete signed number of at most five bytes is read as its
sign-extended value (in particular without undefined behaviour). -/
def C05_full : Prop :=
  ∀ (enc pre suf : List Byte), IsLeb enc → enc.length ≤ 5 →
    readVari32 (pre ++ enc ++ suf) pre.length
      = .ok (BitVec.ofInt 32 (slebValue enc), pre.length + enc.length)

/-- **C05 is false of the code**: the five-byte encoding `80 80 80 80 78` of -2^31 (the smallest
32-bit number) makes `read_vari32` shift an `int` by 35. -/
theorem C05_negation : ¬ C05_full := by
  intro h
  have h1 := h [0x80#8, 0x80#8, 0x80#8, 0x80#8, 0x78#8] [] [] (by simp [IsLeb, Continues]) (by decide)
  have : readVari32 ([] ++ [0x80#8, 0x80#8, 0x80#8, 0x80#8, 0x78#8] ++ []) ([] : List Byte).length
      = .ub "shift count not less than the width of int" := by decide +kernel
  rw [this] at h1
  cases h1

example : slebValue [0x80#8, 0x80#8, 0x80#8, 0x80#8, 0x78#8] = -2 ^ 31 := by decide

/-- **C05**, what holds: `read_vari32` returns the sign-extended value for every number of at most four
bytes and for every five-byte number whose sign bit is clear. Missing: five-byte negative numbers
(undefined behaviour, `C05_negation`). -/
theorem C05_read_vari32_partial (enc pre suf : List Byte) (he : IsLeb enc)
    (hlen : enc.length ≤ 4 ∨ (enc.length = 5 ∧ 0 ≤ slebValue enc)) :
    readVari32 (pre ++ enc ++ suf) pre.length
      = .ok (BitVec.ofInt 32 (slebValue enc), pre.length + enc.length) := by
  obtain ⟨last, hl, h⟩ := readVariLoop_leb enc he pre suf 0 0 (by simp) (by omega)
  have hs := slebValue_eq enc last hl
  have hne : 1 ≤ enc.length := by
    cases enc with
    | nil => exact absurd he id
    | cons _ _ => simp
  unfold readVari32 readVari
  rw [h]
  simp only [Outcome.ok_bind]
  by_cases hsign : 64 ≤ last.toNat % 128
  · rw [if_pos ((byte_sign_iff last).2 hsign)]
    rw [if_pos hsign] at hs
    have h4 : enc.length ≤ 4 := by
      rcases hlen with h | ⟨h5, hnn⟩
      · exact h
      · exfalso
        have hlt := lebValue_lt enc
        rw [h5] at hs hlt
        have e : ((2 ^ (7 * 5) : Nat) : Int) = (2 : Int) ^ (7 * 5) := by decide
        omega
    rw [if_neg (by omega)]
    have hlt := lebValue_lt enc
    have := sign_fill (0 + 7 * enc.length) (lebValue enc) (by omega) (by omega) (by simpa using hlt)
    rw [show 0 + lebValue enc * 2 ^ 0 = lebValue enc by simp, this, hs, Nat.zero_add]
  · rw [if_neg (by rw [byte_sign_iff]; exact hsign)]
    rw [if_neg hsign, Int.sub_zero] at hs
    rw [hs, BitVec.ofInt_natCast]
    simp

example : IsLeb [0xff#8, 0x7f#8] ∧ ([0xff#8, 0x7f#8].length ≤ 4) ∧ slebValue [0xff#8, 0x7f#8] = -1 := by
  refine ⟨by simp [IsLeb, Continues], by decide, by decide⟩

/-- The signed loop runs out of room after five continuing bytes. -/
theorem readVariLoop_long (cs : List Byte) (hc : ∀ b ∈ cs, Continues b) : ∀ (pre suf : List Byte) (shift : Nat)
    (r : U32), (suf = [] ∨ 32 ≤ shift + 7 * cs.length) →
    ∃ m, readVariLoop 32 32 (pre ++ cs ++ suf) pre.length shift r = .throw m := by
  induction cs with
  | nil =>
    intro pre suf shift r h
    rw [readVariLoop]
    by_cases hs : 32 ≤ shift
    · rw [dif_pos hs]; exact ⟨_, rfl⟩
    · rw [dif_neg hs]
      rcases h with rfl | h
      · rw [readByte_ge (by simp)]; exact ⟨_, rfl⟩
      · simp at h; omega
  | cons b t ih =>
    intro pre suf shift r h
    rw [readVariLoop]
    by_cases hs : 32 ≤ shift
    · rw [dif_pos hs]; exact ⟨_, rfl⟩
    · rw [dif_neg hs]
      have hrd : readByte (pre ++ b :: t ++ suf) pre.length = .ok (b, pre.length + 1) := by
        have := readByte_append pre b (t ++ suf); simpa using this
      rw [hrd]
      simp only
      rw [if_neg hs, if_pos ((byte_flag_iff b).2 (hc b (List.mem_cons_self ..)))]
      have := ih (fun c hc' => hc c (List.mem_cons_of_mem _ hc')) (pre ++ [b]) suf (shift + 7)
        (r ||| (((b &&& 0x7f#8).setWidth 32 <<< shift).setWidth 32))
        (by rcases h with h | h
            · exact Or.inl h
            · right; simp only [List.length_cons] at h; omega)
      simpa using this

/-- **C05**, exactly what happens: of the complete numbers, those of at most four bytes and the non-negative
ones of five bytes are read correctly; *every* negative one of five bytes is undefined behaviour; longer
ones are rejected. -/
theorem C05_read_vari32_exact (enc pre suf : List Byte) (he : IsLeb enc) :
    ((enc.length ≤ 4 ∨ (enc.length = 5 ∧ 0 ≤ slebValue enc)) →
      readVari32 (pre ++ enc ++ suf) pre.length
        = .ok (BitVec.ofInt 32 (slebValue enc), pre.length + enc.length)) ∧
    ((enc.length = 5 ∧ slebValue enc < 0) →
      ∃ w, readVari32 (pre ++ enc ++ suf) pre.length = .ub w) ∧
    (5 < enc.length → ∃ m, readVari32 (pre ++ enc ++ suf) pre.length = .throw m) := by
  refine ⟨C05_read_vari32_partial enc pre suf he, ?_, ?_⟩
  · rintro ⟨h5, hneg⟩
    obtain ⟨last, hl, h⟩ := readVariLoop_leb enc he pre suf 0 0 (by simp) (by omega)
    have hs := slebValue_eq enc last hl
    have hsign : 64 ≤ last.toNat % 128 := by
      rcases Nat.lt_or_ge (last.toNat % 128) 64 with hlt | hge
      · rw [if_neg (by omega), Int.sub_zero] at hs
        omega
      · exact hge
    unfold readVari32 readVari
    rw [h]
    simp only [Outcome.ok_bind]
    rw [if_pos ((byte_sign_iff last).2 hsign), if_pos (by omega)]
    exact ⟨_, rfl⟩
  · intro hlen
    have hpre := leb_prefix_continues 5 enc he hlen
    obtain ⟨m, hm⟩ := readVariLoop_long (enc.take 5) hpre pre (enc.drop 5 ++ suf) 0 0#32
      (Or.inr (by simp only [List.length_take]; omega))
    rw [← List.append_assoc, List.append_assoc pre, List.take_append_drop] at hm
    unfold readVari32 readVari
    rw [hm]
    exact ⟨m, rfl⟩

/-- **C05.** Input that ends before the number is complete is rejected. -/
theorem C05_read_vari32_truncated (pre cs : List Byte) (hc : ∀ b ∈ cs, Continues b) :
    ∃ m, readVari32 (pre ++ cs) pre.length = .throw m := by
  obtain ⟨m, hm⟩ := readVariLoop_long cs hc pre [] 0 0#32 (Or.inl rfl)
  rw [List.append_nil] at hm
  unfold readVari32 readVari
  rw [hm]
  exact ⟨m, rfl⟩

example : ∀ b ∈ ([0x80#8, 0xff#8] : List Byte), Continues b := by decide

example : ([0x80#8, 0x80#8, 0x80#8, 0x80#8, 0x78#8] : List Byte).length = 5 ∧
    slebValue [0x80#8, 0x80#8, 0x80#8, 0x80#8, 0x78#8] < 0 := by decide

/-- **C05**, 7-bit variant: complete (a one-byte number is read with its sign). -/
theorem C05_read_vari7 (b : Byte) (hb : ¬ Continues b) (pre suf : List Byte) :
    readVari7 (pre ++ b :: suf) pre.length
      = .ok (BitVec.ofInt 8 (slebValue [b]), pre.length + 1) := by
  unfold readVari7 readVari
  rw [readVariLoop, dif_neg (by decide), readByte_append]
  simp only
  rw [if_neg (by decide), if_neg (by rw [byte_flag_iff]; exact hb)]
  simp only [Outcome.ok_bind]
  have key : ∀ b : Byte, ¬ (128 ≤ b.toNat) →
      (if b &&& 0x40#8 ≠ 0#8 then
        (0#8 ||| ((b &&& 0x7f#8).setWidth 32 <<< 0).setWidth 8) |||
          (((BitVec.intMax 8).setWidth 32 <<< 7).setWidth 8)
      else (0#8 ||| ((b &&& 0x7f#8).setWidth 32 <<< 0).setWidth 8)) = BitVec.ofInt 8 (slebValue [b]) := by
    decide +kernel
  have := key b hb
  rw [← this]
  simp only [Nat.zero_add]
  split
  · rw [if_neg (by decide)]
  · rfl

/-- **C05**, 7-bit variant, everything else: a byte that announces another one, or none at all, is refused. -/
theorem C05_read_vari7_rejects (b : Byte) (hb : Continues b) (pre suf : List Byte) :
    (∃ m, readVari7 (pre ++ b :: suf) pre.length = .throw m) ∧ ∃ m, readVari7 pre pre.length = .throw m := by
  constructor
  · unfold readVari7 readVari
    rw [readVariLoop, dif_neg (by decide), readByte_append]
    simp only
    rw [if_neg (by decide), if_pos (by rw [byte_flag_iff]; exact hb), readVariLoop, dif_pos (by decide)]
    exact ⟨_, rfl⟩
  · unfold readVari7 readVari
    rw [readVariLoop, dif_neg (by decide)]
    have : readByte pre pre.length = .throw "Read past end of buffer" := by simp [readByte]
    rw [this]
    exact ⟨_, rfl⟩

example : ¬ Continues 0x7f#8 := by decide

end Ab
