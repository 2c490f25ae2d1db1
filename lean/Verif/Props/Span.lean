import Verif.Model.Util
import Verif.Props.Util
/-! C81: spans in memory order. C82: string views in dictionary order. -/
namespace Ab.Util

/-- The addresses of a span's elements. -/
def Span.has (a : Span) (x : Nat) : Prop := a.value ≤ x ∧ x < a.value + a.length

/-- All of `a` is below all of `b`. -/
def Below (a b : Span) : Prop := ∀ x y, a.has x → b.has y → x < y

/-- C81, exactly, for spans that are not empty: `a < b` when all of `a` is below all of `b` and they do not touch. -/
theorem C81_less_partial (a b : Span) (ha : 0 < a.length) (hb : 0 < b.length) :
    Span.lt a b = true ↔ Below a b ∧ a.value + a.length ≠ b.value := by
  simp only [Span.lt, decide_eq_true_eq, Below, Span.has]
  constructor
  · intro h; exact ⟨fun x y hx hy => by omega, by omega⟩
  · rintro ⟨h, hne⟩
    have := h (a.value + a.length - 1) b.value ⟨by omega, by omega⟩ ⟨by omega, by omega⟩
    omega

/-- C81: `a < b` never holds of spans that overlap; it is transitive, and never both ways round. -/
theorem C81_order_partial (a b c : Span) :
    (Span.lt a b = true → ¬ ∃ x, a.has x ∧ b.has x) ∧ (Span.lt a b = true → Span.lt b a = false) ∧
    (Span.lt a b = true → Span.lt b c = true → Span.lt a c = true) := by
  simp only [Span.lt, decide_eq_true_eq, decide_eq_false_iff_not, Span.has]
  refine ⟨?_, ?_, ?_⟩
  · rintro h ⟨x, h1, h2⟩; omega
  · intro h; omega
  · intro h1 h2; omega

/-- C81 fails: a span right below another one is not `<` it. -/
theorem C81_negation : Below ⟨100, 4⟩ ⟨104, 4⟩ ∧ Span.lt ⟨100, 4⟩ ⟨104, 4⟩ = false := by
  refine ⟨?_, rfl⟩
  intro x y hx hy
  simp only [Span.has] at hx hy
  omega

/-- Equality is that of the elements' addresses, for spans that are not empty. -/
theorem C81_equal_partial (a b : Span) (ha : 0 < a.length) :
    Span.eq a b = true ↔ ∀ x, a.has x ↔ b.has x := by
  obtain ⟨v, n⟩ := a
  obtain ⟨w, m⟩ := b
  simp only [Span.eq, Bool.and_eq_true, beq_iff_eq, Span.has] at *
  constructor
  · rintro ⟨h1, h2⟩ x; subst h1; subst h2; exact Iff.rfl
  · intro h
    have h1 := (h v).mp ⟨by omega, by omega⟩
    have h2 := (h (v + n - 1)).mp ⟨by omega, by omega⟩
    have h3 := (h w).mpr ⟨by omega, by omega⟩
    have h4 := (h (w + m - 1)).mpr ⟨by omega, by omega⟩
    omega

example : Span.lt ⟨100, 4⟩ ⟨105, 4⟩ = true ∧ Span.eq ⟨100, 4⟩ ⟨100, 4⟩ = true := ⟨rfl, rfl⟩

/-- Dictionary order of byte strings: -1, 0 or 1. -/
def dictionary : List Byte → List Byte → Int
  | [], [] => 0
  | [], _ :: _ => -1
  | _ :: _, [] => 1
  | a :: as, b :: bs => if a.toNat < b.toNat then -1 else if b.toNat < a.toNat then 1 else dictionary as bs

theorem sign_spec : ∀ {a b : List Byte}, a.length = b.length →
    strncmpSign a.length a b = .ok (dictionary (beforeNul a) (beforeNul b))
  | [], [], _ => rfl
  | a :: as, b :: bs, h => by
    simp only [List.length_cons, Nat.add_right_cancel_iff] at h
    rw [List.length_cons, strncmpSign]
    have hz : ∀ c : Byte, c ≠ 0#8 → 0 < c.toNat := by
      intro c hc
      refine Nat.pos_of_ne_zero fun h0 => hc (BitVec.eq_of_toNat_eq (by simpa using h0))
    by_cases ha : a = 0#8
    · subst ha
      by_cases hb : b = 0#8
      · subst hb; simp [beforeNul, dictionary]
      · have := hz b hb
        simp [beforeNul, hb, dictionary, this]
    · have ha' := hz a ha
      by_cases hb : b = 0#8
      · subst hb
        simp [beforeNul, ha, dictionary, ha']
      · have ih := sign_spec h
        simp only [beforeNul] at ih ⊢
        rw [if_neg ha, ih]
        simp only [List.takeWhile_cons, ne_eq, ha, hb, not_false_eq_true, decide_true, if_true, dictionary]
        split
        · rfl
        · split <;> rfl

theorem sign_take : ∀ (n : Nat) (a b : List Byte), n ≤ a.length → n ≤ b.length →
    strncmpSign n a b = strncmpSign n (a.take n) (b.take n)
  | 0, _, _, _, _ => by simp [strncmpSign]
  | n + 1, [], _, h, _ => by simp at h
  | n + 1, _ :: _, [], _, h => by simp at h
  | n + 1, a :: as, b :: bs, h1, h2 => by
    simp only [List.take_succ_cons, strncmpSign]
    rw [sign_take n as bs (by simpa using h1) (by simpa using h2)]

/-- C82, exactly: comparing two views compares, in dictionary order, as many characters as both have, up to a NUL. -/
theorem C82_compare_partial (a b : List Byte) :
    spanCompare a b = .ok (dictionary (beforeNul (a.take (min a.length b.length)))
      (beforeNul (b.take (min a.length b.length)))) := by
  unfold spanCompare
  rw [sign_take _ _ _ (Nat.min_le_left _ _) (Nat.min_le_right _ _)]
  have hl : (a.take (min a.length b.length)).length = min a.length b.length := by simp
  have := sign_spec (a := a.take (min a.length b.length)) (b := b.take (min a.length b.length)) (by simp)
  rw [hl] at this
  exact this

theorem beforeNul_id {s : List Byte} (hs : 0#8 ∉ s) : beforeNul s = s := by
  unfold beforeNul
  induction s with
  | nil => rfl
  | cons c s ih =>
    have h1 : c ≠ 0#8 := fun h => hs (by simp [h])
    have h2 : 0#8 ∉ s := fun h => hs (by simp [h])
    simp [h1]; simpa using ih h2

/-- C82 for views of the same length without NUL: dictionary order. -/
theorem C82_same_length_partial (a b : List Byte) (h : a.length = b.length) (ha : 0#8 ∉ a) (hb : 0#8 ∉ b) :
    spanCompare a b = .ok (dictionary a b) := by
  rw [C82_compare_partial, h, Nat.min_self, List.take_length, ← h, List.take_length, beforeNul_id ha, beforeNul_id hb]

theorem cstr_prefix : ∀ (a s t : List Byte), 0#8 ∉ a → 0#8 ∉ s → a.length ≤ s.length →
    strncmpSign a.length a (s ++ 0#8 :: t) = .ok (dictionary a (s.take a.length))
  | [], s, t, _, _, _ => by simp [strncmpSign, dictionary]
  | a :: as, [], t, _, _, h => by simp at h
  | a :: as, b :: bs, t, ha, hs, h => by
    have h1 : a ≠ 0#8 := fun e => ha (by simp [e])
    have ih := cstr_prefix as bs t (fun e => ha (by simp [e])) (fun e => hs (by simp [e])) (by simpa using h)
    simp only [List.length_cons, List.cons_append, strncmpSign, List.take_succ_cons, dictionary]
    rw [if_neg h1, ih]
    split
    · rfl
    · split <;> rfl

theorem cstr_longer : ∀ (a s t : List Byte), 0#8 ∉ a → 0#8 ∉ s → s.length < a.length →
    strncmpSign a.length a (s ++ 0#8 :: t) = .ok (dictionary a s)
  | [], s, t, _, _, h => by simp at h
  | a :: as, [], t, ha, _, _ => by
    have h1 : a ≠ 0#8 := fun e => ha (by simp [e])
    have : 0 < a.toNat := Nat.pos_of_ne_zero fun h0 => h1 (BitVec.eq_of_toNat_eq (by simpa using h0))
    simp [strncmpSign, dictionary, this]
  | a :: as, b :: bs, t, ha, hs, h => by
    have h1 : a ≠ 0#8 := fun e => ha (by simp [e])
    have ih := cstr_longer as bs t (fun e => ha (by simp [e])) (fun e => hs (by simp [e])) (by simpa using h)
    simp only [List.length_cons, List.cons_append, strncmpSign, dictionary]
    rw [if_neg h1, ih]
    split
    · rfl
    · split <;> rfl

/-- C82 for a view and a C string, both without NUL: only as much of the string counts as the view is long. -/
theorem C82_compare_c_string_partial (a s t : List Byte) (ha : 0#8 ∉ a) (hs : 0#8 ∉ s) :
    spanCompareCstr a (s ++ 0#8 :: t) = .ok (dictionary a (s.take a.length)) := by
  unfold spanCompareCstr
  rcases Nat.lt_or_ge s.length a.length with h | h
  · rw [cstr_longer a s t ha hs h, List.take_of_length_le (by omega)]
  · exact cstr_prefix a s t ha hs h

/-- C82 fails: "ab" and "abc" compare as equal, in both directions. -/
theorem C82_negation : spanCompare [97, 98] [97, 98, 99] = .ok 0 ∧ spanCompare [97, 98, 99] [97, 98] = .ok 0 ∧
    dictionary [97, 98] [97, 98, 99] = -1 ∧ spanCompareCstr [97, 98] [97, 98, 99, 0] = .ok 0 := ⟨rfl, rfl, rfl, rfl⟩

/-- "abc" < "abd" < "b". -/
example : spanCompare [97, 98, 99] [97, 98, 100] = .ok (-1) ∧ spanCompare [98] [97, 98, 100] = .ok 1 := ⟨rfl, rfl⟩

end Ab.Util
