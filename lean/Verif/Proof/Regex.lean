import Verif.Spec.Regex
/-! The scanner finds the longest match. -/
namespace Ab.Re

open Spec

theorem nullable_iff {r : Re} : nullable r = true ↔ Lang r [] := by
  induction r with
  | emp => simp [nullable]; intro h; cases h
  | eps => simp [nullable]; exact .eps
  | cls p => simp [nullable]; intro h; cases h
  | seq a b iha ihb =>
    simp only [nullable, Bool.and_eq_true, iha, ihb]
    constructor
    · rintro ⟨h1, h2⟩; exact .seq h1 h2
    · intro h
      generalize hs : ([] : List Byte) = s at h
      cases h with
      | seq h1 h2 =>
        have := List.append_eq_nil_iff.mp hs.symm
        rw [← hs]
        rw [this.1] at h1; rw [this.2] at h2
        exact ⟨h1, h2⟩
  | alt a b iha ihb =>
    simp only [nullable, Bool.or_eq_true, iha, ihb]
    constructor
    · rintro (h | h)
      · exact .altL h
      · exact .altR h
    · intro h
      cases h with
      | altL h => exact Or.inl h
      | altR h => exact Or.inr h
  | star a _ => simp [nullable]; exact .starNil

theorem lang_star_cons {a : Re} {c : Byte} {s : List Byte} (h : Lang (.star a) (c :: s)) :
    ∃ u v, s = u ++ v ∧ Lang a (c :: u) ∧ Lang (.star a) v := by
  generalize hr : Re.star a = r at h
  generalize hs : c :: s = w at h
  induction h generalizing c s with
  | starNil => cases hs
  | @starCons b u v h1 h2 _ ih2 =>
    cases hr
    cases u with
    | nil => exact ih2 rfl (by simpa using hs)
    | cons x u =>
      simp only [List.cons_append, List.cons.injEq] at hs
      obtain ⟨h, hs⟩ := hs
      subst h
      exact ⟨u, v, hs, h1, h2⟩
  | _ => cases hr

theorem deriv_iff {r : Re} {c : Byte} {s : List Byte} : Lang (deriv c r) s ↔ Lang r (c :: s) := by
  induction r generalizing s with
  | emp => simp only [deriv]; constructor <;> intro h <;> cases h
  | eps => simp only [deriv]; constructor <;> intro h <;> cases h
  | cls p =>
    simp only [deriv]
    cases hp : p c with
    | true =>
      constructor
      · intro h; cases h; exact .cls hp
      · intro h; cases h; exact .eps
    | false =>
      constructor
      · intro h; cases h
      · intro h
        generalize hw : c :: s = w at h
        cases h with
        | cls h => cases hw; rw [hp] at h; cases h
  | alt a b iha ihb =>
    simp only [deriv]
    constructor
    · intro h
      cases h with
      | altL h => exact .altL (iha.mp h)
      | altR h => exact .altR (ihb.mp h)
    · intro h
      cases h with
      | altL h => exact .altL (iha.mpr h)
      | altR h => exact .altR (ihb.mpr h)
  | seq a b iha ihb =>
    have key : Lang (.seq a b) (c :: s) ↔ Lang (.seq (deriv c a) b) s ∨ (nullable a = true ∧ Lang (deriv c b) s) := by
      constructor
      · intro h
        generalize hw : c :: s = w at h
        cases h with
        | @seq _ _ u v h1 h2 =>
          cases u with
          | nil =>
            right
            simp at hw
            subst hw
            exact ⟨nullable_iff.mpr h1, ihb.mpr h2⟩
          | cons x u =>
            left
            simp only [List.cons_append, List.cons.injEq] at hw
            obtain ⟨h, hs⟩ := hw
            subst h; subst hs
            exact .seq (iha.mpr h1) h2
      · rintro (h | ⟨h1, h2⟩)
        · cases h with
          | seq h1 h2 =>
            have := Lang.seq (iha.mp h1) h2
            simpa using this
        · have := Lang.seq (nullable_iff.mp h1) (ihb.mp h2)
          simpa using this
    rw [key]
    simp only [deriv]
    cases hn : nullable a with
    | true =>
      simp only [if_true, true_and]
      constructor
      · intro h
        cases h with
        | altL h => exact Or.inl h
        | altR h => exact Or.inr h
      · rintro (h | h)
        · exact .altL h
        · exact .altR h
    | false => simp
  | star a iha =>
    simp only [deriv]
    constructor
    · intro h
      cases h with
      | seq h1 h2 =>
        have := Lang.starCons (iha.mp h1) h2
        simpa using this
    · intro h
      obtain ⟨u, v, hs, h1, h2⟩ := lang_star_cons h
      rw [hs]
      exact .seq (iha.mpr h1) h2

theorem dead_lang {r : Re} (h : dead r = true) : ∀ s, ¬ Lang r s := by
  induction r with
  | emp => intro s hs; cases hs
  | eps => cases h
  | cls p => cases h
  | star a _ => cases h
  | seq a b iha ihb =>
    intro s hs
    simp only [dead, Bool.or_eq_true] at h
    cases hs with
    | seq h1 h2 =>
      rcases h with h | h
      · exact iha h _ h1
      · exact ihb h _ h2
  | alt a b iha ihb =>
    intro s hs
    simp only [dead, Bool.and_eq_true] at h
    cases hs with
    | altL h1 => exact iha h.1 _ h1
    | altR h1 => exact ihb h.2 _ h1

/-- Every class in the expression is inhabited. -/
def Inhab : Re → Prop
  | .emp => True
  | .eps => True
  | .cls p => ∃ c, p c = true
  | .seq a b => Inhab a ∧ Inhab b
  | .alt a b => Inhab a ∧ Inhab b
  | .star a => Inhab a

theorem deriv_inhab {r : Re} (c : Byte) (h : Inhab r) : Inhab (deriv c r) := by
  induction r with
  | emp => trivial
  | eps => trivial
  | cls p => simp only [deriv]; split <;> trivial
  | seq a b iha ihb =>
    simp only [deriv]
    split
    · exact ⟨⟨iha h.1, h.2⟩, ihb h.2⟩
    · exact ⟨iha h.1, h.2⟩
  | alt a b iha ihb => exact ⟨iha h.1, ihb h.2⟩
  | star a iha => exact ⟨iha h, h⟩

/-- `dead` is exact: what is not dead still matches something. -/
theorem not_dead_lang {r : Re} (hi : Inhab r) (h : dead r = false) : ∃ s, Lang r s := by
  induction r with
  | emp => cases h
  | eps => exact ⟨_, .eps⟩
  | cls p => obtain ⟨c, hc⟩ := hi; exact ⟨_, .cls hc⟩
  | star a _ => exact ⟨_, .starNil⟩
  | seq a b iha ihb =>
    simp only [dead, Bool.or_eq_false_iff] at h
    obtain ⟨s, hs⟩ := iha hi.1 h.1
    obtain ⟨t, ht⟩ := ihb hi.2 h.2
    exact ⟨_, .seq hs ht⟩
  | alt a b iha ihb =>
    simp only [dead, Bool.and_eq_false_iff] at h
    rcases h with h | h
    · obtain ⟨s, hs⟩ := iha hi.1 h; exact ⟨s, .altL hs⟩
    · obtain ⟨s, hs⟩ := ihb hi.2 h; exact ⟨s, .altR hs⟩

/-- Derivative by a text. -/
def derivs (s : List Byte) (r : Re) : Re := s.foldl (fun r c => deriv c r) r

theorem derivs_iff {r : Re} {s t : List Byte} : Lang (derivs s r) t ↔ Lang r (s ++ t) := by
  induction s generalizing r with
  | nil => rfl
  | cons c s ih =>
    show Lang (derivs s (deriv c r)) t ↔ _
    rw [ih, deriv_iff]; rfl

/-- The rules after a text. -/
def after (rules : List (K × Re)) (s : List Byte) : List (K × Re) := rules.map (fun r => (r.1, derivs s r.2))

theorem after_nil (rules : List (K × Re)) : after rules [] = rules := by
  unfold after derivs
  simp

theorem after_snoc (rules : List (K × Re)) (s : List Byte) (b : Byte) :
    (after rules s).map (fun r => (r.1, deriv b r.2)) = after rules (s ++ [b]) := by
  simp [after, derivs, Function.comp_def]

theorem firstMatch_some {rules : List (K × Re)} {s : List Byte} {k : K} :
    firstMatch (after rules s) = some k ↔
      ∃ (i : Nat) (r : Re), rules[i]? = some (k, r) ∧ Lang r s ∧
        ∀ (j : Nat) (q : K × Re), j < i → rules[j]? = some q → ¬ Lang q.2 s := by
  have hn : ∀ r : Re, nullable (derivs s r) = true ↔ Lang r s := by
    intro r; rw [nullable_iff, derivs_iff]; simp
  unfold firstMatch after
  induction rules with
  | nil => simp
  | cons q rules ih =>
    simp only [List.map_cons, List.find?_cons]
    by_cases hq : Lang q.2 s
    · rw [(hn q.2).mpr hq]
      simp only [Option.map_some, Option.some.injEq]
      constructor
      · intro h
        exact ⟨0, q.2, by simp [← h], hq, by intro j _ hj; omega⟩
      · rintro ⟨i, r, h1, h2, h3⟩
        cases i with
        | zero => simp at h1; rw [h1]
        | succ i => exact absurd hq (h3 0 q (by omega) (by simp))
    · have : nullable (derivs s q.2) = false := by
        cases h : nullable (derivs s q.2) with
        | false => rfl
        | true => exact absurd ((hn _).mp h) hq
      rw [this]
      refine Iff.trans ih ?_
      constructor
      · rintro ⟨i, r, h1, h2, h3⟩
        refine ⟨i + 1, r, by simpa using h1, h2, ?_⟩
        intro j q' hj hq'
        cases j with
        | zero => simp at hq'; rw [← hq']; exact hq
        | succ j => exact h3 j q' (by omega) (by simpa using hq')
      · rintro ⟨i, r, h1, h2, h3⟩
        cases i with
        | zero => simp at h1; rw [h1] at hq; exact absurd h2 hq
        | succ i =>
          refine ⟨i, r, by simpa using h1, h2, ?_⟩
          intro j q' hj hq'
          exact h3 (j + 1) q' (by omega) (by simpa using hq')

theorem firstMatch_none {rules : List (K × Re)} {s : List Byte} :
    firstMatch (after rules s) = none ↔ ∀ q ∈ rules, ¬ Lang q.2 s := by
  unfold firstMatch after
  simp only [Option.map_eq_none_iff, List.find?_eq_none, List.mem_map]
  constructor
  · intro h q hq hl
    apply h (q.1, derivs s q.2) ⟨q, hq, rfl⟩
    rw [nullable_iff, derivs_iff]; simpa using hl
  · rintro h _ ⟨q, hq, rfl⟩ hl
    rw [nullable_iff, derivs_iff] at hl
    exact h q hq (by simpa using hl)

/-- What the scan has found after reading the prefix `pre`: the longest match so far. -/
def Best (rules : List (K × Re)) (pre : List Byte) : Option (K × Nat) → Prop
  | none => ∀ m q, 0 < m → m ≤ pre.length → q ∈ rules → ¬ Lang q.2 (pre.take m)
  | some (k, n) => Longest rules pre k n

theorem scanFrom_spec (rules : List (K × Re)) (rest : List Byte) :
    ∀ (pre : List Byte) (best : Option (K × Nat)), Best rules pre best →
    ∀ s, scanFrom (after rules pre) pre.length best rest = s →
      Best rules (pre ++ rest) s.best ∧ pre.length ≤ s.read ∧ s.read ≤ (pre ++ rest).length ∧
      (s.stuck = false → s.read = (pre ++ rest).length) ∧
      (s.stuck = true → s.read < (pre ++ rest).length ∧
        ∀ q ∈ rules, ∀ t, ¬ Lang q.2 ((pre ++ rest).take (s.read + 1) ++ t)) := by
  induction rest with
  | nil =>
    intro pre best hb s hs
    simp only [scanFrom] at hs
    subst hs
    simp [hb]
  | cons b bs ih =>
    intro pre best hb s hs
    simp only [scanFrom, after_snoc] at hs
    split at hs
    · rename_i hdead
      subst hs
      have hno : ∀ q ∈ rules, ∀ t, ¬ Lang q.2 (pre ++ [b] ++ t) := by
        intro q hq t hl
        have hd := List.all_eq_true.mp hdead (q.1, derivs (pre ++ [b]) q.2)
          (List.mem_map.mpr ⟨q, hq, rfl⟩)
        exact dead_lang hd t (derivs_iff.mpr hl)
      have htake : ∀ m, pre.length < m → m ≤ (pre ++ b :: bs).length →
          (pre ++ b :: bs).take m = pre ++ [b] ++ bs.take (m - pre.length - 1) := by
        intro m h1 h2
        rw [List.take_append, List.take_of_length_le (by omega)]
        have : m - pre.length = (m - pre.length - 1) + 1 := by omega
        rw [this, List.take_succ_cons]; simp
      refine ⟨?_, Nat.le_refl _, by simp, by simp, ?_⟩
      · cases hbb : best with
        | none =>
          rw [hbb] at hb
          intro m q hm hml hq
          rcases Nat.lt_or_ge pre.length m with h | h
          · rw [htake m h hml]; exact hno q hq _
          · have := hb m q hm h hq
            rwa [List.take_append_of_le_length h]
        | some kn =>
          obtain ⟨k, n⟩ := kn
          rw [hbb] at hb
          have hle := hb.le
          refine ⟨hb.pos, by simp; omega, ?_, ?_⟩
          · have := hb.first
            rwa [List.take_append_of_le_length hle]
          · intro m q hm hml hq
            rcases Nat.lt_or_ge pre.length m with h | h
            · rw [htake m h hml]; exact hno q hq _
            · have := hb.longest m q hm h hq
              rwa [List.take_append_of_le_length h]
      · intro _
        refine ⟨by simp, ?_⟩
        intro q hq t
        have := htake (pre.length + 1) (by omega) (by simp)
        simp only at this ⊢
        rw [this]
        simpa using hno q hq t
    · have hb' : Best rules (pre ++ [b]) (match firstMatch (after rules (pre ++ [b])) with
          | some k => some (k, pre.length + 1)
          | none => best) := by
        cases hf : firstMatch (after rules (pre ++ [b])) with
        | some k =>
          have := firstMatch_some.mp hf
          refine ⟨by omega, by simp, ?_, ?_⟩
          · have e : (pre ++ [b]).take (pre.length + 1) = pre ++ [b] := List.take_of_length_le (by simp)
            rw [e]; exact this
          · intro m q h1 h2; simp at h2; omega
        | none =>
          have hno := firstMatch_none.mp hf
          have hlast : ∀ m, pre.length < m → m ≤ (pre ++ [b]).length → (pre ++ [b]).take m = pre ++ [b] := by
            intro m h1 h2
            exact List.take_of_length_le (by simp; omega)
          cases hbb : best with
          | none =>
            rw [hbb] at hb
            intro m q hm hml hq
            rcases Nat.lt_or_ge pre.length m with h | h
            · rw [hlast m h hml]; exact hno q hq
            · have := hb m q hm h hq
              rwa [List.take_append_of_le_length h]
          | some kn =>
            obtain ⟨k, n⟩ := kn
            rw [hbb] at hb
            have hle := hb.le
            refine ⟨hb.pos, by simp; omega, ?_, ?_⟩
            · have := hb.first
              rwa [List.take_append_of_le_length hle]
            · intro m q hm hml hq
              rcases Nat.lt_or_ge pre.length m with h | h
              · rw [hlast m h hml]; exact hno q hq
              · have := hb.longest m q hm h hq
                rwa [List.take_append_of_le_length h]
      have e : pre.length + 1 = (pre ++ [b]).length := by simp
      rw [e] at hs hb'
      have := ih (pre ++ [b]) _ hb' s hs
      simp only [List.append_assoc, List.singleton_append] at this
      obtain ⟨h1, h2, h3⟩ := this
      refine ⟨h1, ?_, h3⟩
      simp at h2; omega

/-- The scanner finds the longest match, reads no further than needed, and gets stuck exactly when no rule
can match any continuation. -/
theorem scan_spec (rules : List (K × Re)) (input : List Byte) :
    (match (scan rules input).best with
      | some (k, n) => Longest rules input k n
      | none => NoMatch rules input) ∧
    (scan rules input).read ≤ input.length ∧
    ((scan rules input).stuck = false → (scan rules input).read = input.length) ∧
    ((scan rules input).stuck = true → (scan rules input).read < input.length ∧
      ∀ q ∈ rules, ∀ t, ¬ Lang q.2 (input.take ((scan rules input).read + 1) ++ t)) := by
  have h := scanFrom_spec rules input [] none (by intro m q h1 h2; simp at h2; omega)
    (scan rules input) (by unfold scan; rw [after_nil]; rfl)
  simp only [List.nil_append] at h
  obtain ⟨h1, -, h3, h4, h5⟩ := h
  refine ⟨?_, h3, h4, h5⟩
  cases hb : (scan rules input).best with
  | none => rw [hb] at h1; exact h1
  | some kn => rw [hb] at h1; exact h1

theorem first_unique {rules : List (K × Re)} {s : List Byte} {k k' : K}
    (h : ∃ (i : Nat) (r : Re), rules[i]? = some (k, r) ∧ Lang r s ∧
      ∀ (j : Nat) (q : K × Re), j < i → rules[j]? = some q → ¬ Lang q.2 s)
    (h' : ∃ (i : Nat) (r : Re), rules[i]? = some (k', r) ∧ Lang r s ∧
      ∀ (j : Nat) (q : K × Re), j < i → rules[j]? = some q → ¬ Lang q.2 s) : k = k' := by
  have h1 := firstMatch_some.mpr h
  have h2 := firstMatch_some.mpr h'
  rw [h1] at h2; cases h2; rfl

/-- The longest match is unique. -/
theorem Longest.unique {rules : List (K × Re)} {s : List Byte} {k k' : K} {n n' : Nat}
    (h : Longest rules s k n) (h' : Longest rules s k' n') : k = k' ∧ n = n' := by
  have e : n = n' := by
    obtain ⟨i, r, h1, h2, -⟩ := h.first
    obtain ⟨i', r', h1', h2', -⟩ := h'.first
    rcases Nat.lt_trichotomy n n' with hlt | heq | hgt
    · exact absurd h2' (h.longest n' (k', r') hlt h'.le (List.mem_of_getElem? h1'))
    · exact heq
    · exact absurd h2 (h'.longest n (k, r) hgt h.le (List.mem_of_getElem? h1))
  subst e
  exact ⟨first_unique h.first h'.first, rfl⟩

/-- A longest match is what the scanner returns. -/
theorem scan_of_longest {rules : List (K × Re)} {s : List Byte} {k : K} {n : Nat}
    (h : Longest rules s k n) : (scan rules s).best = some (k, n) := by
  have hs := (scan_spec rules s).1
  cases hb : (scan rules s).best with
  | none =>
    rw [hb] at hs
    obtain ⟨i, r, h1, h2, -⟩ := h.first
    exact absurd h2 (hs n (k, r) h.pos h.le (List.mem_of_getElem? h1))
  | some kn =>
    rw [hb] at hs
    obtain ⟨k', n'⟩ := kn
    obtain ⟨e1, e2⟩ := Longest.unique h hs
    rw [e1, e2]

end Ab.Re
