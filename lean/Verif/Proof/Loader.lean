import Verif.Spec.Loader
import Verif.Proof.Module5
/-! The loader reads exactly the language of `Spec/Loader.lean`. -/
namespace Ab

open Spec

/-- Forward: what a successful read consumed. -/
def Fwd {α : Type} (bs : List Byte) (pos : Nat) (r : Outcome (α × Nat))
    (S : List Byte → α → List Byte → Prop) : Prop :=
  ∀ x p, r = .ok (x, p) → S (bs.drop pos) x (bs.drop p) ∧ p ≤ bs.length

/-- Backward: the read succeeds on the language. -/
def Bwd {α : Type} (bs : List Byte) (pos : Nat) (r : Outcome (α × Nat))
    (S : List Byte → α → List Byte → Prop) : Prop :=
  ∀ x rest, S (bs.drop pos) x rest → ∃ p, r = .ok (x, p) ∧ rest = bs.drop p ∧ p ≤ bs.length

theorem drop_add' (bs : List Byte) (a b : Nat) : (bs.drop a).drop b = bs.drop (a + b) := List.drop_drop

theorem drop_split {bs l rest : List Byte} {pos : Nat} (hp : pos ≤ bs.length) (h : bs.drop pos = l ++ rest) :
    rest = bs.drop (pos + l.length) ∧ pos + l.length ≤ bs.length := by
  constructor
  · rw [← drop_add', h, List.drop_left]
  · have := congrArg List.length h
    rw [List.length_drop, List.length_append] at this
    omega

theorem split_drop {bs l rest : List Byte} {pos : Nat} (hp : pos ≤ bs.length) (h : bs.drop pos = l ++ rest) :
    bs = bs.take pos ++ l ++ rest ∧ (bs.take pos).length = pos := by
  constructor
  · rw [List.append_assoc, ← h, List.take_append_drop]
  · rw [List.length_take]; omega

theorem byte_fwd {bs pos} : Fwd bs pos (readByte bs pos) (fun inp b rest => inp = b :: rest) := by
  intro b p h
  rcases readByte_safe' bs pos with ⟨hl, b', e⟩ | ⟨_, e⟩
  · have e2 := readByte_lt hl
    rw [e2] at h
    injection h with h
    injection h with h1 h2
    subst h1 h2
    exact ⟨List.drop_eq_getElem_cons hl, hl⟩
  · rw [e] at h; cases h

theorem byte_bwd {bs pos} (hp : pos ≤ bs.length) :
    Bwd bs pos (readByte bs pos) (fun inp b rest => inp = b :: rest) := by
  intro b rest h
  have h' : bs.drop pos = [b] ++ rest := h
  obtain ⟨h1, h2⟩ := drop_split hp h'
  simp only [List.length_singleton] at h1 h2
  have hl : pos < bs.length := by omega
  refine ⟨pos + 1, ?_, h1, h2⟩
  rw [readByte_lt hl]
  rw [List.drop_eq_getElem_cons hl] at h
  injection h with h3 h4
  rw [h3]

theorem word_fwd {bs pos} (hp : pos ≤ bs.length) : Fwd bs pos (readVaru32 bs pos) Word := by
  intro v p h
  obtain ⟨enc, h1, h2, h3, h4, h5⟩ := readVaru32_ok hp h
  refine ⟨⟨enc, h1, h2, h5, by rw [h3, BitVec.toNat_ofNat]⟩, ?_⟩
  have := (drop_split hp h5).2
  omega

theorem num_bwd {bs pos} (hp : pos ≤ bs.length) {v : Nat} {rest : List Byte} (h : Num (bs.drop pos) v rest) :
    ∃ w p, readVaru32 bs pos = .ok (w, p) ∧ w.toNat = v ∧ rest = bs.drop p ∧ p ≤ bs.length := by
  obtain ⟨enc, h1, h2, h3, h4⟩ := h
  obtain ⟨h5, h6⟩ := drop_split hp h3
  obtain ⟨h7, h8⟩ := split_drop hp h3
  have := readVaru_leb 32 32 enc h1 (bs.take pos) rest (by omega)
  rw [← h7, h8] at this
  exact ⟨_, _, this, by rw [BitVec.toNat_ofNat, h4], h5, h6⟩

theorem word_bwd {bs pos} (hp : pos ≤ bs.length) : Bwd bs pos (readVaru32 bs pos) Word := by
  intro v rest h
  obtain ⟨w, p, h1, h2, h3, h4⟩ := num_bwd hp h
  have : w = v := BitVec.eq_of_toNat_eq h2
  subst this
  exact ⟨p, h1, h3, h4⟩

theorem valTypes_fwd {bs} : ∀ {n pos}, pos ≤ bs.length →
    Fwd bs pos (readValTypes bs n pos) (fun inp ts rest => ts.length = n ∧ inp = ts ++ rest) := by
  intro n
  induction n with
  | zero =>
    intro pos hp ts p h
    unfold readValTypes at h
    injection h with h
    injection h with h1 h2
    subst h1 h2
    exact ⟨⟨rfl, rfl⟩, hp⟩
  | succ n ih =>
    intro pos hp ts p h
    unfold readValTypes at h
    obtain ⟨⟨t, p1⟩, h1, h⟩ := Outcome.bind_eq_ok.1 h
    obtain ⟨⟨us, p2⟩, h2, h⟩ := Outcome.bind_eq_ok.1 h
    injection h with h
    injection h with h3 h4
    subst h3 h4
    obtain ⟨e1, l1⟩ := byte_fwd _ _ h1
    obtain ⟨⟨e2, e3⟩, l2⟩ := ih l1 _ _ h2
    refine ⟨⟨by simp [e2], ?_⟩, l2⟩
    rw [e1, e3]; rfl

theorem valTypes_bwd {bs} : ∀ {n pos}, pos ≤ bs.length →
    Bwd bs pos (readValTypes bs n pos) (fun inp ts rest => ts.length = n ∧ inp = ts ++ rest) := by
  intro n
  induction n with
  | zero =>
    intro pos hp ts rest h
    obtain ⟨h1, h2⟩ := h
    have := List.length_eq_zero_iff.mp h1
    subst this
    exact ⟨pos, rfl, h2.symm, hp⟩
  | succ n ih =>
    intro pos hp ts rest h
    obtain ⟨h1, h2⟩ := h
    cases ts with
    | nil => simp at h1
    | cons t us =>
      obtain ⟨p1, e1, d1, l1⟩ := byte_bwd hp t (us ++ rest) h2
      obtain ⟨p2, e2, d2, l2⟩ := ih l1 us rest ⟨by simpa using h1, d1.symm⟩
      refine ⟨p2, ?_, d2, l2⟩
      unfold readValTypes
      rw [e1]; simp only [Outcome.ok_bind]
      rw [e2]; rfl

theorem type_fwd {bs pos} : Fwd bs pos (readFuncType bs pos) TypeItem := by
  intro t p h
  unfold readFuncType at h
  obtain ⟨⟨vt, p1⟩, h1, h⟩ := Outcome.bind_eq_ok.1 h
  simp only at h
  split at h
  · cases h
  · next hvt =>
    obtain ⟨⟨na, p2⟩, h2, h⟩ := Outcome.bind_eq_ok.1 h
    obtain ⟨⟨as, p3⟩, h3, h⟩ := Outcome.bind_eq_ok.1 h
    obtain ⟨⟨nr, p4⟩, h4, h⟩ := Outcome.bind_eq_ok.1 h
    obtain ⟨⟨rs, p5⟩, h5, h⟩ := Outcome.bind_eq_ok.1 h
    injection h with h
    injection h with h6 h7
    subst h6 h7
    obtain ⟨e1, l1⟩ := byte_fwd _ _ h1
    obtain ⟨e2, l2⟩ := word_fwd l1 _ _ h2
    obtain ⟨⟨n3, e3⟩, l3⟩ := valTypes_fwd l2 _ _ h3
    obtain ⟨e4, l4⟩ := word_fwd l3 _ _ h4
    obtain ⟨⟨n5, e5⟩, l5⟩ := valTypes_fwd l4 _ _ h5
    refine ⟨⟨bs.drop p1, bs.drop p3, ?_, ?_, ?_⟩, l5⟩
    · rw [e1]
      have : vt = FUNC := Classical.byContradiction hvt
      rw [this]; rfl
    · simp only; rw [n3, ← e3]; exact e2
    · simp only; rw [n5, ← e5]; exact e4

theorem type_bwd {bs pos} (hp : pos ≤ bs.length) : Bwd bs pos (readFuncType bs pos) TypeItem := by
  intro t rest h
  obtain ⟨a, b, h1, h2, h3⟩ := h
  obtain ⟨p1, e1, d1, l1⟩ := byte_bwd hp _ a h1
  subst d1
  obtain ⟨na, p2, e2, v2, d2, l2⟩ := num_bwd l1 h2
  obtain ⟨p3, e3, d3, l3⟩ := valTypes_bwd l2 t.args b ⟨rfl, d2.symm⟩
  subst d3
  obtain ⟨nr, p4, e4, v4, d4, l4⟩ := num_bwd l3 h3
  obtain ⟨p5, e5, d5, l5⟩ := valTypes_bwd l4 t.rets rest ⟨rfl, d4.symm⟩
  refine ⟨p5, ?_, d5, l5⟩
  unfold readFuncType
  rw [e1]; simp only [Outcome.ok_bind]
  rw [if_neg (by simp [FUNC]), e2]; simp only [Outcome.ok_bind]
  rw [v2, e3]; simp only [Outcome.ok_bind]
  rw [e4]; simp only [Outcome.ok_bind]
  rw [v4, e5]; rfl

theorem types_fwd {bs} : ∀ {n pos}, pos ≤ bs.length →
    Fwd bs pos (readFuncTypes bs n pos) (fun inp ts rest => ts.length = n ∧ Many TypeItem inp ts rest) := by
  intro n
  induction n with
  | zero =>
    intro pos hp ts p h
    unfold readFuncTypes at h
    injection h with h
    injection h with h1 h2
    subst h1 h2
    exact ⟨⟨rfl, Many.nil _⟩, hp⟩
  | succ n ih =>
    intro pos hp ts p h
    unfold readFuncTypes at h
    obtain ⟨⟨t, p1⟩, h1, h⟩ := Outcome.bind_eq_ok.1 h
    obtain ⟨⟨us, p2⟩, h2, h⟩ := Outcome.bind_eq_ok.1 h
    injection h with h
    injection h with h3 h4
    subst h3 h4
    obtain ⟨e1, l1⟩ := type_fwd _ _ h1
    obtain ⟨⟨e2, e3⟩, l2⟩ := ih l1 _ _ h2
    exact ⟨⟨by simp [e2], Many.cons e1 e3⟩, l2⟩

theorem types_bwd {bs} : ∀ {n pos}, pos ≤ bs.length →
    Bwd bs pos (readFuncTypes bs n pos) (fun inp ts rest => ts.length = n ∧ Many TypeItem inp ts rest) := by
  intro n
  induction n with
  | zero =>
    intro pos hp ts rest h
    obtain ⟨h1, h2⟩ := h
    have := List.length_eq_zero_iff.mp h1
    subst this
    cases h2
    exact ⟨pos, rfl, rfl, hp⟩
  | succ n ih =>
    intro pos hp ts rest h
    obtain ⟨h1, h2⟩ := h
    cases h2 with
    | nil => simp at h1
    | cons hx hxs =>
      obtain ⟨p1, e1, d1, l1⟩ := type_bwd hp _ _ hx
      subst d1
      obtain ⟨p2, e2, d2, l2⟩ := ih l1 _ _ ⟨by simpa using h1, hxs⟩
      refine ⟨p2, ?_, d2, l2⟩
      unfold readFuncTypes
      rw [e1]; simp only [Outcome.ok_bind]
      rw [e2]; rfl

theorem decls_fwd {bs} : ∀ {n pos}, pos ≤ bs.length →
    Fwd bs pos (readFuncDecls bs n pos) (fun inp ts rest => ts.length = n ∧ Many Word inp ts rest) := by
  intro n
  induction n with
  | zero =>
    intro pos hp ts p h
    unfold readFuncDecls at h
    injection h with h
    injection h with h1 h2
    subst h1 h2
    exact ⟨⟨rfl, Many.nil _⟩, hp⟩
  | succ n ih =>
    intro pos hp ts p h
    unfold readFuncDecls at h
    obtain ⟨⟨t, p1⟩, h1, h⟩ := Outcome.bind_eq_ok.1 h
    obtain ⟨⟨us, p2⟩, h2, h⟩ := Outcome.bind_eq_ok.1 h
    injection h with h
    injection h with h3 h4
    subst h3 h4
    obtain ⟨e1, l1⟩ := word_fwd hp _ _ h1
    obtain ⟨⟨e2, e3⟩, l2⟩ := ih l1 _ _ h2
    exact ⟨⟨by simp [e2], Many.cons e1 e3⟩, l2⟩

theorem decls_bwd {bs} : ∀ {n pos}, pos ≤ bs.length →
    Bwd bs pos (readFuncDecls bs n pos) (fun inp ts rest => ts.length = n ∧ Many Word inp ts rest) := by
  intro n
  induction n with
  | zero =>
    intro pos hp ts rest h
    obtain ⟨h1, h2⟩ := h
    have := List.length_eq_zero_iff.mp h1
    subst this
    cases h2
    exact ⟨pos, rfl, rfl, hp⟩
  | succ n ih =>
    intro pos hp ts rest h
    obtain ⟨h1, h2⟩ := h
    cases h2 with
    | nil => simp at h1
    | cons hx hxs =>
      obtain ⟨p1, e1, d1, l1⟩ := word_bwd hp _ _ hx
      subst d1
      obtain ⟨p2, e2, d2, l2⟩ := ih l1 _ _ ⟨by simpa using h1, hxs⟩
      refine ⟨p2, ?_, d2, l2⟩
      unfold readFuncDecls
      rw [e1]; simp only [Outcome.ok_bind]
      rw [e2]; rfl

/-- Positions are determined by what is left. -/
theorem drop_length {bs : List Byte} {p : Nat} (h : p ≤ bs.length) : p = bs.length - (bs.drop p).length := by
  rw [List.length_drop]; omega

theorem sumNregs_slots_aux (ts : List Byte) (n : U32) :
    ts.foldl (fun n ty => (n.setWidth 64 + nreg ty).setWidth 32) n = n + slotSum ts := by
  induction ts generalizing n with
  | nil => simp [slotSum]
  | cons t ts ih =>
    rw [List.foldl_cons, ih]
    have h1 : ∀ t : Byte, (nreg t).setWidth 32 = BitVec.ofInt 32 (slotsOf t) := by
      intro t; revert t; decide +kernel
    have h2 : ((n.setWidth 64 + nreg t).setWidth 32 : U32) = n + (nreg t).setWidth 32 := by
      rw [BitVec.setWidth_add _ _ (by omega), BitVec.setWidth_setWidth_of_le _ (by omega), BitVec.setWidth_eq]
    rw [h2, h1]
    unfold slotSum
    rw [List.map_cons, List.sum_cons, BitVec.ofInt_add, BitVec.add_assoc]

theorem sumNregs_slots (ts : List Byte) : sumNregs ts = slotSum ts := by
  unfold sumNregs
  rw [sumNregs_slots_aux, BitVec.zero_add]

/-- The function object a code entry gives. -/
theorem make_eq (ti n : Nat) (t : FuncType) (body : Nat) (v : U32) : Func.make ti n t body v =
    { typeIdx := ti, typesLen := n, type := t, body := body, varNregs := v, argNregs := slotSum t.args,
      retNregs := slotSum t.rets, nregs := v + slotSum t.args } := by
  unfold Func.make FuncType.argNregs FuncType.retNregs
  rw [sumNregs_slots, sumNregs_slots]

theorem _root_.Ab.Spec.Num.shrinks {inp v rest} (h : Num inp v rest) : rest.length ≤ inp.length := by
  obtain ⟨enc, _, _, rfl, _⟩ := h
  rw [List.length_append]; omega

/-! ### Sections of declarations -/

theorem typeSection_fwd {bs : List Byte} {m m' : Module} {pos p} {size : U32} (hp : pos ≤ bs.length)
    (h : decodeTypeSection bs m pos size = .ok (m', p)) :
    ∃ ts a, m' = ⟨m.types ++ ts, m.funcTypes, m.funcs⟩ ∧ Num (bs.drop pos) ts.length a ∧
      Many TypeItem a ts (bs.drop p) ∧ (bs.drop pos).length = size.toNat + (bs.drop p).length ∧
      p ≤ bs.length := by
  have hs := decodeTypeSection_safe bs m pos size
  rw [h] at hs
  unfold decodeTypeSection at h
  obtain ⟨⟨n, p1⟩, h1, h⟩ := Outcome.bind_eq_ok.1 h
  obtain ⟨⟨ts, p2⟩, h2, h⟩ := Outcome.bind_eq_ok.1 h
  simp only at h
  split at h
  · cases h
  · rename_i hc
    injection h with h
    injection h with h3 h4
    subst h3 h4
    obtain ⟨e1, l1⟩ := word_fwd hp _ _ h1
    obtain ⟨⟨e2, e3⟩, l2⟩ := types_fwd l1 _ _ h2
    refine ⟨ts, bs.drop p1, rfl, by rw [e2]; exact e1, e3, ?_, l2⟩
    have := hs.1
    have := hs.2
    rw [List.length_drop, List.length_drop]; omega

theorem typeSection_bwd {bs : List Byte} {m : Module} {pos} {size : U32} {ts a rest} (hp : pos ≤ bs.length)
    (h1 : Num (bs.drop pos) ts.length a) (h2 : Many TypeItem a ts rest)
    (h3 : (bs.drop pos).length = size.toNat + rest.length) :
    ∃ p, decodeTypeSection bs m pos size = .ok (⟨m.types ++ ts, m.funcTypes, m.funcs⟩, p) ∧
      rest = bs.drop p ∧ p ≤ bs.length := by
  obtain ⟨n, p1, e1, v1, d1, l1⟩ := num_bwd hp h1
  subst d1
  obtain ⟨p2, e2, d2, l2⟩ := types_bwd l1 ts rest ⟨rfl, h2⟩
  refine ⟨p2, ?_, d2, l2⟩
  subst d2
  unfold decodeTypeSection
  simp only [e1, Outcome.ok_bind, v1, e2]
  rw [List.length_drop, List.length_drop] at h3
  rw [if_neg (by omega)]

theorem funcSection_fwd {bs : List Byte} {m m' : Module} {pos p} {size : U32} (hp : pos ≤ bs.length)
    (h : decodeFuncSection bs m pos size = .ok (m', p)) :
    ∃ ts a, m' = ⟨m.types, m.funcTypes ++ ts, m.funcs⟩ ∧ Num (bs.drop pos) ts.length a ∧
      Many Word a ts (bs.drop p) ∧ (bs.drop pos).length = size.toNat + (bs.drop p).length ∧
      p ≤ bs.length := by
  have hs := decodeFuncSection_safe bs m pos size
  rw [h] at hs
  unfold decodeFuncSection at h
  obtain ⟨⟨n, p1⟩, h1, h⟩ := Outcome.bind_eq_ok.1 h
  obtain ⟨⟨ts, p2⟩, h2, h⟩ := Outcome.bind_eq_ok.1 h
  simp only at h
  split at h
  · cases h
  · rename_i hc
    injection h with h
    injection h with h3 h4
    subst h3 h4
    obtain ⟨e1, l1⟩ := word_fwd hp _ _ h1
    obtain ⟨⟨e2, e3⟩, l2⟩ := decls_fwd l1 _ _ h2
    refine ⟨ts, bs.drop p1, rfl, by rw [e2]; exact e1, e3, ?_, l2⟩
    have := hs.1
    have := hs.2
    rw [List.length_drop, List.length_drop]; omega

theorem funcSection_bwd {bs : List Byte} {m : Module} {pos} {size : U32} {ts a rest} (hp : pos ≤ bs.length)
    (h1 : Num (bs.drop pos) ts.length a) (h2 : Many Word a ts rest)
    (h3 : (bs.drop pos).length = size.toNat + rest.length) :
    ∃ p, decodeFuncSection bs m pos size = .ok (⟨m.types, m.funcTypes ++ ts, m.funcs⟩, p) ∧
      rest = bs.drop p ∧ p ≤ bs.length := by
  obtain ⟨n, p1, e1, v1, d1, l1⟩ := num_bwd hp h1
  subst d1
  obtain ⟨p2, e2, d2, l2⟩ := decls_bwd l1 ts rest ⟨rfl, h2⟩
  refine ⟨p2, ?_, d2, l2⟩
  subst d2
  unfold decodeFuncSection
  simp only [e1, Outcome.ok_bind, v1, e2]
  rw [List.length_drop, List.length_drop] at h3
  rw [if_neg (by omega)]

/-! ### Code entries -/

/-- What reading the two numbers of a code entry found. -/
theorem entry_fwd {bs : List Byte} {pos p1 p2} {size nregs : U32} (hp : pos ≤ bs.length)
    (h1 : readVaru32 bs pos = .ok (size, p1)) (h2 : readVaru32 bs p1 = .ok (nregs, p2)) :
    Entry (bs.drop pos) size.toNat (bs.drop p1) nregs (bs.drop p2) ∧ p1 ≤ bs.length ∧ p2 ≤ bs.length := by
  obtain ⟨e1, l1⟩ := word_fwd hp _ _ h1
  obtain ⟨e2, l2⟩ := word_fwd l1 _ _ h2
  exact ⟨⟨e1, e2⟩, l1, l2⟩

theorem entry_bwd {bs : List Byte} {pos size start nregs body} (hp : pos ≤ bs.length)
    (h : Entry (bs.drop pos) size start nregs body) :
    ∃ (sz : U32) (p1 p2 : Nat), readVaru32 bs pos = .ok (sz, p1) ∧ readVaru32 bs p1 = .ok (nregs, p2) ∧
      sz.toNat = size ∧ start = bs.drop p1 ∧ body = bs.drop p2 ∧ p1 ≤ bs.length ∧ p2 ≤ bs.length := by
  obtain ⟨sz, p1, e1, v1, d1, l1⟩ := num_bwd hp h.1
  have h2 := h.2
  rw [d1] at h2
  obtain ⟨p2, e2, d2, l2⟩ := word_bwd l1 _ _ h2
  exact ⟨sz, p1, p2, e1, e2, v1, d1, d2, l1, l2⟩

theorem typeFor_of {m : Module} {i ti t} (h : TypeOf m i ti t) : m.typeFor i = .ok (ti.toNat, t) := by
  unfold Module.typeFor
  rw [h.1]; simp only; rw [h.2]

theorem typeFor_none {m : Module} {i} (h : ¬ ∃ ti t, TypeOf m i ti t) : ∃ w, m.typeFor i = .trap w := by
  rcases typeFor_cases m i with ⟨ti, t, h1, h2, _⟩ | h'
  · exact absurd ⟨ti, t, h1, h2⟩ h
  · exact h'

theorem entries_fwd {bs : List Byte} {m : Module} : ∀ {n i pos fs p}, pos ≤ bs.length →
    decodeCodeEntries bs m n i pos = .ok (fs, p) →
    Bodies bs.length m i (bs.drop pos) fs (bs.drop p) ∧ fs.length = n ∧ p ≤ bs.length := by
  intro n
  induction n with
  | zero =>
    intro i pos fs p hp h
    unfold decodeCodeEntries at h
    injection h with h
    injection h with h1 h2
    subst h1 h2
    exact ⟨Bodies.nil _ _, rfl, hp⟩
  | succ n ih =>
    intro i pos fs p hp h
    unfold decodeCodeEntries at h
    obtain ⟨⟨f, p1⟩, h1, h⟩ := Outcome.bind_eq_ok.1 h
    obtain ⟨⟨fs', p2⟩, h2, h⟩ := Outcome.bind_eq_ok.1 h
    injection h with h
    injection h with h3 h4
    subst h3 h4
    unfold decodeCodeEntry at h1
    obtain ⟨⟨size, q1⟩, k1, h1⟩ := Outcome.bind_eq_ok.1 h1
    obtain ⟨⟨nregs, q2⟩, k2, h1⟩ := Outcome.bind_eq_ok.1 h1
    obtain ⟨q3, k3, h1⟩ := Outcome.bind_eq_ok.1 h1
    obtain ⟨⟨ti, t⟩, k4, h1⟩ := Outcome.bind_eq_ok.1 h1
    injection h1 with h1
    injection h1 with h5 h6
    subst h5 h6
    unfold reposition at k3
    split at k3
    · next hle =>
      injection k3 with k3
      subst k3
      obtain ⟨he, l1, l2⟩ := entry_fwd hp k1 k2
      obtain ⟨r1, r2, r3⟩ := ih hle h2
      rcases typeFor_cases m i with ⟨ti', t', g1, g2, g3⟩ | ⟨w, g3⟩
      · skip
        rw [g3] at k4
        injection k4 with k4
        injection k4 with k5 k6
        subst k5 k6
        refine ⟨?_, by simp [r2], r3⟩
        rw [make_eq]
        have hb : q2 = bs.length - (bs.drop q2).length := drop_length l2
        rw [hb]
        refine Bodies.cons he (by rw [List.length_drop]; omega) ⟨g1, g2⟩ ?_
        rw [drop_add']
        exact r1
      · skip
        rw [g3] at k4; cases k4
    · cases k3

theorem entry_ok {bs : List Byte} {m : Module} {i pos size start nregs body ti t} (hp : pos ≤ bs.length)
    (he : Entry (bs.drop pos) size start nregs body) (hs : size ≤ start.length) (ht : TypeOf m i ti t) :
    ∃ p, decodeCodeEntry bs m i pos = .ok (Func.make ti.toNat m.types.length t (bs.length - body.length) nregs, p) ∧
      start.drop size = bs.drop p ∧ p ≤ bs.length := by
  obtain ⟨sz, p1, p2, e1, e2, v1, d1, d2, l1, l2⟩ := entry_bwd hp he
  subst d1 d2
  rw [List.length_drop] at hs
  refine ⟨p1 + size, ?_, by rw [drop_add'], by omega⟩
  unfold decodeCodeEntry
  simp only [e1, Outcome.ok_bind, e2, v1]
  unfold reposition
  rw [if_pos (by omega)]
  simp only [Outcome.ok_bind, typeFor_of ht]
  rw [← drop_length l2]

theorem entries_bwd {bs : List Byte} {m : Module} {i inp fs rest} (h : Bodies bs.length m i inp fs rest) :
    ∀ {pos}, pos ≤ bs.length → inp = bs.drop pos →
    ∃ p, decodeCodeEntries bs m fs.length i pos = .ok (fs, p) ∧ rest = bs.drop p ∧ p ≤ bs.length := by
  induction h with
  | nil i inp => intro pos hp hi; exact ⟨pos, rfl, hi, hp⟩
  | cons he hs ht _ ih =>
    intro pos hp hi
    subst hi
    obtain ⟨p1, e1, d1, l1⟩ := entry_ok hp he hs ht
    obtain ⟨p2, e2, d2, l2⟩ := ih l1 d1
    refine ⟨p2, ?_, d2, l2⟩
    rw [List.length_cons]
    unfold decodeCodeEntries
    rw [e1]; simp only [Outcome.ok_bind]
    rw [e2]; simp only [Outcome.ok_bind, make_eq]

/-- Where a code section's entries end the process. -/
def EntriesDie (bs : List Byte) (m : Module) (n i : Nat) (inp : List Byte) : Prop :=
  ∃ fs d size start nregs body, Bodies bs.length m i inp fs d ∧ fs.length < n ∧
    Entry d size start nregs body ∧ (start.length < size ∨ ¬ ∃ ti t, TypeOf m (i + fs.length) ti t)

theorem entry_trap {bs : List Byte} {m : Module} {i pos w} (hp : pos ≤ bs.length)
    (h : decodeCodeEntry bs m i pos = .trap w) :
    ∃ size start nregs body, Entry (bs.drop pos) size start nregs body ∧
      (start.length < size ∨ ¬ ∃ ti t, TypeOf m i ti t) := by
  unfold decodeCodeEntry at h
  cases h1 : readVaru32 bs pos with
  | ok r =>
    obtain ⟨size, p1⟩ := r
    rw [h1] at h; simp only [Outcome.ok_bind] at h
    cases h2 : readVaru32 bs p1 with
    | ok r =>
      obtain ⟨nregs, p2⟩ := r
      rw [h2] at h; simp only [Outcome.ok_bind] at h
      obtain ⟨he, l1, l2⟩ := entry_fwd hp h1 h2
      refine ⟨_, _, _, _, he, ?_⟩
      unfold reposition at h
      split at h
      · right
        simp only [Outcome.ok_bind] at h
        rintro ⟨ti, t, ht⟩
        rw [typeFor_of ht] at h
        cases h
      · left
        rw [List.length_drop]; omega
    | trap v => exact absurd h2 (readVaru32_not_trap _ _ _)
    | throw v => rw [h2] at h; cases h
    | ub v => rw [h2] at h; cases h
    | fuel => rw [h2] at h; cases h
  | trap v => exact absurd h1 (readVaru32_not_trap _ _ _)
  | throw v => rw [h1] at h; cases h
  | ub v => rw [h1] at h; cases h
  | fuel => rw [h1] at h; cases h

theorem entry_dies {bs : List Byte} {m : Module} {i pos size start nregs body} (hp : pos ≤ bs.length)
    (he : Entry (bs.drop pos) size start nregs body)
    (hd : start.length < size ∨ ¬ ∃ ti t, TypeOf m i ti t) : ∃ w, decodeCodeEntry bs m i pos = .trap w := by
  obtain ⟨sz, p1, p2, e1, e2, v1, d1, d2, l1, l2⟩ := entry_bwd hp he
  subst d1 d2
  rw [List.length_drop] at hd
  unfold decodeCodeEntry
  simp only [e1, Outcome.ok_bind, e2, v1]
  unfold reposition
  by_cases hle : p1 + size ≤ bs.length
  · rw [if_pos hle]
    simp only [Outcome.ok_bind]
    rcases hd with hd | hd
    · omega
    · obtain ⟨w, hw⟩ := typeFor_none hd
      rw [hw]; exact ⟨w, rfl⟩
  · rw [if_neg hle]; exact ⟨_, rfl⟩

theorem entries_trap {bs : List Byte} {m : Module} {w} : ∀ {n i pos}, pos ≤ bs.length →
    decodeCodeEntries bs m n i pos = .trap w → EntriesDie bs m n i (bs.drop pos) := by
  intro n
  induction n with
  | zero => intro i pos hp h; cases h
  | succ n ih =>
    intro i pos hp h
    unfold decodeCodeEntries at h
    cases h1 : decodeCodeEntry bs m i pos with
    | ok r =>
      obtain ⟨f, p1⟩ := r
      have hone : decodeCodeEntries bs m 1 i pos = .ok ([f], p1) := by
        unfold decodeCodeEntries
        rw [h1]; rfl
      obtain ⟨hb, _, l1⟩ := entries_fwd hp hone
      rw [h1] at h; simp only [Outcome.ok_bind] at h
      have hdie : EntriesDie bs m n (i + 1) (bs.drop p1) := by
        cases h2 : decodeCodeEntries bs m n (i + 1) p1 with
        | trap v =>
          rw [h2] at h
          injection h with h
          subst h
          exact ih l1 h2
        | ok r => rw [h2] at h; cases h
        | throw v => rw [h2] at h; cases h
        | ub v => rw [h2] at h; cases h
        | fuel => rw [h2] at h; cases h
      obtain ⟨fs, d, size, start, nregs, body, g1, g2, g3, g4⟩ := hdie
      cases hb with
      | cons c1 c2 c3 c4 =>
        have hmid : ∀ {x y}, Bodies bs.length m (i + 1) x [] y → x = y := by
          intro x y hxy; cases hxy; rfl
        rw [← hmid c4] at g1
        refine ⟨_ :: fs, d, size, start, nregs, body, Bodies.cons c1 c2 c3 g1, by simp; omega, g3, ?_⟩
        rw [List.length_cons, show i + (fs.length + 1) = i + 1 + fs.length by omega]
        exact g4
    | trap v =>
      obtain ⟨size, start, nregs, body, he, hd⟩ := entry_trap hp h1
      exact ⟨[], _, size, start, nregs, body, Bodies.nil _ _, by simp, he, hd⟩
    | throw v => rw [h1] at h; cases h
    | ub v => rw [h1] at h; cases h
    | fuel => rw [h1] at h; cases h

theorem entries_dies_aux {bs : List Byte} {m : Module} {i inp fs d} (h : Bodies bs.length m i inp fs d) :
    ∀ {n pos size start nregs body}, pos ≤ bs.length → inp = bs.drop pos → fs.length < n →
      Entry d size start nregs body → (start.length < size ∨ ¬ ∃ ti t, TypeOf m (i + fs.length) ti t) →
      ∃ w, decodeCodeEntries bs m n i pos = .trap w := by
  induction h with
  | nil i inp =>
    intro n pos size start nregs body hp hi hn he hd
    subst hi
    obtain ⟨w, hw⟩ := entry_dies (i := i) hp he hd
    cases n with
    | zero => simp at hn
    | succ n =>
      refine ⟨w, ?_⟩
      unfold decodeCodeEntries
      rw [hw]; rfl
  | @cons i inp size1 start1 nregs1 body1 ti t fs rest he hs ht _ ih =>
    intro n pos size start nregs body hp hi hn he' hd
    subst hi
    obtain ⟨p1, e1, d1, l1⟩ := entry_ok hp he hs ht
    cases n with
    | zero => simp at hn
    | succ n =>
      rw [List.length_cons] at hn hd
      obtain ⟨w, hw⟩ := ih (n := n) l1 d1 (by omega) he'
        (by rw [show i + 1 + fs.length = i + (fs.length + 1) by omega]; exact hd)
      refine ⟨w, ?_⟩
      unfold decodeCodeEntries
      rw [e1]; simp only [Outcome.ok_bind]
      rw [hw]; rfl

/-! ### Sections -/

theorem codeName {c : Byte} (h : ¬ SEC_LAST < c) : c.toNat ≤ 11 := by
  have := BitVec.not_lt.1 h
  simpa [SEC_LAST, BitVec.le_def] using this

theorem codeName' {c : Byte} (h : c.toNat ≤ 11) : ¬ SEC_LAST < c := by
  intro h2
  have : SEC_LAST.toNat < c.toNat := BitVec.lt_def.1 h2
  simp [SEC_LAST] at this
  omega

theorem section_fwd {bs : List Byte} {m m' : Module} {pos p} (_hp : pos ≤ bs.length)
    (h : decodeSection bs m pos = .ok (m', p)) :
    SectionItem bs.length m (bs.drop pos) m' (bs.drop p) ∧ p ≤ bs.length := by
  unfold decodeSection at h
  replace h := Outcome.bind_eq_ok.1 h
  obtain ⟨⟨c, p1⟩, h1, h⟩ := h
  replace h := Outcome.bind_eq_ok.1 h
  obtain ⟨⟨size, p2⟩, h2, h⟩ := h
  unfold readSectionCode at h1
  replace h1 := Outcome.bind_eq_ok.1 h1
  obtain ⟨⟨c', p1'⟩, hb, h1⟩ := h1
  simp only at h1
  split at h1
  · cases h1
  injection h1 with h1
  injection h1 with k1 k2
  subst k1 k2
  obtain ⟨e1, l1⟩ := byte_fwd _ _ hb
  obtain ⟨e2, l2⟩ := word_fwd l1 _ _ h2
  simp only at h
  split at h
  · next hc =>
    obtain ⟨ts, a, rfl, g1, g2, g3, g4⟩ := typeSection_fwd l2 h
    rw [e1, hc]
    exact ⟨SectionItem.types ⟨_, _, a, e2, g1, g2, g3⟩, g4⟩
  · split at h
    · next hc =>
      obtain ⟨ts, a, rfl, g1, g2, g3, g4⟩ := funcSection_fwd l2 h
      rw [e1, hc]
      exact ⟨SectionItem.decls ⟨_, _, a, e2, g1, g2, g3⟩, g4⟩
    · split at h
      · next hc =>
        unfold decodeCodeSection at h
        replace h := Outcome.bind_eq_ok.1 h
        obtain ⟨⟨n, p3⟩, h3, h⟩ := h
        simp only at h
        split at h
        · cases h
        next hn =>
        replace h := Outcome.bind_eq_ok.1 h
        obtain ⟨⟨fs, p4⟩, h4, h⟩ := h
        injection h with h
        injection h with h5 h6
        subst h5 h6
        obtain ⟨e3, l3⟩ := word_fwd l2 _ _ h3
        obtain ⟨g1, g2, g3⟩ := entries_fwd l3 h4
        have hn' : n.toNat = m.funcTypes.length := Classical.byContradiction hn
        rw [e1, hc]
        refine ⟨SectionItem.code e2 (by rw [← hn']; exact e3) g1 (by rw [g2, hn']), g3⟩
      · cases h

/-- Reading the code and the size of a section. -/
theorem sectionHead_bwd {bs : List Byte} {pos c a size b} (hp : pos ≤ bs.length) (hd : bs.drop pos = c :: a)
    (hc : c.toNat ≤ 11) (h : Num a size b) :
    ∃ (sz : U32) (p1 p2 : Nat), readSectionCode bs pos = .ok (c, p1) ∧ readVaru32 bs p1 = .ok (sz, p2) ∧
      sz.toNat = size ∧ b = bs.drop p2 ∧ p2 ≤ bs.length := by
  obtain ⟨p1, e1, d1, l1⟩ := byte_bwd hp c a hd
  subst d1
  obtain ⟨sz, p2, e2, v2, d2, l2⟩ := num_bwd l1 h
  refine ⟨sz, p1, p2, ?_, e2, v2, d2, l2⟩
  unfold readSectionCode
  rw [e1]; simp only [Outcome.ok_bind]
  rw [if_neg (codeName' hc)]

theorem section_bwd {bs : List Byte} {m m' : Module} {pos inp rest} (hp : pos ≤ bs.length)
    (hi : bs.drop pos = inp) (h : SectionItem bs.length m inp m' rest) :
    ∃ p, decodeSection bs m pos = .ok (m', p) ∧ rest = bs.drop p ∧ p ≤ bs.length ∧ pos < p := by
  have key : ∃ p, decodeSection bs m pos = .ok (m', p) ∧ rest = bs.drop p ∧ p ≤ bs.length := by
    cases h with
    | types h =>
      obtain ⟨size, a, b, h1, h2, h3, h4⟩ := h
      obtain ⟨sz, p1, p2, e1, e2, v2, d2, l2⟩ := sectionHead_bwd hp hi (by decide) h1
      subst d2 v2
      obtain ⟨p3, e3, d3, l3⟩ := typeSection_bwd (m := m) l2 h2 h3 h4
      refine ⟨p3, ?_, d3, l3⟩
      unfold decodeSection
      simp only [e1, Outcome.ok_bind, e2]
      rw [if_pos (by decide), e3]
    | decls h =>
      obtain ⟨size, a, b, h1, h2, h3, h4⟩ := h
      obtain ⟨sz, p1, p2, e1, e2, v2, d2, l2⟩ := sectionHead_bwd hp hi (by decide) h1
      subst d2 v2
      obtain ⟨p3, e3, d3, l3⟩ := funcSection_bwd (m := m) l2 h2 h3 h4
      refine ⟨p3, ?_, d3, l3⟩
      unfold decodeSection
      simp only [e1, Outcome.ok_bind, e2]
      rw [if_neg (by decide), if_pos (by decide), e3]
    | code h1 h2 h3 h4 =>
      obtain ⟨sz, p1, p2, e1, e2, v2, d2, l2⟩ := sectionHead_bwd hp hi (by decide) h1
      subst d2 v2
      obtain ⟨n, p3, e3, v3, d3, l3⟩ := num_bwd l2 h2
      obtain ⟨p4, e4, d4, l4⟩ := entries_bwd h3 l3 d3
      rw [h4] at e4
      refine ⟨p4, ?_, d4, l4⟩
      unfold decodeSection
      simp only [e1, Outcome.ok_bind, e2]
      rw [if_neg (by decide), if_neg (by decide), if_pos (by decide)]
      unfold decodeCodeSection
      simp only [e3, Outcome.ok_bind, v3]
      rw [if_neg (by simp), e4]; rfl
  obtain ⟨p, h1, h2, h3⟩ := key
  have := decodeSection_safe bs m pos
  rw [h1] at this
  exact ⟨p, h1, h2, h3, this.1⟩

theorem section_trap {bs : List Byte} {m : Module} {pos w} (hp : pos ≤ bs.length)
    (h : decodeSection bs m pos = .trap w) : Deadly bs.length m (bs.drop pos) := by
  obtain ⟨c, t, hd, hc, n1, n2⟩ := decodeSection_trap h
  obtain ⟨p1, e1, d1, l1⟩ := byte_bwd hp c t hd
  unfold decodeSection readSectionCode at h
  simp only [e1, Outcome.ok_bind, if_neg (codeName' hc)] at h
  cases h2 : readVaru32 bs p1 with
  | ok r =>
    obtain ⟨size, p2⟩ := r
    obtain ⟨e2, l2⟩ := word_fwd l1 _ _ h2
    rw [h2] at h; simp only [Outcome.ok_bind] at h
    rw [if_neg n1, if_neg n2] at h
    rw [hd, d1]
    split at h
    · next hcode =>
      rw [hcode]
      unfold decodeCodeSection at h
      cases h3 : readVaru32 bs p2 with
      | ok r =>
        obtain ⟨n, p3⟩ := r
        obtain ⟨e3, l3⟩ := word_fwd l2 _ _ h3
        rw [h3] at h; simp only [Outcome.ok_bind] at h
        split at h
        · cases h
        next hn =>
        have hn' : n.toNat = m.funcTypes.length := Classical.byContradiction hn
        cases h4 : decodeCodeEntries bs m n.toNat 0 p3 with
        | trap v =>
          obtain ⟨fs, d, size', start, nregs, body, g1, g2, g3, g4⟩ := entries_trap l3 h4
          rw [Nat.zero_add] at g4
          exact Deadly.entry e2 (by rw [← hn']; exact e3) g1 (by rw [← hn']; exact g2) g3 g4
        | ok r => rw [h4] at h; cases h
        | throw v => rw [h4] at h; cases h
        | ub v => rw [h4] at h; cases h
        | fuel => rw [h4] at h; cases h
      | trap v => exact absurd h3 (readVaru32_not_trap _ _ _)
      | throw v => rw [h3] at h; cases h
      | ub v => rw [h3] at h; cases h
      | fuel => rw [h3] at h; cases h
    · next hcode => exact Deadly.unsupported hc n1 n2 hcode e2
  | trap v => exact absurd h2 (readVaru32_not_trap _ _ _)
  | throw v => rw [h2] at h; cases h
  | ub v => rw [h2] at h; cases h
  | fuel => rw [h2] at h; cases h

theorem section_dies {bs : List Byte} {m : Module} {pos inp} (hp : pos ≤ bs.length) (hi : bs.drop pos = inp)
    (h : Deadly bs.length m inp) : (∃ w, decodeSection bs m pos = .trap w) ∧ pos ≠ bs.length := by
  constructor
  · cases h with
    | unsupported hc n1 n2 n3 h1 =>
      obtain ⟨sz, p1, p2, e1, e2, v2, d2, l2⟩ := sectionHead_bwd hp hi hc h1
      unfold decodeSection
      simp only [e1, Outcome.ok_bind, e2]
      rw [if_neg (show ¬ _ = SEC_TYPE from n1), if_neg (show ¬ _ = SEC_FUNC from n2),
        if_neg (show ¬ _ = SEC_CODE from n3)]
      exact ⟨_, rfl⟩
    | entry h1 h2 h3 h4 h5 h6 =>
      obtain ⟨sz, p1, p2, e1, e2, v2, d2, l2⟩ := sectionHead_bwd hp hi (by decide) h1
      subst d2
      obtain ⟨n, p3, e3, v3, d3, l3⟩ := num_bwd l2 h2
      obtain ⟨w, hw⟩ := entries_dies_aux h3 l3 d3 h4 h5 (by rw [Nat.zero_add]; exact h6)
      refine ⟨w, ?_⟩
      unfold decodeSection
      simp only [e1, Outcome.ok_bind, e2]
      rw [if_neg (by decide), if_neg (by decide), if_pos (by decide)]
      unfold decodeCodeSection
      simp only [e3, Outcome.ok_bind, v3]
      rw [if_neg (by simp), hw]; rfl
  · rintro rfl
    rw [List.drop_length] at hi
    subst hi
    cases h

/-! ### The whole file -/

theorem loop_fwd {bs : List Byte} {f m pos m'} (hp : pos ≤ bs.length) (h : compileLoop bs f m pos = .ok m') :
    Sections bs.length m (bs.drop pos) m' [] := by
  induction f generalizing m pos with
  | zero => cases h
  | succ f ih =>
    rw [compileLoop] at h
    split at h
    · next he =>
      injection h with h
      subst h he
      rw [List.drop_length]
      exact Sections.nil _ _
    · obtain ⟨⟨m1, p1⟩, h1, h2⟩ := Outcome.bind_eq_ok.1 h
      obtain ⟨g1, g2⟩ := section_fwd hp h1
      exact Sections.cons g1 (ih g2 h2)

theorem loop_bwd {bs : List Byte} {m inp m' rest} (h : Sections bs.length m inp m' rest) :
    ∀ {pos f}, pos ≤ bs.length → bs.drop pos = inp → bs.length - pos < f →
      ∃ p f', rest = bs.drop p ∧ p ≤ bs.length ∧ bs.length - p < f' ∧
        compileLoop bs f m pos = compileLoop bs f' m' p := by
  induction h with
  | nil m inp => intro pos f hp hi hf; exact ⟨pos, f, hi.symm, hp, hf, rfl⟩
  | cons h1 _ ih =>
    intro pos f hp hi hf
    obtain ⟨p1, e1, d1, l1, lt⟩ := section_bwd hp hi h1
    cases f with
    | zero => omega
    | succ f =>
      obtain ⟨p, f', g1, g2, g3, g4⟩ := ih (f := f) l1 d1.symm (by omega)
      exact ⟨p, f', g1, g2, g3, by rw [compileLoop_step e1 (by omega)]; exact g4⟩

theorem loop_trap {bs : List Byte} {f m pos w} (hp : pos ≤ bs.length) (h : compileLoop bs f m pos = .trap w) :
    ∃ m' r, Sections bs.length m (bs.drop pos) m' r ∧ Deadly bs.length m' r := by
  induction f generalizing m pos with
  | zero => cases h
  | succ f ih =>
    rw [compileLoop] at h
    split at h
    · cases h
    · cases hd : decodeSection bs m pos with
      | ok r =>
        obtain ⟨m1, p1⟩ := r
        rw [hd] at h
        obtain ⟨g1, g2⟩ := section_fwd hp hd
        obtain ⟨m', r, g3, g4⟩ := ih g2 h
        exact ⟨m', r, Sections.cons g1 g3, g4⟩
      | trap v => exact ⟨m, _, Sections.nil _ _, section_trap hp hd⟩
      | throw _ => rw [hd] at h; cases h
      | ub _ => rw [hd] at h; cases h
      | fuel => rw [hd] at h; cases h

theorem header_at (rest : List Byte) : readHeader (header ++ rest) = .ok 8 ∧ (header ++ rest).drop 8 = rest ∧
    8 ≤ (header ++ rest).length := by
  refine ⟨readHeader_at ⟨[], rest, rfl, rfl⟩, rfl, ?_⟩
  rw [List.length_append]; simp [header]

theorem compile_loads {bs : List Byte} {lm : Module} : compile bs = .ok lm ↔ Loads bs lm := by
  constructor
  · intro h
    unfold compile at h
    rcases readHeader_cases bs with ⟨e, hl⟩ | ⟨m, e⟩
    · obtain ⟨_, _, hb⟩ := readHeader_ok e
      rw [e] at h
      exact ⟨_, hb, loop_fwd hl h⟩
    · rw [e] at h; cases h
  · rintro ⟨rest, hb, h⟩
    subst hb
    obtain ⟨h1, h2, h3⟩ := header_at rest
    obtain ⟨p, f', g1, g2, g3, g4⟩ := loop_bwd (f := (header ++ rest).length + 1) h h3 h2 (by omega)
    unfold compile
    rw [h1]
    refine Eq.trans g4 ?_
    have : p = (header ++ rest).length := by
      have := congrArg List.length g1
      rw [List.length_drop] at this
      simp only [List.length_nil] at this
      omega
    cases f' with
    | zero => omega
    | succ f' => exact compileLoop_end this

theorem compile_aborts {bs : List Byte} : (∃ w, compile bs = .trap w) ↔ Aborts bs := by
  constructor
  · rintro ⟨w, h⟩
    unfold compile at h
    rcases readHeader_cases bs with ⟨e, hl⟩ | ⟨m, e⟩
    · obtain ⟨_, _, hb⟩ := readHeader_ok e
      rw [e] at h
      obtain ⟨m', r, g1, g2⟩ := loop_trap hl h
      exact ⟨_, m', r, hb, g1, g2⟩
    · rw [e] at h; cases h
  · rintro ⟨rest, m, r, hb, h, hd⟩
    subst hb
    obtain ⟨h1, h2, h3⟩ := header_at rest
    obtain ⟨p, f', g1, g2, g3, g4⟩ := loop_bwd (f := (header ++ rest).length + 1) h h3 h2 (by omega)
    obtain ⟨⟨w, hw⟩, hne⟩ := section_dies g2 g1.symm hd
    unfold compile
    rw [h1]
    refine ⟨w, Eq.trans g4 ?_⟩
    cases f' with
    | zero => omega
    | succ f' => rw [compileLoop, if_neg hne, hw]; rfl

end Ab
