import Verif.Spec.Rc
/-! C32: reference-counted handles free exactly once. -/
namespace Ab.RC

open Spec (refs RcCareful RcAlways handlesAfter)

/-- The heap entry of an object with `n` references. -/
def rep (n : Nat) : Option Nat := if n = 0 then none else some n

/-- Counters equal reference counts; objects without references are gone. -/
structure Inv (s : St) : Prop where
  cnt : ∀ a, s.heap.objs a = rep (refs s a)
  fresh : ∀ a, s.heap.next ≤ a → refs s a = 0

theorem inv_init : Inv St.init := ⟨fun _ => rfl, fun _ _ => rfl⟩

/-- 0 or 1. -/
def ind (p : Prop) [Decidable p] : Nat := if p then 1 else 0

theorem refs_push (s : St) (h : Heap) (v : Option Nat) (a : Nat) :
    refs ⟨h, s.hs ++ [some v]⟩ a = refs s a + ind (v = some a) := by
  unfold refs ind
  rw [List.count_append]
  congr 1
  by_cases hv : v = some a <;> simp [List.count_cons, hv]

theorem get_lt {s : St} {i : Nat} {v} (h : s.hs[i]? = some v) : ∃ hi : i < s.hs.length, s.hs[i] = v :=
  List.getElem?_eq_some_iff.mp h

theorem refs_set (s : St) (h : Heap) {i : Nat} {v : Option Nat} (hi : s.hs[i]? = some (some v))
    (w : Option (Option Nat)) (a : Nat) :
    refs ⟨h, s.hs.set i w⟩ a = refs s a - ind (v = some a) + ind (w = some (some a)) := by
  unfold refs ind
  obtain ⟨hlt, he⟩ := get_lt hi
  simp only
  rw [List.count_set hlt, he]
  by_cases h1 : v = some a <;> by_cases h2 : w = some (some a) <;> simp [h1, h2]

theorem refs_pos {s : St} {i a : Nat} (hi : s.hs[i]? = some (some (some a))) : 0 < refs s a := by
  unfold refs
  rw [List.count_pos_iff]
  exact List.mem_of_getElem? hi

theorem refs_le (s : St) (a : Nat) : refs s a ≤ s.hs.length := List.count_le_length

theorem incref_ok {h : Heap} {a n : Nat} (ho : h.objs a = rep n) (hn : 0 < n) (hb : n + 1 < 2^31) :
    incref h a = .ok (h.set a (rep (n + 1))) := by
  unfold incref
  have : rep n = some n := by unfold rep; rw [if_neg (by omega)]
  simp only [ho, this]
  rw [if_pos hb]; rfl

theorem decref_ok {h : Heap} {a n : Nat} (ho : h.objs a = rep n) (hn : 0 < n) :
    decref h a = .ok (h.set a (rep (n - 1))) := by
  unfold decref
  match n with
  | 1 => simp only [ho, rep]; rfl
  | n + 2 => simp only [ho, rep]; rfl

/-- `xdecref` removes one reference from the count. -/
theorem xdecref_ok {h : Heap} {f : Nat → Nat} (ho : ∀ a, h.objs a = rep (f a)) (v : Option Nat)
    (hv : ∀ a, v = some a → 0 < f a) :
    ∃ h', xdecref h v = .ok h' ∧ h'.next = h.next ∧ ∀ a, h'.objs a = rep (f a - ind (v = some a)) := by
  cases v with
  | none => exact ⟨h, rfl, rfl, by intro a; simp [ind, ho]⟩
  | some b =>
    refine ⟨_, decref_ok (ho b) (hv b rfl), rfl, ?_⟩
    intro a
    by_cases hab : a = b
    · subst hab; simp [Heap.set, ind]
    · have : ¬ b = a := fun hh => hab hh.symm
      simp [Heap.set, ind, hab, this, ho]

/-- `xincref` adds one. -/
theorem xincref_ok {h : Heap} {f : Nat → Nat} (ho : ∀ a, h.objs a = rep (f a)) (v : Option Nat)
    (hv : ∀ a, v = some a → 0 < f a ∧ f a + 1 < 2^31) :
    ∃ h', xincref h v = .ok h' ∧ h'.next = h.next ∧ ∀ a, h'.objs a = rep (f a + ind (v = some a)) := by
  cases v with
  | none => exact ⟨h, rfl, rfl, by intro a; simp [ind, ho]⟩
  | some b =>
    refine ⟨_, incref_ok (ho b) (hv b rfl).1 (hv b rfl).2, rfl, ?_⟩
    intro a
    by_cases hab : a = b
    · subst hab; simp [Heap.set, ind]
    · have : ¬ b = a := fun hh => hab hh.symm
      simp [Heap.set, ind, hab, this, ho]

theorem St.get_eq {s : St} {i : Nat} {v} (h : s.hs[i]? = some (some v)) : s.get i = .ok v := by
  simp [St.get, h]

theorem step_spec {s : St} {op : Op} (I : Inv s) (hc : RcCareful s op) :
    ∃ s', step s op = .ok s' ∧ Inv s' ∧ s'.hs = handlesAfter s op := by
  obtain ⟨hlen, hc⟩ := hc
  have hfr : ∀ {i a : Nat}, s.hs[i]? = some (some (some a)) → a < s.heap.next := by
    intro i a hi
    rcases Nat.lt_or_ge a s.heap.next with h | h
    · exact h
    · have := I.fresh a h; have := refs_pos hi; omega
  cases op with
  | null =>
    refine ⟨_, rfl, ⟨?_, ?_⟩, rfl⟩
    · intro a; rw [refs_push]; simp [ind, I.cnt]
    · intro a ha; rw [refs_push]; simp [ind, I.fresh a ha]
  | mk =>
    have h0 := I.fresh s.heap.next (Nat.le_refl _)
    refine ⟨⟨(Heap.set { (s.heap.set s.heap.next (some 0)) with next := s.heap.next + 1 } s.heap.next
      (some 1)), s.hs ++ [some (some s.heap.next)]⟩, ?_, ⟨?_, ?_⟩, rfl⟩
    · simp [step, xincref, incref, Heap.set]
    · intro a
      rw [refs_push]
      by_cases ha : a = s.heap.next
      · subst ha; simp [Heap.set, ind, h0, rep]
      · have : ¬ s.heap.next = a := fun hh => ha hh.symm
        simp [Heap.set, ind, ha, this, I.cnt]
    · intro a ha
      have ha' : s.heap.next + 1 ≤ a := ha
      have : ¬ s.heap.next = a := by omega
      rw [refs_push, I.fresh a (by omega)]; simp [ind, this]
  | copy i =>
    obtain ⟨v, hi⟩ := hc
    obtain ⟨h', hx, hn, ho⟩ := xincref_ok I.cnt v (by
      intro a ha; subst ha
      exact ⟨refs_pos hi, by have := refs_le s a; omega⟩)
    refine ⟨_, by simp only [step, St.get_eq hi, Outcome.ok_bind, hx]; rfl, ⟨?_, ?_⟩, by simp [handlesAfter, hi]⟩
    · intro a; rw [refs_push]; exact ho a
    · intro a ha
      rw [refs_push, I.fresh a (by rw [← hn]; exact ha)]
      have : ¬ v = some a := by
        intro hh; subst hh; have := hfr hi; simp only [hn] at ha; omega
      simp [ind, this]
  | fromPtr i =>
    obtain ⟨v, hi⟩ := hc
    obtain ⟨h', hx, hn, ho⟩ := xincref_ok I.cnt v (by
      intro a ha; subst ha
      exact ⟨refs_pos hi, by have := refs_le s a; omega⟩)
    refine ⟨_, by simp only [step, St.get_eq hi, Outcome.ok_bind, hx]; rfl, ⟨?_, ?_⟩, by simp [handlesAfter, hi]⟩
    · intro a; rw [refs_push]; exact ho a
    · intro a ha
      rw [refs_push, I.fresh a (by rw [← hn]; exact ha)]
      have : ¬ v = some a := by
        intro hh; subst hh; have := hfr hi; simp only [hn] at ha; omega
      simp [ind, this]
  | assign i j =>
    obtain ⟨⟨vi, hi⟩, ⟨vj, hj⟩, hno⟩ := hc
    obtain ⟨h1, hx1, hn1, ho1⟩ := xdecref_ok I.cnt vi (by intro a ha; subst ha; exact refs_pos hi)
    obtain ⟨h2, hx2, hn2, ho2⟩ := xincref_ok ho1 vj (by
      intro a ha; subst ha
      have hp := refs_pos hj
      have hle := refs_le s a
      by_cases hv : vi = some a
      · subst hv
        have := hno a hi hj
        simp [ind]; omega
      · simp [ind, hv]; omega)
    refine ⟨_, by simp only [step, St.get_eq hi, St.get_eq hj, Outcome.ok_bind, hx1, hx2]; rfl,
      ⟨?_, ?_⟩, by simp [handlesAfter, hj]⟩
    · intro a; rw [refs_set s h2 hi]; rw [ho2]; simp
    · intro a ha
      rw [refs_set s h2 hi, I.fresh a (by rw [← hn1, ← hn2]; exact ha)]
      have : ¬ vj = some a := by
        intro hh; subst hh; have := hfr hj; simp only [hn2, hn1] at ha; omega
      simp [ind, this]
  | assignPtr i j =>
    obtain ⟨⟨vi, hi⟩, ⟨vj, hj⟩, hno⟩ := hc
    obtain ⟨h1, hx1, hn1, ho1⟩ := xdecref_ok I.cnt vi (by intro a ha; subst ha; exact refs_pos hi)
    obtain ⟨h2, hx2, hn2, ho2⟩ := xincref_ok ho1 vj (by
      intro a ha; subst ha
      have hp := refs_pos hj
      have hle := refs_le s a
      by_cases hv : vi = some a
      · subst hv
        have := hno a hi hj
        simp [ind]; omega
      · simp [ind, hv]; omega)
    refine ⟨_, by simp only [step, St.get_eq hi, St.get_eq hj, Outcome.ok_bind, hx1, hx2]; rfl,
      ⟨?_, ?_⟩, by simp [handlesAfter, hj]⟩
    · intro a; rw [refs_set s h2 hi]; rw [ho2]; simp
    · intro a ha
      rw [refs_set s h2 hi, I.fresh a (by rw [← hn1, ← hn2]; exact ha)]
      have : ¬ vj = some a := by
        intro hh; subst hh; have := hfr hj; simp only [hn2, hn1] at ha; omega
      simp [ind, this]
  | moveAssign i j =>
    obtain ⟨⟨vi, hi⟩, ⟨vj, hj⟩⟩ := hc
    obtain ⟨h1, hx1, hn1, ho1⟩ := xdecref_ok I.cnt vi (by intro a ha; subst ha; exact refs_pos hi)
    have hj' : (⟨h1, s.hs.set i (some vj)⟩ : St).hs[j]? = some (some vj) := by
      show (s.hs.set i (some vj))[j]? = some (some vj)
      obtain ⟨hlt, _⟩ := get_lt hi
      rw [List.getElem?_set]
      split
      · simp [hlt]
      · exact hj
    refine ⟨⟨h1, (s.hs.set i (some vj)).set j (some none)⟩,
      by simp only [step, St.get_eq hi, St.get_eq hj, Outcome.ok_bind, hx1]; rfl,
      ⟨?_, ?_⟩, by simp [handlesAfter, hj]⟩
    · intro a
      have := refs_set ⟨h1, s.hs.set i (some vj)⟩ h1 hj' (some none) a
      rw [this, refs_set s h1 hi, ho1]
      by_cases hv : vj = some a <;> simp [ind, hv]
    · intro a ha
      have := refs_set ⟨h1, s.hs.set i (some vj)⟩ h1 hj' (some none) a
      rw [this, refs_set s h1 hi, I.fresh a (by rw [← hn1]; exact ha)]
      by_cases hv : vj = some a <;> simp [ind, hv]
  | clear i =>
    obtain ⟨v, hi⟩ := hc
    obtain ⟨h1, hx1, hn1, ho1⟩ := xdecref_ok I.cnt v (by intro a ha; subst ha; exact refs_pos hi)
    refine ⟨_, by simp only [step, St.get_eq hi, Outcome.ok_bind, hx1]; rfl, ⟨?_, ?_⟩, rfl⟩
    · intro a; rw [refs_set s h1 hi, ho1]; simp [ind]
    · intro a ha
      rw [refs_set s h1 hi, I.fresh a (by rw [← hn1]; exact ha)]; simp [ind]
  | destroy i =>
    obtain ⟨v, hi⟩ := hc
    obtain ⟨h1, hx1, hn1, ho1⟩ := xdecref_ok I.cnt v (by intro a ha; subst ha; exact refs_pos hi)
    refine ⟨_, by simp only [step, St.get_eq hi, Outcome.ok_bind, hx1]; rfl, ⟨?_, ?_⟩, rfl⟩
    · intro a; rw [refs_set s h1 hi, ho1]; simp [ind]
    · intro a ha
      rw [refs_set s h1 hi, I.fresh a (by rw [← hn1]; exact ha)]; simp [ind]
  | use i =>
    obtain ⟨a, hi⟩ := hc
    have : s.heap.objs a = some (refs s a) := by
      rw [I.cnt, rep, if_neg (by have := refs_pos hi; omega)]
    exact ⟨s, by simp [step, St.get_eq hi, this], I, rfl⟩

/-- C32, the part that holds. Every careful program runs to completion without undefined behaviour, its
handles alias exactly as plain pointer semantics says after every operation, and at every point an object
is alive exactly when some live handle refers to it, with its counter equal to the number of such
handles.  (So it is destroyed by the operation that removes its last handle, not before and not again.)
Missing: assigning to the only handle of an object a pointer to that same object, where it is false. -/
theorem C32_destroyed_with_last_handle_partial (ops : List Op) (hc : RcAlways RcCareful St.init ops) :
    ∃ s, run St.init ops = .ok s ∧
      (∀ a, s.heap.objs a = if refs s a = 0 then none else some (refs s a)) ∧
      (∀ op s', RcCareful s op → step s op = .ok s' → s'.hs = handlesAfter s op ∧
        ∀ a, (s.heap.objs a ≠ none ∧ s'.heap.objs a = none) ↔ (refs s a ≠ 0 ∧ refs s' a = 0)) := by
  have key : ∀ ops s, Inv s → RcAlways RcCareful s ops → ∃ s', run s ops = .ok s' ∧ Inv s' := by
    intro ops
    induction ops with
    | nil => intro s I _; exact ⟨s, rfl, I⟩
    | cons op ops ih =>
      intro s I hc
      obtain ⟨s1, h1, I1, -⟩ := step_spec I hc.1
      obtain ⟨s2, h2, I2⟩ := ih s1 I1 (hc.2 s1 h1)
      exact ⟨s2, by simp [run, h1, h2], I2⟩
  obtain ⟨s, hr, I⟩ := key ops _ inv_init hc
  refine ⟨s, hr, I.cnt, ?_⟩
  intro op s' hcar hst
  obtain ⟨s1, h1, I1, hh⟩ := step_spec I hcar
  rw [hst] at h1; cases h1
  refine ⟨hh, ?_⟩
  intro a
  rw [I.cnt, I1.cnt]
  unfold rep
  by_cases h1 : refs s a = 0 <;> by_cases h2 : refs s' a = 0 <;> simp [h1, h2]

/-- The hypothesis is met by a program with aliasing, self-move and reassignment. -/
example : RcAlways RcCareful St.init
    [.mk, .copy 0, .assign 0 1, .null, .assign 2 0, .moveAssign 1 1, .clear 0, .use 2, .mk, .assign 2 3,
     .destroy 2] := by
  refine ⟨⟨by decide, trivial⟩, ?_⟩; intro s h; cases h
  refine ⟨⟨by decide, ⟨_, rfl⟩⟩, ?_⟩; intro s h; cases h
  refine ⟨⟨by decide, ⟨_, rfl⟩, ⟨_, rfl⟩, ?_⟩, ?_⟩
  · rintro a ⟨⟩ _; decide
  intro s h; cases h
  refine ⟨⟨by decide, trivial⟩, ?_⟩; intro s h; cases h
  refine ⟨⟨by decide, ⟨_, rfl⟩, ⟨_, rfl⟩, ?_⟩, ?_⟩
  · rintro a ⟨⟩
  intro s h; cases h
  refine ⟨⟨by decide, ⟨_, rfl⟩, ⟨_, rfl⟩⟩, ?_⟩; intro s h; cases h
  refine ⟨⟨by decide, ⟨_, rfl⟩⟩, ?_⟩; intro s h; cases h
  refine ⟨⟨by decide, ⟨_, rfl⟩⟩, ?_⟩; intro s h; cases h
  refine ⟨⟨by decide, trivial⟩, ?_⟩; intro s h; cases h
  refine ⟨⟨by decide, ⟨_, rfl⟩, ⟨_, rfl⟩, ?_⟩, ?_⟩
  · intro a h1 h2 h3
    injection h1 with h1; injection h1 with h1; injection h1 with h1
    injection h2 with h2; injection h2 with h2; injection h2 with h2
    rw [← h1] at h2; exact absurd h2 (by decide)
  intro s h; cases h
  refine ⟨⟨by decide, ⟨_, rfl⟩⟩, ?_⟩; intro s h; cases h
  trivial

/-- C32 is false as stated: assigning the only handle of an object to itself deletes the object and then
uses it. -/
theorem C32_negation_self_assignment :
    run St.init [.mk, .assign 0 0] = .ub "incref of a deleted object" := rfl

/-- So does assigning it its own raw pointer. -/
theorem C32_negation_self_pointer_assignment :
    run St.init [.mk, .assignPtr 0 0] = .ub "incref of a deleted object" := rfl

end Ab.RC
