import Verif.Spec.Vec
/-! Reference counting in the persistent vector. -/
namespace Ab.PVec
open Spec

variable {T : Type}

/-! ### Sums -/

theorem sumTo_congr {f g : Nat → Nat} : ∀ {n : Nat}, (∀ b, b < n → f b = g b) → sumTo f n = sumTo g n
  | 0, _ => rfl
  | n + 1, h => by
    rw [sumTo, sumTo, sumTo_congr (fun b hb => h b (by omega)), h n (by omega)]

theorem sumTo_change {f g : Nat → Nat} {a : Nat} : ∀ {n : Nat}, a < n → (∀ b, b ≠ a → f b = g b) →
    sumTo f n + g a = sumTo g n + f a
  | 0, h, _ => absurd h (by omega)
  | n + 1, h, hfg => by
    rw [sumTo, sumTo]
    by_cases ha : a = n
    · subst ha
      rw [sumTo_congr (fun b hb => hfg b (by omega))]; omega
    · have := sumTo_change (n := n) (by omega) hfg
      rw [hfg n (fun e => ha e.symm)]; omega

theorem sumTo_ge {f : Nat → Nat} {a : Nat} : ∀ {n : Nat}, a < n → f a ≤ sumTo f n
  | 0, h => absurd h (by omega)
  | n + 1, h => by
    rw [sumTo]
    by_cases ha : a = n
    · subst ha; omega
    · have := sumTo_ge (f := f) (a := a) (n := n) (by omega); omega

theorem sumTo_ge2 {f : Nat → Nat} {a b : Nat} (hab : a ≠ b) : ∀ {n : Nat}, a < n → b < n → f a + f b ≤ sumTo f n
  | 0, h, _ => absurd h (by omega)
  | n + 1, ha, hb => by
    rw [sumTo]
    by_cases h1 : a = n
    · subst h1
      have := sumTo_ge (f := f) (a := b) (n := a) (by omega); omega
    · by_cases h2 : b = n
      · subst h2
        have := sumTo_ge (f := f) (a := a) (n := b) (by omega); omega
      · have := sumTo_ge2 (f := f) hab (n := n) (by omega) (by omega); omega

theorem sumTo_pos {f : Nat → Nat} : ∀ {n : Nat}, 0 < sumTo f n → ∃ b, b < n ∧ 0 < f b
  | 0, h => absurd h (by simp [sumTo])
  | n + 1, h => by
    rw [sumTo] at h
    by_cases hn : 0 < f n
    · exact ⟨n, by omega, hn⟩
    · obtain ⟨b, h1, h2⟩ := sumTo_pos (f := f) (n := n) (by omega)
      exact ⟨b, by omega, h2⟩

/-! ### The invariant -/

/-- The counter of `a`, zero if there is no such node. -/
def rcOf (h : Heap T) (a : Nat) : Nat := match h.cell a with | some n => n.rc | none => 0

/-- References held by the node at `b`. -/
def out (h : Heap T) (a b : Nat) : Nat := match h.cell b with | some n => slots n.body a | none => 0

theorem refs_eq (h : Heap T) (a : Nat) : refs h a = sumTo (out h a) h.next := rfl

/-- 1 at `c`. -/
def ind (c : Option Nat) (a : Nat) : Int := if c = some a then 1 else 0

/-- Levels: leaves are at 0, children one below; children have been allocated. -/
def TypedBody (L : Nat → Nat) (N : Nat) (a : Nat) : Body T → Prop
  | .leaf _ => L a = 0
  | .branch c => L a ≠ 0 ∧ ∀ j b, c j = some b → b < N ∧ L b + 1 = L a

/-- Counters are the references from live nodes plus `E`, an account of the others (which, in the middle of an
operation, may be negative); only nodes in `Z` have counter zero. -/
structure Inv (h : Heap T) (L : Nat → Nat) (E : Nat → Int) (Z : Nat → Prop) : Prop where
  bound : ∀ a, h.next ≤ a → h.cell a = none
  typed : ∀ a n, h.cell a = some n → TypedBody L h.next a n.body
  count : ∀ a, (rcOf h a : Int) = refs h a + E a
  pos   : ∀ a n, h.cell a = some n → n.rc = 0 → Z a

theorem Inv.lt {h : Heap T} {L E Z} (hi : Inv h L E Z) {a : Nat} {n : Node T} (ha : h.cell a = some n) :
    a < h.next := by
  rcases Nat.lt_or_ge a h.next with h1 | h1
  · exact h1
  · rw [hi.bound a h1] at ha; cases ha

theorem put_cell (h : Heap T) (a : Nat) (n : Option (Node T)) (x : Nat) :
    (h.put a n).cell x = if x = a then n else h.cell x := rfl

theorem put_next (h : Heap T) (a : Nat) (n : Option (Node T)) : (h.put a n).next = h.next := rfl

theorem out_put (h : Heap T) (a : Nat) (n : Option (Node T)) (x b : Nat) :
    out (h.put a n) x b = if b = a then (match n with | some n => slots n.body x | none => 0) else out h x b := by
  unfold out
  rw [put_cell]
  by_cases hb : b = a
  · rw [if_pos hb, if_pos hb]
  · rw [if_neg hb, if_neg hb]

/-- References after a cell is replaced. -/
theorem refs_put (h : Heap T) {a : Nat} (ha : a < h.next) (n : Option (Node T)) (x : Nat) :
    refs (h.put a n) x + out h x a = refs h x + (match n with | some n => slots n.body x | none => 0) := by
  have := sumTo_change (f := out (h.put a n) x) (g := out h x) (a := a) (n := h.next) ha
    (by intro b hb; rw [out_put, if_neg hb])
  rw [out_put, if_pos rfl] at this
  exact this

theorem rcOf_put (h : Heap T) (a : Nat) (n : Option (Node T)) (x : Nat) :
    rcOf (h.put a n) x = if x = a then (match n with | some n => n.rc | none => 0) else rcOf h x := by
  unfold rcOf
  rw [put_cell]
  by_cases hb : x = a
  · rw [if_pos hb, if_pos hb]
  · rw [if_neg hb, if_neg hb]

theorem rcOf_some {h : Heap T} {a : Nat} {n : Node T} (ha : h.cell a = some n) : rcOf h a = n.rc := by
  unfold rcOf; rw [ha]

theorem out_some {h : Heap T} {a : Nat} {n : Node T} (ha : h.cell a = some n) (x : Nat) :
    out h x a = slots n.body x := by
  unfold out; rw [ha]

theorem live_of_rc {h : Heap T} {a : Nat} (ha : 0 < rcOf h a) : ∃ n, h.cell a = some n := by
  unfold rcOf at ha
  cases hc : h.cell a with
  | none => rw [hc] at ha; exact absurd ha (by simp)
  | some n => exact ⟨n, rfl⟩

/-- Replacing a live node. -/
theorem Inv.put {h : Heap T} {L E Z} (hi : Inv h L E Z) {a : Nat} {n : Node T} (ha : h.cell a = some n)
    (m : Node T) (ht : TypedBody L h.next a m.body) {E' : Nat → Int} {Z' : Nat → Prop}
    (hE : ∀ x, E' x = E x + slots n.body x - slots m.body x + (if x = a then (m.rc : Int) - n.rc else 0))
    (hZ : ∀ x, x ≠ a → Z x → Z' x) (hZa : m.rc = 0 → Z' a) :
    Inv (h.put a (some m)) L E' Z' := by
  have hlt := hi.lt ha
  refine ⟨?_, ?_, ?_, ?_⟩
  · intro x hx
    have hx' : h.next ≤ x := hx
    rw [put_cell, if_neg (by omega)]; exact hi.bound x hx'
  · intro x k hk
    rw [put_cell] at hk
    by_cases hx : x = a
    · rw [if_pos hx] at hk; cases hk; subst hx; exact ht
    · rw [if_neg hx] at hk; exact hi.typed x k hk
  · intro x
    have h1 := refs_put h hlt (some m) x
    have h2 := hi.count x
    rw [out_some ha] at h1
    simp only at h1
    rw [hE, rcOf_put]
    by_cases hx : x = a
    · subst hx
      rw [if_pos rfl, if_pos rfl]
      rw [rcOf_some ha] at h2
      simp only
      omega
    · rw [if_neg hx, if_neg hx]; omega
  · intro x k hk h0
    rw [put_cell] at hk
    by_cases hx : x = a
    · rw [if_pos hx] at hk; cases hk; subst hx; exact hZa h0
    · rw [if_neg hx] at hk; exact hZ x hx (hi.pos x k hk h0)

/-- Deleting a node whose counter is zero. -/
theorem Inv.free {h : Heap T} {L E Z} (hi : Inv h L E Z) {a : Nat} {n : Node T} (ha : h.cell a = some n)
    (h0 : n.rc = 0) {E' : Nat → Int} {Z' : Nat → Prop} (hE : ∀ x, E' x = E x + slots n.body x)
    (hZ : ∀ x, x ≠ a → Z x → Z' x) :
    Inv (h.put a none) L E' Z' := by
  have hlt := hi.lt ha
  refine ⟨?_, ?_, ?_, ?_⟩
  · intro x hx
    have hx' : h.next ≤ x := hx
    rw [put_cell, if_neg (by omega)]; exact hi.bound x hx'
  · intro x k hk
    rw [put_cell] at hk
    by_cases hx : x = a
    · rw [if_pos hx] at hk; cases hk
    · rw [if_neg hx] at hk; exact hi.typed x k hk
  · intro x
    have h1 := refs_put h hlt none x
    have h2 := hi.count x
    rw [out_some ha] at h1
    simp only at h1
    rw [hE, rcOf_put]
    by_cases hx : x = a
    · subst hx
      rw [if_pos rfl]
      rw [rcOf_some ha, h0] at h2
      simp only
      omega
    · rw [if_neg hx]; omega
  · intro x k hk h0
    rw [put_cell] at hk
    by_cases hx : x = a
    · rw [if_pos hx] at hk; cases hk
    · rw [if_neg hx] at hk; exact hZ x hx (hi.pos x k hk h0)

theorem new_cell (h : Heap T) (b : Body T) (x : Nat) :
    (h.new b).1.cell x = if x = h.next then some ⟨0, b⟩ else h.cell x := rfl

/-- A level given to a new node. -/
def setL (L : Nat → Nat) (a k : Nat) : Nat → Nat := fun x => if x = a then k else L x

theorem setL_self (L : Nat → Nat) (a k : Nat) : setL L a k a = k := if_pos rfl
theorem setL_lt (L : Nat → Nat) {a x : Nat} (k : Nat) (hx : x < a) : setL L a k x = L x := if_neg (by omega)

theorem typed_setL {L : Nat → Nat} {N a k : Nat} (ha : a < N) {b : Body T} (hb : TypedBody L N a b) :
    TypedBody (setL L N k) (N + 1) a b := by
  cases b with
  | leaf v => show setL L N k a = 0; rw [setL_lt L k ha]; exact hb
  | branch c =>
    refine ⟨by rw [setL_lt L k ha]; exact hb.1, fun j x hx => ?_⟩
    obtain ⟨h1, h2⟩ := hb.2 j x hx
    exact ⟨by omega, by rw [setL_lt L k h1, setL_lt L k ha]; exact h2⟩

/-- A new node. -/
theorem Inv.new {h : Heap T} {L E Z} (hi : Inv h L E Z) (b : Body T) (k : Nat)
    (ht : TypedBody (setL L h.next k) (h.next + 1) h.next b) {E' : Nat → Int} {Z' : Nat → Prop}
    (hE : ∀ x, E' x = E x - slots b x) (hZ : ∀ x, Z x → Z' x) (hZn : Z' h.next) :
    Inv (h.new b).1 (setL L h.next k) E' Z' := by
  refine ⟨?_, ?_, ?_, ?_⟩
  · intro x hx
    have hx' : h.next + 1 ≤ x := hx
    rw [new_cell, if_neg (by omega)]; exact hi.bound x (by omega)
  · intro x m hm
    rw [new_cell] at hm
    by_cases hx : x = h.next
    · rw [if_pos hx] at hm; cases hm; rw [hx]; exact ht
    · rw [if_neg hx] at hm
      exact typed_setL (hi.lt hm) (hi.typed x m hm)
  · intro x
    have h2 := hi.count x
    have hr : refs (h.new b).1 x = refs h x + slots b x := by
      rw [refs_eq, refs_eq]
      show sumTo (out (h.new b).1 x) (h.next + 1) = _
      rw [sumTo]
      congr 1
      · apply sumTo_congr
        intro y hy
        unfold out
        rw [new_cell, if_neg (by omega)]
      · unfold out
        rw [new_cell, if_pos rfl]
    have hrc : rcOf (h.new b).1 x = rcOf h x := by
      unfold rcOf
      rw [new_cell]
      by_cases hx : x = h.next
      · rw [if_pos hx, hx, hi.bound _ (Nat.le_refl _)]
      · rw [if_neg hx]
    rw [hrc, hr, hE]; omega
  · intro x m hm h0
    rw [new_cell] at hm
    by_cases hx : x = h.next
    · rw [hx]; exact hZn
    · rw [if_neg hx] at hm; exact hZ x (hi.pos x m hm h0)

/-! ### Old contents -/

/-- Every node of `h` is still there in `h'`, with the same contents. -/
def Keep (h h' : Heap T) : Prop :=
  h.next ≤ h'.next ∧ ∀ a n, h.cell a = some n → ∃ n', h'.cell a = some n' ∧ n'.body = n.body

/-- Every node of `h'` was there in `h`, with the same contents. -/
def Sub (h h' : Heap T) : Prop :=
  ∀ a n', h'.cell a = some n' → ∃ n, h.cell a = some n ∧ n'.body = n.body

theorem Keep.refl (h : Heap T) : Keep h h := ⟨Nat.le_refl _, fun _ n hn => ⟨n, hn, rfl⟩⟩

theorem Keep.trans {h1 h2 h3 : Heap T} (k1 : Keep h1 h2) (k2 : Keep h2 h3) : Keep h1 h3 := by
  refine ⟨Nat.le_trans k1.1 k2.1, fun a n hn => ?_⟩
  obtain ⟨m, hm, e⟩ := k1.2 a n hn
  obtain ⟨m', hm', e'⟩ := k2.2 a m hm
  exact ⟨m', hm', e'.trans e⟩

theorem Sub.refl (h : Heap T) : Sub h h := fun _ n hn => ⟨n, hn, rfl⟩

theorem Sub.trans {h1 h2 h3 : Heap T} (k1 : Sub h1 h2) (k2 : Sub h2 h3) : Sub h1 h3 := by
  intro a n hn
  obtain ⟨m, hm, e⟩ := k2 a n hn
  obtain ⟨m', hm', e'⟩ := k1 a m hm
  exact ⟨m', hm', e.trans e'⟩

theorem Keep.put {h : Heap T} {a : Nat} {n m : Node T} (ha : h.cell a = some n) (e : m.body = n.body) :
    Keep h (h.put a (some m)) := by
  refine ⟨Nat.le_refl _, fun x k hk => ?_⟩
  rw [put_cell]
  by_cases hx : x = a
  · rw [if_pos hx]; rw [hx, ha] at hk; cases hk; exact ⟨m, rfl, e⟩
  · rw [if_neg hx]; exact ⟨k, hk, rfl⟩

theorem Sub.put {h : Heap T} {a : Nat} {n m : Node T} (ha : h.cell a = some n) (e : m.body = n.body) :
    Sub h (h.put a (some m)) := by
  intro x k hk
  rw [put_cell] at hk
  by_cases hx : x = a
  · rw [if_pos hx] at hk; cases hk; exact ⟨n, by rw [hx]; exact ha, e⟩
  · rw [if_neg hx] at hk; exact ⟨k, hk, rfl⟩

theorem Sub.free (h : Heap T) (a : Nat) : Sub h (h.put a none) := by
  intro x k hk
  rw [put_cell] at hk
  by_cases hx : x = a
  · rw [if_pos hx] at hk; cases hk
  · rw [if_neg hx] at hk; exact ⟨k, hk, rfl⟩

theorem Keep.new {h : Heap T} {L E Z} (hi : Inv h L E Z) (b : Body T) : Keep h (h.new b).1 := by
  refine ⟨Nat.le_succ _, fun x k hk => ?_⟩
  have := hi.lt hk
  rw [new_cell, if_neg (by omega)]
  exact ⟨k, hk, rfl⟩

/-! ### Counters -/

theorem inc_spec {h : Heap T} {L E Z} (hi : Inv h L E Z) {a : Nat} {n : Node T} (ha : h.cell a = some n)
    {E' : Nat → Int} (hE : ∀ x, E' x = E x + ind (some a) x) {Z' : Nat → Prop} (hZ : ∀ x, x ≠ a → Z x → Z' x) :
    ∃ h', h.inc a = .ok h' ∧ Inv h' L E' Z' ∧ Keep h h' ∧ Sub h h' ∧ h'.next = h.next := by
  refine ⟨h.put a (some { n with rc := n.rc + 1 }), ?_, ?_, Keep.put ha rfl, Sub.put ha rfl, rfl⟩
  · unfold Heap.inc Heap.node; rw [ha]; rfl
  · refine hi.put ha { n with rc := n.rc + 1 } (hi.typed a n ha) ?_ hZ (by intro h0; exact absurd h0 (by simp))
    intro x
    rw [hE]
    simp only [ind, Option.some.injEq]
    by_cases hx : x = a
    · subst hx; rw [if_pos rfl, if_pos rfl]; push_cast; omega
    · rw [if_neg hx, if_neg (fun e => hx e.symm)]; omega

theorem dec_spec {h : Heap T} {L E Z} (hi : Inv h L E Z) {a : Nat} {n : Node T} (ha : h.cell a = some n) {r : Nat}
    (hr : n.rc = r + 1) {E' : Nat → Int} (hE : ∀ x, E' x = E x - ind (some a) x) {Z' : Nat → Prop}
    (hZ : ∀ x, x ≠ a → Z x → Z' x) (hZa : r = 0 → Z' a) :
    h.dec a = .ok (h.put a (some { n with rc := r }), r) ∧ Inv (h.put a (some { n with rc := r })) L E' Z' := by
  refine ⟨?_, ?_⟩
  · unfold Heap.dec Heap.node; rw [ha]
    simp only [Outcome.ok_bind, hr]; rfl
  · refine hi.put ha { n with rc := r } (hi.typed a n ha) ?_ hZ hZa
    intro x
    rw [hE]
    simp only [ind, Option.some.injEq]
    by_cases hx : x = a
    · subst hx; rw [if_pos rfl, if_pos rfl]; omega
    · rw [if_neg hx, if_neg (fun e => hx e.symm)]; omega

/-- Slots as indicators. -/
theorem slots_branch (c : Fin 4 → Option Nat) (x : Nat) :
    ((slots (.branch c : Body T) x : Nat) : Int) = ind (c 0) x + ind (c 1) x + ind (c 2) x + ind (c 3) x := by
  simp only [slots, ind]
  push_cast
  repeat' split
  all_goals omega

/-- A node referred to by a live node is live, where the account is not negative. -/
theorem Inv.child {h : Heap T} {L E Z} (hi : Inv h L E Z) {b a : Nat} {n : Node T} (hb : h.cell b = some n)
    (hs : 0 < slots n.body a) (hE : 0 ≤ E a) : 0 < rcOf h a := by
  have h1 := hi.count a
  have h2 := sumTo_ge (f := out h a) (hi.lt hb)
  rw [← refs_eq, out_some hb] at h2
  omega

theorem slots_pos {c : Fin 4 → Option Nat} {j : Fin 4} {a : Nat} (h : c j = some a) :
    0 < slots (.branch c : Body T) a := by
  simp only [slots]
  have : j = 0 ∨ j = 1 ∨ j = 2 ∨ j = 3 := by omega
  rcases this with e | e | e | e <;> subst e <;> rw [if_pos h] <;> omega

end Ab.PVec
