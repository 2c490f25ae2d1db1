import Verif.Proof.Vec
/-! Releasing a tree. -/
namespace Ab.PVec
open Spec

variable {T : Type}

theorem ind_nonneg (c : Option Nat) (x : Nat) : 0 ≤ ind c x := by
  unfold ind; split <;> omega

theorem ind_self (a : Nat) : ind (some a) a = 1 := if_pos rfl

theorem ind_ne {a x : Nat} (h : a ≠ x) : ind (some a) x = 0 := if_neg (by intro e; cases e; exact h rfl)

/-- What releasing gives. -/
structure Released (h h' : Heap T) (L : Nat → Nat) (E : Nat → Int) (Z : Nat → Prop) (level : Nat) : Prop where
  inv  : Inv h' L E Z
  sub  : Sub h h'
  next : h'.next = h.next
  high : ∀ x, level < L x → h'.cell x = h.cell x

theorem Inv.congrE {h : Heap T} {L E E' Z} (hi : Inv h L E Z) (e : ∀ x, E' x = E x) : Inv h L E' Z :=
  ⟨hi.bound, hi.typed, fun a => by rw [e]; exact hi.count a, hi.pos⟩

theorem Inv.monoZ {h : Heap T} {L E} {Z Z' : Nat → Prop} (hi : Inv h L E Z) (hz : ∀ x, Z x → Z' x) : Inv h L E Z' :=
  ⟨hi.bound, hi.typed, hi.count, fun a n h1 h2 => hz a (hi.pos a n h1 h2)⟩

/-- The counter of a child of a node that is being deleted. -/
theorem child_rc {h : Heap T} {L E Z} (hi : Inv h L E Z) {a b : Nat} {n : Node T} {c : Fin 4 → Option Nat}
    (ha : h.cell a = some n) (hb : n.body = .branch c)
    (hE : 1 ≤ ind (c 0) b + ind (c 1) b + ind (c 2) b + ind (c 3) b + E b) : 1 ≤ rcOf h b := by
  have h1 := hi.count b
  have h2 := sumTo_ge (f := out h b) (hi.lt ha)
  rw [← refs_eq, out_some ha, hb] at h2
  have h3 := slots_branch (T := T) c b
  omega

theorem release_spec {L : Nat → Nat} : ∀ (level : Nat) (h : Heap T) (c : Option Nat) (E : Nat → Int) (Z : Nat → Prop),
    Inv h L E Z → (∀ a, c = some a → L a = level ∧ 1 ≤ rcOf h a) → (∀ x, L x < level → 0 ≤ E x) →
    ∃ h', release level h c = .ok h' ∧ Released h h' L (fun x => E x - ind c x) Z level := by
  intro level
  induction level with
  | zero =>
    intro h c E Z hi hc hE
    cases c with
    | none => exact ⟨h, rfl, hi.congrE (fun x => by simp [ind]), Sub.refl h, rfl, fun _ _ => rfl⟩
    | some a =>
      obtain ⟨hl, hrc⟩ := hc a rfl
      obtain ⟨n, hn⟩ := live_of_rc hrc
      rw [rcOf_some hn] at hrc
      obtain ⟨r, hr⟩ : ∃ r, n.rc = r + 1 := ⟨n.rc - 1, by omega⟩
      obtain ⟨hd, hi1⟩ := dec_spec (Z' := fun x => Z x ∨ (r = 0 ∧ x = a)) hi hn hr (fun x => rfl) (fun x _ h => Or.inl h)
        (fun h => Or.inr ⟨h, rfl⟩)
      simp only [release, hd, Outcome.ok_bind]
      by_cases h0 : r = 0
      · rw [if_pos h0]
        have hcell : (h.put a (some { n with rc := r })).cell a = some { n with rc := r } := by
          rw [put_cell, if_pos rfl]
        have ht := hi.typed a n hn
        have hs1 : Sub h (h.put a (some { n with rc := r })) := Sub.put hn rfl
        have hc1 : ∀ x, x ≠ a → (h.put a (some { n with rc := r })).cell x = h.cell x := by
          intro x hx; rw [put_cell, if_neg hx]
        have hx1 : (h.put a (some { n with rc := r })).next = h.next := rfl
        generalize h.put a (some { n with rc := r }) = h1 at hi1 hcell hs1 hc1 hx1 ⊢
        cases hb : n.body with
        | branch c => rw [hb] at ht; exact absurd hl ht.1
        | leaf v =>
          have hv : h1.values a = .ok v := by
            unfold Heap.values Heap.node; rw [hcell]; simp only [Outcome.ok_bind, hb]; rfl
          rw [hv]
          refine ⟨_, rfl, ?_, hs1.trans (Sub.free _ a), hx1, ?_⟩
          · refine hi1.free hcell h0 (fun x => ?_) (fun x hx h => ?_)
            · simp only [hb, slots]; omega
            · rcases h with h | ⟨_, h⟩
              · exact h
              · exact absurd h hx
          · intro x hx
            have : x ≠ a := by intro e; rw [e, hl] at hx; omega
            rw [put_cell, if_neg this, hc1 x this]
      · rw [if_neg h0]
        refine ⟨_, rfl, hi1.monoZ (fun x h => ?_), Sub.put hn rfl, rfl, ?_⟩
        · rcases h with h | ⟨h, _⟩
          · exact h
          · exact absurd h h0
        · intro x hx
          have : x ≠ a := by intro e; rw [e, hl] at hx; omega
          rw [put_cell, if_neg this]
  | succ k ih =>
    intro h c E Z hi hc hE
    cases c with
    | none => exact ⟨h, rfl, hi.congrE (fun x => by simp [ind]), Sub.refl h, rfl, fun _ _ => rfl⟩
    | some a =>
      obtain ⟨hl, hrc⟩ := hc a rfl
      obtain ⟨n, hn⟩ := live_of_rc hrc
      rw [rcOf_some hn] at hrc
      obtain ⟨r, hr⟩ : ∃ r, n.rc = r + 1 := ⟨n.rc - 1, by omega⟩
      obtain ⟨hd, hi1⟩ := dec_spec (Z' := fun x => Z x ∨ (r = 0 ∧ x = a)) hi hn hr (fun x => rfl) (fun x _ h => Or.inl h)
        (fun h => Or.inr ⟨h, rfl⟩)
      simp only [release, hd, Outcome.ok_bind]
      by_cases h0 : r = 0
      · rw [if_pos h0]
        generalize hh1 : h.put a (some { n with rc := r }) = h1 at hi1
        have hs1 : Sub h h1 := by rw [← hh1]; exact Sub.put hn rfl
        have hx1 : h1.next = h.next := by rw [← hh1]; rfl
        have hc1 : ∀ x, x ≠ a → h1.cell x = h.cell x := by
          intro x hx; rw [← hh1, put_cell, if_neg hx]
        have hcell : h1.cell a = some { n with rc := r } := by
          rw [← hh1, put_cell, if_pos rfl]
        have ht := hi.typed a n hn
        cases hb : n.body with
        | leaf c => rw [hb] at ht; change L a = 0 at ht; omega
        | branch c =>
          have hv : h1.children a = .ok c := by
            unfold Heap.children Heap.node; rw [hcell]; simp only [Outcome.ok_bind, hb]; rfl
          rw [hv]
          simp only [Outcome.ok_bind]
          rw [hb] at ht
          have hkid : ∀ j b, c j = some b → L b = k ∧ 0 ≤ E b ∧ ind (some a) b = 0 := by
            intro j b hj
            have := (ht.2 j b hj).2
            refine ⟨by omega, hE b (by omega), ind_ne ?_⟩
            intro e; rw [e] at this; omega
          have hlow : ∀ x, L x < k → 0 ≤ E x ∧ ind (some a) x = 0 ∧ ∀ j, ind (c j) x = 0 := by
            intro x hx
            refine ⟨hE x (by omega), ind_ne (by intro e; rw [e] at hl; omega), fun j => ?_⟩
            cases hj : c j with
            | none => simp [ind]
            | some b => exact ind_ne (by intro e; have := (hkid j b hj).1; rw [e] at this; omega)
          have hLa : k < L a := by omega
          -- the four children
          obtain ⟨h2, e2, r2⟩ := ih h1 (c 0) _ _ hi1
            (fun b hj => ⟨(hkid 0 b hj).1, child_rc hi1 hcell hb (by
              obtain ⟨_, q1, q2⟩ := hkid 0 b hj
              have := ind_nonneg (c 1) b; have := ind_nonneg (c 2) b; have := ind_nonneg (c 3) b
              simp only [q2]; rw [hj, ind_self]; omega)⟩)
            (fun x hx => by obtain ⟨q1, q2, _⟩ := hlow x hx; simp only [q2]; omega)
          have hcell2 := hcell; rw [← r2.high a hLa] at hcell2
          obtain ⟨h3, e3, r3⟩ := ih h2 (c 1) _ _ r2.inv
            (fun b hj => ⟨(hkid 1 b hj).1, child_rc r2.inv hcell2 hb (by
              obtain ⟨_, q1, q2⟩ := hkid 1 b hj
              have := ind_nonneg (c 2) b; have := ind_nonneg (c 3) b
              simp only [q2]; rw [hj, ind_self]; omega)⟩)
            (fun x hx => by obtain ⟨q1, q2, q3⟩ := hlow x hx; simp only [q2, q3]; omega)
          have hcell3 := hcell2; rw [← r3.high a hLa] at hcell3
          obtain ⟨h4, e4, r4⟩ := ih h3 (c 2) _ _ r3.inv
            (fun b hj => ⟨(hkid 2 b hj).1, child_rc r3.inv hcell3 hb (by
              obtain ⟨_, q1, q2⟩ := hkid 2 b hj
              have := ind_nonneg (c 3) b
              simp only [q2]; rw [hj, ind_self]; omega)⟩)
            (fun x hx => by obtain ⟨q1, q2, q3⟩ := hlow x hx; simp only [q2, q3]; omega)
          have hcell4 := hcell3; rw [← r4.high a hLa] at hcell4
          obtain ⟨h5, e5, r5⟩ := ih h4 (c 3) _ _ r4.inv
            (fun b hj => ⟨(hkid 3 b hj).1, child_rc r4.inv hcell4 hb (by
              obtain ⟨_, q1, q2⟩ := hkid 3 b hj
              simp only [q2]; rw [hj, ind_self]; omega)⟩)
            (fun x hx => by obtain ⟨q1, q2, q3⟩ := hlow x hx; simp only [q2, q3]; omega)
          have hcell5 := hcell4; rw [← r5.high a hLa] at hcell5
          rw [e2]; simp only [Outcome.ok_bind]
          rw [e3]; simp only [Outcome.ok_bind]
          rw [e4]; simp only [Outcome.ok_bind]
          rw [e5]; simp only [Outcome.ok_bind]
          refine ⟨_, rfl, ?_, ?_, ?_, ?_⟩
          · refine r5.inv.free hcell5 h0 (fun x => ?_) (fun x hx h => ?_)
            · simp only [hb]; rw [slots_branch]; omega
            · rcases h with h | ⟨_, h⟩
              · exact h
              · exact absurd h hx
          · exact ((((hs1.trans r2.sub).trans r3.sub).trans r4.sub).trans r5.sub).trans (Sub.free _ a)
          · rw [put_next, r5.next, r4.next, r3.next, r2.next, hx1]
          · intro x hx
            have : x ≠ a := by intro e; rw [e, hl] at hx; omega
            rw [put_cell, if_neg this, r5.high x (by omega), r4.high x (by omega), r3.high x (by omega),
              r2.high x (by omega), hc1 x this]
      · rw [if_neg h0]
        refine ⟨_, rfl, hi1.monoZ (fun x h => ?_), Sub.put hn rfl, rfl, ?_⟩
        · rcases h with h | ⟨h, _⟩
          · exact h
          · exact absurd h h0
        · intro x hx
          have : x ≠ a := by intro e; rw [e, hl] at hx; omega
          rw [put_cell, if_neg this]

/-- Releasing a node that others refer to only counts down. -/
theorem release_dec {h : Heap T} {L E Z} (hi : Inv h L E Z) (level : Nat) {a : Nat} (hrc : 2 ≤ rcOf h a) :
    ∃ h', release level h (some a) = .ok h' ∧ Inv h' L (fun x => E x - ind (some a) x) Z ∧ Keep h h' ∧ Sub h h' ∧
      h'.next = h.next := by
  obtain ⟨n, hn⟩ := live_of_rc (h := h) (a := a) (by omega)
  rw [rcOf_some hn] at hrc
  obtain ⟨r, hr⟩ : ∃ r, n.rc = r + 1 := ⟨n.rc - 1, by omega⟩
  have h0 : r ≠ 0 := by omega
  obtain ⟨hd, hi1⟩ := dec_spec (Z' := Z) hi hn hr (fun x => rfl) (fun x _ h => h) (fun h => absurd h h0)
  refine ⟨h.put a (some { n with rc := r }), ?_, hi1, Keep.put hn rfl, Sub.put hn rfl, rfl⟩
  cases level <;> simp only [release, hd, Outcome.ok_bind, if_neg h0] <;> rfl

end Ab.PVec
