import Verif.Proof.Vec2
/-! What a tree represents, and `update`. -/
namespace Ab.PVec
open Spec

variable {T : Type}

/-- The `j`th block of `B` elements. -/
def chunk (B j : Nat) (l : List T) : List T := (l.drop (j * B)).take B

theorem chunk_length (B j : Nat) (l : List T) : (chunk B j l).length = min B (l.length - j * B) := by
  simp [chunk]

theorem chunk_nil (B j : Nat) : chunk B j ([] : List T) = [] := by simp [chunk]

theorem chunk_snoc_lt {B j : Nat} {l : List T} (x : T) (h : j * B + B ≤ l.length) :
    chunk B j (l ++ [x]) = chunk B j l := by
  unfold chunk
  rw [List.drop_append_of_le_length (by omega), List.take_append_of_le_length (by rw [List.length_drop]; omega)]

theorem chunk_snoc_gt {B j : Nat} {l : List T} (x : T) (h : l.length < j * B) :
    chunk B j (l ++ [x]) = chunk B j l := by
  unfold chunk
  rw [List.drop_eq_nil_of_le (by rw [List.length_append]; simp; omega), List.drop_eq_nil_of_le (by omega)]

theorem chunk_snoc_eq {B j : Nat} {l : List T} (x : T) (h1 : j * B ≤ l.length) (h2 : l.length < j * B + B) :
    chunk B j (l ++ [x]) = chunk B j l ++ [x] := by
  unfold chunk
  rw [List.drop_append_of_le_length h1, List.take_of_length_le (by simp; omega),
    List.take_of_length_le (by simp; omega)]

theorem chunk_getD {B j i : Nat} (d : T) {l : List T} (hi : i < B) :
    (chunk B j l).getD i d = l.getD (j * B + i) d := by
  unfold chunk
  rw [List.getD_eq_getElem?_getD, List.getD_eq_getElem?_getD, List.getElem?_take, if_pos hi, List.getElem?_drop]

/-- The node at `a`, of the given level, holds `l`. -/
def Rep (d : T) (h : Heap T) : Nat → Nat → List T → Prop
  | 0, a, l => l.length ≤ 4 ∧ ∃ n v, h.cell a = some n ∧ n.body = .leaf v ∧ ∀ k : Fin 4, v k = l.getD k.1 d
  | level + 1, a, l => l.length ≤ 4 ^ (level + 2) ∧ ∃ n c, h.cell a = some n ∧ n.body = .branch c ∧
      ∀ j : Fin 4, (chunk (4 ^ (level + 1)) j.1 l = [] → c j = none) ∧
        (chunk (4 ^ (level + 1)) j.1 l ≠ [] → ∃ b, c j = some b ∧ Rep d h level b (chunk (4 ^ (level + 1)) j.1 l))

theorem Rep.len {d : T} {h : Heap T} {level a : Nat} {l : List T} (hr : Rep d h level a l) :
    l.length ≤ 4 ^ (level + 1) := by
  cases level with
  | zero => exact hr.1
  | succ k => exact hr.1

theorem Rep.live {d : T} {h : Heap T} {level a : Nat} {l : List T} (hr : Rep d h level a l) :
    ∃ n, h.cell a = some n := by
  cases level with
  | zero => obtain ⟨_, n, _, hn, _⟩ := hr; exact ⟨n, hn⟩
  | succ k => obtain ⟨_, n, _, hn, _⟩ := hr; exact ⟨n, hn⟩

theorem Rep.keep {d : T} {h h' : Heap T} (hk : Keep h h') : ∀ {level a : Nat} {l : List T}, Rep d h level a l →
    Rep d h' level a l := by
  intro level
  induction level with
  | zero =>
    rintro a l ⟨hl, n, v, hn, hb, hv⟩
    obtain ⟨n', hn', e⟩ := hk.2 a n hn
    exact ⟨hl, n', v, hn', e.trans hb, hv⟩
  | succ k ih =>
    rintro a l ⟨hl, n, c, hn, hb, hc⟩
    obtain ⟨n', hn', e⟩ := hk.2 a n hn
    refine ⟨hl, n', c, hn', e.trans hb, fun j => ⟨(hc j).1, fun hne => ?_⟩⟩
    obtain ⟨b, hb', hr⟩ := (hc j).2 hne
    exact ⟨b, hb', ih hr⟩

/-- Nodes above the tree do not matter. -/
theorem Rep.low {d : T} {h h' : Heap T} {L E Z} (hi : Inv h L E Z) {k : Nat}
    (hk : ∀ a n, h.cell a = some n → L a ≤ k → ∃ n', h'.cell a = some n' ∧ n'.body = n.body) :
    ∀ {level a : Nat} {l : List T}, L a = level → level ≤ k → Rep d h level a l → Rep d h' level a l := by
  intro level
  induction level with
  | zero =>
    rintro a l hl hlk ⟨hlen, n, v, hn, hb, hv⟩
    obtain ⟨n', hn', e⟩ := hk a n hn (by omega)
    exact ⟨hlen, n', v, hn', e.trans hb, hv⟩
  | succ m ih =>
    rintro a l hl hlk ⟨hlen, n, c, hn, hb, hc⟩
    obtain ⟨n', hn', e⟩ := hk a n hn (by omega)
    refine ⟨hlen, n', c, hn', e.trans hb, fun j => ⟨(hc j).1, fun hne => ?_⟩⟩
    obtain ⟨b, hb', hr⟩ := (hc j).2 hne
    have ht := hi.typed a n hn
    rw [hb] at ht
    have := (ht.2 j b hb').2
    exact ⟨b, hb', ih (by omega) (by omega) hr⟩

/-- A tree whose root survives survives. -/
theorem Rep.survive {d : T} {h h' : Heap T} {L E Z} (hs : Sub h h') (hi : Inv h' L E Z) (hE : ∀ x, 0 ≤ E x) :
    ∀ {level a : Nat} {l : List T}, Rep d h level a l → 0 < rcOf h' a → Rep d h' level a l := by
  intro level
  induction level with
  | zero =>
    rintro a l ⟨hl, n, v, hn, hb, hv⟩ hrc
    obtain ⟨n', hn'⟩ := live_of_rc hrc
    obtain ⟨m, hm, e⟩ := hs a n' hn'
    rw [hn] at hm; cases hm
    exact ⟨hl, n', v, hn', e.trans hb, hv⟩
  | succ k ih =>
    rintro a l ⟨hl, n, c, hn, hb, hc⟩ hrc
    obtain ⟨n', hn'⟩ := live_of_rc hrc
    obtain ⟨m, hm, e⟩ := hs a n' hn'
    rw [hn] at hm; cases hm
    refine ⟨hl, n', c, hn', e.trans hb, fun j => ⟨(hc j).1, fun hne => ?_⟩⟩
    obtain ⟨b, hb', hr⟩ := (hc j).2 hne
    exact ⟨b, hb', ih hr (hi.child hn' (by rw [e, hb]; exact slots_pos hb') (hE b))⟩

/-- What `update` gives. -/
structure Updated (d : T) (h h' : Heap T) (L L' : Nat → Nat) (E : Nat → Int) (Z : Nat → Prop) (level r : Nat)
    (l : List T) : Prop where
  inv   : Inv h' L' E (fun x => Z x ∨ x = r)
  same  : ∀ x, x < h.next → L' x = L x
  keep  : Keep h h'
  fresh : h.next ≤ r
  lev   : L' r = level
  rep   : Rep d h' level r l

/-- What the node given to `update` must be. -/
def NodeOk (d : T) (h : Heap T) (L : Nat → Nat) (level : Nat) (node : Option Nat) (l : List T) : Prop :=
  match node with
  | none => l = []
  | some a => L a = level ∧ Rep d h level a l

theorem values_spec {h : Heap T} {a : Nat} {n : Node T} {v : Fin 4 → T} (hn : h.cell a = some n)
    (hb : n.body = .leaf v) : h.values a = .ok v := by
  unfold Heap.values Heap.node; rw [hn]; simp only [Outcome.ok_bind, hb]; rfl

theorem children_spec {h : Heap T} {a : Nat} {n : Node T} {c : Fin 4 → Option Nat} (hn : h.cell a = some n)
    (hb : n.body = .branch c) : h.children a = .ok c := by
  unfold Heap.children Heap.node; rw [hn]; simp only [Outcome.ok_bind, hb]; rfl

theorem copyLeaf_spec (d : T) {h : Heap T} {L} {node : Option Nat} {l : List T}
    (hn : NodeOk d h L 0 node l) : ∃ v, copyLeaf d h node = .ok (h.new (.leaf v)) ∧ l.length ≤ 4 ∧
      ∀ k : Fin 4, v k = l.getD k.1 d := by
  cases node with
  | none =>
    change l = [] at hn
    subst hn
    exact ⟨fun _ => d, rfl, by simp, fun k => by simp⟩
  | some a =>
    obtain ⟨_, hl, n, v, hc, hb, hv⟩ := hn
    refine ⟨v, ?_, hl, hv⟩
    unfold copyLeaf
    simp only [values_spec hc hb, Outcome.ok_bind]; rfl

theorem incChild_spec {h : Heap T} {L E Z} (hi : Inv h L E Z) {c : Option Nat} (hc : ∀ a, c = some a → ∃ n, h.cell a = some n) :
    ∃ h', incChild h c = .ok h' ∧ Inv h' L (fun x => E x + ind c x) Z ∧ Keep h h' ∧ h'.next = h.next := by
  cases c with
  | none => exact ⟨h, rfl, hi.congrE (fun x => by simp [ind]), Keep.refl h, rfl⟩
  | some a =>
    obtain ⟨n, hn⟩ := hc a rfl
    obtain ⟨h', e, hi', hk, _, hx⟩ := inc_spec (Z' := Z) hi hn (fun x => rfl) (fun x _ h => h)
    exact ⟨h', e, hi', hk, hx⟩

theorem Keep.live {h h' : Heap T} (hk : Keep h h') {a : Nat} (ha : ∃ n, h.cell a = some n) : ∃ n, h'.cell a = some n := by
  obtain ⟨n, hn⟩ := ha
  obtain ⟨n', hn', _⟩ := hk.2 a n hn
  exact ⟨n', hn'⟩

/-- The copy of a branch. -/
theorem copyBranch_spec (d : T) {h : Heap T} {L E Z} (hi : Inv h L E Z) {k : Nat} {node : Option Nat} {l : List T}
    (hn : NodeOk d h L (k + 1) node l) (hE : ∀ x, L x < k + 1 → 0 ≤ E x) :
    ∃ h' n c, copyBranch h node = .ok (h', h.next) ∧ Inv h' (setL L h.next (k + 1)) E (fun x => Z x ∨ x = h.next) ∧
      Keep h h' ∧ h'.next = h.next + 1 ∧ h'.cell h.next = some n ∧ n.body = .branch c ∧
      (∀ j b, c j = some b → b < h.next ∧ L b = k ∧ 2 ≤ refs h' b) ∧
      ∀ j : Fin 4, (chunk (4 ^ (k + 1)) j.1 l = [] → c j = none) ∧
        (chunk (4 ^ (k + 1)) j.1 l ≠ [] → ∃ b, c j = some b ∧ Rep d h k b (chunk (4 ^ (k + 1)) j.1 l)) := by
  cases node with
  | none =>
    change l = [] at hn
    subst hn
    refine ⟨(h.new (.branch (fun _ => none))).1, ⟨0, .branch (fun _ => none)⟩, fun _ => none, rfl, ?_, Keep.new hi _, rfl, ?_, rfl, ?_, ?_⟩
    · refine hi.new (.branch (fun _ => none)) (k + 1) ⟨by rw [setL_self]; omega, fun j b hj => by cases hj⟩ (fun x => ?_) (fun x h => Or.inl h) (Or.inr rfl)
      simp [slots]
    · rw [new_cell, if_pos rfl]
    · intro j b hj; cases hj
    · intro j; exact ⟨fun _ => rfl, fun h => absurd (chunk_nil _ _) h⟩
  | some a =>
    obtain ⟨hl, hlen, n, c, hc, hb, hch⟩ := hn
    have ht := hi.typed a n hc
    rw [hb] at ht
    have halt := hi.lt hc
    have hkid : ∀ j b, c j = some b → b < h.next ∧ L b = k ∧ ∃ m, h.cell b = some m := by
      intro j b hj
      obtain ⟨h1, h2⟩ := ht.2 j b hj
      exact ⟨h1, by omega, live_of_rc (hi.child hc (by rw [hb]; exact slots_pos hj) (hE b (by omega)))⟩
    have hi1 : Inv (h.new (.branch c)).1 (setL L h.next (k + 1)) (fun x => E x - slots (.branch c : Body T) x)
        (fun x => Z x ∨ x = h.next) := by
      refine hi.new (.branch c) (k + 1) ⟨by rw [setL_self]; omega, fun j b hj => ?_⟩ (fun x => rfl) (fun x h => Or.inl h) (Or.inr rfl)
      obtain ⟨h1, h2, _⟩ := hkid j b hj
      exact ⟨by omega, by rw [setL_self, setL_lt _ _ h1, h2]⟩
    have k1 := Keep.new hi (.branch c)
    have hnew : (h.new (.branch c)).1.cell h.next = some ⟨0, .branch c⟩ := by rw [new_cell, if_pos rfl]
    have hnn : (h.new (.branch c)).1.next = h.next + 1 := rfl
    have he : copyBranch h (some a) = (do
        let h1 ← incChild (h.new (.branch c)).1 (c 0)
        let h1 ← incChild h1 (c 1)
        let h1 ← incChild h1 (c 2)
        let h1 ← incChild h1 (c 3)
        pure (h1, h.next)) := by
      unfold copyBranch
      simp only [children_spec hc hb, Outcome.ok_bind]; rfl
    rw [he]
    generalize (h.new (.branch c)).1 = g1 at hi1 k1 hnew hnn
    obtain ⟨g2, e2, hi2, k2, n2⟩ := incChild_spec hi1 (fun b hj => k1.live (hkid 0 b hj).2.2)
    obtain ⟨g3, e3, hi3, k3, n3⟩ := incChild_spec hi2 (fun b hj => (k1.trans k2).live (hkid 1 b hj).2.2)
    obtain ⟨g4, e4, hi4, k4, n4⟩ := incChild_spec hi3 (fun b hj => ((k1.trans k2).trans k3).live (hkid 2 b hj).2.2)
    obtain ⟨g5, e5, hi5, k5, n5⟩ := incChild_spec hi4 (fun b hj => (((k1.trans k2).trans k3).trans k4).live (hkid 3 b hj).2.2)
    have kk := ((k2.trans k3).trans k4).trans k5
    obtain ⟨n', hn', en'⟩ := kk.2 _ _ hnew
    refine ⟨g5, n', c, ?_, ?_, k1.trans kk, by rw [n5, n4, n3, n2, hnn], hn', en', ?_, hch⟩
    · rw [e2]; simp only [Outcome.ok_bind]
      rw [e3]; simp only [Outcome.ok_bind]
      rw [e4]; simp only [Outcome.ok_bind]
      rw [e5]; simp only [Outcome.ok_bind]; rfl
    · exact hi5.congrE (fun x => by rw [slots_branch]; omega)
    · intro j b hj
      obtain ⟨q1, q2, _⟩ := hkid j b hj
      refine ⟨q1, q2, ?_⟩
      obtain ⟨n0, hn0, en0⟩ := (k1.trans kk).2 a n hc
      have := sumTo_ge2 (f := out g5 b) (a := a) (b := h.next) (n := g5.next) (by omega) (hi5.lt hn0) (hi5.lt hn')
      rw [← refs_eq, out_some hn0, out_some hn', en0, en', hb] at this
      have := slots_pos (T := T) hj
      simp only at *
      omega

theorem pow_pos4 (k : Nat) : 0 < 4 ^ k := Nat.pow_pos (by decide)

/-- Indices. -/
theorem index_split {i k m : Nat} (h : i % 4 ^ (k + 2) = m) : i / 4 ^ (k + 1) % 4 = m / 4 ^ (k + 1) ∧
    i % 4 ^ (k + 1) = m % 4 ^ (k + 1) := by
  have e : 4 ^ (k + 2) = 4 ^ (k + 1) * 4 := by rw [Nat.pow_succ 4 (k + 1)]
  rw [e] at h
  have hp := pow_pos4 (k + 1)
  constructor
  · rw [← h, Nat.mod_mul, Nat.add_mul_div_left _ _ hp, Nat.div_eq_of_lt (Nat.mod_lt _ hp)]; omega
  · rw [← h, Nat.mod_mul_right_mod]

/-- `update` appends. -/
theorem update_spec (d x : T) : ∀ (level : Nat) (h : Heap T) (L : Nat → Nat) (E : Nat → Int) (Z : Nat → Prop)
    (node : Option Nat) (i : Nat) (l : List T), Inv h L E Z → (∀ y, L y < level → 0 ≤ E y) →
    NodeOk d h L level node l → l.length < 4 ^ (level + 1) → i % 4 ^ (level + 1) = l.length →
    ∃ h' r L', update d level h node i x = .ok (h', r) ∧ Updated d h h' L L' E Z level r (l ++ [x]) := by
  intro level
  induction level with
  | zero =>
    intro h L E Z node i l hi hE hn hlen him
    obtain ⟨v, hcp, hl4, hv⟩ := copyLeaf_spec d hn
    have hi1 : Inv (h.new (.leaf v)).1 (setL L h.next 0) E (fun y => Z y ∨ y = h.next) :=
      hi.new (.leaf v) 0 (setL_self _ _ _) (fun y => by simp [slots]) (fun y h => Or.inl h) (Or.inr rfl)
    have hcell : (h.new (.leaf v)).1.cell h.next = some ⟨0, .leaf v⟩ := by rw [new_cell, if_pos rfl]
    have k1 := Keep.new hi (.leaf v)
    simp only [update, hcp, Outcome.ok_bind]
    change ∃ h' r L', (do
        let w ← (h.new (.leaf v)).1.values h.next
        let g ← (h.new (.leaf v)).1.setBody h.next (.leaf (upd w (mod4 i) x))
        pure (g, h.next)) = Outcome.ok (h', r) ∧ _
    have hnn : (h.new (.leaf v)).1.next = h.next + 1 := rfl
    have hold : ∀ y, y < h.next → (h.new (.leaf v)).1.cell y = h.cell y := by
      intro y hy; rw [new_cell, if_neg (by omega)]
    generalize (h.new (.leaf v)).1 = g at hi1 hcell k1 hnn hold ⊢
    rw [values_spec hcell rfl]
    simp only [Outcome.ok_bind, Heap.setBody, Heap.node, hcell]
    refine ⟨_, h.next, setL L h.next 0, rfl, ?_, fun y hy => setL_lt _ _ hy, ?_, Nat.le_refl _, setL_self _ _ _, ?_⟩
    · refine hi1.put hcell ⟨0, .leaf (upd v (mod4 i) x)⟩ (setL_self _ _ _) (fun y => ?_) (fun y _ h => h) (fun _ => Or.inr rfl)
      simp [slots]
    · refine ⟨by rw [put_next, hnn]; omega, fun a n hn => ?_⟩
      have := hi.lt hn
      rw [put_cell, if_neg (by omega), hold a this]; exact ⟨n, hn, rfl⟩
    · refine ⟨by simp; omega, ⟨0, .leaf (upd v (mod4 i) x)⟩, _, by rw [put_cell, if_pos rfl], rfl, fun k => ?_⟩
      have hlen' : l.length < 4 := hlen
      have him' : i % 4 = l.length := him
      unfold upd
      by_cases hk : k = mod4 i
      · rw [if_pos hk]
        have : k.1 = l.length := by rw [hk]; exact him'
        rw [this, List.getD_eq_getElem?_getD]; simp
      · rw [if_neg hk, hv k]
        have : k.1 ≠ l.length := by
          intro e; apply hk; apply Fin.ext; show k.1 = i % 4; omega
        rw [List.getD_eq_getElem?_getD, List.getD_eq_getElem?_getD]
        rcases Nat.lt_or_ge k.1 l.length with h1 | h1
        · rw [List.getElem?_append_left h1]
        · rw [List.getElem?_eq_none (by omega), List.getElem?_eq_none (by simp; omega)]
  | succ k ih =>
    intro h L E Z node i l hi hE hn hlen him
    obtain ⟨g1, n1, c, e1, hi1, k1, nn1, hc1, hb1, hkid, hch⟩ := copyBranch_spec d hi hn hE
    obtain ⟨hsi, him1⟩ := index_split him
    have hpe : 4 ^ (k + 1 + 1) = 4 * 4 ^ (k + 1) := by rw [Nat.pow_succ 4 (k + 1), Nat.mul_comm]
    have hp := pow_pos4 (k + 1)
    generalize hB : 4 ^ (k + 1) = B at *
    have hq : l.length / B < 4 := by rw [Nat.div_lt_iff_lt_mul hp]; omega
    have hdm := Nat.div_add_mod l.length B
    have hml := Nat.mod_lt l.length hp
    generalize hs : subindex (k + 1) i = si
    have hsv : si.1 = l.length / B := by
      rw [← hs]; show i / 4 ^ (k + 1) % 4 = _; rw [hB]; exact hsi
    have hmul : si.1 * B = B * (l.length / B) := by rw [hsv, Nat.mul_comm]
    -- the chunk
    have hcl : (chunk B si.1 l).length = l.length % B := by rw [chunk_length]; omega
    -- release the child
    have hrel : ∃ g2, release k g1 (c si) = .ok g2 ∧ Inv g2 (setL L h.next (k + 1)) (fun y => E y - ind (c si) y)
        (fun y => Z y ∨ y = h.next) ∧ Keep g1 g2 ∧ g2.next = g1.next := by
      cases hcs : c si with
      | none =>
        refine ⟨g1, ?_, hi1.congrE (fun y => by simp [ind]), Keep.refl _, rfl⟩
        cases k <;> rfl
      | some b =>
        obtain ⟨q1, q2, q3⟩ := hkid si b hcs
        have := hi1.count b
        have := hE b (by omega)
        obtain ⟨g2, e, hi2, kk, _, nn⟩ := release_dec hi1 k (a := b) (by omega)
        exact ⟨g2, e, hi2, kk, nn⟩
    obtain ⟨g2, e2, hi2, k2, nn2⟩ := hrel
    have hnode : NodeOk d g2 (setL L h.next (k + 1)) k (c si) (chunk B si.1 l) := by
      by_cases hne : chunk B si.1 l = []
      · rw [(hch si).1 hne]; exact hne
      · obtain ⟨b, hb, hr⟩ := (hch si).2 hne
        rw [hb]
        obtain ⟨q1, q2, _⟩ := hkid si b hb
        exact ⟨by rw [setL_lt _ _ q1]; exact q2, hr.keep (k1.trans k2)⟩
    obtain ⟨g3, r, L', e3, u⟩ := ih g2 _ _ _ (c si) i (chunk B si.1 l) hi2 (by
        intro y hy
        have hne : y ≠ h.next := by intro e; rw [e, setL_self] at hy; omega
        have hly : L y < k := by unfold setL at hy; rw [if_neg hne] at hy; exact hy
        have h0 := hE y (by omega)
        have : ind (c si) y = 0 := by
          cases hcs : c si with
          | none => simp [ind]
          | some b => exact ind_ne (by intro e; have := (hkid si b hcs).2.1; rw [e] at this; omega)
        simp only [this]; omega) hnode (by rw [hcl]; exact hml) (by rw [hcl]; exact him1)
    obtain ⟨n2, hc2, hb2⟩ := k2.2 _ _ hc1
    obtain ⟨n3, hc3, hb3⟩ := u.keep.2 _ _ hc2
    have hb3' : n3.body = .branch c := by rw [hb3, hb2, hb1]
    have hlt3 := u.inv.lt hc3
    obtain ⟨nr, hnr⟩ := u.rep.live
    have hrlt := u.inv.lt hnr
    have hrne : r ≠ h.next := by have := u.fresh; omega
    -- set the child
    have hLn : L' h.next = k + 1 := by rw [u.same _ (by omega), setL_self]
    have hi4 : Inv (g3.put h.next (some { n3 with body := .branch (upd c si (some r)) })) L' (fun y => E y - ind (some r) y)
        (fun y => (Z y ∨ y = h.next) ∨ y = r) := by
      refine u.inv.put hc3 { n3 with body := .branch (upd c si (some r)) } ⟨by omega, ?_⟩ ?_ (fun y _ h => h) (fun h0 => Or.inl (Or.inr rfl))
      · intro j b hj
        unfold upd at hj
        by_cases hjs : j = si
        · rw [if_pos hjs] at hj; cases hj
          exact ⟨hrlt, by rw [u.lev, hLn]⟩
        · rw [if_neg hjs] at hj
          obtain ⟨q1, q2, _⟩ := hkid j b hj
          exact ⟨by omega, by rw [u.same _ (by omega), setL_lt _ _ q1, hLn, q2]⟩
      · intro y
        simp only [hb3', slots_branch]
        have hz : (if y = h.next then (n3.rc : Int) - n3.rc else 0) = 0 := by split <;> omega
        rw [hz]
        have h4 : si = 0 ∨ si = 1 ∨ si = 2 ∨ si = 3 := by omega
        rcases h4 with e | e | e | e <;> subst e <;> simp [upd] <;> omega
    have hcr : (g3.put h.next (some { n3 with body := .branch (upd c si (some r)) })).cell r = some nr := by
      rw [put_cell, if_neg hrne]; exact hnr
    have hcn : (g3.put h.next (some { n3 with body := .branch (upd c si (some r)) })).cell h.next =
        some { n3 with body := .branch (upd c si (some r)) } := by
      rw [put_cell, if_pos rfl]
    have k4 : ∀ a m, a ≠ h.next → g3.cell a = some m →
        (g3.put h.next (some { n3 with body := .branch (upd c si (some r)) })).cell a = some m := by
      intro a m ha hm; rw [put_cell, if_neg ha]; exact hm
    have nn4 : (g3.put h.next (some { n3 with body := .branch (upd c si (some r)) })).next = g3.next := rfl
    have hset : g3.setBody h.next (.branch (upd c si (some r))) =
        .ok (g3.put h.next (some { n3 with body := .branch (upd c si (some r)) })) := by
      unfold Heap.setBody Heap.node; rw [hc3]; rfl
    generalize g3.put h.next (some { n3 with body := .branch (upd c si (some r)) }) = g4 at *
    obtain ⟨g5, e5, hi5, k5, _, nn5⟩ := inc_spec (E' := E) (Z' := fun y => Z y ∨ y = h.next) hi4 hcr
      (fun y => by omega) (fun y hy h => by rcases h with h | h; exact h; exact absurd h hy)
    have kk : Keep h g5 := by
      refine ⟨by have := u.keep.1; omega, fun a n ha => ?_⟩
      have := hi.lt ha
      obtain ⟨m, hm, em⟩ := (k1.trans (k2.trans u.keep)).2 a n ha
      obtain ⟨m', hm', em'⟩ := k5.2 a m (k4 a m (by omega) hm)
      exact ⟨m', hm', em'.trans em⟩
    refine ⟨g5, h.next, L', ?_, hi5, ?_, kk, Nat.le_refl _, hLn, ?_⟩
    · simp only [update, e1, Outcome.ok_bind, children_spec hc1 hb1, hs]
      rw [e2]; simp only [Outcome.ok_bind]
      rw [e3]; simp only [Outcome.ok_bind]
      rw [children_spec hc3 hb3']; simp only [Outcome.ok_bind]
      rw [hset]; simp only [Outcome.ok_bind]
      rw [e5]; rfl
    · intro y hy; rw [u.same y (by omega), setL_lt _ _ hy]
    · obtain ⟨n5, hn5, hb5⟩ := k5.2 _ _ hcn
      refine ⟨by rw [hpe]; simp; omega, n5, _, hn5, hb5, fun j => ?_⟩
      rw [hB]
      by_cases hj : j = si
      · subst hj
        have hchunk : chunk B j.1 (l ++ [x]) = chunk B j.1 l ++ [x] := chunk_snoc_eq x (by omega) (by omega)
        rw [hchunk]
        refine ⟨fun h => by simp at h, fun _ => ⟨r, by simp [upd], ?_⟩⟩
        refine (Rep.low u.inv (k := k) ?_ u.lev (Nat.le_refl _) u.rep).keep k5
        intro a n ha hla
        exact ⟨n, k4 a n (by intro e; rw [e, hLn] at hla; omega) ha, rfl⟩
      · have hchunk : chunk B j.1 (l ++ [x]) = chunk B j.1 l := by
          have hjv : j.1 ≠ l.length / B := by intro e; exact hj (Fin.ext (by rw [e, hsv]))
          rcases Nat.lt_or_gt_of_ne hjv with h1 | h1
          · have h2 : (j.1 + 1) * B ≤ l.length / B * B := Nat.mul_le_mul_right B h1
            rw [Nat.mul_comm (l.length / B) B, Nat.add_mul, Nat.one_mul] at h2
            exact chunk_snoc_lt x (by omega)
          · have h2 : (l.length / B + 1) * B ≤ j.1 * B := Nat.mul_le_mul_right B h1
            rw [Nat.add_mul, Nat.one_mul, Nat.mul_comm (l.length / B) B] at h2
            exact chunk_snoc_gt x (by omega)
        rw [hchunk]
        refine ⟨fun h => by simp only [upd, if_neg hj]; exact (hch j).1 h, fun h => ?_⟩
        obtain ⟨b, hb, hr⟩ := (hch j).2 h
        exact ⟨b, by simp only [upd, if_neg hj]; exact hb, hr.keep kk⟩
end Ab.PVec
