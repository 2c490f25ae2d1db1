import Verif.Proof.ByteBuffer
/-! Programs over several byte buffers. -/
namespace Ab.BB

open Spec (content bufsOf BufStep Careful NoZero MayTrap Always BufRun)

/-- Every live buffer owns its block, and no two own the same. -/
structure Inv (z : Bool) (s : St) : Prop where
  hok : HOk s.heap
  good : ∀ (i : Nat) (b : Buf), s.bufs[i]? = some (some b) → Good z s.heap b
  dist : ∀ (i j : Nat) (b c : Buf) (a : Nat), s.bufs[i]? = some (some b) → s.bufs[j]? = some (some c) →
    b.data = some a → c.data = some a → i = j

theorem inv_init (z) : Inv z St.init :=
  ⟨fun _ _ => rfl, by intro i b h; simp [St.init] at h, by intro i j b c a h; simp [St.init] at h⟩

theorem bufsOf_get {s : St} {i : Nat} {b} (h : s.bufs[i]? = some (some b)) :
    (bufsOf s)[i]? = some (some (content s.heap b)) := by
  simp [bufsOf, h]

theorem content_frame {z h h' c} (g : Good z h c)
    (hf : ∀ a, c.data = some a → h'.blocks a = h.blocks a) : content h' c = content h c := by
  unfold content
  rcases hd : c.data with _ | a
  · rfl
  · simp [hf a hd]

theorem good_frame {z h h' c} (g : Good z h c) (hn : h.next ≤ h'.next)
    (hf : ∀ a, c.data = some a → h'.blocks a = h.blocks a) : Good z h' c := by
  refine ⟨g.sc, g.cb, g.null, ?_, g.pos⟩
  intro a ha
  obtain ⟨hlt, l, hl, hlen⟩ := g.own a ha
  exact ⟨Nat.lt_of_lt_of_le hlt hn, l, by rw [hf a ha, hl], hlen⟩

theorem get_set {l : List (Option Buf)} {i j : Nat} {v : Option Buf} {c}
    (h : (l.set i v)[j]? = some (some c)) : (j = i ∧ v = some c) ∨ (j ≠ i ∧ l[j]? = some (some c)) := by
  rw [List.getElem?_set] at h
  split at h
  · rename_i hij
    split at h
    · left; exact ⟨hij.symm, by simpa using h⟩
    · cases h
  · rename_i hij; right; exact ⟨fun hh => hij hh.symm, h⟩

/-- A member function of buffer `i` ran. -/
theorem inv_put {z : Bool} {s : St} {i : Nat} {b : Buf} {h' : Heap} {b' : Buf} (I : Inv z s) (hi : s.bufs[i]? = some (some b))
    (E : Eff z s.heap b h' b') :
    Inv z ⟨h', s.bufs.set i (some b')⟩ ∧
    bufsOf ⟨h', s.bufs.set i (some b')⟩ = (bufsOf s).set i (some (content h' b')) := by
  have fr : ∀ (j : Nat) (c : Buf), j ≠ i → s.bufs[j]? = some (some c) → ∀ a, c.data = some a →
      h'.blocks a = s.heap.blocks a := by
    intro j c hji hj a ha
    apply E.frame a ((I.good j c hj).own a ha).1
    intro hb
    exact hji (I.dist j i c b a hj hi ha hb)
  constructor
  · refine ⟨E.hok, ?_, ?_⟩
    · intro j c hj
      rcases get_set hj with ⟨rfl, hv⟩ | ⟨hji, hj'⟩
      · cases hv; exact E.good
      · exact good_frame (I.good j c hj') E.next (fr j c hji hj')
    · have key : ∀ (j : Nat) (c : Buf) (a : Nat), j ≠ i → s.bufs[j]? = some (some c) → c.data = some a → b'.data ≠ some a := by
        intro j c a hji hj hc hb
        have hlt := ((I.good j c hj).own a hc).1
        rcases E.ptr with p | p | ⟨d, hd, p⟩
        · exact hji (I.dist j i c b a hj hi hc (by rw [← p, hb]))
        · rw [p] at hb; cases hb
        · rw [p] at hb; injection hb with hb; omega
      intro j k c d a hj hk hc hd
      rcases get_set hj with ⟨hj1, hv⟩ | ⟨hji, hj'⟩ <;> rcases get_set hk with ⟨hk1, hv'⟩ | ⟨hki, hk'⟩
      · rw [hj1, hk1]
      · cases hv; exact absurd hc (key k d a hki hk' hd)
      · cases hv'; exact absurd hd (key j c a hji hj' hc)
      · exact I.dist j k c d a hj' hk' hc hd
  · unfold bufsOf
    apply List.ext_getElem?
    intro j
    simp only [List.getElem?_map, List.getElem?_set, List.length_map]
    by_cases hij : i = j
    · simp [hij]
    · simp only [hij, if_false]
      rcases hj : s.bufs[j]? with _ | (_ | c)
      · rfl
      · rfl
      · simp only [Option.map_some]
        rw [content_frame (I.good j c hj) (fr j c (fun hh => hij hh.symm) hj)]

/-- The heap changed without touching any live buffer's block. -/
theorem inv_heap {z : Bool} {s : St} {h' : Heap} (I : Inv z s) (hn : s.heap.next ≤ h'.next) (ho : HOk h')
    (hf : ∀ a, a < s.heap.next → h'.blocks a = s.heap.blocks a) :
    Inv z ⟨h', s.bufs⟩ ∧ bufsOf ⟨h', s.bufs⟩ = bufsOf s := by
  constructor
  · exact ⟨ho, fun i b hb => good_frame (I.good i b hb) hn
      (fun a ha => hf a ((I.good i b hb).own a ha).1), I.dist⟩
  · unfold bufsOf
    apply List.ext_getElem?
    intro j
    simp only [List.getElem?_map]
    rcases hj : s.bufs[j]? with _ | (_ | c)
    · rfl
    · rfl
    · simp only [Option.map_some]
      rw [content_frame (I.good j c hj) (fun a ha => hf a ((I.good j c hj).own a ha).1)]

theorem get_push {l : List (Option Buf)} {j : Nat} {v c : Buf}
    (h : (l ++ [some v])[j]? = some (some c)) :
    (j = l.length ∧ v = c) ∨ (l[j]? = some (some c)) := by
  by_cases hlt : j < l.length
  · right; rwa [List.getElem?_append_left hlt] at h
  · rw [List.getElem?_append_right (by omega)] at h
    left
    have : j - l.length = 0 := by
      rcases hk : j - l.length with _ | k
      · rfl
      · rw [hk] at h; simp at h
    rw [this] at h
    simp at h
    exact ⟨by omega, h⟩

/-- A new buffer object appeared. -/
theorem inv_push {z : Bool} {s : St} {b' : Buf} (I : Inv z s) (g : Good z s.heap b')
    (hd : ∀ a, b'.data = some a → ∀ (j : Nat) (c : Buf), s.bufs[j]? = some (some c) → c.data ≠ some a) :
    Inv z ⟨s.heap, s.bufs ++ [some b']⟩ ∧
    bufsOf ⟨s.heap, s.bufs ++ [some b']⟩ = bufsOf s ++ [some (content s.heap b')] := by
  constructor
  · refine ⟨I.hok, ?_, ?_⟩
    · intro j c hj
      rcases get_push hj with ⟨_, rfl⟩ | hj'
      · exact g
      · exact I.good j c hj'
    · intro j k c d a hj hk hc hdd
      rcases get_push hj with ⟨hj1, hv⟩ | hj' <;> rcases get_push hk with ⟨hk1, hv'⟩ | hk'
      · rw [hj1, hk1]
      · subst hv; exact absurd hdd (hd a hc k d hk')
      · subst hv'; exact absurd hc (hd a hdd j c hj')
      · exact I.dist j k c d a hj' hk' hc hdd
  · simp [bufsOf]

/-- Destroying object `i`. -/
theorem inv_drop {z : Bool} {s : St} {i : Nat} {b : Buf} {h' : Heap} (I : Inv z s) (hi : s.bufs[i]? = some (some b))
    (E : Eff z s.heap b h' ⟨none, 0, 0⟩) :
    Inv z ⟨h', s.bufs.set i none⟩ ∧ bufsOf ⟨h', s.bufs.set i none⟩ = (bufsOf s).set i none := by
  obtain ⟨I1, hb⟩ := inv_put I hi E
  have hilt : i < s.bufs.length := by
    rcases Nat.lt_or_ge i s.bufs.length with h | h
    · exact h
    · rw [List.getElem?_eq_none h] at hi; cases hi
  constructor
  · refine ⟨I1.hok, ?_, ?_⟩
    · intro j c hj
      rcases get_set hj with ⟨_, hv⟩ | ⟨hji, hj'⟩
      · cases hv
      · exact I1.good j c (by rw [List.getElem?_set_ne (fun hh => hji hh.symm)]; exact hj')
    · intro j k c d a hj hk hc hd
      rcases get_set hj with ⟨_, hv⟩ | ⟨hji, hj'⟩
      · cases hv
      rcases get_set hk with ⟨_, hv⟩ | ⟨hki, hk'⟩
      · cases hv
      exact I.dist j k c d a hj' hk' hc hd
  · have h1 : s.bufs.set i none = (s.bufs.set i (some ⟨none, 0, 0⟩)).set i none := by
      rw [List.set_set]
    have h2 : bufsOf ⟨h', s.bufs.set i none⟩ = (bufsOf ⟨h', s.bufs.set i (some ⟨none, 0, 0⟩)⟩).set i none := by
      unfold bufsOf
      rw [h1]
      simp [List.map_set]
    rw [h2, hb, List.set_set]

theorem clear_spec {z h b} (g : Good z h b) (ho : HOk h) :
    ∃ h', clear h b = .ok (h', ⟨none, 0, 0⟩) ∧ Eff z h b h' ⟨none, 0, 0⟩ := by
  unfold clear free
  rcases hd : b.data with _ | a
  · exact ⟨h, rfl, fun _ _ _ => rfl, Nat.le_refl _, ho, Or.inr (Or.inl rfl), good_null z h⟩
  · obtain ⟨hlt, l, hl, hlen⟩ := g.own a hd
    simp only [hl, Outcome.ok_bind, Outcome.pure_eq]
    refine ⟨_, rfl, ?_, Nat.le_refl _, ?_, Or.inr (Or.inl rfl), good_null z _⟩
    · intro x _ hne
      have : x ≠ a := fun hh => hne (by rw [hh, hd])
      simp [Heap.set, this]
    · intro x hx
      have hx' : h.next ≤ x := hx
      have : x ≠ a := by omega
      simp [Heap.set, this]
      exact ho x hx

theorem malloc_spec (e : Env) {h : Heap} (ho : HOk h) (n : Nat) :
    (∃ h', malloc e h n = (h', none) ∧ h'.blocks = h.blocks ∧ h'.next = h.next) ∨
    (∃ h', malloc e h n = (h', some h.next) ∧ n < 2^63 ∧ h'.next = h.next + 1 ∧ HOk h' ∧
      (∃ l, h'.blocks h.next = some l ∧ l.length = n) ∧ ∀ a, a ≠ h.next → h'.blocks a = h.blocks a) := by
  unfold malloc
  by_cases hr : e.refuses h n = true
  · left; exact ⟨{ h with reqs := h.reqs + 1 }, by rw [if_pos hr], rfl, rfl⟩
  · right
    refine ⟨_, by rw [if_neg hr], refuses_false (by simpa using hr), rfl, ?_, ?_, ?_⟩
    · intro a ha
      have ha' : h.next + 1 ≤ a := ha
      have : a ≠ h.next := by omega
      simp [Heap.set, this]; exact ho a (by omega)
    · exact ⟨_, by simp [Heap.set]; rfl, fresh_len ..⟩
    · intro a ha; simp [Heap.set, ha]

theorem St.buf_eq {s : St} {i : Nat} {b} (h : s.bufs[i]? = some (some b)) : s.buf i = .ok b := by
  simp [St.buf, h]

theorem set_same {A : List (Option (List Byte))} {i : Nat} {v} (h : A[i]? = some v) : A.set i v = A := by
  apply List.ext_getElem?
  intro j
  rw [List.getElem?_set]
  split
  · rename_i hij
    subst hij
    have : i < A.length := by
      rcases Nat.lt_or_ge i A.length with hh | hh
      · exact hh
      · rw [List.getElem?_eq_none hh] at h; cases h
    simp [this, ← h]
  · rfl

/-- Wrap up a member function with the usual result. -/
theorem put_step {z : Bool} {s : St} {i : Nat} {b : Buf} {r : Res} {op : Op} {A'} (I : Inv z s) (hi : s.bufs[i]? = some (some b))
    (E : Eff z s.heap b r.heap r.buf)
    (hthr : r.threw = true → Spec.needsMemory op = true ∧ content r.heap r.buf = content s.heap b)
    (hok : r.threw = false → (bufsOf s).set i (some (content r.heap r.buf)) = A' ∧
      BufStep (bufsOf s) op A' .unit) :
    Inv z (s.put i r).1 ∧ BufStep (bufsOf s) op (bufsOf (s.put i r).1) (s.put i r).2 := by
  obtain ⟨I', hb⟩ := inv_put I hi E
  refine ⟨I', ?_⟩
  unfold St.put
  simp only
  rw [hb]
  cases ht : r.threw
  · obtain ⟨h1, h2⟩ := hok ht
    rw [h1]; exact h2
  · obtain ⟨h1, h2⟩ := hthr ht
    rw [h2, set_same (bufsOf_get hi)]
    exact .badAlloc h1

/-- One careful operation: never undefined, keeps ownership, does what the lists do. -/
theorem step_spec {z} (e : Env) {s : St} {op : Op} (I : Inv z s) (hc : Careful s op)
    (hz : z = false → NoZero s op) :
    (∃ w, step e s op = .trap w ∧ MayTrap z (bufsOf s) op) ∨
    ∃ s' o, step e s op = .ok (s', o) ∧ Inv z s' ∧ BufStep (bufsOf s) op (bufsOf s') o := by
  have empty_of : ∀ {b : Buf}, Good z s.heap b → b.capa = 0 → content s.heap b = [] := by
    intro b g h0
    have := g.content_len
    have := g.sc
    exact List.length_eq_zero_iff.mp (by omega)
  cases op with
  | new c =>
    right
    simp only [step, ctor]
    rcases malloc_spec e I.hok c with ⟨h', hm, hb, hn⟩ | ⟨h', hm, hlt, hn, ho', ⟨l, hl, hlen⟩, hf⟩
    · rw [hm]
      obtain ⟨I1, hb1⟩ := inv_heap (h' := h') I (by omega)
        (fun a ha => by rw [hb]; exact I.hok a (by omega)) (fun a _ => by rw [hb])
      exact ⟨_, _, rfl, I1, by rw [hb1]; exact .badAlloc rfl⟩
    · rw [hm]
      obtain ⟨I1, hb1⟩ := inv_heap (h' := h') I (by omega) ho' (fun a ha => hf a (by omega))
      have g : Good z h' ⟨some s.heap.next, 0, c⟩ := by
        refine ⟨Nat.zero_le _, hlt, by simp, ?_, ?_⟩
        · intro a ha; cases ha; exact ⟨by omega, l, hl, hlen⟩
        · intro a _ h0; exact Nat.pos_of_ne_zero (hz h0)
      obtain ⟨I2, hb2⟩ := inv_push I1 g (by
        intro a ha j d hj hd
        injection ha with ha
        have := ((I.good j d hj).own a hd).1
        omega)
      refine ⟨_, _, rfl, I2, ?_⟩
      rw [hb2, hb1]
      have : content h' ⟨some s.heap.next, 0, c⟩ = [] := by simp [content]
      simp only [this]
      exact .new _ _
  | copy i =>
    right
    obtain ⟨o, hi, -⟩ := hc
    have go := I.good i o hi
    simp only [step, St.buf_eq hi, Outcome.ok_bind, copyCtor]
    rcases malloc_spec e I.hok o.capa with ⟨h', hm, hb, hn⟩ | ⟨h', hm, hlt, hn, ho', ⟨l, hl, hlen⟩, hf⟩
    · rw [hm]
      obtain ⟨I1, hb1⟩ := inv_heap (h' := h') I (by omega)
        (fun a ha => by rw [hb]; exact I.hok a (by omega)) (fun a _ => by rw [hb])
      exact ⟨_, _, rfl, I1, by rw [hb1]; exact .badAlloc rfl⟩
    · rw [hm]
      simp only
      obtain ⟨I1, hb1⟩ := inv_heap (h' := h') I (by omega) ho' (fun a ha => hf a (by omega))
      have go1 : Good z h' o := I1.good i o hi
      have hc1 : content h' o = content s.heap o :=
        content_frame go (fun a ha => hf a (by have := (go.own a ha).1; omega))
      have hosc := go.sc
      have hld : load h' o.data 0 o.size = .ok (content s.heap o) := by
        rw [load_ok go1 (by omega), ← hc1, content_eq]; simp
      rw [hld]
      simp only [Outcome.ok_bind]
      have g : Good z h' ⟨some s.heap.next, o.size, o.capa⟩ := by
        refine ⟨go.sc, hlt, by simp, ?_, ?_⟩
        · intro a ha; cases ha; exact ⟨by omega, l, hl, hlen⟩
        · intro a _ h0; exact Nat.pos_of_ne_zero (hz h0 o hi)
      have g0 : Good z h' ⟨some s.heap.next, 0, o.capa⟩ := ⟨Nat.zero_le _, g.cb, g.null, g.own, g.pos⟩
      have hclen := go.content_len
      obtain ⟨h2, hst, he2, hbk⟩ := store_eff g0 ho' (off := 0) (src := content s.heap o) (by
        show 0 + _ ≤ o.capa; omega)
      rw [hst]
      simp only [Outcome.ok_bind, Outcome.pure_eq]
      have hfr : ∀ a, a < s.heap.next → h2.blocks a = s.heap.blocks a := by
        intro a ha
        rw [he2.frame a (by omega) (by simp; omega), hf a (by omega)]
      obtain ⟨I2, hb2⟩ := inv_heap (h' := h2) I (Nat.le_trans (by omega) he2.next) he2.hok hfr
      have g2 : Good z h2 ⟨some s.heap.next, o.size, o.capa⟩ :=
        ⟨go.sc, hlt, by simp, he2.good.own, g.pos⟩
      obtain ⟨I3, hb3⟩ := inv_push I2 g2 (by
        intro a ha j d hj hd
        injection ha with ha
        have := ((I.good j d hj).own a hd).1
        omega)
      refine ⟨_, _, rfl, I3, ?_⟩
      rw [hb3, hb2]
      have : content h2 ⟨some s.heap.next, o.size, o.capa⟩ = content s.heap o := by
        have := content_after_store g0 (h' := h2) (src := content s.heap o)
          (by show 0 + _ ≤ o.capa; omega) hbk
        simp only [Nat.zero_add, hclen] at this
        rw [this]
        simp [content]
      simp only [this]
      exact .copy (bufsOf_get hi)
  | move i =>
    right
    obtain ⟨o, hi, -⟩ := hc
    have go := I.good i o hi
    simp only [step, St.buf_eq hi, Outcome.ok_bind, Outcome.pure_eq, moveCtor]
    obtain ⟨I1, hb1⟩ := inv_put I hi (h' := s.heap) (b' := ⟨none, 0, 0⟩)
      ⟨fun _ _ _ => rfl, Nat.le_refl _, I.hok, Or.inr (Or.inl rfl), good_null z _⟩
    obtain ⟨I2, hb2⟩ := inv_push I1 (b' := o) go (by
      intro a ha j c hj hcd
      rcases get_set hj with ⟨_, hv⟩ | ⟨hji, hj'⟩
      · cases hv; cases hcd
      · exact hji (I.dist j i c o a hj' hi hcd ha))
    refine ⟨_, _, rfl, I2, ?_⟩
    rw [hb2, hb1]
    exact .move (bufsOf_get hi)
  | destroy i =>
    right
    obtain ⟨b, hi, -⟩ := hc
    obtain ⟨h', hcl, E⟩ := clear_spec (I.good i b hi) I.hok
    simp only [step, St.buf_eq hi, Outcome.ok_bind, hcl, Outcome.pure_eq]
    obtain ⟨I1, hb1⟩ := inv_drop I hi E
    exact ⟨_, _, rfl, I1, by rw [hb1]; exact .destroy (bufsOf_get hi)⟩
  | clear i =>
    right
    obtain ⟨b, hi, -⟩ := hc
    obtain ⟨h', hcl, E⟩ := clear_spec (I.good i b hi) I.hok
    simp only [step, St.buf_eq hi, Outcome.ok_bind, hcl, Outcome.pure_eq]
    obtain ⟨I1, hb1⟩ := inv_put I hi E
    exact ⟨_, _, rfl, I1, by rw [hb1]; exact .clear (bufsOf_get hi)⟩
  | append i src =>
    obtain ⟨b, hi, hlen⟩ := hc
    have g := I.good i b hi
    simp only [step, St.buf_eq hi, Outcome.ok_bind]
    rcases append_spec e g I.hok hlen with ⟨w, hw, h0, hd, hzt⟩ | ⟨r, hr, E, hcon⟩
    · left
      exact ⟨w, by rw [hw]; rfl, hzt, by rw [bufsOf_get hi, empty_of g h0]⟩
    · right
      rw [hr]
      refine ⟨_, _, rfl, ?_⟩
      refine put_step I hi E (fun ht => ⟨rfl, by rw [hcon, ht]; rfl⟩) (fun ht => ⟨rfl, ?_⟩)
      rw [hcon, ht]
      exact .append (bufsOf_get hi)
  | appendBuf i j =>
    obtain ⟨⟨b, hi, hroom⟩, o, hj, -⟩ := hc
    have g := I.good i b hi
    have go := I.good j o hj
    simp only [step, St.buf_eq hi, St.buf_eq hj, Outcome.ok_bind]
    have hcase : o = b ∧ b.size + b.size ≤ b.capa ∨ (∀ a, b.data = some a → o.data ≠ some a) := by
      by_cases hij : i = j
      · subst hij
        rw [hi] at hj; cases hj
        rcases hroom with h | h
        · exact absurd rfl h
        · exact Or.inl ⟨rfl, h⟩
      · right
        intro a ha ho
        exact hij (I.dist i j b o a hi hj ha ho)
    rcases appendBuf_spec e g go I.hok hcase with ⟨w, hw, h0, hd, hzt⟩ | ⟨r, hr, E, hcon⟩
    · left
      exact ⟨w, by rw [hw]; rfl, hzt, by rw [bufsOf_get hi, empty_of g h0]⟩
    · right
      rw [hr]
      refine ⟨_, _, rfl, ?_⟩
      refine put_step I hi E (fun ht => ⟨rfl, by rw [hcon, ht]; rfl⟩) (fun ht => ⟨rfl, ?_⟩)
      rw [hcon, ht]
      exact .appendBuf (bufsOf_get hi) (bufsOf_get hj)
  | write i off src =>
    obtain ⟨b, hi, hlt⟩ := hc
    have g := I.good i b hi
    have hcl := g.content_len
    have hsc := g.sc
    simp only [step, St.buf_eq hi, Outcome.ok_bind, write, add64_small hlt]
    by_cases hin : off + src.length ≤ b.size
    · right
      simp only [hin, decide_true, Outcome.assert_true, Outcome.ok_bind]
      obtain ⟨h', hst, E, hbk⟩ := store_eff g I.hok (off := off) (src := src) (by omega)
      rw [hst]
      simp only [Outcome.ok_bind, Outcome.pure_eq]
      obtain ⟨I1, hb1⟩ := inv_put I hi E
      have hset : s.bufs.set i (some b) = s.bufs := by
        apply List.ext_getElem?
        intro j
        rw [List.getElem?_set]
        split
        · rename_i hij; subst hij
          have : i < s.bufs.length := by
            rcases Nat.lt_or_ge i s.bufs.length with h | h
            · exact h
            · rw [List.getElem?_eq_none h] at hi; cases hi
          simp [this, ← hi]
        · rfl
      rw [hset] at I1 hb1
      refine ⟨_, _, rfl, I1, ?_⟩
      rw [hb1]
      have : content h' b = (content s.heap b).take off ++ src ++ (content s.heap b).drop (off + src.length) := by
        have hbl := g.blk_len
        rw [content_eq, hbk, content_eq, List.take_take, Nat.min_eq_left (by omega), List.drop_take,
          List.take_append, List.take_of_length_le (by
            simp only [List.length_append, List.length_take]; omega)]
        congr 2
        simp only [List.length_append, List.length_take]; omega
      rw [this]
      exact .write (bufsOf_get hi) (by omega)
    · left
      refine ⟨"offset + nbytes <= size_", by simp [hin], _, bufsOf_get hi, by omega⟩
  | read i off n =>
    obtain ⟨b, hi, hlt⟩ := hc
    have g := I.good i b hi
    have hcl := g.content_len
    have hsc := g.sc
    simp only [step, St.buf_eq hi, Outcome.ok_bind, read, add64_small hlt]
    by_cases hin : off + n ≤ b.size
    · right
      simp only [hin, decide_true, Outcome.assert_true, Outcome.ok_bind]
      rw [load_ok g (by omega)]
      simp only [Outcome.ok_bind, Outcome.pure_eq]
      refine ⟨_, _, rfl, I, ?_⟩
      have : ((blk s.heap b).drop off).take n = ((content s.heap b).drop off).take n := by
        rw [content_eq, List.drop_take, List.take_take, Nat.min_eq_left (by omega)]
      rw [this]
      exact .read (bufsOf_get hi) (by omega)
    · left
      refine ⟨"offset + sizeof(T) <= size_", by simp [hin], _, bufsOf_get hi, by omega⟩
  | index i off =>
    right
    obtain ⟨b, hi, hlt⟩ := hc
    have g := I.good i b hi
    have hcl := g.content_len
    have hsc := g.sc
    simp only [step, St.buf_eq hi, Outcome.ok_bind, index]
    rw [load_ok g (by omega)]
    simp only [Outcome.ok_bind, Outcome.pure_eq]
    refine ⟨_, _, rfl, I, ?_⟩
    have hb : off < (content s.heap b).length := by omega
    have : ((blk s.heap b).drop off).take 1 = [(content s.heap b)[off]] := by
      have h1 : ((blk s.heap b).drop off).take 1 = ((content s.heap b).drop off).take 1 := by
        rw [content_eq, List.drop_take, List.take_take, Nat.min_eq_left (by omega)]
      rw [h1, List.drop_eq_getElem_cons hb, List.take_succ_cons, List.take_zero]
    rw [this]
    exact .index (bufsOf_get hi) (List.getElem?_eq_getElem hb)
  | resize i n =>
    right
    obtain ⟨b, hi, hn⟩ := hc
    have g := I.good i b hi
    have hcl := g.content_len
    have hbl := g.blk_len
    have hsc := g.sc
    simp only [step, St.buf_eq hi, Outcome.ok_bind, resize]
    obtain ⟨r, hr, hcase⟩ := resizeCapacity_spec e g I.hok hn
    rw [hr]
    simp only [Outcome.ok_bind]
    have fin : ∀ (m : List Byte), m.length = n → m.take b.size = (content s.heap b).take n →
        BufStep (bufsOf s) (.resize i n) ((bufsOf s).set i (some m)) .unit := by
      intro m hm ht
      by_cases hle : n ≤ b.size
      · have : m = (content s.heap b).take n := by
          rw [← ht, List.take_of_length_le (by omega)]
        rw [this]
        exact .resizeDown (bufsOf_get hi) (by omega)
      · have : m = content s.heap b ++ m.drop b.size := by
          have h1 : (content s.heap b).take n = content s.heap b := List.take_of_length_le (by omega)
          rw [← h1, ← ht, List.take_append_drop]
        rw [this]
        exact .resizeUp (bufsOf_get hi) (by simp only [List.length_drop]; omega)
    rcases hcase with ⟨hb, hbk, hnx, hthr⟩ | ⟨ht, hn0, hlt, hb, hnx, ⟨ext, hext, hlen⟩, hfr, hdead⟩
    · cases ht : r.threw
      · simp only [Bool.false_eq_true, if_false, Outcome.pure_eq, Outcome.ok_bind]
        have hnc := hthr ht
        refine ⟨_, _, rfl, put_step I hi ?_ (by simp) (fun _ => ⟨rfl, ?_⟩)⟩
        · refine ⟨fun _ _ _ => by rw [hbk], by simp [hnx], ?_, Or.inl (by simp [hb]), ?_⟩
          · intro a ha
            show r.heap.blocks a = none
            rw [hbk]; exact I.hok a (by rw [← hnx]; exact ha)
          · rw [hb]
            exact ⟨by show n ≤ b.capa; omega, g.cb, g.null, by rw [hbk, hnx]; exact g.own, g.pos⟩
        · apply fin
          · rw [content_eq, List.length_take, blk_size, hb]
            have : blk r.heap b = blk s.heap b := by unfold blk; rw [hbk]
            rw [this]; simp only; omega
          · rw [content_eq, blk_size, hb]
            have : blk r.heap b = blk s.heap b := by unfold blk; rw [hbk]
            rw [this, content_eq, List.take_take, List.take_take, Nat.min_comm]
      · simp only [if_true, Outcome.pure_eq, Outcome.ok_bind]
        refine ⟨_, _, rfl, put_step (A' := bufsOf s) I hi ?_ (fun _ => ⟨rfl, ?_⟩) (by simp [ht])⟩
        · refine ⟨fun _ _ _ => by rw [hbk], by simp [hnx], ?_, Or.inl (by simp [hb]), ?_⟩
          · intro a ha
            show r.heap.blocks a = none
            rw [hbk]; exact I.hok a (by rw [← hnx]; exact ha)
          · rw [hb]
            exact ⟨g.sc, g.cb, g.null, by rw [hbk, hnx]; exact g.own, g.pos⟩
        · rw [hb]; simp [content, hbk]
    · simp only [ht, Bool.false_eq_true, if_false, Outcome.pure_eq, Outcome.ok_bind]
      refine ⟨_, _, rfl, put_step I hi ?_ (by simp) (fun _ => ⟨rfl, ?_⟩)⟩
      · refine ⟨?_, by simp [hnx], ?_, Or.inr (Or.inr ⟨s.heap.next, Nat.le_refl _, by simp [hb]⟩), ?_⟩
        · intro a ha hne; exact hfr a (by omega) hne
        · intro a ha
          have ha' : r.heap.next ≤ a := ha
          show r.heap.blocks a = none
          rw [hfr a (by omega) ?_]
          · exact I.hok a (by omega)
          · intro hh; have := (g.own a hh).1; omega
        · rw [hb]
          refine ⟨Nat.le_refl _, hlt, by simp, ?_, fun _ _ _ => Nat.pos_of_ne_zero hn0⟩
          intro a ha; cases ha
          exact ⟨by simp only; omega, _, hext, hlen⟩
      · apply fin
        · rw [hb]
          simp only [content, hext, Option.getD_some, List.length_take]
          omega
        · rw [hb]
          simp only [content, hext, Option.getD_some]
          rw [List.take_of_length_le (i := n) (by omega)]
          by_cases hle : b.size ≤ n
          · rw [List.take_append_of_le_length (by rw [List.length_take]; omega), List.take_take,
              Nat.min_eq_left hle]
            have hc2 : List.take n (content s.heap b) = content s.heap b :=
              List.take_of_length_le (by omega)
            have hc3 := content_eq s.heap b
            unfold content at hc2 hc3
            rw [hc2, hc3]
          · have hex : ext = [] := by
              rw [List.length_append, List.length_take] at hlen
              exact List.length_eq_zero_iff.mp (by omega)
            rw [hex, List.append_nil, List.take_take, Nat.min_eq_right (by omega)]
            have hc3 := content_eq s.heap b
            unfold content at hc3
            rw [hc3, List.take_take, Nat.min_eq_left (by omega)]
  | reserve i n =>
    right
    obtain ⟨b, hi, -⟩ := hc
    have g := I.good i b hi
    have hsc := g.sc
    simp only [step, St.buf_eq hi, Outcome.ok_bind, reserve]
    by_cases hlt : b.capa < n
    · rw [if_pos hlt]
      obtain ⟨r, hr, E, hsz, hcon, -⟩ := resizeCapacity_eff e g I.hok (n := n) (Or.inl (by omega)) (by omega)
      rw [hr]
      refine ⟨_, _, rfl, put_step I hi E (fun _ => ⟨rfl, hcon⟩) (fun _ => ⟨rfl, ?_⟩)⟩
      rw [hcon, set_same (bufsOf_get hi)]
      exact .reserve (bufsOf_get hi)
    · rw [if_neg hlt]
      refine ⟨_, _, rfl, put_step I hi ⟨fun _ _ _ => rfl, Nat.le_refl _, I.hok, Or.inl rfl, g⟩
        (by simp) (fun _ => ⟨rfl, ?_⟩)⟩
      rw [set_same (bufsOf_get hi)]
      exact .reserve (bufsOf_get hi)
  | shrink i =>
    right
    obtain ⟨b, hi, hn⟩ := hc
    have g := I.good i b hi
    simp only [step, St.buf_eq hi, Outcome.ok_bind, shrinkToFit]
    obtain ⟨r, hr, E, hsz, hcon, -⟩ := resizeCapacity_eff e g I.hok (n := b.size) hn (Nat.le_refl _)
    rw [hr]
    refine ⟨_, _, rfl, put_step I hi E (fun _ => ⟨rfl, hcon⟩) (fun _ => ⟨rfl, ?_⟩)⟩
    rw [hcon, set_same (bufsOf_get hi)]
    exact .shrink (bufsOf_get hi)
  | release i =>
    right
    obtain ⟨b, hi, -⟩ := hc
    have g := I.good i b hi
    have hsc := g.sc
    simp only [step, St.buf_eq hi, Outcome.ok_bind, release]
    rw [load_ok g (by omega)]
    simp only [Outcome.ok_bind, Outcome.pure_eq]
    obtain ⟨I1, hb1⟩ := inv_put I hi (h' := s.heap) (b' := ⟨none, 0, 0⟩)
      ⟨fun _ _ _ => rfl, Nat.le_refl _, I.hok, Or.inr (Or.inl rfl), good_null z _⟩
    refine ⟨_, _, rfl, I1, ?_⟩
    rw [hb1]
    have : ((blk s.heap b).drop 0).take b.size = content s.heap b := by rw [content_eq]; simp
    rw [this]
    exact .release (bufsOf_get hi)
  | releaseSpan i =>
    obtain ⟨b, hi, hn⟩ := hc
    have g := I.good i b hi
    simp only [step, St.buf_eq hi, Outcome.ok_bind, releaseSpan, shrinkToFit]
    obtain ⟨r, hr, E, hsz, hcon, -⟩ := resizeCapacity_eff e g I.hok (n := b.size) hn (Nat.le_refl _)
    rw [hr]
    simp only [Outcome.ok_bind]
    cases ht : r.threw
    · right
      simp only [Bool.false_eq_true, if_false, Outcome.pure_eq, Outcome.ok_bind]
      have hsc := E.good.sc
      rw [load_ok E.good (by omega)]
      simp only [Outcome.ok_bind]
      obtain ⟨I1, hb1⟩ := inv_put I hi (h' := r.heap) (b' := ⟨none, 0, 0⟩)
        ⟨E.frame, E.next, E.hok, Or.inr (Or.inl rfl), good_null z _⟩
      refine ⟨_, _, rfl, I1, ?_⟩
      rw [hb1]
      have : ((blk r.heap r.buf).drop 0).take r.buf.size = content s.heap b := by
        rw [← hcon, content_eq]; simp
      rw [this]
      exact .releaseSpan (bufsOf_get hi)
    · left
      exact ⟨_, rfl, trivial⟩

/-- Whole careful programs. -/
theorem run_spec {z} (e : Env) {s : St} {ops : List Op} (I : Inv z s)
    (hc : Always (fun s op => Careful s op ∧ (z = false → NoZero s op)) e s ops) :
    (∃ w, run e s ops = .trap w) ∨
    ∃ s' os, run e s ops = .ok (s', os) ∧ Inv z s' ∧ BufRun (bufsOf s) ops (bufsOf s') os := by
  induction ops generalizing s with
  | nil => right; exact ⟨s, [], rfl, I, .nil _⟩
  | cons op ops ih =>
    obtain ⟨⟨h1, h2⟩, h3⟩ := hc
    rcases step_spec e I h1 h2 with ⟨w, hw, -⟩ | ⟨s', o, hst, I', hstep⟩
    · left; exact ⟨w, by simp [run, hw]⟩
    · rcases ih I' (h3 s' o hst) with ⟨w, hw⟩ | ⟨s'', os, hr, I'', hrun⟩
      · left; exact ⟨w, by simp [run, hst, hw]⟩
      · right; exact ⟨s'', o :: os, by simp [run, hst, hr], I'', .cons hstep hrun⟩

end Ab.BB
