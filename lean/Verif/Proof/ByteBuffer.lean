import Verif.Spec.ByteBuffer
/-! Proofs about the byte buffer model. -/
namespace Ab.BB

open Spec (content)

/-- Nothing is allocated at or beyond `next`. -/
def HOk (h : Heap) : Prop := ∀ a, h.next ≤ a → h.blocks a = none

/-- The whole block of a buffer. -/
def blk (h : Heap) (b : Buf) : List Byte :=
  match b.data with
  | none => []
  | some a => (h.blocks a).getD []

theorem content_eq (h : Heap) (b : Buf) : content h b = (blk h b).take b.size := by
  unfold content blk; cases b.data <;> simp

/-- A buffer that owns a live block of its capacity (or nothing). `z` allows a non-null zero-capacity
block. -/
structure Good (z : Bool) (h : Heap) (b : Buf) : Prop where
  sc : b.size ≤ b.capa
  cb : b.capa < 2^63
  null : b.data = none → b.capa = 0
  own : ∀ a, b.data = some a → a < h.next ∧ ∃ l, h.blocks a = some l ∧ l.length = b.capa
  pos : ∀ a, b.data = some a → z = false → 0 < b.capa

theorem Good.blk_len {z h b} (g : Good z h b) : (blk h b).length = b.capa := by
  unfold blk
  rcases hd : b.data with _ | a
  · simp [g.null hd]
  · obtain ⟨_, l, hl, hlen⟩ := g.own a hd
    simp [hl, hlen]

theorem Good.content_len {z h b} (g : Good z h b) : (content h b).length = b.size := by
  rw [content_eq, List.length_take, g.blk_len]; have := g.sc; omega

theorem good_null (z h) : Good z h ⟨none, 0, 0⟩ :=
  ⟨Nat.le_refl _, by decide, fun _ => rfl, (by intro a h; cases h), (by intro a h; cases h)⟩

/-- Effect of a member function of `b` on the rest of the world. -/
structure Eff (z : Bool) (h : Heap) (b : Buf) (h' : Heap) (b' : Buf) : Prop where
  frame : ∀ a, a < h.next → b.data ≠ some a → h'.blocks a = h.blocks a
  next : h.next ≤ h'.next
  hok : HOk h'
  ptr : b'.data = b.data ∨ b'.data = none ∨ ∃ a, h.next ≤ a ∧ b'.data = some a
  good : Good z h' b'

theorem fresh_len (e : Env) (a lo n) : (e.fresh a lo n).length = n := by simp [Env.fresh]

theorem refuses_false {e : Env} {h n} (hr : e.refuses h n = false) : n < 2^63 := by
  unfold Env.refuses at hr
  simp at hr; omega

theorem resizeCapacity_spec {z} (e : Env) {h : Heap} {b : Buf} (g : Good z h b) (ho : HOk h) {n : Nat}
    (hn : n ≠ 0 ∨ b.capa = 0) :
    ∃ r, resizeCapacity e h b n = .ok r ∧
      ((r.buf = b ∧ r.heap.blocks = h.blocks ∧ r.heap.next = h.next ∧ (r.threw = false → n = b.capa)) ∨
       (r.threw = false ∧ n ≠ 0 ∧ n < 2^63 ∧ r.buf = ⟨some h.next, b.size, n⟩ ∧ r.heap.next = h.next + 1 ∧
        (∃ ext, r.heap.blocks h.next = some ((blk h b).take n ++ ext) ∧
          ((blk h b).take n ++ ext).length = n) ∧
        (∀ x, x ≠ h.next → b.data ≠ some x → r.heap.blocks x = h.blocks x) ∧
        (∀ a, b.data = some a → r.heap.blocks a = none))) := by
  unfold resizeCapacity
  by_cases h1 : n = b.capa
  · exact ⟨_, by rw [if_pos h1], Or.inl ⟨rfl, rfl, rfl, fun _ => h1⟩⟩
  rw [if_neg h1]
  have h2 : n ≠ 0 := by omega
  rw [if_neg h2]
  unfold realloc
  rcases hd : b.data with _ | a
  · simp only [malloc]
    by_cases hr : e.refuses h n = true
    · simp only [hr, if_true, Outcome.ok_bind, Outcome.pure_eq]
      exact ⟨_, rfl, Or.inl ⟨rfl, rfl, rfl, by simp⟩⟩
    · simp only [hr, Outcome.ok_bind, Outcome.pure_eq]
      have hr' : e.refuses h n = false := by simpa using hr
      refine ⟨_, rfl, Or.inr ⟨rfl, h2, refuses_false hr', rfl, rfl, ?_, ?_, by simp⟩⟩
      · exact ⟨_, by simp [Heap.set, blk, hd]; rfl, by simp [blk, hd, fresh_len]⟩
      · intro x hx _
        simp [Heap.set, hx]
  · obtain ⟨hlt, l, hl, hlen⟩ := g.own a hd
    simp only [hl]
    by_cases hr : e.refuses h n = true
    · simp only [hr, if_true, Outcome.ok_bind, Outcome.pure_eq]
      exact ⟨_, rfl, Or.inl ⟨rfl, rfl, rfl, by simp⟩⟩
    · simp only [hr, Outcome.ok_bind, Outcome.pure_eq]
      have hr' : e.refuses h n = false := by simpa using hr
      have hb : blk h b = l := by simp [blk, hd, hl]
      refine ⟨_, rfl, Or.inr ⟨rfl, h2, refuses_false hr', rfl, rfl, ?_, ?_, ?_⟩⟩
      · refine ⟨e.fresh h.next l.length (n - l.length), by simp [Heap.set, hb], ?_⟩
        rw [hb, List.length_append, List.length_take, fresh_len]; omega
      · intro x hx hx'
        have : x ≠ a := fun hh => hx' (by rw [hh])
        simp [Heap.set, hx, this]
      · intro x hx
        cases hx
        have : a ≠ h.next := by omega
        simp [Heap.set, this]

/-- Summary of a capacity change that keeps the contents. -/
theorem resizeCapacity_eff {z} (e : Env) {h : Heap} {b : Buf} (g : Good z h b) (ho : HOk h) {n : Nat}
    (hn : n ≠ 0 ∨ b.capa = 0) (hs : b.size ≤ n) :
    ∃ r, resizeCapacity e h b n = .ok r ∧ Eff z h b r.heap r.buf ∧ r.buf.size = b.size ∧
      content r.heap r.buf = content h b ∧ (r.threw = false → r.buf.capa = n) ∧
      (r.threw = true → r.buf = b) ∧
      (∀ a, b.data = some a → r.buf ≠ b → r.heap.blocks a = none ∧ r.buf.data ≠ some a) := by
  obtain ⟨r, hr, h1 | h1⟩ := resizeCapacity_spec e g ho hn
  · obtain ⟨hb, hbl, hnx, hthr⟩ := h1
    refine ⟨r, hr, ⟨?_, by omega, ?_, Or.inl (by rw [hb]), ?_⟩, by rw [hb], ?_, ?_, ?_, ?_⟩
    · intro a _ _; rw [hbl]
    · intro a ha; rw [hbl]; exact ho a (by omega)
    · rw [hb]; exact ⟨g.sc, g.cb, g.null, by rw [hnx, hbl]; exact g.own, g.pos⟩
    · rw [hb]; simp [content, hbl]
    · intro ht; rw [hb]; exact (hthr ht).symm
    · intro _; exact hb
    · intro a _ hne; exact absurd hb hne
  · obtain ⟨ht, hn0, hlt, hb, hnx, ⟨ext, hext, hlen⟩, hfr, hdead⟩ := h1
    refine ⟨r, hr, ⟨?_, by omega, ?_, Or.inr (Or.inr ⟨h.next, by omega, by rw [hb]⟩), ?_⟩,
      by rw [hb], ?_, ?_, ?_, ?_⟩
    · intro a ha hne; exact hfr a (by omega) hne
    · intro a ha
      rw [hfr a (by omega) ?_]
      · exact ho a (by omega)
      · intro hh; have := (g.own a hh).1; omega
    · rw [hb]
      refine ⟨hs, hlt, by simp, ?_, fun _ _ _ => Nat.pos_of_ne_zero hn0⟩
      intro a ha; cases ha
      exact ⟨by omega, _, hext, hlen⟩
    · rw [hb]
      have h3 := g.blk_len
      have h4 := g.sc
      simp only [content_eq, blk, hext, Option.getD_some]
      rw [List.take_append_of_le_length (by rw [List.length_take]; unfold blk at h3; omega), List.take_take,
        Nat.min_eq_left hs]
    · intro _; rw [hb]
    · intro h'; rw [ht] at h'; cases h'
    · intro a ha _
      refine ⟨hdead a ha, ?_⟩
      rw [hb]
      intro hh
      injection hh with hh
      have := (g.own a ha).1
      omega

theorem add64_small {a b : Nat} (h : a + b < 2^64) : add64 a b = a + b := Nat.mod_eq_of_lt h

/-- `ensure_space`. -/
theorem ensureSpace_eff {z} (e : Env) {h : Heap} {b : Buf} (g : Good z h b) (ho : HOk h) {n : Nat}
    (hn : n < 2^63) :
    (∃ w, ensureSpace e h b n = .trap w ∧ b.capa = 0 ∧ b.data ≠ none ∧ z = true) ∨
    ∃ r, ensureSpace e h b n = .ok r ∧ Eff z h b r.heap r.buf ∧ r.buf.size = b.size ∧
      content r.heap r.buf = content h b ∧ (r.threw = false → b.size + n ≤ r.buf.capa) ∧
      (r.threw = true → r.buf = b) ∧
      (r.buf ≠ b → b.capa < b.size + n ∧
        (r.buf.capa = max (b.size + n) (if b.capa = 0 then 64 else 2 * b.capa))) ∧
      (b.size + n ≤ b.capa → r.heap = h ∧ r.buf = b ∧ r.threw = false) ∧
      (∀ a, b.data = some a → r.buf ≠ b → r.heap.blocks a = none ∧ r.buf.data ≠ some a) := by
  have hsc := g.sc
  have hcb := g.cb
  unfold ensureSpace
  simp only [add64_small (show b.size + n < 2^64 by omega)]
  by_cases hlt : b.capa < b.size + n
  · rw [if_pos hlt]
    unfold growCapacity
    by_cases hc : b.capa = 0
    · rw [if_pos hc]
      rcases hd : b.data with _ | a
      · have hs0 : b.size = 0 := by omega
        simp only [Option.isNone_none, Outcome.assert_true, Outcome.ok_bind, hs0, beq_self_eq_true]
        right
        obtain ⟨r, hr, heff, hsz, hcon, hcap, hthr, hdead⟩ :=
          resizeCapacity_eff e g ho (n := max (b.size + n) 64) (Or.inr hc) (by omega)
        rw [hs0] at hr
        refine ⟨r, hr, heff, by omega, hcon, ?_, hthr, ?_, by omega, by rw [← hd]; exact hdead⟩
        · intro ht; have := hcap ht; omega
        · intro hne
          have : r.threw = false := by
            cases ht : r.threw
            · rfl
            · exact absurd (hthr ht) hne
          have h2 := hcap this
          rw [if_pos hc]; omega
      · left
        refine ⟨_, by simp; rfl, hc, by simp, ?_⟩
        cases z
        · have := g.pos a hd rfl; omega
        · rfl
    · rw [if_neg hc]
      right
      rcases hd : b.data with _ | a
      · exact absurd (g.null hd) hc
      have hm : mul64 b.capa 2 = 2 * b.capa := by
        unfold mul64; rw [Nat.mod_eq_of_lt (by omega)]; omega
      simp only [Option.isSome_some, Outcome.assert_true, Outcome.ok_bind, hsc, decide_true, hm]
      obtain ⟨r, hr, heff, hsz, hcon, hcap, hthr, hdead⟩ :=
        resizeCapacity_eff e g ho (n := max (b.size + n) (2 * b.capa)) (Or.inl (by omega)) (by omega)
      refine ⟨r, hr, heff, hsz, hcon, ?_, hthr, ?_, by omega, by rw [← hd]; exact hdead⟩
      · intro ht; have := hcap ht; omega
      · intro hne
        have : r.threw = false := by
          cases ht : r.threw
          · rfl
          · exact absurd (hthr ht) hne
        have h2 := hcap this
        rw [if_neg hc]; omega
  · rw [if_neg hlt]
    right
    refine ⟨_, rfl, ⟨fun _ _ _ => rfl, Nat.le_refl _, ho, Or.inl rfl, g⟩, rfl, rfl, ?_, ?_, ?_, ?_, ?_⟩
    · intro _; show b.size + n ≤ b.capa; omega
    · intro _; rfl
    · intro hne; exact absurd rfl hne
    · intro _; exact ⟨rfl, rfl, rfl⟩
    · intro _ _ hne; exact absurd rfl hne

/-- Storing inside the capacity. -/
theorem store_eff {z} {h : Heap} {b : Buf} (g : Good z h b) (ho : HOk h) {off : Nat} {src : List Byte}
    (hfit : off + src.length ≤ b.capa) :
    ∃ h', store h b.data off src = .ok h' ∧ Eff z h b h' b ∧
      blk h' b = (blk h b).take off ++ src ++ (blk h b).drop (off + src.length) := by
  unfold store
  by_cases hs : src = []
  · refine ⟨h, by rw [if_pos hs], ⟨fun _ _ _ => rfl, Nat.le_refl _, ho, Or.inl rfl, g⟩, ?_⟩
    simp [hs]
  · rw [if_neg hs]
    have hpos : 0 < src.length := List.length_pos_iff.mpr hs
    rcases hd : b.data with _ | a
    · have := g.null hd; omega
    · obtain ⟨hlt, l, hl, hlen⟩ := g.own a hd
      simp only [hl]
      have hb : blk h b = l := by simp [blk, hd, hl]
      rw [if_pos (by omega)]
      refine ⟨_, rfl, ⟨?_, Nat.le_refl _, ?_, Or.inl rfl, ⟨g.sc, g.cb, g.null, ?_, g.pos⟩⟩, ?_⟩
      · intro x _ hne
        have : x ≠ a := fun hh => hne (by rw [hh, hd])
        simp [Heap.set, this]
      · intro x hx
        have hx' : h.next ≤ x := hx
        have : x ≠ a := by omega
        simp [Heap.set, this]
        exact ho x hx
      · intro x hx
        rw [hd] at hx; cases hx
        refine ⟨hlt, _, by simp [Heap.set]; rfl, ?_⟩
        simp only [List.length_append, List.length_take, List.length_drop]; omega
      · rw [hb]; simp [blk, hd, Heap.set]

/-- Loading inside the capacity. -/
theorem load_ok {z} {h : Heap} {b : Buf} (g : Good z h b) {off n : Nat} (hfit : off + n ≤ b.capa) :
    load h b.data off n = .ok (((blk h b).drop off).take n) := by
  unfold load
  by_cases hn : n = 0
  · simp [hn]
  · rw [if_neg hn]
    rcases hd : b.data with _ | a
    · have := g.null hd; omega
    · obtain ⟨hlt, l, hl, hlen⟩ := g.own a hd
      have hb : blk h b = l := by simp [blk, hd, hl]
      simp only [hl, hb]
      rw [if_pos (by omega)]

theorem Eff.trans {z h b h1 b1 h2 b2} (x : Eff z h b h1 b1) (y : Eff z h1 b1 h2 b2) (g : Good z h b) :
    Eff z h b h2 b2 := by
  refine ⟨?_, Nat.le_trans x.next y.next, y.hok, ?_, y.good⟩
  · intro a ha hne
    rw [← x.frame a ha hne]
    apply y.frame a (Nat.lt_of_lt_of_le ha x.next)
    intro hh
    rcases x.ptr with p | p | ⟨c, hc, p⟩
    · exact hne (by rw [← p, hh])
    · rw [p] at hh; cases hh
    · rw [p] at hh; injection hh with hh; omega
  · rcases y.ptr with p | p | ⟨c, hc, p⟩
    · rcases x.ptr with q | q | ⟨d, hd, q⟩
      · left; rw [p, q]
      · right; left; rw [p, q]
      · right; right; exact ⟨d, hd, by rw [p, q]⟩
    · right; left; exact p
    · right; right; exact ⟨c, Nat.le_trans x.next hc, p⟩

theorem Eff.setSize {z h b h' b'} (x : Eff z h b h' b') {n : Nat} (hn : n ≤ b'.capa) :
    Eff z h b h' { b' with size := n } :=
  ⟨x.frame, x.next, x.hok, x.ptr, ⟨hn, x.good.cb, x.good.null, x.good.own, x.good.pos⟩⟩

theorem blk_size (h : Heap) (b : Buf) (n : Nat) : blk h { b with size := n } = blk h b := rfl

/-- Storing right after the contents extends them. -/
theorem content_after_store {z h b h'} (g : Good z h b) {src : List Byte}
    (hfit : b.size + src.length ≤ b.capa)
    (hb : blk h' b = (blk h b).take b.size ++ src ++ (blk h b).drop (b.size + src.length)) :
    content h' { b with size := b.size + src.length } = content h b ++ src := by
  rw [content_eq, blk_size, hb, content_eq]
  have h1 := g.blk_len
  rw [List.take_append_of_le_length]
  · rw [List.take_of_length_le]
    simp only [List.length_append, List.length_take]; omega
  · simp only [List.length_append, List.length_take]; omega

/-- `append` of outside bytes. -/
theorem append_spec {z} (e : Env) {h : Heap} {b : Buf} (g : Good z h b) (ho : HOk h) {src : List Byte}
    (hn : src.length < 2^63) :
    (∃ w, append e h b src = .trap w ∧ b.capa = 0 ∧ b.data ≠ none ∧ z = true) ∨
    ∃ r, append e h b src = .ok r ∧ Eff z h b r.heap r.buf ∧
      content r.heap r.buf = (if r.threw then content h b else content h b ++ src) := by
  unfold append
  rcases ensureSpace_eff e g ho hn with ⟨w, hw, hx⟩ | ⟨r, hr, heff, hsz, hcon, hcap, hthr, -⟩
  · left; exact ⟨w, by rw [hw]; rfl, hx⟩
  · right
    rw [hr]
    simp only [Outcome.ok_bind]
    cases ht : r.threw
    · simp only [Bool.false_eq_true, if_false, Outcome.pure_eq]
      have hfit : r.buf.size + src.length ≤ r.buf.capa := by have := hcap ht; omega
      obtain ⟨h', hst, he2, hb⟩ := store_eff heff.good heff.hok hfit
      refine ⟨_, by rw [hst]; rfl, (heff.trans he2 g).setSize hfit, ?_⟩
      show content h' { r.buf with size := r.buf.size + src.length } = _
      rw [content_after_store heff.good hfit hb, hcon]; rfl
    · simp only [if_true, Outcome.pure_eq]
      exact ⟨r, rfl, heff, by rw [hcon, ht]; rfl⟩

/-- `append` of another buffer's bytes, or of its own when it has room. -/
theorem appendBuf_spec {z} (e : Env) {h : Heap} {b o : Buf} (g : Good z h b) (go : Good z h o) (ho : HOk h)
    (hn : o = b ∧ b.size + b.size ≤ b.capa ∨ (∀ a, b.data = some a → o.data ≠ some a)) :
    (∃ w, appendBuf e h b o = .trap w ∧ b.capa = 0 ∧ b.data ≠ none ∧ z = true) ∨
    ∃ r, appendBuf e h b o = .ok r ∧ Eff z h b r.heap r.buf ∧
      content r.heap r.buf = (if r.threw then content h b else content h b ++ content h o) := by
  unfold appendBuf
  have hosc := go.sc
  have hocb := go.cb
  rcases ensureSpace_eff e g ho (n := o.size) (by omega) with
    ⟨w, hw, hx⟩ | ⟨r, hr, heff, hsz, hcon, hcap, hthr, hgrow, hroom, hdead⟩
  · left; exact ⟨w, by rw [hw]; rfl, hx⟩
  · right
    rw [hr]
    simp only [Outcome.ok_bind]
    cases ht : r.threw
    · simp only [Bool.false_eq_true, if_false, Outcome.pure_eq]
      -- the source is still intact
      have hsrc : load r.heap o.data 0 o.size = .ok (content h o) := by
        rcases hn with ⟨rfl, hroom'⟩ | hne
        · obtain ⟨e1, e2, _⟩ := hroom hroom'
          rw [e1, load_ok g (by omega), content_eq]; simp
        · have hgo : Good z r.heap o := by
            refine ⟨go.sc, go.cb, go.null, ?_, go.pos⟩
            intro a ha
            obtain ⟨hlt, l, hl, hlen⟩ := go.own a ha
            refine ⟨Nat.lt_of_lt_of_le hlt heff.next, l, ?_, hlen⟩
            rw [heff.frame a hlt (fun hh => hne a hh ha), hl]
          have hbk : blk r.heap o = blk h o := by
            unfold blk
            rcases hd : o.data with _ | a
            · rfl
            · simp only
              rw [heff.frame a (go.own a hd).1 (fun hh => hne a hh hd)]
          rw [load_ok hgo (by omega), content_eq, hbk]; simp
      rw [hsrc]
      simp only [Outcome.ok_bind]
      have hlen : (content h o).length = o.size := go.content_len
      have hfit : r.buf.size + (content h o).length ≤ r.buf.capa := by have := hcap ht; omega
      obtain ⟨h', hst, he2, hb⟩ := store_eff heff.good heff.hok hfit
      refine ⟨_, by rw [hst]; rfl, (heff.trans he2 g).setSize (n := r.buf.size + o.size) (hlen ▸ hfit), ?_⟩
      show content h' { r.buf with size := r.buf.size + o.size } = _
      rw [← hlen, content_after_store heff.good hfit hb, hcon]; rfl
    · simp only [if_true, Outcome.pure_eq]
      exact ⟨r, rfl, heff, by rw [hcon, ht]; rfl⟩

end Ab.BB
