import Verif.Model.WriterHeap
import Verif.Proof.ByteBuffer2
/-! Proofs about module writing over the allocator: actions on one buffer. -/
namespace Ab.WH

open BB

/-- The buffer owns a live block of its capacity, whose first `size` bytes are `l`. -/
structure Own (h : Heap) (b : Buf) (l : List Byte) : Prop where
  ptr : ∃ a k, b.data = some a ∧ a < h.next ∧ h.blocks a = some k ∧ k.length = b.capa ∧ k.take b.size = l
  sz : b.size ≤ b.capa
  pos : 0 < b.capa
  lt : b.capa < 2^63

/-- A buffer whose capacity is at most twice its size (or the default). -/
def Tight (b : Buf) : Prop := b.capa ≤ max 64 (2 * b.size)

/-- The exact effect of a member function of `b` on the block map. -/
structure Step (h : Heap) (b : Buf) (h' : Heap) (b' : Buf) : Prop where
  frame : ∀ x, b.data ≠ some x → b'.data ≠ some x → h'.blocks x = h.blocks x
  dead : ∀ x, b.data = some x → b'.data ≠ some x → h'.blocks x = none
  ptr : b'.data = b.data ∨ ∃ a, h.next ≤ a ∧ b'.data = some a
  next : h.next ≤ h'.next
  hok : HOk h'

/-- No allocation fails for lack of luck. -/
def Kind (e : BB.Env) : Prop := ∀ k, e.fails k = false

theorem Own.size {h b l} (o : Own h b l) : l.length = b.size := by
  obtain ⟨a, k, -, -, -, hk, rfl⟩ := o.ptr
  rw [List.length_take, hk]; have := o.sz; omega

theorem Own.good {h b l} (o : Own h b l) : Good false h b := by
  obtain ⟨a, k, hd, hlt, hb, hk, -⟩ := o.ptr
  refine ⟨o.sz, o.lt, ?_, ?_, fun _ _ _ => o.pos⟩
  · intro hn; rw [hd] at hn; cases hn
  · intro x hx; rw [hd] at hx; injection hx with hx; subst hx; exact ⟨hlt, k, hb, hk⟩

theorem Own.content {h b l} (o : Own h b l) : Spec.content h b = l := by
  obtain ⟨a, k, hd, hlt, hb, hk, rfl⟩ := o.ptr
  simp [Spec.content, hd, hb]

theorem Own.of_good {h b} (g : Good false h b) (hd : b.data ≠ none) : Own h b (Spec.content h b) := by
  rcases hd' : b.data with _ | a
  · exact absurd hd' hd
  · obtain ⟨hlt, k, hb, hk⟩ := g.own a hd'
    refine ⟨⟨a, k, hd', hlt, hb, hk, ?_⟩, g.sc, g.pos a hd' rfl, g.cb⟩
    simp [Spec.content, hd', hb]

theorem Step.refl {h b} (ho : HOk h) : Step h b h b :=
  ⟨fun _ _ _ => rfl, fun _ h1 h2 => absurd h1 h2, Or.inl rfl, Nat.le_refl _, ho⟩

theorem Step.trans {h b h1 b1 h2 b2} (ho : HOk h) (x : Step h b h1 b1) (y : Step h1 b1 h2 b2) :
    Step h b h2 b2 := by
  refine ⟨?_, ?_, ?_, Nat.le_trans x.next y.next, y.hok⟩
  · intro a hb hb2
    by_cases hm : b1.data = some a
    · rw [y.dead a hm hb2]
      rcases x.ptr with p | ⟨c, hc, p⟩
      · exact absurd (p ▸ hm) hb
      · rw [p] at hm; injection hm with hm; subst hm
        exact (ho _ hc).symm
    · rw [y.frame a hm hb2, x.frame a hb hm]
  · intro a hb hb2
    by_cases hm : b1.data = some a
    · exact y.dead a hm hb2
    · rw [y.frame a hm hb2, x.dead a hb hm]
  · rcases y.ptr with p | ⟨c, hc, p⟩
    · rw [p]; exact x.ptr
    · exact Or.inr ⟨c, Nat.le_trans x.next hc, p⟩

/-- An owned buffer other than the one acted on keeps its block. -/
theorem Own.frame {h b h' b' c l} (o : Own h c l) (s : Step h b h' b') (hd : b.data ≠ c.data) :
    Own h' c l ∧ b'.data ≠ c.data := by
  obtain ⟨a, k, hda, hlt, hb, hk, hl⟩ := o.ptr
  have hne : b'.data ≠ some a := by
    rcases s.ptr with p | ⟨x, hx, p⟩
    · rw [p, ← hda]; exact hd
    · rw [p]; intro hh; injection hh with hh; omega
  refine ⟨⟨⟨a, k, hda, Nat.lt_of_lt_of_le hlt s.next, ?_, hk, hl⟩, o.sz, o.pos, o.lt⟩, by rw [hda]; exact hne⟩
  rw [s.frame a (hda ▸ hd) hne]; exact hb

theorem resizeCapacity_threw {e : BB.Env} {h b n r} (hr : resizeCapacity e h b n = .ok r)
    (ht : r.threw = true) : e.refuses h n = true := by
  unfold resizeCapacity at hr
  split at hr
  · injection hr with hr; subst hr; cases ht
  split at hr
  · rw [Outcome.bind_eq_ok] at hr
    obtain ⟨x, -, hr⟩ := hr
    injection hr with hr; subst hr; cases ht
  · rw [Outcome.bind_eq_ok] at hr
    obtain ⟨⟨h1, d⟩, hx, hr⟩ := hr
    rcases d with _ | a
    · unfold realloc at hx
      rcases hb : b.data with _ | a
      · rw [hb] at hx
        simp only [malloc] at hx
        split at hx
        · assumption
        · cases hx
      · rw [hb] at hx
        simp only at hx
        split at hx
        · cases hx
        · split at hx
          · assumption
          · cases hx
    · injection hr with hr; subst hr; cases ht

theorem refuses_kind {e : BB.Env} (k : Kind e) {h n} (hr : e.refuses h n = true) : 2^63 ≤ n := by
  unfold Env.refuses at hr
  rw [k] at hr
  simpa using hr

/-- `ensure_space` of an owning buffer. -/
theorem ensure_own (e : BB.Env) {h b l} (o : Own h b l) (ho : HOk h) {n : Nat} (hn : n < 2^63) :
    ∃ r, ensureSpace e h b n = .ok r ∧ Step h b r.heap r.buf ∧ Own r.heap r.buf l ∧ r.buf.size = b.size ∧
      (r.threw = false → b.size + n ≤ r.buf.capa) ∧
      (Kind e → b.size + n < 2^61 → Tight b →
        r.threw = false ∧ r.buf.capa ≤ max 64 (2 * (b.size + n))) := by
  have g := o.good
  have hsc := o.sz
  have hlt := o.lt
  have hpos := o.pos
  unfold ensureSpace
  rw [add64_small (by omega)]
  simp only
  split
  next hgrow =>
    unfold growCapacity
    rw [if_neg (by omega)]
    obtain ⟨a, k, hda, hl, hb, hk, hcon⟩ := o.ptr
    have h1 : b.data.isSome = true := by rw [hda]; rfl
    have h2 : decide (b.size ≤ b.capa) = true := by simpa using hsc
    have h3 : mul64 b.capa 2 = b.capa * 2 := Nat.mod_eq_of_lt (by omega)
    simp only [h1, h2, h3, Outcome.assert, Outcome.ok_bind, if_true]
    obtain ⟨r, hr, hc⟩ := resizeCapacity_spec e g ho (n := max (b.size + n) (b.capa * 2))
      (Or.inl (by omega))
    refine ⟨r, hr, ?_⟩
    have hkind : Kind e → b.size + n < 2^61 → Tight b → r.threw = false := by
      intro k1 h5 h6
      rcases ht : r.threw
      · rfl
      · have := refuses_kind k1 (resizeCapacity_threw hr ht)
        unfold Tight at h6
        omega
    rcases hc with ⟨hbuf, hbl, hnx, hthr⟩ | ⟨ht, hn0, hn63, hbuf, hnx, ⟨ext, hext, hlen⟩, hfr, hdead⟩
    · have h4 : r.threw = true := by
        rcases ht : r.threw
        · have := hthr ht; omega
        · rfl
      refine ⟨⟨?_, ?_, Or.inl (by rw [hbuf]), by omega, ?_⟩, ?_, by rw [hbuf], ?_, ?_⟩
      · intro x _ _; rw [hbl]
      · intro x h5 h6; rw [hbuf] at h6; exact absurd h5 h6
      · intro x hx; rw [hbl]; exact ho x (by omega)
      · rw [hbuf]; exact ⟨⟨a, k, hda, by omega, by rw [hbl]; exact hb, hk, hcon⟩, hsc, hpos, hlt⟩
      · intro h5; rw [h4] at h5; cases h5
      · intro k1 h5 h6; have := hkind k1 h5 h6; rw [h4] at this; cases this
    · refine ⟨⟨?_, ?_, Or.inr ⟨h.next, Nat.le_refl _, by rw [hbuf]⟩, by omega, ?_⟩, ?_, by rw [hbuf], ?_, ?_⟩
      · intro x h5 h6
        rw [hbuf] at h6
        exact hfr x (fun hh => h6 (by rw [hh])) h5
      · intro x h5 _; exact hdead x h5
      · intro x hx
        rw [hfr x (by omega) ?_]
        · exact ho x (by omega)
        · intro hh; rw [hda] at hh; injection hh with hh; omega
      · rw [hbuf]
        have hblk : blk h b = k := by simp [blk, hda, hb]
        refine ⟨⟨h.next, _, rfl, by omega, hext, hlen, ?_⟩, ?_, ?_, hn63⟩
        · rw [hblk]
          show List.take b.size _ = l
          rw [List.take_append_of_le_length (by rw [List.length_take]; omega), List.take_take,
            Nat.min_eq_left (by omega)]
          exact hcon
        · show b.size ≤ max (b.size + n) (b.capa * 2); omega
        · show 0 < max _ _; omega
      · intro _; rw [hbuf]; show _ ≤ max _ _; omega
      · intro k1 h5 h6
        refine ⟨ht, ?_⟩
        rw [hbuf]; show max _ _ ≤ _
        unfold Tight at h6
        omega
  next hroom =>
    refine ⟨_, rfl, Step.refl ho, o, rfl, fun _ => by simp only; omega, ?_⟩
    intro _ _ h6
    refine ⟨rfl, ?_⟩
    unfold Tight at h6
    simp only
    omega

/-- Storing after the contents. -/
theorem store_own {h b l} (o : Own h b l) (ho : HOk h) {src : List Byte}
    (hfit : b.size + src.length ≤ b.capa) :
    ∃ h', store h b.data b.size src = .ok h' ∧ Step h b h' { b with size := b.size + src.length } ∧
      Own h' { b with size := b.size + src.length } (l ++ src) := by
  obtain ⟨a, k, hda, hlt, hb, hk, hcon⟩ := o.ptr
  have hsc := o.sz
  unfold store
  by_cases he : src = []
  · subst he
    rw [if_pos rfl]
    refine ⟨h, rfl, ⟨fun _ _ _ => rfl, fun x h1 h2 => absurd h1 h2, Or.inl rfl, Nat.le_refl _, ho⟩, ?_⟩
    simpa using o
  · rw [if_neg he, hda]
    simp only [hb]
    rw [if_pos (by omega)]
    refine ⟨_, rfl, ⟨?_, fun x h1 h2 => absurd h1 (hda ▸ h2), Or.inl (by simp [hda]), Nat.le_refl _, ?_⟩, ?_⟩
    · intro x h1 _
      have : x ≠ a := fun hh => h1 (by rw [hh, hda])
      simp [Heap.set, this]
    · intro x hx
      have hx' : h.next ≤ x := hx
      have : x ≠ a := by omega
      simp [Heap.set, this]; exact ho x hx'
    · refine ⟨⟨a, _, rfl, hlt, by simp [Heap.set]; rfl, ?_, ?_⟩, hfit, o.pos, o.lt⟩
      · simp only [List.length_append, List.length_take, List.length_drop]; omega
      · show List.take (b.size + src.length) _ = _
        rw [← List.append_assoc, hcon, List.take_append_of_le_length]
        · rw [List.take_of_length_le]
          simp only [List.length_append, o.size]; omega
        · simp only [List.length_append, o.size]; omega

/-- Read-only buffers with known contents. -/
def Has (h : Heap) (R : List (Buf × List Byte)) : Prop := ∀ c ∈ R, Own h c.1 c.2

/-- The buffer acted on is none of the read-only ones. -/
def Disj (b : Buf) (R : List (Buf × List Byte)) : Prop := ∀ c ∈ R, b.data ≠ c.1.data

theorem Has.step {h b h' b' R} (H : Has h R) (D : Disj b R) (s : Step h b h' b') : Has h' R ∧ Disj b' R :=
  ⟨fun c hc => ((H c hc).frame s (D c hc)).1, fun c hc => ((H c hc).frame s (D c hc)).2⟩

/-- The action appends exactly `l` to the buffer, or throws; it changes no other block. With an obliging
allocator and sizes of real memory it does not throw. -/
def Writes (e : WEnv) (R : List (Buf × List Byte)) (w : W) (l : List Byte) : Prop :=
  ∀ h b l0, HOk h → Has h R → Own h b l0 → Disj b R →
    ∃ r, w h b = .ok r ∧ Step h b r.heap r.buf ∧
      (∃ l1, Own r.heap r.buf l1 ∧ (r.threw = false → l1 = l0 ++ l)) ∧
      (Kind e.mem → l0.length + l.length < 2^61 → Tight b → r.threw = false ∧ Tight r.buf)

theorem Writes.skip {e R} : Writes e R skip [] := by
  intro h b l0 ho _ o _
  exact ⟨_, rfl, Step.refl ho, ⟨l0, o, by simp⟩, fun _ _ t => ⟨rfl, t⟩⟩

theorem Writes.put {e R} {bs : List Byte} (hl : bs.length < 2^63) : Writes e R (put e bs) bs := by
  intro h b l0 ho _ o _
  obtain ⟨r, hr, hs, ho2, hsz, hcap, hk⟩ := ensure_own e.mem o ho hl
  unfold WH.put append
  rw [hr]
  simp only [Outcome.ok_bind]
  cases ht : r.threw
  · have hfit : r.buf.size + bs.length ≤ r.buf.capa := by have := hcap ht; omega
    obtain ⟨h', hst, hs2, ho3⟩ := store_own ho2 hs.hok hfit
    simp only [Bool.false_eq_true, if_false, hst, Outcome.ok_bind, Outcome.pure_eq]
    refine ⟨_, rfl, hs.trans ho hs2, ⟨_, ho3, fun _ => rfl⟩, ?_⟩
    intro k h1 h2
    rw [o.size] at h1
    obtain ⟨-, h3⟩ := hk k h1 h2
    refine ⟨rfl, ?_⟩
    unfold Tight
    simp only; omega
  · simp only [if_true, Outcome.pure_eq]
    refine ⟨r, rfl, hs, ⟨l0, ho2, by rw [ht]; intro hh; cases hh⟩, ?_⟩
    intro k h1 h2
    rw [o.size] at h1
    have := (hk k h1 h2).1
    rw [ht] at this; cases this

theorem Writes.appendBuf {e R} {c : Buf} {l : List Byte} (hm : (c, l) ∈ R) :
    Writes e R (fun h b => BB.appendBuf e.mem h b c) l := by
  intro h b l0 ho hH o hD
  have oc := hH _ hm
  have hcl := oc.size
  have := oc.sz
  have := oc.lt
  obtain ⟨r, hr, hs, ho2, hsz, hcap, hk⟩ := ensure_own e.mem o ho (n := c.size) (by simp only at *; omega)
  unfold BB.appendBuf
  simp only
  rw [hr]
  simp only [Outcome.ok_bind]
  cases ht : r.threw
  · have hfit : r.buf.size + l.length ≤ r.buf.capa := by have := hcap ht; simp only at *; omega
    obtain ⟨h', hst, hs2, ho3⟩ := store_own ho2 hs.hok hfit
    have oc2 := (oc.frame hs (hD _ hm)).1
    have hload : load r.heap c.data 0 c.size = .ok l := by
      rw [load_ok oc2.good (by simp only at *; omega)]
      have := oc2.content
      simp only [content_eq] at this
      simp [this]
    rw [hload]
    simp only [Bool.false_eq_true, if_false, hst, Outcome.ok_bind, Outcome.pure_eq]
    have hlc : l.length = c.size := hcl
    rw [hlc] at hs2 ho3
    refine ⟨_, rfl, hs.trans ho hs2, ⟨_, ho3, fun _ => rfl⟩, ?_⟩
    intro k h1 h2
    rw [o.size, hlc] at h1
    obtain ⟨-, h3⟩ := hk k h1 h2
    refine ⟨rfl, ?_⟩
    unfold Tight
    simp only; omega
  · simp only [if_true, Outcome.pure_eq]
    refine ⟨r, rfl, hs, ⟨l0, ho2, by rw [ht]; intro hh; cases hh⟩, ?_⟩
    intro k h1 h2
    have hlc : l.length = c.size := hcl
    rw [o.size, hlc] at h1
    have := (hk k h1 h2).1
    rw [ht] at this; cases this

theorem Writes.seq {e R w1 w2 l1 l2} (x : Writes e R w1 l1) (y : Writes e R w2 l2) :
    Writes e R (seq w1 w2) (l1 ++ l2) := by
  intro h b l0 ho hH o hD
  obtain ⟨r, hr, hs, ⟨m, om, hm⟩, hk⟩ := x h b l0 ho hH o hD
  unfold WH.seq
  rw [hr]
  simp only [Outcome.ok_bind]
  cases ht : r.threw
  · simp only [Bool.false_eq_true, if_false]
    have hm' := hm ht
    subst hm'
    obtain ⟨hH2, hD2⟩ := hH.step hD hs
    obtain ⟨r2, hr2, hs2, ⟨m2, om2, hm2⟩, hk2⟩ := y r.heap r.buf _ hs.hok hH2 om hD2
    refine ⟨r2, hr2, hs.trans ho hs2, ⟨m2, om2, fun h1 => by rw [hm2 h1, List.append_assoc]⟩, ?_⟩
    intro k h1 h2
    simp only [List.length_append] at h1
    exact hk2 k (by simp only [List.length_append]; omega) (hk k (by omega) h2).2
  · simp only [if_true, Outcome.pure_eq]
    refine ⟨r, rfl, hs, ⟨m, om, by rw [ht]; intro hh; cases hh⟩, ?_⟩
    intro k h1 h2
    simp only [List.length_append] at h1
    have := (hk k (by omega) h2).1
    rw [ht] at this; cases this

theorem Writes.each {e R} {α : Type} {f : α → W} {g : α → List Byte} :
    ∀ {xs : List α}, (∀ x ∈ xs, Writes e R (f x) (g x)) → Writes e R (each f xs) (xs.map g).flatten
  | [], _ => Writes.skip
  | x :: xs, H =>
    Writes.seq (H x (List.mem_cons_self ..)) (Writes.each (fun y hy => H y (List.mem_cons_of_mem _ hy)))

theorem flatten_single {l : List Byte} : (l.map (fun b => [b])).flatten = l := by
  induction l with
  | nil => rfl
  | cons x xs ih => simp only [List.map_cons, List.flatten_cons, ih]; rfl

theorem Writes.bytes {e R} (l : List Byte) : Writes e R (WH.each (fun b => WH.put e [b]) l) l := by
  have := Writes.each (e := e) (R := R) (f := fun b => WH.put e [b]) (g := fun b => [b]) (xs := l)
    (fun x _ => Writes.put (by simp))
  rwa [flatten_single] at this

/-- The destructor of an owning buffer. -/
theorem clear_own {h b l} (o : Own h b l) :
    ∃ a, b.data = some a ∧ clear h b = .ok (h.set a none, ⟨none, 0, 0⟩) := by
  obtain ⟨a, k, hd, -, hb, -, -⟩ := o.ptr
  refine ⟨a, hd, ?_⟩
  unfold clear free
  rw [hd]; simp only [hb, Outcome.ok_bind, Outcome.pure_eq]

theorem malloc_refused {e : BB.Env} {h n h'} (hm : malloc e h n = (h', none)) : e.refuses h n = true := by
  unfold malloc at hm
  split at hm
  · assumption
  · injection hm with _ h2; cases h2

/-- `ByteBuffer()`: fails without a trace or yields an empty owning buffer on a fresh block. -/
theorem ctor_own (e : BB.Env) {h : Heap} (ho : HOk h) :
    (∃ h', ctor e h 64 = (h', none) ∧ h'.blocks = h.blocks ∧ h'.next = h.next ∧ ¬ Kind e) ∨
    (∃ h', ctor e h 64 = (h', some ⟨some h.next, 0, 64⟩) ∧ h'.next = h.next + 1 ∧ HOk h' ∧
      Own h' ⟨some h.next, 0, 64⟩ [] ∧ ∀ a, a ≠ h.next → h'.blocks a = h.blocks a) := by
  unfold ctor
  rcases malloc_spec e ho 64 with ⟨h', hm, hb, hn⟩ | ⟨h', hm, -, hn, ho', ⟨l, hl, hlen⟩, hf⟩
  · left
    rw [hm]
    refine ⟨h', rfl, hb, hn, fun k => ?_⟩
    have := refuses_kind k (malloc_refused hm)
    omega
  · right
    rw [hm]
    refine ⟨h', rfl, hn, ho', ⟨⟨h.next, l, rfl, by omega, hl, hlen, rfl⟩, ?_, ?_, ?_⟩, hf⟩ <;> simp only <;> omega

theorem Own.same {h h' c l} (o : Own h c l) (hn : h.next ≤ h'.next)
    (hf : ∀ a, c.data = some a → h'.blocks a = h.blocks a) : Own h' c l := by
  obtain ⟨a, k, hd, hlt, hb, hk, hl⟩ := o.ptr
  exact ⟨⟨a, k, hd, by omega, by rw [hf a hd]; exact hb, hk, hl⟩, o.sz, o.pos, o.lt⟩

/-- A local buffer, filled, used and destroyed. -/
theorem Writes.withContent {e R fill use l1 l2} (x : Writes e R fill l1)
    (y : ∀ c, c.size = l1.length → Writes e ((c, l1) :: R) (use c) l2) (hle : l1.length ≤ l2.length) :
    Writes e R (withContent e fill use) l2 := by
  intro h b l0 ho hH o hD
  unfold WH.withContent
  rcases ctor_own e.mem ho with ⟨h1, hc, hbl, hnx, hnk⟩ | ⟨h1, hc, hnx, ho1, oc, hf⟩
  · rw [hc]
    refine ⟨_, rfl, ⟨fun _ _ _ => by simp only [hbl], fun x h1 h2 => absurd h1 h2, Or.inl rfl,
      by simp only; omega, ?_⟩, ⟨l0, o.same (by simp only; omega) (fun _ _ => by simp only [hbl]), ?_⟩, ?_⟩
    · intro x hx; simp only [hbl]; exact ho x (by simp only at hx; omega)
    · intro hh; cases hh
    · intro k; exact absurd k hnk
  · rw [hc]
    simp only
    have lift : ∀ {c l}, Own h c l → Own h1 c l ∧ c.data ≠ some h.next := by
      intro c l oc'
      obtain ⟨a, k, hd, hlt, -⟩ := oc'.ptr
      have hne : a ≠ h.next := by omega
      refine ⟨oc'.same (by omega) (fun x hx => ?_), ?_⟩
      · rw [hd] at hx; injection hx with hx; subst hx; exact hf _ hne
      · rw [hd]; intro hh; injection hh with hh; exact hne hh
    have hH1 : Has h1 R := fun c hc => (lift (hH c hc)).1
    have hD1 : Disj ⟨some h.next, 0, 64⟩ R := fun c hc hh => (lift (hH c hc)).2 hh.symm
    obtain ⟨r, hr, hs, ⟨m, om, hm⟩, hk⟩ := x h1 _ [] ho1 hH1 oc hD1
    obtain ⟨p, hp, hclr⟩ := clear_own om
    -- where the local buffer lives
    have hpn : h.next ≤ p := by
      rcases hs.ptr with q | ⟨c, hc', q⟩
      · rw [hp] at q; injection q with q; omega
      · rw [hp] at q; injection q with q; omega
    have base : ∀ z, z ≠ p → r.heap.blocks z = h.blocks z := by
      intro z hz
      have hz' : r.buf.data ≠ some z := by rw [hp]; intro hh; injection hh with hh; exact hz hh.symm
      by_cases hz2 : z = h.next
      · subst hz2
        rw [hs.dead _ rfl hz', ho _ (Nat.le_refl _)]
      · rw [hs.frame z (fun hh => hz2 (by injection hh with hh; exact hh.symm)) hz', hf z hz2]
    obtain ⟨o1, hbn⟩ := lift o
    have hbc : r.buf.data ≠ b.data := by
      obtain ⟨a, k, hd, hlt, -⟩ := o.ptr
      rw [hd, hp]; intro hh; injection hh with hh; omega
    rw [hr]
    simp only [Outcome.ok_bind]
    cases ht : r.threw
    · simp only [Bool.false_eq_true, if_false]
      have hm' := hm ht
      rw [List.nil_append] at hm'
      subst hm'
      have ob : Own r.heap b l0 := (o1.frame hs (Ne.symm hbn)).1
      obtain ⟨hH2, hD2⟩ := hH1.step hD1 hs
      have hH3 : Has r.heap ((r.buf, m) :: R) := by
        intro c hc'
        rcases List.mem_cons.mp hc' with rfl | hc'
        · exact om
        · exact hH2 c hc'
      have hD3 : Disj b ((r.buf, m) :: R) := by
        intro c hc'
        rcases List.mem_cons.mp hc' with rfl | hc'
        · exact fun hh => hbc hh.symm
        · exact hD c hc'
      obtain ⟨r2, hr2, hs2, ⟨m2, om2, hm2⟩, hk2⟩ := y r.buf om.size.symm r.heap b l0 hs.hok hH3 ob hD3
      obtain ⟨om', hdj⟩ := om.frame hs2 (Ne.symm hbc)
      obtain ⟨p', hp', hclr2⟩ := clear_own om'
      rw [hp] at hp'; injection hp' with hp'; subst hp'
      rw [hr2]
      simp only [Outcome.ok_bind, hclr2, Outcome.pure_eq]
      have hnx2 : h.next ≤ r.heap.next := by have := hs.next; omega
      refine ⟨_, rfl, ⟨?_, ?_, ?_, ?_, ?_⟩, ⟨m2, ?_, hm2⟩, ?_⟩
      · intro z hz1 hz2
        by_cases hz : z = p
        · subst hz; simp [Heap.set, ho z hpn]
        · simp only [Heap.set, if_neg hz]
          rw [hs2.frame z hz1 hz2, base z hz]
      · intro z hz1 hz2
        by_cases hz : z = p
        · subst hz; simp [Heap.set]
        · simp only [Heap.set, if_neg hz]
          exact hs2.dead z hz1 hz2
      · rcases hs2.ptr with q | ⟨c, hc', q⟩
        · exact Or.inl q
        · exact Or.inr ⟨c, by omega, q⟩
      · exact Nat.le_trans hnx2 hs2.next
      · intro z hz
        simp only [Heap.set]
        split
        · rfl
        · exact hs2.hok z hz
      · refine om2.same (h' := r2.heap.set p none) (Nat.le_refl _) ?_
        intro z hz
        have : z ≠ p := by
          intro hh; subst hh; exact hdj (by rw [hz, hp])
        simp [Heap.set, this]
      · intro k h3 h4
        exact hk2 k h3 h4
    · simp only [if_true, hclr, Outcome.ok_bind, Outcome.pure_eq]
      have hblk : ∀ z, (r.heap.set p none).blocks z = h.blocks z := by
        intro z
        by_cases hz : z = p
        · subst hz; simp [Heap.set, ho z hpn]
        · simp only [Heap.set, if_neg hz]; exact base z hz
      have hnx2 : h.next ≤ r.heap.next := by have := hs.next; omega
      refine ⟨_, rfl, ⟨fun z _ _ => hblk z, fun z h1 h2 => absurd h1 h2, Or.inl rfl, hnx2, ?_⟩,
        ⟨l0, o.same hnx2 (fun z _ => hblk z), fun hh => by cases hh⟩, ?_⟩
      · intro z hz
        simp only [Heap.set]
        split
        · rfl
        · exact hs.hok z hz
      · intro k h3 h4
        have := (hk k (by simp only [List.length_nil]; omega) (by unfold Tight; simp only; omega)).1
        rw [ht] at this; cases this

end Ab.WH
