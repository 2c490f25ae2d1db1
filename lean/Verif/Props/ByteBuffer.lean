import Verif.Proof.ByteBuffer2
/-!
C28: a byte buffer behaves like a growable byte list. C29: a byte buffer never uses freed memory.
Both are false as stated (witnesses below); the `_partial` theorems cover every careful program.
-/
namespace Ab.BB

open Spec (content bufsOf BufStep Careful NoZero MayTrap Always BufRun)

/-- An allocator that never fails, for the witnesses. -/
def kind : Env := ⟨fun _ => false, fun _ _ => 0xAA⟩

/-- The last state reached by a careful prefix satisfies the ownership invariant. -/
theorem reach_inv {z} (e : Env) {s s' : St} {ops : List Op} {os} (I : Inv z s)
    (hc : Always (fun s op => Careful s op ∧ (z = false → NoZero s op)) e s ops)
    (hr : run e s ops = .ok (s', os)) : Inv z s' := by
  rcases run_spec e I hc with ⟨w, hw⟩ | ⟨s'', os', hr', I', -⟩
  · rw [hr] at hw; cases hw
  · rw [hr] at hr'; cases hr'; exact I'

theorem run_trap_split {z} (e : Env) {s : St} {ops : List Op} {w} (I : Inv z s)
    (hc : Always (fun s op => Careful s op ∧ (z = false → NoZero s op)) e s ops)
    (hr : run e s ops = .trap w) :
    ∃ pre op post s' os, ops = pre ++ op :: post ∧ run e s pre = .ok (s', os) ∧
      step e s' op = .trap w ∧ MayTrap z (bufsOf s') op := by
  induction ops generalizing s with
  | nil => cases hr
  | cons op ops ih =>
    obtain ⟨⟨h1, h2⟩, h3⟩ := hc
    rcases step_spec e I h1 h2 with ⟨w', hw, hm⟩ | ⟨s', o, hst, I', hstep⟩
    · simp [run, hw] at hr
      subst hr
      exact ⟨[], op, ops, s, [], rfl, rfl, hw, hm⟩
    · have hr' : run e s' ops = .trap w := by
        simp only [run, hst, Outcome.ok_bind] at hr
        cases hx : run e s' ops with
        | ok p => rw [hx] at hr; simp at hr
        | _ => rw [hx] at hr; simpa using hr
      obtain ⟨pre, op', post, s'', os, he, hp, hs, hm⟩ := ih I' (h3 s' o hst) hr'
      exact ⟨op :: pre, op', post, s'', o :: os, by rw [he]; rfl, by simp [run, hst, hp], hs, hm⟩

/-- C28, the part that holds. For every allocator behaviour and every program over any number of buffers
that is careful (`Spec.Careful`) and creates no buffer of zero capacity (`Spec.NoZero`): either the whole
program runs and does exactly what the same program does on plain lists of bytes, with the size of every
live buffer equal to the length of its list and at most its capacity; or it stops at an operation that is
a read or write outside the contents (or at a `release_span` whose shrink is refused memory), after a
prefix that ran.  Missing: zero-capacity buffers and the misuses excluded by `Careful`, for which the
claim is false (below). -/
theorem C28_byte_buffer_refines_list_partial (e : Env) (ops : List Op)
    (hc : Always (fun s op => Careful s op ∧ NoZero s op) e St.init ops) :
    (∃ s os, run e St.init ops = .ok (s, os) ∧ BufRun [] ops (bufsOf s) os ∧
      ∀ (i : Nat) (b : Buf), s.bufs[i]? = some (some b) →
        b.size ≤ b.capa ∧ ∃ l, (bufsOf s)[i]? = some (some l) ∧ l.length = b.size) ∨
    (∃ pre op post s os w, ops = pre ++ op :: post ∧ run e St.init pre = .ok (s, os) ∧
      step e s op = .trap w ∧ MayTrap false (bufsOf s) op) := by
  have hc' : Always (fun s op => Careful s op ∧ (false = false → NoZero s op)) e St.init ops := by
    simpa using hc
  rcases run_spec e (inv_init false) hc' with ⟨w, hw⟩ | ⟨s, os, hr, I, hrun⟩
  · right
    obtain ⟨pre, op, post, s', os, h⟩ := run_trap_split e (inv_init false) hc' hw
    exact ⟨pre, op, post, s', os, w, h⟩
  · left
    refine ⟨s, os, hr, hrun, ?_⟩
    intro i b hi
    exact ⟨(I.good i b hi).sc, _, bufsOf_get hi, (I.good i b hi).content_len⟩

/-- The hypothesis is met by a program that grows, copies, writes, reads and shrinks. -/
def demo : List Op :=
  [.new 4, .append 0 [1, 2, 3, 4, 5], .copy 0, .write 1 1 [9, 9], .appendBuf 0 1, .shrink 0,
   .read 0 4 3, .move 0, .releaseSpan 2, .clear 1, .append 1 [7], .destroy 1]

example : Always (fun s op => Careful s op ∧ NoZero s op) kind St.init demo := by
  refine ⟨⟨trivial, Nat.succ_ne_zero 3⟩, ?_⟩; intro s o h; cases h
  refine ⟨⟨⟨_, rfl, by decide⟩, trivial⟩, ?_⟩; intro s o h; cases h
  refine ⟨⟨⟨_, rfl, trivial⟩, by rintro b ⟨⟩; decide⟩, ?_⟩; intro s o h; cases h
  refine ⟨⟨⟨_, rfl, by decide⟩, trivial⟩, ?_⟩; intro s o h; cases h
  refine ⟨⟨⟨⟨_, rfl, Or.inl (by decide)⟩, ⟨_, rfl, trivial⟩⟩, trivial⟩, ?_⟩; intro s o h; cases h
  refine ⟨⟨⟨_, rfl, Or.inl (by decide)⟩, trivial⟩, ?_⟩; intro s o h; cases h
  refine ⟨⟨⟨_, rfl, by decide⟩, trivial⟩, ?_⟩; intro s o h; cases h
  refine ⟨⟨⟨_, rfl, trivial⟩, trivial⟩, ?_⟩; intro s o h; cases h
  refine ⟨⟨⟨_, rfl, Or.inl (by decide)⟩, trivial⟩, ?_⟩; intro s o h; cases h
  refine ⟨⟨⟨_, rfl, trivial⟩, trivial⟩, ?_⟩; intro s o h; cases h
  refine ⟨⟨⟨_, rfl, by decide⟩, trivial⟩, ?_⟩; intro s o h; cases h
  refine ⟨⟨⟨_, rfl, trivial⟩, trivial⟩, ?_⟩; intro s o h; cases h
  trivial

/-- C28, growth: when an append to a buffer of a careful program changes the capacity, the new capacity
is at least twice the old one, at least 64 if there was none, and enough; otherwise the old one was
enough. -/
theorem C28_growth_at_least_doubles_partial (e : Env) (ops : List Op) (s s' : St) (os : List Obs)
    (i : Nat) (src : List Byte) (b b' : Buf)
    (hc : Always (fun s op => Careful s op ∧ NoZero s op) e St.init (ops ++ [.append i src]))
    (hr : run e St.init ops = .ok (s, os)) (hb : s.bufs[i]? = some (some b))
    (hs : step e s (.append i src) = .ok (s', .unit)) (hb' : s'.bufs[i]? = some (some b')) :
    b'.size = b.size + src.length ∧ b'.size ≤ b'.capa ∧
    ((b'.capa = b.capa ∧ b.size + src.length ≤ b.capa) ∨
     (b.capa < b.size + src.length ∧ 2 * b.capa ≤ b'.capa ∧ (b.capa = 0 → 64 ≤ b'.capa))) := by
  have key : ∀ ops s0, Inv false s0 →
      Always (fun s op => Careful s op ∧ NoZero s op) e s0 (ops ++ [.append i src]) →
      ∀ os, run e s0 ops = .ok (s, os) → Inv false s ∧ Careful s (.append i src) := by
    intro ops
    induction ops with
    | nil =>
      intro s0 I hc os hr
      cases hr
      exact ⟨I, hc.1.1⟩
    | cons op ops ih =>
      intro s0 I hc os hr
      simp only [run] at hr
      obtain ⟨⟨s1, o1⟩, h1, hr⟩ := Outcome.bind_eq_ok.mp hr
      obtain ⟨⟨s2, o2⟩, h2, hr⟩ := Outcome.bind_eq_ok.mp hr
      cases hr
      rcases step_spec e I hc.1.1 (fun _ => hc.1.2) with ⟨w, hw, -⟩ | ⟨s', o, hst, I', -⟩
      · rw [hw] at h1; cases h1
      · rw [hst] at h1; cases h1
        exact ih _ I' (hc.2 _ _ hst) _ h2
  obtain ⟨I, hcar⟩ := key ops _ (inv_init false) hc os hr
  obtain ⟨b0, hb0, hlen⟩ := hcar
  rw [hb] at hb0; cases hb0
  have g := I.good i b hb
  simp only [step, St.buf_eq hb, Outcome.ok_bind] at hs
  unfold append at hs
  rcases ensureSpace_eff e g I.hok hlen with ⟨w, hw, -, -, hz⟩ | ⟨r, hr2, heff, hsz, hcon, hcap, hthr, hgrow, hroom, -⟩
  · cases hz
  · rw [hr2] at hs
    simp only [Outcome.ok_bind] at hs
    cases ht : r.threw
    · simp only [ht, Bool.false_eq_true, if_false, Outcome.pure_eq] at hs
      obtain ⟨r3, h3, hs⟩ := Outcome.bind_eq_ok.mp hs
      obtain ⟨h4, h5, h6⟩ := Outcome.bind_eq_ok.mp h3
      cases h6
      cases hs
      have hi : i < s.bufs.length := by
        rcases Nat.lt_or_ge i s.bufs.length with h | h
        · exact h
        · rw [List.getElem?_eq_none h] at hb; cases hb
      simp only [St.put, List.getElem?_set, hi, if_true] at hb'
      cases hb'
      have hc1 := hcap ht
      refine ⟨by simp only [hsz], by simp only; omega, ?_⟩
      by_cases hroom' : b.size + src.length ≤ b.capa
      · obtain ⟨_, e2, _⟩ := hroom hroom'
        left
        exact ⟨by simp only [e2], hroom'⟩
      · right
        have hne : r.buf ≠ b := by
          intro hh; rw [hh] at hc1; omega
        obtain ⟨_, hcc⟩ := hgrow hne
        simp only
        refine ⟨by omega, ?_, ?_⟩
        · rw [hcc]; split <;> omega
        · intro h0; rw [hcc, if_pos h0]; omega
    · simp only [ht, if_true, Outcome.pure_eq, Outcome.ok_bind] at hs
      injection hs with hs
      have := congrArg Prod.snd hs
      simp [St.put, ht] at this

example : ∃ s os s' b b', run kind St.init [.new 4, .append 0 [1, 2, 3]] = .ok (s, os) ∧
    s.bufs[0]? = some (some b) ∧ step kind s (.append 0 [4, 5]) = .ok (s', .unit) ∧
    s'.bufs[0]? = some (some b') ∧ b.capa = 4 ∧ b'.capa = 8 :=
  ⟨_, _, _, _, _, rfl, rfl, rfl, rfl, rfl, rfl⟩

/-- C28 is false as stated: a buffer constructed with capacity 0 aborts the process on the first append,
where a plain list would simply hold the byte. -/
theorem C28_negation_zero_capacity_append_aborts :
    (run kind St.init [.new 0, .append 0 [1]]).isTrap = true ∧
    BufRun [] [.new 0, .append 0 [1]] [some [1]] [.unit, .unit] :=
  ⟨rfl, .cons (.new _ _) (.cons (.append (l := []) rfl) (.nil _))⟩

/-- So does a copy of a cleared buffer. -/
theorem C28_negation_copy_of_cleared_append_aborts :
    (run kind St.init [.new 8, .clear 0, .copy 0, .append 1 [1]]).isTrap = true := rfl

/-- C29, the part that holds: no careful program, zero-capacity buffers included, has undefined
behaviour, whatever the allocator does; and at its end every live buffer points to nothing or to a live
block of exactly its capacity that no other buffer points to.  Missing: the misuses `Careful` excludes,
for which the claim is false (below). -/
theorem C29_no_use_after_free_partial (e : Env) (ops : List Op) (hc : Always Careful e St.init ops) :
    (run e St.init ops).isUb = false ∧
    ∀ s os, run e St.init ops = .ok (s, os) → ∀ (i : Nat) (b : Buf), s.bufs[i]? = some (some b) →
      (b.data = none ∧ b.capa = 0) ∨
      ∃ a l, b.data = some a ∧ s.heap.blocks a = some l ∧ l.length = b.capa ∧
        ∀ (j : Nat) (c : Buf), s.bufs[j]? = some (some c) → j ≠ i → c.data ≠ some a := by
  have hc' : Always (fun s op => Careful s op ∧ (true = false → NoZero s op)) e St.init ops := by
    simpa using hc
  rcases run_spec e (inv_init true) hc' with ⟨w, hw⟩ | ⟨s, os, hr, I, hrun⟩
  · rw [hw]; exact ⟨rfl, by intro s os h; cases h⟩
  · rw [hr]
    refine ⟨rfl, ?_⟩
    intro s' os' h i b hi
    cases h
    have g := I.good i b hi
    rcases hd : b.data with _ | a
    · left; exact ⟨rfl, g.null hd⟩
    · right
      obtain ⟨_, l, hl, hlen⟩ := g.own a hd
      exact ⟨a, l, rfl, hl, hlen, fun j c hj hji hcd => hji (I.dist j i c b a hj hi hcd hd)⟩

example : Always Careful kind St.init [.new 0, .copy 0, .shrink 1, .reserve 0 5, .append 0 [1], .destroy 0] := by
  refine ⟨trivial, ?_⟩; intro s o h; cases h
  refine ⟨⟨_, rfl, trivial⟩, ?_⟩; intro s o h; cases h
  refine ⟨⟨_, rfl, Or.inr rfl⟩, ?_⟩; intro s o h; cases h
  refine ⟨⟨_, rfl, trivial⟩, ?_⟩; intro s o h; cases h
  refine ⟨⟨_, rfl, by decide⟩, ?_⟩; intro s o h; cases h
  refine ⟨⟨_, rfl, trivial⟩, ?_⟩; intro s o h; cases h
  trivial

/-- What `release` hands out is a live block that no buffer points to any more. -/
theorem C29_released_block_is_exclusive_partial (e : Env) (ops : List Op) (i : Nat) (s s' : St)
    (os : List Obs) (p : Nat) (bs : List Byte)
    (hc : Always Careful e St.init ops) (hr : run e St.init ops = .ok (s, os))
    (hs : step e s (.release i) = .ok (s', .owned (some p) bs)) :
    (∃ l, s'.heap.blocks p = some l ∧ l.take bs.length = bs) ∧
    ∀ (j : Nat) (c : Buf), s'.bufs[j]? = some (some c) → c.data ≠ some p := by
  have hc' : Always (fun s op => Careful s op ∧ (true = false → NoZero s op)) e St.init ops := by
    simpa using hc
  have I := reach_inv e (inv_init true) hc' hr
  simp only [step] at hs
  obtain ⟨b, hb, hs⟩ := Outcome.bind_eq_ok.mp hs
  obtain ⟨bs', hld, hs⟩ := Outcome.bind_eq_ok.mp hs
  injection hs with hs
  injection hs with hs1 hs2
  injection hs2 with hp hbs
  subst hs1 hbs
  have hi : s.bufs[i]? = some (some b) := by
    unfold St.buf at hb
    split at hb
    · rename_i c h; cases hb; exact h
    · cases hb
  have hp' : b.data = some p := hp
  have g := I.good i b hi
  obtain ⟨_, l, hl, hlen⟩ := g.own p hp'
  refine ⟨⟨l, hl, ?_⟩, ?_⟩
  · have hsc := g.sc
    rw [load_ok g (by omega)] at hld
    cases hld
    have : blk s.heap b = l := by simp [blk, hp', hl]
    simp only [this, List.drop_zero, List.length_take, hlen]
    rw [Nat.min_eq_left hsc]
  · intro j c hj hcd
    rcases get_set hj with ⟨_, hv⟩ | ⟨hji, hj'⟩
    · cases hv; cases hcd
    · exact hji (I.dist j i c b p hj' hi hcd hp')

example : ∃ s os s', run kind St.init [.new 4, .append 0 [1, 2, 3]] = .ok (s, os) ∧
    step kind s (.release 0) = .ok (s', .owned (some 0) [1, 2, 3]) := ⟨_, _, _, rfl, rfl⟩

/-- C29 is false as stated: shrinking an empty buffer frees its block but keeps the pointer, so merely
destroying it afterwards frees the block twice. -/
theorem C29_negation_shrink_empty_then_destroy :
    run kind St.init [.new 64, .shrink 0, .destroy 0] = .ub "free of a dead block" := rfl

/-- The same for `resize(0)`, and then reserving reallocates the dead block. -/
theorem C29_negation_resize_zero_then_reserve :
    run kind St.init [.new 64, .append 0 [1], .resize 0 0, .reserve 0 8] = .ub "realloc of a dead block" := rfl

/-- `release_span` of an empty buffer hands the caller a block that is already freed. -/
theorem C29_negation_release_span_of_empty_dangles :
    ∃ s, run kind St.init [.new 64, .releaseSpan 0] = .ok (s, [.unit, .owned (some 0) []]) ∧
      s.heap.blocks 0 = none := ⟨_, rfl, rfl⟩

/-- Appending a buffer to itself when it has to grow reads the block `realloc` has freed. -/
theorem C29_negation_self_append :
    run kind St.init [.new 4, .append 0 [1, 2, 3], .appendBuf 0 0] = .ub "load from a dead block" := rfl

/-- An offset for which `offset + n` wraps passes the range check and writes outside the block. -/
theorem C29_negation_wrapping_write :
    run kind St.init [.new 4, .append 0 [1, 2], .write 0 (2^64 - 1) [7, 7]] = .ub "store out of bounds" := rfl

end Ab.BB
