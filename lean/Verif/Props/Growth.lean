import Verif.Props.ByteBuffer
/-! Property theorem C103: appending to a byte buffer costs amortised constant time. -/
namespace Ab.BB

/-- The capacity of the first buffer. -/
def cap0 (s : St) : Nat :=
  match s.bufs[0]? with
  | some (some b) => b.capa
  | _ => 0

/-- The bytes that reallocations have to move while a program over one buffer runs: its whole block each time the allocator
hands out a new one. -/
def moved (e : Env) (s : St) : List Op → Nat
  | [] => 0
  | op :: ops =>
    match step e s op with
    | .ok (s', _) => (if s'.heap.next = s.heap.next then 0 else cap0 s) + moved e s' ops
    | _ => 0

/-- What an append does to sizes and to the number of blocks handed out. -/
theorem append_cost {e : Env} {h : Heap} {b : Buf} {src : List Byte} {r : Res} (hc : b.capa ≠ 0) (hl : b.capa < 2^63)
    (hs : b.size ≤ b.capa) (hn : src.length < 2^63) (ha : append e h b src = .ok r) :
    (r.heap.next = h.next ∧ r.buf.capa = b.capa ∧ b.size ≤ r.buf.size ∧ r.buf.size ≤ b.capa) ∨
    (r.heap.next = h.next + 1 ∧ r.buf.capa = max (b.size + src.length) (2 * b.capa) ∧ r.buf.capa < 2^63 ∧
      r.buf.size = b.size + src.length ∧ b.capa < b.size + src.length) := by
  unfold append at ha
  obtain ⟨r1, h1, h2⟩ := Outcome.bind_eq_ok.1 ha
  have hm : add64 b.size src.length = b.size + src.length := by
    unfold add64; exact Nat.mod_eq_of_lt (by omega)
  have hstore : ∀ {h h' : Heap} {p off bs}, store h p off bs = .ok h' → h'.next = h.next := by
    intro h h' p off bs hst
    unfold store at hst
    split at hst
    · injection hst with hst; rw [hst]
    · split at hst
      · cases hst
      · split at hst
        · cases hst
        · split at hst
          · injection hst with hst; rw [← hst]; rfl
          · cases hst
  unfold ensureSpace at h1
  rw [hm] at h1
  dsimp only at h1
  split at h1
  · rename_i hlt
    unfold growCapacity at h1
    rw [if_neg hc] at h1
    obtain ⟨_, _, h1⟩ := Outcome.bind_eq_ok.1 h1
    obtain ⟨_, _, h1⟩ := Outcome.bind_eq_ok.1 h1
    have hmul : mul64 b.capa 2 = 2 * b.capa := by
      unfold mul64; rw [Nat.mod_eq_of_lt (by omega)]; omega
    rw [hmul] at h1
    unfold resizeCapacity at h1
    rw [if_neg (by omega), if_neg (by omega)] at h1
    obtain ⟨⟨hp, d⟩, h3, h4⟩ := Outcome.bind_eq_ok.1 h1
    have hre : (d = none ∧ hp.next = h.next) ∨
        (∃ a, d = some a ∧ hp.next = h.next + 1 ∧ max (b.size + src.length) (2 * b.capa) < 2^63) := by
      unfold realloc at h3
      split at h3
      · injection h3 with h3
        unfold malloc at h3
        split at h3
        · injection h3 with h3 h5; left; exact ⟨h5.symm, by rw [← h3]⟩
        · rename_i href
          injection h3 with h3 h5; right
          refine ⟨_, h5.symm, by rw [← h3], ?_⟩
          simp [Env.refuses] at href
          omega
      · split at h3
        · cases h3
        · split at h3
          · injection h3 with h3; injection h3 with h3 h5; left; exact ⟨h5.symm, by rw [← h3]⟩
          · rename_i href
            injection h3 with h3; injection h3 with h3 h5; right
            refine ⟨_, h5.symm, by rw [← h3], ?_⟩
            simp [Env.refuses] at href
            omega
    rcases hre with ⟨rfl, hnx⟩ | ⟨a, rfl, hnx, hlt63⟩
    · injection h4 with h4
      subst h4
      simp only [if_true] at h2
      injection h2 with h2
      subst h2
      exact Or.inl ⟨hnx, rfl, Nat.le_refl _, hs⟩
    · injection h4 with h4
      subst h4
      simp only [Bool.false_eq_true, if_false] at h2
      obtain ⟨h', h5, h6⟩ := Outcome.bind_eq_ok.1 h2
      injection h6 with h6
      subst h6
      exact Or.inr ⟨by rw [← hnx]; exact hstore h5, rfl, hlt63, rfl, hlt⟩
  · rename_i hge
    injection h1 with h1
    subst h1
    simp only [Bool.false_eq_true, if_false] at h2
    obtain ⟨h', h5, h6⟩ := Outcome.bind_eq_ok.1 h2
    injection h6 with h6
    subst h6
    exact Or.inl ⟨hstore h5, rfl, Nat.le_add_right _ _, by dsimp only; omega⟩

/-- The same along any number of appends. -/
theorem appends_cost (e : Env) (c : Nat) : ∀ (srcs : List (List Byte)) (h : Heap) (b : Buf) (s' : St) (os : List Obs) (k m : Nat),
    b.capa ≠ 0 → b.capa < 2^63 → b.size ≤ b.capa → (∀ src ∈ srcs, src.length < 2^63) →
    2^k * c ≤ b.capa → b.capa ≤ max c (2 * b.size) → m + c ≤ b.capa →
    run e ⟨h, [some b]⟩ (srcs.map (.append 0 ·)) = .ok (s', os) →
    ∃ b', s'.bufs = [some b'] ∧ h.next ≤ s'.heap.next ∧ b'.size ≤ b'.capa ∧ 2^(k + (s'.heap.next - h.next)) * c ≤ b'.capa ∧
      b'.capa ≤ max c (2 * b'.size) ∧ m + moved e ⟨h, [some b]⟩ (srcs.map (.append 0 ·)) + c ≤ b'.capa
  | [], h, b, s', os, k, m, _, _, hs, _, hk, hb, hm, hr => by
    injection hr with hr
    injection hr with hr
    subst hr
    exact ⟨b, rfl, Nat.le_refl _, hs, by simpa using hk, hb, by simpa [moved] using hm⟩
  | src :: srcs, h, b, s', os, k, m, hc, hl, hs, hn, hk, hb, hm, hr => by
    rw [List.map_cons, run] at hr
    obtain ⟨⟨s1, o⟩, h1, h2⟩ := Outcome.bind_eq_ok.1 hr
    obtain ⟨⟨s2, os2⟩, h3, h4⟩ := Outcome.bind_eq_ok.1 h2
    injection h4 with h4
    injection h4 with h4 _
    subst h4
    have h1' := h1
    unfold step at h1
    dsimp only at h1
    rw [show St.buf ⟨h, [some b]⟩ 0 = .ok b from rfl, Outcome.ok_bind] at h1
    obtain ⟨r, h5, h6⟩ := Outcome.bind_eq_ok.1 h1
    injection h6 with h6
    injection h6 with h6 _
    have hs1 : s1 = ⟨r.heap, [some r.buf]⟩ := h6.symm
    subst hs1
    rw [List.map_cons, moved, h1']
    dsimp only
    rw [show cap0 ⟨h, [some b]⟩ = b.capa from rfl]
    have hn' : ∀ src ∈ srcs, src.length < 2^63 := fun x hx => hn x (by simp [hx])
    rcases append_cost hc hl hs (hn src (by simp)) h5 with ⟨g1, g2, g3, g4⟩ | ⟨g1, g2, g3, g4, g5⟩
    · obtain ⟨b', q1, q2, q3, q4, q5, q6⟩ := appends_cost e c srcs r.heap r.buf s2 os2 k m (by omega) (by omega) (by omega) hn'
        (by omega) (by omega) (by omega) h3
      rw [if_pos g1]
      rw [g1] at q2 q4
      exact ⟨b', q1, q2, q3, q4, q5, by omega⟩
    · have hk' : 2^(k+1) * c ≤ r.buf.capa := by
        rw [Nat.pow_succ, Nat.mul_right_comm]; omega
      obtain ⟨b', q1, q2, q3, q4, q5, q6⟩ := appends_cost e c srcs r.heap r.buf s2 os2 (k + 1) (m + b.capa) (by omega) (by omega)
        (by omega) hn' hk' (by omega) (by omega) h3
      rw [if_neg (by omega)]
      rw [g1] at q2 q4
      refine ⟨b', q1, by omega, q3, ?_, q5, by omega⟩
      rw [show k + (s2.heap.next - h.next) = k + 1 + (s2.heap.next - (h.next + 1)) by omega]
      exact q4

/-- **C103**: whatever is appended to a buffer made with room for `c` bytes, in pieces of any sizes, and whatever the allocator
refuses: the buffer holds its contents in at most twice the room they need (or the `c` bytes asked for); the number of times it
was moved is at most the number of doublings from `c` to that; and all moves together moved less than that many bytes. -/
theorem C103_amortised (e : Env) (c : Nat) (hc : c ≠ 0) (srcs : List (List Byte)) (hn : ∀ src ∈ srcs, src.length < 2^63)
    (s0 s : St) (o : Obs) (os : List Obs) (h0 : step e St.init (.new c) = .ok (s0, o)) (hb0 : s0.bufs ≠ [])
    (h : run e s0 (srcs.map (.append 0 ·)) = .ok (s, os)) :
    ∃ b, s.bufs = [some b] ∧ b.size ≤ b.capa ∧ b.capa ≤ max c (2 * b.size) ∧ 2^(s.heap.next - s0.heap.next) * c ≤ b.capa ∧
      moved e s0 (srcs.map (.append 0 ·)) + c ≤ b.capa := by
  unfold step ctor at h0
  dsimp only at h0
  cases hm : malloc e St.init.heap c with
  | mk hp d =>
    rw [hm] at h0
    cases d with
    | none =>
      injection h0 with h0
      injection h0 with h0 _
      subst h0
      exact absurd rfl hb0
    | some a =>
      injection h0 with h0
      injection h0 with h0 _
      have hs0 : s0 = ⟨hp, [some ⟨some a, 0, c⟩]⟩ := h0.symm
      subst hs0
      have hlt : c < 2^63 := by
        unfold malloc at hm
        split at hm
        · injection hm with _ hm; cases hm
        · rename_i href
          simp [Env.refuses] at href
          omega
      obtain ⟨b, q1, q2, q3, q4, q5, q6⟩ := appends_cost e c srcs hp ⟨some a, 0, c⟩ s os 0 0 hc hlt (Nat.zero_le _) hn
        (by simp) (by dsimp only; omega) (by dsimp only; omega) h
      exact ⟨b, q1, q3, q5, by simpa using q4, by simpa using q6⟩

/-- Seventeen single bytes into a buffer of two: four moves, of thirty bytes in all. -/
example : ∃ s0 s o os, step kind St.init (.new 2) = .ok (s0, o) ∧ s0.bufs ≠ [] ∧
    run kind s0 ((List.replicate 17 [7#8]).map (.append 0 ·)) = .ok (s, os) ∧ s.heap.next - s0.heap.next = 4 ∧
    moved kind s0 ((List.replicate 17 [7#8]).map (.append 0 ·)) = 30 :=
  ⟨_, _, _, _, rfl, by decide, rfl, by decide +kernel, by decide +kernel⟩

end Ab.BB
