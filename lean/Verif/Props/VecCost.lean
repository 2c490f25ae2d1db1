import Verif.Props.Vec
/-! Property theorem C104: what appending to a persistent vector costs. -/
namespace Ab.PVec
open Spec

variable {T : Type}

theorem inc_next {h h' : Heap T} {a : Nat} (e : h.inc a = .ok h') : h'.next = h.next := by
  obtain ⟨n, _, e⟩ := Outcome.bind_eq_ok.1 e
  injection e with e
  rw [← e]; rfl

theorem dec_next {h h' : Heap T} {a r : Nat} (e : h.dec a = .ok (h', r)) : h'.next = h.next := by
  obtain ⟨n, _, e⟩ := Outcome.bind_eq_ok.1 e
  split at e
  · cases e
  · injection e with e
    injection e with e _
    rw [← e]; rfl

theorem setBody_next {h h' : Heap T} {a : Nat} {b : Body T} (e : h.setBody a b = .ok h') : h'.next = h.next := by
  obtain ⟨n, _, e⟩ := Outcome.bind_eq_ok.1 e
  injection e with e
  rw [← e]; rfl

theorem incChild_next {h h' : Heap T} {c : Option Nat} (e : incChild h c = .ok h') : h'.next = h.next := by
  cases c with
  | none => injection e with e; rw [e]
  | some a => exact inc_next e

theorem release_next : ∀ (level : Nat) (h h' : Heap T) (c : Option Nat), release level h c = .ok h' → h'.next = h.next
  | level, h, h', none, e => by
    cases level <;> (injection e with e; rw [e])
  | 0, h, h', some a, e => by
    rw [release] at e
    obtain ⟨⟨h1, r⟩, e1, e⟩ := Outcome.bind_eq_ok.1 e
    have := dec_next e1
    dsimp only at e
    split at e
    · obtain ⟨_, _, e⟩ := Outcome.bind_eq_ok.1 e
      injection e with e
      rw [← e]; exact this
    · injection e with e
      rw [← e]; exact this
  | level + 1, h, h', some a, e => by
    rw [release] at e
    obtain ⟨⟨h1, r⟩, e1, e⟩ := Outcome.bind_eq_ok.1 e
    have := dec_next e1
    dsimp only at e
    split at e
    · obtain ⟨c, _, e⟩ := Outcome.bind_eq_ok.1 e
      obtain ⟨g0, q0, e⟩ := Outcome.bind_eq_ok.1 e
      obtain ⟨g1, q1, e⟩ := Outcome.bind_eq_ok.1 e
      obtain ⟨g2, q2, e⟩ := Outcome.bind_eq_ok.1 e
      obtain ⟨g3, q3, e⟩ := Outcome.bind_eq_ok.1 e
      injection e with e
      rw [← e, put_next, release_next level _ _ _ q3, release_next level _ _ _ q2, release_next level _ _ _ q1,
        release_next level _ _ _ q0, this]
    · injection e with e
      rw [← e]; exact this

theorem copyLeaf_next {d : T} {h h' : Heap T} {c : Option Nat} {a : Nat} (e : copyLeaf d h c = .ok (h', a)) :
    h'.next = h.next + 1 := by
  cases c with
  | none => injection e with e; injection e with e _; rw [← e]
  | some b =>
    obtain ⟨_, _, e⟩ := Outcome.bind_eq_ok.1 e
    injection e with e; injection e with e _; rw [← e]

theorem copyBranch_next {h h' : Heap T} {c : Option Nat} {a : Nat} (e : copyBranch h c = .ok (h', a)) :
    h'.next = h.next + 1 := by
  cases c with
  | none => injection e with e; injection e with e _; rw [← e]
  | some b =>
    obtain ⟨ch, _, e⟩ := Outcome.bind_eq_ok.1 e
    dsimp only at e
    obtain ⟨g0, q0, e⟩ := Outcome.bind_eq_ok.1 e
    obtain ⟨g1, q1, e⟩ := Outcome.bind_eq_ok.1 e
    obtain ⟨g2, q2, e⟩ := Outcome.bind_eq_ok.1 e
    obtain ⟨g3, q3, e⟩ := Outcome.bind_eq_ok.1 e
    injection e with e; injection e with e _
    rw [← e, incChild_next q3, incChild_next q2, incChild_next q1, incChild_next q0]; rfl

theorem update_next (d : T) : ∀ (level : Nat) (h h' : Heap T) (c : Option Nat) (i : Nat) (x : T) (a : Nat),
    update d level h c i x = .ok (h', a) → h'.next = h.next + (level + 1)
  | 0, h, h', c, i, x, a, e => by
    rw [update] at e
    obtain ⟨⟨g, b⟩, q, e⟩ := Outcome.bind_eq_ok.1 e
    obtain ⟨v, _, e⟩ := Outcome.bind_eq_ok.1 e
    obtain ⟨g1, q1, e⟩ := Outcome.bind_eq_ok.1 e
    injection e with e; injection e with e _
    rw [← e, setBody_next q1, copyLeaf_next q]
  | level + 1, h, h', c, i, x, a, e => by
    rw [update] at e
    obtain ⟨⟨g, b⟩, q, e⟩ := Outcome.bind_eq_ok.1 e
    dsimp only at e
    obtain ⟨ch, _, e⟩ := Outcome.bind_eq_ok.1 e
    obtain ⟨g1, q1, e⟩ := Outcome.bind_eq_ok.1 e
    obtain ⟨⟨g2, n⟩, q2, e⟩ := Outcome.bind_eq_ok.1 e
    obtain ⟨ch2, _, e⟩ := Outcome.bind_eq_ok.1 e
    obtain ⟨g3, q3, e⟩ := Outcome.bind_eq_ok.1 e
    obtain ⟨g4, q4, e⟩ := Outcome.bind_eq_ok.1 e
    injection e with e; injection e with e _
    rw [← e, inc_next q4, setBody_next q3, update_next d level _ _ _ _ _ _ q2, release_next _ _ _ _ q1, copyBranch_next q]
    omega

theorem cons_next {d : T} {h h' : Heap T} {v w : V} {x : T} (e : cons d h v x = .ok (h', w)) :
    h'.next = h.next + (w.level + 1) := by
  unfold cons at e
  dsimp only at e
  obtain ⟨cap, _, e⟩ := Outcome.bind_eq_ok.1 e
  split at e
  · obtain ⟨⟨g, r⟩, q, e⟩ := Outcome.bind_eq_ok.1 e
    obtain ⟨g1, q1, e⟩ := Outcome.bind_eq_ok.1 e
    injection e with e; injection e with e ew
    rw [← e, ← ew, inc_next q1, update_next d _ _ _ _ _ _ _ q]
  · obtain ⟨g0, q0, e⟩ := Outcome.bind_eq_ok.1 e
    obtain ⟨ch, _, e⟩ := Outcome.bind_eq_ok.1 e
    split at e
    · cases e
    · obtain ⟨⟨g, r⟩, q, e⟩ := Outcome.bind_eq_ok.1 e
      obtain ⟨ch2, _, e⟩ := Outcome.bind_eq_ok.1 e
      obtain ⟨g1, q1, e⟩ := Outcome.bind_eq_ok.1 e
      obtain ⟨g2, q2, e⟩ := Outcome.bind_eq_ok.1 e
      obtain ⟨g3, q3, e⟩ := Outcome.bind_eq_ok.1 e
      injection e with e; injection e with e ew
      rw [← e, ← ew, inc_next q3, inc_next q2, setBody_next q1, update_next d _ _ _ _ _ _ _ q, inc_next q0]
      show h.next + 1 + (v.level + 1) = h.next + (v.level + 1 + 1)
      omega

/-- **C104**: in any program, appending an element to a vector of `n` elements makes exactly `k` nodes, where `k` is the least
number, other than zero, with `n + 1 ≤ 4^k`; and every node there was is still there, with the same contents: all the others
are shared. -/
theorem C104_append_cost (d : T) {ops : List (Op T)} {e : Env T} (hf : Fine (fun _ => none) ops e) {i j : Nat} {l : List T}
    (hi : e i = none) (hj : e j = some l) (hl : l.length ≤ 2^30) (x : T) :
    ∃ s s' k, run d St.init ops = .ok s ∧ step d s (.cons i j x) = .ok s' ∧
      s'.heap.next = s.heap.next + k ∧ k ≠ 0 ∧ l.length + 1 ≤ 4^k ∧ (∀ m, m ≠ 0 → l.length + 1 ≤ 4^m → k ≤ m) ∧
      ∀ a n, s.heap.cell a = some n → ∃ n', s'.heap.cell a = some n' ∧ n'.body = n.body := by
  obtain ⟨N, hN⟩ := exists_below ops
  obtain ⟨s, e1, L, hp⟩ := run_spec (SInv.init d N) hf hN
  cases hv : s.var j with
  | none => rw [(hp.absent _).1 hv] at hj; cases hj
  | some v =>
    have hfi := (hp.absent i).2 hi
    obtain ⟨h', w, L', q1, q2, q3, q4⟩ := cons_spec hp x (hp.vars j v l hv hj) hl
    obtain ⟨nw, hnw⟩ := q3.rep.live
    have hinc : h'.inc w.root = .ok (h'.put w.root (some { nw with rc := nw.rc + 1 })) := by
      unfold Heap.inc Heap.node; rw [hnw]; rfl
    rw [hinc] at q1
    have q1' : cons d s.heap v x = .ok (h'.put w.root (some { nw with rc := nw.rc + 1 }), w) := q1
    refine ⟨s, ⟨h'.put w.root (some { nw with rc := nw.rc + 1 }), setVar s.var i (some w)⟩, w.level + 1, e1, ?_,
      cons_next q1', by omega, ?_, ?_, ?_⟩
    · simp only [step, St.fresh, hfi, Outcome.ok_bind, St.get, hv, q1']; rfl
    · have := q3.rep.len
      simpa using this
    · intro m hm hle
      rcases q3.shape with h0 | h0
      · omega
      · rw [List.length_append, List.length_singleton] at h0
        apply Decidable.byContradiction
        intro hlt
        have : 4 ^ m ≤ 4 ^ w.level := Nat.pow_le_pow_right (by decide) (by omega)
        omega
    · intro a n ha
      exact (q4.trans (Keep.put (m := { nw with rc := nw.rc + 1 }) hnw rfl)).2 a n ha

example : ∃ e : Env Nat, Fine (fun _ => none) sampleOps e ∧ e 7 = none ∧ e 5 = some [10, 11, 12, 13, 14] := by
  obtain ⟨e, h1, h2⟩ := sample_fine
  refine ⟨_, .cons rfl (fun h => h) <| .cons rfl (not_bad (l := []) rfl (by decide)) <|
    .cons rfl (not_bad (l := [10]) rfl (by decide)) <| .cons rfl (not_bad (l := [10, 11]) rfl (by decide)) <|
    .cons rfl (not_bad (l := [10, 11, 12]) rfl (by decide)) <|
    .cons rfl (not_bad (l := [10, 11, 12, 13]) rfl (by decide)) <|
    .cons rfl (fun h => h) <| .cons rfl (fun h => by cases h) <| .nil _, rfl, rfl⟩

end Ab.PVec
