import Verif.Proof.Vec5
/-! C30, C31, C59, C60: the persistent vector. -/
namespace Ab.PVec
open Spec

variable {T : Type}

/-- C30. A program over vectors that neither assigns a vector to itself nor appends to one of more than 2^30
elements runs, and every variable then has the size and the elements its history means, whatever was done
meanwhile to vectors sharing its nodes. Missing: those two cases, below. -/
theorem C30_persistent_vector_partial (d : T) {ops : List (Op T)} {e : Env T} (hf : Fine (fun _ => none) ops e) :
    ∃ s, run d St.init ops = .ok s ∧
      (∀ k, e k = none → s.var k = none) ∧
      ∀ k l, e k = some l → ∃ v, s.var k = some v ∧ v.size = l.length ∧ ∀ (i : Nat) (h : i < l.length), at' s.heap v i = .ok l[i] := by
  obtain ⟨N, hN⟩ := exists_below ops
  obtain ⟨s, e1, hs⟩ := run_spec (SInv.init d N) hf hN
  obtain ⟨L, hp⟩ := hs
  refine ⟨s, e1, fun k h => (hp.absent k).2 h, fun k l h => ?_⟩
  cases hv : s.var k with
  | none => rw [(hp.absent k).1 hv] at h; cases h
  | some v =>
    have ho := hp.vars k v l hv h
    exact ⟨v, rfl, ho.size, fun i hi => at_spec ho hi⟩

/-- A program crossing a level: five elements, an old version of four, one version dropped, one assigned. -/
def sampleOps : List (Op Nat) :=
  [.new 0, .cons 1 0 10, .cons 2 1 11, .cons 3 2 12, .cons 4 3 13, .cons 5 4 14, .drop 3, .assign 1 5]

def sampleEnv : Env Nat := fun k =>
  match k with
  | 0 => some []
  | 1 => some [10, 11, 12, 13, 14]
  | 2 => some [10, 11]
  | 4 => some [10, 11, 12, 13]
  | 5 => some [10, 11, 12, 13, 14]
  | _ => none

/-- Appending to something short is not one of the excluded cases. -/
theorem not_bad {e : Env T} {i j : Nat} {x : T} {l : List T} (h : e j = some l) (hl : l.length ≤ 2 ^ 30) :
    ¬ Bad e (.cons i j x) := by
  rintro ⟨m, hm, hlt⟩
  rw [h] at hm; cases hm; omega

theorem sample_fine : ∃ e, Fine (fun _ => none) sampleOps e ∧ ∀ k, k < 6 → e k = sampleEnv k := by
  refine ⟨_, .cons rfl (fun h => h) <| .cons rfl (not_bad (l := []) rfl (by decide)) <|
    .cons rfl (not_bad (l := [10]) rfl (by decide)) <| .cons rfl (not_bad (l := [10, 11]) rfl (by decide)) <|
    .cons rfl (not_bad (l := [10, 11, 12]) rfl (by decide)) <|
    .cons rfl (not_bad (l := [10, 11, 12, 13]) rfl (by decide)) <|
    .cons rfl (fun h => h) <| .cons rfl (fun h => by cases h) <| .nil _, by decide⟩

example : ∃ s v w, run 0 St.init sampleOps = .ok s ∧ s.var 4 = some v ∧ s.var 1 = some w ∧ v.size = 4 ∧
    at' s.heap v 3 = .ok 13 ∧ w.size = 5 ∧ at' s.heap w 4 = .ok 14 := by
  obtain ⟨e, hf, he⟩ := sample_fine
  obtain ⟨s, e1, _, h⟩ := C30_persistent_vector_partial 0 hf
  obtain ⟨v, v1, v2, v3⟩ := h 4 _ (he 4 (by decide))
  obtain ⟨w, w1, w2, w3⟩ := h 1 _ (he 1 (by decide))
  exact ⟨s, v, w, e1, v1, w1, v2, v3 3 (by decide), w2, w3 4 (by decide)⟩

/-- Assigning a vector to itself: the only reference is given up before it is taken, and the node used after it
was deleted. -/
theorem C30_negation_self_assignment (d : T) :
    ∃ e : Env T, meant (Env.put (fun _ => none) 0 (some [])) (.assign 0 0) = some e ∧
      (run d St.init [.new 0, .assign 0 0]).isUb := ⟨_, rfl, rfl⟩

/-- Programs that build large vectors. -/
theorem build_large (x : T) : ∀ (n : Nat), n ≤ 2 ^ 30 + 1 → ∃ ops e, Fine (fun _ => none) ops e ∧
    e n = some (List.replicate n x) ∧ ∀ k, n < k → e k = none
  | 0, _ => ⟨[.new 0], _, .cons rfl (fun h => h) (.nil _), rfl, fun k hk => by
      simp only [Env.put]; rw [if_neg (by omega)]⟩
  | n + 1, hn => by
    obtain ⟨ops, e, hf, he, hk⟩ := build_large x n (by omega)
    have happ : ∀ {a b c : Env T} {l m : List (Op T)}, Fine a l b → Fine b m c → Fine a (l ++ m) c := by
      intro a b c l m h1 h2
      induction h1 with
      | nil => exact h2
      | cons q1 q2 _ ih => exact .cons q1 q2 (ih h2)
    refine ⟨ops ++ [.cons (n + 1) n x], e.put (n + 1) (some (List.replicate n x ++ [x])), ?_, ?_, ?_⟩
    · refine happ hf (.cons ?_ (not_bad he (by simp; omega)) (.nil _))
      simp only [meant, he, hk (n + 1) (by omega)]
    · simp only [Env.put, if_pos, List.replicate_succ']
    · intro k hk'
      simp only [Env.put, if_neg (show k ≠ n + 1 by omega)]
      exact hk k (by omega)

theorem run_append (d : T) : ∀ (l m : List (Op T)) (s : St T), run d s (l ++ m) = (run d s l).bind (fun s => run d s m)
  | [], m, s => rfl
  | o :: l, m, s => by
    show (step d s o).bind (fun s => run d s (l ++ m)) = ((step d s o).bind (fun s => run d s l)).bind _
    cases step d s o with
    | ok s' => exact run_append d l m s'
    | throw _ => rfl
    | trap _ => rfl
    | ub _ => rfl
    | fuel => rfl

/-- Appending once more when there are more than 2^30 elements: the capacity is computed by shifting an `int` by
32 bits. -/
theorem C30_negation_large (d x : T) : ∃ ops e e', Fine (fun _ => none) ops e ∧
    meant e (.cons (2 ^ 30 + 2) (2 ^ 30 + 1) x) = some e' ∧
    (run d St.init (ops ++ [.cons (2 ^ 30 + 2) (2 ^ 30 + 1) x])).isUb := by
  obtain ⟨ops, e, hf, he, hk⟩ := build_large x (2 ^ 30 + 1) (Nat.le_refl _)
  refine ⟨ops, e, e.put (2 ^ 30 + 2) (some (List.replicate (2 ^ 30 + 1) x ++ [x])), hf,
    by simp only [meant, he, hk (2 ^ 30 + 2) (by omega)], ?_⟩
  obtain ⟨N, hN⟩ := exists_below ops
  obtain ⟨s, e1, L, hp⟩ := run_spec (SInv.init d N) hf hN
  rw [run_append, e1]
  have hf := (hp.absent (2 ^ 30 + 2)).2 (hk _ (by omega))
  cases hv : s.var (2 ^ 30 + 1) with
  | none => rw [(hp.absent _).1 hv] at he; cases he
  | some v =>
    have ho := hp.vars _ v _ hv he
    have hlen := ho.rep.len
    rw [List.length_replicate] at hlen
    have hlev : 15 ≤ v.level := by
      rcases Nat.lt_or_ge v.level 15 with h | h
      · have : 4 ^ (v.level + 1) ≤ 4 ^ 15 := Nat.pow_le_pow_right (by decide) h
        have : (4 : Nat) ^ 15 = 2 ^ 30 := by decide
        omega
      · exact h
    have hcap : capacity v = .ub "shift of int" := by
      unfold capacity; simp only; rw [if_neg (by omega)]
    show (run d s [.cons (2 ^ 30 + 2) (2 ^ 30 + 1) x]).isUb
    simp only [run, step, St.fresh, hf, St.get, hv, Outcome.ok_bind, cons, hcap]
    rfl

/-- C31. After such a program every node's counter is the number of references to it: from live nodes and from
the program's variables; and the live nodes are exactly those that can be reached from a variable, so nothing
live was freed and nothing unreachable was kept. Missing: as for C30. -/
theorem C31_counts_partial (d : T) {ops : List (Op T)} {e : Env T} (hf : Fine (fun _ => none) ops e) {N : Nat}
    (hN : ∀ o, o ∈ ops → below N o) :
    ∃ s, run d St.init ops = .ok s ∧
      (∀ a n, s.heap.cell a = some n → n.rc = refs s.heap a + varRefs s.var N a) ∧
      (∀ a, (∃ n, s.heap.cell a = some n) ↔ Reach s a) := by
  obtain ⟨s, e1, hs⟩ := run_spec (SInv.init d N) hf hN
  refine ⟨s, e1, fun a n ha => ?_, fun a => ⟨fun ⟨n, ha⟩ => live_reach hs ha, fun h => reach_live hs h⟩⟩
  obtain ⟨L, hp⟩ := hs
  have := hp.inv.count a
  rw [rcOf_some ha] at this
  omega

example : ∃ s, run 0 St.init sampleOps = .ok s ∧ ∀ a, (∃ n, s.heap.cell a = some n) ↔ Reach s a := by
  obtain ⟨e, hf, _⟩ := sample_fine
  obtain ⟨s, h1, _, h2⟩ := C31_counts_partial 0 hf (N := 6) (by
    intro o ho
    simp only [sampleOps, List.mem_cons, List.not_mem_nil, or_false] at ho
    rcases ho with h | h | h | h | h | h | h | h <;> subst h <;> simp [below])
  exact ⟨s, h1, h2⟩

/-- Once every variable's life has ended no node is left. -/
theorem C31_no_leak_partial (d : T) {ops : List (Op T)} {e : Env T} (hf : Fine (fun _ => none) ops e)
    (he : ∀ k, e k = none) : ∃ s, run d St.init ops = .ok s ∧ ∀ a, s.heap.cell a = none := by
  obtain ⟨N, hN⟩ := exists_below ops
  obtain ⟨s, e1, hs⟩ := run_spec (SInv.init d N) hf hN
  refine ⟨s, e1, fun a => ?_⟩
  cases ha : s.heap.cell a with
  | none => rfl
  | some n =>
    exfalso
    have hr := live_reach hs ha
    obtain ⟨L, hp⟩ := hs
    clear ha
    induction hr with
    | root hv => rw [(hp.absent _).2 (he _)] at hv; cases hv
    | child _ _ _ _ ih => exact ih

example : ∃ s, run 0 St.init [.new 0, .cons 1 0 10, .drop 0, .drop 1] = .ok s ∧ ∀ a, s.heap.cell a = none :=
  C31_no_leak_partial 0 (.cons rfl (fun h => h) <| .cons rfl (not_bad (l := []) rfl (by decide)) <|
    .cons rfl (fun h => h) <| .cons rfl (fun h => h) <| .nil _) (by
      intro k; simp only [Env.put]; split
      · rfl
      · split <;> rfl)

/-- What fails when a vector is assigned to itself: the vector's live node is freed. -/
theorem C31_negation_self_assignment (d : T) :
    (run d St.init [.new 0, .assign 0 0]).isUb := rfl

/-- C59. Iterating with a range-based `for` visits exactly the elements, in order, if the size is not a multiple
of four, is zero, or is a power of four; otherwise, forming `end()` fails an assertion. Missing: the sizes it
fails for. -/
theorem C59_range_for_partial (d : T) {ops : List (Op T)} {e : Env T} (hf : Fine (fun _ => none) ops e) :
    ∃ s, run d St.init ops = .ok s ∧ ∀ k l, e k = some l → ∃ v, s.var k = some v ∧
      ((l.length % 4 ≠ 0 ∨ l.length = 0 ∨ ∃ p, l.length = 4 ^ p) → range s.heap v = .ok l) ∧
      (¬ (l.length % 4 ≠ 0 ∨ l.length = 0 ∨ ∃ p, l.length = 4 ^ p) → (range s.heap v).isTrap) := by
  obtain ⟨N, hN⟩ := exists_below ops
  obtain ⟨s, e1, L, hp⟩ := run_spec (SInv.init d N) hf hN
  refine ⟨s, e1, fun k l h => ?_⟩
  cases hv : s.var k with
  | none => rw [(hp.absent k).1 hv] at h; cases h
  | some v =>
    have ho := hp.vars k v l hv h
    refine ⟨v, rfl, ?_, ?_⟩
    · intro hc
      rcases endOk_iff ho with ⟨h1, _⟩ | ⟨_, h2⟩
      · exact range_spec ho h1
      · exact absurd hc h2
    · intro hc
      rcases endOk_iff ho with ⟨_, h1⟩ | ⟨h1, _⟩
      · exact absurd h1 hc
      · exact h1

example : ∃ s v, run 0 St.init sampleOps = .ok s ∧ s.var 5 = some v ∧ range s.heap v = .ok [10, 11, 12, 13, 14] := by
  obtain ⟨e, hf, he⟩ := sample_fine
  obtain ⟨s, e1, h⟩ := C59_range_for_partial 0 hf
  obtain ⟨v, v1, v2, _⟩ := h 5 _ (he 5 (by decide))
  exact ⟨s, v, e1, v1, v2 (Or.inl (by decide))⟩

/-- C59. Reading through an iterator at or past the end aborts, whatever the vector. -/
theorem C59_past_the_end (h : Heap T) (v : V) (i : Nat) (it : Iter) (hi : iterAt h v i = .ok it) (hs : v.size ≤ i) :
    (it.deref h v).isTrap := by
  obtain ⟨a, _, hi⟩ := Outcome.bind_eq_ok.1 hi
  injection hi with hi
  subst hi
  unfold Iter.deref
  rw [if_neg (by simp only; omega)]
  rfl

example : ∃ s v it, run 0 St.init sampleOps = .ok s ∧ s.var 5 = some v ∧ v.size = 5 ∧ iterAt s.heap v 5 = .ok it := by
  obtain ⟨e, hf, he⟩ := sample_fine
  obtain ⟨s, e1, h⟩ := C59_range_for_partial 0 hf
  obtain ⟨s', e1', h'⟩ := C30_persistent_vector_partial 0 hf
  rw [e1] at e1'; injection e1' with e1'; subst e1'
  obtain ⟨v, v1, v2, _⟩ := h 5 _ (he 5 (by decide))
  obtain ⟨v', v1', v2', _⟩ := h'.2 5 _ (he 5 (by decide))
  rw [v1] at v1'; cases v1'
  have := v2 (Or.inl (by decide))
  obtain ⟨b, _, h2⟩ := Outcome.bind_eq_ok.1 this
  obtain ⟨it, h3, _⟩ := Outcome.bind_eq_ok.1 h2
  exact ⟨s, v, it, e1, v1, v2', by rw [show v.size = 5 from v2'] at h3; exact h3⟩

/-- A vector of eight elements cannot be iterated over. -/
theorem C59_negation_eight : ∃ (s : St Nat) (v : V), run 0 St.init
    [.new 0, .cons 1 0 1, .cons 2 1 2, .cons 3 2 3, .cons 4 3 4, .cons 5 4 5, .cons 6 5 6, .cons 7 6 7, .cons 8 7 8] = .ok s ∧
    s.var 8 = some v ∧ v.size = 8 ∧ (range s.heap v).isTrap := by
  obtain ⟨s, h, hr⟩ := C59_range_for_partial 0 (ops := [.new 0, .cons 1 0 1, .cons 2 1 2, .cons 3 2 3, .cons 4 3 4,
      .cons 5 4 5, .cons 6 5 6, .cons 7 6 7, .cons 8 7 8])
    (.cons rfl (fun h => h) <| .cons rfl (not_bad (l := []) rfl (by decide)) <|
    .cons rfl (not_bad (l := [1]) rfl (by decide)) <| .cons rfl (not_bad (l := [1, 2]) rfl (by decide)) <|
    .cons rfl (not_bad (l := [1, 2, 3]) rfl (by decide)) <|
    .cons rfl (not_bad (l := [1, 2, 3, 4]) rfl (by decide)) <|
    .cons rfl (not_bad (l := [1, 2, 3, 4, 5]) rfl (by decide)) <|
    .cons rfl (not_bad (l := [1, 2, 3, 4, 5, 6]) rfl (by decide)) <|
    .cons rfl (not_bad (l := [1, 2, 3, 4, 5, 6, 7]) rfl (by decide)) <| .nil _)
  obtain ⟨s', h', hsz⟩ := C30_persistent_vector_partial 0 (ops := [.new 0, .cons 1 0 1, .cons 2 1 2, .cons 3 2 3, .cons 4 3 4,
      .cons 5 4 5, .cons 6 5 6, .cons 7 6 7, .cons 8 7 8])
    (.cons rfl (fun h => h) <| .cons rfl (not_bad (l := []) rfl (by decide)) <|
    .cons rfl (not_bad (l := [1]) rfl (by decide)) <| .cons rfl (not_bad (l := [1, 2]) rfl (by decide)) <|
    .cons rfl (not_bad (l := [1, 2, 3]) rfl (by decide)) <|
    .cons rfl (not_bad (l := [1, 2, 3, 4]) rfl (by decide)) <|
    .cons rfl (not_bad (l := [1, 2, 3, 4, 5]) rfl (by decide)) <|
    .cons rfl (not_bad (l := [1, 2, 3, 4, 5, 6]) rfl (by decide)) <|
    .cons rfl (not_bad (l := [1, 2, 3, 4, 5, 6, 7]) rfl (by decide)) <| .nil _)
  rw [h] at h'; injection h' with h'; subst h'
  obtain ⟨v, v1, _, v3⟩ := hr 8 [1, 2, 3, 4, 5, 6, 7, 8] rfl
  obtain ⟨v', v1', v2', _⟩ := hsz.2 8 [1, 2, 3, 4, 5, 6, 7, 8] rfl
  rw [v1] at v1'; cases v1'
  refine ⟨s, v, h, v1, v2', v3 ?_⟩
  rintro (h1 | h1 | ⟨p, h1⟩)
  · exact h1 rfl
  · cases h1
  · change 8 = 4 ^ p at h1
    match p, h1 with
    | 0, h1 => simp at h1
    | 1, h1 => simp at h1
    | p + 2, h1 => rw [Nat.pow_succ, Nat.pow_succ] at h1; omega

/-- C60. `foreach` calls its function with every element in order and then with the unused places of the last
leaf (four of them for an empty vector). Missing: that it stops after the elements, which holds only for sizes
that are multiples of four and not zero. -/
theorem C60_foreach_partial (d : T) {ops : List (Op T)} {e : Env T} (hf : Fine (fun _ => none) ops e) :
    ∃ s, run d St.init ops = .ok s ∧ ∀ k l, e k = some l → ∃ v, s.var k = some v ∧
      (l.length ≠ 0 → l.length % 4 = 0 → foreach' s.heap v.level (some v.root) = .ok l) ∧
      (∃ m, 0 < m ∧ m ≤ 4 ∧ (l.length + m) % 4 = 0 ∧
        (¬ (l.length ≠ 0 ∧ l.length % 4 = 0) → foreach' s.heap v.level (some v.root) = .ok (l ++ List.replicate m d))) := by
  obtain ⟨N, hN⟩ := exists_below ops
  obtain ⟨s, e1, L, hp⟩ := run_spec (SInv.init d N) hf hN
  refine ⟨s, e1, fun k l h => ?_⟩
  cases hv : s.var k with
  | none => rw [(hp.absent k).1 hv] at h; cases h
  | some v =>
    have ho := hp.vars k v l hv h
    refine ⟨v, rfl, ?_, 4 - l.length % 4, by omega, by omega, by omega, ?_⟩
    · intro h1 h2
      rw [foreach_spec ho.rep (by intro e; rw [e] at h1; exact h1 rfl)]
      unfold pad
      rw [h2]; simp
    · intro hc
      by_cases hl : l = []
      · subst hl
        have hlev : v.level = 0 := by
          rcases ho.shape with h1 | h1
          · exact h1
          · simp at h1
        have hr := ho.rep
        rw [hlev] at hr ⊢
        rw [foreach_leaf hr]; rfl
      · rw [foreach_spec ho.rep hl]
        unfold pad
        have h1 : 0 < l.length := List.length_pos_iff.2 hl
        have : (4 - l.length % 4) % 4 = 4 - l.length % 4 := by omega
        rw [this]

example : ∃ s v, run 0 St.init sampleOps = .ok s ∧ s.var 4 = some v ∧
    foreach' s.heap v.level (some v.root) = .ok [10, 11, 12, 13] := by
  obtain ⟨e, hf, he⟩ := sample_fine
  obtain ⟨s, e1, h⟩ := C60_foreach_partial 0 hf
  obtain ⟨v, v1, v2, _⟩ := h 4 _ (he 4 (by decide))
  exact ⟨s, v, e1, v1, v2 (by decide) (by decide)⟩

/-- A vector of one element: the function is called four times. -/
theorem C60_negation_one (d x : T) : ∃ s v, run d St.init [.new 0, .cons 1 0 x] = .ok s ∧ s.var 1 = some v ∧ v.size = 1 ∧
    foreach' s.heap v.level (some v.root) = .ok [x, d, d, d] :=
  ⟨_, ⟨1, 1, 0⟩, rfl, rfl, rfl, rfl⟩

end Ab.PVec
