import Verif.Model.VecSteps
import Verif.Spec.VecSize
import Verif.Props.Vec
/-! C119: how deep and how large persistent vectors are. -/
namespace Ab.PVec
open Spec

variable {T : Type}

/-! ### Depth -/

theorem Depth.unique {n k m : Nat} (h1 : Depth n k) (h2 : Depth n m) : k = m := by
  have := h1.2.2 m h2.1 h2.2.1
  have := h2.2.2 k h1.1 h1.2.1
  omega

theorem VOk.depth {d : T} {h : Heap T} {L} {v : V} {l : List T} (ho : VOk d h L v l) : Depth l.length (v.level + 1) := by
  refine ⟨by omega, ho.rep.len, fun m hm hle => ?_⟩
  rcases ho.shape with h0 | h0
  · omega
  · apply Decidable.byContradiction
    intro hlt
    have : 4 ^ m ≤ 4 ^ v.level := Nat.pow_le_pow_right (by decide) (by omega)
    omega

/-! ### What is looked at -/

theorem leafForSeen_spec (h : Heap T) : ∀ (level a i b : Nat), leafFor h level a i = .ok b →
    ∃ s, leafForSeen h level a i = .ok (b, s) ∧ s.length = level
  | 0, a, i, b, e => by injection e with e; subst e; exact ⟨[], rfl, rfl⟩
  | level + 1, a, i, b, e => by
    rw [leafFor] at e
    obtain ⟨c, e1, e⟩ := Outcome.bind_eq_ok.1 e
    split at e
    · cases e
    · rename_i x hx
      obtain ⟨s, e2, e3⟩ := leafForSeen_spec h level x i b e
      refine ⟨a :: s, ?_, by rw [List.length_cons, e3]⟩
      simp only [leafForSeen, e1, Outcome.ok_bind, hx, e2]; rfl

/-- Counting changes nothing: the same answer, or the same failure. -/
theorem leafForSeen_erase (h : Heap T) : ∀ (level a i : Nat),
    (leafForSeen h level a i).bind (fun p => .ok p.1) = leafFor h level a i
  | 0, a, i => rfl
  | level + 1, a, i => by
    rw [leafFor, leafForSeen]
    cases h.children a with
    | ok c =>
      simp only [Outcome.ok_bind]
      cases c (subindex (level + 1) i) with
      | none => rfl
      | some b =>
        dsimp only
        rw [← leafForSeen_erase h level b i]
        cases leafForSeen h level b i <;> rfl
    | throw _ => rfl
    | trap _ => rfl
    | ub _ => rfl
    | fuel => rfl

/-- **C119**: counting changes nothing: reading yields the same element, or fails the same way, counted or not. -/
theorem C119_same_answer (h : Heap T) (v : V) (i : Nat) : (atSeen h v i).bind (fun p => .ok p.1) = at' h v i := by
  unfold atSeen at'
  rw [← leafForSeen_erase]
  cases leafForSeen h v.level v.root i with
  | ok p =>
    simp only [Outcome.ok_bind]
    show ((h.values p.1).bind _).bind _ = (h.values p.1).bind _
    cases h.values p.1 <;> rfl
  | throw _ => rfl
  | trap _ => rfl
  | ub _ => rfl
  | fuel => rfl

/-! ### The nodes of a vector -/

/-- The nodes of a tree. -/
theorem Rep.nodes {d : T} {h : Heap T} : ∀ {level a : Nat} {l : List T}, Rep d h level a l → ∃ ns : List Nat,
    a ∈ ns ∧ (∀ b n c j x, b ∈ ns → h.cell b = some n → n.body = .branch c → c j = some x → x ∈ ns) ∧
    3 * ns.length ≤ l.length + 3 * (level + 1) ∧ (l.length = 4 ^ (level + 1) → 3 * ns.length + 1 ≤ l.length) := by
  intro level
  induction level with
  | zero =>
    rintro a l ⟨hl, n, v, hn, hb, hv⟩
    refine ⟨[a], List.mem_singleton.2 rfl, ?_, by simp, by intro e; simp at e; simp [e]⟩
    intro b n' c j x hb' hn' hc
    rw [List.mem_singleton.1 hb', hn] at hn'
    injection hn' with hn'
    rw [← hn', hb] at hc
    cases hc
  | succ k ih =>
    rintro a l ⟨hl, n, c, hn, hb, hc⟩
    have kid : ∀ j : Fin 4, ∃ ns : List Nat, (∀ x, c j = some x → x ∈ ns) ∧
        (∀ b n c j x, b ∈ ns → h.cell b = some n → n.body = .branch c → c j = some x → x ∈ ns) ∧
        (l.length ≤ j.1 * 4 ^ (k + 1) → ns.length = 0) ∧
        3 * ns.length ≤ min (4 ^ (k + 1)) (l.length - j.1 * 4 ^ (k + 1)) + 3 * (k + 1) ∧
        (4 ^ (k + 1) ≤ l.length - j.1 * 4 ^ (k + 1) → 3 * ns.length + 1 ≤ 4 ^ (k + 1)) := by
      intro j
      have hlen := chunk_length (4 ^ (k + 1)) j.1 l
      have hp := pow_pos4 (k + 1)
      by_cases hne : chunk (4 ^ (k + 1)) j.1 l = []
      · refine ⟨[], ?_, ?_, fun _ => rfl, by simp, fun hh => ?_⟩
        · intro x hx; rw [(hc j).1 hne] at hx; cases hx
        · intro b n c j x hb; cases hb
        · rw [hne, List.length_nil] at hlen; simp; omega
      · obtain ⟨b, hcb, hr⟩ := (hc j).2 hne
        obtain ⟨ns, h1, h2, h3, h4⟩ := ih hr
        have hpos : 0 < (chunk (4 ^ (k + 1)) j.1 l).length := List.length_pos_iff.2 hne
        refine ⟨ns, ?_, h2, fun hh => by omega, by omega, fun hh => ?_⟩
        · intro x hx; rw [hcb] at hx; injection hx with hx; rw [← hx]; exact h1
        · have := h4 (by omega); omega
    obtain ⟨n0, a0, b0, z0, l0, f0⟩ := kid 0
    obtain ⟨n1, a1, b1, z1, l1, f1⟩ := kid 1
    obtain ⟨n2, a2, b2, z2, l2, f2⟩ := kid 2
    obtain ⟨n3, a3, b3, z3, l3, f3⟩ := kid 3
    have hpow : 4 ^ (k + 2) = 4 * 4 ^ (k + 1) := by rw [Nat.pow_succ 4 (k + 1), Nat.mul_comm]
    refine ⟨a :: (n0 ++ n1 ++ n2 ++ n3), List.mem_cons_self, ?_, ?_, ?_⟩
    · intro b n' c' j x hb' hn' hc' hx
      rw [List.mem_cons] at hb'
      rw [List.mem_cons, List.mem_append, List.mem_append, List.mem_append]
      refine Or.inr ?_
      rcases hb' with rfl | hb'
      · rw [hn] at hn'
        injection hn' with hn'
        rw [← hn', hb] at hc'
        injection hc' with hc'
        subst hc'
        match j, hx with
        | 0, hx => exact Or.inl (Or.inl (Or.inl (a0 x hx)))
        | 1, hx => exact Or.inl (Or.inl (Or.inr (a1 x hx)))
        | 2, hx => exact Or.inl (Or.inr (a2 x hx))
        | 3, hx => exact Or.inr (a3 x hx)
      · rw [List.mem_append, List.mem_append, List.mem_append] at hb'
        rcases hb' with ((hb' | hb') | hb') | hb'
        · exact Or.inl (Or.inl (Or.inl (b0 b n' c' j x hb' hn' hc' hx)))
        · exact Or.inl (Or.inl (Or.inr (b1 b n' c' j x hb' hn' hc' hx)))
        · exact Or.inl (Or.inr (b2 b n' c' j x hb' hn' hc' hx))
        · exact Or.inr (b3 b n' c' j x hb' hn' hc' hx)
    · simp only [List.length_cons, List.length_append]
      have hp := pow_pos4 (k + 1)
      rw [hpow] at hl
      simp only [show (0 : Fin 4).1 = 0 from rfl, show (1 : Fin 4).1 = 1 from rfl, show (2 : Fin 4).1 = 2 from rfl,
        show (3 : Fin 4).1 = 3 from rfl] at *
      generalize 4 ^ (k + 1) = B at *
      omega
    · simp only [List.length_cons, List.length_append]
      intro hfull
      rw [show 4 ^ (k + 1 + 1) = 4 * 4 ^ (k + 1) from hpow] at hfull
      simp only [show (0 : Fin 4).1 = 0 from rfl, show (1 : Fin 4).1 = 1 from rfl, show (2 : Fin 4).1 = 2 from rfl,
        show (3 : Fin 4).1 = 3 from rfl] at *
      generalize 4 ^ (k + 1) = B at *
      omega

/-- A list that has every number with a property has at least as many entries as there are such numbers. -/
theorem count_le {p : Nat → Nat} (hp : ∀ a, p a ≤ 1) : ∀ (n : Nat) (l : List Nat), (∀ a, a < n → p a ≠ 0 → a ∈ l) →
    sumTo p n ≤ l.length
  | 0, _, _ => Nat.zero_le _
  | n + 1, l, h => by
    rw [sumTo]
    by_cases h0 : p n = 0
    · have := count_le hp n l (fun a ha hn => h a (by omega) hn); omega
    · have hm := h n (by omega) h0
      have := count_le hp n (l.erase n) (fun a ha hn => (List.mem_erase_of_ne (by omega)).2 (h a (by omega) hn))
      rw [List.length_erase_of_mem hm] at this
      have := hp n
      have := List.length_pos_of_mem hm
      omega

theorem vars_nodes {d : T} {N : Nat} {s : St T} {e : Env T} {L} (hp : Pre d N s.heap s.var e L (fun _ => False))
    (dep : Nat → Nat) (hd : ∀ k l, e k = some l → Depth l.length (dep k)) : ∀ (M : Nat), ∃ ns : List Nat,
      (∀ k v, k < M → s.var k = some v → v.root ∈ ns) ∧
      (∀ b n c j x, b ∈ ns → s.heap.cell b = some n → n.body = .branch c → c j = some x → x ∈ ns) ∧
      3 * ns.length ≤ total e (fun k n => n + 3 * dep k) M
  | 0 => ⟨[], (fun k v h => (by omega)), (fun b n c j x hb => (by cases hb)), Nat.zero_le _⟩
  | M + 1 => by
    obtain ⟨ns, h1, h2, h3⟩ := vars_nodes hp dep hd M
    unfold total at h3 ⊢
    rw [sumTo]
    cases hv : s.var M with
    | none =>
      refine ⟨ns, fun k v hk hkv => ?_, h2, by omega⟩
      by_cases hkm : k = M
      · rw [hkm, hv] at hkv; cases hkv
      · exact h1 k v (by omega) hkv
    | some w =>
      cases he : e M with
      | none => rw [(hp.absent M).2 he] at hv; cases hv
      | some l =>
        have ho := hp.vars M w l hv he
        obtain ⟨ms, g1, g2, g3, _⟩ := ho.rep.nodes
        have hdep := Depth.unique ho.depth (hd M l he)
        refine ⟨ns ++ ms, fun k v hk hkv => ?_, ?_, ?_⟩
        · by_cases hkm : k = M
          · rw [hkm, hv] at hkv; injection hkv with hkv
            rw [← hkv]; exact List.mem_append_right _ g1
          · exact List.mem_append_left _ (h1 k v (by omega) hkv)
        · intro b n c j x hb hn hc hx
          rcases List.mem_append.1 hb with hb | hb
          · exact List.mem_append_left _ (h2 b n c j x hb hn hc hx)
          · exact List.mem_append_right _ (g2 b n c j x hb hn hc hx)
        · rw [List.length_append]
          generalize sumTo _ M = S at h3 ⊢
          show 3 * (ns.length + ms.length) ≤ S + (l.length + 3 * dep M)
          omega

/-! ### C119 -/

/-- **C119**: in any program, reading any element of a vector of `n` elements yields that element after looking at exactly
as many nodes as the base-4 logarithm of `n`, rounded up and at least one. -/
theorem C119_lookup (d : T) {ops : List (Op T)} {e : Env T} (hf : Fine (fun _ => none) ops e) :
    ∃ s, run d St.init ops = .ok s ∧ ∀ k l, e k = some l → ∃ v, s.var k = some v ∧ ∀ (i : Nat) (hi : i < l.length),
      ∃ seen, atSeen s.heap v i = .ok (l[i], seen) ∧ Depth l.length seen.length := by
  obtain ⟨N, hN⟩ := exists_below ops
  obtain ⟨s, e1, L, hp⟩ := run_spec (SInv.init d N) hf hN
  refine ⟨s, e1, fun k l h => ?_⟩
  cases hv : s.var k with
  | none => rw [(hp.absent k).1 hv] at h; cases h
  | some v =>
    have ho := hp.vars k v l hv h
    refine ⟨v, rfl, fun i hi => ?_⟩
    have ha := at_spec ho hi
    obtain ⟨b, e2, e3⟩ := Outcome.bind_eq_ok.1 ha
    obtain ⟨vals, e4, e5⟩ := Outcome.bind_eq_ok.1 e3
    injection e5 with e5
    obtain ⟨seen, e6, e7⟩ := leafForSeen_spec _ _ _ _ _ e2
    refine ⟨seen ++ [b], ?_, ?_⟩
    · simp only [atSeen, e6, Outcome.ok_bind, e4]
      show Outcome.ok (vals (mod4 i), _) = _
      rw [e5]
    · rw [List.length_append, e7]; exact ho.depth

example : ∃ s v seen, run 0 St.init sampleOps = .ok s ∧ s.var 5 = some v ∧ atSeen s.heap v 4 = .ok (14, seen) ∧ seen.length = 2 := by
  obtain ⟨e, hf, he⟩ := sample_fine
  obtain ⟨s, e1, h⟩ := C119_lookup 0 hf
  obtain ⟨v, v1, v2⟩ := h 5 _ (he 5 (by decide))
  obtain ⟨seen, h1, h2⟩ := v2 4 (by decide)
  refine ⟨s, v, seen, e1, v1, h1, Depth.unique h2 ⟨by decide, by decide, fun m hm hle => ?_⟩⟩
  match m, hm, hle with
  | 1, _, hle => exact absurd hle (by decide)
  | m + 2, _, _ => omega

/-- **C119**: at any point of any program the nodes in memory, those of all versions together, are at most a third of the
elements the variables hold, plus, for each variable, its depth. -/
theorem C119_space (d : T) {ops : List (Op T)} {e : Env T} (hf : Fine (fun _ => none) ops e) {N : Nat}
    (hN : ∀ o, o ∈ ops → below N o) (dep : Nat → Nat) (hd : ∀ k l, e k = some l → Depth l.length (dep k)) :
    ∃ s, run d St.init ops = .ok s ∧ 3 * live s.heap ≤ total e (fun k n => n + 3 * dep k) N := by
  obtain ⟨s, e1, L, hp⟩ := run_spec (SInv.init d N) hf hN
  refine ⟨s, e1, ?_⟩
  obtain ⟨ns, h1, h2, h3⟩ := vars_nodes hp dep hd N
  have hall : ∀ a, Reach s a → a ∈ ns := by
    intro a ha
    induction ha with
    | @root k v hv =>
      refine h1 k v ?_ hv
      apply Decidable.byContradiction
      intro hk
      rw [hp.high k (by omega)] at hv; cases hv
    | child _ hb hc hj ih => exact h2 _ _ _ _ _ ih hb hc hj
  have : live s.heap ≤ ns.length := by
    refine count_le (fun a => ?_) _ _ (fun a _ hne => ?_)
    · split <;> omega
    · split at hne
      · rename_i n hn
        exact hall a (live_reach ⟨L, hp⟩ hn)
      · exact absurd rfl hne
  omega

/-- The versions of `sampleOps`: five variables with 0, 5, 2, 4 and 5 elements and depths 1, 2, 1, 1 and 2. -/
example : ∃ s, run 0 St.init sampleOps = .ok s ∧ live s.heap = 5 ∧
    3 * live s.heap ≤ total sampleEnv (fun k n => n + 3 * (if k = 1 ∨ k = 5 then 2 else 1)) 6 := by
  refine ⟨_, rfl, ?_, ?_⟩ <;> decide +kernel

example : Depth 5 2 ∧ Depth 4 1 ∧ Depth 0 1 := by
  refine ⟨⟨by decide, by decide, fun m hm h => ?_⟩, ⟨by decide, by decide, fun m hm _ => by omega⟩, ⟨by decide, by decide, fun m hm _ => by omega⟩⟩
  match m, hm, h with
  | 1, _, h => exact absurd h (by decide)
  | m + 2, _, _ => omega

end Ab.PVec
