import Verif.Proof.Vec4
/-! Reading persistent vectors: indexing, `foreach`, iteration. -/
namespace Ab.PVec
open Spec

variable {T : Type}

theorem four_dvd_pow (k : Nat) : ∃ q, 4 ^ (k + 1) = 4 * q := ⟨4 ^ k, by rw [Nat.pow_succ, Nat.mul_comm]⟩

/-- The leaf of an index. -/
theorem leafFor_spec {d : T} {h : Heap T} : ∀ {level a i m : Nat} {l : List T}, Rep d h level a l →
    i % 4 ^ (level + 1) = m → (level = 0 ∨ m / 4 * 4 < l.length) →
    ∃ b n v, leafFor h level a i = .ok b ∧ h.cell b = some n ∧ n.body = .leaf v ∧
      ∀ k : Fin 4, v k = l.getD (m / 4 * 4 + k.1) d := by
  intro level
  induction level with
  | zero =>
    rintro a i m l ⟨hl, n, v, hn, hb, hv⟩ hm _
    have : m / 4 * 4 = 0 := by
      have : m < 4 := by rw [← hm]; exact Nat.mod_lt _ (by decide)
      omega
    exact ⟨a, n, v, rfl, hn, hb, fun k => by rw [hv, this, Nat.zero_add]⟩
  | succ k ih =>
    rintro a i m l ⟨hl, n, c, hn, hb, hc⟩ hm hlt
    obtain ⟨hsi, him⟩ := index_split hm
    obtain ⟨q, hq⟩ := four_dvd_pow k
    have hp := pow_pos4 (k + 1)
    have hml : m < 4 ^ (k + 2) := by rw [← hm]; exact Nat.mod_lt _ (pow_pos4 _)
    have hlt' : m / 4 * 4 < l.length := by
      rcases hlt with h | h
      · omega
      · exact h
    generalize hs : subindex (k + 1) i = si
    have hsv : si.1 = m / 4 ^ (k + 1) := by rw [← hs]; exact hsi
    have hdm := Nat.div_add_mod m (4 ^ (k + 1))
    have hmm := Nat.mod_lt m hp
    have hmul : si.1 * 4 ^ (k + 1) = 4 ^ (k + 1) * (m / 4 ^ (k + 1)) := by rw [hsv, Nat.mul_comm]
    have e4 : m / 4 * 4 = si.1 * 4 ^ (k + 1) + m % 4 ^ (k + 1) / 4 * 4 := by
      have e5 : si.1 * 4 ^ (k + 1) = 4 * (si.1 * q) := by rw [hq]; exact Nat.mul_left_comm _ _ _
      omega
    have hlen := chunk_length (4 ^ (k + 1)) si.1 l
    have hne : chunk (4 ^ (k + 1)) si.1 l ≠ [] := by
      intro e; rw [e] at hlen; simp only [List.length_nil] at hlen; omega
    obtain ⟨b, hcb, hr⟩ := (hc si).2 hne
    obtain ⟨b', n', v, e1, e2, e3, e6⟩ := ih (i := i) hr him (by
      right; rw [hlen]; omega)
    refine ⟨b', n', v, ?_, e2, e3, fun j => ?_⟩
    · simp only [leafFor, children_spec hn hb, Outcome.ok_bind, hs, hcb]; exact e1
    · rw [e6, chunk_getD d (by have := j.2; omega), e4, Nat.add_assoc]

/-- Past the last leaf there is none. -/
theorem leafFor_trap {d : T} {h : Heap T} : ∀ {level a i m : Nat} {l : List T}, Rep d h level a l →
    i % 4 ^ (level + 1) = m → level ≠ 0 → l.length ≤ m / 4 * 4 → (leafFor h level a i).isTrap := by
  intro level
  induction level with
  | zero => intro _ _ _ _ _ _ h0; exact absurd rfl h0
  | succ k ih =>
    rintro a i m l ⟨hl, n, c, hn, hb, hc⟩ hm _ hge
    obtain ⟨hsi, him⟩ := index_split hm
    obtain ⟨q, hq⟩ := four_dvd_pow k
    have hp := pow_pos4 (k + 1)
    generalize hs : subindex (k + 1) i = si
    have hsv : si.1 = m / 4 ^ (k + 1) := by rw [← hs]; exact hsi
    have hdm := Nat.div_add_mod m (4 ^ (k + 1))
    have hmm := Nat.mod_lt m hp
    have hmul : si.1 * 4 ^ (k + 1) = 4 ^ (k + 1) * (m / 4 ^ (k + 1)) := by rw [hsv, Nat.mul_comm]
    have e4 : m / 4 * 4 = si.1 * 4 ^ (k + 1) + m % 4 ^ (k + 1) / 4 * 4 := by
      have e5 : si.1 * 4 ^ (k + 1) = 4 * (si.1 * q) := by rw [hq]; exact Nat.mul_left_comm _ _ _
      omega
    have hlen := chunk_length (4 ^ (k + 1)) si.1 l
    by_cases hne : chunk (4 ^ (k + 1)) si.1 l = []
    · simp only [leafFor, children_spec hn hb, Outcome.ok_bind, hs, (hc si).1 hne]; rfl
    · obtain ⟨b, hcb, hr⟩ := (hc si).2 hne
      simp only [leafFor, children_spec hn hb, Outcome.ok_bind, hs, hcb]
      have hpos : 0 < (chunk (4 ^ (k + 1)) si.1 l).length := List.length_pos_iff.2 hne
      refine ih hr him ?_ (by omega)
      intro e; subst e
      simp only [Nat.zero_add, Nat.pow_one] at *
      omega

theorem at_spec {d : T} {h : Heap T} {L} {v : V} {l : List T} (ho : VOk d h L v l) {i : Nat} (hi : i < l.length) :
    at' h v i = .ok l[i] := by
  have hlen := ho.rep.len
  obtain ⟨b, n, vs, e1, e2, e3, e4⟩ := leafFor_spec ho.rep (i := i) rfl (by
    right; rw [Nat.mod_eq_of_lt (by omega)]; omega)
  rw [Nat.mod_eq_of_lt (by omega)] at e4
  simp only [at', e1, Outcome.ok_bind, values_spec e2 e3]
  show Outcome.ok (vs (mod4 i)) = _
  rw [e4]
  have : i / 4 * 4 + (mod4 i).1 = i := by show i / 4 * 4 + i % 4 = i; omega
  rw [this, List.getD_eq_getElem?_getD, List.getElem?_eq_getElem hi]; rfl

/-! ### foreach -/

/-- A list filled up to whole leaves. -/
def pad (d : T) (l : List T) : List T := l ++ List.replicate ((4 - l.length % 4) % 4) d

theorem pad_nil (d : T) : pad d [] = [] := by simp [pad]

theorem pad_split (d : T) (l : List T) (q : Nat) : pad d (l.take (4 * q)) ++ pad d (l.drop (4 * q)) = pad d l := by
  rcases Nat.lt_or_ge l.length (4 * q) with h | h
  · rw [List.take_of_length_le (by omega), List.drop_eq_nil_of_le (by omega), pad_nil, List.append_nil]
  · have h1 : (l.take (4 * q)).length = 4 * q := by rw [List.length_take]; omega
    have h2 : (l.drop (4 * q)).length = l.length - 4 * q := by rw [List.length_drop]
    unfold pad
    rw [h1, h2]
    have e1 : (4 - 4 * q % 4) % 4 = 0 := by omega
    have e2 : (l.length - 4 * q) % 4 = l.length % 4 := by omega
    rw [e1, e2, List.replicate_zero, List.append_nil, ← List.append_assoc, List.take_append_drop]

theorem foreach_none (h : Heap T) (level : Nat) : foreach' h level none = .ok [] := by
  cases level <;> rfl

theorem leaf_list (d : T) {l : List T} (hl : l.length ≤ 4) :
    [l.getD 0 d, l.getD 1 d, l.getD 2 d, l.getD 3 d] = l ++ List.replicate (4 - l.length) d := by
  match l, hl with
  | [], _ => rfl
  | [_], _ => rfl
  | [_, _], _ => rfl
  | [_, _, _], _ => rfl
  | [_, _, _, _], _ => rfl
  | _ :: _ :: _ :: _ :: _ :: _, hl => simp at hl

theorem foreach_leaf {d : T} {h : Heap T} {a : Nat} {l : List T} (hr : Rep d h 0 a l) :
    foreach' h 0 (some a) = .ok (l ++ List.replicate (4 - l.length) d) := by
  obtain ⟨hl, n, v, hn, hb, hv⟩ := hr
  simp only [foreach', values_spec hn hb, Outcome.ok_bind]
  rw [← leaf_list d hl, hv 0, hv 1, hv 2, hv 3]; rfl

theorem foreach_spec {d : T} {h : Heap T} : ∀ {level a : Nat} {l : List T}, Rep d h level a l → l ≠ [] →
    foreach' h level (some a) = .ok (pad d l) := by
  intro level
  induction level with
  | zero =>
    intro a l hr hne
    rw [foreach_leaf hr]
    have h1 := hr.1
    have h2 : 0 < l.length := List.length_pos_iff.2 hne
    unfold pad
    have : (4 - l.length % 4) % 4 = 4 - l.length := by omega
    rw [this]
  | succ k ih =>
    rintro a l ⟨hl, n, c, hn, hb, hc⟩ hne
    have hcj : ∀ j : Fin 4, foreach' h k (c j) = .ok (pad d (chunk (4 ^ (k + 1)) j.1 l)) := by
      intro j
      by_cases he : chunk (4 ^ (k + 1)) j.1 l = []
      · rw [(hc j).1 he, foreach_none, he, pad_nil]
      · obtain ⟨b, hb', hr⟩ := (hc j).2 he
        rw [hb', ih hr he]
    simp only [foreach', children_spec hn hb, Outcome.ok_bind, hcj]
    show Outcome.ok _ = _
    congr 1
    obtain ⟨q, hq⟩ := four_dvd_pow k
    have hpe : 4 ^ (k + 2) = 4 ^ (k + 1) * 4 := Nat.pow_succ 4 (k + 1)
    rw [hpe, hq] at hl
    rw [hq]
    unfold chunk
    have f0 : (0 : Fin 4).1 * (4 * q) = 0 := Nat.zero_mul _
    have f1 : (1 : Fin 4).1 * (4 * q) = 4 * q := Nat.one_mul _
    have f2 : (2 : Fin 4).1 * (4 * q) = 4 * q + 4 * q := by show 2 * (4 * q) = _; omega
    have f3 : (3 : Fin 4).1 * (4 * q) = 4 * q + 4 * q + 4 * q := by show 3 * (4 * q) = _; omega
    rw [f0, f1, f2, f3, List.drop_zero, ← List.drop_drop, ← List.drop_drop, ← List.drop_drop]
    rw [← pad_split d l q, ← pad_split d (l.drop (4 * q)) q, ← pad_split d ((l.drop (4 * q)).drop (4 * q)) q]
    have hlast : (((l.drop (4 * q)).drop (4 * q)).drop (4 * q)).take (4 * q) = ((l.drop (4 * q)).drop (4 * q)).drop (4 * q) := by
      apply List.take_of_length_le
      simp only [List.length_drop]; omega
    rw [hlast]
    simp only [List.append_assoc]

/-! ### Iteration -/

/-- The iterator is at index `i`. -/
structure AtIndex (d : T) (h : Heap T) (l : List T) (it : Iter) (i : Nat) : Prop where
  off  : it.offset = i / 4 * 4
  sub  : it.sub = i % 4
  leaf : i < l.length → ∃ n v, h.cell it.leaf = some n ∧ n.body = .leaf v ∧ ∀ k : Fin 4, v k = l.getD (i / 4 * 4 + k.1) d

/-- `end` can be formed. -/
def EndOk (h : Heap T) (v : V) : Prop := ∃ b, leafFor h v.level v.root v.size = .ok b

theorem iterAt_spec {d : T} {h : Heap T} {L} {v : V} {l : List T} (ho : VOk d h L v l) (he : EndOk h v) {i : Nat}
    (hi : i ≤ l.length) : ∃ it, iterAt h v i = .ok it ∧ AtIndex d h l it i := by
  have hlen := ho.rep.len
  rcases Nat.lt_or_ge i l.length with h1 | h1
  · obtain ⟨b, n, vs, e1, e2, e3, e4⟩ := leafFor_spec ho.rep (i := i) rfl (by
      right; rw [Nat.mod_eq_of_lt (by omega)]; omega)
    rw [Nat.mod_eq_of_lt (by omega)] at e4
    refine ⟨⟨b, i / 4 * 4, i % 4⟩, ?_, rfl, rfl, fun _ => ⟨n, vs, e2, e3, e4⟩⟩
    simp only [iterAt, e1, Outcome.ok_bind]; rfl
  · have : i = v.size := by rw [ho.size]; omega
    obtain ⟨b, hb⟩ := he
    refine ⟨⟨b, i / 4 * 4, i % 4⟩, ?_, rfl, rfl, fun hh => by omega⟩
    simp only [iterAt, this, hb, Outcome.ok_bind]; rfl

theorem iterate_spec {d : T} {h : Heap T} {L} {v : V} {l : List T} (ho : VOk d h L v l) (he : EndOk h v) {stop : Iter}
    (hstop : AtIndex d h l stop l.length) : ∀ (fuel : Nat) (it : Iter) (i : Nat), i ≤ l.length → l.length - i < fuel →
    AtIndex d h l it i → iterate h v fuel it stop = .ok (l.drop i) := by
  intro fuel
  induction fuel with
  | zero => intro it i _ hf; omega
  | succ f ih =>
    intro it i hi hf ha
    have hidx : it.offset + it.sub = i := by rw [ha.off, ha.sub]; omega
    have hend : stop.offset + stop.sub = l.length := by rw [hstop.off, hstop.sub]; omega
    simp only [iterate, hidx, hend]
    by_cases hil : i = l.length
    · rw [if_pos hil, hil, List.drop_length]
    · rw [if_neg hil]
      have hlt : i < l.length := by omega
      obtain ⟨n, vs, e2, e3, e4⟩ := ha.leaf hlt
      have hsz := ho.size
      have hder : it.deref h v = .ok l[i] := by
        unfold Iter.deref
        rw [if_pos (by omega), values_spec e2 e3]
        show Outcome.ok (vs (mod4 it.sub)) = _
        rw [e4]
        have : i / 4 * 4 + (mod4 it.sub).1 = i := by show i / 4 * 4 + it.sub % 4 = i; rw [ha.sub]; omega
        rw [this, List.getD_eq_getElem?_getD, List.getElem?_eq_getElem hlt]; rfl
      have hnext : ∃ it', it.next h v = .ok it' ∧ AtIndex d h l it' (i + 1) := by
        unfold Iter.next
        simp only
        have hs := ha.sub
        by_cases h4 : it.sub + 1 = 4
        · rw [if_pos h4]
          have hi1 : it.sub + 1 + it.offset = i + 1 := by omega
          rw [hi1]
          obtain ⟨it', e5, a5⟩ := iterAt_spec ho he (i := i + 1) (by omega)
          cases hlf : leafFor h v.level v.root (i + 1) with
          | ok b =>
            simp only [iterAt, hlf, Outcome.ok_bind] at e5
            injection e5 with e5
            refine ⟨⟨b, it.offset + 4, 0⟩, rfl, ?_, ?_, ?_⟩
            · show it.offset + 4 = _; rw [ha.off]; omega
            · show 0 = _; omega
            · have := a5.leaf; rw [← e5] at this; exact this
          | throw _ => simp only [iterAt, hlf] at e5; cases e5
          | trap _ => simp only [iterAt, hlf] at e5; cases e5
          | ub _ => simp only [iterAt, hlf] at e5; cases e5
          | fuel => simp only [iterAt, hlf] at e5; cases e5
        · rw [if_neg h4]
          refine ⟨_, rfl, ?_, ?_, fun _ => ⟨n, vs, e2, e3, ?_⟩⟩
          · show it.offset = _; rw [ha.off]; omega
          · show it.sub + 1 = _; omega
          · have : (i + 1) / 4 * 4 = i / 4 * 4 := by omega
            rw [this]; exact e4
      obtain ⟨it', e5, a5⟩ := hnext
      rw [hder]; simp only [Outcome.ok_bind]
      rw [e5]; simp only [Outcome.ok_bind]
      rw [ih it' (i + 1) (by omega) (by omega) a5]
      simp only [Outcome.ok_bind]
      show Outcome.ok _ = _
      congr 1
      exact (List.drop_eq_getElem_cons hlt).symm

theorem range_spec {d : T} {h : Heap T} {L} {v : V} {l : List T} (ho : VOk d h L v l) (he : EndOk h v) :
    range h v = .ok l := by
  obtain ⟨b, e1, a1⟩ := iterAt_spec ho he (i := 0) (by omega)
  obtain ⟨e, e2, a2⟩ := iterAt_spec ho he (i := v.size) (by rw [ho.size]; exact Nat.le_refl _)
  have hsz := ho.size
  rw [hsz] at a2
  simp only [range, e1, e2, Outcome.ok_bind]
  rw [iterate_spec ho he a2 (v.size + 1) b 0 (by omega) (by omega) a1]; rfl

/-- When `end` can be formed. -/
theorem endOk_iff {d : T} {h : Heap T} {L} {v : V} {l : List T} (ho : VOk d h L v l) :
    (EndOk h v ∧ (l.length % 4 ≠ 0 ∨ l.length = 0 ∨ ∃ k, l.length = 4 ^ k)) ∨
    ((range h v).isTrap ∧ ¬ (l.length % 4 ≠ 0 ∨ l.length = 0 ∨ ∃ k, l.length = 4 ^ k)) := by
  have hlen := ho.rep.len
  have hsz := ho.size
  have hpp := pow_pos4 (v.level + 1)
  have hok : (v.level = 0 ∨ v.size % 4 ^ (v.level + 1) / 4 * 4 < l.length) → EndOk h v := by
    intro hh
    obtain ⟨b, _, _, e1, _⟩ := leafFor_spec ho.rep (i := v.size) rfl hh
    exact ⟨b, e1⟩
  by_cases h0 : l.length = 0
  · left
    refine ⟨hok (Or.inl ?_), Or.inr (Or.inl h0)⟩
    rcases ho.shape with h1 | h1
    · exact h1
    · omega
  · by_cases h4 : l.length % 4 = 0
    · rcases Nat.lt_or_ge l.length (4 ^ (v.level + 1)) with h1 | h1
      · right
        have hl0 : v.level ≠ 0 := by intro e; rw [e] at h1; simp at h1; omega
        have hmod : v.size % 4 ^ (v.level + 1) = l.length := by rw [hsz, Nat.mod_eq_of_lt h1]
        have htr := leafFor_trap ho.rep hmod hl0 (by omega)
        have h4l : 4 ^ v.level < l.length := by
          rcases ho.shape with h2 | h2
          · exact absurd h2 hl0
          · exact h2
        constructor
        · obtain ⟨b, n, vs, e1, _⟩ := leafFor_spec ho.rep (i := 0) rfl (by right; simp; omega)
          simp only [range, iterAt, e1, Outcome.ok_bind]
          cases hlf : leafFor h v.level v.root v.size <;> rw [hlf] at htr
          · cases htr
          · cases htr
          · rfl
          · cases htr
          · cases htr
        · rintro (h2 | h2 | ⟨k, hk⟩)
          · exact h2 h4
          · exact h0 h2
          · rcases Nat.lt_or_ge v.level k with h3 | h3
            · have : 4 ^ (v.level + 1) ≤ 4 ^ k := Nat.pow_le_pow_right (by decide) h3
              omega
            · have : 4 ^ k ≤ 4 ^ v.level := Nat.pow_le_pow_right (by decide) h3
              omega
      · left
        have he : l.length = 4 ^ (v.level + 1) := by omega
        refine ⟨hok (Or.inr ?_), Or.inr (Or.inr ⟨_, he⟩)⟩
        rw [hsz, he, Nat.mod_self]; simpa using hpp
    · left
      refine ⟨hok ?_, Or.inl h4⟩
      right
      have : l.length < 4 ^ (v.level + 1) := by
        obtain ⟨q, hq⟩ := four_dvd_pow v.level
        omega
      rw [hsz, Nat.mod_eq_of_lt this]; omega

/-! ### Programs -/

theorem run_spec {d : T} {N : Nat} : ∀ {ops : List (Op T)} {s : St T} {e e' : Env T}, SInv d N s e → Fine e ops e' →
    (∀ o, o ∈ ops → below N o) → ∃ s', run d s ops = .ok s' ∧ SInv d N s' e' := by
  intro ops
  induction ops with
  | nil => intro s e e' hs hf _; cases hf; exact ⟨s, rfl, hs⟩
  | cons o ops ih =>
    intro s e e' hs hf hb
    cases hf with
    | cons h1 h2 h3 =>
      obtain ⟨s1, e1, hs1⟩ := step_spec hs h1 h2 (hb o (by simp))
      obtain ⟨s2, e2, hs2⟩ := ih hs1 h3 (fun o ho => hb o (by simp [ho]))
      exact ⟨s2, by simp only [run, e1, Outcome.ok_bind, e2], hs2⟩

theorem sumTo_zero : ∀ (n : Nat), sumTo (fun _ => 0) n = 0
  | 0 => rfl
  | n + 1 => by rw [sumTo, sumTo_zero n]

theorem SInv.init (d : T) (N : Nat) : SInv d N St.init (fun _ => none) := by
  refine ⟨fun _ => 0, ⟨fun _ _ => rfl, (fun a n h => by cases h), fun a => ?_, (fun a n h => by cases h)⟩, fun _ _ => rfl,
    fun _ => ⟨fun _ => rfl, fun _ => rfl⟩, fun k v l h => by cases h⟩
  show (0 : Int) = _ + ((sumTo (fun _ => 0) N : Nat) : Int)
  rw [sumTo_zero]; rfl

theorem below_mono {N M : Nat} (h : N ≤ M) {o : Op T} (ho : below N o) : below M o := by
  cases o with
  | new i => exact Nat.lt_of_lt_of_le ho h
  | cons i j x => exact ⟨Nat.lt_of_lt_of_le ho.1 h, Nat.lt_of_lt_of_le ho.2 h⟩
  | assign i j => exact ⟨Nat.lt_of_lt_of_le ho.1 h, Nat.lt_of_lt_of_le ho.2 h⟩
  | drop i => exact Nat.lt_of_lt_of_le ho h

theorem exists_below : ∀ (ops : List (Op T)), ∃ N, ∀ o, o ∈ ops → below N o
  | [] => ⟨0, fun _ h => by cases h⟩
  | o :: ops => by
    obtain ⟨N, hN⟩ := exists_below ops
    have : ∃ M, below M o := by
      cases o with
      | new i => exact ⟨i + 1, Nat.lt_succ_self i⟩
      | cons i j x => exact ⟨i + j + 1, by show i < _; omega, by show j < _; omega⟩
      | assign i j => exact ⟨i + j + 1, by show i < _; omega, by show j < _; omega⟩
      | drop i => exact ⟨i + 1, Nat.lt_succ_self i⟩
    obtain ⟨M, hM⟩ := this
    refine ⟨N + M, fun o' ho' => ?_⟩
    rcases List.mem_cons.1 ho' with h | h
    · subst h; exact below_mono (by omega) hM
    · exact below_mono (by omega) (hN o' h)

/-! ### Reachability -/

theorem reach_live {d : T} {N : Nat} {s : St T} {e : Env T} (hs : SInv d N s e) {a : Nat} (hr : Reach s a) :
    ∃ n, s.heap.cell a = some n := by
  obtain ⟨L, hp⟩ := hs
  induction hr with
  | @root k v hv =>
    cases he : e k with
    | none => rw [(hp.absent k).2 he] at hv; cases hv
    | some l => exact (hp.vars k v l hv he).rep.live
  | @child b n c j a _ hb hbody hj _ =>
    exact live_of_rc (hp.inv.child hb (by rw [hbody]; exact slots_pos hj) (by omega))

theorem slot_of_pos {b : Body T} {a : Nat} (h : 0 < slots b a) : ∃ c j, b = .branch c ∧ c j = some a := by
  cases b with
  | leaf v => simp [slots] at h
  | branch c =>
    refine ⟨c, ?_⟩
    simp only [slots] at h
    by_cases h0 : c 0 = some a
    · exact ⟨0, rfl, h0⟩
    · by_cases h1 : c 1 = some a
      · exact ⟨1, rfl, h1⟩
      · by_cases h2 : c 2 = some a
        · exact ⟨2, rfl, h2⟩
        · by_cases h3 : c 3 = some a
          · exact ⟨3, rfl, h3⟩
          · rw [if_neg h0, if_neg h1, if_neg h2, if_neg h3] at h; omega

theorem exists_max (L : Nat → Nat) : ∀ n, ∃ M, ∀ x, x < n → L x ≤ M
  | 0 => ⟨0, fun x h => by omega⟩
  | n + 1 => by
    obtain ⟨M, hM⟩ := exists_max L n
    refine ⟨M + L n, fun x hx => ?_⟩
    by_cases h : x = n
    · subst h; omega
    · have := hM x (by omega); omega

theorem live_reach {d : T} {N : Nat} {s : St T} {e : Env T} (hs : SInv d N s e) {a : Nat} {n : Node T}
    (ha : s.heap.cell a = some n) : Reach s a := by
  obtain ⟨L, hp⟩ := hs
  obtain ⟨M, hM⟩ := exists_max L s.heap.next
  have : ∀ k a n, s.heap.cell a = some n → M - L a ≤ k → Reach s a := by
    intro k
    induction k with
    | zero =>
      intro a n ha hk
      have hla := hM a (hp.inv.lt ha)
      have hrc : n.rc ≠ 0 := fun h => hp.inv.pos a n ha h
      have hcount := hp.inv.count a
      rw [rcOf_some ha] at hcount
      by_cases hv : 0 < varRefs s.var N a
      · obtain ⟨k, _, hk⟩ := sumTo_pos hv
        split at hk
        · rename_i v hv'
          split at hk
          · rename_i e; rw [← e]; exact Reach.root hv'
          · omega
        · omega
      · have : 0 < refs s.heap a := by omega
        obtain ⟨b, hb, hk⟩ := sumTo_pos this
        split at hk
        · rename_i m hm
          obtain ⟨c, j, h1, h2⟩ := slot_of_pos hk
          have ht := hp.inv.typed b m hm
          rw [h1] at ht
          have := (ht.2 j a h2).2
          have := hM b hb
          omega
        · omega
    | succ k ih =>
      intro a n ha hk
      have hrc : n.rc ≠ 0 := fun h => hp.inv.pos a n ha h
      have hcount := hp.inv.count a
      rw [rcOf_some ha] at hcount
      by_cases hv : 0 < varRefs s.var N a
      · obtain ⟨k, _, hk⟩ := sumTo_pos hv
        split at hk
        · rename_i v hv'
          split at hk
          · rename_i e; rw [← e]; exact Reach.root hv'
          · omega
        · omega
      · have : 0 < refs s.heap a := by omega
        obtain ⟨b, hb, hk⟩ := sumTo_pos this
        split at hk
        · rename_i m hm
          obtain ⟨c, j, h1, h2⟩ := slot_of_pos hk
          have ht := hp.inv.typed b m hm
          rw [h1] at ht
          have := (ht.2 j a h2).2
          exact Reach.child (ih b m hm (by omega)) hm h1 h2
        · omega
  exact this _ a n ha (Nat.le_refl _)

end Ab.PVec
