import Verif.Props.LinearMemory
import Verif.Spec.Memories
/-! C114: linear memories are separate. -/
namespace Ab.LinMem

variable {S : Sys}

/-- `os` without the pages of a memory. -/
def cleared (os : Pages) (b n : Nat) : Pages := setRange os b n Option.none

/-- A memory that is in order. -/
def Own (S : Sys) (os : Pages) (m : Mem) (b : Nat) : Prop := Region S (cleared os b m.config.max.toNat) os m b

theorem Own.mapped {os : Pages} {m : Mem} {b : Nat} (h : Own S os m b) {q : Nat} (h1 : b ≤ q) (h2 : q < b + m.config.max.toNat) :
    os q = some (if q < b + m.count.toNat then .rw else .none) := by
  by_cases hq : q < b + m.count.toNat
  · rw [if_pos hq]
    have := h.active (q - b) (by omega)
    rwa [show b + (q - b) = q by omega] at this
  · rw [if_neg hq]
    have := h.passive (q - b) (by omega) (by omega)
    rwa [show b + (q - b) = q by omega] at this

/-- A memory stays in order while its pages are not touched. -/
theorem Own.frame {os os' : Pages} {m : Mem} {b : Nat} (h : Own S os m b)
    (hf : ∀ q, b ≤ q → q < b + m.config.max.toNat → os' q = os q) : Own S os' m b := by
  refine ⟨h.address, h.fits, ?_, ?_, ?_, ?_, h.low, h.high⟩
  · intro i hi; unfold cleared setRange; rw [if_pos (by omega)]
  · intro i hi; rw [hf _ (by omega) (by have := h.high; omega)]; exact h.active i hi
  · intro i h1 h2; rw [hf _ (by omega) (by omega)]; exact h.passive i h1 h2
  · intro q hq; unfold cleared setRange; rw [if_neg (by omega)]

theorem Region.own {os0 os : Pages} {m : Mem} {b : Nat} (h : Region S os0 os m b) : Own S os m b := by
  refine ⟨h.address, h.fits, ?_, h.active, h.passive, ?_, h.low, h.high⟩
  · intro i hi; unfold cleared setRange; rw [if_pos (by omega)]
  · intro q hq; unfold cleared setRange; rw [if_neg (by omega)]

theorem Own.base (hS : S.Lawful) {os : Pages} {m : Mem} {b : Nat} (h : Own S os m b) : m.address.toNat / S.page = b := by
  rw [h.address, Nat.mul_div_cancel _ hS.page_pos]

theorem allOnes_off (hS : S.Lawful) (n : U64) (os : Pages) (v : Perm) :
    S.mprotect os (BitVec.allOnes 64 + 0#64 * S.size) n v = (os, false) := by
  unfold Sys.mprotect
  rw [if_pos]
  rw [show (BitVec.allOnes 64 + 0#64 * S.size).toNat = 2^64 - 1 by simp]
  obtain ⟨k, hk⟩ := hS.page_even
  intro h0
  have hd : S.page ∣ 2^64 - 1 := Nat.dvd_of_mod_eq_zero h0
  have : 2 ∣ 2^64 - 1 := Nat.dvd_trans ⟨k, hk⟩ hd
  revert this; decide

/-- The end of the constructor: growing by the minimum. -/
def finish (r : Pages × Mem × Outcome Unit) : Pages × Outcome Mem :=
  match r with
  | (os, m, .ok ()) => (os, .ok m)
  | (os, _, .throw e) => (os, .throw e)
  | (os, _, .trap e) => (os, .trap e)
  | (os, _, .ub e) => (os, .ub e)
  | (os, _, .fuel) => (os, .fuel)

theorem grow_config_only {os : Pages} (a : U64) (c : Config) (n : U64) :
    (S.grow os ⟨a, 0#64, c⟩ n).1 = (S.grow os ⟨a, 0#64, { c with min := 0#64 }⟩ n).1 ∧
    (S.grow os ⟨a, 0#64, c⟩ n).2.2 = (S.grow os ⟨a, 0#64, { c with min := 0#64 }⟩ n).2.2 := by
  unfold Sys.grow
  simp only
  split
  · exact ⟨rfl, rfl⟩
  · split <;> exact ⟨rfl, rfl⟩

/-- A constructor that fails has mapped nothing, or pages that were free and cannot be accessed. -/
theorem ctor_fail (hS : S.Lawful) {os os' : Pages} {c : Config} {r : Outcome Mem}
    (hmax : c.max.toNat * S.page < 2^64) (hc : S.ctor os c = (os', r)) (hr : r.isOk = false) :
    r.isThrow = true ∧ (os' = os ∨ ∃ b n, (∀ i, i < n → os (b + i) = Option.none) ∧ os' = setRange os b n (some .none)) := by
  have hp := hS.page_pos
  unfold Sys.ctor at hc
  split at hc
  · injection hc with h1 h2; subst h1; subst h2; exact ⟨rfl, Or.inl rfl⟩
  · rename_i hv
    rw [BitVec.lt_def] at hv
    have hsz := mul_size hS _ hmax
    have hbad : S.grow os ⟨BitVec.allOnes 64, 0#64, c⟩ c.min =
        (os, ⟨BitVec.allOnes 64, 0#64, c⟩, .throw "Failed to grow, not enough reserved pages.") ∨
        S.grow os ⟨BitVec.allOnes 64, 0#64, c⟩ c.min = (os, ⟨BitVec.allOnes 64, 0#64, c⟩, .throw "Failed to set page permissions") := by
      unfold Sys.grow
      simp only [allOnes_off hS]
      split
      · exact Or.inl rfl
      · exact Or.inr rfl
    have hbad2 : ∀ (f : Pages × Mem × Outcome Unit → Pages × Outcome Mem), (∀ x, f x = finish x) →
        f (S.grow os ⟨BitVec.allOnes 64, 0#64, c⟩ c.min) = (os', r) → r.isThrow = true ∧ os' = os := by
      intro f hf he
      rw [hf] at he
      rcases hbad with hb | hb <;> rw [hb] at he <;> injection he with h1 h2 <;> subst h1 <;> subst h2 <;> exact ⟨rfl, rfl⟩
    unfold Sys.map Sys.mmap at hc
    by_cases h0 : c.max * S.size = 0#64
    · rw [if_pos h0] at hc
      obtain ⟨h1, h2⟩ := hbad2 finish (fun _ => rfl) hc
      exact ⟨h1, Or.inl h2⟩
    · rw [if_neg h0] at hc
      cases hpl : S.place os c.address (S.pagesOf (c.max * S.size).toNat) with
      | none =>
        rw [hpl] at hc
        obtain ⟨h1, h2⟩ := hbad2 finish (fun _ => rfl) hc
        exact ⟨h1, Or.inl h2⟩
      | some b =>
        rw [hpl] at hc
        obtain ⟨hfree, hfit⟩ := hS.fresh _ _ _ _ hpl
        rw [hsz, pagesOf_mul hS] at hfree hfit hc
        simp only at hc
        by_cases hb0 : b * S.page = 0
        · rw [if_pos hb0] at hc
          injection hc with h1 h2
          subst h2
          exact ⟨rfl, Or.inr ⟨b, _, hfree, h1.symm⟩⟩
        rw [if_neg hb0] at hc
        simp only at hc
        have hb : b * S.page < 2^64 := Nat.lt_of_le_of_lt (Nat.mul_le_mul_right _ (by omega)) hfit
        have hR : Region S os (setRange os b c.max.toNat (some .none))
            ⟨BitVec.ofNat 64 (b * S.page), 0#64, { c with min := 0#64 }⟩ b := by
          refine ⟨by simp only [BitVec.toNat_ofNat]; exact Nat.mod_eq_of_lt hb, hfit, hfree, ?_, ?_, ?_, ?_, ?_⟩
          · intro i hi; simp at hi
          · intro i _ hi
            unfold setRange; rw [if_pos (by simp only at hi; omega)]
          · intro q hq
            unfold setRange; rw [if_neg (by simp only at hq; omega)]
          · simp
          · simp
        obtain ⟨e1, e2⟩ := grow_config_only (S := S) (os := setRange os b c.max.toNat (some .none))
          (BitVec.ofNat 64 (b * S.page)) c c.min
        have hc' : finish (S.grow (setRange os b c.max.toNat (some .none)) ⟨BitVec.ofNat 64 (b * S.page), 0#64, c⟩ c.min) = (os', r) := hc
        generalize S.grow (setRange os b c.max.toNat (some .none)) ⟨BitVec.ofNat 64 (b * S.page), 0#64, c⟩ c.min = g at hc' e1 e2
        obtain ⟨g1, g2, g3⟩ := g
        simp only at e1 e2
        rcases grow_spec hS (n := c.min) hR with ⟨_, e, h⟩ | ⟨_, _, e, h⟩ | ⟨hroom, os', m', h, hcnt, hcfg, hR'⟩
        · rw [h] at e1 e2; subst e1; subst e2
          injection hc' with h1 h2; subst h2
          exact ⟨rfl, Or.inr ⟨b, _, hfree, h1.symm⟩⟩
        · rw [h] at e1 e2; subst e1; subst e2
          injection hc' with h1 h2; subst h2
          exact ⟨rfl, Or.inr ⟨b, _, hfree, h1.symm⟩⟩
        · rw [h] at e1 e2; subst e1; subst e2
          injection hc' with h1 h2; subst h2
          cases hr

/-- Creating a memory leaves alone what was mapped. -/
theorem ctor_keeps (hS : S.Lawful) {os os' : Pages} {c : Config} {r : Outcome Mem}
    (hmax : c.max.toNat * S.page < 2^64) (hc : S.ctor os c = (os', r)) {q : Nat} {p : Perm} (hq : os q = some p) :
    os' q = some p := by
  cases hr : r.isOk with
  | false =>
    rcases (ctor_fail hS hmax hc hr).2 with h | ⟨b, n, hf, h⟩
    · rw [h]; exact hq
    · rw [h]; unfold setRange
      rw [if_neg]; exact hq
      intro hb
      have := hf (q - b) (by omega)
      rw [show b + (q - b) = q by omega, hq] at this; cases this
  | true =>
    cases r with
    | ok m =>
      obtain ⟨b, hR, hcfg, -⟩ := ctor_spec hS hmax hc
      by_cases h : q < b ∨ b + m.config.max.toNat ≤ q
      · rw [hR.others q h]; exact hq
      · have := hR.free (q - b) (by omega)
        rw [show b + (q - b) = q by omega, hq] at this; cases this
    | _ => cases hr

/-- The state of a process that has copied no memory. -/
structure WInv (S : Sys) (w : World) : Prop where
  own : ∀ (i : Nat) (m : Mem), w.mems[i]? = some (some m) → Own S w.os m (m.address.toNat / S.page)
  apart : ∀ (i j : Nat) (m m' : Mem), w.mems[i]? = some (some m) → w.mems[j]? = some (some m') → i ≠ j → ∀ q, m.has S q → ¬ m'.has S q
  foreign : ∀ q p, w.foreign q = some p → w.os q = some p ∧
    ∀ (i : Nat) (m : Mem), w.mems[i]? = some (some m) → ¬ m.has S q

theorem WInv.separate {w : World} (h : WInv S w) : Separate S w := by
  refine ⟨?_, h.apart, fun q p hq => (h.foreign q p hq).1⟩
  intro i m hm q hq
  exact (h.own i m hm).mapped hq.1 hq.2

theorem WInv.mapped {w : World} (h : WInv S w) {i : Nat} {m : Mem} (hm : w.mems[i]? = some (some m)) {q : Nat} (hq : m.has S q) :
    ∃ p, w.os q = some p := ⟨_, (h.own i m hm).mapped hq.1 hq.2⟩

theorem get_ok {w : World} {i : Nat} {m : Mem} (h : w.get i = .ok m) : w.mems[i]? = some (some m) := by
  unfold World.get at h
  split at h
  · rename_i heq; injection h with h; rw [heq, h]
  · cases h

/-- The pages of the memories and of the others may change protection only by their owners. -/
theorem WInv.os_kept {w : World} (h : WInv S w) {os' : Pages} (hk : ∀ q p, w.os q = some p → os' q = some p) :
    WInv S { w with os := os' } := by
  refine ⟨?_, h.apart, ?_⟩
  · intro i m hm
    refine (h.own i m hm).frame ?_
    intro q h1 h2
    obtain ⟨p, hp⟩ := h.mapped hm (q := q) ⟨h1, h2⟩
    show os' q = w.os q
    rw [hp, hk q p hp]
  · intro q p hq
    obtain ⟨h1, h2⟩ := h.foreign q p hq
    exact ⟨hk q p h1, h2⟩

theorem WInv.create (hS : S.Lawful) {w : World} (h : WInv S w) {c : Config} (hmax : c.max.toNat * S.page < 2^64)
    {os : Pages} {m : Mem} (hc : S.ctor w.os c = (os, .ok m)) : WInv S { w with os := os, mems := w.mems ++ [some m] } := by
  have h' := h.os_kept (os' := os) (fun q p hq => ctor_keeps hS hmax hc hq)
  obtain ⟨b, hR, hcfg, -⟩ := ctor_spec hS hmax hc
  have hown := hR.own
  have hbase := hown.base hS
  have hfree : ∀ q, m.has S q → w.os q = Option.none := by
    intro q hq
    unfold Mem.has at hq
    rw [hbase] at hq
    have := hR.free (q - b) (by omega)
    rwa [show b + (q - b) = q by omega] at this
  have hidx : ∀ {i : Nat} {x : Mem}, (w.mems ++ [some m])[i]? = some (some x) →
      (w.mems[i]? = some (some x) ∧ i < w.mems.length) ∨ (i = w.mems.length ∧ x = m) := by
    intro i x hx
    by_cases hi : i < w.mems.length
    · rw [List.getElem?_append_left hi] at hx; exact Or.inl ⟨hx, hi⟩
    · rw [List.getElem?_append_right (by omega)] at hx
      by_cases he : i - w.mems.length = 0
      · rw [he] at hx; simp at hx; exact Or.inr ⟨by omega, hx.symm⟩
      · rw [List.getElem?_eq_none (by simp; omega)] at hx; cases hx
  refine ⟨?_, ?_, ?_⟩
  · intro i x hx
    rcases hidx hx with ⟨hx, _⟩ | ⟨_, rfl⟩
    · exact h'.own i x hx
    · rw [hbase]; exact hown
  · intro i j x y hx hy hij q hq hq'
    rcases hidx hx with ⟨hx1, _⟩ | ⟨hi, hxm⟩ <;> rcases hidx hy with ⟨hy1, _⟩ | ⟨hj, hym⟩
    · exact h.apart i j x y hx1 hy1 hij q hq hq'
    · obtain ⟨p, hp⟩ := h.mapped hx1 hq
      rw [hym] at hq'
      rw [hfree q hq'] at hp; cases hp
    · obtain ⟨p, hp⟩ := h.mapped hy1 hq'
      rw [hxm] at hq
      rw [hfree q hq] at hp; cases hp
    · omega
  · intro q p hq
    obtain ⟨h1, h2⟩ := h.foreign q p hq
    refine ⟨ctor_keeps hS hmax hc h1, ?_⟩
    intro i x hx hq'
    rcases hidx hx with ⟨hx, _⟩ | ⟨_, rfl⟩
    · exact h2 i x hx hq'
    · rw [hfree q hq'] at h1; cases h1

theorem set_idx {l : List (Option Mem)} {k i : Nat} {v : Option Mem} {x : Mem} (h : (l.set k v)[i]? = some (some x)) :
    (i ≠ k ∧ l[i]? = some (some x)) ∨ (i = k ∧ v = some x) := by
  rw [List.getElem?_set] at h
  by_cases hk : k = i
  · subst hk
    rw [if_pos rfl] at h
    split at h
    · injection h with h; exact Or.inr ⟨rfl, h⟩
    · cases h
  · rw [if_neg hk] at h; exact Or.inl ⟨fun e => hk e.symm, h⟩

/-- What a request does to a memory in order: only its own pages change, and it stays in order. -/
theorem step_own (hS : S.Lawful) {os : Pages} {m : Mem} {b : Nat} (h : Own S os m b) (o : Op) :
    Own S (S.step os m o).1 (S.step os m o).2.1 b ∧ (S.step os m o).2.1.config = m.config ∧ (S.step os m o).2.1.address = m.address ∧
    ∀ q, (q < b ∨ b + m.config.max.toNat ≤ q) → (S.step os m o).1 q = os q := by
  cases o with
  | shrink n => exact ⟨h, rfl, rfl, fun _ _ => rfl⟩
  | grow n =>
    have haddr : (S.grow os m n).2.1.address = m.address := by
      unfold Sys.grow
      split
      · rfl
      · split <;> rfl
    rcases grow_spec hS (n := n) h with ⟨_, e, hg⟩ | ⟨_, _, e, hg⟩ | ⟨_, os', m', hg, _, hcfg, hR⟩
    · rw [Sys.step, hg]; exact ⟨h, rfl, rfl, fun _ _ => rfl⟩
    · rw [Sys.step, hg]; exact ⟨h, rfl, rfl, fun _ _ => rfl⟩
    · rw [Sys.step]
      refine ⟨?_, ?_, haddr, ?_⟩
      · rw [hg]; exact hR.own
      · rw [hg]; exact hcfg
      · intro q hq
        rw [hg]
        have := hR.others q (by rw [hcfg]; exact hq)
        show os' q = os q
        rw [this]; unfold cleared setRange; rw [if_neg (by omega)]

theorem WInv.request (hS : S.Lawful) {w : World} (h : WInv S w) {i : Nat} {m : Mem} (hm : w.mems[i]? = some (some m)) (o : Op) :
    WInv S { w with os := (S.step w.os m o).1, mems := w.mems.set i (some (S.step w.os m o).2.1) } := by
  obtain ⟨h1, h2, h3, h4⟩ := step_own hS (h.own i m hm) o
  generalize S.step w.os m o = r at h1 h2 h3 h4
  obtain ⟨os', m', r'⟩ := r
  simp only at h1 h2 h3 h4 ⊢
  have hhas : ∀ q, m'.has S q ↔ m.has S q := by intro q; unfold Mem.has; rw [h2, h3]
  have hsame : ∀ {j : Nat} {x : Mem}, (w.mems.set i (some m'))[j]? = some (some x) →
      (j ≠ i ∧ w.mems[j]? = some (some x)) ∨ (j = i ∧ x = m') := by
    intro j x hx
    rcases set_idx hx with h | ⟨h, e⟩
    · exact Or.inl h
    · injection e with e; exact Or.inr ⟨h, e.symm⟩
  refine ⟨?_, ?_, ?_⟩
  · intro j x hx
    rcases hsame hx with ⟨hj, hx⟩ | ⟨rfl, rfl⟩
    · refine (h.own j x hx).frame ?_
      intro q hq1 hq2
      apply h4
      have := h.apart j i x m hx hm hj q ⟨hq1, hq2⟩
      unfold Mem.has at this; omega
    · rw [h3]; exact h1
  · intro j k x y hx hy hjk q hq hq'
    rcases hsame hx with ⟨hj, hx1⟩ | ⟨hj, hxm⟩ <;> rcases hsame hy with ⟨hk, hy1⟩ | ⟨hk, hym⟩
    · exact h.apart j k x y hx1 hy1 hjk q hq hq'
    · subst hym; subst hk; exact h.apart j k x m hx1 hm hjk q hq ((hhas q).1 hq')
    · subst hxm; subst hj; exact h.apart j k m y hm hy1 hjk q ((hhas q).1 hq) hq'
    · omega
  · intro q p hq
    obtain ⟨e1, e2⟩ := h.foreign q p hq
    refine ⟨?_, ?_⟩
    · show os' q = some p
      rw [h4 q, e1]
      have := e2 i m hm
      unfold Mem.has at this; omega
    · intro j x hx hq'
      rcases hsame hx with ⟨hj, hx⟩ | ⟨rfl, rfl⟩
      · exact e2 j x hx hq'
      · exact e2 j m hm ((hhas q).1 hq')

theorem dtor_ok (hS : S.Lawful) {os os' : Pages} {m : Mem} {b : Nat} (h : Own S os m b) (hd : S.dtor os m = (os', .ok ())) :
    os' = setRange os b m.config.max.toNat Option.none := by
  have hp := hS.page_pos
  have hsz := mul_size hS m.config.max (Nat.lt_of_le_of_lt (Nat.mul_le_mul_right _ (by omega)) h.fits)
  unfold Sys.dtor Sys.munmap maxSize at hd
  rw [h.address, hsz, pagesOf_mul hS, Nat.mul_div_cancel _ hp] at hd
  dsimp only at hd
  split at hd
  · rename_i heq
    split at heq
    · cases heq
    · split at heq
      · cases heq
      · split at heq
        · cases heq
        · injection heq with h1 h2
          injection hd with h3 h4
          rw [← h3, ← h1]
  · cases hd

theorem WInv.destroy (hS : S.Lawful) {w : World} (h : WInv S w) {i : Nat} {m : Mem} (hm : w.mems[i]? = some (some m))
    {os' : Pages} (hd : S.dtor w.os m = (os', .ok ())) : WInv S { w with os := os', mems := w.mems.set i none } := by
  have hos := dtor_ok hS (h.own i m hm) hd
  have hout : ∀ q, ¬ m.has S q → os' q = w.os q := by
    intro q hq
    rw [hos]
    exact if_neg hq
  have hsame : ∀ {j : Nat} {x : Mem}, (w.mems.set i none)[j]? = some (some x) → j ≠ i ∧ w.mems[j]? = some (some x) := by
    intro j x hx
    rcases set_idx hx with h | ⟨h, e⟩
    · exact h
    · cases e
  refine ⟨?_, ?_, ?_⟩
  · intro j x hx
    obtain ⟨hj, hx⟩ := hsame hx
    refine (h.own j x hx).frame ?_
    intro q hq1 hq2
    exact hout q (h.apart j i x m hx hm hj q ⟨hq1, hq2⟩)
  · intro j k x y hx hy hjk
    exact h.apart j k x y (hsame hx).2 (hsame hy).2 hjk
  · intro q p hq
    obtain ⟨e1, e2⟩ := h.foreign q p hq
    exact ⟨(hout q (e2 i m hm)).trans e1, fun j x hx => e2 j x (hsame hx).2⟩

theorem WInv.other (hS : S.Lawful) {w : World} (h : WInv S w) {hint len : U64} {b : Nat}
    (hp : S.place w.os hint (S.pagesOf len.toNat) = some b) :
    WInv S { w with os := setRange w.os b (S.pagesOf len.toNat) (some .rw),
                    foreign := setRange w.foreign b (S.pagesOf len.toNat) (some .rw) } := by
  have hf := (hS.fresh _ _ _ _ hp).1
  have hfree : ∀ q, b ≤ q → q < b + S.pagesOf len.toNat → w.os q = Option.none := by
    intro q h1 h2
    have := hf (q - b) (by omega)
    rwa [show b + (q - b) = q by omega] at this
  have h' := h.os_kept (os' := setRange w.os b (S.pagesOf len.toNat) (some .rw)) (by
    intro q p hq
    unfold setRange
    rw [if_neg]; exact hq
    intro hb; rw [hfree q hb.1 hb.2] at hq; cases hq)
  refine ⟨h'.own, h.apart, ?_⟩
  intro q p hq
  have hq : (if b ≤ q ∧ q < b + S.pagesOf len.toNat then some Perm.rw else w.foreign q) = some p := hq
  by_cases hb : b ≤ q ∧ q < b + S.pagesOf len.toNat
  · rw [if_pos hb] at hq
    refine ⟨?_, ?_⟩
    · show setRange _ _ _ _ q = _
      unfold setRange; rw [if_pos hb]; exact hq
    · intro i x hx hq'
      obtain ⟨p, hp⟩ := h.mapped hx hq'
      rw [hfree q hb.1 hb.2] at hp; cases hp
  · rw [if_neg hb] at hq
    exact h'.foreign q p hq

theorem WInv.step (hS : S.Lawful) {w w' : World} (h : WInv S w) {o : WOp} (hf : Fitting S o) (hn : NoCopy o)
    (hs : S.wstep w o = .ok w') : WInv S w' := by
  cases o with
  | create c =>
    unfold Sys.wstep at hs
    dsimp only at hs
    split at hs
    · rename_i os m hc
      injection hs with hs; subst hs
      exact h.create hS hf hc
    · rename_i os e hc
      injection hs with hs; subst hs
      exact h.os_kept (fun q p hq => ctor_keeps hS hf hc hq)
    all_goals cases hs
  | copy i => exact absurd hn id
  | request i o =>
    unfold Sys.wstep at hs
    dsimp only at hs
    obtain ⟨m, hm, hs⟩ := Outcome.bind_eq_ok.1 hs
    injection hs with hs; subst hs
    exact h.request hS (get_ok hm) o
  | destroy i =>
    unfold Sys.wstep at hs
    dsimp only at hs
    obtain ⟨m, hm, hs⟩ := Outcome.bind_eq_ok.1 hs
    split at hs
    · rename_i os hd
      injection hs with hs; subst hs
      exact h.destroy hS (get_ok hm) hd
    all_goals cases hs
  | other hint len =>
    unfold Sys.wstep Sys.mmap at hs
    dsimp only at hs
    by_cases h0 : len = 0#64
    · rw [if_pos h0] at hs
      injection hs with hs; subst hs; exact h
    · rw [if_neg h0] at hs
      cases hp : S.place w.os hint (S.pagesOf len.toNat) with
      | none => rw [hp] at hs; injection hs with hs; subst hs; exact h
      | some b =>
        rw [hp] at hs
        dsimp only at hs
        injection hs with hs; subst hs
        exact h.other hS hp

/-- **C114**, full statement: in every lawful system, whatever a process does with its memories – creating, moving or copying, growing,
destroying – they stay separate. -/
def C114_full : Prop :=
  ∀ (S : Sys), S.Lawful → ∀ (os0 : Pages) (ops : List WOp) (w : World), (∀ o ∈ ops, Fitting S o) →
    S.wrun (World.start os0) ops = .ok w → Separate S w

theorem WInv.run (hS : S.Lawful) {w : World} (ops : List WOp) {w0 : World} (h : WInv S w0) (hf : ∀ o ∈ ops, Fitting S o)
    (hn : ∀ o ∈ ops, NoCopy o) (hr : S.wrun w0 ops = .ok w) : WInv S w := by
  induction ops generalizing w0 with
  | nil =>
    unfold Sys.wrun at hr
    injection hr with hr; subst hr; exact h
  | cons o os ih =>
    unfold Sys.wrun at hr
    obtain ⟨w1, h1, hr⟩ := Outcome.bind_eq_ok.1 hr
    exact ih (h.step hS (hf o (by simp)) (hn o (by simp)) h1) (fun x hx => hf x (by simp [hx])) (fun x hx => hn x (by simp [hx])) hr

theorem WInv.start (os0 : Pages) : WInv S (World.start os0) :=
  ⟨by simp [World.start], by simp [World.start], fun q p hq => ⟨hq, by simp [World.start]⟩⟩

/-- What holds: a process that copies no memory and moves no `VirtualMachine`. -/
theorem C114_separate_partial (hS : S.Lawful) (os0 : Pages) (ops : List WOp) (w : World) (hf : ∀ o ∈ ops, Fitting S o)
    (hn : ∀ o ∈ ops, NoCopy o) (hr : S.wrun (World.start os0) ops = .ok w) : Separate S w :=
  ((WInv.start os0).run hS ops hf hn hr).separate

/-- And destroying a memory in such a process unmaps its reservation and nothing else. -/
theorem C114_destroyed_partial (hS : S.Lawful) (os0 : Pages) (ops : List WOp) (i : Nat) (w w' : World) (m : Mem)
    (hf : ∀ o ∈ ops, Fitting S o) (hn : ∀ o ∈ ops, NoCopy o) (hr : S.wrun (World.start os0) ops = .ok w)
    (hm : w.mems[i]? = some (some m)) (hd : S.wstep w (.destroy i) = .ok w') :
    ∀ q, (m.has S q → w'.os q = none) ∧ (¬ m.has S q → w'.os q = w.os q) := by
  have h := (WInv.start os0).run hS ops hf hn hr
  unfold Sys.wstep at hd
  dsimp only at hd
  obtain ⟨m', hm', hd⟩ := Outcome.bind_eq_ok.1 hd
  have := get_ok hm'
  rw [hm] at this
  injection this with this; injection this with this; subst this
  split at hd
  · rename_i os hdt
    injection hd with hd; subst hd
    intro q
    show (_ → os q = none) ∧ (_ → os q = _)
    rw [dtor_ok hS (h.own i m hm) hdt]
    exact ⟨fun hq => if_pos hq, fun hq => if_neg hq⟩
  all_goals cases hd

/-! ### Concrete processes -/

/-- A system with pages of 4096 bytes that puts a mapping at page 256 or 512, where it fits, and refuses nothing. -/
def demo2 : Sys := ⟨4096, fun os _ n =>
    if n < 200 ∧ (List.range n).all (fun i => (os (256 + i)).isNone) then some 256
    else if n < 200 ∧ (List.range n).all (fun i => (os (512 + i)).isNone) then some 512
    else Option.none,
  fun _ _ _ => false, fun _ _ _ => false⟩

theorem demo2_lawful : demo2.Lawful := by
  refine ⟨by decide, by decide, by decide, ?_⟩
  intro os h n b hb
  unfold demo2 at hb ⊢
  simp only at hb
  split at hb
  · rename_i hc
    injection hb with hb; subst hb
    refine ⟨fun i hi => ?_, by simp only; omega⟩
    have := List.all_eq_true.mp hc.2 i (by simpa using hi)
    simpa using this
  · split at hb
    · rename_i hc
      injection hb with hb; subst hb
      refine ⟨fun i hi => ?_, by simp only; omega⟩
      have := List.all_eq_true.mp hc.2 i (by simpa using hi)
      simpa using this
    · cases hb

/-- A process that does something: two memories, one grown, one destroyed, and others mapping memory meanwhile. -/
def exOps : List WOp := [.create {}, .other 0#64 5000#64, .request 0 (.grow 2#64), .destroy 0, .create { min := 2#64 }]

/-- What remains: the second memory, at page 256 again, two of its four pages accessible; the pages of the others at 512. -/
def exEnd : Outcome World → Bool
  | .ok w => w.mems == [none, some ⟨BitVec.ofNat 64 (256 * 4096), 2#64, { min := 2#64 }⟩] &&
      w.os 256 == some .rw && w.os 257 == some .rw && w.os 258 == some .none && w.os 512 == some .rw && w.os 513 == some .rw
  | _ => false

example : (∀ o ∈ exOps, Fitting demo2 o) ∧ (∀ o ∈ exOps, NoCopy o) ∧
    exEnd (demo2.wrun (World.start fun _ => none) exOps) = true := by
  refine ⟨?_, ?_, by decide +kernel⟩
  · simp [exOps, Fitting, demo2]
  · simp [exOps, NoCopy]

/-- What a process did to page 256. -/
def at256 : Outcome World → Option (Option Perm × Option Perm × List (Option Mem))
  | .ok w => some (w.os 256, w.foreign 256, w.mems)
  | _ => none

/-- **C114 is false of the code**: after a `VirtualMachine` was moved and the one moved from destroyed, the memory of the new one is not
mapped. -/
theorem C114_negation : ¬ C114_full := by
  intro h
  have key : at256 (demo2.wrun (World.start fun _ => none) [.create {}, .copy 0, .destroy 0]) =
      some (none, none, [none, some ⟨BitVec.ofNat 64 (256 * 4096), 1#64, {}⟩]) := by decide +kernel
  cases hr : demo2.wrun (World.start fun _ => none) [.create {}, .copy 0, .destroy 0] with
  | ok w =>
    rw [hr] at key
    unfold at256 at key
    injection key with key; injection key with k1 k2; injection k2 with k2 k3
    have hsep := h demo2 demo2_lawful _ _ w (by simp [Fitting, demo2]) hr
    have := hsep.usable 1 ⟨BitVec.ofNat 64 (256 * 4096), 1#64, {}⟩ (by rw [k3]; rfl) 256 (by unfold Mem.has; decide)
    rw [k1] at this; cases this
  | _ => rw [hr] at key; cases key

/-- Worse, when somebody else has been given the pages meanwhile, destroying the new `VirtualMachine` takes them away. -/
theorem C114_foreign_negation :
    at256 (demo2.wrun (World.start fun _ => none) [.create {}, .copy 0, .destroy 0, .other 0#64 4096#64, .destroy 1]) =
      some (none, some .rw, [none, none]) := by decide +kernel

end Ab.LinMem
