import Verif.Model.LinearMemory
/-! C43: the linear memory. -/
namespace Ab.LinMem

/-- What the user expects of a memory reserved when the page table was `os0`: `base` is its first page, all
`max` pages were free before, the first `count` are readable and writable, the others inaccessible, and no
other page has changed. -/
structure Region (S : Sys) (os0 os : Pages) (m : Mem) (base : Nat) : Prop where
  address : m.address.toNat = base * S.page
  fits    : (base + m.config.max.toNat) * S.page < 2^64
  free    : ∀ i, i < m.config.max.toNat → os0 (base + i) = Option.none
  active  : ∀ i, i < m.count.toNat → os (base + i) = some .rw
  passive : ∀ i, m.count.toNat ≤ i → i < m.config.max.toNat → os (base + i) = some .none
  others  : ∀ q, (q < base ∨ base + m.config.max.toNat ≤ q) → os q = os0 q
  low     : m.config.min.toNat ≤ m.count.toNat
  high    : m.count.toNat ≤ m.config.max.toNat

variable {S : Sys}

theorem pagesOf_mul (hS : S.Lawful) (n : Nat) : S.pagesOf (n * S.page) = n := by
  unfold Sys.pagesOf
  have := hS.page_pos
  rw [Nat.add_sub_assoc (by omega), Nat.add_comm, Nat.add_mul_div_right _ _ this, Nat.div_eq_of_lt (by omega)]
  omega

theorem mul_size (hS : S.Lawful) (n : U64) (h : n.toNat * S.page < 2^64) : (n * S.size).toNat = n.toNat * S.page := by
  unfold Sys.size
  rw [BitVec.toNat_mul, BitVec.toNat_ofNat, Nat.mod_eq_of_lt hS.page_lt, Nat.mod_eq_of_lt h]

theorem mappedFrom_all {os : Pages} : ∀ {n b : Nat}, (∀ i, i < n → (os (b + i)).isSome = true) → mappedFrom os b n = n
  | 0, _, _ => rfl
  | n + 1, b, h => by
    rw [mappedFrom, if_pos (by simpa using h 0 (by omega)), mappedFrom_all]
    intro i hi
    have := h (i + 1) (by omega)
    rwa [show b + 1 + i = b + (i + 1) by omega]

/-- Fewer than `n` pages are counted only if the next page after them is not mapped. -/
theorem mappedFrom_gap {os : Pages} : ∀ {n b : Nat}, mappedFrom os b n ≤ n ∧
    (∀ i, i < mappedFrom os b n → (os (b + i)).isSome = true) ∧
    (mappedFrom os b n < n → os (b + mappedFrom os b n) = Option.none)
  | 0, b => ⟨Nat.le_refl _, fun i hi => by simp [mappedFrom] at hi, fun h => by simp [mappedFrom] at h⟩
  | n + 1, b => by
    obtain ⟨h1, h2, h3⟩ := mappedFrom_gap (os := os) (n := n) (b := b + 1)
    rw [mappedFrom]
    by_cases hb : (os b).isSome = true
    · rw [if_pos hb]
      refine ⟨by omega, fun i hi => ?_, fun h => ?_⟩
      · cases i with
        | zero => exact hb
        | succ i => have := h2 i (by omega); rwa [show b + 1 + i = b + (i + 1) by omega] at this
      · have := h3 (by omega)
        rwa [show b + 1 + mappedFrom os (b + 1) n = b + (mappedFrom os (b + 1) n + 1) by omega] at this
    · rw [if_neg hb]
      refine ⟨by omega, fun i hi => by omega, fun _ => by simpa using hb⟩

/-- The protection call changes the pages up to the first that is not mapped, and then fails: a page outside the range or
behind a gap keeps its protection. -/
theorem mprotect_first_gap {os os' : Pages} {addr len : U64} {v : Perm} {ok : Bool} (h : S.mprotect os addr len v = (os', ok))
    (q : Nat) (hq : os' q ≠ os q) : addr.toNat / S.page ≤ q ∧ q < addr.toNat / S.page + S.pagesOf len.toNat ∧ os' q = some v ∧
      ∀ i, addr.toNat / S.page ≤ i → i ≤ q → (os i).isSome = true := by
  have same : ∀ {r : Bool}, (os, r) = (os', ok) → False := by
    intro r he
    injection he with he _
    exact hq (by rw [he])
  unfold Sys.mprotect at h
  split at h
  · exact (same h).elim
  · simp only at h
    split at h
    · exact (same h).elim
    · split at h
      · exact (same h).elim
      · split at h
        · exact (same h).elim
        · injection h with h _
          obtain ⟨g1, g2, -⟩ := mappedFrom_gap (os := os) (n := S.pagesOf len.toNat) (b := addr.toNat / S.page)
          subst h
          unfold setRange at hq ⊢
          split at hq
          · rename_i hr
            rw [if_pos hr]
            refine ⟨hr.1, by omega, rfl, fun i hi1 hi2 => ?_⟩
            have := g2 (i - addr.toNat / S.page) (by omega)
            rwa [show addr.toNat / S.page + (i - addr.toNat / S.page) = i by omega] at this
          · exact absurd rfl hq

/-- The protection call on pages of one's own. -/
theorem mprotect_own (hS : S.Lawful) {os : Pages} {b n : Nat} {addr len : U64} {v : Perm}
    (ha : addr.toNat = b * S.page) (hl : len.toNat = n * S.page) (hb : (b + n) * S.page < 2^64)
    (hm : ∀ i, i < n → (os (b + i)).isSome = true) :
    S.mprotect os addr len v =
      if n = 0 then (os, true) else if S.refuseProtect os b n then (os, false) else (setRange os b n (some v), true) := by
  have hp := hS.page_pos
  unfold Sys.mprotect
  rw [ha, hl, if_neg (by simp), pagesOf_mul hS, Nat.mul_div_cancel _ hp]
  simp only
  by_cases h0 : n = 0
  · rw [if_pos h0, if_pos h0]
  · rw [if_neg h0, if_neg h0, if_neg (by rw [Nat.add_mul] at hb; omega), mappedFrom_all hm]
    simp

/-- Growing, from any state reached. -/
theorem grow_spec (hS : S.Lawful) {os0 os : Pages} {m : Mem} {b : Nat} {n : U64}
    (h : Region S os0 os m b) :
    (m.config.max.toNat < m.count.toNat + n.toNat ∧ ∃ e, S.grow os m n = (os, m, .throw e)) ∨
    (m.count.toNat + n.toNat ≤ m.config.max.toNat ∧
      S.refuseProtect os (b + m.count.toNat) n.toNat = true ∧ ∃ e, S.grow os m n = (os, m, .throw e)) ∨
    (m.count.toNat + n.toNat ≤ m.config.max.toNat ∧ ∃ os' m', S.grow os m n = (os', m', .ok ()) ∧
      m'.count.toNat = m.count.toNat + n.toNat ∧ m'.config = m.config ∧ Region S os0 os' m' b) := by
  have hp := hS.page_pos
  have h1 := h.high
  have hlt := m.config.max.isLt
  have hsub : (m.config.max - m.count).toNat = m.config.max.toNat - m.count.toNat := by
    rw [BitVec.toNat_sub]; omega
  by_cases hroom : m.count.toNat + n.toNat ≤ m.config.max.toNat
  · have hfit : (b + m.count.toNat + n.toNat) * S.page < 2^64 :=
      Nat.lt_of_le_of_lt (Nat.mul_le_mul_right _ (by omega)) h.fits
    have hc : m.count.toNat * S.page < 2^64 :=
      Nat.lt_of_le_of_lt (Nat.mul_le_mul_right _ (by omega)) h.fits
    have hn : n.toNat * S.page < 2^64 :=
      Nat.lt_of_le_of_lt (Nat.mul_le_mul_right _ (by omega)) hfit
    have hbc : (b + m.count.toNat) * S.page < 2^64 :=
      Nat.lt_of_le_of_lt (Nat.mul_le_mul_right _ (by omega)) hfit
    have ha : (m.address + m.count * S.size).toNat = (b + m.count.toNat) * S.page := by
      rw [BitVec.toNat_add, mul_size hS _ hc, h.address, ← Nat.add_mul, Nat.mod_eq_of_lt hbc]
    have hown := mprotect_own hS (os := os) (v := .rw) ha (mul_size hS n hn) hfit (by
      intro i hi
      rw [show b + m.count.toNat + i = b + (m.count.toNat + i) by omega, h.passive _ (by omega) (by omega)]; rfl)
    have hadd : (m.count + n).toNat = m.count.toNat + n.toNat := by rw [BitVec.toNat_add]; omega
    unfold Sys.grow
    rw [if_neg (by rw [BitVec.lt_def]; omega), hown]
    by_cases h0 : n.toNat = 0
    · rw [if_pos h0]
      refine Or.inr (Or.inr ⟨hroom, _, _, rfl, hadd, rfl, ?_⟩)
      refine ⟨h.address, h.fits, h.free, ?_, ?_, h.others, ?_, ?_⟩ <;> simp only [hadd, h0, Nat.add_zero]
      · exact h.active
      · exact h.passive
      · exact h.low
      · exact h.high
    · rw [if_neg h0]
      by_cases hr : S.refuseProtect os (b + m.count.toNat) n.toNat = true
      · rw [if_pos hr]
        exact Or.inr (Or.inl ⟨hroom, hr, _, rfl⟩)
      · rw [if_neg hr]
        refine Or.inr (Or.inr ⟨hroom, _, _, rfl, hadd, rfl, ?_⟩)
        refine ⟨h.address, h.fits, h.free, ?_, ?_, ?_, ?_, ?_⟩
        · intro i hi
          simp only [hadd] at hi
          unfold setRange
          by_cases hi' : m.count.toNat ≤ i
          · rw [if_pos (by omega)]
          · rw [if_neg (by omega)]; exact h.active i (by omega)
        · intro i hi hi2
          simp only [hadd] at hi hi2
          unfold setRange
          rw [if_neg (by omega)]; exact h.passive i (by omega) hi2
        · intro q hq
          simp only at hq
          unfold setRange
          rw [if_neg (by omega)]; exact h.others q hq
        · simp only [hadd]; have := h.low; omega
        · simp only [hadd]; exact hroom
  · refine Or.inl ⟨by omega, "Failed to grow, not enough reserved pages.", ?_⟩
    unfold Sys.grow
    rw [if_pos (by rw [BitVec.lt_def]; omega)]

/-- The constructor: the memory it yields is a region as described. -/
theorem ctor_spec (hS : S.Lawful) {os0 os : Pages} {c : Config} {m : Mem}
    (hmax : c.max.toNat * S.page < 2^64) (hc : S.ctor os0 c = (os, .ok m)) :
    ∃ b, Region S os0 os m b ∧ m.config = c ∧ m.count = c.min := by
  have hp := hS.page_pos
  unfold Sys.ctor at hc
  by_cases hv : c.max < c.min
  · rw [if_pos hv] at hc; cases hc
  rw [if_neg hv] at hc
  rw [BitVec.lt_def] at hv
  have hsz := mul_size hS _ hmax
  -- where the mapping is
  unfold Sys.map Sys.mmap at hc
  -- a failed mapping leads to a misaligned address and an exception
  have hbad : ∀ e, (match S.grow os0 ⟨BitVec.allOnes 64, 0#64, c⟩ c.min with
      | (os, m, .ok ()) => (os, .ok m)
      | (os, _, .throw e) => (os, .throw e)
      | (os, _, .trap e) => (os, .trap e)
      | (os, _, .ub e) => (os, .ub e)
      | (os, _, .fuel) => (os, Outcome.fuel)) = (os, e) → ∀ m, e ≠ .ok m := by
    intro e he m hm
    unfold Sys.grow at he
    split at he
    · rename_i heq
      split at heq
      · cases heq
      · split at heq
        · cases heq
        · rename_i hq
          unfold Sys.mprotect at hq
          rw [if_pos] at hq
          · cases hq
          · rw [show (BitVec.allOnes 64 + 0#64 * S.size).toNat = 2^64 - 1 by simp]
            obtain ⟨k, hk⟩ := hS.page_even
            intro h0
            have hd : S.page ∣ 2^64 - 1 := Nat.dvd_of_mod_eq_zero h0
            have : 2 ∣ 2^64 - 1 := Nat.dvd_trans ⟨k, hk⟩ hd
            revert this; decide
    · cases he; cases hm
    · cases he; cases hm
    · cases he; cases hm
    · cases he; cases hm
  by_cases h0 : c.max * S.size = 0#64
  · rw [if_pos h0] at hc
    exact absurd rfl (hbad _ hc m)
  · rw [if_neg h0] at hc
    cases hpl : S.place os0 c.address (S.pagesOf (c.max * S.size).toNat) with
    | none =>
      rw [hpl] at hc
      exact absurd rfl (hbad _ hc m)
    | some b =>
      rw [hpl] at hc
      obtain ⟨hfree, hfit⟩ := hS.fresh _ _ _ _ hpl
      rw [hsz, pagesOf_mul hS] at hfree hfit hc
      simp only at hc
      by_cases hb0 : b * S.page = 0
      · rw [if_pos hb0] at hc; cases hc
      rw [if_neg hb0] at hc
      simp only at hc
      have hb : b * S.page < 2^64 := Nat.lt_of_le_of_lt (Nat.mul_le_mul_right _ (by omega)) hfit
      -- a region of which no page is active, but for the minimum
      have hR : Region S os0 (setRange os0 b c.max.toNat (some .none))
          ⟨BitVec.ofNat 64 (b * S.page), 0#64, { c with min := 0#64 }⟩ b := by
        refine ⟨by simp only [BitVec.toNat_ofNat]; exact Nat.mod_eq_of_lt hb, hfit, hfree, ?_, ?_, ?_, ?_, ?_⟩
        · intro i hi; simp at hi
        · intro i _ hi
          unfold setRange; rw [if_pos (by simp only at hi; omega)]
        · intro q hq
          unfold setRange; rw [if_neg (by simp only at hq; omega)]
        · simp
        · simp
      have hsame : S.grow (setRange os0 b c.max.toNat (some .none)) ⟨BitVec.ofNat 64 (b * S.page), 0#64, c⟩ c.min =
          ((S.grow (setRange os0 b c.max.toNat (some .none)) ⟨BitVec.ofNat 64 (b * S.page), 0#64, { c with min := 0#64 }⟩ c.min).1,
           { (S.grow (setRange os0 b c.max.toNat (some .none)) ⟨BitVec.ofNat 64 (b * S.page), 0#64, { c with min := 0#64 }⟩ c.min).2.1
              with config := c },
           (S.grow (setRange os0 b c.max.toNat (some .none)) ⟨BitVec.ofNat 64 (b * S.page), 0#64, { c with min := 0#64 }⟩ c.min).2.2) := by
        unfold Sys.grow
        simp only
        split
        · rfl
        · split <;> rfl
      rw [hsame] at hc
      rcases grow_spec hS (n := c.min) hR with ⟨_, e, h⟩ | ⟨_, _, e, h⟩ | ⟨hroom, os', m', h, hcnt, hcfg, hR'⟩
      · rw [h] at hc; simp only at hc; cases hc
      · rw [h] at hc; simp only at hc; cases hc
      · rw [h] at hc
        simp only at hc
        injection hc with h1 h2
        injection h2 with h2
        subst h1; subst h2
        have hcfg' : m'.config.max = c.max := by rw [hcfg]
        have hcnt' : m'.count.toNat = c.min.toNat := by simpa using hcnt
        refine ⟨b, ⟨hR'.address, ?_, ?_, hR'.active, ?_, ?_, ?_, ?_⟩, rfl, ?_⟩
        · have := hR'.fits; rwa [hcfg'] at this
        · have := hR'.free; rwa [hcfg'] at this
        · have := hR'.passive; rwa [hcfg'] at this
        · have := hR'.others; rwa [hcfg'] at this
        · simp only; omega
        · have := hR'.high; rwa [hcfg'] at this
        · exact BitVec.eq_of_toNat_eq hcnt'

theorem run_region (hS : S.Lawful) {os0 : Pages} {b : Nat} (ops : List Op) {os : Pages} {m : Mem} (h : Region S os0 os m b) :
    Region S os0 (S.run os m ops).1 (S.run os m ops).2 b ∧ (S.run os m ops).2.config = m.config := by
  induction ops generalizing os m with
  | nil => exact ⟨h, rfl⟩
  | cons o l ih =>
    rw [Sys.run]
    cases o with
    | shrink n => exact ih h
    | grow n =>
      rcases grow_spec hS (n := n) h with ⟨_, e, hg⟩ | ⟨_, _, e, hg⟩ | ⟨_, os', m', hg, _, hcfg, hR⟩
      · rw [Sys.step, hg]; exact ih h
      · rw [Sys.step, hg]; exact ih h
      · rw [Sys.step, hg]
        obtain ⟨h1, h2⟩ := ih hR
        exact ⟨h1, h2.trans hcfg⟩

/-- C43: for every lawful operating system, every configuration whose maximum fits the address space in bytes,
and every sequence of requests after the memory was created, there is a range of `max` pages, free before,
of which exactly the first `count` can be read and written and the others cannot be accessed; no page outside
has changed; `min ≤ count ≤ max`; and the size reported is the accessible pages times the page size. Missing:
configurations that wrap, and the reported maximum size. -/
theorem C43_requests_partial (hS : S.Lawful) (os0 : Pages) (c : Config) (hmax : c.max.toNat * S.page < 2^64)
    (os : Pages) (m : Mem) (hc : S.ctor os0 c = (os, .ok m)) (ops : List Op) :
    ∃ b, Region S os0 (S.run os m ops).1 (S.run os m ops).2 b ∧
      (S.run os m ops).2.config = c ∧
      (S.memSize (S.run os m ops).2).toNat = (S.run os m ops).2.count.toNat * S.page := by
  obtain ⟨b, hR, hcfg, -⟩ := ctor_spec hS hmax hc
  obtain ⟨h1, h2⟩ := run_region hS ops hR
  refine ⟨b, h1, h2.trans hcfg, ?_⟩
  exact mul_size hS _ (Nat.lt_of_le_of_lt (Nat.mul_le_mul_right _ (by have := h1.high; omega)) h1.fits)

/-- C43, one request: in every state reached as in `C43_requests_partial`, growing by `n` pages beyond the
maximum throws and changes neither the memory nor the page table; otherwise it makes exactly `n` more pages
accessible unless the operating system refuses, when nothing changes; and shrinking changes nothing, throwing
exactly when fewer pages are accessible. -/
theorem C43_one_request_partial (hS : S.Lawful) (os0 os : Pages) (m : Mem) (b : Nat) (h : Region S os0 os m b) (n : U64) :
    (m.config.max.toNat < m.count.toNat + n.toNat → ∃ e, S.grow os m n = (os, m, .throw e)) ∧
    (m.count.toNat + n.toNat ≤ m.config.max.toNat →
      (∃ os' m', S.grow os m n = (os', m', .ok ()) ∧ m'.count.toNat = m.count.toNat + n.toNat ∧ Region S os0 os' m' b) ∨
      (S.refuseProtect os (b + m.count.toNat) n.toNat = true ∧ ∃ e, S.grow os m n = (os, m, .throw e))) ∧
    ((S.step os m (.shrink n)).1 = os ∧ (S.step os m (.shrink n)).2.1 = m ∧
      ((S.step os m (.shrink n)).2.2.isThrow = true ↔ m.count.toNat < n.toNat)) := by
  refine ⟨fun hn => ?_, fun hn => ?_, rfl, rfl, ?_⟩
  · rcases grow_spec hS (n := n) h with ⟨_, e, hg⟩ | ⟨h1, _⟩ | ⟨h1, _⟩
    · exact ⟨e, hg⟩
    · omega
    · omega
  · rcases grow_spec hS (n := n) h with ⟨h1, _⟩ | ⟨_, hr, e, hg⟩ | ⟨_, os', m', hg, hcnt, -, hR⟩
    · omega
    · exact Or.inr ⟨hr, e, hg⟩
    · exact Or.inl ⟨os', m', hg, hcnt, hR⟩
  · show (shrink m n).isThrow = true ↔ _
    unfold shrink
    rw [← BitVec.lt_def]
    by_cases hlt : m.count < n
    · rw [if_pos hlt]; simp [hlt, Outcome.isThrow]
    · rw [if_neg hlt]; simp [hlt, Outcome.isThrow]

/-- C57: destroying the memory gives the page table back exactly as it was before the memory was created,
unless the operating system refuses the unmapping, when the program is ended. Missing:
a memory whose constructor throws. -/
theorem C57_destroyed_partial (hS : S.Lawful) (os0 : Pages) (c : Config) (hmax : c.max.toNat * S.page < 2^64)
    (os : Pages) (m : Mem) (hc : S.ctor os0 c = (os, .ok m)) (ops : List Op) :
    (∃ b n, S.refuseUnmap (S.run os m ops).1 b n = true ∧ (S.dtor (S.run os m ops).1 (S.run os m ops).2).2.isTrap = true) ∨
    S.dtor (S.run os m ops).1 (S.run os m ops).2 = (os0, .ok ()) := by
  obtain ⟨b, hR, hcfg, -⟩ := ctor_spec hS hmax hc
  obtain ⟨h1, h2⟩ := run_region hS ops hR
  rw [hcfg] at h2
  generalize (S.run os m ops).1 = os' at *
  generalize (S.run os m ops).2 = m' at *
  have hp := hS.page_pos
  have hcm : m'.config.max = c.max := by rw [h2]
  have hpos : c.max.toNat * S.page ≠ 0 := by
    -- otherwise the constructor fails
    intro h0
    have hz : c.max * S.size = 0#64 := by
      apply BitVec.eq_of_toNat_eq; rw [mul_size hS _ hmax, h0]; rfl
    have h00 : c.max.toNat = 0 := by
      rcases Nat.mul_eq_zero.mp h0 with h | h <;> omega
    unfold Sys.ctor Sys.map Sys.mmap at hc
    rw [if_pos hz] at hc
    have hal : (BitVec.allOnes 64 + 0#64 * S.size).toNat % S.page ≠ 0 := by
      rw [show (BitVec.allOnes 64 + 0#64 * S.size).toNat = 2^64 - 1 by simp]
      obtain ⟨k, hk⟩ := hS.page_even
      intro h0
      have hd : S.page ∣ 2^64 - 1 := Nat.dvd_of_mod_eq_zero h0
      have : 2 ∣ 2^64 - 1 := Nat.dvd_trans ⟨k, hk⟩ hd
      revert this; decide
    unfold Sys.grow Sys.mprotect at hc
    simp only [if_pos hal] at hc
    split at hc
    · cases hc
    · split at hc
      · rename_i heq
        split at heq <;> simp at heq
      all_goals simp at hc
  have hsz := mul_size hS c.max hmax
  unfold Sys.dtor Sys.munmap maxSize
  rw [h1.address, hcm, if_neg (by
    rintro (h | h)
    · simp at h
    · rw [h] at hsz; exact hpos hsz.symm), hsz, pagesOf_mul hS, Nat.mul_div_cancel _ hp]
  simp only
  have hf := h1.fits
  rw [hcm, Nat.add_mul] at hf
  rw [if_neg (by omega)]
  by_cases hr : S.refuseUnmap os' b c.max.toNat = true
  · rw [if_pos hr]; exact Or.inl ⟨b, _, hr, rfl⟩
  · rw [if_neg hr]
    right
    simp only [Prod.mk.injEq, and_true]
    funext q
    unfold setRange
    split
    · rename_i hq
      have := h1.free (q - b) (by rw [hcm]; omega)
      rw [show b + (q - b) = q by omega] at this
      exact this.symm
    · rename_i hq
      exact h1.others q (by rw [hcm]; omega)

/-! ### Concrete systems -/

/-- A system with pages of 4096 bytes that puts every mapping at page 256 and refuses nothing. -/
def demo : Sys := ⟨4096, fun os _ n => if n < 1000 ∧ (List.range n).all (fun i => (os (256 + i)).isNone) then some 256 else Option.none,
  fun _ _ _ => false, fun _ _ _ => false⟩

theorem demo_lawful : demo.Lawful := by
  refine ⟨by decide, by decide, by decide, ?_⟩
  intro os h n b hb
  unfold demo at hb ⊢
  simp only at hb
  split at hb
  · rename_i hc
    injection hb with hb; subst hb
    refine ⟨fun i hi => ?_, by simp only; omega⟩
    have := List.all_eq_true.mp hc.2 i (by simpa using hi)
    simpa using this
  · cases hb

/-- The default configuration on it, then `grow(2)`, `grow(9)` (refused) and `shrink(1)`: three pages. -/
example : ∃ os m, demo.ctor (fun _ => Option.none) {} = (os, .ok m) ∧ m.count = 1#64 ∧
    (demo.run os m [.grow 2#64, .grow 9#64, .shrink 1#64]).2.count = 3#64 ∧
    ({} : Config).max.toNat * demo.page < 2^64 := by
  refine ⟨_, _, rfl, by decide +kernel, by decide +kernel, by decide⟩

/-- C43 fails: on creation the default memory already reports a size of 4096 and a maximum size of 4. -/
theorem C43_negation : ∃ os m, demo.ctor (fun _ => Option.none) {} = (os, .ok m) ∧
    demo.memSize m = 4096#64 ∧ maxSize m = 4#64 := by
  refine ⟨_, _, rfl, by decide +kernel, by decide +kernel⟩

/-- Also, with a maximum of 2^52 + 1 pages the reservation wraps to a single page; growing then hands out a
page that is not the memory's: page 257 was mapped, inaccessible, by someone else before, and becomes
writable. -/
theorem C43_wrap_negation : ∃ (os0 os : Pages) (m : Mem), os0 257 = some .none ∧
    demo.ctor os0 { min := 1#64, max := BitVec.ofNat 64 (2^52 + 1) } = (os, .ok m) ∧
    (demo.grow os m 1#64).2.2 = .ok () ∧ (demo.grow os m 1#64).1 257 = some .rw := by
  refine ⟨fun q => if q = 257 then some .none else Option.none, _, _, by decide, rfl, by decide +kernel, by decide +kernel⟩

/-- C57 fails when the constructor throws after the reservation: here the system refuses the change of
protection, and the reserved pages stay mapped with no object to release them. -/
theorem C57_negation :
    let S : Sys := { demo with refuseProtect := fun _ _ _ => true }
    (S.ctor (fun _ => Option.none) {}).2.isThrow = true ∧ (S.ctor (fun _ => Option.none) {}).1 256 = some .none := by
  decide +kernel

end Ab.LinMem
