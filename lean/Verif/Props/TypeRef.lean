import Verif.Model.TypeRef
import Verif.Props.Module
/-!
Property theorems C70: the type of a loaded function.
-/
namespace Ab
open Spec

/-! ## What the section loop does to the type table -/

theorem decodeCodeEntry_typesLen {bs m i pos f p} (h : decodeCodeEntry bs m i pos = .ok (f, p)) :
    f.typesLen = m.types.length := by
  unfold decodeCodeEntry at h
  obtain ⟨⟨a, p1⟩, _, h⟩ := Outcome.bind_eq_ok.1 h
  obtain ⟨⟨b, p2⟩, _, h⟩ := Outcome.bind_eq_ok.1 h
  obtain ⟨c, _, h⟩ := Outcome.bind_eq_ok.1 h
  obtain ⟨⟨d, e⟩, _, h⟩ := Outcome.bind_eq_ok.1 h
  cases h
  rfl

theorem decodeCodeEntries_typesLen {bs m} : ∀ {n i pos fs p}, decodeCodeEntries bs m n i pos = .ok (fs, p) →
    ∀ f ∈ fs, f.typesLen = m.types.length
  | 0, i, pos, fs, p, h => by cases h; simp
  | n + 1, i, pos, fs, p, h => by
    rw [decodeCodeEntries] at h
    obtain ⟨⟨f0, p1⟩, h1, h⟩ := Outcome.bind_eq_ok.1 h
    obtain ⟨⟨fs0, p2⟩, h2, h⟩ := Outcome.bind_eq_ok.1 h
    cases h
    intro f hf
    rcases List.mem_cons.1 hf with e | e
    · subst e; exact decodeCodeEntry_typesLen h1
    · exact decodeCodeEntries_typesLen h2 f e

theorem decodeSection_types {bs m pos m' p} (h : decodeSection bs m pos = .ok (m', p)) :
    (∃ ts, m'.types = m.types ++ ts) ∧ ∀ f ∈ m'.funcs, f ∈ m.funcs ∨ f.typesLen = m.types.length := by
  unfold decodeSection at h
  obtain ⟨⟨code, p1⟩, h1, h⟩ := Outcome.bind_eq_ok.1 h
  obtain ⟨⟨size, p2⟩, h2, h⟩ := Outcome.bind_eq_ok.1 h
  simp only at h
  split at h
  · unfold decodeTypeSection at h
    obtain ⟨⟨n, p3⟩, _, h⟩ := Outcome.bind_eq_ok.1 h
    obtain ⟨⟨ts, p4⟩, _, h⟩ := Outcome.bind_eq_ok.1 h
    simp only at h
    split at h
    · cases h
    · cases h
      exact ⟨⟨ts, rfl⟩, fun f hf => Or.inl hf⟩
  · split at h
    · unfold decodeFuncSection at h
      obtain ⟨⟨n, p3⟩, _, h⟩ := Outcome.bind_eq_ok.1 h
      obtain ⟨⟨ts, p4⟩, _, h⟩ := Outcome.bind_eq_ok.1 h
      simp only at h
      split at h
      · cases h
      · cases h
        exact ⟨⟨[], by simp⟩, fun f hf => Or.inl hf⟩
    · split at h
      · unfold decodeCodeSection at h
        obtain ⟨⟨n, p3⟩, _, h⟩ := Outcome.bind_eq_ok.1 h
        simp only at h
        split at h
        · cases h
        · obtain ⟨⟨fs, p4⟩, h4, h⟩ := Outcome.bind_eq_ok.1 h
          cases h
          refine ⟨⟨[], by simp⟩, fun f hf => ?_⟩
          rcases List.mem_append.1 hf with hf | hf
          · exact Or.inl hf
          · exact Or.inr (decodeCodeEntries_typesLen h4 f hf)
      · cases h

theorem compileLoop_types {bs : List Byte} : ∀ {fuel : Nat} {m : Module} {pos : Nat} {m' : Module},
    compileLoop bs fuel m pos = .ok m' →
    (∃ ts, m'.types = m.types ++ ts) ∧
      ∀ f ∈ m'.funcs, f ∈ m.funcs ∨ (m.types.length ≤ f.typesLen ∧ f.typesLen ≤ m'.types.length)
  | 0, m, pos, m', h => by cases h
  | fuel + 1, m, pos, m', h => by
    rw [compileLoop] at h
    split at h
    · cases h
      exact ⟨⟨[], by simp⟩, fun f hf => Or.inl hf⟩
    · obtain ⟨⟨m1, p1⟩, h1, h2⟩ := Outcome.bind_eq_ok.1 h
      obtain ⟨⟨t1, e1⟩, f1⟩ := decodeSection_types h1
      obtain ⟨⟨t2, e2⟩, f2⟩ := compileLoop_types h2
      refine ⟨⟨t1 ++ t2, by rw [e2, e1, List.append_assoc]⟩, ?_⟩
      have l1 := congrArg List.length e1
      have l2 := congrArg List.length e2
      simp only [List.length_append] at l1 l2
      intro f hf
      rcases f2 f hf with hf | ⟨a, b⟩
      · rcases f1 f hf with hf | a
        · exact Or.inl hf
        · exact Or.inr ⟨by omega, by omega⟩
      · exact Or.inr ⟨by omega, by omega⟩

/-! ## Growth -/

theorem capAfter_ge (grow : Nat → Nat) (hg : ∀ c, c < grow c) : ∀ n, n ≤ capAfter grow n
  | 0 => Nat.zero_le _
  | n + 1 => by
    have ih := capAfter_ge grow hg n
    simp only [capAfter]
    split
    · omega
    · have := hg (capAfter grow n)
      omega

/-- With doubling, the capacity for 2^k elements is 2^k, and the capacities before are not larger. -/
theorem capAfter_doubling (k : Nat) : ∀ n, n ≤ 2 ^ k → capAfter doubling n ≤ 2 ^ k
  | 0, _ => Nat.zero_le _
  | n + 1, h => by
    have hpos : 0 < 2 ^ k := Nat.two_pow_pos k
    -- the capacity is always a power of two or zero
    have pw : ∀ m, capAfter doubling m = 0 ∨ ∃ j, capAfter doubling m = 2 ^ j := by
      intro m
      induction m with
      | zero => exact Or.inl rfl
      | succ m ih =>
        simp only [capAfter]
        split
        · exact ih
        · rcases ih with e | ⟨j, e⟩
          · exact Or.inr ⟨0, by rw [e]; rfl⟩
          · refine Or.inr ⟨j + 1, ?_⟩
            have : 0 < 2 ^ j := Nat.two_pow_pos j
            rw [e, doubling, if_neg (by omega), Nat.pow_succ]
            omega
    have ih := capAfter_doubling k n (by omega)
    simp only [capAfter]
    split
    · exact ih
    · rename_i hn
      have hc : capAfter doubling n ≤ n := by omega
      rcases pw n with e | ⟨j, e⟩
      · rw [e]; simp [doubling]; omega
      · have h2 : 2 ^ j < 2 ^ k := by omega
        have hjk : j < k := (Nat.pow_lt_pow_iff_right (by omega)).1 h2
        have h3 : 2 ^ (j + 1) ≤ 2 ^ k := Nat.pow_le_pow_right (by omega) hjk
        have h4 : 0 < 2 ^ j := Nat.two_pow_pos j
        rw [Nat.pow_succ] at h3
        rw [e, doubling, if_neg (by omega)]
        omega

/-! ## C70 -/

/-- **C70**, full statement: every function of a loaded module has the type its declaration names, readable through
`type()`, whatever the order of the sections. -/
def C70_full : Prop :=
  ∀ (bs : List Byte) (lm : Module), compile bs = .ok lm → ∀ f ∈ lm.funcs,
    f.derefType doubling lm = .ok f.type

/-- A module whose type section is split in two, the second part after the code section. -/
def splitModule : List Byte :=
  header ++ [0x01#8, 0x04#8, 0x01#8, 0x60#8, 0x00#8, 0x00#8] ++ [0x03#8, 0x02#8, 0x01#8, 0x00#8]
    ++ [0x0a#8, 0x04#8, 0x01#8, 0x02#8, 0x00#8, 0x0c#8] ++ [0x01#8, 0x04#8, 0x01#8, 0x60#8, 0x00#8, 0x00#8]

/-- **C70 is false of the code**: `compile` accepts `splitModule`, and reading the type of its only function – which
`static_call` does first – reads freed memory. -/
theorem C70_negation : ¬ C70_full := by
  intro h
  have := h splitModule ⟨[⟨[], []⟩, ⟨[], []⟩], [0#32], [Func.make 0 1 ⟨[], []⟩ 23 0#32]⟩ (by decide +kernel)
    (Func.make 0 1 ⟨[], []⟩ 23 0#32) (by simp)
  revert this
  decide +kernel

/-- How it fails: take any accepted file with a power of two of types; append a type section with at least one type. The
result is accepted, it has the same functions, and the type pointer of every one of them dangles. -/
theorem C70_later_types_dangle (bs : List Byte) (lm : Module) (h : compile bs = .ok lm) (k : Nat)
    (hk : lm.types.length = 2 ^ k) (ts : List FuncType) (hts : ts ≠ [])
    (hsz : (appendTypeSection ts).length < 2 ^ 32) :
    ∃ lm', compile (bs ++ appendTypeSection ts) = .ok lm' ∧ lm'.funcs = lm.funcs ∧
      ∀ f ∈ lm'.funcs, (f.derefType doubling lm').isUb = true := by
  have hne : ts.length ≠ 0 := by cases ts <;> simp_all
  obtain ⟨j, hj, e⟩ := compile_extend (appendTypeSection ts) h
  have hat : At (bs ++ appendTypeSection ts) bs.length (appendTypeSection ts) := ⟨bs, [], by simp, rfl⟩
  have hst := typeSection_step hne lm hat hsz
  have hpos : 0 < (appendTypeSection ts).length := by
    unfold appendTypeSection appendSection
    rw [if_neg hne]
    simp
  obtain ⟨j', rfl⟩ : ∃ j', j = j' + 1 := ⟨j - 1, by omega⟩
  rw [compileLoop_step hst (by rw [List.length_append]; omega),
    compileLoop_end (by rw [List.length_append])] at e
  refine ⟨_, e, rfl, ?_⟩
  intro f hf
  have hl := (compileLoop_types (compile_ok_header h).2.2).2 f hf
  have hle : f.typesLen ≤ 2 ^ k := by
    rcases hl with hl | hl
    · simp [Module.empty] at hl
    · omega
  have h1 := capAfter_doubling k f.typesLen hle
  have h2 := capAfter_ge doubling (by intro c; unfold doubling; split <;> omega) (lm.types ++ ts).length
  rw [List.length_append, hk] at h2
  unfold Func.derefType
  rw [if_neg]
  · rfl
  · show ¬ capAfter doubling f.typesLen = capAfter doubling (lm.types ++ ts).length
    rw [List.length_append, hk]
    omega

example : compile (header ++ [0x01#8, 0x04#8, 0x01#8, 0x60#8, 0x00#8, 0x00#8] ++ [0x03#8, 0x02#8, 0x01#8, 0x00#8]
    ++ [0x0a#8, 0x04#8, 0x01#8, 0x02#8, 0x00#8, 0x0c#8]) =
      .ok ⟨[⟨[], []⟩], [0#32], [Func.make 0 1 ⟨[], []⟩ 23 0#32]⟩ := by decide +kernel

/-- **C70**, what holds: if the file has all its types before its first function – it starts with an accepted file `bs`
without functions and with all the types – then every function of the module has the type its
declaration names, readable, whatever the growth policy of `std::vector`.
Missing: files with types after functions. -/
theorem C70_types_first_partial (grow : Nat → Nat) (bs rest : List Byte) (m0 lm : Module)
    (h0 : compile bs = .ok m0) (hf0 : m0.funcs = []) (h : compile (bs ++ rest) = .ok lm)
    (hty : lm.types = m0.types) :
    ∃ blocks : List (List Func), lm.funcs = blocks.flatten ∧
      ∀ b ∈ blocks, ∀ (j : Nat) (f : Func), b[j]? = some f →
        ∃ ti t, lm.funcTypes[j]? = some ti ∧ lm.types[ti.toNat]? = some t ∧ f.derefType grow lm = .ok t := by
  obtain ⟨blocks, hb, hs⟩ := C07_loaded_functions_sound (bs ++ rest) lm h
  refine ⟨blocks, hb, ?_⟩
  intro b hbm j f hj
  obtain ⟨_, ti, a1, a2, a3, _⟩ := hs b hbm j f hj
  refine ⟨ti, f.type, a1, a2, ?_⟩
  obtain ⟨k, _, e⟩ := compile_extend rest h0
  rw [e] at h
  have hfm : f ∈ lm.funcs := by
    rw [hb]
    exact List.mem_flatten.2 ⟨b, hbm, List.mem_of_getElem? hj⟩
  have hl : f.typesLen = lm.types.length := by
    rcases (compileLoop_types h).2 f hfm with hh | hh
    · rw [hf0] at hh; cases hh
    · rw [hty] at hh ⊢; omega
  unfold Func.derefType
  rw [if_pos (by rw [hl]), a3, a2]

/-- **C70**, what holds for written modules: every function of every module made by the module writer has its declared type. -/
theorem C70_written_modules_partial (grow : Nat → Nat) (wm : WModule) (hwf : WellFormed wm) (hfit : Fits wm) :
    ∃ lm, compile (writeModule wm) = .ok lm ∧ lm.funcs.length = wm.codes.length ∧
      ∀ (i : Nat) (f : Func) (ti : U32) (t : FuncType), lm.funcs[i]? = some f → wm.funcs[i]? = some ti →
        wm.types[ti.toNat]? = some t → f.derefType grow lm = .ok t := by
  obtain ⟨lm, h, hl⟩ := C06_write_compile_roundtrip wm hwf hfit
  refine ⟨lm, h, hl.count, ?_⟩
  intro i f ti t hf hti ht
  have hc : ∃ c, wm.codes[i]? = some c := by
    have h1 := (List.getElem?_eq_some_iff.1 hf).1
    rw [hl.count] at h1
    exact ⟨_, List.getElem?_eq_getElem h1⟩
  obtain ⟨c, hc⟩ := hc
  obtain ⟨b1, b2, _⟩ := hl.each i c f ti t hc hf hti ht
  have hw0 : WellFormed ⟨wm.types, [], []⟩ := ⟨rfl, by simp⟩
  have hf0 : Fits ⟨wm.types, [], []⟩ := ⟨hfit.1, by simp [appendFuncSection], by simp [appendCodeSection]⟩
  obtain ⟨m0, e0, l0⟩ := C06_write_compile_roundtrip ⟨wm.types, [], []⟩ hw0 hf0
  have hsplit : writeModule wm = writeModule ⟨wm.types, [], []⟩ ++ (appendFuncSection wm.funcs ++ appendCodeSection wm.codes) := by
    simp [writeModule, appendFuncSection, appendCodeSection]
  have hm0 : m0.funcs = [] := by
    have := l0.count
    simpa using this
  rw [hsplit] at h
  obtain ⟨k, _, e⟩ := compile_extend (appendFuncSection wm.funcs ++ appendCodeSection wm.codes) e0
  rw [e] at h
  have hlen : f.typesLen = lm.types.length := by
    rcases (compileLoop_types h).2 f (List.mem_of_getElem? hf) with hh | hh
    · rw [hm0] at hh; cases hh
    · rw [l0.types] at hh
      rw [hl.types] at hh ⊢
      simp only at hh
      omega
  unfold Func.derefType
  rw [if_pos (by rw [hlen]), b2, hl.types, ht]

example : (∃ lm f, compile (writeModule exampleModule) = .ok lm ∧ lm.funcs[0]? = some f ∧
    f.derefType doubling lm = .ok ⟨[I32, I32], [I32]⟩) := by
  obtain ⟨lm, h, hl, hh⟩ := C70_written_modules_partial doubling exampleModule
    ⟨rfl, by simp [exampleModule]⟩ (by decide +kernel)
  have h2 : 0 < lm.funcs.length := by rw [hl]; decide
  exact ⟨lm, _, h, List.getElem?_eq_getElem h2, hh 0 _ 0#32 _ (List.getElem?_eq_getElem h2) rfl rfl⟩

end Ab
