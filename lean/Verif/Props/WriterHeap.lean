import Verif.Proof.WriterHeap2
import Verif.Props.Module
/-!
C83: writing a module with a real allocator. Every buffer the writer creates is accounted for.
-/
namespace Ab.WH

open BB Spec

/-- A heap in which nothing is allocated beyond the next fresh address. -/
def Sane (h : Heap) : Prop := ∀ a, h.next ≤ a → h.blocks a = none

/-- After a successful write, compared to the heap before: one new block at `p`, exactly as long as the
span and holding exactly `bytes`; every other block is as it was (nothing leaked, nothing damaged). -/
def NewBlock (before after : Heap) (p : Nat) (bytes : List Byte) : Prop :=
  before.blocks p = none ∧ after.blocks p = some bytes ∧ ∀ a, a ≠ p → after.blocks a = before.blocks a

/-- **C83**, full statement: a module is written into one block owned by the caller, or `std::bad_alloc` is
thrown and the heap is as before. -/
def C83_full : Prop := ∀ (e : WEnv) (h : Heap) (m : ModuleNode), Sane h →
  (∃ h' p, writeOnHeap e h m = .ok (h', some (some p, m.write.length)) ∧ NewBlock h h' p m.write) ∨
  (∃ h', writeOnHeap e h m = .ok (h', none) ∧ h'.blocks = h.blocks)

/-- Does every `malloc`/`realloc` request below 2^63 bytes succeed? -/
def Obliging (e : BB.Env) : Prop := ∀ k, e.fails k = false

theorem write_cases (e : WEnv) (h : Heap) (m : ModuleNode) (hh : Sane h) :
    (∃ h' p, writeOnHeap e h m = .ok (h', some (some p, m.write.length)) ∧ NewBlock h h' p m.write) ∨
    (∃ h', writeOnHeap e h m = .ok (h', none) ∧ h'.blocks = h.blocks ∧
      ¬ (Obliging e.mem ∧ (∀ i, e.typeFails i = false ∧ e.funcFails i = false ∧ e.codeFails i = false) ∧
        m.write.length < 2^61 ∧ ∀ f ∈ m.funcs, f.code.body.length < 2^61)) ∨
    (∃ w, writeOnHeap e h m = .trap w ∧ ¬ Obliging e.mem) := by
  unfold writeOnHeap
  have hany : ∀ {p : Nat → Bool} {n : Nat}, anyFails p n = true → ∃ i, p i = true := by
    intro p n hp
    obtain ⟨i, -, hi⟩ := List.any_eq_true.mp hp
    exact ⟨i, hi⟩
  by_cases h1 : anyFails e.typeFails m.types.length = true
  · right; left
    refine ⟨h, by simp only [h1, if_true], rfl, fun ⟨_, hf, _⟩ => ?_⟩
    obtain ⟨i, hi⟩ := hany h1
    rw [(hf i).1] at hi; cases hi
  by_cases h2 : anyFails e.funcFails m.funcs.length = true
  · right; left
    refine ⟨h, by simp only [h1, h2, if_true, Bool.false_eq_true, if_false], rfl, fun ⟨_, hf, _⟩ => ?_⟩
    obtain ⟨i, hi⟩ := hany h2
    rw [(hf i).2.1] at hi; cases hi
  simp only [h1, h2, Bool.false_eq_true, if_false]
  have s0 : Holds h h [] :=
    ⟨hh, Nat.le_refl _, by simp, by simp, List.Pairwise.nil, fun _ _ => rfl⟩
  obtain ⟨h3, Q, threw, h4, s4, h5, h6⟩ := acceptCodes_spec e hh (fs := m.funcs) s0
  rw [List.map_nil] at h4
  rw [h4]
  simp only [Outcome.ok_bind]
  cases threw
  · simp only [Bool.false_eq_true, if_false]
    have hQ : List.map (·.2) Q = m.funcs.map FuncNode.code := by simpa using h5 rfl
    have hout : writeModule ⟨m.types, m.funcs.map (·.typeIdx), List.map (·.2) Q⟩ = m.write := by
      rw [hQ]; rfl
    rcases finalize_spec e s4 m.types (m.funcs.map (·.typeIdx)) with
      ⟨w, hw, hnk⟩ | ⟨h7, h8, s7, hnk⟩ | ⟨h7, p, h8, hp, hpn, hfr, ho, hn⟩
    · right; right
      rw [hw]; exact ⟨w, rfl, hnk⟩
    · right; left
      rw [h8]
      obtain ⟨h9, h10, hb⟩ := destroyAll_spec hh s7
      simp only [Outcome.ok_bind]
      rw [h10]
      refine ⟨h9, rfl, hb, fun ⟨k, _, hl, _⟩ => hnk ⟨k, ?_⟩⟩
      rw [hout]; exact hl
    · left
      rw [h8]
      simp only [Outcome.ok_bind]
      have hplt : ∀ x ∈ Q, ∀ a, x.1.body.data = some a → a < h3.next := by
        intro x hx a ha
        obtain ⟨a', k', hd, hlt', -⟩ := (s4.own x hx).2.ptr
        rw [hd] at ha; injection ha with ha; omega
      have hown : ∀ x ∈ Q, Own h7 x.1.body x.2.body := fun x hx =>
        (s4.own x hx).2.same hn (fun a ha => hfr a (by have := hplt x hx a ha; omega))
      obtain ⟨h9, h10, -, -, hdead, hrest⟩ := destroyAll_own ho hown s4.dist
      rw [h10]
      have hsn := s4.next
      refine ⟨h9, p, by rw [hout]; rfl, hh p (by omega), ?_, ?_⟩
      · rw [hrest p (fun x hx hxp => by have := hplt x hx p hxp; omega), hp, hout]
      · intro a ha
        by_cases hx : ∃ x ∈ Q, x.1.body.data = some a
        · obtain ⟨x, hx, hxa⟩ := hx
          rw [hdead x hx a hxa, hh a (s4.addr x hx a hxa)]
        · have hx' : ∀ x ∈ Q, x.1.body.data ≠ some a := fun x h6 h7 => hx ⟨x, h6, h7⟩
          rw [hrest a hx', hfr a ha, s4.rest a hx']
  · right; left
    simp only [if_true]
    obtain ⟨h9, h10, hb⟩ := destroyAll_spec hh s4
    rw [h10]
    refine ⟨h9, rfl, hb, fun ⟨k, hf, _, hl⟩ => ?_⟩
    have := h6 k (fun i => (hf i).2.2) hl
    cases this

/-- **C83**, proved part: for every allocator behaviour, container behaviour, growth policy, prior heap and
module, exactly the two intended results are possible, except that the process may be ended; and it is
ended only if a request the allocator could have granted was refused (shrinking in the `noexcept`
`release_span`). No path has undefined behaviour, leaks a buffer, frees one twice or touches a foreign
block. Missing from the full statement: the refusal in `release_span` should be an exception. -/
theorem C83_write_owned_span_or_bad_alloc_partial (e : WEnv) (h : Heap) (m : ModuleNode) (hh : Sane h) :
    (∃ h' p, writeOnHeap e h m = .ok (h', some (some p, m.write.length)) ∧ NewBlock h h' p m.write) ∨
    (∃ h', writeOnHeap e h m = .ok (h', none) ∧ h'.blocks = h.blocks) ∨
    (∃ w k, writeOnHeap e h m = .trap w ∧ e.mem.fails k = true) := by
  rcases write_cases e h m hh with h1 | ⟨h', h1, h2, -⟩ | ⟨w, h1, h2⟩
  · exact Or.inl h1
  · exact Or.inr (Or.inl ⟨h', h1, h2⟩)
  · right; right
    refine ⟨w, ?_⟩
    rcases Classical.em (∃ k, e.mem.fails k = true) with ⟨k, hk⟩ | hk
    · exact ⟨k, h1, hk⟩
    · refine absurd (fun k => ?_) h2
      cases hf : e.mem.fails k
      · rfl
      · exact absurd ⟨k, hf⟩ hk

/-- The code bodies are part of the output. -/
theorem body_le_write (m : ModuleNode) : ∀ f ∈ m.funcs, f.code.body.length ≤ m.write.length := by
  intro f hf
  have hsub : ∀ (fs : List FuncNode), f ∈ fs →
      f.code.body.length ≤ ((fs.map FuncNode.code).map appendCode).flatten.length := by
    intro fs
    induction fs with
    | nil => intro h; cases h
    | cons g gs ih =>
      intro h
      simp only [List.map_cons, List.flatten_cons, List.length_append]
      rcases List.mem_cons.mp h with rfl | h
      · have : f.code.body.length ≤ (appendCode f.code).length := by
          simp only [appendCode, List.length_append]; omega
        omega
      · have := ih h; omega
  have h1 := hsub m.funcs hf
  have hne : (m.funcs.map FuncNode.code).length ≠ 0 := by
    rw [List.length_map]; intro h0
    rw [List.length_eq_zero_iff.mp h0] at hf; cases hf
  have h2 : ((m.funcs.map FuncNode.code).map appendCode).flatten.length ≤
      (appendCodeSection (m.funcs.map FuncNode.code)).length := by
    unfold appendCodeSection
    rw [if_neg hne]
    simp only [appendSection, List.length_append]; omega
  have h3 : (appendCodeSection (m.funcs.map FuncNode.code)).length ≤ m.write.length := by
    unfold ModuleNode.write writeModule ModuleNode.accept
    simp only [List.length_append]; omega
  omega

/-- **C83.** With an allocator that grants every request below 2^63 bytes and containers that do not throw,
every module whose encoding is shorter than 2^61 bytes is written. -/
theorem C83_write_succeeds (e : WEnv) (h : Heap) (m : ModuleNode) (hh : Sane h)
    (hmem : Obliging e.mem)
    (hstd : ∀ i, e.typeFails i = false ∧ e.funcFails i = false ∧ e.codeFails i = false)
    (hlen : m.write.length < 2^61) :
    ∃ h' p, writeOnHeap e h m = .ok (h', some (some p, m.write.length)) ∧ NewBlock h h' p m.write := by
  rcases write_cases e h m hh with h1 | ⟨h', h1, h2, h3⟩ | ⟨w, h1, h2⟩
  · exact h1
  · exact absurd ⟨hmem, hstd, hlen, fun f hf => Nat.lt_of_le_of_lt (body_le_write m f hf) hlen⟩ h3
  · exact absurd hmem h2

/-- **C83.** What is in the block the caller receives loads back as the module (well formed, sections below
4 GiB), whatever the allocator did on the way. -/
theorem C83_written_block_loads (e : WEnv) (h h' : Heap) (m : ModuleNode) (p : Option Nat) (n : Nat)
    (hh : Sane h) (hwf : WellFormed m.accept) (hfit : Fits m.accept)
    (hw : writeOnHeap e h m = .ok (h', some (p, n))) :
    ∃ a bs lm, p = some a ∧ h'.blocks a = some bs ∧ bs.length = n ∧ compile bs = .ok lm ∧
      Loaded m.accept bs lm := by
  rcases write_cases e h m hh with ⟨h1, q, h2, h3⟩ | ⟨h1, h2, -⟩ | ⟨w, h2, -⟩ <;> rw [hw] at h2
  · injection h2 with h2
    injection h2 with h4 h5
    injection h5 with h5
    injection h5 with h5 h6
    subst h4
    obtain ⟨lm, hc, hl⟩ := C06_write_compile_roundtrip m.accept hwf hfit
    exact ⟨q, m.write, lm, h5, h3.2.1, h6.symm, hc, hl⟩
  · injection h2 with h2
    injection h2 with _ h5
    cases h5
  · cases h2

/-! ### Witnesses -/

/-- Nothing fails; every `emplace_back` relocates. -/
def easy : WEnv := ⟨⟨fun _ => false, fun _ _ => 0xAA⟩, fun _ => false, fun _ => false, fun _ => false,
  fun _ => true⟩

/-- The allocator refuses request number `k` only. -/
def refusing (k : Nat) : WEnv := { easy with mem := ⟨fun i => i == k, fun _ _ => 0xAA⟩ }

/-- Two functions `(i32, i32) -> i32` and `() -> ()`. -/
def twoFuncs : ModuleNode :=
  ⟨[⟨[0x7f#8, 0x7f#8], [0x7f#8]⟩, ⟨[], []⟩],
   [⟨0#32, 1#32, [.i32Add 2#32 0#32 1#32, .x32Return 2#32]⟩, ⟨1#32, 0#32, [.nop, .ret]⟩]⟩

/-- What came out: `some bytes` of the returned block, `none` for an exception; and the number of live
blocks among the first `k` addresses. -/
def outcome (r : Outcome (Heap × Option (Option Nat × Nat))) (k : Nat) :
    Option (Option (List Byte) × Nat) :=
  match r with
  | .ok (h, some (some p, _)) => some (h.blocks p, ((List.range k).filter fun a => (h.blocks a).isSome).length)
  | .ok (h, _) => some (none, ((List.range k).filter fun a => (h.blocks a).isSome).length)
  | _ => none

example : Sane Heap.init := fun _ _ => rfl
example : outcome (writeOnHeap easy Heap.init twoFuncs) 40 = some (some twoFuncs.write, 1) := by
  decide +kernel
/-- a refusal while the second function is added: exception, nothing left behind -/
example : outcome (writeOnHeap (refusing 2) Heap.init twoFuncs) 40 = some (none, 0) := by decide +kernel
example : outcome (writeOnHeap (refusing 5) Heap.init twoFuncs) 40 = some (none, 0) := by decide +kernel
example : WellFormed twoFuncs.accept ∧ Fits twoFuncs.accept :=
  ⟨⟨rfl, by simp [twoFuncs, ModuleNode.accept]⟩, by decide +kernel⟩

/-- The empty module makes two requests: the buffer and the shrinking. -/
def noFuncs : ModuleNode := ⟨[], []⟩

/-- **C83 is false of the code**: the refusal of the last request, which shrinks the finished buffer, ends
the process instead of raising `std::bad_alloc`. -/
theorem C83_negation_shrink_refusal_terminates : ¬ C83_full := by
  intro hf
  have ht : writeOnHeap (refusing 1) Heap.init noFuncs = .trap "bad_alloc leaves a noexcept function" := by
    have : (match writeOnHeap (refusing 1) Heap.init noFuncs with
      | .trap w => w == "bad_alloc leaves a noexcept function" | _ => false) = true := by decide +kernel
    revert this
    generalize writeOnHeap (refusing 1) Heap.init noFuncs = r
    intro hr
    cases r <;> simp_all
  rcases hf (refusing 1) Heap.init noFuncs (fun _ _ => rfl) with ⟨h', p, h1, -⟩ | ⟨h', h1, -⟩ <;>
    rw [ht] at h1 <;> cases h1

end Ab.WH
