import Verif.Proof.At

namespace Ab
open Spec

/-! ### Safety: no undefined behaviour, no divergence, positions move forward inside the buffer -/

/-- The outcome is not `ub`/`fuel`, and a normal result leaves the position in `[pos, size]`. -/
def Safe (bs : List Byte) (pos : Nat) {α : Type} (x : Outcome (α × Nat)) : Prop :=
  match x with
  | .ok (_, p) => pos ≤ p ∧ p ≤ bs.length
  | .throw _ => True
  | .trap _ => True
  | .ub _ => False
  | .fuel => False

theorem Safe.bind {bs : List Byte} {pos : Nat} {α β : Type} {x : Outcome (α × Nat)}
    {f : α × Nat → Outcome (β × Nat)} (hx : Safe bs pos x)
    (hf : ∀ a p, x = .ok (a, p) → pos ≤ p → p ≤ bs.length → Safe bs p (f (a, p))) :
    Safe bs pos (x >>= f) := by
  cases x with
  | ok r =>
    obtain ⟨a, p⟩ := r
    simp only [Outcome.ok_bind]
    have h1 := hf a p rfl hx.1 hx.2
    revert h1
    cases f (a, p) with
    | ok r => intro h; exact ⟨Nat.le_trans hx.1 h.1, h.2⟩
    | _ => exact id
  | throw _ => trivial
  | trap _ => trivial
  | ub _ => exact hx
  | fuel => exact hx

theorem Safe.mono {bs : List Byte} {p q : Nat} {α : Type} {x : Outcome (α × Nat)} (h : Safe bs q x)
    (hpq : p ≤ q) : Safe bs p x := by
  cases x with
  | ok r => exact ⟨Nat.le_trans hpq h.1, h.2⟩
  | _ => exact h

theorem readByte_safe' (bs : List Byte) (pos : Nat) :
    (pos < bs.length ∧ ∃ b, readByte bs pos = .ok (b, pos + 1)) ∨
    (bs.length ≤ pos ∧ readByte bs pos = .throw "Read past end of buffer") := by
  by_cases h : pos < bs.length
  · exact Or.inl ⟨h, _, readByte_lt h⟩
  · exact Or.inr ⟨by omega, readByte_ge (by omega)⟩

theorem readByte_safe (bs : List Byte) (pos : Nat) : Safe bs pos (readByte bs pos) := by
  rcases readByte_safe' bs pos with ⟨h, b, e⟩ | ⟨_, e⟩ <;> rw [e]
  · exact ⟨by omega, by omega⟩
  · trivial

theorem readU32_safe (bs : List Byte) (pos : Nat) : Safe bs pos (readU32 bs pos) := by
  unfold readU32
  split
  · trivial
  · have h0 : pos < bs.length := by omega
    have h1 : pos + 1 < bs.length := by omega
    have h2 : pos + 2 < bs.length := by omega
    have h3 : pos + 3 < bs.length := by omega
    rw [List.getElem?_eq_getElem h0, List.getElem?_eq_getElem h1, List.getElem?_eq_getElem h2,
      List.getElem?_eq_getElem h3]
    exact ⟨by omega, by omega⟩

theorem readVaruLoop_safe (N w : Nat) (bs : List Byte) (pos shift : Nat) (result : BitVec w) :
    Safe bs pos (readVaruLoop N w bs pos shift result) := by
  generalize hk : N - shift = k
  induction k using Nat.strongRecOn generalizing pos shift result with
  | _ k ih =>
    rw [readVaruLoop]
    split
    · trivial
    · rcases readByte_safe' bs pos with ⟨h, b, e⟩ | ⟨_, e⟩ <;> rw [e]
      · simp only
        split
        · exact (ih (N - (shift + 7)) (by omega) (pos + 1) (shift + 7) _ rfl).mono (by omega)
        · exact ⟨by omega, by omega⟩
      · trivial

theorem readVaru32_safe (bs : List Byte) (pos : Nat) : Safe bs pos (readVaru32 bs pos) :=
  readVaruLoop_safe 32 32 bs pos 0 0#32

theorem readSectionCode_safe (bs : List Byte) (pos : Nat) : Safe bs pos (readSectionCode bs pos) := by
  unfold readSectionCode
  apply (readByte_safe bs pos).bind
  intro a p _ h1 h2
  simp only
  split
  · trivial
  · exact ⟨Nat.le_refl _, h2⟩

theorem readValTypes_safe (bs : List Byte) (n pos : Nat) (hp : pos ≤ bs.length) :
    Safe bs pos (readValTypes bs n pos) := by
  induction n generalizing pos with
  | zero => exact ⟨Nat.le_refl _, hp⟩
  | succ n ih =>
    rw [readValTypes]
    apply (readByte_safe bs pos).bind
    intro a p _ h1 h2
    apply (ih p h2).bind
    intro ts p' _ h1' h2'
    exact ⟨Nat.le_refl _, h2'⟩

theorem readFuncType_safe (bs : List Byte) (pos : Nat) : Safe bs pos (readFuncType bs pos) := by
  unfold readFuncType
  apply (readByte_safe bs pos).bind
  intro a p _ _ h2
  simp only
  split
  · trivial
  · apply (readVaru32_safe bs p).bind
    intro na p1 _ _ h3
    apply (readValTypes_safe bs _ p1 h3).bind
    intro as p2 _ _ h4
    apply (readVaru32_safe bs p2).bind
    intro nr p3 _ _ h5
    apply (readValTypes_safe bs _ p3 h5).bind
    intro rs p4 _ _ h6
    exact ⟨Nat.le_refl _, h6⟩

theorem readFuncTypes_safe (bs : List Byte) (n pos : Nat) (hp : pos ≤ bs.length) :
    Safe bs pos (readFuncTypes bs n pos) := by
  induction n generalizing pos with
  | zero => exact ⟨Nat.le_refl _, hp⟩
  | succ n ih =>
    rw [readFuncTypes]
    apply (readFuncType_safe bs pos).bind
    intro a p _ h1 h2
    apply (ih p h2).bind
    intro ts p' _ h1' h2'
    exact ⟨Nat.le_refl _, h2'⟩

theorem readFuncDecls_safe (bs : List Byte) (n pos : Nat) (hp : pos ≤ bs.length) :
    Safe bs pos (readFuncDecls bs n pos) := by
  induction n generalizing pos with
  | zero => exact ⟨Nat.le_refl _, hp⟩
  | succ n ih =>
    rw [readFuncDecls]
    apply (readVaru32_safe bs pos).bind
    intro a p _ h1 h2
    apply (ih p h2).bind
    intro ts p' _ h1' h2'
    exact ⟨Nat.le_refl _, h2'⟩

theorem decodeTypeSection_safe (bs : List Byte) (m : Module) (pos : Nat) (size : U32) :
    Safe bs pos (decodeTypeSection bs m pos size) := by
  unfold decodeTypeSection
  apply (readVaru32_safe bs pos).bind
  intro a p _ _ h2
  apply (readFuncTypes_safe bs _ p h2).bind
  intro ts p' _ h1' h2'
  simp only
  split
  · trivial
  · exact ⟨Nat.le_refl _, h2'⟩

theorem decodeFuncSection_safe (bs : List Byte) (m : Module) (pos : Nat) (size : U32) :
    Safe bs pos (decodeFuncSection bs m pos size) := by
  unfold decodeFuncSection
  apply (readVaru32_safe bs pos).bind
  intro a p _ _ h2
  apply (readFuncDecls_safe bs _ p h2).bind
  intro ts p' _ h1' h2'
  simp only
  split
  · trivial
  · exact ⟨Nat.le_refl _, h2'⟩

theorem typeFor_cases (m : Module) (i : Nat) :
    (∃ ti t, m.funcTypes[i]? = some ti ∧ m.types[ti.toNat]? = some t ∧
      m.typeFor i = .ok (ti.toNat, t)) ∨ (∃ w, m.typeFor i = .trap w) := by
  unfold Module.typeFor
  split
  · exact Or.inr ⟨_, rfl⟩
  · rename_i ti h
    split
    · exact Or.inr ⟨_, rfl⟩
    · rename_i t h2
      exact Or.inl ⟨ti, t, h, h2, rfl⟩

theorem decodeCodeEntry_safe (bs : List Byte) (m : Module) (i pos : Nat) :
    Safe bs pos (decodeCodeEntry bs m i pos) := by
  unfold decodeCodeEntry
  apply (readVaru32_safe bs pos).bind
  intro size p _ _ h2
  simp only
  have h3 := readVaru32_safe bs p
  revert h3
  cases readVaru32 bs p with
  | ok r =>
    obtain ⟨nregs, body⟩ := r
    intro h3
    simp only [Outcome.ok_bind]
    unfold reposition
    split
    · rename_i hle
      simp only [Outcome.ok_bind]
      rcases typeFor_cases m i with ⟨ti, t, _, _, e⟩ | ⟨w, e⟩ <;> rw [e]
      · exact ⟨by omega, hle⟩
      · trivial
    · trivial
  | throw _ => intro _; trivial
  | trap _ => intro _; trivial
  | ub _ => exact id
  | fuel => exact id

theorem decodeCodeEntries_safe (bs : List Byte) (m : Module) (n i pos : Nat) (hp : pos ≤ bs.length) :
    Safe bs pos (decodeCodeEntries bs m n i pos) := by
  induction n generalizing i pos with
  | zero => exact ⟨Nat.le_refl _, hp⟩
  | succ n ih =>
    rw [decodeCodeEntries]
    apply (decodeCodeEntry_safe bs m i pos).bind
    intro a p _ h1 h2
    apply (ih (i + 1) p h2).bind
    intro ts p' _ h1' h2'
    exact ⟨Nat.le_refl _, h2'⟩

theorem decodeCodeSection_safe (bs : List Byte) (m : Module) (pos : Nat) (size : U32) :
    Safe bs pos (decodeCodeSection bs m pos size) := by
  unfold decodeCodeSection
  apply (readVaru32_safe bs pos).bind
  intro a p _ _ h2
  simp only
  split
  · trivial
  · apply (decodeCodeEntries_safe bs m _ 0 p h2).bind
    intro ts p' _ h1' h2'
    exact ⟨Nat.le_refl _, h2'⟩

/-- A decoded section ends strictly after it began. -/
theorem decodeSection_safe (bs : List Byte) (m : Module) (pos : Nat) :
    Safe bs (pos + 1) (decodeSection bs m pos) := by
  unfold decodeSection
  have hsc : Safe bs (pos + 1) (readSectionCode bs pos) := by
    unfold readSectionCode
    rcases readByte_safe' bs pos with ⟨h, b, e⟩ | ⟨_, e⟩ <;> rw [e]
    · simp only [Outcome.ok_bind]
      split
      · trivial
      · exact ⟨Nat.le_refl _, h⟩
    · trivial
  apply hsc.bind
  intro code p _ _ h2
  apply (readVaru32_safe bs p).bind
  intro size p' _ _ h3
  simp only
  split
  · exact decodeTypeSection_safe bs m p' size
  · split
    · exact decodeFuncSection_safe bs m p' size
    · split
      · exact decodeCodeSection_safe bs m p' size
      · trivial

theorem readHeader_cases (bs : List Byte) :
    (readHeader bs = .ok 8 ∧ 8 ≤ bs.length) ∨ ∃ m, readHeader bs = .throw m := by
  unfold readHeader
  by_cases h : bs.length < 4
  · right
    have : readU32 bs 0 = .throw "Read past end of buffer" := by
      unfold readU32; rw [if_pos (by omega)]
    rw [this]; exact ⟨_, rfl⟩
  · have hs : ∀ pos, ¬ bs.length < pos + 4 → ∃ v, readU32 bs pos = .ok (v, pos + 4) := by
      intro pos hp
      unfold readU32
      rw [if_neg hp]
      rw [List.getElem?_eq_getElem (by omega : pos < bs.length),
        List.getElem?_eq_getElem (by omega : pos + 1 < bs.length),
        List.getElem?_eq_getElem (by omega : pos + 2 < bs.length),
        List.getElem?_eq_getElem (by omega : pos + 3 < bs.length)]
      exact ⟨_, rfl⟩
    obtain ⟨v, e⟩ := hs 0 (by omega)
    rw [e]
    simp only [Outcome.ok_bind]
    split
    · exact Or.inr ⟨_, rfl⟩
    · by_cases h8 : bs.length < 8
      · right
        have : readU32 bs (0 + 4) = .throw "Read past end of buffer" := by
          unfold readU32; rw [if_pos (by omega)]
        rw [this]; exact ⟨_, rfl⟩
      · obtain ⟨v2, e2⟩ := hs (0 + 4) (by omega)
        rw [e2]
        simp only [Outcome.ok_bind]
        split
        · exact Or.inr ⟨_, rfl⟩
        · exact Or.inl ⟨rfl, by omega⟩

theorem compileLoop_safe (bs : List Byte) (f : Nat) (m : Module) (pos : Nat)
    (hp : pos ≤ bs.length) (hf : bs.length - pos < f) :
    (∀ w, compileLoop bs f m pos ≠ .ub w) ∧ compileLoop bs f m pos ≠ .fuel := by
  induction f generalizing m pos with
  | zero => omega
  | succ f ih =>
    rw [compileLoop]
    split
    · constructor <;> simp
    · have := decodeSection_safe bs m pos
      revert this
      cases decodeSection bs m pos with
      | ok r =>
        obtain ⟨m', p⟩ := r
        intro hs
        simp only [Outcome.ok_bind]
        exact ih m' p hs.2 (by have := hs.1; omega)
      | throw _ => intro _; constructor <;> simp
      | trap _ => intro _; constructor <;> simp
      | ub _ => exact fun h => absurd h id
      | fuel => exact fun h => absurd h id

/-! ### Reading is unaffected by bytes after what was read -/

theorem readByte_mono {bs ext : List Byte} {pos : Nat} {r} (h : readByte bs pos = .ok r) :
    readByte (bs ++ ext) pos = .ok r := by
  rcases readByte_safe' bs pos with ⟨hl, b, e⟩ | ⟨_, e⟩
  · rw [readByte_lt hl] at h
    rw [readByte_lt (by simp; omega), List.getElem_append_left hl, h]
  · rw [e] at h; cases h

theorem readVaruLoop_mono {N w : Nat} {bs ext : List Byte} {pos shift : Nat} {result : BitVec w} {r}
    (h : readVaruLoop N w bs pos shift result = .ok r) :
    readVaruLoop N w (bs ++ ext) pos shift result = .ok r := by
  generalize hk : N - shift = k
  induction k using Nat.strongRecOn generalizing pos shift result with
  | _ k ih =>
    rw [readVaruLoop] at h ⊢
    split at h
    · cases h
    · rename_i hN
      rw [dif_neg hN]
      rcases readByte_safe' bs pos with ⟨hl, b, e⟩ | ⟨_, e⟩
      · rw [readByte_mono e]
        rw [e] at h
        simp only at h ⊢
        split at h
        · rename_i hb; rw [if_pos hb]
          exact ih (N - (shift + 7)) (by omega) h rfl
        · rename_i hb; rw [if_neg hb]; exact h
      · rw [e] at h; cases h

theorem readVaru32_mono {bs ext : List Byte} {pos : Nat} {r} (h : readVaru32 bs pos = .ok r) :
    readVaru32 (bs ++ ext) pos = .ok r := readVaruLoop_mono h

theorem readU32_mono {bs ext : List Byte} {pos : Nat} {r} (h : readU32 bs pos = .ok r) :
    readU32 (bs ++ ext) pos = .ok r := by
  unfold readU32 at h ⊢
  split at h
  · cases h
  · rename_i hl
    rw [if_neg (by simp; omega)]
    rw [List.getElem?_append_left (by omega), List.getElem?_append_left (by omega),
      List.getElem?_append_left (by omega), List.getElem?_append_left (by omega)]
    exact h

theorem bind_mono {α β : Type} {x x' : Outcome α} {f f' : α → Outcome β} {r : β}
    (h : (x >>= f) = .ok r) (hx : ∀ a, x = .ok a → x' = .ok a)
    (hf : ∀ a, x = .ok a → f a = .ok r → f' a = .ok r) : (x' >>= f') = .ok r := by
  obtain ⟨a, h1, h2⟩ := Outcome.bind_eq_ok.1 h
  rw [hx a h1, Outcome.ok_bind]
  exact hf a h1 h2

theorem readSectionCode_mono {bs ext : List Byte} {pos : Nat} {r}
    (h : readSectionCode bs pos = .ok r) : readSectionCode (bs ++ ext) pos = .ok r :=
  bind_mono h (fun _ h => readByte_mono h) (fun _ _ h => h)

theorem readValTypes_mono {bs ext : List Byte} {n pos : Nat} {r}
    (h : readValTypes bs n pos = .ok r) : readValTypes (bs ++ ext) n pos = .ok r := by
  induction n generalizing pos r with
  | zero => exact h
  | succ n ih =>
    exact bind_mono h (fun _ h => readByte_mono h)
      (fun a _ h => bind_mono h (fun _ h => ih h) (fun _ _ h => h))

theorem readFuncType_mono {bs ext : List Byte} {pos : Nat} {r}
    (h : readFuncType bs pos = .ok r) : readFuncType (bs ++ ext) pos = .ok r := by
  refine bind_mono h (fun _ h => readByte_mono h) (fun a _ h => ?_)
  obtain ⟨vt, p⟩ := a
  simp only at h ⊢
  split at h
  · cases h
  · rename_i hc
    rw [if_neg hc]
    exact bind_mono h (fun _ h => readVaru32_mono h) (fun _ _ h =>
      bind_mono h (fun _ h => readValTypes_mono h) (fun _ _ h =>
        bind_mono h (fun _ h => readVaru32_mono h) (fun _ _ h =>
          bind_mono h (fun _ h => readValTypes_mono h) (fun _ _ h => h))))

theorem readFuncTypes_mono {bs ext : List Byte} {n pos : Nat} {r}
    (h : readFuncTypes bs n pos = .ok r) : readFuncTypes (bs ++ ext) n pos = .ok r := by
  induction n generalizing pos r with
  | zero => exact h
  | succ n ih =>
    exact bind_mono h (fun _ h => readFuncType_mono h)
      (fun a _ h => bind_mono h (fun _ h => ih h) (fun _ _ h => h))

theorem readFuncDecls_mono {bs ext : List Byte} {n pos : Nat} {r}
    (h : readFuncDecls bs n pos = .ok r) : readFuncDecls (bs ++ ext) n pos = .ok r := by
  induction n generalizing pos r with
  | zero => exact h
  | succ n ih =>
    exact bind_mono h (fun _ h => readVaru32_mono h)
      (fun a _ h => bind_mono h (fun _ h => ih h) (fun _ _ h => h))

theorem decodeTypeSection_mono {bs ext : List Byte} {m : Module} {pos : Nat} {size : U32} {r}
    (h : decodeTypeSection bs m pos size = .ok r) :
    decodeTypeSection (bs ++ ext) m pos size = .ok r :=
  bind_mono h (fun _ h => readVaru32_mono h) (fun _ _ h =>
    bind_mono h (fun _ h => readFuncTypes_mono h) (fun _ _ h => h))

theorem decodeFuncSection_mono {bs ext : List Byte} {m : Module} {pos : Nat} {size : U32} {r}
    (h : decodeFuncSection bs m pos size = .ok r) :
    decodeFuncSection (bs ++ ext) m pos size = .ok r :=
  bind_mono h (fun _ h => readVaru32_mono h) (fun _ _ h =>
    bind_mono h (fun _ h => readFuncDecls_mono h) (fun _ _ h => h))

theorem reposition_mono {bs ext : List Byte} {p : Nat} {r}
    (h : reposition bs p = .ok r) : reposition (bs ++ ext) p = .ok r := by
  unfold reposition at h ⊢
  split at h
  · rw [if_pos (by simp; omega)]; exact h
  · cases h

theorem decodeCodeEntry_mono {bs ext : List Byte} {m : Module} {i pos : Nat} {r}
    (h : decodeCodeEntry bs m i pos = .ok r) : decodeCodeEntry (bs ++ ext) m i pos = .ok r :=
  bind_mono h (fun _ h => readVaru32_mono h) (fun _ _ h =>
    bind_mono h (fun _ h => readVaru32_mono h) (fun _ _ h =>
      bind_mono h (fun _ h => reposition_mono h) (fun _ _ h => h)))

theorem decodeCodeEntries_mono {bs ext : List Byte} {m : Module} {n i pos : Nat} {r}
    (h : decodeCodeEntries bs m n i pos = .ok r) :
    decodeCodeEntries (bs ++ ext) m n i pos = .ok r := by
  induction n generalizing i pos r with
  | zero => exact h
  | succ n ih =>
    exact bind_mono h (fun _ h => decodeCodeEntry_mono h)
      (fun a _ h => bind_mono h (fun _ h => ih h) (fun _ _ h => h))

theorem decodeCodeSection_mono {bs ext : List Byte} {m : Module} {pos : Nat} {size : U32} {r}
    (h : decodeCodeSection bs m pos size = .ok r) :
    decodeCodeSection (bs ++ ext) m pos size = .ok r := by
  refine bind_mono h (fun _ h => readVaru32_mono h) (fun a _ h => ?_)
  obtain ⟨n, p⟩ := a
  simp only at h ⊢
  split at h
  · cases h
  · rename_i hc
    rw [if_neg hc]
    exact bind_mono h (fun _ h => decodeCodeEntries_mono h) (fun _ _ h => h)

theorem decodeSection_mono {bs ext : List Byte} {m : Module} {pos : Nat} {r}
    (h : decodeSection bs m pos = .ok r) : decodeSection (bs ++ ext) m pos = .ok r := by
  refine bind_mono h (fun _ h => readSectionCode_mono h) (fun a _ h => ?_)
  refine bind_mono h (fun _ h => readVaru32_mono h) (fun b _ h => ?_)
  obtain ⟨code, p⟩ := a
  obtain ⟨size, p'⟩ := b
  simp only at h ⊢
  split at h
  · rename_i hc; rw [if_pos hc]; exact decodeTypeSection_mono h
  · rename_i hc; rw [if_neg hc]
    split at h
    · rename_i hc; rw [if_pos hc]; exact decodeFuncSection_mono h
    · rename_i hc; rw [if_neg hc]
      split at h
      · rename_i hc; rw [if_pos hc]; exact decodeCodeSection_mono h
      · cases h

theorem readHeader_mono {bs ext : List Byte} {r} (h : readHeader bs = .ok r) :
    readHeader (bs ++ ext) = .ok r := by
  refine bind_mono h (fun _ h => readU32_mono h) (fun a _ h => ?_)
  obtain ⟨magic, p⟩ := a
  simp only at h ⊢
  split at h
  · cases h
  · rename_i hc; rw [if_neg hc]
    exact bind_mono h (fun _ h => readU32_mono h) (fun _ _ h => h)

/-- If the section loop finishes on `bs`, then on `bs ++ ext` it arrives at the end of `bs` with the
same module, in no more iterations than there are bytes. -/
theorem compileLoop_extend {bs : List Byte} (ext : List Byte) {f : Nat} {m m' : Module} {pos : Nat}
    (hp : pos ≤ bs.length) (h : compileLoop bs f m pos = .ok m') :
    ∃ n, n ≤ bs.length - pos ∧ ∀ k, compileLoop (bs ++ ext) (n + k + 1) m pos
      = compileLoop (bs ++ ext) (k + 1) m' bs.length := by
  induction f generalizing m pos with
  | zero => cases h
  | succ f ih =>
    rw [compileLoop] at h
    split at h
    · rename_i he
      cases h
      subst he
      exact ⟨0, by omega, fun k => by rw [Nat.zero_add]⟩
    · rename_i hne
      obtain ⟨⟨m1, p1⟩, h1, h2⟩ := Outcome.bind_eq_ok.1 h
      have hs := decodeSection_safe bs m pos
      rw [h1] at hs
      obtain ⟨n, hn, hk⟩ := ih hs.2 h2
      have := hs.1
      refine ⟨n + 1, by omega, fun k => ?_⟩
      rw [compileLoop]
      rw [if_neg (by rw [List.length_append]; omega), decodeSection_mono h1]
      simp only [Outcome.ok_bind]
      rw [← hk k]
      congr 1
      omega

/-- `compile` on an extension of an accepted string continues after the accepted string. -/
theorem compile_extend {bs : List Byte} (ext : List Byte) {m : Module} (h : compile bs = .ok m) :
    ∃ k, ext.length ≤ k ∧ compile (bs ++ ext) = compileLoop (bs ++ ext) (k + 1) m bs.length := by
  unfold compile at h ⊢
  obtain ⟨p, h1, h2⟩ := Outcome.bind_eq_ok.1 h
  rw [readHeader_mono h1]
  simp only [Outcome.ok_bind]
  have hp : p ≤ bs.length := by
    rcases readHeader_cases bs with ⟨e, hl⟩ | ⟨w, e⟩ <;> rw [e] at h1
    · cases h1; exact hl
    · cases h1
  obtain ⟨n, hn, hk⟩ := compileLoop_extend ext hp h2
  refine ⟨(bs ++ ext).length - n, by rw [List.length_append]; omega, ?_⟩
  rw [← hk]
  congr 1
  rw [List.length_append]
  omega

end Ab
