import Verif.Model.LoadWork
import Verif.Props.Module
/-! C121: loading takes time in proportion to the file. -/
namespace Ab
open Spec

/-! ### Counting changes nothing -/

theorem Run.bind_out {α β : Type} (x : Run α) (f : α → Run β) : (x >>= f).out = x.out >>= fun a => (f a).out := by
  show (Run.bind x f).out = _
  unfold Run.bind
  cases x.out <;> rfl

theorem Run.free_out {α : Type} (o : Outcome α) : (Run.free o).out = o := rfl

theorem Run.ite_out {α : Type} (c : Prop) [Decidable c] (x y : Run α) : (if c then x else y).out = if c then x.out else y.out := by
  split <;> rfl

theorem readVaruLoopW_out (bs : List Byte) (pos shift : Nat) (result : U32) :
    (readVaruLoopW bs pos shift result).out = readVaruLoop 32 32 bs pos shift result := by
  rw [readVaruLoopW, readVaruLoop]
  by_cases h : 32 ≤ shift
  · rw [dif_pos h, dif_pos h]; rfl
  · rw [dif_neg h, dif_neg h, Run.bind_out]
    show (readByte bs pos >>= _) = _
    cases readByte bs pos with
    | ok p =>
      rw [Outcome.ok_bind]
      dsimp only
      rw [Run.ite_out, readVaruLoopW_out bs p.2 (shift + 7)]
      rfl
    | throw _ => rfl
    | trap _ => rfl
    | ub _ => rfl
    | fuel => rfl
termination_by 32 - shift

theorem readVaru32W_out (bs : List Byte) (pos : Nat) : (readVaru32W bs pos).out = readVaru32 bs pos := readVaruLoopW_out bs pos 0 0#32

theorem readSectionCodeW_out (bs : List Byte) (pos : Nat) : (readSectionCodeW bs pos).out = readSectionCode bs pos := by
  unfold readSectionCodeW readSectionCode
  simp only [Run.bind_out, Run.ite_out]; rfl

theorem readValTypesW_out (bs : List Byte) : ∀ (n pos : Nat), (readValTypesW bs n pos).out = readValTypes bs n pos
  | 0, _ => rfl
  | n + 1, pos => by
    rw [readValTypesW, readValTypes]
    simp only [Run.bind_out, readValTypesW_out bs n]; rfl

theorem readFuncTypeW_out (bs : List Byte) (pos : Nat) : (readFuncTypeW bs pos).out = readFuncType bs pos := by
  unfold readFuncTypeW readFuncType
  simp only [Run.bind_out, Run.ite_out, readVaru32W_out, readValTypesW_out]; rfl

theorem readFuncTypesW_out (bs : List Byte) : ∀ (n pos : Nat), (readFuncTypesW bs n pos).out = readFuncTypes bs n pos
  | 0, _ => rfl
  | n + 1, pos => by
    rw [readFuncTypesW, readFuncTypes]
    simp only [Run.bind_out, readFuncTypeW_out, readFuncTypesW_out bs n]; rfl

theorem decodeTypeSectionW_out (bs : List Byte) (m : Module) (pos : Nat) (size : U32) :
    (decodeTypeSectionW bs m pos size).out = decodeTypeSection bs m pos size := by
  unfold decodeTypeSectionW decodeTypeSection
  simp only [Run.bind_out, Run.ite_out, readVaru32W_out, readFuncTypesW_out]; rfl

theorem readFuncDeclsW_out (bs : List Byte) : ∀ (n pos : Nat), (readFuncDeclsW bs n pos).out = readFuncDecls bs n pos
  | 0, _ => rfl
  | n + 1, pos => by
    rw [readFuncDeclsW, readFuncDecls]
    simp only [Run.bind_out, readVaru32W_out, readFuncDeclsW_out bs n]; rfl

theorem decodeFuncSectionW_out (bs : List Byte) (m : Module) (pos : Nat) (size : U32) :
    (decodeFuncSectionW bs m pos size).out = decodeFuncSection bs m pos size := by
  unfold decodeFuncSectionW decodeFuncSection
  simp only [Run.bind_out, Run.ite_out, readVaru32W_out, readFuncDeclsW_out]; rfl

theorem decodeCodeEntryW_out (bs : List Byte) (m : Module) (i pos : Nat) :
    (decodeCodeEntryW bs m i pos).out = decodeCodeEntry bs m i pos := by
  unfold decodeCodeEntryW decodeCodeEntry
  simp only [Run.bind_out, readVaru32W_out]; rfl

theorem decodeCodeEntriesW_out (bs : List Byte) (m : Module) : ∀ (n i pos : Nat),
    (decodeCodeEntriesW bs m n i pos).out = decodeCodeEntries bs m n i pos
  | 0, _, _ => rfl
  | n + 1, i, pos => by
    rw [decodeCodeEntriesW, decodeCodeEntries]
    simp only [Run.bind_out, decodeCodeEntryW_out, decodeCodeEntriesW_out bs m n]; rfl

theorem decodeCodeSectionW_out (bs : List Byte) (m : Module) (pos : Nat) (size : U32) :
    (decodeCodeSectionW bs m pos size).out = decodeCodeSection bs m pos size := by
  unfold decodeCodeSectionW decodeCodeSection
  simp only [Run.bind_out, Run.ite_out, readVaru32W_out, decodeCodeEntriesW_out]; rfl

theorem decodeSectionW_out (bs : List Byte) (m : Module) (pos : Nat) : (decodeSectionW bs m pos).out = decodeSection bs m pos := by
  unfold decodeSectionW decodeSection
  simp only [Run.bind_out, Run.ite_out, readVaru32W_out, readSectionCodeW_out, decodeTypeSectionW_out, decodeFuncSectionW_out,
    decodeCodeSectionW_out]; rfl

theorem compileLoopW_out (bs : List Byte) : ∀ (fuel : Nat) (m : Module) (pos : Nat),
    (compileLoopW bs fuel m pos).out = compileLoop bs fuel m pos
  | 0, _, _ => rfl
  | fuel + 1, m, pos => by
    rw [compileLoopW, compileLoop]
    simp only [Run.bind_out, Run.ite_out, decodeSectionW_out, compileLoopW_out bs fuel]; rfl

/-- **C121**: counting changes nothing. -/
theorem C121_same_outcome (bs : List Byte) : (compileW bs).out = compile bs := by
  unfold compileW compile readHeaderW readHeader
  simp only [Run.bind_out, Run.ite_out, compileLoopW_out]; rfl

/-! ### The bounds -/

/-- A part of the loader that starts at `pos`: its reads and looks are bounded by the bytes it moves over, or, when it fails,
by the bytes that are left. -/
structure Within {α : Type} (n A pos : Nat) (x : Run (α × Nat)) : Prop where
  ok : ∀ a p, x.out = .ok (a, p) → pos ≤ p ∧ p ≤ n ∧ x.reads ≤ 6 * (p - pos) ∧ x.looks ≤ A * (p - pos)
  no : (∀ a, x.out ≠ .ok a) → x.reads ≤ 6 * (n - pos) + 1 ∧ x.looks ≤ A * (n - pos)

theorem Within.free {α : Type} {n A pos : Nat} (hp : pos ≤ n) (o : Outcome (α × Nat)) (h : ∀ a p, o = .ok (a, p) → p = pos) :
    Within n A pos (Run.free o) :=
  ⟨fun a p e => by rw [h a p e]; exact ⟨Nat.le_refl _, hp, Nat.zero_le _, Nat.zero_le _⟩,
   fun _ => ⟨Nat.zero_le _, Nat.zero_le _⟩⟩

theorem Within.bind {α β : Type} {n A pos : Nat} {x : Run (α × Nat)} {f : α × Nat → Run (β × Nat)} (hx : Within n A pos x)
    (hf : ∀ a p, x.out = .ok (a, p) → pos ≤ p → p ≤ n → Within n A p (f (a, p))) : Within n A pos (x >>= f) := by
  show Within n A pos (Run.bind x f)
  unfold Run.bind
  have hn := hx.no
  have ho := hx.ok
  cases hxo : x.out with
  | ok q =>
    obtain ⟨a, p⟩ := q
    obtain ⟨h1, h2, h3, h4⟩ := ho a p hxo
    have hw := hf a p hxo h1 h2
    refine ⟨fun b r e => ?_, fun e => ?_⟩
    · obtain ⟨g1, g2, g3, g4⟩ := hw.ok b r e
      refine ⟨by omega, g2, ?_, ?_⟩
      · show x.reads + (f (a, p)).reads ≤ _; omega
      · show x.looks + (f (a, p)).looks ≤ _
        have : A * (r - pos) = A * (p - pos) + A * (r - p) := by rw [← Nat.mul_add]; congr 1; omega
        omega
    · obtain ⟨g3, g4⟩ := hw.no e
      refine ⟨?_, ?_⟩
      · show x.reads + (f (a, p)).reads ≤ _; omega
      · show x.looks + (f (a, p)).looks ≤ _
        have : A * (n - pos) = A * (p - pos) + A * (n - p) := by rw [← Nat.mul_add]; congr 1; omega
        omega
  | throw m => exact ⟨(fun b r e => (by cases e)), fun _ => hn (by rw [hxo]; intro a e; cases e)⟩
  | trap m => exact ⟨(fun b r e => (by cases e)), fun _ => hn (by rw [hxo]; intro a e; cases e)⟩
  | ub m => exact ⟨(fun b r e => (by cases e)), fun _ => hn (by rw [hxo]; intro a e; cases e)⟩
  | fuel => exact ⟨(fun b r e => (by cases e)), fun _ => hn (by rw [hxo]; intro a e; cases e)⟩

theorem readByte_pos {bs : List Byte} {pos p : Nat} {b : Byte} (h : readByte bs pos = .ok (b, p)) : p = pos + 1 ∧ pos + 1 ≤ bs.length := by
  unfold readByte at h
  split at h
  · cases h
  · split at h
    · injection h with h; injection h with _ h; omega
    · cases h

theorem readByteW_within {bs : List Byte} {pos A : Nat} (hp : pos ≤ bs.length) : Within bs.length A pos (readByteW bs pos) :=
  ⟨fun a p e => by obtain ⟨h1, h2⟩ := readByte_pos e; exact ⟨by omega, by omega, by show 1 ≤ _; omega, Nat.zero_le _⟩,
   fun _ => ⟨by show 1 ≤ _; omega, Nat.zero_le _⟩⟩

theorem Run.bind_ok {α β : Type} {x : Run α} (f : α → Run β) {a : α} (h : x.out = .ok a) :
    (x >>= f) = ⟨(f a).out, x.reads + (f a).reads, x.looks + (f a).looks⟩ := by
  show Run.bind x f = _
  unfold Run.bind
  rw [h]

theorem Run.bind_no {α β : Type} {x : Run α} (f : α → Run β) (h : ∀ a, x.out ≠ .ok a) :
    (x >>= f).reads = x.reads ∧ (x >>= f).looks = x.looks ∧ ∀ b, (x >>= f).out ≠ .ok b := by
  show (Run.bind x f).reads = _ ∧ (Run.bind x f).looks = _ ∧ ∀ b, (Run.bind x f).out ≠ _
  unfold Run.bind
  cases hx : x.out with
  | ok a => exact absurd hx (h a)
  | throw m => exact ⟨rfl, rfl, fun b e => nomatch e⟩
  | trap m => exact ⟨rfl, rfl, fun b e => nomatch e⟩
  | ub m => exact ⟨rfl, rfl, fun b e => nomatch e⟩
  | fuel => exact ⟨rfl, rfl, fun b e => nomatch e⟩

theorem Run.cases {α : Type} (x : Run α) : (∃ a, x.out = .ok a) ∨ ∀ a, x.out ≠ .ok a := by
  cases hx : x.out with
  | ok a => exact Or.inl ⟨a, rfl⟩
  | _ => exact Or.inr (fun b e => nomatch e)

/-- A number takes one to five bytes, each read once. -/
theorem readVaruLoopW_spec (bs : List Byte) (pos shift : Nat) (result : U32) (hp : pos ≤ bs.length) :
    (∀ v p, (readVaruLoopW bs pos shift result).out = .ok (v, p) → pos < p ∧ p ≤ bs.length ∧
      (readVaruLoopW bs pos shift result).reads = p - pos ∧ 7 * (p - pos) + shift < 32 + 7) ∧
    ((∀ a, (readVaruLoopW bs pos shift result).out ≠ .ok a) → (readVaruLoopW bs pos shift result).reads ≤ bs.length - pos + 1) ∧
    (readVaruLoopW bs pos shift result).looks = 0 := by
  rw [readVaruLoopW]
  by_cases h : 32 ≤ shift
  · rw [dif_pos h]
    exact ⟨fun v p e => (nomatch e), fun _ => Nat.zero_le _, rfl⟩
  · rw [dif_neg h]
    rcases Run.cases (readByteW bs pos) with ⟨⟨b, q⟩, hq⟩ | hq
    · obtain ⟨h1, h2⟩ := readByte_pos hq
      rw [Run.bind_ok _ hq]
      dsimp only
      by_cases hb : (b &&& 0x80#8) ≠ 0#8
      · rw [if_pos hb]
        obtain ⟨g1, g2, g3⟩ := readVaruLoopW_spec bs q (shift + 7) (result ||| (b &&& 0x7f#8).setWidth 32 <<< shift) (by omega)
        refine ⟨fun v p e => ?_, fun e => ?_, ?_⟩
        · obtain ⟨k1, k2, k3, k4⟩ := g1 v p e
          refine ⟨by omega, k2, ?_, by omega⟩
          show 1 + _ = _; omega
        · have := g2 e
          show 1 + _ ≤ _; omega
        · show 0 + _ = _; omega
      · rw [if_neg hb]
        refine ⟨fun v p e => ?_, fun e => absurd rfl (e _), rfl⟩
        injection e with e
        injection e with _ e
        refine ⟨by omega, by omega, ?_, by omega⟩
        show 1 + 0 = _; omega
    · obtain ⟨h1, h2, h3⟩ := Run.bind_no (fun x : Byte × Nat =>
        let result := result ||| ((x.1 &&& 0x7f#8).setWidth 32 <<< shift)
        if (x.1 &&& 0x80#8) ≠ 0#8 then readVaruLoopW bs x.2 (shift + 7) result else Run.free (.ok (result, x.2))) hq
      refine ⟨fun v p e => absurd e (h3 _), fun _ => ?_, h2⟩
      refine Nat.le_trans (Nat.le_of_eq h1) ?_
      show 1 ≤ _; omega
termination_by 32 - shift

theorem readVaru32W_within {bs : List Byte} {pos A : Nat} (hp : pos ≤ bs.length) : Within bs.length A pos (readVaru32W bs pos) := by
  obtain ⟨h1, h2, h3⟩ := readVaruLoopW_spec bs pos 0 0#32 hp
  refine ⟨fun a p e => ?_, fun e => ⟨?_, ?_⟩⟩
  · obtain ⟨g1, g2, g3, g4⟩ := h1 a p e
    refine ⟨by omega, g2, ?_, ?_⟩
    · show (readVaruLoopW bs pos 0 0#32).reads ≤ _; omega
    · show (readVaruLoopW bs pos 0 0#32).looks ≤ _; omega
  · have := h2 e
    show (readVaruLoopW bs pos 0 0#32).reads ≤ _; omega
  · show (readVaruLoopW bs pos 0 0#32).looks ≤ _; omega

theorem Within.ite {α : Type} {n A pos : Nat} (c : Prop) [Decidable c] {x y : Run (α × Nat)} (hx : Within n A pos x) (hy : Within n A pos y) :
    Within n A pos (if c then x else y) := by
  split
  · exact hx
  · exact hy

theorem Within.ret {α : Type} {n A pos : Nat} (hp : pos ≤ n) (a : α) : Within n A pos (Run.free (.ok (a, pos))) :=
  .free hp _ (fun a p e => by injection e with e; injection e with _ e; exact e.symm)

theorem Within.fail {α : Type} {n A pos : Nat} (hp : pos ≤ n) (m : String) : Within n A pos (Run.free (.throw m) : Run (α × Nat)) :=
  .free hp _ (fun _ _ e => nomatch e)

theorem readValTypesW_within {bs : List Byte} {A : Nat} : ∀ (n pos : Nat), pos ≤ bs.length → Within bs.length A pos (readValTypesW bs n pos)
  | 0, pos, hp => .ret hp _
  | n + 1, pos, hp => .bind (readByteW_within hp) (fun t p _ _ hp => .bind (readValTypesW_within n p hp) (fun ts p _ _ hp => .ret hp _))

theorem readFuncTypeW_within {bs : List Byte} {A pos : Nat} (hp : pos ≤ bs.length) : Within bs.length A pos (readFuncTypeW bs pos) :=
  .bind (readByteW_within hp) (fun _ _ _ _ hp => .ite _ (.fail hp _)
    (.bind (readVaru32W_within hp) (fun _ _ _ _ hp => .bind (readValTypesW_within _ _ hp) (fun _ _ _ _ hp =>
      .bind (readVaru32W_within hp) (fun _ _ _ _ hp => .bind (readValTypesW_within _ _ hp) (fun _ _ _ _ hp => .ret hp _))))))

theorem readFuncTypesW_within {bs : List Byte} {A : Nat} : ∀ (n pos : Nat), pos ≤ bs.length → Within bs.length A pos (readFuncTypesW bs n pos)
  | 0, pos, hp => .ret hp _
  | n + 1, pos, hp => .bind (readFuncTypeW_within hp) (fun t p _ _ hp => .bind (readFuncTypesW_within n p hp) (fun ts p _ _ hp => .ret hp _))

theorem decodeTypeSectionW_within {bs : List Byte} {A pos : Nat} (m : Module) (size : U32) (hp : pos ≤ bs.length) :
    Within bs.length A pos (decodeTypeSectionW bs m pos size) :=
  .bind (readVaru32W_within hp) (fun _ _ _ _ hp => .bind (readFuncTypesW_within _ _ hp) (fun _ _ _ _ hp =>
    .ite _ (.fail hp _) (.ret hp _)))

theorem readFuncDeclsW_within {bs : List Byte} {A : Nat} : ∀ (n pos : Nat), pos ≤ bs.length → Within bs.length A pos (readFuncDeclsW bs n pos)
  | 0, pos, hp => .ret hp _
  | n + 1, pos, hp => .bind (readVaru32W_within hp) (fun t p _ _ hp => .bind (readFuncDeclsW_within n p hp) (fun ts p _ _ hp => .ret hp _))

theorem decodeFuncSectionW_within {bs : List Byte} {A pos : Nat} (m : Module) (size : U32) (hp : pos ≤ bs.length) :
    Within bs.length A pos (decodeFuncSectionW bs m pos size) :=
  .bind (readVaru32W_within hp) (fun _ _ _ _ hp => .bind (readFuncDeclsW_within _ _ hp) (fun _ _ _ _ hp =>
    .ite _ (.fail hp _) (.ret hp _)))

/-- The number of entries of a function type. -/
def _root_.Ab.FuncType.entries (t : FuncType) : Nat := t.args.length + t.rets.length

theorem typeFor_mem {m : Module} {i ti : Nat} {t : FuncType} (h : m.typeFor i = .ok (ti, t)) : t ∈ m.types := by
  unfold Module.typeFor at h
  split at h
  · cases h
  · split at h
    · cases h
    · rename_i e
      injection h with h
      injection h with _ h
      rw [← h]
      exact List.mem_of_getElem? e

/-- What is left of an entry of the code section: at most `R` reads if it succeeds, at most `F` if it fails. -/
structure Rest (m : Module) (n start R F : Nat) (x : Run (Func × Nat)) : Prop where
  ok : ∀ f p, x.out = .ok (f, p) → start ≤ p ∧ p ≤ n ∧ x.reads ≤ R ∧ x.looks = f.type.entries ∧ f.type ∈ m.types
  no : (∀ a, x.out ≠ .ok a) → x.reads ≤ F ∧ x.looks = 0

theorem Rest.bind {α : Type} {m : Module} {n start R F : Nat} {x : Run α} {f : α → Run (Func × Nat)} (hl : x.looks = 0)
    (hf : ∀ a, x.out = .ok a → ∃ R' F', Rest m n start R' F' (f a) ∧ x.reads + R' ≤ R ∧ x.reads + F' ≤ F)
    (hn : (∀ a, x.out ≠ .ok a) → x.reads ≤ F) : Rest m n start R F (x >>= f) := by
  rcases Run.cases x with ⟨a, ha⟩ | ha
  · obtain ⟨R', F', h1, h2, h3⟩ := hf a ha
    rw [Run.bind_ok _ ha]
    refine ⟨fun g p e => ?_, fun e => ?_⟩
    · obtain ⟨k1, k2, k3, k4, k5⟩ := h1.ok g p e
      refine ⟨k1, k2, ?_, ?_, k5⟩
      · show x.reads + _ ≤ _; omega
      · show x.looks + _ = _; omega
    · obtain ⟨k1, k2⟩ := h1.no e
      refine ⟨?_, ?_⟩
      · show x.reads + _ ≤ _; omega
      · show x.looks + _ = _; omega
  · obtain ⟨h1, h2, h3⟩ := Run.bind_no f ha
    exact ⟨fun g p e => absurd e (h3 _), fun _ => ⟨by rw [h1]; exact hn ha, by rw [h2]; exact hl⟩⟩

/-- An entry of the code section may move back to where its register count starts, but never further. -/
theorem decodeCodeEntryW_rest {bs : List Byte} {pos : Nat} (m : Module) (i : Nat) (hp : pos ≤ bs.length) :
    Rest m bs.length (pos + 1) (6 * (bs.length - pos)) (bs.length - pos + 1) (decodeCodeEntryW bs m i pos) ∧
    ∀ f p, (decodeCodeEntryW bs m i pos).out = .ok (f, p) → (decodeCodeEntryW bs m i pos).reads ≤ 6 * (p - pos) := by
  obtain ⟨h1, h2, h3⟩ := readVaruLoopW_spec bs pos 0 0#32 hp
  unfold decodeCodeEntryW
  rcases Run.cases (readVaru32W bs pos) with ⟨⟨size, start⟩, hs⟩ | hs
  · obtain ⟨g1, g2, g3, g4⟩ := h1 size start hs
    obtain ⟨k1, k2, k3⟩ := readVaruLoopW_spec bs start 0 0#32 g2
    have tail : Rest m bs.length start 5 (bs.length - start + 1) (do
        let (nregs, pos) ← readVaru32W bs start
        let body := pos
        let pos ← .free (reposition bs (start + size.toNat))
        let (ti, t) ← .free (m.typeFor i)
        let f ← makeFuncW ti m.types.length t body nregs
        .free (.ok (f, pos))) := by
      refine Rest.bind k3 (fun ⟨nregs, body⟩ hb => ?_) k2
      obtain ⟨q1, q2, q3, q4⟩ := k1 nregs body hb
      have q3' : (readVaru32W bs start).reads = body - start := q3
      refine ⟨0, 0, ?_, by omega, by omega⟩
      dsimp only
      refine Rest.bind rfl (fun p hr => ⟨0, 0, ?_, by exact Nat.le_refl 0, by exact Nat.le_refl 0⟩) (fun _ => Nat.le_refl 0)
      have hr2 : p = start + size.toNat ∧ p ≤ bs.length := by
        have hr : reposition bs (start + size.toNat) = .ok p := hr
        unfold reposition at hr
        split at hr
        · injection hr with hr; omega
        · cases hr
      refine Rest.bind rfl (fun ⟨ti, t⟩ ht => ⟨0, 0, ?_, by exact Nat.le_refl 0, by exact Nat.le_refl 0⟩) (fun _ => Nat.le_refl 0)
      have hm := typeFor_mem ht
      refine ⟨fun f q e => ?_, fun e => absurd rfl (e _)⟩
      injection e with e
      injection e with e1 e2
      subst e2
      subst e1
      exact ⟨by omega, hr2.2, Nat.le_refl 0, rfl, hm⟩
    rw [Run.bind_ok _ hs]
    dsimp only
    have g3' : (readVaru32W bs pos).reads = start - pos := g3
    have h3' : (readVaru32W bs pos).looks = 0 := h3
    refine ⟨⟨fun f p e => ?_, fun e => ?_⟩, fun f p e => ?_⟩
    · obtain ⟨t1, t2, t3, t4, t5⟩ := tail.ok f p e
      refine ⟨by omega, t2, ?_, ?_, t5⟩
      · rw [g3']; refine Nat.le_trans (Nat.add_le_add_left t3 _) ?_; omega
      · rw [h3', Nat.zero_add]; exact t4
    · obtain ⟨t1, t2⟩ := tail.no e
      refine ⟨?_, ?_⟩
      · rw [g3']; refine Nat.le_trans (Nat.add_le_add_left t1 _) ?_; omega
      · rw [h3', Nat.zero_add]; exact t2
    · obtain ⟨t1, t2, t3, t4, t5⟩ := tail.ok f p e
      rw [g3']; refine Nat.le_trans (Nat.add_le_add_left t3 _) ?_; omega
  · refine ⟨Rest.bind h3 (fun a ha => absurd ha (hs a)) h2, fun f p e => ?_⟩
    exact absurd e ((Run.bind_no _ hs).2.2 _)

/-- What the entries of types looked at for a list of functions add up to. -/
def entriesOf (fs : List Func) : Nat := (fs.map fun f => f.type.entries).sum

theorem decodeCodeEntryW_within {bs : List Byte} {A pos : Nat} (m : Module) (i : Nat) (hA : ∀ t ∈ m.types, t.entries ≤ A)
    (hp : pos ≤ bs.length) : Within bs.length A pos (decodeCodeEntryW bs m i pos) := by
  obtain ⟨h1, h2⟩ := decodeCodeEntryW_rest m i hp
  refine ⟨fun f p e => ?_, fun e => ?_⟩
  · obtain ⟨k1, k2, k3, k4, k5⟩ := h1.ok f p e
    refine ⟨by omega, k2, h2 f p e, ?_⟩
    rw [k4]
    have := hA _ k5
    have : A * 1 ≤ A * (p - pos) := Nat.mul_le_mul_left A (by omega)
    omega
  · obtain ⟨k1, k2⟩ := h1.no e
    exact ⟨by omega, by rw [k2]; exact Nat.zero_le _⟩

theorem decodeCodeEntriesW_within {bs : List Byte} {A : Nat} (m : Module) (hA : ∀ t ∈ m.types, t.entries ≤ A) : ∀ (n i pos : Nat),
    pos ≤ bs.length → Within bs.length A pos (decodeCodeEntriesW bs m n i pos)
  | 0, _, pos, hp => .ret hp _
  | n + 1, i, pos, hp => .bind (decodeCodeEntryW_within m i hA hp) (fun f p _ _ hp =>
      .bind (decodeCodeEntriesW_within m hA n (i + 1) p hp) (fun fs p _ _ hp => .ret hp _))

/-- Exactly the entries of the types of the functions are looked at, and each function took a byte. -/
theorem decodeCodeEntriesW_exact {bs : List Byte} (m : Module) : ∀ (n i pos : Nat), pos ≤ bs.length → ∀ fs p,
    (decodeCodeEntriesW bs m n i pos).out = .ok (fs, p) → (decodeCodeEntriesW bs m n i pos).looks = entriesOf fs ∧
      fs.length ≤ p - pos ∧ pos ≤ p ∧ p ≤ bs.length
  | 0, _, pos, hp, fs, p, e => by
    injection e with e
    injection e with e1 e2
    subst e1; subst e2
    exact ⟨rfl, by simp, Nat.le_refl _, hp⟩
  | n + 1, i, pos, hp, fs, p, e => by
    rw [decodeCodeEntriesW] at e ⊢
    obtain ⟨h1, _⟩ := decodeCodeEntryW_rest m i hp
    rcases Run.cases (decodeCodeEntryW bs m i pos) with ⟨⟨f, q⟩, hf⟩ | hf
    · obtain ⟨k1, k2, k3, k4, k5⟩ := h1.ok f q hf
      rw [Run.bind_ok _ hf] at e ⊢
      dsimp only at e ⊢
      rcases Run.cases (decodeCodeEntriesW bs m n (i + 1) q) with ⟨⟨gs, r⟩, hg⟩ | hg
      · obtain ⟨j1, j2, j3, j4⟩ := decodeCodeEntriesW_exact m n (i + 1) q k2 gs r hg
        rw [Run.bind_ok _ hg] at e ⊢
        injection e with e
        injection e with e1 e2
        subst e1; subst e2
        refine ⟨?_, ?_, by omega, j4⟩
        · show _ + (_ + 0) = _
          rw [k4, j1]
          simp [entriesOf]
        · show gs.length + 1 ≤ r - pos; omega
      · exact absurd e ((Run.bind_no _ hg).2.2 _)
    · exact absurd e ((Run.bind_no _ hf).2.2 _)

theorem decodeCodeSectionW_within {bs : List Byte} {A pos : Nat} (m : Module) (size : U32) (hA : ∀ t ∈ m.types, t.entries ≤ A)
    (hp : pos ≤ bs.length) : Within bs.length A pos (decodeCodeSectionW bs m pos size) :=
  .bind (readVaru32W_within hp) (fun _ _ _ _ hp => .ite _ (.fail hp _)
    (.bind (decodeCodeEntriesW_within m hA _ _ _ hp) (fun _ _ _ _ hp => .ret hp _)))

theorem decodeSectionW_within {bs : List Byte} {A pos : Nat} (m : Module) (hA : ∀ t ∈ m.types, t.entries ≤ A) (hp : pos ≤ bs.length) :
    Within bs.length A pos (decodeSectionW bs m pos) :=
  .bind (.bind (readByteW_within hp) (fun _ _ _ _ hp => .ite _ (.fail hp _) (.ret hp _))) (fun _ _ _ _ hp =>
    .bind (readVaru32W_within hp) (fun _ _ _ _ hp => .ite _ (decodeTypeSectionW_within m _ hp)
      (.ite _ (decodeFuncSectionW_within m _ hp) (.ite _ (decodeCodeSectionW_within m _ hA hp)
        (.free hp _ (fun _ _ e => nomatch e))))))

/-! ### The sizes of types -/

theorem readValTypes_len {bs : List Byte} : ∀ (n pos : Nat) (ts : List Byte) (p : Nat), readValTypes bs n pos = .ok (ts, p) →
    p = pos + ts.length
  | 0, pos, ts, p, e => by
    injection e with e; injection e with e1 e2; subst e1; subst e2; rfl
  | n + 1, pos, ts, p, e => by
    rw [readValTypes] at e
    obtain ⟨⟨t, q⟩, h1, e⟩ := Outcome.bind_eq_ok.1 e
    obtain ⟨⟨us, r⟩, h2, e⟩ := Outcome.bind_eq_ok.1 e
    injection e with e; injection e with e1 e2
    have := (readByte_pos h1).1
    have := readValTypes_len n q us r h2
    rw [← e1, ← e2, List.length_cons]; omega

theorem readFuncType_len {bs : List Byte} {pos p : Nat} {t : FuncType} (e : readFuncType bs pos = .ok (t, p)) :
    pos + t.entries ≤ p ∧ p ≤ bs.length := by
  have hs := readFuncType_safe bs pos
  rw [e] at hs
  refine ⟨?_, hs.2⟩
  unfold readFuncType at e
  obtain ⟨⟨vt, q⟩, h1, e⟩ := Outcome.bind_eq_ok.1 e
  dsimp only at e
  split at e
  · cases e
  · obtain ⟨⟨n1, q1⟩, h2, e⟩ := Outcome.bind_eq_ok.1 e
    obtain ⟨⟨as, q2⟩, h3, e⟩ := Outcome.bind_eq_ok.1 e
    obtain ⟨⟨n2, q3⟩, h4, e⟩ := Outcome.bind_eq_ok.1 e
    obtain ⟨⟨rs, q4⟩, h5, e⟩ := Outcome.bind_eq_ok.1 e
    injection e with e; injection e with e1 e2
    dsimp only at e1 e2 h3 h5
    have l1 := (readByte_pos h1).1
    have l2 := readVaru32_safe bs q
    rw [h2] at l2
    have l3 := readValTypes_len _ _ _ _ h3
    have l4 := readVaru32_safe bs q2
    rw [h4] at l4
    have l5 := readValTypes_len _ _ _ _ h5
    have l2 := l2.1
    have l4 := l4.1
    rw [← e1, ← e2]
    show pos + (as.length + rs.length) ≤ q4
    omega

theorem readFuncTypes_len {bs : List Byte} : ∀ (n pos : Nat) (ts : List FuncType) (p : Nat), readFuncTypes bs n pos = .ok (ts, p) →
    ∀ t ∈ ts, t.entries ≤ bs.length
  | 0, pos, ts, p, e => by
    injection e with e; injection e with e1 e2; subst e1; intro t ht; cases ht
  | n + 1, pos, ts, p, e => by
    rw [readFuncTypes] at e
    obtain ⟨⟨t, q⟩, h1, e⟩ := Outcome.bind_eq_ok.1 e
    obtain ⟨⟨us, r⟩, h2, e⟩ := Outcome.bind_eq_ok.1 e
    injection e with e; injection e with e1 e2
    rw [← e1]
    intro u hu
    rcases List.mem_cons.1 hu with rfl | hu
    · have := readFuncType_len h1; omega
    · exact readFuncTypes_len n q us r h2 u hu

/-- What a section does to the module. -/
theorem decodeSectionW_module {bs : List Byte} {pos p : Nat} {m m' : Module} (hp : pos ≤ bs.length)
    (e : (decodeSectionW bs m pos).out = .ok (m', p)) : pos < p ∧ p ≤ bs.length ∧
    (∃ ts, m'.types = m.types ++ ts ∧ ∀ t ∈ ts, t.entries ≤ bs.length) ∧
    ∃ fs, m'.funcs = m.funcs ++ fs ∧ (decodeSectionW bs m pos).looks = entriesOf fs ∧ fs.length ≤ p - pos := by
  have hs := decodeSection_safe bs m pos
  rw [← decodeSectionW_out, e] at hs
  refine ⟨hs.1, hs.2, ?_⟩
  have hlt : pos < p := hs.1
  clear hs
  unfold decodeSectionW at e ⊢
  rcases Run.cases (readSectionCodeW bs pos) with ⟨⟨code, q⟩, hc⟩ | hc
  · have hc0 := readSectionCode_safe bs pos
    rw [← readSectionCodeW_out, hc] at hc0
    have hcl : (readSectionCodeW bs pos).looks = 0 := by
      have : Within bs.length 0 pos (readSectionCodeW bs pos) :=
        .bind (readByteW_within hp) (fun _ _ _ _ hp => .ite _ (.fail hp _) (.ret hp _))
      have := (this.ok _ _ hc).2.2.2
      omega
    rw [Run.bind_ok _ hc] at e ⊢
    dsimp only at e ⊢
    obtain ⟨v1, v2, v3⟩ := readVaruLoopW_spec bs q 0 0#32 hc0.2
    rcases Run.cases (readVaru32W bs q) with ⟨⟨size, r⟩, hz⟩ | hz
    · obtain ⟨w1, w2, _, _⟩ := v1 size r hz
      have hc1 : pos ≤ q := hc0.1
      have v3' : (readVaru32W bs q).looks = 0 := v3
      rw [Run.bind_ok _ hz] at e ⊢
      dsimp only at e ⊢
      rw [hcl, v3', Nat.zero_add, Nat.zero_add]
      by_cases h1 : code = SEC_TYPE
      · rw [if_pos h1] at e ⊢
        have hl := ((decodeTypeSectionW_within (A := 0) m size w2).ok _ _ e).2.2.2
        rw [Nat.zero_mul] at hl
        rw [decodeTypeSectionW_out] at e
        unfold decodeTypeSection at e
        obtain ⟨⟨n, s⟩, _, e⟩ := Outcome.bind_eq_ok.1 e
        obtain ⟨⟨ts, u⟩, ht, e⟩ := Outcome.bind_eq_ok.1 e
        dsimp only at e
        split at e
        · cases e
        · injection e with e; injection e with e1 e2
          subst e1
          refine ⟨⟨ts, rfl, readFuncTypes_len _ _ _ _ ht⟩, [], by simp, ?_, Nat.zero_le _⟩
          show _ = 0
          omega
      · rw [if_neg h1] at e ⊢
        by_cases h2 : code = SEC_FUNC
        · rw [if_pos h2] at e ⊢
          have hl := ((decodeFuncSectionW_within (A := 0) m size w2).ok _ _ e).2.2.2
          rw [Nat.zero_mul] at hl
          rw [decodeFuncSectionW_out] at e
          unfold decodeFuncSection at e
          obtain ⟨⟨n, s⟩, _, e⟩ := Outcome.bind_eq_ok.1 e
          obtain ⟨⟨ts, u⟩, ht, e⟩ := Outcome.bind_eq_ok.1 e
          dsimp only at e
          split at e
          · cases e
          · injection e with e; injection e with e1 e2
            subst e1
            refine ⟨⟨[], by simp, fun t ht => nomatch ht⟩, [], by simp, ?_, Nat.zero_le _⟩
            show _ = 0
            omega
        · rw [if_neg h2] at e ⊢
          by_cases h3 : code = SEC_CODE
          · rw [if_pos h3] at e ⊢
            unfold decodeCodeSectionW at e ⊢
            obtain ⟨x1, x2, x3⟩ := readVaruLoopW_spec bs r 0 0#32 w2
            rcases Run.cases (readVaru32W bs r) with ⟨⟨n, s⟩, hn⟩ | hn
            · obtain ⟨y1, y2, _, _⟩ := x1 n s hn
              have x3' : (readVaru32W bs r).looks = 0 := x3
              rw [Run.bind_ok _ hn] at e ⊢
              dsimp only at e ⊢
              rw [x3', Nat.zero_add]
              by_cases h4 : n.toNat ≠ m.funcTypes.length
              · rw [if_pos h4] at e; cases e
              · rw [if_neg h4] at e ⊢
                rcases Run.cases (decodeCodeEntriesW bs m n.toNat 0 s) with ⟨⟨fs, u⟩, hf⟩ | hf
                · obtain ⟨z1, z2, z3, z4⟩ := decodeCodeEntriesW_exact m _ _ _ y2 fs u hf
                  rw [Run.bind_ok _ hf] at e ⊢
                  injection e with e; injection e with e1 e2
                  dsimp only at e2
                  subst e1
                  refine ⟨⟨[], by simp, fun t ht => nomatch ht⟩, fs, rfl, ?_, by omega⟩
                  show _ + 0 = _
                  rw [z1]; rfl
                · exact absurd e ((Run.bind_no _ hf).2.2 _)
            · exact absurd e ((Run.bind_no _ hn).2.2 _)
          · rw [if_neg h3] at e; cases e
    · exact absurd e ((Run.bind_no _ hz).2.2 _)
  · exact absurd e ((Run.bind_no _ hc).2.2 _)

theorem compileLoopW_bound {bs : List Byte} : ∀ (fuel : Nat) (m : Module) (pos : Nat), pos ≤ bs.length →
    (∀ t ∈ m.types, t.entries ≤ bs.length) → (compileLoopW bs fuel m pos).reads ≤ 6 * (bs.length - pos) + 1 ∧
      (compileLoopW bs fuel m pos).looks ≤ bs.length * (bs.length - pos)
  | 0, _, _, _, _ => ⟨Nat.zero_le _, Nat.zero_le _⟩
  | fuel + 1, m, pos, hp, hA => by
    rw [compileLoopW]
    by_cases h : pos = bs.length
    · rw [if_pos h]; exact ⟨Nat.zero_le _, Nat.zero_le _⟩
    · rw [if_neg h]
      have hw := decodeSectionW_within (A := bs.length) m hA hp
      rcases Run.cases (decodeSectionW bs m pos) with ⟨⟨m', p⟩, hs⟩ | hs
      · obtain ⟨h1, h2, ⟨ts, h3, h4⟩, _⟩ := decodeSectionW_module hp hs
        obtain ⟨g1, g2⟩ := compileLoopW_bound fuel m' p h2 (fun t ht => by
          rw [h3] at ht
          rcases List.mem_append.1 ht with ht | ht
          · exact hA t ht
          · exact h4 t ht)
        obtain ⟨_, _, k1, k2⟩ := hw.ok _ _ hs
        rw [Run.bind_ok _ hs]
        dsimp only
        refine ⟨by omega, ?_⟩
        have : bs.length * (bs.length - pos) = bs.length * (p - pos) + bs.length * (bs.length - p) := by
          rw [← Nat.mul_add]; congr 1; omega
        omega
      · obtain ⟨k1, k2⟩ := hw.no hs
        obtain ⟨j1, j2, _⟩ := Run.bind_no (fun x : Module × Nat => compileLoopW bs fuel x.1 x.2) hs
        exact ⟨Nat.le_trans (Nat.le_of_eq j1) k1, Nat.le_trans (Nat.le_of_eq j2) k2⟩

theorem compileLoopW_exact {bs : List Byte} : ∀ (fuel : Nat) (m : Module) (pos : Nat) (lm : Module), pos ≤ bs.length →
    (compileLoopW bs fuel m pos).out = .ok lm →
    ∃ fs, lm.funcs = m.funcs ++ fs ∧ (compileLoopW bs fuel m pos).looks = entriesOf fs ∧ fs.length ≤ bs.length - pos
  | 0, _, _, _, _, e => by cases e
  | fuel + 1, m, pos, lm, hp, e => by
    rw [compileLoopW] at e ⊢
    by_cases h : pos = bs.length
    · rw [if_pos h] at e ⊢
      injection e with e
      exact ⟨[], by rw [e]; simp, rfl, Nat.zero_le _⟩
    · rw [if_neg h] at e ⊢
      rcases Run.cases (decodeSectionW bs m pos) with ⟨⟨m', p⟩, hs⟩ | hs
      · obtain ⟨h1, h2, _, fs, h3, h4, h5⟩ := decodeSectionW_module hp hs
        rw [Run.bind_ok _ hs] at e ⊢
        dsimp only at e ⊢
        obtain ⟨gs, g1, g2, g3⟩ := compileLoopW_exact fuel m' p lm h2 e
        refine ⟨fs ++ gs, by rw [g1, h3, List.append_assoc], ?_, by rw [List.length_append]; omega⟩
        rw [h4, g2]
        simp [entriesOf]
      · exact absurd e ((Run.bind_no _ hs).2.2 _)

/-! ### C121 -/

/-- The work done on a file: bytes read and type entries looked at. -/
def work (bs : List Byte) : Nat := (compileW bs).reads + (compileW bs).looks

/-- C121 as stated: at most a hundred operations for each byte. -/
def C121_full : Prop := ∀ bs : List Byte, work bs ≤ 100 * (bs.length + 1)

theorem readHeaderW_reads (bs : List Byte) : (readHeaderW bs).reads ≤ 8 ∧ (readHeaderW bs).looks = 0 := by
  unfold readHeaderW
  rcases Run.cases (readU32W bs 0) with ⟨⟨a, p⟩, h⟩ | h
  · rw [Run.bind_ok _ h]
    dsimp only
    by_cases h1 : a ≠ MODULE_MAGIC
    · rw [if_pos h1]; exact ⟨by show 4 + 0 ≤ 8; omega, rfl⟩
    · rw [if_neg h1]
      rcases Run.cases (readU32W bs p) with ⟨⟨b, q⟩, g⟩ | g
      · rw [Run.bind_ok _ g]
        dsimp only
        by_cases h2 : b ≠ MODULE_VERSION
        · rw [if_pos h2]; exact ⟨by show 4 + (4 + 0) ≤ 8; omega, rfl⟩
        · rw [if_neg h2]; exact ⟨by show 4 + (4 + 0) ≤ 8; omega, rfl⟩
      · obtain ⟨j1, j2, _⟩ := Run.bind_no (fun x : U32 × Nat =>
          if x.1 ≠ MODULE_VERSION then (Run.free (.throw "Unhandled version") : Run Nat) else .free (.ok x.2)) g
        refine ⟨?_, ?_⟩
        · exact Nat.add_le_add_left (Nat.le_of_eq j1) 4
        · exact (Nat.zero_add _).trans j2
  · obtain ⟨j1, j2, _⟩ := Run.bind_no (fun x : U32 × Nat =>
        if x.1 ≠ MODULE_MAGIC then (Run.free (.throw "Invalid header") : Run Nat) else do
          let (version, pos) ← readU32W bs x.2
          if version ≠ MODULE_VERSION then .free (.throw "Unhandled version") else .free (.ok pos)) h
    exact ⟨Nat.le_trans (Nat.le_of_eq j1) (by show 4 ≤ 8; omega), j2⟩

theorem readHeaderW_ok {bs : List Byte} {p : Nat} (h : (readHeaderW bs).out = .ok p) : p = 8 ∧ 8 ≤ bs.length := by
  have e : (readHeaderW bs).out = readHeader bs := by
    unfold readHeaderW readHeader
    simp only [Run.bind_out, Run.ite_out]; rfl
  rw [e] at h
  rcases readHeader_cases bs with ⟨h1, h2⟩ | ⟨m, h1⟩
  · rw [h1] at h; injection h with h; exact ⟨h.symm, h2⟩
  · rw [h1] at h; cases h

theorem compileW_bound (bs : List Byte) : (compileW bs).reads ≤ 6 * bs.length + 8 ∧ (compileW bs).looks ≤ bs.length * bs.length := by
  unfold compileW
  obtain ⟨r1, r2⟩ := readHeaderW_reads bs
  rcases Run.cases (readHeaderW bs) with ⟨p, h⟩ | h
  · obtain ⟨rfl, h8⟩ := readHeaderW_ok h
    obtain ⟨g1, g2⟩ := compileLoopW_bound (bs.length + 1) Module.empty 8 h8 (fun t ht => nomatch ht)
    rw [Run.bind_ok _ h]
    refine ⟨?_, ?_⟩
    · show (readHeaderW bs).reads + _ ≤ _; omega
    · show (readHeaderW bs).looks + _ ≤ _
      have : bs.length * (bs.length - 8) ≤ bs.length * bs.length := Nat.mul_le_mul_left _ (by omega)
      omega
  · obtain ⟨j1, j2, _⟩ := Run.bind_no (fun p => compileLoopW bs (bs.length + 1) Module.empty p) h
    exact ⟨Nat.le_trans (Nat.le_of_eq j1) (by omega), Nat.le_trans (Nat.le_of_eq (j2.trans r2)) (Nat.zero_le _)⟩

/-- C121, for what is read: whatever the bytes and whatever becomes of them, at most six reads for each byte. Missing: the type
entries looked at. -/
theorem C121_reads_partial (bs : List Byte) : (compileW bs).reads ≤ 6 * bs.length + 8 := (compileW_bound bs).1

/-- C121: whatever the bytes, the work is at most quadratic in their number. Missing: linear. -/
theorem C121_quadratic_partial (bs : List Byte) : work bs ≤ bs.length * bs.length + 6 * bs.length + 8 := by
  obtain ⟨h1, h2⟩ := compileW_bound bs
  unfold work
  omega

/-- Of a file that loads, exactly the entries of each function's type are looked at, once per function. -/
theorem C121_looks_exact (bs : List Byte) (lm : Module) (h : compile bs = .ok lm) :
    (compileW bs).looks = (lm.funcs.map fun f => f.type.args.length + f.type.rets.length).sum ∧ lm.funcs.length ≤ bs.length := by
  rw [← C121_same_outcome] at h
  unfold compileW at h ⊢
  rcases Run.cases (readHeaderW bs) with ⟨p, hp⟩ | hp
  · obtain ⟨rfl, h8⟩ := readHeaderW_ok hp
    rw [Run.bind_ok _ hp] at h ⊢
    obtain ⟨fs, g1, g2, g3⟩ := compileLoopW_exact (bs.length + 1) Module.empty 8 lm h8 h
    have g1 : lm.funcs = fs := g1
    rw [g1]
    refine ⟨?_, by omega⟩
    show (readHeaderW bs).looks + _ = _
    rw [(readHeaderW_reads bs).2, Nat.zero_add]
    exact g2
  · exact absurd h ((Run.bind_no _ hp).2.2 _)

theorem sum_le {α : Type} (f : α → Nat) (A : Nat) : ∀ (l : List α), (∀ x ∈ l, f x ≤ A) → (l.map f).sum ≤ A * l.length
  | [], _ => by simp
  | x :: l, h => by
    have := sum_le f A l (fun y hy => h y (List.mem_cons_of_mem _ hy))
    have := h x List.mem_cons_self
    rw [List.map_cons, List.sum_cons, List.length_cons, Nat.mul_succ]; omega

/-- C121, for files that load and whose functions have types of at most `A` parameters and results: at most `A + 6` operations
for each byte. Missing: large types shared by many functions. -/
theorem C121_small_types_partial (bs : List Byte) (lm : Module) (h : compile bs = .ok lm) (A : Nat)
    (hA : ∀ f ∈ lm.funcs, f.type.args.length + f.type.rets.length ≤ A) : work bs ≤ (A + 6) * bs.length + 8 := by
  obtain ⟨h1, h2⟩ := C121_looks_exact bs lm h
  have h3 := (compileW_bound bs).1
  have h4 := sum_le (fun f : Func => f.type.args.length + f.type.rets.length) A lm.funcs hA
  have h5 : A * lm.funcs.length ≤ A * bs.length := Nat.mul_le_mul_left _ h2
  unfold work
  rw [Nat.add_mul]
  omega

example : ∃ lm, compile (writeModule exampleModule) = .ok lm ∧ lm.funcs ≠ [] ∧
    ∀ f ∈ lm.funcs, f.type.args.length + f.type.rets.length ≤ 3 := by
  obtain ⟨lm, h1, h2⟩ := C06_write_compile_roundtrip exampleModule ⟨rfl, by simp [exampleModule]⟩ (by decide +kernel)
  have hb : (match compile (writeModule exampleModule) with
      | .ok lm => !lm.funcs.isEmpty && lm.funcs.all fun f => f.type.args.length + f.type.rets.length ≤ 3
      | _ => false) = true := by decide +kernel
  rw [h1] at hb
  simp only [Bool.and_eq_true, List.all_eq_true, decide_eq_true_eq, Bool.not_eq_true', List.isEmpty_eq_false_iff] at hb
  exact ⟨lm, h1, hb⟩

/-- A module with one type of `k` parameters and `k` functions of that type, all without code. -/
def bigModule (k : Nat) : WModule := ⟨[⟨List.replicate k I32, []⟩], List.replicate k 0#32, List.replicate k ⟨0#32, []⟩⟩

theorem varSize_length (n : Nat) : (varSize n).length ≤ 5 := (appendVaruint32_length _).2

theorem appendSection_length (c : Byte) (content : List Byte) : (appendSection c content).length ≤ 6 + content.length := by
  unfold appendSection
  have := varSize_length content.length
  simp only [List.length_append, List.length_singleton]; omega

theorem flatten_replicate_length {α : Type} (l : List α) : ∀ k, ((List.replicate k l).flatten).length = k * l.length
  | 0 => by simp
  | k + 1 => by
    rw [List.replicate_succ, List.flatten_cons, List.length_append, flatten_replicate_length l k, Nat.succ_mul]; omega

theorem bigModule_sections (k : Nat) : (appendTypeSection (bigModule k).types).length ≤ k + 30 ∧
    (appendFuncSection (bigModule k).funcs).length ≤ k + 30 ∧ (appendCodeSection (bigModule k).codes).length ≤ 2 * k + 30 := by
  refine ⟨?_, ?_, ?_⟩
  · show (appendSection SEC_TYPE (varSize 1 ++ ([appendType ⟨List.replicate k I32, []⟩]).flatten)).length ≤ _
    refine Nat.le_trans (appendSection_length _ _) ?_
    have := varSize_length 1
    have := varSize_length k
    have := varSize_length 0
    simp only [List.length_append, List.flatten_cons, List.flatten_nil, List.length_nil, appendType, List.length_singleton,
      List.length_replicate]
    omega
  · unfold appendFuncSection
    split
    · simp
    · refine Nat.le_trans (appendSection_length _ _) ?_
      have := varSize_length (bigModule k).funcs.length
      rw [List.length_append]
      have e : ((bigModule k).funcs.map appendVaruint32).flatten.length = k := by
        show ((List.replicate k 0#32).map appendVaruint32).flatten.length = k
        rw [List.map_replicate, flatten_replicate_length]
        rw [show (appendVaruint32 0#32).length = 1 from by decide +kernel, Nat.mul_one]
      omega
  · unfold appendCodeSection
    split
    · simp
    · refine Nat.le_trans (appendSection_length _ _) ?_
      have := varSize_length (bigModule k).codes.length
      rw [List.length_append]
      have e : ((bigModule k).codes.map appendCode).flatten.length = k * 2 := by
        show ((List.replicate k (⟨0#32, []⟩ : CodeEntry)).map appendCode).flatten.length = k * 2
        rw [List.map_replicate, flatten_replicate_length,
          show (appendCode ⟨0#32, []⟩).length = 2 from by decide +kernel]
      omega

/-- C121 fails: for every `k` below 2^30 there is a file of at most `4 k + 98` bytes that loads, with `k * k` type entries
looked at. -/
theorem C121_quadratic_negation (k : Nat) (hk : k < 2 ^ 30) : ∃ bs lm, bs.length ≤ 4 * k + 98 ∧ compile bs = .ok lm ∧
    lm.funcs.length = k ∧ k * k ≤ work bs := by
  obtain ⟨s1, s2, s3⟩ := bigModule_sections k
  have hwf : WellFormed (bigModule k) := ⟨by simp [bigModule], fun ti ht => by
    rw [List.eq_of_mem_replicate ht]; show 0 < 1; omega⟩
  obtain ⟨lm, h1, h2⟩ := C06_write_compile_roundtrip (bigModule k) hwf ⟨by omega, by omega, by omega⟩
  have hc : lm.funcs.length = k := by rw [h2.count]; simp [bigModule]
  refine ⟨_, lm, ?_, h1, hc, ?_⟩
  · unfold writeModule
    simp only [List.length_append]
    have : (leU32 MODULE_MAGIC).length = 4 ∧ (leU32 MODULE_VERSION).length = 4 := ⟨rfl, rfl⟩
    omega
  · have hl := (C121_looks_exact _ _ h1).1
    have ht : ∀ f ∈ lm.funcs, f.type.args.length + f.type.rets.length = k := by
      intro f hf
      obtain ⟨i, hi, e⟩ := List.getElem_of_mem hf
      have := h2.each i ⟨0#32, []⟩ f 0#32 ⟨List.replicate k I32, []⟩ (List.getElem?_replicate_of_lt (by omega))
        (by rw [List.getElem?_eq_getElem hi, e]) (List.getElem?_replicate_of_lt (by omega)) rfl
      rw [this.1]; simp
    have hm : (lm.funcs.map fun f => f.type.args.length + f.type.rets.length) = List.replicate k k := by
      rw [List.eq_replicate_iff]
      refine ⟨by rw [List.length_map, hc], fun x hx => ?_⟩
      obtain ⟨f, hf, rfl⟩ := List.mem_map.1 hx
      exact ht f hf
    rw [hm, List.sum_replicate_nat] at hl
    unfold work
    omega

/-- C121 as stated fails, and so it would with up to a million operations for each byte. -/
theorem C121_negation : ¬ C121_full ∧ ∀ c, c ≤ 1000000 → ∃ bs lm, compile bs = .ok lm ∧ c * (bs.length + 1) < work bs := by
  have key : ∀ c, c ≤ 1000000 → ∃ bs lm, compile bs = .ok lm ∧ c * (bs.length + 1) < work bs := by
    intro c hc
    obtain ⟨bs, lm, h1, h2, _, h3⟩ := C121_quadratic_negation (5 * c + 100) (by omega)
    refine ⟨bs, lm, h2, Nat.lt_of_lt_of_le ?_ h3⟩
    have h4 : c * (bs.length + 1) ≤ c * (20 * c + 499) := Nat.mul_le_mul_left c (by omega)
    have h5 : (5 * c + 100) * (5 * c + 100) = 25 * (c * c) + 1000 * c + 10000 := by
      rw [Nat.mul_add, Nat.add_mul, Nat.mul_mul_mul_comm]; omega
    have h6 : c * (20 * c + 499) = 20 * (c * c) + 499 * c := by
      rw [Nat.mul_add, Nat.mul_left_comm, Nat.mul_comm c 499]
    omega
  refine ⟨fun h => ?_, key⟩
  obtain ⟨bs, lm, _, h2⟩ := key 100 (by decide)
  have := h bs
  omega

end Ab
