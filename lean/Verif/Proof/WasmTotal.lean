import Verif.Proof.Wasm2
import Verif.Model.Disasm
/-! Reading always ends, and never goes back. -/
namespace Ab.Wasm

/-- `j` is a stream `i` can have become. -/
def Later (i j : In) : Prop :=
  j.offset + j.rest.length ≤ i.offset + i.rest.length ∧ j.rest.length ≤ i.rest.length ∧ i.offset ≤ j.offset ∧
    (i.fail = true → j.fail = true)

theorem Later.refl (i : In) : Later i i := ⟨Nat.le_refl _, Nat.le_refl _, Nat.le_refl _, id⟩
theorem Later.trans {i j k : In} (h : Later i j) (g : Later j k) : Later i k :=
  ⟨Nat.le_trans g.1 h.1, Nat.le_trans g.2.1 h.2.1, Nat.le_trans h.2.2.1 g.2.2.1, fun e => g.2.2.2 (h.2.2.2 e)⟩

/-- The outcome is reached, and the stream is a later one. -/
def Fine (i : In) (o : Outcome (α × In)) : Prop := o ≠ .fuel ∧ ∀ a j, o = .ok (a, j) → Later i j

theorem Fine.ok {i : In} {a : α} {j : In} (h : Later i j) : Fine i (.ok (a, j)) := by
  refine ⟨nofun, ?_⟩
  rintro _ _ e
  injection e with e
  injection e with e1 e2
  subst e2
  exact h

theorem Fine.pure {i : In} {a : α} {j : In} (h : Later i j) : Fine i (Pure.pure (a, j) : Outcome (α × In)) := Fine.ok h

theorem Fine.throw {i : In} {m : String} : Fine i (.throw m : Outcome (α × In)) := ⟨nofun, nofun⟩
theorem Fine.trap {i : In} {m : String} : Fine i (.trap m : Outcome (α × In)) := ⟨nofun, nofun⟩
theorem Fine.ub {i : In} {m : String} : Fine i (.ub m : Outcome (α × In)) := ⟨nofun, nofun⟩

theorem Fine.later {i j : In} {o : Outcome (α × In)} (h : Later i j) (g : Fine j o) : Fine i o :=
  ⟨g.1, fun a k e => h.trans (g.2 a k e)⟩

theorem Fine.bind {i : In} {o : Outcome (α × In)} {f : α × In → Outcome (β × In)} (h : Fine i o)
    (g : ∀ a j, Later i j → Fine j (f (a, j))) : Fine i (o >>= f) := by
  cases o with
  | ok x =>
    obtain ⟨a, j⟩ := x
    have := h.2 a j rfl
    exact Fine.later this (g a j this)
  | fuel => exact absurd rfl h.1
  | _ => exact ⟨nofun, nofun⟩

theorem Fine.bind' {i : In} {o : Outcome σ} {f : σ → Outcome (β × In)} (h : o ≠ .fuel)
    (g : ∀ a, Fine i (f a)) : Fine i (o >>= f) := by
  cases o with
  | ok x => exact g x
  | fuel => exact absurd rfl h
  | _ => exact ⟨nofun, nofun⟩

theorem Fine.ite {i : In} {c : Prop} [Decidable c] {a b : Outcome (α × In)} (h : Fine i a) (g : Fine i b) :
    Fine i (if c then a else b) := by
  split
  · exact h
  · exact g

theorem get_later (i : In) : Later i i.get.1 := by
  unfold In.get
  split
  · exact ⟨Nat.le_refl _, Nat.le_refl _, Nat.le_refl _, fun _ => rfl⟩
  · split
    · exact ⟨Nat.le_refl _, Nat.le_refl _, Nat.le_refl _, fun _ => rfl⟩
    · rename_i b bs h
      refine ⟨?_, ?_, by simp, id⟩ <;> simp [h] <;> omega

theorem read_later (i : In) (n : Nat) : Later i (i.read n).1 := by
  unfold In.read
  split
  · exact ⟨Nat.le_refl _, Nat.le_refl _, Nat.le_refl _, fun _ => rfl⟩
  · split
    · rename_i h
      refine ⟨?_, ?_, by simp, id⟩ <;> simp <;> omega
    · exact ⟨by simp, by simp, Nat.le_refl _, fun _ => rfl⟩

theorem seek_later (i : In) (n : Nat) : Later i (i.seek n) := by
  unfold In.seek
  split
  · exact ⟨Nat.le_refl _, Nat.le_refl _, Nat.le_refl _, id⟩
  · refine ⟨?_, ?_, by simp, id⟩ <;> simp

theorem lebLoop_fine (fuel : Nat) (i : In) (r : U64) (sh : Nat) (hs : sh < 64) (h : 71 ≤ sh + 7 * fuel) :
    lebLoop fuel i r sh ≠ .fuel ∧ ∀ j x, lebLoop fuel i r sh = .ok (j, x) → Later i j := by
  induction fuel generalizing i r sh with
  | zero => omega
  | succ fuel ih =>
    rw [lebLoop]
    split
    · exact ⟨nofun, nofun⟩
    · simp only
      split
      · rename_i hc
        obtain ⟨h1, h2⟩ := ih i.get.1 (r ||| ((i.get.2 &&& 0x7f#8).zeroExtend 64 <<< sh)) (sh + 7) hc.2.1 (by omega)
        exact ⟨h1, fun j x e => (get_later i).trans (h2 j x e)⟩
      · refine ⟨nofun, ?_⟩
        intro j x e
        injection e with e
        injection e with e1 e2
        subst e1
        exact get_later i

theorem uleb_fine (i : In) : Fine i (uleb i) := by
  unfold uleb
  obtain ⟨h1, h2⟩ := lebLoop_fine 11 i 0#64 0 (by decide) (by decide)
  cases h : lebLoop 11 i 0#64 0 with
  | ok x => exact Fine.pure (h2 x.1 x.2 h)
  | fuel => exact absurd h h1
  | _ => exact ⟨nofun, nofun⟩

theorem sleb_fine (i : In) : Fine i (sleb i) := by
  unfold sleb
  obtain ⟨h1, h2⟩ := lebLoop_fine 11 i 0#64 0 (by decide) (by decide)
  cases h : lebLoop 11 i 0#64 0 with
  | ok x =>
    have := h2 x.1 x.2 h
    simp only [Outcome.ok_bind]
    exact Fine.ite (Fine.ite (Fine.pure this) Fine.ub) (Fine.pure this)
  | fuel => exact absurd h h1
  | _ => exact ⟨nofun, nofun⟩

theorem readNumber_fine (n : Nat) (i : In) : Fine i (readNumber n i) := by
  unfold readNumber
  exact Fine.ite Fine.throw (Fine.ok (read_later i n))

theorem uint_fine (n : Nat) (i : In) : Fine i (uint n i) := by
  unfold uint
  exact Fine.ite Fine.throw (Fine.ok (read_later i n))

theorem uint8_fine (i : In) : Fine i (uint8 i) := by
  unfold uint8
  exact (uint_fine 1 i).bind fun _ j _ => Fine.pure (Later.refl j)

theorem times_fine {f : In → Outcome (α × In)} (hf : ∀ i, Fine i (f i)) (n : Nat) (i : In) : Fine i (times f n i) := by
  induction n generalizing i with
  | zero => exact Fine.ok (Later.refl i)
  | succ n ih =>
    rw [times]
    exact (hf i).bind fun _ j _ => (ih j).bind fun _ k _ => Fine.pure (Later.refl k)

theorem readImm_fine (mem : Nat) (k : ImmKind) (i : In) : Fine i (readImm mem k i) := by
  cases k with
  | none => exact Fine.ok (Later.refl i)
  | typeCode => exact Fine.ok (get_later i)
  | index => exact (uleb_fine i).bind fun _ j _ => Fine.pure (Later.refl j)
  | signature => exact (uleb_fine i).bind fun _ j _ => (uleb_fine j).bind fun _ k _ => Fine.pure (Later.refl k)
  | int => exact (sleb_fine i).bind fun _ j _ => Fine.pure (Later.refl j)
  | u32 => exact (readNumber_fine 4 i).bind fun _ j _ => Fine.pure (Later.refl j)
  | u64 => exact (readNumber_fine 8 i).bind fun _ j _ => Fine.pure (Later.refl j)
  | table =>
    exact (uleb_fine i).bind fun _ j _ => Fine.ite Fine.throw
      ((times_fine uleb_fine _ j).bind fun _ k _ => (uleb_fine k).bind fun _ l _ => Fine.pure (Later.refl l))
  | memory => exact (uleb_fine i).bind fun _ j _ => (uleb_fine j).bind fun _ k _ => Fine.pure (Later.refl k)

theorem readExpr_fine (mem : Nat) (i : In) : Fine i (readExpr mem i) := by
  unfold readExpr
  simp only
  split
  · exact Fine.trap
  · exact Fine.later (get_later i) ((readImm_fine mem _ _).bind fun _ j _ => Fine.pure (Later.refl j))

/-- Reading an expression consumes its opcode. -/
theorem readExpr_consumes (mem : Nat) (i : In) (e : Expr) (j : In) (h : readExpr mem i = .ok (e, j)) :
    j.rest.length + 1 ≤ i.rest.length := by
  unfold readExpr at h
  simp only at h
  have hff : opName 0xff#8 = none := by decide +kernel
  split at h
  · cases h
  · rename_i n hn
    have hl : i.get.1.rest.length + 1 ≤ i.rest.length := by
      unfold In.get at hn ⊢
      split at hn
      · rw [hff] at hn; cases hn
      · rename_i hb
        split at hn
        · rw [hff] at hn; cases hn
        · rename_i b bs hr
          rw [if_neg hb]
          simp only [hr]
          simp
    have := (readImm_fine mem (immKind i.get.2.toNat) i.get.1)
    cases hi : readImm mem (immKind i.get.2.toNat) i.get.1 with
    | ok x =>
      rw [hi] at h this
      have hl2 := (this.2 x.1 x.2 rfl).2.1
      simp only [Outcome.ok_bind, Outcome.pure_eq] at h
      injection h with h
      injection h with h1 h2
      subst h2
      omega
    | _ => rw [hi] at h; cases h

theorem readExprs_fine (mem : Nat) {f : σ → Expr → Outcome σ} (hf : ∀ s e, f s e ≠ .fuel) (start size fuel : Nat)
    (s : σ) (i : In) (h : i.rest.length + 1 ≤ fuel) : Fine i (readExprs mem f start size fuel s i) := by
  induction fuel generalizing s i with
  | zero => omega
  | succ fuel ih =>
    rw [readExprs]
    have h1 := readExpr_fine mem i
    cases he : readExpr mem i with
    | ok x =>
      obtain ⟨e, j⟩ := x
      rw [he] at h1
      have hl := readExpr_consumes mem i e j he
      simp only [Outcome.ok_bind]
      exact Fine.later (h1.2 e j rfl) (Fine.bind' (hf s e) fun s => Fine.ite (ih s j (by omega)) (Fine.pure (Later.refl j)))
    | fuel => exact absurd he h1.1
    | _ => exact ⟨nofun, nofun⟩

/-- When it succeeds, at least `size` bytes were consumed. -/
theorem readExprs_size (mem : Nat) {f : σ → Expr → Outcome σ} (start size fuel : Nat) (s : σ) (i : In) (t : σ) (j : In)
    (h : readExprs mem f start size fuel s i = .ok (t, j)) : size ≤ j.offset - start := by
  induction fuel generalizing s i with
  | zero => cases h
  | succ fuel ih =>
    rw [readExprs] at h
    cases he : readExpr mem i with
    | ok x =>
      rw [he] at h
      simp only [Outcome.ok_bind] at h
      cases hs : f s x.1 with
      | ok s' =>
        rw [hs] at h
        simp only [Outcome.ok_bind] at h
        split at h
        · exact ih _ _ h
        · injection h with h
          injection h with h1 h2
          subst h2
          omega
      | _ => rw [hs] at h; cases h
    | _ => rw [he] at h; cases h

/-! ### The reader -/

theorem rounds_fine {f : Nat → σ → In → Outcome (σ × In)} (hf : ∀ k s i, Fine i (f k s i)) (n k : Nat) (s : σ) (i : In) :
    Fine i (rounds f n k s i) := by
  induction n generalizing k s i with
  | zero => exact Fine.ok (Later.refl i)
  | succ n ih =>
    rw [rounds]
    exact (hf k s i).bind fun s j _ => ih _ s j

theorem string_fine (mem : Nat) (i : In) : Fine i (string mem i) := by
  unfold string
  exact (uleb_fine i).bind fun n j _ => Fine.ite Fine.ub (Fine.ite Fine.throw (Fine.pure (read_later j n.toNat)))

theorem limits_fine (i : In) : Fine i (limits i) := by
  unfold limits
  exact (uleb_fine i).bind fun _ j _ => (uleb_fine j).bind fun _ k _ =>
    Fine.ite ((uleb_fine k).bind fun _ l _ => Fine.pure (Later.refl l)) (Fine.pure (Later.refl k))

theorem globalType_fine (i : In) : Fine i (globalType i) := by
  unfold globalType
  exact (uint8_fine i).bind fun _ j _ => (uleb_fine j).bind fun _ k _ => Fine.pure (Later.refl k)

theorem functionType_fine (mem : Nat) (i : In) : Fine i (functionType mem i) := by
  unfold functionType
  exact (uint8_fine i).bind fun _ j _ => Fine.ite Fine.throw <| (uleb_fine j).bind fun _ k _ => Fine.ite Fine.throw <|
    (times_fine uint8_fine _ k).bind fun _ l _ => (uleb_fine l).bind fun _ m _ =>
      Fine.ite ((uint8_fine m).bind fun _ n _ => Fine.pure (Later.refl n)) (Fine.pure (Later.refl m))

theorem importType_fine (kind : Byte) (i : In) : Fine i (importType kind i) := by
  unfold importType
  refine Fine.ite ((uleb_fine i).bind fun _ j _ => Fine.pure (Later.refl j)) <|
    Fine.ite ((uint8_fine i).bind fun _ j _ => (limits_fine j).bind fun _ k _ => Fine.pure (Later.refl k)) <|
    Fine.ite ((limits_fine i).bind fun _ j _ => Fine.pure (Later.refl j)) <|
    Fine.ite ((globalType_fine i).bind fun _ j _ => Fine.pure (Later.refl j)) Fine.throw

theorem importEntry_fine (mem : Nat) (i : In) : Fine i (importEntry mem i) := by
  unfold importEntry
  exact (string_fine mem i).bind fun _ j _ => (string_fine mem j).bind fun _ k _ => (uint8_fine k).bind fun t l _ =>
    (importType_fine t l).bind fun _ m _ => Fine.pure (Later.refl m)

theorem initExpr_fine (mem : Nat) (i : In) : Fine i (initExpr mem i) := by
  unfold initExpr
  exact (readExpr_fine mem i).bind fun _ j _ => Fine.ite ((readExpr_fine mem j).bind fun _ k _ => Fine.pure (Later.refl k)) Fine.throw

theorem exportEntry_fine (mem : Nat) (i : In) : Fine i (exportEntry mem i) := by
  unfold exportEntry
  exact (string_fine mem i).bind fun _ j _ => (uint8_fine j).bind fun _ k _ => (uleb_fine k).bind fun _ l _ => Fine.pure (Later.refl l)

theorem localEntry_fine (i : In) : Fine i (localEntry i) := by
  unfold localEntry
  exact (uleb_fine i).bind fun _ j _ => (uint8_fine j).bind fun _ k _ => Fine.pure (Later.refl k)

/-- A stream that has failed and is not at its end gives section number 255. -/
theorem uleb_failed (r : List Byte) (o : Nat) : uleb ⟨r, false, true, o⟩ = .ok (BitVec.allOnes 64, ⟨r, false, true, o⟩) := by
  unfold uleb
  simp [lebLoop, In.get]

/-- When a good stream's number ends before the end, a byte was consumed. -/
theorem uleb_consumes (i : In) (he : i.eof = false) (hf : i.fail = false) (n : U64) (j : In)
    (h : uleb i = .ok (n, j)) (hj : j.eof = false) : j.rest.length + 1 ≤ i.rest.length := by
  have mono : ∀ fuel i r sh x j, lebLoop fuel i r sh = .ok (j, x) → i.eof = true → j.eof = true := by
    intro fuel
    induction fuel with
    | zero => intro i r sh x j h; cases h
    | succ fuel ih =>
      intro i r sh x j h e
      rw [lebLoop] at h
      have he : i.get.1.eof = true := by
        unfold In.get
        rw [if_pos (by simp [e])]
        exact e
      split at h
      · cases h
      · simp only at h
        split at h
        · exact ih _ _ _ _ _ h he
        · injection h with h
          injection h with h1 h2
          subst h1
          exact he
  have hfine := fun i r sh h1 h2 => (lebLoop_fine 10 i r sh h1 h2).2
  obtain ⟨rest, eof, fail, off⟩ := i
  subst he hf
  unfold uleb at h
  cases hl : lebLoop 11 ⟨rest, false, false, off⟩ 0#64 0 with
  | ok x =>
    rw [hl] at h
    simp only [Outcome.ok_bind, Outcome.pure_eq] at h
    injection h with h
    injection h with h1 h2
    subst h2
    cases rest with
    | nil =>
      rw [lebLoop] at hl
      simp only [In.get, Bool.or_self, Bool.false_eq_true, if_false] at hl
      rw [if_neg (by decide), if_neg (by simp)] at hl
      injection hl with hl
      subst hl
      cases hj
    | cons b bs =>
      rw [lebLoop] at hl
      simp only [In.get, Bool.or_self, Bool.false_eq_true, if_false] at hl
      rw [if_neg (by decide)] at hl
      split at hl
      · have := (hfine _ _ _ (by decide) (by decide) x.1 x.2 hl).2.1
        simp only [List.length_cons] at this ⊢
        omega
      · injection hl with hl
        subst hl
        simp
  | _ => rw [hl] at h; cases h

/-- A visitor whose callbacks return, and that reads function bodies forwards. -/
structure Returns (V : Visitor σ) : Prop where
  event : ∀ s e, V.event s e ≠ .fuel
  body  : ∀ s k b i, Fine i (V.body s k b i)

variable {V : Visitor σ} (hV : Returns V)
include hV

theorem emit_fine (s : σ) (e : Event) (i : In) : Fine i (V.event s e >>= fun s => Pure.pure (s, i)) :=
  Fine.bind' (hV.event s e) fun _ => Fine.pure (Later.refl i)

theorem sectionBody_fine (sec : Section) (s : σ) (i : In) : Fine i (sectionBody V sec s i) := by
  unfold sectionBody
  refine Fine.ite ?_ <| Fine.ite ?_ <| Fine.ite (Fine.ok (seek_later i _)) <| Fine.ite ?_ <|
    Fine.ite (Fine.ok (Later.refl i)) <| Fine.ite (Fine.ok (Later.refl i)) <| Fine.ite ?_ <| Fine.ite ?_ <|
    Fine.ite (Fine.ok (Later.refl i)) <| Fine.ite ?_ <| Fine.ite ?_ <| Fine.ite ?_ Fine.throw
  · exact (uleb_fine i).bind fun _ j _ => Fine.bind' (hV.event _ _) fun s => rounds_fine (fun _ s i =>
      (functionType_fine _ i).bind fun _ j _ => emit_fine hV _ _ j) _ _ s j
  · exact (uleb_fine i).bind fun _ j _ => Fine.bind' (hV.event _ _) fun s => rounds_fine (fun _ s i =>
      (importEntry_fine _ i).bind fun _ j _ => emit_fine hV _ _ j) _ _ s j
  · exact (uleb_fine i).bind fun _ j _ => rounds_fine (fun _ s i => (uleb_fine i).bind fun _ j _ => emit_fine hV _ _ j) _ _ s j
  · exact (uleb_fine i).bind fun _ j _ => rounds_fine (fun _ s i => (globalType_fine i).bind fun _ j _ =>
      (initExpr_fine _ j).bind fun _ k _ => emit_fine hV _ _ k) _ _ s j
  · exact (uleb_fine i).bind fun _ j _ => rounds_fine (fun _ s i => (exportEntry_fine _ i).bind fun _ j _ => emit_fine hV _ _ j) _ _ s j
  · exact (uleb_fine i).bind fun _ j _ => rounds_fine (fun _ s i => (uleb_fine i).bind fun _ j _ =>
      (initExpr_fine _ j).bind fun _ k _ => (uleb_fine k).bind fun _ l _ => Fine.bind' (hV.event _ _) fun s =>
        (rounds_fine (fun _ s i => (uleb_fine i).bind fun _ j _ => emit_fine hV _ _ j) _ _ s l).bind fun _ m _ =>
          emit_fine hV _ _ m) _ _ s j
  · exact (uleb_fine i).bind fun _ j _ => rounds_fine (fun _ s i => (uleb_fine i).bind fun _ j _ =>
      (uleb_fine j).bind fun _ k _ => Fine.ite Fine.throw <| (times_fine localEntry_fine _ k).bind fun _ l _ =>
        (hV.body _ _ _ l).bind fun _ m _ => emit_fine hV _ _ m) _ _ s j
  · exact (uleb_fine i).bind fun _ j _ => rounds_fine (fun _ s i => (uleb_fine i).bind fun _ j _ =>
      (initExpr_fine _ j).bind fun _ k _ => (uleb_fine k).bind fun _ l _ => Fine.ite Fine.throw <|
        Fine.bind' (hV.event _ _) fun _ => Fine.pure (read_later l _)) _ _ s j

theorem section_fine (code : Byte) (s : σ) (i : In) : Fine i («section» V code s i) := by
  unfold «section»
  refine (uleb_fine i).bind fun _ j _ => Fine.bind (i := j) ?_ fun _ k _ => Fine.bind' (hV.event _ _) fun s =>
    (sectionBody_fine hV _ s k).bind fun _ l _ => emit_fine hV _ _ l
  unfold sectionName
  exact Fine.ite (string_fine _ j) (Fine.ok (Later.refl j))

theorem sections_fine (fuel : Nat) (s : σ) (i : In) (h : i.rest.length + 1 ≤ fuel) : Fine i (sections V fuel s i) := by
  induction fuel generalizing s i with
  | zero => omega
  | succ fuel ih =>
    rw [sections]
    cases he : i.eof with
    | true =>
      rw [if_pos rfl]
      exact Fine.ok (Later.refl i)
    | false =>
      rw [if_neg (by simp)]
      cases hf : i.fail with
      | true =>
        obtain ⟨r, e, f, o⟩ := i
        subst he hf
        rw [uleb_failed]
        simp only [Outcome.ok_bind, Bool.false_eq_true, if_false]
        rw [show (BitVec.allOnes 64).setWidth 8 = 0xff#8 from rfl]
        unfold «section»
        rw [uleb_failed]
        simp only [Outcome.ok_bind]
        unfold sectionName
        rw [if_neg (by decide)]
        simp only [Outcome.ok_bind]
        have hb : ∀ sec : Section, sec.code = 0xff#8 → ∀ s i, sectionBody V sec s i = .throw "Bad section" := by
          intro sec hc s i
          unfold sectionBody
          rw [hc]
          rfl
        have hne := hV.event s (.sectionStart ⟨0xff#8, (BitVec.allOnes 64).setWidth 32, []⟩)
        cases hs : V.event s (.sectionStart ⟨0xff#8, (BitVec.allOnes 64).setWidth 32, []⟩) with
        | ok s =>
          simp only [Outcome.ok_bind]
          rw [hb _ rfl]
          exact ⟨nofun, nofun⟩
        | fuel => exact absurd hs hne
        | _ => exact ⟨nofun, nofun⟩
      | false =>
        have hu := uleb_fine i
        cases hul : uleb i with
        | ok x =>
          obtain ⟨c, j⟩ := x
          rw [hul] at hu
          simp only [Outcome.ok_bind]
          refine Fine.later (hu.2 c j rfl) ?_
          cases hj : j.eof with
          | true =>
            rw [if_pos rfl]
            exact Fine.pure (Later.refl j)
          | false =>
            rw [if_neg (by simp)]
            have hc := uleb_consumes i he hf c j hul hj
            exact (section_fine hV _ s j).bind fun s k hk => ih s k (by have := hk.2.1; omega)
        | fuel => exact absurd hul hu.1
        | _ => exact ⟨nofun, nofun⟩

theorem header_fine (s : σ) (i : In) : Fine i (header V s i) := by
  unfold header
  exact (uint_fine 4 i).bind fun _ j _ => Fine.ite Fine.throw <| (uint_fine 4 j).bind fun _ k _ => Fine.ite Fine.throw <|
    emit_fine hV _ _ k

theorem readModule_fine (s : σ) (bytes : List Byte) : Fine (In.start bytes) (readModule V s bytes) := by
  unfold readModule
  exact Fine.bind' (hV.event _ _) fun s => (header_fine hV s _).bind fun s j hj =>
    (sections_fine hV _ s j (by have := hj.2.1; simp only [In.start] at this; omega)).bind fun s k _ => emit_fine hV _ _ k

omit hV

theorem printExpr_returns (b : Body) (e : Expr) : printExpr b e ≠ .fuel := by
  unfold printExpr
  split
  · exact nofun
  · split
    · split
      · split <;> exact nofun
      · exact nofun
    · split
      · split <;> exact nofun
      · split <;> exact nofun

/-- The disassembler is such a visitor. -/
theorem printer_returns (mem : Nat) (verbose : Bool) : Returns (wastPrinter mem verbose) := by
  refine ⟨?_, ?_⟩
  · intro s e
    cases e <;> exact nofun
  · intro p k b i
    show Fine i (Printer.body mem p k b i)
    unfold Printer.body
    simp only
    split
    · exact Fine.ub
    · exact (readExprs_fine mem printExpr_returns _ _ _ _ i (Nat.le_refl _)).bind fun _ j _ => Fine.pure (Later.refl j)

end Ab.Wasm
