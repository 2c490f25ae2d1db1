import Verif.Proof.Wasm
/-! Reading modules. -/
namespace Ab.Wasm
open Spec Spec.Wasm

theorem encVec_pos {P : List Byte → α → Prop} {bs : List Byte} {l : List α} (h : EncVec P bs l) : 1 ≤ bs.length := by
  obtain ⟨c, cs, rfl, -, hc, -⟩ := h
  have := encU32_pos hc
  rw [List.length_append]; omega

theorem takeWhile_noNul {s : List Byte} (h : NoNul s) : s.takeWhile (· ≠ 0#8) = s := by
  induction s with
  | nil => rfl
  | cons b s ih =>
    rw [List.takeWhile_cons, if_pos (by simpa using h b (by simp)), ih (fun c hc => h c (by simp [hc]))]

theorem reads_string (mem : Nat) {bs s : List Byte} (h : EncName bs s) (hn : NoNul s) (hmem : bs.length ≤ mem) :
    Reads (string mem) bs s := by
  intro suf off
  obtain ⟨c, cs, rfl, hlt, hc, hs⟩ := h
  have := encSeq_byte hs
  subst this
  have hp := encU32_pos hc
  rw [List.length_append] at hmem
  unfold string
  rw [List.append_assoc, reads_count hlt hc]
  simp only [Outcome.ok_bind]
  rw [count_toNat hlt, if_neg (by omega), if_neg (by omega), read_good _ _ _ _ rfl]
  simp only [Outcome.pure_eq, takeWhile_noNul hn, List.length_append, Nat.add_assoc]

theorem reads_digit (b : Byte) (h : b.toNat < 128) : Reads uleb [b] (BitVec.ofNat 64 b.toNat) := by
  have := reads_uleb [b] (by simp only [IsLeb, Continues]; omega) (by simp)
  simp only [lebValue] at this
  rwa [Nat.mul_zero, Nat.add_zero, Nat.mod_eq_of_lt h] at this

theorem reads_limits {bs : List Byte} {l : Limits} (h : EncLimits bs l) : Reads limits bs l := by
  intro suf off
  unfold limits
  cases h with
  | @min bs n hn =>
    rw [show (0#8 :: bs) ++ suf = [0#8] ++ (bs ++ suf) from rfl, reads_digit 0#8 (by decide)]
    simp only [Outcome.ok_bind]
    rw [reads_u32 hn]
    simp only [Outcome.ok_bind]
    rw [if_neg (by decide)]
    simp only [Outcome.pure_eq, set32_64, List.length_cons, List.length_nil, Outcome.ok.injEq, Prod.mk.injEq, In.mk.injEq,
      true_and]
    omega
  | @minMax bs n cs m hn hm =>
    rw [show (1#8 :: (bs ++ cs)) ++ suf = [1#8] ++ (bs ++ (cs ++ suf)) from by simp, reads_digit 1#8 (by decide)]
    simp only [Outcome.ok_bind]
    rw [reads_u32 hn]
    simp only [Outcome.ok_bind]
    rw [if_pos (by decide), reads_u32 hm]
    simp only [Outcome.ok_bind, Outcome.pure_eq, set32_64, List.length_cons, List.length_nil, List.length_append,
      Outcome.ok.injEq, Prod.mk.injEq, In.mk.injEq, true_and]
    omega

theorem reads_globalType {bs : List Byte} {g : GlobalType} (h : EncGlobalType bs g) : Reads globalType bs g := by
  intro suf off
  unfold globalType
  cases h with
  | @const t =>
    rw [show [t, 0#8] ++ suf = [t] ++ ([0#8] ++ suf) from rfl, reads_byte]
    simp only [Outcome.ok_bind]
    rw [reads_digit 0#8 (by decide)]
    rfl
  | @var t =>
    rw [show [t, 1#8] ++ suf = [t] ++ ([1#8] ++ suf) from rfl, reads_byte]
    simp only [Outcome.ok_bind]
    rw [reads_digit 1#8 (by decide)]
    rfl

theorem reads_bytes {bs l : List Byte} (h : EncSeq EncByte bs l) : Reads (times uint8 l.length) bs l := by
  have := reads_times (g := id) h (f := uint8) (fun cs a _ hc => by rw [hc]; exact reads_byte a)
  simpa using this

theorem reads_functionType (mem : Nat) {bs : List Byte} {t : FunctionType} (h : EncFuncType bs t) (hmem : bs.length ≤ mem) :
    Reads (functionType mem) bs t := by
  intro suf off
  unfold functionType
  cases h with
  | @void bs ps hv =>
    obtain ⟨c, cs, rfl, hlt, hc, hs⟩ := hv
    have hl : cs.length = ps.length := by rw [encSeq_byte hs]
    rw [show (0x60#8 :: ((c ++ cs) ++ [0#8])) ++ suf = [0x60#8] ++ (c ++ (cs ++ ([0#8] ++ suf))) from by simp, reads_byte]
    simp only [Outcome.ok_bind]
    rw [if_neg (by simp), reads_count hlt hc]
    simp only [Outcome.ok_bind]
    rw [count_toNat hlt, if_neg (by simp only [List.length_cons, List.length_append] at hmem; omega), reads_bytes hs]
    simp only [Outcome.ok_bind]
    rw [reads_digit 0#8 (by decide)]
    simp only [Outcome.ok_bind]
    rw [if_neg (by decide)]
    simp only [Outcome.pure_eq, List.length_cons, List.length_nil, List.length_append, Outcome.ok.injEq, Prod.mk.injEq,
      In.mk.injEq, true_and]
    omega
  | @value bs ps r hv =>
    obtain ⟨c, cs, rfl, hlt, hc, hs⟩ := hv
    have hl : cs.length = ps.length := by rw [encSeq_byte hs]
    rw [show (0x60#8 :: ((c ++ cs) ++ [1#8, r])) ++ suf = [0x60#8] ++ (c ++ (cs ++ ([1#8] ++ ([r] ++ suf)))) from by simp,
      reads_byte]
    simp only [Outcome.ok_bind]
    rw [if_neg (by simp), reads_count hlt hc]
    simp only [Outcome.ok_bind]
    rw [count_toNat hlt, if_neg (by simp only [List.length_cons, List.length_append] at hmem; omega), reads_bytes hs]
    simp only [Outcome.ok_bind]
    rw [reads_digit 1#8 (by decide)]
    simp only [Outcome.ok_bind]
    rw [if_pos (by decide), reads_byte]
    simp only [Outcome.ok_bind, Outcome.pure_eq, List.length_cons, List.length_nil, List.length_append, Outcome.ok.injEq,
      Prod.mk.injEq, In.mk.injEq, true_and]
    omega

theorem reads_import (mem : Nat) {bs : List Byte} {e : ImportEntry} (h : EncImport bs e) (hn : NoNul e.module ∧ NoNul e.field)
    (hmem : bs.length ≤ mem) : Reads (importEntry mem) bs e := by
  intro suf off
  obtain ⟨m, f, t, rfl, hm, hf, ht⟩ := h
  simp only [List.length_append] at hmem
  obtain ⟨em, ef, et⟩ := e
  unfold importEntry
  rw [List.append_assoc, List.append_assoc, reads_string mem hm hn.1 (by omega)]
  simp only [Outcome.ok_bind]
  rw [reads_string mem hf hn.2 (by omega)]
  simp only [Outcome.ok_bind]
  cases ht with
  | @function bs n h =>
    rw [show 0#8 :: bs ++ suf = [0#8] ++ (bs ++ suf) from rfl, reads_byte]
    simp only [Outcome.ok_bind, importType]
    rw [if_pos trivial, reads_u32 h]
    simp only [Outcome.ok_bind, Outcome.pure_eq, set32_64, List.length_append, List.length_cons, List.length_nil,
      Outcome.ok.injEq, Prod.mk.injEq, In.mk.injEq, true_and]
    omega
  | @table t bs l h =>
    rw [show 1#8 :: t :: bs ++ suf = [1#8] ++ ([t] ++ (bs ++ suf)) from rfl, reads_byte]
    simp only [Outcome.ok_bind, importType]
    rw [if_neg (by decide), if_pos trivial, reads_byte]
    simp only [Outcome.ok_bind]
    rw [reads_limits h]
    simp only [Outcome.ok_bind, Outcome.pure_eq, List.length_append, List.length_cons, List.length_nil,
      Outcome.ok.injEq, Prod.mk.injEq, In.mk.injEq, true_and]
    omega
  | @memory bs l h =>
    rw [show 2#8 :: bs ++ suf = [2#8] ++ (bs ++ suf) from rfl, reads_byte]
    simp only [Outcome.ok_bind, importType]
    rw [if_neg (by decide), if_neg (by decide), if_pos trivial, reads_limits h]
    simp only [Outcome.ok_bind, Outcome.pure_eq, List.length_append, List.length_cons, List.length_nil,
      Outcome.ok.injEq, Prod.mk.injEq, In.mk.injEq, true_and]
    omega
  | @global bs g h =>
    rw [show 3#8 :: bs ++ suf = [3#8] ++ (bs ++ suf) from rfl, reads_byte]
    simp only [Outcome.ok_bind, importType]
    rw [if_neg (by decide), if_neg (by decide), if_neg (by decide), if_pos trivial, reads_globalType h]
    simp only [Outcome.ok_bind, Outcome.pure_eq, List.length_append, List.length_cons, List.length_nil,
      Outcome.ok.injEq, Prod.mk.injEq, In.mk.injEq, true_and]
    omega

theorem reads_init (mem : Nat) {bs : List Byte} {e : Expr} (h : EncInit NotLongNegative bs e) (hmem : 4 * bs.length ≤ mem) :
    Reads (initExpr mem) bs e := by
  intro suf off
  obtain ⟨cs, rfl, hi, ho⟩ := h
  rw [List.length_append] at hmem
  have hm : ¬ Missing e.op.toNat := by
    rcases ho with h | h | h | h | h <;> rw [h] <;> simp [Missing, ReservedOp]
  unfold initExpr
  rw [List.append_assoc, reads_instr mem hi hm (by omega)]
  simp only [Outcome.ok_bind]
  rw [if_pos ho, reads_instr mem (e := ⟨0x0b#8, .none⟩) (.plain (by simp [PlainOp, Opcode, BlockOp, IndexOp, MemoryOp, ReservedOp]))
    (by simp [Missing, ReservedOp]) (by simp only [List.length_cons, List.length_nil] at hmem ⊢; omega)]
  simp only [Outcome.ok_bind, Outcome.pure_eq, List.length_append, Nat.add_assoc]

theorem encInit_pos {L : List Byte → Prop} {bs : List Byte} {e : Expr} (h : EncInit L bs e) : 1 ≤ bs.length := by
  obtain ⟨cs, rfl, -, -⟩ := h
  simp

theorem reads_export (mem : Nat) {bs : List Byte} {e : ExportEntry} (h : EncExport bs e) (hn : NoNul e.field)
    (hmem : bs.length ≤ mem) : Reads (exportEntry mem) bs e := by
  intro suf off
  obtain ⟨f, n, rfl, hf, hi⟩ := h
  simp only [List.length_append] at hmem
  unfold exportEntry
  rw [List.append_assoc, List.append_assoc, reads_string mem hf hn (by omega)]
  simp only [Outcome.ok_bind]
  rw [reads_byte]
  simp only [Outcome.ok_bind]
  rw [reads_u32 hi]
  simp only [Outcome.ok_bind, Outcome.pure_eq, set32_64, List.length_append, Nat.add_assoc]

theorem reads_local {bs : List Byte} {l : LocalEntry} (h : EncLocal bs l) : Reads localEntry bs l := by
  intro suf off
  obtain ⟨n, rfl, hn⟩ := h
  unfold localEntry
  rw [List.append_assoc, reads_u32 hn]
  simp only [Outcome.ok_bind]
  rw [reads_byte]
  simp only [Outcome.ok_bind, Outcome.pure_eq, set32_64, List.length_append, Nat.add_assoc]

/-! ### Telling the visitor -/

section
variable (V : Visitor σ) (be : σ → Nat → FunctionBody → List Byte → Outcome σ)

theorem tell_append (s : σ) (a b : List Call) : tell V be s (a ++ b) = (tell V be s a >>= fun s => tell V be s b) := by
  induction a generalizing s with
  | nil => rfl
  | cons c a ih =>
    cases c with
    | event e =>
      simp only [List.cons_append, tell]
      cases V.event s e <;> simp [ih]
    | body k b' c =>
      simp only [List.cons_append, tell]
      cases be s k b' c <;> simp [ih]

/-- `f` reads `bs` and tells the visitor `calls`. -/
def Tells (f : σ → In → Outcome (σ × In)) (bs : List Byte) (calls : List Call) : Prop :=
  ∀ s suf off, f s (good (bs ++ suf) off) = (tell V be s calls >>= fun s => .ok (s, good suf (off + bs.length)))

/-- The calls of the rounds, numbered from `k`. -/
def numbered (g : Nat → α → List Call) : Nat → List α → List Call
  | _, [] => []
  | k, a :: l => g k a ++ numbered g (k + 1) l

theorem tells_rounds {f : Nat → σ → In → Outcome (σ × In)} {P : List Byte → α → Prop} {g : Nat → α → List Call}
    {bs : List Byte} {l : List α} (h : EncSeq P bs l) (k : Nat)
    (hp : ∀ k cs a, a ∈ l → cs.length ≤ bs.length → P cs a → Tells V be (f k) cs (g k a)) :
    Tells V be (rounds f l.length k) bs (numbered g k l) := by
  induction h generalizing k with
  | nil => intro s suf off; rfl
  | @cons cs a ds l hc hd ih =>
    intro s suf off
    rw [List.length_cons, rounds, List.append_assoc, hp k cs a (by simp) (by simp) hc, numbered, tell_append]
    cases tell V be s (g k a) with
    | ok s =>
      simp only [Outcome.ok_bind]
      rw [ih (k + 1) (fun k cs a ha hl => hp k cs a (by simp [ha]) (by rw [List.length_append]; omega))]
      simp only [List.length_append, Nat.add_assoc]
    | _ => rfl

theorem numbered_map (g : α → Call) (k : Nat) (l : List α) : numbered (fun _ a => [g a]) k l = l.map g := by
  induction l generalizing k with
  | nil => rfl
  | cons a l ih => simp [numbered, ih]

theorem numbered_flatMap (g : α → List Call) (k : Nat) (l : List α) : numbered (fun _ a => g a) k l = l.flatMap g := by
  induction l generalizing k with
  | nil => rfl
  | cons a l ih => simp [numbered, ih]

theorem numbered_zipIdx (g : Nat → α → List Call) (k : Nat) (l : List α) :
    numbered g k l = (l.zipIdx k).flatMap fun (a, i) => g i a := by
  induction l generalizing k with
  | nil => rfl
  | cons a l ih => simp [numbered, ih, List.zipIdx_cons]

/-- A vector read round by round. -/
theorem tells_vec {f : Nat → σ → In → Outcome (σ × In)} {P : List Byte → α → Prop} {g : Nat → α → List Call}
    {bs : List Byte} {l : List α} (h : EncVec P bs l)
    (hp : ∀ k cs a, a ∈ l → cs.length ≤ bs.length → P cs a → Tells V be (f k) cs (g k a)) :
    Tells V be (fun s i => uleb i >>= fun x => rounds f x.1.toNat 0 s x.2) bs (numbered g 0 l) := by
  intro s suf off
  obtain ⟨c, cs, rfl, hlt, hc, hs⟩ := h
  simp only
  rw [List.append_assoc, reads_count hlt hc]
  simp only [Outcome.ok_bind]
  rw [count_toNat hlt, tells_rounds V be hs 0 (fun k cs' a ha hl => hp k cs' a ha (by rw [List.length_append]; omega))]
  simp only [List.length_append, Nat.add_assoc]

/-- A read and one callback. -/
theorem tells_one {f : In → Outcome (β × In)} {g : β → Event} {bs : List Byte} {a : β} (h : Reads f bs a) :
    Tells V be (fun s i => f i >>= fun x => V.event s (g x.1) >>= fun s => .ok (s, x.2)) bs [.event (g a)] := by
  intro s suf off
  simp only
  rw [h suf off]
  simp only [Outcome.ok_bind, tell]
  cases V.event s (g a) <;> rfl

theorem tells_types {bs : List Byte} {l : List FunctionType} (h : EncVec EncFuncType bs l) (hmem : 8 * bs.length ≤ V.mem) :
    Tells V be (typeSection V) bs (contentCalls (.types l)) := by
  intro s suf off
  obtain ⟨c, cs, rfl, hlt, hc, hs⟩ := h
  rw [List.length_append] at hmem
  unfold typeSection
  rw [List.append_assoc, reads_count hlt hc]
  simp only [Outcome.ok_bind, contentCalls, tell]
  cases V.event s (.typeSection (BitVec.ofNat 64 l.length)) with
  | ok s =>
    simp only [Outcome.ok_bind]
    rw [count_toNat hlt, tells_rounds V be (f := typeRound V) (g := fun _ t => [.event (.functionType t)]) hs 0
      (fun k cs' a _ hl hp => tells_one V be (g := .functionType) (reads_functionType V.mem hp (by omega))),
      numbered_map]
    simp only [List.length_append, Nat.add_assoc]
  | _ => rfl

theorem tells_imports {bs : List Byte} {l : List ImportEntry} (h : EncVec EncImport bs l)
    (hn : ∀ e ∈ l, NoNul e.module ∧ NoNul e.field) (hmem : 8 * bs.length ≤ V.mem) :
    Tells V be (importSection V) bs (contentCalls (.imports l)) := by
  intro s suf off
  obtain ⟨c, cs, rfl, hlt, hc, hs⟩ := h
  rw [List.length_append] at hmem
  unfold importSection
  rw [List.append_assoc, reads_count hlt hc]
  simp only [Outcome.ok_bind, contentCalls, tell]
  cases V.event s (.importSection (BitVec.ofNat 64 l.length)) with
  | ok s =>
    simp only [Outcome.ok_bind]
    rw [count_toNat hlt, tells_rounds V be (f := importRound V) (g := fun _ t => [.event (.importEntry t)]) hs 0
      (fun k cs' a ha hl hp => tells_one V be (g := .importEntry) (reads_import V.mem hp (hn a ha) (by omega))),
      numbered_map]
    simp only [List.length_append, Nat.add_assoc]
  | _ => rfl

theorem tells_functionRound (k : Nat) {cs : List Byte} {a : U32} (hp : EncU32 cs a) :
    Tells V be (functionRound V k) cs [.event (.functionEntry k a)] := by
  intro s suf off
  unfold functionRound
  rw [reads_u32 hp]
  simp only [Outcome.ok_bind, set32_64, tell]
  cases V.event s (.functionEntry k a) <;> rfl

theorem tells_functions {bs : List Byte} {l : List U32} (h : EncVec EncU32 bs l) :
    Tells V be (functionSection V) bs (contentCalls (.functions l)) := by
  have := tells_vec V be (f := functionRound V) (g := fun k t => [.event (.functionEntry k t)]) h
    (fun k cs a _ _ hp => tells_functionRound V be k hp)
  rw [numbered_zipIdx] at this
  rw [contentCalls, List.map_eq_flatMap]
  exact this

theorem tells_globalRound (k : Nat) {cs : List Byte} {a : GlobalType × Expr} (hp : EncGlobal NotLongNegative cs a)
    (hmem : 8 * cs.length ≤ V.mem) : Tells V be (globalRound V k) cs [.event (.globalEntry a.1 a.2)] := by
  intro s suf off
  obtain ⟨t, e, rfl, ht, he⟩ := hp
  rw [List.length_append] at hmem
  unfold globalRound
  rw [List.append_assoc, reads_globalType ht]
  simp only [Outcome.ok_bind]
  rw [reads_init V.mem he (by omega)]
  simp only [Outcome.ok_bind, tell, List.length_append, Nat.add_assoc]
  cases V.event s (.globalEntry a.1 a.2) <;> rfl

theorem tells_globals {bs : List Byte} {l : List (GlobalType × Expr)} (h : EncVec (EncGlobal NotLongNegative) bs l)
    (hmem : 8 * bs.length ≤ V.mem) : Tells V be (globalSection V) bs (contentCalls (.globals l)) := by
  have := tells_vec V be (f := globalRound V) (g := fun _ g => [.event (.globalEntry g.1 g.2)]) h
    (fun k cs a _ hl hp => tells_globalRound V be k hp (by omega))
  rwa [numbered_map] at this

theorem tells_exports {bs : List Byte} {l : List ExportEntry} (h : EncVec EncExport bs l)
    (hn : ∀ e ∈ l, NoNul e.field) (hmem : 8 * bs.length ≤ V.mem) :
    Tells V be (exportSection V) bs (contentCalls (.exports l)) := by
  have := tells_vec V be (f := exportRound V) (g := fun _ g => [.event (.exportEntry g)]) h
    (fun k cs a ha hl hp => tells_one V be (g := .exportEntry) (reads_export V.mem hp (hn a ha) (by omega)))
  rwa [numbered_map] at this

theorem tells_element (e : ElementEntry) {cs : List Byte} {l : List U32} (hs : EncSeq EncU32 cs l) :
    Tells V be (rounds (elementItem V e) l.length 0) cs (l.map fun n => .event (.element e n)) := by
  have := tells_rounds V be (f := elementItem V e) (g := fun _ n => [.event (.element e n)]) hs 0
    (fun k cs a _ _ hp => by
      intro s suf off
      unfold elementItem
      rw [reads_u32 hp]
      simp only [Outcome.ok_bind, set32_64, tell]
      cases V.event s (.element e a) <;> rfl)
  rwa [numbered_map] at this

theorem tells_elementRound (k : Nat) {cs : List Byte} {a : Elements} (hp : EncElements NotLongNegative cs a)
    (hmem : 8 * cs.length ≤ V.mem) : Tells V be (elementRound V k) cs (elementCalls a) := by
  intro s suf off
  obtain ⟨t, o, v, rfl, ht, ho, c, cs, rfl, hlt, hc, hs⟩ := hp
  simp only [List.length_append] at hmem
  unfold elementRound
  rw [List.append_assoc, List.append_assoc, List.append_assoc, reads_u32 ht]
  simp only [Outcome.ok_bind]
  rw [reads_init V.mem ho (by omega)]
  simp only [Outcome.ok_bind]
  rw [reads_count hlt hc]
  simp only [Outcome.ok_bind, set32_64, elementCalls]
  rw [show (BitVec.ofNat 64 a.items.length).setWidth 32 = BitVec.ofNat 32 a.items.length from by
    apply BitVec.eq_of_toNat_eq
    rw [BitVec.toNat_setWidth, BitVec.toNat_ofNat, BitVec.toNat_ofNat]
    omega]
  generalize hE : (⟨a.table, a.offset, BitVec.ofNat 32 a.items.length⟩ : ElementEntry) = E
  rw [show (BitVec.ofNat 32 a.items.length).toNat = a.items.length from by rw [BitVec.toNat_ofNat]; omega,
    List.cons_append, tell]
  cases V.event s (.elementEntry E) with
  | ok s =>
    simp only [Outcome.ok_bind]
    rw [tells_element V be E hs, tell_append]
    cases tell V be s (a.items.map fun n => .event (.element E n)) with
    | ok s =>
      simp only [Outcome.ok_bind, tell, List.length_append, Nat.add_assoc]
      cases V.event s (.elementEntryEnd E) <;> rfl
    | _ => rfl
  | _ => rfl

theorem tells_elements {bs : List Byte} {l : List Elements} (h : EncVec (EncElements NotLongNegative) bs l)
    (hmem : 8 * bs.length ≤ V.mem) : Tells V be (elementSection V) bs (contentCalls (.elements l)) := by
  have := tells_vec V be (f := elementRound V) (g := fun _ e => elementCalls e) h
    (fun k cs a _ hl hp => tells_elementRound V be k hp (by omega))
  rwa [numbered_flatMap] at this

theorem tells_dataRound (k : Nat) {cs : List Byte} {a : DataSegment} (hp : EncData NotLongNegative cs a)
    (hmem : 8 * cs.length ≤ V.mem) : Tells V be (dataRound V k) cs [.event (.dataSegment a)] := by
  intro s suf off
  obtain ⟨n, e, v, rfl, hn, he, c, cs, rfl, hlt, hc, hs⟩ := hp
  have hd := encSeq_byte hs
  subst hd
  simp only [List.length_append] at hmem
  unfold dataRound
  rw [List.append_assoc, List.append_assoc, List.append_assoc, reads_u32 hn]
  simp only [Outcome.ok_bind]
  rw [reads_init V.mem he (by omega)]
  simp only [Outcome.ok_bind]
  rw [reads_count hlt hc]
  simp only [Outcome.ok_bind, set32_64]
  rw [count_toNat hlt, if_neg (by omega), read_good _ _ _ _ rfl]
  simp only [Nat.sub_self, List.replicate_zero, List.append_nil, tell, List.length_append, Nat.add_assoc]
  cases V.event s (.dataSegment a) <;> rfl

theorem tells_data {bs : List Byte} {l : List DataSegment} (h : EncVec (EncData NotLongNegative) bs l)
    (hmem : 8 * bs.length ≤ V.mem) : Tells V be (dataSection V) bs (contentCalls (.data l)) := by
  have := tells_vec V be (f := dataRound V) (g := fun _ d => [.event (.dataSegment d)]) h
    (fun k cs a _ hl hp => tells_dataRound V be k hp (by omega))
  rwa [numbered_map] at this

theorem tells_bodyRound {B : FunctionBody → List Byte → Prop} (hB : ReadsBodies V be B) (k : Nat) {cs : List Byte}
    {a : Function} (hp : EncFunction cs a) (ha : B ⟨a.size, a.locals⟩ a.code) (hmem : 8 * cs.length ≤ V.mem) :
    Tells V be (bodyRound V k) cs [.body k ⟨a.size, a.locals⟩ a.code, .event (.functionBodyEnd ⟨a.size, a.locals⟩)] := by
  intro s suf off
  obtain ⟨n, v, rfl, hn, -, c, cs, rfl, hlt, hc, hs⟩ := hp
  have hlen := encSeq_length hs (fun cs l h => by obtain ⟨n, rfl, -⟩ := h; simp)
  simp only [List.length_append] at hmem
  unfold bodyRound
  rw [List.append_assoc, List.append_assoc, List.append_assoc, reads_u32 hn]
  simp only [Outcome.ok_bind]
  rw [reads_count hlt hc]
  simp only [Outcome.ok_bind]
  rw [count_toNat hlt, if_neg (by omega), reads_times (g := id) hs (fun cs a _ h => reads_local h)]
  simp only [Outcome.ok_bind, set32_64, List.map_id]
  rw [hB _ _ _ _ _ _ ha]
  simp only [tell]
  cases be s k ⟨a.size, a.locals⟩ a.code with
  | ok s =>
    simp only [Outcome.ok_bind, List.length_append, Nat.add_assoc]
    cases V.event s (.functionBodyEnd ⟨a.size, a.locals⟩) <;> rfl
  | _ => rfl

theorem tells_code {B : FunctionBody → List Byte → Prop} (hB : ReadsBodies V be B) {bs : List Byte} {l : List Function}
    (h : EncVec EncFunction bs l) (hb : ∀ f ∈ l, B ⟨f.size, f.locals⟩ f.code) (hmem : 8 * bs.length ≤ V.mem) :
    Tells V be (codeSection V) bs (contentCalls (.code l)) := by
  have := tells_vec V be (f := bodyRound V)
    (g := fun i f => [.body i ⟨f.size, f.locals⟩ f.code, .event (.functionBodyEnd ⟨f.size, f.locals⟩)]) h
    (fun k cs a ha hl hp => tells_bodyRound V be hB k hp (hb a ha) (by omega))
  rw [numbered_zipIdx] at this
  exact this

theorem tells_section {B : FunctionBody → List Byte → Prop} (hB : ReadsBodies V be B) {bs : List Byte} {sec : WSection}
    (h : EncAnySize NotLongNegative bs sec) (hr : Readable B sec.content) (hmem : 8 * bs.length ≤ V.mem) :
    ∃ cs, bs = sec.content.code' :: cs ∧ Tells V be («section» V sec.content.code') cs (sectionCalls sec) := by
  obtain ⟨n, p, rfl, hn, hc⟩ := h
  refine ⟨_, rfl, ?_⟩
  intro s suf off
  simp only [List.length_cons, List.length_append] at hmem
  have key : Tells V be (sectionBody V ⟨sec.content.code', sec.length, []⟩) p (contentCalls sec.content) ∧
      sec.content.code' ≠ 0#8 ∧ sectionCalls sec =
        .event (.sectionStart ⟨sec.content.code', sec.length, []⟩) :: contentCalls sec.content ++
        [.event (.sectionEnd ⟨sec.content.code', sec.length, []⟩)] := by
    obtain ⟨content, len⟩ := sec
    cases content with
    | custom _ _ => exact absurd hr id
    | tables _ => exact absurd hr id
    | memories _ => exact absurd hr id
    | start _ => exact absurd hr id
    | types l => exact ⟨tells_types V be hc (by omega), by simp [Content.code'], rfl⟩
    | imports l => exact ⟨tells_imports V be hc hr (by omega), by simp [Content.code'], rfl⟩
    | functions l => exact ⟨tells_functions V be hc, by simp [Content.code'], rfl⟩
    | globals l => exact ⟨tells_globals V be hc (by omega), by simp [Content.code'], rfl⟩
    | exports l => exact ⟨tells_exports V be hc hr (by omega), by simp [Content.code'], rfl⟩
    | elements l => exact ⟨tells_elements V be hc (by omega), by simp [Content.code'], rfl⟩
    | code l => exact ⟨tells_code V be hB hc hr (by omega), by simp [Content.code'], rfl⟩
    | data l => exact ⟨tells_data V be hc (by omega), by simp [Content.code'], rfl⟩
  obtain ⟨h1, h2, h3⟩ := key
  unfold «section»
  rw [List.append_assoc, reads_u32 hn]
  simp only [Outcome.ok_bind]
  rw [show sectionName V sec.content.code' (good (p ++ suf) (off + n.length)) = .ok ([], good (p ++ suf) (off + n.length)) from
    if_neg h2]
  simp only [Outcome.ok_bind, set32_64]
  rw [h3, List.cons_append, tell]
  cases V.event s (.sectionStart ⟨sec.content.code', sec.length, []⟩) with
  | ok s =>
    simp only [Outcome.ok_bind]
    rw [h1 s suf, tell_append]
    cases tell V be s (contentCalls sec.content) with
    | ok s =>
      simp only [Outcome.ok_bind, tell, List.length_append, Nat.add_assoc]
      cases V.event s (.sectionEnd ⟨sec.content.code', sec.length, []⟩) <;> rfl
    | _ => rfl
  | _ => rfl

/-- The end of the file. -/
theorem sections_end (fuel : Nat) (s : σ) (off : Nat) :
    sections V (fuel + 1) s (good [] off) = .ok (s, ⟨[], true, true, off⟩) := by
  rw [sections]
  rfl

theorem code_lt (c : Content) : c.code'.toNat < 128 := by cases c <;> simp [Content.code']

/-- One section and what follows. -/
theorem sections_cons {B : FunctionBody → List Byte → Prop} (hB : ReadsBodies V be B) {bs : List Byte} {sec : WSection}
    (h : EncAnySize NotLongNegative bs sec) (hr : Readable B sec.content) (hmem : 8 * bs.length ≤ V.mem)
    (fuel : Nat) (s : σ) (suf : List Byte) (off : Nat) :
    sections V (fuel + 1) s (good (bs ++ suf) off) =
      (tell V be s (sectionCalls sec) >>= fun s => sections V fuel s (good suf (off + bs.length))) := by
  obtain ⟨cs, rfl, ht⟩ := tells_section V be hB h hr hmem
  rw [sections, if_neg (by simp), show sec.content.code' :: cs ++ suf = [sec.content.code'] ++ (cs ++ suf) from rfl,
    reads_digit _ (code_lt _)]
  simp only [Outcome.ok_bind]
  rw [if_neg (by simp), show (BitVec.ofNat 64 sec.content.code'.toNat).setWidth 8 = sec.content.code' from by
    apply BitVec.eq_of_toNat_eq
    have := code_lt sec.content
    rw [BitVec.toNat_setWidth, BitVec.toNat_ofNat]
    omega, ht s suf]
  cases tell V be s (sectionCalls sec) with
  | ok s =>
    simp only [Outcome.ok_bind, List.length_cons, List.length_nil]
    congr 2
    omega
  | _ => rfl

theorem encSection_pos {L : List Byte → Prop} {bs : List Byte} {s : WSection} (h : EncAnySize L bs s) : 1 ≤ bs.length := by
  obtain ⟨n, p, rfl, -⟩ := h
  simp

/-- Sections and what follows. -/
theorem sections_any {B : FunctionBody → List Byte → Prop} (hB : ReadsBodies V be B) {bs : List Byte} {m : List WSection}
    (h : EncSeq (EncAnySize NotLongNegative) bs m) (hr : ∀ sec ∈ m, Readable B sec.content) (hmem : 8 * bs.length ≤ V.mem)
    (fuel : Nat) (s : σ) (suf : List Byte) (off : Nat) (hf : bs.length ≤ fuel) :
    ∃ fuel', fuel ≤ fuel' + bs.length ∧ sections V fuel s (good (bs ++ suf) off) =
      (tell V be s (m.flatMap sectionCalls) >>= fun s => sections V fuel' s (good suf (off + bs.length))) := by
  induction h generalizing fuel s off with
  | nil => exact ⟨fuel, by simp, rfl⟩
  | @cons cs sec ds m hc hd ih =>
    have hp := encSection_pos hc
    rw [List.length_append] at hmem hf
    obtain ⟨fuel, rfl⟩ : ∃ f, fuel = f + 1 := ⟨fuel - 1, by omega⟩
    have hu := fun s => ih (fun sec hs => hr sec (by simp [hs])) (by omega) fuel s (off + cs.length) (by omega)
    rw [List.append_assoc, sections_cons V be hB hc (hr sec (by simp)) (by omega)]
    rw [List.flatMap_cons, tell_append]
    cases htl : tell V be s (sectionCalls sec) with
    | ok s =>
      obtain ⟨fuel', hle, he⟩ := hu s
      refine ⟨fuel', by rw [List.length_append]; omega, ?_⟩
      simp only [Outcome.ok_bind]
      rw [he, List.length_append, Nat.add_assoc]
    | _ => exact ⟨fuel, by rw [List.length_append]; omega, rfl⟩

theorem _root_.Ab.Spec.Wasm.EncSection.any {L : List Byte → Prop} {bs : List Byte} {s : WSection} (h : EncSection L bs s) :
    EncAnySize L bs s := by
  obtain ⟨n, p, rfl, hn, -, hc⟩ := h
  exact ⟨n, p, rfl, hn, hc⟩

theorem _root_.Ab.Spec.Wasm.EncSeq.imp {P Q : List Byte → α → Prop} {bs : List Byte} {l : List α} (h : EncSeq P bs l)
    (hpq : ∀ bs a, P bs a → Q bs a) : EncSeq Q bs l := by
  induction h with
  | nil => exact .nil
  | cons hc hd ih => exact .cons (hpq _ _ hc) ih

theorem sections_seq {B : FunctionBody → List Byte → Prop} (hB : ReadsBodies V be B) {bs : List Byte} {m : List WSection}
    (h : EncSeq (EncSection NotLongNegative) bs m) (hr : ∀ sec ∈ m, Readable B sec.content) (hmem : 8 * bs.length ≤ V.mem)
    (fuel : Nat) (s : σ) (suf : List Byte) (off : Nat) (hf : bs.length ≤ fuel) :
    ∃ fuel', fuel ≤ fuel' + bs.length ∧ sections V fuel s (good (bs ++ suf) off) =
      (tell V be s (m.flatMap sectionCalls) >>= fun s => sections V fuel' s (good suf (off + bs.length))) :=
  sections_any V be hB (h.imp fun _ _ h => h.any) hr hmem fuel s suf off hf

/-- A custom section at the end of the file. -/
theorem sections_custom {bs : List Byte} {name payload : List Byte} {len : U32}
    (h : EncSection NotLongNegative bs ⟨.custom name payload, len⟩) (hn : NoNul name) (hmem : 8 * bs.length ≤ V.mem)
    (fuel : Nat) (s : σ) (off : Nat) :
    (sections V (fuel + 2) s (good bs off) >>= fun x => .ok x.1) = tell V be s (sectionCalls ⟨.custom name payload, len⟩) := by
  obtain ⟨n, p, rfl, hnl, hlen, ns, rfl, hname⟩ := h
  simp only [List.length_cons, List.length_append] at hmem
  rw [sections, if_neg (by simp),
    show (Content.custom name payload).code' :: (n ++ (ns ++ payload)) = [0#8] ++ (n ++ (ns ++ payload)) from rfl,
    reads_digit _ (by decide)]
  simp only [Outcome.ok_bind]
  rw [if_neg (by simp), show ((BitVec.ofNat 64 (0#8 : Byte).toNat).setWidth 8 : Byte) = 0#8 from rfl]
  unfold «section»
  rw [reads_u32 hnl]
  simp only [Outcome.ok_bind]
  unfold sectionName
  rw [if_pos rfl, reads_string V.mem hname hn (by omega)]
  simp only [Outcome.ok_bind, set32_64]
  unfold sectionCalls
  simp only [contentCalls, List.nil_append, tell, Content.code']
  rw [List.cons_append, tell]
  cases V.event s (.sectionStart ⟨0#8, len, name⟩) with
  | ok s =>
    simp only [Outcome.ok_bind]
    unfold sectionBody
    simp only
    rw [if_neg (by decide), if_neg (by decide), if_pos trivial]
    have hdrop : payload.drop len.toNat = [] := by
      rw [List.drop_eq_nil_iff]
      simp only at hlen
      rw [← hlen, List.length_append]
      omega
    simp only [Outcome.ok_bind, In.seek, hdrop, tell, List.nil_append]
    cases V.event s (.sectionEnd ⟨0#8, len, name⟩) with
    | ok s =>
      simp only [Outcome.ok_bind, Outcome.pure_eq]
      simp only [Bool.false_eq_true, if_false]
      rw [sections_end]
      rfl
    | _ => rfl
  | _ => rfl

theorem header_good (s : σ) (cs : List Byte) :
    header V s (good ([0x00#8, 0x61#8, 0x73#8, 0x6d#8, 0x01#8, 0x00#8, 0x00#8, 0x00#8] ++ cs) 0) =
      (V.event s (.header 0x6d736100#32 1#32) >>= fun s => .ok (s, good cs 8)) := by
  have h1 : leNat [0x00#8, 0x61#8, 0x73#8, 0x6d#8] = 0x6d736100 := by simp [leNat]
  have h2 : leNat [0x01#8, 0x00#8, 0x00#8, 0x00#8] = 1 := by simp [leNat]
  unfold header uint
  rw [if_neg (by simp), show [0x00#8, 0x61#8, 0x73#8, 0x6d#8, 0x01#8, 0x00#8, 0x00#8, 0x00#8] ++ cs =
    [0x00#8, 0x61#8, 0x73#8, 0x6d#8] ++ ([0x01#8, 0x00#8, 0x00#8, 0x00#8] ++ cs) from rfl, read_good _ _ _ 4 rfl]
  simp only [Outcome.ok_bind, h1]
  rw [if_neg (by simp), if_neg (by simp), read_good _ _ _ 4 rfl]
  simp only [Outcome.ok_bind, h2]
  rw [if_neg (by simp)]
  simp only [Outcome.pure_eq, Nat.zero_add, Nat.reduceAdd]

end

end Ab.Wasm
