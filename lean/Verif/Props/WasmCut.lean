import Verif.Spec.WasmCut
import Verif.Props.Wasm
/-! C129: WebAssembly files that lost their end. -/
namespace Ab.Wasm
open Spec Spec.Wasm

/-- A stream at its end. -/
def Ended (i : In) : Prop := i.rest = [] ∧ i.eof = i.fail

/-- A stream that met its end. -/
def dead (off : Nat) : In := ⟨[], true, true, off⟩

theorem Ended.cases {i : In} (h : Ended i) : i = good [] i.offset ∨ i = dead i.offset := by
  obtain ⟨r, e, f, o⟩ := i
  obtain ⟨h1, h2⟩ := h
  simp only at h1 h2
  subst h1 h2
  cases e
  · exact .inl rfl
  · exact .inr rfl

theorem ended_good (off : Nat) : Ended (good [] off) := ⟨rfl, rfl⟩
theorem ended_dead (off : Nat) : Ended (dead off) := ⟨rfl, rfl⟩

theorem get_ended {i : In} (h : Ended i) : i.get = (dead i.offset, 0xff#8) := by
  rcases h.cases with h | h <;> rw [h] <;> rfl

theorem uleb_at_end {i : In} (h : Ended i) : uleb i = .ok (127#64, dead i.offset) := by
  unfold uleb
  rw [lebLoop, if_neg (by omega), get_ended h]
  rfl

theorem uint8_dead (off : Nat) : uint8 (dead off) = .throw "Could not decode number" := rfl

theorem uint8_good (off : Nat) : uint8 (good [] off) = .ok (0#8, dead off) := rfl

theorem read_dead (n off : Nat) : (dead off).read n = (dead off, []) := rfl

theorem string_ended (mem : Nat) {i : In} (h : Ended i) (hm : 128 ≤ mem) : string mem i = .ok ([], dead i.offset) := by
  unfold string
  rw [uleb_at_end h]
  simp only [Outcome.ok_bind]
  rw [if_neg (by decide), if_neg (by simp; omega), read_dead]
  rfl

theorem initExpr_ended (mem : Nat) {i : In} (h : Ended i) : initExpr mem i = .trap "exit(-1)" := by
  unfold initExpr readExpr
  rw [get_ended h]
  rfl

section
variable (V : Visitor σ) (be : σ → Nat → FunctionBody → List Byte → Outcome σ)

/-- A round that fails at the end of the stream. -/
def Fails (f : Nat → σ → In → Outcome (σ × In)) (i : In) (out : Outcome (σ × In)) : Prop := ∀ k s, f k s i = out

theorem rounds_fail {f : Nat → σ → In → Outcome (σ × In)} {i : In} {out : Outcome (σ × In)} (h : Fails f i out)
    (hb : ∀ g, (out >>= g : Outcome (σ × In)) = out) (n k : Nat) (s : σ) (hn : 0 < n) : rounds f n k s i = out := by
  obtain ⟨n, rfl⟩ : ∃ m, n = m + 1 := ⟨n - 1, by omega⟩
  rw [rounds, h k s, hb]

theorem rounds_add (f : Nat → σ → In → Outcome (σ × In)) (a b k : Nat) (s : σ) (i : In) :
    rounds f (a + b) k s i = (rounds f a k s i >>= fun x => rounds f b (k + a) x.1 x.2) := by
  induction a generalizing k s i with
  | zero => simp [rounds]
  | succ a ih =>
    rw [show a + 1 + b = (a + b) + 1 from by omega, rounds, rounds]
    cases f k s i with
    | ok x =>
      simp only [Outcome.ok_bind]
      rw [ih, show k + 1 + a = k + (a + 1) from by omega]
    | _ => rfl

/-- The entries that are there, then those that are not. -/
theorem rounds_cut {f : Nat → σ → In → Outcome (σ × In)} {P : List Byte → α → Prop} {g : Nat → α → List Call}
    {bs : List Byte} {l : List α} {k : Nat} (hk : k < l.length) (h : EncSeq P bs (l.take k))
    (hp : ∀ k cs a, a ∈ l → cs.length ≤ bs.length → P cs a → Tells V be (f k) cs (g k a)) (s : σ) (off : Nat) :
    rounds f l.length 0 s (good bs off) =
      (tell V be s (numbered g 0 (l.take k)) >>= fun s => rounds f (l.length - k) k s (good [] (off + bs.length))) := by
  have hl : (l.take k).length = k := by rw [List.length_take]; omega
  rw [show l.length = k + (l.length - k) from by omega, rounds_add,
    show k + (l.length - k) - k = l.length - k from by omega]
  have ht := tells_rounds V be h 0 (fun k cs a ha => hp k cs a (List.mem_of_mem_take ha)) s [] off
  rw [hl, List.append_nil] at ht
  rw [ht]
  cases tell V be s (numbered g 0 (l.take k)) with
  | ok s => simp only [Outcome.ok_bind, Nat.zero_add]
  | _ => rfl

theorem fails_type (off : Nat) : Fails (typeRound V) (good [] off) (.throw "Expected function type, got something else.") ∧
    Fails (typeRound V) (dead off) (.throw "Could not decode number") := ⟨fun _ _ => rfl, fun _ _ => rfl⟩

theorem fails_global (off : Nat) : Fails (globalRound V) (good [] off) (.trap "exit(-1)") ∧
    Fails (globalRound V) (dead off) (.throw "Could not decode number") := ⟨fun _ _ => rfl, fun _ _ => rfl⟩

theorem fails_import {i : In} (h : Ended i) (hm : 128 ≤ V.mem) : Fails (importRound V) i (.throw "Could not decode number") := by
  intro k s
  unfold importRound importEntry
  rw [string_ended V.mem h hm]
  simp only [Outcome.ok_bind]
  rw [string_ended V.mem (ended_dead _) hm]
  rfl

theorem fails_export {i : In} (h : Ended i) (hm : 128 ≤ V.mem) : Fails (exportRound V) i (.throw "Could not decode number") := by
  intro k s
  unfold exportRound exportEntry
  rw [string_ended V.mem h hm]
  rfl

theorem fails_element {i : In} (h : Ended i) : Fails (elementRound V) i (.trap "exit(-1)") := by
  intro k s
  unfold elementRound
  rw [uleb_at_end h]
  simp only [Outcome.ok_bind]
  rw [initExpr_ended V.mem (ended_dead _)]
  rfl

theorem fails_data {i : In} (h : Ended i) : Fails (dataRound V) i (.trap "exit(-1)") := by
  intro k s
  unfold dataRound
  rw [uleb_at_end h]
  simp only [Outcome.ok_bind]
  rw [initExpr_ended V.mem (ended_dead _)]
  rfl

theorem fails_code {i : In} (h : Ended i) (hm : 1016 ≤ V.mem) : Fails (bodyRound V) i (.throw "Could not decode number") := by
  intro k s
  unfold bodyRound
  rw [uleb_at_end h]
  simp only [Outcome.ok_bind]
  rw [uleb_at_end (ended_dead _)]
  simp only [Outcome.ok_bind]
  rw [if_neg (by simp; omega)]
  rfl

/-- The stream at its end, met before or not. -/
def atEnd (met : Bool) (off : Nat) : In := if met then dead off else good [] off

theorem ended_atEnd (met : Bool) (off : Nat) : Ended (atEnd met off) := by cases met <;> exact ⟨rfl, rfl⟩

/-- The body of a section of which nothing is left. -/
theorem body_nothing (hm : 1016 ≤ V.mem) (c : Content) (hn : Notices c) (len : U32) (s : σ) {i : In} (h : Ended i) :
    sectionBody V ⟨c.code', len, []⟩ s i = (tell V be s (countCalls 127 c) >>= fun _ => endResult true c) := by
  have h127 : (127#64).toNat = 127 := rfl
  cases c with
  | types l =>
    show typeSection V s i = _
    unfold typeSection
    rw [uleb_at_end h]
    simp only [Outcome.ok_bind, countCalls, tell, h127]
    cases V.event s (.typeSection 127#64) with
    | ok s => exact rounds_fail (fails_type V _).2 (fun _ => rfl) _ _ _ (by decide)
    | _ => rfl
  | imports l =>
    show importSection V s i = _
    unfold importSection
    rw [uleb_at_end h]
    simp only [Outcome.ok_bind, countCalls, tell, h127]
    cases V.event s (.importSection 127#64) with
    | ok s => exact rounds_fail (fails_import V (ended_dead _) (by omega)) (fun _ => rfl) _ _ _ (by decide)
    | _ => rfl
  | globals l =>
    show globalSection V s i = _
    unfold globalSection
    rw [uleb_at_end h]
    exact rounds_fail (fails_global V _).2 (fun _ => rfl) _ _ _ (by decide)
  | exports l =>
    show exportSection V s i = _
    unfold exportSection
    rw [uleb_at_end h]
    exact rounds_fail (fails_export V (ended_dead _) (by omega)) (fun _ => rfl) _ _ _ (by decide)
  | elements l =>
    show elementSection V s i = _
    unfold elementSection
    rw [uleb_at_end h]
    exact rounds_fail (fails_element V (ended_dead _)) (fun _ => rfl) _ _ _ (by decide)
  | code l =>
    show codeSection V s i = _
    unfold codeSection
    rw [uleb_at_end h]
    exact rounds_fail (fails_code V (ended_dead _) hm) (fun _ => rfl) _ _ _ (by decide)
  | data l =>
    show dataSection V s i = _
    unfold dataSection
    rw [uleb_at_end h]
    exact rounds_fail (fails_data V (ended_dead _)) (fun _ => rfl) _ _ _ (by decide)
  | _ => exact absurd hn id

/-- A vector, cut, read round by round, the next round failing. -/
theorem vec_cut {f : Nat → σ → In → Outcome (σ × In)} {P : List Byte → α → Prop} {g : Nat → α → List Call}
    {bs : List Byte} {l : List α} {k : Nat} {out : Outcome (σ × In)} (h : CutVec P k bs l)
    (hp : ∀ k cs a, a ∈ l → cs.length ≤ bs.length → P cs a → Tells V be (f k) cs (g k a))
    (hf : ∀ off, Fails f (good [] off) out) (hb : ∀ g, (out >>= g : Outcome (σ × In)) = out) (s : σ) (off : Nat) :
    (uleb (good bs off) >>= fun x => rounds f x.1.toNat 0 s x.2) = (tell V be s (numbered g 0 (l.take k)) >>= fun _ => out) := by
  obtain ⟨hk, c, cs, rfl, hlt, hc, hs⟩ := h
  rw [reads_count hlt hc]
  simp only [Outcome.ok_bind]
  rw [count_toNat hlt, rounds_cut V be hk hs (fun k cs' a ha hl => hp k cs' a ha (by rw [List.length_append]; omega))]
  cases tell V be s (numbered g 0 (l.take k)) with
  | ok s => exact rounds_fail (hf _) hb _ _ _ (by omega)
  | _ => rfl

/-- The body of a section that is cut between its entries. -/
theorem body_entries {B : FunctionBody → List Byte → Prop} (hB : ReadsBodies V be B) (hm : 1016 ≤ V.mem) (c : Content)
    (hn : Notices c) (hr : Readable B c) (len : U32) {k : Nat} {p : List Byte} (h : CutContent NotLongNegative k p c)
    (hmem : 8 * p.length ≤ V.mem) (s : σ) (off : Nat) :
    sectionBody V ⟨c.code', len, []⟩ s (good p off) =
      (tell V be s (countCalls c.count c ++ firstCalls k c) >>= fun _ => endResult false c) := by
  cases c with
  | types l =>
    obtain ⟨hk, c, cs, rfl, hlt, hc, hs⟩ := h
    rw [List.length_append] at hmem
    show typeSection V s (good (c ++ cs) off) = _
    unfold typeSection
    rw [reads_count hlt hc]
    simp only [Outcome.ok_bind, countCalls, firstCalls, Content.count, List.cons_append, List.nil_append, tell]
    cases V.event s (.typeSection (BitVec.ofNat 64 l.length)) with
    | ok s =>
      simp only [Outcome.ok_bind]
      rw [count_toNat hlt, rounds_cut V be (f := typeRound V) (g := fun _ t => [.event (.functionType t)]) hk hs
        (fun k cs' a _ hl hp => tells_one V be (g := .functionType) (reads_functionType V.mem hp (by omega))), numbered_map]
      cases tell V be s ((l.take k).map fun t => .event (.functionType t)) with
      | ok s => exact rounds_fail (fails_type V _).1 (fun _ => rfl) _ _ _ (by omega)
      | _ => rfl
    | _ => rfl
  | imports l =>
    obtain ⟨hk, c, cs, rfl, hlt, hc, hs⟩ := h
    rw [List.length_append] at hmem
    show importSection V s (good (c ++ cs) off) = _
    unfold importSection
    rw [reads_count hlt hc]
    simp only [Outcome.ok_bind, countCalls, firstCalls, Content.count, List.cons_append, List.nil_append, tell]
    cases V.event s (.importSection (BitVec.ofNat 64 l.length)) with
    | ok s =>
      simp only [Outcome.ok_bind]
      rw [count_toNat hlt, rounds_cut V be (f := importRound V) (g := fun _ t => [.event (.importEntry t)]) hk hs
        (fun k cs' a ha hl hp => tells_one V be (g := .importEntry) (reads_import V.mem hp (hr a ha) (by omega))), numbered_map]
      cases tell V be s ((l.take k).map fun t => .event (.importEntry t)) with
      | ok s => exact rounds_fail (fails_import V (ended_good _) (by omega)) (fun _ => rfl) _ _ _ (by omega)
      | _ => rfl
    | _ => rfl
  | globals l =>
    have := vec_cut V be (f := globalRound V) (g := fun _ g => [.event (.globalEntry g.1 g.2)]) h
      (fun k cs a _ hl hp => tells_globalRound V be k hp (by omega)) (fun off => (fails_global V off).1) (fun _ => rfl) s off
    rwa [numbered_map] at this
  | exports l =>
    have := vec_cut V be (f := exportRound V) (g := fun _ g => [.event (.exportEntry g)]) h
      (fun k cs a ha hl hp => tells_one V be (g := .exportEntry) (reads_export V.mem hp (hr a ha) (by omega)))
      (fun off => fails_export V (ended_good off) (by omega)) (fun _ => rfl) s off
    rwa [numbered_map] at this
  | elements l =>
    have := vec_cut V be (f := elementRound V) (g := fun _ e => elementCalls e) h
      (fun k cs a _ hl hp => tells_elementRound V be k hp (by omega)) (fun off => fails_element V (ended_good off)) (fun _ => rfl) s off
    rwa [numbered_flatMap] at this
  | code l =>
    have := vec_cut V be (f := bodyRound V)
      (g := fun i f => [.body i ⟨f.size, f.locals⟩ f.code, .event (.functionBodyEnd ⟨f.size, f.locals⟩)]) h
      (fun k cs a ha hl hp => tells_bodyRound V be hB k hp (hr a ha) (by omega))
      (fun off => fails_code V (ended_good off) hm) (fun _ => rfl) s off
    rwa [numbered_zipIdx] at this
  | data l =>
    have := vec_cut V be (f := dataRound V) (g := fun _ d => [.event (.dataSegment d)]) h
      (fun k cs a _ hl hp => tells_dataRound V be k hp (by omega)) (fun off => fails_data V (ended_good off)) (fun _ => rfl) s off
    rwa [numbered_map] at this
  | _ => exact absurd hn id

theorem rounds_madeUp (n k : Nat) (hn : 0 < n) (s : σ) {i : In} (h : Ended i) :
    rounds (functionRound V) n k s i =
      (tell V be s ((List.range' k n).map fun i => .event (.functionEntry i 127#32)) >>= fun s => .ok (s, dead i.offset)) := by
  induction n generalizing k s i with
  | zero => omega
  | succ n ih =>
    rw [rounds]
    unfold functionRound
    rw [uleb_at_end h, List.range'_succ, List.map_cons, tell]
    simp only [Outcome.ok_bind]
    rw [show (127#64).setWidth 32 = 127#32 from rfl]
    cases V.event s (.functionEntry k 127#32) with
    | ok s =>
      simp only [Outcome.ok_bind, Outcome.pure_eq]
      rcases Nat.eq_zero_or_pos n with rfl | hp
      · rfl
      · exact ih (k + 1) hp s (ended_dead _)
    | _ => rfl

/-- What a section that is cut does, when its body is known. -/
theorem section_head (code : Byte) (h0 : code ≠ 0#8) (q : List Byte) (off : Nat) (n : U64) (i : In)
    (hq : uleb (good q off) = .ok (n, i)) (s : σ) :
    «section» V code s (good q off) = (V.event s (.sectionStart ⟨code, n.setWidth 32, []⟩) >>= fun s =>
      sectionBody V ⟨code, n.setWidth 32, []⟩ s i >>= fun x =>
        V.event x.1 (.sectionEnd ⟨code, n.setWidth 32, []⟩) >>= fun s => .ok (s, x.2)) := by
  unfold «section»
  rw [hq]
  simp only [Outcome.ok_bind]
  unfold sectionName
  rw [if_neg h0]
  rfl

theorem endResult_bind {α β : Type} (met : Bool) (c : Content) (g : α → Outcome β) :
    ((endResult met c : Outcome α) >>= g) = endResult met c := by
  cases c <;> cases met <;> rfl

theorem section_rejects {B : FunctionBody → List Byte → Prop} (hB : ReadsBodies V be B) (hm : 1016 ≤ V.mem) (c : Content)
    (hn : Notices c) (hr : Readable B c) {cut : List Byte} {len : U32} {n k : Nat} {calls : List Call} {met : Bool}
    (h : CutSection NotLongNegative c cut len n k calls met) (hmem : 8 * cut.length ≤ V.mem) :
    ∃ q, cut = c.code' :: q ∧ ∀ s off, «section» V c.code' s (good q off) =
      (tell V be s (.event (.sectionStart ⟨c.code', len, []⟩) :: calls) >>= fun _ => endResult met c) := by
  have h0 : c.code' ≠ 0#8 := by cases c <;> first | exact absurd hn id | simp [Content.code']
  cases h with
  | number =>
    refine ⟨[], rfl, fun s off => ?_⟩
    rw [section_head V _ h0 [] off _ _ (uleb_at_end (ended_good off)), tell, show (127#64).setWidth 32 = 127#32 from rfl]
    cases V.event s (.sectionStart ⟨c.code', 127#32, []⟩) with
    | ok s =>
      simp only [Outcome.ok_bind]
      rw [body_nothing V be hm c hn _ s (ended_dead _)]
      cases tell V be s (countCalls 127 c) with
      | ok s => simp only [Outcome.ok_bind]; exact endResult_bind _ _ _
      | _ => rfl
    | _ => rfl
  | @length ns len hl =>
    refine ⟨ns, rfl, fun s off => ?_⟩
    have hq := reads_u32 hl [] off
    rw [List.append_nil] at hq
    rw [section_head V _ h0 ns off _ _ hq, tell, set32_64]
    cases V.event s (.sectionStart ⟨c.code', len, []⟩) with
    | ok s =>
      simp only [Outcome.ok_bind]
      rw [body_nothing V be hm c hn _ s (ended_good _)]
      cases tell V be s (countCalls 127 c) with
      | ok s => simp only [Outcome.ok_bind]; exact endResult_bind _ _ _
      | _ => rfl
    | _ => rfl
  | @entries ns len k p hl hc =>
    simp only [List.length_cons, List.length_append] at hmem
    refine ⟨ns ++ p, rfl, fun s off => ?_⟩
    rw [section_head V _ h0 _ off _ _ (reads_u32 hl p off), tell, set32_64]
    cases V.event s (.sectionStart ⟨c.code', len, []⟩) with
    | ok s =>
      simp only [Outcome.ok_bind]
      rw [body_entries V be hB hm c hn hr _ hc (by omega)]
      cases tell V be s (countCalls c.count c ++ firstCalls k c) with
      | ok s => simp only [Outcome.ok_bind]; exact endResult_bind _ _ _
      | _ => rfl
    | _ => rfl

theorem section_madeUp (l : List U32) {cut : List Byte} {len : U32} {n k : Nat} {calls : List Call} {met : Bool}
    (h : CutSection NotLongNegative (.functions l) cut len n k calls met) :
    ∃ q, cut = 3#8 :: q ∧ ∀ s off, ∃ off', «section» V 3#8 s (good q off) =
      (tell V be s (.event (.sectionStart ⟨3#8, len, []⟩) :: calls ++ madeUp k n ++
        [.event (.sectionEnd ⟨3#8, len, []⟩)]) >>= fun s => .ok (s, dead off')) := by
  have none : ∀ (s : σ) (len : U32) (i : In), Ended i → sectionBody V ⟨3#8, len, []⟩ s i =
      (tell V be s (madeUp 0 127) >>= fun s => .ok (s, dead i.offset)) := by
    intro s len i hi
    show functionSection V s i = _
    unfold functionSection
    rw [uleb_at_end hi]
    simp only [Outcome.ok_bind]
    have h127 : (127#64).toNat = 127 := rfl
    rw [h127, rounds_madeUp V be 127 0 (by decide) s (ended_dead _)]
    unfold madeUp
    rw [Nat.sub_zero]
    rfl
  have hx : ∃ X : List Call, X = madeUp 0 127 := ⟨_, rfl⟩
  obtain ⟨X, hX⟩ := hx
  rw [← hX] at none
  cases h with
  | number =>
    refine ⟨[], rfl, fun s off => ⟨off, ?_⟩⟩
    rw [section_head V _ (by decide) [] off _ _ (uleb_at_end (ended_good off)), show (127#64).setWidth 32 = 127#32 from rfl]
    rw [← hX]
    simp only [countCalls, List.cons_append, List.nil_append, tell]
    cases V.event s (.sectionStart ⟨3#8, 127#32, []⟩) with
    | ok s =>
      simp only [Outcome.ok_bind]
      rw [none s _ _ (ended_dead _), tell_append]
      cases tell V be s X with
      | ok s =>
        simp only [Outcome.ok_bind, tell]
        cases V.event s (.sectionEnd ⟨3#8, 127#32, []⟩) <;> rfl
      | _ => rfl
    | _ => rfl
  | @length ns len hl =>
    refine ⟨ns, rfl, fun s off => ⟨off + ns.length, ?_⟩⟩
    have hq := reads_u32 hl [] off
    rw [List.append_nil] at hq
    rw [section_head V _ (by decide) ns off _ _ hq, set32_64]
    rw [← hX]
    simp only [countCalls, List.cons_append, List.nil_append, tell]
    cases V.event s (.sectionStart ⟨3#8, len, []⟩) with
    | ok s =>
      simp only [Outcome.ok_bind]
      rw [none s _ _ (ended_good _), tell_append]
      cases tell V be s X with
      | ok s =>
        simp only [Outcome.ok_bind, tell]
        cases V.event s (.sectionEnd ⟨3#8, len, []⟩) <;> rfl
      | _ => rfl
    | _ => rfl
  | @entries ns len k p hl hc =>
    refine ⟨ns ++ p, rfl, fun s off => ⟨off + ns.length + p.length, ?_⟩⟩
    rw [section_head V _ (by decide) _ off _ _ (reads_u32 hl p off), set32_64]
    simp only [countCalls, firstCalls, Content.count, List.cons_append, List.nil_append, tell]
    cases V.event s (.sectionStart ⟨3#8, len, []⟩) with
    | ok s =>
      simp only [Outcome.ok_bind]
      obtain ⟨hk, c, cs, rfl, hlt, hcc, hs⟩ := hc
      have hbody : sectionBody V ⟨3#8, len, []⟩ s (good (c ++ cs) (off + ns.length)) =
          (tell V be s (((l.take k).zipIdx.map fun (t, i) => .event (.functionEntry i t)) ++ madeUp k l.length) >>= fun s =>
            .ok (s, dead (off + ns.length + (c ++ cs).length))) := by
        show functionSection V s _ = _
        unfold functionSection
        rw [reads_count hlt hcc]
        simp only [Outcome.ok_bind]
        rw [count_toNat hlt, rounds_cut V be (f := functionRound V) (g := fun k t => [.event (.functionEntry k t)]) hk hs
          (fun k cs' a _ _ hp => tells_functionRound V be k hp), numbered_zipIdx, tell_append, ← List.map_eq_flatMap]
        cases tell V be s ((l.take k).zipIdx.map fun (t, i) => .event (.functionEntry i t)) with
        | ok s =>
          simp only [Outcome.ok_bind]
          rw [rounds_madeUp V be (l.length - k) k (by omega) s (ended_good _), List.length_append]
          simp only [Nat.add_assoc]
          rfl
        | _ => rfl
      rw [hbody]
      generalize (l.take k).zipIdx.map (fun (t, i) => Call.event (.functionEntry i t)) ++ madeUp k l.length = X
      rw [tell_append]
      cases tell V be s X with
      | ok s =>
        simp only [Outcome.ok_bind, tell]
        cases V.event s (.sectionEnd ⟨3#8, len, []⟩) <;> rfl
      | _ => rfl
    | _ => rfl

/-- A section that is cut, and what follows. -/
theorem sections_one (code : Byte) (hc : code.toNat < 128) (q : List Byte) (fuel : Nat) (s : σ) (off : Nat) :
    sections V (fuel + 1) s (good (code :: q) off) =
      («section» V code s (good q (off + 1)) >>= fun x => sections V fuel x.1 x.2) := by
  rw [sections, if_neg (by simp), show code :: q = [code] ++ q from rfl, reads_digit _ hc]
  simp only [Outcome.ok_bind]
  rw [if_neg (by simp), show (BitVec.ofNat 64 code.toNat).setWidth 8 = code from by
    apply BitVec.eq_of_toNat_eq
    rw [BitVec.toNat_setWidth, BitVec.toNat_ofNat]
    omega]
  rfl

/-- The sections that are there, and what follows. -/
theorem module_seq {B : FunctionBody → List Byte → Prop} (hB : ReadsBodies V be B) {bytes : List Byte} {m : List WSection}
    (h : EncModule NotLongNegative bytes m) (hm : ∀ s ∈ m, Readable B s.content) (hmem : 8 * bytes.length ≤ V.mem)
    (cut : List Byte) (s : σ) : ∃ fuel, readModule V s (bytes ++ cut) =
      (tell V be s ([.event .moduleStart, .event (.header 0x6d736100#32 1#32)] ++ m.flatMap sectionCalls) >>= fun s =>
        sections V (fuel + 2) s (good cut bytes.length) >>= fun x => V.event x.1 .moduleEnd >>= fun s => .ok (s, x.2)) := by
  obtain ⟨cs, rfl, hs⟩ := h
  simp only [List.length_append, List.length_cons, List.length_nil] at hmem
  unfold readModule
  simp only [List.cons_append, List.nil_append, tell]
  cases V.event s .moduleStart with
  | ok s =>
    simp only [Outcome.ok_bind]
    have hh := header_good V s (cs ++ cut)
    simp only [List.cons_append, List.nil_append] at hh
    simp only [In.start]
    rw [hh]
    cases V.event s (.header 0x6d736100#32 1#32) with
    | ok s =>
      simp only [Outcome.ok_bind]
      obtain ⟨fuel', hle, he⟩ := sections_seq V be hB hs hm (by omega)
        ((0#8 :: 97#8 :: 115#8 :: 109#8 :: 1#8 :: 0#8 :: 0#8 :: 0#8 :: (cs ++ cut)).length + 2) s cut 8 (by simp; omega)
      simp only [List.length_cons, List.length_append] at hle
      refine ⟨fuel' - 2, ?_⟩
      rw [he, show fuel' - 2 + 2 = fuel' from by omega]
      simp only [List.length_cons]
      rw [show 8 + cs.length = cs.length + 1 + 1 + 1 + 1 + 1 + 1 + 1 + 1 from by omega]
      cases tell V be s (m.flatMap sectionCalls) <;> rfl
    | _ => exact ⟨0, rfl⟩
  | _ => exact ⟨0, rfl⟩

/-- C129: a WebAssembly file that ends within a section of types, imports, globals, exports, elements, code or
data - after the section's number, after its length, or between its entries - is rejected: by an exception, or,
where an initializer is missing, by ending the process. Before that the visitor is told exactly what is there.
Missing: files that end elsewhere (see `C129_boundary_negation`, `C129_functions_negation`,
`C129_entry_negation`). -/
theorem C129_between_entries_partial {B : FunctionBody → List Byte → Prop} (hB : ReadsBodies V be B)
    {bytes : List Byte} {m : List WSection} (h : EncModule NotLongNegative bytes m) (hm : ∀ s ∈ m, Readable B s.content)
    (c : Content) (hn : Notices c) (hr : Readable B c) {cut : List Byte} {len : U32} {n k : Nat} {calls : List Call}
    {met : Bool} (hc : CutSection NotLongNegative c cut len n k calls met)
    (hmem : 8 * (bytes ++ cut).length ≤ V.mem) (h1016 : 1016 ≤ V.mem) (s : σ) :
    readModule V s (bytes ++ cut) =
      (tell V be s ([.event .moduleStart, .event (.header 0x6d736100#32 1#32)] ++ m.flatMap sectionCalls ++
        .event (.sectionStart ⟨c.code', len, []⟩) :: calls) >>= fun _ => endResult met c) := by
  rw [List.length_append] at hmem
  obtain ⟨fuel, he⟩ := module_seq V be hB h hm (by omega) cut s
  obtain ⟨q, rfl, hs⟩ := section_rejects V be hB h1016 c hn hr hc (by omega)
  rw [he]
  generalize [Call.event .moduleStart, .event (.header 0x6d736100#32 1#32)] ++ m.flatMap sectionCalls = H
  rw [tell_append]
  cases tell V be s H with
  | ok s =>
    simp only [Outcome.ok_bind]
    rw [sections_one V _ (code_lt c), hs]
    cases tell V be s (.event (.sectionStart ⟨c.code', len, []⟩) :: calls) with
    | ok s =>
      simp only [Outcome.ok_bind]
      rw [endResult_bind, endResult_bind]
    | _ => rfl
  | _ => rfl

/-- C129 fails: a file that ends within a function section - after its number, after its length, or between its
entries - is accepted, and in place of the entries that are not there the visitor is told of functions of type
127, as many as are missing, and of 127 of them when the number of functions itself is missing. -/
theorem C129_functions_negation {B : FunctionBody → List Byte → Prop} (hB : ReadsBodies V be B)
    {bytes : List Byte} {m : List WSection} (h : EncModule NotLongNegative bytes m) (hm : ∀ s ∈ m, Readable B s.content)
    (l : List U32) {cut : List Byte} {len : U32} {n k : Nat} {calls : List Call}
    {met : Bool} (hc : CutSection NotLongNegative (.functions l) cut len n k calls met)
    (hmem : 8 * bytes.length ≤ V.mem) (s : σ) :
    (readModule V s (bytes ++ cut) >>= fun x => .ok x.1) =
      tell V be s ([.event .moduleStart, .event (.header 0x6d736100#32 1#32)] ++ m.flatMap sectionCalls ++
        (.event (.sectionStart ⟨3#8, len, []⟩) :: calls ++ madeUp k n ++ [.event (.sectionEnd ⟨3#8, len, []⟩)]) ++
        [.event .moduleEnd]) := by
  obtain ⟨fuel, he⟩ := module_seq V be hB h hm hmem cut s
  obtain ⟨q, rfl, hs⟩ := section_madeUp V be l hc
  rw [he]
  generalize [Call.event .moduleStart, .event (.header 0x6d736100#32 1#32)] ++ m.flatMap sectionCalls = H
  rw [tell_append, tell_append]
  cases tell V be s H with
  | ok s =>
    simp only [Outcome.ok_bind]
    obtain ⟨off', hs⟩ := hs s (bytes.length + 1)
    rw [sections_one V _ (by decide), hs]
    cases tell V be s (.event (.sectionStart ⟨3#8, len, []⟩) :: calls ++ madeUp k n ++ [.event (.sectionEnd ⟨3#8, len, []⟩)]) with
    | ok s =>
      simp only [Outcome.ok_bind, tell]
      rw [sections, if_pos (by rfl)]
      simp only [Outcome.ok_bind]
      cases V.event s .moduleEnd <;> rfl
    | _ => rfl
  | _ => rfl

/-- C129 fails: a file that ends with an export section of which only the number of the last thing exported is
missing is accepted, and that number is reported to be 127. -/
theorem C129_export_negation {B : FunctionBody → List Byte → Prop} (hB : ReadsBodies V be B)
    {bytes : List Byte} {m : List WSection} (h : EncModule NotLongNegative bytes m) (hm : ∀ s ∈ m, Readable B s.content)
    (es : List ExportEntry) (e : ExportEntry) (hes : ∀ x ∈ es ++ [e], NoNul x.field) {n c ds f : List Byte} {len : U32}
    (hn : EncU32 n len) (hlt : es.length + 1 < 2 ^ 32) (hc : EncU32 c (BitVec.ofNat 32 (es.length + 1)))
    (hd : EncSeq EncExport ds es) (hf : EncName f e.field)
    (hmem : 8 * (bytes ++ (7#8 :: (n ++ (c ++ (ds ++ (f ++ [e.kind])))))).length ≤ V.mem) (s : σ) :
    (readModule V s (bytes ++ (7#8 :: (n ++ (c ++ (ds ++ (f ++ [e.kind])))))) >>= fun x => .ok x.1) =
      tell V be s ([.event .moduleStart, .event (.header 0x6d736100#32 1#32)] ++ m.flatMap sectionCalls ++
        (.event (.sectionStart ⟨7#8, len, []⟩) :: (es.map fun x => .event (.exportEntry x)) ++
          [.event (.exportEntry ⟨e.field, e.kind, 127#32⟩), .event (.sectionEnd ⟨7#8, len, []⟩)]) ++ [.event .moduleEnd]) := by
  simp only [List.length_append, List.length_cons, List.length_nil] at hmem
  obtain ⟨fuel, he⟩ := module_seq V be hB h hm (by omega) (7#8 :: (n ++ (c ++ (ds ++ (f ++ [e.kind]))))) s
  rw [he]
  generalize [Call.event .moduleStart, .event (.header 0x6d736100#32 1#32)] ++ m.flatMap sectionCalls = H
  rw [tell_append, tell_append]
  cases tell V be s H with
  | ok s =>
    simp only [Outcome.ok_bind]
    rw [sections_one V _ (by decide), section_head V _ (by decide) _ _ _ _ (reads_u32 hn _ _), set32_64]
    simp only [List.cons_append, tell]
    cases V.event s (.sectionStart ⟨7#8, len, []⟩) with
    | ok s =>
      simp only [Outcome.ok_bind]
      have hbody : ∀ off, sectionBody V ⟨7#8, len, []⟩ s (good (c ++ (ds ++ (f ++ [e.kind]))) off) =
          (tell V be s (es.map fun x => .event (.exportEntry x)) >>= fun s =>
            V.event s (.exportEntry ⟨e.field, e.kind, 127#32⟩) >>= fun s =>
              .ok (s, dead (off + c.length + ds.length + f.length + 1))) := by
        intro off
        show exportSection V s _ = _
        unfold exportSection
        rw [reads_count hlt hc]
        simp only [Outcome.ok_bind]
        rw [count_toNat hlt, rounds_add]
        have ht := tells_rounds V be (f := exportRound V) (g := fun _ x => [.event (.exportEntry x)]) hd 0
          (fun k cs a ha hl hp => tells_one V be (g := .exportEntry)
            (reads_export V.mem hp (hes a (List.mem_append.2 (.inl ha))) (by omega)))
        rw [ht, numbered_map]
        cases tell V be s (es.map fun x => .event (.exportEntry x)) with
        | ok s =>
          simp only [Outcome.ok_bind, rounds]
          unfold exportRound exportEntry
          rw [reads_string V.mem hf (hes e (by simp)) (by omega)]
          simp only [Outcome.ok_bind]
          have hk := reads_byte e.kind [] (off + c.length + ds.length + f.length)
          rw [List.append_nil] at hk
          rw [hk]
          simp only [Outcome.ok_bind]
          rw [uleb_at_end (ended_good _)]
          simp only [Outcome.ok_bind, Outcome.pure_eq]
          rw [show (127#64).setWidth 32 = 127#32 from rfl]
          cases V.event s (.exportEntry ⟨e.field, e.kind, 127#32⟩) with
          | ok s => simp only [Outcome.ok_bind]; rfl
          | _ => rfl
        | _ => rfl
      rw [hbody, tell_append]
      cases tell V be s (es.map fun x => .event (.exportEntry x)) with
      | ok s =>
        simp only [Outcome.ok_bind, tell]
        cases V.event s (.exportEntry ⟨e.field, e.kind, 127#32⟩) with
        | ok s =>
          simp only [Outcome.ok_bind]
          cases V.event s (.sectionEnd ⟨7#8, len, []⟩) with
          | ok s =>
            simp only [Outcome.ok_bind]
            rw [sections, if_pos (by rfl)]
            simp only [Outcome.ok_bind]
            cases V.event s .moduleEnd <;> rfl
          | _ => rfl
        | _ => rfl
      | _ => rfl
    | _ => rfl
  | _ => rfl

/-- C129 fails: a module that lost its last sections is accepted as the module of those before. -/
theorem C129_boundary_negation {B : FunctionBody → List Byte → Prop} (hB : ReadsBodies V be B)
    (bytes lost : List Byte) (m ms : List WSection) (h : EncModule NotLongNegative bytes m)
    (hm : ∀ s ∈ m, Readable B s.content) (hl : EncSeq (EncSection NotLongNegative) lost ms)
    (hmem : 8 * bytes.length ≤ V.mem) (s : σ) :
    EncModule NotLongNegative (bytes ++ lost) (m ++ ms) ∧
    (readModule V s bytes >>= fun x => .ok x.1) = tell V be s (moduleCalls m) := by
  constructor
  · obtain ⟨cs, rfl, hs⟩ := h
    refine ⟨cs ++ lost, by rw [List.append_assoc], ?_⟩
    clear hmem hm
    induction hs with
    | nil => exact hl
    | cons hc hd ih =>
      rw [List.append_assoc]
      exact .cons hc ih
  · have := C62_module_partial V be B hB bytes m [] (by rwa [List.append_nil]) hm (.inl rfl) hmem s
    rwa [List.append_nil] at this

end

/-- A file of a type and two functions, of which the end is missing: the last function. -/
example : CutSection NotLongNegative (.functions [0, 5]) [3, 3, 2, 0] 3 2 1 [.event (.functionEntry 0 0)] false ∧
    EncModule NotLongNegative (hdr ++ [1, 1, 0]) [⟨.types [], 1⟩] ∧
    madeUp 1 2 = [.event (.functionEntry 1 127)] ∧
    (readModule recorder [] (hdr ++ [1, 1, 0] ++ [3, 3, 2, 0]) >>= fun x => .ok x.1) = .ok [.moduleStart, .header 0x6d736100 1,
      .sectionStart ⟨1, 1, []⟩, .typeSection 0, .sectionEnd ⟨1, 1, []⟩, .sectionStart ⟨3, 3, []⟩, .functionEntry 0 0,
      .functionEntry 1 127, .sectionEnd ⟨3, 3, []⟩, .moduleEnd] := by
  refine ⟨.entries (n := [3]) (p := [2, 0]) (k := 1) (encU32_digit 3 (by decide)) ?_,
    ⟨_, rfl, .cons (bs := [1, 1, 0]) ⟨[1], [0], rfl, encU32_digit 1 (by decide), rfl, encVec_cons .nil 0 rfl (by decide)⟩ .nil⟩,
    rfl, by decide +kernel⟩
  exact ⟨by decide, [2], [0], rfl, by decide, encU32_digit 2 (by decide), .cons (bs := [0]) (encU32_digit 0 (by decide)) .nil⟩

/-- An export section of two entries of which the second is missing, and an element section that ends after its
number. -/
example : CutSection NotLongNegative (.exports [⟨[0x61], 0, 0⟩, ⟨[0x62], 0, 1⟩]) [7, 9, 2, 1, 0x61, 0, 0] 9 2 1
      [.event (.exportEntry ⟨[0x61], 0, 0⟩)] false ∧
    readModule ⟨2000, recorder.event, recorder.body⟩ [] (hdr ++ [7, 9, 2, 1, 0x61, 0, 0]) = .throw "Could not decode number" ∧
    CutSection NotLongNegative (.elements []) [9] 127 127 0 [] true ∧
    readModule ⟨2000, recorder.event, recorder.body⟩ [] (hdr ++ [9]) = .trap "exit(-1)" := by
  refine ⟨.entries (n := [9]) (p := [2, 1, 0x61, 0, 0]) (k := 1) (encU32_digit 9 (by decide)) ?_, by decide +kernel, .number,
    by decide +kernel⟩
  exact ⟨by decide, [2], [1, 0x61, 0, 0], rfl, by decide, encU32_digit 2 (by decide),
    .cons (bs := [1, 0x61, 0, 0]) ⟨[1, 0x61], [0], rfl, encVec_bytes 1 rfl (by decide), encU32_digit 0 (by decide)⟩ .nil⟩

/-- C129 fails within an entry too: of a module whose only type has one parameter and one result the last byte
is missing, and the result type is taken to be 0; of one that exports one function the number of the function
is missing, and the file is accepted with function 127. -/
theorem C129_entry_negation :
    EncModule AnyLength (hdr ++ [1, 6, 1, 0x60, 1, 0x7f, 1, 0x7e]) [⟨.types [⟨[0x7f], true, 0x7e⟩], 6⟩] ∧
    (readModule recorder [] (hdr ++ [1, 6, 1, 0x60, 1, 0x7f, 1]) >>= fun x => .ok x.1) = .ok [.moduleStart, .header 0x6d736100 1,
      .sectionStart ⟨1, 6, []⟩, .typeSection 1, .functionType ⟨[0x7f], true, 0⟩, .sectionEnd ⟨1, 6, []⟩, .moduleEnd] ∧
    EncModule AnyLength (hdr ++ [7, 5, 1, 1, 0x61, 0, 4]) [⟨.exports [⟨[0x61], 0, 4⟩], 5⟩] ∧
    (readModule recorder [] (hdr ++ [7, 5, 1, 1, 0x61, 0]) >>= fun x => .ok x.1) = .ok [.moduleStart, .header 0x6d736100 1,
      .sectionStart ⟨7, 5, []⟩, .exportEntry ⟨[0x61], 0, 127⟩, .sectionEnd ⟨7, 5, []⟩, .moduleEnd] := by
  refine ⟨⟨_, rfl, ?_⟩, by decide +kernel, ⟨_, rfl, ?_⟩, by decide +kernel⟩
  · refine .cons (bs := [1, 6, 1, 0x60, 1, 0x7f, 1, 0x7e]) ⟨[6], [1, 0x60, 1, 0x7f, 1, 0x7e], rfl,
      encU32_digit 6 (by decide), rfl, ?_⟩ .nil
    exact encVec_cons (.cons (bs := [0x60, 1, 0x7f, 1, 0x7e]) (.value (bs := [1, 0x7f]) (encVec_bytes 1 rfl (by decide))) .nil)
      1 rfl (by decide)
  · refine .cons (bs := [7, 5, 1, 1, 0x61, 0, 4]) ⟨[5], [1, 1, 0x61, 0, 4], rfl, encU32_digit 5 (by decide), rfl, ?_⟩ .nil
    exact encVec_cons (.cons (bs := [1, 0x61, 0, 4]) ⟨[1, 0x61], [4], rfl, encVec_bytes 1 rfl (by decide),
      encU32_digit 4 (by decide)⟩ .nil) 1 rfl (by decide)

end Ab.Wasm
