import Verif.Proof.Call3
import Verif.Spec.Assigned

/-! Helpers for C95 and C96. -/

namespace Ab
open Spec

/-! ### Forward branches only -/

theorem size_pos (i : Instr) : 1 ≤ i.size := by cases i <;> simp [Instr.size]

theorem bytesOf_cons (i : Instr) (l : List Instr) : bytesOf (i :: l) = i.size + bytesOf l := by simp [bytesOf]

/-- Of two prefixes of the code the one with more bytes has more instructions. -/
theorem prefix_lt {is pre pre' post post' : List Instr} (h : is = pre ++ post) (h' : is = pre' ++ post')
    (hb : bytesOf pre < bytesOf pre') : pre.length < pre'.length := by
  rcases Nat.lt_or_ge pre.length pre'.length with hl | hl
  · exact hl
  · exfalso
    have : pre = pre' ++ pre.drop pre'.length := by
      have h1 : pre'= is.take pre'.length := by rw [h']; simp
      have h2 : pre = is.take pre.length := by rw [h]; simp
      have h3 : is.take pre'.length = pre.take pre'.length := by
        rw [h, List.take_append_of_le_length hl]
      rw [h1, h3]
      simp [List.take_append_drop, Nat.min_eq_left hl]
    rw [this, bytesOf_append] at hb
    omega

/-- Progress of the abstract machine: at least `k` instructions are behind. -/
def Behind (is : List Instr) (k : Nat) : AState → Prop
  | .running pc _ => ∃ pre i post, is = pre ++ i :: post ∧ pc = bytesOf pre ∧ k ≤ pre.length
  | _ => True

theorem jump_behind {body : List Byte} {is : List Instr} {k : Nat} {pre post : List Instr} {i : Instr}
    (h : is = pre ++ i :: post) (hk : k ≤ pre.length) {t : Int} (hle : (bytesOf pre : Int) < t) (regs : Regs)
    (hb : AtBoundary is (jump body t regs)) : Behind is (k + 1) (jump body t regs) := by
  unfold jump at hb ⊢
  split
  · rename_i hc
    rw [if_pos hc] at hb
    obtain ⟨pre', j, post', h1, h2⟩ := hb
    refine ⟨pre', j, post', h1, h2, ?_⟩
    have := prefix_lt h h1 (by omega)
    omega
  · trivial

theorem astep_behind {body : List Byte} {n : Nat} {is : List Instr} (hw : WellFormedBody body n is) (hf : ForwardOnly is)
    {s : AState} {k : Nat} (h : Behind is k s) : Behind is (k + 1) (astep body n s) := by
  cases s with
  | running pc regs =>
    obtain ⟨pre, i, post, his, rfl, hk⟩ := h
    have hbd := astep_boundary hw (s := .running (bytesOf pre) regs) ⟨pre, i, post, his, rfl⟩
    have hdec : decode (body.drop (bytesOf pre)) = some i := by
      have := hw.decodes
      rw [his] at this
      have h2 := this.drop
      generalize body.drop (bytesOf pre) = bs at h2
      cases h2 with
      | cons h1 _ _ => exact h1
    have hmem : i ∈ is := by rw [his]; simp
    have hregs := hw.regs i hmem
    have hfw := hf i hmem
    have hsup := hw.supported i hmem
    simp only [astep, hdec] at hbd ⊢
    cases i with
    | unreachable => trivial
    | nop => exact jump_behind his hk (by omega) regs hbd
    | halt => trivial
    | ret => trivial
    | x32ret src => simp only; split <;> trivial
    | x64ret src => trivial
    | goto off =>
      have := hfw off rfl
      exact jump_behind his hk (by omega) regs hbd
    | gotoIf t off =>
      have := hfw off rfl
      simp only at hbd ⊢
      rw [if_pos (hregs t (by simp [Instr.regs]))] at hbd ⊢
      exact jump_behind his hk (by split <;> omega) regs hbd
    | gotoUnless t off =>
      have := hfw off rfl
      simp only at hbd ⊢
      rw [if_pos (hregs t (by simp [Instr.regs]))] at hbd ⊢
      exact jump_behind his hk (by split <;> omega) regs hbd
    | add d l r =>
      simp only at hbd ⊢
      rw [if_pos ⟨hregs d (by simp [Instr.regs]), hregs l (by simp [Instr.regs]), hregs r (by simp [Instr.regs])⟩] at hbd ⊢
      split
      · rename_i hc
        rw [if_pos hc] at hbd
        exact jump_behind his hk (by omega) _ hbd
      · trivial
    | sub d l r =>
      simp only at hbd ⊢
      rw [if_pos ⟨hregs d (by simp [Instr.regs]), hregs l (by simp [Instr.regs]), hregs r (by simp [Instr.regs])⟩] at hbd ⊢
      split
      · rename_i hc
        rw [if_pos hc] at hbd
        exact jump_behind his hk (by omega) _ hbd
      · trivial
  | _ => trivial

theorem arun_behind {body : List Byte} {n : Nat} {is : List Instr} (hw : WellFormedBody body n is) (hf : ForwardOnly is)
    (j : Nat) {s : AState} {k : Nat} (h : Behind is k s) : Behind is (k + j) (arun body n j s) := by
  induction j generalizing s k with
  | zero => exact h
  | succ j ih =>
    have := ih (astep_behind hw hf h)
    rw [arun]
    rwa [show k + (j + 1) = k + 1 + j by omega]

/-- With forward branches only, the abstract machine stops within as many steps as there are instructions. -/
theorem arun_stops {body : List Byte} {n : Nat} {is : List Instr} (hw : WellFormedBody body n is) (hf : ForwardOnly is)
    (regs : Regs) (k : Nat) (hk : is.length ≤ k) (pc : Nat) (regs' : Regs) :
    arun body n k (.running 0 regs) ≠ .running pc regs' := by
  intro h
  have hb : Behind is 0 (.running 0 regs) := by
    cases his : is with
    | nil => exact absurd his hw.nonempty
    | cons i post => exact ⟨[], i, post, rfl, rfl, Nat.zero_le _⟩
  have := arun_behind hw hf k hb
  rw [h] at this
  obtain ⟨pre, i, post, h1, _, h3⟩ := this
  rw [h1] at hk
  simp at hk
  omega

theorem getStackElements_ne_fuel (e : Env) (mem : Mem) (base : Nat) (ts : List CType) :
    ∀ (n i : Nat), getStackElements e mem base ts i n ≠ .fuel
  | 0, _ => by simp [getStackElements]
  | n + 1, i => by
    unfold getStackElements load
    split
    · rw [Outcome.ok_bind]
      have := getStackElements_ne_fuel e mem base ts n (i + 1)
      cases h : getStackElements e mem base ts (i + 1) n <;> simp_all [bind, Outcome.bind]
    · simp [bind, Outcome.bind]

theorem leaveNativeFrame_ne_fuel (e : Env) (st : ExecState) (n : Nat) : leaveNativeFrame e st n ≠ .fuel := by
  unfold leaveNativeFrame load
  dsimp only
  split
  · rw [Outcome.ok_bind]
    split
    · rw [Outcome.ok_bind]
      split
      · rw [Outcome.ok_bind]
        split
        · rw [Outcome.ok_bind]
          split <;> simp
        · simp [bind, Outcome.bind]
      · simp [bind, Outcome.bind]
    · simp [bind, Outcome.bind]
  · simp [bind, Outcome.bind]

/-! ### Registers written before they are read -/

/-- The two register files agree on the registers in `w`. -/
def AgreeOn (w : List Nat) (r1 r2 : Regs) : Prop := ∀ r ∈ w, r1 r = r2 r

/-- Two abstract machines with `m` registers in lockstep. `k` registers make up the result. -/
inductive Lockstep (is : List Instr) (m n k : Nat) : AState → AState → Prop where
  | running {pc w r1 r2} : Path is n pc w → AgreeOn w r1 r2 → Lockstep is m n k (.running pc r1) (.running pc r2)
  | halted {pc r1 r2} : Lockstep is m n k (.halted pc r1) (.halted pc r2)
  | unreachable {pc r1 r2} : Lockstep is m n k (.unreachable pc r1) (.unreachable pc r2)
  | returnedNone {pc r1 r2} : Lockstep is m n k (.returned pc none r1) (.returned pc none r2)
  | returned {pc s w r1 r2} : s < m → Path is n pc w → (∀ r ∈ List.range' s k, r ∈ w) → AgreeOn w r1 r2 →
      Lockstep is m n k (.returned pc (some s) r1) (.returned pc (some s) r2)
  | overflow : Lockstep is m n k .overflow .overflow
  | stuck : Lockstep is m n k .stuck .stuck

theorem jump_lockstep {body : List Byte} {is : List Instr} {m n k : Nat} {w : List Nat} {r1 r2 : Regs} {t : Int}
    (hp : 0 ≤ t → Path is n t.toNat w) (ha : AgreeOn w r1 r2) :
    Lockstep is m n k (jump body t r1) (jump body t r2) := by
  unfold jump
  split
  · rename_i h
    exact .running (hp h.1) ha
  · exact .stuck

theorem AgreeOn.set {w : List Nat} {r1 r2 : Regs} (h : AgreeOn w r1 r2) (d : Nat) (v : U32) :
    AgreeOn ([d] ++ w) (r1.set d v) (r2.set d v) := by
  intro r hr
  unfold Regs.set
  split
  · rfl
  · rcases List.mem_append.1 hr with hr | hr
    · simp_all
    · exact h r hr

theorem astep_lockstep {body : List Byte} {m n k : Nat} {is : List Instr} (hw : WellFormedBody body m is)
    (hd : WrittenBeforeRead is n k) {s1 s2 : AState} (h : Lockstep is m n k s1 s2) (hb : AtBoundary is s1) :
    Lockstep is m n k (astep body m s1) (astep body m s2) := by
  cases h with
  | running hp ha =>
    rename_i pc w r1 r2
    obtain ⟨pre, i, post, his, rfl⟩ := hb
    have hdec : decode (body.drop (bytesOf pre)) = some i := by
      have := hw.decodes
      rw [his] at this
      have h2 := this.drop
      generalize body.drop (bytesOf pre) = bs at h2
      cases h2 with
      | cons h1 _ _ => exact h1
    have hread := hd pre i post w his hp
    have hnext : ∀ t : Int, i.noFallThrough = false → t = bytesOf pre + i.size → Path is n t.toNat (i.writes ++ w) := by
      intro t h1 h2
      have := Path.next hp his h1
      rwa [show t.toNat = bytesOf pre + i.size by omega]
    have hbr : ∀ (t off : Int), i.branch = some off → t = bytesOf pre + i.size + off → 0 ≤ t → Path is n t.toNat w := by
      intro t off h1 h2 h3
      exact Path.branch hp his h1 (by omega)
    have hmem : i ∈ is := by rw [his]; simp
    have hregs := hw.regs i hmem
    simp only [astep, hdec]
    cases i with
    | unreachable => exact .unreachable
    | nop => exact jump_lockstep (fun _ => hnext _ rfl (by simp [Instr.size])) ha
    | halt => exact .halted
    | ret => exact .returnedNone
    | x32ret src =>
      simp only
      split
      · rename_i hlt
        exact .returned hlt hp hread ha
      · exact .stuck
    | x64ret src => exact .stuck
    | goto off => exact jump_lockstep (hbr _ off rfl (by simp [Instr.size])) ha
    | gotoIf t off =>
      have ht : r1 t = r2 t := ha t (hread t (by simp [Instr.reads]))
      simp only [ht]
      split
      · split
        · exact jump_lockstep (hbr _ off rfl (by simp [Instr.size])) ha
        · exact jump_lockstep (fun _ => hnext _ rfl (by simp [Instr.size])) ha
      · exact .stuck
    | gotoUnless t off =>
      have ht : r1 t = r2 t := ha t (hread t (by simp [Instr.reads]))
      simp only [ht]
      split
      · split
        · exact jump_lockstep (hbr _ off rfl (by simp [Instr.size])) ha
        · exact jump_lockstep (fun _ => hnext _ rfl (by simp [Instr.size])) ha
      · exact .stuck
    | add d l r =>
      have h1 : r1 l = r2 l := ha l (hread l (by simp [Instr.reads]))
      have h2 : r1 r = r2 r := ha r (hread r (by simp [Instr.reads]))
      simp only [h1, h2]
      split
      · split
        · exact jump_lockstep (fun _ => hnext _ rfl (by simp [Instr.size])) (ha.set d _)
        · exact .overflow
      · exact .stuck
    | sub d l r =>
      have h1 : r1 l = r2 l := ha l (hread l (by simp [Instr.reads]))
      have h2 : r1 r = r2 r := ha r (hread r (by simp [Instr.reads]))
      simp only [h1, h2]
      split
      · split
        · exact jump_lockstep (fun _ => hnext _ rfl (by simp [Instr.size])) (ha.set d _)
        · exact .overflow
      · exact .stuck
  | halted => exact .halted
  | unreachable => exact .unreachable
  | returnedNone => exact .returnedNone
  | returned h0 h1 h2 h3 => exact .returned h0 h1 h2 h3
  | overflow => exact .overflow
  | stuck => exact .stuck

theorem arun_lockstep {body : List Byte} {m n k : Nat} {is : List Instr} (hw : WellFormedBody body m is)
    (hd : WrittenBeforeRead is n k) (j : Nat) {s1 s2 : AState} (h : Lockstep is m n k s1 s2) (hb : AtBoundary is s1) :
    Lockstep is m n k (arun body m j s1) (arun body m j s2) := by
  induction j generalizing s1 s2 with
  | zero => exact h
  | succ j ih => exact ih (astep_lockstep hw hd h hb) (astep_boundary hw hb)

/-- Registers written on a path are registers of the function. -/
theorem path_lt {body : List Byte} {m n : Nat} {is : List Instr} (hw : WellFormedBody body m is) (hn : n ≤ m) {pc : Nat}
    {w : List Nat} (h : Path is n pc w) : ∀ r ∈ w, r < m := by
  induction h with
  | start => intro r hr; have := List.mem_range.1 hr; omega
  | next _ his _ ih =>
    rename_i pre i post w _ _
    intro r hr
    rcases List.mem_append.1 hr with hr | hr
    · have hmem : i ∈ is := by rw [his]; simp
      apply hw.regs i hmem
      cases i <;> simp_all [Instr.writes, Instr.regs]
    · exact ih r hr
  | branch _ _ _ _ ih => exact ih

theorem retVals_agree {r1 r2 : Regs} (ts : List CType) (s : Nat) (h : ∀ i, s ≤ i → i < s + regTotal ts → r1 i = r2 i) :
    retVals r1 s ts = retVals r2 s ts := by
  induction ts generalizing s with
  | nil => rfl
  | cons t ts ih =>
    have htot : regTotal (t :: ts) = regCount t + regTotal ts := by simp [regTotal]
    rw [retVals, retVals, ih _ (fun i h1 h2 => h i (by omega) (by omega))]
    congr 1
    unfold valueAt
    rcases regCount_cases t with hc | hc
    · rw [hc, if_neg (by omega), if_neg (by omega), h s (by omega) (by omega)]
    · rw [hc, if_pos rfl, if_pos rfl, h s (by omega) (by omega), h (s + 1) (by omega) (by omega)]

/-- What a call from top level yields when the abstract machine stands like this after all the fuel is used. -/
def CallGives (o : Outcome (List Nat × ExecState)) (n : Nat) (err : Bool) (rets : List CType) : AState → Prop
  | .running _ _ => o = .fuel
  | .halted _ _ => if rets = [] then ∃ st', o = .ok ([], st') ∧ st'.error = err else o.isUb = true
  | .unreachable _ _ => if rets = [] then ∃ st', o = .ok ([], st') ∧ st'.error = true else o.isUb = true
  | .returned _ none _ => if rets = [] then ∃ st', o = .ok ([], st') ∧ st'.error = err else o.isUb = true
  | .returned _ (some i) regs => i + regTotal rets ≤ n → ∃ st', o = .ok (retVals regs i rets, st') ∧ st'.error = err
  | .overflow => o.isUb = true
  | .stuck => True

theorem getStackElements_null (e : Env) (mem : Mem) (t : CType) (rets : List CType) (h0 : 0 < e.stackLo) :
    (getStackElements e mem 0 (t :: rets) 0 (t :: rets).length).isUb = true := by
  have hoff : nthSlotOffset 0 (t :: rets) = 0 := by simp [nthSlotOffset, nthSlotIndex]
  rw [List.length_cons, getStackElements, hoff]
  unfold load Env.inStack
  rw [if_neg (by simp; omega)]
  rfl

theorem isUb_bind {α β : Type} {o : Outcome α} (h : o.isUb = true) (f : α → Outcome β) : (o >>= f).isUb = true := by
  cases o <;> simp_all [Outcome.isUb, bind, Outcome.bind]

theorem call_gives {e : Env} {st : ExecState} {func : FuncInst} {rets : List CType} {args : List (CType × Nat)}
    (h : CallFits e st func rets args) (hip : st.ip % 256 = 0) {body : List Byte} (hb : BodyAt e func.body body) (fuel : Nat) :
    CallGives (staticCall e fuel st func rets args) func.nregs.toNat st.error rets
      (arun body func.nregs.toNat fuel (.running 0 (startRegs st.mem (calleeSp st func) args))) := by
  obtain ⟨mem1, hc, hf, hr, hh, ht, hm⟩ := call_prologue h
  have hsim := run_sim hb hf fuel 0 _ mem1 hr
  rw [Nat.add_zero] at hsim
  have hz : mem1 (calleeSp st func + 4 * func.nregs.toNat) = 0#8 := by
    rw [ht]
    apply BitVec.eq_of_toNat_eq
    simpa using hip
  have fin : ∀ (mem2 : Mem) (pc : Nat) (err : Bool), SameOutside mem1 mem2 (calleeSp st func) func.nregs.toNat →
      run e func (calleeSp st func) fuel func.body mem1 = .ok ⟨0, func.body + pc, mem2, err⟩ →
      if rets = [] then ∃ st', staticCall e fuel st func rets args = .ok ([], st') ∧ st'.error = (st.error || err)
      else (staticCall e fuel st func rets args).isUb = true := by
    intro mem2 pc err h3 hx
    split
    · rename_i hr0
      obtain ⟨hl, _⟩ := call_epilogue h hh hm h3 (func.body + pc) (st.error || err)
      refine ⟨{ ip := st.ip, sp := st.sp, fn := st.fn, func := some func, error := st.error || err, mem := mem2 }, ?_, rfl⟩
      rw [hc fuel, hx, hr0]
      simp only [Outcome.ok_bind, List.length_nil, getStackElements, hl]
    · rename_i hr0
      rw [hc fuel, hx, Outcome.ok_bind]
      obtain ⟨t, ts, rfl⟩ : ∃ t ts, rets = t :: ts := by
        cases rets with
        | nil => exact absurd rfl hr0
        | cons t ts => exact ⟨t, ts, rfl⟩
      exact isUb_bind (getStackElements_null e mem2 t ts h.null) _
  cases hs : arun body func.nregs.toNat fuel (.running 0 (startRegs st.mem (calleeSp st func) args)) with
  | running pc regs =>
    rw [hs] at hsim
    obtain ⟨mem2, h1, _⟩ := hsim
    have := h1 0
    rw [Nat.add_zero] at this
    show _ = _
    rw [hc fuel, this]
    rfl
  | halted pc regs =>
    rw [hs] at hsim
    obtain ⟨mem2, h1, h2, h3⟩ := hsim
    have := fin mem2 pc false h3 (h1 fuel (Nat.le_refl _))
    rwa [Bool.or_false] at this
  | unreachable pc regs =>
    rw [hs] at hsim
    obtain ⟨mem2, h1, h2, h3⟩ := hsim
    have := fin mem2 pc true h3 (h1 fuel (Nat.le_refl _))
    rwa [Bool.or_true] at this
  | returned pc src regs =>
    rw [hs] at hsim
    obtain ⟨mem2, h1, _, _, h2, h3⟩ := hsim
    cases src with
    | none =>
      have := fin mem2 pc false h3 (h1 hz fuel (Nat.le_refl _))
      rwa [Bool.or_false] at this
    | some i =>
      intro hi
      have hx := h1 hz fuel (Nat.le_refl _)
      obtain ⟨hl, _⟩ := call_epilogue h hh hm h3 (func.body + pc) st.error
      refine ⟨{ ip := st.ip, sp := st.sp, fn := st.fn, func := some func, error := st.error, mem := mem2 }, ?_, rfl⟩
      rw [hc fuel, hx, Outcome.ok_bind]
      simp only
      have hg := getStackElements_ok e mem2 (calleeSp st func + 4 * i) [] rets (by have := hf.lo; omega)
        (by have := hf.hi; simp only [regTotal, List.map_nil, List.sum_nil] at hi ⊢; omega)
      simp only [List.nil_append, List.length_nil, show regTotal [] = 0 from rfl] at hg
      rw [hg, Outcome.ok_bind, retVals_shift, Nat.add_zero, Bool.or_false, hl, Outcome.ok_bind,
        retVals_congr h2 rets i hi]
  | overflow =>
    rw [hs] at hsim
    show _ = _
    rw [hc fuel]
    exact isUb_bind (hsim fuel (Nat.le_refl _)) _
  | stuck => trivial

end Ab
