import Verif.Model.World
import Verif.Proof.Mem

/-! Helpers for C98: a call looks at, and changes, only its own context's stack. -/

namespace Ab

/-- Two outcomes of the same kind, with related values. -/
def OutRel {α β : Type} (R : α → β → Prop) : Outcome α → Outcome β → Prop
  | .ok a, .ok b => R a b
  | .throw m, .throw m' => m = m'
  | .trap m, .trap m' => m = m'
  | .ub m, .ub m' => m = m'
  | .fuel, .fuel => True
  | _, _ => False

theorem OutRel.bind {α β γ δ : Type} {R : α → β → Prop} {S : γ → δ → Prop} {o : Outcome α} {o' : Outcome β}
    {f : α → Outcome γ} {g : β → Outcome δ} (h : OutRel R o o') (hf : ∀ a b, R a b → OutRel S (f a) (g b)) :
    OutRel S (o >>= f) (o' >>= g) := by
  cases o <;> cases o' <;> simp_all [OutRel, Bind.bind, Outcome.bind]

theorem OutRel.refl {α : Type} {R : α → α → Prop} (hr : ∀ a, R a a) (o : Outcome α) : OutRel R o o := by
  cases o <;> simp_all [OutRel]

/-- Two memories agree on the stack of a context. -/
def StackEq (e : Env) (m m' : Mem) : Prop := ∀ x, e.stackLo ≤ x → x < e.stackHi → m x = m' x

/-- Outside the stack nothing changed. -/
def OutsideEq (e : Env) (m m1 : Mem) : Prop := ∀ x, x < e.stackLo ∨ e.stackHi ≤ x → m1 x = m x

theorem OutsideEq.refl (e : Env) (m : Mem) : OutsideEq e m m := fun _ _ => rfl

theorem OutsideEq.trans {e : Env} {m m1 m2 : Mem} (h : OutsideEq e m m1) (h' : OutsideEq e m1 m2) : OutsideEq e m m2 :=
  fun x hx => by rw [h' x hx, h x hx]

/-- Memories that came from `m` and `m'` by the same stores to the stack. -/
structure MemRel (e : Env) (m m' m1 m1' : Mem) : Prop where
  eq : StackEq e m1 m1'
  left : OutsideEq e m m1
  right : OutsideEq e m' m1'

theorem MemRel.refl {e : Env} {m m' : Mem} (h : StackEq e m m') : MemRel e m m' m m' :=
  ⟨h, .refl _ _, .refl _ _⟩

theorem MemRel.trans {e : Env} {m m' m1 m1' m2 m2' : Mem} (h : MemRel e m m' m1 m1') (h' : MemRel e m1 m1' m2 m2') :
    MemRel e m m' m2 m2' := ⟨h'.eq, h.left.trans h'.left, h.right.trans h'.right⟩

theorem load_eq {e : Env} {m m' : Mem} (h : StackEq e m m') (a n : Nat) : load e m a n = load e m' a n := by
  unfold load
  split
  · rename_i hs
    simp only [Env.inStack, Bool.and_eq_true, decide_eq_true_eq] at hs
    rw [readLE_congr (fun x h1 h2 => h x (by omega) (by omega))]
  · rfl

theorem store_rel {e : Env} {m m' : Mem} (h : StackEq e m m') (a n v : Nat) :
    OutRel (MemRel e m m') (store e m a n v) (store e m' a n v) := by
  unfold store
  split
  · rename_i hs
    simp only [Env.inStack, Bool.and_eq_true, decide_eq_true_eq] at hs
    refine ⟨?_, ?_, ?_⟩
    · intro x h1 h2
      unfold writeAt
      split
      · rfl
      · exact h x h1 h2
    · intro x hx
      exact writeAt_outside _ _ _ _ (by rw [natBytes_length]; omega)
    · intro x hx
      exact writeAt_outside _ _ _ _ (by rw [natBytes_length]; omega)
  · rfl

theorem loadReg_eq {e : Env} {m m' : Mem} (h : StackEq e m m') (sp : Nat) (i : Byte) :
    loadReg e m sp i = loadReg e m' sp i := by
  unfold loadReg
  rw [load_eq h]

theorem frameKind_eq {e : Env} {m m' : Mem} (h : StackEq e m m') (sp : Nat) (f : FuncInst) :
    frameKind e m sp f = frameKind e m' sp f := by
  unfold frameKind
  rw [load_eq h]

/-- The same step, on memories that agree on the stack. -/
def StepRel (e : Env) (m m' : Mem) : StepRes → StepRes → Prop
  | .next ip m1, .next ip' m1' => ip = ip' ∧ MemRel e m m' m1 m1'
  | .exit r b, .exit r' b' => r = r' ∧ b = b'
  | _, _ => False

theorem bind_same {α γ δ : Type} {S : γ → δ → Prop} {o : Outcome α} {f : α → Outcome γ} {g : α → Outcome δ}
    (hf : ∀ a, OutRel S (f a) (g a)) : OutRel S (o >>= f) (o >>= g) :=
  OutRel.bind (R := Eq) (OutRel.refl (fun _ => rfl) o) (fun a b h => by subst h; exact hf a)

theorem step_rel {e : Env} {m m' : Mem} (h : StackEq e m m') (f : FuncInst) (sp ip : Nat) :
    OutRel (StepRel e m m') (step e f sp ip m) (step e f sp ip m') := by
  unfold step
  refine bind_same fun op => ?_
  simp only [frameKind_eq h, loadReg_eq h]
  split
  · exact ⟨rfl, rfl⟩
  · exact ⟨rfl, .refl h⟩
  · exact ⟨rfl, rfl⟩
  · refine bind_same fun k => ?_
    split
    · exact ⟨rfl, rfl⟩
    · rfl
  · refine bind_same fun idx => bind_same fun _ => bind_same fun k => ?_
    split
    · exact ⟨rfl, rfl⟩
    · rfl
  · exact bind_same fun off => bind_same fun ip => ⟨rfl, .refl h⟩
  · exact bind_same fun idx => bind_same fun off => bind_same fun v => bind_same fun ip => ⟨rfl, .refl h⟩
  · exact bind_same fun idx => bind_same fun off => bind_same fun v => bind_same fun ip => ⟨rfl, .refl h⟩
  · exact bind_same fun dst => bind_same fun lhs => bind_same fun rhs => bind_same fun a => bind_same fun b =>
      bind_same fun r => (store_rel h _ _ _).bind fun m1 m1' hr => ⟨rfl, hr⟩
  · exact bind_same fun dst => bind_same fun lhs => bind_same fun rhs => bind_same fun a => bind_same fun b =>
      bind_same fun r => (store_rel h _ _ _).bind fun m1 m1' hr => ⟨rfl, hr⟩
  · rfl
  · rfl

/-- The same exit. -/
structure ExitRel (e : Env) (m m' : Mem) (x x' : Exit) : Prop where
  ret : x.ret = x'.ret
  ip : x.ip = x'.ip
  error : x.error = x'.error
  mem : MemRel e m m' x.mem x'.mem

theorem run_rel (e : Env) (f : FuncInst) (sp : Nat) : ∀ (fuel ip : Nat) {m m' : Mem}, StackEq e m m' →
    OutRel (ExitRel e m m') (run e f sp fuel ip m) (run e f sp fuel ip m')
  | 0, _, _, _, _ => trivial
  | fuel + 1, ip, m, m', h => by
    rw [run, run]
    refine (step_rel h f sp ip).bind fun r r' hr => ?_
    match r, r', hr with
    | .next ip1 m1, .next ip1' m1', ⟨h1, h2⟩ =>
      subst h1
      have := run_rel e f sp fuel ip1 h2.eq
      simp only
      revert this
      cases run e f sp fuel ip1 m1 <;> cases run e f sp fuel ip1 m1' <;> simp only [OutRel] <;> intro this <;>
        first | exact this | exact ⟨this.ret, this.ip, this.error, h2.trans this.mem⟩
    | .exit r b, .exit r' b', ⟨h1, h2⟩ =>
      subst h1 h2
      exact ⟨rfl, rfl, rfl, .refl h⟩

/-- The same state, with memories that agree on the stack. -/
structure StateRel (e : Env) (m m' : Mem) (s s' : ExecState) : Prop where
  ip : s.ip = s'.ip
  sp : s.sp = s'.sp
  fn : s.fn = s'.fn
  func : s.func = s'.func
  error : s.error = s'.error
  mem : MemRel e m m' s.mem s'.mem

theorem StateRel.change {e : Env} {m m' : Mem} {s s' : ExecState} (h : StateRel e m m' s s') {m1 m1' : Mem}
    (hm : MemRel e s.mem s'.mem m1 m1') : StateRel e m m' { s with mem := m1 } { s' with mem := m1' } :=
  ⟨h.ip, h.sp, h.fn, h.func, h.error, h.mem.trans hm⟩

theorem enter_rel {e : Env} {m m' : Mem} {s s' : ExecState} (h : StateRel e m m' s s') (n : Nat) :
    OutRel (StateRel e m m') (enterNativeFrame e s n) (enterNativeFrame e s' n) := by
  unfold enterNativeFrame
  rw [← h.sp, ← h.ip, ← h.fn]
  refine bind_same fun p => (store_rel h.mem.eq _ _ _).bind fun m1 m1' h1 => bind_same fun frame =>
    (store_rel h1.eq _ _ _).bind fun m2 m2' h2 => (store_rel h2.eq _ _ _).bind fun m3 m3' h3 =>
    (store_rel h3.eq _ _ _).bind fun m4 m4' h4 => (store_rel h4.eq _ _ _).bind fun m5 m5' h5 => bind_same fun sp => ?_
  exact ⟨rfl, rfl, rfl, h.func, h.error, h.mem.trans (h1.trans (h2.trans (h3.trans (h4.trans h5))))⟩

theorem leave_rel {e : Env} {m m' : Mem} {s s' : ExecState} (h : StateRel e m m' s s') (n : Nat) :
    OutRel (StateRel e m m') (leaveNativeFrame e s n) (leaveNativeFrame e s' n) := by
  unfold leaveNativeFrame
  simp only [← h.sp, load_eq h.mem.eq]
  refine bind_same fun sp => bind_same fun ip => bind_same fun fn => bind_same fun eye => ?_
  split
  · exact ⟨rfl, rfl, rfl, h.func, h.error, h.mem⟩
  · rfl

theorem set_rel (e : Env) (base : Nat) (ts : List CType) : ∀ (vs : List Nat) (i : Nat) {m m' : Mem}, StackEq e m m' →
    OutRel (MemRel e m m') (setStackElements e base ts i vs m) (setStackElements e base ts i vs m')
  | [], _, _, _, h => MemRel.refl h
  | v :: vs, i, m, m', h => by
    rw [setStackElements, setStackElements]
    refine (store_rel h _ _ _).bind fun m1 m1' h1 => ?_
    have := set_rel e base ts vs (i + 1) h1.eq
    revert this
    cases setStackElements e base ts (i + 1) vs m1 <;> cases setStackElements e base ts (i + 1) vs m1' <;>
      simp only [OutRel] <;> intro this <;> first | exact this | exact h1.trans this

theorem get_eq {e : Env} {m m' : Mem} (h : StackEq e m m') (base : Nat) (ts : List CType) : ∀ (n i : Nat),
    getStackElements e m base ts i n = getStackElements e m' base ts i n
  | 0, _ => rfl
  | n + 1, i => by rw [getStackElements, getStackElements, load_eq h, get_eq h base ts n]

/-- A call, on states that agree on the stack. -/
theorem staticCall_rel {e : Env} {m m' : Mem} {s s' : ExecState} (h : StateRel e m m' s s') (fuel : Nat) (func : FuncInst)
    (rets : List CType) (args : List (CType × Nat)) :
    OutRel (fun r r' => r.1 = r'.1 ∧ StateRel e m m' r.2 r'.2) (staticCall e fuel s func rets args)
      (staticCall e fuel s' func rets args) := by
  unfold staticCall
  refine bind_same fun ok => ?_
  split
  · rfl
  · refine bind_same fun ok => ?_
    split
    · rfl
    · refine (enter_rel h _).bind fun s1 s1' h1 => ?_
      rw [h1.sp]
      refine (set_rel e _ _ _ _ h1.mem.eq).bind fun m2 m2' h2 => ?_
      have h3 := h1.change h2
      have hi : OutRel (fun r r' => StateRel e m m' r.1 r'.1 ∧ r.2 = r'.2) (interpretFunc e fuel { s1 with mem := m2 } func)
          (interpretFunc e fuel { s1' with mem := m2' } func) := by
        unfold interpretFunc
        simp only [h1.sp]
        refine (run_rel e func _ fuel func.body h2.eq).bind fun x x' hx => ?_
        exact ⟨⟨hx.ip, rfl, rfl, rfl, by rw [h1.error, hx.error], h1.mem.trans (h2.trans hx.mem)⟩, hx.ret⟩
      rw [h1.sp] at hi
      refine hi.bind fun r r' hr => ?_
      obtain ⟨s3, p⟩ := r
      obtain ⟨s3', p'⟩ := r'
      obtain ⟨g1, g2⟩ := hr
      simp only at g1 g2 ⊢
      subst g2
      rw [get_eq g1.mem.eq]
      refine bind_same fun vs => (leave_rel g1 _).bind fun s4 s4' g4 => ?_
      exact ⟨rfl, g4⟩

end Ab
