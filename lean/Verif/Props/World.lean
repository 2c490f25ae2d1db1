import Verif.Proof.World
import Verif.Props.Assigned

/-!
Property theorem C98: contexts do not interfere with each other.
-/

namespace Ab

/-- The stacks of different contexts do not overlap. -/
def DisjointStacks (env : Nat → Env) : Prop :=
  ∀ c d, c ≠ d → (env c).stackHi ≤ (env d).stackLo ∨ (env d).stackHi ≤ (env c).stackLo

/-- What a program can tell about context `c`: its registers and flags, and the contents of its stack. -/
structure SameContext (env : Nat → Env) (c : Nat) (w v : World) : Prop where
  ip : (w.state c).ip = (v.state c).ip
  sp : (w.state c).sp = (v.state c).sp
  fn : (w.state c).fn = (v.state c).fn
  func : (w.state c).func = (v.state c).func
  error : (w.state c).error = (v.state c).error
  stack : ∀ x, (env c).stackLo ≤ x → x < (env c).stackHi → w.mem x = v.mem x

theorem SameContext.refl (env : Nat → Env) (c : Nat) (w : World) : SameContext env c w w :=
  ⟨rfl, rfl, rfl, rfl, rfl, fun _ _ _ => rfl⟩

theorem SameContext.symm {env : Nat → Env} {c : Nat} {w v : World} (h : SameContext env c w v) : SameContext env c v w :=
  ⟨h.ip.symm, h.sp.symm, h.fn.symm, h.func.symm, h.error.symm, fun x h1 h2 => (h.stack x h1 h2).symm⟩

theorem SameContext.trans {env : Nat → Env} {c : Nat} {w v u : World} (h : SameContext env c w v)
    (h' : SameContext env c v u) : SameContext env c w u :=
  ⟨h.ip.trans h'.ip, h.sp.trans h'.sp, h.fn.trans h'.fn, h.func.trans h'.func, h.error.trans h'.error,
    fun x h1 h2 => (h.stack x h1 h2).trans (h'.stack x h1 h2)⟩

theorem call_same {env : Nat → Env} {w v : World} {c : CtxCall} (h : SameContext env c.ctx w v) (fuel : Nat) :
    OutRel (fun r r' => r.1 = r'.1 ∧ SameContext env c.ctx r.2 r'.2) (w.call env fuel c) (v.call env fuel c) := by
  unfold World.call
  have hs : StateRel (env c.ctx) w.mem v.mem { w.state c.ctx with mem := w.mem } { v.state c.ctx with mem := v.mem } :=
    ⟨h.ip, h.sp, h.fn, h.func, h.error, MemRel.refl h.stack⟩
  refine (staticCall_rel hs fuel c.func c.rets c.args).bind fun r r' hr => ?_
  obtain ⟨vs, st⟩ := r
  obtain ⟨vs', st'⟩ := r'
  obtain ⟨h1, h2⟩ := hr
  replace h2 : StateRel (env c.ctx) w.mem v.mem st st' := h2
  refine ⟨h1, ?_, ?_, ?_, ?_, ?_, h2.mem.eq⟩
  · simp [h2.ip]
  · simp [h2.sp]
  · simp [h2.fn]
  · simp [h2.func]
  · simp [h2.error]

theorem call_other {env : Nat → Env} (hd : DisjointStacks env) {w w' : World} {c : CtxCall} {fuel : Nat} {vs : List Nat}
    (h : w.call env fuel c = .ok (vs, w')) (d : Nat) (hne : d ≠ c.ctx) : SameContext env d w' w := by
  unfold World.call at h
  have hs : StateRel (env c.ctx) w.mem w.mem { w.state c.ctx with mem := w.mem } { w.state c.ctx with mem := w.mem } :=
    ⟨rfl, rfl, rfl, rfl, rfl, MemRel.refl fun _ _ _ => rfl⟩
  have hr := staticCall_rel hs fuel c.func c.rets c.args
  obtain ⟨⟨vs', st⟩, h1, h⟩ := Outcome.bind_eq_ok.1 h
  rw [h1] at hr
  injection h with h
  injection h with h2 h3
  subst h3
  refine ⟨by simp [hne], by simp [hne], by simp [hne], by simp [hne], by simp [hne], ?_⟩
  intro x hx1 hx2
  have := hd d c.ctx hne
  exact hr.2.mem.left x (by omega)

/-- The calls on context `c`. -/
def callsOn (c : Nat) (cs : List CtxCall) : List CtxCall := cs.filter (·.ctx = c)

/-- The values of the calls on context `c`. -/
def answersOn (c : Nat) (rs : List (Nat × List Nat)) : List (Nat × List Nat) := rs.filter (·.1 = c)

theorem calls_alone {env : Nat → Env} (hd : DisjointStacks env) (fuel c : Nat) : ∀ (cs : List CtxCall) {w v w' : World}
    {rs : List (Nat × List Nat)}, SameContext env c w v → w.calls env fuel cs = .ok (rs, w') →
    ∃ v', v.calls env fuel (callsOn c cs) = .ok (answersOn c rs, v') ∧ SameContext env c w' v'
  | [], w, v, w', rs, hs, h => by
    injection h with h; injection h with h1 h2; subst h1 h2
    exact ⟨v, rfl, hs⟩
  | k :: cs, w, v, w', rs, hs, h => by
    rw [World.calls] at h
    obtain ⟨⟨vs, w1⟩, h1, h⟩ := Outcome.bind_eq_ok.1 h
    obtain ⟨⟨rs', w2⟩, h2, h⟩ := Outcome.bind_eq_ok.1 h
    injection h with h; injection h with h3 h4; subst h3 h4
    by_cases hc : k.ctx = c
    · subst hc
      have hr := call_same hs fuel
      rw [h1] at hr
      cases hv : v.call env fuel k with
      | ok r =>
        obtain ⟨vs', v1⟩ := r
        rw [hv] at hr
        obtain ⟨g1, g2⟩ := hr
        simp only at g1
        subst g1
        obtain ⟨v', g3, g4⟩ := calls_alone hd fuel k.ctx cs g2 h2
        refine ⟨v', ?_, g4⟩
        unfold callsOn answersOn at g3 ⊢
        simp only [List.filter_cons, decide_true, if_true]
        rw [World.calls, hv, Outcome.ok_bind]
        simp only
        rw [g3]; rfl
      | _ => rw [hv] at hr; exact hr.elim
    · have g2 := (call_other hd h1 c (fun h => hc h.symm)).trans hs
      obtain ⟨v', g3, g4⟩ := calls_alone hd fuel c cs g2 h2
      refine ⟨v', ?_, g4⟩
      unfold callsOn answersOn at g3 ⊢
      simp only [List.filter_cons, hc, decide_false, Bool.false_eq_true, if_false]
      exact g3

theorem calls_together {env : Nat → Env} (hd : DisjointStacks env) (fuel : Nat) : ∀ (cs : List CtxCall) {w : World}
    {v : Nat → World}, (∀ c, SameContext env c w (v c)) →
    (∀ c, ∃ r, (v c).calls env fuel (callsOn c cs) = .ok r) → ∃ r, w.calls env fuel cs = .ok r
  | [], w, v, _, _ => ⟨_, rfl⟩
  | k :: cs, w, v, hs, h => by
    obtain ⟨⟨rs, v'⟩, hk⟩ := h k.ctx
    unfold callsOn at hk
    simp only [List.filter_cons, decide_true, if_true] at hk
    rw [World.calls] at hk
    obtain ⟨⟨vs, v1⟩, h1, hk⟩ := Outcome.bind_eq_ok.1 hk
    obtain ⟨⟨rs', v2⟩, h2, _⟩ := Outcome.bind_eq_ok.1 hk
    have hr := call_same (hs k.ctx) fuel
    rw [h1] at hr
    cases hw : w.call env fuel k with
    | ok r =>
      obtain ⟨ws, w1⟩ := r
      rw [hw] at hr
      obtain ⟨_, g2⟩ := hr
      have := calls_together hd fuel cs (w := w1) (v := fun c => if c = k.ctx then v1 else v c) (by
          intro c
          by_cases hc : c = k.ctx
          · subst hc; simpa using g2
          · simp only [hc, if_false]
            exact (call_other hd hw c hc).trans (hs c)) (by
          intro c
          by_cases hc : c = k.ctx
          · subst hc
            simp only [if_true]
            exact ⟨_, h2⟩
          · obtain ⟨r, hr⟩ := h c
            refine ⟨r, ?_⟩
            unfold callsOn at hr ⊢
            simp only [List.filter_cons, show ¬ k.ctx = c from fun h => hc h.symm, decide_false, Bool.false_eq_true,
              if_false] at hr
            simp only [hc, if_false]
            exact hr)
      obtain ⟨r, hr⟩ := this
      rw [World.calls, hw, Outcome.ok_bind]
      simp only
      rw [hr]
      exact ⟨_, rfl⟩
    | _ => rw [hw] at hr; exact hr.elim

/-- **C98**: in any history of calls on any number of contexts, the calls on a context give the answers they give when that context
is the only one in use, and leave it in the same state – whatever code is called. -/
theorem C98_contexts_do_not_interfere (env : Nat → Env) (hd : DisjointStacks env) (fuel : Nat) (w w' : World)
    (cs : List CtxCall) (rs : List (Nat × List Nat)) (h : w.calls env fuel cs = .ok (rs, w')) (c : Nat) :
    ∃ v', w.calls env fuel (callsOn c cs) = .ok (answersOn c rs, v') ∧ SameContext env c w' v' :=
  calls_alone hd fuel c cs (SameContext.refl env c w) h

/-- **C98**, conversely: if the calls on each context are fine when it is the only one in use, they are fine in any order
together. -/
theorem C98_any_interleaving (env : Nat → Env) (hd : DisjointStacks env) (fuel : Nat) (w : World) (cs : List CtxCall)
    (h : ∀ c, ∃ r, w.calls env fuel (callsOn c cs) = .ok r) : ∃ r, w.calls env fuel cs = .ok r :=
  calls_together hd fuel cs (v := fun _ => w) (fun c => SameContext.refl env c w) h

/-! Two contexts, each counting with the function of C96: 3, 3 on context 0 and 10 on context 1 in between. -/

def twoEnvs (c : Nat) : Env := ⟨4096 + 4096 * c, 64, countBody⟩

theorem twoEnvs_disjoint : DisjointStacks twoEnvs := by
  intro c d h
  simp only [twoEnvs, Env.stackHi, STACK_SIZE]
  omega

def twoWorld : World := ⟨fun _ => 0#8, fun c => .init (twoEnvs c) (fun _ => 0#8)⟩

def twoCalls : List CtxCall :=
  [⟨0, countFunc, [.i32], [(.i32, 3)]⟩, ⟨1, countFunc, [.i32], [(.i32, 10)]⟩, ⟨0, countFunc, [.i32], [(.i32, 3)]⟩]

/-- The answers of a history. -/
def answersOf : Outcome (List (Nat × List Nat) × World) → Outcome (List (Nat × List Nat))
  | .ok (rs, _) => .ok rs
  | .throw m => .throw m
  | .trap m => .trap m
  | .ub m => .ub m
  | .fuel => .fuel

example : answersOf (twoWorld.calls twoEnvs 5 twoCalls) = .ok [(0, [3]), (1, [10]), (0, [6])] := by decide +kernel

example : answersOf (twoWorld.calls twoEnvs 5 (callsOn 0 twoCalls)) = .ok [(0, [3]), (0, [6])] := by decide +kernel

end Ab
