import Verif.Spec.Box
/-! C110: boxes hold what they are given. -/
namespace Ab.Box
open Spec.Box

variable {V : Type} (moved : V → V)

/-- What a variable or box holds. -/
def State.at (s : State V) : Slot → Option V
  | .var x => s.vars x
  | .box b => s.boxes b

theorem run_append (s : State V) (a b : List (Op V)) : run moved s (a ++ b) = (run moved s a >>= fun s => run moved s b) := by
  induction a generalizing s with
  | nil => rfl
  | cons o a ih =>
    simp only [List.cons_append, run]
    cases step moved s o with
    | ok t => simp only [Outcome.ok_bind]; exact ih t
    | _ => rfl

/-- One step does what it should, except `b = x` for a variable `x`, which moves, and `b = c` for a variable `c`, which is undefined. -/
theorem step_holds (past : List (Op V)) (s : State V) (h : ∀ t, s.at t = holds moved past t) (o : Op V)
    (h1 : ∀ b x, o = .giveVar b x → ∀ v, s.vars x = some v → moved v = v) (h2 : ∀ b c, o ≠ .assign b c)
    (ha : assigns o = true → (holds moved past (target o)).isSome) (hs : ∀ t, source o = .inr t → (holds moved past t).isSome) :
    ∃ s', step moved s o = .ok s' ∧ ∀ t, s'.at t = holds moved (o :: past) t := by
  have hv : ∀ x, s.vars x = holds moved past (.var x) := fun x => h (.var x)
  have hb : ∀ b, s.boxes b = holds moved past (.box b) := fun b => h (.box b)
  have gv : ∀ {x}, (holds moved past (.var x)).isSome = true → ∃ v, holds moved past (.var x) = some v ∧ get s.vars x = .ok v := by
    intro x hx
    obtain ⟨v, e⟩ := Option.isSome_iff_exists.1 hx
    exact ⟨v, e, by unfold get; rw [hv, e]⟩
  have gb : ∀ {x}, (holds moved past (.box x)).isSome = true → ∃ v, holds moved past (.box x) = some v ∧ get s.boxes x = .ok v := by
    intro x hx
    obtain ⟨v, e⟩ := Option.isSome_iff_exists.1 hx
    exact ⟨v, e, by unfold get; rw [hb, e]⟩
  cases o with
  | var x v =>
    refine ⟨_, rfl, fun t => ?_⟩
    cases t with
    | var y => by_cases e : y = x <;> simp [State.at, State.set, holds, target, source, saysMove, movesFrom, hv, e]
    | box c => simp [State.at, holds, target, saysMove, movesFrom, source, hb]
  | make b v =>
    refine ⟨_, rfl, fun t => ?_⟩
    cases t with
    | var y => simp [State.at, holds, target, saysMove, movesFrom, source, hv]
    | box c => by_cases e : c = b <;> simp [State.at, State.set, holds, target, source, saysMove, movesFrom, hb, e]
  | makeFrom b x =>
    obtain ⟨v, e1, e2⟩ := gv (hs _ rfl)
    refine ⟨_, by simp only [step, e2, Outcome.ok_bind]; rfl, fun t => ?_⟩
    cases t with
    | var y => simp [State.at, holds, target, saysMove, movesFrom, source, hv]
    | box c => by_cases e : c = b <;> simp [State.at, State.set, holds, target, source, saysMove, movesFrom, hb, e, e1]
  | makeMove b x =>
    obtain ⟨v, e1, e2⟩ := gv (hs _ rfl)
    refine ⟨_, by simp only [step, e2, Outcome.ok_bind]; rfl, fun t => ?_⟩
    cases t with
    | var y =>
      by_cases e : y = x
      · subst e; simp [State.at, State.set, holds, target, source, saysMove, movesFrom, e1]
      · simp [State.at, State.set, holds, target, source, saysMove, movesFrom, hv, e, Ne.symm e]
    | box c => by_cases e : c = b <;> simp [State.at, State.set, holds, target, source, saysMove, movesFrom, hb, e, e1]
  | copyBox b x =>
    obtain ⟨v, e1, e2⟩ := gb (hs _ rfl)
    refine ⟨_, by simp only [step, e2, Outcome.ok_bind]; rfl, fun t => ?_⟩
    cases t with
    | var y => simp [State.at, holds, target, saysMove, movesFrom, source, hv]
    | box c => by_cases e : c = b <;> simp [State.at, State.set, holds, target, source, saysMove, movesFrom, hb, e, e1]
  | moveBox b x =>
    obtain ⟨v, e1, e2⟩ := gb (hs _ rfl)
    refine ⟨_, by simp only [step, e2, Outcome.ok_bind]; rfl, fun t => ?_⟩
    cases t with
    | var y => simp [State.at, holds, target, source, saysMove, movesFrom, hv]
    | box c =>
      by_cases e : c = b
      · simp [State.at, State.set, holds, target, source, e, e1]
      · by_cases e' : c = x
        · subst e'; simp [State.at, State.set, holds, target, source, saysMove, movesFrom, e, e1]
        · simp [State.at, State.set, holds, target, source, saysMove, movesFrom, hb, e, e', Ne.symm e']
  | give b v =>
    obtain ⟨w, e3, e4⟩ := gb (ha rfl)
    refine ⟨_, by simp only [step, e4, Outcome.ok_bind]; rfl, fun t => ?_⟩
    cases t with
    | var y => simp [State.at, holds, target, saysMove, movesFrom, source, hv]
    | box c => by_cases e : c = b <;> simp [State.at, State.set, holds, target, source, saysMove, movesFrom, hb, e]
  | poke b v =>
    obtain ⟨w, e3, e4⟩ := gb (ha rfl)
    refine ⟨_, by simp only [step, e4, Outcome.ok_bind]; rfl, fun t => ?_⟩
    cases t with
    | var y => simp [State.at, holds, target, saysMove, movesFrom, source, hv]
    | box c => by_cases e : c = b <;> simp [State.at, State.set, holds, target, source, saysMove, movesFrom, hb, e]
  | giveConst b x =>
    obtain ⟨w, e3, e4⟩ := gb (ha rfl)
    obtain ⟨v, e1, e2⟩ := gv (hs _ rfl)
    refine ⟨_, by simp only [step, e2, e4, Outcome.ok_bind]; rfl, fun t => ?_⟩
    cases t with
    | var y => simp [State.at, holds, target, saysMove, movesFrom, source, hv]
    | box c => by_cases e : c = b <;> simp [State.at, State.set, holds, target, source, saysMove, movesFrom, hb, e, e1]
  | giveVar b x =>
    obtain ⟨w, e3, e4⟩ := gb (ha rfl)
    obtain ⟨v, e1, e2⟩ := gv (hs _ rfl)
    have hm := h1 b x rfl v (by rw [hv, e1])
    refine ⟨_, by simp only [step, e2, e4, Outcome.ok_bind]; rfl, fun t => ?_⟩
    cases t with
    | var y =>
      by_cases e : y = x
      · subst e; simp [State.at, State.set, holds, target, saysMove, movesFrom, source, e1, hm]
      · simp [State.at, State.set, holds, target, saysMove, movesFrom, source, hv, e]
    | box c => by_cases e : c = b <;> simp [State.at, State.set, holds, target, source, saysMove, movesFrom, hb, e, e1]
  | giveMove b x =>
    obtain ⟨w, e3, e4⟩ := gb (ha rfl)
    obtain ⟨v, e1, e2⟩ := gv (hs _ rfl)
    refine ⟨_, by simp only [step, e2, e4, Outcome.ok_bind]; rfl, fun t => ?_⟩
    cases t with
    | var y =>
      by_cases e : y = x
      · subst e; simp [State.at, State.set, holds, target, source, saysMove, movesFrom, e1]
      · simp [State.at, State.set, holds, target, source, saysMove, movesFrom, hv, e, Ne.symm e]
    | box c => by_cases e : c = b <;> simp [State.at, State.set, holds, target, source, saysMove, movesFrom, hb, e, e1]
  | assign b c => exact absurd rfl (h2 b c)
  | assignConst b x =>
    obtain ⟨w, e3, e4⟩ := gb (ha rfl)
    obtain ⟨v, e1, e2⟩ := gb (hs _ rfl)
    refine ⟨_, by simp only [step, e2, e4, Outcome.ok_bind]; rfl, fun t => ?_⟩
    cases t with
    | var y => simp [State.at, holds, target, saysMove, movesFrom, source, hv]
    | box c => by_cases e : c = b <;> simp [State.at, State.set, holds, target, source, saysMove, movesFrom, hb, e, e1]

/-- C110, the part that holds: a program that uses what is there, never assigns a box from a box variable (`b = c`), and assigns a box
from a variable (`b = x`) only if moving leaves the value alone, leaves every variable and every box holding the value written to it
last (after `std::move`, what a move leaves). Missing: the other two assignments. -/
theorem C110_holds_partial (p : List (Op V)) (hs : Sound moved p.reverse) (h1 : ∀ b c, Op.assign b c ∉ p)
    (h2 : (∀ b x, Op.giveVar b x ∉ p) ∨ ∀ v, moved v = v) :
    ∃ s, run moved State.start p = .ok s ∧ (∀ x, s.vars x = holds moved p.reverse (.var x)) ∧
      ∀ b, s.boxes b = holds moved p.reverse (.box b) := by
  suffices key : ∀ q : List (Op V), Sound moved q → (∀ b c, Op.assign b c ∉ q) → ((∀ b x, Op.giveVar b x ∉ q) ∨ ∀ v, moved v = v) →
      ∃ s, run moved State.start q.reverse = .ok s ∧ ∀ t, s.at t = holds moved q t by
    obtain ⟨s, e, h⟩ := key p.reverse hs (fun b c h => h1 b c (List.mem_reverse.1 h)) (by
      rcases h2 with h2 | h2
      · exact Or.inl fun b x h => h2 b x (List.mem_reverse.1 h)
      · exact Or.inr h2)
    rw [List.reverse_reverse] at e
    exact ⟨s, e, fun x => h (.var x), fun b => h (.box b)⟩
  intro q
  induction q with
  | nil => intro _ _ _; exact ⟨State.start, rfl, fun t => by cases t <;> rfl⟩
  | cons o past ih =>
    intro hs g1 g2
    obtain ⟨s, e, h⟩ := ih hs.2.2 (fun b c h => g1 b c (List.mem_cons_of_mem _ h)) (by
      rcases g2 with g2 | g2
      · exact Or.inl fun b x h => g2 b x (List.mem_cons_of_mem _ h)
      · exact Or.inr g2)
    obtain ⟨s', e', h'⟩ := step_holds moved past s h o
      (fun b x eo v _ => by
        rcases g2 with g2 | g2
        · exact absurd (by rw [eo]; exact List.mem_cons_self ..) (g2 b x)
        · exact g2 v)
      (fun b c eo => g1 b c (by rw [eo]; exact List.mem_cons_self ..)) hs.1 hs.2.1
    refine ⟨s', ?_, h'⟩
    rw [List.reverse_cons, run_append, e, Outcome.ok_bind, run, e', Outcome.ok_bind, run]

/-- C110 is false of the code: `b = x` empties `x` whenever moving does (`x` a `std::string`, say), though nobody said `std::move`; and
`a = b` for two boxes is undefined, whatever they hold. -/
theorem C110_negation (v w : V) :
    (∃ s, run moved State.start [.var 0 v, .make 0 w, .giveVar 0 0] = .ok s ∧ s.vars 0 = some (moved v) ∧
      holds moved [.giveVar 0 0, .make 0 w, .var 0 v] (.var 0) = some v) ∧
    Sound moved [.assign 0 1, .make 1 w, .make 0 v] ∧
    (run moved State.start [.make 0 v, .make 1 w, .assign 0 1]).isUb = true :=
  ⟨⟨_, rfl, rfl, rfl⟩, ⟨fun _ => rfl, fun t h => (by injection h with h; subst h; rfl), nofun, nofun, nofun, nofun, trivial⟩, rfl⟩

/-- Strings: `x = "ab"; Box b{x}; Box c{std::move(x)}; b = "z"; c = std::as_const(b)`. -/
example : let p : List (Op String) := [.var 0 "ab", .makeFrom 0 0, .makeMove 1 0, .give 0 "z", .assignConst 1 0]
    Sound (fun _ => "") p.reverse ∧ holds (fun _ => "") p.reverse (.var 0) = some "" ∧ holds (fun _ => "") p.reverse (.box 0) = some "z" ∧
      holds (fun _ => "") p.reverse (.box 1) = some "z" := by
  refine ⟨⟨fun _ => rfl, ?_, fun _ => rfl, nofun, nofun, ?_, nofun, ?_, nofun, nofun, trivial⟩, rfl, rfl, rfl⟩ <;>
    (intro t h; injection h with h; subst h; rfl)

end Ab.Box
