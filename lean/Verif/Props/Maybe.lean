import Verif.Model.Maybe
/-! C49: optional values. -/
namespace Ab.MaybeM

variable {α : Type}

/-! ### Specification -/

/-- What each variable in use is meant to hold: a value or nothing. -/
abbrev Env (α : Type) := Nat → Option (Option α)

def Env.put (e : Env α) (i : Nat) (x : Option (Option α)) : Env α := fun k => if k = i then x else e k

/-- What each operation is meant to do; `none` when the program uses a variable that is not there or
introduces one that is. Moving out of a variable leaves a moved-from value in it. -/
def meant (moved : α → α) (e : Env α) : Op α → Option (Env α)
  | .nothing i => if e i = none then some (e.put i (some none)) else none
  | .value i v => if e i = none then some (e.put i (some (some v))) else none
  | .copy i j => match e i, e j with
    | none, some x => some (e.put i (some x))
    | _, _ => none
  | .move i j => match e i, e j with
    | none, some x => some ((e.put j (some (x.map moved))).put i (some x))
    | _, _ => none
  | .assign i j => match e i, e j with
    | some _, some x => some (e.put i (some x))
    | _, _ => none
  | .moveAssign i j => match e i, e j with
    | some _, some x => some ((e.put j (some (x.map moved))).put i (some x))
    | _, _ => none
  | .drop i => match e i with
    | some _ => some (e.put i none)
    | none => none

/-- The cases the property is false for: assigning a variable holding a value to itself, and assigning nothing
to a variable holding a value. -/
def Bad (e : Env α) : Op α → Prop
  | .assign i j => (i = j ∧ ∃ v, e i = some (some v)) ∨ (e j = some none ∧ ∃ v, e i = some (some v))
  | .moveAssign i j => (i = j ∧ ∃ v, e i = some (some v)) ∨ (e j = some none ∧ ∃ v, e i = some (some v))
  | _ => False

/-- A program that means something and avoids those cases, and the state it means to reach. -/
inductive Fine (moved : α → α) : Env α → List (Op α) → Env α → Prop
  | nil (e) : Fine moved e [] e
  | cons {e e' e'' o l} : meant moved e o = some e' → ¬ Bad e o → Fine moved e' l e'' → Fine moved e (o :: l) e''

/-- The variables a program names are below `N`. -/
def Op.below (N : Nat) : Op α → Prop
  | .nothing i => i < N
  | .value i _ => i < N
  | .copy i j => i < N ∧ j < N
  | .move i j => i < N ∧ j < N
  | .assign i j => i < N ∧ j < N
  | .moveAssign i j => i < N ∧ j < N
  | .drop i => i < N

/-- How many of the variables below `N` hold a value. -/
def held (e : Env α) : Nat → Nat
  | 0 => 0
  | n + 1 => held e n + (match e n with | some (some _) => 1 | _ => 0)

/-- The program's state is as meant: every variable holds what it should. -/
def AsMeant (s : St α) (e : Env α) : Prop := ∀ k, s.var k = (e k).map (fun x => ⟨x, x.isSome⟩)

/-! ### Proofs -/

/-- 1 for a variable holding a value. -/
def one (x : Option (Option α)) : Nat := match x with | some (some _) => 1 | _ => 0

theorem held_succ (e : Env α) (n : Nat) : held e (n + 1) = held e n + one (e n) := rfl

theorem held_put {e : Env α} {i : Nat} {x : Option (Option α)} : ∀ {N : Nat}, i < N →
    held (e.put i x) N + one (e i) = held e N + one x
  | 0, h => absurd h (by omega)
  | n + 1, h => by
    rw [held_succ, held_succ]
    by_cases hi : i = n
    · subst hi
      have : ∀ {m : Nat}, m ≤ i → held (e.put i x) m = held e m := by
        intro m
        induction m with
        | zero => intro _; rfl
        | succ m ih =>
          intro hm
          rw [held_succ, held_succ, ih (by omega)]
          simp only [Env.put]
          rw [if_neg (by omega)]
      rw [this (Nat.le_refl _)]
      simp only [Env.put, if_true]
      omega
    · have := held_put (e := e) (x := x) (N := n) (i := i) (by omega)
      have h2 : (e.put i x) n = e n := by simp only [Env.put]; rw [if_neg (fun h => hi h.symm)]
      rw [h2]; omega

theorem asMeant_put {s : St α} {e : Env α} (h : AsMeant s e) (i : Nat) (x : Option (Option α)) :
    AsMeant (s.set i (x.map (fun x => ⟨x, x.isSome⟩))) (e.put i x) := by
  intro k
  simp only [St.set, Env.put]
  split
  · rfl
  · exact h k

theorem get_of {s : St α} {e : Env α} (h : AsMeant s e) {i : Nat} {x : Option α} (hi : e i = some x) :
    s.get i = .ok ⟨x, x.isSome⟩ := by
  unfold St.get; rw [h i, hi]; rfl

theorem fresh_of {s : St α} {e : Env α} (h : AsMeant s e) {i : Nat} (hi : e i = none) : s.fresh i = .ok () := by
  unfold St.fresh; rw [h i, hi]; rfl

/-- The invariant: as meant, and every object made and not yet destroyed is in a variable. -/
structure Inv (N : Nat) (s : St α) (e : Env α) : Prop where
  as : AsMeant s e
  count : s.made = s.destroyed + held e N

theorem setNothing_inv {N : Nat} {s : St α} {e : Env α} (h : Inv N s e) {i : Nat} {x : Option α} (hi : e i = some x) (hN : i < N) :
    ∃ s', setNothing s i = .ok s' ∧ Inv N s' (e.put i (some none)) := by
  unfold setNothing
  rw [get_of h.as hi]
  simp only [Outcome.ok_bind]
  cases x with
  | none =>
    refine ⟨s, rfl, ?_, ?_⟩
    · have : e.put i (some none) = e := by
        funext k; simp only [Env.put]; split
        · rename_i hk; rw [hk, hi]
        · rfl
      rw [this]; exact h.as
    · have := held_put (e := e) (x := some none) hN
      rw [hi] at this
      simp only [one] at this
      rw [h.count]; omega
  | some v =>
    refine ⟨_, rfl, ?_, ?_⟩
    · exact asMeant_put h.as i (some none)
    · have := held_put (e := e) (x := some none) hN
      rw [hi] at this
      simp only [one] at this
      show s.made = s.destroyed + 1 + _
      rw [h.count]; omega

theorem put_put (e : Env α) (i : Nat) (x y : Option (Option α)) : (e.put i x).put i y = e.put i y := by
  funext k; simp only [Env.put]; split <;> rfl

theorem put_comm (e : Env α) {i j : Nat} (h : i ≠ j) (x y : Option (Option α)) :
    (e.put i x).put j y = (e.put j y).put i x := by
  funext k; simp only [Env.put]
  by_cases h1 : k = i
  · subst h1; rw [if_neg h]; simp
  · by_cases h2 : k = j
    · subst h2; simp [h1]
    · simp [h1, h2]

theorem put_self (e : Env α) {i : Nat} {x : Option (Option α)} (h : e i = x) : e.put i x = e := by
  funext k; simp only [Env.put]; split
  · rename_i hk; rw [hk, h]
  · rfl

/-- Storing another variable's value. -/
theorem setFrom_inv {N : Nat} {s : St α} {e : Env α} (moved : α → α) (mv : Bool) (h : Inv N s e) {i j : Nat} {x : Option α} {v : α}
    (hi : e i = some x) (hj : e j = some (some v)) (hij : i ≠ j) (hN : i < N) (hM : j < N) :
    ∃ s', setFrom moved mv s i j = .ok s' ∧
      Inv N s' (((if mv then e.put j (some (some (moved v))) else e)).put i (some (some v))) := by
  obtain ⟨s1, h1, hinv⟩ := setNothing_inv h hi hN
  unfold setFrom
  rw [h1]
  have hj' : (e.put i (some none)) j = some (some v) := by
    simp only [Env.put]; rw [if_neg (fun h => hij h.symm)]; exact hj
  have hd : deref s1 j = .ok v := by
    unfold deref; rw [get_of hinv.as hj']; rfl
  simp only [Outcome.ok_bind]
  rw [hd]
  simp only [Outcome.ok_bind]
  refine ⟨_, rfl, ?_, ?_⟩
  · cases mv with
    | false =>
      have := asMeant_put hinv.as i (some (some v))
      rw [put_put] at this
      exact this
    | true =>
      have := asMeant_put (asMeant_put hinv.as j (some (some (moved v)))) i (some (some v))
      rw [put_comm _ hij, put_put] at this
      exact this
  · have hc := hinv.count
    have hp := held_put (e := e.put i (some none)) (x := some (some v)) hN
    rw [put_put] at hp
    have h0 : one (e.put i (some none) i) = 0 := by simp [Env.put, one]
    rw [h0] at hp
    simp only [one] at hp
    cases mv with
    | false =>
      show s1.made + 1 = s1.destroyed + _
      simp only [Bool.false_eq_true, if_false]
      omega
    | true =>
      show s1.made + 1 = s1.destroyed + _
      simp only [if_true]
      rw [← put_comm _ hij]
      have hq := held_put (e := e.put i (some (some v))) (x := some (some (moved v))) hM
      have h1 : (e.put i (some (some v))) j = some (some v) := by
        simp only [Env.put]; rw [if_neg (fun h => hij h.symm)]; exact hj
      rw [h1] at hq
      simp only [one] at hq
      omega

theorem construct_inv {N : Nat} {s : St α} {e : Env α} (moved : α → α) (mv : Bool) (h : Inv N s e) {i j : Nat} {x : Option α}
    (hi : e i = none) (hj : e j = some x) (hN : i < N) (hM : j < N) :
    ∃ s', construct moved mv s i j = .ok s' ∧
      Inv N s' (((if mv then e.put j (some (x.map moved)) else e)).put i (some x)) := by
  have hij : i ≠ j := by intro h; subst h; rw [hi] at hj; cases hj
  unfold construct
  rw [fresh_of h.as hi]
  simp only [Outcome.ok_bind]
  rw [get_of h.as hj]
  simp only [Outcome.ok_bind]
  have hinv : Inv N (s.set i (some ⟨none, false⟩)) (e.put i (some none)) := by
    refine ⟨asMeant_put h.as i (some none), ?_⟩
    have := held_put (e := e) (x := some none) hN
    rw [hi] at this
    simp only [one] at this
    show s.made = s.destroyed + _
    rw [h.count]; omega
  cases x with
  | none =>
    refine ⟨_, rfl, ?_⟩
    cases mv with
    | false => exact hinv
    | true =>
      simp only [if_true, Option.map_none]
      rw [put_self e hj]; exact hinv
  | some v =>
    simp only [Option.isSome_some, if_true]
    have hi' : (e.put i (some none)) i = some none := by simp [Env.put]
    have hj' : (e.put i (some none)) j = some (some v) := by
      simp only [Env.put]; rw [if_neg (fun h => hij h.symm)]; exact hj
    obtain ⟨s', h1, h2⟩ := setFrom_inv moved mv hinv hi' hj' hij hN hM
    refine ⟨s', h1, ?_⟩
    cases mv with
    | false => simp only [Bool.false_eq_true, if_false] at h2 ⊢; rw [put_put] at h2; exact h2
    | true => simp only [if_true, Option.map_some] at h2 ⊢; rw [put_comm _ hij, put_put] at h2; exact h2

/-- The temporary an assignment returns. -/
theorem returned {N : Nat} {s : St α} {e : Env α} (h : Inv N s e) {i : Nat} {x : Option α} (hi : e i = some x) :
    ∃ s', (do
      let d ← s.get i
      if d.isJust then
        match d.obj with
        | none => Outcome.ub "copying what does not live"
        | some _ => pure { s with made := s.made + 1, destroyed := s.destroyed + 1 }
      else pure s) = .ok s' ∧ Inv N s' e := by
  rw [get_of h.as hi]
  cases x with
  | none => exact ⟨s, rfl, h⟩
  | some v =>
    refine ⟨_, rfl, h.as, ?_⟩
    show s.made + 1 = s.destroyed + 1 + _
    rw [h.count]; omega

theorem assign_inv {N : Nat} {s : St α} {e : Env α} (moved : α → α) (mv : Bool) (h : Inv N s e) {i j : Nat} {x y : Option α}
    (hi : e i = some y) (hj : e j = some x) (hN : i < N) (hM : j < N)
    (hb : ¬ ((i = j ∧ ∃ v, e i = some (some v)) ∨ (e j = some none ∧ ∃ v, e i = some (some v)))) :
    ∃ s', assign moved mv s i j = .ok s' ∧
      Inv N s' (((if mv then e.put j (some (x.map moved)) else e)).put i (some x)) := by
  unfold assign
  rw [get_of h.as hi]
  simp only [Outcome.ok_bind]
  rw [get_of h.as hj]
  simp only [Outcome.ok_bind]
  cases x with
  | none =>
    have hy : y = none := by
      cases y with
      | none => rfl
      | some v => exact absurd (Or.inr ⟨hj, v, hi⟩) hb
    subst hy
    have he : (if mv then e.put j (some ((none : Option α).map moved)) else e).put i (some none) = e := by
      cases mv with
      | false => exact put_self e hi
      | true =>
        show (e.put j (some none)).put i (some none) = e
        rw [put_self e hj, put_self e hi]
    rw [he]
    exact returned h hi
  | some v =>
    have hij : i ≠ j := by
      intro hij; subst hij
      exact hb (Or.inl ⟨rfl, v, hj⟩)
    simp only [Option.isSome_some, if_true]
    obtain ⟨s', h1, h2⟩ := setFrom_inv moved mv h hi hj hij hN hM
    rw [h1]
    have hi' : ((if mv then e.put j (some (some (moved v))) else e).put i (some (some v))) i = some (some v) := by
      simp [Env.put]
    exact returned h2 hi'

theorem step_inv {N : Nat} {s : St α} {e e' : Env α} (moved : α → α) (h : Inv N s e) (o : Op α) (hN : o.below N)
    (hm : meant moved e o = some e') (hb : ¬ Bad e o) : ∃ s', step moved s o = .ok s' ∧ Inv N s' e' := by
  cases o with
  | nothing i =>
    simp only [meant] at hm
    split at hm
    · rename_i hi
      injection hm with hm; subst hm
      simp only [step]
      rw [fresh_of h.as hi]
      refine ⟨_, rfl, asMeant_put h.as i (some none), ?_⟩
      have := held_put (e := e) (x := some none) hN
      rw [hi] at this
      simp only [one] at this
      show s.made = s.destroyed + _
      rw [h.count]; omega
    · cases hm
  | value i v =>
    simp only [meant] at hm
    split at hm
    · rename_i hi
      injection hm with hm; subst hm
      simp only [step]
      rw [fresh_of h.as hi]
      refine ⟨_, rfl, asMeant_put h.as i (some (some v)), ?_⟩
      have := held_put (e := e) (x := some (some v)) hN
      rw [hi] at this
      simp only [one] at this
      show s.made + 1 = s.destroyed + _
      rw [h.count]; omega
    · cases hm
  | copy i j =>
    simp only [meant] at hm
    split at hm
    · rename_i x hi hj
      injection hm with hm; subst hm
      exact construct_inv moved false h hi hj hN.1 hN.2
    · cases hm
  | move i j =>
    simp only [meant] at hm
    split at hm
    · rename_i x hi hj
      injection hm with hm; subst hm
      exact construct_inv moved true h hi hj hN.1 hN.2
    · cases hm
  | assign i j =>
    simp only [meant] at hm
    split at hm
    · rename_i y x hi hj
      injection hm with hm; subst hm
      exact assign_inv moved false h hi hj hN.1 hN.2 hb
    · cases hm
  | moveAssign i j =>
    simp only [meant] at hm
    split at hm
    · rename_i y x hi hj
      injection hm with hm; subst hm
      exact assign_inv moved true h hi hj hN.1 hN.2 hb
    · cases hm
  | drop i =>
    simp only [meant] at hm
    split at hm
    · rename_i x hi
      injection hm with hm; subst hm
      obtain ⟨s1, h1, h2⟩ := setNothing_inv h hi hN
      simp only [step]
      rw [h1]
      refine ⟨_, rfl, ?_, ?_⟩
      · have := asMeant_put h2.as i none
        rw [put_put] at this; exact this
      · have := held_put (e := e.put i (some none)) (x := none) hN
        rw [put_put] at this
        have h0 : one (e.put i (some none) i) = 0 := by simp [Env.put, one]
        rw [h0] at this
        simp only [one] at this
        show s1.made = s1.destroyed + _
        rw [h2.count]; omega
    · cases hm

theorem run_inv {N : Nat} (moved : α → α) {l : List (Op α)} {s : St α} {e e' : Env α} (h : Inv N s e)
    (hN : ∀ o ∈ l, o.below N) (hf : Fine moved e l e') : ∃ s', run moved s l = .ok s' ∧ Inv N s' e' := by
  induction hf generalizing s with
  | nil e => exact ⟨s, rfl, h⟩
  | cons hm hb _ ih =>
    obtain ⟨s1, h1, h2⟩ := step_inv moved h _ (hN _ (by simp)) hm hb
    obtain ⟨s2, h3, h4⟩ := ih h2 (fun o ho => hN o (by simp [ho]))
    exact ⟨s2, by unfold run; rw [h1]; exact h3, h4⟩

theorem held_none (N : Nat) : held (fun _ => none : Env α) N = 0 := by
  induction N with
  | zero => rfl
  | succ n ih => rw [held, ih]; rfl

/-- C49: for every program of constructions, copies, moves, assignments and ends of life that assigns neither a
variable holding a value to itself nor nothing to a variable holding a value: it runs without undefined
behaviour, at the end every variable holds exactly the value or absence last given to it, and every object
ever made in a `Maybe` is either held by a variable or has been destroyed (exactly once). Missing: those
assignments. -/
theorem C49_values_partial (moved : α → α) (l : List (Op α)) (e : Env α) (N : Nat) (hN : ∀ o ∈ l, o.below N)
    (hf : Fine moved (fun _ => none) l e) :
    ∃ s, run moved St.init l = .ok s ∧ AsMeant s e ∧ s.made = s.destroyed + held e N := by
  obtain ⟨s, h1, h2⟩ := run_inv (N := N) moved (s := St.init) ⟨fun _ => rfl, by rw [held_none]; rfl⟩ hN hf
  exact ⟨s, h1, h2.as, h2.count⟩

/-- What does happen when nothing is assigned to a variable: in every state, the variable keeps its value. -/
theorem C49_assigning_nothing_partial (moved : α → α) (s : St α) (e : Env α) (h : AsMeant s e) (i j : Nat) (v : α)
    (hi : e i = some (some v)) (hj : e j = some none) (mv : Bool) :
    ∃ s', assign moved mv s i j = .ok s' ∧ AsMeant s' e := by
  unfold assign
  rw [get_of h hi]
  simp only [Outcome.ok_bind]
  rw [get_of h hj]
  simp only [Outcome.ok_bind, Option.isSome_none, Bool.false_eq_true, if_false]
  refine ⟨{ s with made := s.made + 1, destroyed := s.destroyed + 1 }, ?_, h⟩
  show (do let d ← s.get i; _) = _
  rw [get_of h hi]
  rfl

/-- And when a variable holding a value is assigned to itself: its value is destroyed, then read. -/
theorem C49_self_assignment_partial (moved : α → α) (s : St α) (e : Env α) (h : AsMeant s e) (i : Nat) (v : α)
    (hi : e i = some (some v)) (mv : Bool) : (assign moved mv s i i).isUb = true := by
  unfold assign
  rw [get_of h hi]
  simp only [Outcome.ok_bind, Option.isSome_some, if_true]
  unfold setFrom setNothing
  rw [get_of h hi]
  simp only [Outcome.ok_bind, Option.isSome_some, if_true, Outcome.pure_eq]
  unfold deref St.get
  simp only [St.set, if_true]
  rfl

/-- C49 fails: after `Maybe<int> a(1), b; a = b;` the variable still holds 1; and `a = a` is undefined. -/
theorem C49_negation :
    (∃ s, run (fun n : Nat => n) St.init [.value 0 1, .nothing 1, .assign 0 1] = .ok s ∧ s.var 0 = some ⟨some 1, true⟩) ∧
    (run (fun n : Nat => n) St.init [.value 0 1, .assign 0 0]).isUb = true :=
  ⟨⟨_, rfl, rfl⟩, rfl⟩

/-- `Maybe<int> a(1), b; b = a; Maybe<int> c(std::move(b));` and the end of `a`: the hypotheses hold. -/
example : ∃ e, Fine (fun _ : Nat => 0) (fun _ => none) [.value 0 1, .nothing 1, .assign 1 0, .move 2 1, .drop 0] e ∧
    e 0 = none ∧ e 1 = some (some 0) ∧ e 2 = some (some 1) ∧ held e 3 = 2 ∧
    ∀ o ∈ ([.value 0 1, .nothing 1, .assign 1 0, .move 2 1, .drop 0] : List (Op Nat)), o.below 3 := by
  refine ⟨_, .cons rfl id (.cons rfl id (.cons rfl ?_ (.cons rfl id (.cons rfl id (.nil _))))), rfl, rfl, rfl, rfl, ?_⟩
  · rintro (⟨h, _⟩ | ⟨h, _⟩) <;> cases h
  · intro o ho
    simp at ho
    rcases ho with rfl | rfl | rfl | rfl | rfl <;> simp [Op.below]

end Ab.MaybeM
