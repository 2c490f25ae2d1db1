import Verif.Model.Result
/-! C79: results of operations. -/
namespace Ab.ResultM

variable {α ε : Type}

/-! ### Specification -/

/-- What each variable in use is meant to hold: a value or an error. -/
abbrev Env (α ε : Type) := Nat → Option (Sum α ε)

def Env.put (e : Env α ε) (i : Nat) (x : Option (Sum α ε)) : Env α ε := fun k => if k = i then x else e k

/-- What is left behind by moving out. -/
def left (t : Types α ε) : Sum α ε → Sum α ε
  | .inl v => .inl (t.movedT v)
  | .inr e => .inr (t.movedE e)

/-- What each operation is meant to do; `none` when the program uses a variable that is not there or introduces one that
is. -/
def meant (t : Types α ε) (e : Env α ε) : Op α ε → Option (Env α ε)
  | .ok i v => if (e i).isNone then some (e.put i (some (.inl v))) else none
  | .err i x => if (e i).isNone then some (e.put i (some (.inr x))) else none
  | .copy i j => match e i, e j with
    | none, some x => some (e.put i (some x))
    | _, _ => none
  | .move i j => match e i, e j with
    | none, some x => some ((e.put j (some (left t x))).put i (some x))
    | _, _ => none
  | .setOk i v => match e i with
    | some _ => some (e.put i (some (.inl v)))
    | none => none
  | .setErr i x => match e i with
    | some _ => some (e.put i (some (.inr x)))
    | none => none
  | .drop i => match e i with
    | some _ => some (e.put i none)
    | none => none

/-- The cases the property is false for: a value of class type assigned over an error; an error assigned over a value
when either is of class type. -/
def Bad (t : Types α ε) (e : Env α ε) : Op α ε → Prop
  | .setOk i _ => t.trivT = false ∧ ∃ x, e i = some (.inr x)
  | .setErr i _ => (t.trivT = false ∨ t.trivE = false) ∧ ∃ v, e i = some (.inl v)
  | _ => False

/-- A program that means something and avoids those cases, and the state it means to reach. -/
inductive Fine (t : Types α ε) : Env α ε → List (Op α ε) → Env α ε → Prop
  | nil (e) : Fine t e [] e
  | cons {e e' e'' o l} : meant t e o = some e' → ¬ Bad t e o → Fine t e' l e'' → Fine t e (o :: l) e''

/-- A program that means something. -/
inductive Means (t : Types α ε) : Env α ε → List (Op α ε) → Env α ε → Prop
  | nil (e) : Means t e [] e
  | cons {e e' e'' o l} : meant t e o = some e' → Means t e' l e'' → Means t e (o :: l) e''

/-- The variables a program names are below `N`. -/
def Op.below (N : Nat) : Op α ε → Prop
  | .ok i _ => i < N
  | .err i _ => i < N
  | .copy i j => i < N ∧ j < N
  | .move i j => i < N ∧ j < N
  | .setOk i _ => i < N
  | .setErr i _ => i < N
  | .drop i => i < N

/-- How many objects of class type a variable holds. -/
def weight (t : Types α ε) : Option (Sum α ε) → Nat
  | some (.inl _) => if t.trivT then 0 else 1
  | some (.inr _) => if t.trivE then 0 else 1
  | none => 0

/-- How many the variables below `N` hold. -/
def held (t : Types α ε) (e : Env α ε) : Nat → Nat
  | 0 => 0
  | n + 1 => held t e n + weight t (e n)

/-- Every variable answers as it should: `isOk`, the value and the error, with a failed assertion for the other one. -/
def Answers (s : St α ε) (e : Env α ε) : Prop := ∀ i x, e i = some x →
  match x with
  | .inl v => isOkOf s i = .ok true ∧ valueOf s i = .ok v ∧ errorOf s i = .trap "assertion failed"
  | .inr x => isOkOf s i = .ok false ∧ errorOf s i = .ok x ∧ valueOf s i = .trap "assertion failed"

/-! ### Proofs -/

/-- The cell that holds it. -/
def cell (x : Sum α ε) : Cell α ε := ⟨some x, x.isLeft⟩

def AsMeant (s : St α ε) (e : Env α ε) : Prop := ∀ k, s.var k = (e k).map cell

theorem AsMeant.answers {s : St α ε} {e : Env α ε} (h : AsMeant s e) : Answers s e := by
  intro i x hi
  have hg : s.get i = .ok (cell x) := by unfold St.get; rw [h i, hi]; rfl
  cases x <;> simp only [isOkOf, valueOf, errorOf, hg] <;> exact ⟨rfl, rfl, rfl⟩

theorem held_succ (t : Types α ε) (e : Env α ε) (n : Nat) : held t e (n + 1) = held t e n + weight t (e n) := rfl

theorem held_put {t : Types α ε} {e : Env α ε} {i : Nat} {x : Option (Sum α ε)} : ∀ {N : Nat}, i < N →
    held t (e.put i x) N + weight t (e i) = held t e N + weight t x
  | 0, h => absurd h (by omega)
  | n + 1, h => by
    rw [held_succ, held_succ]
    by_cases hi : i = n
    · subst hi
      have : ∀ {m : Nat}, m ≤ i → held t (e.put i x) m = held t e m := by
        intro m
        induction m with
        | zero => intro _; rfl
        | succ m ih =>
          intro hm
          rw [held_succ, held_succ, ih (by omega)]
          simp only [Env.put]
          rw [if_neg (by omega)]
      rw [this (Nat.le_refl _)]
      simp only [Env.put, if_true]
      omega
    · have := held_put (t := t) (e := e) (x := x) (N := n) (i := i) (by omega)
      have h2 : (e.put i x) n = e n := by simp only [Env.put]; rw [if_neg (fun h => hi h.symm)]
      rw [h2]; omega

theorem asMeant_put {s : St α ε} {e : Env α ε} (h : AsMeant s e) (i : Nat) (x : Option (Sum α ε)) :
    AsMeant (s.set i (x.map cell)) (e.put i x) := by
  intro k
  simp only [St.set, Env.put]
  split
  · rfl
  · exact h k

theorem get_of {s : St α ε} {e : Env α ε} (h : AsMeant s e) {i : Nat} {x : Sum α ε} (hi : e i = some x) :
    s.get i = .ok (cell x) := by
  unfold St.get; rw [h i, hi]; rfl

theorem fresh_of {s : St α ε} {e : Env α ε} (h : AsMeant s e) {i : Nat} (hi : e i = none) : s.fresh i = .ok () := by
  unfold St.fresh; rw [h i, hi]; rfl

/-- As meant; every object made and not destroyed is in a variable, but for `lost` of them. -/
structure Inv (t : Types α ε) (N lost : Nat) (s : St α ε) (e : Env α ε) : Prop where
  as : AsMeant s e
  count : s.made = s.destroyed + held t e N + lost

theorem weight_left (t : Types α ε) (x : Sum α ε) : weight t (some (left t x)) = weight t (some x) := by
  cases x <;> rfl

theorem construct_inv {t : Types α ε} {N lost : Nat} {s : St α ε} {e : Env α ε} (mv : Bool) (h : Inv t N lost s e) {i j : Nat}
    {x : Sum α ε} (hi : e i = none) (hj : e j = some x) (hN : i < N) (hM : j < N) :
    ∃ s', construct t mv s i j = .ok s' ∧
      Inv t N lost s' ((if mv then e.put j (some (left t x)) else e).put i (some x)) := by
  have hij : i ≠ j := by intro h; subst h; rw [hi] at hj; cases hj
  unfold construct
  rw [fresh_of h.as hi]
  simp only [Outcome.ok_bind]
  rw [get_of h.as hj]
  simp only [Outcome.ok_bind]
  have hc := h.count
  have hcount : held t ((if mv then e.put j (some (left t x)) else e).put i (some x)) N = held t e N + weight t (some x) := by
    cases mv with
    | false =>
      have := held_put (t := t) (e := e) (x := some x) hN
      rw [hi] at this
      simpa [weight] using this
    | true =>
      have h1 := held_put (t := t) (e := e.put j (some (left t x))) (x := some x) hN
      have h2 := held_put (t := t) (e := e) (x := some (left t x)) hM
      have h3 : (e.put j (some (left t x))) i = none := by simp only [Env.put]; rw [if_neg hij]; exact hi
      rw [h3] at h1
      rw [hj, weight_left] at h2
      have h4 : weight t none = 0 := rfl
      simp only [if_true]
      omega
  cases x with
  | inl v =>
    refine ⟨_, rfl, ?_, ?_⟩
    · cases mv with
      | false => exact asMeant_put h.as i (some (.inl v))
      | true => exact asMeant_put (asMeant_put h.as j (some (.inl (t.movedT v)))) i (some (.inl v))
    · rw [hcount]
      have hw : weight t (some (.inl v)) = one t.trivT := rfl
      cases mv <;> (show s.made + one t.trivT = s.destroyed + _ + _) <;> omega
  | inr x =>
    refine ⟨_, rfl, ?_, ?_⟩
    · cases mv with
      | false => exact asMeant_put h.as i (some (.inr x))
      | true => exact asMeant_put (asMeant_put h.as j (some (.inr (t.movedE x)))) i (some (.inr x))
    · rw [hcount]
      have hw : weight t (some (.inr x)) = one t.trivE := rfl
      cases mv <;> (show s.made + one t.trivE = s.destroyed + _ + _) <;> omega

/-- What an operation does when it is defined: it does what it means, and an error over a value of class type loses the
value. -/
def loses (t : Types α ε) (e : Env α ε) : Op α ε → Nat
  | .setErr i _ => match e i with
    | some (.inl _) => one t.trivT
    | _ => 0
  | _ => 0

/-- Undefined: assigning a value of class type over an error, an error of class type over a value. -/
def Undefined (t : Types α ε) (e : Env α ε) : Op α ε → Prop
  | .setOk i _ => t.trivT = false ∧ ∃ x, e i = some (.inr x)
  | .setErr i _ => t.trivE = false ∧ ∃ v, e i = some (.inl v)
  | _ => False

theorem step_inv {t : Types α ε} {N lost : Nat} {s : St α ε} {e e' : Env α ε} (h : Inv t N lost s e) (o : Op α ε) (hN : o.below N)
    (hm : meant t e o = some e') (hu : ¬ Undefined t e o) :
    ∃ s', step t s o = .ok s' ∧ Inv t N (lost + loses t e o) s' e' := by
  have hc := h.count
  cases o with
  | ok i v =>
    simp only [meant] at hm
    split at hm
    · rename_i hi
      injection hm with hm; subst hm
      have hi : e i = none := Option.isNone_iff_eq_none.mp hi
      simp only [step]
      rw [fresh_of h.as hi]
      refine ⟨_, rfl, asMeant_put h.as i (some (.inl v)), ?_⟩
      have := held_put (t := t) (e := e) (x := some (.inl v)) hN
      rw [hi] at this
      have hw : weight t (some (.inl v)) = one t.trivT := rfl
      have hw' : weight t none = 0 := rfl
      show s.made + one t.trivT = s.destroyed + _ + (lost + 0)
      omega
    · cases hm
  | err i x =>
    simp only [meant] at hm
    split at hm
    · rename_i hi
      injection hm with hm; subst hm
      have hi : e i = none := Option.isNone_iff_eq_none.mp hi
      simp only [step]
      rw [fresh_of h.as hi]
      refine ⟨_, rfl, asMeant_put h.as i (some (.inr x)), ?_⟩
      have := held_put (t := t) (e := e) (x := some (.inr x)) hN
      rw [hi] at this
      have hw : weight t (some (.inr x)) = one t.trivE := rfl
      have hw' : weight t none = 0 := rfl
      show s.made + one t.trivE = s.destroyed + _ + (lost + 0)
      omega
    · cases hm
  | copy i j =>
    simp only [meant] at hm
    split at hm
    · rename_i x hi hj
      injection hm with hm; subst hm
      exact construct_inv false h hi hj hN.1 hN.2
    · cases hm
  | move i j =>
    simp only [meant] at hm
    split at hm
    · rename_i x hi hj
      injection hm with hm; subst hm
      exact construct_inv true h hi hj hN.1 hN.2
    · cases hm
  | setOk i v =>
    simp only [meant] at hm
    split at hm
    · rename_i y hi
      injection hm with hm; subst hm
      have hp := held_put (t := t) (e := e) (x := some (.inl v)) hN
      rw [hi] at hp
      have hw : weight t (some (.inl v)) = one t.trivT := rfl
      simp only [step]
      rw [get_of h.as hi]
      simp only [Outcome.ok_bind]
      cases y with
      | inl w =>
        have hw2 : weight t (some (.inl w)) = one t.trivT := rfl
        refine ⟨_, rfl, asMeant_put h.as i (some (.inl v)), ?_⟩
        show s.made = s.destroyed + 0 + _ + (lost + 0)
        omega
      | inr w =>
        have hT : t.trivT = true := by
          cases hT : t.trivT with
          | true => rfl
          | false => exact absurd ⟨hT, w, hi⟩ hu
        have hw2 : weight t (some (.inr w)) = one t.trivE := rfl
        have hd : destroyError t (cell (.inr w)) = .ok (⟨if t.trivE then some (.inr w) else none, false⟩, one t.trivE) := by
          unfold destroyError cell one
          cases t.trivE <;> rfl
        simp only [cell, Sum.isLeft_inr, Bool.false_eq_true, if_false] at hd ⊢
        rw [hd]
        simp only [Outcome.ok_bind]
        have ha : assignValue t (⟨if t.trivE then some (.inr w) else none, false⟩ : Cell α ε) v = .ok ⟨some (.inl v), false⟩ := by
          unfold assignValue
          rw [hT]
          cases t.trivE <;> rfl
        rw [ha]
        refine ⟨_, rfl, asMeant_put h.as i (some (.inl v)), ?_⟩
        show s.made = s.destroyed + one t.trivE + _ + (lost + 0)
        have h0 : one t.trivT = 0 := by rw [hT]; rfl
        omega
    · cases hm
  | setErr i x =>
    simp only [meant] at hm
    split at hm
    · rename_i y hi
      injection hm with hm; subst hm
      have hp := held_put (t := t) (e := e) (x := some (.inr x)) hN
      rw [hi] at hp
      have hw : weight t (some (.inr x)) = one t.trivE := rfl
      simp only [step]
      rw [get_of h.as hi]
      simp only [Outcome.ok_bind]
      cases y with
      | inr w =>
        have hw2 : weight t (some (.inr w)) = one t.trivE := rfl
        refine ⟨_, rfl, asMeant_put h.as i (some (.inr x)), ?_⟩
        simp only [loses, hi]
        show s.made = s.destroyed + _ + (lost + 0)
        omega
      | inl w =>
        have hE : t.trivE = true := by
          cases hE : t.trivE with
          | true => rfl
          | false => exact absurd ⟨hE, w, hi⟩ hu
        have hw2 : weight t (some (.inl w)) = one t.trivT := rfl
        have ha : assignError t (cell (.inl w)) x = .ok ⟨some (.inr x), true⟩ := by
          unfold assignError cell
          rw [hE]; rfl
        rw [ha]
        refine ⟨_, rfl, asMeant_put h.as i (some (.inr x)), ?_⟩
        simp only [loses, hi]
        show s.made = s.destroyed + _ + (lost + one t.trivT)
        have h0 : one t.trivE = 0 := by rw [hE]; rfl
        omega
    · cases hm
  | drop i =>
    simp only [meant] at hm
    split at hm
    · rename_i y hi
      injection hm with hm; subst hm
      have hp := held_put (t := t) (e := e) (x := none) hN
      rw [hi] at hp
      have hw : weight t none = 0 := rfl
      simp only [step]
      rw [get_of h.as hi]
      simp only [Outcome.ok_bind]
      cases y with
      | inl w =>
        have hw2 : weight t (some (.inl w)) = one t.trivT := rfl
        have hd : ∃ c, destroyValue t (cell (.inl w)) = .ok (c, one t.trivT) := by
          unfold destroyValue cell one
          cases t.trivT <;> exact ⟨_, rfl⟩
        obtain ⟨c, hd⟩ := hd
        simp only [cell, Sum.isLeft_inl, if_true] at hd ⊢
        rw [hd]
        refine ⟨_, rfl, asMeant_put h.as i none, ?_⟩
        show s.made = s.destroyed + one t.trivT + _ + (lost + 0)
        omega
      | inr w =>
        have hw2 : weight t (some (.inr w)) = one t.trivE := rfl
        have hd : ∃ c, destroyError t (cell (.inr w)) = .ok (c, one t.trivE) := by
          unfold destroyError cell one
          cases t.trivE <;> exact ⟨_, rfl⟩
        obtain ⟨c, hd⟩ := hd
        simp only [cell, Sum.isLeft_inr, Bool.false_eq_true, if_false] at hd ⊢
        rw [hd]
        refine ⟨_, rfl, asMeant_put h.as i none, ?_⟩
        show s.made = s.destroyed + one t.trivE + _ + (lost + 0)
        omega
    · cases hm

theorem undefined_ub {t : Types α ε} {s : St α ε} {e : Env α ε} (h : AsMeant s e) (o : Op α ε) (hu : Undefined t e o) :
    (step t s o).isUb = true := by
  cases o with
  | setOk i v =>
    obtain ⟨hT, w, hi⟩ := hu
    simp only [step]
    rw [get_of h hi]
    simp only [Outcome.ok_bind, cell, Sum.isLeft_inr, Bool.false_eq_true, if_false]
    unfold destroyError assignValue
    rw [hT]
    cases t.trivE <;> rfl
  | setErr i x =>
    obtain ⟨hE, w, hi⟩ := hu
    simp only [step]
    rw [get_of h hi]
    simp only [Outcome.ok_bind, cell]
    unfold assignError
    rw [hE]
    rfl
  | _ => cases hu

theorem fine_means {t : Types α ε} {e e' : Env α ε} {l : List (Op α ε)} (h : Fine t e l e') : Means t e l e' := by
  induction h with
  | nil e => exact .nil e
  | cons a _ _ ih => exact .cons a ih

theorem Bad.of_undefined {t : Types α ε} {e : Env α ε} {o : Op α ε} (h : Undefined t e o) : Bad t e o := by
  cases o with
  | setOk i v => exact h
  | setErr i x => exact ⟨Or.inr h.1, h.2⟩
  | _ => cases h

theorem loses_of_not_bad {t : Types α ε} {e : Env α ε} {o : Op α ε} (h : ¬ Bad t e o) : loses t e o = 0 := by
  cases o with
  | setErr i x =>
    simp only [loses]
    split
    · rename_i v hi
      cases hT : t.trivT with
      | true => rfl
      | false => exact absurd ⟨Or.inl hT, v, hi⟩ h
    · rfl
  | _ => rfl

theorem run_fine {t : Types α ε} {N lost : Nat} {l : List (Op α ε)} {s : St α ε} {e e' : Env α ε} (h : Inv t N lost s e)
    (hN : ∀ o ∈ l, o.below N) (hf : Fine t e l e') : ∃ s', run t s l = .ok s' ∧ Inv t N lost s' e' := by
  induction hf generalizing s with
  | nil e => exact ⟨s, rfl, h⟩
  | cons hm hb _ ih =>
    obtain ⟨s1, h1, h2⟩ := step_inv h _ (hN _ (by simp)) hm (fun h => hb (.of_undefined h))
    rw [loses_of_not_bad hb] at h2
    obtain ⟨s2, h3, h4⟩ := ih h2 (fun o ho => hN o (by simp [ho]))
    exact ⟨s2, by unfold run; rw [h1]; exact h3, h4⟩

theorem run_means {t : Types α ε} {N lost : Nat} {l : List (Op α ε)} {s : St α ε} {e e' : Env α ε} (h : Inv t N lost s e)
    (hN : ∀ o ∈ l, o.below N) (hf : Means t e l e') :
    (run t s l).isUb = true ∨ ∃ s' lost', run t s l = .ok s' ∧ lost ≤ lost' ∧ Inv t N lost' s' e' ∧ (lost' = lost → Fine t e l e') := by
  induction hf generalizing s lost with
  | nil e => exact Or.inr ⟨s, lost, rfl, Nat.le_refl _, h, fun _ => .nil e⟩
  | @cons e e1 e2 o l hm hr ih =>
    by_cases hu : Undefined t e o
    · left
      have := undefined_ub h.as o hu
      unfold run
      cases hs : step t s o <;> rw [hs] at this <;> first | rfl | cases this
    · obtain ⟨s1, h1, h2⟩ := step_inv h o (hN _ (by simp)) hm hu
      rcases ih h2 (fun o ho => hN o (by simp [ho])) with hub | ⟨s2, lost', h3, h4, h5, h6⟩
      · left; unfold run; rw [h1]; exact hub
      · refine Or.inr ⟨s2, lost', by unfold run; rw [h1]; exact h3, by omega, h5, fun he => ?_⟩
        have h0 : loses t e o = 0 := by omega
        refine .cons hm ?_ (h6 (by omega))
        intro hb
        cases o with
        | setOk i v => exact hu hb
        | setErr i x =>
          obtain ⟨hTE, v, hi⟩ := hb
          rcases hTE with hT | hE
          · simp only [loses, hi, hT] at h0; cases h0
          · exact hu ⟨hE, v, hi⟩
        | _ => cases hb

theorem held_none (t : Types α ε) (N : Nat) : held t (fun _ => none : Env α ε) N = 0 := by
  induction N with
  | zero => rfl
  | succ n ih => rw [held, ih]; rfl

theorem init_inv (t : Types α ε) (N : Nat) : Inv t N 0 (St.init : St α ε) (fun _ => none) :=
  ⟨fun _ => rfl, by rw [held_none]; rfl⟩

/-- C79: for every program of constructions, copies, moves, assignments and ends of life that does not assign over the
other kind – except where the types are trivial –: it runs, at the end every result answers with the value or error last
given to it, and every object of class type is either held by a result or has been destroyed (exactly once). -/
theorem C79_results_partial (t : Types α ε) (l : List (Op α ε)) (e : Env α ε) (N : Nat) (hN : ∀ o ∈ l, o.below N)
    (hf : Fine t (fun _ => none) l e) :
    ∃ s, run t St.init l = .ok s ∧ Answers s e ∧ s.made = s.destroyed + held t e N := by
  obtain ⟨s, h1, h2⟩ := run_fine (init_inv t N) hN hf
  exact ⟨s, h1, h2.as.answers, h2.count⟩

/-- And no other program: one that assigns over the other kind where a type is not trivial has undefined behaviour, or
ends with an object that nobody holds and nobody has destroyed. -/
theorem C79_no_other_program_partial (t : Types α ε) (l : List (Op α ε)) (e : Env α ε) (N : Nat) (hN : ∀ o ∈ l, o.below N)
    (hm : Means t (fun _ => none) l e) (hf : ¬ Fine t (fun _ => none) l e) :
    (run t St.init l).isUb = true ∨ ∃ s, run t St.init l = .ok s ∧ s.destroyed + held t e N < s.made := by
  rcases run_means (init_inv t N) hN hm with h | ⟨s, lost, h1, -, h2, h3⟩
  · exact Or.inl h
  · refine Or.inr ⟨s, h1, ?_⟩
    have : lost ≠ 0 := fun h => hf (h3 h)
    have := h2.count
    omega

/-- C79 fails: `r = err(1); r = ok(2)` for a value of class type is undefined, so is `r = ok(2); r = err(1)` for an error
of class type, and with a trivial error the latter never destroys the value, although `r` is gone. -/
theorem C79_negation :
    (run (⟨false, true, id, id⟩ : Types Nat Nat) St.init [.err 0 1, .setOk 0 2]).isUb = true ∧
    (run (⟨true, false, id, id⟩ : Types Nat Nat) St.init [.ok 0 2, .setErr 0 1]).isUb = true ∧
    (∃ s, run (⟨false, true, id, id⟩ : Types Nat Nat) St.init [.ok 0 2, .setErr 0 1, .drop 0] = .ok s ∧
      (∀ i, s.var i = none) ∧ s.made = 1 ∧ s.destroyed = 0) := by
  refine ⟨rfl, rfl, _, rfl, ?_, rfl, rfl⟩
  intro i
  simp only [St.set, St.init]
  split
  · rfl
  · rfl

/-- Values of class type and trivial errors: `a = ok(1); b = err(7); c(move(a)); b = err(8); a = ok(2);` and the end of
`c`. -/
example : ∃ e, Fine (⟨false, true, fun _ => 0, id⟩ : Types Nat Nat) (fun _ => none)
      [.ok 0 1, .err 1 7, .move 2 0, .setErr 1 8, .setOk 0 2, .drop 2] e ∧
    e 0 = some (.inl 2) ∧ e 1 = some (.inr 8) ∧ e 2 = none ∧ held ⟨false, true, fun _ => 0, id⟩ e 3 = 1 := by
  refine ⟨_, .cons rfl id (.cons rfl id (.cons rfl id (.cons rfl ?_ (.cons rfl ?_ (.cons rfl id (.nil _)))))), rfl, rfl,
    rfl, rfl⟩
  · rintro ⟨-, v, h⟩; cases h
  · rintro ⟨-, v, h⟩; cases h

end Ab.ResultM
