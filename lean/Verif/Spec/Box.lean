import Verif.Model.Box
/-! What variables and boxes should hold. -/
namespace Ab.Spec.Box
open Ab.Box

/-- A variable or a box. -/
inductive Slot
  | var (x : Nat)
  | box (b : Nat)
deriving DecidableEq

variable {V : Type}

/-- What is written. -/
def target : Op V → Slot
  | .var x _ => .var x
  | .make b _ | .makeFrom b _ | .makeMove b _ | .copyBox b _ | .moveBox b _ | .give b _ | .giveVar b _ | .giveConst b _ | .giveMove b _
  | .assign b _ | .assignConst b _ | .poke b _ => .box b

/-- Where the value comes from: it is written in the program, or held by something. -/
def source : Op V → V ⊕ Slot
  | .var _ v | .make _ v | .give _ v | .poke _ v => .inl v
  | .makeFrom _ x | .makeMove _ x | .giveVar _ x | .giveConst _ x | .giveMove _ x => .inr (.var x)
  | .copyBox _ c | .moveBox _ c | .assign _ c | .assignConst _ c => .inr (.box c)

/-- Does the program say `std::move`? -/
def saysMove : Op V → Bool
  | .makeMove .. | .moveBox .. | .giveMove .. => true
  | _ => false

/-- Must the target be there already? -/
def assigns : Op V → Bool
  | .give .. | .giveVar .. | .giveConst .. | .giveMove .. | .assign .. | .assignConst .. | .poke .. => true
  | _ => false

/-- Is the value taken from `s` by `std::move`? -/
def movesFrom (o : Op V) (s : Slot) : Bool :=
  match source o with
  | .inl _ => false
  | .inr t => saysMove o && t == s

/-- What a variable or box should hold after a program, given newest step first: the value written to it last; what is moved from is
left as a move leaves it; nothing else changes. -/
def holds (moved : V → V) : List (Op V) → Slot → Option V
  | [], _ => none
  | o :: past, s =>
    if s = target o then
      match source o with
      | .inl v => some v
      | .inr t => holds moved past t
    else if movesFrom o s then (holds moved past s).map moved
    else holds moved past s

/-- Every step uses what is there. -/
def Sound (moved : V → V) : List (Op V) → Prop
  | [] => True
  | o :: past => (assigns o = true → (holds moved past (target o)).isSome) ∧ (∀ t, source o = .inr t → (holds moved past t).isSome) ∧
      Sound moved past

end Ab.Spec.Box
