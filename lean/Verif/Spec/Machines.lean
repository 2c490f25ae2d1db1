import Verif.Model.Machines
/-!
Virtual machines as their users see them: each has its contexts, and moving a machine hands its contexts to the new one.
-/
namespace Ab.Spec.Vms
open Ab.Vms (Op)

/-- The machines with their contexts, newest first. -/
abbrev Ms := Nat → Option (List Nat)

def upd (ms : Ms) (v : Nat) (x : Option (List Nat)) : Ms := fun u => if u = v then x else ms u

/-- One operation; `none` if it cannot be done: an address is in use, an object is not there, or a machine still has contexts when it
ends. -/
inductive Step : Ms → Op → Ms → Prop
  | newVm {ms v} (h : ms v = none) : Step ms (.newVm v) (upd ms v (some []))
  | moveVm {ms v u l} (h : ms v = some l) (h' : ms u = none) : Step ms (.moveVm v u) (upd (upd ms v (some [])) u (some l))
  | endVm {ms v} (h : ms v = some []) : Step ms (.endVm v) (upd ms v none)
  | create {ms c v l} (h : ms v = some l) (h' : ∀ u k, ms u = some k → c ∉ k) : Step ms (.create c v) (upd ms v (some (c :: l)))
  | destroy {ms c v l} (h : ms v = some l) (h' : c ∈ l) : Step ms (.destroy c) (upd ms v (some (l.erase c)))

/-- A program. -/
inductive Run : Ms → List Op → Ms → Prop
  | nil {ms} : Run ms [] ms
  | cons {ms o ms' os ms''} (h : Step ms o ms') (h' : Run ms' os ms'') : Run ms (o :: os) ms''

/-- Only machines without contexts are moved. -/
inductive IdleMoves : Ms → List Op → Prop
  | nil {ms} : IdleMoves ms []
  | cons {ms o os} (h : ∀ v u, o = .moveVm v u → ms v = some []) (h' : ∀ ms', Step ms o ms' → IdleMoves ms' os) : IdleMoves ms (o :: os)

/-- At the start there is no machine. -/
def start : Ms := fun _ => none

end Ab.Spec.Vms
