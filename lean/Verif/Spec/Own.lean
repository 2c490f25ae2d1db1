import Verif.Model.Own
/-!
Specification of the ownership of module bytes (C68, C69), in terms of what a program can name: its storages, its
`shared_ptr` variables and its instance pointers.
-/
namespace Ab.Spec.Own
open Ab.Own

/-- The blocks a program hands over, each with the deleter it is to be released with. A block given as plain bytes is to
be released with `std::free` (deleter 0); a block given without a deleter stays the program's own. -/
def handed : List Op → List (Nat × Nat)
  | [] => []
  | .storage b (some d) :: ops => (d, b) :: handed ops
  | .compileBytes b :: ops => (0, b) :: handed ops
  | .instantiateBytes b :: ops => (0, b) :: handed ops
  | _ :: ops => handed ops

/-- Module `m` exists and was made from block `b` with deleter `d`. -/
def MadeFrom (s : St) (m d b : Nat) : Prop :=
  ∃ x, s.mods[m]? = some (some x) ∧ x.storage = ⟨some b, some d⟩

/-- The program can still reach block `b`: through a storage, through a pointer to a module made from it, or through an
instance of such a module. -/
def Reaches (s : St) (d b : Nat) : Prop :=
  some ⟨some b, some d⟩ ∈ s.storages ∨
  ∃ m, MadeFrom s m d b ∧ (some (some m) ∈ s.ptrs ∨ ∃ i, some i ∈ s.insts ∧ i.mod = m)

/-- The operation names only objects that exist, does not instantiate a null pointer, does not compile a storage that
was moved from, and does not destroy the VM twice. -/
def Sensible (s : St) : Op → Prop
  | .storage _ _ | .compileBytes _ | .instantiateBytes _ => True
  | .moveStorage i | .dropStorage i => ∃ st, s.storages[i]? = some (some st)
  | .compileStorage i => ∃ b d, s.storages[i]? = some (some ⟨some b, d⟩)
  | .copyPtr i | .movePtr i | .dropPtr i => ∃ p, s.ptrs[i]? = some (some p)
  | .instantiate i | .instantiateMove i => ∃ m, s.ptrs[i]? = some (some (some m))
  | .deleteInst i => ∃ x, s.insts[i]? = some (some x)
  | .destroyVm => s.vm ≠ none

/-- Every operation of the program is sensible when it is its turn. -/
def SensibleProgram (mem : Nat → List Byte) (s : St) : List Op → Prop
  | [] => True
  | op :: ops => Sensible s op ∧ ∀ s', step mem s op = .ok s' → SensibleProgram mem s' ops

/-- Nothing of the program is left: no storage, no pointer, no instance. -/
def AllGone (s : St) : Prop :=
  (∀ o ∈ s.storages, o = none) ∧ (∀ o ∈ s.ptrs, o = none) ∧ (∀ o ∈ s.insts, o = none)

end Ab.Spec.Own
