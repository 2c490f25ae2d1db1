import Verif.Spec.Machine

/-!
Specification for C27: what a straight-line sequence of additions computes, over the integers.
-/

namespace Ab.Spec

/-- Which registers hold a known integer. -/
abbrev IntEnv := Nat → Option Int

def IntEnv.set (env : IntEnv) (d : Nat) (v : Int) : IntEnv := fun j => if j = d then some v else env j

/-- The arguments are in the first registers; the others hold nothing known. -/
def argEnv (vs : List Int) : IntEnv := fun j => vs[j]?

/-- The registers after executing `d := l + r` for each triple in order; `none` if an unknown register is read or an exact
result does not fit in 32 bits. -/
def denote : List (Nat × Nat × Nat) → IntEnv → Option IntEnv
  | [], env => some env
  | (d, l, r) :: rest, env =>
    match env l, env r with
    | some a, some b => if inI32 (a + b) then denote rest (env.set d (a + b)) else none
    | _, _ => none

end Ab.Spec
