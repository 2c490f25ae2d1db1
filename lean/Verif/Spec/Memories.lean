import Verif.Model.Memories
/-!
What it means for linear memories to be separate.
-/
namespace Ab.LinMem

/-- Page `q` is one of those `m` may grow to. -/
def Mem.has (S : Sys) (m : Mem) (q : Nat) : Prop :=
  m.address.toNat / S.page ≤ q ∧ q < m.address.toNat / S.page + m.config.max.toNat

/-- Every memory that exists can be read and written throughout its size and nowhere else in its reservation, no two memories share
a page, and what the rest of the process has mapped is as it left it. -/
structure Separate (S : Sys) (w : World) : Prop where
  usable : ∀ (i : Nat) (m : Mem), w.mems[i]? = some (some m) → ∀ q, m.has S q →
    w.os q = some (if q < m.address.toNat / S.page + m.count.toNat then .rw else .none)
  apart : ∀ (i j : Nat) (m m' : Mem), w.mems[i]? = some (some m) → w.mems[j]? = some (some m') → i ≠ j → ∀ q, m.has S q → ¬ m'.has S q
  foreign : ∀ q p, w.foreign q = some p → w.os q = some p

/-- The sizes asked for fit the address space. -/
def Fitting (S : Sys) : WOp → Prop
  | .create c => c.max.toNat * S.page < 2^64
  | _ => True

/-- Nothing is copied, and no `VirtualMachine` is moved. -/
def NoCopy : WOp → Prop
  | .copy _ => False
  | _ => True

end Ab.LinMem
