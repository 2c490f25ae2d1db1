import Verif.Basic
/-!
Model of the read-write lock and its guards (util/include/Ab/SharedLock.hpp, LockGuard.hpp, LockGuard.inl.hpp).
Schedules are sequences of calls: the counters are plain ints, so that calls that overlap in time are data races, which is
not modelled. Not modelled: `yield`, `engage` and `disengage`, which are declared but not defined.
-/
namespace Ab.LockM

/-- Access.hpp:6. -/
inductive Access where
  | shared | exclusive
deriving DecidableEq, Repr

/-- SharedLock.hpp:34-35. -/
structure Lock where
  sharedCount    : Int
  exclusiveCount : Int
deriving DecidableEq, Repr

def Lock.init : Lock := ⟨0, 0⟩

/-- `int` arithmetic. -/
def int (v : Int) : Outcome Int := if -2^31 ≤ v ∧ v < 2^31 then .ok v else .ub "signed overflow"

/-- `lock<access>()` (SharedLock.hpp:44-54). It returns at once. -/
def Lock.lock (l : Lock) : Access → Outcome Lock
  | .shared => do pure { l with sharedCount := ← int (l.sharedCount + 1) }
  | .exclusive => do pure { l with exclusiveCount := ← int (l.exclusiveCount + 1) }

/-- `unlock<access>()` (SharedLock.hpp:56-66). -/
def Lock.unlock (l : Lock) : Access → Outcome Lock
  | .shared => do pure { l with sharedCount := ← int (l.sharedCount - 1) }
  | .exclusive => do pure { l with exclusiveCount := ← int (l.exclusiveCount - 1) }

/-- `isLocked<access>()` (SharedLock.hpp:68-78). -/
def Lock.isLocked (_ : Lock) : Access → Bool
  | .shared => false
  | .exclusive => false

/-- `LockGuard<LockType, access>::LockGuard` (LockGuard.inl.hpp:34-36, 44-46; `sharedLock` and `exclusiveLock`, 9-18):
the bodies are commented out. `none` would be: the thread has to wait. -/
def guard (l : Lock) (_ : Access) : Option Lock := some l

/-- `~LockGuard` (LockGuard.inl.hpp:39-41, 49-51), likewise. -/
def unguard (l : Lock) (_ : Access) : Lock := l

/-- `trySharedLock`, `tryExclusiveLock` (LockGuard.inl.hpp:20-32): the guard, or `none` for `nothing`. -/
def tryGuard (l : Lock) (a : Access) : Option Lock := guard l a

/-- A live guard: whose, and for what. -/
structure Guard where
  thread : Nat
  access : Access
deriving DecidableEq, Repr

/-- The lock and the guards that live. -/
structure St where
  lock   : Lock
  guards : List Guard

/-- What threads do with guards. -/
inductive Step : St → St → Prop
  | guard {s l} (g : Guard) : guard s.lock g.access = some l → Step s ⟨l, g :: s.guards⟩
  | tryGuard {s l} (g : Guard) : tryGuard s.lock g.access = some l → Step s ⟨l, g :: s.guards⟩
  | unguard {s} (g : Guard) : g ∈ s.guards → Step s ⟨unguard s.lock g.access, s.guards.erase g⟩

/-- The states threads can reach. -/
inductive Reachable : St → Prop
  | init : Reachable ⟨Lock.init, []⟩
  | step {s s'} : Reachable s → Step s s' → Reachable s'

end Ab.LockM
