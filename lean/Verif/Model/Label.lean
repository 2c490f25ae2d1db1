import Verif.Basic
/-! Model of `Ab::LabelTable` (core/include/Ab/Label.hpp). -/
namespace Ab.LT

/-- `LabelRecord` (Label.hpp:26-30). -/
structure Record where
  offset : U32
  id     : Nat
  placed : Bool
deriving Repr, DecidableEq

/-- `records_` (Label.hpp:75). -/
abbrev Table := List Record

/-- `alloc()` (Label.hpp:36-41). -/
def alloc (t : Table) : Table × Nat := (t ++ [⟨0, t.length, false⟩], t.length)

/-- `place` (Label.hpp:53-60); the offset is an `int32_t` stored in an `unsigned`. -/
def place (t : Table) (id : Nat) (offset : BitVec 32) : Outcome Table := do
  Outcome.assert (decide (id < t.length)) "label.id < next()"
  match t[id]? with
  | none => .ub "records_[label.id]"
  | some r => do
    Outcome.assert (!r.placed) "!record.placed"
    Outcome.assert (r.id == id) "record.id == label.id"
    pure (t.set id { r with offset := offset, placed := true })

/-- `alloc(offset)` (Label.hpp:45-49). -/
def allocAt (t : Table) (offset : U32) : Outcome (Table × Nat) := do
  let (t, id) := alloc t
  let t ← place t id offset
  pure (t, id)

/-- `target_of` (Label.hpp:64-70). -/
def targetOf (t : Table) (id : Nat) : Outcome U32 := do
  Outcome.assert (decide (id < t.length)) "label.id < next()"
  match t[id]? with
  | none => .ub "records_[label.id]"
  | some r => do
    Outcome.assert (r.id == id) "record.id == label.id"
    Outcome.assert r.placed "record.placed"
    pure r.offset

/-- Operations of a label table. -/
inductive Op where
  | alloc
  | allocAt (offset : U32)
  | place (id : Nat) (offset : U32)
  | target (id : Nat)
deriving Repr, DecidableEq

/-- What the caller gets back. -/
inductive Obs where
  | unit
  | label (id : Nat)
  | offset (o : U32)
deriving Repr, DecidableEq

/-- One operation. -/
def step (t : Table) : Op → Outcome (Table × Obs)
  | .alloc => .ok ((alloc t).1, .label (alloc t).2)
  | .allocAt o => do
    let (t, id) ← allocAt t o
    pure (t, .label id)
  | .place id o => do
    let t ← place t id o
    pure (t, .unit)
  | .target id => do
    let o ← targetOf t id
    pure (t, .offset o)

/-- A sequence of operations and what each returned. -/
def run (t : Table) : List Op → Outcome (Table × List Obs)
  | [] => .ok (t, [])
  | op :: ops => do
    let (t, o) ← step t op
    let (t, os) ← run t ops
    pure (t, o :: os)

end Ab.LT
