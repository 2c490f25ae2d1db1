import Verif.Basic
/-! Model of `Ab::Parse::LineInfo` (parse/include/Ab/Parse/LineInfo.hpp). `size_t` values are naturals;
`offset + 1` is the wrapping 64-bit sum. -/
namespace Ab.LI

/-- `breaks_` after the constructor (LineInfo.hpp:16-19) and one `record_br` per break (97-101). -/
def breaks (recorded : List Nat) : List Nat := 0 :: recorded

/-- `breaks_[n]`: out of range is undefined. -/
def at' (bs : List Nat) (n : Nat) : Outcome Nat :=
  match bs[n]? with
  | some b => .ok b
  | none => .ub "breaks_ out of range"

/-- The binary search loop (LineInfo.hpp:58-72). `r = m - 1` with `m = 0` would wrap. -/
def search (bs : List Nat) (offset : Nat) : Nat → Nat → Nat → Outcome Nat
  | 0, _, _ => .fuel
  | fuel + 1, l, r =>
    if l ≤ r then do
      let m := (l + r) / 2
      let e ← at' bs (m + 1)
      if e < (offset + 1) % 2^64 then search bs offset fuel (m + 1) r
      else do
        let s ← at' bs m
        if offset < s then search bs offset fuel l ((m + (2^64 - 1)) % 2^64)
        else pure m
    else .trap "unreachable"

/-- `line` (LineInfo.hpp:45-73). The loop is given fuel for one more iteration than there are breaks. -/
def line (bs : List Nat) (offset : Nat) : Outcome Nat := do
  let n := bs.length
  let last ← at' bs (n - 1)
  if last ≤ offset then pure (n - 1)
  else search bs offset (n + 1) 0 (n - 1)

/-- `column` (LineInfo.hpp:78). -/
def column (bs : List Nat) (offset : Nat) : Outcome Nat := do
  let l ← line bs offset
  let s ← at' bs l
  pure ((offset + (2^64 - s)) % 2^64)

/-- `location` (LineInfo.hpp:83-87). -/
def location (bs : List Nat) (offset : Nat) : Outcome (Nat × Nat) := do
  let l ← line bs offset
  let s ← at' bs l
  pure (l, (offset + (2^64 - s)) % 2^64)

end Ab.LI
