import Verif.Model.LineInfo
/-! The iterations of the line lookup (parse/include/Ab/Parse/LineInfo.hpp:45-87), counted. -/
namespace Ab.LI

/-- The binary search loop (LineInfo.hpp:58-72), and how many times its body was entered. -/
def searchSteps (bs : List Nat) (offset : Nat) : Nat → Nat → Nat → Outcome (Nat × Nat)
  | 0, _, _ => .fuel
  | fuel + 1, l, r =>
    if l ≤ r then do
      let m := (l + r) / 2
      let e ← at' bs (m + 1)
      if e < (offset + 1) % 2^64 then do
        let (a, k) ← searchSteps bs offset fuel (m + 1) r
        pure (a, k + 1)
      else do
        let s ← at' bs m
        if offset < s then do
          let (a, k) ← searchSteps bs offset fuel l ((m + (2^64 - 1)) % 2^64)
          pure (a, k + 1)
        else pure (m, 1)
    else .trap "unreachable"

/-- `location` (LineInfo.hpp:45-73, 83-87), and how many iterations it took. -/
def locationSteps (bs : List Nat) (offset : Nat) : Outcome ((Nat × Nat) × Nat) := do
  let n := bs.length
  let last ← at' bs (n - 1)
  let (l, k) ← if last ≤ offset then pure (n - 1, 0) else searchSteps bs offset (n + 1) 0 (n - 1)
  let s ← at' bs l
  pure ((l, (offset + (2^64 - s)) % 2^64), k)

end Ab.LI
