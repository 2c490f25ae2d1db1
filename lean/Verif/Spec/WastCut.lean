import Verif.Spec.Wast
/-! What C130 says: WebAssembly texts that lost their end. -/
namespace Ab.Spec.Wast
open Ab.Wast (Kind Loc Range Token)

/-- The token `b` goes from before place `n` to after it. -/
def CutInside (n : Nat) (b : Seen) : Prop := b.range.start.offset < n ∧ n < b.range.stop.offset

/-- What is left of the token `b` when everything from place `n` on is lost: a token of the same kind that
starts in the same place and ends, on the same line, where the text does. -/
def LeftOf (n : Nat) (b a : Seen) : Prop :=
  a.kind = b.kind ∧ a.range.start = b.range.start ∧
  a.range.stop = ⟨n, b.range.start.line, b.range.start.column + (n - b.range.start.offset)⟩ ∧
  a.text = b.text.take (n - b.range.start.offset).toNat

/-- The tokens that end at `n` or before. -/
def before (n : Nat) (ts : List Seen) : List Seen := ts.filter fun t => decide (t.range.stop.offset ≤ n)

/-- `cut` are the tokens that are left of the tokens `whole` of a text of which everything from place `n` on is
lost: those that end at `n` or before, and then what is left of the word or identifier that `n` is inside of, if
there is one; but nothing is left of an identifier that lost everything but its `$`. -/
def CutTokens (n : Nat) (whole cut : List Seen) : Prop :=
  (cut = before n whole ∧ ∀ b ∈ whole, CutInside n b → b.kind = .IDENTIFIER ∧ (n : Int) = b.range.start.offset + 1) ∨
  ∃ b a, b ∈ whole ∧ CutInside n b ∧
    (b.kind = .NAME ∨ b.kind = .IDENTIFIER ∧ (n : Int) ≠ b.range.start.offset + 1) ∧ LeftOf n b a ∧ cut = before n whole ++ [a]

end Ab.Spec.Wast
