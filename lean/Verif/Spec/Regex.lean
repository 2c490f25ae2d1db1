import Verif.Model.Regex
/-! Languages of regular expressions, and the longest-match rule. -/
namespace Ab.Spec

open Re

/-- The texts a regular expression matches. -/
inductive Lang : Re → List Byte → Prop
  | eps : Lang .eps []
  | cls {p c} : p c = true → Lang (.cls p) [c]
  | seq {a b s t} : Lang a s → Lang b t → Lang (.seq a b) (s ++ t)
  | altL {a b s} : Lang a s → Lang (.alt a b) s
  | altR {a b s} : Lang b s → Lang (.alt a b) s
  | starNil {a} : Lang (.star a) []
  | starCons {a s t} : Lang a s → Lang (.star a) t → Lang (.star a) (s ++ t)

/-- Rule `k` matches the first `n` bytes of the input, no rule listed before it does, and no rule matches
a longer prefix. -/
structure Longest (rules : List (K × Re)) (input : List Byte) (k : K) (n : Nat) : Prop where
  pos : 0 < n
  le : n ≤ input.length
  first : ∃ (i : Nat) (r : Re), rules[i]? = some (k, r) ∧ Lang r (input.take n) ∧
    ∀ (j : Nat) (q : K × Re), j < i → rules[j]? = some q → ¬ Lang q.2 (input.take n)
  longest : ∀ m q, n < m → m ≤ input.length → q ∈ rules → ¬ Lang q.2 (input.take m)

/-- No rule matches any non-empty prefix of the input. -/
def NoMatch (rules : List (K × Re)) (input : List Byte) : Prop :=
  ∀ m q, 0 < m → m ≤ input.length → q ∈ rules → ¬ Lang q.2 (input.take m)

end Ab.Spec
