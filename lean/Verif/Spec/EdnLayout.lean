import Verif.Spec.EdnGrammar
import Verif.Model.EdnParser
/-! Layout: text between tokens that means nothing, and what it is for two texts to be read alike. -/
namespace Ab.Spec

open Edn

/-- Blank text: any number of spaces, tabs, commas, line breaks and comments, in any order. `ok` says which
characters the comments may contain. -/
inductive Blank (ok : Byte → Prop) : List Byte → Prop
  | nil : Blank ok []
  | space {b w} : oneOf " \t,\n" b → Blank ok w → Blank ok (b :: w)
  | comment {u w} : (∀ b ∈ u, ¬ oneOf "\n" b ∧ ok b) → Blank ok w → Blank ok (ascii ";" ++ u ++ ascii "\n" ++ w)

/-- Any character. -/
def anyChar (_ : Byte) : Prop := True

/-- Any character but the double quote. -/
def noQuote (b : Byte) : Prop := ¬ oneOf "\"" b

/-- The lists have the same length and their elements are related one by one. -/
inductive All2 {α β : Type} (R : α → β → Prop) : List α → List β → Prop
  | nil : All2 R [] []
  | cons {a b as bs} : R a b → All2 R as bs → All2 R (a :: as) (b :: bs)

/-- Two runs of the parser ended alike: with the same nodes, the same symbols and the same errors, whose source
ranges are related by `place`; or with the same failure. -/
def ReadAlike (place : Nat → Nat → Nat → Nat → Prop) : Outcome Doc → Outcome Doc → Prop
  | .ok d, .ok d' => d.nodes = d'.nodes ∧ d.tab = d'.tab ∧
      All2 (fun e e' => e.msg = e'.msg ∧ place e.lo e.hi e'.lo e'.hi) d.errors d'.errors
  | .throw a, .throw b => a = b
  | .trap a, .trap b => a = b
  | .ub a, .ub b => a = b
  | .fuel, .fuel => True
  | _, _ => False

/-- A source range after `n` bytes have been inserted at `p`. -/
def Shifted (p n : Nat) (lo hi lo' hi' : Nat) : Prop :=
  (lo < p ∧ lo' = lo ∧ hi' = hi) ∨ (p ≤ lo ∧ lo' = lo + n ∧ hi' = hi + n)

/-- Where the lines after the line breaks of `w` begin, when `w` begins at `p`. -/
def lineStarts (p : Nat) (w : List Byte) : List Nat :=
  ((List.range w.length).filter (fun i => w[i]? = some 10#8)).map (fun i => p + i + 1)

/-- If both runs ended with a document: the line breaks recorded after `w` has been put in at `p` are those before the gap,
those of `w`, and those after the gap, moved. -/
def BreaksMoved (p : Nat) (w : List Byte) : Outcome Doc → Outcome Doc → Prop
  | .ok d, .ok d' => d'.breaks = d.breaks.filter (fun i => decide (i ≤ p)) ++ lineStarts p w ++
      (d.breaks.filter (fun i => decide (p < i))).map (· + w.length)
  | _, _ => True

/-- The ranges of the same token of two texts, the first, second, … of each, or of their ends. -/
def SameToken (L : Lib) (s s' : List Byte) (lo hi lo' hi' : Nat) : Prop :=
  ∃ ts l ts' l', lex L s = .ok (ts, l) ∧ lex L s' = .ok (ts', l') ∧
    ((∃ (i : Nat) (t t' : Token), ts[i]? = some t ∧ ts'[i]? = some t' ∧ t.text = t'.text ∧
        lo = t.lo ∧ hi = t.hi ∧ lo' = t'.lo ∧ hi' = t'.hi) ∨
      (lo = l.pos ∧ hi = l.pos ∧ lo' = l'.pos ∧ hi' = l'.pos))

/-- The pieces of a text that are not whitespace or comments. -/
def significant (ls : List (Rule × List Byte)) : List (Rule × List Byte) :=
  ls.filter (fun x => !decide (IsSkip x.1))

end Ab.Spec
