import Verif.Basic
/-!
The scanner construct of Ragel (`main := |* ... *|`), as used by edn/src/ab-edn-lexer.cpp.rl:231-349.
Ragel itself is not part of the repository; this is its documented behaviour: read bytes while some rule
can still match, remember the last position at which a rule matched (the first listed of those that
match), and go back to it.  Rules are regular expressions, run by taking derivatives.
-/
namespace Ab.Re

/-- Regular expressions over bytes. -/
inductive Re where
  | emp
  | eps
  | cls (p : Byte → Bool)
  | seq (a b : Re)
  | alt (a b : Re)
  | star (a : Re)

/-- Does it match the empty text? -/
def nullable : Re → Bool
  | .emp => false
  | .eps => true
  | .cls _ => false
  | .seq a b => nullable a && nullable b
  | .alt a b => nullable a || nullable b
  | .star _ => true

/-- What is left to match after byte `c`. -/
def deriv (c : Byte) : Re → Re
  | .emp => .emp
  | .eps => .emp
  | .cls p => if p c then .eps else .emp
  | .seq a b => if nullable a then .alt (.seq (deriv c a) b) (deriv c b) else .seq (deriv c a) b
  | .alt a b => .alt (deriv c a) (deriv c b)
  | .star a => .seq (deriv c a) (.star a)

/-- Can nothing match any more? (Every character class used is inhabited.) -/
def dead : Re → Bool
  | .emp => true
  | .eps => false
  | .cls _ => false
  | .seq a b => dead a || dead b
  | .alt a b => dead a && dead b
  | .star _ => false

/-- A single byte. -/
def ch (c : Nat) : Re := .cls (fun b => b == BitVec.ofNat 8 c)
/-- Zero or one. -/
def opt (a : Re) : Re := .alt .eps a
/-- One or more. -/
def plus (a : Re) : Re := .seq a (.star a)
/-- A fixed text. -/
def lit : List Nat → Re
  | [] => .eps
  | [c] => ch c
  | c :: cs => .seq (ch c) (lit cs)

/-- What a scan finds: the rule and length of the longest match, how far it read, and whether it stopped
because no rule could go on (`false`: it stopped at the end of the input). -/
structure Scan (K : Type) where
  best : Option (K × Nat)
  read : Nat
  stuck : Bool

/-- The first listed rule that matches now. -/
def firstMatch (rules : List (K × Re)) : Option K := (rules.find? (fun r => nullable r.2)).map (·.1)

/-- The scanning loop: `n` bytes read so far. -/
def scanFrom (rules : List (K × Re)) (n : Nat) (best : Option (K × Nat)) : List Byte → Scan K
  | [] => ⟨best, n, false⟩
  | b :: bs =>
    let rules' := rules.map (fun r => (r.1, deriv b r.2))
    if rules'.all (fun r => dead r.2) then ⟨best, n, true⟩
    else
      let best' := match firstMatch rules' with
        | some k => some (k, n + 1)
        | none => best
      scanFrom rules' (n + 1) best' bs

/-- Scan for one token. -/
def scan (rules : List (K × Re)) (input : List Byte) : Scan K := scanFrom rules 0 none input

end Ab.Re
