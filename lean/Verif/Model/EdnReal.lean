import Verif.Basic
/-!
Model of `parse_real` (edn/src/ab-edn-lexer.cpp.rl:59-137). The arithmetic of `double` is a parameter: the
properties instantiate it with exact fractions and with rounding to 53 bits.
-/
namespace Ab.Edn

/-- The arithmetic `parse_real` uses: conversion of an integer, sum, product, quotient, and `pow(10, ex)`. -/
structure Arith (R : Type) where
  ofInt : Int → R
  add   : R → R → R
  mul   : R → R → R
  div   : R → R → R
  pow10 : Int → R

/-- The states of the machine `main := sign? digits ( pt ex | pt | ex )` (lines 65-100). -/
inductive RealState where
  | start | sign | int | point | frac | exp | expSign | expDigits
deriving Repr, DecidableEq

/-- The local variables (lines 105-117). -/
structure RealVars (R : Type) where
  neg    : Bool
  factor : R
  ex     : Int
  exNeg  : Bool
  val    : R

/-- `on_digit` (68-71): `val *= 10; val += fc - '0'`. -/
def onDigit {R} (A : Arith R) (v : RealVars R) (c : Byte) : RealVars R :=
  { v with val := A.add (A.mul v.val (A.ofInt 10)) (A.ofInt (c.toNat - 48)) }

/-- `on_pt_digit` (73-76): `pt_factor /= 10; val += double(fc - '0') * pt_factor`. -/
def onPtDigit {R} (A : Arith R) (v : RealVars R) (c : Byte) : RealVars R :=
  let f := A.div v.factor (A.ofInt 10)
  { v with factor := f, val := A.add v.val (A.mul (A.ofInt (c.toNat - 48)) f) }

/-- `on_ex_digit` (82-85) on an `intptr_t`, whose overflow is undefined. -/
def onExDigit {R} (v : RealVars R) (c : Byte) : Outcome (RealVars R) :=
  let e := v.ex * 10
  if 2^63 ≤ e then .ub "signed overflow"
  else
    let e := e + (c.toNat - 48 : Int)
    if 2^63 ≤ e then .ub "signed overflow" else .ok { v with ex := e }

/-- Ragel `digit`. -/
def realDigit (c : Byte) : Bool := decide (48#8 ≤ c ∧ c ≤ 57#8)

/-- One character; `none` is the error state. -/
def realStep {R} (A : Arith R) (s : RealState) (v : RealVars R) (c : Byte) :
    Outcome (Option (RealState × RealVars R)) :=
  match s with
  | .start =>
    if c = 45#8 then .ok (some (.sign, { v with neg := true }))       -- '-' @on_neg
    else if c = 43#8 then .ok (some (.sign, v))                       -- '+'
    else if realDigit c then .ok (some (.int, onDigit A v c))
    else .ok none
  | .sign => if realDigit c then .ok (some (.int, onDigit A v c)) else .ok none
  | .int =>
    if realDigit c then .ok (some (.int, onDigit A v c))
    else if c = 46#8 then .ok (some (.point, v))                      -- '.'
    else if c = 101#8 ∨ c = 69#8 then .ok (some (.exp, v))            -- [eE]
    else .ok none
  | .point => if realDigit c then .ok (some (.frac, onPtDigit A v c)) else .ok none
  | .frac =>
    if realDigit c then .ok (some (.frac, onPtDigit A v c))
    else if c = 101#8 ∨ c = 69#8 then .ok (some (.exp, v))
    else .ok none
  | .exp =>
    if c = 45#8 then .ok (some (.expSign, { v with exNeg := true }))
    else if c = 43#8 then .ok (some (.expSign, v))
    else if realDigit c then do
      let v ← onExDigit v c
      .ok (some (.expDigits, v))
    else .ok none
  | .expSign | .expDigits =>
    if realDigit c then do
      let v ← onExDigit v c
      .ok (some (.expDigits, v))
    else .ok none

/-- `%% write exec` (line 120): the machine stops at the end of the text or in the error state. -/
def realLoop {R} (A : Arith R) : RealState → RealVars R → List Byte → Outcome (Option RealState × RealVars R)
  | s, v, [] => .ok (some s, v)
  | s, v, c :: cs => do
    let r ← realStep A s v c
    match r with
    | none => .ok (none, v)
    | some (s, v) => realLoop A s v cs

/-- `parse_real(p, pe)` on the given text (lines 104-137). The arithmetic on lines 122-130 has no effect when
line 132 then aborts. -/
def parseReal {R} (A : Arith R) (t : List Byte) : Outcome R := do
  let (cs, v) ← realLoop A .start ⟨false, A.ofInt 1, 0, false, A.ofInt 0⟩ t
  let val := if v.neg then A.mul v.val (A.ofInt (-1)) else v.val
  let ex := if v.exNeg then v.ex * -1 else v.ex
  let val := A.mul val (A.pow10 ex)
  if cs = some .frac ∨ cs = some .expDigits then .ok val
  else .trap "failed to parse real"

end Ab.Edn
