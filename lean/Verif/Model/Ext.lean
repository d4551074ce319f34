import Mathlib.Algebra.Order.Field.Basic

/-!
# Numbers with IEEE infinities

Finite values are exact elements of an ordered field; only the special values of IEEE-754 are modelled, with the
rules for division by (positive) zero and for infinite operands.
-/

namespace Verif.Core

inductive Ext (K : Type*)
  | fin (x : K)
  | inf (negative : Bool)
  | nan
  deriving DecidableEq

variable {K : Type*} [Field K] [LinearOrder K]

/-- IEEE addition. -/
def Ext.add : Ext K → Ext K → Ext K
  | .fin x, .fin y => .fin (x + y)
  | .fin _, .inf s => .inf s
  | .inf s, .fin _ => .inf s
  | .inf s, .inf t => if s = t then .inf s else .nan
  | .nan, _ => .nan
  | _, .nan => .nan

/-- IEEE division; a zero denominator is positive zero (the result of subtracting equal numbers). -/
def Ext.div : Ext K → Ext K → Ext K
  | .fin x, .fin y => if y = 0 then (if x = 0 then .nan else .inf (decide (x < 0))) else .fin (x / y)
  | .fin _, .inf _ => .fin 0
  | .inf s, .fin y => .inf (xor s (decide (y < 0)))
  | .inf _, .inf _ => .nan
  | .nan, _ => .nan
  | _, .nan => .nan

/-- Python's `sum`: starts from zero, left to right. -/
def Ext.sum (l : List (Ext K)) : Ext K := l.foldl Ext.add (.fin 0)

end Verif.Core
