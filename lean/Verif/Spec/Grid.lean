import Mathlib.Algebra.Group.Nat.Even
import Mathlib.Data.List.Basic

/-! Specification of tensor product grids: positional digits of a flat index. -/

namespace Verif.Spec

/-- Digit number `k` (most significant first) of `e` written with `d` digits in base `b`. -/
def digit (b d k e : ℕ) : ℕ := e / b ^ (d - 1 - k) % b

/-- The multi index of flat index `e` in a `b × ... × b` array with `d` axes (last axis fastest). -/
def digits (b d e : ℕ) : List ℕ := (List.range d).map (fun k => digit b d k e)

end Verif.Spec
