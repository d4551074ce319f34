import Mathlib.Data.Rat.Init
import Mathlib.Algebra.Order.Ring.Rat
import Mathlib.Order.WithBot

/-!
# Model of the operator units of `communication/pscan.py` (28-50)
-/

namespace Verif.Comm

/-- The operators of `unit_table` (pscan.py 42-50). -/
inductive ScanOp where
  | add | multiply | maximum | minimum | bitwiseAnd | bitwiseOr | bitwiseXor
deriving DecidableEq, Repr

/-- The operators on a signed `w` bit integer dtype (two's complement, wrap around). -/
def ScanOp.signed (w : ℕ) : ScanOp → BitVec w → BitVec w → BitVec w
  | .add, a, b => a + b
  | .multiply, a, b => a * b
  | .maximum, a, b => if a.toInt ≤ b.toInt then b else a
  | .minimum, a, b => if a.toInt ≤ b.toInt then a else b
  | .bitwiseAnd, a, b => a &&& b
  | .bitwiseOr, a, b => a ||| b
  | .bitwiseXor, a, b => a ^^^ b

/-- The operators on an unsigned `w` bit integer dtype. -/
def ScanOp.unsigned (w : ℕ) : ScanOp → BitVec w → BitVec w → BitVec w
  | .add, a, b => a + b
  | .multiply, a, b => a * b
  | .maximum, a, b => if a.toNat ≤ b.toNat then b else a
  | .minimum, a, b => if a.toNat ≤ b.toNat then a else b
  | .bitwiseAnd, a, b => a &&& b
  | .bitwiseOr, a, b => a ||| b
  | .bitwiseXor, a, b => a ^^^ b

/-- The operators on `bool`: `jnp.add`, `jnp.maximum` are "or", `jnp.multiply`, `jnp.minimum` are
"and". -/
def ScanOp.bool : ScanOp → Bool → Bool → Bool
  | .add, a, b => a || b
  | .multiply, a, b => a && b
  | .maximum, a, b => a || b
  | .minimum, a, b => a && b
  | .bitwiseAnd, a, b => a && b
  | .bitwiseOr, a, b => a || b
  | .bitwiseXor, a, b => a ^^ b

/-- `unit_table[op](dtype)` for signed integers (pscan.py 28-50); `iinfo.min`, `iinfo.max`. -/
def ScanOp.unitSigned (w : ℕ) : ScanOp → BitVec w
  | .add => 0
  | .multiply => BitVec.ofNat w 1
  | .maximum => BitVec.intMin w
  | .minimum => BitVec.intMax w
  | .bitwiseAnd => ~~~ 0
  | .bitwiseOr => 0
  | .bitwiseXor => 0

/-- `unit_table[op](dtype)` for unsigned integers (pscan.py 28-50). -/
def ScanOp.unitUnsigned (w : ℕ) : ScanOp → BitVec w
  | .add => 0
  | .multiply => BitVec.ofNat w 1
  | .maximum => 0
  | .minimum => BitVec.allOnes w
  | .bitwiseAnd => ~~~ 0
  | .bitwiseOr => 0
  | .bitwiseXor => 0

/-- `unit_table[op](bool)` (pscan.py 30-31, 42-50). -/
def ScanOp.unitBool : ScanOp → Bool
  | .add => false
  | .multiply => true
  | .maximum => false
  | .minimum => true
  | .bitwiseAnd => !false
  | .bitwiseOr => false
  | .bitwiseXor => false

/-- Floating point values other than NaN, as far as comparisons are concerned: finite rationals and
the two infinities. -/
abbrev XFloat := WithBot (WithTop ℚ)

/-- `-inf`. -/
def negInf : XFloat := ⊥
/-- `+inf`. -/
def posInf : XFloat := ((⊤ : WithTop ℚ) : XFloat)
/-- A finite value. -/
def finite (q : ℚ) : XFloat := ((q : WithTop ℚ) : XFloat)

/-- `unit_table[jnp.maximum](dtype)` for a float dtype whose largest finite value is `M`: `finfo.min`
(pscan.py 36, 45). -/
def floatMaxUnit (M : ℚ) : XFloat := finite (-M)

/-- `unit_table[jnp.minimum](dtype)`: `finfo.max` (pscan.py 36, 46). -/
def floatMinUnit (M : ℚ) : XFloat := finite M

end Verif.Comm
