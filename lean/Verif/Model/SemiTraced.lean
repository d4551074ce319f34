import Mathlib.Data.List.Basic

/-!
# Model of `communication/semi_traced_scalar.py`

A `SemiTracedScalar` carries the value of a scalar on the current device (`local`, a traced value) and
the host side array of its values on all devices (`global_`).

Simplifications: scalars are integers (booleans are `0`/`1`); the operators are arbitrary binary
functions, the same function being used for the traced and for the host view (this is what
`operator.__add__` etc. amount to; differences between NumPy and XLA integer division by zero and
overflow are not modelled).
-/

namespace Verif.Comm

/-- `SemiTracedScalar` (semi_traced_scalar.py 28-58): local and global view. -/
structure SemiTraced where
  loc : Int
  glob : List Int
deriving Repr, DecidableEq

/-- `SemiTracedScalar.where` (semi_traced_scalar.py 70-75). `np.where` selects entry by entry. -/
def SemiTraced.where_ (c x y : SemiTraced) : SemiTraced where
  loc := if c.loc ≠ 0 then x.loc else y.loc
  glob := List.zipWith (fun (b : Int) (p : Int × Int) => if b ≠ 0 then p.1 else p.2) c.glob
    (List.zip x.glob y.glob)

/-- `SemiTracedScalar.axis_index` (semi_traced_scalar.py 77-82) on the device with index `i` of an
axis of size `P`. -/
def axisIndex (P i : Nat) : SemiTraced where
  loc := i
  glob := (List.range P).map Int.ofNat

/-- `SemiTracedScalar.axis_size` (semi_traced_scalar.py 84-88). -/
def axisSize (P : Nat) : SemiTraced where
  loc := P
  glob := List.replicate P (P : Int)

/-- `SemiTracedScalar.constant` (semi_traced_scalar.py 90-94). -/
def constant (P : Nat) (c : Int) : SemiTraced where
  loc := c
  glob := List.replicate P c

/-- `_lift_op` for a `SemiTracedScalar` right operand (semi_traced_scalar.py 100-107). NumPy applies
the operator entry by entry. -/
def liftOp (f : Int → Int → Int) (x y : SemiTraced) : SemiTraced where
  loc := f x.loc y.loc
  glob := List.zipWith f x.glob y.glob

/-- `_lift_op` for a constant right operand (semi_traced_scalar.py 108-109): NumPy broadcasting. -/
def liftOpConst (f : Int → Int → Int) (x : SemiTraced) (c : Int) : SemiTraced where
  loc := f x.loc c
  glob := x.glob.map (fun a => f a c)

/-- `_lift_ops` (semi_traced_scalar.py 113-117): the operator and its reflection. -/
def liftOps (f : Int → Int → Int) :
    (SemiTraced → SemiTraced → SemiTraced) × (SemiTraced → SemiTraced → SemiTraced) :=
  (liftOp f, liftOp (fun x y => f y x))

/-- Constant operand versions of `_lift_ops` (semi_traced_scalar.py 108, 113-117). -/
def liftOpsConst (f : Int → Int → Int) :
    (SemiTraced → Int → SemiTraced) × (SemiTraced → Int → SemiTraced) :=
  (liftOpConst f, liftOpConst (fun x y => f y x))

/-- Programs that a user can write with the class: the constructors, the lifted operators of
`_add_comparisons` and `_add_ops` (semi_traced_scalar.py 120-133) in direct and reflected form and
`where`. -/
inductive Expr where
  | index
  | size
  | const (c : Int)
  | op (f : Int → Int → Int) (x y : Expr)
  | rop (f : Int → Int → Int) (x y : Expr)
  | opConst (f : Int → Int → Int) (x : Expr) (c : Int)
  | ropConst (f : Int → Int → Int) (x : Expr) (c : Int)
  | where_ (c x y : Expr)

/-- Running such a program on device `i` of an axis of size `P`. -/
def Expr.run (P i : Nat) : Expr → SemiTraced
  | .index => axisIndex P i
  | .size => axisSize P
  | .const c => constant P c
  | .op f x y => (liftOps f).1 (x.run P i) (y.run P i)
  | .rop f x y => (liftOps f).2 (x.run P i) (y.run P i)
  | .opConst f x c => (liftOpsConst f).1 (x.run P i) c
  | .ropConst f x c => (liftOpsConst f).2 (x.run P i) c
  | .where_ c x y => SemiTraced.where_ (c.run P i) (x.run P i) (y.run P i)

end Verif.Comm
