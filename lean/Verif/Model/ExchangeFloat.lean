import Verif.Model.GatherScatter
import Mathlib.Data.Int.Log
import Mathlib.Algebra.Order.Round
import Mathlib.Data.Rat.Floor

/-! Model of `exchange` (`swirl_fem/core/gather_scatter.py` 189-261) in rounded arithmetic.

`Model/GatherScatter.lean` models the function over a commutative ring. Here every addition and subtraction of
floating point numbers is followed by a rounding `fl`, in the places where the Python code has it. The order in
which a scatter-add with repeated indices and a `psum` add their terms is chosen by the compiler and the
hardware; `RoundedSum` allows every order and every bracketing. Products with the mask are exact (`1 * x` and
`0 * x`). Overflow, infinities, NaN and subnormal numbers are not modelled: the exponent of `flBin` is
unbounded. -/

namespace Verif.Core

/-- Round to the nearest integer, ties to the even one. -/
def roundEven (x : ℚ) : ℤ :=
  if Int.fract x = 1 / 2 then (if Even ⌊x⌋ then ⌊x⌋ else ⌊x⌋ + 1) else round x

/-- Distance of the neighbouring numbers with `p` binary digits around `x`. -/
def ulp (p : ℕ) (x : ℚ) : ℚ := (2 : ℚ) ^ (Int.log 2 |x| - p + 1)

/-- Rounding to `p` binary digits, to nearest with ties to even (IEEE 754; `p = 24` for `float32`). -/
def flBin (p : ℕ) (x : ℚ) : ℚ := (roundEven (x / ulp p x) : ℚ) * ulp p x

/-- `RoundedSum fl M s`: `s` is a result of adding up the numbers `M` in some order and with some bracketing,
rounding after every addition. -/
inductive RoundedSum (fl : ℚ → ℚ) : Multiset ℚ → ℚ → Prop
  | one (a : ℚ) : RoundedSum fl {a} a
  | add {M M' : Multiset ℚ} {a b : ℚ} : RoundedSum fl M a → RoundedSum fl M' b →
      RoundedSum fl (M + M') (fl (a + b))

/-- `base.at[idx].add(upd)` at position `j`, one rounded addition for every update written there. -/
def atAddFl (fl : ℚ → ℚ) (N : ℕ) (base : ℕ → ℚ) (updates : List (ℤ × ℚ)) : ℕ → ℚ :=
  fun j => updates.foldl (fun b e => if writePos N e.1 = some j then fl (b + e.2) else b) (base j)

/-- `initial_values = mask * u[gather_indices]` (gather_scatter.py 229-231). -/
def initialValues (N : ℕ) (u : ℕ → ℚ) (gi : List ℤ) : List ℚ :=
  gi.map (fun i => maskOf i * u (readPos N i))

/-- The numbers added up in entry `r` of `jnp.zeros(..).at[unique_indices].add(initial_values)`
(gather_scatter.py 241). -/
def scatterTerms (ui : List ℕ) (initial : List ℚ) (r : ℕ) : List ℚ :=
  0 :: ((ui.zip initial).filter (fun e => e.1 = r)).map Prod.snd

/-- `exchange` (gather_scatter.py 189-261) with `axis_name=None`; `updates` is the array of line 241. -/
def exchangeFl (fl : ℚ → ℚ) (N : ℕ) (u : ℕ → ℚ) (gi : List ℤ) (ui : List ℕ) (updates : ℕ → ℚ) : ℕ → ℚ :=
  if gi.isEmpty then u
  else
    let initial := initialValues N u gi
    atAddFl fl N u ((gi.zip ((ui.map updates).zip initial)).map
      (fun e => (e.1, maskOf e.1 * fl (e.2.1 - e.2.2))))

/-- `out` is a possible result of `Mesh.exchange` (core/mesh.py 174-179) of an unpartitioned mesh. -/
def MeshExchangeFl (fl : ℚ → ℚ) (N : ℕ) (node : ℕ → ℤ) (u out : ℕ → ℚ) : Prop :=
  ∃ updates : ℕ → ℚ,
    (∀ r, RoundedSum fl (scatterTerms (exchangeIndices N node).2
      (initialValues N u (exchangeIndices N node).1) r) (updates r)) ∧
    out = exchangeFl fl N u (exchangeIndices N node).1 (exchangeIndices N node).2 updates

/-- Adding from the left, which is what a sequential scatter-add does. -/
def sumLeft (fl : ℚ → ℚ) : List ℚ → ℚ
  | [] => 0
  | a :: l => l.foldl (fun s x => fl (s + x)) a

/-- `Mesh.exchange` of an unpartitioned mesh where the scatter-add takes its updates one after the other. -/
def meshExchangeSeq (fl : ℚ → ℚ) (N : ℕ) (node : ℕ → ℤ) (u : ℕ → ℚ) : ℕ → ℚ :=
  exchangeFl fl N u (exchangeIndices N node).1 (exchangeIndices N node).2
    (fun r => sumLeft fl (scatterTerms (exchangeIndices N node).2
      (initialValues N u (exchangeIndices N node).1) r))

/-- The numbers `psum` adds up in entry `k` (gather_scatter.py 229-231, 247). -/
def psumTerms (P N : ℕ) (gi : ℕ → ℕ → ℤ) (u : ℕ → ℕ → ℚ) (k : ℕ) : List ℚ :=
  (List.range P).map (fun p => maskOf (gi p k) * u p (readPos N (gi p k)))

/-- `exchange` (gather_scatter.py 189-261) inside `pmap`, `unique_indices=None`; `updates` is the result of
`psum`, the same on all devices. -/
def exchangePartFl (fl : ℚ → ℚ) (N K : ℕ) (gi : ℕ → ℕ → ℤ) (u : ℕ → ℕ → ℚ) (updates : ℕ → ℚ) : ℕ → ℕ → ℚ :=
  if K = 0 then u
  else fun p => atAddFl fl N (u p) ((List.range K).map (fun k =>
    (gi p k, maskOf (gi p k) * fl (updates k - maskOf (gi p k) * u p (readPos N (gi p k))))))

/-- `out` is a possible result of `Mesh.exchange` (core/mesh.py 174-179) on all devices of a partitioned mesh. -/
def MeshExchangePartFl (fl : ℚ → ℚ) (P N : ℕ) (node : ℕ → ℕ → ℤ) (u out : ℕ → ℕ → ℚ) : Prop :=
  ∃ rows, exchangeIndicesPart P N node = .ok rows ∧ ∃ updates : ℕ → ℚ,
    (∀ k < (indicesToExchange (flattenNodes P N node)).length,
      RoundedSum fl (psumTerms P N (fun p => rows.getD p (fun _ => sentinel)) u k) (updates k)) ∧
    out = exchangePartFl fl N (indicesToExchange (flattenNodes P N node)).length
      (fun p => rows.getD p (fun _ => sentinel)) u updates

end Verif.Core
