import Verif.Model.UnitCube

/-!
# Model of `get_orderings_mapping` (common/facet_util.py 95-143)
-/

namespace Verif.Common

/-- Each element of a list together with the remaining ones. -/
def pickEach {α : Type*} : List α → List (α × List α)
  | [] => []
  | x :: xs => (x, xs) :: (pickEach xs).map (fun p => (p.1, x :: p.2))

/-- `itertools.permutations(l, k)`. -/
def permsOfLength {α : Type*} : ℕ → List α → List (List α)
  | 0, _ => [[]]
  | k + 1, l => (pickEach l).flatMap (fun p => (permsOfLength k p.2).map (p.1 :: ·))

/-- `itertools.permutations(l)`. -/
def permutations {α : Type*} (l : List α) : List (List α) := permsOfLength l.length l

/-- `itertools.combinations(l, k)`. -/
def combinations {α : Type*} : ℕ → List α → List (List α)
  | 0, _ => [[]]
  | _ + 1, [] => []
  | k + 1, x :: xs => (combinations k xs).map (x :: ·) ++ combinations (k + 1) xs

/-- `more_itertools.powerset(l)`. -/
def powerset {α : Type*} (l : List α) : List (List α) :=
  (List.range (l.length + 1)).flatMap (fun k => combinations k l)

/-- `np.arange(m ** ndim).reshape([m] * ndim)` (facet_util.py 130-132). -/
def arangeCube (m ndim : ℕ) : NdArray ℕ where
  shape := List.replicate ndim m
  data := ravel m

/-- `x.transpose(perm)`: axis `k` of the result is axis `perm[k]` of `x`. -/
def NdArray.transpose {α : Type*} (x : NdArray α) (perm : List ℕ) : NdArray α where
  shape := perm.map (fun p => x.shape.getD p 0)
  data := fun J => x.data ((List.range x.shape.length).map (fun i => J.getD (perm.idxOf i) 0))

/-- `np.flip(x, axes)`. -/
def NdArray.flip {α : Type*} (x : NdArray α) (axes : List ℕ) : NdArray α where
  shape := x.shape
  data := fun J => x.data (J.mapIdx (fun k j => if k ∈ axes then x.shape.getD k 0 - 1 - j else j))

/-- `x.flatten()`. -/
def NdArray.flatten {α : Type*} (x : NdArray α) : List α :=
  (cartesian (x.shape.map List.range)).map x.data

/-- One entry of the mapping (facet_util.py 138-142). -/
def orderingEntry (ndim m : ℕ) (perm axes : List ℕ) : List ℕ × List ℕ :=
  ((((arangeCube 2 ndim).transpose perm).flip axes).flatten,
    (((arangeCube m ndim).transpose perm).flip axes).flatten)

/-- The assignments `orderings[key] = value` in the order in which they are made (facet_util.py 135-142). -/
def orderings (ndim m : ℕ) : List (List ℕ × List ℕ) :=
  (permutations (List.range ndim)).flatMap (fun perm =>
    (powerset (List.range ndim)).map (fun axes => orderingEntry ndim m perm axes))

/-- Lookup in the dictionary: the last assignment to a key counts; `none` is `KeyError`. -/
def orderingsGet (ndim m : ℕ) (key : List ℕ) : Option (List ℕ) :=
  ((orderings ndim m).reverse.find? (fun e => e.1 = key)).map (·.2)

end Verif.Common
