import Verif.Model.PScan

/-! `pscan` and `preduce` on pytrees: flattening, the operator on lists of leaves, and unflattening
(swirl_fem/communication/pscan.py 184-189, 226-240). -/

namespace Verif.Comm

/-- A pytree: a leaf, or a container with its children in the order of `tree_flatten`. The label stands for the type of the
container and its keys (jax sorts the keys of a dict). `None` is a container without children. -/
inductive PyTree (L : Type) where
  | leaf (a : L)
  | node (label : String) (children : List (PyTree L))

variable {L : Type}

mutual
/-- The leaves that `jax.tree_util.tree_flatten` returns (pscan.py 228). -/
def PyTree.flatten : PyTree L → List L
  | .leaf a => [a]
  | .node _ cs => PyTree.flattenAll cs
/-- `flatten` for a list of children (pscan.py 228). -/
def PyTree.flattenAll : List (PyTree L) → List L
  | [] => []
  | c :: cs => c.flatten ++ PyTree.flattenAll cs
end

mutual
/-- The structure that `jax.tree_util.tree_flatten` returns (`tree_def`, pscan.py 228): the pytree without the leaves. -/
def PyTree.treeDef : PyTree L → PyTree Unit
  | .leaf _ => .leaf ()
  | .node s cs => .node s (PyTree.treeDefs cs)
/-- `treeDef` for a list of children (pscan.py 228). -/
def PyTree.treeDefs : List (PyTree L) → List (PyTree Unit)
  | [] => []
  | c :: cs => c.treeDef :: PyTree.treeDefs cs
end

mutual
/-- Take the leaves of a structure from the front of a list; the rest of the list is returned (pscan.py 229). -/
def takeTree : PyTree Unit → List L → Except String (PyTree L × List L)
  | .leaf _, [] => .error "ValueError: too few leaves for PyTreeDef"
  | .leaf _, a :: l => .ok (.leaf a, l)
  | .node s ds, l =>
    match takeTrees ds l with
    | .error e => .error e
    | .ok (cs, r) => .ok (.node s cs, r)
/-- `takeTree` for a list of children (pscan.py 229). -/
def takeTrees : List (PyTree Unit) → List L → Except String (List (PyTree L) × List L)
  | [], l => .ok ([], l)
  | d :: ds, l =>
    match takeTree d l with
    | .error e => .error e
    | .ok (c, r) =>
      match takeTrees ds r with
      | .error e => .error e
      | .ok (cs, r') => .ok (c :: cs, r')
end

/-- `jax.tree_util.tree_unflatten(tree_def, l)` (pscan.py 229): an error unless the number of leaves is right. -/
def unflatten (d : PyTree Unit) (l : List L) : Except String (PyTree L) :=
  match takeTree d l with
  | .error e => .error e
  | .ok (t, []) => .ok t
  | .ok (_, _ :: _) => .error "ValueError: too many leaves for PyTreeDef"

/-- `list_op = lambda x, y: [op(a, b) for a, b in zip(x, y)]` (pscan.py 185). -/
def listOp (op : L → L → L) (x y : List L) : List L := List.zipWith op x y

/-- `[jnp.full_like(a, fill_value=unit_table[op](a.dtype)) for a in x]` (pscan.py 189). Shapes and dtypes are the same on all
devices (the program is traced once), so the units are those of device 0. -/
def unitsOf (unitOf : L → L) (x : ℕ → PyTree L) : List L := (x 0).flatten.map unitOf

/-- `pscan(x, op, axis_name)` for pytrees (pscan.py 226-240, 243-267), on every device. -/
def pscanTree (P : ℕ) (op : L → L → L) (unitOf : L → L) (x : ℕ → PyTree L) :
    Except String (ℕ → Except String (PyTree L)) :=
  match pscan P (listOp op) (unitsOf unitOf x) (fun i => (x i).flatten) with
  | .error e => .error e
  | .ok r => .ok (fun i => unflatten (x i).treeDef (r i))

/-- `pscan(x, op, axis_name, reduction=True)` for pytrees (pscan.py 226-240, 243-267): both outputs are unflattened. -/
def pscanReduceTree (P : ℕ) (op : L → L → L) (unitOf : L → L) (x : ℕ → PyTree L) :
    Except String (ℕ → Except String (PyTree L) × Except String (PyTree L)) :=
  match pscanReduce P (listOp op) (unitsOf unitOf x) (fun i => (x i).flatten) with
  | .error e => .error e
  | .ok r => .ok (fun i => (unflatten (x i).treeDef (r i).1, unflatten (x i).treeDef (r i).2))

/-- `preduce(x, op, axis_name)` for pytrees and the operators without a built in collective (pscan.py 226-240, 294-296). -/
def preduceTree (P : ℕ) (op : L → L → L) (unitOf : L → L) (x : ℕ → PyTree L) :
    Except String (ℕ → Except String (PyTree L)) :=
  match preduce P (listOp op) (unitsOf unitOf x) (fun i => (x i).flatten) with
  | .error e => .error e
  | .ok r => .ok (fun i => unflatten (x i).treeDef (r i))

end Verif.Comm
