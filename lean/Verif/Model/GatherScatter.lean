import Mathlib.Algebra.BigOperators.Group.Finset.Basic
import Mathlib.Algebra.BigOperators.Group.List.Basic
import Mathlib.Algebra.Ring.Defs
import Mathlib.Data.List.Dedup
import Mathlib.Data.List.Sort

/-!
# Model of `core/gather_scatter.py`

An array of length `N` is a function `ℕ → R` of which only the entries below `N` count; `R` is any
commutative ring (floating point rounding is not modelled). Index arrays hold integers, `-1` being the
sentinel.
-/

namespace Verif.Core

/-- `SENTINEL` (gather_scatter.py 118). -/
def sentinel : ℤ := -1

/-- Position read by `u[i]` in JAX: negative indices count from the end, others are clamped. -/
def readPos (N : ℕ) (i : ℤ) : ℕ := (min (max (if i < 0 then i + N else i) 0) ((N : ℤ) - 1)).toNat

/-- Position written by `u.at[i].add` in JAX: negative indices count from the end; out of range updates
are dropped (`none`). -/
def writePos (N : ℕ) (i : ℤ) : Option ℕ :=
  let j := if i < 0 then i + N else i
  if 0 ≤ j ∧ j < N then some j.toNat else none

variable {R : Type*} [CommRing R]

/-- `base.at[idx].add(upd)` for lists of indices and updates; duplicates accumulate. -/
def atAdd (N : ℕ) (base : ℕ → R) (updates : List (ℤ × R)) : ℕ → R :=
  fun j => base j + (updates.map (fun e => if writePos N e.1 = some j then e.2 else 0)).sum

/-- `indices != SENTINEL` as a number. -/
def maskOf (i : ℤ) : R := if i ≠ sentinel then 1 else 0

/-- `gather(u, indices, fill_value)` (gather_scatter.py 121-127), `u` of length `N`. -/
def gather {α : Type*} (N : ℕ) (u : ℕ → α) (indices : List ℤ) (fill : α) : List α :=
  indices.map (fun i => if i ≠ sentinel then u (readPos N i) else fill)

/-- `scatter(u, indices, num_nodes)` (gather_scatter.py 130-133). -/
def scatter (u : List R) (indices : List ℤ) (numNodes : ℕ) : ℕ → R :=
  atAdd numNodes (fun _ => 0) ((indices.zip u).map (fun e => (e.1, maskOf e.1 * e.2)))

/-! ### Periodic links -/

/-- `np.transpose(periodic_links, (0, 2, 1)).reshape((-1, 2))` (gather_scatter.py 271): facet pairs to node
pairs. -/
def periodicEdges (links : List (List ℤ × List ℤ)) : List (ℤ × ℤ) :=
  links.flatMap (fun l => l.1.zip l.2)

/-- One edge merges two components; the representative of a component is its least node. -/
def mergeEdge (rep : ℤ → ℤ) (e : ℤ × ℤ) : ℤ → ℤ :=
  fun x => if rep x = max (rep e.1) (rep e.2) then min (rep e.1) (rep e.2) else rep x

/-- Least node of the connected component: stands for `nx.Graph(edges)`, `nx.connected_components` and
`min(component)` (gather_scatter.py 272-281). The library call is replaced by merging the components edge
by edge. -/
def componentMin (edges : List (ℤ × ℤ)) : ℤ → ℤ := edges.foldl mergeEdge id

/-- `periodic_mapping` (gather_scatter.py 264-281): defined on the nodes that occur in a link. -/
def periodicMapping (links : List (List ℤ × List ℤ)) (i : ℤ) : Option ℤ :=
  let edges := periodicEdges links
  if i ∈ edges.map Prod.fst ∨ i ∈ edges.map Prod.snd then some (componentMin edges i) else none

/-- `get_unique_node_indices` (gather_scatter.py 136-160) on one index; the Python function maps it over
an array of any shape. -/
def uniqueNodeIndex (links : Option (List (List ℤ × List ℤ))) (i : ℤ) : ℤ :=
  match links with
  | none => i
  | some links =>
    if links.length = 0 then i
    else match periodicMapping links i with
      | some r => r
      | none => i

/-! ### Exchange without partitions -/

/-- `indices_to_exchange` (gather_scatter.py 290-297, 325-333), sorted (301, 337). -/
def indicesToExchange (nodes : List ℤ) : List ℤ :=
  (nodes.dedup.filter (fun x => x ≠ sentinel ∧ nodes.count x > 1)).insertionSort (· ≤ ·)

/-- `_get_exchange_indices_unpartitioned` (gather_scatter.py 284-315). -/
def exchangeIndices (N : ℕ) (node : ℕ → ℤ) : List ℤ × List ℕ :=
  let ex := indicesToExchange ((List.range N).map node)
  let pos := (List.range N).filter (fun p => node p ∈ ex)
  (pos.map (fun p : ℕ => (p : ℤ)), pos.map (fun p => ex.idxOf (node p)))

/-- `exchange(u, gather_indices, unique_indices)` (gather_scatter.py 189-261) with `axis_name=None`. -/
def exchange (N : ℕ) (u : ℕ → R) (gi : List ℤ) (ui : List ℕ) : ℕ → R :=
  if gi.isEmpty then u
  else
    let initial := gi.map (fun i => maskOf i * u (readPos N i))
    let updates : ℕ → R := fun r => ((ui.zip initial).map (fun e => if e.1 = r then e.2 else 0)).sum
    let updates := ui.map updates
    atAdd N u ((gi.zip (updates.zip initial)).map (fun e => (e.1, maskOf e.1 * (e.2.1 - e.2.2))))

/-! ### Exchange between partitions -/

/-- State of the loop over one partition (gather_scatter.py 344-356). -/
structure PartLoop where
  gather : ℕ → ℤ
  seen : List ℤ

/-- Body of the loop over the positions of one partition (gather_scatter.py 346-356). -/
def partStep (ex : List ℤ) (node : ℕ → ℤ) (st : PartLoop) (pos : ℕ) : Except String PartLoop :=
  if node pos = sentinel ∨ node pos ∉ ex then .ok st
  else if node pos ∈ st.seen then .error "NotImplementedError"
  else .ok { gather := Function.update st.gather (ex.idxOf (node pos)) (pos : ℤ)
             seen := node pos :: st.seen }

/-- One row of `gather_indices` (gather_scatter.py 341-356). -/
def partRow (N : ℕ) (ex : List ℤ) (node : ℕ → ℤ) : Except String PartLoop :=
  (List.range N).foldlM (partStep ex node) { gather := fun _ => sentinel, seen := [] }

/-- All indices held by the partitions: `node_indices.flatten()` (gather_scatter.py 326). -/
def flattenNodes (P N : ℕ) (node : ℕ → ℕ → ℤ) : List ℤ :=
  (List.range P).flatMap (fun p => (List.range N).map (node p))

/-- `_get_exchange_indices_partitioned` (gather_scatter.py 318-358): row `p` of the result has
`(indicesToExchange ...).length` entries. -/
def exchangeIndicesPart (P N : ℕ) (node : ℕ → ℕ → ℤ) : Except String (List (ℕ → ℤ)) :=
  let ex := indicesToExchange (flattenNodes P N node)
  (List.range P).mapM (fun p => do let st ← partRow N ex (node p); .ok st.gather)

/-- `exchange` (gather_scatter.py 189-261) inside `pmap` over `P` devices, `unique_indices=None`;
`gi p` is row `p` of `gather_indices` with `K` entries. -/
def exchangePart (P N K : ℕ) (gi : ℕ → ℕ → ℤ) (u : ℕ → ℕ → R) : ℕ → ℕ → R :=
  if K = 0 then u
  else
    let initial : ℕ → ℕ → R := fun p k => maskOf (gi p k) * u p (readPos N (gi p k))
    let updates : ℕ → R := fun k => ∑ p ∈ Finset.range P, initial p k
    fun p => atAdd N (u p)
      ((List.range K).map (fun k => (gi p k, maskOf (gi p k) * (updates k - initial p k))))

/-! ### `Mesh.exchange` -/

/-- `Mesh.exchange` (core/mesh.py 174-179) of an unpartitioned mesh whose exchange indices come from
`get_exchange_indices(node_indices)` (premesh.py 158-159). -/
def meshExchange (N : ℕ) (node : ℕ → ℤ) (u : ℕ → R) : ℕ → R :=
  exchange N u (exchangeIndices N node).1 (exchangeIndices N node).2

/-- `Mesh.exchange` (core/mesh.py 174-179) on all devices of a partitioned mesh whose exchange indices come
from `get_exchange_indices(node_indices)` (premesh.py 200-201). -/
def meshExchangePart (P N : ℕ) (node : ℕ → ℕ → ℤ) (u : ℕ → ℕ → R) : Except String (ℕ → ℕ → R) :=
  match exchangeIndicesPart P N node with
  | .error e => .error e
  | .ok rows => .ok (exchangePart P N (indicesToExchange (flattenNodes P N node)).length
      (fun p => rows.getD p (fun _ => sentinel)) u)

/-! ### Partitioning -/

/-- `_pad_evenly` (gather_scatter.py 361-366). -/
def padEvenly (l : List (List ℤ)) : List (List ℤ) :=
  let n := (l.map List.length).foldl max 0
  l.map (fun i => i ++ List.replicate (n - i.length) sentinel)

/-- `group_by_partitions` (gather_scatter.py 369-396); `partitions` is non empty with entries ≥ 0. The loop
appends the index to the list of its partition. -/
def groupByPartitions (partitions : List ℕ) : List (List ℤ) :=
  let numPartitions := 1 + partitions.foldl max 0
  let init : List (List ℤ) := List.replicate numPartitions []
  let indices := partitions.zipIdx.foldl
    (fun acc (pi : ℕ × ℕ) => acc.modify pi.1 (fun l => l ++ [(pi.2 : ℤ)])) init
  padEvenly indices

/-- `np.unique(indices[indices != SENTINEL])` (gather_scatter.py 431): sorted, without repetitions. -/
def dedupNodes (indices : List ℤ) : List ℤ :=
  ((indices.filter (fun i => i ≠ sentinel)).dedup).insertionSort (· ≤ ·)

/-- `get_local_elements` (gather_scatter.py 399-445); row `p` of `elements` is the flattened element array
of partition `p`. -/
def getLocalElements (elements : List (List ℤ)) : List (List ℤ) × List (List ℤ) :=
  let nodeIndices := padEvenly (elements.map dedupNodes)
  let localMapping (indices : List ℤ) (i : ℤ) : Option ℕ :=
    if i ≠ sentinel ∧ i ∈ indices then some (indices.idxOf i) else none
  let localElements := (elements.zip nodeIndices).map (fun en =>
    en.1.map (fun i => match localMapping en.2 i with
      | some pos => (pos : ℤ)
      | none => sentinel))
  (nodeIndices, localElements)

end Verif.Core
