import Mathlib.Data.List.Dedup
import Mathlib.Data.List.Basic

/-!
# Model of `common/mesh_partitioner.py`

`networkx` is modelled by its documented behaviour: an undirected simple graph, and breadth first distances with a
cutoff. `pymetis.part_graph` is external.
-/

namespace Verif.Common

/-- The edges added to the graph (mesh_partitioner.py 43-45): element `e` is joined to the graph node `E + i` for each
node `i` of the element, `E` being the number of elements. -/
def bipartiteEdges (elements : List (List ℕ)) : List (ℕ × ℕ) :=
  (List.range elements.length).flatMap (fun e => (elements.getD e []).map (fun i => (e, elements.length + i)))

/-- Neighbours in an undirected graph given by a list of edges, each once. -/
def neighbours (edges : List (ℕ × ℕ)) (v : ℕ) : List ℕ :=
  (edges.flatMap (fun p => (if p.1 = v then [p.2] else []) ++ (if p.2 = v then [p.1] else []))).dedup

/-- `nx.single_source_shortest_path_length(g, source, cutoff)`: breadth first search, level by level. The result lists
every vertex within the cutoff once, with its level. Arguments: remaining levels, current level, the vertices on it and
the vertices already seen. -/
def bfs (edges : List (ℕ × ℕ)) : ℕ → ℕ → List ℕ → List ℕ → List (ℕ × ℕ)
  | 0, _, _, _ => []
  | fuel + 1, level, frontier, seen =>
    let next := ((frontier.flatMap (neighbours edges)).dedup).filter (fun v => v ∉ seen)
    next.map (fun v => (v, level + 1)) ++ bfs edges fuel (level + 1) next (seen ++ next)

/-- Distances from `source` up to `cutoff`; a source which is not a vertex of the graph raises. -/
def shortestPaths (edges : List (ℕ × ℕ)) (source cutoff : ℕ) : Option (List (ℕ × ℕ)) :=
  if neighbours edges source = [] then none
  else some ((source, 0) :: bfs edges cutoff 0 [source] [source])

/-- `adjlist[source]` (mesh_partitioner.py 47-50). -/
def adjacency (elements : List (List ℕ)) (source : ℕ) : Option (List ℕ) :=
  (shortestPaths (bipartiteEdges elements) source 2).map
    (fun paths => (paths.filter (fun p => p.2 = 2)).map (·.1))

end Verif.Common
