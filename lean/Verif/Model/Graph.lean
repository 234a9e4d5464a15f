import Verif.Model.UnionFind

/-! # Model of `utility/graph/graph.h` (`edge.h`, `node.h`) -/

namespace Printemps.Graph
open UnionFind

/-- `Edge`, edge.h: two node keys and a weight. -/
structure Edge where
  first : ℕ
  second : ℕ
  weight : ℚ

/-- `Graph`, graph.h:15-16: the keys of `m_nodes` (a node's own edge indices and weight are not modelled)
and `m_edges`. -/
structure G where
  nodes : List ℕ
  edges : List Edge

/-- `initialize`, graph.h:25-28. -/
def G.empty : G := ⟨[], []⟩

/-- `add_node`, graph.h:80-92: inserts the key if it is not there. -/
def G.addNode (g : G) (k : ℕ) : G := if k ∈ g.nodes then g else { g with nodes := g.nodes ++ [k] }

/-- `add_edge`, graph.h:31-77. -/
def G.addEdge (g : G) (e : Edge) : G :=
  let g1 := g.addNode e.first
  let g2 := g1.addNode e.second
  { g2 with edges := g2.edges ++ [e] }

/-- The loop of `minimum_spanning_tree`, graph.h:116-130, over the remaining edges. `none` stands for a
call of the union-find structure that never ends. -/
def mstLoop (n : ℕ) : List Edge → UF → List Edge → Option (List Edge)
  | [], _, added => some added
  | e :: es, uf, added =>
    (uf.isSame e.first e.second).bind fun p =>
      if p.2 then mstLoop n es p.1 added
      else
        (p.1.unite e.first e.second).bind fun q =>
          let added' := added ++ [e]
          if added'.length = n - 1 then some added' else mstLoop n es q.1 added'

/-- `std::stable_sort` by weight, graph.h:101-105. -/
def sortEdges (es : List Edge) : List Edge := es.mergeSort fun a b => decide (a.weight ≤ b.weight)

/-- `minimum_spanning_tree`, graph.h:95-140. -/
def G.mst (g : G) : Option G :=
  (mstLoop g.nodes.length (sortEdges g.edges) (setup g.nodes) []).map fun added =>
    added.foldl G.addEdge (g.nodes.foldl G.addNode G.empty)

end Printemps.Graph
