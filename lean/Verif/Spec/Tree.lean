import Verif.Model.UST
import Mathlib.Combinatorics.SimpleGraph.Acyclic

/-! Independent specification of connected graphs and spanning trees. -/

namespace Verif.Spec
variable {n : ℕ}

/-- The simple graph with the edges of a list of pairs. -/
def graphOf (es : List (Fin n × Fin n)) : SimpleGraph (Fin n) :=
  SimpleGraph.fromRel fun a b => (a, b) ∈ es

/-- `adj` is the neighbour lists of the undirected graph with these edges. -/
def NbrsOf (es : List (Fin n × Fin n)) (adj : Fin n → List (Fin n)) : Prop :=
  ∀ u v, v ∈ adj u ↔ (u, v) ∈ es ∨ (v, u) ∈ es

/-- The edges `t` form a spanning tree of the graph with edges `es`: they are edges of that graph, there are
`n - 1` of them and they form a tree on all the nodes. -/
def IsSpanningTree (es t : List (Fin n × Fin n)) : Prop :=
  (∀ e ∈ t, e ∈ es ∨ e.swap ∈ es) ∧ t.length + 1 = n ∧ (graphOf t).IsTree

/-- The nodes of the networkx graph built by `add_edges_from(t)`. -/
def nodesOf (t : List (Fin n × Fin n)) : Set (Fin n) := {v | ∃ e ∈ t, v = e.1 ∨ v = e.2}

end Verif.Spec
