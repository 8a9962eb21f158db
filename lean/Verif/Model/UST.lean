import Verif.Model.MCMC
import Verif.Model.ProjSampler

/-!
Model of the uniform spanning tree samplers: `/repo/dppy/exotic_dpps_core.py` lines 37-139 and class `UST` of
`/repo/dppy/exotic_dpps.py` lines 450-645.

Nodes are `0, ..., n-1`, as the class assumes (`range(self.nb_nodes)`); a returned networkx graph is the list of
the edges given to `add_edges_from`, its nodes are their ends.  The random walks are unbounded loops: the models
run at most `fuel` iterations and return `none` when the loop is not finished by then.
-/

namespace Verif.Model
open Verif

variable {n : ℕ}

/-- What the samplers read from the networkx graph: `graph.edges()` and `graph.neighbors(v)`.
(`/repo/dppy/exotic_dpps.py` lines 466-498) -/
structure NxGraph (n : ℕ) where
  edges : List (Fin n × Fin n)
  adj : Fin n → List (Fin n)

/-- `state[v]`: `-1` not visited, `0` in path, `1` in tree. (`/repo/dppy/exotic_dpps_core.py` lines 53-54) -/
inductive Mark where
  | new | path | tree
deriving DecidableEq

/-- Local variables of `ust_sampler_wilson` (`/repo/dppy/exotic_dpps_core.py` lines 50-57). -/
structure WSt (n : ℕ) where
  n0 : Fin n
  state : Fin n → Mark
  nb : ℕ
  path : List (Fin n)
  branches : List (List (Fin n))

/-- `if state[n1] == -1: path.append(n1); state[n1] = 0; n0 = n1`
(`/repo/dppy/exotic_dpps_core.py` lines 64-68). -/
def wVisit (s : WSt n) (n1 : Fin n) : WSt n :=
  if s.state n1 = .new then
    { s with path := s.path ++ [n1], state := Function.update s.state n1 .path, n0 := n1 }
  else s

/-- `knot = path.index(n1)`, `nodes_loop = path[knot + 1:]`, `del path[knot + 1:]`, `state[nodes_loop] = -1`,
`n0 = n1` (`/repo/dppy/exotic_dpps_core.py` lines 70-76); `path.index` raises `ValueError` when `n1` is not in
the path. -/
def wErase (s : WSt n) (n1 : Fin n) : Outcome (WSt n) :=
  if n1 ∈ s.path then
    .ok { s with
      path := s.path.take (s.path.idxOf n1 + 1)
      state := fun v => if v ∈ s.path.drop (s.path.idxOf n1 + 1) then .new else s.state v
      n0 := n1 }
  else .valueError

/-- The new branch and the bookkeeping when the walk hits the tree
(`/repo/dppy/exotic_dpps_core.py` lines 80-86). -/
def wAttach (s : WSt n) (n1 : Fin n) : WSt n :=
  { s with
    branches := s.branches ++ [if s.nb = 1 then n1 :: s.path else s.path ++ [n1]]
    state := fun v => if v ∈ s.path then .tree else s.state v
    nb := s.nb + s.path.length }

/-- `np.where(state == -1)[0]` (`/repo/dppy/exotic_dpps_core.py` line 89) -/
def wNew (s : WSt n) : List (Fin n) := (List.finRange n).filter fun v => s.state v = .new

/-- Restart of the walk (`/repo/dppy/exotic_dpps_core.py` lines 88-92); the new start is not marked. -/
noncomputable def wRestart (s : WSt n) : Dist ℝ (Outcome (WSt n)) :=
  if wNew s = [] then Dist.ret (.ok s)
  else (choiceO (wNew s)).andThen fun v => Dist.ret (.ok { s with n0 := v, path := [v] })

/-- The two tests after the first one: `if state[n1] == 0: ... elif state[n1] == 1: ...`.
(`/repo/dppy/exotic_dpps_core.py` lines 70-92) -/
noncomputable def wAfter (s : WSt n) (n1 : Fin n) : Dist ℝ (Outcome (WSt n)) :=
  if s.state n1 = .path then Dist.ret (wErase s n1)
  else if s.state n1 = .tree then wRestart (wAttach s n1)
  else Dist.ret (.ok s)

/-- One pass in the loop (`/repo/dppy/exotic_dpps_core.py` lines 59-92). -/
noncomputable def wStep (adj : Fin n → List (Fin n)) (s : WSt n) : Dist ℝ (Outcome (WSt n)) :=
  (choiceO (adj s.n0)).andThen fun n1 => wAfter (wVisit s n1) n1

/-- `while nb_nodes_in_tree < nb_nodes` for at most `fuel` passes. (`/repo/dppy/exotic_dpps_core.py` lines 59-92) -/
noncomputable def wLoop (adj : Fin n → List (Fin n)) : ℕ → WSt n → Dist ℝ (Outcome (Option (WSt n)))
  | fuel, s => if s.nb < n then
      match fuel with
      | 0 => Dist.ret (.ok none)
      | fuel + 1 => (wStep adj s).andThen (wLoop adj fuel)
    else Dist.ret (.ok (some s))

/-- `zip(x[:-1], x[1:])` (`/repo/dppy/exotic_dpps_core.py` lines 94-95) -/
def pathEdges {α : Type*} (x : List α) : List (α × α) := x.dropLast.zip x.tail

/-- `state = -np.ones(nb_nodes); state[n0] = 1; nb_nodes_in_tree = 1; path, branches = [], []`
(`/repo/dppy/exotic_dpps_core.py` lines 53-57) -/
def wInit (n0 : Fin n) : WSt n :=
  { n0 := n0
    state := Function.update (fun _ => Mark.new) n0 Mark.tree
    nb := 1
    path := []
    branches := [] }

/-- `n0 = root if root else rng.choice(nb_nodes)`: the root `0` is not distinguished from no root;
`rng.choice(0)` raises `ValueError`. (`/repo/dppy/exotic_dpps_core.py` lines 51, 116) -/
noncomputable def startNode (root : Option (Fin n)) : Dist ℝ (Outcome (Fin n)) :=
  match root with
  | some r => if r.val ≠ 0 then Dist.ret (.ok r) else choiceO (List.finRange n)
  | none => choiceO (List.finRange n)

/-- `ust_sampler_wilson(list_of_neighbors, root)` (`/repo/dppy/exotic_dpps_core.py` lines 37-98), for at most
`fuel` steps of the walk: the edges of the returned graph. -/
noncomputable def wilson (adj : Fin n → List (Fin n)) (root : Option (Fin n)) (fuel : ℕ) :
    Dist ℝ (Outcome (Option (List (Fin n × Fin n)))) :=
  (startNode root).andThen fun n0 =>
    (wLoop adj fuel (wInit n0)).map (Outcome.map (Option.map fun s => s.branches.flatMap pathEdges))

/-- Local variables of `ust_sampler_aldous_broder` (`/repo/dppy/exotic_dpps_core.py` lines 115-121);
`edges` holds the rows of `tree_edges` already written. -/
structure ABSt (n : ℕ) where
  n0 : Fin n
  visited : Fin n → Bool
  nb : ℕ
  edges : List (Fin n × Fin n)

/-- One step of the walk once `n1` is drawn (`/repo/dppy/exotic_dpps_core.py` lines 128-135). -/
def abMove (s : ABSt n) (n1 : Fin n) : ABSt n :=
  if s.visited n1 then { s with n0 := n1 }
  else
    { n0 := n1
      visited := Function.update s.visited n1 true
      nb := s.nb + 1
      edges := s.edges ++ [(s.n0, n1)] }

/-- `while nb_nodes_in_tree < nb_nodes` for at most `fuel` passes
(`/repo/dppy/exotic_dpps_core.py` lines 123-135). -/
noncomputable def abLoop (adj : Fin n → List (Fin n)) : ℕ → ABSt n → Dist ℝ (Outcome (Option (ABSt n)))
  | fuel, s => if s.nb < n then
      match fuel with
      | 0 => Dist.ret (.ok none)
      | fuel + 1 => (choiceO (adj s.n0)).andThen fun n1 => abLoop adj fuel (abMove s n1)
    else Dist.ret (.ok (some s))

/-- initial values (`/repo/dppy/exotic_dpps_core.py` lines 116-121) -/
def abInit (n0 : Fin n) : ABSt n :=
  { n0 := n0
    visited := Function.update (fun _ => false) n0 true
    nb := 1
    edges := [] }

/-- `ust_sampler_aldous_broder(list_of_neighbors, root)` (`/repo/dppy/exotic_dpps_core.py` lines 101-139).
Simplification: `np.int` (line 121) is assumed to exist (numpy < 1.24). -/
noncomputable def aldousBroder (adj : Fin n → List (Fin n)) (root : Option (Fin n)) (fuel : ℕ) :
    Dist ℝ (Outcome (Option (List (Fin n × Fin n)))) :=
  (startNode root).andThen fun n0 =>
    (abLoop adj fuel (abInit n0)).map (Outcome.map (Option.map ABSt.edges))

/-! ### class `UST` -/

/-- Column of the edge `e` in `nx.incidence_matrix(graph, oriented=True)`: `-1` at the first end, `1` at the
second one, zero for a self loop. (`/repo/dppy/exotic_dpps.py` line 619) -/
def incEntry (e : Fin n × Fin n) (v : Fin n) : ℝ :=
  if e.1 = e.2 then 0 else if v = e.1 then -1 else if v = e.2 then 1 else 0

/-- `A.T` where `A = inc_mat[:-1, :]` (`/repo/dppy/exotic_dpps.py` lines 619-623). -/
def incT (G : NxGraph n) : Fin G.edges.length → Fin (n - 1) → ℝ :=
  fun e k => incEntry (G.edges.get e) ⟨k.val, by omega⟩

/-- `kernel_eig_vecs = qr(A.T, mode='economic')[0]` (`/repo/dppy/exotic_dpps.py` lines 613-623). -/
def ustEigVecs (G : NxGraph n) (qr : QR G.edges.length) : Matrix (Fin G.edges.length) (Fin (n - 1)) ℝ :=
  qr (n - 1) (incT G)

/-- `self.kernel = U U.T` (`/repo/dppy/exotic_dpps.py` lines 596-611). -/
noncomputable def ustKernel (G : NxGraph n) (qr : QR G.edges.length) :
    Matrix (Fin G.edges.length) (Fin G.edges.length) ℝ :=
  ustEigVecs G qr * (ustEigVecs G qr).transpose

/-- A `UST` object: the graph never changes; `kernel` and `eigVecs` say whether the caches are filled (their
values are functions of the graph). (`/repo/dppy/exotic_dpps.py` lines 466-498, 520-623) -/
structure UstObj (n : ℕ) where
  mode : String
  samples : List (List (Fin n × Fin n))
  kernel : Bool
  eigVecs : Bool

/-- `UST(graph)` (`/repo/dppy/exotic_dpps.py` lines 466-499) for a graph whose connectedness test gives `conn`. -/
def ustInit (conn : Bool) : Outcome (UstObj n) :=
  if conn then .ok { mode := "Wilson", samples := [], kernel := false, eigVecs := false } else .valueError

/-- `self.list_of_samples.append(sampl)` when the sampler has returned; the loop of the Markov chain based
samplers may not be finished (`none`). (`/repo/dppy/exotic_dpps.py` line 594) -/
def ustRecord (o : UstObj n) (d : Dist ℝ (Outcome (Option (List (Fin n × Fin n))))) :
    Dist ℝ (UstObj n × Outcome (Option Unit)) :=
  d.map fun r => match r with
    | .ok (some t) => ({ o with samples := o.samples ++ [t] }, .ok (some ()))
    | .ok none => (o, .ok none)
    | .raise e => (o, .raise e)

/-- `sampl.add_edges_from([self.edges[e] for e in dpp_sample])`
(`/repo/dppy/exotic_dpps.py` lines 574-575, 584-585) -/
noncomputable def ustEdges (G : NxGraph n) (d : Dist ℝ (Outcome (List (Fin G.edges.length)))) :
    Dist ℝ (Outcome (Option (List (Fin n × Fin n)))) :=
  d.map (Outcome.map fun l => some (l.map G.edges.get))

/-- `UST.sample(mode, root)` (`/repo/dppy/exotic_dpps.py` lines 520-593): `root` is not passed to the samplers;
in the last branch `'\n'.join` is called with three arguments, which raises `TypeError`. -/
noncomputable def ustSample (G : NxGraph n) (qr : QR G.edges.length) (fuel : ℕ) (o : UstObj n) (mode : String)
    (_root : Option (Fin n)) : Dist ℝ (UstObj n × Outcome (Option Unit)) :=
  let o := { o with mode := mode }
  if mode = "Wilson" then ustRecord o (wilson G.adj none fuel)
  else if mode = "Aldous-Broder" then ustRecord o (aldousBroder G.adj none fuel)
  else if mode = "GS" then
    ustRecord { o with eigVecs := true } (ustEdges G (projDppSamplerEig qr (ustEigVecs G qr) mode none))
  else if mode = "Schur" ∨ mode = "Chol" then
    ustRecord { o with eigVecs := true, kernel := true } (ustEdges G (projDppSamplerKernel (ustKernel G qr) mode none))
  else Dist.ret (o, .raise .typeError)

end Verif.Model
