import Verif.Py
import Mathlib.Logic.Function.Basic
import Mathlib.Data.Fintype.Basic
import Mathlib.Order.Defs.LinearOrder

/-!
# Model of `veroku/cluster_graph.py` and `veroku/_cg_helpers/_cluster.py`

The code works for any factor class, so the model is a function of the factor operations (`Ops`). `F` is
the type of factors, `V` of evidence values, `G` of information gains (linearly ordered: NaN gains are
not modelled).

Simplifications. Factors are values: `copy`, `joint_distribution` (a copy for every class except
`NonLinearGaussian` and `FactorizedFactor`) and the copying accessors of `Message` are the identity.
Clusters and paths are objects with identity in Python; here they live in stores indexed by creation
order (`Fin n`, `Fin m`). Progress bars, printing, plotting, graphviz, the animation frames, the
`debug` message log and message uuids are left out.
-/

namespace Verif

/-- The factor operations the cluster graph uses (_factor.py 85-195). -/
structure Ops (F V G : Type) where
  /-- `var_names` -/
  vars : F → List Var
  /-- `multiply` -/
  multiply : F → F → Py F
  /-- `cancel` -/
  cancel : F → F → Py F
  /-- `marginalize(vrs, keep=True)` -/
  marginalize : F → List Var → Py F
  /-- `reduce(vrs, values)` -/
  reduce : F → List Var → List V → Py F
  /-- `distance_from_vacuous` -/
  distVacuous : F → Py G
  /-- `kl_divergence` -/
  kl : F → F → Py G

namespace CG
variable {F V G : Type}

/-- `Message` (_cluster.py 167-185). -/
structure Msg (F : Type) where
  factor : F
  snd : String
  rcv : String

/-- `Cluster` (_cluster.py 18-39): `_cluster_id`, `_factor`, `_neighbour_sepsets`,
`_received_message_factors`, `_special_evidence`. `_neighbour_references` is never read. -/
structure Cl (F V : Type) where
  id : String
  factor : F
  sepsets : Dict String (List Var) := []
  received : Dict String F := []
  special : Option (Dict Var V) := none

/-- `_GraphMessagePath` (cluster_graph.py 499-517). -/
structure Path (n : Nat) (F G : Type) where
  snd : Fin n
  rcv : Fin n
  prev : Option (Msg F)
  next : Msg F
  gain : G
  gains : List G

/-- `ClusterGraph` object state (cluster_graph.py 117-173) for `n` clusters and `m` message paths.
`out` is `_outward_message_paths` of each cluster, `queue` is `graph_message_paths`, `passed` is
`num_messages_passed` and `dists` is `sync_message_passing_max_distances`. -/
structure Graph (F V G : Type) (n m : Nat) where
  cl : Fin n → Cl F V
  out : Fin n → List (Fin m)
  path : Fin m → Path n F G
  queue : List (Fin m)
  passed : Nat
  dists : List G
  special : Dict Var V

/-! ### Clusters -/

/-- `Cluster.__init__` (_cluster.py 23-39). -/
def mkCluster (ops : Ops F V G) (prefix_ : String) (f : F) : Cl F V :=
  { id := prefix_ ++ ",".intercalate (ops.vars f), factor := f }

/-- `Cluster.add_neighbour` (_cluster.py 56-67). -/
def addNeighbour (c : Cl F V) (other : String) (sepset : List Var) : Py (Cl F V) := do
  pyAssert (decide (0 < sepset.length))
  .ok { c with sepsets := Dict.set c.sepsets other sepset }

/-- The cluster factor with the special evidence observed (_cluster.py 87-91). -/
def specialReduced (ops : Ops F V G) (c : Cl F V) : Py F :=
  match c.special with
  | none => .ok c.factor
  | some ev => ops.reduce c.factor (Dict.keys ev) (Dict.values ev)

/-- Cancel the message last received from `nid`, if there is one (_cluster.py 93-95, 115-117). -/
def cancelReceived (ops : Ops F V G) (c : Cl F V) (nid : String) (f : F) : Py F :=
  match Dict.get? c.received nid with
  | none => .ok f
  | some p => ops.cancel f p

/-- `Cluster.make_message` (_cluster.py 78-101). -/
def makeMessage (ops : Ops F V G) (c : Cl F V) (nid : String) : Py (Msg F) := do
  let sep ← Dict.getItem c.sepsets nid
  let f ← specialReduced ops c
  let f ← ops.marginalize f sep
  let f ← cancelReceived ops c nid f
  .ok ⟨f, c.id, nid⟩

/-- `Cluster.receive_message` (_cluster.py 103-119). -/
def receive (ops : Ops F V G) (c : Cl F V) (msg : Msg F) : Py (Cl F V) := do
  pyAssert (msg.rcv == c.id)
  let f ← ops.multiply c.factor msg.factor
  let f ← cancelReceived ops c msg.snd f
  .ok { c with factor := f, received := Dict.set c.received msg.snd msg.factor }

/-! ### Message paths -/

/-- `update_next_information_gain` (cluster_graph.py 519-534). -/
def gainOf (ops : Ops F V G) (prev : Option (Msg F)) (next : Msg F) : Py G :=
  match prev with
  | none => ops.distVacuous next.factor
  | some p => ops.kl p.factor next.factor

/-- `_GraphMessagePath.__init__` (cluster_graph.py 504-517). -/
def mkPath {n : Nat} (ops : Ops F V G) (cl : Fin n → Cl F V) (i j : Fin n) : Py (Path n F G) := do
  let next ← makeMessage ops (cl i) (cl j).id
  let g ← gainOf ops none next
  .ok ⟨i, j, none, next, g, [g]⟩

/-- `recompute_next_message` (cluster_graph.py 536-542). -/
def recompute {n : Nat} (ops : Ops F V G) (cl : Fin n → Cl F V) (p : Path n F G) : Py (Path n F G) := do
  let next ← makeMessage ops (cl p.snd) (cl p.rcv).id
  let g ← gainOf ops p.prev next
  .ok { p with next := next, gain := g, gains := p.gains ++ [g] }

/-- `pass_next_message` (cluster_graph.py 544-554) on path `q`. -/
def pass [Zero G] {n m : Nat} (ops : Ops F V G) (g : Graph F V G n m) (q : Fin m) : Py (Graph F V G n m) := do
  let p := g.path q
  let c ← receive ops (g.cl p.rcv) p.next
  let p' : Path n F G := { p with prev := some p.next, gain := 0, gains := p.gains ++ [0] }
  let g1 := { g with cl := Function.update g.cl p.rcv c, path := Function.update g.path q p' }
  (g1.out p.rcv).foldlM (fun (h : Graph F V G n m) r => do
    let p ← recompute ops h.cl (h.path r)
    .ok { h with path := Function.update h.path r p }) g1

/-! ### Construction -/

/-- `get_subset_evidence` (_factor_utils.py 36-48), as the dictionary it builds. -/
def subsetEvidence (ev : Dict Var V) (vars : List Var) : Dict Var V :=
  Dict.ofPairs (vars.filterMap fun v => (Dict.get? ev v).map fun x => (v, x))

/-- Observe the part of `ev` that concerns the factor, if there is any (cluster_graph.py 65-67,
389-391). -/
def observe (ops : Ops F V G) (ev : Dict Var V) (f : F) : Py F :=
  let sub := subsetEvidence ev (ops.vars f)
  if 0 < (Dict.keys sub).length then ops.reduce f (Dict.keys sub) (Dict.values sub) else .ok f

/-- `_evidence_reduce_factors` (cluster_graph.py 52-69). -/
def evidenceReduce (ops : Ops F V G) (factors : List F) (evidence : Option (Dict Var V)) : Py (List F) :=
  factors.mapM fun f => match evidence with
    | none => .ok f
    | some ev => observe ops ev f

/-- `set(a) < set(b)`. -/
def strictSubset (a b : List Var) : Bool := decide (∀ v ∈ a, v ∈ b) && ! decide (∀ v ∈ b, v ∈ a)

/-- The inner loop of `_absorb_subset_factors` (cluster_graph.py 89-96): the product built from factor
`i` and the mask of used factors. -/
def absorbInner (ops : Ops F V G) (factors : List F) (i : Nat) (f : F) (mask : Nat → Bool) :
    Py (F × (Nat → Bool)) :=
  factors.zipIdx.foldlM (fun (s : F × (Nat → Bool)) e =>
    if i ≠ e.2 ∧ s.2 e.2 = false ∧ strictSubset (ops.vars e.1) (ops.vars s.1) = true then do
      let p ← ops.multiply s.1 e.1
      .ok (p, Function.update (Function.update s.2 e.2 true) i true)
    else .ok s) (f, mask)

/-- `_absorb_subset_factors` (cluster_graph.py 72-107). The write-only `factors_absorbtion_dict` is left
out. -/
def absorb (ops : Ops F V G) (factors : List F) : Py (List F) := do
  let r ← factors.zipIdx.foldlM (fun (s : List F × (Nat → Bool)) e =>
    if s.2 e.2 = false then do
      let t ← absorbInner ops factors e.2 e.1 s.2
      .ok (if t.2 e.2 = true then s.1 ++ [t.1] else s.1, t.2)
    else .ok s) ([], fun _ => false)
  let r := factors.zipIdx.foldl (fun (s : List F × (Nat → Bool)) e =>
    if s.2 e.2 = false then (s.1 ++ [e.1], Function.update s.2 e.2 true) else s) r
  pyAssert ((List.range factors.length).all r.2)
  .ok r.1

/-- The clusters of the graph (cluster_graph.py 150-153) with the special evidence attached
(158-166). -/
def mkClusters (ops : Ops F V G) (special : Dict Var V) (factors : List F) : List (Cl F V) :=
  factors.zipIdx.map fun e =>
    { mkCluster ops ("c" ++ toString e.2 ++ "#") e.1 with
      special := some (subsetEvidence special (ops.vars e.1)) }

/-- `_set_non_rip_sepsets_dict` (cluster_graph.py 175-189), the entry for a pair of scopes (a set; its
iteration order is irrelevant where it is used). -/
def nonRipSepset (vi vj evVars : List Var) : List Var :=
  (vj.filter fun v => v ∈ vi).filter fun v => v ∉ evVars

/-- All pairs `(i, j)` with `i < j < n` in the order of the nested loops (cluster_graph.py 183-185,
209-215, 332-333). -/
def pairs (n : Nat) : List (Fin n × Fin n) :=
  (List.finRange n).flatMap fun i => ((List.finRange n).filter fun j => i < j).map fun j => (i, j)

/-- One step of Kruskal's algorithm: keep the edge if it joins two components. -/
def kruskalStep {n : Nat} (s : List (Fin n × Fin n) × (Fin n → Fin n)) (e : Fin n × Fin n) :
    List (Fin n × Fin n) × (Fin n → Fin n) :=
  if s.2 e.1 = s.2 e.2 then s
  else (s.1 ++ [e], fun w => if s.2 w = s.2 e.2 then s.2 e.1 else s.2 w)

/-- `networkx.minimum_spanning_tree(g).edges()` for unit weights (third party code, modelled from its
documentation: Kruskal's algorithm over the edges in insertion order; an edge is reported with the node
that was inserted first in front, which is the smaller index here). -/
def kruskal {n : Nat} (edges : List (Fin n × Fin n)) : List (Fin n × Fin n) :=
  (edges.foldl kruskalStep ([], id)).1

/-- The graph of one variable (cluster_graph.py 329-336): the pairs whose sepset contains it. -/
def varEdges {n : Nat} (scope : Fin n → List Var) (evVars : List Var) (v : Var) : List (Fin n × Fin n) :=
  (pairs n).filter fun e => v ∈ nonRipSepset (scope e.1) (scope e.2) evVars

/-- `_get_unique_vars` (cluster_graph.py 312-323). -/
def uniqueVars {n : Nat} (hs : HashSeed) (scope : Fin n → List Var) : List Var :=
  hs.strs.toList ((List.finRange n).flatMap scope)

/-- Add a variable to the sepset of an edge (cluster_graph.py 356-359). -/
def addSepVar {n : Nat} (v : Var) (d : Dict (Fin n × Fin n) (List Var)) (e : Fin n × Fin n) :
    Dict (Fin n × Fin n) (List Var) :=
  match Dict.get? d e with
  | some l => Dict.set d e (l ++ [v])
  | none => Dict.set d e [v]

/-- `_get_running_intersection_sepsets` (cluster_graph.py 343-360). -/
def ripSepsets {n : Nat} (hs : HashSeed) (scope : Fin n → List Var) (evVars : List Var) :
    Dict (Fin n × Fin n) (List Var) :=
  (uniqueVars hs scope).foldl (fun d v =>
    (kruskal (varEdges scope evVars v)).foldl (addSepVar v) d) []

/-- State of the loop of `_build_graph`: clusters, outward path lists and the paths created so far. -/
structure Build (F V G : Type) (n : Nat) where
  cl : Fin n → Cl F V
  out : Fin n → List Nat
  paths : List (Path n F G)

/-- One edge of `_build_graph` (cluster_graph.py 217-228; the graphviz nodes of 230-236 are left out). -/
def buildEdge {n : Nat} (ops : Ops F V G) (b : Build F V G n) (i j : Fin n) (sep : List Var) :
    Py (Build F V G n) := do
  pyAssert (decide (0 < sep.length))
  let ci ← addNeighbour (b.cl i) (b.cl j).id sep
  let cl := Function.update b.cl i ci
  let cj ← addNeighbour (cl j) (cl i).id sep
  let cl := Function.update cl j cj
  let pij ← mkPath ops cl i j
  let pji ← mkPath ops cl j i
  let k := b.paths.length
  let out := Function.update b.out i (b.out i ++ [k])
  let out := Function.update out j (out j ++ [k + 1])
  .ok ⟨cl, out, b.paths ++ [pij, pji]⟩

/-- The loop of `_build_graph` (cluster_graph.py 202-236). -/
def buildLoop {n : Nat} (hs : HashSeed) (ops : Ops F V G) (cl : Fin n → Cl F V) (evVars : List Var) :
    Py (Build F V G n) :=
  let rip := ripSepsets hs (fun i => ops.vars (cl i).factor) evVars
  (pairs n).foldlM (fun b e => match Dict.get? rip e with
    | some sep => buildEdge ops b e.1 e.2 sep
    | none => .ok b) ⟨fun i => { cl i with sepsets := [] }, fun _ => [], []⟩

/-- `_build_graph` (cluster_graph.py 191-237). -/
def buildGraph {n : Nat} (hs : HashSeed) (ops : Ops F V G) (cl : Fin n → Cl F V) (evVars : List Var) :
    Py (Build F V G n) := do
  let ids := (List.finRange n).map fun i => (cl i).id
  pyGuard .valueError (ids.dedup.length == ids.length)
  buildLoop hs ops cl evVars

/-- Turn creation numbers into references to the `m` existing paths. -/
def refs (m : Nat) (l : List Nat) : List (Fin m) :=
  l.filterMap fun k => if h : k < m then some ⟨k, h⟩ else none

/-- The graph object after `_build_graph`. -/
def Build.graph {n : Nat} (b : Build F V G n) (special : Dict Var V) : Graph F V G n b.paths.length where
  cl := b.cl
  out := fun i => refs _ (b.out i)
  path := fun q => b.paths[q]
  queue := List.finRange _
  passed := 0
  dists := []
  special := special

/-- A cluster graph of any size. -/
structure Any (F V G : Type) where
  n : Nat
  m : Nat
  graph : Graph F V G n m

/-- The factors of the clusters (cluster_graph.py 147-148). -/
def clusterFactors (ops : Ops F V G) (factors : List F) (evidence : Option (Dict Var V)) : Py (List F) := do
  let fs ← evidenceReduce ops factors evidence
  absorb ops fs

/-- `all_evidence_vars` (cluster_graph.py 143-146). -/
def evidenceVars (evidence : Option (Dict Var V)) (special : Dict Var V) : List Var :=
  Dict.keys special ++ match evidence with
    | none => []
    | some ev => Dict.keys ev

/-- `ClusterGraph.__init__` (cluster_graph.py 117-173). -/
def new (hs : HashSeed) (ops : Ops F V G) (factors : List F) (evidence : Option (Dict Var V))
    (special : Dict Var V) : Py (Any F V G) := do
  let fs ← clusterFactors ops factors evidence
  let cls := mkClusters ops special fs
  let b ← buildGraph (n := cls.length) hs ops (fun i => cls[i]) (evidenceVars evidence special)
  .ok ⟨_, _, b.graph special⟩

/-! ### Queries and message passing -/

section
variable [LinearOrder G] [Zero G] {n m : Nat}

/-- `sorted(graph_message_paths, key=next_information_gain, reverse=True)` (cluster_graph.py 445-447,
456-458): stable, descending. -/
def sortQueue (g : Graph F V G n m) : Graph F V G n m :=
  { g with queue := g.queue.mergeSort fun a b => decide ((g.path b).gain ≤ (g.path a).gain) }

/-- The body of the loop in `process_graph` (cluster_graph.py 449-465); the flag tells whether it
returned. -/
def iteration (ops : Ops F V G) (tol : G) (g : Graph F V G n m) : Py (Graph F V G n m × Bool) := do
  let q ← pyGet g.queue 0
  let g ← pass ops g q
  let g := sortQueue { g with passed := g.passed + 1 }
  let q ← pyGet g.queue 0
  let d := (g.path q).gain
  .ok ({ g with dists := g.dists ++ [d] }, decide (d ≤ tol))

/-- The loop of `process_graph`. -/
def loop (ops : Ops F V G) (tol : G) : Nat → Graph F V G n m → Py (Graph F V G n m)
  | 0, g => .ok g
  | k + 1, g => do
    let r ← iteration ops tol g
    if r.2 then .ok r.1 else loop ops tol k r.1

/-- `process_graph` for a graph with one cluster (cluster_graph.py 431-439). -/
def processSingle (ops : Ops F V G) (g : Graph F V G n m) (i : Fin n) : Py (Graph F V G n m) :=
  if g.special = [] then .ok g
  else do
    let f ← ops.reduce (g.cl i).factor (Dict.keys g.special) (Dict.values g.special)
    .ok { g with cl := Function.update g.cl i { g.cl i with factor := f } }

/-- `process_graph` (cluster_graph.py 417-473). -/
def processGraph (ops : Ops F V G) (tol : G) (maxIter : Nat) (g : Graph F V G n m) : Py (Graph F V G n m) :=
  let g := { g with dists := [] }
  if h : n = 1 then processSingle ops g ⟨0, by omega⟩
  else
    loop ops tol (maxIter * g.queue.length) (sortQueue g)

end

section
variable {n m : Nat}

/-- `get_marginal` (cluster_graph.py 378-394) for a list of variables. -/
def getMarginal (ops : Ops F V G) (g : Graph F V G n m) (vrs : List Var) : Py F :=
  match (List.finRange n).find? fun i => decide (∀ v ∈ vrs, v ∈ ops.vars (g.cl i).factor) with
  | none => .error .valueError
  | some i => do
    let f ← observe ops g.special (g.cl i).factor
    ops.marginalize f vrs

/-- A left-to-right product starting from the first factor (cluster_graph.py 403-405, 411-413). -/
def productFrom (ops : Ops F V G) (f : F) (l : List F) : Py F := l.foldlM ops.multiply f

/-- `_last_passed_message_factors` (cluster_graph.py 475-480): a path that never sent a message has
`None` there, so the attribute access raises. -/
def lastMessages (g : Graph F V G n m) : Py (List F) :=
  g.queue.mapM fun q => match (g.path q).prev with
    | none => .error .attributeError
    | some msg => .ok msg.factor

/-- `get_posterior_joint` (cluster_graph.py 396-415). -/
def getPosteriorJoint (ops : Ops F V G) (g : Graph F V G n m) : Py F := do
  let fs := (List.finRange n).map fun i => (g.cl i).factor
  let f ← pyGet fs 0
  let prod ← productFrom ops f fs.tail
  let msgs ← lastMessages g
  match msgs with
  | [] => do
    pyAssert (g.passed == 0)
    .ok prod
  | a :: l => do
    let mp ← productFrom ops a l
    ops.cancel prod mp

end

end CG
end Verif
