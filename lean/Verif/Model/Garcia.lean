import Mathlib.Data.Nat.Log
import Mathlib.Analysis.SpecialFunctions.Log.Base

/-!
# Model of `garcia_optimal_partitioning.py`, the generator of the partition tables

Python integers are `ℕ`, or `ℤ` where a difference may be negative; costs are real numbers (Python floats in the code). A
`networkx.DiGraph` is the list of its nodes with their `cost` attribute, in insertion order, and the list of its edges.
`none`: an exception.
-/

namespace Zones.Model.Garcia

/-- `next_power_of_2` (garcia_optimal_partitioning.py:18-19). -/
def nextPowerOf2 (x : ℕ) : ℕ := if x = 0 then 1 else 2 ^ Nat.clog 2 x

/-- A tuple `(n, s, q)` (garcia_optimal_partitioning.py:22). -/
structure El where
  n : ℕ
  s : ℕ
  q : ℕ
deriving DecidableEq

/-- `get_next_sequence` (garcia_optimal_partitioning.py:22-38). -/
def nextSequence (sequence : List El) : Option (List El) :=
  match sequence.getLast? with
  | none => none
  | some e =>
    some (sequence.map (fun e => ⟨e.n + 1, e.s, e.q⟩) ++
      [if e.q = e.s then ⟨e.n + nextPowerOf2 (e.s + 1), nextPowerOf2 (e.s + 1), 1⟩ else ⟨e.n, e.s, e.q + 1⟩])

/-- `is_transition_viable` (garcia_optimal_partitioning.py:41-55). -/
def isTransitionViable (first second : El) : Bool :=
  let clearanceCondition : Bool := if second.q = 1 then decide ((first.n : ℤ) - second.s + 1 ≥ second.s) else true
  let condition1 : Bool := decide (first.s = first.q ∧ second.q = 1 ∧ second.s ≥ first.s)
  let condition2 : Bool := decide (first.s = second.s ∧ second.q = first.q + 1)
  (condition1 || condition2) && clearanceCondition

/-- `get_viable_transitions` (garcia_optimal_partitioning.py:58-64). -/
def viableTransitions (node : El) (targets : List El) : List El := targets.filter (isTransitionViable node)

/-- `get_transition_cost` (garcia_optimal_partitioning.py:67-83). -/
noncomputable def transitionCost (first second : El) (latency : ℕ) (k : ℝ) : Option ℝ :=
  if first.s = second.s ∧ first.q + 1 = second.q then some 0
  else if first.s = second.s ∧ second.q = 1 then some 4
  else if first.s < second.s ∧ second.q = 1 then some (4 * k * Real.logb 2 (2 * latency * second.s) + 4)
  else none

/-- A node: the transition index followed by the tuple (garcia_optimal_partitioning.py:107, 112, 120). -/
abbrev Key := ℕ × El

/-- `nx.DiGraph` with `cost` attributes (garcia_optimal_partitioning.py:106-107). -/
structure Graph where
  nodes : List (Key × ℝ)
  edges : List (Key × Key)

namespace Graph

/-- `graph.nodes [key]["cost"]`, `none` if there is no such node (garcia_optimal_partitioning.py:116, 126, 147). -/
noncomputable def cost? (g : Graph) (key : Key) : Option ℝ := g.nodes.lookup key

/-- `graph.in_degree` (garcia_optimal_partitioning.py:87, 93). -/
def inDegree (g : Graph) (key : Key) : ℕ := (g.edges.filter fun e => e.2 = key).length

/-- `graph.out_degree` (garcia_optimal_partitioning.py:87). -/
def outDegree (g : Graph) (key : Key) : ℕ := (g.edges.filter fun e => e.1 = key).length

/-- `graph.predecessors` (garcia_optimal_partitioning.py:94). -/
def predecessors (g : Graph) (key : Key) : List Key := (g.edges.filter fun e => e.2 = key).map Prod.fst

/-- The edges after `add_edge (key1, key2)` (garcia_optimal_partitioning.py:132, 135). -/
def addEdge (es : List (Key × Key)) (key1 key2 : Key) : List (Key × Key) :=
  if (key1, key2) ∈ es then es else es ++ [(key1, key2)]

/-- The body of the innermost loop (garcia_optimal_partitioning.py:124-139), `total` being `total_cost`. -/
noncomputable def relax (g : Graph) (key1 key2 : Key) (total : ℝ) : Graph :=
  match g.cost? key2 with
  | some c =>
    if total < c then
      { nodes := g.nodes.map fun n => if n.1 = key2 then (key2, total) else n
        edges := (addEdge g.edges key1 key2).filter fun e => e ∉ g.edges.filter fun e => e.2 = key2 }
    else g
  | none =>
    { nodes := g.nodes ++ [(key2, total)]
      edges := addEdge g.edges key1 key2 }

end Graph

/-- One element of `sequence` (garcia_optimal_partitioning.py:111-139). -/
noncomputable def relaxFrom (latency : ℕ) (k : ℝ) (t : ℕ) (next : List El) (g : Graph) (e : El) : Option Graph :=
  match g.cost? (t - 1, e) with
  | none => some g
  | some acc =>
    (viableTransitions e next).foldlM (fun g e2 =>
      (transitionCost e e2 latency k).map fun c => g.relax (t - 1, e) (t, e2) (c + acc)) g

/-- One transition index (garcia_optimal_partitioning.py:109-141). -/
noncomputable def stage (latency : ℕ) (k : ℝ) (st : List El × Graph) (t : ℕ) : Option (List El × Graph) := do
  let next ← nextSequence st.1
  let g ← st.1.foldlM (relaxFrom latency k t next) st.2
  pure (next, g)

/-- The graph built by `find_optimum` (garcia_optimal_partitioning.py:101-141) for `num_transitions = n`. -/
noncomputable def buildGraph (latency n : ℕ) (k : ℝ) : Option (List El × Graph) :=
  ((List.range (n - 1)).map (· + 1)).foldlM (stage latency k) ([⟨1, 1, 1⟩], ⟨[((0, ⟨1, 1, 1⟩), 0)], []⟩)

/-- `get_graph_leafs` (garcia_optimal_partitioning.py:86-87). -/
def leafs (g : Graph) : List Key := (g.nodes.map Prod.fst).filter fun n => decide (g.inDegree n ≠ 0 ∧ g.outDegree n = 0)

/-- The loop that collects the cheapest leafs (garcia_optimal_partitioning.py:143-152): `best_cost` and `best_leafs`. -/
noncomputable def bestStep (g : Graph) (st : Option ℝ × List Key) (leaf : Key) : Option (Option ℝ × List Key) :=
  match g.cost? leaf with
  | none => none
  | some cost =>
    match st.1 with
    | none => some (some cost, st.2 ++ [leaf])
    | some best =>
      if cost ≤ best then some (some cost, (if cost < best then [] else st.2) ++ [leaf]) else some st

/-- garcia_optimal_partitioning.py:143-152. -/
noncomputable def bestLeafs (g : Graph) : Option (List Key) :=
  ((leafs g).foldlM (bestStep g) (none, [])).map Prod.snd

/-- `trace_backward` (garcia_optimal_partitioning.py:90-98) before the final reversal, starting with `leaf`; `fuel` bounds the
number of iterations (`none`: the loop goes on). -/
def traceBackward (g : Graph) : ℕ → Key → Option (List Key)
  | 0, _ => none
  | fuel + 1, leaf =>
    if g.inDegree leaf > 0 then
      match g.predecessors leaf with
      | [] => none
      | p :: _ => (traceBackward g fuel p).map (leaf :: ·)
    else some [leaf]

/-- `dict[key] += 1` on a `defaultdict (int)` in insertion order (garcia_optimal_partitioning.py:163-164). -/
def bump (d : List (ℕ × ℕ)) (key : ℕ) : List (ℕ × ℕ) :=
  if d.any (fun e => e.1 = key) then d.map fun e => if e.1 = key then (e.1, e.2 + 1) else e else d ++ [(key, 1)]

/-- `math.ceil (count / (key / latency))` (garcia_optimal_partitioning.py:165-166), in exact arithmetic. -/
def ceilDiv (a b : ℕ) : ℕ := (a + b - 1) / b

/-- A backtrace summarised (garcia_optimal_partitioning.py:161-167): for each sub filter size in samples, the number of partitions. -/
def summarise (latency : ℕ) (backtrace : List Key) : List (ℕ × ℕ) :=
  (backtrace.foldl (fun d node => bump d (node.2.s * latency)) []).map fun e => (e.1, ceilDiv e.2 (e.1 / latency))

/-- `find_optimum` (garcia_optimal_partitioning.py:101-169). A zero latency divides by zero. A backtrace has at most as many nodes as there are
transitions, so `num_transitions` is enough fuel. -/
noncomputable def findOptimum (latency irSize : ℕ) : Option (List (List (ℕ × ℕ))) :=
  if latency = 0 then none else do
    let n := irSize / latency
    let st ← buildGraph latency n (17 / 10)
    let best ← bestLeafs st.2
    best.mapM fun leaf => (traceBackward st.2 (n + 1) leaf).map fun tr => summarise latency tr.reverse

/-- `result_dict [key] = value` on a Python `dict` in insertion order (convert_results.py:8). -/
def dictSet (d : List (ℕ × ℕ)) (key value : ℕ) : List (ℕ × ℕ) :=
  if d.any (fun e => e.1 = key) then d.map fun e => if e.1 = key then (e.1, value) else e else d ++ [(key, value)]

/-- `normalise_result` (convert_results.py:4-9): the sizes in samples of a result become sizes in blocks. The keys went
through JSON as strings; `int (key)` gives back the number. -/
def normaliseResult (dictionary : List (ℕ × ℕ)) (divisor : ℕ) : List (ℕ × ℕ) :=
  dictionary.foldl (fun d e => dictSet d (e.1 / divisor) e.2) []

end Zones.Model.Garcia
