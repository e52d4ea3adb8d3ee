/-
Model of `Graph.get_max_flow` (pygmo_fwork/optichem/graph.py:225-294).

The matrix of capacities is a function of two nodes. The order of its rows and columns is the order in which
the set of nodes is iterated (`iter`), which is arbitrary. Rounding is not modelled. The three `while` loops
take a bound of the number of rounds; `FlowProps` shows that the bounds given here are never exceeded.
-/
import Verif.Fwork.Graph
import Mathlib.Algebra.Order.Group.Defs

namespace Verif.Fwork

section
variable {V R : Type} [DecidableEq V] [AddCommGroup R] [LinearOrder R]

/-- change of one entry of the matrix -/
def setCap (c : V → V → R) (u v : V) (x : R) : V → V → R :=
  fun a b => if a = u ∧ b = v then x else c a b

/-- graph.py:245-249, for one pair of nodes -/
def capStep (G : Graph V R) (f : R → R) (c : V → V → R) (uv : V × V) : Except GraphErr (V → V → R) :=
  if uv ∈ G.edges then
    match G.attrs uv with
    | some (some a) => if 0 ≤ f a then .ok (setCap c uv.1 uv.2 (f a)) else .error .assertion
    | _ => .error .key
  else .ok c

/-- graph.py:243-250 -/
def buildCap (G : Graph V R) (f : R → R) (iter : Finset V → List V) : Except GraphErr (V → V → R) :=
  forLoop (capStep G f) ((iter G.nodes).flatMap fun u => (iter G.nodes).map fun v => (u, v)) fun _ _ => 0

/-- The variables of the breadth first search (graph.py:256-260). -/
structure Bfs (V : Type) where
  pred : V → Option V
  visited : Finset V
  queue : List V
  found : Bool

/-- graph.py:263-271: the `for` loop with its `break`. -/
def scan (c : V → V → R) (t u : V) : List V → Bfs V → Bfs V
  | [], b => b
  | v :: l, b =>
    if v ∉ b.visited ∧ 0 < c u v then
      let b' : Bfs V := ⟨Function.update b.pred v (some u), insert v b.visited, b.queue ++ [v], b.found⟩
      if v = t then { b' with found := true } else scan c t u l b'
    else scan c t u l b

/-- graph.py:261-271: the search loop. -/
def bfsLoop (c : V → V → R) (t : V) (cols : List V) : Nat → Bfs V → Except GraphErr (Bfs V)
  | n, b =>
    if b.found then .ok b
    else match b.queue with
      | [] => .ok b
      | u :: q =>
        match n with
        | 0 => .error .fuel
        | n + 1 =>
          -- `capacity.loc[u]`
          if u ∈ cols then bfsLoop c t cols n (scan c t u cols { b with queue := q })
          else .error .key

/-- graph.py:276-280: the smallest residual capacity along the path. -/
def pathFlow (c : V → V → R) (pred : V → Option V) (s : V) : Nat → V → WithTop R → Except GraphErr (WithTop R)
  | n, v, acc =>
    if v = s then .ok acc
    else match n, pred v with
      | _, none => .error .key
      | 0, _ => .error .fuel
      | n + 1, some u => pathFlow c pred s n u (min acc (c u v : WithTop R))

/-- graph.py:286-291: the update of the residual capacities. -/
def augment (pred : V → Option V) (s : V) (x : R) : Nat → V → (V → V → R) → Except GraphErr (V → V → R)
  | n, v, c =>
    if v = s then .ok c
    else match n, pred v with
      | _, none => .error .key
      | 0, _ => .error .fuel
      | n + 1, some u =>
        let c := setCap c u v (c u v - x)
        let c := setCap c v u (c v u + x)
        augment pred s x n u c

/-- graph.py:254-293: the main loop. -/
def flowLoop (s t : V) (cols : List V) : Nat → (V → V → R) → R → Except GraphErr R
  | n, c, total =>
    match bfsLoop c t cols (cols.length + 1) ⟨fun _ => none, {s}, [s], false⟩ with
    | .error e => .error e
    | .ok b =>
      if b.found then
        match n with
        | 0 => .error .fuel
        | n + 1 =>
          match pathFlow c b.pred s cols.length t ⊤ with
          | .error e => .error e
          -- an infinite path flow would need a path without edges
          | .ok none => .error .assertion
          | .ok (some x) =>
            match augment b.pred s x cols.length t c with
            | .error e => .error e
            | .ok c => flowLoop s t cols n c (total + x)
      else .ok total

/-- bound of the number of augmentations -/
def flowRounds (n : Nat) : Nat := (n * n + 1) * (n * n + 1)

/-- graph.py:225-294 `get_max_flow` -/
def getMaxFlow {B : Type} (G : Graph V R) (s t : V) (f : R → R) (inverse : R → B) (iter : Finset V → List V) :
    Except GraphErr B :=
  if G.distributed then
    match buildCap G f iter with
    | .error e => .error e
    | .ok c =>
      match flowLoop s t (iter G.nodes) (flowRounds G.nodes.card) c 0 with
      | .error e => .error e
      | .ok x => .ok (inverse x)
  else .error .assertion

end

end Verif.Fwork
