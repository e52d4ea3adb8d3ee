/-
Model of pygmo_fwork/optichem/graph.py: the class Graph and its two path searches.

Nodes are elements of any type `V` (in the code strings), weights elements of any ordered group `R` (in the
code floats; rounding is not modelled). Python sets are iterated in an unspecified order: an arbitrary
function `iter` gives the order in which the elements of a set come out.
-/
import Mathlib.Algebra.Order.Monoid.WithTop
import Mathlib.Algebra.Order.Group.Defs
import Mathlib.Data.Finset.Basic
import Mathlib.Data.Finset.Card
import Mathlib.Data.List.MinMax
import Mathlib.Order.WithBot
import Mathlib.Order.Basic
import Mathlib.Tactic.Common

namespace Verif.Fwork

inductive GraphErr where
  | key
  | assertion
  /-- not an error of the code: the loop was not finished after as many rounds as there are nodes -/
  | fuel
deriving DecidableEq

/-- graph.py:19-28. Dictionaries are partial functions. Of the attributes of an edge only 'weight' is kept
(`none`: the attribute is not set); attributes of nodes are left out. -/
structure Graph (V R : Type) where
  nodes : Finset V
  edges : Finset (V × V)
  attrs : V × V → Option (Option R)
  succ : V → Option (Finset V)
  pred : V → Option (Finset V)
  distributed : Bool

section
variable {V R : Type} [DecidableEq V]

/-- graph.py:19-28 -/
def Graph.empty : Graph V R := ⟨∅, ∅, fun _ => none, fun _ => none, fun _ => none, false⟩

/-- graph.py:58-63: one round of the loop over `(u, v)`. -/
def Graph.addNode (G : Graph V R) (n : V) : Graph V R :=
  if n ∈ G.nodes then G
  else { G with
    nodes := insert n G.nodes
    succ := Function.update G.succ n (some ∅)
    pred := Function.update G.pred n (some ∅) }

/-- graph.py:52-68 `add_edge`. -/
def Graph.addEdge (G : Graph V R) (u v : V) : Except GraphErr (Graph V R) :=
  let G := (G.addNode u).addNode v
  if (u, v) ∈ G.edges then .ok G
  else
    match G.succ u, G.pred v with
    | some s, some p => .ok { G with
        succ := Function.update G.succ u (some (insert v s))
        pred := Function.update G.pred v (some (insert u p))
        edges := insert (u, v) G.edges
        attrs := Function.update G.attrs (u, v) (some none) }
    | _, _ => .error .key

variable [Zero R] [LT R] [DecidableLT R]

/-- graph.py:85-95 `update_edge_attributes(u, v, weight=w)`. -/
def Graph.setWeight (G : Graph V R) (u v : V) (w : R) : Except GraphErr (Graph V R) :=
  if 0 < w then
    match G.attrs (u, v) with
    | some _ => .ok { G with attrs := Function.update G.attrs (u, v) (some (some w)) }
    | none => .error .key
  else .error .assertion

/-- graph.py:482-491: the loops that add all edges of a graph, one weight after the other. -/
def Graph.build : Graph V R → List (V × V × R) → Except GraphErr (Graph V R)
  | G, [] => .ok { G with distributed := true }
  | G, (u, v, w) :: l =>
    match G.addEdge u v with
    | .error e => .error e
    | .ok G =>
      match G.setWeight u v w with
      | .error e => .error e
      | .ok G => G.build l

end

/-! ### path searches -/

/-- The dictionaries and the set of the searches (graph.py:146-149, 195-198). -/
structure Search (V D : Type) where
  key : V → D
  next : V → Option V
  unrelaxed : Finset V

section
variable {V R D : Type} [DecidableEq V] [LinearOrder D] [Zero R] [LE R] [DecidableLE R]

/-- graph.py:156-164 and 205-213, for one predecessor `p` of `node`. The two functions differ in the value
of a path extended by an edge, `ext`, and in the order of the values (see `findMaxBottleneckPaths`). -/
def relaxOne (G : Graph V R) (f : R → R) (ext : D → R → D) (node : V) (s : Search V D) (p : V) :
    Except GraphErr (Search V D) :=
  if p ∈ s.unrelaxed then
    match G.attrs (p, node) with
    | some (some a) =>
      if 0 ≤ f a then
        let alt := ext (s.key node) (f a)
        if alt < s.key p then
          .ok { s with
            key := Function.update s.key p alt
            next := Function.update s.next p (some node) }
        else .ok s
      else .error .assertion
    | _ => .error .key
  else .ok s

/-- a `for` loop -/
def forLoop {S A : Type} (f : S → A → Except GraphErr S) : List A → S → Except GraphErr S
  | [], s => .ok s
  | a :: l, s =>
    match f s a with
    | .error e => .error e
    | .ok s => forLoop f l s

/-- graph.py:153-164, 202-213: one round of the `while` loop. The head of the stable sort of the set is the
first of the best elements in the order of iteration. -/
def searchStep (G : Graph V R) (f : R → R) (ext : D → R → D) (iter : Finset V → List V) (s : Search V D) :
    Except GraphErr (Search V D) :=
  match (iter s.unrelaxed).argmin s.key with
  | none => .ok s
  | some node =>
    match G.pred node with
    | none => .error .key
    | some ps => forLoop (relaxOne G f ext node) (iter ps) { s with unrelaxed := s.unrelaxed.erase node }

/-- graph.py:152, 201: the `while` loop, at most `n` rounds. -/
def searchLoop (G : Graph V R) (f : R → R) (ext : D → R → D) (iter : Finset V → List V) :
    Nat → Search V D → Except GraphErr (Search V D)
  | n, s =>
    if s.unrelaxed = ∅ then .ok s
    else match n with
      | 0 => .error .fuel
      | n + 1 =>
        match searchStep G f ext iter s with
        | .error e => .error e
        | .ok s => searchLoop G f ext iter n s

/-- graph.py:170-171, 219-220: following the successors from the node `v`; the result is what is appended,
starting with `v` itself. `none` is Python's `None` at the end of a path that does not reach the target. -/
def chase (next : V → Option V) (t : V) : Nat → V → Except GraphErr (List (Option V))
  | n, v =>
    if v = t then .ok [some v]
    else match next v with
      | none => .ok [some v, none]
      | some u =>
        match n with
        | 0 => .error .fuel
        | n + 1 =>
          match chase next t n u with
          | .error e => .error e
          | .ok p => .ok (some v :: p)

end

section
variable {V R : Type} [DecidableEq V] [AddCommGroup R] [LinearOrder R]

/-- graph.py:126-174 `find_max_bottleneck_paths` for a graph with the weights distributed. `float('inf')` is
`⊤`. A width is better if it is larger, so the search runs on the opposite order. The paths and the values are
returned as functions of the source (the loop over the sources touches each entry once). -/
def findMaxBottleneckPaths {B : Type} (G : Graph V R) (t : V) (f : R → R) (inverse : WithTop R → B)
    (iter : Finset V → List V) :
    Except GraphErr ((V → Except GraphErr (List (Option V))) × (V → B)) :=
  if G.distributed then
    match searchLoop (D := (WithTop R)ᵒᵈ) G f
      (fun d w => OrderDual.toDual (min (OrderDual.ofDual d) (w : WithTop R))) iter G.nodes.card
      ⟨fun v => if v = t then OrderDual.toDual ⊤ else OrderDual.toDual 0, fun _ => none, G.nodes⟩ with
    | .error e => .error e
    | .ok s => .ok (fun v => chase s.next t G.nodes.card v, fun v => inverse (OrderDual.ofDual (s.key v)))
  else .error .assertion

/-- graph.py:176-223 `find_shortest_paths`; the value `nan` for a path of length zero is `none`. -/
def findShortestPaths {B : Type} (G : Graph V R) (t : V) (f : R → R) (inverse : WithTop R → B)
    (iter : Finset V → List V) :
    Except GraphErr ((V → Except GraphErr (List (Option V))) × (V → Option B)) :=
  if G.distributed then
    match searchLoop (D := WithTop R) G f (fun d w => d + (w : WithTop R)) iter G.nodes.card
      ⟨fun v => if v = t then 0 else ⊤, fun _ => none, G.nodes⟩ with
    | .error e => .error e
    | .ok s => .ok (fun v => chase s.next t G.nodes.card v,
        fun v => if 0 < s.key v then some (inverse (s.key v)) else none)
  else .error .assertion

end

end Verif.Fwork
