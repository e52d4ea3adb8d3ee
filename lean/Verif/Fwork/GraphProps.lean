/-
Properties of the graph class and of its path searches: C34, C35, C64.
-/
import Verif.Fwork.GraphLemmas
import Mathlib.Algebra.Order.Group.Int
import Mathlib.Data.Finset.Sort
import Mathlib.Algebra.Order.Monoid.Unbundled.WithTop

namespace Verif.Fwork

/-! ### C64: construction -/

section
variable {V R : Type} [DecidableEq V] [Zero R] [LinearOrder R]

omit [DecidableEq V] in
theorem Graph.empty_ok : (Graph.empty : Graph V R).Ok := by
  constructor
  · intro u v
    constructor
    · intro h; exact absurd h (Finset.notMem_empty _)
    · rintro ⟨w, h, -⟩; cases h
  · intros; rfl
  · intro u v h; exact absurd h (Finset.notMem_empty _)
  · intro v h; exact absurd h (Finset.notMem_empty _)
  · intro v h; exact absurd h (Finset.notMem_empty _)
  · intros; exact ⟨rfl, rfl⟩

theorem Graph.addNode_ok {G : Graph V R} (hG : G.Ok) (n : V) : (G.addNode n).Ok ∧
    (G.addNode n).nodes = insert n G.nodes ∧ (G.addNode n).edges = G.edges ∧
    (G.addNode n).attrs = G.attrs := by
  unfold Graph.addNode
  by_cases h : n ∈ G.nodes
  · rw [if_pos h]
    exact ⟨hG, (Finset.insert_eq_of_mem h).symm, rfl, rfl⟩
  · rw [if_neg h]
    refine ⟨?_, rfl, rfl, rfl⟩
    have hno : ∀ u, (u, n) ∉ G.edges ∧ (n, u) ∉ G.edges := fun u =>
      ⟨fun h' => h (hG.edge_nodes _ _ h').2, fun h' => h (hG.edge_nodes _ _ h').1⟩
    constructor
    · exact hG.edge_iff
    · exact hG.attr_none
    · intro u v h'
      exact ⟨Finset.mem_insert_of_mem (hG.edge_nodes u v h').1, Finset.mem_insert_of_mem (hG.edge_nodes u v h').2⟩
    · intro v hv
      by_cases hvn : v = n
      · subst hvn
        exact ⟨∅, Function.update_self .., fun u =>
          ⟨fun h' => absurd h' (Finset.notMem_empty _), fun h' => absurd h' (hno u).1⟩⟩
      · simp only
        rw [Function.update_of_ne hvn]
        exact hG.pred_ok v ((Finset.mem_insert.1 hv).resolve_left hvn)
    · intro v hv
      by_cases hvn : v = n
      · subst hvn
        exact ⟨∅, Function.update_self .., fun u =>
          ⟨fun h' => absurd h' (Finset.notMem_empty _), fun h' => absurd h' (hno u).2⟩⟩
      · simp only
        rw [Function.update_of_ne hvn]
        exact hG.succ_ok v ((Finset.mem_insert.1 hv).resolve_left hvn)
    · intro v hv
      have hvn : v ≠ n := fun h' => hv (by rw [h']; exact Finset.mem_insert_self _ _)
      simp only
      rw [Function.update_of_ne hvn, Function.update_of_ne hvn]
      exact hG.no_pred v fun h' => hv (Finset.mem_insert_of_mem h')

theorem Graph.add_weighted {G : Graph V R} (hG : G.Ok) (u v : V) (w : R) (hw : 0 < w) :
    ∃ G₁ G₂, G.addEdge u v = .ok G₁ ∧ G₁.setWeight u v w = .ok G₂ ∧ G₂.Ok ∧
      G₂.nodes = insert v (insert u G.nodes) ∧ G₂.edges = insert (u, v) G.edges ∧
      G₂.attrs = Function.update G.attrs (u, v) (some (some w)) := by
  obtain ⟨h1, n1, e1, a1⟩ := G.addNode_ok hG u
  obtain ⟨h2, n2, e2, a2⟩ := (G.addNode u).addNode_ok h1 v
  unfold Graph.addEdge
  generalize hH : (G.addNode u).addNode v = H at h2 n2 e2 a2
  have hn : H.nodes = insert v (insert u G.nodes) := by rw [n2, n1]
  have he : H.edges = G.edges := e2.trans e1
  have ha : H.attrs = G.attrs := a2.trans a1
  have hu : u ∈ H.nodes := by rw [hn]; simp
  have hv : v ∈ H.nodes := by rw [hn]; simp
  simp only
  by_cases hmem : (u, v) ∈ H.edges
  · rw [if_pos hmem]
    obtain ⟨w', hw', -⟩ := (h2.edge_iff u v).1 hmem
    refine ⟨H, { H with attrs := Function.update H.attrs (u, v) (some (some w)) }, rfl,
      by unfold Graph.setWeight; rw [if_pos hw, hw'], ?_, hn, ?_, ?_⟩
    · constructor
      · intro x y
        simp only
        by_cases hxy : (x, y) = (u, v)
        · rw [hxy, Function.update_self]
          exact ⟨fun _ => ⟨w, rfl, hw⟩, fun _ => hmem⟩
        · rw [Function.update_of_ne hxy]
          exact h2.edge_iff x y
      · intro x y hxy
        have : (x, y) ≠ (u, v) := fun h => hxy (h ▸ hmem)
        simp only
        rw [Function.update_of_ne this]
        exact h2.attr_none x y hxy
      · exact h2.edge_nodes
      · exact h2.pred_ok
      · exact h2.succ_ok
      · exact h2.no_pred
    · rw [← he]; exact (Finset.insert_eq_of_mem hmem).symm
    · rw [← ha]
  · rw [if_neg hmem]
    obtain ⟨s, hs, hsm⟩ := h2.succ_ok u hu
    obtain ⟨p, hp, hpm⟩ := h2.pred_ok v hv
    rw [hs, hp]
    simp only
    refine ⟨_, { H with
        succ := Function.update H.succ u (some (insert v s))
        pred := Function.update H.pred v (some (insert u p))
        edges := insert (u, v) H.edges
        attrs := Function.update (Function.update H.attrs (u, v) (some none)) (u, v) (some (some w)) }, rfl,
      by unfold Graph.setWeight; rw [if_pos hw]; simp only [Function.update_self], ?_, hn, ?_, ?_⟩
    · constructor
      · intro x y
        simp only
        by_cases hxy : (x, y) = (u, v)
        · rw [hxy, Function.update_self]
          exact ⟨fun _ => ⟨w, rfl, hw⟩, fun _ => Finset.mem_insert_self _ _⟩
        · rw [Function.update_of_ne hxy, Function.update_of_ne hxy, Finset.mem_insert]
          constructor
          · intro h; exact (h2.edge_iff x y).1 (h.resolve_left hxy)
          · intro h; exact Or.inr ((h2.edge_iff x y).2 h)
      · intro x y hxy
        simp only at hxy ⊢
        rw [Finset.mem_insert, not_or] at hxy
        rw [Function.update_of_ne hxy.1, Function.update_of_ne hxy.1]
        exact h2.attr_none x y hxy.2
      · intro x y hxy
        rcases Finset.mem_insert.1 hxy with h | h
        · cases h; exact ⟨hu, hv⟩
        · exact h2.edge_nodes x y h
      · intro y hy
        simp only
        by_cases hyv : y = v
        · subst hyv
          refine ⟨_, Function.update_self .., fun x => ?_⟩
          rw [Finset.mem_insert, Finset.mem_insert, hpm x]
          constructor
          · rintro (h | h)
            · rw [h]; exact Or.inl rfl
            · exact Or.inr h
          · rintro (h | h)
            · cases h; exact Or.inl rfl
            · exact Or.inr h
        · rw [Function.update_of_ne hyv]
          obtain ⟨q, hq, hqm⟩ := h2.pred_ok y hy
          refine ⟨q, hq, fun x => ?_⟩
          rw [hqm x, Finset.mem_insert]
          constructor
          · exact Or.inr
          · rintro (h | h)
            · cases h; exact absurd rfl hyv
            · exact h
      · intro y hy
        simp only
        by_cases hyu : y = u
        · subst hyu
          refine ⟨_, Function.update_self .., fun x => ?_⟩
          rw [Finset.mem_insert, Finset.mem_insert, hsm x]
          constructor
          · rintro (h | h)
            · rw [h]; exact Or.inl rfl
            · exact Or.inr h
          · rintro (h | h)
            · cases h; exact Or.inl rfl
            · exact Or.inr h
        · rw [Function.update_of_ne hyu]
          obtain ⟨q, hq, hqm⟩ := h2.succ_ok y hy
          refine ⟨q, hq, fun x => ?_⟩
          rw [hqm x, Finset.mem_insert]
          constructor
          · exact Or.inr
          · rintro (h | h)
            · cases h; exact absurd rfl hyu
            · exact h
      · intro y hy
        have hyu : y ≠ u := fun h => hy (h ▸ hu)
        have hyv : y ≠ v := fun h => hy (h ▸ hv)
        simp only
        rw [Function.update_of_ne hyu, Function.update_of_ne hyv]
        exact h2.no_pred y hy
    · simp only; rw [he]
    · simp only; rw [ha, Function.update_idem]

theorem Graph.build_ok (l : List (V × V × R)) : ∀ {G : Graph V R}, G.Ok → (∀ e ∈ l, 0 < e.2.2) →
    ∃ G', G.build l = .ok G' ∧ G'.Ok ∧ G'.distributed = true ∧
      (∀ n, n ∈ G'.nodes ↔ n ∈ G.nodes ∨ ∃ e ∈ l, n = e.1 ∨ n = e.2.1) ∧
      (∀ u v, (∀ w, (u, v, w) ∉ l) → G'.attrs (u, v) = G.attrs (u, v)) ∧
      ((l.map fun e => (e.1, e.2.1)).Nodup → ∀ u v w, (u, v, w) ∈ l → G'.attrs (u, v) = some (some w)) := by
  induction l with
  | nil =>
    intro G hG _
    refine ⟨_, rfl, ?_, rfl, ?_, ?_, ?_⟩
    · exact ⟨hG.edge_iff, hG.attr_none, hG.edge_nodes, hG.pred_ok, hG.succ_ok, hG.no_pred⟩
    · intro n
      constructor
      · exact Or.inl
      · rintro (h | ⟨e, h, -⟩)
        · exact h
        · cases h
    · intros; rfl
    · intro _ u v w h; cases h
  | cons e l ih =>
    intro G hG hpos
    obtain ⟨x, y, z⟩ := e
    obtain ⟨G₁, G₂, e1, e2, h2, n2, -, a2⟩ := G.add_weighted hG x y z (hpos _ (List.mem_cons_self ..))
    obtain ⟨G', e', h', d', n', o', l'⟩ := ih h2 fun e he => hpos e (List.mem_cons_of_mem _ he)
    refine ⟨G', ?_, h', d', ?_, ?_, ?_⟩
    · rw [Graph.build, e1]
      simp only [e2]
      exact e'
    · intro n
      rw [n' n, n2]
      simp only [Finset.mem_insert, List.mem_cons]
      constructor
      · rintro ((h | h | h) | ⟨e, h, h'⟩)
        · exact Or.inr ⟨_, Or.inl rfl, Or.inr h⟩
        · exact Or.inr ⟨_, Or.inl rfl, Or.inl h⟩
        · exact Or.inl h
        · exact Or.inr ⟨e, Or.inr h, h'⟩
      · rintro (h | ⟨e, h | h, h'⟩)
        · exact Or.inl (Or.inr (Or.inr h))
        · subst h
          rcases h' with h' | h'
          · exact Or.inl (Or.inr (Or.inl h'))
          · exact Or.inl (Or.inl h')
        · exact Or.inr ⟨e, h, h'⟩
    · intro u v h
      rw [o' u v fun w hw => h w (List.mem_cons_of_mem _ hw), a2]
      refine Function.update_of_ne ?_ _ _
      intro hc
      cases hc
      exact h z (List.mem_cons_self ..)
    · intro hnd u v w hm
      rw [List.map_cons, List.nodup_cons] at hnd
      rcases List.mem_cons.1 hm with h | h
      · cases h
        rw [o' x y, a2, Function.update_self]
        intro w' hw'
        exact hnd.1 (List.mem_map.2 ⟨_, hw', rfl⟩)
      · exact l' hnd.2 u v w h

/-- **C64.** Building a graph from any list of edges with positive weights, each edge given once, succeeds.
Its nodes are the ends of the edges; edges, successors, predecessors and weights all describe the given list. -/
theorem graph_build (l : List (V × V × R)) (hpos : ∀ u v w, (u, v, w) ∈ l → 0 < w)
    (hnd : (l.map fun e => (e.1, e.2.1)).Nodup) :
    ∃ G, Graph.empty.build l = .ok G ∧ G.distributed = true ∧
      (∀ n, n ∈ G.nodes ↔ ∃ u v w, (u, v, w) ∈ l ∧ (n = u ∨ n = v)) ∧
      (∀ u v, (u, v) ∈ G.edges ↔ ∃ w, (u, v, w) ∈ l) ∧
      (∀ u v w, G.attrs (u, v) = some (some w) ↔ (u, v, w) ∈ l) ∧
      (∀ n, n ∈ G.nodes → ∃ s p, G.succ n = some s ∧ G.pred n = some p ∧
        (∀ v, v ∈ s ↔ ∃ w, (n, v, w) ∈ l) ∧ ∀ u, u ∈ p ↔ ∃ w, (u, n, w) ∈ l) := by
  obtain ⟨G, e, hG, hd, hn, ho, hl⟩ := Graph.build_ok l Graph.empty_ok (fun e he => hpos e.1 e.2.1 e.2.2 he)
  have hedge : ∀ u v, (u, v) ∈ G.edges ↔ ∃ w, (u, v, w) ∈ l := by
    intro u v
    constructor
    · intro h
      by_contra hc
      obtain ⟨w, hw, -⟩ := (hG.edge_iff u v).1 h
      rw [ho u v fun w hw => hc ⟨w, hw⟩] at hw
      cases hw
    · rintro ⟨w, hw⟩
      exact (hG.edge_iff u v).2 ⟨w, hl hnd u v w hw, hpos u v w hw⟩
  refine ⟨G, e, hd, ?_, hedge, ?_, ?_⟩
  · intro n
    rw [hn n]
    constructor
    · rintro (h | ⟨⟨u, v, w⟩, he, h⟩)
      · exact absurd h (Finset.notMem_empty _)
      · exact ⟨u, v, w, he, h⟩
    · rintro ⟨u, v, w, he, h⟩
      exact Or.inr ⟨_, he, h⟩
  · intro u v w
    constructor
    · intro h
      have hE : (u, v) ∈ G.edges := by
        by_contra hc
        rw [hG.attr_none u v hc] at h
        cases h
      obtain ⟨w', hw'⟩ := (hedge u v).1 hE
      rw [hl hnd u v w' hw'] at h
      cases h
      exact hw'
    · exact hl hnd u v w
  · intro n hn
    obtain ⟨s, hs, hsm⟩ := hG.succ_ok n hn
    obtain ⟨p, hp, hpm⟩ := hG.pred_ok n hn
    exact ⟨s, p, hs, hp, fun v => (hsm v).trans (hedge n v), fun u => (hpm u).trans (hedge u n)⟩

/-- graphs built by the code are consistent -/
theorem graph_build_ok (l : List (V × V × R)) (hpos : ∀ u v w, (u, v, w) ∈ l → 0 < w) {G : Graph V R}
    (h : Graph.empty.build l = .ok G) : G.Ok ∧ G.distributed = true := by
  obtain ⟨G', e, hG, hd, -⟩ := Graph.build_ok l Graph.empty_ok (fun e he => hpos e.1 e.2.1 e.2.2 he)
  rw [e] at h
  cases h
  exact ⟨hG, hd⟩

/-- A weight that is not positive is refused. -/
theorem graph_refuses (G : Graph V R) (u v : V) (w : R) (hw : w ≤ 0) :
    G.setWeight u v w = .error .assertion := by
  unfold Graph.setWeight
  rw [if_neg (not_lt.2 hw)]

end

/-! ### specification of paths -/

section
variable {V R : Type} [DecidableEq V] [AddCommGroup R] [LinearOrder R]

/-- weight of an edge -/
def Graph.weight (G : Graph V R) (u v : V) : R :=
  match G.attrs (u, v) with
  | some (some a) => a
  | _ => 0

/-- sum of the lengths `f (weight)` along a path -/
def pathLen (G : Graph V R) (f : R → R) : List V → R
  | [] => 0
  | [_] => 0
  | u :: v :: r => f (G.weight u v) + pathLen G f (v :: r)

/-- smallest of the widths `f (weight)` along a path, infinite for a path without edges -/
def pathWidth (G : Graph V R) (f : R → R) : List V → WithTop R
  | [] => ⊤
  | [_] => ⊤
  | u :: v :: r => min (f (G.weight u v) : WithTop R) (pathWidth G f (v :: r))

omit [DecidableEq V] in
theorem pathVal_width {G : Graph V R} (hG : G.Ok) (f : R → R) : ∀ p : List V, IsPath G p →
    pathVal (D := (WithTop R)ᵒᵈ) G f
      (fun d w => OrderDual.toDual (min (OrderDual.ofDual d) (w : WithTop R))) (OrderDual.toDual ⊤) p =
    OrderDual.toDual (pathWidth G f p)
  | [], h => h.elim
  | [_], _ => rfl
  | u :: v :: r, ⟨he, hr⟩ => by
    obtain ⟨a, ha, -⟩ := (hG.edge_iff u v).1 he
    have ih := pathVal_width hG f (v :: r) hr
    have hw : G.weight u v = a := by unfold Graph.weight; rw [ha]
    rw [pathVal, pathWidth]
    simp only [ha, ih, hw]
    rw [OrderDual.ofDual_toDual, min_comm]

omit [DecidableEq V] in
theorem pathVal_len {G : Graph V R} (hG : G.Ok) (f : R → R) : ∀ p : List V, IsPath G p →
    pathVal (D := WithTop R) G f (fun d w => d + (w : WithTop R)) 0 p = ((pathLen G f p : R) : WithTop R)
  | [], h => h.elim
  | [_], _ => rfl
  | u :: v :: r, ⟨he, hr⟩ => by
    obtain ⟨a, ha, -⟩ := (hG.edge_iff u v).1 he
    have ih := pathVal_len hG f (v :: r) hr
    have hw : G.weight u v = a := by unfold Graph.weight; rw [ha]
    rw [pathVal, pathLen]
    simp only [ha, ih, hw]
    rw [add_comm (f a), WithTop.coe_add]

/-! ### C34 -/

/-- **C34.** For every graph with non-negative widths and in every order of iteration of the sets: every node
gets a widest path to the target and its width; or, if no path to the target has a positive width, no path
and width zero. -/
theorem widest_paths {B : Type} (G : Graph V R) (hG : G.Ok) (hd : G.distributed = true) (t : V) (f : R → R)
    (inverse : WithTop R → B) (iter : Finset V → List V) (hiter : IterOk iter)
    (hf : ∀ u v, (u, v) ∈ G.edges → 0 ≤ f (G.weight u v)) :
    ∃ paths values, findMaxBottleneckPaths G t f inverse iter = .ok (paths, values) ∧ ∀ v ∈ G.nodes,
      (∃ p, paths v = .ok (p.map some) ∧ PathFromTo G v t p ∧ 0 < pathWidth G f p ∧
        (∀ q, PathFromTo G v t q → pathWidth G f q ≤ pathWidth G f p) ∧
        values v = inverse (pathWidth G f p)) ∨
      (paths v = .ok [some v, none] ∧ (∀ q, PathFromTo G v t q → pathWidth G f q = 0) ∧
        values v = inverse 0) := by
  have hf' : ∀ u v a, G.attrs (u, v) = some (some a) → 0 ≤ f a := by
    intro u v a ha
    have hE : (u, v) ∈ G.edges := by
      by_contra hc
      rw [hG.attr_none u v hc] at ha
      cases ha
    have := hf u v hE
    unfold Graph.weight at this
    rw [ha] at this
    exact this
  have hnn : ∀ q, IsPath G q → 0 ≤ pathWidth G f q := by
    intro q
    induction q with
    | nil => intro h; exact h.elim
    | cons x r ih =>
      intro h
      cases r with
      | nil => exact le_top
      | cons y r =>
        rw [pathWidth]
        refine le_min ?_ (ih h.2)
        exact WithTop.coe_nonneg.2 (hf x y h.1)
  have hbw : (OrderDual.toDual (⊤ : WithTop R)) < OrderDual.toDual 0 :=
    OrderDual.toDual_lt_toDual.2 (WithTop.coe_lt_top (0 : R))
  have hmono : ∀ (d d' : (WithTop R)ᵒᵈ) (w : R), d ≤ d' →
      OrderDual.toDual (min (OrderDual.ofDual d) (w : WithTop R)) ≤
      OrderDual.toDual (min (OrderDual.ofDual d') (w : WithTop R)) := by
    intro d d' w h
    exact OrderDual.toDual_le_toDual.2 (min_le_min (OrderDual.ofDual_le_ofDual.2 h) le_rfl)
  have hinfl : ∀ (d : (WithTop R)ᵒᵈ) (w : R), 0 ≤ w →
      d ≤ OrderDual.toDual (min (OrderDual.ofDual d) (w : WithTop R)) := by
    intro d w _
    exact OrderDual.le_toDual.2 (min_le_left _ _)
  obtain ⟨s, e, hs, hU⟩ := searchLoop_ok (t := t) hG hiter hbw hinfl hf' G.nodes.card _ sinv_init le_rfl
  refine ⟨_, _, by unfold findMaxBottleneckPaths; rw [if_pos hd, e], fun v hv => ?_⟩
  have hle := key_le_path hG hmono hs hU
  rcases chase_ok hs hU hG hbw hinfl hf' v hv with ⟨h1, h2⟩ | ⟨h1, p, h2, h3, h4⟩
  · refine Or.inr ⟨h2, fun q hq => ?_, by simp only [h1, OrderDual.ofDual_toDual]⟩
    have h5 := hle q v hq
    rw [h1, pathVal_width hG f q hq.1] at h5
    exact le_antisymm (OrderDual.toDual_le_toDual.1 h5) (hnn q hq.1)
  · rw [pathVal_width hG f p h3.1] at h4
    refine Or.inl ⟨p, h2, h3, ?_, fun q hq => ?_, by simp only [← h4, OrderDual.ofDual_toDual]⟩
    · rw [← h4] at h1
      exact OrderDual.toDual_lt_toDual.1 h1
    · have h5 := hle q v hq
      rw [← h4, pathVal_width hG f q hq.1] at h5
      exact OrderDual.toDual_le_toDual.1 h5

/-- **C34.** The values do not depend on the order of iteration. -/
theorem widest_values_deterministic {B : Type} (G : Graph V R) (hG : G.Ok) (hd : G.distributed = true) (t : V)
    (f : R → R) (inverse : WithTop R → B) (hf : ∀ u v, (u, v) ∈ G.edges → 0 ≤ f (G.weight u v))
    (iter iter' : Finset V → List V) (hiter : IterOk iter) (hiter' : IterOk iter') {p p' r r'}
    (h : findMaxBottleneckPaths G t f inverse iter = .ok (p, r))
    (h' : findMaxBottleneckPaths G t f inverse iter' = .ok (p', r')) : ∀ v ∈ G.nodes, r v = r' v := by
  obtain ⟨_, _, e, H⟩ := widest_paths G hG hd t f inverse iter hiter hf
  obtain ⟨_, _, e', H'⟩ := widest_paths G hG hd t f inverse iter' hiter' hf
  rw [e] at h
  rw [e'] at h'
  cases h
  cases h'
  intro v hv
  rcases H v hv with ⟨q, -, q1, q2, q3, q4⟩ | ⟨-, q3, q4⟩ <;>
  rcases H' v hv with ⟨q', -, q1', q2', q3', q4'⟩ | ⟨-, q3', q4'⟩
  · rw [q4, q4', le_antisymm (q3' q q1) (q3 q' q1')]
  · rw [q3' q q1] at q2; exact absurd q2 (lt_irrefl _)
  · rw [q3 q' q1'] at q2'; exact absurd q2' (lt_irrefl _)
  · rw [q4, q4']

/-- **C34.** With the weights themselves as widths, a node gets no path exactly if there is none. -/
theorem widest_unreachable {B : Type} (G : Graph V R) (hG : G.Ok) (hd : G.distributed = true) (t : V)
    (inverse : WithTop R → B) (iter : Finset V → List V) (hiter : IterOk iter) {paths r}
    (h : findMaxBottleneckPaths G t id inverse iter = .ok (paths, r)) :
    ∀ v ∈ G.nodes, paths v = .ok [some v, none] ↔ ∀ q, ¬ PathFromTo G v t q := by
  have hpos : ∀ u v, (u, v) ∈ G.edges → 0 < G.weight u v := by
    intro u v huv
    obtain ⟨w, hw, h0⟩ := (hG.edge_iff u v).1 huv
    unfold Graph.weight; rw [hw]; exact h0
  have hpw : ∀ q, IsPath G q → 0 < pathWidth G id q := by
    intro q
    induction q with
    | nil => intro h; exact h.elim
    | cons x r ih =>
      intro h
      cases r with
      | nil => exact WithTop.coe_lt_top (0 : R)
      | cons y r =>
        rw [pathWidth]
        exact lt_min (WithTop.coe_pos.2 (hpos x y h.1)) (ih h.2)
  obtain ⟨_, _, e, H⟩ := widest_paths G hG hd t id inverse iter hiter (fun u v huv => (hpos u v huv).le)
  rw [e] at h
  cases h
  intro v hv
  rcases H v hv with ⟨p, h1, h2, -⟩ | ⟨h1, h2, -⟩
  · constructor
    · intro h
      rw [h1] at h
      simp only [Except.ok.injEq] at h
      have : (none : Option V) ∈ p.map some := by rw [h]; simp
      simp at this
    · intro h; exact absurd h2 (h p)
  · constructor
    · intro _ q hq
      have := hpw q hq.1
      rw [h2 q hq] at this
      exact lt_irrefl _ this
    · intro _; exact h1

/-! ### C35 -/

/-- **C35.** For every graph with non-negative lengths and in every order of iteration of the sets: every node
from which the target can be reached gets a shortest path and the value of its length (`nan` for length
zero), every other node no path and the value of an infinite length. -/
theorem shortest_paths [IsOrderedAddMonoid R] {B : Type} (G : Graph V R) (hG : G.Ok)
    (hd : G.distributed = true) (t : V) (f : R → R) (inverse : WithTop R → B) (iter : Finset V → List V)
    (hiter : IterOk iter) (hf : ∀ u v, (u, v) ∈ G.edges → 0 ≤ f (G.weight u v)) :
    ∃ paths values, findShortestPaths G t f inverse iter = .ok (paths, values) ∧ ∀ v ∈ G.nodes,
      (∃ p, paths v = .ok (p.map some) ∧ PathFromTo G v t p ∧
        (∀ q, PathFromTo G v t q → pathLen G f p ≤ pathLen G f q) ∧
        values v = if 0 < pathLen G f p then some (inverse (pathLen G f p : R)) else none) ∨
      (paths v = .ok [some v, none] ∧ (∀ q, ¬ PathFromTo G v t q) ∧ values v = some (inverse ⊤)) := by
  have hf' : ∀ u v a, G.attrs (u, v) = some (some a) → 0 ≤ f a := by
    intro u v a ha
    have hE : (u, v) ∈ G.edges := by
      by_contra hc
      rw [hG.attr_none u v hc] at ha
      cases ha
    have := hf u v hE
    unfold Graph.weight at this
    rw [ha] at this
    exact this
  have hbw : (0 : WithTop R) < ⊤ := WithTop.coe_lt_top (0 : R)
  have hmono : ∀ (d d' : WithTop R) (w : R), d ≤ d' → d + (w : WithTop R) ≤ d' + (w : WithTop R) :=
    fun d d' w h => by gcongr
  have hinfl : ∀ (d : WithTop R) (w : R), 0 ≤ w → d ≤ d + (w : WithTop R) := by
    intro d w hw
    exact le_add_of_nonneg_right (WithTop.coe_nonneg.2 hw)
  obtain ⟨s, e, hs, hU⟩ := searchLoop_ok (t := t) hG hiter hbw hinfl hf' G.nodes.card _ sinv_init le_rfl
  refine ⟨_, _, by unfold findShortestPaths; rw [if_pos hd, e], fun v hv => ?_⟩
  have hle := key_le_path hG hmono hs hU
  rcases chase_ok hs hU hG hbw hinfl hf' v hv with ⟨h1, h2⟩ | ⟨h1, p, h2, h3, h4⟩
  · refine Or.inr ⟨h2, fun q hq => ?_, by simp only [h1]; rw [if_pos hbw]⟩
    have h5 := hle q v hq
    rw [h1, pathVal_len hG f q hq.1] at h5
    exact absurd h5 (not_le.2 (WithTop.coe_lt_top _))
  · rw [pathVal_len hG f p h3.1] at h4
    refine Or.inl ⟨p, h2, h3, fun q hq => ?_, ?_⟩
    · have h5 := hle q v hq
      rw [← h4, pathVal_len hG f q hq.1] at h5
      exact WithTop.coe_le_coe.1 h5
    · simp only [← h4]
      by_cases h : 0 < pathLen G f p
      · rw [if_pos h, if_pos (WithTop.coe_pos.2 h)]
      · rw [if_neg h, if_neg (fun h' => h (WithTop.coe_pos.1 h'))]

/-- **C35.** The values do not depend on the order of iteration. -/
theorem shortest_values_deterministic [IsOrderedAddMonoid R] {B : Type} (G : Graph V R) (hG : G.Ok)
    (hd : G.distributed = true) (t : V)
    (f : R → R) (inverse : WithTop R → B) (hf : ∀ u v, (u, v) ∈ G.edges → 0 ≤ f (G.weight u v))
    (iter iter' : Finset V → List V) (hiter : IterOk iter) (hiter' : IterOk iter') {p p' r r'}
    (h : findShortestPaths G t f inverse iter = .ok (p, r))
    (h' : findShortestPaths G t f inverse iter' = .ok (p', r')) : ∀ v ∈ G.nodes, r v = r' v := by
  obtain ⟨_, _, e, H⟩ := shortest_paths G hG hd t f inverse iter hiter hf
  obtain ⟨_, _, e', H'⟩ := shortest_paths G hG hd t f inverse iter' hiter' hf
  rw [e] at h
  rw [e'] at h'
  cases h
  cases h'
  intro v hv
  rcases H v hv with ⟨q, -, q1, q3, q4⟩ | ⟨-, q3, q4⟩ <;>
  rcases H' v hv with ⟨q', -, q1', q3', q4'⟩ | ⟨-, q3', q4'⟩
  · rw [q4, q4', le_antisymm (q3 q' q1') (q3' q q1)]
  · exact absurd q1 (q3' q)
  · exact absurd q1' (q3 q')
  · rw [q4, q4']

end

/-! ### examples -/

/-- a -> b -> c with widths 3, 2; a -> c with width 1; d isolated apart from c -> d -/
def demoEdges : List (ℕ × ℕ × ℤ) := [(0, 1, 3), (1, 2, 2), (0, 2, 1), (2, 3, 5)]

example : ∃ G, Graph.empty.build demoEdges = .ok G ∧ G.Ok ∧ G.distributed = true := by
  have hpos : ∀ u v w, (u, v, w) ∈ demoEdges → 0 < w := by
    intro u v w h
    simp only [demoEdges, List.mem_cons, Prod.mk.injEq, List.not_mem_nil, or_false] at h
    omega
  obtain ⟨G, e, -⟩ := graph_build demoEdges hpos (by decide)
  exact ⟨G, e, graph_build_ok demoEdges hpos e⟩

/-- a possible order of iteration -/
example : IterOk (fun s : Finset ℕ => s.sort (· ≤ ·)) :=
  fun s => ⟨s.sort_nodup _, fun _ => s.mem_sort _⟩

end Verif.Fwork
