/-
Property C110: what any history of calls on a graph leads to (pygmo_fwork/optichem/graph.py:13-124), with all attributes of nodes
and edges.
-/
import Mathlib.Data.Finset.Basic
import Mathlib.Algebra.Order.Group.Defs
import Mathlib.Tactic.Common

namespace Verif.Fwork.GraphHist

/-! ### Model -/

variable {V K R : Type} [DecidableEq V] [DecidableEq K]

/-- graph.py:18-28: the attributes of an instance. Dictionaries are partial functions; `K` are the names of attributes (texts in
the code), `R` their values (floats in the code). -/
structure Graph (V K R : Type) where
  nodes : Finset V
  nodeAttrs : V → Option (K → Option R)
  edges : Finset (V × V)
  edgeAttrs : V × V → Option (K → Option R)
  succ : V → Option (Finset V)
  pred : V → Option (Finset V)

inductive GErr where
  | key
  | assertion
  deriving DecidableEq

/-- graph.py:18-28 `__init__` -/
def Graph.new : Graph V K R := ⟨∅, fun _ => none, ∅, fun _ => none, fun _ => none, fun _ => none⟩

/-- `d.update(attributes)` -/
def update (f : K → Option R) (as : List (K × R)) : K → Option R :=
  as.foldl (fun f p => Function.update f p.1 (some p.2)) f

/-- graph.py:58-63: one round of the loop over `(u, v)` -/
def Graph.addNode (G : Graph V K R) (n : V) : Graph V K R :=
  if n ∈ G.nodes then G
  else { G with
    nodes := insert n G.nodes
    nodeAttrs := Function.update G.nodeAttrs n (some fun _ => none)
    succ := Function.update G.succ n (some ∅)
    pred := Function.update G.pred n (some ∅) }

/-- graph.py:52-68 `add_edge` -/
def Graph.addEdge (G : Graph V K R) (u v : V) : Except GErr (Graph V K R) :=
  let G := (G.addNode u).addNode v
  if (u, v) ∈ G.edges then .ok G
  else
    match G.succ u, G.pred v with
    | some s, some p => .ok { G with
        succ := Function.update G.succ u (some (insert v s))
        pred := Function.update G.pred v (some (insert u p))
        edges := insert (u, v) G.edges
        edgeAttrs := Function.update G.edgeAttrs (u, v) (some fun _ => none) }
    | _, _ => .error .key

/-- graph.py:37-43 `update_node_attributes` -/
def Graph.setNode (G : Graph V K R) (n : V) (as : List (K × R)) : Except GErr (Graph V K R) :=
  match G.nodeAttrs n with
  | none => .error .key
  | some f => .ok { G with nodeAttrs := Function.update G.nodeAttrs n (some (update f as)) }

/-- graph.py:85-95 `update_edge_attributes`; `wt` is the name 'weight' -/
def Graph.setEdge [Zero R] [LT R] [DecidableLT R] (wt : K) (G : Graph V K R) (u v : V) (as : List (K × R)) :
    Except GErr (Graph V K R) :=
  if ∃ p ∈ as, p.1 = wt ∧ ¬ 0 < p.2 then .error .assertion
  else match G.edgeAttrs (u, v) with
  | none => .error .key
  | some f => .ok { G with edgeAttrs := Function.update G.edgeAttrs (u, v) (some (update f as)) }

/-- graph.py:45-50 `get_node_attributes` -/
def Graph.getNode (G : Graph V K R) (n : V) : Except GErr (K → Option R) :=
  match G.nodeAttrs n with
  | some f => .ok f
  | none => .error .key
/-- graph.py:97-104 `get_edge_attributes` -/
def Graph.getEdge (G : Graph V K R) (u v : V) : Except GErr (K → Option R) :=
  match G.edgeAttrs (u, v) with
  | some f => .ok f
  | none => .error .key
/-- graph.py:70-76 `has_edge` -/
def Graph.hasEdge (G : Graph V K R) (u v : V) : Bool := decide ((u, v) ∈ G.edges)

/-- graph.py:107-124 `_default_weighting_functions` -/
def defaultWeighting {α : Type} (f inverse : Option (α → α)) : Except GErr ((α → α) × (α → α)) :=
  match f, inverse with
  | some _, none => .error .assertion
  | none, some _ => .error .assertion
  | none, none => .ok (fun x => x, fun x => x)
  | some f, some g => .ok (f, g)

/-- the calls that change a graph -/
inductive Call (V K R : Type) where
  | addEdge (u v : V)
  | setNode (n : V) (as : List (K × R))
  | setEdge (u v : V) (as : List (K × R))

section
variable [Zero R] [LT R] [DecidableLT R]

/-- a call -/
def Graph.call (wt : K) (G : Graph V K R) : Call V K R → Except GErr (Graph V K R)
  | .addEdge u v => G.addEdge u v
  | .setNode n as => G.setNode n as
  | .setEdge u v as => G.setEdge wt u v as

/-- a history of calls whose exceptions are caught -/
def Graph.run (wt : K) (G : Graph V K R) (h : List (Call V K R)) : Graph V K R :=
  h.foldl (fun G c => match G.call wt c with | .ok G' => G' | .error _ => G) G

/-! ### Specification -/

/-- keyword arguments have distinct names -/
def Call.Kwargs : Call V K R → Prop
  | .addEdge _ _ => True
  | .setNode _ as => (as.map Prod.fst).Nodup
  | .setEdge _ _ as => (as.map Prod.fst).Nodup

/-- the history contains a call that adds the edge -/
def Added (h : List (Call V K R)) (u v : V) : Prop := Call.addEdge u v ∈ h
/-- the history contains a call that adds an edge at the node -/
def Mentioned (h : List (Call V K R)) (n : V) : Prop := ∃ v, Added h n v ∨ Added h v n
/-- the weight among the attributes, if any, is positive -/
def Positive (wt : K) (as : List (K × R)) : Prop := ∀ x, (wt, x) ∈ as → 0 < x

/-- `x` is the value that the last call that counts gave to attribute `k` of the edge: a call counts if the edge was there by then
and the weight passed, if any, is positive -/
def LastEdge (wt : K) (h : List (Call V K R)) (u v : V) (k : K) (x : R) : Prop :=
  ∃ pre as post, h = pre ++ .setEdge u v as :: post ∧ Added pre u v ∧ Positive wt as ∧ (k, x) ∈ as ∧
    ∀ as', Call.setEdge u v as' ∈ post → Positive wt as' → ∀ y, (k, y) ∉ as'

/-- the same for a node -/
def LastNode (h : List (Call V K R)) (n : V) (k : K) (x : R) : Prop :=
  ∃ pre as post, h = pre ++ .setNode n as :: post ∧ Mentioned pre n ∧ (k, x) ∈ as ∧
    ∀ as', Call.setNode n as' ∈ post → ∀ y, (k, y) ∉ as'

/-- what the graph answers after a history of calls -/
structure Answers (wt : K) (h : List (Call V K R)) (G : Graph V K R) : Prop where
  nodes : ∀ n, n ∈ G.nodes ↔ Mentioned h n
  edges : ∀ u v, (u, v) ∈ G.edges ↔ Added h u v
  hasEdge : ∀ u v, G.hasEdge u v = true ↔ Added h u v
  succ : ∀ u, (Mentioned h u → ∃ s, G.succ u = some s ∧ ∀ v, v ∈ s ↔ Added h u v) ∧ (¬ Mentioned h u → G.succ u = none)
  pred : ∀ v, (Mentioned h v → ∃ s, G.pred v = some s ∧ ∀ u, u ∈ s ↔ Added h u v) ∧ (¬ Mentioned h v → G.pred v = none)
  edgeAttrs : ∀ u v, (Added h u v → ∃ f, G.getEdge u v = .ok f ∧ ∀ k x, f k = some x ↔ LastEdge wt h u v k x) ∧
    (¬ Added h u v → G.getEdge u v = .error .key)
  nodeAttrs : ∀ n, (Mentioned h n → ∃ f, G.getNode n = .ok f ∧ ∀ k x, f k = some x ↔ LastNode h n k x) ∧
    (¬ Mentioned h n → G.getNode n = .error .key)

/-- when a call raises which exception: AssertionError for a weight that is not positive, else KeyError for a node or an edge that
is not there -/
def Raises (wt : K) (h : List (Call V K R)) : Call V K R → GErr → Prop
  | .addEdge _ _, _ => False
  | .setNode n _, e => e = .key ∧ ¬ Mentioned h n
  | .setEdge u v as, e => e = .assertion ∧ ¬ Positive wt as ∨ e = .key ∧ Positive wt as ∧ ¬ Added h u v

/-! ### Proofs -/

set_option linter.unusedSectionVars false

theorem update_apply : ∀ (as : List (K × R)), (as.map Prod.fst).Nodup → ∀ (f : K → Option R) (k : K) (x : R),
    update f as k = some x ↔ (k, x) ∈ as ∨ (∀ y, (k, y) ∉ as) ∧ f k = some x
  | [], _, f, k, x => by simp [update]
  | p :: as, hn, f, k, x => by
    obtain ⟨a, b⟩ := p
    rw [List.map_cons, List.nodup_cons] at hn
    have ih := update_apply as hn.2 (Function.update f a (some b)) k x
    change update (Function.update f a (some b)) as k = some x ↔ _
    rw [ih]
    by_cases h : k = a
    · subst h
      have hno : ∀ y, (k, y) ∉ as := fun y hy => hn.1 (List.mem_map.2 ⟨_, hy, rfl⟩)
      simp only [Function.update_self, hno, List.mem_cons, Prod.mk.injEq, true_and, or_false, not_false_eq_true, implies_true,
        Option.some.injEq, false_or]
      constructor
      · intro h; exact .inl h.symm
      · rintro (h | ⟨h, -⟩)
        · exact h.symm
        · exact (h b rfl).elim
    · simp [Function.update_of_ne h, h]

private theorem added_snoc {h : List (Call V K R)} {c : Call V K R} {u v : V} :
    Added (h ++ [c]) u v ↔ Added h u v ∨ c = .addEdge u v := by
  unfold Added
  rw [List.mem_append, List.mem_singleton]
  exact or_congr Iff.rfl eq_comm

private theorem mentioned_snoc {h : List (Call V K R)} {c : Call V K R} {n : V} :
    Mentioned (h ++ [c]) n ↔ Mentioned h n ∨ ∃ v, c = .addEdge n v ∨ c = .addEdge v n := by
  unfold Mentioned
  simp only [added_snoc]
  constructor
  · rintro ⟨v, (h | h) | (h | h)⟩
    · exact .inl ⟨v, .inl h⟩
    · exact .inr ⟨v, .inl h⟩
    · exact .inl ⟨v, .inr h⟩
    · exact .inr ⟨v, .inr h⟩
  · rintro (⟨v, h | h⟩ | ⟨v, h | h⟩)
    · exact ⟨v, .inl (.inl h)⟩
    · exact ⟨v, .inr (.inl h)⟩
    · exact ⟨v, .inl (.inr h)⟩
    · exact ⟨v, .inr (.inr h)⟩

/-- the last value after one more call -/
private theorem lastEdge_snoc {wt : K} {h : List (Call V K R)} {c : Call V K R} {u v : V} {k : K} {x : R} :
    LastEdge wt (h ++ [c]) u v k x ↔
      (∃ as, c = .setEdge u v as ∧ Added h u v ∧ Positive wt as ∧ (k, x) ∈ as) ∨
      (LastEdge wt h u v k x ∧ ∀ as, c = .setEdge u v as → Positive wt as → ∀ y, (k, y) ∉ as) := by
  constructor
  · rintro ⟨pre, as, post, e, h1, h2, h3, h4⟩
    rcases List.eq_nil_or_concat post with rfl | ⟨post', d, rfl⟩
    · obtain ⟨rfl, e2⟩ := List.append_inj' e rfl
      cases e2
      exact .inl ⟨as, rfl, h1, h2, h3⟩
    · rw [List.concat_eq_append, ← List.cons_append, ← List.append_assoc] at e
      obtain ⟨rfl, e2⟩ := List.append_inj' e rfl
      cases e2
      exact .inr ⟨⟨pre, as, post', rfl, h1, h2, h3, fun as' hm => h4 as' (by simp [hm])⟩,
        fun as' e => h4 as' (by simp [e])⟩
  · rintro (⟨as, rfl, h1, h2, h3⟩ | ⟨⟨pre, as, post, rfl, h1, h2, h3, h4⟩, h5⟩)
    · exact ⟨h, as, [], rfl, h1, h2, h3, fun _ hm => (by cases hm)⟩
    · refine ⟨pre, as, post ++ [c], by simp, h1, h2, h3, fun as' hm => ?_⟩
      rcases List.mem_append.1 hm with hm | hm
      · exact h4 as' hm
      · exact h5 as' (List.mem_singleton.1 hm).symm

private theorem lastNode_snoc {h : List (Call V K R)} {c : Call V K R} {n : V} {k : K} {x : R} :
    LastNode (h ++ [c]) n k x ↔
      (∃ as, c = .setNode n as ∧ Mentioned h n ∧ (k, x) ∈ as) ∨
      (LastNode h n k x ∧ ∀ as, c = .setNode n as → ∀ y, (k, y) ∉ as) := by
  constructor
  · rintro ⟨pre, as, post, e, h1, h3, h4⟩
    rcases List.eq_nil_or_concat post with rfl | ⟨post', d, rfl⟩
    · obtain ⟨rfl, e2⟩ := List.append_inj' e rfl
      cases e2
      exact .inl ⟨as, rfl, h1, h3⟩
    · rw [List.concat_eq_append, ← List.cons_append, ← List.append_assoc] at e
      obtain ⟨rfl, e2⟩ := List.append_inj' e rfl
      cases e2
      exact .inr ⟨⟨pre, as, post', rfl, h1, h3, fun as' hm => h4 as' (by simp [hm])⟩,
        fun as' e => h4 as' (by simp [e])⟩
  · rintro (⟨as, rfl, h1, h3⟩ | ⟨⟨pre, as, post, rfl, h1, h3, h4⟩, h5⟩)
    · exact ⟨h, as, [], rfl, h1, h3, fun _ hm => (by cases hm)⟩
    · refine ⟨pre, as, post ++ [c], by simp, h1, h3, fun as' hm => ?_⟩
      rcases List.mem_append.1 hm with hm | hm
      · exact h4 as' hm
      · exact h5 as' (List.mem_singleton.1 hm).symm

private theorem LastEdge.added {wt : K} {h : List (Call V K R)} {u v : V} {k : K} {x : R} (hl : LastEdge wt h u v k x) : Added h u v := by
  obtain ⟨pre, as, post, rfl, h1, -⟩ := hl
  exact List.mem_append_left _ h1

private theorem LastNode.mentioned {h : List (Call V K R)} {n : V} {k : K} {x : R} (hl : LastNode h n k x) : Mentioned h n := by
  obtain ⟨pre, as, post, rfl, ⟨v, h1⟩, -⟩ := hl
  exact ⟨v, h1.imp (List.mem_append_left _) (List.mem_append_left _)⟩

/-- the content of a graph in other words -/
private structure Inv (wt : K) (h : List (Call V K R)) (G : Graph V K R) : Prop where
  nodes : ∀ n, n ∈ G.nodes ↔ Mentioned h n
  edges : ∀ u v, (u, v) ∈ G.edges ↔ Added h u v
  succ : ∀ u, (u ∈ G.nodes → ∃ s, G.succ u = some s ∧ ∀ v, v ∈ s ↔ (u, v) ∈ G.edges) ∧ (u ∉ G.nodes → G.succ u = none)
  pred : ∀ v, (v ∈ G.nodes → ∃ s, G.pred v = some s ∧ ∀ u, u ∈ s ↔ (u, v) ∈ G.edges) ∧ (v ∉ G.nodes → G.pred v = none)
  edgeAttrs : ∀ e, (e ∈ G.edges → ∃ f, G.edgeAttrs e = some f ∧ ∀ k x, f k = some x ↔ LastEdge wt h e.1 e.2 k x) ∧
    (e ∉ G.edges → G.edgeAttrs e = none)
  nodeAttrs : ∀ n, (n ∈ G.nodes → ∃ f, G.nodeAttrs n = some f ∧ ∀ k x, f k = some x ↔ LastNode h n k x) ∧
    (n ∉ G.nodes → G.nodeAttrs n = none)

private theorem Inv.answers {wt : K} {h : List (Call V K R)} {G : Graph V K R} (i : Inv wt h G) : Answers wt h G := by
  refine ⟨i.nodes, i.edges, fun u v => ?_, fun u => ?_, fun v => ?_, fun u v => ?_, fun n => ?_⟩
  · unfold Graph.hasEdge; rw [decide_eq_true_iff]; exact i.edges u v
  · have := i.succ u
    rw [i.nodes] at this
    simpa only [i.edges] using this
  · have := i.pred v
    rw [i.nodes] at this
    simpa only [i.edges] using this
  · have := i.edgeAttrs (u, v)
    rw [i.edges] at this
    unfold Graph.getEdge
    refine ⟨fun hm => ?_, fun hm => ?_⟩
    · obtain ⟨f, h1, h2⟩ := this.1 hm
      exact ⟨f, by rw [h1], h2⟩
    · rw [this.2 hm]
  · have := i.nodeAttrs n
    rw [i.nodes] at this
    unfold Graph.getNode
    refine ⟨fun hm => ?_, fun hm => ?_⟩
    · obtain ⟨f, h1, h2⟩ := this.1 hm
      exact ⟨f, by rw [h1], h2⟩
    · rw [this.2 hm]

/-- a node is added, which no edge has as an end -/
private structure Mid (wt : K) (h : List (Call V K R)) (X : Finset V) (G : Graph V K R) : Prop where
  nodes : ∀ n, n ∈ G.nodes ↔ Mentioned h n ∨ n ∈ X
  edges : ∀ u v, (u, v) ∈ G.edges ↔ Added h u v
  succ : ∀ u, (u ∈ G.nodes → ∃ s, G.succ u = some s ∧ ∀ v, v ∈ s ↔ (u, v) ∈ G.edges) ∧ (u ∉ G.nodes → G.succ u = none)
  pred : ∀ v, (v ∈ G.nodes → ∃ s, G.pred v = some s ∧ ∀ u, u ∈ s ↔ (u, v) ∈ G.edges) ∧ (v ∉ G.nodes → G.pred v = none)
  edgeAttrs : ∀ e, (e ∈ G.edges → ∃ f, G.edgeAttrs e = some f ∧ ∀ k x, f k = some x ↔ LastEdge wt h e.1 e.2 k x) ∧
    (e ∉ G.edges → G.edgeAttrs e = none)
  nodeAttrs : ∀ n, (n ∈ G.nodes → ∃ f, G.nodeAttrs n = some f ∧ ∀ k x, f k = some x ↔ LastNode h n k x) ∧
    (n ∉ G.nodes → G.nodeAttrs n = none)

private theorem Mid.addNode {wt : K} {h : List (Call V K R)} {X : Finset V} {G : Graph V K R} (m : Mid wt h X G) (a : V) :
    Mid wt h (insert a X) (G.addNode a) := by
  unfold Graph.addNode
  by_cases ha : a ∈ G.nodes
  · rw [if_pos ha]
    refine ⟨fun n => ?_, m.edges, m.succ, m.pred, m.edgeAttrs, m.nodeAttrs⟩
    rw [Finset.mem_insert, m.nodes]
    constructor
    · rintro (h | h)
      · exact .inl h
      · exact .inr (.inr h)
    · rintro (h | rfl | h)
      · exact .inl h
      · exact (m.nodes _).1 ha
      · exact .inr h
  · rw [if_neg ha]
    have hno : ¬ Mentioned h a := fun hc => ha ((m.nodes a).2 (.inl hc))
    refine ⟨fun n => ?_, m.edges, fun u => ?_, fun u => ?_, m.edgeAttrs, fun n => ?_⟩
    · simp only [Finset.mem_insert, m.nodes]
      constructor
      · rintro (rfl | h | h)
        · exact .inr (.inl rfl)
        · exact .inl h
        · exact .inr (.inr h)
      · rintro (h | rfl | h)
        · exact .inr (.inl h)
        · exact .inl rfl
        · exact .inr (.inr h)
    · simp only [Finset.mem_insert]
      by_cases hu : u = a
      · subst hu
        refine ⟨fun _ => ⟨∅, by simp, fun v => ?_⟩, fun hc => (hc (.inl rfl)).elim⟩
        simp only [Finset.notMem_empty, false_iff, m.edges]
        exact fun hc => hno ⟨v, .inl hc⟩
      · simpa [Function.update_of_ne hu, hu] using m.succ u
    · simp only [Finset.mem_insert]
      by_cases hu : u = a
      · subst hu
        refine ⟨fun _ => ⟨∅, by simp, fun v => ?_⟩, fun hc => (hc (.inl rfl)).elim⟩
        simp only [Finset.notMem_empty, false_iff, m.edges]
        exact fun hc => hno ⟨v, .inr hc⟩
      · simpa [Function.update_of_ne hu, hu] using m.pred u
    · simp only [Finset.mem_insert]
      by_cases hu : n = a
      · subst hu
        refine ⟨fun _ => ⟨fun _ => none, by simp, fun k x => ?_⟩, fun hc => (hc (.inl rfl)).elim⟩
        simp only [reduceCtorEq, false_iff]
        exact fun hc => hno hc.mentioned
      · simpa [Function.update_of_ne hu, hu] using m.nodeAttrs n

private theorem Inv.addEdge {wt : K} {h : List (Call V K R)} {G : Graph V K R} (i : Inv wt h G) (u v : V) :
    ∃ G', G.addEdge u v = .ok G' ∧ Inv wt (h ++ [.addEdge u v]) G' := by
  have m0 : Mid wt h ∅ G := ⟨fun n => by simp [i.nodes], i.edges, i.succ, i.pred, i.edgeAttrs, i.nodeAttrs⟩
  have m := (m0.addNode u).addNode v
  have hlE : ∀ a b k x, LastEdge wt (h ++ [.addEdge u v]) a b k x ↔ LastEdge wt h a b k x := fun a b k x => by
    rw [lastEdge_snoc]; simp
  have hlN : ∀ a k x, LastNode (h ++ [Call.addEdge u v]) a k x ↔ LastNode h a k x := fun a k x => by
    rw [lastNode_snoc]; simp
  have hN : ∀ n, n ∈ ((G.addNode u).addNode v).nodes ↔ Mentioned (h ++ [Call.addEdge u v]) n := by
    intro n
    rw [m.nodes, mentioned_snoc]
    simp only [Finset.mem_insert, Finset.notMem_empty, or_false, Call.addEdge.injEq]
    refine or_congr Iff.rfl ⟨?_, ?_⟩
    · rintro (rfl | rfl)
      · exact ⟨u, .inr ⟨rfl, rfl⟩⟩
      · exact ⟨v, .inl ⟨rfl, rfl⟩⟩
    · rintro ⟨w, ⟨rfl, -⟩ | ⟨-, rfl⟩⟩
      · exact .inr rfl
      · exact .inl rfl
  have hE : ∀ a b, Added (h ++ [Call.addEdge u v]) a b ↔ Added h a b ∨ (a, b) = (u, v) := fun a b => by
    rw [added_snoc]; simp [eq_comm]
  unfold Graph.addEdge
  simp only
  generalize (G.addNode u).addNode v = G' at m hN
  by_cases c : (u, v) ∈ G'.edges
  · rw [if_pos c]
    refine ⟨G', rfl, hN, fun a b => ?_, m.succ, m.pred, fun e => ?_, fun n => ?_⟩
    · rw [hE, m.edges]
      constructor
      · exact .inl
      · rintro (h | h)
        · exact h
        · cases h; exact (m.edges _ _).1 c
    · simpa only [hlE] using m.edgeAttrs e
    · simpa only [hlN] using m.nodeAttrs n
  · rw [if_neg c]
    have hu : u ∈ G'.nodes := (m.nodes u).2 (.inr (by simp))
    have hv : v ∈ G'.nodes := (m.nodes v).2 (.inr (by simp))
    obtain ⟨s, hs, hs'⟩ := (m.succ u).1 hu
    obtain ⟨p, hp, hp'⟩ := (m.pred v).1 hv
    rw [hs, hp]
    refine ⟨_, rfl, hN, fun a b => ?_, fun a => ?_, fun b => ?_, fun e => ?_, fun n => ?_⟩
    · simp only [Finset.mem_insert]
      rw [hE, m.edges, or_comm]
    · simp only [Finset.mem_insert]
      by_cases ha : a = u
      · subst ha
        refine ⟨fun _ => ⟨insert v s, by simp, fun b => ?_⟩, fun hc => (hc hu).elim⟩
        rw [Finset.mem_insert, hs']
        simp
      · simpa [Function.update_of_ne ha, ha] using m.succ a
    · simp only [Finset.mem_insert]
      by_cases ha : b = v
      · subst ha
        refine ⟨fun _ => ⟨insert u p, by simp, fun b => ?_⟩, fun hc => (hc hv).elim⟩
        rw [Finset.mem_insert, hp']
        simp
      · simpa [Function.update_of_ne ha, ha] using m.pred b
    · simp only [Finset.mem_insert, hlE]
      by_cases he : e = (u, v)
      · subst he
        refine ⟨fun _ => ⟨fun _ => none, by simp, fun k x => ?_⟩, fun hc => (hc (.inl rfl)).elim⟩
        simp only [reduceCtorEq, false_iff]
        exact fun hc => c ((m.edges _ _).2 hc.added)
      · simpa [Function.update_of_ne he, he] using m.edgeAttrs e
    · simpa only [hlN] using m.nodeAttrs n

private theorem Inv.setNode {wt : K} {h : List (Call V K R)} {G : Graph V K R} (i : Inv wt h G) (a : V) {as : List (K × R)}
    (hk : (as.map Prod.fst).Nodup) :
    (a ∉ G.nodes → G.setNode a as = .error .key ∧ Inv wt (h ++ [.setNode a as]) G) ∧
    (a ∈ G.nodes → ∃ G', G.setNode a as = .ok G' ∧ Inv wt (h ++ [.setNode a as]) G') := by
  have hlE : ∀ u v k x, LastEdge wt (h ++ [.setNode a as]) u v k x ↔ LastEdge wt h u v k x := fun u v k x => by
    rw [lastEdge_snoc]; simp
  have hN : ∀ n, Mentioned (h ++ [Call.setNode a as]) n ↔ Mentioned h n := fun n => by rw [mentioned_snoc]; simp
  have hE : ∀ u v, Added (h ++ [Call.setNode a as]) u v ↔ Added h u v := fun u v => by rw [added_snoc]; simp
  unfold Graph.setNode
  refine ⟨fun ha => ?_, fun ha => ?_⟩
  · rw [(i.nodeAttrs a).2 ha]
    refine ⟨rfl, fun n => by rw [hN, i.nodes], fun u v => by rw [hE, i.edges], i.succ, i.pred,
      fun e => by simpa only [hlE] using i.edgeAttrs e, fun n => ?_⟩
    refine ⟨fun hn => ?_, (i.nodeAttrs n).2⟩
    obtain ⟨f, h1, h2⟩ := (i.nodeAttrs n).1 hn
    refine ⟨f, h1, fun k x => ?_⟩
    rw [h2, lastNode_snoc]
    have : a ≠ n := fun e => ha (e ▸ hn)
    simp [this]
  · obtain ⟨f, h1, h2⟩ := (i.nodeAttrs a).1 ha
    rw [h1]
    refine ⟨_, rfl, fun n => by rw [hN]; exact i.nodes n, fun u v => by rw [hE]; exact i.edges u v, i.succ, i.pred,
      fun e => by simpa only [hlE] using i.edgeAttrs e, fun n => ?_⟩
    by_cases hn : n = a
    · subst hn
      refine ⟨fun _ => ⟨update f as, by simp, fun k x => ?_⟩, fun hc => (hc ha).elim⟩
      rw [update_apply as hk, lastNode_snoc, h2]
      have hm := (i.nodes n).1 ha
      constructor
      · rintro (h | ⟨h, h'⟩)
        · exact .inl ⟨as, rfl, hm, h⟩
        · exact .inr ⟨h', fun as' e => by cases e; exact h⟩
      · rintro (⟨as', e, -, h⟩ | ⟨h, h'⟩)
        · cases e; exact .inl h
        · exact .inr ⟨h' as rfl, h⟩
    · have hne : a ≠ n := fun e => hn e.symm
      simp only [Function.update_of_ne hn, lastNode_snoc]
      simpa [hne] using i.nodeAttrs n

private theorem positive_iff {wt : K} {as : List (K × R)} : (∃ p ∈ as, p.1 = wt ∧ ¬ 0 < p.2) ↔ ¬ Positive wt as := by
  unfold Positive
  constructor
  · rintro ⟨⟨a, b⟩, h1, rfl, h2⟩ hc
    exact h2 (hc b h1)
  · intro hc
    push Not at hc
    obtain ⟨x, h1, h2⟩ := hc
    exact ⟨(wt, x), h1, rfl, h2⟩

private theorem Inv.setEdge {wt : K} {h : List (Call V K R)} {G : Graph V K R} (i : Inv wt h G) (a b : V) {as : List (K × R)}
    (hk : (as.map Prod.fst).Nodup) :
    (¬ Positive wt as → G.setEdge wt a b as = .error .assertion ∧ Inv wt (h ++ [.setEdge a b as]) G) ∧
    (Positive wt as → (a, b) ∉ G.edges → G.setEdge wt a b as = .error .key ∧ Inv wt (h ++ [.setEdge a b as]) G) ∧
    (Positive wt as → (a, b) ∈ G.edges → ∃ G', G.setEdge wt a b as = .ok G' ∧ Inv wt (h ++ [.setEdge a b as]) G') := by
  have hlN : ∀ n k x, LastNode (h ++ [.setEdge a b as]) n k x ↔ LastNode h n k x := fun n k x => by
    rw [lastNode_snoc]; simp
  have hN : ∀ n, Mentioned (h ++ [Call.setEdge a b as]) n ↔ Mentioned h n := fun n => by rw [mentioned_snoc]; simp
  have hE : ∀ u v, Added (h ++ [Call.setEdge a b as]) u v ↔ Added h u v := fun u v => by rw [added_snoc]; simp
  have hsame : ¬ Positive wt as ∨ (a, b) ∉ G.edges → Inv wt (h ++ [.setEdge a b as]) G := by
    intro hc
    refine ⟨fun n => by rw [hN, i.nodes], fun u v => by rw [hE, i.edges], i.succ, i.pred, fun e => ?_,
      fun n => by simpa only [hlN] using i.nodeAttrs n⟩
    refine ⟨fun hn => ?_, (i.edgeAttrs e).2⟩
    obtain ⟨f, h1, h2⟩ := (i.edgeAttrs e).1 hn
    refine ⟨f, h1, fun k x => ?_⟩
    rw [h2, lastEdge_snoc]
    rcases hc with hc | hc
    · constructor
      · exact fun h => .inr ⟨h, fun as' e hp => by cases e; exact (hc hp).elim⟩
      · rintro (⟨as', e, -, hp, -⟩ | ⟨h, -⟩)
        · cases e; exact (hc hp).elim
        · exact h
    · have hne : ¬ (a = e.1 ∧ b = e.2) := fun ⟨h1, h2⟩ => hc (by rw [h1, h2]; exact hn)
      constructor
      · exact fun h => .inr ⟨h, fun as' e => by cases e; exact (hne ⟨rfl, rfl⟩).elim⟩
      · rintro (⟨as', e, -⟩ | ⟨h, -⟩)
        · cases e; exact (hne ⟨rfl, rfl⟩).elim
        · exact h
  unfold Graph.setEdge
  refine ⟨fun hp => ?_, fun hp ha => ?_, fun hp ha => ?_⟩
  · rw [if_pos (positive_iff.2 hp)]
    exact ⟨rfl, hsame (.inl hp)⟩
  · rw [if_neg (fun hc => positive_iff.1 hc hp), (i.edgeAttrs _).2 ha]
    exact ⟨rfl, hsame (.inr ha)⟩
  · obtain ⟨f, h1, h2⟩ := (i.edgeAttrs (a, b)).1 ha
    rw [if_neg (fun hc => positive_iff.1 hc hp), h1]
    refine ⟨_, rfl, fun n => by rw [hN]; exact i.nodes n, fun u v => by rw [hE]; exact i.edges u v, i.succ, i.pred,
      fun e => ?_, fun n => by simpa only [hlN] using i.nodeAttrs n⟩
    by_cases hn : e = (a, b)
    · subst hn
      refine ⟨fun _ => ⟨update f as, by simp, fun k x => ?_⟩, fun hc => (hc ha).elim⟩
      rw [update_apply as hk, lastEdge_snoc, h2]
      have hm := (i.edges a b).1 ha
      constructor
      · rintro (h | ⟨h, h'⟩)
        · exact .inl ⟨as, rfl, hm, hp, h⟩
        · exact .inr ⟨h', fun as' e _ => by cases e; exact h⟩
      · rintro (⟨as', e, -, -, h⟩ | ⟨h, h'⟩)
        · cases e; exact .inl h
        · exact .inr ⟨h' as rfl hp, h⟩
    · have hne : ¬ (a = e.1 ∧ b = e.2) := fun ⟨h1, h2⟩ => hn (by rw [h1, h2])
      have hne' : ∀ as', (Call.setEdge a b as : Call V K R) ≠ .setEdge e.1 e.2 as' := fun as' e => by
        cases e; exact hne ⟨rfl, rfl⟩
      simp only [Function.update_of_ne hn, lastEdge_snoc]
      simpa [hne'] using i.edgeAttrs e

private theorem inv_call {wt : K} {h : List (Call V K R)} {G : Graph V K R} (i : Inv wt h G) (c : Call V K R) (hk : c.Kwargs) :
    (∀ e, G.call wt c = .error e ↔ Raises wt h c e) ∧
    Inv wt (h ++ [c]) (match G.call wt c with | .ok G' => G' | .error _ => G) := by
  cases c with
  | addEdge u v =>
    obtain ⟨G', h1, h2⟩ := i.addEdge u v
    simp only [Graph.call, h1]
    exact ⟨fun e => ⟨fun e => (by cases e), fun h => h.elim⟩, h2⟩
  | setNode n as =>
    simp only [Graph.call, Raises]
    by_cases hn : n ∈ G.nodes
    · obtain ⟨G', h1, h2⟩ := (i.setNode n hk).2 hn
      simp only [h1]
      exact ⟨fun e => ⟨fun e => (by cases e), fun h => (h.2 ((i.nodes n).1 hn)).elim⟩, h2⟩
    · obtain ⟨h1, h2⟩ := (i.setNode n hk).1 hn
      simp only [h1]
      exact ⟨fun e => ⟨fun e => (by cases e; exact ⟨rfl, fun h => hn ((i.nodes n).2 h)⟩), fun h => by rw [h.1]⟩, h2⟩
  | setEdge u v as =>
    simp only [Graph.call, Raises]
    obtain ⟨g1, g2, g3⟩ := i.setEdge u v hk
    by_cases hp : Positive wt as
    · by_cases hn : (u, v) ∈ G.edges
      · obtain ⟨G', h1, h2⟩ := g3 hp hn
        simp only [h1]
        exact ⟨fun e => ⟨fun e => (by cases e), fun h => (h.elim (fun h => h.2 hp) (fun h => h.2.2 ((i.edges u v).1 hn))).elim⟩, h2⟩
      · obtain ⟨h1, h2⟩ := g2 hp hn
        simp only [h1]
        exact ⟨fun e => ⟨fun e => (by cases e; exact .inr ⟨rfl, hp, fun h => hn ((i.edges u v).2 h)⟩),
          fun h => by rcases h with h | h
                      · exact (h.2 hp).elim
                      · rw [h.1]⟩, h2⟩
    · obtain ⟨h1, h2⟩ := g1 hp
      simp only [h1]
      exact ⟨fun e => ⟨fun e => (by cases e; exact .inl ⟨rfl, hp⟩),
          fun h => by rcases h with h | h
                      · rw [h.1]
                      · exact (hp h.2.1).elim⟩, h2⟩

private theorem run_snoc (wt : K) (G : Graph V K R) (h : List (Call V K R)) (c : Call V K R) :
    G.run wt (h ++ [c]) = match (G.run wt h).call wt c with | .ok G' => G' | .error _ => G.run wt h := by
  unfold Graph.run
  rw [List.foldl_append]
  rfl

private theorem inv_run {wt : K} (h : List (Call V K R)) (hk : ∀ c ∈ h, c.Kwargs) : Inv wt h ((Graph.new : Graph V K R).run wt h) := by
  induction h using List.reverseRecOn with
  | nil =>
    have hm : ∀ n : V, ¬ Mentioned ([] : List (Call V K R)) n := by
      rintro n ⟨v, h | h⟩ <;> cases h
    exact ⟨fun n => ⟨fun h => (by cases h), fun h => (hm n h).elim⟩, fun u v => ⟨fun h => (by cases h), fun h => (by cases h)⟩,
      fun u => ⟨fun h => (by cases h), fun _ => rfl⟩, fun u => ⟨fun h => (by cases h), fun _ => rfl⟩,
      fun u => ⟨fun h => (by cases h), fun _ => rfl⟩, fun u => ⟨fun h => (by cases h), fun _ => rfl⟩⟩
  | append_singleton h c ih =>
    rw [run_snoc]
    exact (inv_call (ih fun d hd => hk d (by simp [hd])) c (hk c (by simp))).2

/-- **C110.** After any history of calls, exceptions caught, the graph answers with the edges that were added, their ends, and for every
attribute the value that the last call that counts gave to it. -/
theorem graph_history (wt : K) (h : List (Call V K R)) (hk : ∀ c ∈ h, c.Kwargs) :
    Answers wt h ((Graph.new : Graph V K R).run wt h) := (inv_run h hk).answers

/-- **C110.** A call raises exactly if it sets a weight that is not positive or its node or edge was never added; the graph is then
as before. -/
theorem graph_raises (wt : K) (h : List (Call V K R)) (hk : ∀ c ∈ h, c.Kwargs) (c : Call V K R) (hc : c.Kwargs) (e : GErr) :
    (((Graph.new : Graph V K R).run wt h).call wt c = .error e ↔ Raises wt h c e) ∧
    (Raises wt h c e → (Graph.new : Graph V K R).run wt (h ++ [c]) = (Graph.new : Graph V K R).run wt h) := by
  have := (inv_call (inv_run (wt := wt) h hk) c hc).1 e
  refine ⟨this, fun hr => ?_⟩
  rw [run_snoc, this.2 hr]

/-- **C110.** Weights are positive at all times. -/
theorem weights_positive (wt : K) (h : List (Call V K R)) (hk : ∀ c ∈ h, c.Kwargs) {u v : V} {f : K → Option R} {x : R}
    (hf : ((Graph.new : Graph V K R).run wt h).getEdge u v = .ok f) (hx : f wt = some x) : 0 < x := by
  have a := (graph_history wt h hk).edgeAttrs u v
  by_cases hm : Added h u v
  · obtain ⟨f', h1, h2⟩ := a.1 hm
    rw [hf] at h1
    cases h1
    obtain ⟨-, as, -, -, -, hp, hm, -⟩ := (h2 wt x).1 hx
    exact hp x hm
  · rw [a.2 hm] at hf
    cases hf

end

/-- **C110.** A weighting function and its inverse are accepted both or neither. -/
theorem weighting_iff {α : Type} (f g : Option (α → α)) :
    ((∃ p, defaultWeighting f g = .ok p) ↔ (f = none ↔ g = none)) ∧
    ∀ p, defaultWeighting f g = .ok p → p = ((f.getD fun x => x), (g.getD fun x => x)) := by
  cases f <;> cases g <;> simp [defaultWeighting]

/-! ### Cases -/

section
open Call

/-- a weight that is refused, one that is overwritten, an attribute that stays, and a call before its edge was there -/
def demo : List (Call ℕ Bool ℤ) :=
  [setEdge 1 2 [(true, 5)], addEdge 1 2, setEdge 1 2 [(true, 3), (false, 7)], setEdge 1 2 [(true, 0), (false, 9)],
   addEdge 1 2, setEdge 1 2 [(true, 4)], setNode 2 [(false, -1)], setNode 3 [(false, 1)]]

theorem demo_kwargs : ∀ c ∈ demo, c.Kwargs := by simp [demo, Kwargs]

example : Answers true demo ((Graph.new : Graph ℕ Bool ℤ).run true demo) := graph_history true demo demo_kwargs
/-- the weight is 4 and the other attribute 7 -/
example : LastEdge true demo 1 2 true 4 ∧ LastEdge true demo 1 2 false 7 := by
  refine ⟨⟨demo.take 5, [(true, 4)], [setNode 2 [(false, -1)], setNode 3 [(false, 1)]], rfl, ?_, ?_, ?_, ?_⟩,
    ⟨demo.take 2, [(true, 3), (false, 7)], [setEdge 1 2 [(true, 0), (false, 9)], addEdge 1 2, setEdge 1 2 [(true, 4)],
      setNode 2 [(false, -1)], setNode 3 [(false, 1)]], rfl, ?_, ?_, ?_, ?_⟩⟩
  all_goals simp [demo, Added, Positive]
example : Raises true demo (setNode 3 [(false, 1)]) .key ∧ Raises true demo (setEdge 3 3 [(true, 0)]) .assertion := by
  simp [Raises, Mentioned, Added, demo, Positive]

end

end Verif.Fwork.GraphHist
