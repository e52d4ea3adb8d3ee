/-
C36: `get_max_flow` returns the maximum flow, for any capacities.
-/
import Verif.Fwork.FlowLemmas2
import Verif.Fwork.GraphProps
import Mathlib.Algebra.Order.Group.MinMax

namespace Verif.Fwork
open Finset

/-! ### specification -/

section
variable {V R : Type} [AddCommGroup R] [LinearOrder R]

/-- `f` is a flow from `s` to `t` in the network with nodes `N` and capacities `cap`, of the given value. -/
structure IsFlow (N : Finset V) (cap : V → V → R) (s t : V) (f : V → V → R) (value : R) : Prop where
  nonneg : ∀ a ∈ N, ∀ b ∈ N, 0 ≤ f a b
  le_cap : ∀ a ∈ N, ∀ b ∈ N, f a b ≤ cap a b
  conserved : ∀ a ∈ N, a ≠ s → a ≠ t → ∑ b ∈ N, f a b = ∑ b ∈ N, f b a
  value_eq : value = ∑ b ∈ N, f s b - ∑ b ∈ N, f b s

/-- capacity of the edges that leave a set of nodes -/
def cutCap [DecidableEq V] (N : Finset V) (cap : V → V → R) (S : Finset V) : R :=
  ∑ a ∈ S, ∑ b ∈ N \ S, cap a b

/-- capacity of the edges of a graph, zero where there is no edge -/
def Graph.cap [DecidableEq V] (G : Graph V R) (f : R → R) (a b : V) : R :=
  if (a, b) ∈ G.edges then f (G.weight a b) else 0

end

section
variable {V R : Type} [DecidableEq V] [AddCommGroup R] [LinearOrder R] [IsOrderedAddMonoid R]

omit [DecidableEq V] in
theorem sum_anti_zero (S : Finset V) (g : V → V → R) (hg : ∀ a b, g a b = - g b a) :
    ∑ a ∈ S, ∑ b ∈ S, g a b = 0 := by
  have h : ∑ a ∈ S, ∑ b ∈ S, g a b = - ∑ a ∈ S, ∑ b ∈ S, g a b := by
    conv_lhs => rw [sum_comm]
    rw [← sum_neg_distrib]
    refine sum_congr rfl fun a _ => ?_
    rw [← sum_neg_distrib]
    exact sum_congr rfl fun b _ => hg b a
  exact self_eq_neg.1 h

theorem sum_anti (N S : Finset V) (hS : S ⊆ N) (g : V → V → R) (hg : ∀ a b, g a b = - g b a) :
    ∑ a ∈ S, ∑ b ∈ N, g a b = ∑ a ∈ S, ∑ b ∈ N \ S, g a b := by
  have : ∀ a ∈ S, ∑ b ∈ N, g a b = ∑ b ∈ N \ S, g a b + ∑ b ∈ S, g a b := fun a _ => (sum_sdiff hS).symm
  rw [sum_congr rfl this, sum_add_distrib, sum_anti_zero S g hg, add_zero]

/-- **weak duality** -/
theorem flow_le_cut {N S : Finset V} (hS : S ⊆ N) {cap : V → V → R} {s t : V} {f : V → V → R} {x : R}
    (hf : IsFlow N cap s t f x) (hs : s ∈ S) (ht : t ∉ S) : x ≤ cutCap N cap S := by
  have h1 : x = ∑ a ∈ S, ∑ b ∈ N, (f a b - f b a) := by
    rw [sum_eq_single_of_mem s hs]
    · rw [hf.value_eq, sum_sub_distrib]
    · intro a ha has
      rw [sum_sub_distrib, hf.conserved a (hS ha) has (fun h => ht (h ▸ ha)), sub_self]
  rw [h1, sum_anti N S hS _ (fun a b => by abel)]
  unfold cutCap
  refine sum_le_sum fun a ha => sum_le_sum fun b hb => ?_
  have hbN := (mem_sdiff.1 hb).1
  exact (sub_le_self _ (hf.nonneg b hbN a (hS ha))).trans (hf.le_cap a (hS ha) b hbN)

omit [DecidableEq V] in
theorem flow_self {N : Finset V} {cap : V → V → R} {s : V} (hs : s ∈ N) {f : V → V → R} {x : R}
    (hf : IsFlow N cap s s f x) : x = 0 := by
  have h1 : x = ∑ a ∈ N, ∑ b ∈ N, (f a b - f b a) := by
    rw [sum_eq_single_of_mem s hs]
    · rw [hf.value_eq, sum_sub_distrib]
    · intro a ha has
      rw [sum_sub_distrib, hf.conserved a ha has has, sub_self]
  rw [h1]
  exact sum_anti_zero N _ (fun a b => by abel)

theorem flowLoop_ok {N : Finset V} {cols : List V} (hnd : cols.Nodup) (hN : ∀ x, x ∈ cols ↔ x ∈ N)
    {c₀ : V → V → R} {s t : V} (hs : s ∈ N) (n : ℕ) : ∀ (c : V → V → R) (total : R),
    FInv N c₀ s t c total → flowMeasure N c cols s ≤ n →
    ∃ x c', flowLoop s t cols n c total = .ok x ∧ FInv N c₀ s t c' x ∧
      ∃ S, S ⊆ N ∧ s ∈ S ∧ (t = s ∨ t ∉ S) ∧ ∀ a ∈ S, ∀ b ∈ N, b ∉ S → c' a b = 0 := by
  induction n with
  | zero =>
    intro c total hinv hm
    obtain ⟨b, e, hb⟩ := bfs_spec c cols s t ((hN s).2 hs)
    by_cases hf : b.found = true
    · obtain ⟨x, c', -, -, -, h⟩ := augmentation hnd hN hinv hb hf
      omega
    · obtain ⟨h, -⟩ | ⟨-, h2, h3⟩ := hb.out
      · exact absurd h hf
      · refine ⟨total, c, ?_, hinv, b.visited, fun v hv => (hN v).1 (hb.pred v hv).1, hb.svis, h2, ?_⟩
        · unfold flowLoop
          rw [e]
          simp only
          rw [if_neg hf]
        · intro a ha v hv hvS
          refine le_antisymm (not_lt.1 fun h => hvS (h3 a ha v ((hN v).2 hv) h)) (hinv.nonneg a v)
  | succ n ih =>
    intro c total hinv hm
    obtain ⟨b, e, hb⟩ := bfs_spec c cols s t ((hN s).2 hs)
    by_cases hf : b.found = true
    · obtain ⟨x, c', h1, h2, h3, h4⟩ := augmentation hnd hN hinv hb hf
      obtain ⟨y, c'', e', h⟩ := ih c' (total + x) h3 (by omega)
      refine ⟨y, c'', ?_, h⟩
      unfold flowLoop
      rw [e]
      simp only
      rw [if_pos hf, h1]
      simp only
      rw [h2]
      exact e'
    · obtain ⟨h, -⟩ | ⟨-, h2, h3⟩ := hb.out
      · exact absurd h hf
      · refine ⟨total, c, ?_, hinv, b.visited, fun v hv => (hN v).1 (hb.pred v hv).1, hb.svis, h2, ?_⟩
        · unfold flowLoop
          rw [e]
          simp only
          rw [if_neg hf]
        · intro a ha v hv hvS
          refine le_antisymm (not_lt.1 fun h => hvS (h3 a ha v ((hN v).2 hv) h)) (hinv.nonneg a v)

/-! ### the matrix of capacities -/

omit [IsOrderedAddMonoid R] in
theorem forLoop_cap (G : Graph V R) (hG : G.Ok) (f : R → R)
    (hf : ∀ u v, (u, v) ∈ G.edges → 0 ≤ f (G.weight u v)) (l : List (V × V)) : ∀ c : V → V → R,
    ∃ c', forLoop (capStep G f) l c = .ok c' ∧ ∀ a b,
      ((a, b) ∈ l → (a, b) ∈ G.edges → c' a b = f (G.weight a b)) ∧
      ((a, b) ∉ l ∨ (a, b) ∉ G.edges → c' a b = c a b) := by
  induction l with
  | nil =>
    intro c
    exact ⟨c, rfl, fun a b => ⟨fun h => (by cases h), fun _ => rfl⟩⟩
  | cons p l ih =>
    intro c
    obtain ⟨x, y⟩ := p
    by_cases hE : (x, y) ∈ G.edges
    · obtain ⟨w, hw, -⟩ := (hG.edge_iff x y).1 hE
      have hwt : G.weight x y = w := by unfold Graph.weight; rw [hw]
      have h0 : 0 ≤ f w := by rw [← hwt]; exact hf x y hE
      obtain ⟨c', e, h⟩ := ih (setCap c x y (f w))
      refine ⟨c', ?_, fun a b => ⟨fun hab hE' => ?_, fun hab => ?_⟩⟩
      · rw [forLoop]
        have : capStep G f c (x, y) = .ok (setCap c x y (f w)) := by
          unfold capStep
          rw [if_pos hE, hw]
          simp only
          rw [if_pos h0]
        rw [this]
        exact e
      · by_cases hl : (a, b) ∈ l
        · exact (h a b).1 hl hE'
        · rw [(h a b).2 (Or.inl hl)]
          rcases List.mem_cons.1 hab with hc | hc
          · cases hc
            unfold setCap
            rw [if_pos ⟨rfl, rfl⟩, hwt]
          · exact absurd hc hl
      · have hne : ¬ (a = x ∧ b = y) := by
          rintro ⟨rfl, rfl⟩
          rcases hab with hab | hab
          · exact hab (List.mem_cons_self ..)
          · exact hab hE
        rw [(h a b).2 (hab.imp (fun h hc => h (List.mem_cons_of_mem _ hc)) id)]
        unfold setCap
        rw [if_neg hne]
    · obtain ⟨c', e, h⟩ := ih c
      refine ⟨c', ?_, fun a b => ⟨fun hab hE' => ?_, fun hab => ?_⟩⟩
      · rw [forLoop]
        have : capStep G f c (x, y) = .ok c := by
          unfold capStep
          rw [if_neg hE]
        rw [this]
        exact e
      · rcases List.mem_cons.1 hab with hc | hc
        · cases hc; exact absurd hE' hE
        · exact (h a b).1 hc hE'
      · exact (h a b).2 (hab.imp (fun h hc => h (List.mem_cons_of_mem _ hc)) id)

omit [IsOrderedAddMonoid R] in
theorem buildCap_ok (G : Graph V R) (hG : G.Ok) (f : R → R) (iter : Finset V → List V) (hiter : IterOk iter)
    (hf : ∀ u v, (u, v) ∈ G.edges → 0 ≤ f (G.weight u v)) : buildCap G f iter = .ok (G.cap f) := by
  obtain ⟨c', e, h⟩ := forLoop_cap G hG f hf
    ((iter G.nodes).flatMap fun u => (iter G.nodes).map fun v => (u, v)) fun _ _ => 0
  unfold buildCap
  rw [e]
  congr 1
  funext a b
  unfold Graph.cap
  by_cases hE : (a, b) ∈ G.edges
  · rw [if_pos hE]
    refine (h a b).1 ?_ hE
    obtain ⟨ha, hb⟩ := hG.edge_nodes a b hE
    exact List.mem_flatMap.2 ⟨a, ((hiter _).2 a).2 ha, List.mem_map.2 ⟨b, ((hiter _).2 b).2 hb, rfl⟩⟩
  · rw [if_neg hE]
    exact (h a b).2 (Or.inr hE)

/-! ### C36 -/

/-- **C36.** For every graph, all non-negative capacities (no integrality is needed) and every order of
iteration of the sets, `get_max_flow` terminates without an error. Its value is the value of a flow, no flow has
a larger value, and it equals the capacity of a cut that separates the source from the target. It is zero if
the source is the target. -/
theorem max_flow {B : Type} (G : Graph V R) (hG : G.Ok) (hd : G.distributed = true) (s t : V)
    (hs : s ∈ G.nodes) (f : R → R) (inverse : R → B) (iter : Finset V → List V) (hiter : IterOk iter)
    (hf : ∀ u v, (u, v) ∈ G.edges → 0 ≤ f (G.weight u v)) :
    ∃ x, getMaxFlow G s t f inverse iter = .ok (inverse x) ∧
      (∃ φ, IsFlow G.nodes (G.cap f) s t φ x) ∧
      (∀ φ y, IsFlow G.nodes (G.cap f) s t φ y → y ≤ x) ∧
      (s ≠ t → ∃ S, S ⊆ G.nodes ∧ s ∈ S ∧ t ∉ S ∧ x = cutCap G.nodes (G.cap f) S) ∧
      (s = t → x = 0) := by
  have hcap : ∀ a b, 0 ≤ G.cap f a b := by
    intro a b
    unfold Graph.cap
    by_cases h : (a, b) ∈ G.edges
    · rw [if_pos h]; exact hf a b h
    · rw [if_neg h]
  have hN : ∀ x, x ∈ iter G.nodes ↔ x ∈ G.nodes := (hiter G.nodes).2
  have hcols : (iter G.nodes).length = G.nodes.card := by
    rw [← List.toFinset_card_of_nodup (hiter G.nodes).1]
    congr 1
    ext y
    rw [List.mem_toFinset, hN]
  have hinit : FInv G.nodes (G.cap f) s t (G.cap f) 0 := by
    have h0 : ∀ a, excess G.nodes (G.cap f) (G.cap f) a = 0 := fun a => by unfold excess; simp
    exact ⟨hcap, fun _ _ => rfl, fun a _ _ _ => h0 a, h0 s⟩
  obtain ⟨x, c, e, hinv, S, hS, hsS, htS, hz⟩ := flowLoop_ok (hiter G.nodes).1 hN hs (flowRounds G.nodes.card) _ _
    hinit (flowMeasure_lt G.nodes _ _ hcols s).le
  -- the net flow
  have hanti : ∀ a b, G.cap f a b - c a b = - (G.cap f b a - c b a) := by
    intro a b
    have := hinv.anti a b
    rw [neg_sub, sub_eq_sub_iff_add_eq_add, this.symm.trans (add_comm _ _)]
  have hflow : IsFlow G.nodes (G.cap f) s t (fun a b => max (G.cap f a b - c a b) 0) x := by
    have hsub : ∀ a, ∑ b ∈ G.nodes, max (G.cap f a b - c a b) 0 - ∑ b ∈ G.nodes, max (G.cap f b a - c b a) 0 =
        excess G.nodes (G.cap f) c a := by
      intro a
      unfold excess
      rw [← sum_sub_distrib]
      refine sum_congr rfl fun b _ => ?_
      rw [hanti b a]
      exact max_zero_sub_max_neg_zero_eq_self _
    constructor
    · intro a _ b _; exact le_max_right _ _
    · intro a _ b _; exact max_le (sub_le_self _ (hinv.nonneg a b)) (hcap a b)
    · intro a ha has hat
      have := hsub a
      rw [hinv.cons a ha has hat] at this
      exact sub_eq_zero.1 this
    · rw [hsub s, hinv.value]
  have hcut : s ≠ t → x = cutCap G.nodes (G.cap f) S := by
    intro hst
    have ht : t ∉ S := htS.resolve_left (Ne.symm hst)
    have h1 : ∑ a ∈ S, excess G.nodes (G.cap f) c a = x := by
      rw [sum_eq_single_of_mem s hsS, hinv.value]
      intro a ha has
      exact hinv.cons a (hS ha) has fun h => ht (h ▸ ha)
    rw [← h1]
    unfold excess cutCap
    rw [sum_anti G.nodes S hS _ hanti]
    refine sum_congr rfl fun a ha => sum_congr rfl fun b hb => ?_
    rw [hz a ha b (mem_sdiff.1 hb).1 (mem_sdiff.1 hb).2, sub_zero]
  refine ⟨x, ?_, ⟨_, hflow⟩, ?_, ?_, ?_⟩
  · unfold getMaxFlow
    rw [if_pos hd, buildCap_ok G hG f iter hiter hf]
    simp only [e]
  · intro φ y hy
    by_cases hst : s = t
    · subst hst
      rw [flow_self hs hy, flow_self hs hflow]
    · rw [hcut hst]
      exact flow_le_cut hS hy hsS (htS.resolve_left (Ne.symm hst))
  · intro hst
    exact ⟨S, hS, hsS, htS.resolve_left (Ne.symm hst), hcut hst⟩
  · intro hst
    subst hst
    exact flow_self hs hflow

/-- **C36.** The value does not depend on the order of iteration. -/
theorem max_flow_deterministic {B : Type} (G : Graph V R) (hG : G.Ok) (hd : G.distributed = true) (s t : V)
    (hs : s ∈ G.nodes) (f : R → R) (inverse : R → B) (iter iter' : Finset V → List V) (hiter : IterOk iter)
    (hiter' : IterOk iter') (hf : ∀ u v, (u, v) ∈ G.edges → 0 ≤ f (G.weight u v)) :
    getMaxFlow G s t f inverse iter = getMaxFlow G s t f inverse iter' := by
  obtain ⟨x, e, ⟨φ, h1⟩, h2, -⟩ := max_flow G hG hd s t hs f inverse iter hiter hf
  obtain ⟨x', e', ⟨φ', h1'⟩, h2', -⟩ := max_flow G hG hd s t hs f inverse iter' hiter' hf
  rw [e, e', le_antisymm (h2' _ _ h1) (h2 _ _ h1')]

omit [IsOrderedAddMonoid R] in
/-- Finding: a source that is not a node of the graph (a species without any edge) raises a KeyError. -/
theorem max_flow_isolated {B : Type} (G : Graph V R) (hG : G.Ok) (hd : G.distributed = true) (s t : V)
    (hs : s ∉ G.nodes) (f : R → R) (inverse : R → B) (iter : Finset V → List V) (hiter : IterOk iter)
    (hf : ∀ u v, (u, v) ∈ G.edges → 0 ≤ f (G.weight u v)) :
    getMaxFlow G s t f inverse iter = .error .key := by
  unfold getMaxFlow
  rw [if_pos hd, buildCap_ok G hG f iter hiter hf]
  simp only
  have hs' : s ∉ iter G.nodes := fun h => hs (((hiter _).2 s).1 h)
  have : ∀ n c (x : R), flowLoop s t (iter G.nodes) n c x = .error .key := by
    intro n c x
    unfold flowLoop
    have : bfsLoop c t (iter G.nodes) ((iter G.nodes).length + 1) ⟨fun _ => none, {s}, [s], false⟩ =
        .error .key := by
      unfold bfsLoop
      simp only [Bool.false_eq_true, if_false]
      rw [if_neg hs']
    rw [this]
  rw [this]

end

/-! ### examples -/

/-- an order of iteration -/
def demoIter (s : Finset ℕ) : List ℕ := [0, 1, 2, 3].filter (· ∈ s)

def demoGraph : Except GraphErr (Graph ℕ ℤ) := Graph.empty.build demoEdges

def onDemo {B : Type} (f : Graph ℕ ℤ → Except GraphErr B) : Except GraphErr B :=
  match demoGraph with
  | .error e => .error e
  | .ok G => f G

/-- two paths carry 2 + 1 -/
example : onDemo (fun G => getMaxFlow G 0 2 id id demoIter) = .ok 3 := by decide +kernel
example : onDemo (fun G => getMaxFlow G 3 0 id id demoIter) = .ok 0 := by decide +kernel
example : onDemo (fun G => getMaxFlow G 7 0 id id demoIter) = .error .key := by decide +kernel

/-- path and value for one source -/
def atNode {A B : Type} (v : ℕ) (r : Except GraphErr ((ℕ → Except GraphErr A) × (ℕ → B))) :
    Except GraphErr (A × B) :=
  match r with
  | .error e => .error e
  | .ok (p, w) =>
    match p v with
    | .error e => .error e
    | .ok p => .ok (p, w v)

/-- the detour is wider than the direct edge -/
example : onDemo (fun G => atNode 0 (findMaxBottleneckPaths G 2 id id demoIter)) =
    .ok ([some 0, some 1, some 2], (2 : ℤ)) := by decide +kernel
example : onDemo (fun G => atNode 3 (findMaxBottleneckPaths G 2 id id demoIter)) =
    .ok ([some 3, none], (0 : ℤ)) := by decide +kernel
/-- but the direct edge is shorter; the target itself gets `nan` -/
example : onDemo (fun G => atNode 0 (findShortestPaths G 2 id id demoIter)) =
    .ok ([some 0, some 2], some ((1 : ℤ) : WithTop ℤ)) := by decide +kernel
example : onDemo (fun G => atNode 2 (findShortestPaths G 2 id id demoIter)) =
    .ok ([some 2], none) := by decide +kernel

end Verif.Fwork
