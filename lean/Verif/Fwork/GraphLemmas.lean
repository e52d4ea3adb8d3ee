/-
Correctness of the path search of graph.py for any values of paths.
-/
import Verif.Fwork.Graph
import Mathlib.Tactic.Linarith

namespace Verif.Fwork

/-- The parts of a graph agree: edges, successors, predecessors and attributes describe the same relation
between nodes, and every edge has a positive weight. -/
structure Graph.Ok {V R : Type} [Zero R] [LT R] (G : Graph V R) : Prop where
  edge_iff : ∀ u v, (u, v) ∈ G.edges ↔ ∃ w, G.attrs (u, v) = some (some w) ∧ 0 < w
  attr_none : ∀ u v, (u, v) ∉ G.edges → G.attrs (u, v) = none
  edge_nodes : ∀ u v, (u, v) ∈ G.edges → u ∈ G.nodes ∧ v ∈ G.nodes
  pred_ok : ∀ v, v ∈ G.nodes → ∃ s, G.pred v = some s ∧ ∀ u, u ∈ s ↔ (u, v) ∈ G.edges
  succ_ok : ∀ u, u ∈ G.nodes → ∃ s, G.succ u = some s ∧ ∀ v, v ∈ s ↔ (u, v) ∈ G.edges
  no_pred : ∀ v, v ∉ G.nodes → G.pred v = none ∧ G.succ v = none

/-- an iteration of a set yields each of its elements once -/
def IterOk {V : Type} (iter : Finset V → List V) : Prop :=
  ∀ s, (iter s).Nodup ∧ ∀ x, x ∈ iter s ↔ x ∈ s

section
variable {V R D : Type} [DecidableEq V] [LinearOrder D] [Zero R] [LinearOrder R]

theorem forLoop_relax (G : Graph V R) (f : R → R) (ext : D → R → D) (node : V) (l : List V) :
    ∀ (s : Search V D), node ∉ s.unrelaxed → l.Nodup →
    (∀ p ∈ l, ∃ a, G.attrs (p, node) = some (some a) ∧ 0 ≤ f a) →
    ∃ s', forLoop (relaxOne G f ext node) l s = .ok s' ∧ s'.unrelaxed = s.unrelaxed ∧
      ∀ v, (v ∉ l ∨ v ∉ s.unrelaxed → s'.key v = s.key v ∧ s'.next v = s.next v) ∧
        (∀ a, v ∈ l → v ∈ s.unrelaxed → G.attrs (v, node) = some (some a) →
          (ext (s.key node) (f a) < s.key v ∧ s'.key v = ext (s.key node) (f a) ∧ s'.next v = some node) ∨
          (s.key v ≤ ext (s.key node) (f a) ∧ s'.key v = s.key v ∧ s'.next v = s.next v)) := by
  induction l with
  | nil =>
    intro s hn _ _
    exact ⟨s, rfl, rfl, fun v => ⟨fun _ => ⟨rfl, rfl⟩, fun a h => by cases h⟩⟩
  | cons p l ih =>
    intro s hn hnd hattr
    obtain ⟨hp, hnd⟩ := List.nodup_cons.1 hnd
    obtain ⟨a, ha, hfa⟩ := hattr p (List.mem_cons_self ..)
    have hattr' : ∀ q ∈ l, ∃ a, G.attrs (q, node) = some (some a) ∧ 0 ≤ f a :=
      fun q hq => hattr q (List.mem_cons_of_mem _ hq)
    -- the first round
    have first : ∃ s₁, relaxOne G f ext node s p = .ok s₁ ∧ s₁.unrelaxed = s.unrelaxed ∧
        (∀ v, v ≠ p → s₁.key v = s.key v ∧ s₁.next v = s.next v) ∧
        (p ∉ s.unrelaxed → s₁.key p = s.key p ∧ s₁.next p = s.next p) ∧
        (p ∈ s.unrelaxed →
          (ext (s.key node) (f a) < s.key p ∧ s₁.key p = ext (s.key node) (f a) ∧ s₁.next p = some node) ∨
          (s.key p ≤ ext (s.key node) (f a) ∧ s₁.key p = s.key p ∧ s₁.next p = s.next p)) := by
      unfold relaxOne
      by_cases hpU : p ∈ s.unrelaxed
      · rw [if_pos hpU, ha]
        simp only
        rw [if_pos hfa]
        by_cases hlt : ext (s.key node) (f a) < s.key p
        · rw [if_pos hlt]
          refine ⟨_, rfl, rfl, fun v hv => ⟨Function.update_of_ne hv _ _, Function.update_of_ne hv _ _⟩,
            fun h => absurd hpU h, fun _ => Or.inl ⟨hlt, Function.update_self .., Function.update_self ..⟩⟩
        · rw [if_neg hlt]
          exact ⟨s, rfl, rfl, fun v _ => ⟨rfl, rfl⟩, fun h => absurd hpU h,
            fun _ => Or.inr ⟨not_lt.1 hlt, rfl, rfl⟩⟩
      · rw [if_neg hpU]
        exact ⟨s, rfl, rfl, fun v _ => ⟨rfl, rfl⟩, fun _ => ⟨rfl, rfl⟩, fun h => absurd h hpU⟩
    obtain ⟨s₁, e₁, hU, hne, hout, hin⟩ := first
    obtain ⟨s', e', hU', hs'⟩ := ih s₁ (by rw [hU]; exact hn) hnd hattr'
    have hnode : s₁.key node = s.key node := by
      by_cases h : node = p
      · rw [h]; exact (hout (h ▸ hn)).1
      · exact (hne node h).1
    refine ⟨s', ?_, hU'.trans hU, fun v => ?_⟩
    · rw [forLoop, e₁]; exact e'
    · obtain ⟨h1, h2⟩ := hs' v
      rw [hU, hnode] at h2
      rw [hU] at h1
      by_cases hv : v = p
      · subst hv
        obtain ⟨k1, k2⟩ := h1 (Or.inl hp)
        refine ⟨fun h => ?_, fun a' _ hvU ha' => ?_⟩
        · rcases h with h | h
          · exact absurd (List.mem_cons_self ..) h
          · rw [k1, k2]; exact hout h
        · rw [ha] at ha'
          cases ha'
          rw [k1, k2]; exact hin hvU
      · obtain ⟨k1, k2⟩ := hne v hv
        rw [k1, k2] at h1 h2
        refine ⟨fun h => h1 ?_, fun a' hvl hvU ha' => h2 a' ?_ hvU ha'⟩
        · rcases h with h | h
          · exact Or.inl fun h' => h (List.mem_cons_of_mem _ h')
          · exact Or.inr h
        · rcases List.mem_cons.1 hvl with h | h
          · exact absurd h hv
          · exact h

/-- invariant of the search -/
structure SInv (G : Graph V R) (f : R → R) (ext : D → R → D) (best worst : D) (t : V) (s : Search V D) :
    Prop where
  sub : s.unrelaxed ⊆ G.nodes
  tkey : s.key t = best
  tree : ∃ rank : V → ℕ, (∀ v ∈ G.nodes, v ∉ s.unrelaxed → rank v + s.unrelaxed.card < G.nodes.card) ∧
    ∀ v ∈ G.nodes, v ≠ t → (s.next v = none ∧ s.key v = worst) ∨
      ∃ u a, s.next v = some u ∧ u ∈ G.nodes ∧ u ∉ s.unrelaxed ∧ G.attrs (v, u) = some (some a) ∧
        s.key v = ext (s.key u) (f a) ∧ s.key v < worst ∧ (v ∉ s.unrelaxed → rank u < rank v)
  relaxed : ∀ u ∈ G.nodes, u ∉ s.unrelaxed → ∀ v a, G.attrs (v, u) = some (some a) →
    s.key v ≤ ext (s.key u) (f a)
  sep : ∀ u ∈ G.nodes, u ∉ s.unrelaxed → ∀ v ∈ s.unrelaxed, s.key u ≤ s.key v
  first : t ∈ s.unrelaxed → (∀ v ∈ G.nodes, v ∈ s.unrelaxed) ∧ ∀ v, v ≠ t → s.key v = worst

variable {G : Graph V R} {f : R → R} {ext : D → R → D} {iter : Finset V → List V} {best worst : D} {t : V}

omit [Zero R] [LinearOrder R] in
theorem sinv_init : SInv G f ext best worst t
    ⟨fun v => if v = t then best else worst, fun _ => none, G.nodes⟩ where
  sub := Finset.Subset.refl _
  tkey := if_pos rfl
  tree := ⟨fun _ => 0, fun _ hv h => absurd hv h, fun _ _ hvt => Or.inl ⟨rfl, if_neg hvt⟩⟩
  relaxed := fun _ hu h => absurd hu h
  sep := fun _ hu h => absurd hu h
  first := fun _ => ⟨fun _ h => h, fun _ hvt => if_neg hvt⟩

theorem sinv_step (hG : G.Ok) (hiter : IterOk iter) (hbw : best < worst)
    (hinfl : ∀ d w, 0 ≤ w → d ≤ ext d w)
    (hf : ∀ u v a, G.attrs (u, v) = some (some a) → 0 ≤ f a) {s : Search V D}
    (hs : SInv G f ext best worst t s) (hne : s.unrelaxed ≠ ∅) :
    ∃ s', searchStep G f ext iter s = .ok s' ∧ SInv G f ext best worst t s' ∧
      s'.unrelaxed.card < s.unrelaxed.card := by
  unfold searchStep
  cases hm : (iter s.unrelaxed).argmin s.key with
  | none =>
    rw [List.argmin_eq_none] at hm
    exfalso
    apply hne
    apply Finset.eq_empty_of_forall_notMem
    intro x hx
    have := ((hiter s.unrelaxed).2 x).2 hx
    rw [hm] at this
    cases this
  | some node =>
    have hnU : node ∈ s.unrelaxed := ((hiter _).2 _).1 (List.argmin_mem hm)
    have hmin : ∀ v ∈ s.unrelaxed, s.key node ≤ s.key v := fun v hv =>
      not_lt.1 (List.not_lt_of_mem_argmin (((hiter _).2 _).2 hv) hm)
    have hnN : node ∈ G.nodes := hs.sub hnU
    obtain ⟨ps, hps, hpsm⟩ := hG.pred_ok node hnN
    simp only [hps]
    have hattr : ∀ p ∈ iter ps, ∃ a, G.attrs (p, node) = some (some a) ∧ 0 ≤ f a := by
      intro p hp
      obtain ⟨a, ha, -⟩ := (hG.edge_iff p node).1 ((hpsm p).1 (((hiter ps).2 p).1 hp))
      exact ⟨a, ha, hf _ _ _ ha⟩
    have hmem : ∀ v a, G.attrs (v, node) = some (some a) → v ∈ iter ps := by
      intro v a ha
      apply ((hiter ps).2 v).2
      apply (hpsm v).2
      by_contra hc
      rw [hG.attr_none v node hc] at ha
      cases ha
    obtain ⟨s', e, hU, hs'⟩ := forLoop_relax G f ext node (iter ps)
      { s with unrelaxed := s.unrelaxed.erase node } (Finset.notMem_erase _ _) (hiter ps).1 hattr
    simp only at hU hs'
    have hcard : s'.unrelaxed.card < s.unrelaxed.card := by
      rw [hU]; exact Finset.card_erase_lt_of_mem hnU
    have hcard' : s'.unrelaxed.card + 1 = s.unrelaxed.card := by
      rw [hU]; exact Finset.card_erase_add_one hnU
    have hsub' : ∀ v, v ∈ s'.unrelaxed ↔ v ∈ s.unrelaxed ∧ v ≠ node := by
      intro v; rw [hU, Finset.mem_erase]; exact and_comm
    -- nodes that are done do not change
    have hdone : ∀ v, v ∉ s'.unrelaxed → s'.key v = s.key v ∧ s'.next v = s.next v := by
      intro v hv
      exact (hs' v).1 (Or.inr (by rw [← hU]; exact hv))
    have hkn : s'.key node = s.key node := (hdone node (by rw [hU]; exact Finset.notMem_erase _ _)).1
    -- the target is taken first
    have ht : t ∈ s.unrelaxed → node = t := by
      intro ht
      by_contra hc
      have h1 := hmin t ht
      rw [hs.tkey, (hs.first ht).2 node hc] at h1
      exact absurd hbw (not_lt.2 h1)
    have htU : t ∉ s'.unrelaxed := by
      intro h
      obtain ⟨h1, h2⟩ := (hsub' t).1 h
      exact h2 (ht h1).symm
    -- all cases for the change of a node
    have hcase : ∀ v, (s'.key v = s.key v ∧ s'.next v = s.next v ∧
          ∀ a, v ∈ s'.unrelaxed → G.attrs (v, node) = some (some a) → s.key v ≤ ext (s.key node) (f a)) ∨
        ∃ a, v ∈ s'.unrelaxed ∧ G.attrs (v, node) = some (some a) ∧ ext (s.key node) (f a) < s.key v ∧
          s'.key v = ext (s.key node) (f a) ∧ s'.next v = some node := by
      intro v
      by_cases hv : v ∈ s'.unrelaxed
      · by_cases hva : ∃ a, G.attrs (v, node) = some (some a)
        · obtain ⟨a, ha⟩ := hva
          rcases (hs' v).2 a (hmem v a ha) (by rw [← hU]; exact hv) ha with ⟨h1, h2, h3⟩ | ⟨h1, h2, h3⟩
          · exact Or.inr ⟨a, hv, ha, h1, h2, h3⟩
          · refine Or.inl ⟨h2, h3, fun a' _ ha' => ?_⟩
            rw [ha] at ha'
            cases ha'
            exact h1
        · refine Or.inl ?_
          have hvp : v ∉ iter ps := fun h => hva (let ⟨a, ha, _⟩ := hattr v h; ⟨a, ha⟩)
          obtain ⟨h1, h2⟩ := (hs' v).1 (Or.inl hvp)
          exact ⟨h1, h2, fun a _ ha => absurd ⟨a, ha⟩ hva⟩
      · obtain ⟨h1, h2⟩ := hdone v hv
        exact Or.inl ⟨h1, h2, fun a h => absurd h hv⟩
    have hle : ∀ v, s'.key v ≤ s.key v := by
      intro v
      rcases hcase v with ⟨h, -⟩ | ⟨a, -, -, h1, h2, -⟩
      · exact h.le
      · rw [h2]; exact h1.le
    refine ⟨s', e, ?_, hcard⟩
    constructor
    · rw [hU]; exact (Finset.erase_subset _ _).trans hs.sub
    · rw [(hdone t htU).1]; exact hs.tkey
    · obtain ⟨rank, hr1, hr2⟩ := hs.tree
      refine ⟨Function.update rank node (G.nodes.card - s.unrelaxed.card), fun v hv hvU => ?_, fun v hv hvt => ?_⟩
      · have hc := Finset.card_le_card hs.sub
        by_cases hvn : v = node
        · rw [hvn, Function.update_self]; omega
        · rw [Function.update_of_ne hvn]
          have := hr1 v hv (fun h => hvU ((hsub' v).2 ⟨h, hvn⟩))
          omega
      · rcases hcase v with ⟨h1, h2, -⟩ | ⟨a, h0, ha, h1, h2, h3⟩
        · rw [h1, h2]
          rcases hr2 v hv hvt with h | ⟨u, a, k1, k2, k3, k4, k5, k6, k7⟩
          · exact Or.inl h
          · have hu' : u ∉ s'.unrelaxed := fun h => k3 ((hsub' u).1 h).1
            have hun : u ≠ node := fun h => k3 (h ▸ hnU)
            refine Or.inr ⟨u, a, k1, k2, hu', k4, by rw [(hdone u hu').1]; exact k5, k6, fun hvU => ?_⟩
            rw [Function.update_of_ne hun]
            by_cases hvn : v = node
            · rw [hvn, Function.update_self]
              have := hr1 u k2 k3
              have := Finset.card_le_card hs.sub
              omega
            · rw [Function.update_of_ne hvn]
              exact k7 fun h => hvU ((hsub' v).2 ⟨h, hvn⟩)
        · refine Or.inr ⟨node, a, h3, hnN, by rw [hU]; exact Finset.notMem_erase _ _, ha, by rw [hkn]; exact h2,
            ?_, fun h => absurd h0 h⟩
          rw [h2]
          rcases hr2 v hv hvt with ⟨-, h⟩ | ⟨_, _, _, _, _, _, _, h, _⟩
          · rw [← h]; exact h1
          · exact h1.trans h
    · intro u hu huU v a ha
      by_cases hun : u = node
      · subst hun
        rw [hkn]
        by_cases hvU : v ∈ s'.unrelaxed
        · rcases hcase v with ⟨h1, -, h2⟩ | ⟨a', -, ha', -, h2, -⟩
          · rw [h1]; exact h2 a hvU ha
          · rw [ha] at ha'
            cases ha'
            rw [h2]
        · -- the predecessor is done
          have hfa := hf _ _ _ ha
          refine le_trans ?_ (hinfl (s.key u) (f a) hfa)
          rw [(hdone v hvU).1]
          by_cases hvn : v = u
          · rw [hvn]
          · refine hs.sep v ?_ (fun h => hvU ((hsub' v).2 ⟨h, hvn⟩)) u hnU
            by_contra hc
            have : (v, u) ∉ G.edges := fun h => hc (hG.edge_nodes v u h).1
            rw [hG.attr_none v u this] at ha
            cases ha
      · rw [(hdone u huU).1]
        exact (hle v).trans (hs.relaxed u hu (fun h => huU ((hsub' u).2 ⟨h, hun⟩)) v a ha)
    · intro u hu huU v hv
      rw [(hdone u huU).1]
      have hun : s.key u ≤ s.key node := by
        by_cases hun : u = node
        · rw [hun]
        · exact hs.sep u hu (fun h => huU ((hsub' u).2 ⟨h, hun⟩)) node hnU
      rcases hcase v with ⟨h1, -⟩ | ⟨a, -, ha, -, h2, -⟩
      · rw [h1]; exact hun.trans (hmin v ((hsub' v).1 hv).1)
      · rw [h2]; exact hun.trans (hinfl _ _ (hf _ _ _ ha))
    · exact fun h => absurd h htU

theorem searchLoop_ok (hG : G.Ok) (hiter : IterOk iter) (hbw : best < worst)
    (hinfl : ∀ d w, 0 ≤ w → d ≤ ext d w)
    (hf : ∀ u v a, G.attrs (u, v) = some (some a) → 0 ≤ f a) (n : ℕ) :
    ∀ s, SInv G f ext best worst t s → s.unrelaxed.card ≤ n →
    ∃ s', searchLoop G f ext iter n s = .ok s' ∧ SInv G f ext best worst t s' ∧ s'.unrelaxed = ∅ := by
  induction n with
  | zero =>
    intro s hs hc
    have : s.unrelaxed = ∅ := Finset.card_eq_zero.1 (Nat.le_zero.1 hc)
    refine ⟨s, ?_, hs, this⟩
    unfold searchLoop
    rw [if_pos this]
  | succ n ih =>
    intro s hs hc
    by_cases h : s.unrelaxed = ∅
    · refine ⟨s, ?_, hs, h⟩
      unfold searchLoop
      rw [if_pos h]
    · obtain ⟨s₁, e₁, hs₁, hc₁⟩ := sinv_step hG hiter hbw hinfl hf hs h
      obtain ⟨s', e', hs'⟩ := ih s₁ hs₁ (by omega)
      refine ⟨s', ?_, hs'⟩
      unfold searchLoop
      rw [if_neg h]
      simp only [e₁]
      exact e'

/-- value of a path that ends in the target, extended edge by edge -/
def pathVal (G : Graph V R) (f : R → R) (ext : D → R → D) (best : D) : List V → D
  | [] => best
  | [_] => best
  | u :: v :: r =>
    match G.attrs (u, v) with
    | some (some a) => ext (pathVal G f ext best (v :: r)) (f a)
    | _ => best

/-- a path of the graph: consecutive nodes are joined by edges -/
def IsPath (G : Graph V R) : List V → Prop
  | [] => False
  | [_] => True
  | u :: v :: r => (u, v) ∈ G.edges ∧ IsPath G (v :: r)

/-- a path from one node to another -/
def PathFromTo (G : Graph V R) (u v : V) (p : List V) : Prop :=
  IsPath G p ∧ p.head? = some u ∧ p.getLast? = some v

omit [DecidableEq V] in
theorem key_le_path (hG : G.Ok) (hmono : ∀ d d' w, d ≤ d' → ext d w ≤ ext d' w) {s : Search V D}
    (hs : SInv G f ext best worst t s) (hU : s.unrelaxed = ∅) :
    ∀ (p : List V) (v : V), PathFromTo G v t p → s.key v ≤ pathVal G f ext best p := by
  intro p
  induction p with
  | nil => intro v h; exact h.1.elim
  | cons x r ih =>
    intro v h
    obtain ⟨h1, h2, h3⟩ := h
    simp only [List.head?_cons, Option.some.injEq] at h2
    subst h2
    cases r with
    | nil =>
      simp only [List.getLast?_singleton, Option.some.injEq] at h3
      subst h3
      exact hs.tkey.le
    | cons y r =>
      obtain ⟨he, hr⟩ := h1
      obtain ⟨a, ha, -⟩ := (hG.edge_iff _ _).1 he
      have h4 := ih y ⟨hr, rfl, by rw [← h3]; rw [List.getLast?_cons_cons]⟩
      rw [pathVal]
      simp only [ha]
      refine le_trans ?_ (hmono _ _ _ h4)
      exact hs.relaxed y (hG.edge_nodes _ _ he).2 (by rw [hU]; exact Finset.notMem_empty _) x a ha

theorem chase_ok {s : Search V D} (hs : SInv G f ext best worst t s) (hU : s.unrelaxed = ∅) (hG : G.Ok)
    (hbw : best < worst) (hinfl : ∀ d w, 0 ≤ w → d ≤ ext d w)
    (hf : ∀ u v a, G.attrs (u, v) = some (some a) → 0 ≤ f a) :
    ∀ v ∈ G.nodes,
      (s.key v = worst ∧ chase s.next t G.nodes.card v = .ok [some v, none]) ∨
      (s.key v < worst ∧ ∃ p, chase s.next t G.nodes.card v = .ok (p.map some) ∧ PathFromTo G v t p ∧
        pathVal G f ext best p = s.key v) := by
  obtain ⟨rank, hr1, hr2⟩ := hs.tree
  have hno : ∀ v, v ∉ s.unrelaxed := fun v => by rw [hU]; exact Finset.notMem_empty _
  have main : ∀ n, ∀ v ∈ G.nodes, rank v < n →
      (s.key v = worst ∧ v ≠ t ∧ s.next v = none) ∨
      (s.key v < worst ∧ ∀ m, n ≤ m → ∃ p, chase s.next t m v = .ok (p.map some) ∧ PathFromTo G v t p ∧
        pathVal G f ext best p = s.key v) := by
    intro n
    induction n with
    | zero => intro v _ h; omega
    | succ n ih =>
      intro v hv hrn
      by_cases hvt : v = t
      · subst hvt
        refine Or.inr ⟨by rw [hs.tkey]; exact hbw, fun m _ => ⟨[v], ?_, ⟨trivial, rfl, rfl⟩, ?_⟩⟩
        · unfold chase; rw [if_pos rfl]; rfl
        · exact hs.tkey.symm
      · rcases hr2 v hv hvt with ⟨h1, h2⟩ | ⟨u, a, k1, k2, -, k4, k5, k6, k7⟩
        · exact Or.inl ⟨h2, hvt, h1⟩
        · have hru := k7 (hno v)
          have he : (v, u) ∈ G.edges := by
            by_contra hc
            rw [hG.attr_none v u hc] at k4
            cases k4
          rcases ih u k2 (by omega) with ⟨h1, -, -⟩ | ⟨-, h2⟩
          · -- a successor of a node with a finite value has a finite value
            exfalso
            rw [k5, h1] at k6
            exact absurd k6 (not_lt.2 (hinfl _ _ (hf _ _ _ k4)))
          · refine Or.inr ⟨k6, fun m hm => ?_⟩
            obtain ⟨m, rfl⟩ : ∃ m', m = m' + 1 := ⟨m - 1, by omega⟩
            obtain ⟨p, e, ⟨p1, p2, p3⟩, pv⟩ := h2 m (by omega)
            refine ⟨v :: p, ?_, ?_, ?_⟩
            · unfold chase
              rw [if_neg hvt, k1]
              simp only [e, List.map_cons]
            · cases p with
              | nil => exact p1.elim
              | cons y r =>
                simp only [List.head?_cons, Option.some.injEq] at p2
                subst p2
                exact ⟨⟨he, p1⟩, rfl, by rw [List.getLast?_cons_cons]; exact p3⟩
            · cases p with
              | nil => exact p1.elim
              | cons y r =>
                simp only [List.head?_cons, Option.some.injEq] at p2
                subst p2
                rw [pathVal]
                simp only [k4]
                rw [pv, k5]
  intro v hv
  have hr := hr1 v hv (hno v)
  rw [hU] at hr
  rcases main G.nodes.card v hv (by simpa using hr) with ⟨h1, h2, h3⟩ | ⟨h1, h2⟩
  · refine Or.inl ⟨h1, ?_⟩
    unfold chase
    rw [if_neg h2, h3]
  · exact Or.inr ⟨h1, h2 _ le_rfl⟩

end

end Verif.Fwork
