/-
Augmentation of the flow of `get_max_flow` and termination of its main loop.
-/
import Verif.Fwork.FlowLemmas
import Mathlib.Algebra.BigOperators.Group.Finset.Basic
import Mathlib.Algebra.BigOperators.Group.Finset.Piecewise
import Mathlib.Algebra.Order.BigOperators.Group.Finset
import Mathlib.Data.Finset.Prod
import Mathlib.Tactic.Abel

namespace Verif.Fwork
open Finset

section
variable {V R : Type} [DecidableEq V] [AddCommGroup R] [LinearOrder R]

/-- the edges of the path from `s` to a node, last edge first -/
inductive Trail (pred : V → Option V) (s : V) : V → List (V × V) → Prop
  | nil : Trail pred s s []
  | cons {v u : V} {es : List (V × V)} : v ≠ s → pred v = some u → Trail pred s u es →
      Trail pred s v ((u, v) :: es)

theorem trail_exists {c : V → V → R} {cols : List V} {s : V} {b : Bfs V} (hp : PredOk c cols s b)
    (hs : s ∈ b.visited) (n : ℕ) : ∀ v ∈ b.visited, Within c cols s n v →
    ∃ es, Trail b.pred s v es ∧ Within c cols s es.length v ∧ (∀ k, k < es.length → ¬ Within c cols s k v) ∧
      (s :: es.map Prod.snd).Nodup ∧
      (∀ e ∈ es, e.1 ∈ cols ∧ e.2 ∈ cols ∧ 0 < c e.1 e.2 ∧
        ∃ j, j < es.length ∧ Within c cols s j e.1 ∧ ¬ Within c cols s j e.2 ∧ Within c cols s (j + 1) e.2) := by
  induction n using Nat.strong_induction_on with
  | _ n ih =>
    intro v hv hw
    by_cases hvs : v = s
    · subst hvs
      exact ⟨[], .nil, rfl, fun k hk => absurd hk (Nat.not_lt_zero _), by simp, fun e he => by cases he⟩
    · obtain ⟨hvc, h⟩ := hp v hv
      obtain ⟨u, j, h1, h2, h3, h4, h5⟩ := h hvs
      have hjn : j < n := by
        by_contra hc
        exact h5 (hw.mono (not_lt.1 hc))
      obtain ⟨es, t1, t2, t3, t4, t5⟩ := ih j hjn u h2 h4
      have hlen : es.length = j := by
        rcases Nat.lt_trichotomy es.length j with h | h | h
        · exfalso
          exact h5 (Within.mono h (Or.inr ⟨u, t2, hvc, h3⟩))
        · exact h
        · exact absurd h4 (t3 j h)
      refine ⟨(u, v) :: es, .cons hvs h1 t1, ?_, ?_, ?_, ?_⟩
      · rw [List.length_cons]
        exact Or.inr ⟨u, t2, hvc, h3⟩
      · intro k hk hc
        rw [List.length_cons, hlen] at hk
        exact h5 (hc.mono (by omega))
      · rw [List.map_cons]
        rw [List.nodup_cons] at t4 ⊢
        refine ⟨?_, List.nodup_cons.2 ⟨?_, t4.2⟩⟩
        · rw [List.mem_cons, not_or]; exact ⟨fun h => hvs h.symm, t4.1⟩
        · intro hc
          obtain ⟨e, he, hev⟩ := List.mem_map.1 hc
          obtain ⟨-, -, -, i, i1, -, -, i2⟩ := t5 e he
          rw [hev] at i2
          exact h5 (i2.mono (by omega))
      · intro e he
        rcases List.mem_cons.1 he with he | he
        · subst he
          exact ⟨(hp u h2).1, hvc, h3, j, by rw [List.length_cons, hlen]; omega, h4, h5, Or.inr ⟨u, h4, hvc, h3⟩⟩
        · obtain ⟨a1, a2, a3, i, i1, i2⟩ := t5 e he
          exact ⟨a1, a2, a3, i, by rw [List.length_cons]; omega, i2⟩

theorem visited_within {c : V → V → R} {cols : List V} {s : V} {b : Bfs V} (hp : PredOk c cols s b) :
    ∀ v ∈ b.visited, ∃ n, Within c cols s n v := by
  intro v hv
  by_cases h : v = s
  · exact ⟨0, h⟩
  · obtain ⟨hc, h'⟩ := hp v hv
    obtain ⟨u, j, -, -, h3, h4, -⟩ := h' h
    exact ⟨j + 1, Or.inr ⟨u, h4, hc, h3⟩⟩

omit [AddCommGroup R] in
theorem pathFlow_trail {c : V → V → R} {pred : V → Option V} {s v : V} {es : List (V × V)}
    (h : Trail pred s v es) : ∀ n, es.length ≤ n → ∀ acc, pathFlow c pred s n v acc =
      .ok (es.foldl (fun a e => min a (c e.1 e.2 : WithTop R)) acc) := by
  induction h with
  | nil => intro n _ acc; unfold pathFlow; rw [if_pos rfl]; rfl
  | cons hv hp _ ih =>
    intro n hn acc
    rw [List.length_cons] at hn
    obtain ⟨m, rfl⟩ : ∃ m, n = m + 1 := ⟨n - 1, by omega⟩
    unfold pathFlow
    rw [if_neg hv, hp]
    exact ih m (by omega) _

/-- one round of the update -/
def push (x : R) (c : V → V → R) (e : V × V) : V → V → R :=
  setCap (setCap c e.1 e.2 (c e.1 e.2 - x)) e.2 e.1 (setCap c e.1 e.2 (c e.1 e.2 - x) e.2 e.1 + x)

omit [LinearOrder R] in
theorem augment_trail {pred : V → Option V} {s v : V} {es : List (V × V)} {x : R}
    (h : Trail pred s v es) : ∀ n, es.length ≤ n → ∀ c, augment pred s x n v c = .ok (es.foldl (push x) c) := by
  induction h with
  | nil => intro n _ c; unfold augment; rw [if_pos rfl]; rfl
  | cons hv hp _ ih =>
    intro n hn c
    rw [List.length_cons] at hn
    obtain ⟨m, rfl⟩ : ∃ m, n = m + 1 := ⟨n - 1, by omega⟩
    unfold augment
    rw [if_neg hv, hp]
    exact ih m (by omega) _

omit [LinearOrder R] in
theorem push_apply (x : R) (c : V → V → R) (e : V × V) (he : e.1 ≠ e.2) (a b : V) :
    push x c e a b = c a b - (if (a, b) = e then x else 0) + (if (b, a) = e then x else 0) := by
  obtain ⟨u, v⟩ := e
  simp only at he
  unfold push setCap
  simp only [Prod.mk.injEq]
  by_cases h1 : a = v ∧ b = u
  · obtain ⟨rfl, rfl⟩ := h1
    have h2 : ¬ (a = b ∧ b = a) := fun h => he h.2
    simp [Ne.symm he]
  · rw [if_neg h1]
    have h1' : ¬ (b = u ∧ a = v) := fun h => h1 ⟨h.2, h.1⟩
    rw [if_neg h1', add_zero]
    by_cases h2 : a = u ∧ b = v
    · obtain ⟨rfl, rfl⟩ := h2
      simp
    · rw [if_neg h2, if_neg h2, sub_zero]

omit [LinearOrder R] in
theorem foldl_push (x : R) (es : List (V × V)) (hne : ∀ e ∈ es, e.1 ≠ e.2) : es.Nodup → ∀ (c : V → V → R) (a b : V),
    es.foldl (push x) c a b =
      c a b - (if (a, b) ∈ es then x else 0) + (if (b, a) ∈ es then x else 0) := by
  induction es with
  | nil => intro _ c a b; simp
  | cons e es ih =>
    intro hnd c a b
    obtain ⟨h1, h2⟩ := List.nodup_cons.1 hnd
    rw [List.foldl_cons, ih (fun e he => hne e (List.mem_cons_of_mem _ he)) h2,
      push_apply x c e (hne e (List.mem_cons_self ..))]
    have e1 : ∀ p : V × V, (if p ∈ e :: es then x else 0) = (if p = e then x else 0) + (if p ∈ es then x else 0) := by
      intro p
      by_cases hp : p = e
      · subst hp; simp [h1]
      · simp [hp]
    rw [e1, e1]
    abel

/-- net flow out of a node -/
def excess (N : Finset V) (c₀ c : V → V → R) (a : V) : R := ∑ b ∈ N, (c₀ a b - c a b)

omit [LinearOrder R] in
theorem excess_push (N : Finset V) (c₀ c : V → V → R) (x : R) (e : V × V) (he : e.1 ≠ e.2) (h1 : e.1 ∈ N)
    (h2 : e.2 ∈ N) (a : V) : excess N c₀ (push x c e) a =
      excess N c₀ c a + (if a = e.1 then x else 0) - (if a = e.2 then x else 0) := by
  unfold excess
  have : ∀ b ∈ N, c₀ a b - push x c e a b = (c₀ a b - c a b) +
      ((if b = e.2 then (if a = e.1 then x else 0) else 0) - (if b = e.1 then (if a = e.2 then x else 0) else 0)) := by
    intro b _
    rw [push_apply x c e he]
    obtain ⟨u, v⟩ := e
    simp only [Prod.mk.injEq, ite_and]
    have : (if b = v then (if a = u then x else 0) else 0) = (if a = u then (if b = v then x else 0) else 0) := by
      by_cases h : b = v <;> by_cases h' : a = u <;> simp [h, h']
    rw [this]
    abel
  rw [sum_congr rfl this]
  simp only [sum_add_distrib, sum_sub_distrib, sum_ite_eq', if_pos h1, if_pos h2]
  abel

omit [LinearOrder R] in
theorem excess_trail (N : Finset V) (c₀ : V → V → R) (x : R) {pred : V → Option V} {s v : V}
    {es : List (V × V)} (h : Trail pred s v es) : ∀ c : V → V → R,
    (∀ e ∈ es, e.1 ≠ e.2 ∧ e.1 ∈ N ∧ e.2 ∈ N) → ∀ a, excess N c₀ (es.foldl (push x) c) a =
      excess N c₀ c a + (if a = s then x else 0) - (if a = v then x else 0) := by
  induction h with
  | nil => intro c _ a; rw [List.foldl_nil]; abel
  | cons _ _ _ ih =>
    intro c he a
    obtain ⟨h1, h2, h3⟩ := he _ (List.mem_cons_self ..)
    rw [List.foldl_cons, ih _ (fun e h => he e (List.mem_cons_of_mem _ h)) a, excess_push N c₀ c x _ h1 h2 h3]
    abel

omit [DecidableEq V] [AddCommGroup R] in
theorem foldl_min_spec (es : List (V × V)) (c : V → V → R) : ∀ acc : WithTop R,
    es.foldl (fun a e => min a (c e.1 e.2 : WithTop R)) acc ≤ acc ∧
    (∀ e ∈ es, es.foldl (fun a e => min a (c e.1 e.2 : WithTop R)) acc ≤ c e.1 e.2) ∧
    (es.foldl (fun a e => min a (c e.1 e.2 : WithTop R)) acc = acc ∨
      ∃ e ∈ es, es.foldl (fun a e => min a (c e.1 e.2 : WithTop R)) acc = c e.1 e.2) := by
  induction es with
  | nil => intro acc; exact ⟨le_rfl, fun e he => (by cases he), Or.inl rfl⟩
  | cons e es ih =>
    intro acc
    rw [List.foldl_cons]
    obtain ⟨h1, h2, h3⟩ := ih (min acc (c e.1 e.2 : WithTop R))
    refine ⟨h1.trans (min_le_left _ _), fun e' he' => ?_, ?_⟩
    · rcases List.mem_cons.1 he' with he' | he'
      · subst he'; exact h1.trans (min_le_right _ _)
      · exact h2 e' he'
    · rcases h3 with h3 | ⟨e', he', h3⟩
      · rcases min_choice acc (c e.1 e.2 : WithTop R) with h | h
        · left; rw [h3, h]
        · right; exact ⟨e, List.mem_cons_self .., by rw [h3, h]⟩
      · right; exact ⟨e', List.mem_cons_of_mem _ he', h3⟩

variable [IsOrderedAddMonoid R]

/-- invariant of the main loop: `c` is the residual capacity of a flow of value `total` -/
structure FInv (N : Finset V) (c₀ : V → V → R) (s t : V) (c : V → V → R) (total : R) : Prop where
  nonneg : ∀ a b, 0 ≤ c a b
  anti : ∀ a b, c a b + c b a = c₀ a b + c₀ b a
  cons : ∀ a ∈ N, a ≠ s → a ≠ t → excess N c₀ c a = 0
  value : excess N c₀ c s = total

open Classical in
/-- number of pairs (node, step) such that the node is reached within the step -/
noncomputable def nearCount (N : Finset V) (c : V → V → R) (cols : List V) (s : V) : ℕ :=
  ((N ×ˢ range cols.length).filter fun p => Within c cols s p.2 p.1).card

open Classical in
/-- number of residual edges that lead from one level to the next -/
noncomputable def levelCount (N : Finset V) (c : V → V → R) (cols : List V) (s : V) : ℕ :=
  ((N ×ˢ N).filter fun p => 0 < c p.1 p.2 ∧ ∃ j, j < cols.length ∧ Within c cols s j p.1 ∧ ¬ Within c cols s j p.2).card

/-- measure of the main loop -/
noncomputable def flowMeasure (N : Finset V) (c : V → V → R) (cols : List V) (s : V) : ℕ :=
  nearCount N c cols s * (N.card * N.card + 1) + levelCount N c cols s

omit [IsOrderedAddMonoid R] [DecidableEq V] in
theorem flowMeasure_lt (N : Finset V) (c : V → V → R) (cols : List V) (hc : cols.length = N.card) (s : V) :
    flowMeasure N c cols s < flowRounds N.card := by
  classical
  have h1 : nearCount N c cols s ≤ N.card * N.card := by
    unfold nearCount
    refine (card_filter_le _ _).trans ?_
    rw [card_product, card_range, hc]
  have h2 : levelCount N c cols s ≤ N.card * N.card := by
    unfold levelCount
    refine (card_filter_le _ _).trans ?_
    rw [card_product]
  have h3 := Nat.mul_le_mul_right (N.card * N.card + 1) h1
  unfold flowMeasure flowRounds
  generalize N.card * N.card = m at *
  have : (m + 1) * (m + 1) = m * (m + 1) + (m + 1) := Nat.succ_mul _ _
  omega

/-- **one augmentation**: keeps the invariant and decreases the measure -/
theorem augmentation {N : Finset V} {cols : List V} (hnd : cols.Nodup) (hN : ∀ x, x ∈ cols ↔ x ∈ N)
    {c₀ : V → V → R} {s t : V} {c : V → V → R} {total : R} (hinv : FInv N c₀ s t c total) {b : Bfs V}
    (hb : BDone c cols s t b) (hf : b.found = true) :
    ∃ x c', pathFlow c b.pred s cols.length t ⊤ = .ok ((x : R) : WithTop R) ∧
      augment b.pred s x cols.length t c = .ok c' ∧ FInv N c₀ s t c' (total + x) ∧
      flowMeasure N c' cols s < flowMeasure N c cols s := by
  obtain ⟨-, ht, hts⟩ | ⟨h, -⟩ := hb.out
  swap
  · rw [hf] at h; cases h
  obtain ⟨n, hn⟩ := visited_within hb.pred t ht
  obtain ⟨es, t1, t2, t3, t4, t5⟩ := trail_exists hb.pred hb.svis n t ht hn
  have hscols : s ∈ cols := (hb.pred s hb.svis).1
  -- the path is not too long
  have hlen : es.length < cols.length := by
    have hsub : (s :: es.map Prod.snd) ⊆ cols := by
      intro y hy
      rcases List.mem_cons.1 hy with hy | hy
      · rw [hy]; exact hscols
      · obtain ⟨e, he, rfl⟩ := List.mem_map.1 hy
        exact (t5 e he).2.1
    have := (List.subperm_of_subset t4 hsub).length_le
    rw [List.length_cons, List.length_map] at this
    omega
  have hne : ∀ e ∈ es, e.1 ≠ e.2 := by
    intro e he h
    obtain ⟨-, -, -, j, -, j1, j2, -⟩ := t5 e he
    rw [h] at j1
    exact j2 j1
  have hesnd : es.Nodup := List.Nodup.of_map _ (List.nodup_cons.1 t4).2
  -- no edge is used in both directions
  have hrev : ∀ a b', (a, b') ∈ es → (b', a) ∉ es := by
    intro a b' h1 h2
    obtain ⟨-, -, -, j, -, j1, j2, -⟩ := t5 _ h1
    obtain ⟨-, -, -, i, -, i1, i2, -⟩ := t5 _ h2
    simp only at j1 j2 i1 i2
    rcases le_total i j with h | h
    · exact j2 (i1.mono h)
    · exact i2 (j1.mono h)
  -- the path flow
  obtain ⟨m1, m2, m3⟩ := foldl_min_spec es c (⊤ : WithTop R)
  have hx := pathFlow_trail (c := c) t1 cols.length hlen.le ⊤
  generalize es.foldl (fun a e => min a (c e.1 e.2 : WithTop R)) (⊤ : WithTop R) = x' at m1 m2 m3 hx
  have hesne : es ≠ [] := by
    rintro rfl
    cases t1
    exact hts rfl
  obtain ⟨e₀, he₀⟩ := List.exists_mem_of_ne_nil es hesne
  have hx'top : x' ≠ ⊤ := by
    intro h
    have := m2 e₀ he₀
    rw [h] at this
    exact absurd this (not_le.2 (WithTop.coe_lt_top _))
  obtain ⟨x, rfl⟩ := WithTop.ne_top_iff_exists.1 hx'top
  obtain ⟨ec, hec, hxc⟩ : ∃ e ∈ es, x = c e.1 e.2 := by
    rcases m3 with h | ⟨e, he, h⟩
    · exact absurd h hx'top
    · exact ⟨e, he, WithTop.coe_injective h⟩
  have hxle : ∀ e ∈ es, x ≤ c e.1 e.2 := fun e he => WithTop.coe_le_coe.1 (m2 e he)
  have hxpos : 0 < x := by rw [hxc]; exact (t5 ec hec).2.2.1
  have hc' := foldl_push x es hne hesnd c
  have haug := augment_trail (x := x) t1 cols.length hlen.le c
  have hexc := excess_trail N c₀ x t1 c
    (fun e he => ⟨hne e he, (hN _).1 (t5 e he).1, (hN _).1 (t5 e he).2.1⟩)
  generalize es.foldl (push x) c = c' at hc' haug hexc
  -- new residual edges are reversals
  have hnew : ∀ a b', 0 < c' a b' → 0 < c a b' ∨ (b', a) ∈ es := by
    intro a b' h
    by_contra hcon
    rw [not_or] at hcon
    rw [hc', if_neg hcon.2, add_zero] at h
    have h0 : c a b' = 0 := le_antisymm (not_lt.1 hcon.1) (hinv.nonneg a b')
    rw [h0, zero_sub] at h
    by_cases hm : (a, b') ∈ es
    · rw [if_pos hm] at h
      exact absurd h (not_lt.2 (neg_nonpos.2 hxpos.le))
    · rw [if_neg hm, neg_zero] at h
      exact lt_irrefl _ h
  have hcrit : c' ec.1 ec.2 = 0 := by
    rw [hc', if_pos (show (ec.1, ec.2) ∈ es from hec), if_neg (hrev ec.1 ec.2 hec), hxc]
    abel
  refine ⟨x, c', hx, haug, ⟨?_, ?_, ?_, ?_⟩, ?_⟩
  · intro a b'
    rw [hc']
    refine add_nonneg ?_ ?_
    · by_cases h : (a, b') ∈ es
      · rw [if_pos h]; exact sub_nonneg.2 (hxle _ h)
      · rw [if_neg h, sub_zero]; exact hinv.nonneg a b'
    · by_cases h : (b', a) ∈ es
      · rw [if_pos h]; exact hxpos.le
      · rw [if_neg h]
  · intro a b'
    rw [hc', hc', ← hinv.anti a b']
    abel
  · intro a ha has hat
    rw [hexc a, if_neg has, if_neg hat, hinv.cons a ha has hat]
    abel
  · rw [hexc s, if_pos rfl, if_neg (Ne.symm hts), hinv.value]
    abel
  · -- the measure
    have hmono : ∀ k v, Within c' cols s k v → Within c cols s k v := by
      intro k
      induction k with
      | zero => intro v h; exact h
      | succ k ih =>
        rintro v (h | ⟨u, h1, h2, h3⟩)
        · exact Or.inl (ih v h)
        · rcases hnew u v h3 with h | h
          · exact Or.inr ⟨u, ih u h1, h2, h⟩
          · obtain ⟨-, -, -, j, -, j1, j2, -⟩ := t5 _ h
            simp only at j1 j2
            have : j < k := by
              by_contra hc
              exact j2 ((ih u h1).mono (not_lt.1 hc))
            exact j1.mono (by omega)
    classical
    have hsub : ((N ×ˢ range cols.length).filter fun p => Within c' cols s p.2 p.1) ⊆
        ((N ×ˢ range cols.length).filter fun p => Within c cols s p.2 p.1) := by
      intro p hp
      rw [mem_filter] at hp ⊢
      exact ⟨hp.1, hmono _ _ hp.2⟩
    have hle : nearCount N c' cols s ≤ nearCount N c cols s := by
      unfold nearCount
      convert card_le_card hsub
    have hcols : cols.length = N.card := by
      rw [← List.toFinset_card_of_nodup hnd]
      congr 1
      ext y
      rw [List.mem_toFinset, hN]
    have hlev' : levelCount N c' cols s ≤ N.card * N.card := by
      unfold levelCount
      refine (card_filter_le _ _).trans ?_
      rw [card_product]
    rcases hle.lt_or_eq with hlt | heq
    · unfold flowMeasure
      have := Nat.mul_le_mul_right (N.card * N.card + 1) (Nat.succ_le_of_lt hlt)
      rw [Nat.succ_mul] at this
      omega
    · -- same distances: a level edge disappears and none is added
      have heq' : ∀ v ∈ N, ∀ k, k < cols.length → (Within c cols s k v → Within c' cols s k v) := by
        intro v hv k hk hw
        have hEq := eq_of_subset_of_card_le hsub (by
          have : nearCount N c cols s ≤ nearCount N c' cols s := heq.ge
          unfold nearCount at this
          convert this)
        have : (v, k) ∈ ((N ×ˢ range cols.length).filter fun p => Within c cols s p.2 p.1) :=
          mem_filter.2 ⟨mem_product.2 ⟨hv, mem_range.2 hk⟩, hw⟩
        rw [← hEq] at this
        exact (mem_filter.1 this).2
      have hss : ((N ×ˢ N).filter fun p => 0 < c' p.1 p.2 ∧ ∃ j, j < cols.length ∧ Within c' cols s j p.1 ∧
            ¬ Within c' cols s j p.2) ⊂
          ((N ×ˢ N).filter fun p => 0 < c p.1 p.2 ∧ ∃ j, j < cols.length ∧ Within c cols s j p.1 ∧
            ¬ Within c cols s j p.2) := by
        rw [ssubset_iff_of_subset]
        · obtain ⟨k1, k2, k3, j, j1, j2, j3, -⟩ := t5 ec hec
          refine ⟨ec, mem_filter.2 ⟨mem_product.2 ⟨(hN _).1 k1, (hN _).1 k2⟩, k3, j, by omega, j2, j3⟩, ?_⟩
          intro hc
          have := (mem_filter.1 hc).2.1
          rw [hcrit] at this
          exact lt_irrefl _ this
        · intro p hp
          rw [mem_filter] at hp ⊢
          obtain ⟨hpN, hpc, j, j1, j2, j3⟩ := hp
          have hj3 : ¬ Within c cols s j p.2 := fun h => j3 (heq' _ (mem_product.1 hpN).2 j j1 h)
          have hj2 := hmono _ _ j2
          refine ⟨hpN, ?_, j, j1, hj2, hj3⟩
          rcases hnew _ _ hpc with h | h
          · exact h
          · exfalso
            obtain ⟨-, -, -, i, -, i1, i2, -⟩ := t5 _ h
            simp only at i1 i2
            rcases le_total i j with h | h
            · exact hj3 (i1.mono h)
            · exact i2 (hj2.mono h)
      have hlt : levelCount N c' cols s < levelCount N c cols s := by
        unfold levelCount
        convert card_lt_card hss
      unfold flowMeasure
      rw [heq]
      omega

end

end Verif.Fwork
