/-
Model of pygmo_fwork/optichem/graph.py: the coupling coefficients of `ChemistryGraph` (C37).

Numbers are elements of any ordered field `R` (in the code floats; rounding, overflow and `nan` in the rates or
the wall fluxes are not modelled). `nan` as a mark for "no edge" is `none`.
-/
import Verif.Fwork.GraphProps
import Mathlib.Algebra.Order.Field.Basic
import Mathlib.Algebra.Order.BigOperators.Group.Finset
import Mathlib.Algebra.BigOperators.Fin
import Mathlib.Data.List.FinRange
import Mathlib.Tactic.Linarith
import Mathlib.Tactic.Positivity
import Mathlib.Tactic.FinCases
import Mathlib.Tactic.NormNum
import Mathlib.Tactic.Ring

namespace Verif.Fwork

open Finset

/-- graph.py:307-344: the arrays of a `ChemistryGraph` with `n` species (electron and heavy-particle
placeholder included), `m` reactions and `nt` important times. The checks of the input and the way the arrays are
read off the chemistry are in `CoupleInit`. -/
structure ChemGraph (V R : Type) (n m nt : ℕ) where
  species : Fin n → V
  special : List V
  lhs : Fin m → Fin n → ℕ
  rhs : Fin m → Fin n → ℕ
  rates : Fin nt → Fin m → R
  fluxes : Fin nt → Fin n → R
  ret : Fin n → Fin n → R
  area : R
  vol : R

/-- graph.py:391-400 -/
inductive Weighting where
  | drg
  | drg1
  | drg2
  | drgep
deriving DecidableEq

section
variable {V R : Type} {n m nt : ℕ} [Field R] [LinearOrder R]

/-- graph.py:339 `stoichiomatrix_net` -/
def ChemGraph.net (C : ChemGraph V R n m nt) (j : Fin m) (i : Fin n) : R := (C.rhs j i : R) - (C.lhs j i : R)

/-- graph.py:341 `delta_ji` -/
def ChemGraph.delta (C : ChemGraph V R n m nt) (j : Fin m) (i : Fin n) : R :=
  if C.lhs j i + C.rhs j i > 0 then 1 else 0

/-- graph.py:404-418 `surf_rates[t, b, a]` -/
def ChemGraph.surf (C : ChemGraph V R n m nt) (surface : Bool) (t : Fin nt) (b a : Fin n) : R :=
  if surface then
    (if b = a then C.fluxes t b * C.area / C.vol else 0) + -(C.ret a b) * (C.fluxes t b * C.area / C.vol)
  else 0

/-- graph.py:421-439: `r[t, b, a]` before zeros are replaced -/
def ChemGraph.coupling (C : ChemGraph V R n m nt) (method : Weighting) (surface : Bool) (t : Fin nt)
    (b a : Fin n) : R :=
  match method with
  | .drg | .drg1 => ∑ j, |C.net j a| * C.rates t j * C.delta j b + |C.surf surface t b a|
  | .drg2 | .drgep => |∑ j, C.net j a * C.rates t j * C.delta j b + C.surf surface t b a|

/-- graph.py:454-467, `tot_prod[t, a]` -/
def ChemGraph.totProd (C : ChemGraph V R n m nt) (surface : Bool) (t : Fin nt) (a : Fin n) : R :=
  ∑ j, (if C.net j a < 0 then 0 else C.net j a) * C.rates t j +
    ∑ b, if C.surf surface t b a < 0 then 0 else C.surf surface t b a

/-- graph.py:456-470, `tot_cons[t, a]` -/
def ChemGraph.totCons (C : ChemGraph V R n m nt) (surface : Bool) (t : Fin nt) (a : Fin n) : R :=
  ∑ j, (if -C.net j a < 0 then 0 else -C.net j a) * C.rates t j +
    ∑ b, if -C.surf surface t b a < 0 then 0 else -C.surf surface t b a

/-- graph.py:441-477: `norm[t, a]` before zeros are replaced -/
def ChemGraph.norm (C : ChemGraph V R n m nt) (method : Weighting) (surface : Bool) (t : Fin nt) (a : Fin n) : R :=
  match method with
  | .drg => ∑ j, |C.net j a| * C.rates t j + ∑ b, |C.surf surface t b a|
  | .drg1 | .drg2 => |∑ j, C.net j a * C.rates t j + ∑ b, C.surf surface t b a|
  | .drgep =>
    if C.totProd surface t a > C.totCons surface t a then C.totProd surface t a
    else if C.totCons surface t a > C.totProd surface t a then C.totCons surface t a
    else 0

/-- graph.py:471-473: the two assertions of the DRGEP branch, for all times and species -/
def ChemGraph.sane (C : ChemGraph V R n m nt) (method : Weighting) (surface : Bool) : Bool :=
  match method with
  | .drgep => (List.finRange nt).all fun t => (List.finRange n).all fun a =>
      decide (0 ≤ C.totProd surface t a) && decide (0 ≤ C.totCons surface t a)
  | _ => true

/-- graph.py:440, 478-480: the quotient, `none` for `nan` -/
def ChemGraph.quot (C : ChemGraph V R n m nt) (method : Weighting) (surface : Bool) (t : Fin nt) (b a : Fin n) :
    Option R :=
  if C.coupling method surface t b a = 0 then none
  else if C.norm method surface t a = 0 then none
  else some (C.coupling method surface t b a / C.norm method surface t a)

variable [DecidableEq V]

/-- graph.py:485-488: the edge added for one pair -/
def ChemGraph.edge (C : ChemGraph V R n m nt) (method : Weighting) (surface : Bool) (t : Fin nt) (a b : Fin n) :
    List (V × V × R) :=
  if C.species a ≠ C.species b then
    match C.quot method surface t b a with
    | none => []
    | some w => [(C.species b, C.species a, w)]
  else []

/-- graph.py:485-490: the edges added to the graph of one time, in order -/
def ChemGraph.edgeList (C : ChemGraph V R n m nt) (method : Weighting) (surface : Bool) (t : Fin nt) :
    List (V × V × R) :=
  (List.finRange n).flatMap fun a => (List.finRange n).flatMap fun b => C.edge method surface t a b

/-- graph.py:482-491: the graphs of the times, one after the other -/
def buildAll : List (List (V × V × R)) → Except GraphErr (List (Graph V R))
  | [] => .ok []
  | l :: ls =>
    match Graph.empty.build l with
    | .error e => .error e
    | .ok G =>
      match buildAll ls with
      | .error e => .error e
      | .ok Gs => .ok (G :: Gs)

/-- graph.py:387-491 `distribute_weights` with one of the four implemented methods; the result is
`self.graphs`. -/
def ChemGraph.distributeWeights (C : ChemGraph V R n m nt) (method : Weighting) (surface : Bool) :
    Except GraphErr (List (Graph V R)) :=
  if C.sane method surface then buildAll ((List.finRange nt).map (C.edgeList method surface))
  else .error .assertion

end

/-! ### lemmas -/

section
variable {V R : Type} {n m nt : ℕ} [Field R] [LinearOrder R] [IsStrictOrderedRing R]

theorem ChemGraph.delta_nonneg (C : ChemGraph V R n m nt) (j : Fin m) (i : Fin n) : 0 ≤ C.delta j i := by
  unfold ChemGraph.delta; split <;> norm_num

theorem ChemGraph.delta_le (C : ChemGraph V R n m nt) (j : Fin m) (i : Fin n) : C.delta j i ≤ 1 := by
  unfold ChemGraph.delta; split <;> norm_num

theorem ChemGraph.coupling_nonneg (C : ChemGraph V R n m nt) (hr : ∀ t j, 0 ≤ C.rates t j) (method : Weighting)
    (surface : Bool) (t : Fin nt) (b a : Fin n) : 0 ≤ C.coupling method surface t b a := by
  have h : 0 ≤ ∑ j, |C.net j a| * C.rates t j * C.delta j b + |C.surf surface t b a| :=
    add_nonneg (sum_nonneg fun j _ => mul_nonneg (mul_nonneg (abs_nonneg _) (hr t j)) (C.delta_nonneg j b))
      (abs_nonneg _)
  cases method
  · exact h
  · exact h
  · exact abs_nonneg _
  · exact abs_nonneg _

omit [IsStrictOrderedRing R] in
theorem pos_part (x : R) : (if x < 0 then 0 else x) = max x 0 := by
  split
  · next h => rw [max_eq_right h.le]
  · next h => rw [max_eq_left (not_lt.1 h)]

theorem ChemGraph.totProd_nonneg (C : ChemGraph V R n m nt) (hr : ∀ t j, 0 ≤ C.rates t j) (surface : Bool)
    (t : Fin nt) (a : Fin n) : 0 ≤ C.totProd surface t a := by
  unfold ChemGraph.totProd
  simp only [pos_part]
  exact add_nonneg (sum_nonneg fun j _ => mul_nonneg (le_max_right _ _) (hr t j))
    (sum_nonneg fun b _ => le_max_right _ _)

theorem ChemGraph.totCons_nonneg (C : ChemGraph V R n m nt) (hr : ∀ t j, 0 ≤ C.rates t j) (surface : Bool)
    (t : Fin nt) (a : Fin n) : 0 ≤ C.totCons surface t a := by
  unfold ChemGraph.totCons
  simp only [pos_part]
  exact add_nonneg (sum_nonneg fun j _ => mul_nonneg (le_max_right _ _) (hr t j))
    (sum_nonneg fun b _ => le_max_right _ _)

theorem ChemGraph.norm_nonneg (C : ChemGraph V R n m nt) (hr : ∀ t j, 0 ≤ C.rates t j) (method : Weighting)
    (surface : Bool) (t : Fin nt) (a : Fin n) : 0 ≤ C.norm method surface t a := by
  cases method
  · exact add_nonneg (sum_nonneg fun j _ => mul_nonneg (abs_nonneg _) (hr t j))
      (sum_nonneg fun b _ => abs_nonneg _)
  · exact abs_nonneg _
  · exact abs_nonneg _
  · have h1 := C.totProd_nonneg hr surface t a
    have h2 := C.totCons_nonneg hr surface t a
    simp only [ChemGraph.norm]
    split
    · exact h1
    · split
      · exact h2
      · exact le_rfl

theorem ChemGraph.coupling_le_drg (C : ChemGraph V R n m nt) (hr : ∀ t j, 0 ≤ C.rates t j) (surface : Bool)
    (t : Fin nt) (b a : Fin n) : C.coupling .drg surface t b a ≤ C.norm .drg surface t a := by
  refine add_le_add (sum_le_sum fun j _ => ?_) ?_
  · exact mul_le_of_le_one_right (mul_nonneg (abs_nonneg _) (hr t j)) (C.delta_le j b)
  · exact single_le_sum (f := fun b => |C.surf surface t b a|) (fun b _ => abs_nonneg _) (mem_univ b)

/-- part of a sum of signed terms is at most the sum of the positive terms -/
theorem part_le (C : ChemGraph V R n m nt) (s : R) (hr : ∀ t j, 0 ≤ C.rates t j)
    (surface : Bool) (t : Fin nt) (b a : Fin n) :
    s * (∑ j, C.net j a * C.rates t j * C.delta j b + C.surf surface t b a) ≤
      ∑ j, max (s * C.net j a) 0 * C.rates t j + ∑ b, max (s * C.surf surface t b a) 0 := by
  rw [mul_add, mul_sum]
  refine add_le_add (sum_le_sum fun j _ => ?_) ?_
  · have h1 : s * (C.net j a * C.rates t j * C.delta j b) = (s * C.net j a) * (C.rates t j * C.delta j b) := by ring
    rw [h1]
    have h0 : 0 ≤ C.rates t j * C.delta j b := mul_nonneg (hr t j) (C.delta_nonneg j b)
    calc (s * C.net j a) * (C.rates t j * C.delta j b)
        ≤ max (s * C.net j a) 0 * (C.rates t j * C.delta j b) := mul_le_mul_of_nonneg_right (le_max_left _ _) h0
      _ ≤ max (s * C.net j a) 0 * C.rates t j :=
          mul_le_mul_of_nonneg_left (mul_le_of_le_one_right (hr t j) (C.delta_le j b)) (le_max_right _ _)
  · exact (le_max_left _ _).trans (single_le_sum (f := fun b => max (s * C.surf surface t b a) 0)
      (fun b _ => le_max_right _ _) (mem_univ b))

theorem ChemGraph.coupling_le_ep (C : ChemGraph V R n m nt) (hr : ∀ t j, 0 ≤ C.rates t j) (surface : Bool)
    (t : Fin nt) (b a : Fin n) :
    C.coupling .drgep surface t b a ≤ max (C.totProd surface t a) (C.totCons surface t a) := by
  have h1 := part_le C 1 hr surface t b a
  have h2 := part_le C (-1) hr surface t b a
  simp only [ChemGraph.coupling]
  unfold ChemGraph.totProd ChemGraph.totCons
  simp only [pos_part]
  simp only [one_mul] at h1
  simp only [neg_mul, one_mul] at h2
  exact abs_le'.2 ⟨h1.trans (le_max_left _ _), h2.trans (le_max_right _ _)⟩

variable [DecidableEq V]

omit [IsStrictOrderedRing R] in
theorem ChemGraph.mem_edgeList (C : ChemGraph V R n m nt) (method : Weighting) (surface : Bool) (t : Fin nt)
    (u v : V) (w : R) : (u, v, w) ∈ C.edgeList method surface t ↔
      ∃ b a, C.species b = u ∧ C.species a = v ∧ u ≠ v ∧ C.quot method surface t b a = some w := by
  unfold ChemGraph.edgeList
  simp only [List.mem_flatMap, List.mem_finRange, true_and]
  constructor
  · rintro ⟨a, b, h⟩
    unfold ChemGraph.edge at h
    by_cases hne : C.species a ≠ C.species b
    · rw [if_pos hne] at h
      cases hq : C.quot method surface t b a with
      | none => rw [hq] at h; simp at h
      | some w' =>
        rw [hq] at h
        simp only [List.mem_singleton, Prod.mk.injEq] at h
        obtain ⟨rfl, rfl, rfl⟩ := h
        exact ⟨b, a, rfl, rfl, fun h => hne h.symm, hq⟩
    · rw [if_neg hne] at h; simp at h
  · rintro ⟨b, a, rfl, rfl, hne, hq⟩
    refine ⟨a, b, ?_⟩
    unfold ChemGraph.edge
    rw [if_pos (fun h => hne h.symm), hq]
    simp

theorem ChemGraph.edgeList_pos (C : ChemGraph V R n m nt) (hr : ∀ t j, 0 ≤ C.rates t j) (method : Weighting)
    (surface : Bool) (t : Fin nt) (u v : V) (w : R) (h : (u, v, w) ∈ C.edgeList method surface t) : 0 < w := by
  obtain ⟨b, a, -, -, -, hq⟩ := (C.mem_edgeList method surface t u v w).1 h
  unfold ChemGraph.quot at hq
  split at hq
  · cases hq
  · next h1 =>
    split at hq
    · cases hq
    · next h2 =>
      cases hq
      exact div_pos (lt_of_le_of_ne (C.coupling_nonneg hr _ _ _ _ _) (Ne.symm h1))
        (lt_of_le_of_ne (C.norm_nonneg hr _ _ _ _) (Ne.symm h2))

omit [IsStrictOrderedRing R] in
theorem ChemGraph.edgeList_nodup (C : ChemGraph V R n m nt) (hinj : Function.Injective C.species)
    (method : Weighting) (surface : Bool) (t : Fin nt) :
    ((C.edgeList method surface t).map fun e => (e.1, e.2.1)).Nodup := by
  have hmem : ∀ (a b : Fin n) (x : V × V), x ∈ (C.edge method surface t a b).map (fun e => (e.1, e.2.1)) →
      x = (C.species b, C.species a) := by
    intro a b x hx
    unfold ChemGraph.edge at hx
    split at hx
    · split at hx
      · simp at hx
      · simpa using hx
    · simp at hx
  unfold ChemGraph.edgeList
  rw [List.map_flatMap, List.nodup_flatMap]
  refine ⟨fun a _ => ?_, ?_⟩
  · rw [List.map_flatMap, List.nodup_flatMap]
    refine ⟨fun b _ => ?_, ?_⟩
    · unfold ChemGraph.edge
      split
      · split <;> simp
      · simp
    · refine (List.nodup_finRange n).imp fun {b b'} hbb => ?_
      intro x hx hx'
      have h := (hmem a b x hx).symm.trans (hmem a b' x hx')
      exact hbb (hinj (Prod.mk.inj h).1)
  · refine (List.nodup_finRange n).imp fun {a a'} haa => ?_
    intro x hx hx'
    simp only [List.map_flatMap, List.mem_flatMap] at hx hx'
    obtain ⟨b, -, hx⟩ := hx
    obtain ⟨b', -, hx'⟩ := hx'
    have h := (hmem a b x hx).symm.trans (hmem a' b' x hx')
    exact haa (hinj (Prod.mk.inj h).2)

omit [IsStrictOrderedRing R] in
theorem buildAll_ok (P : List (V × V × R) → Graph V R → Prop) : ∀ ls : List (List (V × V × R)),
    (∀ l ∈ ls, ∃ G, Graph.empty.build l = .ok G ∧ P l G) →
    ∃ Gs, buildAll ls = .ok Gs ∧ List.Forall₂ P ls Gs
  | [], _ => ⟨[], rfl, .nil⟩
  | l :: ls, h => by
    obtain ⟨G, e, hP⟩ := h l (List.mem_cons_self ..)
    obtain ⟨Gs, e', hPs⟩ := buildAll_ok P ls fun l hl => h l (List.mem_cons_of_mem _ hl)
    exact ⟨G :: Gs, by simp only [buildAll, e, e'], .cons hP hPs⟩

omit [DecidableEq V] in
theorem ChemGraph.sane_ok (C : ChemGraph V R n m nt) (hr : ∀ t j, 0 ≤ C.rates t j) (method : Weighting)
    (surface : Bool) : C.sane method surface = true := by
  cases method
  · rfl
  · rfl
  · rfl
  · simp only [ChemGraph.sane, List.all_eq_true, Bool.and_eq_true, decide_eq_true_eq]
    intro t _ a _
    exact ⟨C.totProd_nonneg hr surface t a, C.totCons_nonneg hr surface t a⟩

/-! ### C37 -/

/-- The weights of the graph that belongs to a time: the edge from `b` to `a` has weight `w`. -/
def HasEdge (G : Graph V R) (u v : V) (w : R) : Prop :=
  (u, v) ∈ G.edges ∧ G.attrs (u, v) = some (some w)

/-- For non-negative rates `distribute_weights` succeeds with every method, and gives one consistent graph per
time, whose edges are the defined quotients. -/
theorem distribute_ok (C : ChemGraph V R n m nt) (hinj : Function.Injective C.species)
    (hr : ∀ t j, 0 ≤ C.rates t j) (method : Weighting) (surface : Bool) :
    ∃ Gs, C.distributeWeights method surface = .ok Gs ∧ ∃ hlen : Gs.length = nt, ∀ t : Fin nt,
      (Gs[t]).Ok ∧ (Gs[t]).distributed = true ∧
      (∀ u v w, HasEdge Gs[t] u v w ↔
        ∃ b a, C.species b = u ∧ C.species a = v ∧ u ≠ v ∧ C.quot method surface t b a = some w) ∧
      (∀ x, x ∈ (Gs[t]).nodes ↔ ∃ u v w, HasEdge Gs[t] u v w ∧ (x = u ∨ x = v)) := by
  obtain ⟨Gs, e, hP⟩ := buildAll_ok (fun l G => G.Ok ∧ G.distributed = true ∧
      (∀ u v w, HasEdge G u v w ↔ (u, v, w) ∈ l) ∧
      (∀ x, x ∈ G.nodes ↔ ∃ u v w, HasEdge G u v w ∧ (x = u ∨ x = v)))
    ((List.finRange nt).map (C.edgeList method surface)) (by
      intro l hl
      obtain ⟨t, -, rfl⟩ := List.mem_map.1 hl
      obtain ⟨G, e, hd, hn, he, ha, -⟩ := graph_build (C.edgeList method surface t)
        (C.edgeList_pos hr method surface t) (C.edgeList_nodup hinj method surface t)
      have hE : ∀ u v w, HasEdge G u v w ↔ (u, v, w) ∈ C.edgeList method surface t := fun u v w =>
        ⟨fun h => (ha u v w).1 h.2, fun h => ⟨(he u v).2 ⟨w, h⟩, (ha u v w).2 h⟩⟩
      refine ⟨G, e, (graph_build_ok _ (C.edgeList_pos hr method surface t) e).1, hd, hE, fun x => ?_⟩
      rw [hn x]
      constructor
      · rintro ⟨u, v, w, h, hx⟩; exact ⟨u, v, w, (hE u v w).2 h, hx⟩
      · rintro ⟨u, v, w, h, hx⟩; exact ⟨u, v, w, (hE u v w).1 h, hx⟩)
  have hlen : Gs.length = nt := by
    have := hP.length_eq
    simpa using this.symm
  refine ⟨Gs, ?_, hlen, fun t => ?_⟩
  · unfold ChemGraph.distributeWeights
    rw [if_pos (C.sane_ok hr method surface), e]
  · have h := (List.forall₂_iff_get.1 hP).2 t.1 (by simp) (by rw [hlen]; exact t.2)
    simp only [List.get_eq_getElem, List.getElem_map, List.getElem_finRange, Fin.cast_mk, Fin.eta] at h
    obtain ⟨h1, h2, h3, h4⟩ := h
    exact ⟨h1, h2, fun u v w => (h3 u v w).trans (C.mem_edgeList method surface t u v w), h4⟩


/-! specification -/

/-- the species takes part in the reaction -/
def Involves (C : ChemGraph V R n m nt) (j : Fin m) (b : Fin n) : Prop := C.lhs j b ≠ 0 ∨ C.rhs j b ≠ 0

instance (C : ChemGraph V R n m nt) (j : Fin m) (b : Fin n) : Decidable (Involves C j b) := by
  unfold Involves; infer_instance

/-- change of the number of particles of `a` in one event of the reaction -/
def yieldOf (C : ChemGraph V R n m nt) (j : Fin m) (a : Fin n) : R := (C.rhs j a : R) - C.lhs j a

/-- source of `a` at the walls because `b` sticks there, per volume (the sign is that of the wall fluxes for
the loss of `b` itself) -/
def wallSource (C : ChemGraph V R n m nt) (surface : Bool) (t : Fin nt) (b a : Fin n) : R :=
  if surface then C.fluxes t b * C.area / C.vol * ((if b = a then 1 else 0) - C.ret a b) else 0

omit [LinearOrder R] [IsStrictOrderedRing R] [DecidableEq V] in
theorem surf_eq (C : ChemGraph V R n m nt) (surface : Bool) (t : Fin nt) (b a : Fin n) :
    C.surf surface t b a = wallSource C surface t b a := by
  unfold ChemGraph.surf wallSource
  split
  · split <;> ring
  · rfl

omit [LinearOrder R] [IsStrictOrderedRing R] [DecidableEq V] in
theorem sum_delta (C : ChemGraph V R n m nt) (b : Fin n) (g : Fin m → R) :
    ∑ j, g j * C.delta j b = ∑ j with Involves C j b, g j := by
  rw [sum_filter]
  refine sum_congr rfl fun j _ => ?_
  unfold ChemGraph.delta
  by_cases h : C.lhs j b + C.rhs j b > 0
  · rw [if_pos h, if_pos (show Involves C j b by unfold Involves; omega), mul_one]
  · rw [if_neg h, if_neg (show ¬ Involves C j b by unfold Involves; omega), mul_zero]

/-- **C37.** DRG weights. For every network and all non-negative rates: the weight of the edge from `b` to `a` is
the turnover of `a` in reactions with `b` (and by `b` at the walls) divided by the total turnover of `a`; it
lies in (0, 1], and the edge is missing exactly if there is no such turnover. -/
theorem drg_weights (C : ChemGraph V R n m nt) (hinj : Function.Injective C.species)
    (hr : ∀ t j, 0 ≤ C.rates t j) (surface : Bool) :
    ∃ Gs, C.distributeWeights .drg surface = .ok Gs ∧ ∃ hlen : Gs.length = nt, ∀ t : Fin nt, ∀ b a, b ≠ a →
      ∀ part total, part = ∑ j with Involves C j b, |yieldOf C j a| * C.rates t j + |wallSource C surface t b a| →
        total = ∑ j, |yieldOf C j a| * C.rates t j + ∑ c, |wallSource C surface t c a| →
        (part = 0 → ∀ w, ¬ HasEdge Gs[t] (C.species b) (C.species a) w) ∧
        (part ≠ 0 → HasEdge Gs[t] (C.species b) (C.species a) (part / total) ∧
          0 < part / total ∧ part / total ≤ 1) := by
  obtain ⟨Gs, e, hlen, H⟩ := distribute_ok C hinj hr .drg surface
  refine ⟨Gs, e, hlen, fun t b a hba part total hp ht => ?_⟩
  obtain ⟨-, -, hE, -⟩ := H t
  have hc : C.coupling .drg surface t b a = part := by
    rw [hp]
    simp only [ChemGraph.coupling]
    rw [sum_delta, surf_eq]
    rfl
  have hn : C.norm .drg surface t a = total := by
    rw [ht]
    simp only [ChemGraph.norm, surf_eq]
    rfl
  have hle := C.coupling_le_drg hr surface t b a
  have h0 := C.coupling_nonneg hr .drg surface t b a
  rw [hc] at h0
  rw [hc, hn] at hle
  constructor
  · intro h w hw
    obtain ⟨b', a', hb, ha, -, hq⟩ := (hE _ _ w).1 hw
    cases hinj hb
    cases hinj ha
    unfold ChemGraph.quot at hq
    rw [hc, if_pos h] at hq
    cases hq
  · intro h
    have hpos : 0 < part := lt_of_le_of_ne h0 (Ne.symm h)
    have htot : 0 < total := hpos.trans_le hle
    refine ⟨(hE _ _ _).2 ⟨b, a, rfl, rfl, fun h => hba (hinj h), ?_⟩, div_pos hpos htot,
      (div_le_one htot).2 hle⟩
    unfold ChemGraph.quot
    rw [hc, if_neg h, hn, if_neg htot.ne']

/-- **C37.** DRGEP weights. The weight of the edge from `b` to `a` is the net change of `a` by reactions with `b`
(and by `b` at the walls), divided by the larger of the total production and the total consumption of `a`; it lies in
(0, 1]. If production and consumption are exactly equal, `a` has no incoming edge at all. -/
theorem drgep_weights (C : ChemGraph V R n m nt) (hinj : Function.Injective C.species)
    (hr : ∀ t j, 0 ≤ C.rates t j) (surface : Bool) :
    ∃ Gs, C.distributeWeights .drgep surface = .ok Gs ∧ ∃ hlen : Gs.length = nt, ∀ t : Fin nt, ∀ b a, b ≠ a →
      ∀ part prod cons,
        part = |∑ j with Involves C j b, yieldOf C j a * C.rates t j + wallSource C surface t b a| →
        prod = ∑ j, max (yieldOf C j a) 0 * C.rates t j + ∑ c, max (wallSource C surface t c a) 0 →
        cons = ∑ j, max (-yieldOf C j a) 0 * C.rates t j + ∑ c, max (-wallSource C surface t c a) 0 →
        (part = 0 ∨ prod = cons → ∀ w, ¬ HasEdge Gs[t] (C.species b) (C.species a) w) ∧
        (part ≠ 0 → prod ≠ cons → HasEdge Gs[t] (C.species b) (C.species a) (part / max prod cons) ∧
          0 < part / max prod cons ∧ part / max prod cons ≤ 1) := by
  obtain ⟨Gs, e, hlen, H⟩ := distribute_ok C hinj hr .drgep surface
  refine ⟨Gs, e, hlen, fun t b a hba part prod cons hp hP hC => ?_⟩
  obtain ⟨-, -, hE, -⟩ := H t
  have hc : C.coupling .drgep surface t b a = part := by
    rw [hp]
    simp only [ChemGraph.coupling]
    rw [sum_delta, surf_eq]
    rfl
  have hprod : C.totProd surface t a = prod := by
    rw [hP]
    unfold ChemGraph.totProd
    simp only [pos_part, surf_eq]
    rfl
  have hcons : C.totCons surface t a = cons := by
    rw [hC]
    unfold ChemGraph.totCons
    simp only [pos_part, surf_eq]
    rfl
  have hle := C.coupling_le_ep hr surface t b a
  have h0 := C.coupling_nonneg hr .drgep surface t b a
  rw [hc] at h0
  rw [hc, hprod, hcons] at hle
  have hn : prod ≠ cons → C.norm .drgep surface t a = max prod cons := by
    intro hne
    simp only [ChemGraph.norm, hprod, hcons]
    rcases lt_or_gt_of_ne hne with h | h
    · rw [if_neg (not_lt.2 h.le), if_pos h, max_eq_right h.le]
    · rw [if_pos h, max_eq_left (le_of_lt h)]
  constructor
  · intro h w hw
    obtain ⟨b', a', hb, ha, -, hq⟩ := (hE _ _ w).1 hw
    cases hinj hb
    cases hinj ha
    unfold ChemGraph.quot at hq
    rw [hc] at hq
    split at hq
    · cases hq
    · next hpart =>
      have hpc := h.resolve_left hpart
      have : C.norm .drgep surface t a = 0 := by
        simp only [ChemGraph.norm, hprod, hcons, hpc]
        rw [if_neg (lt_irrefl _), if_neg (lt_irrefl _)]
      rw [if_pos this] at hq
      cases hq
  · intro h hne
    have hpos : 0 < part := lt_of_le_of_ne h0 (Ne.symm h)
    have htot : 0 < max prod cons := hpos.trans_le hle
    refine ⟨(hE _ _ _).2 ⟨b, a, rfl, rfl, fun h => hba (hinj h), ?_⟩, div_pos hpos htot,
      (div_le_one htot).2 hle⟩
    unfold ChemGraph.quot
    rw [hc, if_neg h, hn hne, if_neg htot.ne']

/-- **C37.** DRG1 and DRG2 weights: the numerators of DRG and DRGEP over the net production of `a`; positive, but
see `drg1_above_one`. A species in exact balance has no incoming edge at all. -/
theorem net_weights (C : ChemGraph V R n m nt) (hinj : Function.Injective C.species)
    (hr : ∀ t j, 0 ≤ C.rates t j) (surface : Bool) (method : Weighting) (hm : method = .drg1 ∨ method = .drg2) :
    ∃ Gs, C.distributeWeights method surface = .ok Gs ∧ ∃ hlen : Gs.length = nt, ∀ t : Fin nt, ∀ b a, b ≠ a →
      ∀ part net,
        part = (if method = .drg1 then
            ∑ j with Involves C j b, |yieldOf C j a| * C.rates t j + |wallSource C surface t b a|
          else |∑ j with Involves C j b, yieldOf C j a * C.rates t j + wallSource C surface t b a|) →
        net = |∑ j, yieldOf C j a * C.rates t j + ∑ c, wallSource C surface t c a| →
        (part = 0 ∨ net = 0 → ∀ w, ¬ HasEdge Gs[t] (C.species b) (C.species a) w) ∧
        (part ≠ 0 → net ≠ 0 → HasEdge Gs[t] (C.species b) (C.species a) (part / net) ∧ 0 < part / net) := by
  obtain ⟨Gs, e, hlen, H⟩ := distribute_ok C hinj hr method surface
  refine ⟨Gs, e, hlen, fun t b a hba part net hp hN => ?_⟩
  obtain ⟨-, -, hE, -⟩ := H t
  have hc : C.coupling method surface t b a = part := by
    rw [hp]
    rcases hm with rfl | rfl
    · rw [if_pos rfl]
      simp only [ChemGraph.coupling]
      rw [sum_delta, surf_eq]
      rfl
    · rw [if_neg (by simp)]
      simp only [ChemGraph.coupling]
      rw [sum_delta, surf_eq]
      rfl
  have hn : C.norm method surface t a = net := by
    rw [hN]
    rcases hm with rfl | rfl <;>
    · simp only [ChemGraph.norm, surf_eq]
      rfl
  have h0 := C.coupling_nonneg hr method surface t b a
  rw [hc] at h0
  have h0' := C.norm_nonneg hr method surface t a
  rw [hn] at h0'
  constructor
  · intro h w hw
    obtain ⟨b', a', hb, ha, -, hq⟩ := (hE _ _ w).1 hw
    cases hinj hb
    cases hinj ha
    unfold ChemGraph.quot at hq
    rw [hc, hn] at hq
    split at hq
    · cases hq
    · next hpart => rw [if_pos (h.resolve_left hpart)] at hq; cases hq
  · intro h hne
    refine ⟨(hE _ _ _).2 ⟨b, a, rfl, rfl, fun h => hba (hinj h), ?_⟩,
      div_pos (lt_of_le_of_ne h0 (Ne.symm h)) (lt_of_le_of_ne h0' (Ne.symm hne))⟩
    unfold ChemGraph.quot
    rw [hc, if_neg h, hn, if_neg hne]

omit [IsStrictOrderedRing R] in
/-- Finding: with a negative turnover (possible only for negative rates) DRG fails with an AssertionError. -/
theorem drg_negative (C : ChemGraph V R n m nt) (hinj : Function.Injective C.species) (surface : Bool) (t : Fin nt)
    (b a : Fin n) (w : R) (hba : b ≠ a) (hq : C.quot .drg surface t b a = some w) (hw : w < 0) :
    ∃ e, C.distributeWeights .drg surface = .error e := by
  have h1 : (C.species b, C.species a, w) ∈ C.edgeList .drg surface t :=
    (C.mem_edgeList .drg surface t _ _ _).2 ⟨b, a, rfl, rfl, fun h => hba (hinj h), hq⟩
  have h2 : ∀ (l : List (V × V × R)) (G : Graph V R) u v w, (u, v, w) ∈ l → w < 0 → ∃ e, G.build l = .error e := by
    intro l
    induction l with
    | nil => intro G u v w h; cases h
    | cons x l ih =>
      intro G u v w h hw
      obtain ⟨u', v', w'⟩ := x
      unfold Graph.build
      cases hadd : G.addEdge u' v' with
      | error e => exact ⟨e, rfl⟩
      | ok G' =>
        simp only
        cases hset : G'.setWeight u' v' w' with
        | error e => exact ⟨e, rfl⟩
        | ok G'' =>
          simp only
          rcases List.mem_cons.1 h with h | h
          · obtain ⟨rfl, rfl, rfl⟩ : u = u' ∧ v = v' ∧ w = w' := by cases h; exact ⟨rfl, rfl, rfl⟩
            rw [graph_refuses G' u v w hw.le] at hset
            cases hset
          · exact ih G'' u v w h hw
  have h3 : ∀ (ls : List (List (V × V × R))) l, l ∈ ls → (∃ e, (Graph.empty : Graph V R).build l = .error e) →
      ∃ e, buildAll ls = .error e := by
    intro ls
    induction ls with
    | nil => intro l h; cases h
    | cons x ls ih =>
      intro l h he
      unfold buildAll
      cases hb : (Graph.empty : Graph V R).build x with
      | error e => exact ⟨e, rfl⟩
      | ok G =>
        simp only
        rcases List.mem_cons.1 h with h | h
        · subst h; obtain ⟨e, he⟩ := he; rw [hb] at he; cases he
        · obtain ⟨e, he⟩ := ih l h he
          rw [he]; exact ⟨e, rfl⟩
  unfold ChemGraph.distributeWeights
  split
  · exact h3 _ _ (List.mem_map.2 ⟨t, List.mem_finRange t, rfl⟩) (h2 _ _ _ _ _ h1 hw)
  · exact ⟨_, rfl⟩

end

/-! ### examples -/

/-- A + A -> B + B (rate 1), B -> A (rate 3/2); no losses at the walls. -/
def demoChem : ChemGraph ℕ ℚ 2 2 1 where
  species := fun i => i.1
  special := []
  lhs := ![![2, 0], ![0, 1]]
  rhs := ![![0, 2], ![1, 0]]
  rates := fun _ => ![1, 3 / 2]
  fluxes := fun _ _ => 0
  ret := fun _ _ => 0
  area := 1
  vol := 1

example : Function.Injective demoChem.species := fun _ _ h => Fin.ext h

example : ∀ t j, 0 ≤ demoChem.rates t j := by
  intro t j
  fin_cases j <;> norm_num [demoChem]

/-- Finding: the weights of DRG1 are not bounded by one. -/
theorem drg1_above_one : demoChem.quot .drg1 true 0 0 1 = some 7 := by
  decide +kernel

example : demoChem.quot .drg true 0 0 1 = some 1 := by decide +kernel

/-- the same with a balanced reverse reaction -/
def demoBalanced : ChemGraph ℕ ℚ 2 2 1 := { demoChem with rates := fun _ => ![1, 2] }

/-- Finding: in exact balance all the edges of DRGEP, DRG1 and DRG2 are lost, those of DRG are kept. -/
theorem balanced_loses_edges :
    demoBalanced.edgeList .drgep true 0 = [] ∧ demoBalanced.edgeList .drg1 true 0 = [] ∧
    demoBalanced.edgeList .drg2 true 0 = [] ∧
    demoBalanced.edgeList .drg true 0 = [(1, 0, 1), (0, 1, 1)] := by
  decide +kernel

end Verif.Fwork
