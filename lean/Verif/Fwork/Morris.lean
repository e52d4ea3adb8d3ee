/-
Model of pygmo_fwork/optichem/morris.py, part 1: the settings, the seed vectors and the trajectories (C44).

The grid density and the step are hard-coded in the code (10 and 0.5) but validated "for the case if the settings are
ever made parameters"; the model takes them as parameters. Arithmetic is exact (ℚ); `np.round` is modelled, the binary
rounding of floats is not. The random generator is an oracle: any permutation of the factors, any order of the signs.
-/
import Mathlib.Data.Rat.Floor
import Mathlib.Algebra.Order.Ring.Rat
import Mathlib.Algebra.Order.Field.Rat
import Mathlib.Data.List.FinRange
import Mathlib.Tactic.Ring
import Mathlib.Tactic.NormNum
import Mathlib.Tactic.Linarith
import Mathlib.Tactic.FieldSimp
import Mathlib.Tactic.Positivity
import Mathlib.Data.Fin.VecNotation
import Mathlib.Tactic.FinCases

namespace Verif.Fwork.Morris

/-! ### model -/

/-- exceptions of this module -/
inductive MErr where
  /-- `MorrisInputsError` -/
  | inputs
  /-- `MorrisTrajectoryError` -/
  | trajectory
  | zeroDivision
deriving DecidableEq

/-- rounding to the nearest integer, ties to even (as numpy and Python do) -/
def rint (q : ℚ) : ℤ :=
  if q - ⌊q⌋ < 1 / 2 then ⌊q⌋
  else if 1 / 2 < q - ⌊q⌋ then ⌊q⌋ + 1
  else if ⌊q⌋ % 2 = 0 then ⌊q⌋ else ⌊q⌋ + 1

/-- `np.round(q, decimals=d)` -/
def roundTo (d : ℕ) (q : ℚ) : ℚ := (rint (q * 10 ^ d) : ℚ) / 10 ^ d

/-- morris.py:77-82: the settings of a `MorrisMethod` -/
structure Setup where
  density : ℕ
  delta : ℚ

/-- the settings in the code -/
def Setup.code : Setup := { density := 10, delta := 1 / 2 }

/-- morris.py:80-82: the grid of factor values -/
def Setup.grid (s : Setup) : List ℚ :=
  (List.range s.density).map (fun (j : ℕ) => roundTo 5 (1 / (s.density : ℚ) / 2 + (j : ℚ) * (1 / (s.density : ℚ))))

/-- morris.py:80-100: the checks in `__init__` -/
def Setup.check (s : Setup) : Except MErr Unit :=
  if s.density = 0 then .error .zeroDivision
  else if s.delta ≤ 0 then .error .inputs
  else if ¬ ∀ x ∈ s.grid, x + s.delta < 1 ∨ 0 < x - s.delta then .error .inputs
  else if (roundTo 10 (s.delta / (1 / (s.density : ℚ)))).den ≠ 1 then .error .inputs
  else .ok ()

/-- morris.py:121-126: the first grid point at the smallest distance from `v` -/
def Setup.seed (s : Setup) (v : ℚ) : Option ℚ :=
  match (s.grid.map (fun x => |x - v|)).min? with
  | none => none
  | some m => s.grid.find? (fun x => decide (|x - v| = m))

/-- one item the generator yields: the changed factor, the signed step and the new vector -/
structure Step (n : ℕ) where
  factor : Fin n
  delta : ℚ
  x : Fin n → ℚ

/-- morris.py:160-166: the step tried for factor `i`; `first` says whether the negative step comes first -/
def Setup.move (s : Setup) {n : ℕ} (first : Bool) (x : Fin n → ℚ) (i : Fin n) : Option (Step n) :=
  let order : List ℚ := if first then [-s.delta, s.delta] else [s.delta, -s.delta]
  match (order.map (roundTo 5)).find? (fun d => decide (0 < x i + d ∧ x i + d < 1)) with
  | none => none
  | some d => some { factor := i, delta := d, x := Function.update x i (roundTo 5 (x i + d)) }

/-- morris.py:158-166: the loop; returns what was yielded and the exception -/
def Setup.moves (s : Setup) {n : ℕ} : List (Fin n × Bool) → (Fin n → ℚ) → List (Step n) × Option MErr
  | [], _ => ([], none)
  | (i, first) :: l, x =>
    match s.move first x i with
    | none => ([], some .trajectory)
    | some st => (st :: (s.moves l st.x).1, (s.moves l st.x).2)

/-- morris.py:136-166 `_trajectory`: `choices` are the factors in random order, each with the random order of the signs -/
def Setup.trajectory (s : Setup) {n : ℕ} (choices : List (Fin n × Bool)) (seed : Fin n → ℚ) :
    List (Step n) × Option MErr :=
  if n < 2 then ([], some .inputs)
  else if ¬ ∀ i, seed i ∈ s.grid then ([], some .inputs)
  else s.moves choices seed

/-! ### specification -/

/-- `v` is the centre of one of `g` equal cells of the unit interval. -/
def CellCentre (g : ℕ) (v : ℚ) : Prop := ∃ j : ℕ, j < g ∧ v = (2 * j + 1) / (2 * g)

/-- The points `x0, x1, ...` are a walk in which point after point one factor moves by `step` up or down. -/
def Walk {n : ℕ} (step : ℚ) : (Fin n → ℚ) → List (Step n) → Prop
  | _, [] => True
  | x, s :: l => (s.delta = step ∨ s.delta = -step) ∧ s.x s.factor = x s.factor + s.delta ∧
      (∀ k, k ≠ s.factor → s.x k = x k) ∧ Walk step s.x l

/-! ### lemmas -/

theorem rint_near {q : ℚ} {z : ℤ} (h : |q - z| < 1 / 2) : rint q = z := by
  rw [abs_lt] at h
  have h1 := Int.floor_le q
  have h2 := Int.lt_floor_add_one q
  unfold rint
  rcases lt_trichotomy ⌊q⌋ z with hlt | heq | hgt
  · have hz : (⌊q⌋ : ℚ) + 1 ≤ z := by exact_mod_cast hlt
    have hz' : z = ⌊q⌋ + 1 := by
      have : (z : ℚ) < ⌊q⌋ + 2 := by linarith
      have : z < ⌊q⌋ + 2 := by exact_mod_cast this
      omega
    rw [if_neg (by linarith), if_pos (by linarith), hz']
  · rw [if_pos (by rw [heq]; linarith), heq]
  · have hz : (z : ℚ) + 1 ≤ ⌊q⌋ := by exact_mod_cast hgt
    linarith

theorem rint_int (z : ℤ) : rint (z : ℚ) = z := rint_near (by simp)

theorem abs_rint_sub (q : ℚ) : |(rint q : ℚ) - q| ≤ 1 / 2 := by
  have h1 := Int.floor_le q
  have h2 := Int.lt_floor_add_one q
  unfold rint
  rw [abs_le]
  split_ifs <;> push_cast <;> constructor <;> linarith

theorem roundTo_near {d : ℕ} {q : ℚ} {z : ℤ} (h : |q * 10 ^ d - z| < 1 / 2) : roundTo d q = z / 10 ^ d := by
  unfold roundTo
  rw [rint_near h]

/-- multiples of the unit are not changed by rounding -/
theorem roundTo_fix {d : ℕ} (z : ℤ) : roundTo d ((z : ℚ) / 10 ^ d) = z / 10 ^ d := by
  apply roundTo_near
  have h : ((z : ℚ) / 10 ^ d) * 10 ^ d = z := by field_simp
  rw [h]; simp

section
variable {g : ℕ} (hg : 2 * g ∣ 10 ^ 5)
include hg

private theorem g_pos : (0 : ℚ) < g := by
  rcases Nat.eq_zero_or_pos g with rfl | h
  · norm_num at hg
  · exact_mod_cast h

/-- values on the half-cell lattice are not changed by rounding -/
private theorem round_lattice (z : ℤ) : roundTo 5 ((z : ℚ) / (2 * g)) = z / (2 * g) := by
  obtain ⟨c, hc⟩ := hg
  have hg := g_pos ⟨c, hc⟩
  have hc' : (10 : ℚ) ^ 5 = 2 * g * c := by exact_mod_cast hc
  have : (z : ℚ) / (2 * g) = ((z * c : ℤ) : ℚ) / 10 ^ 5 := by
    push_cast
    rw [hc']
    have : (c : ℚ) ≠ 0 := by
      intro h
      rw [h] at hc'
      norm_num at hc'
    field_simp
  rw [this, roundTo_fix]

theorem mem_grid {delta v : ℚ} : v ∈ (Setup.mk g delta).grid ↔ CellCentre g v := by
  unfold Setup.grid CellCentre
  simp only [List.mem_map, List.mem_range]
  have hp := g_pos hg
  have key : ∀ j : ℕ, roundTo 5 (1 / (g : ℚ) / 2 + (j : ℚ) * (1 / (g : ℚ))) = (2 * j + 1) / (2 * g) := by
    intro j
    have : 1 / (g : ℚ) / 2 + (j : ℚ) * (1 / (g : ℚ)) = ((2 * j + 1 : ℤ) : ℚ) / (2 * g) := by
      push_cast
      field_simp
      ring
    rw [this, round_lattice hg]
    push_cast
    rfl
  constructor
  · rintro ⟨j, hj, rfl⟩; exact ⟨j, hj, key j⟩
  · rintro ⟨j, hj, rfl⟩; exact ⟨j, hj, key j⟩

/-- what the checks say about the step: it is a whole number of cells up to the rounding -/
theorem check_delta {delta : ℚ} (hc : (Setup.mk g delta).check = .ok ()) :
    ∃ K : ℤ, roundTo 5 delta = K / g ∧ roundTo 5 (-delta) = -(K / g) ∧ |delta * g - K| ≤ 1 / 10 ^ 10 ∧ 0 ≤ K ∧
      ∀ x, CellCentre g x → x + K / g < 1 ∨ 0 < x - K / g := by
  have hp := g_pos hg
  have hg1 : (1 : ℚ) ≤ g := by
    have : 0 < g := by exact_mod_cast hp
    exact_mod_cast this
  unfold Setup.check at hc
  simp only at hc
  by_cases h0 : g = 0
  · rw [if_pos h0] at hc; cases hc
  rw [if_neg h0] at hc
  by_cases h1 : delta ≤ 0
  · rw [if_pos h1] at hc; cases hc
  rw [if_neg h1] at hc
  by_cases h2 : ∀ x ∈ (Setup.mk g delta).grid, x + delta < 1 ∨ 0 < x - delta
  swap
  · rw [if_pos h2] at hc; cases hc
  rw [if_neg (not_not.2 h2)] at hc
  by_cases h3 : (roundTo 10 (delta / (1 / (g : ℚ)))).den ≠ 1
  · rw [if_pos h3] at hc; cases hc
  have h3 : (roundTo 10 (delta / (1 / (g : ℚ)))).den = 1 := not_not.1 h3
  obtain ⟨K, hK⟩ : ∃ K : ℤ, roundTo 10 (delta / (1 / (g : ℚ))) = K :=
    ⟨(roundTo 10 (delta / (1 / (g : ℚ)))).num, (Rat.den_eq_one_iff _).1 h3 |>.symm⟩
  have hdg : delta / (1 / (g : ℚ)) = delta * g := by field_simp
  rw [hdg] at hK
  have hd : |delta * g - K| ≤ 1 / 2 / 10 ^ 10 := by
    unfold roundTo at hK
    have := abs_rint_sub (delta * g * 10 ^ 10)
    have h4 : (rint (delta * g * 10 ^ 10) : ℚ) = K * 10 ^ 10 := by
      rw [← hK]; field_simp
    rw [h4, abs_le] at this
    rw [abs_le]
    constructor <;> linarith [this.1, this.2]
  have hd' : |delta * g - K| ≤ 1 / 10 ^ 10 := le_trans hd (by norm_num)
  have hpos : 0 < delta := not_le.1 h1
  have hK0 : 0 ≤ K := by
    by_contra hneg
    have : (K : ℚ) ≤ -1 := by
      have : K ≤ -1 := by omega
      exact_mod_cast this
    have h5 : 0 < delta * g := mul_pos hpos hp
    rw [abs_le] at hd
    norm_num at hd
    linarith [hd.2]
  obtain ⟨c, hcc⟩ := hg
  have hc' : (10 : ℚ) ^ 5 = 2 * g * c := by exact_mod_cast hcc
  have hcp : (0 : ℚ) < c := by
    by_contra hn
    have h1 : (0 : ℚ) ≤ c := Nat.cast_nonneg c
    have h2 : (c : ℚ) = 0 := le_antisymm (not_lt.1 hn) h1
    rw [h2] at hc'
    norm_num at hc'
  have hc2 : (2 * c : ℚ) ≤ 10 ^ 5 := by
    rw [hc']
    nlinarith
  have hclose : |delta * 10 ^ 5 - ((2 * c * K : ℤ) : ℚ)| < 1 / 2 := by
    push_cast
    rw [hc']
    have : delta * (2 * g * c) - 2 * c * K = 2 * c * (delta * g - K) := by ring
    rw [this, abs_mul, abs_of_pos (by positivity)]
    calc 2 * (c : ℚ) * |delta * g - K| ≤ 10 ^ 5 * (1 / 10 ^ 10) :=
          mul_le_mul hc2 hd' (abs_nonneg _) (by norm_num)
      _ < 1 / 2 := by norm_num
  have e1 : ((2 * c * K : ℤ) : ℚ) / 10 ^ 5 = K / g := by
    push_cast; rw [hc']; field_simp
  refine ⟨K, ?_, ?_, hd', hK0, ?_⟩
  · rw [roundTo_near hclose, e1]
  · rw [roundTo_near (z := -(2 * c * K)) (by
      have : -delta * 10 ^ 5 - ((-(2 * c * K) : ℤ) : ℚ) = -(delta * 10 ^ 5 - ((2 * c * K : ℤ) : ℚ)) := by
        push_cast; ring
      rw [this, abs_neg]; exact hclose)]
    rw [← e1]; push_cast; ring
  · rintro x ⟨j, hj, rfl⟩
    have hm := h2 _ ((mem_grid ⟨c, hcc⟩).2 ⟨j, hj, rfl⟩)
    rw [abs_le] at hd'
    norm_num at hd'
    rcases hm with hm | hm
    · left
      have h5 : (2 * (j : ℚ) + 1) + 2 * (delta * g) < 2 * g := by
        have := mul_lt_mul_of_pos_right hm (show (0 : ℚ) < 2 * g by positivity)
        have e : ((2 * (j : ℚ) + 1) / (2 * g) + delta) * (2 * g) = (2 * (j : ℚ) + 1) + 2 * (delta * g) := by
          field_simp
        rw [e] at this; linarith
      have h6 : (2 * (j : ℚ) + 1) + 2 * K < 2 * g + 1 := by linarith [hd'.1]
      have h7 : (2 * (j : ℤ) + 1) + 2 * K < 2 * g + 1 := by exact_mod_cast h6
      have h8 : (2 * (j : ℤ) + 1) + 2 * K < 2 * g := by omega
      have h9 : (2 * (j : ℚ) + 1) + 2 * K < 2 * g := by exact_mod_cast h8
      have e : (2 * (j : ℚ) + 1) / (2 * g) + K / g = ((2 * (j : ℚ) + 1) + 2 * K) / (2 * g) := by field_simp
      rw [e, div_lt_one (by positivity)]
      exact h9
    · right
      have h5 : 2 * (delta * g) < (2 * (j : ℚ) + 1) := by
        have := mul_lt_mul_of_pos_right hm (show (0 : ℚ) < 2 * g by positivity)
        have e : ((2 * (j : ℚ) + 1) / (2 * g) - delta) * (2 * g) = (2 * (j : ℚ) + 1) - 2 * (delta * g) := by
          field_simp
        rw [e] at this; linarith
      have h6 : 2 * (K : ℚ) < (2 * (j : ℚ) + 1) + 1 := by linarith [hd'.2]
      have h7 : 2 * K < (2 * (j : ℤ) + 1) + 1 := by exact_mod_cast h6
      have h8 : 2 * K < 2 * (j : ℤ) + 1 := by omega
      have h9 : 2 * (K : ℚ) < 2 * (j : ℚ) + 1 := by exact_mod_cast h8
      have e : (2 * (j : ℚ) + 1) / (2 * g) - K / g = ((2 * (j : ℚ) + 1) - 2 * K) / (2 * g) := by field_simp
      rw [e]
      exact div_pos (by linarith) (by positivity)

/-- adding a whole number of cells to a grid value inside the unit interval gives a grid value -/
private theorem centre_add {x : ℚ} {K : ℤ} (hx : CellCentre g x) (h0 : 0 < x + K / g) (h1 : x + K / g < 1) :
    CellCentre g (x + K / g) ∧ roundTo 5 (x + K / g) = x + K / g := by
  have hp := g_pos hg
  obtain ⟨j, hj, rfl⟩ := hx
  have e : (2 * (j : ℚ) + 1) / (2 * g) + K / g = ((2 * ((j : ℤ) + K) + 1 : ℤ) : ℚ) / (2 * g) := by
    push_cast; field_simp; ring
  refine ⟨?_, by rw [e, round_lattice hg]⟩
  rw [e] at h0 h1 ⊢
  rw [div_lt_one (by positivity)] at h1
  have h0 : (0 : ℚ) < ((2 * ((j : ℤ) + K) + 1 : ℤ) : ℚ) := by
    by_contra hn
    have := div_nonpos_of_nonpos_of_nonneg (not_lt.1 hn) (show (0 : ℚ) ≤ 2 * g by positivity)
    linarith
  have h0 : 0 < 2 * ((j : ℤ) + K) + 1 := by exact_mod_cast h0
  have h1 : 2 * ((j : ℤ) + K) + 1 < 2 * (g : ℤ) := by exact_mod_cast h1
  refine ⟨((j : ℤ) + K).toNat, by omega, ?_⟩
  have : (((((j : ℤ) + K).toNat : ℕ) : ℤ) : ℚ) = (((j : ℤ) + K : ℤ) : ℚ) := by
    rw [Int.toNat_of_nonneg (by omega)]
  rw [Int.cast_natCast] at this
  rw [this]
  push_cast
  rfl

private theorem move_spec {delta : ℚ} {K : ℤ} (h1 : roundTo 5 delta = K / g) (h2 : roundTo 5 (-delta) = -(K / g))
    (hm : ∀ x, CellCentre g x → x + K / g < 1 ∨ 0 < x - K / g) (hK : 0 ≤ K) {n : ℕ} (first : Bool) {x : Fin n → ℚ}
    (hx : ∀ i, CellCentre g (x i)) (i : Fin n) :
    ∃ st, (Setup.mk g delta).move first x i = some st ∧ st.factor = i ∧
      (st.delta = K / g ∨ st.delta = -(K / g)) ∧ st.x = Function.update x i (x i + st.delta) ∧
      ∀ k, CellCentre g (st.x k) := by
  have hp := g_pos hg
  have hb : 0 < x i ∧ x i < 1 := by
    obtain ⟨j, hj, e⟩ := hx i
    rw [e, div_lt_one (by positivity)]
    refine ⟨by positivity, ?_⟩
    have : (j : ℚ) + 1 ≤ g := by exact_mod_cast hj
    linarith
  have hKg : (0 : ℚ) ≤ K / g := div_nonneg (by exact_mod_cast hK) hp.le
  have hex : ∃ d ∈ ((if first then [-delta, delta] else [delta, -delta]).map (roundTo 5)),
      0 < x i + d ∧ x i + d < 1 := by
    rcases hm _ (hx i) with h | h
    · refine ⟨K / g, ?_, by linarith, h⟩
      cases first <;> simp [h1]
    · refine ⟨-(K / g), ?_, by linarith, by linarith⟩
      cases first <;> simp [h2]
  unfold Setup.move
  simp only
  cases hf : ((if first then [-delta, delta] else [delta, -delta]).map (roundTo 5)).find?
      (fun d => decide (0 < x i + d ∧ x i + d < 1)) with
  | none =>
    rw [List.find?_eq_none] at hf
    obtain ⟨d, hd, hd'⟩ := hex
    exact absurd hd' (by simpa using hf d hd)
  | some d =>
    have hd := List.find?_some hf
    have hmem := List.mem_of_find?_eq_some hf
    simp only [decide_eq_true_eq] at hd
    have hdv : d = K / g ∨ d = -(K / g) := by
      cases first <;> simp [h1, h2] at hmem <;> tauto
    have hc : CellCentre g (x i + d) ∧ roundTo 5 (x i + d) = x i + d := by
      rcases hdv with rfl | rfl
      · exact centre_add hg (hx i) hd.1 hd.2
      · have e : x i + -((K : ℚ) / g) = x i + ((-K : ℤ) : ℚ) / g := by push_cast; ring
        rw [e] at hd ⊢
        exact centre_add hg (hx i) hd.1 hd.2
    refine ⟨_, rfl, rfl, hdv, by rw [hc.2], ?_⟩
    intro k
    rw [hc.2]
    by_cases hk : k = i
    · subst hk; simpa using hc.1
    · simpa [hk] using hx k

end

/-! ### C44 -/

/-- **C44.** With accepted settings (and cells that are multiples of the rounding unit), for every seed on the grid,
every order of the factors and every order of the signs, the trajectory raises nothing and yields one point per factor.
Point after point exactly one factor moves, by the same step up or down, each factor moves exactly once, and all the
points are on the grid, inside the unit cube. The step is the one set, up to the 1e-10 cells the checks allow. -/
theorem trajectory_ok {s : Setup} (hg : 2 * s.density ∣ 10 ^ 5) (hc : s.check = .ok ()) {n : ℕ} (hn : 2 ≤ n)
    {choices : List (Fin n × Bool)} (hperm : (choices.map Prod.fst).Perm (List.finRange n)) {seed : Fin n → ℚ}
    (hs : ∀ i, seed i ∈ s.grid) :
    ∃ (l : List (Step n)) (step : ℚ), s.trajectory choices seed = (l, none) ∧ l.length = n ∧
      (∀ i : Fin n, (l.map Step.factor).count i = 1) ∧ l.map Step.factor = choices.map Prod.fst ∧
      Walk step seed l ∧ |step - s.delta| * s.density ≤ 1 / 10 ^ 10 ∧
      ∀ st ∈ l, ∀ i, CellCentre s.density (st.x i) ∧ st.x i ∈ s.grid ∧ 0 < st.x i ∧ st.x i < 1 := by
  obtain ⟨g, delta⟩ := s
  simp only at hg
  have hp := g_pos hg
  obtain ⟨K, h1, h2, h3, h4, h5⟩ := check_delta hg hc
  have main : ∀ (choices : List (Fin n × Bool)) (x : Fin n → ℚ), (∀ i, CellCentre g (x i)) →
      ∃ l : List (Step n), (Setup.mk g delta).moves choices x = (l, none) ∧
        l.map Step.factor = choices.map Prod.fst ∧ Walk ((K : ℚ) / g) x l ∧
        ∀ st ∈ l, ∀ i, CellCentre g (st.x i) := by
    intro choices
    induction choices with
    | nil => intro x _; exact ⟨[], rfl, rfl, trivial, by intro st h; cases h⟩
    | cons c choices ih =>
      intro x hx
      obtain ⟨i, first⟩ := c
      obtain ⟨st, e1, e2, e3, e4, e5⟩ := move_spec hg h1 h2 h5 h4 first hx i
      obtain ⟨l, f1, f2, f3, f4⟩ := ih st.x e5
      refine ⟨st :: l, ?_, ?_, ⟨e3, ?_, ?_, f3⟩, ?_⟩
      · unfold Setup.moves
        rw [e1]
        simp only [f1]
      · simp [e2, f2]
      · rw [e4, e2]; simp
      · intro k hk
        rw [e4]
        rw [e2] at hk
        simp [hk]
      · intro t ht k
        rcases List.mem_cons.1 ht with rfl | ht
        · exact e5 k
        · exact f4 t ht k
  obtain ⟨l, f1, f2, f3, f4⟩ := main choices seed (fun i => (mem_grid hg).1 (hs i))
  refine ⟨l, K / g, ?_, ?_, ?_, f2, f3, ?_, ?_⟩
  · unfold Setup.trajectory
    rw [if_neg (by omega), if_neg (not_not.2 hs), f1]
  · have := congrArg List.length f2
    simp only [List.length_map] at this
    rw [this]
    have := hperm.length_eq
    simpa using this
  · intro i
    rw [f2, hperm.count_eq]
    exact List.count_eq_one_of_mem (List.nodup_finRange n) (List.mem_finRange i)
  · have e : |(K : ℚ) / g - delta| * g = |delta * g - K| := by
      rw [← abs_of_pos hp, ← abs_mul, abs_of_pos hp, abs_sub_comm]
      congr 1
      field_simp
    rw [e]; exact h3
  · intro st hst i
    have h := f4 st hst i
    refine ⟨h, (mem_grid hg).2 h, ?_⟩
    obtain ⟨j, hj, e⟩ := h
    rw [e, div_lt_one (by positivity)]
    refine ⟨by positivity, ?_⟩
    have : (j : ℚ) + 1 ≤ g := by exact_mod_cast hj
    linarith

/-- the settings in the code are accepted -/
theorem code_check : Setup.code.check = .ok () := by
  unfold Setup.check
  rw [if_neg (by decide), if_neg (by decide +kernel), if_neg (by decide +kernel), if_neg (by decide +kernel)]

/-- the grid of the code -/
theorem code_grid : Setup.code.grid = [1/20, 3/20, 1/4, 7/20, 9/20, 11/20, 13/20, 3/4, 17/20, 19/20] := by
  decide +kernel

/-- the step of a factor with the settings in the code -/
private def codeStep (v : ℚ) : ℚ := if v < 1 / 2 then 1 / 2 else -(1 / 2)

private theorem code_move {n : ℕ} (first : Bool) {x : Fin n → ℚ} {i : Fin n} (hx : x i ∈ Setup.code.grid) :
    Setup.code.move first x i =
      some { factor := i, delta := codeStep (x i), x := Function.update x i (x i + codeStep (x i)) } ∧
    x i + codeStep (x i) ∈ Setup.code.grid := by
  have h1 : roundTo 5 (1 / 2) = 1 / 2 := by decide +kernel
  have h2 : roundTo 5 (-(1 / 2)) = -(1 / 2) := by decide +kernel
  have key : ∀ v ∈ Setup.code.grid, v + codeStep v ∈ Setup.code.grid ∧ roundTo 5 (v + codeStep v) = v + codeStep v ∧
      (0 < v ∧ v < 1 ∧ v ≠ 1 / 2) := by
    rw [code_grid]; decide +kernel
  obtain ⟨k1, k2, k3, k4, k5⟩ := key _ hx
  refine ⟨?_, k1⟩
  have hf : ((if first then [-(1 / 2 : ℚ), 1 / 2] else [1 / 2, -(1 / 2)]).map (roundTo 5)).find?
      (fun d => decide (0 < x i + d ∧ x i + d < 1)) = some (codeStep (x i)) := by
    unfold codeStep
    by_cases h : x i < 1 / 2
    · have a1 : ¬ (0 < x i + -(1 / 2)) := by linarith
      have a2 : 0 < x i + 1 / 2 ∧ x i + 1 / 2 < 1 := ⟨by linarith, by linarith⟩
      rw [if_pos h]
      cases first
      · rw [if_neg (by decide)]
        simp only [List.map_cons, h1, List.find?_cons, decide_eq_true a2]
      · rw [if_pos rfl]
        simp only [List.map_cons, h1, h2, List.find?_cons, decide_eq_true a2,
          decide_eq_false (fun hh : 0 < x i + -(1 / 2) ∧ x i + -(1 / 2) < 1 => a1 hh.1)]
    · have hgt : 1 / 2 < x i := lt_of_le_of_ne (not_lt.1 h) (Ne.symm k5)
      have a1 : ¬ (x i + 1 / 2 < 1) := by linarith
      have a2 : 0 < x i + -(1 / 2) ∧ x i + -(1 / 2) < 1 := ⟨by linarith, by linarith⟩
      rw [if_neg h]
      cases first
      · rw [if_neg (by decide)]
        simp only [List.map_cons, h1, h2, List.find?_cons, decide_eq_true a2,
          decide_eq_false (fun hh : 0 < x i + 1 / 2 ∧ x i + 1 / 2 < 1 => a1 hh.2)]
      · rw [if_pos rfl]
        simp only [List.map_cons, h2, List.find?_cons, decide_eq_true a2]
  unfold Setup.move
  simp only [Setup.code] at hf ⊢
  rw [hf]
  simp only [k2]

private theorem code_moves {n : ℕ} (choices : List (Fin n × Bool)) : ∀ (x : Fin n → ℚ), (∀ i, x i ∈ Setup.code.grid) →
    (choices.map Prod.fst).Nodup →
    ∃ l : List (Step n), (∀ choices' : List (Fin n × Bool), choices'.map Prod.fst = choices.map Prod.fst →
        Setup.code.moves choices' x = (l, none)) ∧ l.map Step.factor = choices.map Prod.fst ∧ Walk (1 / 2) x l ∧
      (∀ st ∈ l, ∀ i, st.x i ∈ Setup.code.grid) ∧ ∀ st ∈ l, st.delta = codeStep (x st.factor) := by
  induction choices with
  | nil =>
    intro x _ _
    refine ⟨[], ?_, rfl, trivial, (by intro st h; cases h), by intro st h; cases h⟩
    intro c hc
    obtain rfl : c = [] := by simpa using hc
    rfl
  | cons c choices ih =>
    intro x hx hnd
    obtain ⟨i, first⟩ := c
    simp only [List.map_cons, List.nodup_cons] at hnd
    have hx' : ∀ k, Function.update x i (x i + codeStep (x i)) k ∈ Setup.code.grid := by
      intro k
      by_cases hk : k = i
      · subst hk; simpa using (code_move true (hx k)).2
      · simpa [hk] using hx k
    obtain ⟨l, f1, f2, f3, f4, f5⟩ := ih _ hx' hnd.2
    refine ⟨⟨i, codeStep (x i), Function.update x i (x i + codeStep (x i))⟩ :: l, ?_, by simp [f2], ?_, ?_, ?_⟩
    · intro c hc
      cases c with
      | nil => cases hc
      | cons c0 c =>
        obtain ⟨i', first'⟩ := c0
        simp only [List.map_cons, List.cons.injEq] at hc
        obtain ⟨rfl, hc⟩ := hc
        unfold Setup.moves
        rw [(code_move first' (hx i')).1]
        simp only [f1 c hc]
    · refine ⟨?_, by simp, ?_, f3⟩
      · simp only [codeStep]
        by_cases h : x i < 1 / 2
        · rw [if_pos h]; exact .inl rfl
        · rw [if_neg h]; exact .inr rfl
      · intro k hk
        simp only at hk
        simp [hk]
    · intro st hst k
      rcases List.mem_cons.1 hst with rfl | hst
      · exact hx' k
      · exact f4 st hst k
    · intro st hst
      rcases List.mem_cons.1 hst with rfl | hst
      · rfl
      · have hne : st.factor ≠ i := by
          intro h
          apply hnd.1
          rw [← f2, ← h]
          exact List.mem_map_of_mem hst
        rw [f5 st hst]
        simp [hne]

/-- **C44, the settings in the code.** Every step is 0.5 up or down, and as only one direction stays inside the unit
interval the random order of the signs has no influence: a factor below 0.5 goes up, one above 0.5 goes down. -/
theorem trajectory_code {n : ℕ} (hn : 2 ≤ n) {choices : List (Fin n × Bool)}
    (hperm : (choices.map Prod.fst).Perm (List.finRange n)) {seed : Fin n → ℚ}
    (hs : ∀ i, seed i ∈ Setup.code.grid) :
    ∃ l : List (Step n), Setup.code.trajectory choices seed = (l, none) ∧ l.length = n ∧
      (∀ i : Fin n, (l.map Step.factor).count i = 1) ∧ Walk (1 / 2) seed l ∧
      (∀ st ∈ l, ∀ i, st.x i ∈ Setup.code.grid) ∧
      (∀ choices' : List (Fin n × Bool), choices'.map Prod.fst = choices.map Prod.fst →
        Setup.code.trajectory choices' seed = (l, none)) ∧
      ∀ st ∈ l, st.delta = if seed st.factor < 1 / 2 then 1 / 2 else -(1 / 2) := by
  have hnd : (choices.map Prod.fst).Nodup := hperm.nodup_iff.2 (List.nodup_finRange n)
  obtain ⟨l, f1, f2, f3, f4, f5⟩ := code_moves choices seed hs hnd
  have ht : ∀ choices' : List (Fin n × Bool), choices'.map Prod.fst = choices.map Prod.fst →
      Setup.code.trajectory choices' seed = (l, none) := by
    intro c hc
    unfold Setup.trajectory
    rw [if_neg (by omega), if_neg (not_not.2 hs), f1 c hc]
  refine ⟨l, ht _ rfl, ?_, ?_, f3, f4, ht, f5⟩
  · have := congrArg List.length f2
    simp only [List.length_map] at this
    rw [this]
    have := hperm.length_eq
    simpa using this
  · intro i
    rw [f2, hperm.count_eq]
    exact List.count_eq_one_of_mem (List.nodup_finRange n) (List.mem_finRange i)

/-! ### the seed -/

private theorem find_min {l : List ℚ} {f : ℚ → ℚ} (hl : l ≠ []) :
    ∃ m x, (l.map f).min? = some m ∧ l.find? (fun y => decide (f y = m)) = some x ∧ x ∈ l ∧ ∀ y ∈ l, f x ≤ f y := by
  cases hm : (l.map f).min? with
  | none => rw [List.min?_eq_none_iff] at hm; simp [hl] at hm
  | some m =>
    rw [List.min?_eq_some_iff] at hm
    obtain ⟨h1, h2⟩ := hm
    obtain ⟨z, hz, hzm⟩ := List.mem_map.1 h1
    cases hf : l.find? (fun y => decide (f y = m)) with
    | none =>
      rw [List.find?_eq_none] at hf
      exact absurd hzm (by simpa using hf z hz)
    | some x =>
      have hx := List.find?_some hf
      simp only [decide_eq_true_eq] at hx
      refine ⟨m, x, rfl, hf, List.mem_of_find?_eq_some hf, ?_⟩
      intro y hy
      rw [hx]
      exact h2 _ (List.mem_map_of_mem hy)

/-- **C44.** The seed of a value is a grid point at the smallest distance; for a value in the unit interval it is at most
half a cell away. -/
theorem seed_nearest {s : Setup} (hg : 2 * s.density ∣ 10 ^ 5) (v : ℚ) :
    ∃ x, s.seed v = some x ∧ x ∈ s.grid ∧ CellCentre s.density x ∧ (∀ y ∈ s.grid, |x - v| ≤ |y - v|) ∧
      (0 ≤ v → v ≤ 1 → |x - v| ≤ 1 / (2 * s.density)) := by
  obtain ⟨g, delta⟩ := s
  simp only at hg ⊢
  have hp := g_pos hg
  have hgp : 0 < g := by exact_mod_cast hp
  have hne : (Setup.mk g delta).grid ≠ [] := by
    intro h
    have := (mem_grid hg (delta := delta) (v := (2 * (0 : ℕ) + 1) / (2 * g))).2 ⟨0, hgp, rfl⟩
    rw [h] at this; cases this
  obtain ⟨m, x, h1, h2, h3, h4⟩ := find_min (f := fun x => |x - v|) hne
  refine ⟨x, ?_, h3, (mem_grid hg).1 h3, h4, ?_⟩
  · unfold Setup.seed
    rw [h1]
    exact h2
  · intro hv0 hv1
    have key : ∃ y, CellCentre g y ∧ |y - v| ≤ 1 / (2 * g) := by
      have hvg : 0 ≤ v * g := mul_nonneg hv0 hp.le
      by_cases hv : v = 1
      · refine ⟨(2 * (g - 1 : ℕ) + 1) / (2 * g), ⟨g - 1, by omega, rfl⟩, ?_⟩
        rw [Nat.cast_sub (by omega), hv]
        have e : (2 * ((g : ℚ) - (1 : ℕ)) + 1) / (2 * g) - 1 = -(1 / (2 * g)) := by
          push_cast; field_simp; ring
        rw [e, abs_neg, abs_of_pos (by positivity)]
      · have hlt : v < 1 := lt_of_le_of_ne hv1 hv
        have hfl : 0 ≤ ⌊v * g⌋ := Int.floor_nonneg.2 hvg
        have hf1 := Int.floor_le (v * g)
        have hf2 := Int.lt_floor_add_one (v * g)
        have hfc : ((⌊v * g⌋.toNat : ℕ) : ℚ) = (⌊v * g⌋ : ℚ) := by
          have : ((⌊v * g⌋.toNat : ℤ) : ℚ) = (⌊v * g⌋ : ℚ) := by rw [Int.toNat_of_nonneg hfl]
          rwa [Int.cast_natCast] at this
        refine ⟨(2 * (⌊v * g⌋.toNat : ℕ) + 1) / (2 * g), ⟨⌊v * g⌋.toNat, ?_, rfl⟩, ?_⟩
        · have : (⌊v * g⌋ : ℚ) < g := by nlinarith
          have : ⌊v * g⌋ < (g : ℤ) := by exact_mod_cast this
          omega
        · rw [hfc]
          have e : (2 * (⌊v * g⌋ : ℚ) + 1) / (2 * g) - v = (2 * (⌊v * g⌋ : ℚ) + 1 - 2 * (v * g)) / (2 * g) := by
            field_simp
          rw [e, abs_div, abs_of_pos (show (0 : ℚ) < 2 * g by positivity)]
          apply div_le_div_of_nonneg_right _ (by positivity)
          rw [abs_le]
          constructor <;> linarith
    obtain ⟨y, hy1, hy2⟩ := key
    exact le_trans (h4 y ((mem_grid hg).2 hy1)) hy2

/-! ### concrete cases -/

example : 2 * Setup.code.density ∣ 10 ^ 5 := by decide

/-- a trajectory of three factors: the second, the first and the third move -/
example : (Setup.code.trajectory [(1, true), (0, false), (2, true)] ![1/20, 19/20, 1/4]).1.map
      (fun st => (st.factor, st.delta, List.ofFn st.x)) =
    [(1, -1/2, [1/20, 9/20, 1/4]), (0, 1/2, [11/20, 9/20, 1/4]), (2, 1/2, [11/20, 9/20, 3/4])] := by decide +kernel

/-- another accepted setting, in which a factor may go both ways -/
example : (Setup.mk 4 (1/4)).check = .ok () ∧ 2 * 4 ∣ 10 ^ 5 ∧
    (Setup.mk 4 (1/4)).move true ![3/8, 1/8] 0 ≠ none := by
  refine ⟨?_, by decide, by decide +kernel⟩
  unfold Setup.check
  rw [if_neg (by decide), if_neg (by decide +kernel), if_neg (by decide +kernel), if_neg (by decide +kernel)]

example : Setup.code.seed (1/2) = some (9/20) ∧ Setup.code.seed 2 = some (19/20) := by decide +kernel

/-- **Finding.** The checks in the constructor do not ensure that the walk stays on the grid if the cells are not
multiples of the rounding unit: with 7 cells and a step of one cell, 0.21429 + 0.14286 is 0.35715, and the grid point is
0.35714. (The settings in the code are not affected.) -/
theorem rounding_leaves_grid :
    (Setup.mk 7 (1/7)).check = .ok () ∧ (21429/100000 : ℚ) ∈ (Setup.mk 7 (1/7)).grid ∧
    ((Setup.mk 7 (1/7)).move false ![21429/100000, 1/2] 0).map (fun st => st.x 0) = some (35715/100000) ∧
    (35715/100000 : ℚ) ∉ (Setup.mk 7 (1/7)).grid := by
  refine ⟨?_, by decide +kernel, by decide +kernel, by decide +kernel⟩
  unfold Setup.check
  rw [if_neg (by decide), if_neg (by decide +kernel), if_neg (by decide +kernel), if_neg (by decide +kernel)]

end Verif.Fwork.Morris
