/-
Model of the initial densities (pygmo_fwork/global_model.py, pygmo_fwork/pygmol/model.py), property C33.
-/
import Verif.Plaschem.DictLemmas
import Verif.Pygmol.EqnsReg

namespace Verif.Pygmol
open Finset
open Verif.Plaschem (Str Dict)
open Verif.Plaschem
namespace Data
variable {ns nr : ℕ} (D : Data ns nr)

/-- global_model.py:101, model.py:107. -/
noncomputable def nTot : ℝ := D.p0 / (D.C.kB * D.tempG)
/-- global_model.py:103, model.py:109: density of negative charge carried by ions. -/
noncomputable def nNegCharge (negIon : ℝ) : ℝ :=
  D.nTot * -(∑ i ∈ univ.filter D.neg, (D.charge i : ℝ)) * negIon
/-- global_model.py:102-105, model.py:108-111: positive charge density. -/
noncomputable def nPosCharge (ion negIon : ℝ) : ℝ := D.nNegCharge negIon + D.nTot * ion

/-- global_model.py:107-112, model.py:113-118: densities before the feed gas is filled in. -/
noncomputable def n1 (ion negIon nonFeed : ℝ) (i : Fin ns) : ℝ :=
  if D.pos i then D.nPosCharge ion negIon / ∑ k ∈ univ.filter D.pos, (D.charge k : ℝ)
  else if D.neg i then -D.nNegCharge negIon / ∑ k ∈ univ.filter D.neg, (D.charge k : ℝ)
  else if D.feed i = 0 then D.nTot * nonFeed
  else 0

/-- global_model.py:81-121 `generate_initial_n`, model.py:89-126 `_build_y0`: the same code twice. Division by 0
gives inf in numpy; it is assigned to no species then. -/
noncomputable def genN (ion negIon nonFeed : ℝ) (i : Fin ns) : ℝ :=
  if 0 < ∑ k, D.feed k then
    if 0 < D.feed i then
      D.feed i / (∑ k, D.feed k) * (D.nTot - ∑ k, D.n1 ion negIon nonFeed k)
    else D.n1 ion negIon nonFeed i
  else
    if D.neu i then
      (D.nTot - ∑ k ∈ univ.filter (fun k => ¬ D.neu k), D.n1 ion negIon nonFeed k)
        / (univ.filter D.neu).card
    else D.n1 ion negIon nonFeed i

/-- model.py:89-132 `_build_y0`. -/
noncomputable def buildY0 (elTemp ion negIon nonFeed : ℝ) : Y ns :=
  ⟨D.genN ion negIon nonFeed, 3 / 2 * (D.nTot * ion) * elTemp⟩

/-- global_model.py:121-122: the densities by species name. -/
def initDict (names : Fin ns → Str) (n : Fin ns → ℝ) : Dict Str ℝ :=
  (List.finRange ns).map fun i => (names i, n i)

/-- global_model.py:127-141 `validate_initial_n`: `none` stands for the exception. -/
noncomputable def validateInitialN (names : Fin ns → Str) (d : Dict Str ℝ) : Option Unit :=
  if (∀ k ∈ d.keys, ∃ i, names i = k) ∧ ∀ i, names i ∈ d.keys then
    if 0 < ∑ i, (D.charge i : ℝ) * (Dict.get? d (names i)).getD 0 then some () else none
  else none

/-- model.py:134-153 `_y0_from_init_params` with initial densities passed. Species names are pairwise distinct in
a chemistry, and so are the keys of a dictionary, so the comparison of sorted lists is a comparison of sets. -/
noncomputable def y0FromInit (names : Fin ns → Str) (elTemp : ℝ) (d : Dict Str ℝ) : Option (Y ns) :=
  if (∀ k ∈ d.keys, ∃ i, names i = k) ∧ ∀ i, names i ∈ d.keys then
    let n : Fin ns → ℝ := fun i => (Dict.get? d (names i)).getD 0
    some ⟨n, 3 / 2 * (∑ i, n i * (D.charge i : ℝ)) * elTemp⟩
  else none

/-- model.py:155-167 `_validate_y0` (the dimension is right by construction). -/
def validY0 (y : Y ns) : Prop := ¬ (∑ i, y.n i * (D.charge i : ℝ) ≤ 0)

/-! ### C33 -/

variable {D}

theorem initDict_get (names : Fin ns → Str) (hinj : Function.Injective names) (n : Fin ns → ℝ) (i : Fin ns) :
    Dict.get? (initDict names n) (names i) = some (n i) := by
  refine Dict.get?_of_mem (p := (names i, n i)) ?_ (List.mem_map.2 ⟨i, List.mem_finRange i, rfl⟩)
  have : Dict.keys (initDict names n) = (List.finRange ns).map names := by
    simp [Dict.keys, initDict, List.map_map, Function.comp_def]
  rw [this]
  exact (List.nodup_finRange ns).map hinj

theorem initDict_keys (names : Fin ns → Str) (n : Fin ns → ℝ) :
    (∀ k ∈ (initDict names n).keys, ∃ i, names i = k) ∧ ∀ i, names i ∈ (initDict names n).keys := by
  have : Dict.keys (initDict names n) = (List.finRange ns).map names := by
    simp [Dict.keys, initDict, List.map_map, Function.comp_def]
  rw [this]
  constructor
  · intro k hk
    obtain ⟨i, -, rfl⟩ := List.mem_map.1 hk
    exact ⟨i, rfl⟩
  · intro i
    exact List.mem_map.2 ⟨i, List.mem_finRange i, rfl⟩

section
variable {ion negIon nonFeed : ℝ}

theorem feed_pos_iff (hf : ∀ i, 0 ≤ D.feed i) (i : Fin ns) : 0 < D.feed i ↔ D.feed i ≠ 0 :=
  ⟨fun h => h.ne', fun h => lt_of_le_of_ne (hf i) (Ne.symm h)⟩

theorem n1_fed (hneu : ∀ i, D.feed i ≠ 0 → D.charge i = 0) {i : Fin ns} (hi : D.feed i ≠ 0) :
    D.n1 ion negIon nonFeed i = 0 := by
  have h := hneu i hi
  unfold n1
  rw [if_neg (show ¬ D.pos i by unfold pos; omega), if_neg (show ¬ D.neg i by unfold neg; omega), if_neg hi]

end

/-- **C33.** The validation of user-supplied densities by the global model accepts exactly those from which the
solver makes a start vector that passes its own check, whatever the electron temperature; that vector has a
positive electron density. -/
theorem validate_iff_starts (names : Fin ns → Str) (elTemp : ℝ) (d : Dict Str ℝ) :
    D.validateInitialN names d = some () ↔ ∃ y, D.y0FromInit names elTemp d = some y ∧ D.validY0 y ∧
      0 < D.getElectronDensity y none := by
  have hc : ∑ i, (D.charge i : ℝ) * (Dict.get? d (names i)).getD 0 =
      ∑ i, (Dict.get? d (names i)).getD 0 * (D.charge i : ℝ) := sum_congr rfl fun i _ => mul_comm _ _
  unfold validateInitialN y0FromInit
  by_cases h : (∀ k ∈ d.keys, ∃ i, names i = k) ∧ ∀ i, names i ∈ d.keys
  · rw [if_pos h, if_pos h, hc]
    simp only [Option.some.injEq]
    constructor
    · intro h'
      split at h'
      · rename_i hp
        exact ⟨_, rfl, not_le.2 hp, hp⟩
      · cases h'
    · rintro ⟨y, rfl, -, hp⟩
      exact if_pos hp
  · rw [if_neg h, if_neg h]
    constructor
    · intro h'; cases h'
    · rintro ⟨y, hy, -⟩; cases hy

/-- **C33.** The initial densities add up to the set pressure: the fed species are neutral and either there
is a feed or at least a neutral species. -/
theorem init_pressure (hph : D.Physical) (hneu : ∀ i, D.feed i ≠ 0 → D.charge i = 0)
    (hne : ∃ i, D.charge i = 0) (elTemp ion negIon nonFeed : ℝ) :
    D.getTotalPressure (D.buildY0 elTemp ion negIon nonFeed) none = D.p0 := by
  have hsum : ∑ i, D.genN ion negIon nonFeed i = D.nTot := by
    by_cases h : 0 < ∑ k, D.feed k
    · have : ∀ i, D.genN ion negIon nonFeed i = D.feed i / (∑ k, D.feed k) *
          (D.nTot - ∑ k, D.n1 ion negIon nonFeed k) + D.n1 ion negIon nonFeed i := by
        intro i
        unfold genN
        rw [if_pos h]
        by_cases hi : 0 < D.feed i
        · rw [if_pos hi, n1_fed hneu hi.ne', add_zero]
        · have : D.feed i = 0 := le_antisymm (not_lt.1 hi) (hph.feed i)
          rw [if_neg hi, this]; simp
      simp only [this, sum_add_distrib]
      rw [← sum_mul, ← sum_div, div_self h.ne']
      ring
    · have : ∀ i, D.genN ion negIon nonFeed i = if D.neu i then
          (D.nTot - ∑ k ∈ univ.filter (fun k => ¬ D.neu k), D.n1 ion negIon nonFeed k)
            / (univ.filter D.neu).card else D.n1 ion negIon nonFeed i := by
        intro i; unfold genN; rw [if_neg h]
      simp only [this]
      rw [sum_ite, sum_const, nsmul_eq_mul]
      have hc : ((univ.filter D.neu).card : ℝ) ≠ 0 := by
        obtain ⟨i, hi⟩ := hne
        exact Nat.cast_ne_zero.2 (card_pos.2 ⟨i, mem_filter.2 ⟨mem_univ i, hi⟩⟩).ne'
      field_simp
      ring
  have : D.getTotalPressure (D.buildY0 elTemp ion negIon nonFeed) none =
      D.C.kB * D.tempG * ∑ i, D.genN ion negIon nonFeed i := rfl
  rw [this, hsum]
  have := D.C.kB_pos; have := hph.tempG
  unfold nTot
  field_simp

/-- **C33.** The electron density is the requested fraction of the total density (the plasma is quasi-neutral),
if there is a positive ion and only neutral species are fed. -/
theorem init_electrons (hneu : ∀ i, D.feed i ≠ 0 → D.charge i = 0)
    (hpos : ∃ i, 0 < D.charge i) (elTemp ion negIon nonFeed : ℝ) :
    D.getElectronDensity (D.buildY0 elTemp ion negIon nonFeed) none = ion * (D.p0 / (D.C.kB * D.tempG)) := by
  have e : D.getElectronDensity (D.buildY0 elTemp ion negIon nonFeed) none =
    ∑ i, D.genN ion negIon nonFeed i * (D.charge i : ℝ) := rfl
  rw [e]
  have h1 : ∀ i, D.genN ion negIon nonFeed i * (D.charge i : ℝ) =
      (if D.pos i then D.nPosCharge ion negIon / (∑ k ∈ univ.filter D.pos, (D.charge k : ℝ)) * (D.charge i : ℝ)
        else 0) +
      (if D.neg i then -D.nNegCharge negIon / (∑ k ∈ univ.filter D.neg, (D.charge k : ℝ)) * (D.charge i : ℝ)
        else 0) := by
    intro i
    rcases lt_trichotomy (D.charge i) 0 with hi | hi | hi
    · have hp : ¬ D.pos i := not_lt.2 hi.le
      have hz : ¬ D.neu i := hi.ne
      have hf : ¬ 0 < D.feed i := fun h => hi.ne (hneu i h.ne')
      rw [if_neg hp, if_pos (show D.neg i from hi), zero_add]
      unfold genN n1
      simp only [if_neg hp, if_pos (show D.neg i from hi), if_neg hz, if_neg hf, ite_self]
    · rw [if_neg (show ¬ D.pos i by unfold pos; omega), if_neg (show ¬ D.neg i by unfold neg; omega), hi]
      simp
    · have hp : ¬ D.neg i := not_lt.2 hi.le
      have hz : ¬ D.neu i := hi.ne'
      have hf : ¬ 0 < D.feed i := fun h => hi.ne' (hneu i h.ne')
      rw [if_neg hp, if_pos (show D.pos i from hi), add_zero]
      unfold genN n1
      simp only [if_pos (show D.pos i from hi), if_neg hz, if_neg hf, ite_self]
  simp only [h1, sum_add_distrib, ← sum_filter]
  rw [← mul_sum, ← mul_sum]
  have hP : (0 : ℝ) < ∑ k ∈ univ.filter D.pos, (D.charge k : ℝ) := by
    obtain ⟨i, hi⟩ := hpos
    exact sum_pos (fun k hk => by exact_mod_cast (mem_filter.1 hk).2) ⟨i, mem_filter.2 ⟨mem_univ i, hi⟩⟩
  rw [div_mul_cancel₀ _ hP.ne']
  have hN : -D.nNegCharge negIon / (∑ k ∈ univ.filter D.neg, (D.charge k : ℝ)) *
      (∑ k ∈ univ.filter D.neg, (D.charge k : ℝ)) = -D.nNegCharge negIon := by
    by_cases h0 : (∑ k ∈ univ.filter D.neg, (D.charge k : ℝ)) = 0
    · unfold nNegCharge; rw [h0]; simp
    · rw [div_mul_cancel₀ _ h0]
  rw [hN]
  unfold nPosCharge nTot
  ring

/-- **C33.** No density is negative and species other than the feed gas have the requested fractions, if these
are small enough for all of them to fit in. -/
theorem init_nonneg (hph : D.Physical) (hneu : ∀ i, D.feed i ≠ 0 → D.charge i = 0)
    {ion negIon nonFeed : ℝ} (hi : 0 ≤ ion) (hg : 0 ≤ negIon) (hf : 0 ≤ nonFeed)
    (hsmall : ion + negIon * (∑ i ∈ univ.filter D.neg, (1 - (D.charge i : ℝ))) +
      nonFeed * (univ.filter (fun i => D.charge i = 0 ∧ D.feed i = 0)).card ≤ 1) (i : Fin ns) :
    0 ≤ D.genN ion negIon nonFeed i ∧
    (D.charge i < 0 → D.genN ion negIon nonFeed i = negIon * (D.p0 / (D.C.kB * D.tempG))) ∧
    (D.charge i = 0 → D.feed i = 0 → 0 < ∑ k, D.feed k →
      D.genN ion negIon nonFeed i = nonFeed * (D.p0 / (D.C.kB * D.tempG))) := by
  have hT : 0 < D.nTot := by
    have := D.C.kB_pos; have := hph.tempG; have := hph.p0
    unfold nTot; positivity
  have hQ : 0 ≤ -(∑ k ∈ univ.filter D.neg, (D.charge k : ℝ)) := by
    rw [neg_nonneg]
    exact sum_nonpos fun k hk => by exact_mod_cast (le_of_lt (mem_filter.1 hk).2)
  have hNeg : 0 ≤ D.nNegCharge negIon := by unfold nNegCharge; positivity
  have hPos : 0 ≤ D.nPosCharge ion negIon := by unfold nPosCharge; positivity
  have hP : 0 ≤ ∑ k ∈ univ.filter D.pos, (D.charge k : ℝ) :=
    sum_nonneg fun k hk => by exact_mod_cast (le_of_lt (mem_filter.1 hk).2)
  have hneg1 : ∀ k, D.neg k → -D.nNegCharge negIon / (∑ k ∈ univ.filter D.neg, (D.charge k : ℝ)) =
      D.nTot * negIon := by
    intro k hk
    have h0 : (∑ k ∈ univ.filter D.neg, (D.charge k : ℝ)) < 0 :=
      sum_neg (fun k hk => by exact_mod_cast (mem_filter.1 hk).2) ⟨k, mem_filter.2 ⟨mem_univ k, hk⟩⟩
    unfold nNegCharge
    rw [div_eq_iff h0.ne]; ring
  have hn1 : ∀ k, 0 ≤ D.n1 ion negIon nonFeed k := by
    intro k
    unfold n1
    by_cases h1 : D.pos k
    · rw [if_pos h1]; positivity
    · rw [if_neg h1]
      by_cases h2 : D.neg k
      · rw [if_pos h2, hneg1 k h2]; positivity
      · rw [if_neg h2]; split_ifs <;> positivity
  -- the total of what is not feed gas
  have hsum : ∑ k, D.n1 ion negIon nonFeed k ≤ D.nTot := by
    have h1 : ∀ k, D.n1 ion negIon nonFeed k =
        (if D.pos k then D.nPosCharge ion negIon / ∑ k ∈ univ.filter D.pos, (D.charge k : ℝ) else 0) +
        (if D.neg k then D.nTot * negIon else 0) +
        (if D.charge k = 0 ∧ D.feed k = 0 then D.nTot * nonFeed else 0) := by
      intro k
      unfold n1
      rcases lt_trichotomy (D.charge k) 0 with h | h | h
      · rw [if_neg (show ¬ D.pos k from not_lt.2 h.le), if_pos (show D.neg k from h),
          if_neg (show ¬ (D.charge k = 0 ∧ D.feed k = 0) from fun hc => h.ne hc.1), hneg1 k h]
        simp [show ¬ D.pos k from not_lt.2 h.le, show D.neg k from h]
      · have a : ¬ D.pos k := by unfold pos; omega
        have b : ¬ D.neg k := by unfold neg; omega
        simp [a, b, h]
      · have a : D.pos k := h
        have b : ¬ D.neg k := not_lt.2 h.le
        have c : ¬ (D.charge k = 0) := h.ne'
        simp [a, b, c]
    simp only [h1, sum_add_distrib, ← sum_filter, sum_const, nsmul_eq_mul]
    have h2 : ((univ.filter D.pos).card : ℝ) *
        (D.nPosCharge ion negIon / ∑ k ∈ univ.filter D.pos, (D.charge k : ℝ)) ≤ D.nPosCharge ion negIon := by
      have h3 : ((univ.filter D.pos).card : ℝ) ≤ ∑ k ∈ univ.filter D.pos, (D.charge k : ℝ) := by
        rw [card_eq_sum_ones, Nat.cast_sum]
        refine sum_le_sum fun k hk => ?_
        have : 0 < D.charge k := (mem_filter.1 hk).2
        have : (1 : ℤ) ≤ D.charge k := this
        exact_mod_cast this
      rcases hP.eq_or_lt with h4 | h4
      · rw [← h4]; simpa using hPos
      · rw [← mul_div_assoc, div_le_iff₀ h4, mul_comm]
        exact mul_le_mul_of_nonneg_left h3 hPos
    have h5 : (∑ i ∈ univ.filter D.neg, (1 - (D.charge i : ℝ))) =
        ((univ.filter D.neg).card : ℝ) - ∑ i ∈ univ.filter D.neg, (D.charge i : ℝ) := by
      rw [sum_sub_distrib, sum_const, nsmul_eq_mul, mul_one]
    rw [h5] at hsmall
    have h6 := mul_le_mul_of_nonneg_left hsmall hT.le
    unfold nPosCharge nNegCharge at h2
    unfold nPosCharge nNegCharge
    nlinarith
  refine ⟨?_, fun h => ?_, fun h hz hF => ?_⟩
  · unfold genN
    by_cases hF : 0 < ∑ k, D.feed k
    · rw [if_pos hF]
      by_cases h : 0 < D.feed i
      · rw [if_pos h]
        exact mul_nonneg (by positivity) (by linarith)
      · rw [if_neg h]; exact hn1 i
    · rw [if_neg hF]
      by_cases h : D.neu i
      · rw [if_pos h]
        refine div_nonneg (sub_nonneg.2 (le_trans ?_ hsum)) (Nat.cast_nonneg _)
        exact sum_le_sum_of_subset_of_nonneg (filter_subset _ _) fun k _ _ => hn1 k
      · rw [if_neg h]; exact hn1 i
  · have hp : ¬ D.pos i := not_lt.2 h.le
    have hz : ¬ D.neu i := h.ne
    have hf : ¬ 0 < D.feed i := fun hc => h.ne (hneu i hc.ne')
    unfold genN n1
    simp only [if_neg hp, if_pos (show D.neg i from h), if_neg hz, if_neg hf, ite_self]
    rw [hneg1 i h, mul_comm]; rfl
  · have a : ¬ D.pos i := by unfold pos; omega
    have b : ¬ D.neg i := by unfold neg; omega
    unfold genN n1
    rw [if_pos hF, if_neg (by rw [hz]; exact lt_irrefl 0), if_neg a, if_neg b, if_pos hz, mul_comm]; rfl

/-- **C33.** The generated densities pass the validation by name, and the backend started with them and the
electron temperature `T` starts from the same vector as the stand-alone backend, with the electron temperature
`T` if that is above the gas temperature. -/
theorem init_roundtrip (hph : D.Physical) (hneu : ∀ i, D.feed i ≠ 0 → D.charge i = 0)
    (hpos : ∃ i, 0 < D.charge i) {names : Fin ns → Str} (hinj : Function.Injective names)
    {elTemp ion negIon nonFeed : ℝ} (hion : 0 < ion) :
    let d := initDict names (D.genN ion negIon nonFeed)
    D.validateInitialN names d = some () ∧
    D.y0FromInit names elTemp d = some (D.buildY0 elTemp ion negIon nonFeed) ∧
    D.validY0 (D.buildY0 elTemp ion negIon nonFeed) ∧
    D.getElectronTemperature (D.buildY0 elTemp ion negIon nonFeed) none none =
      max elTemp (D.C.kB * D.tempG / D.C.e) := by
  intro d
  have hT : 0 < D.nTot := by
    have := D.C.kB_pos; have := hph.tempG; have := hph.p0
    unfold nTot; positivity
  have hel := init_electrons hneu hpos elTemp ion negIon nonFeed
  have hel' : ∑ i, D.genN ion negIon nonFeed i * (D.charge i : ℝ) = ion * D.nTot := hel
  have hg : ∀ i, (Dict.get? d (names i)).getD 0 = D.genN ion negIon nonFeed i := fun i => by
    rw [initDict_get names hinj]; rfl
  have hk := initDict_keys names (D.genN ion negIon nonFeed)
  refine ⟨?_, ?_, ?_, ?_⟩
  · unfold validateInitialN
    rw [if_pos hk, if_pos]
    simp only [hg]
    have : ∑ i, (D.charge i : ℝ) * D.genN ion negIon nonFeed i = ion * D.nTot := by
      rw [← hel']; exact sum_congr rfl fun i _ => mul_comm _ _
    rw [this]; positivity
  · unfold y0FromInit
    rw [if_pos hk]
    simp only [hg, hel']
    unfold buildY0
    rw [mul_comm ion]
  · unfold validY0
    rw [not_le]
    have : ∑ i, (D.buildY0 elTemp ion negIon nonFeed).n i * (D.charge i : ℝ) = ion * D.nTot := hel'
    rw [this]; positivity
  · have e1 : D.getElectronTemperature (D.buildY0 elTemp ion negIon nonFeed) none none =
        max ((3 / 2 * (D.nTot * ion) * elTemp) /
          (D.getElectronDensity (D.buildY0 elTemp ion negIon nonFeed) none) * 2 / 3)
          (D.tempG * D.C.kB / D.C.e) := rfl
    rw [e1, hel]
    have e2 : ion * (D.p0 / (D.C.kB * D.tempG)) = ion * D.nTot := rfl
    rw [e2, mul_comm D.tempG]
    congr 1
    field_simp

end Data

/-! ### examples and findings -/
namespace Demo

/-- the argon model: Ar fed, Ar+ and Ar* with small fractions -/
example : argon.getTotalPressure (argon.buildY0 1 0.01 0.01 0.01) none = 100 :=
  Data.init_pressure physical (fun i hi => by revert hi; fin_cases i <;> simp [argon]) ⟨0, rfl⟩ 1 0.01 0.01 0.01

example (i : Fin 3) : 0 ≤ argon.genN 0.01 0.01 0.01 i := by
  refine (Data.init_nonneg physical (fun i hi => by revert hi; fin_cases i <;> simp [argon])
    (by norm_num) (by norm_num) (by norm_num) ?_ i).1
  have h1 : univ.filter argon.neg = ∅ := by
    ext i; rw [mem_filter]; fin_cases i <;> simp [Data.neg, argon]
  have h2 : (univ.filter (fun i => argon.charge i = 0 ∧ argon.feed i = 0)).card ≤ 3 :=
    (card_le_univ _).trans (by simp)
  have h3 : ((univ.filter (fun i => argon.charge i = 0 ∧ argon.feed i = 0)).card : ℝ) ≤ 3 := by
    exact_mod_cast h2
  rw [h1, sum_empty]
  nlinarith

/-- argon ions fed -/
noncomputable def ionFeed : Data 3 3 := { argon with feed := ![0, 10, 0] }

/-- Finding: if an ion is fed, its density is counted before it is overwritten, and the initial densities do
not add up to the set pressure. -/
theorem ion_feed_pressure :
    ionFeed.getTotalPressure
      (ionFeed.buildY0 1 0.5 0 0) none = 50 := by
  have hpos : univ.filter ionFeed.pos = {1} := by
    ext i; rw [mem_filter]; fin_cases i <;> simp [Data.pos, ionFeed, argon]
  have hneg : univ.filter ionFeed.neg = ∅ := by
    ext i; rw [mem_filter]; fin_cases i <;> simp [Data.neg, ionFeed, argon]
  have hP : ionFeed.pos 1 := by simp [Data.pos, ionFeed, argon]
  have h0 : ¬ ionFeed.pos 0 := by simp [Data.pos, ionFeed, argon]
  have h2 : ¬ ionFeed.pos 2 := by simp [Data.pos, ionFeed, argon]
  have h0' : ¬ ionFeed.neg 0 := by simp [Data.neg, ionFeed, argon]
  have h2' : ¬ ionFeed.neg 2 := by simp [Data.neg, ionFeed, argon]
  have f0 : ionFeed.feed 0 = 0 := rfl
  have f1 : ionFeed.feed 1 = 10 := rfl
  have f2 : ionFeed.feed 2 = 0 := rfl
  have c1 : ionFeed.charge 1 = 1 := rfl
  have hT : ionFeed.nTot = 1 / 3 := by norm_num [Data.nTot, ionFeed, argon, consts]
  have hF : 0 < ∑ k, ionFeed.feed k := by rw [Fin.sum_univ_three, f0, f1, f2]; norm_num
  have n0 : ionFeed.n1 0.5 0 0 0 = 0 := by
    unfold Data.n1; rw [if_neg h0, if_neg h0', if_pos f0, mul_zero]
  have n1 : ionFeed.n1 0.5 0 0 1 = 1 / 6 := by
    unfold Data.n1 Data.nPosCharge Data.nNegCharge
    rw [if_pos hP, hpos, sum_singleton, c1, hT]; norm_num
  have n2 : ionFeed.n1 0.5 0 0 2 = 0 := by
    unfold Data.n1; rw [if_neg h2, if_neg h2', if_pos f2, mul_zero]
  have e : ionFeed.getTotalPressure (ionFeed.buildY0 1 0.5 0 0) none =
      1 * 300 * ∑ i, ionFeed.genN 0.5 0 0 i := rfl
  have g0 : ionFeed.genN 0.5 0 0 0 = 0 := by
    unfold Data.genN; rw [if_pos hF, f0, if_neg (lt_irrefl 0), n0]
  have g1 : ionFeed.genN 0.5 0 0 1 = 1 / 6 := by
    unfold Data.genN
    rw [if_pos hF, f1, if_pos (by norm_num), Fin.sum_univ_three, Fin.sum_univ_three, f0, f1, f2, n0, n1, n2, hT]
    norm_num
  have g2 : ionFeed.genN 0.5 0 0 2 = 0 := by
    unfold Data.genN; rw [if_pos hF, f2, if_neg (lt_irrefl 0), n2]
  rw [e, Fin.sum_univ_three, g0, g1, g2]
  norm_num

end Demo
end Verif.Pygmol
