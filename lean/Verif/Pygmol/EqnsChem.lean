/-
The equations of a chemistry: what `Equations.__init__` reads from a `Chemistry` (equations.py:155-181),
and the conservation laws C25, C26, C59 of the resulting right-hand side.
-/
import Verif.Plaschem.AdhocRet
import Verif.Plaschem.Stoich
import Verif.Pygmol.EqnsProps

namespace Verif.Pygmol
open Finset Verif.Plaschem Verif.Plaschem.Net

/-- the `i`-th enabled heavy species -/
abbrev spAt (net : Net) (st : State) (i : Fin (net.getSpecies st false false true).length) : RP :=
  (net.getSpecies st false false true)[i]
/-- the `j`-th enabled reaction -/
abbrev reAt (net : Net) (st : State) (j : Fin (net.getReactions st false).length) : Reaction :=
  (net.getReactions st false)[j]

/-- the entry in row `r`, column `s` of a matrix with labelled rows and columns -/
def cell (M : Dict Nat (Dict Nat Int)) (r s : Nat) : Int :=
  match M.get? r with
  | some row => (row.get? s).getD 0
  | none => 0

/-- equations.py:155-181: the constructor read the data `D` from the chemistry `net` in state `st`, at
default arguments of the getters (enabled species and reactions, without electron and M). Masses, rate
parameters and energies are not needed for the conservation laws and are left out. -/
structure Reads {net : Net} {st : State}
    (D : Data (net.getSpecies st false false true).length (net.getReactions st false).length) : Prop where
  charge : ∀ i, D.charge i = (spAt net st i).chargeOf
  netC : ∃ M, net.stoichiomatrix st false false .net = .ok M ∧
    ∀ j i, D.net j i = cell M (reAt net st j).id (spAt net st i).id
  lhs : ∃ M, net.stoichiomatrix st false false .lhs = .ok M ∧
    ∀ j i, D.lhs j i = cell M (reAt net st j).id (spAt net st i).id
  eNet : ∃ E, net.stoichElectron st false .net = .ok E ∧
    ∀ j, D.eNet j = (E.get? (reAt net st j).id).getD 0
  eLhs : ∃ E, net.stoichElectron st false .lhs = .ok E ∧
    ∀ j, D.eLhs j = (E.get? (reAt net st j).id).getD 0
  mLhs : ∃ E, net.stoichArbitrary st false .lhs = .ok E ∧
    ∀ j, D.mLhs j = (E.get? (reAt net st j).id).getD 0

theorem sum_fin_list {α : Type} (l : List α) (f : α → Int) : ∑ i : Fin l.length, f l[i] = (l.map f).sum := by
  rw [← List.sum_ofFn]
  congr 1
  refine List.ext_getElem (by simp) fun i h1 h2 => by simp

namespace Reads
variable {net : Net} {st : State}
  {D : Data (net.getSpecies st false false true).length (net.getReactions st false).length}

/-- the coefficients the constructor reads have the signs required by `Physical` -/
theorem signs (h : Reads D) (hr : Reachable net st) :
    (∀ j i, 0 ≤ D.lhs j i) ∧ (∀ j i, -D.lhs j i ≤ D.net j i) := by
  obtain ⟨L, R, N, hL, hR, hN, hall⟩ := stoichiomatrix_net_eq_diff hr false false
  obtain ⟨N', hN', hn⟩ := h.netC
  obtain ⟨L', hL', hl⟩ := h.lhs
  rw [hN] at hN'; cases hN'
  rw [hL] at hL'; cases hL'
  have key : ∀ j i, 0 ≤ D.lhs j i ∧ -D.lhs j i ≤ D.net j i := by
    intro j i
    obtain ⟨l, rr, n, a, b, c, h1, -, h3, h4, -, h6, h7, h8, h9⟩ :=
      hall (reAt net st j) (List.getElem_mem _) (spAt net st i) (List.getElem_mem _)
    have e1 : D.lhs j i = a := by rw [hl]; unfold cell; rw [h1]; exact congrArg (·.getD 0) h4
    have e2 : D.net j i = c := by rw [hn]; unfold cell; rw [h3]; exact congrArg (·.getD 0) h6
    rw [e1, e2]
    exact ⟨h8, by omega⟩
  exact ⟨fun j i => (key j i).1, fun j i => (key j i).2⟩

variable {F : Str → Option (Dict Str Nat)}

/-- row sums of the net coefficients -/
theorem rows (h : Reads D) (hr : Reachable net st) (hFM : ∀ n d, F n = some d → d.get? str!"M" = none)
    (hb : ∀ r ∈ net.reactions, Balanced F r.reactants r.products) (hq : net.requiresCharge = true)
    (he : ∀ s ∈ net.species, s.name = str!"e" → s.chargeOf = -1) (j) :
    ∑ i, D.net j i * D.charge i = D.eNet j ∧
    ∀ el, el ≠ str!"M" → ∑ i, D.net j i * ((spAt net st i).atomCount F el : Int) = 0 := by
  obtain ⟨N, E, A, hN, hE, -, hall⟩ := stoichiomatrix_conserves hr hFM hb hq he
  obtain ⟨N', hN', hn⟩ := h.netC
  obtain ⟨E', hE', hen⟩ := h.eNet
  rw [hN] at hN'; cases hN'
  rw [hE] at hE'; cases hE'
  obtain ⟨row, ν, h1, h2, h3, h4, -⟩ := hall (reAt net st j) (List.getElem_mem _)
  have e : ∀ i, D.net j i = (row.get? (spAt net st i).id).getD 0 := by
    intro i; rw [hn]; unfold cell; rw [h1]
  have e2 : D.eNet j = ν := by rw [hen, h2]; rfl
  refine ⟨?_, fun el hel => ?_⟩
  · rw [e2, ← h3, ← sum_fin_list]
    exact sum_congr rfl fun i _ => by rw [e, h.charge]
  · rw [← h4 el hel, ← sum_fin_list]
    exact sum_congr rfl fun i _ => by rw [e]

/-- **C25.** Reactions in the gas neither create nor destroy atoms: for any state (and any reaction rates)
the volumetric sources weighted by the number of atoms of an element sum to zero. `F` is the parser of
chemical formulas; `M` is the symbol of the unspecified collision partner. -/
theorem volumetric_conserves_elements (h : Reads D) (hr : Reachable net st)
    (hFM : ∀ n d, F n = some d → d.get? str!"M" = none)
    (hb : ∀ r ∈ net.reactions, Balanced F r.reactants r.products) (hq : net.requiresCharge = true)
    (he : ∀ s ∈ net.species, s.name = str!"e" → s.chargeOf = -1) (y : Y _) (rates : Option (_ → ℝ))
    (c : Data.Cache _ _) {el : Str} (hel : el ≠ str!"M") :
    ∑ i, ((spAt net st i).atomCount F el : ℝ) * ((D.getVolumetricSourceRates y rates).run c).1 i = 0 := by
  have key : ∀ rs, ∑ i, ((spAt net st i).atomCount F el : ℝ) * D.fVol rs i = 0 := by
    intro rs
    rw [D.vol_weighted]
    refine sum_eq_zero fun j _ => ?_
    have := (rows h hr hFM hb hq he j).2 el hel
    have h2 : ∑ i, (D.net j i : ℝ) * ((spAt net st i).atomCount F el : ℝ) = 0 := by
      have := congrArg (Int.cast : Int → ℝ) this
      push_cast at this
      exact this
    rw [h2, zero_mul]
  exact key _

/-- **C26.** Charge produced in the gas is balanced by electrons: the volumetric sources weighted by charge
add up to the electron production rate, which enters the electron energy equation. -/
theorem volumetric_conserves_charge (h : Reads D) (hr : Reachable net st)
    (hFM : ∀ n d, F n = some d → d.get? str!"M" = none)
    (hb : ∀ r ∈ net.reactions, Balanced F r.reactants r.products) (hq : net.requiresCharge = true)
    (he : ∀ s ∈ net.species, s.name = str!"e" → s.chargeOf = -1) (y : Y _) (rates : _ → ℝ)
    (c : Data.Cache _ _) (te : ℝ) :
    ∑ i, (D.charge i : ℝ) * ((D.getVolumetricSourceRates y (some rates)).run c).1 i =
        ∑ j, (D.eNet j : ℝ) * rates j ∧
    ((D.getDrhoGainLoss y (some te) (some rates)).run c).1 = 3 / 2 * te *
      ∑ i, (D.charge i : ℝ) * ((D.getVolumetricSourceRates y (some rates)).run c).1 i := by
  have key : ∑ i, (D.charge i : ℝ) * D.fVol rates i = ∑ j, (D.eNet j : ℝ) * rates j := by
    rw [D.vol_weighted]
    refine sum_congr rfl fun j _ => ?_
    have := (rows h hr hFM hb hq he j).1
    have h2 : ∑ i, (D.net j i : ℝ) * (D.charge i : ℝ) = D.eNet j := by
      have := congrArg (Int.cast : Int → ℝ) this
      push_cast at this
      exact this
    rw [h2]
  refine ⟨key, ?_⟩
  have : ((D.getDrhoGainLoss y (some te) (some rates)).run c).1 =
    3 / 2 * te * ∑ j, (D.eNet j : ℝ) * rates j := rfl
  rw [this, ← key]; rfl

/-- **C59.** Balance of the elements along the whole right-hand side: for neutral or charged feed, the atoms
of an element change only by what flows, what the wall keeps and the artificial correction. -/
theorem element_balance (h : Reads D) (hr : Reachable net st)
    (hFM : ∀ n d, F n = some d → d.get? str!"M" = none)
    (hb : ∀ r ∈ net.reactions, Balanced F r.reactants r.products) (hq : net.requiresCharge = true)
    (he : ∀ s ∈ net.species, s.name = str!"e" → s.chargeOf = -1) (t : ℝ) (y : Y _)
    (junk : Data.Cache _ _) (calls : List (Data.Call _ _)) {el : Str} (hel : el ≠ str!"M")
    (hmin : ∀ i, 1 ≤ y.n i)
    (hwall : ∀ k, D.stick k ≠ 0 → ∑ i, D.ret i k * ((spAt net st i).atomCount F el : ℝ) =
      ((spAt net st k).atomCount F el : ℝ)) :
    ∑ i, ((spAt net st i).atomCount F el : ℝ) * ((D.objective t y).run (D.history junk calls)).1.n i =
      ∑ i, ((spAt net st i).atomCount F el : ℝ) * D.getFlowSourceRates y none none i := by
  rw [D.objective_history_independent]
  have h1 := volumetric_conserves_elements h hr hFM hb hq he y none (D.history junk calls) hel
  rw [(D.gives_vol y _ (D.valid_history junk calls)).1] at h1
  have h2 := D.wall_conserves (fun i => ((spAt net st i).atomCount F el : ℝ)) y hwall junk calls
  rw [(D.gives_src y _ (D.valid_history junk calls)).1] at h2
  have h3 : ∀ i, (D.rhs t y).n i = D.pVol y i + D.getFlowSourceRates y none none i + D.pSrc y i
      + Data.getMinNCorrection y none i := fun _ => rfl
  have h4 : ∀ i, Data.getMinNCorrection y none i = 0 := fun i => (Data.min_n_correction y i).1 (hmin i)
  simp only [h3, h4, mul_add, sum_add_distrib, h1, h2]
  simp

/-- **C59.** Balance of the electrons: if only neutral gas is fed, the electron density changes by what the
reactions produce and what the charge lost at the wall takes with it. -/
theorem electron_balance (h : Reads D) (hr : Reachable net st)
    (hFM : ∀ n d, F n = some d → d.get? str!"M" = none)
    (hb : ∀ r ∈ net.reactions, Balanced F r.reactants r.products) (hq : net.requiresCharge = true)
    (he : ∀ s ∈ net.species, s.name = str!"e" → s.chargeOf = -1) (t : ℝ) (y : Y _)
    (junk : Data.Cache _ _) (calls : List (Data.Call _ _))
    (hmin : ∀ i, 1 ≤ y.n i) (hfeed : ∀ i, D.charge i ≠ 0 → D.feed i = 0) :
    let c := D.history junk calls
    D.getElectronDensity ((D.objective t y).run c).1 none =
      ∑ j, (D.eNet j : ℝ) * ((D.getReactionRates y none none none none).run c).1 j +
      ∑ k, ((D.charge k : ℝ) - ∑ i, D.ret i k * (D.charge i : ℝ)) * ((D.getDiffusionSinks y none).run c).1 k := by
  intro c
  rw [D.objective_history_independent]
  have h1 := (volumetric_conserves_charge h hr hFM hb hq he y (D.pRates y) c 0).1
  have h2 := D.wall_balance (fun i => (D.charge i : ℝ)) y junk calls
  simp only at h2
  rw [(D.gives_src y _ (D.valid_history junk calls)).1] at h2
  have e0 : ((D.getReactionRates y none none none none).run c).1 = D.pRates y :=
    (D.gives_rates y _ (D.valid_history junk calls)).1
  rw [e0, ← h2, ← h1]
  have e1 : D.getElectronDensity (D.rhs t y) none = ∑ i, (D.rhs t y).n i * (D.charge i : ℝ) := rfl
  have e2 : ((D.getVolumetricSourceRates y (some (D.pRates y))).run c).1 = D.pVol y := rfl
  rw [e1, e2, ← sum_add_distrib]
  refine sum_congr rfl fun i _ => ?_
  have h3 : (D.rhs t y).n i = D.pVol y i + D.getFlowSourceRates y none none i + D.pSrc y i
      + Data.getMinNCorrection y none i := rfl
  have h4 : Data.getMinNCorrection y none i = 0 := (Data.min_n_correction y i).1 (hmin i)
  have h5 : D.getFlowSourceRates y none none i * (D.charge i : ℝ) = 0 := by
    by_cases hc : D.charge i = 0
    · rw [hc]; simp
    · have : D.getFlowSourceRates y none none i = 0 := by
        have : D.getFlowSourceRates y none none i = D.fFlow y.n (D.pP y) i := rfl
        rw [this]
        unfold Data.fFlow
        rw [if_neg (show ¬ D.neu i from hc), if_neg (show ¬ D.neu i from hc), hfeed i hc]
        simp
      rw [this, zero_mul]
  rw [h3, h4, add_mul, add_mul, add_mul, h5]
  ring

end Reads

/-- the table computed by a getter, empty if it raised -/
def okOr {α : Type} : Except Err (List α) → List α
  | .ok l => l
  | .error _ => []

/-- equations.py:155-181: fill in what is read from the chemistry. -/
noncomputable def fromChem (net : Net) (st : State)
    (D : Data (net.getSpecies st false false true).length (net.getReactions st false).length) :
    Data (net.getSpecies st false false true).length (net.getReactions st false).length :=
  { D with
    charge := fun i => (spAt net st i).chargeOf
    net := fun j i => cell (okOr (net.stoichiomatrix st false false .net)) (reAt net st j).id (spAt net st i).id
    lhs := fun j i => cell (okOr (net.stoichiomatrix st false false .lhs)) (reAt net st j).id (spAt net st i).id
    eNet := fun j => (Dict.get? (okOr (net.stoichElectron st false .net)) (reAt net st j).id).getD 0
    eLhs := fun j => (Dict.get? (okOr (net.stoichElectron st false .lhs)) (reAt net st j).id).getD 0
    mLhs := fun j => (Dict.get? (okOr (net.stoichArbitrary st false .lhs)) (reAt net st j).id).getD 0 }

/-- in every reachable state of a plasma chemistry the equations can be set up -/
theorem reads_fromChem {net : Net} {st : State} (hr : Reachable net st) (hq : net.requiresCharge = true)
    (D : Data (net.getSpecies st false false true).length (net.getReactions st false).length) :
    Reads (fromChem net st D) := by
  obtain ⟨L, R, N, hL, hR, hN, -⟩ := stoichiomatrix_net_eq_diff hr false false
  obtain ⟨E1, h1⟩ := electron_ok hr hq (m := .net) (by simp)
  obtain ⟨E2, h2⟩ := electron_ok hr hq (m := .lhs) (by simp)
  obtain ⟨E3, h3⟩ := arbitrary_ok net st (m := .lhs) (by simp)
  exact ⟨fun _ => rfl, ⟨N, hN, fun j i => by simp only [fromChem, hN, okOr]⟩,
    ⟨L, hL, fun j i => by simp only [fromChem, hL, okOr]⟩,
    ⟨E1, h1, fun j => by simp only [fromChem, h1, okOr]⟩,
    ⟨E2, h2, fun j => by simp only [fromChem, h2, okOr]⟩,
    ⟨E3, h3, fun j => by simp only [fromChem, h3, okOr]⟩⟩

/-- the demo chemistry: the second reaction is e + Ar+ -> 2e + Ar++ -/
example (D : Data (Plaschem.Demo.net.getSpecies Plaschem.Demo.st0 false false true).length
    (Plaschem.Demo.net.getReactions Plaschem.Demo.st0 false).length) :
    Reads (fromChem Plaschem.Demo.net Plaschem.Demo.st0 D) ∧
    (fromChem Plaschem.Demo.net Plaschem.Demo.st0 D).net ⟨1, by decide⟩ ⟨2, by decide⟩ = 1 ∧
    (fromChem Plaschem.Demo.net Plaschem.Demo.st0 D).eNet ⟨1, by decide⟩ = 1 :=
  ⟨reads_fromChem Plaschem.Demo.reach0 rfl D, rfl, rfl⟩

end Verif.Pygmol
