/-
The equations of a chemistry and of a part of it (property C118): what the right-hand side of the part has to do
with that of the whole, quantity by quantity.
-/
import Verif.Pygmol.EqnsPure

namespace Verif.Pygmol
open Finset
namespace Data
variable {ns nr ns' nr' : ℕ}

/-- `D'` are the equations of a part of the chemistry of `D`: `f` and `g` say which species and which reactions of the
whole the species and reactions of the part are. The kept species and reactions have the same data, the model
parameters are the same, and a kept reaction has no reactants outside the part. The species of the part are in the order
of the whole, or it does not matter which reactant of an elastic electron collision is the first. -/
structure PartOf (D' : Data ns' nr') (D : Data ns nr) (f : Fin ns' → Fin ns) (g : Fin nr' → Fin nr) : Prop where
  spInj : Function.Injective f
  order : StrictMono f ∨ ∀ j i k, D.elc j → D.elastic j → 0 < D.lhs j i → 0 < D.lhs j k → D.mass i = D.mass k
  inj : Function.Injective g
  consts : D'.C = D.C
  charge : ∀ i, D'.charge i = D.charge (f i)
  mass : ∀ i, D'.mass i = D.mass (f i)
  lj : ∀ i, D'.ljSigma i = D.ljSigma (f i)
  stick : ∀ i, D'.stick i = D.stick (f i)
  arrhA : ∀ j, D'.arrhA j = D.arrhA (g j)
  arrhB : ∀ j, D'.arrhB j = D.arrhB (g j)
  arrhC : ∀ j, D'.arrhC j = D.arrhC (g j)
  enLoss : ∀ j, D'.enLoss j = D.enLoss (g j)
  elastic : ∀ j, D'.elastic j = D.elastic (g j)
  eNet : ∀ j, D'.eNet j = D.eNet (g j)
  eLhs : ∀ j, D'.eLhs j = D.eLhs (g j)
  mLhs : ∀ j, D'.mLhs j = D.mLhs (g j)
  ret : ∀ i k, D'.ret i k = D.ret (f i) (f k)
  net : ∀ j i, D'.net j i = D.net (g j) (f i)
  lhs : ∀ j i, D'.lhs j i = D.lhs (g j) (f i)
  feed : ∀ i, D'.feed i = D.feed (f i)
  tempG : D'.tempG = D.tempG
  radius : D'.r = D.r
  length : D'.z = D.z
  p0 : D'.p0 = D.p0
  power : D'.power = D.power
  flux : D'.thermalFlux = D.thermalFlux
  lhs_in : ∀ j, ∀ i ∉ Set.range f, D.lhs (g j) i = 0

/-- `y'` is the state of the part when the whole is in the state `y`, in which the species outside the part have no
density. -/
structure StateOf (y' : Y ns') (y : Y ns) (f : Fin ns' → Fin ns) : Prop where
  n : ∀ i, y'.n i = y.n (f i)
  rho : y'.rho = y.rho
  absent : ∀ i ∉ Set.range f, y.n i = 0

/-- no positive ion is left out -/
def KeepsPos (D : Data ns nr) (f : Fin ns' → Fin ns) : Prop := ∀ i ∉ Set.range f, D.charge i ≤ 0
/-- no species fed into the chamber is left out -/
def KeepsFeed (D : Data ns nr) (f : Fin ns' → Fin ns) : Prop := ∀ i ∉ Set.range f, D.feed i = 0

/-- the wall turns no kept species into an ion that is left out -/
def KeepsReturn (D : Data ns nr) (f : Fin ns' → Fin ns) : Prop :=
  ∀ i ∉ Set.range f, D.charge i ≠ 0 → ∀ k, D.ret i (f k) = 0

/-- the reactions lost although all their reactants are kept -/
def Cut (D : Data ns nr) (f : Fin ns' → Fin ns) (g : Fin nr' → Fin nr) (j : Fin nr) : Prop :=
  j ∉ Set.range g ∧ ∀ i ∉ Set.range f, D.lhs j i = 0

theorem find_finRange {n m : ℕ} (f : Fin m → Fin n) (hf : StrictMono f) (p : Fin n → Bool)
    (h : ∀ i ∉ Set.range f, p i = false) :
    (List.finRange n).find? p = ((List.finRange m).find? fun i => p (f i)).map f := by
  cases e : (List.finRange m).find? fun i => p (f i) with
  | none =>
    rw [Option.map_none, List.find?_eq_none]
    rw [List.find?_eq_none] at e
    intro i _
    by_cases hi : i ∈ Set.range f
    · obtain ⟨k, rfl⟩ := hi
      exact e k (List.mem_finRange k)
    · simp [h i hi]
  | some k =>
    rw [Option.map_some, List.find?_eq_some_iff_getElem]
    rw [List.find?_eq_some_iff_getElem] at e
    obtain ⟨hk, a, ha, hak, hlt⟩ := e
    refine ⟨hk, (f k).1, by simp, by simp, fun b hb => ?_⟩
    simp only [List.getElem_finRange, Fin.cast_mk, Bool.not_eq_true'] at hak hlt ⊢
    by_cases hi : (⟨b, hb.trans (f k).2⟩ : Fin n) ∈ Set.range f
    · obtain ⟨l, hl⟩ := hi
      have : l < k := by
        rw [← hf.lt_iff_lt, hl]; exact hb
      rw [← hl]
      have h2 := hlt l.1 (by rw [← hak] at this; exact this)
      simpa using h2
    · exact h _ hi

namespace PartOf
variable {D' : Data ns' nr'} {D : Data ns nr} {f : Fin ns' → Fin ns} {g : Fin nr' → Fin nr} {y' : Y ns'} {y : Y ns}

theorem sum_kept (h : PartOf D' D f g) {F : Fin ns → ℝ} {F' : Fin ns' → ℝ} (he : ∀ i, F' i = F (f i))
    (h0 : ∀ i ∉ Set.range f, F i = 0) : ∑ i, F' i = ∑ i, F i :=
  Fintype.sum_of_injective f h.spInj F' F h0 he

theorem pos_iff (h : PartOf D' D f g) (i) : D'.pos i ↔ D.pos (f i) := by unfold pos; rw [h.charge]
theorem neg_iff (h : PartOf D' D f g) (i) : D'.neg i ↔ D.neg (f i) := by unfold neg; rw [h.charge]
theorem neu_iff (h : PartOf D' D f g) (i) : D'.neu i ↔ D.neu (f i) := by unfold neu; rw [h.charge]
theorem elc_iff (h : PartOf D' D f g) (j) : D'.elc j ↔ D.elc (g j) := by unfold elc; rw [h.eLhs]

theorem volume_eq (h : PartOf D' D f g) : D'.volume = D.volume := by unfold volume; rw [h.radius, h.length]
theorem area_eq (h : PartOf D' D f g) : D'.area = D.area := by unfold area; rw [h.radius, h.length]
theorem diffL_eq (h : PartOf D' D f g) : D'.diffL = D.diffL := by unfold diffL; rw [h.radius, h.length]

theorem tot (h : PartOf D' D f g) (hy : StateOf y' y f) : pTot y' = pTot y := h.sum_kept hy.n hy.absent
theorem pressure (h : PartOf D' D f g) (hy : StateOf y' y f) : D'.pP y' = D.pP y := by
  unfold pP fPressure; rw [h.consts, h.tempG, h.tot hy]
theorem ionTemp (h : PartOf D' D f g) (hy : StateOf y' y f) : D'.pTi y' = D.pTi y := by
  unfold pTi fIonTemp; rw [h.consts, h.tempG, h.pressure hy]
theorem electronDensity (h : PartOf D' D f g) (hy : StateOf y' y f) : D'.pNe y' = D.pNe y :=
  h.sum_kept (fun i => by rw [hy.n, h.charge]) fun i hi => by rw [hy.absent i hi, zero_mul]
theorem electronTemp (h : PartOf D' D f g) (hy : StateOf y' y f) : D'.pTe y' = D.pTe y := by
  unfold pTe fElectronTemp; rw [h.consts, h.tempG, h.electronDensity hy, hy.rho]
theorem debye (h : PartOf D' D f g) (hy : StateOf y' y f) : D'.pDebye y' = D.pDebye y := by
  unfold pDebye fDebye; rw [h.consts, h.electronDensity hy, h.electronTemp hy]

theorem coef (h : PartOf D' D f g) (hy : StateOf y' y f) (j) : D'.pK y' j = D.pK y (g j) := by
  unfold pK fRateElectron fRateHeavy
  rw [h.electronTemp hy, h.arrhA, h.arrhB, h.arrhC, h.tempG]
  exact if_congr (h.elc_iff j) rfl rfl

/-- the kept reactions have the rates they have in the whole -/
theorem rate (h : PartOf D' D f g) (hy : StateOf y' y f) (j) : D'.pRates y' j = D.pRates y (g j) := by
  have hp : ∏ i, y'.n i ^ D'.lhs j i = ∏ i, y.n i ^ D.lhs (g j) i :=
    Fintype.prod_of_injective f h.spInj _ _ (fun i hi => by rw [h.lhs_in j i hi, zpow_zero])
      fun i => by rw [hy.n, h.lhs]
  unfold pRates fRates
  rw [h.coef hy, h.electronDensity hy, h.tot hy, h.eLhs, h.mLhs, hp]

/-- a reaction with a reactant that is not there does not happen -/
theorem rate_zero (hy : StateOf y' y f) {j : Fin nr} {i : Fin ns} (hi : i ∉ Set.range f) (hl : D.lhs j i ≠ 0) :
    D.pRates y j = 0 := by
  have hp : ∏ i, y.n i ^ D.lhs j i = 0 := prod_eq_zero (mem_univ i) (by rw [hy.absent i hi, zero_zpow _ hl])
  unfold pRates fRates
  rw [hp]; ring

/-- sums over the reactions: the kept ones and those cut off -/
theorem sum_reactions (h : PartOf D' D f g) (hy : StateOf y' y f) [DecidablePred (Cut D f g)] (w : Fin nr → ℝ) :
    ∑ j, w j * D.pRates y j =
      ∑ j, w (g j) * D'.pRates y' j + ∑ j ∈ univ.filter (Cut D f g), w j * D.pRates y j := by
  classical
  have e1 : ∑ j, w (g j) * D'.pRates y' j = ∑ j, if j ∈ Set.range g then w j * D.pRates y j else 0 :=
    Fintype.sum_of_injective g h.inj _ _ (fun j hj => by rw [if_neg hj])
      fun j => by rw [if_pos ⟨j, rfl⟩, h.rate hy]
  rw [e1, sum_filter, ← sum_add_distrib]
  refine sum_congr rfl fun j _ => ?_
  by_cases hj : j ∈ Set.range g
  · rw [if_pos hj, if_neg (fun hc : Cut D f g j => hc.1 hj), add_zero]
  · rw [if_neg hj, zero_add]
    by_cases hc : Cut D f g j
    · rw [if_pos hc]
    · rw [if_neg hc]
      have : ∃ i, i ∉ Set.range f ∧ D.lhs j i ≠ 0 := by
        by_contra hno
        push Not at hno
        exact hc ⟨hj, fun i hi => hno i hi⟩
      obtain ⟨i, hi, hl⟩ := this
      rw [rate_zero hy hi hl, mul_zero]

theorem vol (h : PartOf D' D f g) (hy : StateOf y' y f) [DecidablePred (Cut D f g)] (i) :
    D.pVol y (f i) = D'.pVol y' i + ∑ j ∈ univ.filter (Cut D f g), (D.net j (f i) : ℝ) * D.pRates y j := by
  have := h.sum_reactions hy fun j => (D.net j (f i) : ℝ)
  unfold pVol fVol
  rw [this]
  congr 1
  exact sum_congr rfl fun j _ => by rw [h.net]

theorem flow (h : PartOf D' D f g) (hy : StateOf y' y f) (hfeed : KeepsFeed D f) (i) :
    D'.pFlow y' i = D.pFlow y (f i) := by
  have e1 : ∑ k, D'.feed k * 4.485e17 / D'.volume = ∑ k, D.feed k * 4.485e17 / D.volume :=
    h.sum_kept (fun k => by rw [h.feed, h.volume_eq]) fun k hk => by rw [hfeed k hk]; simp
  have e2 : ∑ k ∈ univ.filter D'.neu, y'.n k = ∑ k ∈ univ.filter D.neu, y.n k := by
    rw [sum_filter, sum_filter]
    exact h.sum_kept (fun k => by rw [hy.n]; exact if_congr (h.neu_iff k) rfl rfl)
      fun k hk => by rw [hy.absent k hk, ite_self]
  unfold pFlow fFlow
  rw [e1, e2, h.pressure hy, h.p0, h.feed, h.volume_eq, hy.n]
  rw [if_congr (h.neu_iff i) rfl rfl, if_congr (h.neu_iff i) rfl rfl]

theorem speed (h : PartOf D' D f g) (hy : StateOf y' y f) (i) : D'.pV y' i = D.pV y (f i) := by
  unfold pV fSpeed
  rw [h.consts, h.tempG, h.mass, h.ionTemp hy]
  exact if_congr (h.neu_iff i) rfl rfl

theorem sigma (h : PartOf D' D f g) (hy : StateOf y' y f) (i k) : D'.pSigma y' i k = D.pSigma y (f i) (f k) := by
  unfold pSigma fSigmaIon fSigmaHard fB0 reducedMass
  rw [h.consts, h.mass, h.mass, h.charge, h.charge, h.lj, h.lj, h.speed hy, h.debye hy]
  refine if_congr h.spInj.eq_iff.symm rfl (if_congr ?_ rfl rfl)
  rw [h.neu_iff, h.neu_iff]

theorem mfp (h : PartOf D' D f g) (hy : StateOf y' y f) (i) : D'.pMfp y' i = D.pMfp y (f i) := by
  unfold pMfp fMfp
  congr 1
  exact h.sum_kept (fun k => by rw [hy.n, h.sigma hy]) fun k hk => by rw [hy.absent k hk, zero_mul]

theorem free (h : PartOf D' D f g) (hy : StateOf y' y f) (i) : D'.pFree y' i = D.pFree y (f i) := by
  unfold pFree fFree
  rw [h.mfp hy, h.speed hy]

theorem card_pos (h : PartOf D' D f g) (hpos : KeepsPos D f) :
    ((univ.filter D'.pos).card : ℝ) = (univ.filter D.pos).card := by
  rw [card_filter, card_filter]
  push_cast
  exact h.sum_kept (fun i => if_congr (h.pos_iff i) rfl rfl)
    fun i hi => if_neg fun hp : 0 < D.charge i => absurd (hpos i hi) (not_le.2 hp)

theorem sum_pos (h : PartOf D' D f g) (hpos : KeepsPos D f) {F : Fin ns → ℝ} {F' : Fin ns' → ℝ} (he : ∀ i, F' i = F (f i)) :
    ∑ i ∈ univ.filter D'.pos, F' i = ∑ i ∈ univ.filter D.pos, F i := by
  rw [sum_filter, sum_filter]
  exact h.sum_kept (fun i => by rw [he]; exact if_congr (h.pos_iff i) rfl rfl)
    fun i hi => if_neg fun hp : 0 < D.charge i => absurd (hpos i hi) (not_le.2 hp)

theorem amb (h : PartOf D' D f g) (hy : StateOf y' y f) (hpos : KeepsPos D f) : D'.pAmb y' = D.pAmb y := by
  have e2 : ∑ k ∈ univ.filter D'.neg, y'.n k = ∑ k ∈ univ.filter D.neg, y.n k := by
    rw [sum_filter, sum_filter]
    exact h.sum_kept (fun k => by rw [hy.n]; exact if_congr (h.neg_iff k) rfl rfl)
      fun k hk => by rw [hy.absent k hk, ite_self]
  unfold pAmb fAmbPos
  rw [h.consts, h.electronTemp hy, h.ionTemp hy, h.electronDensity hy, e2, h.card_pos hpos,
    h.sum_pos hpos (h.free hy)]

theorem diff (h : PartOf D' D f g) (hy : StateOf y' y f) (hpos : KeepsPos D f) (i) : D'.pDiff y' i = D.pDiff y (f i) := by
  unfold pDiff fDiff
  rw [h.amb hy hpos, h.free hy]
  exact if_congr (h.pos_iff i) rfl (if_congr (h.neg_iff i) rfl rfl)

theorem wall (h : PartOf D' D f g) (hy : StateOf y' y f) (hpos : KeepsPos D f) (i) : D'.pWall y' i = D.pWall y (f i) := by
  unfold pWall fWall
  rw [h.flux, h.diff hy hpos, hy.n, h.stick, h.diffL_eq, h.speed hy, h.volume_eq, h.area_eq]

theorem sinks (h : PartOf D' D f g) (hy : StateOf y' y f) (hpos : KeepsPos D f) (i) :
    D'.pSinks y' i = D.pSinks y (f i) := by
  unfold pSinks fSinks
  rw [h.wall hy hpos, h.volume_eq, h.area_eq]

theorem sinks_absent (hy : StateOf y' y f) {i} (hi : i ∉ Set.range f) : D.pSinks y i = 0 := by
  unfold pSinks fSinks pWall fWall
  rw [hy.absent i hi]
  split <;> simp

theorem sources (h : PartOf D' D f g) (hy : StateOf y' y f) (hpos : KeepsPos D f) (i) :
    D'.pSources y' i = D.pSources y (f i) :=
  h.sum_kept (fun k => by rw [h.sinks hy hpos, h.ret]) fun k hk => by rw [sinks_absent hy hk]; simp

theorem src (h : PartOf D' D f g) (hy : StateOf y' y f) (hpos : KeepsPos D f) (i) : D'.pSrc y' i = D.pSrc y (f i) := by
  show D'.pSinks y' i + D'.pSources y' i = D.pSinks y (f i) + D.pSources y (f i)
  rw [h.sinks hy hpos, h.sources hy hpos]

theorem src_absent (hy : StateOf y' y f) (hret : KeepsReturn D f) {i} (hi : i ∉ Set.range f) (hc : D.charge i ≠ 0) :
    D.pSrc y i = 0 := by
  show D.pSinks y i + ∑ k, -D.pSinks y k * D.ret i k = 0
  rw [sinks_absent hy hi, zero_add]
  refine sum_eq_zero fun k _ => ?_
  by_cases hk : k ∈ Set.range f
  · obtain ⟨k', rfl⟩ := hk
    rw [hret i hi hc, mul_zero]
  · rw [sinks_absent hy hk]; simp

/-- **Densities.** The density of a kept species changes in the whole as in the part, but for the reactions cut off. -/
theorem dn (h : PartOf D' D f g) (hy : StateOf y' y f) (hpos : KeepsPos D f) (hfeed : KeepsFeed D f)
    [DecidablePred (Cut D f g)] (i) :
    D.pDn y (f i) = D'.pDn y' i + ∑ j ∈ univ.filter (Cut D f g), (D.net j (f i) : ℝ) * D.pRates y j := by
  unfold pDn fDn fMinN
  rw [h.vol hy, h.flow hy hfeed, h.src hy hpos, hy.n]
  ring

theorem partner (h : PartOf D' D f g) (j) : D'.partnerMass j = D.partnerMass (g j) := by
  rcases h.order with hm | hm
  · have e : (List.finRange ns).find? (fun i => 0 < D.lhs (g j) i) =
        ((List.finRange ns').find? fun i => 0 < D'.lhs j i).map f := by
      rw [find_finRange f hm _ fun i hi => by simp [h.lhs_in j i hi]]
      simp only [h.lhs]
    unfold partnerMass
    rw [h.elastic, e]
    refine if_congr (by rw [h.elc_iff]) ?_ rfl
    cases (List.finRange ns').find? fun i => 0 < D'.lhs j i with
    | none => rfl
    | some i => exact h.mass i
  · unfold partnerMass
    rw [h.elastic]
    by_cases hc : D.elc (g j) ∧ D.elastic (g j) = true
    swap
    · rw [if_neg hc, if_neg (by rw [h.elc_iff]; exact hc)]
    rw [if_pos hc, if_pos (by rw [h.elc_iff]; exact hc)]
    have hz : ∀ i, 0 < D.lhs (g j) i → i ∈ Set.range f := fun i hi => by
      by_contra hn
      rw [h.lhs_in j i hn] at hi
      exact absurd hi (lt_irrefl 0)
    cases e1 : (List.finRange ns').find? fun i => decide (0 < D'.lhs j i) with
    | none =>
      rw [List.find?_eq_none] at e1
      rw [List.find?_eq_none.2 fun i _ hi => ?_]
      obtain ⟨k, rfl⟩ := hz i (of_decide_eq_true hi)
      exact e1 k (List.mem_finRange k) (by rw [h.lhs]; exact hi)
    | some k =>
      have hk : 0 < D'.lhs j k := by simpa using List.find?_some e1
      rw [h.lhs] at hk
      cases e2 : (List.finRange ns).find? fun i => decide (0 < D.lhs (g j) i) with
      | none =>
        rw [List.find?_eq_none] at e2
        exact absurd (decide_eq_true hk) (e2 (f k) (List.mem_finRange _))
      | some i =>
        exact (h.mass k).trans (hm (g j) (f k) i hc.1 hc.2 hk (by simpa using List.find?_some e2))

theorem loss (h : PartOf D' D f g) (hy : StateOf y' y f) (j) : D'.pLoss y' j = D.pLoss y (g j) := by
  unfold pLoss fElasticLoss
  rw [h.partner, h.consts, h.tempG, h.electronTemp hy, h.enLoss, h.elastic]
  exact if_congr (by rw [h.elc_iff]) rfl rfl

theorem sheath (h : PartOf D' D f g) (hpos : KeepsPos D f) (T) : D'.fSheath T = D.fSheath T := by
  unfold fSheath sheathFactor meanIonMass
  rw [h.card_pos hpos, h.sum_pos hpos h.mass, h.consts]

/-- **Energy.** The electron energy density changes in the whole as in the part, but for the reactions cut off. -/
theorem drho (h : PartOf D' D f g) (hy : StateOf y' y f) (hpos : KeepsPos D f) (hret : KeepsReturn D f)
    [DecidablePred (Cut D f g)] (t : ℝ) :
    D.pDrho t y = D'.pDrho t y' - ∑ j ∈ univ.filter (Cut D f g),
      ((if 0 < D.eLhs j then D.pLoss y j else 0) + 3 / 2 * D.pTe y * D.eNet j) * D.pRates y j := by
  have e1 : D.pElInel y = D'.pElInel y' +
      ∑ j ∈ univ.filter (Cut D f g), (if 0 < D.eLhs j then D.pLoss y j else 0) * D.pRates y j := by
    have h1 := h.sum_reactions hy fun j => if 0 < D.eLhs j then D.pLoss y j else 0
    have h2 : ∀ {n r : ℕ} (E : Data n r) (z : Y n), E.pElInel z = ∑ j, (if 0 < E.eLhs j then E.pLoss z j else 0) * E.pRates z j := by
      intro n r E z
      unfold pElInel fElInel
      rw [sum_filter]
      refine sum_congr rfl fun j _ => ?_
      by_cases hj : 0 < E.eLhs j
      · rw [if_pos hj, if_pos (show E.elc j from hj)]
      · rw [if_neg hj, if_neg (show ¬ E.elc j from hj), zero_mul]
    rw [h2, h2, h1]
    congr 1
    exact sum_congr rfl fun j _ => by rw [h.eLhs, h.loss hy]
  have e2 : D.pGainLoss y = D'.pGainLoss y' +
      ∑ j ∈ univ.filter (Cut D f g), (3 / 2 * D.pTe y * D.eNet j) * D.pRates y j := by
    have h1 := h.sum_reactions hy fun j => (D.eNet j : ℝ)
    unfold pGainLoss fGainLoss
    rw [h1, h.electronTemp hy, mul_add, mul_sum, mul_sum, mul_sum]
    congr 1
    · exact sum_congr rfl fun j _ => by rw [h.eNet]
    · exact sum_congr rfl fun j _ => by ring
  have e3 : D'.pElWalls y' = D.pElWalls y := by
    unfold pElWalls fElWalls
    rw [h.electronTemp hy]
    congr 1
    exact h.sum_kept (fun i => by rw [h.charge, h.src hy hpos]) fun i hi => by
      by_cases hc : D.charge i = 0
      · rw [hc]; simp
      · rw [src_absent hy hret hi hc, mul_zero]
  have e4 : D'.pIonsWalls y' = D.pIonsWalls y := by
    unfold pIonsWalls fIonsWalls
    rw [h.sheath hpos, h.electronTemp hy, h.sum_pos hpos (h.src hy hpos),
      h.sum_pos hpos (F := fun i => (D.charge i : ℝ) * D.pSrc y i) fun i => by rw [h.charge, h.src hy hpos]]
  have e5 : D'.fExt (D'.power t) = D.fExt (D.power t) := by
    unfold fExt; rw [h.power, h.volume_eq, h.consts]
  unfold pDrho fDrho
  rw [e1, e2, e3, e4, e5, hy.rho]
  simp only [add_mul, sum_add_distrib]
  ring

/-! ### removing a positive ion -/

/-- The ambipolar diffusivity of the whole is a mean over all positive ions, also those without density: the part has the
mean over the ions kept. -/
theorem amb_removed (h : PartOf D' D f g) (hy : StateOf y' y f) (h1 : (univ.filter D.pos).Nonempty)
    (h2 : (univ.filter D'.pos).Nonempty) [DecidablePred (· ∈ Set.range f)] :
    (univ.filter D.pos).card * D.pAmb y = (univ.filter D'.pos).card * D'.pAmb y' +
      (∑ i ∈ univ.filter (fun i => 0 < D.charge i ∧ i ∉ Set.range f), D.pFree y i) *
        (1 + D.pTe y * D.C.e / D.C.kB / D.pTi y * (1 + 2 * ((∑ i ∈ univ.filter D.neg, y.n i) / D.pNe y))) /
        (1 + (∑ i ∈ univ.filter D.neg, y.n i) / D.pNe y * (D.pTe y * D.C.e / D.C.kB / D.pTi y)) := by
  have e2 : ∑ k ∈ univ.filter D'.neg, y'.n k = ∑ k ∈ univ.filter D.neg, y.n k := by
    rw [sum_filter, sum_filter]
    exact h.sum_kept (fun k => by rw [hy.n]; exact if_congr (h.neg_iff k) rfl rfl)
      fun k hk => by rw [hy.absent k hk, ite_self]
  have e3 : ∑ i ∈ univ.filter D.pos, D.pFree y i = ∑ i ∈ univ.filter D'.pos, D'.pFree y' i +
      ∑ i ∈ univ.filter (fun i => 0 < D.charge i ∧ i ∉ Set.range f), D.pFree y i := by
    rw [sum_filter, sum_filter, sum_filter]
    rw [h.sum_kept (F := fun i => if 0 < D.charge i ∧ i ∈ Set.range f then D.pFree y i else 0), ← sum_add_distrib]
    · refine sum_congr rfl fun i _ => ?_
      by_cases hp : 0 < D.charge i
      · rw [if_pos (show D.pos i from hp)]
        by_cases hi : i ∈ Set.range f
        · rw [if_pos ⟨hp, hi⟩, if_neg (fun hh => hh.2 hi), add_zero]
        · rw [if_neg (fun hh => hi hh.2), if_pos ⟨hp, hi⟩, zero_add]
      · rw [if_neg (show ¬ D.pos i from hp), if_neg (fun hh => hp hh.1), if_neg (fun hh => hp hh.1), add_zero]
    · intro i
      rw [h.free hy]
      exact if_congr ((h.pos_iff i).trans ⟨fun hh => ⟨hh, i, rfl⟩, fun hh => hh.1⟩) rfl rfl
    · exact fun i hi => if_neg fun hh => hi hh.2
  have c1 : ((univ.filter D.pos).card : ℝ) ≠ 0 := by exact_mod_cast h1.card_pos.ne'
  have c2 : ((univ.filter D'.pos).card : ℝ) ≠ 0 := by exact_mod_cast h2.card_pos.ne'
  unfold pAmb fAmbPos
  simp only
  rw [h.consts, h.electronTemp hy, h.ionTemp hy, h.electronDensity hy, e2, e3]
  field_simp

/-- The sheath voltage is made with the mean mass of all positive ions, also those without density: removing an ion heavier
than all the ions kept lowers it. -/
theorem sheath_removed (h : PartOf D' D f g) {b : Fin ns} (hb : 0 < D.charge b) (hr : b ∉ Set.range f)
    (hheavy : ∀ i ∉ Set.range f, 0 < D.charge i → ∀ k, 0 < D.charge (f k) → D.mass (f k) < D.mass i)
    (hm : ∀ i, 0 < D.mass i) (h2 : (univ.filter D'.pos).Nonempty) {T : ℝ} (hT : 0 < T) : D'.fSheath T < D.fSheath T := by
  classical
  set P := univ.filter D.pos
  set K := P.filter (· ∈ Set.range f)
  set R := P.filter (· ∉ Set.range f)
  have eK : (univ.filter D'.pos).map ⟨f, h.spInj⟩ = K := by
    ext i
    simp only [mem_map, mem_filter, mem_univ, true_and, Function.Embedding.coeFn_mk, K, P]
    constructor
    · rintro ⟨k, hk, rfl⟩; exact ⟨(h.pos_iff k).1 hk, k, rfl⟩
    · rintro ⟨hp, k, rfl⟩; exact ⟨k, (h.pos_iff k).2 hp, rfl⟩
  have e1 : ∑ i ∈ univ.filter D'.pos, D'.mass i = ∑ i ∈ K, D.mass i := by
    rw [← eK, sum_map]
    exact sum_congr rfl fun i _ => h.mass i
  have e2 : (univ.filter D'.pos).card = K.card := by rw [← eK, card_map]
  have hKn : K.Nonempty := by rw [← eK]; exact h2.map
  have hRn : R.Nonempty := ⟨b, mem_filter.2 ⟨mem_filter.2 ⟨mem_univ b, hb⟩, hr⟩⟩
  have e3 : ∑ i ∈ P, D.mass i = ∑ i ∈ K, D.mass i + ∑ i ∈ R, D.mass i := (sum_filter_add_sum_filter_not P _ _).symm
  have e4 : P.card = K.card + R.card := (card_filter_add_card_filter_not (s := P) (· ∈ Set.range f)).symm
  have hKR : ∀ i ∈ R, ∀ k ∈ K, D.mass k < D.mass i := by
    intro i hi k hk
    simp only [mem_filter, mem_univ, true_and, K, R, P] at hi hk
    obtain ⟨hk1, k', rfl⟩ := hk
    exact hheavy i hi.2 hi.1 k' hk1
  have hsum : (∑ k ∈ K, D.mass k) * R.card < (∑ i ∈ R, D.mass i) * K.card := by
    have a1 : (∑ k ∈ K, D.mass k) * R.card = ∑ _i ∈ R, ∑ k ∈ K, D.mass k := by
      rw [sum_const, nsmul_eq_mul, mul_comm]
    have a2 : (∑ i ∈ R, D.mass i) * K.card = ∑ i ∈ R, ∑ _k ∈ K, D.mass i := by
      rw [sum_mul]; exact sum_congr rfl fun i _ => by rw [sum_const, nsmul_eq_mul, mul_comm]
    rw [a1, a2]
    exact sum_lt_sum_of_nonempty hRn fun i hi => sum_lt_sum_of_nonempty hKn fun k hk => hKR i hi k hk
  have hK0 : (0 : ℝ) < K.card := by exact_mod_cast hKn.card_pos
  have hR0 : (0 : ℝ) < R.card := by exact_mod_cast hRn.card_pos
  have hmean : D'.meanIonMass < D.meanIonMass := by
    unfold meanIonMass
    rw [e1, e2]
    show _ < (∑ i ∈ P, D.mass i) / (P.card : ℝ)
    rw [e3, e4, div_lt_div_iff₀ hK0 (by push_cast; positivity)]
    push_cast
    nlinarith
  have hpos' : 0 < D'.meanIonMass := by
    unfold meanIonMass
    rw [e1, e2]
    exact div_pos (Finset.sum_pos (fun i _ => hm i) hKn) hK0
  unfold fSheath sheathFactor
  have hc : 0 < 2 * Real.pi * D.C.mE := mul_pos (by positivity) D.C.mE_pos
  rw [h.consts]
  refine mul_lt_mul_of_pos_left (Real.log_lt_log (Real.sqrt_pos.2 (div_pos hpos' hc)) ?_) hT
  exact Real.sqrt_lt_sqrt (div_pos hpos' hc).le (div_lt_div_of_pos_right hmean hc)

end PartOf
end Data
end Verif.Pygmol
