/-
The value of every method of `Equations` as a function of the state alone, and the proof that the methods
compute it whatever was called before (history independence), property C57.
-/
import Verif.Pygmol.Eqns

namespace Verif.Pygmol
open Finset
namespace Data
variable {ns nr : ℕ} (D : Data ns nr)

/-! ### specification: the physical quantities as functions of the state -/

noncomputable def pTot (y : Y ns) : ℝ := fTotalDensity y.n
noncomputable def pP (y : Y ns) : ℝ := D.fPressure (pTot y)
noncomputable def pTi (y : Y ns) : ℝ := D.fIonTemp (D.pP y)
noncomputable def pNe (y : Y ns) : ℝ := D.fElectronDensity y.n
noncomputable def pTe (y : Y ns) : ℝ := D.fElectronTemp (D.pNe y) y.rho
noncomputable def pDebye (y : Y ns) : ℝ := D.fDebye (D.pNe y) (D.pTe y)
noncomputable def pK (y : Y ns) (j : Fin nr) : ℝ :=
  if D.elc j then D.fRateElectron (D.pTe y) j else D.fRateHeavy j
noncomputable def pRates (y : Y ns) : Fin nr → ℝ := D.fRates y.n (D.pNe y) (pTot y) (D.pK y)
noncomputable def pVol (y : Y ns) : Fin ns → ℝ := D.fVol (D.pRates y)
noncomputable def pFlow (y : Y ns) : Fin ns → ℝ := D.fFlow y.n (D.pP y)
noncomputable def pV (y : Y ns) (i : Fin ns) : ℝ :=
  if D.neu i then D.fSpeed D.tempG i else D.fSpeed (D.pTi y) i
noncomputable def pSigma (y : Y ns) (i k : Fin ns) : ℝ :=
  if i = k then 0
  else if ¬ D.neu i ∧ ¬ D.neu k then D.fSigmaIon (D.pV y) (D.pDebye y) i k else D.fSigmaHard i k
noncomputable def pMfp (y : Y ns) : Fin ns → ℝ := fMfp y.n (D.pSigma y)
noncomputable def pFree (y : Y ns) : Fin ns → ℝ := fFree (D.pMfp y) (D.pV y)
noncomputable def pAmb (y : Y ns) : ℝ := D.fAmbPos y.n (D.pNe y) (D.pTi y) (D.pTe y) (D.pFree y)
noncomputable def pDiff (y : Y ns) : Fin ns → ℝ := D.fDiff (D.pFree y) (D.pAmb y) fAmbNeg
noncomputable def pWall (y : Y ns) : Fin ns → ℝ := D.fWall y.n (D.pDiff y) (D.pV y)
noncomputable def pSinks (y : Y ns) : Fin ns → ℝ := D.fSinks (D.pWall y)
noncomputable def pSources (y : Y ns) : Fin ns → ℝ := D.fSources (D.pSinks y)
noncomputable def pSrc (y : Y ns) : Fin ns → ℝ := D.pSinks y + D.pSources y
noncomputable def pDn (y : Y ns) : Fin ns → ℝ := fDn (D.pVol y) (D.pFlow y) (D.pSrc y) (fMinN y.n)
noncomputable def pLoss (y : Y ns) (j : Fin nr) : ℝ :=
  if D.elc j ∧ D.elastic j then D.fElasticLoss (D.pTe y) j else D.enLoss j
noncomputable def pElInel (y : Y ns) : ℝ := D.fElInel (D.pLoss y) (D.pRates y)
noncomputable def pGainLoss (y : Y ns) : ℝ := D.fGainLoss (D.pTe y) (D.pRates y)
noncomputable def pElWalls (y : Y ns) : ℝ := D.fElWalls (D.pTe y) (D.pSrc y)
noncomputable def pIonsWalls (y : Y ns) : ℝ := D.fIonsWalls (D.pTe y) (D.fSheath (D.pTe y)) (D.pSrc y)
noncomputable def pDrho (t : ℝ) (y : Y ns) : ℝ :=
  fDrho (D.fExt (D.power t)) (D.pElInel y) (D.pGainLoss y) (D.pElWalls y) (D.pIonsWalls y) (fMinRho y.rho)

/-- the right-hand side of the system of equations as a function of time and state -/
noncomputable def rhs (t : ℝ) (y : Y ns) : Y ns := ⟨D.pDn y, D.pDrho t y⟩

/-! ### calling the methods in any order -/

/-- a call of one of the methods that touch the arrays, with arbitrary arguments -/
inductive Call (ns nr : ℕ) where
  | rateCoefficients (y : Y ns) (tempE : Option ℝ)
  | rates (y : Y ns) (n : Option (Fin ns → ℝ)) (nE nTot : Option ℝ) (k : Option (Fin nr → ℝ))
  | vol (y : Y ns) (rates : Option (Fin nr → ℝ))
  | meanSpeeds (y : Y ns) (tempI : Option ℝ)
  | sigmaSc (y : Y ns) (v : Option (Fin ns → ℝ)) (debye : Option ℝ)
  | mfp (y : Y ns) (n : Option (Fin ns → ℝ)) (sigma : Option (Fin ns → Fin ns → ℝ))
  | free (y : Y ns) (mfp v : Option (Fin ns → ℝ))
  | ambPos (y : Y ns) (n : Option (Fin ns → ℝ)) (nE tempI tempE : Option ℝ) (free : Option (Fin ns → ℝ))
  | diffusivities (y : Y ns) (free : Option (Fin ns → ℝ)) (aPos aNeg : Option ℝ)
  | wall (y : Y ns) (n diff v : Option (Fin ns → ℝ))
  | sinks (y : Y ns) (wall : Option (Fin ns → ℝ))
  | sources (y : Y ns) (sinks : Option (Fin ns → ℝ))
  | sourceRates (y : Y ns) (sinks sources : Option (Fin ns → ℝ))
  | dn (y : Y ns) (vol flow diff minN : Option (Fin ns → ℝ))
  | elEnLosses (y : Y ns) (tempE : Option ℝ)
  | elInel (y : Y ns) (loss rates : Option (Fin nr → ℝ))
  | gainLoss (y : Y ns) (tempE : Option ℝ) (rates : Option (Fin nr → ℝ))
  | elWalls (y : Y ns) (tempE : Option ℝ) (diff : Option (Fin ns → ℝ))
  | ionsWalls (y : Y ns) (tempE shPot : Option ℝ) (diff : Option (Fin ns → ℝ))
  | drho (t : ℝ) (y : Y ns) (ext elInel gainLoss elWalls ionsWalls minRho : Option ℝ)
  | dy (t : ℝ) (y : Y ns) (dn : Option (Fin ns → ℝ)) (drho : Option ℝ)
  | objective (t : ℝ) (y : Y ns)

/-- the arrays after a call -/
noncomputable def after (c : Cache ns nr) : Call ns nr → Cache ns nr
  | .rateCoefficients y te => ((D.getReactionRateCoefficients y te).run c).2
  | .rates y n ne nt k => ((D.getReactionRates y n ne nt k).run c).2
  | .vol y r => ((D.getVolumetricSourceRates y r).run c).2
  | .meanSpeeds y ti => ((D.getMeanSpeeds y ti).run c).2
  | .sigmaSc y v d => ((D.getSigmaSc y v d).run c).2
  | .mfp y n s => ((D.getMeanFreePaths y n s).run c).2
  | .free y m v => ((D.getFreeDiffusivities y m v).run c).2
  | .ambPos y n ne ti te f => ((D.getAmbipolarDiffusivityPos y n ne ti te f).run c).2
  | .diffusivities y f p q => ((D.getDiffusivities y f p q).run c).2
  | .wall y n d v => ((D.getWallFluxes y n d v).run c).2
  | .sinks y w => ((D.getDiffusionSinks y w).run c).2
  | .sources y s => ((D.getDiffusionSources y s).run c).2
  | .sourceRates y s t => ((D.getDiffusionSourceRates y s t).run c).2
  | .dn y v f d m => ((D.getDnDt y v f d m).run c).2
  | .elEnLosses y te => ((D.getElEnLosses y te).run c).2
  | .elInel y l r => ((D.getDrhoElInel y l r).run c).2
  | .gainLoss y te r => ((D.getDrhoGainLoss y te r).run c).2
  | .elWalls y te d => ((D.getDrhoElWalls y te d).run c).2
  | .ionsWalls y te sh d => ((D.getDrhoIonsWalls y te sh d).run c).2
  | .drho t y a b e f g h => ((D.getDrhoDt t y a b e f g h).run c).2
  | .dy t y a b => ((D.getDyDt t y a b).run c).2
  | .objective t y => ((D.objective t y).run c).2

/-- the arrays of a freshly constructed `Equations` after any sequence of calls -/
noncomputable def history (junk : Cache ns nr) (calls : List (Call ns nr)) : Cache ns nr :=
  calls.foldl D.after (D.initCache junk)

/-! ### proofs -/

/-- the static entries are in place -/
structure Valid (c : Cache ns nr) : Prop where
  k : ∀ j, ¬ D.elc j → c.k j = D.fRateHeavy j
  v : ∀ i, D.neu i → c.v i = D.fSpeed D.tempG i
  sigma : ∀ i k, i ≠ k → (D.neu i ∨ D.neu k) → c.sigma i k = D.fSigmaHard i k
  loss : ∀ j, ¬ (D.elc j ∧ D.elastic j) → c.loss j = D.enLoss j

def Keeps {α : Type} (m : M ns nr α) : Prop := ∀ c, D.Valid c → D.Valid (m.run c).2
def Gives {α : Type} (m : M ns nr α) (a : α) : Prop := ∀ c, D.Valid c → (m.run c).1 = a ∧ D.Valid (m.run c).2

variable {D} {α β : Type}

theorem Keeps.pure (a : α) : D.Keeps (pure a : M ns nr α) := fun _ h => h
theorem Keeps.bind {m : M ns nr α} {f : α → M ns nr β} (hm : D.Keeps m) (hf : ∀ a, D.Keeps (f a)) :
    D.Keeps (m >>= f) := fun c h => hf _ _ (hm c h)
theorem Keeps.orElse {x : Option α} {m : M ns nr α} (hm : D.Keeps m) : D.Keeps (orElse x m) := by
  cases x with
  | none => exact hm
  | some a => exact Keeps.pure a

theorem Gives.pure (a : α) : D.Gives (pure a : M ns nr α) a := fun _ h => ⟨rfl, h⟩
theorem Gives.bind {m : M ns nr α} {f : α → M ns nr β} {a : α} {b : β} (hm : D.Gives m a)
    (hf : D.Gives (f a) b) : D.Gives (m >>= f) b := by
  intro c h
  obtain ⟨h1, h2⟩ := hm c h
  have := hf _ h2
  rw [← h1] at this
  exact this
theorem Gives.keeps {m : M ns nr α} {a : α} (h : D.Gives m a) : D.Keeps m := fun c hc => (h c hc).2
theorem Gives.orNone {m : M ns nr α} {a : α} (h : D.Gives m a) : D.Gives (Data.orElse none m) a := h
theorem Gives.orSome {m : M ns nr α} {a : α} : D.Gives (Data.orElse (some a) m) a := Gives.pure a

variable (D)

theorem valid_init (junk : Cache ns nr) : D.Valid (D.initCache junk) where
  k := fun j h => by simp [initCache, h]
  v := fun i h => by simp [initCache, h]
  sigma := fun i k hik h => by
    have : ¬ (¬ D.neu i ∧ ¬ D.neu k) := by tauto
    simp only [initCache, if_neg hik, if_neg this]
  loss := fun j _ => rfl

theorem gives_k (y : Y ns) (x : Option ℝ) : D.Gives (D.getReactionRateCoefficients y x)
    (fun j => if D.elc j then D.fRateElectron (x.getD (D.pTe y)) j else D.fRateHeavy j) := by
  intro c h
  refine ⟨?_, ?_, h.v, h.sigma, h.loss⟩
  · funext j
    change (if D.elc j then _ else c.k j) = _
    by_cases hj : D.elc j
    · rw [if_pos hj, if_pos hj]; rfl
    · rw [if_neg hj, if_neg hj, h.k j hj]
  · intro j hj
    change (if D.elc j then _ else c.k j) = _
    rw [if_neg hj, h.k j hj]

theorem gives_v (y : Y ns) (x : Option ℝ) : D.Gives (nr := nr) (D.getMeanSpeeds y x)
    (fun i => if D.neu i then D.fSpeed D.tempG i else D.fSpeed (x.getD (D.pTi y)) i) := by
  intro c h
  refine ⟨?_, h.k, ?_, h.sigma, h.loss⟩
  · funext i
    change (if D.neu i then c.v i else _) = _
    by_cases hi : D.neu i
    · rw [if_pos hi, if_pos hi, h.v i hi]
    · rw [if_neg hi, if_neg hi]; rfl
  · intro i hi
    change (if D.neu i then c.v i else _) = _
    rw [if_pos hi, h.v i hi]

theorem gives_loss (y : Y ns) (x : Option ℝ) : D.Gives (D.getElEnLosses y x)
    (fun j => if D.elc j ∧ D.elastic j then D.fElasticLoss (x.getD (D.pTe y)) j else D.enLoss j) := by
  intro c h
  refine ⟨?_, h.k, h.v, h.sigma, ?_⟩
  · funext j
    change (if D.elc j ∧ D.elastic j then _ else c.loss j) = _
    by_cases hj : D.elc j ∧ D.elastic j
    · rw [if_pos hj, if_pos hj]; rfl
    · rw [if_neg hj, if_neg hj, h.loss j hj]
  · intro j hj
    change (if D.elc j ∧ D.elastic j then _ else c.loss j) = _
    rw [if_neg hj, h.loss j hj]

theorem gives_sigma_some (y : Y ns) (v : Fin ns → ℝ) (x : Option ℝ) :
    D.Gives (nr := nr) (D.getSigmaSc y (some v) x)
    (fun i k => if i = k then 0 else if ¬ D.neu i ∧ ¬ D.neu k then
      D.fSigmaIon v (x.getD (D.pDebye y)) i k else D.fSigmaHard i k) := by
  intro c h
  refine ⟨?_, h.k, h.v, ?_, h.loss⟩
  · funext i k
    change (if i = k then 0 else if ¬ D.neu i ∧ ¬ D.neu k then _ else c.sigma i k) = _
    by_cases hik : i = k
    · rw [if_pos hik, if_pos hik]
    rw [if_neg hik, if_neg hik]
    by_cases hn : ¬ D.neu i ∧ ¬ D.neu k
    · rw [if_pos hn, if_pos hn]; rfl
    · rw [if_neg hn, if_neg hn, h.sigma i k hik (by tauto)]
  · intro i k hik hn
    change (if i = k then 0 else if ¬ D.neu i ∧ ¬ D.neu k then _ else c.sigma i k) = _
    rw [if_neg hik, if_neg (by tauto), h.sigma i k hik hn]

theorem keeps_v (y : Y ns) (x) : D.Keeps (nr := nr) (D.getMeanSpeeds y x) := (D.gives_v y x).keeps
theorem keeps_k (y : Y ns) (x) : D.Keeps (D.getReactionRateCoefficients y x) := (D.gives_k y x).keeps
theorem keeps_loss (y : Y ns) (x) : D.Keeps (D.getElEnLosses y x) := (D.gives_loss y x).keeps

theorem keeps_sigma (y : Y ns) (v d) : D.Keeps (nr := nr) (D.getSigmaSc y v d) := by
  cases v with
  | some v => exact (D.gives_sigma_some y v d).keeps
  | none =>
    exact Keeps.bind (f := fun v => D.getSigmaSc y (some v) d) (D.keeps_v y none)
      fun v => (D.gives_sigma_some y v d).keeps

theorem keeps_rates (y : Y ns) (n ne nt k) : D.Keeps (D.getReactionRates y n ne nt k) :=
  Keeps.bind (Keeps.orElse (D.keeps_k y none)) fun _ => Keeps.pure _
theorem keeps_vol (y : Y ns) (r) : D.Keeps (D.getVolumetricSourceRates y r) :=
  Keeps.bind (Keeps.orElse (D.keeps_rates y _ _ _ _)) fun _ => Keeps.pure _
theorem keeps_mfp (y : Y ns) (n s) : D.Keeps (nr := nr) (D.getMeanFreePaths y n s) :=
  Keeps.bind (Keeps.orElse (D.keeps_sigma y _ _)) fun _ => Keeps.pure _
theorem keeps_free (y : Y ns) (m v) : D.Keeps (nr := nr) (D.getFreeDiffusivities y m v) :=
  Keeps.bind (Keeps.orElse (D.keeps_mfp y _ _)) fun _ =>
    Keeps.bind (Keeps.orElse (D.keeps_v y _)) fun _ => Keeps.pure _
theorem keeps_amb (y : Y ns) (n ne ti te f) :
    D.Keeps (nr := nr) (D.getAmbipolarDiffusivityPos y n ne ti te f) :=
  Keeps.bind (Keeps.orElse (D.keeps_free y _ _)) fun _ => Keeps.pure _
theorem keeps_diff (y : Y ns) (f p q) : D.Keeps (nr := nr) (D.getDiffusivities y f p q) :=
  Keeps.bind (Keeps.orElse (D.keeps_free y _ _)) fun _ =>
    Keeps.bind (Keeps.orElse (D.keeps_amb y _ _ _ _ _)) fun _ => Keeps.pure _
theorem keeps_wall (y : Y ns) (n d v) : D.Keeps (nr := nr) (D.getWallFluxes y n d v) :=
  Keeps.bind (Keeps.orElse (D.keeps_diff y _ _ _)) fun _ =>
    Keeps.bind (Keeps.orElse (D.keeps_v y _)) fun _ => Keeps.pure _
theorem keeps_sinks (y : Y ns) (w) : D.Keeps (nr := nr) (D.getDiffusionSinks y w) :=
  Keeps.bind (Keeps.orElse (D.keeps_wall y _ _ _)) fun _ => Keeps.pure _
theorem keeps_sources (y : Y ns) (s) : D.Keeps (nr := nr) (D.getDiffusionSources y s) :=
  Keeps.bind (Keeps.orElse (D.keeps_sinks y _)) fun _ => Keeps.pure _
theorem keeps_src (y : Y ns) (s t) : D.Keeps (nr := nr) (D.getDiffusionSourceRates y s t) :=
  Keeps.bind (Keeps.orElse (D.keeps_sinks y _)) fun _ =>
    Keeps.bind (Keeps.orElse (D.keeps_sources y _)) fun _ => Keeps.pure _
theorem keeps_dn (y : Y ns) (v f d m) : D.Keeps (D.getDnDt y v f d m) :=
  Keeps.bind (Keeps.orElse (D.keeps_vol y _)) fun _ =>
    Keeps.bind (Keeps.orElse (D.keeps_src y _ _)) fun _ => Keeps.pure _
theorem keeps_elInel (y : Y ns) (l r) : D.Keeps (D.getDrhoElInel y l r) :=
  Keeps.bind (Keeps.orElse (D.keeps_loss y _)) fun _ =>
    Keeps.bind (Keeps.orElse (D.keeps_rates y _ _ _ _)) fun _ => Keeps.pure _
theorem keeps_gainLoss (y : Y ns) (te r) : D.Keeps (D.getDrhoGainLoss y te r) :=
  Keeps.bind (Keeps.orElse (D.keeps_rates y _ _ _ _)) fun _ => Keeps.pure _
theorem keeps_elWalls (y : Y ns) (te d) : D.Keeps (nr := nr) (D.getDrhoElWalls y te d) :=
  Keeps.bind (Keeps.orElse (D.keeps_src y _ _)) fun _ => Keeps.pure _
theorem keeps_ionsWalls (y : Y ns) (te sh d) : D.Keeps (nr := nr) (D.getDrhoIonsWalls y te sh d) :=
  Keeps.bind (Keeps.orElse (D.keeps_src y _ _)) fun _ => Keeps.pure _
theorem keeps_drho (t : ℝ) (y : Y ns) (a b e f g h) : D.Keeps (D.getDrhoDt t y a b e f g h) :=
  Keeps.bind (Keeps.orElse (D.keeps_elInel y _ _)) fun _ =>
    Keeps.bind (Keeps.orElse (D.keeps_gainLoss y _ _)) fun _ =>
      Keeps.bind (Keeps.orElse (D.keeps_elWalls y _ _)) fun _ =>
        Keeps.bind (Keeps.orElse (D.keeps_ionsWalls y _ _ _)) fun _ => Keeps.pure _
theorem keeps_dy (t : ℝ) (y : Y ns) (a b) : D.Keeps (D.getDyDt t y a b) :=
  Keeps.bind (Keeps.orElse (D.keeps_dn y _ _ _ _)) fun _ =>
    Keeps.bind (Keeps.orElse (D.keeps_drho t y _ _ _ _ _ _)) fun _ => Keeps.pure _

/-! the values with all arguments left out -/

theorem gives_rates (y : Y ns) : D.Gives (D.getReactionRates y none none none none) (D.pRates y) :=
  Gives.bind (Gives.orNone (D.gives_k y none)) (Gives.pure _)
theorem gives_vol (y : Y ns) : D.Gives (D.getVolumetricSourceRates y none) (D.pVol y) :=
  Gives.bind (Gives.orNone (D.gives_rates y)) (Gives.pure _)
theorem gives_speeds (y : Y ns) : D.Gives (nr := nr) (D.getMeanSpeeds y none) (D.pV y) := D.gives_v y none
theorem gives_sigma (y : Y ns) : D.Gives (nr := nr) (D.getSigmaSc y none none) (D.pSigma y) :=
  Gives.bind (f := fun v => D.getSigmaSc y (some v) none) (D.gives_speeds y)
    (D.gives_sigma_some y (D.pV y) none)
theorem gives_mfp (y : Y ns) : D.Gives (nr := nr) (D.getMeanFreePaths y none none) (D.pMfp y) :=
  Gives.bind (Gives.orNone (D.gives_sigma y)) (Gives.pure _)
theorem gives_free (y : Y ns) : D.Gives (nr := nr) (D.getFreeDiffusivities y none none) (D.pFree y) :=
  Gives.bind (Gives.orNone (D.gives_mfp y)) (Gives.bind (Gives.orNone (D.gives_speeds y)) (Gives.pure _))
theorem gives_amb (y : Y ns) :
    D.Gives (nr := nr) (D.getAmbipolarDiffusivityPos y none none none none none) (D.pAmb y) :=
  Gives.bind (Gives.orNone (D.gives_free y)) (Gives.pure _)
theorem gives_diff (y : Y ns) : D.Gives (nr := nr) (D.getDiffusivities y none none none) (D.pDiff y) :=
  Gives.bind (Gives.orNone (D.gives_free y))
    (Gives.bind (Gives.orNone (Gives.bind Gives.orSome (Gives.pure (D.pAmb y)))) (Gives.pure _))
theorem gives_wall (y : Y ns) : D.Gives (nr := nr) (D.getWallFluxes y none none none) (D.pWall y) :=
  Gives.bind (Gives.orNone (D.gives_diff y)) (Gives.bind (Gives.orNone (D.gives_speeds y)) (Gives.pure _))
theorem gives_sinks (y : Y ns) : D.Gives (nr := nr) (D.getDiffusionSinks y none) (D.pSinks y) :=
  Gives.bind (Gives.orNone (D.gives_wall y)) (Gives.pure _)
theorem gives_sources (y : Y ns) : D.Gives (nr := nr) (D.getDiffusionSources y none) (D.pSources y) :=
  Gives.bind (Gives.orNone (D.gives_sinks y)) (Gives.pure _)
theorem gives_src (y : Y ns) : D.Gives (nr := nr) (D.getDiffusionSourceRates y none none) (D.pSrc y) :=
  Gives.bind (Gives.orNone (D.gives_sinks y))
    (Gives.bind (Gives.orNone (Gives.bind Gives.orSome (Gives.pure (D.pSources y)))) (Gives.pure _))
theorem gives_dn (y : Y ns) : D.Gives (D.getDnDt y none none none none) (D.pDn y) :=
  Gives.bind (Gives.orNone (D.gives_vol y)) (Gives.bind (Gives.orNone (D.gives_src y)) (Gives.pure _))
theorem gives_losses (y : Y ns) : D.Gives (D.getElEnLosses y none) (D.pLoss y) := D.gives_loss y none
theorem gives_elInel (y : Y ns) : D.Gives (D.getDrhoElInel y none none) (D.pElInel y) :=
  Gives.bind (Gives.orNone (D.gives_losses y)) (Gives.bind (Gives.orNone (D.gives_rates y)) (Gives.pure _))
theorem gives_gainLoss (y : Y ns) : D.Gives (D.getDrhoGainLoss y none none) (D.pGainLoss y) :=
  Gives.bind (Gives.orNone (D.gives_rates y)) (Gives.pure _)
theorem gives_elWalls (y : Y ns) : D.Gives (nr := nr) (D.getDrhoElWalls y none none) (D.pElWalls y) :=
  Gives.bind (Gives.orNone (D.gives_src y)) (Gives.pure _)
theorem gives_ionsWalls (y : Y ns) :
    D.Gives (nr := nr) (D.getDrhoIonsWalls y none none none) (D.pIonsWalls y) :=
  Gives.bind (Gives.orNone (D.gives_src y)) (Gives.pure _)
theorem gives_drho (t : ℝ) (y : Y ns) :
    D.Gives (D.getDrhoDt t y none none none none none none) (D.pDrho t y) :=
  Gives.bind (Gives.orNone (D.gives_elInel y)) (Gives.bind (Gives.orNone (D.gives_gainLoss y))
    (Gives.bind (Gives.orNone (D.gives_elWalls y)) (Gives.bind (Gives.orNone (D.gives_ionsWalls y))
      (Gives.pure _))))
theorem gives_dy (t : ℝ) (y : Y ns) : D.Gives (D.getDyDt t y none none) (D.rhs t y) :=
  Gives.bind (Gives.orNone (D.gives_dn y)) (Gives.bind (Gives.orNone (D.gives_drho t y)) (Gives.pure _))

theorem gives_objective (t : ℝ) (y : Y ns) : D.Gives (D.objective t y) (D.rhs t y) := by
  refine Gives.bind (D.gives_k y (some (D.pTe y))) ?_
  refine Gives.bind (a := D.pRates y) (Gives.bind Gives.orSome (Gives.pure _)) ?_
  refine Gives.bind (a := D.pVol y) (Gives.bind Gives.orSome (Gives.pure _)) ?_
  refine Gives.bind (D.gives_v y (some (D.pTi y))) ?_
  refine Gives.bind (D.gives_sigma_some y (D.pV y) (some (D.pDebye y))) ?_
  refine Gives.bind (a := D.pMfp y) (Gives.bind Gives.orSome (Gives.pure _)) ?_
  refine Gives.bind (a := D.pFree y) (Gives.bind Gives.orSome (Gives.bind Gives.orSome (Gives.pure _))) ?_
  refine Gives.bind (a := D.pAmb y) (Gives.bind Gives.orSome (Gives.pure _)) ?_
  refine Gives.bind (a := D.pDiff y) (Gives.bind Gives.orSome (Gives.bind Gives.orSome (Gives.pure _))) ?_
  refine Gives.bind (a := D.pWall y) (Gives.bind Gives.orSome (Gives.bind Gives.orSome (Gives.pure _))) ?_
  refine Gives.bind (a := D.pSinks y) (Gives.bind Gives.orSome (Gives.pure _)) ?_
  refine Gives.bind (a := D.pSources y) (Gives.bind Gives.orSome (Gives.pure _)) ?_
  refine Gives.bind (a := D.pSrc y) (Gives.bind Gives.orSome (Gives.bind Gives.orSome (Gives.pure _))) ?_
  refine Gives.bind (a := D.pDn y) (Gives.bind Gives.orSome (Gives.bind Gives.orSome (Gives.pure _))) ?_
  refine Gives.bind (D.gives_loss y (some (D.pTe y))) ?_
  refine Gives.bind (a := D.pElInel y) (Gives.bind Gives.orSome (Gives.bind Gives.orSome (Gives.pure _))) ?_
  refine Gives.bind (a := D.pGainLoss y) (Gives.bind Gives.orSome (Gives.pure _)) ?_
  refine Gives.bind (a := D.pElWalls y) (Gives.bind Gives.orSome (Gives.pure _)) ?_
  refine Gives.bind (a := D.pIonsWalls y) (Gives.bind Gives.orSome (Gives.pure _)) ?_
  refine Gives.bind (a := D.pDrho t y) (Gives.bind Gives.orSome (Gives.bind Gives.orSome
    (Gives.bind Gives.orSome (Gives.bind Gives.orSome (Gives.pure _))))) ?_
  exact Gives.bind Gives.orSome (Gives.bind Gives.orSome (Gives.pure _))

theorem valid_after (c : Cache ns nr) (h : D.Valid c) (call : Call ns nr) : D.Valid (D.after c call) := by
  cases call with
  | rateCoefficients => exact D.keeps_k _ _ _ h
  | rates => exact D.keeps_rates _ _ _ _ _ _ h
  | vol => exact D.keeps_vol _ _ _ h
  | meanSpeeds => exact D.keeps_v _ _ _ h
  | sigmaSc => exact D.keeps_sigma _ _ _ _ h
  | mfp => exact D.keeps_mfp _ _ _ _ h
  | free => exact D.keeps_free _ _ _ _ h
  | ambPos => exact D.keeps_amb _ _ _ _ _ _ _ h
  | diffusivities => exact D.keeps_diff _ _ _ _ _ h
  | wall => exact D.keeps_wall _ _ _ _ _ h
  | sinks => exact D.keeps_sinks _ _ _ h
  | sources => exact D.keeps_sources _ _ _ h
  | sourceRates => exact D.keeps_src _ _ _ _ h
  | dn => exact D.keeps_dn _ _ _ _ _ _ h
  | elEnLosses => exact D.keeps_loss _ _ _ h
  | elInel => exact D.keeps_elInel _ _ _ _ h
  | gainLoss => exact D.keeps_gainLoss _ _ _ _ h
  | elWalls => exact D.keeps_elWalls _ _ _ _ h
  | ionsWalls => exact D.keeps_ionsWalls _ _ _ _ _ h
  | drho => exact D.keeps_drho _ _ _ _ _ _ _ _ _ h
  | dy => exact D.keeps_dy _ _ _ _ _ h
  | objective => exact (D.gives_objective _ _).keeps _ h

theorem valid_history (junk : Cache ns nr) (calls : List (Call ns nr)) : D.Valid (D.history junk calls) := by
  unfold history
  generalize hc : D.initCache junk = c
  have h : D.Valid c := hc ▸ D.valid_init junk
  clear hc
  induction calls generalizing c with
  | nil => exact h
  | cons a l ih => exact ih _ (D.valid_after c h a)

/-- **C57** history independence: whatever was in the uninitialised arrays and whatever methods were called
before and with whatever arguments, the objective function returns the same right-hand side, a function of
time and state only. -/
theorem objective_history_independent (junk : Cache ns nr) (calls : List (Call ns nr)) (t : ℝ) (y : Y ns) :
    ((D.objective t y).run (D.history junk calls)).1 = D.rhs t y :=
  (D.gives_objective t y _ (D.valid_history junk calls)).1

/-- **C58** the quantities reported by the methods called with the state alone, as the diagnostics of a
finished run do, are the ones used in the right-hand side. -/
theorem diagnostics_consistent (junk : Cache ns nr) (calls : List (Call ns nr)) (t : ℝ) (y : Y ns) :
    let c := D.history junk calls
    let vol := ((D.getVolumetricSourceRates y none).run c).1
    let flow := D.getFlowSourceRates y none none
    let diff := ((D.getDiffusionSourceRates y none none).run c).1
    let minN := getMinNCorrection y none
    let ext := D.getDrhoExt t none
    let elInel := ((D.getDrhoElInel y none none).run c).1
    let gainLoss := ((D.getDrhoGainLoss y none none).run c).1
    let elWalls := ((D.getDrhoElWalls y none none).run c).1
    let ionsWalls := ((D.getDrhoIonsWalls y none none none).run c).1
    let minRho := getMinRhoCorrection y none
    let rates := ((D.getReactionRates y none none none none).run c).1
    let sinks := ((D.getDiffusionSinks y none).run c).1
    let dy := ((D.objective t y).run c).1
    (∀ i, dy.n i = vol i + flow i + diff i + minN i) ∧
    dy.rho = ext - elInel - gainLoss - elWalls - ionsWalls + minRho ∧
    (∀ i, vol i = ∑ j, (D.net j i : ℝ) * rates j) ∧
    (∀ i, diff i = sinks i - ∑ k, sinks k * D.ret i k) ∧
    dy = ((D.getDyDt t y none none).run c).1 := by
  have hv := D.valid_history junk calls
  intro c vol flow diff minN ext elInel gainLoss elWalls ionsWalls minRho rates sinks dy
  have e1 : dy = D.rhs t y := (D.gives_objective t y _ hv).1
  have e2 : vol = D.pVol y := (D.gives_vol y _ hv).1
  have e3 : diff = D.pSrc y := (D.gives_src y _ hv).1
  have e4 : elInel = D.pElInel y := (D.gives_elInel y _ hv).1
  have e5 : gainLoss = D.pGainLoss y := (D.gives_gainLoss y _ hv).1
  have e6 : elWalls = D.pElWalls y := (D.gives_elWalls y _ hv).1
  have e7 : ionsWalls = D.pIonsWalls y := (D.gives_ionsWalls y _ hv).1
  have e8 : rates = D.pRates y := (D.gives_rates y _ hv).1
  have e9 : sinks = D.pSinks y := (D.gives_sinks y _ hv).1
  have e10 : ((D.getDyDt t y none none).run c).1 = D.rhs t y := (D.gives_dy t y _ hv).1
  rw [e10]
  refine ⟨?_, ?_, ?_, ?_, e1⟩
  · intro i; rw [e1, e2, e3]; rfl
  · rw [e1, e4, e5, e6, e7]; rfl
  · intro i; rw [e2, e8]; rfl
  · intro i
    rw [e3, e9]
    simp only [pSrc, pSources, fSources, Pi.add_apply, neg_mul, Finset.sum_neg_distrib, sub_eq_add_neg]

end Data
end Verif.Pygmol
