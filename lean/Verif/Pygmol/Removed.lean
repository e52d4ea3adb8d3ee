/-
Property C127, for the equations themselves: slow reactions can be left out at the cost of a small error.
-/
import Verif.Pygmol.Depend
import Verif.Pygmol.Restrict

namespace Verif.Pygmol.Data
open Finset
variable {ns' nr' ns nr : ℕ} {D' : Data ns' nr'} {D : Data ns nr} {f : Fin ns' → Fin ns} {g : Fin nr' → Fin nr}

/-- the factors of the whole with those of the reactions outside the part set to zero -/
noncomputable def onlyPart (D : Data ns nr) (g : Fin nr' → Fin nr) : Fin nr → ℝ := by
  classical exact fun j => if j ∈ Set.range g then D.arrhA j else 0

theorem onlyPart_in (j : Fin nr') : onlyPart D g (g j) = D.arrhA (g j) := if_pos ⟨j, rfl⟩
theorem onlyPart_out {j : Fin nr} (h : j ∉ Set.range g) : onlyPart D g j = 0 := if_neg h

theorem PartOf.withRates (h : PartOf D' D f g) {A : Fin nr → ℝ} (hA : ∀ j, A (g j) = D.arrhA (g j)) :
    PartOf D' (D.withRates A) f g :=
  ⟨h.spInj, h.order, h.inj, h.consts, h.charge, h.mass, h.lj, h.stick, fun j => (h.arrhA j).trans (hA j).symm, h.arrhB, h.arrhC, h.enLoss, h.elastic, h.eNet,
    h.eLhs, h.mLhs, h.ret, h.net, h.lhs, h.feed, h.tempG, h.radius, h.length, h.p0, h.power, h.flux, h.lhs_in⟩

/-- the part is defined in a state exactly if the whole is -/
theorem PartOf.defined (h : PartOf D' D f g) (hf : Function.Surjective f) {y' : Y ns'} {y : Y ns} (hy : StateOf y' y f)
    (hd : D'.Defined y') : D.Defined y := by
  have hpos : KeepsPos D f := fun i hi => (hi (hf i)).elim
  obtain ⟨h1, h2, h3⟩ := hd
  refine ⟨fun i => ?_, ?_, ⟨?_, ?_, fun i => ?_, ?_, fun hw i => ?_⟩⟩
  · obtain ⟨k, rfl⟩ := hf i
    rw [← hy.n]; exact h1 k
  · have := h.electronDensity hy
    change 0 < D.pNe y
    rw [← this]; exact h2
  · rw [← h.electronDensity hy]; exact h3.nE
  · rw [sum_filter, ← h.sum_kept (F' := fun i => if D'.neu i then y'.n i else 0) (fun i => ?_) fun i hi => (hi (hf i)).elim, ← sum_filter]
    · exact h3.neutrals
    · rw [hy.n]; exact if_congr (h.neu_iff i) rfl rfl
  · obtain ⟨k, rfl⟩ := hf i
    rw [← h.sum_kept (F' := fun l => y'.n l * D'.pSigma y' k l) (fun l => by rw [hy.n, h.sigma hy]) fun i hi => (hi (hf i)).elim]
    exact h3.mfp k
  · obtain ⟨i, hi⟩ := h3.posIon
    exact ⟨f i, (h.pos_iff i).1 hi⟩
  · obtain ⟨k, rfl⟩ := hf i
    rw [← h.stick, ← h.diffL_eq, ← h.diff hy hpos, ← h.speed hy]
    exact h3.wall (h.flux.trans hw) k

/-- without the reactions outside the part the whole does what the part does -/
theorem PartOf.rhs_same (h : PartOf D' D f g) (hf : Function.Surjective f) {y' : Y ns'} {y : Y ns} (hy : StateOf y' y f)
    (h0 : ∀ j ∉ Set.range g, D.arrhA j = 0) (t : ℝ) :
    (∀ i, D.pDn y (f i) = D'.pDn y' i) ∧ D.pDrho t y = D'.pDrho t y' := by
  classical
  have hpos : KeepsPos D f := fun i hi => (hi (hf i)).elim
  have hz : ∀ j, Cut D f g j → D.pRates y j = 0 := fun j hj => by
    have : D.pRates y j = D.arrhA j * (D.withRates fun _ => 1).pRates y j := withRates_rates (D := D) D.arrhA y j
    rw [this, h0 j hj.1, zero_mul]
  constructor
  · intro i
    rw [h.dn hy hpos (fun i hi => (hi (hf i)).elim) i, sum_eq_zero fun j hj => by rw [hz j (mem_filter.1 hj).2, mul_zero], add_zero]
  · rw [h.drho hy hpos (fun i hi => (hi (hf i)).elim) t, sum_eq_zero fun j hj => by rw [hz j (mem_filter.1 hj).2, mul_zero], sub_zero]

/-- **C127.** The part has all species of the whole, but not all reactions. If a run of the part reaches its end, then so does the run of
the whole from the same start with any factors that are small enough for the reactions outside the part, and at all times it differs from
the run of the part by at most a constant times the largest of these factors. -/
theorem removed_stable (h : PartOf D' D f g) (hf : Function.Surjective f) (hph : D.Physical) {T : ℝ} (hT : 0 < T)
    (hP : ContinuousOn D.power (Set.Icc 0 T)) {y : ℝ → Y ns'} (hy : D'.Solves T y) (hdef : ∀ t ∈ Set.Icc 0 T, D'.Defined (y t)) :
    ∃ L > (0 : ℝ), ∃ δ > (0 : ℝ), ∀ d ∈ Set.Ioc 0 δ, ∀ A : Fin nr → ℝ, (∀ j, 0 ≤ A j) → (∀ j, A (g j) = D.arrhA (g j)) →
      (∀ j ∉ Set.range g, A j ≤ d) →
      ∃ z, (D.withRates A).Solves T z ∧ StateOf (y 0) (z 0) f ∧
        ∀ t ∈ Set.Icc 0 T, D.Defined (z t) ∧ (∀ i, |(z t).n (f i) - (y t).n i| ≤ L * d) ∧ |(z t).rho - (y t).rho| ≤ L * d := by
  have hsur := hf
  choose k hk using hsur
  have hkf : ∀ i, k (f i) = i := fun i => h.spInj (hk (f i))
  set u : ℝ → Y ns := fun t => ⟨fun i => (y t).n (k i), (y t).rho⟩ with hu
  have hst : ∀ t, StateOf (y t) (u t) f := fun t => ⟨fun i => by rw [hu]; simp only [hkf], rfl, fun i hi => (hi ⟨k i, hk i⟩).elim⟩
  set E := D.withRates (onlyPart D g) with hE
  have hpE : PartOf D' E f g := h.withRates onlyPart_in
  have hsE : ∀ t, (∀ i, E.pDn (u t) (f i) = D'.pDn (y t) i) ∧ E.pDrho t (u t) = D'.pDrho t (y t) := fun t =>
    hpE.rhs_same hf (hst t) (fun j hj => onlyPart_out hj) t
  have hphE : E.Physical := withRates_physical hph fun j => by
    by_cases hj : j ∈ Set.range g
    · obtain ⟨j, rfl⟩ := hj
      rw [onlyPart_in]; exact hph.arrhA _
    · rw [onlyPart_out hj]
  have hyE : E.Solves T u := fun t ht => by
    obtain ⟨k1, k2⟩ := hy t ht
    refine ⟨fun i => ?_, ?_⟩
    · have e1 : (E.rhs t (u t)).n i = (D'.rhs t (y t)).n (k i) := by
        have := (hsE t).1 (k i)
        rw [hk] at this
        exact this
      rw [e1]
      exact k1 (k i)
    · have e1 : (E.rhs t (u t)).rho = (D'.rhs t (y t)).rho := (hsE t).2
      rw [e1]
      exact k2
  obtain ⟨L, hL, δ, hδ, key⟩ := run_stable hphE hT hP hyE fun t ht => hpE.defined hf (hst t) (hdef t ht)
  refine ⟨L, hL, δ, hδ, fun d hd A hA hin hout => ?_⟩
  obtain ⟨z, hz0, hz, hnear⟩ := key d hd A (u 0) hA (fun j => by
    show |A j - onlyPart D g j| ≤ d
    by_cases hj : j ∈ Set.range g
    · obtain ⟨j, rfl⟩ := hj
      rw [onlyPart_in, hin, sub_self, abs_zero]; exact hd.1.le
    · rw [onlyPart_out hj, sub_zero, abs_of_nonneg (hA j)]; exact hout j hj)
    ⟨fun i => by rw [sub_self, abs_zero]; exact hd.1.le, by rw [sub_self, abs_zero]; exact hd.1.le⟩
  refine ⟨z, hz, hz0 ▸ hst 0, fun t ht => ⟨withRates_defined.1 (hnear t ht).1, fun i => ?_, (hnear t ht).2.2⟩⟩
  have := (hnear t ht).2.1 (f i)
  rwa [← (hst t).n i] at this

end Verif.Pygmol.Data
