/-
Property C125 for accepted input: how far the time development of a chemistry goes.
-/
import Verif.Fwork.PhysEqnsDemo
import Verif.Pygmol.Edge

namespace Verif.Fwork.PhysEqns
open Finset Verif.Plaschem Verif.Plaschem.Net Verif.Pygmol
open Verif.Fwork.GraphRun (ns nr)
open Verif.Fwork.Rates (mem_heavy)
open Verif.Fwork.ReducedEqns

variable {net : Net} {st : State} {X : RP → Extra} {F : Str → Option (Dict Str Nat)}

theorem accepted_power {passed : List (Str × Val)} {Q : Pygmol.Params} (hQ : initParams passed = .ok Q)
    (htime : Q.time.Pairwise (· < ·)) {C : Consts} {dalton : ℝ} {flux : Bool} {D : Data (ns net st) (nr net st)}
    (hD : ReadsAll X (given Q C dalton flux) D) : Continuous D.power ∧ ∃ P, ∀ t, |D.power t| ≤ P := by
  obtain ⟨-, -, -, -, -, -, hpos, hlen, hl2, -⟩ := accepted_params hQ
  refine ⟨?_, Q.power.sum, fun t => ?_⟩
  · rw [hD.power]
    refine interp_continuous ?_
    have : ((Q.time.zip Q.power).map Prod.fst).Pairwise (· < ·) := by
      rw [List.map_fst_zip hlen.ge]; exact htime
    rwa [List.pairwise_map] at this
  · rw [hD.power]
    have hne : Q.time.zip Q.power ≠ [] := fun h => by
      have := congrArg List.length h
      simp only [List.length_zip, List.length_nil] at this
      omega
    obtain ⟨h1, h2⟩ := interp_bounds hne (lo := 0) (hi := Q.power.sum) (fun p hp => by
      have hm := (List.of_mem_zip (a := p.1) (b := p.2) hp).2
      exact ⟨hpos _ hm, List.single_le_sum hpos _ hm⟩) t
    have h3 := h1.trans h2
    exact abs_le.2 ⟨(neg_nonpos.2 h3).trans h1, h2⟩

theorem accepted_complete {P : ReducedEqns.Params} {D : Data (ns net st) (nr net st)} (hD : ReadsAll X P D)
    (hph : D.Physical) (hsize : ∀ s ∈ net.species, ∀ v, (X s).ljSigma = some v → 0 < v)
    (hneg : D.thermalFlux = true → ∀ s ∈ net.species, st.enSp s.id = true → s.isSpecial = false → s.chargeOf < 0 → stickInForce st s ≠ some 0) :
    D.Complete := by
  refine ⟨fun m => ?_, fun hf m hm => ?_⟩
  · rw [lj_at hD]
    have : 0 < (X (spAt net st m)).ljSigma.getD 3 := by
      cases hx : (X (spAt net st m)).ljSigma with
      | none => norm_num
      | some v => exact hsize _ (mem_heavy.1 (sp_mem m)).1 v hx
    have : (0 : ℝ) < (((X (spAt net st m)).ljSigma.getD 3 : ℚ) : ℝ) := by exact_mod_cast this
    positivity
  · obtain ⟨v, e, hv⟩ := stick_at hD m
    obtain ⟨h1, h2, h3⟩ := mem_heavy.1 (sp_mem m)
    have hne : v ≠ 0 := fun h0 => hneg hf _ h1 h2 h3 (by rw [← hD.coefs.charge]; exact hm) (by rw [e, h0])
    rw [hv]
    have := hph.stick m
    rw [hv] at this
    exact lt_of_le_of_ne this (by exact_mod_cast hne.symm)

/-- **C125.** For accepted input as in C122, the time development exists up to and including the end of the run, or up to a time before
which the state leaves the states in which the equations are defined. -/
theorem accepted_maximal (hs : SoundInput F net) (hh : SoundHistory net st) (hcl : net.RetClosed) {passed : List (Str × Val)}
    {Q : Pygmol.Params} (hQ : initParams passed = .ok Q) (htime : Q.time.Pairwise (· < ·)) {C : Consts} {dalton : ℝ}
    (hd : 0 < dalton) {flux : Bool} {D : Data (ns net st) (nr net st)} (hD : ReadsAll X (given Q C dalton flux) D)
    (hq : net.requiresCharge = true) (hsize : ∀ s ∈ net.species, ∀ v, (X s).ljSigma = some v → 0 < v)
    (hneu : ∃ s ∈ net.species, st.enSp s.id = true ∧ s.isSpecial = false ∧ s.chargeOf = 0)
    (hneg : flux = true → ∀ s ∈ net.species, st.enSp s.id = true → s.isSpecial = false → s.chargeOf < 0 → stickInForce st s ≠ some 0)
    {y0 : Y (ns net st)} (hn : ∀ i, 0 < y0.n i) (hne : 0 < D.getElectronDensity y0 none)
    (hw : ∀ i k, i ≠ k → ¬ D.neu i → ¬ D.neu k → D.fB0 (D.pV y0) i k < 2 * D.pDebye y0) :
    ∃ τ ∈ Set.Ioc 0 Q.tEnd, ∃ y, D.Development y0 τ y ∧ ((τ = Q.tEnd ∧ D.Solves Q.tEnd y ∧ D.Defined (y Q.tEnd)) ∨ D.Leaves τ y) := by
  obtain ⟨ε, hε, y, -, h0, hg, -⟩ := accepted_development hs hh hcl hQ htime hd hD hq hsize hneu hneg hn hne hw
  have hdef : D.Defined y0 := h0 ▸ hg 0 ⟨le_rfl, hε.1.le⟩
  exact Data.maximal_development (accepted_physical hs hh hcl hQ hd hD) hdef (hε.1.trans_le hε.2)
    (accepted_power hQ htime hD).1.continuousOn

/-- **C125.** If besides, as in C97, every species contains some conserved quantity, the wall gives back neutrals, ions are not lighter than
a few electrons, reactions cost the electrons energy and none takes up more electrons than it releases, only the edge of the states in which
the equations are defined can stop the time development. -/
theorem accepted_reaches_end (hs : SoundInput F net) (hh : SoundHistory net st) (hcl : net.RetClosed) {passed : List (Str × Val)}
    {Q : Pygmol.Params} (hQ : initParams passed = .ok Q) (htime : Q.time.Pairwise (· < ·)) {C : Consts} {dalton : ℝ}
    (hd : 0 < dalton) {flux : Bool} {D : Data (ns net st) (nr net st)} (hD : ReadsAll X (given Q C dalton flux) D)
    (hq : net.requiresCharge = true) (hsize : ∀ s ∈ net.species, ∀ v, (X s).ljSigma = some v → 0 < v)
    (hneu : ∃ s ∈ net.species, st.enSp s.id = true ∧ s.isSpecial = false ∧ s.chargeOf = 0)
    (hneg : flux = true → ∀ s ∈ net.species, st.enSp s.id = true → s.isSpecial = false → s.chargeOf < 0 → stickInForce st s ≠ some 0)
    {w : Fin (ns net st) → ℝ} (hkept : D.Kept w) (hw1 : ∀ i, 1 ≤ w i) (hr : D.NeutralReturn)
    (hm : ∀ i, 0 < D.charge i → 2 * Real.pi * D.C.mE ≤ D.mass i) (hloss : ∀ j, 0 ≤ D.enLoss j) (he : ∀ j, 0 ≤ D.eNet j)
    {y0 : Y (ns net st)} (hn : ∀ i, 0 < y0.n i) (hne : 0 < D.getElectronDensity y0 none)
    (hw : ∀ i k, i ≠ k → ¬ D.neu i → ¬ D.neu k → D.fB0 (D.pV y0) i k < 2 * D.pDebye y0) :
    ∃ τ ∈ Set.Ioc 0 Q.tEnd, ∃ y, D.Development y0 τ y ∧ ((τ = Q.tEnd ∧ D.Solves Q.tEnd y ∧ D.Defined (y Q.tEnd)) ∨
      ∀ b > 0, ∃ t ∈ Set.Ico 0 τ, D.NearEdge b (y t)) := by
  obtain ⟨ε, hε, y, -, h0, hg, -⟩ := accepted_development hs hh hcl hQ htime hd hD hq hsize hneu hneg hn hne hw
  have hdef : D.Defined y0 := h0 ▸ hg 0 ⟨le_rfl, hε.1.le⟩
  have hph := accepted_physical hs hh hcl hQ hd hD
  have hflux : D.thermalFlux = flux := hD.flux
  obtain ⟨hc, P, hP⟩ := accepted_power hQ htime hD
  exact Data.reaches_end hph (accepted_complete hD hph hsize fun hf => hneg (hflux ▸ hf)) hkept hw1 hr hm hloss he hdef (hε.1.trans_le hε.2)
    hc.continuousOn hP

end Verif.Fwork.PhysEqns

namespace Verif.Pygmol.TimeDemo
open Finset Filter

theorem sol_defined (t : ℝ) : swap.Defined (sol t) := ⟨fun i => by fin_cases i <;> norm_num [sol], (inside t).1, (inside t).2.2⟩

theorem sol_development : swap.Development (sol 0) 7 sol :=
  ⟨rfl, fun s hs => Data.Solves.mono solves hs.2.le, fun t _ => sol_defined t⟩

/-- the hypotheses of `development_unique` are met -/
example {z : ℝ → Y 3} (hz : swap.Solves 5 z) (h0 : z 0 = sol 0) : ∀ t ∈ Set.Icc (0 : ℝ) 5, z t = sol t :=
  fun t ht => Data.development_unique physical sol_development hz h0 t ht (by linarith [ht.2])

/-- the hypotheses of `leaves_ends` are met -/
example {τ : ℝ} (h0 : 0 < τ) (hτ : τ ≤ 7) : ¬ swap.Leaves τ sol :=
  Data.leaves_ends physical h0 ⟨rfl, fun s hs => Data.Solves.mono solves (hs.2.le.trans hτ), fun t _ => sol_defined t⟩ hτ solves rfl
    (sol_defined τ)

theorem complete : swap.Complete := ⟨fun i => by norm_num [swap], fun _ i hi => by
  exfalso; revert hi; fin_cases i <;> simp [swap]⟩

/-- the hypotheses of `reaches_end` are met -/
example : ∃ τ ∈ Set.Ioc (0 : ℝ) 9, ∃ y, swap.Development (sol 0) τ y ∧
    ((τ = 9 ∧ swap.Solves 9 y ∧ swap.Defined (y 9)) ∨ ∀ b > 0, ∃ t ∈ Set.Ico 0 τ, swap.NearEdge b (y t)) :=
  Data.reaches_end (P := 500) physical complete kept (fun _ => le_rfl) (fun _ _ _ => rfl) (fun i _ => by
    have := Real.pi_lt_four
    simp only [swap, Verif.Pygmol.Demo.consts]
    linarith) (fun _ => le_rfl) (fun _ => le_rfl) (sol_defined 0) (by norm_num) continuousOn_const (fun t => by
    show |(500 : ℝ)| ≤ 500
    norm_num)

/-- the states of `sol` are not near the edge, so the second alternative says something -/
example (t : ℝ) : ¬ swap.NearEdge 1 (sol t) := by
  rintro (h | h | ⟨i, k, h1, h2, h3, -⟩)
  · have : (10 : ℝ) < 1 := by
      have e : ∑ i ∈ univ.filter swap.neu, (sol t).n i = 10 := by
        rw [sum_filter, Fin.sum_univ_three]
        simp [Data.neu, swap, sol]
        norm_num
      rwa [e] at h
    norm_num at this
  · have e : swap.getElectronDensity (sol t) none = 2 := by
      simp [Data.getElectronDensity, Data.fElectronDensity, Data.getDensityVector, swap, sol, Fin.sum_univ_three]
    rw [e] at h
    norm_num at h
  · revert h1 h2 h3
    fin_cases i <;> fin_cases k <;> simp [Data.neu, swap]

end Verif.Pygmol.TimeDemo

namespace Verif.Fwork.PhysEqns.Demo
open Finset Verif.Plaschem Verif.Plaschem.Net Verif.Pygmol
open Verif.Fwork.GraphRun (ns nr)
open Verif.Fwork.ReducedEqns
open Verif.Plaschem.Demo (e M Ar ArP ArX)

/-- the hypotheses of `accepted_maximal` are met -/
example (C : Consts) : ∃ τ ∈ Set.Ioc 0 Pygmol.Demo.params.tEnd, ∃ y, (D C).Development y0 τ y ∧
    ((τ = Pygmol.Demo.params.tEnd ∧ (D C).Solves Pygmol.Demo.params.tEnd y ∧ (D C).Defined (y Pygmol.Demo.params.tEnd)) ∨
      (D C).Leaves τ y) :=
  accepted_maximal sound history retClosed Pygmol.Demo.accepted (by simp [Pygmol.Demo.params]) (by norm_num) (reads C) rfl
    (by intro s _ v hv; cases hv) ⟨Ar, by decide +kernel⟩ (by decide +kernel) (fun _ => by norm_num [y0]) (electrons C)
    fun i k h1 h2 h3 => (one_ion C i k h1 h2 h3).elim

/-- what comes back -/
def back' (i k : Fin (ns net st)) : ℚ := match net.getReturnMatrix st false with
  | .ok M => M.entry (M.rows.getD i 0) (M.cols.getD k 0)
  | .error _ => 0

theorem ret_eq (C : Consts) (i k : Fin (ns net st)) : (D C).ret i k = (back' i k : ℝ) := by
  show (match net.getReturnMatrix st false with
    | .ok M => (M.entry (M.rows.getD i 0) (M.cols.getD k 0) : ℝ)
    | .error _ => 0) = _
  unfold back'
  cases net.getReturnMatrix st false <;> simp

/-- heavy particles are conserved -/
theorem kept (C : Consts) : (D C).Kept fun _ => 1 where
  nonneg _ := zero_le_one
  reactions j := by
    have h : ∀ j : Fin (nr net st), ∑ i : Fin (ns net st),
        cell (okOr (net.stoichiomatrix st false false .net)) (reAt net st j).id (spAt net st i).id = 0 := by decide +kernel
    have := congrArg (Int.cast : ℤ → ℝ) (h j)
    push_cast at this
    simp only [mul_one]
    exact this
  wall k _ := by
    have h : ∀ k : Fin (ns net st), ∑ i, back' i k ≤ 1 := by decide +kernel
    have : ((∑ i, back' i k : ℚ) : ℝ) ≤ ((1 : ℚ) : ℝ) := by exact_mod_cast h k
    push_cast at this
    simpa only [ret_eq, mul_one] using this

/-- the hypotheses of `accepted_reaches_end` are met -/
example (C : Consts) (hC : 2 * Real.pi * C.mE ≤ 40 * 1.66e-27) : ∃ τ ∈ Set.Ioc 0 Pygmol.Demo.params.tEnd, ∃ y, (D C).Development y0 τ y ∧
    ((τ = Pygmol.Demo.params.tEnd ∧ (D C).Solves Pygmol.Demo.params.tEnd y ∧ (D C).Defined (y Pygmol.Demo.params.tEnd)) ∨
      ∀ b > 0, ∃ t ∈ Set.Ico 0 τ, (D C).NearEdge b (y t)) :=
  accepted_reaches_end sound history retClosed Pygmol.Demo.accepted (by simp [Pygmol.Demo.params]) (by norm_num) (reads C) rfl
    (by intro s _ v hv; cases hv) ⟨Ar, by decide +kernel⟩ (by decide +kernel) (kept C) (fun _ => le_rfl)
    (fun i k h => by
      have h' : ∀ i k : Fin (ns net st), (spAt net st i).chargeOf ≠ 0 → back' i k = 0 := by decide +kernel
      rw [ret_eq, h' i k h, Rat.cast_zero])
    (fun i _ => by
      have h : ∀ i : Fin (ns net st), num (okOr (net.speciesMasses st false false true)) i = 40 := by decide +kernel
      show _ ≤ (num (okOr (net.speciesMasses st false false true)) i : ℝ) * 1.66e-27
      rw [h i]
      exact_mod_cast hC)
    (fun j => by
      have h : ∀ j : Fin (nr net st), 0 ≤ ((okOr (net.reactionsElEnLoss st false)).map Prod.snd).getD j 0 := by decide +kernel
      have := h j
      show (0 : ℝ) ≤ (((okOr (net.reactionsElEnLoss st false)).map Prod.snd).getD j 0 : ℚ)
      exact_mod_cast this)
    (fun j => by
      have h : ∀ j : Fin (nr net st), 0 ≤ (Dict.get? (okOr (net.stoichElectron st false .net)) (reAt net st j).id).getD 0 := by
        decide +kernel
      exact h j)
    (fun _ => by norm_num [y0]) (electrons C) fun i k h1 h2 h3 => (one_ion C i k h1 h2 h3).elim

end Verif.Fwork.PhysEqns.Demo
