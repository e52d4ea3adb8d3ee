/-
Property C127 for chemistries: slow reactions can be disabled at the cost of a small error.
-/
import Verif.Fwork.DependEqns
import Verif.Pygmol.Removed

namespace Verif.Fwork.MorrisEqns
open Finset Verif.Plaschem Verif.Plaschem.Net Verif.Pygmol
open Verif.Fwork.GraphRun (ns nr)
open Verif.Fwork.Morris (PyDicts inForce SameButArrh)
open Verif.Fwork.ReducedEqns Verif.Fwork.AdhocEqns

variable {net : Net} {st st' : State} {X : RP → Extra} {P : ReducedEqns.Params}

/-- **C127.** Some reactions of a chemistry are disabled, but no species other than the
electron and the placeholder. If the run with the reduced chemistry reaches its end, then so does
the run with the full one from the same start, whatever the rate coefficients of the disabled reactions, if only these are small enough. At
all times the two runs differ by at most a constant times the largest pre-exponential factor of a disabled reaction. -/
theorem disabled_stable (hr : Reachable net st) (hr' : Reachable net st') (hcl : net.RetClosed) (hpy : PyDicts net st)
    (h : Shrinks net st st') (hsp : ∀ s ∈ net.species, s.isSpecial = false → st.enSp s.id = true → st'.enSp s.id = true)
    {D : Data (ns net st) (nr net st)} {D' : Data (ns net st') (nr net st')} (hD : ReadsAll X P D) (hD' : ReadsAll X P D')
    (hph : D.Physical) {T : ℝ} (hT : 0 < T) (hP : ContinuousOn P.power (Set.Icc 0 T)) {y : ℝ → Y (ns net st')} (hy : D'.Solves T y)
    (hdef : ∀ t ∈ Set.Icc 0 T, D'.Defined (y t)) :
    ∃ L > (0 : ℝ), ∃ δ > (0 : ℝ), ∀ d ∈ Set.Ioc 0 δ, ∀ b, SameButArrh b st →
      (∀ r ∈ net.reactions, st'.enR r.id = true → inForce b r = inForce st r) →
      ∀ E : Data (ns net b) (nr net b), ReadsAll X P E → (∀ j, 0 ≤ E.arrhA j) →
      (∀ j, st'.enR (reAt net b j).id = false → E.arrhA j ≤ d) →
      ∃ z, E.Solves T z ∧ SameY net st' b (y 0) (z 0) ∧ ∀ t ∈ Set.Icc 0 T, E.Defined (z t) ∧ NearY net st' b (L * d) (y t) (z t) := by
  obtain ⟨f, g, hp⟩ := places h
  have hpart := partOf hr hr' hcl hpy h hD hD' hp
  have hf : Function.Surjective f := fun i => by
    have h3 := Verif.Fwork.Rates.mem_heavy.1 (List.getElem_mem (l := net.getSpecies st false false true) i.2)
    exact (hp.mem_sp hr i).2 (hsp _ h3.1 h3.2.2 h3.2.1)
  have hwf := (reachable_inv hr).1.rNodup
  obtain ⟨L, hL, δ, hδ, key⟩ := Data.removed_stable hpart hf hph hT (by rw [hD.power]; exact hP) hy hdef
  refine ⟨L, hL, δ, hδ, fun d hd b hb hkept E hE hE0 hEd => ?_⟩
  obtain ⟨a, rfl⟩ : ∃ a, b = { st with adArrhA := a } := ⟨_, same_eq hb⟩
  have e := data_arrh hr hcl hpy hD hE
  obtain ⟨z, hz, hz0, hnear⟩ := key d hd E.arrhA hE0 (fun j => by
    have hen : st'.enR (reAt net st (g j)).id = true := (hp.mem_rx hr (g j)).1 ⟨j, rfl⟩
    have hmem := (List.mem_filter.1 (re_mem (st := st) (g j))).1
    obtain ⟨v, q, h1, h2, h3⟩ := read_factor hwf hD (g j)
    obtain ⟨v', q', h1', h2', h3'⟩ := read_factor hwf hE (g j)
    have h1'' : inForce { st with adArrhA := a } (reAt net st (g j)) = some v' := h1'
    rw [hkept _ hmem hen, h1] at h1''
    cases h1''
    have := hasFactor_unique h2 (show HasFactor (reAt net st (g j)) q' from h2')
    subst this
    rw [h3', h3]) (fun j hj => hEd j (by
      rw [hp.mem_rx hr] at hj
      exact Bool.eq_false_iff.2 hj))
  have hsol : Data.Solves E T z := by rw [e]; exact hz
  refine ⟨z, hsol, ⟨fun i i' hi => ?_, ?_⟩, fun t ht => ⟨?_, ⟨fun i i' hi => ?_, (hnear t ht).2.2⟩⟩⟩
  · have : i' = f i := hp.of_eq hr (i := i') (i' := i) hi.symm
    rw [this, hz0.n]
  · exact hz0.rho
  · have hdd : Data.Defined (Data.withRates D E.arrhA) (z t) := Data.withRates_defined.2 (hnear t ht).1
    rw [e]; exact hdd
  · have : i' = f i := hp.of_eq hr (i := i') (i' := i) hi.symm
    rw [this]
    exact (hnear t ht).2.1 i

end Verif.Fwork.MorrisEqns

namespace Verif.Fwork.MorrisEqns.Demo
open Finset Verif.Plaschem Verif.Plaschem.Net Verif.Pygmol
open Verif.Fwork.GraphRun (ns nr)
open Verif.Fwork.Morris (inForce SameButArrh dimension)
open Verif.Fwork.MorrisWhole (chemAt)
open Verif.Fwork.ReducedEqns Verif.Fwork.PhysEqns
open Verif.Plaschem.Demo (Ar)
open Verif.Fwork.PhysEqns.Demo (X)

/-- the chemistry without the quenching of Ar* -/
def less : State := (net.step st (.disable [] [3])).1

theorem less_history : SoundHistory net less := .step (.disable [] [3]) trivial history

theorem less_defined : Defined net less X :=
  ⟨Numbers.spec (by decide +kernel), Numbers.spec (by decide +kernel), by decide +kernel,
    Numbers.spec (by decide +kernel), Numbers.spec (by decide +kernel), Numbers.spec (by decide +kernel),
    Square.spec (by decide +kernel)⟩

noncomputable abbrev less_D (C : Consts) : Data (ns net less) (nr net less) := construct net less X (P C)

theorem less_reads (C : Consts) : ReadsAll X (P C) (less_D C) := readsAll_construct less_history.reachable rfl less_defined _

/-- all species are left, and the other three reactions -/
theorem less_species : ∀ s ∈ net.species, s.isSpecial = false → less.enSp s.id = true := by decide +kernel
example : net.reactions.map (fun r => less.enR r.id) = [true, true, false, true] := by decide +kernel

noncomputable def less_y0 : Y (ns net less) := ⟨fun _ => 5, 1⟩

theorem less_develops (C : Consts) : ∃ ε ∈ Set.Ioc 0 Pygmol.Demo.params.tEnd, ∃ y, (less_D C).Solves ε y ∧ y 0 = less_y0 ∧
    (∀ t ∈ Set.Icc 0 ε, (∀ i, 0 < (y t).n i) ∧ 0 < (less_D C).getElectronDensity (y t) none ∧ (less_D C).Regular (y t)) ∧
    ∀ z, (less_D C).Solves ε z → z 0 = less_y0 → ∀ t ∈ Set.Icc 0 ε, z t = y t := by
  refine accepted_development sound less_history retClosed Pygmol.Demo.accepted (by simp [Pygmol.Demo.params]) (by norm_num) (less_reads C) rfl
    (by intro s _ v hv; cases hv) ⟨Ar, by decide +kernel⟩ (by decide +kernel) (fun _ => by norm_num [less_y0]) ?_
    fun i k h1 h2 h3 => ?_
  · have h : ∀ i : Fin (ns net less), 0 ≤ (spAt net less i).chargeOf := by decide +kernel
    have h' : ∃ i : Fin (ns net less), 0 < (spAt net less i).chargeOf := by decide +kernel
    have e : (less_D C).getElectronDensity less_y0 none = ∑ i, 5 * ((spAt net less i).chargeOf : ℝ) := rfl
    rw [e]
    obtain ⟨k, hk⟩ := h'
    refine sum_pos' (fun i _ => mul_nonneg (by norm_num) (by exact_mod_cast h i)) ⟨k, mem_univ k, mul_pos (by norm_num) (by exact_mod_cast hk)⟩
  · have : ∀ i k : Fin (ns net less), i ≠ k → (spAt net less i).chargeOf ≠ 0 → (spAt net less k).chargeOf ≠ 0 → False := by
      decide +kernel
    exact (this i k h1 h2 h3).elim

/-- the hypotheses of `disabled_stable` are met: the run without the quenching of Ar* -/
example (C : Consts) : ∃ T ∈ Set.Ioc 0 Pygmol.Demo.params.tEnd, ∃ y, (less_D C).Solves T y ∧ y 0 = less_y0 ∧
    ∃ L > (0 : ℝ), ∃ δ > (0 : ℝ), ∀ d ∈ Set.Ioc 0 δ, ∀ b, SameButArrh b st →
      (∀ r ∈ net.reactions, less.enR r.id = true → inForce b r = inForce st r) →
      ∀ E : Data (ns net b) (nr net b), ReadsAll X (P C) E → (∀ j, 0 ≤ E.arrhA j) →
      (∀ j, less.enR (reAt net b j).id = false → E.arrhA j ≤ d) →
      ∃ z, E.Solves T z ∧ SameY net less b (y 0) (z 0) ∧ ∀ t ∈ Set.Icc 0 T, E.Defined (z t) ∧ NearY net less b (L * d) (y t) (z t) := by
  obtain ⟨T, hT, y, h1, h2, h3, -⟩ := less_develops C
  exact ⟨T, hT, y, h1, h2, disabled_stable reach less_history.reachable retClosed pyDicts (shrinks_disable reach [] [3])
    (fun s hs h _ => less_species s hs h) (reads C) (less_reads C) (physical C) hT.1 ((power_cont C).mono (Set.Icc_subset_Icc_right hT.2)) h1 h3⟩

/-- factors of the reactions: `v` for the quenching of Ar*, 1/2 for the others -/
def slowed (v : ℚ) : Fin (dimension net st .reactions) → ℚ := fun i => if i.val = 2 then v else 1 / 2

/-- however small the number asked for, there are such `b` and `E`: the quenching of Ar* made slow by ad-hoc rate coefficients -/
example (C : Consts) (d : ℝ) (hd : 0 < d) : ∃ b, SameButArrh b st ∧
    (∀ r ∈ net.reactions, less.enR r.id = true → inForce b r = inForce st r) ∧
    ∃ E : Data (ns net b) (nr net b), ReadsAll X (P C) E ∧ (∀ j, 0 ≤ E.arrhA j) ∧
      (∀ j, less.enR (reAt net b j).id = false → E.arrhA j ≤ d) ∧ ∃ j, less.enR (reAt net b j).id = false := by
  set j2 : Fin (nr net st) := ⟨2, by decide +kernel⟩ with hj2
  have hA : 0 ≤ (D C).arrhA j2 := (physical C).arrhA j2
  obtain ⟨v, hv0, hv⟩ := exists_rat_btwn (show (0 : ℝ) < d / (2 * ((D C).arrhA j2 + 1)) by positivity)
  have hv0' : 0 < v := by exact_mod_cast hv0
  obtain ⟨h1, h2⟩ := chem_scaled reach (rated reach (reads C)) .reactions (slowed v)
  obtain ⟨E, hE⟩ := perturbed_defined reach .reactions (slowed v) (reads C)
  have hs : ∀ j, scale net st .reactions (slowed v) j = if j.val = 2 then 2 * v else 1 := fun j => by
    show 2 * (if j.val = 2 then v else 1 / 2) = _
    split_ifs <;> norm_num
  have hoff : ∀ j : Fin (nr net st), less.enR (reAt net st j).id = false ↔ j.val = 2 := by decide +kernel
  generalize hb : chemAt net .reactions st (slowed v) = b at *
  refine ⟨b, h1, fun r hr hen => ?_, E, hE, ?_⟩
  · have hm : r ∈ net.getReactions st false := by
      revert hen; revert r; decide +kernel
    obtain ⟨j, hj, rfl⟩ := List.mem_iff_getElem.1 hm
    have hne : ¬ j = 2 := fun e => by
      have := (hoff ⟨j, hj⟩).2 e
      rw [show less.enR (reAt net st ⟨j, hj⟩).id = true from hen] at this
      cases this
    obtain ⟨w, hw⟩ := rated reach (reads C) _ hm
    have k := h2 ⟨j, hj⟩ w hw
    rw [hs, if_neg hne, mul_one] at k
    exact k.trans hw.symm
  · obtain ⟨a, rfl⟩ : ∃ a, b = { st with adArrhA := a } := ⟨_, same_eq h1⟩
    have e := data_same reach retClosed pyDicts (reads C) hE h2
    have hEA : ∀ j : Fin (nr net st), E.arrhA j = (scale net st .reactions (slowed v) j : ℝ) * (D C).arrhA j := fun j => by
      rw [e]
    have k1 : ∀ j : Fin (nr net st), 0 ≤ (scale net st .reactions (slowed v) j : ℝ) * (D C).arrhA j := fun j => by
      rw [hs]
      refine mul_nonneg ?_ ((physical C).arrhA j)
      split_ifs
      · exact_mod_cast (by positivity : (0 : ℚ) ≤ 2 * v)
      · norm_num
    have k2 : (scale net st .reactions (slowed v) j2 : ℝ) * (D C).arrhA j2 ≤ d := by
      rw [hs, if_pos rfl]
      rw [lt_div_iff₀ (by positivity)] at hv
      push_cast
      nlinarith
    have k3 : ∀ j : Fin (nr net st), less.enR (reAt net st j).id = false → E.arrhA j ≤ d := fun j hj => by
      have hj' : j = j2 := Fin.ext ((hoff j).1 hj)
      rw [hEA, hj']
      exact k2
    exact ⟨fun j => (k1 j).trans_eq (hEA j).symm, k3, j2, (hoff j2).2 rfl⟩

end Verif.Fwork.MorrisEqns.Demo
