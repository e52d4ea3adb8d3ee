/-
Examples for C123, with the argon chemistry of `PhysEqnsDemo` and one reaction more.
-/
import Verif.Fwork.MorrisEqns
import Verif.Fwork.PhysEqnsDemo

namespace Verif.Fwork.MorrisEqns.Demo
open Finset Verif.Plaschem Verif.Plaschem.Net Verif.Pygmol
open Verif.Fwork.GraphRun (ns nr)
open Verif.Fwork.Morris (PyDicts Kind dimension inForce)
open Verif.Fwork.MorrisWhole (chemAt OneRate OneSpecies)
open Verif.Fwork.ReducedEqns Verif.Fwork.PhysEqns
open Verif.Plaschem.Demo (e M Ar ArP ArX)
open Verif.Fwork.PhysEqns.Demo (rx args F made X)

/-- 1: e + Ar > Ar+ + e + e, 2: e + Ar > Ar* + e, 3: Ar* + M > Ar + M, 4: Ar* + Ar > Ar* + Ar -/
def net : Net where
  species := [e, M, Ar, ArP, ArX]
  reactions := [rx 1 [e, Ar] [ArP, e, e], rx 2 [e, Ar] [ArX, e], rx 3 [ArX, M] [Ar, M], rx 4 [ArX, Ar] [ArX, Ar]]

theorem sound : SoundInput F net where
  mass := by decide +kernel
  stick := by decide +kernel
  ret := by decide +kernel
  reactions := by
    intro r hr
    simp only [net, List.mem_cons, List.not_mem_nil, or_false] at hr
    rcases hr with rfl | rfl | rfl | rfl
    · exact ⟨args 1 [e, Ar] [ArP, e, e], made (by decide +kernel)⟩
    · exact ⟨args 2 [e, Ar] [ArX, e], made (by decide +kernel)⟩
    · exact ⟨args 3 [ArX, M] [Ar, M], made (by decide +kernel)⟩
    · exact ⟨args 4 [ArX, Ar] [ArX, Ar], made (by decide +kernel)⟩

def st0 : State := { State.fresh with protSp := setMask (setMask (fun _ => false) [0] true) [2] true }
theorem init_ok : net.init = .ok st0 := by rfl

/-- after raising the rate of reaction 2 -/
def st : State := (net.step st0 (.adhocArrhA 2 7)).1

theorem history : SoundHistory net st := .step (.adhocArrhA 2 7) (by unfold SoundOp; norm_num) (.init init_ok)
theorem reach : Reachable net st := history.reachable
theorem pyDicts : PyDicts net st := pyDicts_of_sound sound history

theorem retClosed : net.RetClosed := by
  intro s hs d hd p hp
  simp only [net, List.mem_cons, List.not_mem_nil, or_false] at hs
  rcases hs with rfl | rfl | rfl | rfl | rfl <;> cases hd <;> cases hp <;> first
    | exact ⟨Ar, by simp [net], rfl⟩
    | (rename_i h; cases h)

theorem defined : Defined net st X :=
  ⟨Numbers.spec (by decide +kernel), Numbers.spec (by decide +kernel), by decide +kernel,
    Numbers.spec (by decide +kernel), Numbers.spec (by decide +kernel), Numbers.spec (by decide +kernel),
    Square.spec (by decide +kernel)⟩

noncomputable abbrev P (C : Consts) : ReducedEqns.Params := given Pygmol.Demo.params C 1.66e-27 true
noncomputable abbrev D (C : Consts) : Data (ns net st) (nr net st) := construct net st X (P C)

theorem reads (C : Consts) : ReadsAll X (P C) (D C) := readsAll_construct reach rfl defined _

theorem physical (C : Consts) : (D C).Physical := accepted_physical sound history retClosed Pygmol.Demo.accepted (by norm_num) (reads C)

/-- a vector of factors of the reactions: 1/4, 3/4, 1/2, 1/2 -/
def x : Fin (dimension net st .reactions) → ℚ := fun i => [1/4, 3/4, 1/2, 1/2].getD i 0

/-- reaction 2, at position 1, is faster by 3/2 then, and 1 slower by 1/2 -/
example : (List.finRange (nr net st)).map (scale net st .reactions x) = [1/2, 3/2, 1, 1] := by decide +kernel

/-- a vector of factors of the species Ar, Ar+, Ar*: 1/4, 3/4, 1/2; argon takes part in all, Ar+ in the first, Ar* in the others -/
def xs : Fin (dimension net st .species) → ℚ := fun i => [1/4, 3/4, 1/2].getD i 0

example : (List.finRange (nr net st)).map (scale net st .species xs) = [3/4, 1/2, 1/2, 1/2] := by decide +kernel

/-- the equations of the runs with these vectors can be set up -/
example (C : Consts) : (∃ D' : Data (ns net (chemAt net .reactions st x)) (nr net (chemAt net .reactions st x)), ReadsAll X (P C) D') ∧
    ∃ D' : Data (ns net (chemAt net .species st xs)) (nr net (chemAt net .species st xs)), ReadsAll X (P C) D' :=
  ⟨perturbed_defined reach .reactions x (reads C), perturbed_defined reach .species xs (reads C)⟩

/-- reaction 2 is faster by 3/2 in the run with `x`, for whatever data the equations are set up with -/
example (C : Consts) (D' : Data (ns net (chemAt net .reactions st x)) (nr net (chemAt net .reactions st x))) (hD' : ReadsAll X (P C) D')
    (y : Y (ns net st)) (y' : Y (ns net (chemAt net .reactions st x))) (hy : SameY net st (chemAt net .reactions st x) y y') :
    D'.pRates y' ⟨1, by decide +kernel⟩ = 3 / 2 * (D C).pRates y ⟨1, by decide +kernel⟩ := by
  have h := (perturbed_equations reach retClosed pyDicts .reactions x (reads C) hD' hy 0).1 ⟨1, by decide +kernel⟩
    ⟨1, by decide +kernel⟩ rfl
  rw [h, show scale net st .reactions x ⟨1, by decide +kernel⟩ = 3 / 2 by decide +kernel]
  norm_num

/-- as many ions and metastables as atoms -/
noncomputable def y0 : Y (ns net st) := ⟨fun _ => 5, 1⟩

theorem one_ion (C : Consts) : ∀ i k : Fin (ns net st), i ≠ k → ¬ (D C).neu i → ¬ (D C).neu k → False := by
  intro i k h
  have : ∀ i k : Fin (ns net st), i ≠ k → (spAt net st i).chargeOf ≠ 0 → (spAt net st k).chargeOf ≠ 0 → False := by
    decide +kernel
  exact this i k h

theorem electrons (C : Consts) : 0 < (D C).getElectronDensity y0 none := by
  have h : ∀ i : Fin (ns net st), 0 ≤ (spAt net st i).chargeOf := by decide +kernel
  have h' : ∃ i : Fin (ns net st), 0 < (spAt net st i).chargeOf := by decide +kernel
  have e : (D C).getElectronDensity y0 none = ∑ i, 5 * ((spAt net st i).chargeOf : ℝ) := rfl
  rw [e]
  obtain ⟨k, hk⟩ := h'
  refine sum_pos' (fun i _ => mul_nonneg (by norm_num) (by exact_mod_cast h i)) ⟨k, mem_univ k, mul_pos (by norm_num) (by exact_mod_cast hk)⟩

theorem develops (C : Consts) : ∃ ε ∈ Set.Ioc 0 Pygmol.Demo.params.tEnd, ∃ y, (D C).Solves ε y ∧ y 0 = y0 ∧
    (∀ t ∈ Set.Icc 0 ε, (∀ i, 0 < (y t).n i) ∧ 0 < (D C).getElectronDensity (y t) none ∧ (D C).Regular (y t)) ∧
    ∀ z, (D C).Solves ε z → z 0 = y0 → ∀ t ∈ Set.Icc 0 ε, z t = y t :=
  accepted_development sound history retClosed Pygmol.Demo.accepted (by simp [Pygmol.Demo.params]) (by norm_num) (reads C) rfl
    (by intro s _ v hv; cases hv) ⟨Ar, by decide +kernel⟩ (by decide +kernel) (fun _ => by norm_num [y0]) (electrons C)
    fun i k h1 h2 h3 => (one_ion C i k h1 h2 h3).elim

theorem regular (C : Consts) : (D C).Regular y0 := by
  obtain ⟨ε, hε, y, -, h0, hg, -⟩ := develops C
  have := (hg 0 ⟨le_refl _, hε.1.le⟩).2.2
  rwa [h0] at this

theorem tEnd_pos : 0 < Pygmol.Demo.params.tEnd := by norm_num [Pygmol.Demo.params]

theorem power_cont (C : Consts) : ContinuousOn (D C).power (Set.Icc 0 Pygmol.Demo.params.tEnd) := by
  have : (D C).power = powerExt Pygmol.Demo.params.time Pygmol.Demo.params.power := rfl
  rw [this]
  refine (interp_continuous ?_).continuousOn
  simp [Pygmol.Demo.params]

theorem x_nonneg : ∀ i, 0 ≤ x i := by decide +kernel

/-- the run with `x` has exactly one time development for a while -/
example (C : Consts) (D' : Data (ns net (chemAt net .reactions st x)) (nr net (chemAt net .reactions st x)))
    (hD' : ReadsAll X (P C) D') : ∃ ε ∈ Set.Ioc 0 Pygmol.Demo.params.tEnd, ∃ y', D'.Solves ε y' ∧
      SameY net st (chemAt net .reactions st x) y0 (y' 0) ∧ ∀ z, D'.Solves ε z → SameY net st (chemAt net .reactions st x) y0 (z 0) →
        ∀ t ∈ Set.Icc 0 ε, z t = y' t := by
  obtain ⟨ε, hε, y', h1, h2, -, h3⟩ := perturbed_development reach retClosed pyDicts .reactions x_nonneg (reads C) hD' (physical C)
    (y0 := y0) (fun _ => by norm_num [y0]) (electrons C) (regular C) tEnd_pos (power_cont C)
  exact ⟨ε, hε, y', h1, h2, h3⟩

def centre : Fin (dimension net st .species) → ℚ := fun _ => 1 / 2

/-- with all factors 1/2 it is that of the chemistry itself -/
example (C : Consts) (D' : Data (ns net (chemAt net .species st centre)) (nr net (chemAt net .species st centre)))
    (hD' : ReadsAll X (P C) D') : ∃ ε ∈ Set.Ioc 0 Pygmol.Demo.params.tEnd, ∃ y, (D C).Solves ε y ∧ y 0 = y0 ∧
      ∀ y', D'.Solves ε y' → SameY net st (chemAt net .species st centre) y0 (y' 0) →
        ∀ t ∈ Set.Icc 0 ε, SameY net st (chemAt net .species st centre) (y t) (y' t) := by
  obtain ⟨ε, hε, y, h1, h2, h3, -⟩ := develops C
  refine ⟨ε, hε, y, h1, h2, fun y' hy' h0 => centre_development reach retClosed pyDicts .species (fun _ => rfl) (reads C) hD'
    (physical C) h1 (fun i => (h3 0 ⟨le_refl _, hε.1.le⟩).1 i) (fun t ht => ⟨(h3 t ht).2.1, ?_, (h3 t ht).2.2⟩) hy' (by rw [h2]; exact h0)⟩
  exact fun i k h1 h2 h3 => (one_ion C i k h1 h2 h3).elim

/-! Two vectors that differ in the factor of one reaction by 1/2, as in a step of a trajectory. -/

def low (k : ℕ) : Fin (dimension net st .reactions) → ℚ := fun i => if i.1 = k then 1 / 4 else 3 / 4
def high : Fin (dimension net st .reactions) → ℚ := fun _ => 3 / 4

theorem rated' : MorrisWhole.Rated net st := by
  intro r hr
  have : ∀ r ∈ net.getReactions st false, (inForce st r).isSome := by decide +kernel
  exact Option.isSome_iff_exists.1 (this r hr)

theorem same (y : Fin (dimension net st .reactions) → ℚ) : Morris.SameButArrh (chemAt net .reactions st y) st :=
  (MorrisWhole.chemAt_spec reach rated' .reactions rfl y).2.1

/-- reaction 2 and reaction 4 -/
theorem step2 : OneRate net st (rx 2 [e, Ar] [ArX, e]) (chemAt net .reactions st (low 1)) (chemAt net .reactions st high) :=
  ⟨same _, same _, by decide +kernel, fun v hv => ⟨1 / 2, by norm_num, by norm_num, by
    have : inForce st (rx 2 [e, Ar] [ArX, e]) = some 7 := by decide +kernel
    rw [this] at hv
    cases hv
    decide +kernel⟩⟩

theorem step4 : OneRate net st (rx 4 [ArX, Ar] [ArX, Ar]) (chemAt net .reactions st (low 3)) (chemAt net .reactions st high) :=
  ⟨same _, same _, by decide +kernel, fun v hv => ⟨1 / 2, by norm_num, by norm_num, by
    have : inForce st (rx 4 [ArX, Ar] [ArX, Ar]) = some 2 := by decide +kernel
    rw [this] at hv
    cases hv
    decide +kernel⟩⟩

/-- one more event of reaction 2 at the nominal rate: the metastables grow by it -/
example (C : Consts) (L : Data (ns net (chemAt net .reactions st (low 1))) (nr net (chemAt net .reactions st (low 1))))
    (H : Data (ns net (chemAt net .reactions st high)) (nr net (chemAt net .reactions st high))) (hL : ReadsAll X (P C) L)
    (hH : ReadsAll X (P C) H) (y : Y (ns net st)) (u : Y (ns net (chemAt net .reactions st (low 1))))
    (v : Y (ns net (chemAt net .reactions st high))) (hu : SameY net st (chemAt net .reactions st (low 1)) y u)
    (hv : SameY net st (chemAt net .reactions st high) y v) (t : ℝ) :
    (H.rhs t v).n ⟨2, by decide +kernel⟩ = (L.rhs t u).n ⟨2, by decide +kernel⟩ + (D C).pRates y ⟨1, by decide +kernel⟩ := by
  have h := (one_rate_equations reach retClosed pyDicts ⟨1, by decide +kernel⟩ step2 (reads C) hL hH hu hv t).1
    ⟨2, by decide +kernel⟩ ⟨2, by decide +kernel⟩ ⟨2, by decide +kernel⟩ rfl rfl
  rw [h]
  have e1 : (reAt net st ⟨1, by decide +kernel⟩).products.count (spAt net st ⟨2, by decide +kernel⟩) = 1 := by decide +kernel
  have e2 : (reAt net st ⟨1, by decide +kernel⟩).reactants.count (spAt net st ⟨2, by decide +kernel⟩) = 0 := by decide +kernel
  rw [e1, e2]
  norm_num

/-- The step of reaction 4 changes nothing: the hypotheses of `idle_reaction` are met. -/
example (C : Consts) (L : Data (ns net (chemAt net .reactions st (low 3))) (nr net (chemAt net .reactions st (low 3))))
    (H : Data (ns net (chemAt net .reactions st high)) (nr net (chemAt net .reactions st high))) (hL : ReadsAll X (P C) L)
    (hH : ReadsAll X (P C) H) : ∃ ε ∈ Set.Ioc 0 Pygmol.Demo.params.tEnd, ∃ u, L.Solves ε u ∧
      ∀ v, H.Solves ε v → SameY net (chemAt net .reactions st (low 3)) (chemAt net .reactions st high) (u 0) (v 0) →
        ∀ t ∈ Set.Icc 0 ε, SameY net (chemAt net .reactions st (low 3)) (chemAt net .reactions st high) (u t) (v t) := by
  have hx : ∀ i, 0 ≤ low 3 i := by decide +kernel
  obtain ⟨ε, hε, u, h1, h2, h3, -⟩ := perturbed_development reach retClosed pyDicts .reactions hx (reads C) hL (physical C)
    (y0 := y0) (fun _ => by norm_num [y0]) (electrons C) (regular C) tEnd_pos (power_cont C)
  have hz : ∀ i k : Fin (ns net (chemAt net .reactions st (low 3))), i ≠ k →
      (spAt net (chemAt net .reactions st (low 3)) i).chargeOf ≠ 0 →
      (spAt net (chemAt net .reactions st (low 3)) k).chargeOf ≠ 0 → False := by decide +kernel
  refine ⟨ε, hε, u, h1, fun v hv h0 => idle_reaction reach retClosed pyDicts ⟨3, by decide +kernel⟩ step4 (reads C) hL hH
    (by decide +kernel) (by decide +kernel) (perturbed_physical reach retClosed pyDicts .reactions hx (reads C) hL
    (physical C)) h1 (fun i => (h3 0 ⟨le_refl _, hε.1.le⟩).1 i) (fun t ht => ⟨(h3 t ht).2.1, ?_, (h3 t ht).2.2⟩) hv h0⟩
  intro i k hik hi hk
  refine (hz i k hik ?_ ?_).elim
  · rw [← hL.coefs.charge]; exact hi
  · rw [← hL.coefs.charge]; exact hk

/-! The factor of Ar* raised from 1/4 to 3/4. -/

def slow : Fin (dimension net st .species) → ℚ := fun i => if i.1 = 2 then 1 / 4 else 3 / 4
def fast : Fin (dimension net st .species) → ℚ := fun _ => 3 / 4

theorem stepX : OneSpecies net st ArX (chemAt net .species st slow) (chemAt net .species st fast) := by
  have h : ∀ r ∈ net.getReactions st false, Morris.TakesPart ArX r →
      inForce (chemAt net .species st slow) r = some ((inForce (chemAt net .species st slow) r).getD 0 * 2 * (1 / 2)) ∧
      inForce (chemAt net .species st fast) r = some ((inForce (chemAt net .species st slow) r).getD 0 * 2 * (1 / 2 + 1)) := by
    decide +kernel
  exact ⟨(MorrisWhole.chemAt_spec reach rated' .species rfl slow).2.1, (MorrisWhole.chemAt_spec reach rated' .species rfl fast).2.1,
    by decide +kernel, 1 / 2, by norm_num, by norm_num, fun r h1 h2 => ⟨_, h r h1 h2⟩⟩

/-- reaction 1, without Ar*, is as fast as before; reactions 2, 3 and 4 are faster, all by the same factor -/
example (C : Consts) (L : Data (ns net (chemAt net .species st slow)) (nr net (chemAt net .species st slow)))
    (H : Data (ns net (chemAt net .species st fast)) (nr net (chemAt net .species st fast))) (hL : ReadsAll X (P C) L)
    (hH : ReadsAll X (P C) H) (y : Y (ns net st)) (u : Y (ns net (chemAt net .species st slow)))
    (v : Y (ns net (chemAt net .species st fast))) (hu : SameY net st (chemAt net .species st slow) y u)
    (hv : SameY net st (chemAt net .species st fast) y v) :
    H.pRates v ⟨0, by decide +kernel⟩ = L.pRates u ⟨0, by decide +kernel⟩ ∧ ∃ ρ > 2,
      H.pRates v ⟨1, by decide +kernel⟩ = ρ * L.pRates u ⟨1, by decide +kernel⟩ ∧
      H.pRates v ⟨3, by decide +kernel⟩ = ρ * L.pRates u ⟨3, by decide +kernel⟩ := by
  obtain ⟨ρ, h1, h2, -⟩ := one_species_equations reach retClosed pyDicts stepX (reads C) hL hH hu hv 0
  refine ⟨?_, ρ, h1, ?_, ?_⟩
  · rw [h2 ⟨0, by decide +kernel⟩ ⟨0, by decide +kernel⟩ ⟨0, by decide +kernel⟩ rfl rfl, if_neg (by decide +kernel)]
  · rw [h2 ⟨1, by decide +kernel⟩ ⟨1, by decide +kernel⟩ ⟨1, by decide +kernel⟩ rfl rfl, if_pos (by decide +kernel)]
  · rw [h2 ⟨3, by decide +kernel⟩ ⟨3, by decide +kernel⟩ ⟨3, by decide +kernel⟩ rfl rfl, if_pos (by decide +kernel)]

end Verif.Fwork.MorrisEqns.Demo
