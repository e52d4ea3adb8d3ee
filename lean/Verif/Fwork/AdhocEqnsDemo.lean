/-
Property C120: concrete cases, in the chemistry of `ReducedEqnsDemo`.
-/
import Verif.Fwork.AdhocEqns

namespace Verif.Fwork.AdhocEqns.Demo
open Finset Verif.Plaschem Verif.Plaschem.Net Verif.Pygmol
open Verif.Fwork.GraphRun (ns nr)
open Verif.Fwork.Morris (PyDicts)
open Verif.Fwork.ReducedEqns Verif.Fwork.ReducedEqns.Demo
open Verif.Plaschem.Demo (e M Ar ArP ArX)

/-- reaction 2 with the factor 10 in place of 2; with the factor 0; disabled then; the dimer ion sticking with 1/2; returned
as krypton -/
def faster : State := (net.step st0 (.adhocArrhA 2 10)).1
def never : State := (net.step st0 (.adhocArrhA 2 0)).1
def off : State := (net.disable never [] [2]).1
def half : State := (net.step st0 (.adhocStick (.obj Ar2P) (1/2))).1
def swap : State := (net.step st0 (.adhocRet (.name (str!"Ar2+")) [(str!"Kr", 1)])).1
def Case (st : State) : Prop := st = st0 ∨ st = faster ∨ st = never ∨ st = off ∨ st = half ∨ st = swap

theorem states {st : State} (h : Case st) : Reachable net st ∧ Defined net st X ∧ PyDicts net st := by
  refine ⟨?_, ?_, ?_, ?_⟩
  · rcases h with rfl | rfl | rfl | rfl | rfl | rfl
    exacts [reach0, .step _ reach0, .step _ reach0, .step (.disable [] [2]) (.step _ reach0), .step _ reach0, .step _ reach0]
  · rcases h with rfl | rfl | rfl | rfl | rfl | rfl <;>
      exact ⟨Numbers.spec (by decide +kernel), Numbers.spec (by decide +kernel), by decide +kernel,
        Numbers.spec (by decide +kernel), Numbers.spec (by decide +kernel), Numbers.spec (by decide +kernel),
        Square.spec (by decide +kernel)⟩
  · exact pyDicts.nominal
  · rcases h with rfl | rfl | rfl | rfl | rfl | rfl <;> decide +kernel

theorem reads {st : State} (h : Case st) (P : Params) : ReadsAll X P (construct net st X P) :=
  readsAll_construct (states h).1 (by decide +kernel) (states h).2.1 P

/-- the state with given densities of the species -/
noncomputable def dens (st : State) (n : RP → ℝ) (rho : ℝ) : Y (ns net st) := ⟨fun i => n (spAt net st i), rho⟩

/-- the species and the reactions in question, by their positions -/
theorem lens {st : State} (h : Case st) : ns net st = 5 ∧ 5 ≤ nr net st := by
  rcases h with rfl | rfl | rfl | rfl | rfl | rfl <;> decide +kernel

theorem same {st : State} (h : Case st) (n : RP → ℝ) (rho : ℝ) : SameState net st0 st (dens st0 n rho) (dens st n rho) :=
  sameState_of net st0 st n rho (by
    rcases h with rfl | rfl | rfl | rfl | rfl | rfl <;> exact fun s hs h => absurd h (by revert s; decide +kernel))

/-- Giving reaction 2 the factor 10 in place of 2 makes it five times as fast: it loses argon and makes metastables by as much
more, and the other species are made and lost as before. -/
example (P : Params) (n : RP → ℝ) (rho t : ℝ) :
    let D := construct net st0 X P
    let D' := construct net faster X P
    let j : Fin (nr net st0) := ⟨1, by decide +kernel⟩
    let i : ℕ → Fin 5 := fun k => ⟨k % 5, Nat.mod_lt _ (by decide)⟩
    (D'.rhs t (dens faster n rho)).n (i 0) = (D.rhs t (dens st0 n rho)).n (i 0) - 4 * D.pRates (dens st0 n rho) j ∧
    (D'.rhs t (dens faster n rho)).n (i 1) = (D.rhs t (dens st0 n rho)).n (i 1) ∧
    (D'.rhs t (dens faster n rho)).n (i 2) = (D.rhs t (dens st0 n rho)).n (i 2) + 4 * D.pRates (dens st0 n rho) j := by
  intro D D' j i
  have hD := reads (.inl rfl) P
  have hD' := reads (.inr (.inl rfl)) P
  have hy := same (.inr (.inl rfl) : Case faster) n rho
  have hj : reAt net st0 j = reAt net faster j := rfl
  have hid : (reAt net st0 j).id = 2 := by decide +kernel
  obtain ⟨h1, f, h2, h3⟩ := (adhoc_rate reach0 retClosed pyDicts (v := 10) rfl hD hD' hy hj).2 hid
  have h4 := (adhoc_rate_equations reach0 retClosed pyDicts (v := 10) rfl hD hD' hy hj hid t).1
  have hA : D.arrhA j = 2 := by
    have : num (okOr (net.getReactionsArrhA st0 false true)) 1 = 2 := by decide +kernel
    show (num (okOr (net.getReactionsArrhA st0 false true)) 1 : ℝ) = 2
    rw [this]; norm_num
  have hf : f = 1 := by
    obtain ⟨u, h6, h7⟩ := h2
    have : reAt net st0 j = rx 2 [e, Ar] [ArX, e] u3 := rfl
    rw [this] at h6
    cases h6
    exact Option.some.inj (h7.symm.trans (by decide +kernel))
  have h5 : D'.pRates (dens faster n rho) j - D.pRates (dens st0 n rho) j = 4 * D.pRates (dens st0 n rho) j := by
    rw [show D'.pRates (dens faster n rho) j = _ from h3, show D.pRates (dens st0 n rho) j = _ from h1, hf, hA]
    push_cast
    ring
  have c : ∀ k : Fin 5, (((reAt net st0 j).products.count (spAt net st0 k) : ℝ) - (reAt net st0 j).reactants.count (spAt net st0 k)) =
      ((((reAt net st0 j).products.count (spAt net st0 k) : ℤ) - (reAt net st0 j).reactants.count (spAt net st0 k) : ℤ) : ℝ) :=
    fun k => by push_cast; rfl
  refine ⟨?_, ?_, ?_⟩
  · have q := h4 (i 0) (i 0) rfl
    rw [c, show (((reAt net st0 j).products.count (spAt net st0 (i 0)) : ℤ) - (reAt net st0 j).reactants.count (spAt net st0 (i 0)) : ℤ) = -1
      by decide +kernel] at q
    rw [q]
    linear_combination -h5
  · have q := h4 (i 1) (i 1) rfl
    rw [c, show (((reAt net st0 j).products.count (spAt net st0 (i 1)) : ℤ) - (reAt net st0 j).reactants.count (spAt net st0 (i 1)) : ℤ) = 0
      by decide +kernel] at q
    rw [Int.cast_zero, zero_mul, add_zero] at q
    exact q
  · have q := h4 (i 2) (i 2) rfl
    rw [c, show (((reAt net st0 j).products.count (spAt net st0 (i 2)) : ℤ) - (reAt net st0 j).reactants.count (spAt net st0 (i 2)) : ℤ) = 1
      by decide +kernel] at q
    rw [q]
    linear_combination h5

/-- Setting an ad-hoc factor of a reaction that is disabled changes nothing until it is enabled again. -/
example (P : Params) (st' : State) (h : net.step off (.adhocArrhA 2 7) = (st', none)) (D' : Data (ns net st') (nr net st'))
    (hD' : ReadsAll X P D') (y : Y (ns net off)) (y' : Y (ns net st')) (hy : SameState net off st' y y') (t : ℝ) :
    (D'.rhs t y').rho = ((construct net off X P).rhs t y).rho :=
  (adhoc_rate_disabled (states (.inr (.inr (.inr (.inl rfl))))).1 retClosed (states (.inr (.inr (.inr (.inl rfl))))).2.2 h
    (by decide +kernel) (reads (.inr (.inr (.inr (.inl rfl)))) P) hD' hy t).2

/-- With the factor 0 the reaction may as well be disabled. -/
example (P : Params) (n : RP → ℝ) (rho t : ℝ) (i : Fin 5) :
    ((construct net never X P).rhs t (dens never n rho)).n i = ((construct net off X P).rhs t (dens off n rho)).n i ∧
    ((construct net never X P).rhs t (dens never n rho)).rho = ((construct net off X P).rhs t (dens off n rho)).rho := by
  have hn : Case never := .inr (.inr (.inl rfl))
  have ho : Case off := .inr (.inr (.inr (.inl rfl)))
  have hen : ∀ s ∈ net.species, off.enSp s.id = true := by decide +kernel
  have k := zero_as_disabled (X := X) (P := P) reach0 retClosed (r := 2) (st' := never) rfl (states hn).2.2 (states ho).1
    (shrinks_disable (states hn).1 [] [2])
    (fun s hs _ h => absurd (hen s hs) (by rw [h]; decide)) (fun s hs _ h => absurd (hen s hs) (by rw [h]; decide))
    (fun s hs _ h => absurd (hen s hs) (by rw [h]; decide)) (by unfold Cut; decide +kernel) (reads hn P) (reads ho P)
    (sameState_of net never off n rho fun s hs h => absurd (hen s hs) (by rw [h]; decide)) t
  exact ⟨k.1 i i (by revert i; decide +kernel), k.2⟩

/-! The dimer ion is the fourth species, krypton the fifth. -/

theorem dimer_sticks (P : Params) : (construct net st0 X P).stick ⟨3, by decide +kernel⟩ = 1 := by
  have : num (net.getSpeciesStickCoef st0 false false true) 3 = 1 := by decide +kernel
  show (num (net.getSpeciesStickCoef st0 false false true) 3 : ℝ) = 1
  rw [this]; norm_num

theorem dimer_st0 : spAt net st0 ⟨3, by decide +kernel⟩ = Ar2P := by decide +kernel
theorem dimer_half : spAt net half ⟨3, by decide +kernel⟩ = Ar2P := by decide +kernel
theorem dimer_swap : spAt net swap ⟨3, by decide +kernel⟩ = Ar2P := by decide +kernel
theorem step_half : net.step st0 (.adhocStick (.obj Ar2P) (1/2)) = (half, none) := Prod.ext rfl (by decide +kernel)
theorem step_swap : net.step st0 (.adhocRet (.name (str!"Ar2+")) [(str!"Kr", 1)]) = (swap, none) :=
  Prod.ext rfl (by decide +kernel)

/-- The dimer ion sticks with 1/2 after the call and with 1 before. -/
example (P : Params) (n : RP → ℝ) (rho : ℝ) :
    (construct net half X P).stick ⟨3, by decide +kernel⟩ = ((1 / 2 : ℚ) : ℝ) ∧
    (construct net st0 X P).stick ⟨3, by decide +kernel⟩ = 1 :=
  have hh : Case half := .inr (.inr (.inr (.inr (.inl rfl))))
  ⟨(adhoc_stick reach0 retClosed pyDicts (s := Ar2P) rfl step_half (reads (.inl rfl) P) (reads hh P)
    (same hh n rho) dimer_st0 dimer_half).1, dimer_sticks P⟩

/-- It comes back as two atoms of argon, and after the second call as one of krypton. -/
example (P : Params) :
    (construct net swap X P).ret ⟨4, by decide +kernel⟩ ⟨3, by decide +kernel⟩ = 1 ∧
    (construct net swap X P).ret ⟨0, by decide +kernel⟩ ⟨3, by decide +kernel⟩ = 0 := by
  have hw : Case swap := .inr (.inr (.inr (.inr (.inr rfl))))
  have k := (adhoc_return reach0 retClosed (states hw).2.2 (s := Ar2P) rfl step_swap (reads (.inl rfl) P) (reads hw P)
    dimer_st0 dimer_swap).2
  have hs : (construct net st0 X P).stick ⟨3, by decide +kernel⟩ ≠ 0 := by rw [dimer_sticks]; norm_num
  have k4 := k ⟨4, by decide +kernel⟩
  have k0 := k ⟨0, by decide +kernel⟩
  rw [if_neg hs] at k4 k0
  refine ⟨k4.trans ?_, k0.trans ?_⟩
  · rw [show spAt net swap ⟨4, by decide +kernel⟩ = Kr by decide +kernel]
    exact Rat.cast_one
  · rw [show spAt net swap ⟨0, by decide +kernel⟩ = Ar by decide +kernel]
    exact Rat.cast_zero

example (P : Params) : (construct net st0 X P).ret ⟨0, by decide +kernel⟩ ⟨3, by decide +kernel⟩ = 2 := by
  rw [GraphRun.ret_returned reach0 retClosed pyDicts (reads (.inl rfl) P).wall, dimer_st0]
  have : CoupleInit.returned st0 Ar2P (spAt net st0 ⟨0, by decide +kernel⟩) = 2 := by decide +kernel
  rw [this]
  norm_num

/-- What the swap changes: argon is no longer returned, krypton is. -/
example (P : Params) (n : RP → ℝ) (rho t : ℝ) :
    let D := construct net st0 X P
    let D' := construct net swap X P
    (D'.rhs t (dens swap n rho)).n ⟨4, by decide +kernel⟩ = (D.rhs t (dens st0 n rho)).n ⟨4, by decide +kernel⟩ +
      wallVia D' (dens swap n rho) ⟨3, by decide +kernel⟩ ⟨4, by decide +kernel⟩ -
      wallVia D (dens st0 n rho) ⟨3, by decide +kernel⟩ ⟨4, by decide +kernel⟩ := by
  intro D D'
  have hw : Case swap := .inr (.inr (.inr (.inr (.inr rfl))))
  obtain ⟨-, w, k1, k2, -⟩ := adhoc_wall reach0 retClosed pyDicts (states hw).2.2 (s := Ar2P) ⟨_, rfl, .inr ⟨_, rfl⟩⟩ step_swap (reads (.inl rfl) P)
    (reads hw P) (same hw n rho) dimer_st0 dimer_swap t
  have hi : spAt net st0 ⟨4, by decide +kernel⟩ = spAt net swap ⟨4, by decide +kernel⟩ := by decide +kernel
  rw [k2 _ _ hi, k1 _ _ hi]
  ring

end Verif.Fwork.AdhocEqns.Demo
