/-
Property C118: the equations can be set up whenever the getters return numbers, and concrete cases.
-/
import Verif.Fwork.ReducedEqnsProps

namespace Verif.Fwork.ReducedEqns
open Finset Verif.Plaschem Verif.Plaschem.Net Verif.Pygmol
open Verif.Fwork.Rates (ReadsWall mem_heavy)
open Verif.Fwork.GraphRun (ns nr)
open Verif.Fwork.CoupleInit (returned)
open Verif.Fwork.Morris (PyDicts)

/-- the `i`-th number of a series -/
def num (d : Dict Nat (Option ℚ)) (i : ℕ) : ℚ := ((d.map Prod.snd).getD i none).getD 0

theorem at_num {d : Dict Nat (Option ℚ)} (h : ∀ e ∈ d, e.2 ≠ none) {i : ℕ} (hi : i < d.length) : At d i (some (num d i)) := by
  unfold At num
  rw [List.getD_eq_getElem?_getD, List.getElem?_map, List.getElem?_eq_getElem hi]
  have := h _ (List.getElem_mem hi)
  simp only [Option.map_some, Option.getD_some]
  cases hc : d[i].2 with
  | none => exact absurd hc this
  | some v => rfl

/-- equations.py:149-288: the data the constructor makes of a chemistry and of parameters. -/
noncomputable def construct (net : Net) (st : State) (X : RP → Extra) (P : Params) : Data (ns net st) (nr net st) where
  C := P.C
  charge := fun i => (spAt net st i).chargeOf
  mass := fun i => (num (okOr (net.speciesMasses st false false true)) i : ℝ) * P.dalton
  ljSigma := fun i => (num (okOr (net.speciesLjSigma X st false false true)) i : ℝ) * 1e-10
  stick := fun i => (num (net.getSpeciesStickCoef st false false true) i : ℝ)
  arrhA := fun j => (num (okOr (net.getReactionsArrhA st false true)) j : ℝ)
  arrhB := fun j => (num (okOr (net.reactionsArrhB st false)) j : ℝ)
  arrhC := fun j => (num (okOr (net.reactionsArrhC st false)) j : ℝ)
  enLoss := fun j => (((okOr (net.reactionsElEnLoss st false)).map Prod.snd).getD j 0 : ℚ)
  elastic := fun j => ((okOr (net.reactionsElastic st false)).map Prod.snd).getD j false
  eNet := fun j => (Dict.get? (okOr (net.stoichElectron st false .net)) (reAt net st j).id).getD 0
  eLhs := fun j => (Dict.get? (okOr (net.stoichElectron st false .lhs)) (reAt net st j).id).getD 0
  mLhs := fun j => (Dict.get? (okOr (net.stoichArbitrary st false .lhs)) (reAt net st j).id).getD 0
  ret := fun i k => match net.getReturnMatrix st false with
    | .ok M => (M.entry (M.rows.getD i 0) (M.cols.getD k 0) : ℝ)
    | .error _ => 0
  net := fun j i => cell (okOr (net.stoichiomatrix st false false .net)) (reAt net st j).id (spAt net st i).id
  lhs := fun j i => cell (okOr (net.stoichiomatrix st false false .lhs)) (reAt net st j).id (spAt net st i).id
  feed := fun i => (P.feeds.get? (((okOr (net.speciesNames st false false true)).map Prod.snd).getD i [])).getD 0
  tempG := P.tempG
  r := P.r
  z := P.z
  p0 := P.p0
  power := P.power
  thermalFlux := P.thermalFlux

/-- the getters return numbers for all enabled species and reactions, and the return matrix is square -/
structure Defined (net : Net) (st : State) (X : RP → Extra) : Prop where
  mass : ∃ d, net.speciesMasses st false false true = .ok d ∧ d.length = ns net st ∧ ∀ e ∈ d, e.2 ≠ none
  lj : ∃ d, net.speciesLjSigma X st false false true = .ok d ∧ d.length = ns net st ∧ ∀ e ∈ d, e.2 ≠ none
  stick : ∀ e ∈ net.getSpeciesStickCoef st false false true, e.2 ≠ none
  arrhA : ∃ d, net.getReactionsArrhA st false true = .ok d ∧ d.length = nr net st ∧ ∀ e ∈ d, e.2 ≠ none
  arrhB : ∃ d, net.reactionsArrhB st false = .ok d ∧ d.length = nr net st ∧ ∀ e ∈ d, e.2 ≠ none
  arrhC : ∃ d, net.reactionsArrhC st false = .ok d ∧ d.length = nr net st ∧ ∀ e ∈ d, e.2 ≠ none
  ret : ∃ M, net.getReturnMatrix st false = .ok M ∧ M.rows.length = ns net st ∧ M.cols.length = ns net st

/-- a series of `n` numbers was returned -/
def Numbers (x : Except Err (Dict Nat (Option ℚ))) (n : ℕ) : Bool :=
  match x with
  | .ok d => d.length == n && d.all fun e => e.2.isSome
  | .error _ => false

theorem Numbers.spec {x : Except Err (Dict Nat (Option ℚ))} {n : ℕ} (h : Numbers x n = true) :
    ∃ d, x = .ok d ∧ d.length = n ∧ ∀ e ∈ d, e.2 ≠ none := by
  unfold Numbers at h
  split at h
  · rename_i d
    rw [Bool.and_eq_true, beq_iff_eq, List.all_eq_true] at h
    exact ⟨d, rfl, h.1, fun e he hn => by have := h.2 e he; rw [hn] at this; cases this⟩
  · cases h

/-- a square matrix was returned -/
def Square (x : Except Err RetMat) (n : ℕ) : Bool :=
  match x with
  | .ok M => M.rows.length == n && M.cols.length == n
  | .error _ => false

theorem Square.spec {x : Except Err RetMat} {n : ℕ} (h : Square x n = true) :
    ∃ M, x = .ok M ∧ M.rows.length = n ∧ M.cols.length = n := by
  unfold Square at h
  split at h
  · rw [Bool.and_eq_true, beq_iff_eq, beq_iff_eq] at h
    exact ⟨_, rfl, h.1, h.2⟩
  · cases h

/-- In every reachable state in which the getters return numbers the equations can be set up. -/
theorem readsAll_construct {net : Net} {st : State} (hr : Reachable net st) (hq : net.requiresCharge = true)
    {X : RP → Extra} (h : Defined net st X) (P : Params) : ReadsAll X P (construct net st X P) := by
  have hc := reads_fromChem hr hq (construct net st X P)
  have hals := reaction_getters_aligned hr (fun _ => none) false
  refine
    { coefs := ⟨hc.charge, hc.netC, hc.lhs, hc.eNet, hc.eLhs, hc.mLhs⟩, wall := ?_, mass := ?_, lj := ?_, stick := fun i => ?_,
      arrhA := ?_, arrhB := ?_, arrhC := ?_, enLoss := ?_, elastic := ?_, feed := ?_, consts := rfl, tempG := rfl,
      radius := rfl, length := rfl, p0 := rfl, power := rfl, flux := rfl }
  · obtain ⟨M, hM, h1, h2⟩ := h.ret
    refine ⟨M, hM, h1, h2, fun i k => ?_⟩
    have e1 : M.rows.getD i 0 = M.rows[i]'(i.2.trans_eq h1.symm) := by
      rw [List.getD_eq_getElem?_getD, List.getElem?_eq_getElem]; rfl
    have e2 : M.cols.getD k 0 = M.cols[k]'(k.2.trans_eq h2.symm) := by
      rw [List.getD_eq_getElem?_getD, List.getElem?_eq_getElem]; rfl
    simp only [construct, hM, e1, e2]
  · obtain ⟨d, e, hl, hs⟩ := h.mass
    exact ⟨d, e, fun i => ⟨_, at_num hs (i.2.trans_eq hl.symm), by simp only [construct, e, okOr]⟩⟩
  · obtain ⟨d, e, hl, hs⟩ := h.lj
    exact ⟨d, e, fun i => ⟨_, at_num hs (i.2.trans_eq hl.symm), by simp only [construct, e, okOr]⟩⟩
  · exact ⟨_, at_num h.stick (i.2.trans_eq (by simp [getSpeciesStickCoef])), rfl⟩
  · obtain ⟨d, e, hl, hs⟩ := h.arrhA
    exact ⟨d, e, fun i => ⟨_, at_num hs (i.2.trans_eq hl.symm), by simp only [construct, e, okOr]⟩⟩
  · obtain ⟨d, e, hl, hs⟩ := h.arrhB
    exact ⟨d, e, fun i => ⟨_, at_num hs (i.2.trans_eq hl.symm), by simp only [construct, e, okOr]⟩⟩
  · obtain ⟨d, e, hl, hs⟩ := h.arrhC
    exact ⟨d, e, fun i => ⟨_, at_num hs (i.2.trans_eq hl.symm), by simp only [construct, e, okOr]⟩⟩
  · obtain ⟨⟨d, e, hl⟩, -⟩ := hals
    refine ⟨d, e, fun j => ⟨(d.map Prod.snd).getD j 0, ?_, by simp only [construct, e, okOr]⟩⟩
    unfold At
    rw [hl.values, List.getElem?_map, List.getElem?_eq_getElem j.2, Option.map_some, List.getD_eq_getElem?_getD,
      List.getElem?_map, List.getElem?_eq_getElem j.2]
    rfl
  · obtain ⟨-, -, ⟨d, own, e, hl, -⟩, -⟩ := hals
    refine ⟨d, e, fun j => ?_⟩
    have : (construct net st X P).elastic j = (d.map Prod.snd).getD j false := by simp only [construct, e, okOr]
    rw [this]
    unfold At
    rw [hl.values, List.getElem?_map, List.getElem?_eq_getElem j.2, Option.map_some, List.getD_eq_getElem?_getD,
      List.getElem?_map, List.getElem?_eq_getElem j.2]
    rfl
  · obtain ⟨⟨d, e, hl⟩, -⟩ := species_getters_aligned hr X false false true
    refine ⟨d, e, fun i => ⟨_, ?_, by simp only [construct, e, okOr]; rfl⟩⟩
    unfold At
    rw [hl.values, List.getElem?_map, List.getElem?_eq_getElem i.2, Option.map_some, List.getD_eq_getElem?_getD,
      List.getElem?_map, List.getElem?_eq_getElem i.2]
    rfl

/-- every assignment of densities to species, zero for the disabled ones, is a state of both systems -/
theorem sameState_of (net : Net) (st st' : State) (n : RP → ℝ) (rho : ℝ)
    (h0 : ∀ s ∈ net.species, st'.enSp s.id = false → n s = 0) :
    SameState net st st' ⟨fun i => n (spAt net st i), rho⟩ ⟨fun i => n (spAt net st' i), rho⟩ :=
  ⟨fun i i' h => by simp only [h], fun i hi => h0 _ (mem_heavy.1 (sp_mem i)).1 hi, rfl⟩

namespace Demo

/-! Argon with a metastable Ar*, the dimer ion Ar2+ and a trace of krypton:
1: e + Ar > Ar+ + e + e, 2: e + Ar > Ar* + e, 3: Ar* + M > Ar + M, 4: Ar+ + Ar + M > Ar2+ + M, 5: e + Ar2+ > Ar + Ar,
6: e + Kr > e + Kr. -/
open Verif.Plaschem.Demo (e M Ar ArP ArX)

def Ar2P : RP := { oid := 6, id := 5, name := str!"Ar2+", mass := some 80, charge := some 1, retCoefs := some [(str!"Ar", 2)] }
def Kr : RP := { oid := 7, id := 6, name := str!"Kr", mass := some 84 }

def u3 : Str := str!"m3.s-1"
def u6 : Str := str!"m6.s-1"
def rx (i : ℕ) (a b : List RP) (u : Str) : Reaction :=
  { id := i, reactants := a, products := b, arrhA := some (2 : ℚ), arrhAUnit := some u, arrhB := some 0, arrhC := some 1 }
def net : Net where
  species := [e, M, Ar, ArP, ArX, Ar2P, Kr]
  reactions := [rx 1 [e, Ar] [ArP, e, e] u3, rx 2 [e, Ar] [ArX, e] u3, rx 3 (ArX :: [M]) (Ar :: [M]) u3,
    rx 4 (ArP :: Ar :: [M]) (Ar2P :: [M]) u6, rx 5 [e, Ar2P] [Ar, Ar] u3, rx 6 [e, Kr] [e, Kr] u3]

def st0 : State := { State.fresh with protSp := setMask (fun _ => false) [0] true }
theorem init_ok : net.init = .ok st0 := by rfl
theorem reach0 : Reachable net st0 := .init init_ok

/-- after disabling one species -/
def without (s : RP) : State := (net.disable st0 [.obj s] []).1
theorem reach (s : RP) : Reachable net (without s) := .step (.disable [.obj s] []) reach0
theorem shrinks (s : RP) : Shrinks net st0 (without s) := shrinks_disable reach0 _ _

def X : RP → Extra := fun _ => {}

theorem retClosed : net.RetClosed := by
  intro s hs d hd p hp
  simp only [net, List.mem_cons, List.not_mem_nil, or_false] at hs
  rcases hs with rfl | rfl | rfl | rfl | rfl | rfl | rfl <;> cases hd <;> cases hp <;> first
    | exact ⟨Ar, by simp [net], rfl⟩
    | (rename_i h; cases h)

theorem pyDicts : PyDicts net st0 where
  nominal := by
    intro s hs c hc
    simp only [net, List.mem_cons, List.not_mem_nil, or_false] at hs
    rcases hs with rfl | rfl | rfl | rfl | rfl | rfl | rfl <;> cases hc <;> decide
  adhoc := by intro e he; cases he

theorem defined {st : State} (h : st = st0 ∨ st = without ArX ∨ st = without Kr ∨ st = without Ar2P) : Defined net st X := by
  rcases h with rfl | rfl | rfl | rfl <;>
    exact ⟨Numbers.spec (by decide +kernel), Numbers.spec (by decide +kernel), by decide +kernel,
      Numbers.spec (by decide +kernel), Numbers.spec (by decide +kernel), Numbers.spec (by decide +kernel),
      Square.spec (by decide +kernel)⟩

/-- any constants and parameters with a feed of argon -/
structure Fed (P : Params) : Prop where
  feeds : P.feeds = [(str!"Ar", 100)]

/-- Disabling the metastable cuts off reaction 2, which makes it: argon is lost to it in the full system, not in the reduced
one. -/
example (P : Params) (hP : Fed P) (n : RP → ℝ) (hn : n ArX = 0) (rho t : ℝ) :
    let y : Y (ns net st0) := ⟨fun i => n (spAt net st0 i), rho⟩
    let y' : Y (ns net (without ArX)) := ⟨fun i => n (spAt net (without ArX) i), rho⟩
    ((construct net st0 X P).rhs t y).n ⟨0, by decide⟩ =
      ((construct net (without ArX) X P).rhs t y').n ⟨0, by decide⟩ - (construct net st0 X P).pRates y ⟨1, by decide⟩ := by
  classical
  intro y y'
  have hlost : ∀ s ∈ net.species, (without ArX).enSp s.id = false → s = ArX := by decide +kernel
  have key := reduced_densities reach0 (reach ArX) retClosed pyDicts (shrinks ArX)
    (readsAll_construct reach0 rfl (defined (.inl rfl)) P) (readsAll_construct (reach ArX) rfl (defined (.inr (.inl rfl))) P)
    (sameState_of net st0 (without ArX) n rho fun s hs h0 => by rw [hlost s hs h0, hn])
    (fun s hs _ h0 hpos => by rw [hlost s hs h0] at hpos; exact absurd hpos.2.2 (by decide))
    (fun s hs _ h0 => by rw [hlost s hs h0, hP.feeds]; rfl) t (i := ⟨0, by decide⟩) (i' := ⟨0, by decide⟩) rfl
  rw [key]
  have hcut : ∀ j : Fin (nr net st0), Cut (without ArX) (reAt net st0 j) ↔ j = ⟨1, by decide⟩ := by
    unfold Cut; decide +kernel
  have : (univ.filter fun j => Cut (without ArX) (reAt net st0 j)) = {(⟨1, by decide⟩ : Fin (nr net st0))} := by
    ext j; simp only [mem_filter, mem_univ, true_and, mem_singleton]; exact hcut j
  rw [this, sum_singleton]
  have h1 : (reAt net st0 ⟨1, by decide⟩).products.count (spAt net st0 ⟨0, by decide⟩) = 0 := by decide +kernel
  have h2 : (reAt net st0 ⟨1, by decide⟩).reactants.count (spAt net st0 ⟨0, by decide⟩) = 1 := by decide +kernel
  rw [h1, h2]
  push_cast
  ring

/-- Disabling krypton, which is not there, leaves the equations as they are. -/
example (P : Params) (hP : Fed P) (n : RP → ℝ) (hn : n Kr = 0) (rho t : ℝ) :
    let y : Y (ns net st0) := ⟨fun i => n (spAt net st0 i), rho⟩
    let y' : Y (ns net (without Kr)) := ⟨fun i => n (spAt net (without Kr) i), rho⟩
    (∀ i i', spAt net st0 i = spAt net (without Kr) i' →
      ((construct net st0 X P).rhs t y).n i = ((construct net (without Kr) X P).rhs t y').n i') ∧
    ((construct net st0 X P).rhs t y).rho = ((construct net (without Kr) X P).rhs t y').rho ∧
    (net.getReactions (without Kr) false).length < (net.getReactions st0 false).length := by
  intro y y'
  have hlost : ∀ s ∈ net.species, (without Kr).enSp s.id = false → s = Kr := by decide +kernel
  obtain ⟨k1, k2⟩ := reduced_exact reach0 (reach Kr) retClosed pyDicts (shrinks Kr)
    (readsAll_construct reach0 rfl (defined (.inl rfl)) P)
    (readsAll_construct (reach Kr) rfl (defined (.inr (.inr (.inl rfl)))) P)
    (sameState_of net st0 (without Kr) n rho fun s hs h0 => by rw [hlost s hs h0, hn])
    (fun s hs _ h0 hpos => by rw [hlost s hs h0] at hpos; exact absurd hpos.2.2 (by decide))
    (fun s hs _ h0 => by rw [hlost s hs h0, hP.feeds]; rfl)
    (fun s hs _ h0 hc => by rw [hlost s hs h0] at hc; exact absurd rfl hc)
    (by unfold Cut; decide +kernel) t
  exact ⟨k1, k2, by decide +kernel⟩

/-- Disabling the dimer ion lowers the sheath voltage, also where there is none of it. -/
example (P : Params) (hu : 0 < P.dalton) (T : ℝ) (hT : 0 < T) :
    (construct net (without Ar2P) X P).fSheath T < (construct net st0 X P).fSheath T := by
  have hlost : ∀ s ∈ net.species, (without Ar2P).enSp s.id = false → s = Ar2P := by decide +kernel
  have hkept : ∀ s ∈ net.species, 0 < s.charge.getD 0 → (without Ar2P).enSp s.id = true → s = ArP := by decide +kernel
  refine ion_lost_sheath reach0 (reach Ar2P) retClosed pyDicts (shrinks Ar2P)
    (readsAll_construct reach0 rfl (defined (.inl rfl)) P)
    (readsAll_construct (reach Ar2P) rfl (defined (.inr (.inr (.inr rfl)))) P)
    ⟨Ar2P, by decide +kernel, rfl, by decide +kernel, by unfold PositiveIon; decide +kernel⟩ ?_ hu ?_
    ⟨⟨1, by decide +kernel⟩, by unfold PositiveIon; decide +kernel⟩ hT
  · intro s hs u hu' _ hpu _ h0 h1 v w hv hw
    rw [hlost s hs h0] at hv
    rw [hkept u hu' hpu.2.2 h1] at hw
    cases hv; cases hw
    norm_num
  · decide +kernel

end Demo
end Verif.Fwork.ReducedEqns
