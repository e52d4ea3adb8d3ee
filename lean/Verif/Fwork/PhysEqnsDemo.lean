/-
Examples for C121 and C122: an argon chemistry with accepted parameters.
-/
import Verif.Fwork.PhysEqns
import Verif.Fwork.AdhocEqnsDemo

namespace Verif.Fwork.PhysEqns.Demo
open Finset Verif.Plaschem Verif.Plaschem.Net Verif.Pygmol
open Verif.Fwork.GraphRun (ns nr)
open Verif.Fwork.Morris (PyDicts)
open Verif.Fwork.ReducedEqns
open Verif.Plaschem.Demo (e M Ar ArP ArX)

def u3 : Str := str!"cm3.s-1"

def rx (i : ℕ) (a b : List RP) : Reaction :=
  { id := i, reactants := a, products := b, arrhA := some 2, arrhAUnit := some u3, arrhB := some 0 }

def args (i : ℕ) (a b : List RP) : ReactionArgs :=
  { id := i, reactants := a, products := b, arrhA := some (some 2), arrhB := some (some 0), unitA := some u3 }

/-- 1: e + Ar > Ar+ + e + e, 2: e + Ar > Ar* + e, 3: Ar* + M > Ar + M -/
def net : Net where
  species := [e, M, Ar, ArP, ArX]
  reactions := [rx 1 [e, Ar] [ArP, e, e], rx 2 [e, Ar] [ArX, e], rx 3 [ArX, M] [Ar, M]]

def F : Str → Option (Dict Str Nat) := fun s => if s = str!"Ar" then some [(str!"Ar", 1)] else none

theorem made {a : ReactionArgs} {r : Reaction} (h : (Reaction.init F a).toOption = some r) : Reaction.init F a = .ok r := by
  cases hc : Reaction.init F a with
  | error x => rw [hc] at h; cases h
  | ok y => rw [hc] at h; cases h; rfl

theorem sound : SoundInput F net where
  mass := by decide +kernel
  stick := by decide +kernel
  ret := by decide +kernel
  reactions := by
    intro r hr
    simp only [net, List.mem_cons, List.not_mem_nil, or_false] at hr
    rcases hr with rfl | rfl | rfl
    · exact ⟨args 1 [e, Ar] [ArP, e, e], made (by decide +kernel)⟩
    · exact ⟨args 2 [e, Ar] [ArX, e], made (by decide +kernel)⟩
    · exact ⟨args 3 [ArX, M] [Ar, M], made (by decide +kernel)⟩

def st0 : State := { State.fresh with protSp := setMask (setMask (fun _ => false) [0] true) [2] true }
theorem init_ok : net.init = .ok st0 := by rfl

/-- after halving the sticking coefficient of Ar+ and raising the rate of reaction 2 -/
def st : State := (net.step (net.step st0 (.adhocStick (.obj ArP) (1 / 2))).1 (.adhocArrhA 2 7)).1

theorem history : SoundHistory net st :=
  .step (.adhocArrhA 2 7) (by unfold SoundOp; norm_num) (.step (.adhocStick (.obj ArP) (1 / 2)) (by unfold SoundOp; norm_num)
    (.init init_ok))

/-- the values are in force -/
example : stickInForce st ArP = some (1 / 2) ∧ factorInForce st (rx 2 [e, Ar] [ArX, e]) = some 7 := by decide +kernel

theorem retClosed : net.RetClosed := by
  intro s hs d hd p hp
  simp only [net, List.mem_cons, List.not_mem_nil, or_false] at hs
  rcases hs with rfl | rfl | rfl | rfl | rfl <;> cases hd <;> cases hp <;> first
    | exact ⟨Ar, by simp [net], rfl⟩
    | (rename_i h; cases h)

def X : RP → Extra := fun _ => {}

theorem defined : Defined net st X :=
  ⟨Numbers.spec (by decide +kernel), Numbers.spec (by decide +kernel), by decide +kernel,
    Numbers.spec (by decide +kernel), Numbers.spec (by decide +kernel), Numbers.spec (by decide +kernel),
    Square.spec (by decide +kernel)⟩

noncomputable abbrev D (C : Consts) : Data (ns net st) (nr net st) := construct net st X (given Pygmol.Demo.params C 1.66e-27 true)

theorem reads (C : Consts) : ReadsAll X (given Pygmol.Demo.params C 1.66e-27 true) (D C) :=
  readsAll_construct history.reachable rfl defined _

/-- the hypotheses of `accepted_physical` and, with it, of `physical_iff` are met -/
theorem physical (C : Consts) : (D C).Physical := accepted_physical sound history retClosed Pygmol.Demo.accepted (by norm_num) (reads C)

theorem charges : (List.finRange (ns net st)).map (fun i => (spAt net st i).chargeOf) = [0, 1, 0] := by decide +kernel

/-- as many ions and metastables as atoms -/
noncomputable def y0 : Y (ns net st) := ⟨fun _ => 5, 1⟩

theorem one_ion (C : Consts) : ∀ i k : Fin (ns net st), i ≠ k → ¬ (D C).neu i → ¬ (D C).neu k → False := by
  intro i k h
  have : ∀ i k : Fin (ns net st), i ≠ k → (spAt net st i).chargeOf ≠ 0 → (spAt net st k).chargeOf ≠ 0 → False := by
    decide +kernel
  exact this i k h

theorem electrons (C : Consts) : 0 < (D C).getElectronDensity y0 none := by
  have h : ∀ i : Fin (ns net st), 0 ≤ (spAt net st i).chargeOf := by decide +kernel
  have h' : ∃ i : Fin (ns net st), 0 < (spAt net st i).chargeOf := by decide +kernel
  have e : (D C).getElectronDensity y0 none = ∑ i, 5 * ((spAt net st i).chargeOf : ℝ) := rfl
  rw [e]
  obtain ⟨k, hk⟩ := h'
  refine sum_pos' (fun i _ => mul_nonneg (by norm_num) (by exact_mod_cast h i)) ⟨k, mem_univ k, mul_pos (by norm_num) (by exact_mod_cast hk)⟩

/-- the hypotheses of `accepted_development` are met -/
theorem develops (C : Consts) : ∃ ε ∈ Set.Ioc 0 Pygmol.Demo.params.tEnd, ∃ y, (D C).Solves ε y ∧ y 0 = y0 ∧
    (∀ t ∈ Set.Icc 0 ε, (∀ i, 0 < (y t).n i) ∧ 0 < (D C).getElectronDensity (y t) none ∧ (D C).Regular (y t)) ∧
    ∀ z, (D C).Solves ε z → z 0 = y0 → ∀ t ∈ Set.Icc 0 ε, z t = y t :=
  accepted_development sound history retClosed Pygmol.Demo.accepted (by simp [Pygmol.Demo.params]) (by norm_num) (reads C) rfl
    (by intro s _ v hv; cases hv) ⟨Ar, by decide +kernel⟩ (by decide +kernel) (fun _ => by norm_num [y0]) (electrons C)
    fun i k h1 h2 h3 => (one_ion C i k h1 h2 h3).elim

/-- **C122, finding.** A negative ad-hoc factor is accepted, and the equations are not physical. -/
theorem negative_factor_accepted (C : Consts) : (net.step st (.adhocArrhA 2 (-7))).2 = none ∧
    ∀ D : Data (ns net (net.step st (.adhocArrhA 2 (-7))).1) (nr net (net.step st (.adhocArrhA 2 (-7))).1),
      ReadsAll X (given Pygmol.Demo.params C 1.66e-27 true) D → ¬ D.Physical := by
  refine ⟨by decide +kernel, fun D hD h => ?_⟩
  have hr : Reachable net (net.step st (.adhocArrhA 2 (-7))).1 := .step _ history.reachable
  have hpy := pyDicts_of_sound sound history
  have := ((physical_iff hr retClosed ⟨hpy.nominal, hpy.adhoc⟩ hD (by norm_num [given])).1 h).2.rate
    (rx 2 [e, Ar] [ArX, e]) (by decide +kernel) (by decide +kernel) (-7) (by decide +kernel)
  norm_num at this

/-- the chemistry listed backwards -/
def back : Net := { net with species := net.species.reverse, reactions := net.reactions.reverse }

theorem defined_back : Defined back st X :=
  ⟨Numbers.spec (by decide +kernel), Numbers.spec (by decide +kernel), by decide +kernel,
    Numbers.spec (by decide +kernel), Numbers.spec (by decide +kernel), Numbers.spec (by decide +kernel),
    Square.spec (by decide +kernel)⟩

theorem shuffled : Shuffled net back := ⟨rfl, List.reverse_perm _, List.reverse_perm _⟩

/-- The hypotheses of `order_of_development` are met: the chemistry listed backwards has the same time development. -/
example (C : Consts) : ∃ ε ∈ Set.Ioc 0 Pygmol.Demo.params.tEnd, ∃ y, (D C).Solves ε y ∧ y 0 = y0 ∧
    ∀ y', (construct back st X (given Pygmol.Demo.params C 1.66e-27 true)).Solves ε y' → y' 0 = ⟨fun _ => 5, 1⟩ →
      ∀ t ∈ Set.Icc 0 ε, OrderEqns.Agrees net back st (y t) (y' t) := by
  obtain ⟨ε, hε, y, hy, h0, hg, -⟩ := develops C
  refine ⟨ε, hε, y, hy, h0, fun y' hy' h0' => UniqueEqns.order_of_development (net := net) (net' := back) shuffled
    history.reachable retClosed (pyDicts_of_sound sound history) (by unfold OrderEqns.OnePartner; decide +kernel) (reads C)
    (readsAll_construct (shuffled.reachable history.reachable) rfl defined_back _) (physical C) hy
    (by rw [h0]; intro i; norm_num [y0]) (fun t ht => ⟨(hg t ht).2.1, ?_, (hg t ht).2.2⟩) hy' ?_⟩
  · exact fun i k h1 h2 h3 => (one_ion C i k h1 h2 h3).elim
  · rw [h0, h0']
    exact ⟨fun _ _ _ => rfl, rfl⟩

end Verif.Fwork.PhysEqns.Demo
