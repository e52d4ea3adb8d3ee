/-
Examples for C124, with the argon chemistry of `MorrisEqnsDemo`.
-/
import Verif.Fwork.MorrisRetEqns
import Verif.Fwork.MorrisEqnsDemo
import Verif.Fwork.MorrisWholeDemo

namespace Verif.Fwork.MorrisRetEqns.Demo
open Finset Verif.Plaschem Verif.Plaschem.Net Verif.Pygmol
open Verif.Fwork.GraphRun (ns nr)
open Verif.Fwork.Morris (PyDicts Pair demoPw coef)
open Verif.Fwork.MorrisEval (Path)
open Verif.Fwork.MorrisWhole.Demo (path path_ok choices choices_perm seed_grid)
open Verif.Fwork.MorrisWholeRet (runState Asked OneCoef)
open Verif.Fwork.ReducedEqns Verif.Fwork.PhysEqns
open Verif.Fwork.MorrisEqns (SameY)
open Verif.Fwork.MorrisEqns.Demo (net sound retClosed st0 init_ok)
open Verif.Plaschem.Demo (e M Ar ArP ArX)
open Verif.Fwork.PhysEqns.Demo (X)

/-! half of the metastables stick; ions and metastables give back argon and themselves, one half each -/

def st1 : State := (net.step st0 (.adhocStick (.obj ArX) (1/2))).1
def st2 : State := (net.step st1 (.adhocRet (.obj ArP) [(Ar.name, 1/2), (ArP.name, 1/2)])).1
def st : State := (net.step st2 (.adhocRet (.obj ArX) [(Ar.name, 1/2), (ArX.name, 1/2)])).1

theorem history : SoundHistory net st :=
  .step (.adhocRet (.obj ArX) [(Ar.name, 1/2), (ArX.name, 1/2)]) ⟨by decide +kernel, by decide +kernel⟩
    (.step (.adhocRet (.obj ArP) [(Ar.name, 1/2), (ArP.name, 1/2)]) ⟨by decide +kernel, by decide +kernel⟩
      (.step (.adhocStick (.obj ArX) (1/2)) (by unfold SoundOp; norm_num) (.init init_ok)))

theorem reach : Reachable net st := history.reachable
theorem pyDicts : PyDicts net st := pyDicts_of_sound sound history

theorem defined : Defined net st X :=
  ⟨Numbers.spec (by decide +kernel), Numbers.spec (by decide +kernel), by decide +kernel,
    Numbers.spec (by decide +kernel), Numbers.spec (by decide +kernel), Numbers.spec (by decide +kernel),
    Square.spec (by decide +kernel)⟩

noncomputable abbrev P (C : Consts) : ReducedEqns.Params := given Pygmol.Demo.params C 1.66e-27 true
noncomputable abbrev D (C : Consts) : Data (ns net st) (nr net st) := construct net st X (P C)

theorem reads (C : Consts) : ReadsAll X (P C) (D C) := readsAll_construct reach rfl defined _

theorem physical (C : Consts) : (D C).Physical := accepted_physical sound history retClosed Pygmol.Demo.accepted (by norm_num) (reads C)

def pairs : Fin 2 → Pair := ![⟨ArP.name, Ar.name, 1/2, 2⟩, ⟨ArX.name, Ar.name, 1/2, 2⟩]

theorem asked : Asked net st pairs where
  distinct := by decide +kernel
  nominal := by decide +kernel

theorem walk (p : ℕ) : Morris.Walk (1 / 2) (path 2 p).1 (path 2 p).2 := by
  obtain ⟨l, e, -, -, h, -⟩ := Morris.trajectory_code (n := 2) (by decide) (choices_perm 2 p) (seed_grid 2 p)
  have := (path_ok (n := 2) (by decide) p).1
  rw [this] at e
  injection e with e _
  rw [e]
  exact h

/-- all runs of two trajectories succeed -/
theorem runs_ok : ∀ p < 2, ∀ j ≤ 2, (match runState net demoPw st pairs (path 2 p) j with
    | .ok _ => true
    | .error _ => false) = true := by
  decide +kernel

theorem run_ok {p j : ℕ} (hp : p < 2) (hj : j ≤ 2) : ∃ a, runState net demoPw st pairs (path 2 p) j = .ok a := by
  have := runs_ok p hp j hj
  cases h : runState net demoPw st pairs (path 2 p) j with
  | error e => rw [h] at this; cases this
  | ok s => exact ⟨s, rfl⟩

theorem pw_nonneg : ∀ r y : ℚ, 1 < r → 0 ≤ demoPw r y := by
  intro r y hr
  unfold demoPw
  split
  · have : 0 ≤ y * (r - 1) := mul_nonneg ‹_› (by linarith)
    linarith
  · have : 0 ≤ -y * (r - 1) := mul_nonneg (by linarith) (by linarith)
    exact div_nonneg zero_le_one (by linarith)

/-- the last vector of the first trajectory: the coefficient of Ar+ is raised, that of Ar* lowered -/
def x : Fin 2 → ℚ := ![3/4, 1/20]

theorem x_point : (path 2 0).point 2 = some x := by
  have : ((path 2 0).point 2).map (fun y => List.ofFn y) = some (List.ofFn x) := by decide +kernel
  obtain ⟨y, hy, h⟩ := Option.map_eq_some_iff.1 this
  rw [hy, List.ofFn_injective h]

/-- the factors: 3/2 for Ar+, 10/19 for Ar*, with a function in place of the power -/
example : retScale demoPw pairs x ArP.name Ar.name = 3/2 ∧ retScale demoPw pairs x ArX.name Ar.name = 10/19 ∧
    retScale demoPw pairs x ArX.name ArP.name = 1 := by decide +kernel

def iAr : Fin (ns net st) := ⟨0, by decide +kernel⟩
def iArP : Fin (ns net st) := ⟨1, by decide +kernel⟩

/-- a quarter of the ions that stick comes back as argon more than in the analysed chemistry -/
example (C : Consts) (y : Y (ns net st)) : more net demoPw st pairs x (D C) y iArP iAr = -(D C).pSinks y iArP * (1 / 4) := by
  unfold more
  have h1 : (D C).ret iAr iArP = (1 / 2 : ℚ) := by
    rw [ret_coef reach retClosed pyDicts (reads C).wall]
    exact congrArg _ (by decide +kernel)
  have h2 : retScale demoPw pairs x (spAt net st iArP).name (spAt net st iAr).name = 3 / 2 := by decide +kernel
  rw [h1, h2]
  push_cast
  ring

/-- the hypotheses of `run_defined`, `run_equations` and `run_wall_total` are met -/
example (C : Consts) : ∃ a, runState net demoPw st pairs (path 2 0) 2 = .ok a ∧ ∃ A : Data (ns net a) (nr net a), ReadsAll X (P C) A ∧
    ∀ y y', SameY net st a y y' → ∑ i, A.pSrc y' i = ∑ i, (D C).pSrc y i ∧ ∀ i i', spAt net st i = spAt net a i' →
      (A.rhs 0 y').n i' = ((D C).rhs 0 y).n i +
        ∑ k ∈ univ.erase i, (more net demoPw st pairs x (D C) y k i - more net demoPw st pairs x (D C) y i k) := by
  obtain ⟨a, ha⟩ := run_ok (p := 0) (j := 2) (by decide) (by decide)
  obtain ⟨A, hA⟩ := run_defined reach retClosed pyDicts ha (reads C)
  exact ⟨a, ha, A, hA, fun y y' hy => ⟨run_wall_total reach retClosed pyDicts asked (walk 0) x_point ha (reads C) hA hy,
    fun i i' hi => ((run_equations reach retClosed pyDicts asked (walk 0) x_point ha (reads C) hA hy 0).2.1 i i' hi).2⟩⟩

/-! ### time developments -/

/-- as many ions and metastables as atoms -/
noncomputable def y0 : Y (ns net st) := ⟨fun _ => 5, 1⟩

theorem one_ion (C : Consts) : ∀ i k : Fin (ns net st), i ≠ k → ¬ (D C).neu i → ¬ (D C).neu k → False := by
  intro i k h
  have : ∀ i k : Fin (ns net st), i ≠ k → (spAt net st i).chargeOf ≠ 0 → (spAt net st k).chargeOf ≠ 0 → False := by
    decide +kernel
  exact this i k h

theorem electrons (C : Consts) : 0 < (D C).getElectronDensity y0 none := by
  have h : ∀ i : Fin (ns net st), 0 ≤ (spAt net st i).chargeOf := by decide +kernel
  have h' : ∃ i : Fin (ns net st), 0 < (spAt net st i).chargeOf := by decide +kernel
  have e : (D C).getElectronDensity y0 none = ∑ i, 5 * ((spAt net st i).chargeOf : ℝ) := rfl
  rw [e]
  obtain ⟨k, hk⟩ := h'
  refine sum_pos' (fun i _ => mul_nonneg (by norm_num) (by exact_mod_cast h i)) ⟨k, mem_univ k, mul_pos (by norm_num) (by exact_mod_cast hk)⟩

theorem develops (C : Consts) : ∃ ε ∈ Set.Ioc 0 Pygmol.Demo.params.tEnd, ∃ y, (D C).Solves ε y ∧ y 0 = y0 ∧
    (∀ t ∈ Set.Icc 0 ε, (∀ i, 0 < (y t).n i) ∧ 0 < (D C).getElectronDensity (y t) none ∧ (D C).Regular (y t)) ∧
    ∀ z, (D C).Solves ε z → z 0 = y0 → ∀ t ∈ Set.Icc 0 ε, z t = y t :=
  accepted_development sound history retClosed Pygmol.Demo.accepted (by simp [Pygmol.Demo.params]) (by norm_num) (reads C) rfl
    (by decide +kernel) ⟨Ar, by decide +kernel⟩ (by decide +kernel) (fun _ => by norm_num [y0]) (electrons C)
    fun i k h1 h2 h3 => (one_ion C i k h1 h2 h3).elim

theorem regular (C : Consts) : (D C).Regular y0 := by
  obtain ⟨ε, hε, y, -, h0, hg, -⟩ := develops C
  have := (hg 0 ⟨le_refl _, hε.1.le⟩).2.2
  rwa [h0] at this

theorem run_develops (C : Consts) {n : ℕ} {q : Fin n → Pair} {w : Path n} {j : ℕ} {a : State} (ha : runState net demoPw st q w j = .ok a)
    {A : Data (ns net a) (nr net a)} (hA : ReadsAll X (P C) A) : ∃ ε ∈ Set.Ioc 0 Pygmol.Demo.params.tEnd, ∃ y', A.Solves ε y' ∧
      SameY net st a y0 (y' 0) ∧ (∀ i, 0 < (y' 0).n i) ∧ ∀ t ∈ Set.Icc 0 ε, A.Inside (y' t) := by
  obtain ⟨ε, hε, y', h1, h2, h3, -⟩ := run_development pw_nonneg reach retClosed pyDicts ha (reads C) hA (physical C)
    (y0 := y0) (fun _ => by norm_num [y0]) (electrons C) (regular C) MorrisEqns.Demo.tEnd_pos (by
      have : (D C).power = powerExt Pygmol.Demo.params.time Pygmol.Demo.params.power := rfl
      rw [this]
      refine (interp_continuous ?_).continuousOn
      simp [Pygmol.Demo.params])
  refine ⟨ε, hε, y', h1, h2, (h3 0 ⟨le_refl _, hε.1.le⟩).1, fun t ht => ⟨(h3 t ht).2.1, ?_, (h3 t ht).2.2⟩⟩
  obtain ⟨-, -, sa, -⟩ := Morris.ret_history retClosed reach pyDicts ha
  obtain ⟨b, rfl⟩ : ∃ b, a = { st with adRet := b } := ⟨_, same_eq sa⟩
  have hz : ∀ i k : Fin (ns net st), i ≠ k → (spAt net st i).chargeOf ≠ 0 → (spAt net st k).chargeOf ≠ 0 → False := by
    decide +kernel
  intro i k hik hi hk
  refine (hz i k hik ?_ ?_).elim
  · have := hA.coefs.charge i
    intro hc; exact hi (this.trans hc)
  · have := hA.coefs.charge k
    intro hc; exact hk (this.trans hc)

/-- the vector with which the first trajectory ends, taken at once -/
def atOnce : Path 2 := (x, [])

theorem atOnce_ok : ∃ b, runState net demoPw st pairs atOnce 0 = .ok b := by
  have : (match runState net demoPw st pairs atOnce 0 with
    | .ok _ => true
    | .error _ => false) = true := by decide +kernel
  cases h : runState net demoPw st pairs atOnce 0 with
  | error e => rw [h] at this; cases this
  | ok s => exact ⟨s, rfl⟩

/-- The hypotheses of `same_vector_development` are met: whether reached in two steps or at once, the development is the same. -/
example (C : Consts) : ∃ a b, runState net demoPw st pairs (path 2 0) 2 = .ok a ∧ runState net demoPw st pairs atOnce 0 = .ok b ∧
    ∃ (A : Data (ns net a) (nr net a)) (B : Data (ns net b) (nr net b)), ReadsAll X (P C) A ∧ ReadsAll X (P C) B ∧
    ∃ ε ∈ Set.Ioc 0 Pygmol.Demo.params.tEnd, ∃ y, A.Solves ε y ∧ SameY net st a y0 (y 0) ∧
      ∀ z, B.Solves ε z → SameY net a b (y 0) (z 0) → ∀ t ∈ Set.Icc 0 ε, SameY net a b (y t) (z t) := by
  obtain ⟨a, ha⟩ := run_ok (p := 0) (j := 2) (by decide) (by decide)
  obtain ⟨b, hb⟩ := atOnce_ok
  obtain ⟨A, hA⟩ := run_defined reach retClosed pyDicts ha (reads C)
  obtain ⟨B, hB⟩ := run_defined reach retClosed pyDicts hb (reads C)
  obtain ⟨ε, hε, y, h1, h2, h3, h4⟩ := run_develops C ha hA
  exact ⟨a, b, ha, hb, A, B, hA, hB, ε, hε, y, h1, h2, fun z hz hz0 => same_vector_development retClosed reach pyDicts asked (walk 0)
    (w := atOnce) trivial x_point (k := 0) rfl ha hb hA hB (run_physical pw_nonneg reach retClosed pyDicts ha (reads C) hA (physical C))
    h1 h3 h4 hz hz0⟩

/-- all factors one half -/
def centre : Path 2 := (fun _ => 1 / 2, [])

theorem centre_ok : ∃ b, runState net demoPw st pairs centre 0 = .ok b := by
  have : (match runState net demoPw st pairs centre 0 with
    | .ok _ => true
    | .error _ => false) = true := by decide +kernel
  cases h : runState net demoPw st pairs centre 0 with
  | error e => rw [h] at this; cases this
  | ok s => exact ⟨s, rfl⟩

/-- The hypotheses of `centre_development` are met. -/
example (C : Consts) : ∃ a, runState net demoPw st pairs centre 0 = .ok a ∧ ∃ A : Data (ns net a) (nr net a), ReadsAll X (P C) A ∧
    ∃ ε ∈ Set.Ioc 0 Pygmol.Demo.params.tEnd, ∃ y, A.Solves ε y ∧ SameY net st a y0 (y 0) ∧
      ∀ z, (D C).Solves ε z → SameY net a st (y 0) (z 0) → ∀ t ∈ Set.Icc 0 ε, SameY net a st (y t) (z t) := by
  obtain ⟨a, ha⟩ := centre_ok
  obtain ⟨A, hA⟩ := run_defined reach retClosed pyDicts ha (reads C)
  obtain ⟨ε, hε, y, h1, h2, h3, h4⟩ := run_develops C ha hA
  exact ⟨a, ha, A, hA, ε, hε, y, h1, h2, fun z hz hz0 => centre_development retClosed reach pyDicts asked (w := centre) trivial (j := 0) rfl
    (fun _ => rfl) (by decide +kernel) ha hA (reads C) (run_physical pw_nonneg reach retClosed pyDicts ha (reads C) hA (physical C)) h1 h3 h4 hz
    hz0⟩

/-! ### an elementary effect -/

theorem pick (i : Fin (ns net st)) (g : ℝ) (w : ℝ) : (if i = iAr then -w * g else if i = iArP then w * g else 0) =
    if i.1 = 0 then -w * g else if i.1 = 1 then -(-w * g) else 0 := by
  have h0 : i = iAr ↔ i.1 = 0 := ⟨fun h => by rw [h]; rfl, fun h => Fin.ext h⟩
  have h1 : i = iArP ↔ i.1 = 1 := ⟨fun h => by rw [h]; rfl, fun h => Fin.ext h⟩
  simp only [h0, h1, neg_mul, neg_neg]

/-- The first step of the first trajectory raises the coefficient of Ar+: the hypotheses of `one_coef_equations` are met, and argon (number 0)
gains what the ions (number 1) lose. -/
example (C : Consts) : ∃ lo hi, OneCoef net demoPw st (pairs 0) lo hi ∧
    ∃ (L : Data (ns net lo) (nr net lo)) (H : Data (ns net hi) (nr net hi)), ReadsAll X (P C) L ∧ ReadsAll X (P C) H ∧
    ∀ u v, SameY net lo hi u v → ∃ g : ℝ, ∀ i i', spAt net lo i = spAt net hi i' → (H.rhs 0 v).n i' = (L.rhs 0 u).n i +
      if i.1 = 0 then g else if i.1 = 1 then -g else 0 := by
  obtain ⟨lo, hlo⟩ := run_ok (p := 0) (j := 0) (by decide) (by decide)
  obtain ⟨hi, hhi⟩ := run_ok (p := 0) (j := 1) (by decide) (by decide)
  obtain ⟨L, hL⟩ := run_defined reach retClosed pyDicts hlo (reads C)
  obtain ⟨H, hH⟩ := run_defined reach retClosed pyDicts hhi (reads C)
  have hstep : ((path 2 0).2.map fun s => (s.factor, s.delta)) = [(0, 1/2), (1, -1/2)] := by decide +kernel
  have hgrid : ∀ s ∈ (path 2 0).2, ∀ i, s.x i ∈ Morris.Setup.code.grid := by decide +kernel
  obtain ⟨s1, l2, hl⟩ : ∃ s1 l2, (path 2 0).2 = [] ++ s1 :: l2 := by
    cases h : (path 2 0).2 with
    | nil => rw [h] at hstep; cases hstep
    | cons s1 l2 => exact ⟨s1, l2, rfl⟩
  have hf : s1.factor = 0 ∧ s1.delta = 1 / 2 := by
    rw [hl, List.nil_append, List.map_cons, List.cons.injEq, Prod.mk.injEq] at hstep
    exact hstep.1
  have hone : OneCoef net demoPw st (pairs 0) lo hi := by
    rcases MorrisWholeRet.step_coef retClosed reach pyDicts asked (walk 0) (seed_grid 2 0) hgrid hl hlo hhi with ⟨-, h⟩ | ⟨h, -⟩
    · rwa [hf.1] at h
    · rw [hf.2] at h; norm_num at h
  refine ⟨lo, hi, hone, L, H, hL, hH, fun u v huv => ?_⟩
  obtain ⟨rl, pl, sl, -⟩ := Morris.ret_history retClosed reach pyDicts hlo
  obtain ⟨rh, ph, -, -⟩ := Morris.ret_history retClosed reach pyDicts hhi
  obtain ⟨d, rfl⟩ : ∃ d, lo = { st with adRet := d } := ⟨_, same_eq sl⟩
  obtain ⟨z, c, -, -, -, h, -⟩ := one_coef_equations reach retClosed hone rl pl rh ph hL hH huv 0 (k := iArP) (m := iAr)
    (show (spAt net st iArP).name = ArP.name by decide +kernel) (show (spAt net st iAr).name = Ar.name by decide +kernel)
    (show iArP ≠ iAr by decide +kernel)
  refine ⟨-L.pSinks u iArP * c, fun i i' hi => ?_⟩
  rw [h i i' hi]
  congr 1
  exact pick i _ _

end Verif.Fwork.MorrisRetEqns.Demo
