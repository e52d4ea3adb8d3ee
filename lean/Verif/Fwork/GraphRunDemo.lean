/-
Property C116: runs from which a graph is built, and runs from which none can be built.
-/
import Verif.Fwork.GraphRunProps
import Verif.Fwork.RatesDemo
import Verif.Fwork.CoupleDemo
import Verif.Fwork.ReduceGraphDemo
import Verif.Pygmol.EqnsReg

namespace Verif.Fwork.GraphRun
open Finset Verif.Plaschem Verif.Plaschem.Net Verif.Pygmol
open Verif.Fwork.Rates (Lab ReadsWall)
open Verif.Fwork.CoupleInit (Frame)
open Verif.Fwork.Frames (frames_defined)
open Verif.Fwork.Morris (PyDicts)

/-- **C116.** A run that succeeds logs at any times between the first and the last step, unless there is only one heavy species, or
none, or only one reaction (then the run fails, see C63). -/
theorem logged_exists (net : Net) (st : State) (D : Data (ns net st) (nr net st)) (sol : Solved) (times : List ℝ)
    (h0 : ns net st ≠ 0) (h1 : ns net st ≠ 1) (h2 : nr net st ≠ 1)
    (hr : ∃ a b, sol.t.head? = some a ∧ sol.t.getLast? = some b ∧ ∀ t ∈ times, a ≤ t ∧ t ≤ b) :
    ∃ F W, Logged net st D sol times F W := by
  have e1 : (chemOf net st).names.length = ns net st := by simp [chemOf, getSpeciesName]
  have e2 : (chemOf net st).ids.length = nr net st := by simp [chemOf]
  have hrun : ∃ b', (⟨0, 0, none, none, none⟩ : Backend Solved).run (chemOf net st) (.returned true sol) = (b', .ok ()) := by
    unfold Backend.run Backend.postProcess Backend.labels
    dsimp only
    rw [e1, e2, if_neg (by simp)]
    rw [if_neg (Ne.symm h1), if_neg (Ne.symm h2), if_neg (show ¬ 1 = ns net st + 1 by omega)]
    exact ⟨_, rfl⟩
  obtain ⟨b', hb⟩ := hrun
  obtain ⟨-, -, -, h3, h4⟩ := run_labels hb
  obtain ⟨c⟩ : Nonempty (Data.Cache (ns net st) (nr net st)) := by
    constructor
    constructor <;> intros <;> exact 0
  have hT : ∃ T, getRates b' (chemOf net st) D (D.history c []) = .ok T ∧ T.t = sol.t := by
    unfold getRates; rw [h4]; exact ⟨_, rfl, rfl⟩
  have hV : ∃ V, getWallFluxes b' (chemOf net st) D (D.history c []) = .ok V ∧ V.t = sol.t := by
    unfold getWallFluxes; rw [h3]; exact ⟨_, rfl, rfl⟩
  obtain ⟨T, hT, hTt⟩ := hT
  obtain ⟨V, hV, hVt⟩ := hV
  obtain ⟨T', hT'⟩ := (frames_defined T times).2 (by rw [hTt]; exact hr)
  obtain ⟨V', hV'⟩ := (frames_defined V times).2 (by rw [hVt]; exact hr)
  exact ⟨_, _, _, b', c, [], [], T, T', V, V', hb, hT, hV, hT', hV', rfl, rfl⟩

namespace Demo
open Verif.Plaschem.Demo (net st0 stRet)

/-- some numbers for what is not read from the chemistry -/
noncomputable def plain (n m : ℕ) : Data n m where
  C := Verif.Pygmol.Demo.consts
  charge := fun _ => 0
  mass := fun _ => 40
  ljSigma := fun _ => 3
  stick := fun _ => 1
  arrhA := fun _ => 1
  arrhB := fun _ => 0
  arrhC := fun _ => 0
  enLoss := fun _ => 0
  elastic := fun _ => false
  eNet := fun _ => 0
  eLhs := fun _ => 0
  mLhs := fun _ => 0
  ret := fun _ _ => 0
  net := fun _ _ => 0
  lhs := fun _ _ => 0
  feed := fun _ => 1
  tempG := 300
  r := 1
  z := 2
  p0 := 100
  power := fun _ => 500

noncomputable def D : Data (ns net stRet) (nr net stRet) := Rates.demoD (plain _ _)

theorem D_reads : Pygmol.Reads D ∧ ReadsWall D := by
  have h := reads_fromChem Rates.demo_reach rfl (plain (ns net stRet) (nr net stRet))
  exact ⟨⟨h.charge, h.netC, h.lhs, h.eNet, h.eLhs, h.mLhs⟩, ⟨Rates.demoM, Rates.demoM_ok, rfl, rfl, fun _ _ => rfl⟩⟩

theorem pyRet : PyDicts net stRet := CoupleInit.Demo.pyDicts (by decide +kernel)

theorem D_physical : D.Physical where
  tempG := by show (0 : ℝ) < 300; norm_num
  r := by show (0 : ℝ) < 1; norm_num
  z := by show (0 : ℝ) < 2; norm_num
  p0 := by show (0 : ℝ) < 100; norm_num
  mass := fun _ => by show (0 : ℝ) < 40; norm_num
  stick := fun _ => by show (0 : ℝ) ≤ 1; norm_num
  feed := fun _ => by show (0 : ℝ) ≤ 1; norm_num
  ret := fun i k => by
    have h : ∀ i k : Fin 4, 0 ≤ Rates.demoM.entry (Rates.demoM.rows[i]'i.2) (Rates.demoM.cols[k]'k.2) := by decide +kernel
    exact Rat.cast_nonneg.2 (h i k)
  arrhA := fun _ => by show (0 : ℝ) ≤ 1; norm_num
  lhs := (D_reads.1.signs Rates.demo_reach).1
  net := (D_reads.1.signs Rates.demo_reach).2

/-- two steps; all densities are 1, then 2 -/
noncomputable def sol : Solved := ⟨[0, 1], [[1, 1, 1, 1, 1], [2, 2, 2, 2, 2]]⟩

theorem sol_ok : sol.Ok := ⟨rfl, by simp [sol], by simp [sol]⟩

theorem sol_range {times : List ℝ} (h : ∀ t ∈ times, 0 ≤ t ∧ t ≤ 1) :
    ∃ a b, sol.t.head? = some a ∧ sol.t.getLast? = some b ∧ ∀ t ∈ times, a ≤ t ∧ t ≤ b := ⟨0, 1, rfl, rfl, h⟩

theorem sol_pos : ∀ y ∈ sol.ys, (∀ i, 0 ≤ (toY (ns net stRet) y).n i) ∧ 0 < D.pNe (toY (ns net stRet) y) := by
  have hne : ∀ y : Y (ns net stRet), D.pNe y = y.n (0 : Fin 4) * 0 + y.n (1 : Fin 4) * 1 + y.n (2 : Fin 4) * 2 + y.n (3 : Fin 4) * 0 := by
    intro y
    have : D.pNe y = ∑ i : Fin 4, y.n i * (D.charge i : ℝ) := rfl
    rw [this, Fin.sum_univ_four]
    have c0 : D.charge (0 : Fin 4) = 0 := rfl
    have c1 : D.charge (1 : Fin 4) = 1 := rfl
    have c2 : D.charge (2 : Fin 4) = 2 := rfl
    have c3 : D.charge (3 : Fin 4) = 0 := rfl
    rw [c0, c1, c2, c3]
    norm_num
  intro y hy
  simp only [sol, List.mem_cons, List.not_mem_nil, or_false] at hy
  rcases hy with rfl | rfl
  · refine ⟨fun i => ?_, ?_⟩
    · have : ∀ i : Fin 4, (0 : ℝ) ≤ [1, 1, 1, 1, (1 : ℝ)].getD i.1 0 := by intro i; fin_cases i <;> norm_num
      exact this i
    · rw [hne]; norm_num [toY]
  · refine ⟨fun i => ?_, ?_⟩
    · have : ∀ i : Fin 4, (0 : ℝ) ≤ [2, 2, 2, 2, (2 : ℝ)].getD i.1 0 := by intro i; fin_cases i <;> norm_num
      exact this i
    · rw [hne]; norm_num [toY]

/-- a run with five reactions and four heavy species: it logs, and the graph is built -/
theorem logs : ∃ F W, Logged net stRet D sol [0, 1 / 2, 1] F W :=
  logged_exists net stRet D sol _ (by decide +kernel) (by decide +kernel) (by decide +kernel)
    (sol_range (by intro t ht; simp only [List.mem_cons, List.not_mem_nil, or_false] at ht; rcases ht with rfl | rfl | rfl <;> norm_num))

example : ∃ F W C, Logged net stRet D sol [0, 1 / 2, 1] F W ∧ CoupleInit.init net stRet 1 2 F W = .ok C := by
  obtain ⟨F, W, h⟩ := logs
  obtain ⟨C, hC⟩ := (graph_from_run_iff Rates.demo_reach Verif.Plaschem.Demo.net_retClosed pyRet D_reads.2 h 1 2).2 (by decide +kernel)
  exact ⟨F, W, C, h, hC⟩

/-- `ranking_from_run` and `graph_balance` on this run: Ar is the target; at the second step the balance of Ar+ holds -/
example : ∃ F W C, Logged net stRet D sol [0, 1 / 2, 1] F W ∧ CoupleInit.init net stRet D.r D.z F W = .ok C ∧
    (∃ Gs ranking, C.distributeWeights .drg true = .ok Gs ∧
      C.getRanking Gs [str!"Ar"] .shortestPath (fun n t => (n, t)) (fun s => s.sort (· ≤ ·)) Reduce.GraphDemo.exists_sort.choose = .ok ranking ∧
      ranking.length = 3) ∧
    ∃ (a : Fin (net.getSpecies stRet false true true).length) (h : 2 < F.rows.length),
      C.totProd true ⟨2, h⟩ a - C.totCons true ⟨2, h⟩ a + D.getFlowSourceRates (toY _ [2, 2, 2, 2, 2]) none none (1 : Fin 4) +
        Data.getMinNCorrection (toY (ns net stRet) [2, 2, 2, 2, 2]) none (1 : Fin 4) =
      (D.rhs 1 (toY _ [2, 2, 2, 2, 2])).n (1 : Fin 4) := by
  obtain ⟨F, W, h⟩ := logs
  obtain ⟨C, Gs, ranking, hC, h1, h2, h3, h4, -⟩ := ranking_from_run Rates.demo_reach Verif.Plaschem.Demo.net_retClosed pyRet D_reads.2 sol_ok h
    D_physical sol_pos (by decide +kernel) (by simp) [str!"Ar"]
    ⟨Verif.Plaschem.Demo.ArX, by decide +kernel, by decide +kernel, by decide +kernel, by decide +kernel⟩ .shortestPath (by decide)
    (fun n t => (n, t)) (by rintro i t i' t' h; exact ⟨congrArg Prod.fst h, congrArg Prod.snd h⟩) (fun s => s.sort (· ≤ ·))
    (fun s => ⟨Finset.sort_nodup .., fun v => Finset.mem_sort _⟩) Reduce.GraphDemo.exists_sort.choose Reduce.GraphDemo.exists_sort.choose_spec
  have hn : F.rows.length = 3 := by
    rw [← List.length_map (f := fun f => f Lab.t), (h.contents (reachable_inv Rates.demo_reach).1).rateTimes]; rfl
  have hR := CoupleInit.arrays (.of_reachable Rates.demo_reach) Verif.Plaschem.Demo.net_retClosed pyRet hC
  refine ⟨F, W, C, h, hC, ⟨Gs, ranking, h1, h2, ?_⟩, (⟨3, by decide +kernel⟩ : Fin _), by omega, ?_⟩
  · have hp : (ranking.map Prod.fst).Perm [str!"Ar+", str!"Ar++", str!"Ar*"] := by
      refine (List.perm_ext_iff_of_nodup h3 (by decide)).2 fun n => ?_
      rw [h4]
      constructor
      · rintro ⟨s, hs, rfl, ha, hb, hc⟩
        revert s
        decide +kernel
      · intro hn
        simp only [List.mem_cons, List.not_mem_nil, or_false] at hn
        rcases hn with rfl | rfl | rfl
        · exact ⟨Verif.Plaschem.Demo.ArP, by decide +kernel, by decide +kernel, by decide +kernel, by decide +kernel, by decide +kernel⟩
        · exact ⟨Verif.Plaschem.Demo.ArPP, by decide +kernel, by decide +kernel, by decide +kernel, by decide +kernel, by decide +kernel⟩
        · exact ⟨Verif.Plaschem.Demo.ArX, by decide +kernel, by decide +kernel, by decide +kernel, by decide +kernel, by decide +kernel⟩
    have := hp.length_eq
    simpa using this
  · exact graph_balance Rates.demo_reach Verif.Plaschem.Demo.net_retClosed pyRet Rates.demo_labels D_reads.1 D_reads.2 sol_ok h hC
      (by omega) (by rfl) (m := 1) (by rfl) (by rfl) (by rw [hR.species]; decide +kernel)

/-! ### as many reactions as heavy species -/

/-- one reaction is disabled: four reactions and four heavy species -/
def stEq : State := net.run stRet [.disable [] [5]]

theorem reachEq : Reachable net stEq := .step _ Rates.demo_reach

theorem countsEq : (net.getReactions stEq false).length = (net.getSpecies stEq false false true).length ∧
    (net.getReactions stEq false).length = 4 := by decide +kernel

def MEq : RetMat := match net.getReturnMatrix stEq false with
  | .ok M => M
  | .error _ => ⟨[], [], []⟩

noncomputable def DEq : Data (ns net stEq) (nr net stEq) :=
  { fromChem net stEq (plain _ _) with ret := fun i k => (MEq.entry (MEq.rows[i]'i.2) (MEq.cols[k]'k.2) : ℝ) }

theorem DEq_wall : ReadsWall DEq := ⟨MEq, rfl, rfl, rfl, fun _ _ => rfl⟩

/-- **C116, negative part.** There is a chemistry with which a run succeeds and from the logs of which no graph can be built,
whatever the times, the radius and the length. -/
theorem no_graph_from_run : ∃ (N : Net) (st : State) (D : Data (ns N st) (nr N st)) (s : Solved), Reachable N st ∧ N.RetClosed ∧
    ReadsWall D ∧ s.Ok ∧ (∃ F W, Logged N st D s [0, 1 / 2, 1] F W) ∧
    ∀ times F W, Logged N st D s times F W → ∀ radius length, CoupleInit.init N st radius length F W = .error .rates := by
  have hpy : PyDicts net stEq := CoupleInit.Demo.pyDicts (by decide +kernel)
  refine ⟨net, stEq, DEq, sol, reachEq, Verif.Plaschem.Demo.net_retClosed, DEq_wall, sol_ok, ?_, fun times F W h radius length => ?_⟩
  · exact logged_exists net stEq DEq sol _ (by decide +kernel) (by decide +kernel) (by decide +kernel)
      (sol_range (by intro t ht; simp only [List.mem_cons, List.not_mem_nil, or_false] at ht; rcases ht with rfl | rfl | rfl <;> norm_num))
  · exact graph_from_run_refusal reachEq Verif.Plaschem.Demo.net_retClosed hpy DEq_wall h radius length countsEq.1

/-! ### a reduction guided by the logs of its runs -/

noncomputable def D0 : Data (ns net st0) (nr net st0) :=
  { fromChem net st0 (plain _ _) with ret := fun i k => (Rates.demoM0.entry (Rates.demoM0.rows[i]'i.2) (Rates.demoM0.cols[k]'k.2) : ℝ) }

theorem D0_wall : ReadsWall D0 := ⟨Rates.demoM0, rfl, rfl, rfl, fun _ _ => rfl⟩

theorem D0_reads : Pygmol.Reads D0 := by
  have h := reads_fromChem Verif.Plaschem.Demo.reach0 rfl (plain (ns net st0) (nr net st0))
  exact ⟨h.charge, h.netC, h.lhs, h.eNet, h.eLhs, h.mLhs⟩

theorem D0_physical : D0.Physical where
  tempG := by show (0 : ℝ) < 300; norm_num
  r := by show (0 : ℝ) < 1; norm_num
  z := by show (0 : ℝ) < 2; norm_num
  p0 := by show (0 : ℝ) < 100; norm_num
  mass := fun _ => by show (0 : ℝ) < 40; norm_num
  stick := fun _ => by show (0 : ℝ) ≤ 1; norm_num
  feed := fun _ => by show (0 : ℝ) ≤ 1; norm_num
  ret := fun i k => by
    have h : ∀ i k : Fin 4, 0 ≤ Rates.demoM0.entry (Rates.demoM0.rows[i]'i.2) (Rates.demoM0.cols[k]'k.2) := by decide +kernel
    exact Rat.cast_nonneg.2 (h i k)
  arrhA := fun _ => by show (0 : ℝ) ≤ 1; norm_num
  lhs := (D0_reads.signs Verif.Plaschem.Demo.reach0).1
  net := (D0_reads.signs Verif.Plaschem.Demo.reach0).2

/-- The hypotheses of `guided_by_runs` are met by a guide that logs what a run of the full chemistry logs, after the first run. -/
example : ∃ (F : Frame Lab) (W : Frame Str) (g : Reduce.Guide (Str × ℕ)) (t : Reduce.Loop ℕ ℤ Score),
    Logged net st0 D0 sol [0, 1] F W ∧ g.rates 1 = F ∧ g.fluxes 1 = W ∧ g.Ok Reduce.GraphDemo.strict.important ∧ g.targets ≠ [] ∧
    Reduce.Visited Reduce.GraphDemo.strict (g.ranking net) (fun _ => true) 0 st0 t ∧ t.red.history.length = 1 := by
  obtain ⟨F, W, h⟩ := logged_exists net st0 D0 sol [0, 1] (by decide +kernel) (by decide +kernel) (by decide +kernel)
    (sol_range (by intro t ht; simp only [List.mem_cons, List.not_mem_nil, or_false] at ht; rcases ht with rfl | rfl <;> norm_num))
  have hc := h.contents (reachable_inv Verif.Plaschem.Demo.reach0).1
  have hne : (net.getReactions st0 false).length ≠ (net.getSpecies st0 false false true).length := by decide +kernel
  have hnn := rates_nonneg_of_run Verif.Plaschem.Demo.reach0 sol_ok h D0_physical sol_pos hne
  let g : Reduce.Guide (Str × ℕ) := { Reduce.GraphDemo.guide [str!"Ar"] with rates := fun _ => F, fluxes := fun _ => W }
  have hok := Reduce.GraphDemo.guide_ok (targets := [str!"Ar"]) (important := Reduce.GraphDemo.strict.important) (by intro n h; exact h)
  have hg : g.Ok Reduce.GraphDemo.strict.important := by
    refine ⟨hok.label, ?_, ?_, hok.method, hok.targets, hok.iter, hok.sort⟩
    · intro k h0
      have h0 : F.rows = [] := h0
      have := hc.rateTimes
      rw [h0] at this
      cases this
    · intro k f hf i
      by_cases hi : Lab.id i ∈ F.cols
      · rw [hc.rateCols, if_neg hne, List.mem_cons] at hi
        rcases hi with hi | hi
        · cases hi
        · obtain ⟨r, hr, he⟩ := List.mem_map.1 hi
          rw [← he]
          exact hnn f hf r hr
      · exact (hc.zero f hf _ hi).ge
  have hrank : ∃ l, g.rank net 1 st0 = some l := by
    refine (Reduce.ranking_function_iff hg (by simp [g, Reduce.GraphDemo.guide]) Verif.Plaschem.Demo.reach0 Verif.Plaschem.Demo.net_retClosed
      Reduce.GraphDemo.py0 1).2 ⟨?_, ?_⟩
    · exact (CoupleInit.accepted_iff Verif.Plaschem.Demo.reach0 Verif.Plaschem.Demo.net_retClosed Reduce.GraphDemo.py0 1 2 F W).1
        ((graph_from_run_iff Verif.Plaschem.Demo.reach0 Verif.Plaschem.Demo.net_retClosed Reduce.GraphDemo.py0 D0_wall h 1 2).2 hne)
    · exact ⟨str!"Ar*", by decide +kernel, by simp [g, Reduce.GraphDemo.guide]⟩
  obtain ⟨l, hl⟩ := hrank
  have hb : (Reduce.GraphDemo.base Reduce.GraphDemo.strict).isSome := by decide +kernel
  obtain ⟨⟨red, red1⟩, hb⟩ := Option.isSome_iff_exists.1 hb
  obtain ⟨h1, h2, h3, h4, h5⟩ := Reduce.GraphDemo.base_ok hb
  refine ⟨F, W, g, ⟨red1, l, 0⟩, h, rfl, rfl, hg, by simp [g, Reduce.GraphDemo.guide], ⟨red, _, _, h1, ?_, .refl, .inl rfl⟩, h5⟩
  unfold Reduce.startLoop
  rw [if_neg (by rw [h3]; decide +kernel), h2]
  simp only [Reduce.Guide.ranking, h4, h5, hl]

end Demo

end Verif.Fwork.GraphRun
