/-
Property C131: rates and fluxes at the end of a run. Models pygmo_fwork/pygmol/model.py:316-321 (`get_rates_final`) and 333-338
(`get_wall_fluxes_final`).
-/
import Verif.Fwork.GraphRunDemo

namespace Verif.Fwork.GraphRun
open Finset Verif.Plaschem Verif.Plaschem.Net Verif.Pygmol
open Verif.Fwork.Frames (Table getResultsFrames)

/-- model.py:321, 338: `.iloc[-1].drop('t')`. (For a table without rows it raises `IndexError`, reported as `failed`. Species called
`t` are not considered: their column is overwritten by the times, model.py:259.) -/
noncomputable def finalRow (T : Table Label) : Except GErr (Dict Label ℝ) :=
  if T.t = [] then .error .failed else .ok (T.cols.map fun c => (c.1, c.2.getLastD 0))

/-- model.py:316-321 `get_rates_final` -/
noncomputable def getRatesFinal {ns nr : ℕ} (b : Backend Solved) (chem : Chem) (D : Data ns nr) (c : Data.Cache ns nr) :
    Except GErr (Dict Label ℝ) :=
  match getRates b chem D c with
  | .error e => .error e
  | .ok T => finalRow T

/-- model.py:333-338 `get_wall_fluxes_final` -/
noncomputable def getWallFluxesFinal {ns nr : ℕ} (b : Backend Solved) (chem : Chem) (D : Data ns nr) (c : Data.Cache ns nr) :
    Except GErr (Dict Label ℝ) :=
  match getWallFluxes b chem D c with
  | .error e => .error e
  | .ok T => finalRow T

/-- **C131.** The final row is the row at the last time, as `get_results_frames` gives it. -/
theorem final_agrees {T : Table Label} (hT : T.Valid) : ∃ S τ, finalRow T = .ok S ∧ T.t.getLast? = some τ ∧
    getResultsFrames T [τ] = .ok { t := [τ], cols := S.map fun c => (c.1, [c.2]) } := by
  have hlast := List.getLast?_eq_some_getLast hT.nonempty
  refine ⟨_, _, if_neg hT.nonempty, hlast, ?_⟩
  set τ := T.t.getLast hT.nonempty with hτ
  obtain ⟨a, l, hal⟩ := List.exists_cons_of_ne_nil hT.nonempty
  obtain ⟨R, hR⟩ := (Frames.frames_defined T [τ]).2 ⟨a, τ, by rw [hal]; rfl, hlast, fun t ht => by
    obtain rfl : t = τ := by simpa using ht
    refine ⟨?_, le_rfl⟩
    have hp := hT.increasing
    have hm : τ ∈ T.t := List.getLast_mem _
    rw [hal] at hp hm
    rcases List.mem_cons.1 hm with h | h
    · exact h.ge
    · exact ((List.pairwise_cons.1 hp).1 _ h).le⟩
  rw [hR, Frames.frames_eq hR]
  simp only [List.map_map, List.map_cons, List.map_nil, Function.comp_def]
  congr 2
  refine List.map_congr_left fun c hc => ?_
  congr 2
  have hlen := hT.lengths c hc
  have hne : c.2 ≠ [] := by
    intro h
    rw [h] at hlen
    exact hT.nonempty (List.length_eq_zero_iff.1 hlen.symm)
  have hmem : (τ, c.2.getLast hne) ∈ T.t.zip c.2 := by
    rw [List.mem_iff_getElem]
    refine ⟨T.t.length - 1, by
      have := List.length_pos_of_ne_nil hT.nonempty
      simp [hlen]; omega, ?_⟩
    rw [List.getElem_zip, hτ, List.getLast_eq_getElem, List.getLast_eq_getElem]
    simp [hlen]
  rw [interp_hits (Frames.zip_pairwise hT.increasing) _ hmem, List.getLastD_eq_getLast?, List.getLast?_eq_some_getLast hne]
  rfl

theorem finalRow_table {N w : ℕ} {labels : List Label} {sol : Solved} (hs : sol.Ok) (f : Y N → Fin w → ℝ) (hl : labels.length = w)
    (hn : labels.Nodup) : ∃ y S, sol.ys.getLast? = some y ∧
      finalRow (tableOf labels sol.t (sol.ys.map fun y => f (toY N y))) = .ok S ∧ S.keys = labels ∧
      ∀ i : Fin w, S.get? (labels[i.1]'(by omega)) = some (f (toY N y) i) := by
  have hne : sol.ys ≠ [] := fun h => hs.start (List.length_eq_zero_iff.1 (by rw [← hs.steps, h]; rfl))
  have hS : (tableOf labels sol.t (sol.ys.map fun y => f (toY N y))).cols.map (fun c => (c.1, c.2.getLastD 0)) =
      List.zipWith (fun l i => (l, f (toY N (sol.ys.getLast hne)) i)) labels (List.finRange w) := by
    unfold tableOf
    rw [List.map_zipWith]
    congr 1
    funext l i
    rw [List.getLastD_eq_getLast?, List.getLast?_map, List.getLast?_map, List.getLast?_eq_some_getLast hne]
    rfl
  refine ⟨_, _, List.getLast?_eq_some_getLast hne, if_neg hs.start, ?_, fun i => ?_⟩
  · rw [hS]
    unfold Dict.keys
    exact List.ext_getElem (by simp [hl]) fun i h1 h2 => by simp
  · rw [hS]
    refine Dict.get?_of_mem (p := (labels[i.1]'(by omega), f (toY N (sol.ys.getLast hne)) i)) ?_ ?_
    · have : Dict.keys (List.zipWith (fun l i => (l, f (toY N (sol.ys.getLast hne)) i)) labels (List.finRange w)) = labels := by
        unfold Dict.keys
        exact List.ext_getElem (by simp [hl]) fun i h1 h2 => by simp
      rw [this]
      exact hn
    · rw [List.mem_iff_getElem]
      exact ⟨i.1, by simp [hl], by simp⟩

section
variable {net : Net} {st : State} {D : Data (ns net st) (nr net st)} {b b' : Backend Solved} {sol : Solved}

/-- **C131.** After a run that succeeded, whatever was asked of the model since, the final rates are those of the last state of the
solution, one for each enabled reaction, in order and under its id, unless there are as many reactions as heavy species. -/
theorem final_rates (hwf : WF net) (h : b.run (chemOf net st) (.returned true sol) = (b', .ok ())) (hs : sol.Ok)
    (hc : nr net st ≠ ns net st) (junk : Data.Cache (ns net st) (nr net st)) (calls : List (Data.Call (ns net st) (nr net st))) :
    ∃ y S, sol.ys.getLast? = some y ∧ getRatesFinal b' (chemOf net st) D (D.history junk calls) = .ok S ∧
      S.keys = (net.getReactions st false).map (fun r => .reaction r.id) ∧
      ∀ j, S.get? (.reaction (reAt net st j).id) = some (D.pRates (toY _ y) j) := by
  obtain ⟨-, -, -, -, h4⟩ := run_labels h
  obtain ⟨y, S, h1, h2, h3, h5⟩ := finalRow_table (N := ns net st) (w := nr net st)
    (labels := ((net.getReactions st false).map Reaction.id).map .reaction) hs (fun y => D.pRates y) (by simp)
    ((ids_nodup hwf st).map fun a b h => by cases h; rfl)
  refine ⟨y, S, h1, ?_, by rw [h3, List.map_map]; rfl, fun j => ?_⟩
  · unfold getRatesFinal getRates
    rw [h4, if_neg hc]
    simp only
    rw [evalAll_run (D.gives_rates) (D.valid_history junk calls)]
    exact h2
  · simpa using h5 j

/-- **C131.** The final fluxes to the wall are those of the last state of the solution, one for each enabled heavy species, in order and
under its name. -/
theorem final_fluxes (hwf : WF net) (h : b.run (chemOf net st) (.returned true sol) = (b', .ok ())) (hs : sol.Ok)
    (junk : Data.Cache (ns net st) (nr net st)) (calls : List (Data.Call (ns net st) (nr net st))) :
    ∃ y S, sol.ys.getLast? = some y ∧ getWallFluxesFinal b' (chemOf net st) D (D.history junk calls) = .ok S ∧
      S.keys = (net.getSpecies st false false true).map (fun s => .species s.name) ∧
      ∀ i, S.get? (.species (spAt net st i).name) = some (D.pWall (toY _ y) i) := by
  obtain ⟨-, -, -, h3, -⟩ := run_labels h
  obtain ⟨y, S, h1, h2, h4, h5⟩ := finalRow_table (N := ns net st) (w := ns net st)
    (labels := (net.getSpeciesName st false false true).map .species) hs (fun y => D.pWall y) (by simp [getSpeciesName])
    ((names_nodup hwf st).map fun a b h => by cases h; rfl)
  refine ⟨y, S, h1, ?_, by rw [h4, getSpeciesName, List.map_map]; rfl, fun i => ?_⟩
  · unfold getWallFluxesFinal getWallFluxes
    rw [h3]
    simp only
    rw [evalAll_run (D.gives_wall) (D.valid_history junk calls)]
    exact h2
  · simpa [getSpeciesName] using h5 i

/-- **C131.** The final rates and fluxes account for the end of the run: at the last state, the right-hand side of the equation of each
species is the sum over the reactions of the particles gained times the final rate, plus the final flux to the wall (negative for a
loss) less what the wall returns of all final fluxes, over the volume, plus the gas flow and the correction of small densities. -/
theorem final_balance (hwf : WF net) (h : b.run (chemOf net st) (.returned true sol) = (b', .ok ())) (hs : sol.Ok)
    (hc : nr net st ≠ ns net st) (junk : Data.Cache (ns net st) (nr net st)) (calls calls' : List (Data.Call (ns net st) (nr net st))) :
    ∃ y R W, sol.ys.getLast? = some y ∧ getRatesFinal b' (chemOf net st) D (D.history junk calls) = .ok R ∧
      getWallFluxesFinal b' (chemOf net st) D (D.history junk calls') = .ok W ∧ ∀ t i,
      (D.rhs t (toY _ y)).n i = ∑ j, (D.net j i : ℝ) * (R.get? (.reaction (reAt net st j).id)).getD 0 +
        D.area / D.volume * ((W.get? (.species (spAt net st i).name)).getD 0 -
          ∑ k, D.ret i k * (W.get? (.species (spAt net st k).name)).getD 0) +
        D.pFlow (toY _ y) i + Data.fMinN (toY (ns net st) y).n i := by
  obtain ⟨y, R, h1, h2, -, h3⟩ := final_rates (D := D) hwf h hs hc junk calls
  obtain ⟨y', W, h1', h4, -, h5⟩ := final_fluxes (D := D) hwf h hs junk calls'
  obtain rfl : y = y' := Option.some.inj (h1.symm.trans h1')
  refine ⟨y, R, W, h1, h2, h4, fun t i => ?_⟩
  simp only [h3, h5, Option.getD_some]
  show (∑ j, (D.net j i : ℝ) * D.pRates (toY _ y) j) + D.pFlow (toY _ y) i + (D.pWall (toY _ y) i * D.area / D.volume +
    ∑ k, -(D.pWall (toY _ y) k * D.area / D.volume) * D.ret i k) + Data.fMinN (toY (ns net st) y).n i = _
  have : ∑ k, -(D.pWall (toY _ y) k * D.area / D.volume) * D.ret i k =
      -(D.area / D.volume * ∑ k, D.ret i k * D.pWall (toY _ y) k) := by
    rw [mul_sum, ← sum_neg_distrib]
    exact sum_congr rfl fun k _ => by ring
  rw [this]
  ring

/-- With as many reactions as heavy species the final rates are labelled by species. -/
theorem final_rates_mislabelled (h : b.run (chemOf net st) (.returned true sol) = (b', .ok ())) (hs : sol.Ok) (hc : nr net st = ns net st)
    (c : Data.Cache (ns net st) (nr net st)) :
    ∃ S, getRatesFinal b' (chemOf net st) D c = .ok S ∧ S.keys = (net.getSpecies st false false true).map fun s => .species s.name := by
  obtain ⟨-, -, -, -, h4⟩ := run_labels h
  unfold getRatesFinal getRates
  rw [h4, if_pos hc]
  refine ⟨_, if_neg hs.start, ?_⟩
  have e : ∀ T : Table Label, Dict.keys (T.cols.map fun c => (c.1, c.2.getLastD 0)) = T.cols.map Prod.fst := fun T => by
    unfold Dict.keys; simp [Function.comp_def]
  rw [e, tableOf_keys (by simp [getSpeciesName, hc]), getSpeciesName, List.map_map]
  rfl

end

namespace Demo
open Verif.Plaschem.Demo (net st0 stRet)

/-- The hypotheses are met by the run with five reactions and four heavy species of C116. -/
example : ∃ (b b' : Backend Solved) (_ : Data.Cache (ns net stRet) (nr net stRet)),
    b.run (chemOf net stRet) (.returned true sol) = (b', .ok ()) ∧ sol.Ok ∧ nr net stRet ≠ ns net stRet ∧ WF net := by
  obtain ⟨F, W, b, b', junk, calls, calls', T, T', V, V', hrun, -⟩ := logs
  exact ⟨b, b', junk, hrun, sol_ok, by decide +kernel, (reachable_inv Rates.demo_reach).1⟩

/-- Those of `final_rates_mislabelled` are met too. -/
example : ∃ (b b' : Backend Solved) (c : Data.Cache (ns net stEq) (nr net stEq)) (S : Dict Label ℝ),
    b.run (chemOf net stEq) (.returned true sol) = (b', .ok ()) ∧ nr net stEq = ns net stEq ∧
    getRatesFinal b' (chemOf net stEq) DEq c = .ok S := by
  obtain ⟨F, W, b, b', junk, calls, calls', T, T', V, V', hrun, -⟩ := logged_exists net stEq DEq sol [] (by decide +kernel)
    (by decide +kernel) (by decide +kernel) (sol_range (by simp))
  obtain ⟨S, hS, -⟩ := final_rates_mislabelled (D := DEq) hrun sol_ok countsEq.1 junk
  exact ⟨b, b', junk, S, hrun, countsEq.1, hS⟩

/-- Those of `final_agrees` are met: a table with two rows. -/
example : (⟨[0, 1], [(.species str!"Ar", [2, 3])]⟩ : Table Label).Valid := ⟨by simp, by simp, by simp⟩

end Demo

end Verif.Fwork.GraphRun
