/-
C111: a concrete Morris run that meets the hypotheses of the theorems, and batches after which the evaluation raises.
-/
import Verif.Fwork.MorrisEval
import Verif.Fwork.MorrisBatchDemo

namespace Verif.Fwork.MorrisEval.Demo
open Verif.Plaschem Verif.Fwork Verif.Fwork.MorrisRuns Verif.Fwork.MorrisStats Verif.Fwork.MorrisBatch
open Verif.Fwork.MorrisBatch.Demo (exec exec_run)

/-- two reactions as factors -/
def study : Study 2 := { model := MorrisStats.Demo.model, fid := ![str!"3", str!"12"] }

def choices (p : ℕ) : List (Fin 2 × Bool) := if p = 0 then [(0, true), (1, false)] else [(1, false), (0, false)]

def seed (p : ℕ) : Fin 2 → ℚ := if p = 0 then ![1/4, 1/4] else ![3/4, 1/20]

/-- the trajectories of the code -/
def path (p : ℕ) : Path 2 := (seed p, (Morris.Setup.code.trajectory (choices p) (seed p)).1)

theorem seed_grid (p : ℕ) (i : Fin 2) : seed p i ∈ Morris.Setup.code.grid := by
  by_cases h : p = 0
  · subst h; revert i; decide +kernel
  · have : seed p = seed 1 := by simp [seed, h]
    rw [this]; revert i; decide +kernel

theorem path_ok (p : ℕ) : (Morris.Setup.code.trajectory (choices p) (seed p)).2.isNone ∧
    (((path p).2.map fun s => s.x 0) = if p = 0 then [3/4, 3/4] else [3/4, 1/4]) ∧ (path p).2.length = 2 := by
  by_cases h : p = 0
  · subst h; decide +kernel
  · have h1 : seed p = seed 1 := by simp [seed, h]
    have h2 : choices p = choices 1 := by simp [choices, h]
    unfold path
    rw [h1, h2, if_neg h]; decide +kernel

noncomputable def args (num cores : ℕ) : Args ℕ ℕ Sol :=
  { cfg := { chem := 0, params := 0, type := str!"reactions", backend := str!"pygmol" }, num := num, cores := cores, trajId := false,
    ret := none, ranges := none, steps := fun p => (path p).2.map fun s => (s.delta, study.fid s.factor),
    sols := fun p j => ((path p).point j).map study.model }

theorem args_good (num cores : ℕ) : (args num cores).Good where
  type := by simp [args]
  accepted := by simp [args, Args.accepted]
  backend := by simp only [args]; decide
  solves := by
    intro p _ j hj
    simp only [args, List.length_map] at hj ⊢
    rw [Option.isSome_map]
    cases j with
    | zero => rfl
    | succ j => simp [Path.point]; omega

theorem is_call (num cores : ℕ) (ids : List ℕ) (p : ℕ) : IsCall study ((args num cores).job ids p) (path p) where
  seed := seed_grid p
  walk := by
    refine ⟨choices p, ?_, ?_⟩
    · by_cases h : p = 0
      · subst h; decide
      · rw [show choices p = choices 1 by simp [choices, h]]; decide
    · exact Prod.ext rfl (Option.isNone_iff_eq_none.1 (path_ok p).1)
  steps := rfl
  sols := by
    intro j x s h1 h2
    have h2 : ((path p).point j).map study.model = some s := h2
    rw [h1] at h2
    cases h2
    rfl

/-- the directory after the call -/
def fs1 : Fs ℕ ℕ Sol := Fs.new.mkTraj (trajName 1)

theorem call_new (num cores : ℕ) (hc : cores ≠ 0) : (args num cores).call 0 Fs.new = (fs1, .ok (List.range' 1 num)) := by
  have hq : ∀ n i, queue (used (Fs.new : Fs ℕ ℕ Sol)) 0 i n = List.range' i n := by
    intro n
    induction n with
    | zero => intro i; simp [queue]
    | succ n ih => intro i; rw [queue]; simp [ih, List.range'_succ]
  have hn : (Fs.new : Fs ℕ ℕ Sol).nextId = some (trajName 1) := by decide +kernel
  unfold Args.call
  simp only [args, hn, hq, if_neg hc, show str!"reactions" ≠ str!"return_coefficients" by decide, false_and, if_false]
  rfl

/-- a batch of two trajectories with one worker, until it is over -/
theorem analysis : ∃ fs : Fs ℕ ℕ Sol, Analysis study (args 2 1).cfg fs [path 0, path 1] := by
  have he : ((exec ((args 2 1).job [1, 2]) 2 1 ((args 2 1).start fs1)
      (List.replicate 21 0 ++ List.replicate 24 1)).map fun w => decide (Over (w.pc 0) ∧ Over (w.pc 1))) = some true := by
    decide +kernel
  obtain ⟨w, hw, hv⟩ := Option.map_eq_some_iff.1 he
  obtain ⟨m, hm⟩ := exec_run .refl hw
  simp only [decide_eq_true_eq] at hv
  refine ⟨w.fs, ?_⟩
  have h : ∀ p, p < 2 → p = 0 ∨ p = 1 := fun p hp => by omega
  exact Analysis.batch (a := args 2 1) (bound := 0) (w := w) (walks := []) (ws := [path 0, path 1]) .new rfl (args_good 2 1) rfl rfl
    (by simp) (fun p hp => by rcases h p hp with rfl | rfl <;> exact is_call ..) (fun _ _ => rfl) (call_new 2 1 (by decide)) hm
    (fun p hp => by
      rcases h p hp with rfl | rfl
      · exact hv.1
      · exact hv.2)

theorem fid_injective : Function.Injective fun i => label (study.fid i) := by
  decide

/-- mu of the two reactions is the slope, as it should be: all hypotheses of `analysis_stats` can be met -/
example : ∃ fs : Fs ℕ ℕ Sol, ∀ ds, Listing fs ds → ∃ s, morrisStats fs ds 0 "e" = .ok s ∧ s.mu (.int 3) = 1 ∧ s.mu (.int 12) = 0 := by
  obtain ⟨fs, h⟩ := analysis
  refine ⟨fs, fun ds hds => ?_⟩
  obtain ⟨s, h1, -, h2⟩ := analysis_stats (by decide) fid_injective h (by simp) hds (t := 0) (o := "e")
    (y := fun x => 10 + (x 0 : ℝ)) (fun _ _ _ _ => MorrisStats.Demo.const_result _ _) (by
      have e0 : ((path 0).2.map fun s => (10 + (s.x 0 : ℝ))) = ([3/4, 3/4] : List ℚ).map fun v : ℚ => 10 + (v : ℝ) := by
        rw [show ([3/4, 3/4] : List ℚ) = (path 0).2.map fun s => s.x 0 from (path_ok 0).2.1.symm, List.map_map]; rfl
      have e1 : ((path 1).2.map fun s => (10 + (s.x 0 : ℝ))) = ([3/4, 1/4] : List ℚ).map fun v : ℚ => 10 + (v : ℝ) := by
        rw [show ([3/4, 1/4] : List ℚ) = (path 1).2.map fun s => s.x 0 from (path_ok 1).2.1.symm, List.map_map]; rfl
      simp only [grandMean, List.map_cons, List.map_nil, e0, e1, (path_ok 0).2.2, (path_ok 1).2.2]
      norm_num [path, seed])
  refine ⟨s, h1, (h2 0).2 1 fun x x' _ => by push_cast; ring, (h2 1).2 0 fun x x' hx => ?_⟩
  simp only [hx 0 (by decide)]
  ring

/-- a possible listing -/
theorem listing_two {fs : Fs ℕ ℕ Sol} (h : ∀ t, fs.made t = true ↔ t = trajName 1 ∨ t = trajName 2) :
    Listing fs [trajName 2, trajName 1] where
  nodup := by decide +kernel
  mem := by
    intro t
    rw [h]
    have hd : ∀ i, (trajName i).head? ≠ some '.' := fun i => by simp [trajName]
    simp only [List.mem_cons, List.not_mem_nil, or_false]
    constructor
    · rintro (rfl | rfl)
      · exact ⟨.inr rfl, hd _⟩
      · exact ⟨.inl rfl, hd _⟩
    · rintro ⟨rfl | rfl, -⟩
      · exact .inr rfl
      · exact .inl rfl

/-- **C111, finding.** A batch of two trajectories with two workers, in a new directory, everything in order: `run_morris` returns
without an error (C91: one trajectory may be lost), but the evaluation raises, because the directory of the lost trajectory is
there and has no meta file. -/
theorem lost_raises : ∃ (n : ℕ) (w : World ℕ ℕ Sol),
    (args 2 2).Good ∧ (args 2 2).call 0 Fs.new = (fs1, .ok [1, 2]) ∧
    PoolRun ((args 2 2).job [1, 2]) 2 2 ((args 2 2).start fs1) n w ∧ AllOver 2 w ∧
    (∃ ds, Listing w.fs ds) ∧ ∀ ds, Listing w.fs ds → ∀ t o, ∃ e, morrisStats w.fs ds t o = .error (.inl e) := by
  have he : ((exec ((args 2 2).job [1, 2]) 2 2 ((args 2 2).start fs1)
      (List.replicate 16 0 ++ List.replicate 5 1 ++ List.replicate 5 0)).map fun w =>
        (decide (Over (w.pc 0) ∧ Over (w.pc 1)), (w.fs.trajs (trajName 2)).info.isSome, w.fs.made (trajName 2),
          w.fs.made (trajName 1))) = some (true, false, true, true) := by
    decide +kernel
  obtain ⟨w, hw, hv⟩ := Option.map_eq_some_iff.1 he
  obtain ⟨m, hm⟩ := exec_run .refl hw
  simp only [Prod.mk.injEq, decide_eq_true_eq] at hv
  obtain ⟨⟨h0, h1⟩, h2, h3, h4⟩ := hv
  have h2 : (w.fs.trajs (trajName 2)).info = none := by simpa using h2
  refine ⟨m, w, args_good 2 2, call_new 2 2 (by decide), hm, ?_, ⟨[trajName 2, trajName 1], listing_two ?_⟩, fun ds hds t o => ?_⟩
  · intro p hp
    have : p = 0 ∨ p = 1 := by omega
    rcases this with rfl | rfl
    · exact h0
    · exact h1
  · intro t
    constructor
    · intro ht
      rcases (batch_made (a := args 2 2) (bound := 0) (fun _ _ => rfl) (call_new 2 2 (by decide)) hm).2.1 t ht with ht | ⟨p, hp, rfl⟩
      · simp only [fs1, Fs.mkTraj, Function.update_apply] at ht
        split at ht
        · rename_i h; exact .inl h
        · cases ht
      · have hp : p < 2 := hp
        have : p = 0 ∨ p = 1 := by omega
        rcases this with rfl | rfl
        · exact .inl rfl
        · exact .inr rfl
    · rintro (rfl | rfl)
      · exact h4
      · exact h3
  · obtain ⟨e, he⟩ := unfinished_raises hds h3 (by simp [trajName]) (by rintro ⟨m, hm⟩; rw [h2] at hm; cases hm)
    exact ⟨e, by unfold morrisStats; rw [he]⟩

/-- **C111, finding.** A batch of no trajectories leaves an empty directory, after which the evaluation raises. -/
theorem empty_batch_raises : (args 0 1).call 0 Fs.new = (fs1, .ok []) ∧ AllOver 0 ((args 0 1).start fs1) ∧
    Listing fs1 [trajName 1] ∧ ∀ t o, morrisStats fs1 [trajName 1] t o = .error (.inl .noMeta) := by
  refine ⟨call_new 0 1 (by decide), fun p hp => absurd hp (by omega), ⟨by simp, fun t => ?_⟩, fun t o => rfl⟩
  simp only [fs1, Fs.mkTraj, Function.update_apply, List.mem_singleton]
  constructor
  · rintro rfl
    exact ⟨by rw [if_pos rfl], by simp [trajName]⟩
  · rintro ⟨h, -⟩
    by_contra hne
    rw [if_neg hne] at h
    cases h

/-- a process killed after it made the directory of its first run: the hypotheses of `abandoned_forever` -/
example : ∃ w : World ℕ ℕ Sol, w.fs.made (trajName 1) = true ∧ (w.fs.trajs (trajName 1)).runs (pad (width 2) 0 ++ str!"_initial_run") ≠ none ∧
    ¬ Finished (w.fs.trajs (trajName 1)) ∧ (∀ p, ¬ Owns (trajName 1) (w.pc p)) ∧
    ∀ p, width (((args 2 1).job [1, 2] p).steps.length) = width 2 := by
  let w0 : World ℕ ℕ Sol := (args 2 1).start fs1
  let J := (args 2 1).job [1, 2]
  let w := (((((w0.act J 0).act J 0).act J 0).act J 0).act J 0).act J 0
  have h : (w.fs.made (trajName 1), (w.fs.trajs (trajName 1)).runs (pad (width 2) 0 ++ str!"_initial_run") |>.isSome,
    (w.fs.trajs (trajName 1)).info.isSome) = (true, true, false) := by decide +kernel
  simp only [Prod.mk.injEq] at h
  refine ⟨w.crash 0, h.1, Option.isSome_iff_ne_none.1 h.2.1, ?_, fun p => ?_, fun p => ?_⟩
  · rintro ⟨m, hm⟩
    have hm : (w.fs.trajs (trajName 1)).info = some (.full m) := hm
    rw [hm] at h
    cases h.2.2
  · by_cases hp : p = 0
    · subst hp; exact fun h => h
    · have : (w.crash 0).pc p = .start := by
        simp only [World.crash, w, World.act, Function.update_of_ne hp]
        rfl
      rw [this]; exact fun h => h
  · have : ((args 2 1).job [1, 2] p).steps.length = 2 := by
      simp only [Args.job, args, List.length_map]
      exact (path_ok p).2.2
    rw [this]

end Verif.Fwork.MorrisEval.Demo
