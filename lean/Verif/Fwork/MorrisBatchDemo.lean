/-
C91: concrete batches: one that loses a trajectory without notice, and those that meet the hypotheses of the theorems.
-/
import Verif.Fwork.MorrisBatchHist

namespace Verif.Fwork.MorrisBatch.Demo
open Verif.Plaschem Verif.Fwork.MorrisRuns

/-- a batch of `num` trajectories with one factor -/
def args (num cores : ℕ) (type : Str) : Args ℕ ℕ ℕ :=
  { cfg := { chem := 0, params := 0, type := type, backend := str!"pygmol" }, num := num, cores := cores, trajId := false,
    ret := none, ranges := none, steps := fun _ => [(1/2, str!"Ar")], sols := fun p j => some (10 * p + j) }

theorem args_good (num cores : ℕ) : (args num cores str!"species").Good where
  type := by simp [args]
  accepted := by simp [args, Args.accepted]
  backend := by simp only [args]; decide
  solves := by simp [args]

theorem new_ready (c : Cfg ℕ ℕ) : Ready c (Fs.new : Fs ℕ ℕ ℕ) := ⟨.inl ⟨rfl, rfl, rfl⟩, fun _ _ _ => rfl⟩

/-- the directory after the call -/
def fs1 : Fs ℕ ℕ ℕ := Fs.new.mkTraj (trajName 1)

theorem call_new (num cores : ℕ) (hc : cores ≠ 0) (type : Str) (ht : type ≠ str!"return_coefficients") :
    (args num cores type).call 0 Fs.new = (fs1, .ok (List.range' 1 num)) := by
  have hq : ∀ n i, queue (used (Fs.new : Fs ℕ ℕ ℕ)) 0 i n = List.range' i n := by
    intro n
    induction n with
    | zero => intro i; simp [queue]
    | succ n ih => intro i; rw [queue]; simp [ih, List.range'_succ]
  have hn : (Fs.new : Fs ℕ ℕ ℕ).nextId = some (trajName 1) := by decide +kernel
  unfold Args.call
  simp only [args, hn, hq, if_neg hc, ht, false_and, if_false]
  rfl

/-- whether the pool may let task `p` act now -/
def allowed {σ : Type} (num cores : ℕ) (w : World ℕ ℕ σ) (p : ℕ) : Bool :=
  decide (p < num) && (decide (Active (w.pc p)) || (decide (w.pc p = .start) && (List.range p).all (fun q => w.pc q ≠ .start) &&
    decide (((Finset.range num).filter fun q => Active (w.pc q)).card < cores)))

/-- a schedule, if the pool allows it -/
def exec {σ : Type} (job : ℕ → Job ℕ ℕ σ) (num cores : ℕ) : World ℕ ℕ σ → List ℕ → Option (World ℕ ℕ σ)
  | w, [] => some w
  | w, p :: l => if allowed num cores w p then exec job num cores (w.act job p) l else none

theorem exec_run {σ : Type} {job : ℕ → Job ℕ ℕ σ} {num cores : ℕ} {w0 : World ℕ ℕ σ} :
    ∀ {l : List ℕ} {w w' : World ℕ ℕ σ} {n : ℕ},
    PoolRun job num cores w0 n w → exec job num cores w l = some w' → ∃ m, PoolRun job num cores w0 m w'
  | [], w, w', n, h, he => by cases he; exact ⟨n, h⟩
  | p :: l, w, w', n, h, he => by
    rw [exec] at he
    split at he
    · rename_i ha
      refine exec_run (.step h ?_) he
      unfold allowed at ha
      simp only [Bool.and_eq_true, Bool.or_eq_true, decide_eq_true_eq, List.all_eq_true, List.mem_range] at ha
      obtain ⟨hp, ha | ⟨⟨hs, hq⟩, hc⟩⟩ := ha
      · exact .go p hp ha
      · exact .take p hp hs (fun q hqp => by simpa using hq q hqp) hc
    · cases he

/-- what can be seen of a world with two tasks -/
def view (w : World ℕ ℕ ℕ) : PC × PC × Option (File TrajMeta) × Option (File TrajMeta) :=
  (w.pc 0, w.pc 1, (w.fs.trajs (trajName 1)).info, (w.fs.trajs (trajName 2)).info)

/-- **C91, finding.** A batch of two trajectories with two workers, in a new directory, everything in order: the second worker
looks into the meta directory just when the first has opened a file there. `run_morris` returns without an error, and the
second trajectory is not there. -/
theorem trajectory_lost : ∃ (n : ℕ) (w : World ℕ ℕ ℕ),
    (args 2 2 str!"species").Good ∧ Ready (args 2 2 str!"species").cfg (Fs.new : Fs ℕ ℕ ℕ) ∧
    (args 2 2 str!"species").call 0 Fs.new = (fs1, .ok [1, 2]) ∧
    PoolRun ((args 2 2 str!"species").job [1, 2]) 2 2 ((args 2 2 str!"species").start fs1) n w ∧ AllOver 2 w ∧
    (w.fs.trajs (trajName 1)).info ≠ none ∧ (w.fs.trajs (trajName 2)).info = none := by
  have he : ((exec ((args 2 2 str!"species").job [1, 2]) 2 2 ((args 2 2 str!"species").start fs1)
      (List.replicate 13 0 ++ List.replicate 5 1 ++ List.replicate 5 0)).map fun w =>
        (decide (Over (w.pc 0) ∧ Over (w.pc 1)), (w.fs.trajs (trajName 1)).info.isSome,
          (w.fs.trajs (trajName 2)).info.isSome)) = some (true, true, false) := by decide +kernel
  obtain ⟨w, hw, hv⟩ := Option.map_eq_some_iff.1 he
  obtain ⟨m, hm⟩ := exec_run .refl hw
  simp only [Prod.mk.injEq, decide_eq_true_eq] at hv
  obtain ⟨⟨h0, h1⟩, h2, h3⟩ := hv
  refine ⟨m, w, args_good 2 2, new_ready _, call_new 2 2 (by decide) _ (by decide), hm, ?_, ?_, ?_⟩
  · intro p hp
    have : p = 0 ∨ p = 1 := by omega
    rcases this with rfl | rfl
    · exact h0
    · exact h1
  · rw [← Option.isSome_iff_ne_none]; exact h2
  · simpa using h3

/-- the step in which it is lost: the hypotheses of `batch_loss` can be met -/
example : ∃ (n : ℕ) (w w' : World ℕ ℕ ℕ),
    PoolRun ((args 2 2 str!"species").job [1, 2]) 2 2 ((args 2 2 str!"species").start fs1) n w ∧
    PoolStep ((args 2 2 str!"species").job [1, 2]) 2 2 w w' ∧ w.pc 1 ≠ .dead ∧ w'.pc 1 = .dead := by
  have he : ((exec ((args 2 2 str!"species").job [1, 2]) 2 2 ((args 2 2 str!"species").start fs1)
      (List.replicate 13 0 ++ List.replicate 4 1)).map fun w =>
        (decide (Active (w.pc 1)), decide (w.pc 1 = .dead),
          decide ((w.act ((args 2 2 str!"species").job [1, 2]) 1).pc 1 = .dead))) = some (true, false, true) := by
    decide +kernel
  obtain ⟨w, hw, hv⟩ := Option.map_eq_some_iff.1 he
  obtain ⟨m, hm⟩ := exec_run .refl hw
  simp only [Prod.mk.injEq, decide_eq_true_eq, decide_eq_false_iff_not] at hv
  exact ⟨m, w, _, hm, .go 1 (by decide) hv.1, hv.2.1, hv.2.2⟩

/-- two batches with one worker, of two trajectories and of one -/
example : ∃ fs : Fs ℕ ℕ ℕ, Batches (args 0 1 str!"species").cfg fs 2 := by
  have he : ((exec ((args 2 1 str!"species").job [1, 2]) 2 1 ((args 2 1 str!"species").start fs1)
      (List.replicate 18 0 ++ List.replicate 21 1)).map fun w =>
        decide (Over (w.pc 0) ∧ Over (w.pc 1))) = some true := by decide +kernel
  obtain ⟨w, hw, hv⟩ := Option.map_eq_some_iff.1 he
  obtain ⟨m, hm⟩ := exec_run .refl hw
  simp only [decide_eq_true_eq] at hv
  refine ⟨w.fs, ?_⟩
  have := Batches.batch (a := args 2 1 str!"species") (bound := 0) (w := w) .new rfl (args_good 2 1) rfl (fun _ _ => rfl)
    (call_new 2 1 (by decide) _ (by decide)) hm (by
      intro p hp
      have hp2 : p < 2 := hp
      have : p = 0 ∨ p = 1 := by omega
      rcases this with rfl | rfl
      · exact hv.1
      · exact hv.2)
  exact this

/-- a batch of a documented type that is not supported: the hypotheses of `batch_silent` -/
example : (args 3 2 str!"model_params").call 0 Fs.new = (fs1, .ok [1, 2, 3]) ∧
    str!"model_params" ∉ [str!"species", str!"reactions", str!"return_coefficients"] :=
  ⟨call_new 3 2 (by decide) _ (by decide), by decide⟩

/-- a machine with one processor: `cpu_count() - 1` workers are refused -/
example : (((args 3 0 str!"species").call 0 Fs.new).2 = .error .pool) :=
  (call_result (args 3 0 str!"species")).2.2.2.2.2.2 ⟨rfl, fun h => absurd h (by simp [args]), ⟨1, by omega, by omega, rfl⟩, rfl⟩

end Verif.Fwork.MorrisBatch.Demo
