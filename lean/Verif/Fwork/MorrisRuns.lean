/-
Model of pygmo_fwork/optichem/morris.py, part 4: the directory of a Morris run, as written by any number of processes
(C47, C65, C66).

The model is a transition system. Each process executes `run_trajectory` (morris.py:449-737 with `full_log=False`) one file
system operation at a time; between two operations any other process may act, and a process may die at any point
(exception, kill, power cut). Opening a file for writing and filling it are two operations. What a process computes (its
seed, steps and solutions) is given with the process. Simplifications: the existence checks and the creation of the
parent directories (352-368: run, meta and logs directory) are left out, a process that loses a race between `isdir` and
`mkdir` dies; yaml returns what was dumped, and a file that is missing or still empty is an exception for its reader.
-/
import Verif.Plaschem.Base
import Mathlib.Data.Rat.Defs
import Mathlib.Logic.Function.Basic

namespace Verif.Fwork.MorrisRuns
open Verif.Plaschem

/-! ### names -/

/-- `'{:0wd}'.format(i)` -/
def pad (w i : ℕ) : Str := List.replicate (w - (Nat.toDigits 10 i).length) '0' ++ Nat.toDigits 10 i

/-- morris.py:60 `'traj{:03d}'.format(i)` -/
def trajName (i : ℕ) : Str := str!"traj" ++ pad 3 i

/-- `len(str(n))` -/
def width (n : ℕ) : ℕ := (Nat.toDigits 10 n).length

/-! ### files -/

/-- a file: just opened for writing, or filled -/
inductive File (α : Type) where
  | opened
  | full (a : α)
deriving DecidableEq

/-- the directory of one model run: empty, or with its solution.csv -/
inductive RunDir (σ : Type) where
  | empty
  | sol (f : File σ)
deriving DecidableEq

/-- morris.py:702-709, 640: the meta data of a trajectory -/
structure TrajMeta where
  base : Str
  runs : List Str
  deltas : List ℚ
  factors : List Str
deriving DecidableEq

/-- the directory of one trajectory -/
structure TrajDir (σ : Type) where
  runs : Str → Option (RunDir σ)
  info : Option (File TrajMeta)

/-- what identifies the configuration of a Morris run: the state of the chemistry, the model parameters, the type of the
trajectories and the backend -/
structure Cfg (κ π : Type) where
  chem : κ
  params : π
  type : Str
  backend : Str
deriving DecidableEq

/-- the directory of one Morris run: which trajectory directories there are, what is in them (nothing in those that are
not there), and the three files in the meta directory -/
structure Fs (κ π σ : Type) where
  made : Str → Bool
  trajs : Str → TrajDir σ
  chem : Option (File κ)
  params : Option (File π)
  info : Option (File (Str × Str))

/-! ### processes -/

/-- one call of `run_trajectory`: its arguments and what it will compute. `steps` are the signed steps and the labels of
the changed factors; `sols j` is the solution of model run `j`, `none` if that run raises. -/
structure Job (κ π σ : Type) where
  cfg : Cfg κ π
  tid : Option Str
  steps : List (ℚ × Str)
  sols : ℕ → Option σ

variable {κ π σ : Type}

/-- morris.py:632, 694: the directory name of run `j` -/
def Job.name (J : Job κ π σ) (j : ℕ) : Str :=
  match j with
  | 0 => pad (width J.steps.length) 0 ++ str!"_initial_run"
  | j + 1 => pad (width J.steps.length) (j + 1) ++ str!"_elem_effect_of_" ++
      (match J.steps[j]? with
       | some s => s.2
       | none => [])

/-- morris.py:640, 702-709: the meta data the process will dump -/
def Job.info (J : Job κ π σ) : TrajMeta :=
  { base := J.name 0, runs := (List.range J.steps.length).map (fun j => J.name (j + 1)),
    deltas := J.steps.map Prod.fst, factors := J.steps.map Prod.snd }

/-- where a process is -/
inductive PC where
  /-- about to pick the trajectory id -/
  | start
  /-- about to check that there is no trajectory meta file yet -/
  | check (t : Str)
  /-- about to make the trajectory directory -/
  | mk (t : Str)
  /-- about to check the coherence with the run so far: look whether the meta directory is empty -/
  | coherence (t : Str)
  /-- about to read and compare file `k = 0, 1, 2` of the meta directory -/
  | reading (t : Str) (k : ℕ)
  /-- about to execute model run `j` and make its directory -/
  | mkRun (t : Str) (j : ℕ)
  | openSol (t : Str) (j : ℕ)
  | writeSol (t : Str) (j : ℕ)
  | openMeta (t : Str)
  | writeMeta (t : Str)
  /-- about to dump the meta data of the Morris run: `k = 0..5` open and fill the three files -/
  | dump (t : Str) (k : ℕ)
  | done (t : Str)
  | dead
deriving DecidableEq

/-! ### operations -/

/-- morris.py:371-382 `_get_next_traj_id`; `none` is the `MorrisLogError` -/
def Fs.nextId (fs : Fs κ π σ) : Option Str :=
  ((List.range' 1 998).map trajName).find? (fun t => (fs.trajs t).info.isNone)

def TrajDir.put (d : TrajDir σ) (r : Str) (v : RunDir σ) : TrajDir σ :=
  { runs := Function.update d.runs r (some v), info := d.info }

def Fs.setRun (fs : Fs κ π σ) (t r : Str) (v : RunDir σ) : Fs κ π σ :=
  { fs with trajs := Function.update fs.trajs t ((fs.trajs t).put r v) }

def Fs.setMeta (fs : Fs κ π σ) (t : Str) (v : File TrajMeta) : Fs κ π σ :=
  let d : TrajDir σ := { runs := (fs.trajs t).runs, info := some v }
  { fs with trajs := Function.update fs.trajs t d }

def Fs.mkTraj (fs : Fs κ π σ) (t : Str) : Fs κ π σ := { fs with made := Function.update fs.made t true }

/-- `str.lower` (ASCII) -/
def lower (s : Str) : Str := s.map Char.toLower

/-- morris.py:386-412 `_assert_coherence` if nobody else writes meanwhile: `true` if nothing is raised. The meta directory is
empty or the three files are there, readable, and agree. -/
def Fs.coherent [DecidableEq κ] [DecidableEq π] (fs : Fs κ π σ) (c : Cfg κ π) : Bool :=
  match fs.chem, fs.params, fs.info with
  | none, none, none => true
  | some (.full k), some (.full p), some (.full m) =>
    decide (k = c.chem ∧ p = c.params ∧ m.1 = c.type ∧ m.2 = c.backend)
  | _, _, _ => false

/-- one operation of the process -/
def act [DecidableEq κ] [DecidableEq π] (J : Job κ π σ) (fs : Fs κ π σ) : PC → Fs κ π σ × PC
  | .start =>
    match J.tid with
    | some t => (fs, .check t)
    | none =>
      match fs.nextId with
      | some t => (fs, .check t)
      | none => (fs, .dead)
  | .check t => (fs, if (fs.trajs t).info.isSome then .dead else .mk t)
  | .mk t => (fs.mkTraj t, .coherence t)
  | .coherence t => (fs, if fs.chem.isNone && fs.params.isNone && fs.info.isNone then .mkRun t 0 else .reading t 0)
  | .reading t 0 => (fs, if fs.chem = some (.full J.cfg.chem) then .reading t 1 else .dead)
  | .reading t 1 => (fs, if fs.params = some (.full J.cfg.params) then .reading t 2 else .dead)
  | .reading t _ => (fs, if fs.info = some (.full (J.cfg.type, J.cfg.backend)) then .mkRun t 0 else .dead)
  | .mkRun t j =>
    if (J.sols j).isSome ∧ ((fs.trajs t).runs (J.name j)).isNone then (fs.setRun t (J.name j) .empty, .openSol t j)
    else (fs, .dead)
  | .openSol t j => (fs.setRun t (J.name j) (.sol .opened), .writeSol t j)
  | .writeSol t j =>
    match J.sols j with
    | none => (fs, .dead)
    | some s => (fs.setRun t (J.name j) (.sol (.full s)), if j < J.steps.length then .mkRun t (j + 1) else .openMeta t)
  | .openMeta t => (fs.setMeta t .opened, .writeMeta t)
  | .writeMeta t => (fs.setMeta t (.full J.info), .dump t 0)
  | .dump t 0 => ({ fs with chem := some .opened }, .dump t 1)
  | .dump t 1 => ({ fs with chem := some (.full J.cfg.chem) }, .dump t 2)
  | .dump t 2 => ({ fs with params := some .opened }, .dump t 3)
  | .dump t 3 => ({ fs with params := some (.full J.cfg.params) }, .dump t 4)
  | .dump t 4 => ({ fs with info := some .opened }, .dump t 5)
  | .dump t _ => ({ fs with info := some (.full (J.cfg.type, lower J.cfg.backend)) }, .done t)
  | .done t => (fs, .done t)
  | .dead => (fs, .dead)

/-- the global state: the directory and where each process is (processes are numbered; all have yet to start at first) -/
structure World (κ π σ : Type) where
  fs : Fs κ π σ
  pc : ℕ → PC

def Fs.new : Fs κ π σ := { made := fun _ => false, trajs := fun _ => { runs := fun _ => none, info := none }, chem := none, params := none, info := none }

def World.init : World κ π σ := { fs := Fs.new, pc := fun _ => .start }

variable [DecidableEq κ] [DecidableEq π]

def World.act (job : ℕ → Job κ π σ) (w : World κ π σ) (p : ℕ) : World κ π σ :=
  { fs := (MorrisRuns.act (job p) w.fs (w.pc p)).1, pc := Function.update w.pc p (MorrisRuns.act (job p) w.fs (w.pc p)).2 }

def World.crash (w : World κ π σ) (p : ℕ) : World κ π σ := { w with pc := Function.update w.pc p .dead }

/-- any interleaving, deaths at any point -/
inductive Reach (job : ℕ → Job κ π σ) : World κ π σ → Prop
  | init : Reach job World.init
  | act {w : World κ π σ} (p : ℕ) : Reach job w → Reach job (w.act job p)
  | crash {w : World κ π σ} (p : ℕ) : Reach job w → Reach job (w.crash p)

/-! ### specification -/

/-- The trajectory directory holds exactly what one process computed: its meta data, and all solutions. -/
def Holds (J : Job κ π σ) (d : TrajDir σ) : Prop :=
  d.info = some (.full J.info) ∧ ∀ j ≤ J.steps.length, ∃ s, J.sols j = some s ∧ d.runs (J.name j) = some (.sol (.full s))

/-! ### the invariant -/

/-- the process is the one writing to trajectory `t` -/
def Owns (t : Str) : PC → Prop
  | .mkRun t' (_ + 1) => t' = t
  | .openSol t' _ => t' = t
  | .writeSol t' _ => t' = t
  | .openMeta t' => t' = t
  | .writeMeta t' => t' = t
  | _ => False

def SolsTo (J : Job κ π σ) (d : TrajDir σ) (k : ℕ) : Prop :=
  ∀ i < k, ∃ s, J.sols i = some s ∧ d.runs (J.name i) = some (.sol (.full s))

/-- what the owner has written so far -/
def Progress (J : Job κ π σ) (d : TrajDir σ) : PC → Prop
  | .mkRun _ j => SolsTo J d j ∧ d.info = none ∧ j ≤ J.steps.length
  | .openSol _ j => SolsTo J d j ∧ d.info = none ∧ j ≤ J.steps.length ∧ d.runs (J.name j) = some .empty
  | .writeSol _ j => SolsTo J d j ∧ d.info = none ∧ j ≤ J.steps.length ∧ d.runs (J.name j) = some (.sol .opened)
  | .openMeta _ => SolsTo J d (J.steps.length + 1) ∧ d.info = none
  | .writeMeta _ => SolsTo J d (J.steps.length + 1) ∧ d.info = some .opened
  | _ => True

structure Inv (job : ℕ → Job κ π σ) (B : Str) (w : World κ π σ) : Prop where
  base : ∀ t, (w.fs.trajs t).runs B = none → (∀ p, ¬ Owns t (w.pc p)) ∧ (w.fs.trajs t).info = none
  uniq : ∀ t p q, Owns t (w.pc p) → Owns t (w.pc q) → p = q
  prog : ∀ t p, Owns t (w.pc p) → Progress (job p) (w.fs.trajs t) (w.pc p)
  fin : ∀ t m, (w.fs.trajs t).info = some (.full m) → ∃ p, Holds (job p) (w.fs.trajs t)

omit [DecidableEq κ] [DecidableEq π] in
/-- steps that leave the trajectories alone and give up or never had ownership -/
theorem Inv.quiet {job : ℕ → Job κ π σ} {B : Str} {w w' : World κ π σ} (h : Inv job B w) {p : ℕ} {pc' : PC}
    (hpc : w'.pc = Function.update w.pc p pc') (hno : ∀ t, ¬ Owns t pc') (htr : w'.fs.trajs = w.fs.trajs) :
    Inv job B w' := by
  have hq : ∀ t q, Owns t (w'.pc q) → w'.pc q = w.pc q := by
    intro t q ho
    rw [hpc] at ho ⊢
    by_cases hqp : q = p
    · subst hqp
      rw [Function.update_self] at ho
      exact absurd ho (hno t)
    · rw [Function.update_of_ne hqp]
  refine ⟨fun t hb => ?_, fun t a b ha hb => ?_, fun t q ho => ?_, fun t m hm => ?_⟩
  · rw [htr] at hb ⊢
    refine ⟨fun q ho => (h.base t hb).1 q ?_, (h.base t hb).2⟩
    rw [hq t q ho] at ho; exact ho
  · have e1 := hq t a ha
    have e2 := hq t b hb
    rw [e1] at ha
    rw [e2] at hb
    exact h.uniq t a b ha hb
  · have e := hq t q ho
    rw [e] at ho ⊢
    rw [htr]
    exact h.prog t q ho
  · rw [htr] at hm ⊢
    exact h.fin t m hm

omit [DecidableEq κ] [DecidableEq π] in
/-- steps of the owner -/
theorem Inv.write {job : ℕ → Job κ π σ} {B : Str} {w w' : World κ π σ} (h : Inv job B w) {p : ℕ} {pc' : PC} {t : Str}
    {d : TrajDir σ} (hpc : w'.pc = Function.update w.pc p pc') (htr : w'.fs.trajs = Function.update w.fs.trajs t d)
    (hown : ∀ q, q ≠ p → ¬ Owns t (w.pc q)) (hothers : ∀ t', Owns t' pc' → t' = t)
    (hprog : Owns t pc' → Progress (job p) d pc') (hbase : d.runs B ≠ none)
    (hfin : ∀ m, d.info = some (.full m) → Holds (job p) d) : Inv job B w' := by
  have hpq : ∀ q, q ≠ p → w'.pc q = w.pc q := by intro q hq; rw [hpc, Function.update_of_ne hq]
  have hpp : w'.pc p = pc' := by rw [hpc, Function.update_self]
  have htt : w'.fs.trajs t = d := by rw [htr, Function.update_self]
  have htn : ∀ t', t' ≠ t → w'.fs.trajs t' = w.fs.trajs t' := by intro t' ht; rw [htr, Function.update_of_ne ht]
  refine ⟨fun t' hb => ?_, fun t' a b ha hb => ?_, fun t' q ho => ?_, fun t' m hm => ?_⟩
  · by_cases ht : t' = t
    · subst ht
      rw [htt] at hb
      exact absurd hb hbase
    · rw [htn t' ht] at hb ⊢
      refine ⟨fun q ho => ?_, (h.base t' hb).2⟩
      by_cases hq : q = p
      · subst hq
        rw [hpp] at ho
        exact ht (hothers t' ho)
      · rw [hpq q hq] at ho
        exact (h.base t' hb).1 q ho
  · by_cases hap : a = p
    · by_cases hbp : b = p
      · rw [hap, hbp]
      · rw [hap, hpp] at ha
        rw [hpq b hbp] at hb
        exact absurd (hothers t' ha ▸ hb) (hown b hbp)
    · rw [hpq a hap] at ha
      by_cases hbp : b = p
      · rw [hbp, hpp] at hb
        exact absurd (hothers t' hb ▸ ha) (hown a hap)
      · rw [hpq b hbp] at hb
        exact h.uniq t' a b ha hb
  · by_cases hq : q = p
    · subst hq
      rw [hpp] at ho ⊢
      have := hothers t' ho
      subst this
      rw [htt]
      exact hprog ho
    · rw [hpq q hq] at ho ⊢
      by_cases ht : t' = t
      · subst ht; exact absurd ho (hown q hq)
      · rw [htn t' ht]; exact h.prog t' q ho
  · by_cases ht : t' = t
    · subst ht
      rw [htt] at hm ⊢
      exact ⟨p, hfin m hm⟩
    · rw [htn t' ht] at hm ⊢
      exact h.fin t' m hm

omit [DecidableEq κ] [DecidableEq π] in
private theorem sols_set {J : Job κ π σ} {d : TrajDir σ} {k j : ℕ} {v : RunDir σ} (h : SolsTo J d k)
    (hne : ∀ s, d.runs (J.name j) ≠ some (.sol (.full s))) :
    SolsTo J (d.put (J.name j) v) k := by
  intro i hi
  obtain ⟨s, h1, h2⟩ := h i hi
  refine ⟨s, h1, ?_⟩
  simp only [TrajDir.put]
  rw [Function.update_of_ne, h2]
  intro hc
  rw [hc] at h2
  exact hne s h2

theorem inv_act {job : ℕ → Job κ π σ} {B : Str} (hB : ∀ p, (job p).name 0 = B) {w : World κ π σ} (h : Inv job B w) (p : ℕ) :
    Inv job B (w.act job p) := by
  have hpc : (w.act job p).pc = Function.update w.pc p (act (job p) w.fs (w.pc p)).2 := rfl
  have hfs : (w.act job p).fs = (act (job p) w.fs (w.pc p)).1 := rfl
  have hown : ∀ t, Owns t (w.pc p) → ∀ q, q ≠ p → ¬ Owns t (w.pc q) :=
    fun t ho q hq hq' => hq (h.uniq t q p hq' ho)
  have hbaseIn : ∀ t, Owns t (w.pc p) → (w.fs.trajs t).runs B ≠ none := fun t ho hn => (h.base t hn).1 p ho
  cases hp : w.pc p with
  | start =>
    rw [hp] at hpc hfs
    simp only [act] at hpc hfs
    cases ht : (job p).tid with
    | some t =>
      rw [ht] at hpc hfs
      exact h.quiet hpc (fun t ho => ho) (by rw [hfs])
    | none =>
      rw [ht] at hpc hfs
      simp only at hpc hfs
      cases hn : w.fs.nextId with
      | some t =>
        rw [hn] at hpc hfs
        exact h.quiet hpc (fun t ho => ho) (by rw [hfs])
      | none =>
        rw [hn] at hpc hfs
        exact h.quiet hpc (fun t ho => ho) (by rw [hfs])
  | check t =>
    rw [hp] at hpc hfs
    simp only [act] at hpc hfs
    refine h.quiet hpc (fun t ho => ?_) (by rw [hfs])
    split at ho <;> exact ho
  | mk t =>
    rw [hp] at hpc hfs
    exact h.quiet hpc (fun t ho => ho) (by rw [hfs]; rfl)
  | coherence t =>
    rw [hp] at hpc hfs
    simp only [act] at hpc hfs
    refine h.quiet hpc (fun t ho => ?_) (by rw [hfs])
    split at ho <;> exact ho
  | reading t k =>
    rw [hp] at hpc hfs
    rcases k with _ | _ | k <;> simp only [act] at hpc hfs <;>
      exact h.quiet hpc (fun t ho => by split at ho <;> exact ho) (by rw [hfs])
  | mkRun t j =>
    rw [hp] at hpc hfs
    simp only [act] at hpc hfs
    by_cases hc : ((job p).sols j).isSome ∧ ((w.fs.trajs t).runs ((job p).name j)).isNone
    · rw [if_pos hc] at hpc hfs
      have hnone : (w.fs.trajs t).runs ((job p).name j) = none := Option.isNone_iff_eq_none.1 hc.2
      have hpr : SolsTo (job p) (w.fs.trajs t) j ∧ (w.fs.trajs t).info = none ∧ j ≤ (job p).steps.length := by
        cases j with
        | zero =>
          rw [hB] at hnone
          exact ⟨fun i hi => absurd hi (Nat.not_lt_zero i), (h.base t hnone).2, Nat.zero_le _⟩
        | succ j =>
          have := h.prog t p (by rw [hp]; exact rfl)
          rw [hp] at this
          exact this
      refine h.write (t := t) hpc (by rw [hfs]; rfl) ?_ (fun t' ho => ho.symm) (fun _ => ?_) ?_ ?_
      · cases j with
        | zero =>
          rw [hB] at hnone
          exact fun q _ => (h.base t hnone).1 q
        | succ j => exact hown t (by rw [hp]; exact rfl)
      · refine ⟨sols_set hpr.1 (by rw [hnone]; intro s hs; cases hs), hpr.2.1, hpr.2.2, ?_⟩
        simp only [TrajDir.put, Function.update_self]
      · simp only [TrajDir.put]
        by_cases hBn : B = (job p).name j
        · rw [hBn, Function.update_self]; simp
        · rw [Function.update_of_ne hBn]
          cases j with
          | zero => exact absurd (hB p).symm hBn
          | succ j => exact hbaseIn t (by rw [hp]; exact rfl)
      · intro m hm
        simp only [TrajDir.put] at hm
        rw [hpr.2.1] at hm
        cases hm
    · rw [if_neg hc] at hpc hfs
      exact h.quiet hpc (fun t ho => ho) (by rw [hfs])
  | openSol t j =>
    have ho : Owns t (w.pc p) := by rw [hp]; exact rfl
    have hpr := h.prog t p ho
    rw [hp] at hpr hpc hfs
    obtain ⟨p1, p2, p3, p4⟩ := hpr
    refine h.write (t := t) hpc (by rw [hfs]; rfl) (hown t ho) (fun t' ho => ho.symm) (fun _ => ?_) ?_ ?_
    · refine ⟨sols_set p1 (by rw [p4]; intro s hs; cases hs), p2, p3, ?_⟩
      simp only [TrajDir.put, Function.update_self]
    · simp only [TrajDir.put]
      by_cases hBn : B = (job p).name j
      · rw [hBn, Function.update_self]; simp
      · rw [Function.update_of_ne hBn]; exact hbaseIn t ho
    · intro m hm
      simp only [TrajDir.put] at hm
      rw [p2] at hm
      cases hm
  | writeSol t j =>
    have ho : Owns t (w.pc p) := by rw [hp]; exact rfl
    have hpr := h.prog t p ho
    rw [hp] at hpr hpc hfs
    obtain ⟨p1, p2, p3, p4⟩ := hpr
    simp only [act] at hpc hfs
    cases hs : (job p).sols j with
    | none =>
      rw [hs] at hpc hfs
      exact h.quiet hpc (fun t ho => ho) (by rw [hfs])
    | some s =>
      rw [hs] at hpc hfs
      simp only at hpc hfs
      have hnew : SolsTo (job p) ((w.fs.trajs t).put ((job p).name j) (.sol (.full s))) (j + 1) := by
        intro i hi
        by_cases hij : i = j
        · subst hij
          exact ⟨s, hs, by simp only [TrajDir.put, Function.update_self]⟩
        · exact sols_set p1 (by rw [p4]; intro s hs; cases hs) i (by omega)
      refine h.write (t := t) hpc (by rw [hfs]; rfl) (hown t ho) (fun t' ho => ?_) (fun _ => ?_) ?_ ?_
      · split at ho <;> exact ho.symm
      · by_cases hj : j < (job p).steps.length
        · rw [if_pos hj]
          exact ⟨hnew, p2, by omega⟩
        · rw [if_neg hj]
          have : j = (job p).steps.length := by omega
          exact ⟨this ▸ hnew, p2⟩
      · simp only [TrajDir.put]
        by_cases hBn : B = (job p).name j
        · rw [hBn, Function.update_self]; simp
        · rw [Function.update_of_ne hBn]; exact hbaseIn t ho
      · intro m hm
        simp only [TrajDir.put] at hm
        rw [p2] at hm
        cases hm
  | openMeta t =>
    have ho : Owns t (w.pc p) := by rw [hp]; exact rfl
    have hpr := h.prog t p ho
    rw [hp] at hpr hpc hfs
    obtain ⟨p1, p2⟩ := hpr
    refine h.write (t := t) (d := ⟨(w.fs.trajs t).runs, some .opened⟩) hpc (by rw [hfs]; rfl) (hown t ho)
      (fun t' ho => ho.symm) (fun _ => ⟨p1, rfl⟩)
      (hbaseIn t ho) (fun m hm => by cases hm)
  | writeMeta t =>
    have ho : Owns t (w.pc p) := by rw [hp]; exact rfl
    have hpr := h.prog t p ho
    rw [hp] at hpr hpc hfs
    obtain ⟨p1, p2⟩ := hpr
    refine h.write (t := t) (d := ⟨(w.fs.trajs t).runs, some (.full (job p).info)⟩) hpc (by rw [hfs]; rfl) (hown t ho)
      (fun t' ho => ho.elim) (fun ho => ho.elim)
      (hbaseIn t ho) (fun m hm => ⟨rfl, fun j hj => p1 j (by omega)⟩)
  | dump t k =>
    rw [hp] at hpc hfs
    rcases k with _ | _ | _ | _ | _ | k <;>
      exact h.quiet hpc (fun t ho => ho) (by rw [hfs]; rfl)
  | done t =>
    rw [hp] at hpc hfs
    exact h.quiet hpc (fun t ho => ho) (by rw [hfs]; rfl)
  | dead =>
    rw [hp] at hpc hfs
    exact h.quiet hpc (fun t ho => ho) (by rw [hfs]; rfl)

theorem reach_inv {job : ℕ → Job κ π σ} {B : Str} (hB : ∀ p, (job p).name 0 = B) {w : World κ π σ} (h : Reach job w) :
    Inv job B w := by
  induction h with
  | init =>
    exact ⟨fun t _ => ⟨fun p ho => ho, rfl⟩, fun t p q ho => ho.elim, fun t p ho => ho.elim, fun t m hm => by cases hm⟩
  | act p _ ih => exact inv_act hB ih p
  | @crash w p _ ih => exact ih.quiet (p := p) (pc' := .dead) rfl (fun t ho => ho) rfl

/-- only the owner of a trajectory, and a process about to become the owner, writes to it -/
theorem act_trajs (J : Job κ π σ) (fs : Fs κ π σ) (pc : PC) (t : Str) (hno : ¬ Owns t pc)
    (hnew : pc = .mkRun t 0 → (fs.trajs t).runs (J.name 0) ≠ none) : (act J fs pc).1.trajs t = fs.trajs t := by
  cases pc with
  | start =>
    simp only [act]
    cases J.tid with
    | some t => rfl
    | none => simp only; cases fs.nextId <;> rfl
  | check t' => rfl
  | mk t' => rfl
  | coherence t' => rfl
  | reading t' k => rcases k with _ | _ | k <;> rfl
  | mkRun t' j =>
    simp only [act]
    by_cases hc : (J.sols j).isSome ∧ ((fs.trajs t').runs (J.name j)).isNone
    · rw [if_pos hc]
      have hne : t ≠ t' := by
        rintro rfl
        cases j with
        | zero => exact hnew rfl (Option.isNone_iff_eq_none.1 hc.2)
        | succ j => exact hno rfl
      exact Function.update_of_ne hne _ _
    · rw [if_neg hc]
  | openSol t' j => exact Function.update_of_ne (fun h => hno h.symm) _ _
  | writeSol t' j =>
    simp only [act]
    cases J.sols j with
    | none => rfl
    | some s => exact Function.update_of_ne (fun h => hno h.symm) _ _
  | openMeta t' => exact Function.update_of_ne (fun h => hno h.symm) _ _
  | writeMeta t' => exact Function.update_of_ne (fun h => hno h.symm) _ _
  | dump t' k => rcases k with _ | _ | _ | _ | _ | k <;> rfl
  | done t' => rfl
  | dead => rfl

/-! ### C65: finished trajectories -/

/-- Whatever the number of processes, their interleaving and their deaths, a trajectory with a complete meta file
holds exactly what one process computed: its meta data and the complete solution of every run listed there. (All processes
have numbers of factors with the same number of digits, as those of one configuration do.) -/
theorem finished_holds {job : ℕ → Job κ π σ} {k : ℕ} (hk : ∀ p, width (job p).steps.length = k) {w : World κ π σ}
    (h : Reach job w) {t : Str} {m : TrajMeta} (hm : (w.fs.trajs t).info = some (.full m)) :
    ∃ p, m = (job p).info ∧ Holds (job p) (w.fs.trajs t) := by
  have hB : ∀ p, (job p).name 0 = pad k 0 ++ str!"_initial_run" := by intro p; simp only [Job.name, hk p]
  obtain ⟨p, hp⟩ := (reach_inv hB h).fin t m hm
  refine ⟨p, ?_, hp⟩
  have := hp.1
  rw [hm] at this
  cases this; rfl

/-- **C65.** From then on it does not change, whatever any process does. -/
theorem finished_stable {job : ℕ → Job κ π σ} {k : ℕ} (hk : ∀ p, width (job p).steps.length = k) {w : World κ π σ}
    (h : Reach job w) {t : Str} {m : TrajMeta} (hm : (w.fs.trajs t).info = some (.full m)) (p : ℕ) :
    (w.act job p).fs.trajs t = w.fs.trajs t ∧ (w.crash p).fs.trajs t = w.fs.trajs t := by
  have hB : ∀ p, (job p).name 0 = pad k 0 ++ str!"_initial_run" := by intro p; simp only [Job.name, hk p]
  have hi := reach_inv hB h
  refine ⟨act_trajs _ _ _ _ ?_ ?_, rfl⟩
  · intro ho
    have hp := hi.prog t p ho
    cases hpc : w.pc p <;> rw [hpc] at hp ho <;> first
      | exact ho
      | (simp only [Progress, hm] at hp
         simp at hp)
  · intro _ hn
    rw [hB] at hn
    have := (hi.base t hn).2
    rw [hm] at this
    cases this

/-- A process that reports success has left its complete results, and they stay. -/
theorem done_holds {job : ℕ → Job κ π σ} {k : ℕ} (hk : ∀ p, width (job p).steps.length = k) {w : World κ π σ}
    (h : Reach job w) {p : ℕ} {t : Str} (hd : w.pc p = .done t ∨ ∃ j, w.pc p = .dump t j) : Holds (job p) (w.fs.trajs t) := by
  have hB : ∀ p, (job p).name 0 = pad k 0 ++ str!"_initial_run" := by intro p; simp only [Job.name, hk p]
  induction h with
  | init => rcases hd with hd | ⟨j, hd⟩ <;> cases hd
  | @act w q hr ih =>
    by_cases hq : q = p
    · subst hq
      have hpc : (w.act job q).pc q = (act (job q) w.fs (w.pc q)).2 := Function.update_self _ _ _
      rw [hpc] at hd
      by_cases hprev : w.pc q = .done t ∨ ∃ j, w.pc q = .dump t j
      · have ihh := ih hprev
        rw [(finished_stable hk hr ihh.1 q).1]
        exact ihh
      · -- the step is the writing of the meta file
        have hwm : w.pc q = .writeMeta t := by
          cases hc : w.pc q with
          | start =>
            rw [hc] at hd
            simp only [act] at hd
            cases ht : (job q).tid with
            | some t => rw [ht] at hd; simp at hd
            | none =>
              rw [ht] at hd
              simp only at hd
              cases hn : w.fs.nextId <;> rw [hn] at hd <;> simp at hd
          | check t' => rw [hc] at hd; simp only [act] at hd; split at hd <;> simp at hd
          | mk t' => rw [hc] at hd; simp [act] at hd
          | coherence t' => rw [hc] at hd; simp only [act] at hd; split at hd <;> simp at hd
          | reading t' k =>
            rw [hc] at hd
            rcases k with _ | _ | k <;> simp only [act] at hd <;> split at hd <;> simp at hd
          | mkRun t' j => rw [hc] at hd; simp only [act] at hd; split at hd <;> simp at hd
          | openSol t' j => rw [hc] at hd; simp [act] at hd
          | writeSol t' j =>
            rw [hc] at hd
            simp only [act] at hd
            cases hs : (job q).sols j with
            | none => rw [hs] at hd; simp at hd
            | some s => rw [hs] at hd; simp only at hd; split at hd <;> simp at hd
          | openMeta t' => rw [hc] at hd; simp [act] at hd
          | writeMeta t' =>
            rw [hc] at hd
            rcases hd with hd | ⟨j, hd⟩
            · cases hd
            · simp only [act] at hd; cases hd; rfl
          | dump t' k =>
            exfalso
            apply hprev
            right
            refine ⟨k, ?_⟩
            rw [hc] at hd
            rcases k with _ | _ | _ | _ | _ | k <;> rcases hd with hd | ⟨j, hd⟩ <;> first
              | (cases hd; exact hc)
              | cases hd
          | done t' =>
            exfalso
            apply hprev
            left
            rw [hc] at hd
            rcases hd with hd | ⟨j, hd⟩
            · cases hd; exact hc
            · cases hd
          | dead => rw [hc] at hd; simp [act] at hd
        have hpr := (reach_inv hB hr).prog t q (by rw [hwm]; exact rfl)
        rw [hwm] at hpr
        have htr : (w.act job q).fs.trajs t = ⟨(w.fs.trajs t).runs, some (.full (job q).info)⟩ := by
          show (act (job q) w.fs (w.pc q)).1.trajs t = _
          rw [hwm]
          exact Function.update_self _ _ _
        rw [htr]
        exact ⟨rfl, fun j hj => hpr.1 j (by omega)⟩
    · have hpc : (w.act job q).pc p = w.pc p := Function.update_of_ne (Ne.symm hq) _ _
      rw [hpc] at hd
      have ihh := ih hd
      rw [(finished_stable hk hr ihh.1 q).1]
      exact ihh
  | @crash w q hr ih =>
    by_cases hq : q = p
    · subst hq
      have hpc : (w.crash q).pc q = .dead := Function.update_self _ _ _
      rw [hpc] at hd
      simp at hd
    · have hpc : (w.crash q).pc p = w.pc p := Function.update_of_ne (Ne.symm hq) _ _
      rw [hpc] at hd
      exact ih hd

/-- the process has made the first run directory of `t` -/
def Claims (t : Str) : PC → Prop
  | .dump t' _ => t' = t
  | .done t' => t' = t
  | pc => Owns t pc

theorem act_claims (J : Job κ π σ) (fs : Fs κ π σ) (pc : PC) (t : Str) (hc : Claims t (act J fs pc).2) :
    Claims t pc ∨ (pc = .mkRun t 0 ∧ (fs.trajs t).runs (J.name 0) = none ∧
      (act J fs pc).1 = fs.setRun t (J.name 0) .empty) := by
  cases pc with
  | start =>
    simp only [act] at hc
    cases ht : J.tid with
    | some t => rw [ht] at hc; exact hc.elim
    | none =>
      rw [ht] at hc
      simp only at hc
      cases hn : fs.nextId <;> rw [hn] at hc <;> exact hc.elim
  | check t' => simp only [act] at hc; split at hc <;> exact hc.elim
  | mk t' => exact hc.elim
  | coherence t' => simp only [act] at hc; split at hc <;> exact hc.elim
  | reading t' k => rcases k with _ | _ | k <;> simp only [act] at hc <;> split at hc <;> exact hc.elim
  | mkRun t' j =>
    simp only [act] at hc ⊢
    split at hc
    · rename_i hcond
      cases j with
      | zero =>
        have ht : t' = t := hc
        subst ht
        right
        rw [if_pos hcond]
        exact ⟨rfl, Option.isNone_iff_eq_none.1 hcond.2, rfl⟩
      | succ j => left; exact hc
    · exact hc.elim
  | openSol t' j => left; exact hc
  | writeSol t' j =>
    left
    simp only [act] at hc
    cases hs : J.sols j with
    | none => rw [hs] at hc; exact hc.elim
    | some s =>
      rw [hs] at hc
      simp only at hc
      split at hc
      · exact hc
      · exact hc
  | openMeta t' => left; exact hc
  | writeMeta t' => left; exact hc
  | dump t' k => left; rcases k with _ | _ | _ | _ | _ | k <;> exact hc
  | done t' => left; exact hc
  | dead => exact hc.elim

/-- directories are never removed -/
theorem act_keeps (J : Job κ π σ) (fs : Fs κ π σ) (pc : PC) (t r : Str) (h : (fs.trajs t).runs r ≠ none) :
    ((act J fs pc).1.trajs t).runs r ≠ none := by
  have hset : ∀ t' r' v, ((fs.setRun t' r' v).trajs t).runs r ≠ none := by
    intro t' r' v
    unfold Fs.setRun
    simp only
    by_cases ht : t = t'
    · subst ht
      rw [Function.update_self]
      unfold TrajDir.put
      simp only
      by_cases hr : r = r'
      · subst hr; rw [Function.update_self]; simp
      · rw [Function.update_of_ne hr]; exact h
    · rw [Function.update_of_ne ht]; exact h
  have hmeta : ∀ t' v, ((fs.setMeta t' v).trajs t).runs r ≠ none := by
    intro t' v
    unfold Fs.setMeta
    simp only
    by_cases ht : t = t'
    · subst ht
      rw [Function.update_self]; exact h
    · rw [Function.update_of_ne ht]; exact h
  cases pc with
  | start =>
    simp only [act]
    cases J.tid with
    | some t => exact h
    | none => simp only; cases fs.nextId <;> exact h
  | check t' => exact h
  | mk t' => exact h
  | coherence t' => exact h
  | reading t' k => rcases k with _ | _ | k <;> exact h
  | mkRun t' j =>
    simp only [act]
    split
    · exact hset _ _ _
    · exact h
  | openSol t' j => exact hset _ _ _
  | writeSol t' j =>
    simp only [act]
    cases J.sols j with
    | none => exact h
    | some s => exact hset _ _ _
  | openMeta t' => exact hmeta _ _
  | writeMeta t' => exact hmeta _ _
  | dump t' k => rcases k with _ | _ | _ | _ | _ | k <;> exact h
  | done t' => exact h
  | dead => exact h

theorem reach_claims {job : ℕ → Job κ π σ} {B : Str} (hB : ∀ p, (job p).name 0 = B) {w : World κ π σ} (h : Reach job w) :
    (∀ t p, Claims t (w.pc p) → (w.fs.trajs t).runs B ≠ none) ∧
    (∀ t p q, Claims t (w.pc p) → Claims t (w.pc q) → p = q) := by
  induction h with
  | init => exact ⟨fun t p hc => hc.elim, fun t p q hc => hc.elim⟩
  | @act w r _ ih =>
    obtain ⟨i1, i2⟩ := ih
    have hr : (w.act job r).pc r = (act (job r) w.fs (w.pc r)).2 := Function.update_self _ _ _
    have hne : ∀ p, p ≠ r → (w.act job r).pc p = w.pc p := fun p hp => Function.update_of_ne hp _ _
    have hfs : (w.act job r).fs = (act (job r) w.fs (w.pc r)).1 := rfl
    constructor
    · intro t p hc
      by_cases hp : p = r
      · subst hp
        rw [hr] at hc
        rcases act_claims _ _ _ _ hc with hc | ⟨h1, h2, h3⟩
        · rw [hfs]; exact act_keeps _ _ _ _ _ (i1 t p hc)
        · rw [hfs, h3]
          simp only [Fs.setRun, Function.update_self, TrajDir.put, hB]
          simp
      · rw [hne p hp] at hc
        rw [hfs]; exact act_keeps _ _ _ _ _ (i1 t p hc)
    · have key : ∀ t q, q ≠ r → Claims t ((w.act job r).pc r) → ¬ Claims t ((w.act job r).pc q) := by
        intro t q hq hc hc'
        rw [hr] at hc
        rw [hne q hq] at hc'
        rcases act_claims _ _ _ _ hc with hc | ⟨h1, h2, h3⟩
        · exact hq (i2 t q r hc' hc)
        · rw [hB] at h2; exact i1 t q hc' h2
      intro t p q hp hq
      by_cases h1 : p = r
      · by_cases h2 : q = r
        · rw [h1, h2]
        · exact absurd hq (key t q h2 (h1 ▸ hp))
      · by_cases h2 : q = r
        · exact absurd hp (key t p h1 (h2 ▸ hq))
        · rw [hne p h1] at hp
          rw [hne q h2] at hq
          exact i2 t p q hp hq
  | @crash w r _ ih =>
    have hr : (w.crash r).pc r = .dead := Function.update_self _ _ _
    have hne : ∀ p, p ≠ r → (w.crash r).pc p = w.pc p := fun p hp => Function.update_of_ne hp _ _
    have key : ∀ t p, Claims t ((w.crash r).pc p) → Claims t (w.pc p) := by
      intro t p hc
      by_cases hp : p = r
      · subst hp; rw [hr] at hc; exact hc.elim
      · rw [hne p hp] at hc; exact hc
    exact ⟨fun t p hc => ih.1 t p (key t p hc), fun t p q hp hq => ih.2 t p q (key t p hp) (key t q hq)⟩

/-- **C65.** No two processes that report success have used the same trajectory id, even if they picked it at the same
time. -/
theorem done_distinct {job : ℕ → Job κ π σ} {k : ℕ} (hk : ∀ p, width (job p).steps.length = k) {w : World κ π σ}
    (h : Reach job w) {p q : ℕ} {t : Str} (hp : w.pc p = .done t) (hq : w.pc q = .done t) : p = q := by
  have hB : ∀ p, (job p).name 0 = pad k 0 ++ str!"_initial_run" := by intro p; simp only [Job.name, hk p]
  exact (reach_claims hB h).2 t p q (by rw [hp]; exact rfl) (by rw [hq]; exact rfl)

/-! ### C47: identifiers -/

theorem pad_value (w i : ℕ) : Nat.ofDigitChars 10 (pad w i) 0 = i := by
  unfold pad
  rw [Nat.ofDigitChars_append, Nat.ofDigitChars_replicate_zero, Nat.mul_zero, Nat.ofDigitChars_ten_toDigits]

theorem pad_injective (w : ℕ) {i j : ℕ} (h : pad w i = pad w j) : i = j := by
  rw [← pad_value w i, ← pad_value w j, h]

theorem trajName_injective {i j : ℕ} (h : trajName i = trajName j) : i = j :=
  pad_injective 3 (List.append_cancel_left h)

omit [DecidableEq κ] [DecidableEq π] in
/-- **C47.** The automatic identifier is the one with the lowest index from 1 to 998 that has no meta file; there is none
exactly if all of these have one. -/
theorem next_id (fs : Fs κ π σ) :
    (∀ t, fs.nextId = some t → ∃ i, 1 ≤ i ∧ i ≤ 998 ∧ t = trajName i ∧ (fs.trajs t).info = none ∧
      ∀ j, 1 ≤ j → j < i → (fs.trajs (trajName j)).info ≠ none) ∧
    (fs.nextId = none ↔ ∀ i, 1 ≤ i → i ≤ 998 → (fs.trajs (trajName i)).info ≠ none) := by
  constructor
  · intro t ht
    unfold Fs.nextId at ht
    rw [List.find?_map] at ht
    obtain ⟨i, hi, rfl⟩ := Option.map_eq_some_iff.1 ht
    rw [List.find?_range'_eq_some] at hi
    obtain ⟨h1, h2, h3⟩ := hi
    rw [List.mem_range'_1] at h2
    refine ⟨i, by omega, by omega, rfl, ?_, fun j hj1 hj2 hn => ?_⟩
    · simpa using h1
    · have := h3 j hj1 hj2
      simp [hn] at this
  · unfold Fs.nextId
    rw [List.find?_eq_none]
    constructor
    · intro h i h1 h2 hn
      have := h (trajName i) (List.mem_map_of_mem (List.mem_range'_1.2 ⟨h1, by omega⟩))
      simp [hn] at this
    · intro h t ht
      obtain ⟨i, hi, rfl⟩ := List.mem_map.1 ht
      rw [List.mem_range'_1] at hi
      have := h i (by omega) (by omega)
      simpa using this

/-- morris.py:765-772: the queue `run_morris` builds; `bound` is beyond all indices in use (there are finitely many
directories), which makes the loop end -/
def queue (used : ℕ → Bool) (bound : ℕ) (i n : ℕ) : List ℕ :=
  match n with
  | 0 => []
  | n + 1 =>
    if h : used i = true ∧ i < bound then queue used bound (i + 1) (n + 1)
    else i :: queue used bound (i + 1) n
termination_by (n, bound - i)
decreasing_by
  · exact Prod.Lex.right _ (by omega)
  · exact Prod.Lex.left _ _ (by omega)

/-- **C47.** The identifiers of a batch: as many as asked for, all distinct, none in use, and the lowest such. -/
theorem queue_ok {used : ℕ → Bool} {bound : ℕ} (hb : ∀ i, bound ≤ i → used i = false) (i n : ℕ) :
    (queue used bound i n).length = n ∧ (queue used bound i n).Pairwise (· < ·) ∧
    (∀ j ∈ queue used bound i n, i ≤ j ∧ used j = false) ∧
    ∀ j, i ≤ j → used j = false → j ∉ queue used bound i n → ∀ k ∈ queue used bound i n, k < j := by
  induction i, n using queue.induct used bound with
  | case1 i => simp [queue]
  | case2 i n h ih =>
    obtain ⟨h1, h2, h3, h4⟩ := ih
    rw [queue, dif_pos h]
    refine ⟨h1, h2, fun j hj => ⟨by have := (h3 j hj).1; omega, (h3 j hj).2⟩, fun j hj hu hn => ?_⟩
    by_cases hij : j = i
    · subst hij; rw [h.1] at hu; cases hu
    · exact h4 j (by omega) hu hn
  | case3 i n h ih =>
    obtain ⟨h1, h2, h3, h4⟩ := ih
    have hi : used i = false := by
      by_cases hlt : i < bound
      · cases hc : used i with
        | false => rfl
        | true => exact absurd ⟨hc, hlt⟩ h
      · exact hb i (by omega)
    rw [queue, dif_neg h]
    refine ⟨by simp [h1], List.pairwise_cons.2 ⟨fun j hj => by have := (h3 j hj).1; omega, h2⟩, ?_, ?_⟩
    · intro j hj
      rcases List.mem_cons.1 hj with rfl | hj
      · exact ⟨le_refl _, hi⟩
      · exact ⟨by have := (h3 j hj).1; omega, (h3 j hj).2⟩
    · intro j hj hu hn k hk
      rw [List.mem_cons, not_or] at hn
      rcases List.mem_cons.1 hk with rfl | hk
      · omega
      · exact h4 j (by omega) hu hn.2 k hk

example : queue (fun i => decide (i = 2 ∨ i = 3)) 4 1 3 = [1, 4, 5] := by simp [queue]

end Verif.Fwork.MorrisRuns
