/-
Property C111: the statistics of a Morris run as they are read from its directory (pygmo_fwork/optichem/morris.py:793-929), for
any history of processes that wrote to it.
-/
import Verif.Fwork.MorrisBatchHist
import Verif.Fwork.MorrisRank
import Mathlib.Data.List.Perm.Basic

namespace Verif.Fwork.MorrisEval
open Verif.Plaschem Verif.Fwork Verif.Fwork.MorrisRuns Verif.Fwork.MorrisStats Verif.Fwork.MorrisBatch

/-! ### Model -/

/-- a factor in a meta file: an id or a name -/
inductive Label where
  | int (n : ℕ)
  | text (s : Str)
deriving DecidableEq

/-- morris.py:697-700: `isnumeric()` for ASCII, then `int()`. (MorrisRuns keeps the text in the meta file; what is dumped and read
back is its label.) -/
def label (s : Str) : Label :=
  if s ≠ [] ∧ ∀ c ∈ s, c.isDigit = true then .int (Nat.ofDigitChars 10 s 0) else .text s

/-- what the evaluation raises because of the files -/
inductive EvErr where
  /-- `FileNotFoundError`: there is no meta file -/
  | noMeta
  /-- `TypeError`: the meta file is empty -/
  | emptyMeta
  /-- `ResultsNotFoundError` -/
  | noSolution
  /-- `EmptyDataError`: the file with the solution is empty -/
  | emptySolution
deriving DecidableEq

/-- results.py:141-166 `fetch_solution` from the directory of a trajectory -/
def readRun (d : TrajDir Sol) (r : Str) : Except EvErr Sol :=
  match d.runs r with
  | some (.sol (.full s)) => .ok s
  | some (.sol .opened) => .error .emptySolution
  | _ => .error .noSolution

/-- morris.py:816-819: the solutions of the runs, one after the other -/
def readRuns (d : TrajDir Sol) : List Str → Except EvErr (List Sol)
  | [] => .ok []
  | r :: l =>
    match readRun d r with
    | .error e => .error e
    | .ok s =>
      match readRuns d l with
      | .error e => .error e
      | .ok ss => .ok (s :: ss)

/-- morris.py:806-819 `evaluate_trajectory`, the part that reads files. (The results at the times are then taken as in
MorrisStats; the code does that between the files, which only matters for which of two exceptions is raised.) -/
noncomputable def readTraj (d : TrajDir Sol) : Except EvErr (Traj Label) :=
  match d.info with
  | none => .error .noMeta
  | some .opened => .error .emptyMeta
  | some (.full m) =>
    match readRun d m.base with
    | .error e => .error e
    | .ok b =>
      match readRuns d m.runs with
      | .error e => .error e
      | .ok rs => .ok { base := b, runs := rs, deltas := m.deltas.map (fun x : ℚ => (x : ℝ)), labels := m.factors.map label }

variable {κ π : Type}

/-- morris.py:888-890: all trajectories that are listed -/
noncomputable def readAll (fs : Fs κ π Sol) : List Str → Except EvErr (List (Traj Label))
  | [] => .ok []
  | t :: l =>
    match readTraj (fs.trajs t) with
    | .error e => .error e
    | .ok d =>
      match readAll fs l with
      | .error e => .error e
      | .ok ds => .ok (d :: ds)

/-- morris.py:844-929 `get_morris_stats` for one time and one output, `ds` being what `glob` lists -/
noncomputable def morrisStats (fs : Fs κ π Sol) (ds : List Str) (t : ℝ) (o : String) : Except (EvErr ⊕ ErrErr) (Stat Label) :=
  match readAll fs ds with
  | .error e => .error (.inl e)
  | .ok trajs =>
    match stats trajs t o with
    | .error e => .error (.inr e)
    | .ok s => .ok s

/-! ### Specification -/

/-- morris.py:882-885: `glob('*')` lists the trajectory directories, those beginning with a dot excepted, each once (the code sorts
them; what follows holds for every order) -/
structure Listing (fs : Fs κ π Sol) (ds : List Str) : Prop where
  nodup : ds.Nodup
  mem : ∀ t, t ∈ ds ↔ fs.made t = true ∧ t.head? ≠ some '.'

/-- What is analysed: the solution as a function of the factors, and the ids of the factors. -/
structure Study (n : ℕ) where
  model : (Fin n → ℚ) → Sol
  fid : Fin n → Str

/-- a trajectory: the seed and the steps -/
abbrev Path (n : ℕ) := (Fin n → ℚ) × List (Morris.Step n)

/-- the vector of factors of run `j` -/
def Path.point {n : ℕ} (w : Path n) : ℕ → Option (Fin n → ℚ)
  | 0 => some w.1
  | j + 1 => (w.2[j]?).map Morris.Step.x

/-- The call `J` of `run_trajectory` is one of the study: a seed on the grid, factors in some order, and in each run that does not
raise the solution at the vector of factors. -/
structure IsCall {n : ℕ} (A : Study n) (J : Job κ π Sol) (w : Path n) : Prop where
  seed : ∀ i, w.1 i ∈ Morris.Setup.code.grid
  walk : ∃ choices : List (Fin n × Bool), (choices.map Prod.fst).Perm (List.finRange n) ∧
    Morris.Setup.code.trajectory choices w.1 = (w.2, none)
  steps : J.steps = w.2.map fun s => (s.delta, A.fid s.factor)
  sols : ∀ j x s, w.point j = some x → J.sols j = some s → s = A.model x

/-- `q` is the elementary effect of factor `i` on the trajectory: the difference quotient of `y` over the step of that factor. -/
def Effect {n : ℕ} (y : (Fin n → ℚ) → ℝ) (w : Path n) (i : Fin n) (q : ℝ) : Prop :=
  ∃ l₁ s l₂, w.2 = l₁ ++ s :: l₂ ∧ s.factor = i ∧ q = (y s.x - y ((l₁.map Morris.Step.x).getLastD w.1)) / s.delta

/-- the trajectory is finished -/
def Finished (d : TrajDir Sol) : Prop := ∃ m, d.info = some (.full m)

/-- later worlds: any interleaving, deaths at any point -/
inductive Later [DecidableEq κ] [DecidableEq π] (job : ℕ → Job κ π Sol) (w : World κ π Sol) : World κ π Sol → Prop
  | now : Later job w w
  | act {w' : World κ π Sol} (p : ℕ) : Later job w w' → Later job w (w'.act job p)
  | crash {w' : World κ π Sol} (p : ℕ) : Later job w w' → Later job w (w'.crash p)

/-! ### Labels -/

/-- **C111.** Ids of reactions get different labels, and so do names that are not numbers. -/
theorem label_spec : (∀ i : ℕ, label (Nat.toDigits 10 i) = .int i) ∧
    (∀ s : Str, (∃ c ∈ s, c.isDigit = false) → label s = .text s) := by
  constructor
  · intro i
    unfold label
    rw [if_pos ⟨Nat.toDigits_ne_nil, fun c hc => Nat.isDigit_of_mem_toDigits (by decide) (by decide) hc⟩,
      Nat.ofDigitChars_ten_toDigits]
  · rintro s ⟨c, hc, hd⟩
    unfold label
    rw [if_neg]
    rintro ⟨-, h⟩
    rw [h c hc] at hd
    cases hd

/-! ### One trajectory -/

/-- **C111.** A solution is read exactly if its file is there and complete; otherwise the evaluation raises. -/
theorem solution_iff {d : TrajDir Sol} {r : Str} {s : Sol} : readRun d r = .ok s ↔ d.runs r = some (.sol (.full s)) := by
  unfold readRun
  constructor
  · intro h
    split at h
    · rename_i s' h'
      cases h
      exact h'
    · cases h
    · cases h
  · intro h; rw [h]

theorem readRuns_ok {d : TrajDir Sol} : ∀ {l : List Str} {ss : List Sol}, readRuns d l = .ok ss ↔
    List.Forall₂ (fun r s => readRun d r = .ok s) l ss
  | [], ss => by
    rw [readRuns, List.forall₂_nil_left_iff]
    exact ⟨fun h => (by cases h; rfl), fun h => (by rw [h])⟩
  | r :: l, ss => by
    rw [readRuns]
    cases h1 : readRun d r with
    | error e =>
      simp only
      refine ⟨fun h => (by cases h), fun h => ?_⟩
      cases h with
      | cons h _ => rw [h1] at h; cases h
    | ok s =>
      simp only
      cases h2 : readRuns d l with
      | error e =>
        refine ⟨fun h => (by cases h), fun h => ?_⟩
        cases h with
        | cons _ h => rw [← readRuns_ok, h2] at h; cases h
      | ok rs =>
        simp only
        constructor
        · intro h; cases h; exact .cons h1 (readRuns_ok.1 h2)
        · intro h
          cases h with
          | cons h h' =>
            rw [h1] at h; cases h
            rw [← readRuns_ok, h2] at h'; cases h'
            rfl

theorem readAll_ok {fs : Fs κ π Sol} : ∀ {l : List Str} {ds : List (Traj Label)}, readAll fs l = .ok ds ↔
    List.Forall₂ (fun t d => readTraj (fs.trajs t) = .ok d) l ds
  | [], ds => by
    rw [readAll, List.forall₂_nil_left_iff]
    exact ⟨fun h => (by cases h; rfl), fun h => (by rw [h])⟩
  | t :: l, ds => by
    rw [readAll]
    cases h1 : readTraj (fs.trajs t) with
    | error e =>
      simp only
      refine ⟨fun h => (by cases h), fun h => ?_⟩
      cases h with
      | cons h _ => rw [h1] at h; cases h
    | ok s =>
      simp only
      cases h2 : readAll fs l with
      | error e =>
        refine ⟨fun h => (by cases h), fun h => ?_⟩
        cases h with
        | cons _ h => rw [← readAll_ok, h2] at h; cases h
      | ok rs =>
        simp only
        constructor
        · intro h; cases h; exact .cons h1 (readAll_ok.1 h2)
        · intro h
          cases h with
          | cons h h' =>
            rw [h1] at h; cases h
            rw [← readAll_ok, h2] at h'; cases h'
            rfl

theorem IsCall.walks {n : ℕ} (hn : 2 ≤ n) {A : Study n} {J : Job κ π Sol} {w : Path n} (h : IsCall A J w) :
    Morris.Walk (1 / 2) w.1 w.2 ∧ Each w.2 ∧ w.2.length = n := by
  obtain ⟨choices, h1, h2⟩ := h.walk
  obtain ⟨l, e, g1, g2, g3, -⟩ := Morris.trajectory_code hn h1 h.seed
  rw [h2] at e
  injection e with e _
  subst e
  exact ⟨g3, g2, g1⟩

/-- a complete trajectory is read as it was logged -/
theorem read_complete {n : ℕ} {A : Study n} {J : Job κ π Sol} {w : Path n} (h : IsCall A J w) {m : TrajMeta} {d : TrajDir Sol}
    (hc : Complete J m d) : ∃ T, readTraj d = .ok T ∧ Logged A.model (fun i => label (A.fid i)) w.1 w.2 T := by
  obtain ⟨s0, b1, b2⟩ := hc.base
  have hlen : m.runs.length = w.2.length := by rw [hc.length, h.steps, List.length_map]
  have hb : readRun d m.base = .ok (A.model w.1) := by
    unfold readRun; rw [b2, h.sols 0 _ _ rfl b1]
  have hr : readRuns d m.runs = .ok (w.2.map fun s => A.model s.x) := by
    rw [readRuns_ok, List.forall₂_iff_get]
    refine ⟨by rw [List.length_map, hlen], fun j h1 h2 => ?_⟩
    obtain ⟨s, r1, r2⟩ := hc.run j h1
    have hj : j < w.2.length := by omega
    have hp : w.point (j + 1) = some w.2[j].x := by
      simp only [Path.point, List.getElem?_eq_getElem hj, Option.map_some]
    simp only [List.get_eq_getElem, List.getElem_map]
    unfold readRun
    rw [r2, h.sols _ _ _ hp r1]
  refine ⟨{ base := A.model w.1, runs := w.2.map fun s => A.model s.x, deltas := w.2.map fun s => (s.delta : ℝ),
            labels := w.2.map fun s => label (A.fid s.factor) }, ?_, ?_⟩
  · unfold readTraj
    rw [hc.listed]
    simp only [hb, hr, hc.deltas, hc.factors, h.steps, List.map_map, Function.comp_def]
  · exact ⟨rfl, rfl, rfl, rfl⟩

set_option linter.unusedSectionVars false

section
variable [DecidableEq κ] [DecidableEq π]

/-- **C111.** Whatever processes have run or been killed: a trajectory can be read exactly if it is finished, and then it is read as
the trajectory of one of the calls. -/
theorem readable_iff {n : ℕ} (hn : 2 ≤ n) {A : Study n} {job : ℕ → Job κ π Sol} {walk : ℕ → Path n}
    (hcall : ∀ p, IsCall A (job p) (walk p)) {w : World κ π Sol} (hr : Reach job w) (t : Str) :
    ((∃ T, readTraj (w.fs.trajs t) = .ok T) ↔ Finished (w.fs.trajs t)) ∧
    (∀ T, readTraj (w.fs.trajs t) = .ok T → ∃ p m, Complete (job p) m (w.fs.trajs t) ∧
      Logged A.model (fun i => label (A.fid i)) (walk p).1 (walk p).2 T) ∧
    ∀ p, w.pc p = .done t → ∃ T, readTraj (w.fs.trajs t) = .ok T ∧
      Logged A.model (fun i => label (A.fid i)) (walk p).1 (walk p).2 T := by
  have hk : ∀ p, width (job p).steps.length = width n := fun p => by
    rw [(hcall p).steps, List.length_map, ((hcall p).walks hn).2.2]
  have fin : Finished (w.fs.trajs t) → ∃ p m T, Complete (job p) m (w.fs.trajs t) ∧ readTraj (w.fs.trajs t) = .ok T ∧
      Logged A.model (fun i => label (A.fid i)) (walk p).1 (walk p).2 T := by
    rintro ⟨m, hm⟩
    obtain ⟨p, hp⟩ := finished_complete hk hr hm
    obtain ⟨T, h1, h2⟩ := read_complete (hcall p) hp
    exact ⟨p, m, T, hp, h1, h2⟩
  have conv : ∀ T, readTraj (w.fs.trajs t) = .ok T → Finished (w.fs.trajs t) := by
    intro T hT
    unfold readTraj at hT
    cases hi : (w.fs.trajs t).info with
    | none => rw [hi] at hT; cases hT
    | some f =>
      cases f with
      | opened => rw [hi] at hT; cases hT
      | full m => exact ⟨m, hi⟩
  refine ⟨⟨fun ⟨T, hT⟩ => conv T hT, fun h => ?_⟩, fun T hT => ?_, fun p hd => ?_⟩
  · obtain ⟨p, m, T, -, h1, -⟩ := fin h
    exact ⟨T, h1⟩
  · obtain ⟨p, m, T', hp, h1, h2⟩ := fin (conv T hT)
    rw [hT] at h1
    cases h1
    exact ⟨p, m, hp, h2⟩
  · obtain ⟨m, hm⟩ := done_complete hk hr hd
    exact read_complete (hcall p) hm

/-- **C111.** The evaluation of the run gets through its files exactly if every listed trajectory is finished, and then it works
on a sample of walks, one for each directory. -/
theorem evaluation_iff {n : ℕ} (hn : 2 ≤ n) {A : Study n} {job : ℕ → Job κ π Sol} {walk : ℕ → Path n}
    (hcall : ∀ p, IsCall A (job p) (walk p)) {w : World κ π Sol} (hr : Reach job w) {ds : List Str} (hds : Listing w.fs ds) :
    ((∃ trajs, readAll w.fs ds = .ok trajs) ↔
      ∀ t, w.fs.made t = true → t.head? ≠ some '.' → Finished (w.fs.trajs t)) ∧
    ∀ trajs, readAll w.fs ds = .ok trajs → ∃ walks : List (Path n), walks.length = ds.length ∧
      (∀ v ∈ walks, ∃ p, v = walk p) ∧ Sample A.model (fun i => label (A.fid i)) (1 / 2) walks trajs := by
  constructor
  · constructor
    · rintro ⟨trajs, h⟩ t h1 h2
      have hm := (hds.mem t).2 ⟨h1, h2⟩
      rw [readAll_ok] at h
      obtain ⟨j, hj, rfl⟩ := List.mem_iff_getElem.1 hm
      have hj' : j < trajs.length := by rw [← h.length_eq]; exact hj
      exact (readable_iff hn hcall hr _).1.1 ⟨_, (List.forall₂_iff_get.1 h).2 j hj hj'⟩
    · intro h
      have hall : ∀ t ∈ ds, ∃ T, readTraj (w.fs.trajs t) = .ok T := fun t ht =>
        (readable_iff hn hcall hr t).1.2 (h t ((hds.mem t).1 ht).1 ((hds.mem t).1 ht).2)
      clear h hds
      induction ds with
      | nil => exact ⟨[], rfl⟩
      | cons t l ih =>
        obtain ⟨T, hT⟩ := hall t (List.mem_cons_self ..)
        obtain ⟨ts, hts⟩ := ih fun s hs => hall s (List.mem_cons_of_mem _ hs)
        exact ⟨T :: ts, by rw [readAll, hT]; simp only [hts]⟩
  · intro trajs h
    rw [readAll_ok] at h
    clear hds
    induction h with
    | nil => exact ⟨[], rfl, fun v hv => (by cases hv), .nil⟩
    | @cons t T ds trajs hT _ ih =>
      obtain ⟨walks, h1, h2, h3⟩ := ih
      obtain ⟨p, m, -, hl⟩ := (readable_iff hn hcall hr t).2.1 T hT
      refine ⟨walk p :: walks, by simp [h1], ?_, .cons ⟨((hcall p).walks hn).1, ((hcall p).walks hn).2.1, hl⟩ h3⟩
      intro v hv
      rcases List.mem_cons.1 hv with rfl | hv
      · exact ⟨p, rfl⟩
      · exact h2 v hv

/-- nothing in a directory that has its first run and no process at work changes -/
private theorem abandoned_step {job : ℕ → Job κ π Sol} {B : Str} (hB : ∀ p, (job p).name 0 = B) {w : World κ π Sol} {t : Str}
    (hb : (w.fs.trajs t).runs B ≠ none) (hno : ∀ p, ¬ Owns t (w.pc p)) (p : ℕ) :
    (w.act job p).fs.trajs t = w.fs.trajs t ∧ ∀ q, ¬ Owns t ((w.act job p).pc q) := by
  refine ⟨act_trajs _ _ _ _ (hno p) fun _ => by rw [hB]; exact hb, fun q => ?_⟩
  by_cases hq : q = p
  · subst hq
    have : (w.act job q).pc q = (act (job q) w.fs (w.pc q)).2 := Function.update_self _ _ _
    rw [this]
    have hn := hno q
    cases hpc : w.pc q with
    | start =>
      simp only [act]
      cases (job q).tid with
      | some t' => exact fun h => h
      | none => simp only; cases w.fs.nextId <;> exact fun h => h
    | check t' => simp only [act]; split <;> exact fun h => h
    | mk t' => exact fun h => h
    | coherence t' => simp only [act]; split <;> exact fun h => h
    | reading t' k => rcases k with _ | _ | k <;> simp only [act] <;> split <;> exact fun h => h
    | mkRun t' j =>
      rw [hpc] at hn
      simp only [act]
      split
      · rename_i hc
        intro ho
        have ho : t' = t := ho
        subst ho
        cases j with
        | zero =>
          rw [hB] at hc
          exact hb (by simpa using hc.2)
        | succ j => exact hn rfl
      · exact fun h => h
    | openSol t' j => rw [hpc] at hn; exact hn
    | writeSol t' j =>
      rw [hpc] at hn
      simp only [act]
      cases (job q).sols j with
      | none => exact fun h => h
      | some s =>
        simp only
        split <;> exact hn
    | openMeta t' => rw [hpc] at hn; exact hn
    | writeMeta t' => exact fun h => h
    | dump t' k => rcases k with _ | _ | _ | _ | _ | k <;> exact fun h => h
    | done t' => exact fun h => h
    | dead => exact fun h => h
  · have : (w.act job p).pc q = w.pc q := Function.update_of_ne hq _ _
    rw [this]
    exact hno q

private theorem made_act (J : Job κ π Sol) (fs : Fs κ π Sol) (pc : PC) (t : Str) :
    (act J fs pc).1.made t = true ↔ fs.made t = true ∨ pc = .mk t := by
  cases pc with
  | start =>
    simp only [act]
    cases J.tid with
    | some t' => simp
    | none => simp only; cases fs.nextId <;> simp
  | check t' => simp [act]
  | mk t' =>
    simp only [act, Fs.mkTraj, Function.update_apply, PC.mk.injEq]
    by_cases h : t = t'
    · subst h; simp
    · rw [if_neg h]
      exact ⟨.inl, fun h' => h'.elim id fun e => absurd e.symm h⟩
  | coherence t' => simp [act]
  | reading t' k => rcases k with _ | _ | k <;> simp [act]
  | mkRun t' j => simp only [act]; split <;> simp [Fs.setRun]
  | openSol t' j => simp [act, Fs.setRun]
  | writeSol t' j => simp only [act]; cases J.sols j <;> simp [Fs.setRun]
  | openMeta t' => simp [act, Fs.setMeta]
  | writeMeta t' => simp [act, Fs.setMeta]
  | dump t' k => rcases k with _ | _ | _ | _ | _ | k <;> simp [act]
  | done t' => simp [act]
  | dead => simp [act]

/-- **C111.** What the evaluation of a trajectory raises, after any history: `FileNotFoundError` without a meta file, `TypeError` if
the file is still empty, and nothing else. -/
theorem reading_errors {n : ℕ} (hn : 2 ≤ n) {A : Study n} {job : ℕ → Job κ π Sol} {walk : ℕ → Path n}
    (hcall : ∀ p, IsCall A (job p) (walk p)) {w : World κ π Sol} (hr : Reach job w) (t : Str) (e : EvErr) :
    readTraj (w.fs.trajs t) = .error e ↔ (e = .noMeta ∧ (w.fs.trajs t).info = none) ∨
      (e = .emptyMeta ∧ (w.fs.trajs t).info = some .opened) := by
  cases hi : (w.fs.trajs t).info with
  | none => unfold readTraj; rw [hi]; simp [eq_comm]
  | some f =>
    cases f with
    | opened => unfold readTraj; rw [hi]; simp [eq_comm]
    | full m =>
      obtain ⟨T, hT⟩ := (readable_iff hn hcall hr t).1.2 ⟨m, hi⟩
      rw [hT]
      simp

/-- **C111.** One trajectory that is not finished makes the evaluation of all of them raise. -/
theorem unfinished_raises {fs : Fs κ π Sol} {ds : List Str} (hds : Listing fs ds) {t : Str} (hmade : fs.made t = true)
    (hdot : t.head? ≠ some '.') (hfin : ¬ Finished (fs.trajs t)) : ∃ e, readAll fs ds = .error e := by
  cases h : readAll fs ds with
  | error e => exact ⟨e, rfl⟩
  | ok trajs =>
    exfalso
    rw [readAll_ok] at h
    obtain ⟨j, hj, rfl⟩ := List.mem_iff_getElem.1 ((hds.mem t).2 ⟨hmade, hdot⟩)
    have hT := (List.forall₂_iff_get.1 h).2 j hj (by rw [← h.length_eq]; exact hj)
    simp only [List.get_eq_getElem] at hT
    unfold readTraj at hT
    cases hi : (fs.trajs ds[j]).info with
    | none => rw [hi] at hT; cases hT
    | some f =>
      cases f with
      | opened => rw [hi] at hT; cases hT
      | full m => exact hfin ⟨m, hi⟩

/-- **C111, finding.** If a process is killed (or a model run raises) after the directory of its first run was made, the whole Morris
run can never be evaluated again, whatever is run later: its directory stays as it is and the evaluation raises. -/
theorem abandoned_forever {job : ℕ → Job κ π Sol} {k : ℕ} (hk : ∀ p, width (job p).steps.length = k) {w : World κ π Sol} {t : Str}
    (hmade : w.fs.made t = true) (hdot : t.head? ≠ some '.')
    (hbase : (w.fs.trajs t).runs (pad k 0 ++ str!"_initial_run") ≠ none) (hfin : ¬ Finished (w.fs.trajs t))
    (hno : ∀ p, ¬ Owns t (w.pc p)) {w' : World κ π Sol} (hl : Later job w w') {ds : List Str} (hds : Listing w'.fs ds) :
    w'.fs.trajs t = w.fs.trajs t ∧ ∃ e, readAll w'.fs ds = .error e := by
  have hB : ∀ p, (job p).name 0 = pad k 0 ++ str!"_initial_run" := by intro p; simp only [Job.name, hk p]
  have key : w'.fs.trajs t = w.fs.trajs t ∧ (∀ p, ¬ Owns t (w'.pc p)) ∧ w'.fs.made t = true := by
    clear hds
    induction hl with
    | now => exact ⟨rfl, hno, hmade⟩
    | @act w' p _ ih =>
      obtain ⟨i1, i2, i3⟩ := ih
      obtain ⟨h1, h2⟩ := abandoned_step hB (by rw [i1]; exact hbase) i2 p
      exact ⟨h1.trans i1, h2, (made_act _ _ _ _).2 (.inl i3)⟩
    | @crash w' p _ ih =>
      obtain ⟨i1, i2, i3⟩ := ih
      refine ⟨i1, fun q => ?_, i3⟩
      by_cases hq : q = p
      · subst hq
        have : (w'.crash q).pc q = .dead := Function.update_self _ _ _
        rw [this]; exact fun h => h
      · have : (w'.crash p).pc q = w'.pc q := Function.update_of_ne hq _ _
        rw [this]; exact i2 q
  exact ⟨key.1, unfinished_raises hds key.2.2 hdot (by rw [key.1]; exact hfin)⟩

/-! ### Statistics of any history -/

private theorem along_effect {n : ℕ} {y : (Fin n → ℚ) → ℝ} {i : Fin n} {q : ℝ} : ∀ {l : List (Morris.Step n)} {x : Fin n → ℚ},
    (i, q) ∈ along y x l → Effect y (x, l) i q
  | [], _, h => by cases h
  | s :: l, x, h => by
    rw [along, List.mem_cons] at h
    rcases h with h | h
    · simp only [Prod.mk.injEq] at h
      exact ⟨[], s, l, rfl, h.1.symm, h.2⟩
    · obtain ⟨l₁, s', l₂, h1, h2, h3⟩ := along_effect h
      refine ⟨s :: l₁, s', l₂, ?_, h2, ?_⟩
      · simp only at h1 ⊢; rw [h1]; rfl
      · rw [h3, List.map_cons, List.getLastD_cons]

/-- the effects of a factor, one per trajectory -/
private theorem group_effects {n : ℕ} {model : (Fin n → ℚ) → Sol} {lab : Fin n → Label} (hlab : Function.Injective lab) {h : ℚ}
    {walks : List (Path n)} {trajs : List (Traj Label)} (hs : Sample model lab h walks trajs)
    {t : ℝ} {o : String} {y : (Fin n → ℚ) → ℝ} (hy : Outputs model t o walks y) {s : Stat Label}
    (hst : stats trajs t o = .ok s) (i : Fin n) : List.Forall₂ (fun v q => Effect y v i q) walks (s.group (lab i)) := by
  have key : ∃ es, mapE (fun d => d.effects t o) trajs = .ok es ∧
      List.Forall₂ (fun v q => Effect y v i q) walks ((es.flatten.filter fun e => e.1 = lab i).map Prod.snd) := by
    clear hst
    induction hs with
    | nil => exact ⟨[], rfl, .nil⟩
    | @cons v d walks trajs hd hs ih =>
      obtain ⟨es, h1, h2⟩ := ih fun v hv => hy v (List.mem_cons_of_mem _ hv)
      have e0 := effects_ok hd.2.2 (hy v (List.mem_cons_self ..))
      refine ⟨((along y v.1 v.2).map fun e => (lab e.1, e.2)) :: es, ?_, ?_⟩
      · rw [mapE, e0, h1]
      · obtain ⟨q, hq, hm⟩ := effects_group hlab y v.1 hd.2.1 i
        rw [List.flatten_cons, List.filter_append, List.map_append, hq]
        exact .cons (along_effect hm) h2
  obtain ⟨es, h1, h2⟩ := key
  unfold stats at hst
  split at hst
  · cases hst
  rw [means_ok hs hy, h1] at hst
  simp only at hst
  split at hst
  · cases hst
  cases hst
  exact h2

/-- **C111.** From files to statistics, after any history of processes of a study (any interleaving, any deaths), if every listed
trajectory is finished: the mean output is that over the walks, and mu and sigma of a factor are the mean and the sample standard
deviation of the elementary effects of that factor on the trajectories, each a difference quotient of the model. -/
theorem history_stats {n : ℕ} (hn : 2 ≤ n) {A : Study n} (hfid : Function.Injective fun i => label (A.fid i))
    {job : ℕ → Job κ π Sol} {walk : ℕ → Path n} (hcall : ∀ p, IsCall A (job p) (walk p)) {w : World κ π Sol} (hr : Reach job w)
    {ds : List Str} (hds : Listing w.fs ds) (hne : ds ≠ [])
    (hfin : ∀ t, w.fs.made t = true → t.head? ≠ some '.' → Finished (w.fs.trajs t)) {t : ℝ} {o : String} {y : (Fin n → ℚ) → ℝ}
    (hy : ∀ p, Output A.model t o (walk p).1 (walk p).2 y) :
    ∃ walks : List (Path n), walks.length = ds.length ∧ (∀ v ∈ walks, ∃ p, v = walk p) ∧
      (grandMean y walks ≠ 0 → ∃ s, morrisStats w.fs ds t o = .ok s ∧ s.mean = grandMean y walks ∧
        ∀ i, ∃ g : List ℝ, List.Forall₂ (fun v q => Effect y v i q) walks g ∧ (∀ q ∈ g, Quotient y (1 / 2) i q) ∧
          s.mu (label (A.fid i)) = g.sum / ds.length ∧ s.sigma (label (A.fid i)) = std g) := by
  obtain ⟨h1, h2⟩ := evaluation_iff hn hcall hr hds
  obtain ⟨trajs, ht⟩ := h1.2 hfin
  obtain ⟨walks, w1, w2, w3⟩ := h2 trajs ht
  have hlen : trajs.length = ds.length := by rw [← w3.length_eq, w1]
  have hout : Outputs A.model t o walks y := fun v hv => by
    obtain ⟨p, rfl⟩ := w2 v hv
    exact hy p
  refine ⟨walks, w1, w2, fun h0 => ?_⟩
  have hnt : trajs ≠ [] := fun e => hne (by rw [← List.length_eq_zero_iff, ← hlen, e]; rfl)
  obtain ⟨s, s1, s2, -⟩ := stats_spec hfid w3 hnt hout h0
  refine ⟨s, by unfold morrisStats; rw [ht]; simp only [s1], s2, fun i => ?_⟩
  obtain ⟨g1, -, -, g4⟩ := group_spec hfid w3 hout s1 i
  refine ⟨s.group (label (A.fid i)), group_effects hfid w3 hout s1 i, g4, ?_, rfl⟩
  unfold Stat.mu avg
  rw [g1, hlen]

/-! ### Batches -/

/-- Batches with one worker one after the other, all of one study and configuration, beginning in a new directory, each of one
trajectory at least. `walks` are the trajectories in the order of their numbers. -/
inductive Analysis {n : ℕ} (A : Study n) (c : Cfg κ π) : Fs κ π Sol → List (Path n) → Prop
  | new : Analysis A c Fs.new []
  | batch {fs fs1 : Fs κ π Sol} {walks ws : List (Path n)} {a : Args κ π Sol} {bound : ℕ} {ids : List ℕ} {w : World κ π Sol} {m : ℕ} :
      Analysis A c fs walks → a.cfg = c → a.Good → a.cores = 1 → ws.length = a.num → ws ≠ [] →
      (∀ (p : ℕ) (h : p < ws.length), IsCall A (a.job ids p) ws[p]) →
      (∀ i, bound ≤ i → (fs.trajs (trajName i)).info = none) →
      a.call bound fs = (fs1, .ok ids) → PoolRun (a.job ids) a.num a.cores (a.start fs1) m w → AllOver a.num w →
      Analysis A c w.fs (walks ++ ws)

/-- every trajectory is that of a call -/
theorem Analysis.calls {n : ℕ} {A : Study n} {c : Cfg κ π} {fs : Fs κ π Sol} {walks : List (Path n)} (h : Analysis A c fs walks) :
    ∀ v ∈ walks, ∃ J : Job κ π Sol, IsCall A J v := by
  induction h with
  | new => intro v hv; cases hv
  | batch _ _ _ _ _ _ hcall _ _ _ _ ih =>
    intro v hv
    rcases List.mem_append.1 hv with hv | hv
    · exact ih v hv
    · obtain ⟨p, hp, rfl⟩ := List.mem_iff_getElem.1 hv
      exact ⟨_, hcall p hp⟩

/-- the process has made its directory -/
def Past (t : Str) : PC → Prop
  | .start => False
  | .check _ => False
  | .mk _ => False
  | .coherence t' => t' = t
  | .reading t' _ => t' = t
  | .mkRun t' _ => t' = t
  | .openSol t' _ => t' = t
  | .writeSol t' _ => t' = t
  | .openMeta t' => t' = t
  | .writeMeta t' => t' = t
  | .dump t' _ => t' = t
  | .done t' => t' = t
  | .dead => False

private theorem past_act (J : Job κ π Sol) (fs : Fs κ π Sol) (pc : PC) (t : Str) (h : Past t (act J fs pc).2) :
    pc = .mk t ∨ Past t pc := by
  cases pc with
  | start =>
    simp only [act] at h
    cases ht : J.tid with
    | some t' => rw [ht] at h; exact h.elim
    | none => rw [ht] at h; simp only at h; cases hx : fs.nextId <;> rw [hx] at h <;> exact h.elim
  | check t' => simp only [act] at h; split at h <;> exact h.elim
  | mk t' => have h : t' = t := h; exact .inl (by rw [h])
  | coherence t' => simp only [act] at h; split at h <;> exact .inr h
  | reading t' k => rcases k with _ | _ | k <;> simp only [act] at h <;> split at h <;> first | exact .inr h | exact h.elim
  | mkRun t' j => simp only [act] at h; split at h <;> first | exact .inr h | exact h.elim
  | openSol t' j => exact .inr h
  | writeSol t' j =>
    simp only [act] at h
    cases hs : J.sols j with
    | none => rw [hs] at h; exact h.elim
    | some s => rw [hs] at h; simp only at h; split at h <;> exact .inr h
  | openMeta t' => exact .inr h
  | writeMeta t' => exact .inr h
  | dump t' k => rcases k with _ | _ | _ | _ | _ | k <;> exact .inr h
  | done t' => exact .inr h
  | dead => exact h.elim

/-- the directories there are after a batch -/
theorem batch_made {a : Args κ π Sol} {bound : ℕ} {fs fs1 : Fs κ π Sol}
    (hb : ∀ i, bound ≤ i → (fs.trajs (trajName i)).info = none) {ids : List ℕ} (h : a.call bound fs = (fs1, .ok ids))
    {w : World κ π Sol} {n : ℕ} (hr : PoolRun (a.job ids) a.num a.cores (a.start fs1) n w) :
    (∀ t, fs1.made t = true → w.fs.made t = true) ∧
    (∀ t, w.fs.made t = true → fs1.made t = true ∨ ∃ p < a.num, t = dirOf ids p) ∧
    ∀ p < a.num, ∀ t, Past t (w.pc p) → w.fs.made t = true := by
  obtain ⟨c1, -, -, c4, c5, c6, -⟩ := call_ids hb h
  induction hr with
  | refl =>
    refine ⟨fun t ht => ht, fun t ht => .inl ht, fun p _ t hp => ?_⟩
    simp only [Args.start] at hp
    split at hp <;> exact hp.elim
  | @step n w w' hr hst ih =>
    obtain ⟨i1, i2, i3⟩ := ih
    have hi := batch_inv c4 c5 (fun i hi => (c6 i hi).2) c1 hr
    obtain ⟨p, hp, rfl, -⟩ := hst.inv
    have hmade : ∀ t, (w.act (a.job ids) p).fs.made t = true ↔ w.fs.made t = true ∨ w.pc p = .mk t := fun t => made_act _ _ _ t
    refine ⟨fun t ht => (hmade t).2 (.inl (i1 t ht)), fun t ht => ?_, fun q hq t hpast => ?_⟩
    · rcases (hmade t).1 ht with ht | ht
      · exact i2 t ht
      · have := hi.here p hp
        rw [ht] at this
        exact .inr ⟨p, hp, this.1⟩
    · rw [hmade]
      by_cases hqp : q = p
      · subst hqp
        have hpc : (w.act (a.job ids) q).pc q = (act (a.job ids q) w.fs (w.pc q)).2 := Function.update_self _ _ _
        rw [hpc] at hpast
        rcases past_act _ _ _ _ hpast with hc | hc
        · exact .inr hc
        · exact .inl (i3 q hq t hc)
      · have hpc : (w.act (a.job ids) p).pc q = w.pc q := Function.update_of_ne hqp _ _
        rw [hpc] at hpast
        exact .inl (i3 q hq t hpast)

private theorem call_made {a : Args κ π Sol} {bound : ℕ} {fs fs1 : Fs κ π Sol} {ids : List ℕ} (h : a.call bound fs = (fs1, .ok ids)) :
    ∃ t, fs.nextId = some t ∧ fs1 = fs.mkTraj t := by
  unfold Args.call at h
  split at h
  · cases h
  · split at h
    · cases h
    · split at h
      · cases h
      · rename_i t ht
        injection h with h1 h2
        exact ⟨t, ht, h1.symm⟩

/-- the directory after a series of batches -/
private theorem analysis_inv {n : ℕ} {A : Study n} {c : Cfg κ π} {fs : Fs κ π Sol} {walks : List (Path n)} (h : Analysis A c fs walks) :
    Ready c fs ∧ (∀ (i : ℕ) (hi : i < walks.length), ∃ (J : Job κ π Sol) (m : TrajMeta), IsCall A J walks[i] ∧
      Complete J m (fs.trajs (trajName (i + 1)))) ∧
    (∀ i, walks.length < i → (fs.trajs (trajName i)).info = none) ∧
    ∀ t, fs.made t = true ↔ ∃ i < walks.length, t = trajName (i + 1) := by
  induction h with
  | new =>
    refine ⟨⟨.inl ⟨rfl, rfl, rfl⟩, fun _ _ _ => rfl⟩, fun i hi => (by cases hi), fun _ _ => rfl, fun t => ?_⟩
    constructor
    · intro h; cases h
    · rintro ⟨i, hi, -⟩; cases hi
  | @batch fs fs1 walks ws a bound ids w m _ hcfg hg hcores hlen hne hcall hb hca hr ho ih =>
    obtain ⟨i1, i2, i3, i4⟩ := ih
    subst hcfg
    obtain ⟨r1, r2, r3⟩ := one_worker hg hcores.le i1 hb hca hr ho
    obtain ⟨b1, b2, b3⟩ := batch_made hb hca hr
    have hal := one_worker_alive hg hcores.le i1 hb hca hr
    obtain ⟨q1, -⟩ := batch_result hb hca hr ho
    obtain ⟨-, -, -, c4, c5, c6, c7⟩ := call_ids hb hca
    have hN : ∀ i ∈ ids, walks.length < i := by
      intro i hi
      by_contra hle
      obtain ⟨h1, h2⟩ := c6 i hi
      obtain ⟨J, m, -, hm⟩ := i2 (i - 1) (by omega)
      rw [Nat.sub_add_cancel h1] at hm
      rw [hm.listed] at h2
      cases h2
    have hids := ids_next c5 hN fun j hj => c7 j (by omega) (i3 j hj)
    rw [c4] at hids
    have hget : ∀ p (hp : p < ids.length), ids[p] = walks.length + p + 1 := by
      have e : ids = List.range' (walks.length + 1) ids.length := by
        refine List.Perm.eq_of_pairwise (le := (· < ·)) (fun a b _ _ h1 h2 => absurd h1 (Nat.lt_asymm h2)) c5
          List.pairwise_lt_range' ?_
        rw [List.perm_ext_iff_of_nodup (c5.imp Nat.ne_of_lt) List.nodup_range']
        intro i
        rw [hids, List.mem_range'_1, c4]
        omega
      intro p hp
      have := List.getElem_of_eq e hp
      rw [this, List.getElem_range']
      omega
    have hdir : ∀ p < a.num, dirOf ids p = trajName (walks.length + p + 1) := by
      intro p hp
      unfold dirOf
      rw [List.getD_eq_getElem?_getD, List.getElem?_eq_getElem (by omega), Option.getD_some, hget]
    have hout : ∀ i, i ∉ ids → w.fs.trajs (trajName i) = fs.trajs (trajName i) := by
      intro i hi
      refine r2 _ fun p hp e => hi ?_
      rw [trajName_injective e]
      exact dirOf_mem c4 hp
    have hfresh : fs1.trajs = fs.trajs := (call_ids hb hca).1
    refine ⟨r3, fun i hi => ?_, fun i hi => ?_, fun t => ?_⟩
    · by_cases hin : i < walks.length
      · rw [hout (i + 1) fun hc => by have := (hids _).1 hc; omega, List.getElem_append_left hin]
        exact i2 i hin
      · rw [List.length_append] at hi
        have hp : i - walks.length < a.num := by omega
        obtain ⟨m, hm⟩ := r1 _ hp
        rw [hdir _ hp, show walks.length + (i - walks.length) = i by omega] at hm
        rw [List.getElem_append_right (by omega)]
        exact ⟨_, m, hcall _ (by omega), hm⟩
    · rw [List.length_append] at hi
      rw [hout i fun hc => by have := (hids i).1 hc; omega]
      exact i3 i (by omega)
    · rw [List.length_append]
      have hpos : 0 < ws.length := List.length_pos_iff.2 hne
      constructor
      · intro ht
        rcases b2 t ht with ht | ⟨p, hp, rfl⟩
        · obtain ⟨u, hu, rfl⟩ := call_made hca
          simp only [Fs.mkTraj, Function.update_apply] at ht
          by_cases htu : t = u
          · subst htu
            obtain ⟨i, h1, -, rfl, h4, h5⟩ := (next_id fs).1 t hu
            have h6 : ¬ walks.length + 1 < i := fun hlt => h5 _ (by omega) hlt (i3 _ (by omega))
            exact ⟨i - 1, by omega, by rw [Nat.sub_add_cancel h1]⟩
          · rw [if_neg htu] at ht
            obtain ⟨i, hi, rfl⟩ := (i4 t).1 ht
            exact ⟨i, by omega, rfl⟩
        · exact ⟨walks.length + p, by omega, hdir p hp⟩
      · rintro ⟨i, hi, rfl⟩
        by_cases hin : i < walks.length
        · apply b1
          obtain ⟨u, hu, rfl⟩ := call_made hca
          simp only [Fs.mkTraj, Function.update_apply]
          split
          · rfl
          · exact (i4 _).2 ⟨i, hin, rfl⟩
        · have hp : i - walks.length < a.num := by omega
          rcases q1 _ hp with ⟨hd, -⟩ | ⟨hd, -⟩
          · rw [hdir _ hp, show walks.length + (i - walks.length) = i by omega] at hd
            exact b3 _ hp _ (by rw [hd]; exact rfl)
          · exact absurd hd (hal _ hp)

/-- **C111.** After any number of batches with one worker (each of one trajectory at least) the evaluation reads, in whatever order
the directories are listed, exactly the trajectories that were asked for, each once. -/
theorem analysis_reads {n : ℕ} (hn : 2 ≤ n) {A : Study n} {c : Cfg κ π} {fs : Fs κ π Sol} {walks : List (Path n)}
    (h : Analysis A c fs walks) {ds : List Str} (hds : Listing fs ds) :
    ∃ trajs walks', readAll fs ds = .ok trajs ∧ walks'.Perm walks ∧
      Sample A.model (fun i => label (A.fid i)) (1 / 2) walks' trajs := by
  obtain ⟨-, h2, -, h4⟩ := analysis_inv h
  have hdot : ∀ i, (trajName i).head? ≠ some '.' := fun i => by simp [trajName]
  set L := (List.range walks.length).map fun i => trajName (i + 1) with hL
  have hperm : L.Perm ds := by
    rw [List.perm_ext_iff_of_nodup (List.pairwise_map.2 (List.nodup_range.imp fun hne e => hne (by
      have := trajName_injective e; omega))) hds.nodup]
    intro t
    rw [hds.mem, h4]
    simp only [List.mem_map, List.mem_range]
    constructor
    · rintro ⟨i, hi, rfl⟩
      exact ⟨⟨i, hi, rfl⟩, hdot _⟩
    · rintro ⟨⟨i, hi, rfl⟩, -⟩
      exact ⟨i, hi, rfl⟩
  have hf : List.Forall₂ (fun (v : Path n) t => ∃ T, readTraj (fs.trajs t) = .ok T ∧ Morris.Walk (1 / 2) v.1 v.2 ∧ Each v.2 ∧
      Logged A.model (fun i => label (A.fid i)) v.1 v.2 T) walks L := by
    rw [List.forall₂_iff_get]
    refine ⟨by simp [hL], fun i hi _ => ?_⟩
    obtain ⟨J, m, g1, g2⟩ := h2 i hi
    obtain ⟨T, t1, t2⟩ := read_complete g1 g2
    refine ⟨T, ?_, (g1.walks hn).1, (g1.walks hn).2.1, t2⟩
    simpa [hL] using t1
  have hc : Relation.Comp (List.Forall₂ (fun (v : Path n) t => ∃ T, readTraj (fs.trajs t) = .ok T ∧ Morris.Walk (1 / 2) v.1 v.2 ∧
      Each v.2 ∧ Logged A.model (fun i => label (A.fid i)) v.1 v.2 T)) List.Perm walks ds := ⟨L, hf, hperm⟩
  rw [List.forall₂_comp_perm_eq_perm_comp_forall₂] at hc
  obtain ⟨walks', hp, hf'⟩ := hc
  have : ∃ trajs, List.Forall₂ (fun t d => readTraj (fs.trajs t) = .ok d) ds trajs ∧
      Sample A.model (fun i => label (A.fid i)) (1 / 2) walks' trajs := by
    clear hp hperm hds
    induction hf' with
    | nil => exact ⟨[], .nil, .nil⟩
    | cons h _ ih =>
      obtain ⟨T, g1, g2, g3, g4⟩ := h
      obtain ⟨trajs, f1, f2⟩ := ih
      exact ⟨T :: trajs, .cons g1 f1, .cons ⟨g2, g3, g4⟩ f2⟩
  obtain ⟨trajs, f1, f2⟩ := this
  exact ⟨trajs, walks', readAll_ok.2 f1, hp.symm, f2⟩

private theorem grandMean_perm {n : ℕ} (y : (Fin n → ℚ) → ℝ) {l l' : List (Path n)} (h : l.Perm l') : grandMean y l = grandMean y l' := by
  unfold grandMean
  rw [h.length_eq, (h.map _).sum_eq]

private theorem std_perm {g g' : List ℝ} (h : g.Perm g') : std g = std g' := by
  have ha : avg g = avg g' := by unfold avg; rw [h.length_eq, h.sum_eq]
  unfold std
  rw [h.length_eq, ha, (h.map fun x => (x - avg g') ^ 2).sum_eq]

/-- **C111.** From the first batch to the statistics: the mean output is that over all trajectories asked for, and mu and sigma of a
factor are the mean and the sample standard deviation of the elementary effects of that factor on these trajectories, each a difference
quotient of the model; if the output is affine in the factor, mu is its slope. -/
theorem analysis_stats {n : ℕ} (hn : 2 ≤ n) {A : Study n} (hfid : Function.Injective fun i => label (A.fid i)) {c : Cfg κ π}
    {fs : Fs κ π Sol} {walks : List (Path n)} (h : Analysis A c fs walks) (hne : walks ≠ []) {ds : List Str} (hds : Listing fs ds)
    {t : ℝ} {o : String} {y : (Fin n → ℚ) → ℝ} (hy : Outputs A.model t o walks y) (h0 : grandMean y walks ≠ 0) :
    ∃ s, morrisStats fs ds t o = .ok s ∧ s.mean = grandMean y walks ∧
      ∀ i, (∃ g : List ℝ, List.Forall₂ (fun v q => Effect y v i q) walks g ∧ (∀ q ∈ g, Quotient y (1 / 2) i q) ∧
          s.mu (label (A.fid i)) = g.sum / walks.length ∧ s.sigma (label (A.fid i)) = std g) ∧
        ∀ a, (∀ x x' : Fin n → ℚ, (∀ k, k ≠ i → x' k = x k) → y x' - y x = a * ((x' i - x i : ℚ) : ℝ)) →
          s.mu (label (A.fid i)) = a := by
  obtain ⟨trajs, walks', h1, h2, h3⟩ := analysis_reads hn h hds
  have hlen : trajs.length = walks.length := by rw [← h3.length_eq, h2.length_eq]
  have hnt : trajs ≠ [] := fun e => hne (by rw [← List.length_eq_zero_iff, ← hlen, e]; rfl)
  have hy' : Outputs A.model t o walks' y := fun v hv => hy v (h2.mem_iff.1 hv)
  obtain ⟨s, s1, s2, -⟩ := stats_spec hfid h3 hnt hy' (by rw [grandMean_perm y h2]; exact h0)
  refine ⟨s, by unfold morrisStats; rw [h1]; simp only [s1], by rw [s2, grandMean_perm y h2], fun i => ?_⟩
  obtain ⟨g1, -, -, g4⟩ := group_spec hfid h3 hy' s1 i
  have hmu : s.mu (label (A.fid i)) = (s.group (label (A.fid i))).sum / walks.length := by
    unfold Stat.mu avg
    rw [g1, hlen]
  refine ⟨?_, fun a ha => ?_⟩
  · have hc : Relation.Comp List.Perm (List.Forall₂ fun v q => Effect y v i q) walks (s.group (label (A.fid i))) :=
      ⟨walks', h2.symm, group_effects hfid h3 hy' s1 i⟩
    rw [← List.forall₂_comp_perm_eq_perm_comp_forall₂] at hc
    obtain ⟨g, hg, hp⟩ := hc
    exact ⟨g, hg, fun q hq => g4 q (hp.mem_iff.1 hq), by rw [hmu, hp.sum_eq], by unfold Stat.sigma; rw [std_perm hp]⟩
  have hq : ∀ q ∈ s.group (label (A.fid i)), q = a := fun q hq => quotient_affine (by norm_num) ha (g4 q hq)
  rw [hmu, List.eq_replicate_of_mem hq, List.sum_replicate, nsmul_eq_mul, g1, hlen]
  have : (walks.length : ℝ) ≠ 0 := by
    have := List.length_pos_iff.2 hne
    positivity
  field_simp

end

end Verif.Fwork.MorrisEval
