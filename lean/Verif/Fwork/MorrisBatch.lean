/-
Model of pygmo_fwork/optichem/morris.py, part 6: a batch of trajectories in a pool of processes (`run_morris`,
morris.py:739-789), built on the transition system of MorrisRuns (C91).

Simplifications: the run, meta and logs directories are taken as made (352-368); worker processes are not killed (an
exception in a worker is modelled: the pool drops it, since `apply_async` is used without callbacks and its results are never
fetched, 785-786); copying the chemistry and building the model (505-507) succeed.
-/
import Verif.Fwork.MorrisSeq
import Mathlib.Algebra.BigOperators.Group.Finset.Basic
import Mathlib.Algebra.Order.BigOperators.Group.Finset

namespace Verif.Fwork.MorrisBatch
open Verif.Plaschem Verif.Fwork.MorrisRuns

variable {κ π σ : Type}

/-! ### the call -/

/-- The arguments of `run_morris` and the attributes of the instance. For keyword arguments the outer `Option` is whether they
were passed, the inner one whether they are `None`; of `rel_ranges` only matters whether it is a number or a sequence (`true`).
`steps p` and `sols p` is what the `p`-th trajectory will compute, as in MorrisRuns. -/
structure Args (κ π σ : Type) where
  cfg : Cfg κ π
  num : ℕ
  /-- the size of the pool: `num_cores` or `cpu_count() - 1`, morris.py:781-782 -/
  cores : ℕ
  trajId : Bool
  ret : Option (Option (List (Str × Str)))
  ranges : Option (Option Bool)
  steps : ℕ → List (ℚ × Str)
  sols : ℕ → ℕ → Option σ

/-- what `run_morris` raises -/
inductive Refusal where
  /-- `ValueError`, morris.py:754-755 -/
  | trajId
  /-- `ValueError`, morris.py:756-759 -/
  | retArguments
  /-- `MorrisLogError`, morris.py:381-382 -/
  | log
  /-- `ValueError` of `multiprocessing.Pool`, morris.py:783 -/
  | pool
deriving DecidableEq

/-- morris.py:771: the trajectory of this index has a meta file -/
def used (fs : Fs κ π σ) (i : ℕ) : Bool := (fs.trajs (trajName i)).info.isSome

/-- morris.py:753-783: everything up to the creation of the pool: the directory left behind, and the indices of the
trajectories to run. `bound` is beyond all indices in use (there are finitely many directories). -/
def Args.call (a : Args κ π σ) (bound : ℕ) (fs : Fs κ π σ) : Fs κ π σ × Except Refusal (List ℕ) :=
  if a.trajId then (fs, .error .trajId)
  else if a.cfg.type = str!"return_coefficients" ∧ (a.ret.isNone ∨ a.ranges.isNone) then (fs, .error .retArguments)
  else
    match fs.nextId with
    | none => (fs, .error .log)
    | some t => (fs.mkTraj t, if a.cores = 0 then .error .pool else .ok (queue (used fs) bound 1 a.num))

/-- morris.py:510-519: the assertions on the arguments in each worker -/
def Args.accepted (a : Args κ π σ) : Bool :=
  if a.cfg.type = str!"return_coefficients" then
    match a.ret.join, a.ranges.join with
    | some l, some r => decide l.Nodup && r
    | _, _ => false
  else a.ret.join.isNone && a.ranges.join.isNone

/-- morris.py:535-544: the types of trajectories that do not raise -/
def Args.supported (a : Args κ π σ) : Bool :=
  decide (a.cfg.type ∈ [str!"species", str!"reactions", str!"return_coefficients"])

/-- morris.py:774-786: the calls of `run_trajectory`. A type that is not supported raises before the first model run. -/
def Args.job (a : Args κ π σ) (ids : List ℕ) (p : ℕ) : Job κ π σ :=
  { cfg := a.cfg, tid := some (trajName (ids.getD p 0)), steps := a.steps p,
    sols := if a.supported then a.sols p else fun _ => none }

/-- the pool before the first task was taken; workers whose arguments are not accepted raise at once -/
def Args.start (a : Args κ π σ) (fs : Fs κ π σ) : World κ π σ :=
  { fs := fs, pc := fun _ => if a.accepted then .start else .dead }

/-! ### the pool -/

/-- the task is over -/
def Over : PC → Prop
  | .done _ => True
  | .dead => True
  | _ => False

instance : DecidablePred Over := fun pc => by cases pc <;> unfold Over <;> infer_instance

/-- a worker is at the task -/
def Active (pc : PC) : Prop := pc ≠ .start ∧ ¬ Over pc

instance : DecidablePred Active := fun pc => by unfold Active; infer_instance

variable [DecidableEq κ] [DecidableEq π]

/-- One operation of the pool: a worker performs the next operation of its task, or a free one takes the next task of the
queue. `multiprocessing.Pool`: `cores` workers, tasks are taken in the order of submission. -/
inductive PoolStep (job : ℕ → Job κ π σ) (num cores : ℕ) : World κ π σ → World κ π σ → Prop
  | go {w : World κ π σ} (p : ℕ) : p < num → Active (w.pc p) → PoolStep job num cores w (w.act job p)
  | take {w : World κ π σ} (p : ℕ) : p < num → w.pc p = .start → (∀ q < p, w.pc q ≠ .start) →
      ((Finset.range num).filter fun q => Active (w.pc q)).card < cores → PoolStep job num cores w (w.act job p)

/-- `n` operations -/
inductive PoolRun (job : ℕ → Job κ π σ) (num cores : ℕ) (w0 : World κ π σ) : ℕ → World κ π σ → Prop
  | refl : PoolRun job num cores w0 0 w0
  | step {n : ℕ} {w w' : World κ π σ} : PoolRun job num cores w0 n w → PoolStep job num cores w w' →
      PoolRun job num cores w0 (n + 1) w'

omit [DecidableEq κ] [DecidableEq π] in
/-- `pool.join()` returns: all tasks are over -/
def AllOver (num : ℕ) (w : World κ π σ) : Prop := ∀ p < num, Over (w.pc p)

/-! ### the pool ends -/

/-- how many operations a task still needs at most -/
def rank (L : ℕ) : PC → ℕ
  | .start => 3 * L + 18
  | .check _ => 3 * L + 17
  | .mk _ => 3 * L + 16
  | .coherence _ => 3 * L + 15
  | .reading _ k => 3 * L + 14 - min k 2
  | .mkRun _ j => 3 * (L - j) + 11
  | .openSol _ j => 3 * (L - j) + 10
  | .writeSol _ j => 3 * (L - j) + 9
  | .openMeta _ => 8
  | .writeMeta _ => 7
  | .dump _ k => 6 - min k 5
  | .done _ => 0
  | .dead => 0

theorem rank_act (J : Job κ π σ) (fs : Fs κ π σ) (pc : PC) (h : ¬ Over pc) (ht : J.tid ≠ none) :
    rank J.steps.length (act J fs pc).2 < rank J.steps.length pc := by
  cases pc with
  | start =>
    simp only [act]
    cases hj : J.tid with
    | none => exact absurd hj ht
    | some t => simp [rank]
  | check t => simp only [act]; split <;> simp [rank]
  | mk t => simp [act, rank]
  | coherence t => simp only [act]; split <;> simp only [rank] <;> omega
  | reading t k => rcases k with _ | _ | k <;> simp only [act] <;> split <;> simp only [rank] <;> omega
  | mkRun t j => simp only [act]; split <;> simp only [rank] <;> omega
  | openSol t j => simp only [act, rank]; omega
  | writeSol t j =>
    simp only [act]
    cases J.sols j with
    | none => simp only [rank]; omega
    | some s => simp only; split <;> simp only [rank] <;> omega
  | openMeta t => simp [act, rank]
  | writeMeta t => simp [act, rank]
  | dump t k => rcases k with _ | _ | _ | _ | _ | k <;> simp only [act, rank] <;> omega
  | done t => exact absurd trivial h
  | dead => exact absurd trivial h

theorem PoolStep.inv {job : ℕ → Job κ π σ} {num cores : ℕ} {w w' : World κ π σ} (h : PoolStep job num cores w w') :
    ∃ p < num, w' = w.act job p ∧ ¬ Over (w.pc p) := by
  cases h with
  | go p hp ha => exact ⟨p, hp, rfl, ha.2⟩
  | take p hp hs _ _ => exact ⟨p, hp, rfl, by rw [hs]; exact id⟩

theorem run_rank {job : ℕ → Job κ π σ} {num cores : ℕ} (ht : ∀ p, (job p).tid ≠ none) {w0 w : World κ π σ} {n : ℕ}
    (h : PoolRun job num cores w0 n w) :
    (∑ p ∈ Finset.range num, rank (job p).steps.length (w.pc p)) + n ≤
      ∑ p ∈ Finset.range num, rank (job p).steps.length (w0.pc p) := by
  induction h with
  | refl => exact le_refl _
  | @step n w w' _ hs ih =>
    obtain ⟨p, hp, rfl, ho⟩ := hs.inv
    have hlt : ∑ q ∈ Finset.range num, rank (job q).steps.length ((w.act job p).pc q) <
        ∑ q ∈ Finset.range num, rank (job q).steps.length (w.pc q) := by
      refine Finset.sum_lt_sum (fun q _ => ?_) ⟨p, Finset.mem_range.2 hp, ?_⟩
      · by_cases hq : q = p
        · subst hq
          have : (w.act job q).pc q = (act (job q) w.fs (w.pc q)).2 := Function.update_self _ _ _
          rw [this]
          exact (rank_act _ _ _ ho (ht q)).le
        · have : (w.act job p).pc q = w.pc q := Function.update_of_ne hq _ _
          rw [this]
      · have : (w.act job p).pc p = (act (job p) w.fs (w.pc p)).2 := Function.update_self _ _ _
        rw [this]
        exact rank_act _ _ _ ho (ht p)
    omega

theorem step_exists {job : ℕ → Job κ π σ} {num cores : ℕ} (hc : 0 < cores) {w : World κ π σ} (h : ¬ AllOver num w) :
    ∃ w', PoolStep job num cores w w' := by
  by_cases ha : ∃ p < num, Active (w.pc p)
  · obtain ⟨p, hp, ha⟩ := ha
    exact ⟨_, .go p hp ha⟩
  · have hn : ∃ p, p < num ∧ ¬ Over (w.pc p) := by
      by_contra hc
      exact h fun p hp => by_contra fun ho => hc ⟨p, hp, ho⟩
    have hs : ∃ p, p < num ∧ w.pc p = .start := by
      obtain ⟨p, hp, ho⟩ := hn
      refine ⟨p, hp, ?_⟩
      by_contra hne
      exact ha ⟨p, hp, hne, ho⟩
    classical
    refine ⟨_, .take (Nat.find hs) (Nat.find_spec hs).1 (Nat.find_spec hs).2 (fun q hq hqs => ?_) ?_⟩
    · exact Nat.find_min hs hq ⟨hq.trans (Nat.find_spec hs).1, hqs⟩
    · rw [Finset.card_eq_zero.2 (Finset.filter_eq_empty_iff.2 fun q hq hqa => ha ⟨q, Finset.mem_range.1 hq, hqa⟩)]
      exact hc

/-! ### what a task leaves -/

/-- what is in the directory of the task; `d0` was there before -/
def Here (J : Job κ π σ) (t : Str) (d0 d : TrajDir σ) : PC → Prop
  | .start => d = d0
  | .check t' => t' = t ∧ d = d0
  | .mk t' => t' = t ∧ d = d0
  | .coherence t' => t' = t ∧ d = d0
  | .reading t' _ => t' = t ∧ d = d0
  | .mkRun t' j => t' = t ∧ d.info = none ∧ j ≤ J.steps.length ∧ SolsTo J d j ∧ (j = 0 → d = d0) ∧
      ((∀ r, d0.runs r = none) → ∀ i, j ≤ i → d.runs (J.name i) = none)
  | .openSol t' j => t' = t ∧ d.info = none ∧ j ≤ J.steps.length ∧ SolsTo J d j ∧ (J.sols 0).isSome ∧ (J.sols j).isSome ∧
      d.runs (J.name j) = some .empty ∧ ((∀ r, d0.runs r = none) → ∀ i, j < i → d.runs (J.name i) = none)
  | .writeSol t' j => t' = t ∧ d.info = none ∧ j ≤ J.steps.length ∧ SolsTo J d j ∧ (J.sols 0).isSome ∧ (J.sols j).isSome ∧
      d.runs (J.name j) = some (.sol .opened) ∧ ((∀ r, d0.runs r = none) → ∀ i, j < i → d.runs (J.name i) = none)
  | .openMeta t' => t' = t ∧ d.info = none ∧ SolsTo J d (J.steps.length + 1)
  | .writeMeta t' => t' = t ∧ d.info = some .opened ∧ SolsTo J d (J.steps.length + 1)
  | .dump t' k => t' = t ∧ k ≤ 5 ∧ Holds J d
  | .done t' => t' = t ∧ Holds J d
  | .dead => d.info = none ∧ (d = d0 ∨ (J.sols 0).isSome)

omit [DecidableEq κ] [DecidableEq π] in
private theorem sols_put {J : Job κ π σ} {d : TrajDir σ} {k j : ℕ} {v : RunDir σ} (h : SolsTo J d k) (hk : k ≤ j) :
    SolsTo J (d.put (J.name j) v) k := by
  intro i hi
  obtain ⟨s, h1, h2⟩ := h i hi
  refine ⟨s, h1, ?_⟩
  simp only [TrajDir.put]
  rw [Function.update_of_ne, h2]
  intro hc
  have := name_injective J hc
  omega

omit [DecidableEq κ] [DecidableEq π] in
private theorem none_put {J : Job κ π σ} {d : TrajDir σ} {j i : ℕ} {v : RunDir σ} (h : d.runs (J.name i) = none)
    (hij : j < i) : (d.put (J.name j) v).runs (J.name i) = none := by
  simp only [TrajDir.put]
  rw [Function.update_of_ne, h]
  intro hc
  have := name_injective J hc
  omega

omit [DecidableEq κ] [DecidableEq π] in
private theorem setRun_trajs (fs : Fs κ π σ) (t r : Str) (v : RunDir σ) : (fs.setRun t r v).trajs t = (fs.trajs t).put r v :=
  Function.update_self _ _ _

omit [DecidableEq κ] [DecidableEq π] in
private theorem setMeta_trajs (fs : Fs κ π σ) (t : Str) (v : File TrajMeta) :
    (fs.setMeta t v).trajs t = { runs := (fs.trajs t).runs, info := some v } :=
  Function.update_self _ _ _

/-- a task in its own directory -/
theorem here_act {J : Job κ π σ} {t : Str} (ht : J.tid = some t) {d0 : TrajDir σ} (hd0 : d0.info = none) {fs : Fs κ π σ}
    {pc : PC} (h : Here J t d0 (fs.trajs t) pc) :
    Here J t d0 ((act J fs pc).1.trajs t) (act J fs pc).2 := by
  cases pc with
  | start =>
    simp only [act, ht]
    exact ⟨rfl, h⟩
  | check t' =>
    obtain ⟨rfl, h⟩ := h
    simp only [act]
    rw [if_neg (by rw [h, hd0]; simp)]
    exact ⟨rfl, h⟩
  | mk t' => exact h
  | coherence t' =>
    obtain ⟨rfl, h⟩ := h
    simp only [act]
    split
    · exact ⟨rfl, by rw [h, hd0], Nat.zero_le _, fun i hi => absurd hi (Nat.not_lt_zero i), fun _ => h,
        fun hr i _ => by rw [h]; exact hr _⟩
    · exact ⟨rfl, h⟩
  | reading t' k =>
    obtain ⟨rfl, h⟩ := h
    have hrun : Here J t' d0 (fs.trajs t') (.mkRun t' 0) :=
      ⟨rfl, by rw [h, hd0], Nat.zero_le _, fun i hi => absurd hi (Nat.not_lt_zero i), fun _ => h,
        fun hr i _ => by rw [h]; exact hr _⟩
    have hdead : Here J t' d0 (fs.trajs t') .dead := ⟨by rw [h, hd0], .inl h⟩
    rcases k with _ | _ | k <;> simp only [act] <;> split <;> first | exact hrun | exact hdead | exact ⟨rfl, h⟩
  | mkRun t' j =>
    obtain ⟨rfl, h1, h2, h3, h4, h5⟩ := h
    have hsome : (J.sols j).isSome → (J.sols 0).isSome := by
      intro hj
      rcases Nat.eq_zero_or_pos j with rfl | hpos
      · exact hj
      · obtain ⟨s, hs, _⟩ := h3 0 hpos
        rw [hs]; rfl
    simp only [act]
    split
    · rename_i hc
      simp only [setRun_trajs]
      exact ⟨rfl, h1, h2, sols_put h3 (le_refl _), hsome hc.1, hc.1, Function.update_self _ _ _,
        fun hr i hi => none_put (h5 hr i hi.le) hi⟩
    · refine ⟨h1, ?_⟩
      rcases Nat.eq_zero_or_pos j with rfl | hpos
      · exact .inl (h4 rfl)
      · obtain ⟨s, hs, _⟩ := h3 0 hpos
        exact .inr (by rw [hs]; rfl)
  | openSol t' j =>
    obtain ⟨rfl, h1, h2, h3, h4, h5, h6, h7⟩ := h
    simp only [act, setRun_trajs]
    exact ⟨rfl, h1, h2, sols_put h3 (le_refl _), h4, h5, Function.update_self _ _ _,
      fun hr i hi => none_put (h7 hr i hi) hi⟩
  | writeSol t' j =>
    obtain ⟨rfl, h1, h2, h3, h4, h5, h6, h7⟩ := h
    obtain ⟨s, hs⟩ := Option.isSome_iff_exists.1 h5
    have hnew : SolsTo J ((fs.trajs t').put (J.name j) (.sol (.full s))) (j + 1) := by
      intro i hi
      by_cases hij : i = j
      · subst hij
        exact ⟨s, hs, Function.update_self _ _ _⟩
      · exact sols_put h3 (le_refl _) i (by omega)
    simp only [act, hs, setRun_trajs]
    split
    · exact ⟨rfl, h1, by omega, hnew, fun h => by omega, fun hr i hi => none_put (h7 hr i (by omega)) (by omega)⟩
    · have : j = J.steps.length := by omega
      exact ⟨rfl, h1, this ▸ hnew⟩
  | openMeta t' =>
    obtain ⟨rfl, h1, h2⟩ := h
    simp only [act, setMeta_trajs]
    exact ⟨rfl, rfl, h2⟩
  | writeMeta t' =>
    obtain ⟨rfl, h1, h2⟩ := h
    simp only [act, setMeta_trajs]
    exact ⟨rfl, by omega, rfl, fun j hj => h2 j (by omega)⟩
  | dump t' k =>
    obtain ⟨rfl, hk, h⟩ := h
    rcases k with _ | _ | _ | _ | _ | k <;> simp only [act] <;> first | exact ⟨rfl, h⟩ | exact ⟨rfl, by omega, h⟩
  | done t' => exact h
  | dead => exact h

/-- and only there -/
theorem act_elsewhere {J : Job κ π σ} {t : Str} {d0 : TrajDir σ} {fs : Fs κ π σ} {pc : PC}
    (h : Here J t d0 (fs.trajs t) pc) {t' : Str} (hne : t' ≠ t) : (act J fs pc).1.trajs t' = fs.trajs t' := by
  refine act_trajs _ _ _ _ (fun ho => ?_) (fun he => ?_)
  · cases pc with
    | mkRun u j =>
      cases j with
      | zero => exact ho
      | succ j => exact hne (ho.symm.trans h.1)
    | openSol u j => exact hne (ho.symm.trans h.1)
    | writeSol u j => exact hne (ho.symm.trans h.1)
    | openMeta u => exact hne (ho.symm.trans h.1)
    | writeMeta u => exact hne (ho.symm.trans h.1)
    | start => exact ho
    | check u => exact ho
    | mk u => exact ho
    | coherence u => exact ho
    | reading u k => exact ho
    | dump u k => exact ho
    | done u => exact ho
    | dead => exact ho
  · subst he
    exact absurd h.1 hne

end Verif.Fwork.MorrisBatch
