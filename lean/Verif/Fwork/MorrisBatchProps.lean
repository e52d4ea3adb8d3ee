/-
C91: what a batch of Morris trajectories (`run_morris`) does, for every schedule of its worker processes.
-/
import Verif.Fwork.MorrisBatch
import Mathlib.Data.List.Range
import Mathlib.Tactic.Linarith

namespace Verif.Fwork.MorrisBatch
open Verif.Plaschem Verif.Fwork.MorrisRuns

variable {κ π σ : Type}

/-! ### the call -/

/-- the name of the directory of the `p`-th trajectory of the batch -/
def dirOf (ids : List ℕ) (p : ℕ) : Str := trajName (ids.getD p 0)

/-- **C91.** When a batch is refused, and what the call has done until its workers start: it has made the directory of the
next trajectory, at most. -/
theorem call_result (a : Args κ π σ) {bound : ℕ} {fs : Fs κ π σ} :
    (a.call bound fs).1.trajs = fs.trajs ∧ SameMeta (a.call bound fs).1 fs ∧
    ((a.call bound fs).2 = .error .trajId ↔ a.trajId = true) ∧
    ((a.call bound fs).2 = .error .retArguments ↔ a.trajId = false ∧ a.cfg.type = str!"return_coefficients" ∧
      (a.ret = none ∨ a.ranges = none)) ∧
    ((a.call bound fs).2 = .error .log ↔ a.trajId = false ∧
      (a.cfg.type = str!"return_coefficients" → a.ret ≠ none ∧ a.ranges ≠ none) ∧
      ∀ i, 1 ≤ i → i ≤ 998 → (fs.trajs (trajName i)).info ≠ none) ∧
    ((a.call bound fs).2 = .error .pool ↔ a.trajId = false ∧
      (a.cfg.type = str!"return_coefficients" → a.ret ≠ none ∧ a.ranges ≠ none) ∧
      (∃ i, 1 ≤ i ∧ i ≤ 998 ∧ (fs.trajs (trajName i)).info = none) ∧ a.cores = 0) := by
  have hnext := (next_id fs).2
  unfold Args.call
  by_cases h1 : a.trajId = true
  · rw [if_pos h1]
    simp [h1, SameMeta]
  · rw [if_neg h1]
    have h1' : a.trajId = false := by simpa using h1
    by_cases h2 : a.cfg.type = str!"return_coefficients" ∧ (a.ret.isNone ∨ a.ranges.isNone)
    · rw [if_pos h2]
      obtain ⟨h2, h3⟩ := h2
      simp only [Option.isNone_iff_eq_none] at h3
      have h4 : ¬ (a.ret ≠ none ∧ a.ranges ≠ none) := by
        rcases h3 with h | h <;> simp [h]
      simp only [h1', h2, true_implies, h3, h4, SameMeta]
      simp
    · rw [if_neg h2]
      have h3 : a.cfg.type = str!"return_coefficients" → a.ret ≠ none ∧ a.ranges ≠ none := by
        intro h
        refine ⟨fun hn => h2 ⟨h, .inl (by rw [hn]; rfl)⟩, fun hn => h2 ⟨h, .inr (by rw [hn]; rfl)⟩⟩
      have h4 : ¬ (a.cfg.type = str!"return_coefficients" ∧ (a.ret = none ∨ a.ranges = none)) := by
        rintro ⟨h, hn | hn⟩
        · exact (h3 h).1 hn
        · exact (h3 h).2 hn
      cases h5 : fs.nextId with
      | none =>
        have h6 := hnext.1 h5
        have h7 : ¬ ∃ i, 1 ≤ i ∧ i ≤ 998 ∧ (fs.trajs (trajName i)).info = none := by
          rintro ⟨i, hi1, hi2, hi3⟩
          exact h6 i hi1 hi2 hi3
        refine ⟨rfl, ⟨rfl, rfl, rfl⟩, ?_, ?_, ?_, ?_⟩
        · simp [h1']
        · simp only [h1', true_and, h4]; simp
        · simp only [h1', true_and]; exact ⟨fun _ => ⟨h3, h6⟩, fun _ => trivial⟩
        · simp only [h7]; simp
      | some t =>
        have h6 : ¬ ∀ i, 1 ≤ i → i ≤ 998 → (fs.trajs (trajName i)).info ≠ none := by
          intro h
          have := hnext.2 h
          rw [h5] at this
          cases this
        have h7 : ∃ i, 1 ≤ i ∧ i ≤ 998 ∧ (fs.trajs (trajName i)).info = none := by
          push Not at h6
          obtain ⟨i, a, b, c⟩ := h6
          exact ⟨i, a, b, c⟩
        have h8 : ∀ e, (if a.cores = 0 then Except.error Refusal.pool else
            Except.ok (queue (used fs) bound 1 a.num) : Except Refusal (List ℕ)) = .error e ↔ a.cores = 0 ∧ e = .pool := by
          intro e
          by_cases hc : a.cores = 0
          · rw [if_pos hc]; simp [hc, eq_comm]
          · rw [if_neg hc]; simp [hc]
        refine ⟨rfl, ⟨rfl, rfl, rfl⟩, ?_, ?_, ?_, ?_⟩
        · simp only [h8, h1']; simp
        · simp only [h8, h4]; simp
        · simp only [h8, h6]; simp
        · simp only [h8, h7, h1', true_and, and_true]
          exact ⟨fun h => ⟨h3, h⟩, fun h => h.2⟩

/-- **C91.** The trajectories of a batch: as many as asked for, all different, none of them finished, no unfinished one passed
over; the first is the one whose directory was made. -/
theorem call_ids {a : Args κ π σ} {bound : ℕ} {fs fs1 : Fs κ π σ}
    (hb : ∀ i, bound ≤ i → (fs.trajs (trajName i)).info = none) {ids : List ℕ} (h : a.call bound fs = (fs1, .ok ids)) :
    fs1.trajs = fs.trajs ∧ SameMeta fs1 fs ∧ a.cores ≠ 0 ∧ ids.length = a.num ∧ ids.Pairwise (· < ·) ∧
    (∀ i ∈ ids, 1 ≤ i ∧ (fs.trajs (trajName i)).info = none) ∧
    ∀ j, 1 ≤ j → (fs.trajs (trajName j)).info = none → j ∉ ids → ∀ i ∈ ids, i < j := by
  have hq := queue_ok (used := used fs) (bound := bound) (fun i hi => by unfold used; rw [hb i hi]; rfl) 1 a.num
  unfold Args.call at h
  split at h
  · cases h
  · split at h
    · cases h
    · split at h
      · cases h
      · injection h with h1 h2
        subst h1
        split at h2
        · cases h2
        · rename_i hc
          injection h2 with h2
          subst h2
          obtain ⟨q1, q2, q3, q4⟩ := hq
          refine ⟨rfl, ⟨rfl, rfl, rfl⟩, hc, q1, q2, fun i hi => ⟨(q3 i hi).1, ?_⟩, fun j hj hn => q4 j hj ?_⟩
          · have := (q3 i hi).2
            unfold used at this
            simpa using this
          · unfold used
            rw [hn]; rfl

section facts
variable {a : Args κ π σ} {ids : List ℕ}

theorem dirOf_mem (hl : ids.length = a.num) {p : ℕ} (hp : p < a.num) : ids.getD p 0 ∈ ids := by
  rw [List.getD_eq_getElem?_getD, List.getElem?_eq_getElem (by omega)]
  exact List.getElem_mem _

theorem dirOf_inj (hl : ids.length = a.num) (hs : ids.Pairwise (· < ·)) {p q : ℕ} (hp : p < a.num) (hq : q < a.num)
    (h : dirOf ids p = dirOf ids q) : p = q := by
  have h := trajName_injective h
  rw [List.getD_eq_getElem?_getD, List.getD_eq_getElem?_getD, List.getElem?_eq_getElem (by omega),
    List.getElem?_eq_getElem (by omega)] at h
  have hn : ids.Nodup := hs.imp fun h => Nat.ne_of_lt h
  exact (List.Nodup.getElem_inj_iff hn).1 h

end facts

variable [DecidableEq κ] [DecidableEq π]

/-! ### the pool ends -/

/-- **C91.** Whatever the schedule, the pool ends: as long as tasks are left some worker can go on, and the number of
operations is bounded (so that `run_morris` returns). -/
theorem pool_ends (a : Args κ π σ) (ids : List ℕ) (hc : a.cores ≠ 0) {fs : Fs κ π σ} {w : World κ π σ} {n : ℕ}
    (h : PoolRun (a.job ids) a.num a.cores (a.start fs) n w) :
    n ≤ ∑ p ∈ Finset.range a.num, (3 * (a.steps p).length + 18) ∧
    (¬ AllOver a.num w → ∃ w', PoolStep (a.job ids) a.num a.cores w w') := by
  refine ⟨?_, step_exists (Nat.pos_of_ne_zero hc)⟩
  have h1 := run_rank (fun p => by simp [Args.job]) h
  have h2 : ∑ p ∈ Finset.range a.num, rank (a.job ids p).steps.length ((a.start fs).pc p) ≤
      ∑ p ∈ Finset.range a.num, (3 * (a.steps p).length + 18) := by
    refine Finset.sum_le_sum fun p _ => ?_
    simp only [Args.start, Args.job]
    split <;> simp [rank]
  omega

/-! ### what a batch leaves -/

/-- the directories of the batch and the others -/
structure BatchInv (a : Args κ π σ) (ids : List ℕ) (fs : Fs κ π σ) (w : World κ π σ) : Prop where
  here : ∀ p < a.num, Here (a.job ids p) (dirOf ids p) (fs.trajs (dirOf ids p)) (w.fs.trajs (dirOf ids p)) (w.pc p)
  frame : ∀ t, (∀ p < a.num, t ≠ dirOf ids p) → w.fs.trajs t = fs.trajs t

theorem batch_inv {a : Args κ π σ} {ids : List ℕ} {fs : Fs κ π σ} (hl : ids.length = a.num) (hs : ids.Pairwise (· < ·))
    (hf : ∀ i ∈ ids, (fs.trajs (trajName i)).info = none) {fs1 : Fs κ π σ} (h1 : fs1.trajs = fs.trajs) {w : World κ π σ}
    {n : ℕ} (h : PoolRun (a.job ids) a.num a.cores (a.start fs1) n w) : BatchInv a ids fs w := by
  induction h with
  | refl =>
    refine ⟨fun p hp => ?_, fun t _ => by simp only [Args.start]; rw [h1]⟩
    simp only [Args.start]
    split
    · exact congrFun h1 _
    · exact ⟨by rw [h1]; exact hf _ (dirOf_mem hl hp), .inl (congrFun h1 _)⟩
  | @step n w w' _ hst ih =>
    obtain ⟨p, hp, rfl, ho⟩ := hst.inv
    have hpc : (w.act (a.job ids) p).pc p = (act (a.job ids p) w.fs (w.pc p)).2 := Function.update_self _ _ _
    refine ⟨fun q hq => ?_, fun t ht => ?_⟩
    · by_cases hqp : q = p
      · subst hqp
        rw [hpc]
        exact here_act rfl (hf _ (dirOf_mem hl hq)) (ih.here q hq)
      · have hq' : (w.act (a.job ids) p).pc q = w.pc q := Function.update_of_ne hqp _ _
        have htr : (w.act (a.job ids) p).fs.trajs (dirOf ids q) = w.fs.trajs (dirOf ids q) :=
          act_elsewhere (ih.here p hp) fun he => hqp (dirOf_inj hl hs hq hp he)
        rw [hq', htr]
        exact ih.here q hq
    · have htr : (w.act (a.job ids) p).fs.trajs t = w.fs.trajs t := act_elsewhere (ih.here p hp) (ht p hp)
      rw [htr]
      exact ih.frame t ht

/-- **C91.** When the batch is over, each of its trajectories is complete or has no meta file (so that its
index is used again); the first is the case exactly for the tasks that returned. All other trajectories are as before. -/
theorem batch_result {a : Args κ π σ} {bound : ℕ} {fs fs1 : Fs κ π σ}
    (hb : ∀ i, bound ≤ i → (fs.trajs (trajName i)).info = none) {ids : List ℕ} (h : a.call bound fs = (fs1, .ok ids))
    {w : World κ π σ} {n : ℕ} (hr : PoolRun (a.job ids) a.num a.cores (a.start fs1) n w) (ho : AllOver a.num w) :
    (∀ p < a.num, (w.pc p = .done (dirOf ids p) ∧ ∃ m, Complete (a.job ids p) m (w.fs.trajs (dirOf ids p))) ∨
      (w.pc p = .dead ∧ (w.fs.trajs (dirOf ids p)).info = none)) ∧
    ∀ t, (∀ p < a.num, t ≠ dirOf ids p) → w.fs.trajs t = fs.trajs t := by
  obtain ⟨c1, -, -, c4, c5, c6, -⟩ := call_ids hb h
  have hi := batch_inv c4 c5 (fun i hi => (c6 i hi).2) c1 hr
  refine ⟨fun p hp => ?_, hi.frame⟩
  have hh := hi.here p hp
  have hov := ho p hp
  cases hpc : w.pc p with
  | done t =>
    rw [hpc] at hh
    obtain ⟨rfl, hh⟩ := hh
    exact .inl ⟨rfl, _, hh.complete⟩
  | dead =>
    rw [hpc] at hh
    exact .inr ⟨rfl, hh.1⟩
  | start => rw [hpc] at hov; exact hov.elim
  | check t => rw [hpc] at hov; exact hov.elim
  | mk t => rw [hpc] at hov; exact hov.elim
  | coherence t => rw [hpc] at hov; exact hov.elim
  | reading t k => rw [hpc] at hov; exact hov.elim
  | mkRun t k => rw [hpc] at hov; exact hov.elim
  | openSol t k => rw [hpc] at hov; exact hov.elim
  | writeSol t k => rw [hpc] at hov; exact hov.elim
  | openMeta t => rw [hpc] at hov; exact hov.elim
  | writeMeta t => rw [hpc] at hov; exact hov.elim
  | dump t k => rw [hpc] at hov; exact hov.elim

/-- What the workers accept: return coefficients (each named once) together with a sequence of ranges for trajectories of return
coefficients; neither of them for others. -/
def Args.Acceptable (a : Args κ π σ) : Prop :=
  (a.cfg.type = str!"return_coefficients" ∧ (∃ l, a.ret = some (some l) ∧ l.Nodup) ∧ a.ranges = some (some true)) ∨
  (a.cfg.type ≠ str!"return_coefficients" ∧ (∀ l, a.ret ≠ some (some l)) ∧ ∀ r, a.ranges ≠ some (some r))

/-- **C91.** Which arguments the workers accept. -/
theorem accepted_iff (a : Args κ π σ) : a.accepted = true ↔ a.Acceptable := by
  unfold Args.accepted Args.Acceptable
  by_cases h : a.cfg.type = str!"return_coefficients"
  · rw [if_pos h]
    rcases hr : a.ret with _ | _ | l <;> rcases hg : a.ranges with _ | _ | r <;> simp [h]
  · rw [if_neg h]
    rcases hr : a.ret with _ | _ | l <;> rcases hg : a.ranges with _ | _ | r <;> simp [h]

/-- **C91, negative part.** A batch whose type of trajectories is not supported (such as the documented `model_params`), or whose
arguments the workers do not accept (such as `rel_ranges` with another type than `return_coefficients`), is not refused; it
returns, and nothing was computed: all trajectories are as before. -/
theorem batch_silent {a : Args κ π σ} {bound : ℕ} {fs fs1 : Fs κ π σ}
    (hb : ∀ i, bound ≤ i → (fs.trajs (trajName i)).info = none) {ids : List ℕ} (h : a.call bound fs = (fs1, .ok ids))
    (hbad : a.cfg.type ∉ [str!"species", str!"reactions", str!"return_coefficients"] ∨ ¬ a.Acceptable)
    {w : World κ π σ} {n : ℕ} (hr : PoolRun (a.job ids) a.num a.cores (a.start fs1) n w) (ho : AllOver a.num w) :
    w.fs.trajs = fs.trajs := by
  rcases hbad with hbad | hbad
  · obtain ⟨c1, -, -, c4, c5, c6, -⟩ := call_ids hb h
    have hi := batch_inv c4 c5 (fun i hi => (c6 i hi).2) c1 hr
    have hsol : ∀ p, ((a.job ids p).sols 0).isSome = false := by
      intro p
      have : a.supported = false := by simpa [Args.supported] using hbad
      simp [Args.job, this]
    funext t
    by_cases ht : ∀ p < a.num, t ≠ dirOf ids p
    · exact hi.frame t ht
    · push Not at ht
      obtain ⟨p, hp, rfl⟩ := ht
      rcases (batch_result hb h hr ho).1 p hp with ⟨-, m, hm⟩ | ⟨hd, -⟩
      · obtain ⟨s, hs, -⟩ := hm.base
        have := hsol p
        rw [hs] at this
        cases this
      · have := hi.here p hp
        rw [hd] at this
        rcases this.2 with h | h
        · exact h
        · rw [hsol p] at h; cases h
  · have hbad : a.accepted = false := by rwa [← accepted_iff, Bool.not_eq_true] at hbad
    obtain ⟨c1, -⟩ := call_ids hb h
    rw [← c1]
    clear ho
    have : w = a.start fs1 := by
      induction hr with
      | refl => rfl
      | @step n w w' _ hst ih =>
        obtain ⟨p, -, -, hno⟩ := hst.inv
        rw [ih] at hno
        simp only [Args.start, hbad] at hno
        exact absurd trivial hno
    rw [this]
    rfl

end Verif.Fwork.MorrisBatch
