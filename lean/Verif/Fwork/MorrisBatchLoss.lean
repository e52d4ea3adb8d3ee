/-
C91: which trajectories of a batch are lost, and that none is lost with one worker.
-/
import Verif.Fwork.MorrisBatchProps

namespace Verif.Fwork.MorrisBatch
open Verif.Plaschem Verif.Fwork.MorrisRuns

variable {κ π σ : Type} [DecidableEq κ] [DecidableEq π]

/-! ### specification -/

/-- the task has begun to write the meta data of the Morris run and has not finished -/
def Dumping (pc : PC) : Prop := ∃ t k, pc = .dump t k ∧ 1 ≤ k ∧ k ≤ 5

/-- The task is between having looked into the meta directory and having compared its files. -/
def Reading (pc : PC) : Prop := ∃ t k, pc = .reading t k

/-- A directory in order, for a configuration: the meta data are those of the configuration or there are none, and there is no
abandoned trajectory (one with runs, without meta file). -/
def Ready (c : Cfg κ π) (fs : Fs κ π σ) : Prop :=
  ((fs.chem = none ∧ fs.params = none ∧ fs.info = none) ∨
    (fs.chem = some (.full c.chem) ∧ fs.params = some (.full c.params) ∧ fs.info = some (.full (c.type, c.backend)))) ∧
  ∀ t, (fs.trajs t).info = none → ∀ r, (fs.trajs t).runs r = none

/-- A batch as it should be: a supported type with the arguments it needs, a backend in lower case, and all models can be run. -/
structure Args.Good (a : Args κ π σ) : Prop where
  type : a.cfg.type ∈ [str!"species", str!"reactions", str!"return_coefficients"]
  accepted : a.accepted = true
  backend : lower a.cfg.backend = a.cfg.backend
  solves : ∀ p < a.num, ∀ j ≤ (a.steps p).length, (a.sols p j).isSome

/-! ### the meta directory -/

/-- the three files while tasks of one configuration write them -/
structure MetaInv (c : Cfg κ π) (num : ℕ) (w : World κ π σ) : Prop where
  chem : w.fs.chem = none ∨ w.fs.chem = some .opened ∨ w.fs.chem = some (.full c.chem)
  params : w.fs.params = none ∨ w.fs.params = some .opened ∨ w.fs.params = some (.full c.params)
  info : w.fs.info = none ∨ w.fs.info = some .opened ∨ w.fs.info = some (.full (c.type, c.backend))
  chemO : w.fs.chem = some .opened → ∃ p < num, ∃ t, w.pc p = .dump t 1
  paramsO : w.fs.params = some .opened → ∃ p < num, ∃ t, w.pc p = .dump t 3
  infoO : w.fs.info = some .opened → ∃ p < num, ∃ t, w.pc p = .dump t 5
  mixed : (w.fs.chem ≠ none ∨ w.fs.params ≠ none ∨ w.fs.info ≠ none) →
    (w.fs.chem = none ∨ w.fs.params = none ∨ w.fs.info = none) → ∃ p < num, ∃ t k, w.pc p = .dump t k ∧ 1 ≤ k ∧ k ≤ 4
  past : ∀ p < num, ∀ t k, w.pc p = .dump t k →
    (1 ≤ k → w.fs.chem ≠ none) ∧ (3 ≤ k → w.fs.params ≠ none) ∧ (5 ≤ k → w.fs.info ≠ none)
  seen : ∀ p < num, ∀ t k, w.pc p = .reading t k → w.fs.chem ≠ none ∨ w.fs.params ≠ none ∨ w.fs.info ≠ none

/-- operations that do not write to the meta directory -/
theorem act_meta (J : Job κ π σ) (fs : Fs κ π σ) (pc : PC) (h : ∀ t k, pc ≠ .dump t k) :
    (act J fs pc).1.chem = fs.chem ∧ (act J fs pc).1.params = fs.params ∧ (act J fs pc).1.info = fs.info := by
  cases pc with
  | start =>
    simp only [act]
    cases J.tid with
    | some t => exact ⟨rfl, rfl, rfl⟩
    | none => simp only; cases fs.nextId <;> exact ⟨rfl, rfl, rfl⟩
  | check t => exact ⟨rfl, rfl, rfl⟩
  | mk t => exact ⟨rfl, rfl, rfl⟩
  | coherence t => exact ⟨rfl, rfl, rfl⟩
  | reading t k => rcases k with _ | _ | k <;> exact ⟨rfl, rfl, rfl⟩
  | mkRun t j => simp only [act]; split <;> exact ⟨rfl, rfl, rfl⟩
  | openSol t j => exact ⟨rfl, rfl, rfl⟩
  | writeSol t j => simp only [act]; cases J.sols j <;> exact ⟨rfl, rfl, rfl⟩
  | openMeta t => exact ⟨rfl, rfl, rfl⟩
  | writeMeta t => exact ⟨rfl, rfl, rfl⟩
  | dump t k => exact absurd rfl (h t k)
  | done t => exact ⟨rfl, rfl, rfl⟩
  | dead => exact ⟨rfl, rfl, rfl⟩

/-- they do not lead into the middle of a dump -/
theorem act_dump (J : Job κ π σ) (fs : Fs κ π σ) (pc : PC) (h : ∀ t k, pc ≠ .dump t k) {t : Str} {k : ℕ}
    (hd : (act J fs pc).2 = .dump t k) : k = 0 := by
  cases pc with
  | start =>
    simp only [act] at hd
    cases ht : J.tid with
    | some t => rw [ht] at hd; cases hd
    | none => rw [ht] at hd; simp only at hd; cases hn : fs.nextId <;> rw [hn] at hd <;> cases hd
  | check t => simp only [act] at hd; split at hd <;> cases hd
  | mk t => cases hd
  | coherence t => simp only [act] at hd; split at hd <;> cases hd
  | reading t k => rcases k with _ | _ | k <;> simp only [act] at hd <;> split at hd <;> cases hd
  | mkRun t j => simp only [act] at hd; split at hd <;> cases hd
  | openSol t j => cases hd
  | writeSol t j =>
    simp only [act] at hd
    cases hs : J.sols j with
    | none => rw [hs] at hd; cases hd
    | some s => rw [hs] at hd; simp only at hd; split at hd <;> cases hd
  | openMeta t => cases hd
  | writeMeta t => cases hd; rfl
  | dump t k => exact absurd rfl (h t k)
  | done t => cases hd
  | dead => cases hd

/-- a task begins to read because it saw a file -/
theorem act_reading (J : Job κ π σ) (fs : Fs κ π σ) (pc : PC) {t : Str} {k : ℕ} (hd : (act J fs pc).2 = .reading t k) :
    (∃ t k, pc = .reading t k) ∨ fs.chem ≠ none ∨ fs.params ≠ none ∨ fs.info ≠ none := by
  cases pc with
  | start =>
    simp only [act] at hd
    cases ht : J.tid with
    | some t => rw [ht] at hd; cases hd
    | none => rw [ht] at hd; simp only at hd; cases hn : fs.nextId <;> rw [hn] at hd <;> cases hd
  | check t => simp only [act] at hd; split at hd <;> cases hd
  | mk t => cases hd
  | coherence t =>
    simp only [act] at hd
    split at hd
    · cases hd
    · rename_i hc
      right
      by_contra hn
      push Not at hn
      rw [hn.1, hn.2.1, hn.2.2] at hc
      exact hc rfl
  | reading t k => exact .inl ⟨t, k, rfl⟩
  | mkRun t j => simp only [act] at hd; split at hd <;> cases hd
  | openSol t j => cases hd
  | writeSol t j =>
    simp only [act] at hd
    cases hs : J.sols j with
    | none => rw [hs] at hd; cases hd
    | some s => rw [hs] at hd; simp only at hd; split at hd <;> cases hd
  | openMeta t => cases hd
  | writeMeta t => cases hd
  | dump t k => rcases k with _ | _ | _ | _ | _ | k <;> cases hd
  | done t => cases hd
  | dead => cases hd

theorem meta_act {c : Cfg κ π} (hlow : lower c.backend = c.backend) {num : ℕ} {job : ℕ → Job κ π σ}
    (hjob : ∀ p, (job p).cfg = c) {w : World κ π σ} (h : MetaInv c num w) {p : ℕ} (hp : p < num)
    (hk : ∀ t k, w.pc p = .dump t k → k ≤ 5) : MetaInv c num (w.act job p) := by
  have hpc : (w.act job p).pc p = (act (job p) w.fs (w.pc p)).2 := Function.update_self _ _ _
  have hother : ∀ q, q ≠ p → (w.act job p).pc q = w.pc q := fun q hq => Function.update_of_ne hq _ _
  have hfs : (w.act job p).fs = (act (job p) w.fs (w.pc p)).1 := rfl
  by_cases hd : ∃ t k, w.pc p = .dump t k
  · obtain ⟨t, k, hd⟩ := hd
    have hk5 := hk t k hd
    have hpast := h.past p hp t k hd
    -- witnesses other than the acting task
    have hwit : ∀ m, (∃ q < num, ∃ u, w.pc q = .dump u m) → m ≠ k → ∃ q < num, ∃ u, (w.act job p).pc q = .dump u m := by
      rintro m ⟨q, hq, u, hu⟩ hm
      have hqp : q ≠ p := by rintro rfl; rw [hd] at hu; cases hu; exact hm rfl
      exact ⟨q, hq, u, by rw [hother q hqp]; exact hu⟩
    have hseen : ∀ q < num, ∀ u m, (w.act job p).pc q = .reading u m → w.fs.chem ≠ none ∨ w.fs.params ≠ none ∨ w.fs.info ≠ none := by
      intro q hq u m hr
      by_cases hqp : q = p
      · subst hqp
        rw [hpc, hd] at hr
        rcases k with _ | _ | _ | _ | _ | k <;> cases hr
      · rw [hother q hqp] at hr
        exact h.seen q hq u m hr
    have hpastO : ∀ q < num, q ≠ p → ∀ u m, (w.act job p).pc q = .dump u m →
        (1 ≤ m → w.fs.chem ≠ none) ∧ (3 ≤ m → w.fs.params ≠ none) ∧ (5 ≤ m → w.fs.info ≠ none) := by
      intro q hq hqp u m hu
      rw [hother q hqp] at hu
      exact h.past q hq u m hu
    rw [hd] at hpc hfs
    rcases k with _ | _ | _ | _ | _ | k
    · -- opens chem
      simp only [act] at hpc hfs
      refine ⟨?_, ?_, ?_, ?_, ?_, ?_, ?_, ?_, ?_⟩ <;> rw [hfs] <;> try exact h.params
      · exact .inr (.inl rfl)
      · exact h.info
      · exact fun _ => ⟨p, hp, t, hpc⟩
      · exact fun e => hwit 3 (h.paramsO e) (by omega)
      · exact fun e => hwit 5 (h.infoO e) (by omega)
      · exact fun _ _ => ⟨p, hp, t, 1, hpc, by omega, by omega⟩
      · intro q hq u m hu
        refine ⟨fun _ => by simp, ?_⟩
        by_cases hqp : q = p
        · subst hqp
          rw [hpc] at hu
          cases hu
          exact ⟨fun _ => by omega, fun _ => by omega⟩
        · exact (hpastO q hq hqp u m hu).2
      · exact fun _ _ _ _ _ => .inl (by simp)
    · -- fills chem
      simp only [act] at hpc hfs
      refine ⟨?_, ?_, ?_, ?_, ?_, ?_, ?_, ?_, ?_⟩ <;> rw [hfs]
      · exact .inr (.inr (by rw [hjob p]))
      · exact h.params
      · exact h.info
      · intro e; cases e
      · exact fun e => hwit 3 (h.paramsO e) (by omega)
      · exact fun e => hwit 5 (h.infoO e) (by omega)
      · exact fun _ _ => ⟨p, hp, t, 2, hpc, by omega, by omega⟩
      · intro q hq u m hu
        refine ⟨fun _ => by simp, ?_⟩
        by_cases hqp : q = p
        · subst hqp
          rw [hpc] at hu
          cases hu
          exact ⟨fun _ => by omega, fun _ => by omega⟩
        · exact (hpastO q hq hqp u m hu).2
      · exact fun _ _ _ _ _ => .inl (by simp)
    · -- opens params
      simp only [act] at hpc hfs
      refine ⟨?_, ?_, ?_, ?_, ?_, ?_, ?_, ?_, ?_⟩ <;> rw [hfs]
      · exact h.chem
      · exact .inr (.inl rfl)
      · exact h.info
      · exact fun e => hwit 1 (h.chemO e) (by omega)
      · exact fun _ => ⟨p, hp, t, hpc⟩
      · exact fun e => hwit 5 (h.infoO e) (by omega)
      · exact fun _ _ => ⟨p, hp, t, 3, hpc, by omega, by omega⟩
      · intro q hq u m hu
        by_cases hqp : q = p
        · subst hqp
          rw [hpc] at hu
          cases hu
          exact ⟨fun _ => hpast.1 (by omega), fun _ => by simp, fun _ => by omega⟩
        · exact ⟨(hpastO q hq hqp u m hu).1, fun _ => by simp, (hpastO q hq hqp u m hu).2.2⟩
      · exact fun _ _ _ _ _ => .inr (.inl (by simp))
    · -- fills params
      simp only [act] at hpc hfs
      refine ⟨?_, ?_, ?_, ?_, ?_, ?_, ?_, ?_, ?_⟩ <;> rw [hfs]
      · exact h.chem
      · exact .inr (.inr (by rw [hjob p]))
      · exact h.info
      · exact fun e => hwit 1 (h.chemO e) (by omega)
      · intro e; cases e
      · exact fun e => hwit 5 (h.infoO e) (by omega)
      · exact fun _ _ => ⟨p, hp, t, 4, hpc, by omega, by omega⟩
      · intro q hq u m hu
        by_cases hqp : q = p
        · subst hqp
          rw [hpc] at hu
          cases hu
          exact ⟨fun _ => hpast.1 (by omega), fun _ => by simp, fun _ => by omega⟩
        · exact ⟨(hpastO q hq hqp u m hu).1, fun _ => by simp, (hpastO q hq hqp u m hu).2.2⟩
      · exact fun _ _ _ _ _ => .inr (.inl (by simp))
    · -- opens info
      simp only [act] at hpc hfs
      refine ⟨?_, ?_, ?_, ?_, ?_, ?_, ?_, ?_, ?_⟩ <;> rw [hfs]
      · exact h.chem
      · exact h.params
      · exact .inr (.inl rfl)
      · exact fun e => hwit 1 (h.chemO e) (by omega)
      · exact fun e => hwit 3 (h.paramsO e) (by omega)
      · exact fun _ => ⟨p, hp, t, hpc⟩
      · intro _ hn
        rcases hn with e | e | e
        · exact absurd e (hpast.1 (by omega))
        · exact absurd e (hpast.2.1 (by omega))
        · cases e
      · intro q hq u m hu
        by_cases hqp : q = p
        · subst hqp
          exact ⟨fun _ => hpast.1 (by omega), fun _ => hpast.2.1 (by omega), fun _ => by simp⟩
        · exact ⟨(hpastO q hq hqp u m hu).1, (hpastO q hq hqp u m hu).2.1, fun _ => by simp⟩
      · exact fun _ _ _ _ _ => .inr (.inr (by simp))
    · -- fills info
      have : k = 0 := by omega
      subst this
      simp only [act] at hpc hfs
      refine ⟨?_, ?_, ?_, ?_, ?_, ?_, ?_, ?_, ?_⟩ <;> rw [hfs]
      · exact h.chem
      · exact h.params
      · exact .inr (.inr (by rw [hjob p, hlow]))
      · exact fun e => hwit 1 (h.chemO e) (by omega)
      · exact fun e => hwit 3 (h.paramsO e) (by omega)
      · intro e; cases e
      · intro _ hn
        rcases hn with e | e | e
        · exact absurd e (hpast.1 (by omega))
        · exact absurd e (hpast.2.1 (by omega))
        · cases e
      · intro q hq u m hu
        by_cases hqp : q = p
        · subst hqp
          rw [hpc] at hu
          cases hu
        · exact ⟨(hpastO q hq hqp u m hu).1, (hpastO q hq hqp u m hu).2.1, fun _ => by simp⟩
      · exact fun _ _ _ _ _ => .inr (.inr (by simp))
  · have hd' : ∀ t k, w.pc p ≠ .dump t k := fun t k e => hd ⟨t, k, e⟩
    obtain ⟨e1, e2, e3⟩ := act_meta (job p) w.fs (w.pc p) hd'
    have f1 : (w.act job p).fs.chem = w.fs.chem := e1
    have f2 : (w.act job p).fs.params = w.fs.params := e2
    have f3 : (w.act job p).fs.info = w.fs.info := e3
    have hwit : ∀ m u q, w.pc q = .dump u m → (w.act job p).pc q = .dump u m := by
      intro m u q hu
      rw [hother q (by rintro rfl; exact hd' u m hu)]
      exact hu
    refine ⟨?_, ?_, ?_, ?_, ?_, ?_, ?_, ?_, ?_⟩ <;> simp only [f1, f2, f3]
    · exact h.chem
    · exact h.params
    · exact h.info
    · intro e
      obtain ⟨q, hq, u, hu⟩ := h.chemO e
      exact ⟨q, hq, u, hwit _ _ _ hu⟩
    · intro e
      obtain ⟨q, hq, u, hu⟩ := h.paramsO e
      exact ⟨q, hq, u, hwit _ _ _ hu⟩
    · intro e
      obtain ⟨q, hq, u, hu⟩ := h.infoO e
      exact ⟨q, hq, u, hwit _ _ _ hu⟩
    · intro e1 e2
      obtain ⟨q, hq, u, k, hu, hk⟩ := h.mixed e1 e2
      exact ⟨q, hq, u, k, hwit _ _ _ hu, hk⟩
    · intro q hq u m hu
      by_cases hqp : q = p
      · subst hqp
        rw [hpc] at hu
        have := act_dump _ _ _ hd' hu
        exact ⟨fun _ => by omega, fun _ => by omega, fun _ => by omega⟩
      · rw [hother q hqp] at hu
        exact h.past q hq u m hu
    · intro q hq u m hu
      by_cases hqp : q = p
      · subst hqp
        rw [hpc] at hu
        rcases act_reading _ _ _ hu with ⟨t, k, hr⟩ | hr
        · exact h.seen q hq t k hr
        · exact hr
      · rw [hother q hqp] at hu
        exact h.seen q hq u m hu

end Verif.Fwork.MorrisBatch
