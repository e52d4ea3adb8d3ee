/-
Model of pygmo_fwork/optichem/morris.py, part 5: what the coherence check of a Morris run achieves, and when a Morris run
gets stuck (C66). Built on the transition system of MorrisRuns.
-/
import Verif.Fwork.MorrisRuns

namespace Verif.Fwork.MorrisRuns
open Verif.Plaschem

variable {κ π σ : Type} [DecidableEq κ] [DecidableEq π]

/-! ### lemmas -/

theorem toLower_idem (c : Char) : c.toLower.toLower = c.toLower := by
  unfold Char.toLower
  split
  · rename_i h
    split
    · rename_i h2
      exfalso
      have h1 : c.val.toNat ≤ 90 := h.2
      have h0 : 65 ≤ c.val.toNat := h.1
      have h3 : (c.val + 32).toNat ≤ 90 := h2.2
      rw [UInt32.toNat_add] at h3
      have : (32 : UInt32).toNat = 32 := rfl
      omega
    · rfl
  · rfl

theorem lower_idem (s : Str) : lower (lower s) = lower s := by
  unfold lower
  rw [List.map_map]
  apply List.map_congr_left
  intro c _
  exact toLower_idem c

/-- `n` operations of one process -/
def World.actN (job : ℕ → Job κ π σ) (w : World κ π σ) (p : ℕ) : ℕ → World κ π σ
  | 0 => w
  | n + 1 => (World.actN job w p n).act job p

theorem actN_pc_other (job : ℕ → Job κ π σ) (w : World κ π σ) (p n q : ℕ) (h : q ≠ p) :
    (w.actN job p n).pc q = w.pc q := by
  induction n with
  | zero => rfl
  | succ n ih => exact (Function.update_of_ne h _ _).trans ih

/-- Nothing else acts and nobody is killed: the calls of `run_trajectory` come one after the other, each to its end (which
may be an exception). -/
inductive Sequential (job : ℕ → Job κ π σ) : World κ π σ → Prop
  | init : Sequential job World.init
  | call {w : World κ π σ} (p n : ℕ) : Sequential job w → w.pc p = .start →
      ((w.actN job p n).pc p = .dead ∨ ∃ t, (w.actN job p n).pc p = .done t) → Sequential job (w.actN job p n)

theorem Reach.actN {job : ℕ → Job κ π σ} {w : World κ π σ} (h : Reach job w) (p n : ℕ) : Reach job (w.actN job p n) := by
  induction n with
  | zero => exact h
  | succ n ih => exact .act p ih

theorem Sequential.reach {job : ℕ → Job κ π σ} {w : World κ π σ} (h : Sequential job w) : Reach job w := by
  induction h with
  | init => exact .init
  | call p n _ _ _ ih => exact ih.actN p n

/-- the meta directory is the same -/
def SameMeta (a b : Fs κ π σ) : Prop := a.chem = b.chem ∧ a.params = b.params ∧ a.info = b.info

/-- what is known in the middle of a call that started in `fs0` -/
def Mid (J : Job κ π σ) (fs0 fs : Fs κ π σ) : PC → Prop
  | .start => SameMeta fs fs0
  | .check _ => SameMeta fs fs0
  | .mk _ => SameMeta fs fs0
  | .coherence _ => SameMeta fs fs0
  | .reading _ k => SameMeta fs fs0 ∧ (1 ≤ k → fs0.chem = some (.full J.cfg.chem)) ∧
      (2 ≤ k → fs0.params = some (.full J.cfg.params))
  | .dead => SameMeta fs fs0
  | .mkRun _ _ => SameMeta fs fs0 ∧ fs0.coherent J.cfg = true
  | .openSol _ _ => SameMeta fs fs0 ∧ fs0.coherent J.cfg = true
  | .writeSol _ _ => SameMeta fs fs0 ∧ fs0.coherent J.cfg = true
  | .openMeta _ => SameMeta fs fs0 ∧ fs0.coherent J.cfg = true
  | .writeMeta _ => SameMeta fs fs0 ∧ fs0.coherent J.cfg = true
  | .dump _ k => fs0.coherent J.cfg = true ∧ (2 ≤ k → fs.chem = some (.full J.cfg.chem)) ∧
      (4 ≤ k → fs.params = some (.full J.cfg.params))
  | .done _ => fs0.coherent J.cfg = true ∧ fs.chem = some (.full J.cfg.chem) ∧ fs.params = some (.full J.cfg.params) ∧
      fs.info = some (.full (J.cfg.type, lower J.cfg.backend))

theorem SameMeta.coherent {a b : Fs κ π σ} (h : SameMeta a b) (c : Cfg κ π) : a.coherent c = b.coherent c := by
  unfold Fs.coherent
  rw [h.1, h.2.1, h.2.2]

theorem coherent_empty {fs : Fs κ π σ} (h : (fs.chem.isNone && fs.params.isNone && fs.info.isNone) = true) (c : Cfg κ π) :
    fs.coherent c = true := by
  simp only [Bool.and_eq_true, Option.isNone_iff_eq_none] at h
  unfold Fs.coherent
  rw [h.1.1, h.1.2, h.2]

theorem coherent_full {fs : Fs κ π σ} {c : Cfg κ π} (h1 : fs.chem = some (.full c.chem))
    (h2 : fs.params = some (.full c.params)) (h3 : fs.info = some (.full (c.type, c.backend))) :
    fs.coherent c = true := by
  unfold Fs.coherent
  rw [h1, h2, h3]
  simp

theorem coherent_cases {fs : Fs κ π σ} {c : Cfg κ π} (h : fs.coherent c = true) :
    (fs.chem = none ∧ fs.params = none ∧ fs.info = none) ∨
      (fs.chem = some (.full c.chem) ∧ fs.params = some (.full c.params) ∧ fs.info = some (.full (c.type, c.backend))) := by
  unfold Fs.coherent at h
  split at h
  · rename_i h1 h2 h3
    exact .inl ⟨h1, h2, h3⟩
  · rename_i k p m h1 h2 h3
    simp only [decide_eq_true_eq] at h
    obtain ⟨rfl, rfl, h4, h5⟩ := h
    obtain ⟨a, b⟩ := m
    exact .inr ⟨h1, h2, by rw [h3, ← h4, ← h5]⟩
  · cases h

theorem mid_act {J : Job κ π σ} {fs0 fs : Fs κ π σ} {pc : PC} (h : Mid J fs0 fs pc) :
    Mid J fs0 (act J fs pc).1 (act J fs pc).2 := by
  cases pc with
  | start =>
    simp only [act]
    cases J.tid with
    | some t => exact h
    | none => simp only; cases fs.nextId <;> exact h
  | check t => simp only [act]; split <;> exact h
  | mk t => exact h
  | coherence t =>
    simp only [act]
    have hs : SameMeta fs fs0 := h
    split
    · rename_i hc
      exact ⟨hs, by rw [← hs.coherent]; exact coherent_empty hc _⟩
    · exact ⟨hs, fun hk => by omega, fun hk => by omega⟩
  | reading t k =>
    obtain ⟨h0, h1, h2⟩ := h
    rcases k with _ | _ | k
    · simp only [act]
      split
      · rename_i hc
        exact ⟨h0, fun _ => h0.1.symm.trans hc, fun hk => by omega⟩
      · exact h0
    · simp only [act]
      split
      · rename_i hc
        exact ⟨h0, fun _ => h1 (by omega), fun _ => h0.2.1.symm.trans hc⟩
      · exact h0
    · simp only [act]
      split
      · rename_i hc
        exact ⟨h0, coherent_full (h1 (by omega)) (h2 (by omega)) (h0.2.2.symm.trans hc)⟩
      · exact h0
  | mkRun t j =>
    simp only [act]
    split
    · exact h
    · exact h.1
  | openSol t j => exact h
  | writeSol t j =>
    simp only [act]
    cases J.sols j with
    | none => exact h.1
    | some s => simp only; split <;> exact h
  | openMeta t => exact h
  | writeMeta t => exact ⟨h.2, fun hk => by omega, fun hk => by omega⟩
  | dump t k =>
    obtain ⟨h1, h2, h3⟩ := h
    rcases k with _ | _ | _ | _ | _ | k
    · exact ⟨h1, fun hk => by omega, fun hk => by omega⟩
    · exact ⟨h1, fun hk => rfl, fun hk => by omega⟩
    · exact ⟨h1, fun hk => h2 (by omega), fun hk => by omega⟩
    · exact ⟨h1, fun hk => h2 (by omega), fun hk => rfl⟩
    · exact ⟨h1, fun hk => h2 (by omega), fun hk => h3 (by omega)⟩
    · exact ⟨h1, h2 (by omega), h3 (by omega), rfl⟩
  | done t => exact h
  | dead => exact h

theorem mid_actN {job : ℕ → Job κ π σ} {w : World κ π σ} {p : ℕ} (hs : w.pc p = .start) (n : ℕ) :
    Mid (job p) w.fs (w.actN job p n).fs ((w.actN job p n).pc p) := by
  induction n with
  | zero => simp only [World.actN]; rw [hs]; exact ⟨rfl, rfl, rfl⟩
  | succ n ih =>
    have := mid_act ih
    have hpc : ((w.actN job p n).act job p).pc p = (act (job p) (w.actN job p n).fs ((w.actN job p n).pc p)).2 :=
      Function.update_self _ _ _
    show Mid (job p) w.fs ((w.actN job p n).act job p).fs (((w.actN job p n).act job p).pc p)
    rw [hpc]
    exact this

/-! ### C66: coherence -/

/-- Two configurations may belong to the same Morris run. -/
def Coherent (c d : Cfg κ π) : Prop :=
  c.chem = d.chem ∧ c.params = d.params ∧ c.type = d.type ∧ lower c.backend = lower d.backend

private structure SeqInv (job : ℕ → Job κ π σ) (w : World κ π σ) : Prop where
  files : (w.fs.chem = none ∧ w.fs.params = none ∧ w.fs.info = none ∧ ∀ p t, w.pc p ≠ .done t) ∨
    ∃ c : Cfg κ π, w.fs.chem = some (.full c.chem) ∧ w.fs.params = some (.full c.params) ∧
      w.fs.info = some (.full (c.type, lower c.backend)) ∧ ∀ p t, w.pc p = .done t → Coherent (job p).cfg c

private theorem seq_inv {job : ℕ → Job κ π σ} {w : World κ π σ} (h : Sequential job w) : SeqInv job w := by
  induction h with
  | init => exact ⟨.inl ⟨rfl, rfl, rfl, fun p t hc => by cases hc⟩⟩
  | @call w p n _ hs hend ih =>
    have hm := mid_actN (job := job) hs n
    have hother : ∀ q, q ≠ p → (w.actN job p n).pc q = w.pc q := fun q hq => actN_pc_other job w p n q hq
    rcases hend with hdead | ⟨t, hdone⟩
    · rw [hdead] at hm
      obtain ⟨m1, m2, m3⟩ := hm
      have hd : ∀ q t, (w.actN job p n).pc q = .done t → w.pc q = .done t := by
        intro q t hq
        by_cases hqp : q = p
        · subst hqp; rw [hdead] at hq; cases hq
        · rw [hother q hqp] at hq; exact hq
      rcases ih.files with ⟨a, b, c, d⟩ | ⟨c, a, b, d, e⟩
      · exact ⟨.inl ⟨m1.trans a, m2.trans b, m3.trans c, fun q t hq => d q t (hd q t hq)⟩⟩
      · exact ⟨.inr ⟨c, m1.trans a, m2.trans b, m3.trans d, fun q t hq => e q t (hd q t hq)⟩⟩
    · rw [hdone] at hm
      obtain ⟨m0, m1, m2, m3⟩ := hm
      refine ⟨.inr ⟨(job p).cfg, m1, m2, m3, fun q t' hq => ?_⟩⟩
      by_cases hqp : q = p
      · subst hqp; exact ⟨rfl, rfl, rfl, rfl⟩
      · rw [hother q hqp] at hq
        rcases ih.files with ⟨a, b, c, d⟩ | ⟨c, a, b, d, e⟩
        · exact absurd hq (d q t')
        · obtain ⟨e1, e2, e3, e4⟩ := e q t' hq
          unfold Fs.coherent at m0
          rw [a, b, d] at m0
          simp only [decide_eq_true_eq] at m0
          obtain ⟨k1, k2, k3, k4⟩ := m0
          refine ⟨e1.trans k1, e2.trans k2, e3.trans k3, ?_⟩
          rw [← k4, lower_idem]; exact e4

/-- **C66.** If the calls come one after the other and none is killed, all trajectories that were finished belong to one
configuration: the same state of the chemistry, the same model parameters, the same type of trajectory and the same
backend. -/
theorem sequential_coherent {job : ℕ → Job κ π σ} {w : World κ π σ} (h : Sequential job w) {p q : ℕ} {t t' : Str}
    (hp : w.pc p = .done t) (hq : w.pc q = .done t') : Coherent (job p).cfg (job q).cfg := by
  rcases (seq_inv h).files with ⟨-, -, -, d⟩ | ⟨c, -, -, -, e⟩
  · exact absurd hp (d p t)
  · obtain ⟨a1, a2, a3, a4⟩ := e p t hp
    obtain ⟨b1, b2, b3, b4⟩ := e q t' hq
    exact ⟨a1.trans b1.symm, a2.trans b2.symm, a3.trans b3.symm, a4.trans b4.symm⟩

/-! ### C66: getting stuck -/

/-- a call whose coherence check fails never finishes and writes nothing to the trajectories -/
theorem incoherent_never {job : ℕ → Job κ π σ} {w : World κ π σ} {p : ℕ} (hs : w.pc p = .start)
    (hc : w.fs.coherent (job p).cfg = false) (n : ℕ) :
    (∀ t, (w.actN job p n).pc p ≠ .done t) ∧ (w.actN job p n).fs.trajs = w.fs.trajs ∧
      SameMeta (w.actN job p n).fs w.fs := by
  have hm : ∀ n, Mid (job p) w.fs (w.actN job p n).fs ((w.actN job p n).pc p) := fun n => mid_actN hs n
  have key : ∀ n, (w.actN job p n).fs.trajs = w.fs.trajs := by
    intro n
    induction n with
    | zero => rfl
    | succ n ih =>
      rw [← ih]
      have hn := hm n
      funext t
      show (act (job p) (w.actN job p n).fs ((w.actN job p n).pc p)).1.trajs t = _
      cases hpc : (w.actN job p n).pc p <;> rw [hpc] at hn <;> first
        | (have := hn.2; rw [hc] at this; cases this)
        | (have := hn.1; rw [hc] at this; cases this)
        | exact act_trajs _ _ _ _ (fun ho => ho) (fun h => by cases h)
  refine ⟨fun t ht => ?_, key n, ?_⟩
  · have := hm n
    rw [ht] at this
    have := this.1
    rw [hc] at this
    cases this
  · have := hm n
    cases hpc : (w.actN job p n).pc p <;> rw [hpc] at this <;> first
      | exact this
      | exact (show SameMeta _ _ ∧ _ from this).1
      | (have := this.1; rw [hc] at this; cases this)

/-- **C66, negative part.** A process killed while it dumps the meta data of the Morris run - after it has opened the first
of the three files, before it has filled the last - makes every later call fail, whatever its arguments. -/
theorem torn_dump_blocks {job : ℕ → Job κ π σ} {w : World κ π σ} (hc : w.fs.chem ≠ none)
    (ht : (∀ k, w.fs.chem ≠ some (.full k)) ∨ (∀ k, w.fs.params ≠ some (.full k)) ∨ (∀ k, w.fs.info ≠ some (.full k)))
    {p : ℕ} (hs : w.pc p = .start) (n : ℕ) : ∀ t, (w.actN job p n).pc p ≠ .done t := by
  refine (incoherent_never hs ?_ n).1
  unfold Fs.coherent
  split
  · rename_i h1 _ _; exact absurd h1 hc
  · rename_i h1 h2 h3
    rcases ht with h | h | h
    · exact absurd h1 (h _)
    · exact absurd h2 (h _)
    · exact absurd h3 (h _)
  · rfl

/-- **C66, negative part.** A backend name that is not in lower case is accepted by the model, but after the first
trajectory all further trajectories with the very same configuration are refused. -/
theorem backend_case_blocks {job : ℕ → Job κ π σ} {w : World κ π σ} (h : Sequential job w) {p q : ℕ} {t : Str}
    (hp : w.pc p = .done t) (hcfg : (job q).cfg = (job p).cfg) (hcase : lower (job p).cfg.backend ≠ (job p).cfg.backend)
    (hs : w.pc q = .start) (n : ℕ) : ∀ t, (w.actN job q n).pc q ≠ .done t := by
  refine (incoherent_never hs ?_ n).1
  rcases (seq_inv h).files with ⟨-, -, -, d⟩ | ⟨c, a, b, d, e⟩
  · exact absurd hp (d p t)
  · unfold Fs.coherent
    rw [a, b, d]
    simp only [decide_eq_false_iff_not, not_and]
    intro _ _ _ hb
    have h4 := (e p t hp).2.2.2
    rw [hcfg] at hb
    exact hcase (h4.trans hb)

/-- **C66, negative part.** A trajectory directory left behind by a process that died after its first model run is picked
again by every later call without an explicit id (it has no meta file), and every such call fails: no further trajectory
can be added. -/
theorem abandoned_blocks {job : ℕ → Job κ π σ} {w : World κ π σ} {t : Str} (hnext : w.fs.nextId = some t) {p : ℕ}
    (hbase : (w.fs.trajs t).runs ((job p).name 0) ≠ none) (htid : (job p).tid = none) (hs : w.pc p = .start) (n : ℕ) :
    (∀ t', (w.actN job p n).pc p ≠ .done t') ∧ (w.actN job p n).fs.trajs = w.fs.trajs ∧
      (w.actN job p n).fs.nextId = some t := by
  have key : ∀ n, (w.actN job p n).fs.trajs = w.fs.trajs ∧
      ((w.actN job p n).pc p = .start ∨ (w.actN job p n).pc p = .check t ∨ (w.actN job p n).pc p = .mk t ∨
        (w.actN job p n).pc p = .coherence t ∨ (w.actN job p n).pc p = .mkRun t 0 ∨ (w.actN job p n).pc p = .dead ∨
        ∃ k, (w.actN job p n).pc p = .reading t k) := by
    intro n
    induction n with
    | zero => exact ⟨rfl, .inl hs⟩
    | succ n ih =>
      obtain ⟨i1, i2⟩ := ih
      have hnx : (w.actN job p n).fs.nextId = some t := by
        rw [← hnext]; unfold Fs.nextId; rw [i1]
      have hpc : (w.actN job p (n + 1)).pc p = (act (job p) (w.actN job p n).fs ((w.actN job p n).pc p)).2 :=
        Function.update_self _ _ _
      have hfs : (w.actN job p (n + 1)).fs = (act (job p) (w.actN job p n).fs ((w.actN job p n).pc p)).1 := rfl
      rw [hpc, hfs, ← i1]
      rcases i2 with h | h | h | h | h | h | ⟨k, h⟩ <;> rw [h]
      · simp only [act, htid, hnx]
        exact ⟨trivial, .inr (.inl trivial)⟩
      · simp only [act]
        refine ⟨trivial, ?_⟩
        split
        · exact .inr (.inr (.inr (.inr (.inr (.inl rfl)))))
        · exact .inr (.inr (.inl rfl))
      · exact ⟨rfl, .inr (.inr (.inr (.inl rfl)))⟩
      · simp only [act]
        refine ⟨trivial, ?_⟩
        split
        · exact .inr (.inr (.inr (.inr (.inl rfl))))
        · exact .inr (.inr (.inr (.inr (.inr (.inr ⟨0, rfl⟩)))))
      · simp only [act]
        have hno : ¬ (((job p).sols 0).isSome ∧ (((w.actN job p n).fs.trajs t).runs ((job p).name 0)).isNone) := by
          rintro ⟨-, hc⟩
          rw [i1] at hc
          exact hbase (Option.isNone_iff_eq_none.1 hc)
        rw [if_neg hno]
        exact ⟨rfl, .inr (.inr (.inr (.inr (.inr (.inl rfl)))))⟩
      · exact ⟨rfl, .inr (.inr (.inr (.inr (.inr (.inl rfl)))))⟩
      · rcases k with _ | _ | k <;> simp only [act] <;> refine ⟨trivial, ?_⟩ <;> split
        · exact .inr (.inr (.inr (.inr (.inr (.inr ⟨1, rfl⟩)))))
        · exact .inr (.inr (.inr (.inr (.inr (.inl rfl)))))
        · exact .inr (.inr (.inr (.inr (.inr (.inr ⟨2, rfl⟩)))))
        · exact .inr (.inr (.inr (.inr (.inr (.inl rfl)))))
        · exact .inr (.inr (.inr (.inr (.inl rfl))))
        · exact .inr (.inr (.inr (.inr (.inr (.inl rfl)))))
  obtain ⟨k1, k2⟩ := key n
  refine ⟨fun t' ht => ?_, k1, ?_⟩
  · rw [ht] at k2; simp at k2
  · rw [← hnext]; unfold Fs.nextId; rw [k1]

/-! ### names of the run directories -/

private theorem pad_takeWhile (w i : ℕ) (l : Str) : (pad w i ++ '_' :: l).takeWhile (fun c => c ≠ '_') = pad w i := by
  have hd : ∀ c ∈ pad w i, c ≠ '_' := by
    intro c hc
    unfold pad at hc
    rcases List.mem_append.1 hc with hc | hc
    · rw [List.eq_of_mem_replicate hc]; decide
    · rintro rfl
      exact Nat.underscore_not_in_toDigits hc
  rw [List.takeWhile_append_of_pos (fun c hc => by simpa using hd c hc)]
  simp

omit [DecidableEq κ] [DecidableEq π] in
/-- the run directories of one trajectory have different names -/
theorem name_injective (J : Job κ π σ) {i j : ℕ} (h : J.name i = J.name j) : i = j := by
  have key : ∀ i, (J.name i).takeWhile (fun c => c ≠ '_') = pad (width J.steps.length) i := by
    intro i
    cases i with
    | zero => exact pad_takeWhile _ _ _
    | succ i =>
      simp only [Job.name, List.append_assoc]
      exact pad_takeWhile _ _ _
  exact pad_injective _ (by rw [← key i, ← key j, h])

/-! ### C65: finished trajectories -/

/-- The meta file lists, in order, the runs, steps and factors of the call `J`, under different names, and in the directories
it names are the solutions that `J` computed. -/
structure Complete (J : Job κ π σ) (m : TrajMeta) (d : TrajDir σ) : Prop where
  listed : d.info = some (.full m)
  base : ∃ s, J.sols 0 = some s ∧ d.runs m.base = some (.sol (.full s))
  length : m.runs.length = J.steps.length
  run : ∀ (j : ℕ) (h : j < m.runs.length), ∃ s, J.sols (j + 1) = some s ∧ d.runs m.runs[j] = some (.sol (.full s))
  deltas : m.deltas = J.steps.map Prod.fst
  factors : m.factors = J.steps.map Prod.snd
  distinct : (m.base :: m.runs).Nodup

omit [DecidableEq κ] [DecidableEq π] in
theorem Holds.complete {J : Job κ π σ} {d : TrajDir σ} (h : Holds J d) : Complete J J.info d where
  listed := h.1
  base := h.2 0 (Nat.zero_le _)
  length := by simp [Job.info]
  run := by
    intro j hj
    have hj' : j < J.steps.length := by simpa [Job.info] using hj
    obtain ⟨s, h1, h2⟩ := h.2 (j + 1) hj'
    exact ⟨s, h1, by simpa [Job.info] using h2⟩
  deltas := rfl
  factors := rfl
  distinct := by
    have : J.info.base :: J.info.runs = (List.range (J.steps.length + 1)).map J.name := by
      rw [List.range_succ_eq_map]
      simp [Job.info, Function.comp_def]
    rw [this]
    exact List.pairwise_map.2 (List.nodup_range.imp fun hne h => hne (name_injective J h))

/-- **C65.** Whatever the number of processes, their interleaving and their deaths, a trajectory with a filled meta file
is complete: it is what one call computed. (All processes have numbers of factors with the same number of digits, as those
of one configuration do.) -/
theorem finished_complete {job : ℕ → Job κ π σ} {k : ℕ} (hk : ∀ p, width (job p).steps.length = k) {w : World κ π σ}
    (h : Reach job w) {t : Str} {m : TrajMeta} (hm : (w.fs.trajs t).info = some (.full m)) :
    ∃ p, Complete (job p) m (w.fs.trajs t) := by
  obtain ⟨p, rfl, hp⟩ := finished_holds hk h hm
  exact ⟨p, hp.complete⟩

/-- **C65.** Every call that has returned has left its own complete trajectory. -/
theorem done_complete {job : ℕ → Job κ π σ} {k : ℕ} (hk : ∀ p, width (job p).steps.length = k) {w : World κ π σ}
    (h : Reach job w) {p : ℕ} {t : Str} (hd : w.pc p = .done t) : ∃ m, Complete (job p) m (w.fs.trajs t) :=
  ⟨_, (done_holds hk h (.inl hd)).complete⟩

/-! ### C66: an undisturbed call succeeds -/

/-- one more operation -/
private theorem actN_next {job : ℕ → Job κ π σ} {w : World κ π σ} {p n : ℕ} {fs : Fs κ π σ} {pc : PC}
    (h1 : (w.actN job p n).fs = fs) (h2 : (w.actN job p n).pc p = pc) :
    (w.actN job p (n + 1)).fs = (act (job p) fs pc).1 ∧ (w.actN job p (n + 1)).pc p = (act (job p) fs pc).2 := by
  constructor
  · show (act (job p) (w.actN job p n).fs ((w.actN job p n).pc p)).1 = _
    rw [h1, h2]
  · have : (w.actN job p (n + 1)).pc p = (act (job p) (w.actN job p n).fs ((w.actN job p n).pc p)).2 :=
      Function.update_self _ _ _
    rw [this, h1, h2]

private theorem runs_succeed {job : ℕ → Job κ π σ} {w : World κ π σ} {p : ℕ} {t : Str}
    (hsols : ∀ j ≤ (job p).steps.length, ((job p).sols j).isSome) (k : ℕ) :
    ∀ j n, j + k = (job p).steps.length → (w.actN job p n).pc p = .mkRun t j →
      (∀ i, j ≤ i → (((w.actN job p n).fs.trajs t).runs ((job p).name i)) = none) →
      ∃ m, (w.actN job p m).pc p = .openMeta t := by
  induction k with
  | zero =>
    intro j n hj hpc hno
    have s1 := actN_next (job := job) rfl hpc
    simp only [act] at s1
    rw [if_pos ⟨hsols j (by omega), by rw [hno j (le_refl _)]; rfl⟩] at s1
    have s2 := actN_next (job := job) s1.1 s1.2
    simp only [act] at s2
    have s3 := actN_next (job := job) s2.1 s2.2
    simp only [act] at s3
    obtain ⟨s, hs⟩ := Option.isSome_iff_exists.1 (hsols j (by omega))
    rw [hs] at s3
    simp only at s3
    rw [if_neg (by omega)] at s3
    exact ⟨_, s3.2⟩
  | succ k ih =>
    intro j n hj hpc hno
    have s1 := actN_next (job := job) rfl hpc
    simp only [act] at s1
    rw [if_pos ⟨hsols j (by omega), by rw [hno j (le_refl _)]; rfl⟩] at s1
    have s2 := actN_next (job := job) s1.1 s1.2
    simp only [act] at s2
    have s3 := actN_next (job := job) s2.1 s2.2
    simp only [act] at s3
    obtain ⟨s, hs⟩ := Option.isSome_iff_exists.1 (hsols j (by omega))
    rw [hs] at s3
    simp only at s3
    rw [if_pos (by omega)] at s3
    refine ih (j + 1) _ (by omega) s3.2 (fun i hi => ?_)
    rw [s3.1]
    have hne : (job p).name i ≠ (job p).name j := fun hc => by have := name_injective _ hc; omega
    simp only [Fs.setRun, Function.update_self, TrajDir.put]
    rw [Function.update_of_ne hne, Function.update_of_ne hne, Function.update_of_ne hne]
    exact hno i (by omega)

/-- **C66.** A call that is not disturbed, whose model runs succeed and whose configuration is coherent with the run so
far, finishes - if the directory it picks is new or empty. -/
theorem alone_succeeds {job : ℕ → Job κ π σ} {w : World κ π σ} {p : ℕ} {t : Str} (hs : w.pc p = .start)
    (hid : (job p).tid = some t ∨ ((job p).tid = none ∧ w.fs.nextId = some t))
    (hempty : (w.fs.trajs t).info = none ∧ ∀ r, (w.fs.trajs t).runs r = none)
    (hcoh : w.fs.coherent (job p).cfg = true) (hsols : ∀ j ≤ (job p).steps.length, ((job p).sols j).isSome) :
    ∃ n, (w.actN job p n).pc p = .done t := by
  have s1 := actN_next (job := job) (w := w) (n := 0) rfl hs
  have e1 : act (job p) w.fs .start = (w.fs, .check t) := by
    simp only [act]
    rcases hid with h | ⟨h, h'⟩
    · rw [h]
    · rw [h]; simp only; rw [h']
  change _ = (act (job p) w.fs .start).1 ∧ _ = (act (job p) w.fs .start).2 at s1
  rw [e1] at s1
  have s2 := actN_next (job := job) s1.1 s1.2
  simp only [act, hempty.1] at s2
  have s3 := actN_next (job := job) s2.1 s2.2
  simp only [Option.isSome_none, Bool.false_eq_true, if_false, act] at s3
  have s4 := actN_next (job := job) s3.1 s3.2
  obtain ⟨n0, s5⟩ : ∃ n, (w.actN job p n).fs = w.fs.mkTraj t ∧ (w.actN job p n).pc p = .mkRun t 0 := by
    simp only [act] at s4
    rcases coherent_cases hcoh with ⟨c1, c2, c3⟩ | ⟨c1, c2, c3⟩
    · rw [if_pos (by simp [Fs.mkTraj, c1, c2, c3])] at s4
      exact ⟨_, s4⟩
    · rw [if_neg (by simp [Fs.mkTraj, c1])] at s4
      have r1 := actN_next (job := job) s4.1 s4.2
      simp only [act] at r1
      rw [if_pos (show (w.fs.mkTraj t).chem = _ from c1)] at r1
      have r2 := actN_next (job := job) r1.1 r1.2
      simp only [act] at r2
      rw [if_pos (show (w.fs.mkTraj t).params = _ from c2)] at r2
      have r3 := actN_next (job := job) r2.1 r2.2
      simp only [act] at r3
      rw [if_pos (show (w.fs.mkTraj t).info = _ from c3)] at r3
      exact ⟨_, r3⟩
  obtain ⟨m, hm⟩ := runs_succeed hsols (job p).steps.length 0 _ (by omega) s5.2
    (fun i _ => by rw [s5.1]; exact hempty.2 _)
  have f1 := actN_next (job := job) rfl hm
  simp only [act] at f1
  have f2 := actN_next (job := job) f1.1 f1.2
  simp only [act] at f2
  have f3 := actN_next (job := job) f2.1 f2.2
  simp only [act] at f3
  have f4 := actN_next (job := job) f3.1 f3.2
  simp only [act] at f4
  have f5 := actN_next (job := job) f4.1 f4.2
  simp only [act] at f5
  have f6 := actN_next (job := job) f5.1 f5.2
  simp only [act] at f6
  have f7 := actN_next (job := job) f6.1 f6.2
  simp only [act] at f7
  have f8 := actN_next (job := job) f7.1 f7.2
  simp only [act] at f8
  exact ⟨_, f8.2⟩

/-! ### demo and negative findings -/

namespace Demo

/-- a job with two factors; `c` stands for the state of its chemistry -/
def job2 (c : ℕ) (tid : Option Str) : Job ℕ ℕ ℕ :=
  { cfg := { chem := c, params := 0, type := str!"species", backend := str!"pygmol" }, tid := tid,
    steps := [(1/2, str!"Ar"), (-1/2, str!"O")], sols := fun j => some j }

/-- a job with ten factors -/
def job10 : Job ℕ ℕ ℕ :=
  { cfg := { chem := 0, params := 0, type := str!"reactions", backend := str!"pygmol" }, tid := none,
    steps := List.replicate 10 (1/2, str!"1"), sols := fun j => some (100 + j) }

/-- the jobs of two processes (and of all others) -/
def two (a b : Job ℕ ℕ ℕ) : ℕ → Job ℕ ℕ ℕ := fun p => if p = 0 then a else b

def sched (job : ℕ → Job ℕ ℕ ℕ) (w : World ℕ ℕ ℕ) (l : List ℕ) : World ℕ ℕ ℕ := l.foldl (fun w p => w.act job p) w

theorem sched_reach {job : ℕ → Job ℕ ℕ ℕ} {w : World ℕ ℕ ℕ} (h : Reach job w) (l : List ℕ) : Reach job (sched job w l) := by
  induction l generalizing w with
  | nil => exact h
  | cons p l ih => exact ih (.act p h)

/-- what can be seen of a world -/
structure View where
  pc0 : PC
  pc1 : PC
  meta1 : Option (File TrajMeta)
  meta2 : Option (File TrajMeta)
deriving DecidableEq

def view (w : World ℕ ℕ ℕ) : View :=
  ⟨w.pc 0, w.pc 1, (w.fs.trajs (trajName 1)).info, (w.fs.trajs (trajName 2)).info⟩

/-- two calls of the same configuration, one after the other: two finished trajectories -/
example : view (sched (two (job2 0 none) (job2 0 none)) World.init (List.replicate 30 0 ++ List.replicate 30 1)) =
    ⟨.done (trajName 1), .done (trajName 2), some (.full (job2 0 none).info), some (.full (job2 0 none).info)⟩ := by
  decide +kernel

/-- the same at the same time: the second process loses the race for the first directory and dies -/
example : view (sched (two (job2 0 none) (job2 0 none)) World.init (List.flatten (List.replicate 30 [0, 1]))) =
    ⟨.done (trajName 1), .dead, some (.full (job2 0 none).info), none⟩ := by decide +kernel

/-- **Finding.** Two processes with different chemistries that start at the same time both finish in the same Morris run:
the coherence check of both comes before either dumps its meta data. -/
theorem concurrent_incoherent : ∃ (job : ℕ → Job ℕ ℕ ℕ) (w : World ℕ ℕ ℕ), Reach job w ∧
    w.pc 0 = .done (trajName 1) ∧ w.pc 1 = .done (trajName 2) ∧ ¬ Coherent (job 0).cfg (job 1).cfg := by
  refine ⟨two (job2 0 (some (trajName 1))) (job2 1 (some (trajName 2))), _,
    sched_reach .init (List.flatten (List.replicate 30 [0, 1])), ?_, ?_, ?_⟩
  · decide +kernel
  · decide +kernel
  · rintro ⟨h, -⟩; revert h; decide

/-- **Finding.** A process killed between its trajectory's meta file and the meta data of the run leaves a finished
trajectory without a trace of its configuration; a trajectory of a different chemistry is then accepted. -/
theorem crash_incoherent : ∃ (job : ℕ → Job ℕ ℕ ℕ) (w : World ℕ ℕ ℕ), Reach job w ∧
    (w.fs.trajs (trajName 1)).info = some (.full (job 0).info) ∧ w.pc 1 = .done (trajName 2) ∧
    ¬ Coherent (job 0).cfg (job 1).cfg := by
  refine ⟨two (job2 0 none) (job2 1 none), _,
    sched_reach (.crash 0 (sched_reach .init (List.replicate 15 0))) (List.replicate 30 1), ?_, ?_, ?_⟩
  · decide +kernel
  · decide +kernel
  · rintro ⟨h, -⟩; revert h; decide

/-- **Finding.** Processes with different types of trajectories (so different numbers of factors, written with a different
number of digits) that start at the same time write to the same directory, and the one that ends later overwrites the meta
file of the finished trajectory. -/
theorem concurrent_overwrite : ∃ (job : ℕ → Job ℕ ℕ ℕ) (w w' : World ℕ ℕ ℕ), Reach job w ∧ Reach job w' ∧
    w.pc 0 = .done (trajName 1) ∧ (w.fs.trajs (trajName 1)).info = some (.full (job 0).info) ∧
    w'.pc 0 = .done (trajName 1) ∧ w'.pc 1 = .done (trajName 1) ∧
    (w'.fs.trajs (trajName 1)).info = some (.full (job 1).info) ∧ (job 0).info ≠ (job 1).info := by
  refine ⟨two (job2 0 none) job10, _, _, sched_reach .init ([1, 1, 1, 1] ++ List.replicate 30 0),
    sched_reach (sched_reach .init ([1, 1, 1, 1] ++ List.replicate 30 0)) (List.replicate 60 1), ?_, ?_, ?_, ?_, ?_, ?_⟩
  · decide +kernel
  · decide +kernel
  · decide +kernel
  · decide +kernel
  · decide +kernel
  · decide +kernel

/-- the situation of `abandoned_blocks` is reached: a process dies in its second model run -/
example : ∃ (job : ℕ → Job ℕ ℕ ℕ) (w : World ℕ ℕ ℕ), Reach job w ∧ w.fs.nextId = some (trajName 1) ∧
    (w.fs.trajs (trajName 1)).runs ((job 1).name 0) ≠ none ∧ (job 1).tid = none ∧ w.pc 1 = .start := by
  refine ⟨two (job2 0 none) (job2 0 none), _, .crash 0 (sched_reach .init (List.replicate 8 0)), ?_, ?_, ?_, ?_⟩
  · decide +kernel
  · decide +kernel
  · decide +kernel
  · decide +kernel

/-- the situation of `torn_dump_blocks` is reached -/
example : ∃ (job : ℕ → Job ℕ ℕ ℕ) (w : World ℕ ℕ ℕ), Reach job w ∧ w.fs.chem = some (.full 0) ∧ w.fs.params = none ∧
    w.pc 1 = .start := by
  refine ⟨two (job2 0 none) (job2 0 none), _, .crash 0 (sched_reach .init (List.replicate 17 0)), ?_, ?_, ?_⟩
  · decide +kernel
  · decide +kernel
  · decide +kernel

end Demo

end Verif.Fwork.MorrisRuns
