/-
C91: no trajectory is lost but by a race, none with one worker; histories of batches.
-/
import Verif.Fwork.MorrisBatchLoss
import Mathlib.Order.Interval.Finset.Nat

namespace Verif.Fwork.MorrisBatch
open Verif.Plaschem Verif.Fwork.MorrisRuns

variable {κ π σ : Type} [DecidableEq κ] [DecidableEq π]

/-! ### lemmas -/

theorem meta_run {a : Args κ π σ} (hg : a.Good) {ids : List ℕ} {fs fs1 : Fs κ π σ} (hl : ids.length = a.num)
    (hs : ids.Pairwise (· < ·)) (hf : ∀ i ∈ ids, (fs.trajs (trajName i)).info = none) (h1 : fs1.trajs = fs.trajs)
    (h2 : SameMeta fs1 fs) (hready : Ready a.cfg fs) {w : World κ π σ} {n : ℕ}
    (h : PoolRun (a.job ids) a.num a.cores (a.start fs1) n w) : MetaInv a.cfg a.num w := by
  induction h with
  | refl =>
    obtain ⟨m1, m2, m3⟩ := h2
    have hstart : ∀ p, (a.start fs1).pc p = .start := by intro p; simp [Args.start, hg.accepted]
    have hfs : (a.start fs1).fs = fs1 := rfl
    rcases hready.1 with ⟨r1, r2, r3⟩ | ⟨r1, r2, r3⟩ <;>
      refine ⟨?_, ?_, ?_, ?_, ?_, ?_, ?_, ?_, ?_⟩ <;>
      simp only [hfs, m1, m2, m3, r1, r2, r3, hstart] <;> simp
  | @step n w w' hr hst ih =>
    obtain ⟨p, hp, rfl, ho⟩ := hst.inv
    refine meta_act hg.backend (fun _ => rfl) ih hp fun t k hk => ?_
    have := (batch_inv hl hs hf h1 hr).here p hp
    rw [hk] at this
    exact this.2.1

/-- a step into death, in a good batch -/
theorem dies {a : Args κ π σ} (hg : a.Good) {ids : List ℕ} {fs : Fs κ π σ} (hf : ∀ i ∈ ids, (fs.trajs (trajName i)).info = none)
    (hready : Ready a.cfg fs) (hl : ids.length = a.num) {w : World κ π σ} (hi : BatchInv a ids fs w)
    (hm : MetaInv a.cfg a.num w) {p : ℕ} (hp : p < a.num) (hnd : w.pc p ≠ .dead)
    (hd : (w.act (a.job ids) p).pc p = .dead) :
    Reading (w.pc p) ∧ ∃ q < a.num, q ≠ p ∧ Dumping (w.pc q) := by
  have hpc : (w.act (a.job ids) p).pc p = (act (a.job ids p) w.fs (w.pc p)).2 := Function.update_self _ _ _
  rw [hpc] at hd
  have hh := hi.here p hp
  have hsup : a.supported = true := by simpa [Args.supported] using hg.type
  have hsol : ∀ j ≤ (a.steps p).length, ((a.job ids p).sols j).isSome := by
    intro j hj
    simp only [Args.job, hsup, if_true]
    exact hg.solves p hp j hj
  have hinfo : (fs.trajs (dirOf ids p)).info = none := hf _ (dirOf_mem hl hp)
  have hfresh : ∀ r, (fs.trajs (dirOf ids p)).runs r = none := hready.2 _ hinfo
  cases hq : w.pc p with
  | start => rw [hq] at hd; simp [act, Args.job] at hd
  | check t =>
    rw [hq] at hd hh
    obtain ⟨rfl, hh⟩ := hh
    simp only [act] at hd
    rw [hh, hinfo] at hd
    simp at hd
  | mk t => rw [hq] at hd; cases hd
  | coherence t => rw [hq] at hd; simp only [act] at hd; split at hd <;> cases hd
  | reading t k =>
    refine ⟨⟨t, k, rfl⟩, ?_⟩
    have hseen := hm.seen p hp t k hq
    have hmix : (w.fs.chem = none ∨ w.fs.params = none ∨ w.fs.info = none) → ∃ q < a.num, q ≠ p ∧ Dumping (w.pc q) := by
      intro hn
      obtain ⟨q, hqn, u, m, hu, hm1, hm2⟩ := hm.mixed hseen hn
      exact ⟨q, hqn, (by rintro rfl; rw [hq] at hu; cases hu), u, m, hu, hm1, by omega⟩
    have hop : ∀ m, 1 ≤ m → m ≤ 5 → (∃ q < a.num, ∃ u, w.pc q = .dump u m) → ∃ q < a.num, q ≠ p ∧ Dumping (w.pc q) := by
      rintro m hm1 hm2 ⟨q, hqn, u, hu⟩
      exact ⟨q, hqn, (by rintro rfl; rw [hq] at hu; cases hu), u, m, hu, hm1, hm2⟩
    rw [hq] at hd
    rcases k with _ | _ | k
    · simp only [act] at hd
      rcases hm.chem with e | e | e
      · exact hmix (.inl e)
      · exact hop 1 (by omega) (by omega) (hm.chemO e)
      · rw [if_pos (show w.fs.chem = some (.full (a.job ids p).cfg.chem) from e)] at hd; cases hd
    · simp only [act] at hd
      rcases hm.params with e | e | e
      · exact hmix (.inr (.inl e))
      · exact hop 3 (by omega) (by omega) (hm.paramsO e)
      · rw [if_pos (show w.fs.params = some (.full (a.job ids p).cfg.params) from e)] at hd; cases hd
    · simp only [act] at hd
      rcases hm.info with e | e | e
      · exact hmix (.inr (.inr e))
      · exact hop 5 (by omega) (by omega) (hm.infoO e)
      · rw [if_pos (show w.fs.info = some (.full ((a.job ids p).cfg.type, (a.job ids p).cfg.backend)) from e)] at hd; cases hd
  | mkRun t j =>
    rw [hq] at hd hh
    obtain ⟨rfl, -, h2, -, -, h5⟩ := hh
    simp only [act] at hd
    rw [if_pos ⟨hsol j h2, by rw [h5 hfresh j (le_refl _)]; rfl⟩] at hd
    cases hd
  | openSol t j => rw [hq] at hd; cases hd
  | writeSol t j =>
    rw [hq] at hd hh
    obtain ⟨rfl, -, h2, -⟩ := hh
    obtain ⟨s, hs⟩ := Option.isSome_iff_exists.1 (hsol j h2)
    simp only [act, hs] at hd
    split at hd <;> cases hd
  | openMeta t => rw [hq] at hd; cases hd
  | writeMeta t => rw [hq] at hd; cases hd
  | dump t k => rw [hq] at hd; rcases k with _ | _ | _ | _ | _ | k <;> cases hd
  | done t => rw [hq] at hd; cases hd
  | dead => exact absurd hq hnd

theorem pool_load {job : ℕ → Job κ π σ} {num cores : ℕ} {w0 w : World κ π σ} {n : ℕ}
    (h0 : ∀ p < num, ¬ Active (w0.pc p)) (_ht : ∀ p, (job p).tid ≠ none) (h : PoolRun job num cores w0 n w) :
    ((Finset.range num).filter fun q => Active (w.pc q)).card ≤ cores := by
  induction h with
  | refl =>
    rw [Finset.card_eq_zero.2 (Finset.filter_eq_empty_iff.2 fun q hq => h0 q (Finset.mem_range.1 hq))]
    exact Nat.zero_le _
  | @step n w w' _ hst ih =>
    cases hst with
    | go p hp ha =>
      refine le_trans (Finset.card_le_card fun q hq => ?_) ih
      rw [Finset.mem_filter] at hq ⊢
      refine ⟨hq.1, ?_⟩
      by_cases hqp : q = p
      · rw [hqp]; exact ha
      · have : (w.act job p).pc q = w.pc q := Function.update_of_ne hqp _ _
        rw [← this]; exact hq.2
    | take p hp hs _ hc =>
      have hsub : ((Finset.range num).filter fun q => Active ((w.act job p).pc q)) ⊆
          insert p ((Finset.range num).filter fun q => Active (w.pc q)) := by
        intro q hq
        rw [Finset.mem_filter] at hq
        by_cases hqp : q = p
        · rw [hqp]; exact Finset.mem_insert_self _ _
        · refine Finset.mem_insert_of_mem (Finset.mem_filter.2 ⟨hq.1, ?_⟩)
          have : (w.act job p).pc q = w.pc q := Function.update_of_ne hqp _ _
          rw [← this]; exact hq.2
      have := (Finset.card_le_card hsub).trans (Finset.card_insert_le _ _)
      omega

/-! ### C91 -/

/-- **C91.** Why a trajectory of a batch is lost. Given a directory in order and a good batch, a worker raises only while it
compares the files of the meta directory, at a moment when another worker is writing them. -/
theorem batch_loss {a : Args κ π σ} (hg : a.Good) {bound : ℕ} {fs fs1 : Fs κ π σ} (hready : Ready a.cfg fs)
    (hb : ∀ i, bound ≤ i → (fs.trajs (trajName i)).info = none) {ids : List ℕ} (h : a.call bound fs = (fs1, .ok ids))
    {w w' : World κ π σ} {n : ℕ} (hr : PoolRun (a.job ids) a.num a.cores (a.start fs1) n w)
    (hs : PoolStep (a.job ids) a.num a.cores w w') {p : ℕ} (hp : p < a.num) (hnd : w.pc p ≠ .dead)
    (hd : w'.pc p = .dead) : Reading (w.pc p) ∧ ∃ q < a.num, q ≠ p ∧ Dumping (w.pc q) := by
  obtain ⟨c1, c2, -, c4, c5, c6, -⟩ := call_ids hb h
  have hf : ∀ i ∈ ids, (fs.trajs (trajName i)).info = none := fun i hi => (c6 i hi).2
  obtain ⟨q, hq, rfl, ho⟩ := hs.inv
  have hqp : q = p := by
    by_contra hne
    have : (w.act (a.job ids) q).pc p = w.pc p := Function.update_of_ne (fun e => hne e.symm) _ _
    rw [this] at hd
    exact hnd hd
  subst hqp
  exact dies hg hf hready c4 (batch_inv c4 c5 hf c1 hr) (meta_run hg c4 c5 hf c1 c2 hready hr) hp hnd hd

theorem one_worker_alive {a : Args κ π σ} (hg : a.Good) (hc : a.cores ≤ 1) {bound : ℕ} {fs fs1 : Fs κ π σ}
    (hready : Ready a.cfg fs) (hb : ∀ i, bound ≤ i → (fs.trajs (trajName i)).info = none) {ids : List ℕ}
    (h : a.call bound fs = (fs1, .ok ids)) {w : World κ π σ} {n : ℕ}
    (hr : PoolRun (a.job ids) a.num a.cores (a.start fs1) n w) : ∀ p < a.num, w.pc p ≠ .dead := by
  induction hr with
  | refl => intro p _; simp [Args.start, hg.accepted]
  | @step n w w' hr hst ih =>
    intro p hp hd
    obtain ⟨⟨t, k, h1⟩, q, hq, hne, u, m, h2, -⟩ := batch_loss hg hready hb h hr hst hp (ih p hp) hd
    have hload := pool_load (w0 := a.start fs1)
      (fun p _ => by simp only [Args.start, hg.accepted, if_true]; exact fun ha => ha.1 rfl)
      (fun p => by simp [Args.job]) hr
    have hsub : ({p, q} : Finset ℕ) ⊆ (Finset.range a.num).filter fun q => Active (w.pc q) := by
      intro x hx
      rw [Finset.mem_insert, Finset.mem_singleton] at hx
      rw [Finset.mem_filter, Finset.mem_range]
      rcases hx with rfl | rfl
      · exact ⟨hp, by rw [h1]; exact ⟨by simp, id⟩⟩
      · exact ⟨hq, by rw [h2]; exact ⟨by simp, id⟩⟩
    have := Finset.card_le_card hsub
    rw [Finset.card_pair (fun e => hne e.symm)] at this
    omega

/-- **C91.** With one worker nothing is lost: when the batch is over all its trajectories are complete, all others are as
before, and the directory is in order again. -/
theorem one_worker {a : Args κ π σ} (hg : a.Good) (hc : a.cores ≤ 1) {bound : ℕ} {fs fs1 : Fs κ π σ}
    (hready : Ready a.cfg fs) (hb : ∀ i, bound ≤ i → (fs.trajs (trajName i)).info = none) {ids : List ℕ}
    (h : a.call bound fs = (fs1, .ok ids)) {w : World κ π σ} {n : ℕ}
    (hr : PoolRun (a.job ids) a.num a.cores (a.start fs1) n w) (ho : AllOver a.num w) :
    (∀ p < a.num, ∃ m, Complete (a.job ids p) m (w.fs.trajs (dirOf ids p))) ∧
    (∀ t, (∀ p < a.num, t ≠ dirOf ids p) → w.fs.trajs t = fs.trajs t) ∧ Ready a.cfg w.fs := by
  obtain ⟨r1, r2⟩ := batch_result hb h hr ho
  have hal := one_worker_alive hg hc hready hb h hr
  have r3 : ∀ p < a.num, ∃ m, Complete (a.job ids p) m (w.fs.trajs (dirOf ids p)) := by
    intro p hp
    rcases r1 p hp with ⟨-, hm⟩ | ⟨hd, -⟩
    · exact hm
    · exact absurd hd (hal p hp)
  refine ⟨r3, r2, ?_, ?_⟩
  · obtain ⟨c1, c2, -, c4, c5, c6, -⟩ := call_ids hb h
    have hm := meta_run hg c4 c5 (fun i hi => (c6 i hi).2) c1 c2 hready hr
    have hno : ∀ p < a.num, ∀ t k, w.pc p ≠ .dump t k := by
      intro p hp t k e
      have := ho p hp
      rw [e] at this
      exact this
    have n1 : w.fs.chem ≠ some .opened := fun e => by
      obtain ⟨p, hp, t, hd⟩ := hm.chemO e
      exact hno p hp t _ hd
    have n2 : w.fs.params ≠ some .opened := fun e => by
      obtain ⟨p, hp, t, hd⟩ := hm.paramsO e
      exact hno p hp t _ hd
    have n3 : w.fs.info ≠ some .opened := fun e => by
      obtain ⟨p, hp, t, hd⟩ := hm.infoO e
      exact hno p hp t _ hd
    by_cases hall : w.fs.chem = none ∧ w.fs.params = none ∧ w.fs.info = none
    · exact .inl hall
    · have hsome : w.fs.chem ≠ none ∨ w.fs.params ≠ none ∨ w.fs.info ≠ none := by
        by_contra hc
        push Not at hc
        exact hall hc
      have hnn : ¬ (w.fs.chem = none ∨ w.fs.params = none ∨ w.fs.info = none) := by
        intro hn
        obtain ⟨p, hp, t, k, hd, -⟩ := hm.mixed hsome hn
        exact hno p hp t _ hd
      push Not at hnn
      exact .inr ⟨(hm.chem.resolve_left hnn.1).resolve_left n1, (hm.params.resolve_left hnn.2.1).resolve_left n2,
        (hm.info.resolve_left hnn.2.2).resolve_left n3⟩
  · intro t hn r
    by_cases ht : ∀ p < a.num, t ≠ dirOf ids p
    · rw [r2 t ht] at hn ⊢
      exact hready.2 t hn r
    · push Not at ht
      obtain ⟨p, hp, rfl⟩ := ht
      obtain ⟨m, hm⟩ := r3 p hp
      rw [hm.listed] at hn
      cases hn

/-- Batches with one worker one after the other, all of one configuration, beginning in a new directory. `N` counts the
trajectories asked for. -/
inductive Batches (c : Cfg κ π) : Fs κ π σ → ℕ → Prop
  | new : Batches c Fs.new 0
  | batch {fs fs1 : Fs κ π σ} {N : ℕ} {a : Args κ π σ} {bound : ℕ} {ids : List ℕ} {w : World κ π σ} {n : ℕ} :
      Batches c fs N → a.cfg = c → a.Good → a.cores = 1 → (∀ i, bound ≤ i → (fs.trajs (trajName i)).info = none) →
      a.call bound fs = (fs1, .ok ids) → PoolRun (a.job ids) a.num a.cores (a.start fs1) n w → AllOver a.num w →
      Batches c w.fs (N + a.num)

theorem ids_next {ids : List ℕ} {N : ℕ} (hs : ids.Pairwise (· < ·)) (hm : ∀ i ∈ ids, N < i)
    (hn : ∀ j, N < j → j ∉ ids → ∀ i ∈ ids, i < j) (i : ℕ) : i ∈ ids ↔ N < i ∧ i ≤ N + ids.length := by
  have hnd : ids.Nodup := hs.imp fun h => Nat.ne_of_lt h
  have hcard : ids.toFinset.card = ids.length := List.toFinset_card_of_nodup hnd
  have hge : ∀ j, N < j → j ≤ N + ids.length → j ∈ ids := by
    intro j h1 h2
    by_contra hj
    have hsub : ids.toFinset ⊆ Finset.Ioo N j := by
      intro x hx
      rw [List.mem_toFinset] at hx
      exact Finset.mem_Ioo.2 ⟨hm x hx, hn j h1 hj x hx⟩
    have := Finset.card_le_card hsub
    rw [hcard, Nat.card_Ioo] at this
    omega
  refine ⟨fun h => ⟨hm i h, ?_⟩, fun h => hge i h.1 h.2⟩
  by_contra hlt
  have hsub : insert i (Finset.Ioc N (N + ids.length)) ⊆ ids.toFinset := by
    intro x hx
    rw [List.mem_toFinset]
    rcases Finset.mem_insert.1 hx with rfl | hx
    · exact h
    · rw [Finset.mem_Ioc] at hx
      exact hge x hx.1 hx.2
  have h1 := Finset.card_le_card hsub
  rw [hcard, Finset.card_insert_of_notMem (by rw [Finset.mem_Ioc]; omega), Nat.card_Ioc] at h1
  omega

/-- **C91.** After any number of such batches exactly the trajectories 1 to `N` are there, all complete, so that nothing was
lost and the numbering has no gaps; and the directory is in order. -/
theorem batches {c : Cfg κ π} {fs : Fs κ π σ} {N : ℕ} (h : Batches c fs N) :
    Ready c fs ∧ (∀ i, 1 ≤ i → i ≤ N → ∃ (J : Job κ π σ) (m : TrajMeta), J.cfg = c ∧ Complete J m (fs.trajs (trajName i))) ∧
    ∀ i, N < i → (fs.trajs (trajName i)).info = none := by
  induction h with
  | new => exact ⟨⟨.inl ⟨rfl, rfl, rfl⟩, fun _ _ _ => rfl⟩, fun i h1 h2 => by omega, fun _ _ => rfl⟩
  | @batch fs fs1 N a bound ids w n _ hcfg hg hcores hb hcall hr ho ih =>
    obtain ⟨i1, i2, i3⟩ := ih
    subst hcfg
    obtain ⟨r1, r2, r3⟩ := one_worker hg hcores.le i1 hb hcall hr ho
    obtain ⟨-, -, -, c4, c5, c6, c7⟩ := call_ids hb hcall
    have hN : ∀ i ∈ ids, N < i := by
      intro i hi
      by_contra hle
      obtain ⟨J, m, -, hm⟩ := i2 i (c6 i hi).1 (by omega)
      have := (c6 i hi).2
      rw [hm.listed] at this
      cases this
    have hids := ids_next c5 hN fun j hj => c7 j (by omega) (i3 j hj)
    rw [c4] at hids
    have hout : ∀ i, i ∉ ids → w.fs.trajs (trajName i) = fs.trajs (trajName i) := by
      intro i hi
      refine r2 _ fun p hp e => hi ?_
      rw [trajName_injective e]
      exact dirOf_mem c4 hp
    refine ⟨r3, fun i h1 h2 => ?_, fun i hi => ?_⟩
    · by_cases hin : i ≤ N
      · rw [hout i fun hc => by have := (hids i).1 hc; omega]
        exact i2 i h1 hin
      · have hmem : i ∈ ids := (hids i).2 ⟨by omega, h2⟩
        obtain ⟨p, hp, rfl⟩ := List.mem_iff_getElem.1 hmem
        obtain ⟨m, hm⟩ := r1 p (by omega)
        have hd : dirOf ids p = trajName ids[p] := by
          unfold dirOf
          rw [List.getD_eq_getElem?_getD, List.getElem?_eq_getElem hp]
          rfl
        rw [hd] at hm
        exact ⟨_, m, rfl, hm⟩
    · rw [hout i fun hc => by have := (hids i).1 hc; omega]
      exact i3 i (by omega)

end Verif.Fwork.MorrisBatch
