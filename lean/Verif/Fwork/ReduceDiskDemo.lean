/-
C93: the refusals of the constructor, findings, and a concrete reduction.
-/
import Verif.Fwork.ReduceDiskLoop
import Verif.Fwork.ReduceDiskMoment
import Verif.Fwork.ReduceExc

namespace Verif.Fwork.ReduceDisk
open Verif.Plaschem Verif.Plaschem.Net Verif.Fwork.Reduce
open Verif.Fwork.Log (Path FS Node fileName locate fetch Plain put_same put_ne isDir_iff fetch_plain locate_plain)

variable {Sol R M Score : Type} [LinearOrder R] [Zero R]

/-- **C93.** When the directory of a reduction is refused: the parent does not exist, or there is a file of that name, or a
directory that is not empty. A refusal changes nothing. -/
theorem refused_iff (E : Env Sol R M) (fs : FS (Doc Sol R M)) :
    ((∃ e, (makeDir E fs).2 = .error e) ↔ fs E.parent ≠ some .dir ∨ (∃ c, fs E.dir = some (.file c)) ∨
      (fs E.dir = some .dir ∧ ∃ n, fs (E.dir ++ [n]) ≠ none)) ∧
    (∀ e, (makeDir E fs).2 = .error e → (makeDir E fs).1 = []) := by
  unfold makeDir
  by_cases hp : fs.isDir E.parent = true
  · rw [if_pos hp]
    have hp' := isDir_iff.1 hp
    cases hd : fs E.dir with
    | none =>
      refine ⟨⟨fun ⟨e, he⟩ => (by cases he), ?_⟩, fun e he => (by cases he)⟩
      rintro (h | ⟨c, h⟩ | ⟨h, -⟩)
      · exact absurd hp' h
      · cases h
      · cases h
    | some x =>
      cases x with
      | file c => exact ⟨⟨fun _ => .inr (.inl ⟨c, rfl⟩), fun _ => ⟨_, rfl⟩⟩, fun _ _ => rfl⟩
      | dir =>
        simp only
        by_cases hn : ∃ n, fs (E.dir ++ [n]) ≠ none
        · rw [if_pos hn]
          exact ⟨⟨fun _ => .inr (.inr ⟨trivial, hn⟩), fun _ => ⟨_, rfl⟩⟩, fun _ _ => rfl⟩
        · rw [if_neg hn]
          refine ⟨⟨fun ⟨e, he⟩ => (by cases he), ?_⟩, fun e he => (by cases he)⟩
          rintro (h | ⟨c, h⟩ | ⟨-, h⟩)
          · exact absurd hp' h
          · cases h
          · exact absurd h hn
  · rw [if_neg hp]
    refine ⟨⟨fun _ => .inl fun h => hp (isDir_iff.2 h), fun _ => ⟨_, rfl⟩⟩, fun _ _ => rfl⟩

omit [LinearOrder R] [Zero R] in
/-- **C93.** The results of a reduction are safe from other reductions: after any of its operations, every attempt to make an
iterator for the same directory is refused and changes nothing. -/
theorem in_use {E : Env Sol R M} {fs : FS (Doc Sol R M)} {h : List (Row Sol R)} {ops : List (Op (Doc Sol R M))}
    {f : Option (List (Row Sol R))} (hp : fs.isDir E.parent = true) (t : Trace E fs h ops f) (k : ℕ)
    (E' : Env Sol R M) (hE : E'.dir = E.dir) (chem : State) :
    init E' (after fs (ops.take k)) chem = ([], .error (.red .init)) := by
  obtain ⟨h', -, -, hs, -⟩ := t.crash k
  have hpar : E'.parent = E.parent := by
    have := congrArg List.dropLast hE
    simpa [Env.dir] using this
  have hpd : (after fs (ops.take k)).isDir E'.parent = true := by
    rw [hpar, isDir_iff, after_frame, isDir_iff.1 hp]
    intro o ho he
    have := t.within o (List.mem_of_mem_take ho)
    rw [← he] at this
    exact not_prefix_self _ _ this
  unfold init makeDir
  rw [if_pos hpd, hE, hs.dir]
  simp only
  rw [if_pos ⟨str!"meta.yaml", by rw [hs.info]; simp⟩]

/-! ### findings -/

theorem popNext_empty {l : List (Str × Score)} (h : l ≠ []) :
    ∃ e l', l = e :: l' ∧ popNext ∅ l = some (e.1, dropLabel e.1 l') := by
  obtain ⟨⟨sp, x⟩, l', rfl⟩ := List.exists_cons_of_ne_nil h
  refine ⟨(sp, x), l', rfl, ?_⟩
  unfold popNext
  rw [if_neg (Finset.notMem_empty sp)]

/-- without the meta data no species is removed -/
theorem removeOne_no_meta {E : Env Sol R M} {fs : FS (Doc Sol R M)} {s : Red Sol R} {sp : Str} {bt : Bool}
    (h : fs (E.dir ++ [metaName]) = none) (hh : s.history ≠ []) (hl : sp ∈ s.left) (ha : sp ∉ s.attempted) :
    removeOne E fs s sp bt = ([], .error .os) := by
  unfold removeOne
  rw [if_neg hh, if_neg (not_not.2 hl), if_neg ha, h]

theorem runs_no_meta {E : Env Sol R M} {ranking : Ranking Score} {sorted : List (Str × Score) → Bool} {maxStreak : ℕ}
    {fs : FS (Doc Sol R M)} {s : Loop Sol R Score} {ops : List (Op (Doc Sol R M))} {r : Except DErr (Loop Sol R Score)}
    (hr : Runs E ranking sorted maxStreak fs s ops r) (h : fs (E.dir ++ [metaName]) = none) (hh : s.red.history ≠ [])
    (ha : s.red.attempted = ∅) :
    ops = [] ∧ (∀ t, r = .ok t → t.red = s.red) ∧
      ((∀ l, sorted l = true) → (∃ e ∈ s.ranking, e.1 ∈ s.red.left) → r = .error .os) := by
  induction hr with
  | @done fs s ops s' hp =>
    unfold pass at hp
    by_cases h1 : s.ranking = []
    · rw [if_pos h1] at hp
      cases hp
      exact ⟨rfl, fun t ht => by cases ht; rfl, fun _ ⟨e, he, _⟩ => by rw [h1] at he; cases he⟩
    rw [if_neg h1] at hp
    by_cases h2 : ¬ sorted s.ranking = true
    · rw [if_pos h2] at hp; cases hp
    rw [if_neg h2] at hp
    obtain ⟨e, l', hl, hpop⟩ := popNext_empty h1
    rw [ha, hpop] at hp
    simp only at hp
    by_cases h3 : e.1 ∉ s.red.left
    · rw [if_pos h3] at hp; cases hp
    · rw [if_neg h3, removeOne_no_meta h hh (not_not.1 h3) (by rw [ha]; exact Finset.notMem_empty _)] at hp
      cases hp
  | @raise fs s ops x hp =>
    unfold pass at hp
    by_cases h1 : s.ranking = []
    · rw [if_pos h1] at hp; cases hp
    rw [if_neg h1] at hp
    by_cases h2 : ¬ sorted s.ranking = true
    · rw [if_pos h2] at hp
      cases hp
      exact ⟨rfl, (fun t ht => by cases ht), fun hs _ => absurd (hs _) h2⟩
    rw [if_neg h2] at hp
    obtain ⟨e, l', hl, hpop⟩ := popNext_empty h1
    rw [ha, hpop] at hp
    simp only at hp
    by_cases h3 : e.1 ∉ s.red.left
    · rw [if_pos h3] at hp; cases hp
    · rw [if_neg h3, removeOne_no_meta h hh (not_not.1 h3) (by rw [ha]; exact Finset.notMem_empty _)] at hp
      cases hp
      exact ⟨rfl, (fun t ht => by cases ht), fun _ _ => rfl⟩
  | @next fs s ops s' ops' r hp _ ih =>
    unfold pass at hp
    by_cases h1 : s.ranking = []
    · rw [if_pos h1] at hp; cases hp
    rw [if_neg h1] at hp
    by_cases h2 : ¬ sorted s.ranking = true
    · rw [if_pos h2] at hp; cases hp
    rw [if_neg h2] at hp
    obtain ⟨e, l', hl, hpop⟩ := popNext_empty h1
    rw [ha, hpop] at hp
    simp only at hp
    by_cases h3 : e.1 ∉ s.red.left
    · rw [if_pos h3] at hp
      cases hp
      obtain ⟨i1, i2, i3⟩ := ih h hh ha
      refine ⟨by rw [i1]; rfl, i2, fun hs ⟨x, hx, hxl⟩ => i3 hs ⟨x, ?_, hxl⟩⟩
      rw [hl] at hx
      rcases List.mem_cons.1 hx with rfl | hx
      · exact absurd hxl h3
      · refine List.mem_filter.2 ⟨hx, ?_⟩
        rw [decide_eq_true_iff]
        intro he
        rw [he] at hxl
        exact h3 hxl
    · rw [if_neg h3, removeOne_no_meta h hh (not_not.1 h3) (by rw [ha]; exact Finset.notMem_empty _)] at hp
      cases hp

/-- the base case does not write the meta data -/
theorem runBase_no_meta {E : Env Sol R M} {fs : FS (Doc Sol R M)} {s s' : Red Sol R} {ops : List (Op (Doc Sol R M))}
    (hd : fs E.dir = some .dir) (hnew : ∀ p, E.dir ++ [runName 0 none] <+: p → fs p = none)
    (h : runBase E fs s = (ops, .ok s')) :
    after fs ops (E.dir ++ [metaName]) = fs (E.dir ++ [metaName]) ∧ s'.history ≠ [] ∧ s'.attempted = s.attempted ∧
      s'.left = s.left := by
  obtain ⟨o, r, e1, e2, -⟩ := runModel_spec E fs 0 s.chem (runName_plain 0 (a := none) (by intro sp hsp; cases hsp)) hd hnew
  unfold runBase at h
  by_cases h1 : s.history ≠ []
  · rw [if_pos h1] at h; cases h
  rw [if_neg h1] at h
  by_cases h2 : s.attempted ≠ ∅ ∨ s.solBase.isSome = true ∨ s.solLast.isSome = true
  · rw [if_pos h2] at h; cases h
  rw [if_neg h2, e1] at h
  cases r with
  | failed => cases h
  | error e => cases h
  | solved sol file =>
    cases h
    refine ⟨?_, by simp, rfl, rfl⟩
    rw [after_append, (within_history E _).frame _ (apart (by decide) (List.prefix_refl _)),
      e2.frame fs (apart (runName_ne_meta _ _) (List.prefix_refl _))]

/-- the result of the base case and of the first ranking -/
theorem startLoop_result {E : Env Sol R M} {fs : FS (Doc Sol R M)} {s : Red Sol R} {ranking : Ranking Score}
    (hd : fs E.dir = some .dir) (hnew : ∀ p, E.dir ++ [runName 0 none] <+: p → fs p = none) :
    (startLoop E ranking fs s).2 = lift (Reduce.startLoop E.abs ranking s) := by
  obtain ⟨o, r, e1, -, e3⟩ := runModel_spec E fs 0 s.chem (runName_plain 0 (a := none) (by intro sp hsp; cases hsp)) hd hnew
  have hb : (runBase E fs s).2 = lift (Reduce.runBase E.abs s) := by
    unfold runBase Reduce.runBase
    by_cases h1 : s.history ≠ []
    · rw [if_pos h1, if_pos h1]; rfl
    rw [if_neg h1, if_neg h1]
    by_cases h2 : s.attempted ≠ ∅ ∨ s.solBase.isSome = true ∨ s.solLast.isSome = true
    · rw [if_pos h2, if_pos h2]; rfl
    rw [if_neg h2, if_neg h2, e1]
    cases hx : Reduce.runModel E.abs 0 s.chem with
    | failed => rw [hx] at e3; subst e3; rfl
    | error e => rw [hx] at e3; subst e3; rfl
    | solved sol file => rw [hx] at e3; obtain ⟨rfl, -⟩ := e3; rfl
  unfold startLoop Reduce.startLoop
  by_cases h1 : E.cfg.net.getDisabledSpecies s.chem ≠ [] ∨ E.cfg.net.getDisabledReactions s.chem ≠ []
  · rw [if_pos h1, if_pos (show E.abs.net.getDisabledSpecies s.chem ≠ [] ∨ E.abs.net.getDisabledReactions s.chem ≠ [] from h1)]; rfl
  rw [if_neg h1, if_neg (show ¬ (E.abs.net.getDisabledSpecies s.chem ≠ [] ∨ E.abs.net.getDisabledReactions s.chem ≠ []) from h1)]
  rcases hr : runBase E fs s with ⟨b, z⟩
  rw [hr] at hb
  simp only at hb
  subst hb
  cases Reduce.runBase E.abs s with
  | error e => rfl
  | ok red =>
    cases ranking with
    | fixed l => rfl
    | dynamic f =>
      change (match f red.history.length red.chem with | none => _ | some l => _) = lift (match f red.history.length red.chem with | none => _ | some l => _)
      cases f red.history.length red.chem <;> rfl

/-- **Finding.** A directory that exists and is empty is accepted by the constructor, which, however, does not write the meta
data into it. No species is ever tried: the base case is computed, then the first eligible species of the ranking raises
`FileNotFoundError`. -/
theorem empty_dir_never_reduces {E : Env Sol R M} {fs : FS (Doc Sol R M)} (hwf : fs.WF) (hp : fs.isDir E.parent = true)
    (hd : fs E.dir = some .dir) (hempty : ∀ n, fs (E.dir ++ [n]) = none) (chem : State) :
    init E fs chem = ([], lift (initRed E.cfg chem)) ∧
    ∀ red, initRed E.cfg chem = .ok red → ∀ (ranking : Ranking Score) sorted maxStreak ops r,
      RunsReduction E ranking sorted maxStreak fs red ops r →
      (∀ t, r = .ok t → t.attempted = ∅ ∧ t.left = red.left) ∧
      ∀ l, ranking = .fixed l → (∀ l, sorted l = true) → (∃ e ∈ l, e.1 ∈ red.left) →
        (∃ s', (startLoop E ranking fs red).2 = .ok s') → r = .error .os := by
  have hmk : makeDir E fs = ([], .ok ()) := by
    unfold makeDir
    rw [if_pos hp, hd]
    simp only
    rw [if_neg]
    rintro ⟨n, hn⟩
    exact hn (hempty n)
  refine ⟨by unfold init; rw [hmk], ?_⟩
  intro red hi ranking sorted maxStreak ops r hr
  have hatt : red.attempted = ∅ := (initRed_ok hi).2.2.1
  have hnew : ∀ p, E.dir ++ [runName 0 none] <+: p → fs p = none := by
    intro p hpp
    by_contra hc
    by_cases he : E.dir ++ [runName 0 none] = p
    · rw [← he] at hc; exact hc (hempty _)
    · have := hwf.above hpp he hc
      rw [isDir_iff, hempty] at this
      cases this
  unfold RunsReduction at hr
  rcases hs : startLoop E ranking fs red with ⟨o, x⟩
  rw [hs] at hr
  cases x with
  | error e =>
    simp only at hr
    obtain ⟨-, rfl⟩ := hr
    exact ⟨(fun t ht => by cases ht), fun _ _ _ _ ⟨s', hs'⟩ => by cases hs'⟩
  | ok l =>
    simp only at hr
    obtain ⟨o', y, hrun, -, rfl⟩ := hr
    have hb : ∃ red', runBase E fs red = (o, .ok red') ∧ l.red = red' ∧ ∀ k, ranking = .fixed k → l.ranking = k := by
      unfold startLoop at hs
      split at hs
      · cases hs
      rcases hb : runBase E fs red with ⟨b, z⟩
      rw [hb] at hs
      cases z with
      | error e => cases hs
      | ok red' =>
        cases ranking with
        | fixed k =>
          cases hs
          exact ⟨_, rfl, rfl, fun k' hk => by cases hk; rfl⟩
        | dynamic f =>
          simp only at hs
          cases hf : f red'.history.length red'.chem with
          | none => rw [hf] at hs; cases hs
          | some k =>
            rw [hf] at hs
            cases hs
            exact ⟨_, rfl, rfl, fun k' hk => by cases hk⟩
    obtain ⟨red', hb, hl, hk⟩ := hb
    obtain ⟨b1, b2, b3, b4⟩ := runBase_no_meta hd hnew hb
    obtain ⟨-, r2, r3⟩ := runs_no_meta hrun (by rw [b1]; exact hempty _) (by rw [hl]; exact b2) (by rw [hl, b3]; exact hatt)
    refine ⟨?_, ?_⟩
    · intro t ht
      cases y with
      | error e => cases ht
      | ok t' =>
        cases ht
        have := r2 t' rfl
        constructor
        · show (finish t').attempted = ∅
          rw [show (finish t').attempted = t'.red.attempted from rfl, this, hl, b3, hatt]
        · show (finish t').left = red.left
          rw [show (finish t').left = t'.red.left from rfl, this, hl, b4]
    · intro k hkk hsort hex _
      rw [r3 hsort (by rw [hk k hkk, hl, b4]; exact hex)]
      rfl

omit [LinearOrder R] [Zero R] in
/-- **Finding.** The constructor makes the directory before it looks at the chemistry. If there is no species it may remove, it
raises `ReductionInitError` and leaves the directory with the meta data behind, so that the same id is refused from then on,
whatever the configuration. -/
theorem no_eligible_blocks_id {E : Env Sol R M} {fs : FS (Doc Sol R M)} (hp : fs.isDir E.parent = true)
    (hnew : fs E.dir = none) {chem : State} {e : RErr} (he : initRed E.cfg chem = .error e) :
    ∃ ops, init E fs chem = (ops, .error (.red e)) ∧
      ∀ (E' : Env Sol R M) (chem' : State), E'.dir = E.dir → init E' (after fs ops) chem' = ([], .error (.red .init)) := by
  have hops : makeDir E fs = (.mkdir E.dir :: write (E.dir ++ [metaName]) (.info E.info), .ok ()) := by
    unfold makeDir
    rw [if_pos hp, hnew]
  refine ⟨_, by unfold init; rw [hops, he]; rfl, ?_⟩
  intro E' chem' hE
  have hpar : E'.parent = E.parent := by
    have := congrArg List.dropLast hE
    simpa [Env.dir] using this
  have hne : ∀ n : Str, E.dir ≠ E.dir ++ [n] := fun n h => by
    have := congrArg List.length h; simp at this
  have hself : E.parent ≠ E.dir := fun h => by
    have := congrArg List.length h; simp [Env.dir] at this
  have hself' : ∀ n : Str, E.parent ≠ E.dir ++ [n] := fun n h => by
    have := congrArg List.length h; simp [Env.dir] at this
  set fs' := after fs (.mkdir E.dir :: write (E.dir ++ [metaName]) (.info E.info)) with hfs
  have e1 : fs' E.parent = some .dir := by
    rw [hfs, after_frame, isDir_iff.1 hp]
    intro o ho
    simp only [write, List.mem_cons, List.not_mem_nil, or_false] at ho
    rcases ho with rfl | rfl | rfl
    · exact hself
    · exact hself' _
    · exact hself' _
  have e2 : fs' E.dir = some .dir := by
    rw [hfs]
    change (((fs.put E.dir (some .dir)).put (E.dir ++ [metaName]) _).put (E.dir ++ [metaName]) _) E.dir = _
    rw [put_ne _ _ (hne _), put_ne _ _ (hne _), put_same]
  have e3 : fs' (E.dir ++ [metaName]) ≠ none := by
    rw [hfs]
    change (((fs.put E.dir (some .dir)).put (E.dir ++ [metaName]) _).put (E.dir ++ [metaName]) _) _ ≠ none
    rw [put_same]
    simp
  unfold init makeDir
  rw [hpar, isDir_iff.2 e1, if_pos rfl, hE, e2]
  simp only
  rw [if_pos ⟨_, e3⟩]

/-- **Finding.** Every successful removal rewrites the table of the history in place: there is a moment at which it is
incomplete, and the lines of all earlier iterations are lost if the process dies then. -/
theorem table_lost {E : Env Sol R M} (hsame : E.same E.info E.info = true) {fs : FS (Doc Sol R M)} {s s' : Red Sol R}
    (h : OnDisk E fs s) {sp : Str} {bt : Bool} {ops : List (Op (Doc Sol R M))}
    (hr : removeOne E fs s sp bt = (ops, .ok s')) : ∃ k, table E (after fs (ops.take k)) = some (.file none) := by
  obtain ⟨o, e1, e2⟩ := removeOne_spec hsame h sp bt
  rw [hr] at e1
  obtain rfl : ops = o := congrArg Prod.fst e1
  cases hx : Reduce.removeOne E.abs s sp bt with
  | error e => rw [hx] at e1; cases e1
  | ok t =>
    rw [hx] at e2
    obtain ⟨a, rfl, -⟩ := e2
    refine ⟨a.length + 1, ?_⟩
    rw [List.take_append, List.take_of_length_le (Nat.le_succ _), after_append, Nat.add_sub_cancel_left]
    exact put_same ..

omit [LinearOrder R] [Zero R] in
/-- **Finding.** A run whose name does not lead to a place (a slash in the name of the species, for example) is computed to
the end; then the log raises `FileNotFoundError`. -/
theorem unlogged_run {E : Env Sol R M} {fs : FS (Doc Sol R M)} (hd : fs.isDir E.dir = true) {i : ℕ} {name : Str} {chem c : State}
    {sp : Str} {sol : Sol} (hcut : E.cut i = none) (hdis : E.cfg.net.disable chem [.name sp] [] = (c, none))
    (hsol : E.cfg.backend i c = .solved sol) (hloc : locate fs E.dir (runName i (some sp)) = none) :
    attempt E fs i name chem sp = ([], .error .os) := by
  unfold attempt
  rw [hdis]
  simp only
  unfold runModel
  rw [hcut]
  simp only
  unfold runWhole
  rw [if_pos hd, hsol]
  simp only
  rw [hloc]

/-! ### a concrete reduction -/

theorem runs_det {cfg : Cfg Sol R} {ranking : Ranking Score} {sorted : List (Str × Score) → Bool} {maxStreak : ℕ}
    {s : Loop Sol R Score} {r r' : Except RErr (Loop Sol R Score)} (h : Reduce.Runs cfg ranking sorted maxStreak s r)
    (h' : Reduce.Runs cfg ranking sorted maxStreak s r') : r = r' := by
  induction h with
  | done hp => cases h' with
    | done hq => rw [hp] at hq; cases hq; rfl
    | raise hq => rw [hp] at hq; cases hq
    | next hq _ => rw [hp] at hq; cases hq
  | raise hp => cases h' with
    | done hq => rw [hp] at hq; cases hq
    | raise hq => rw [hp] at hq; cases hq; rfl
    | next hq _ => rw [hp] at hq; cases hq
  | next hp _ ih => cases h' with
    | done hq => rw [hp] at hq; cases hq
    | raise hq => rw [hp] at hq; cases hq
    | next hq h2 => rw [hp] at hq; cases hq; exact ih h2

namespace Demo
open Verif.Plaschem.Demo Verif.Fwork.Reduce.Demo

/-- the reduction of `Reduce.Demo` with its files in `/results/try1` -/
def env : Env ℕ ℤ Unit where
  cfg := cfg
  parent := [str!"results"]
  id := str!"try1"
  info := ()
  same := fun _ _ => true
  cut := fun _ => none

/-- a disk with the directory `/results` -/
def disk : FS (Doc ℕ ℤ Unit) := fun p => if p = [] ∨ p = [str!"results"] then some .dir else none

theorem disk_wf : disk.WF := by
  refine ⟨rfl, fun p c h => ?_⟩
  unfold disk at h
  split at h
  · rename_i hp
    rcases hp with hp | hp
    · exact absurd hp (by simp)
    · obtain ⟨rfl, -⟩ := List.append_inj' (s₁ := p) (s₂ := []) (t₁ := [c]) (t₂ := [str!"results"]) hp rfl
      rfl
  · exact absurd rfl h

/-- The reduction of `report_demo` with its files: three runs are made, and they are on the disk when it has ended. -/
example : ∃ made red ops t, init env disk st0 = (made, .ok red) ∧
    RunsReduction env ranking (fun _ => true) 0 (after disk made) red ops (.ok t) ∧ t.history.length = 3 ∧
    Safe env (after disk (made ++ ops)) t.history ∧ table env (after disk (made ++ ops)) = tableOf t.history ∧
    t.history.map (fun row => (row.species, row.success)) = [(none, true), (some str!"Ar*", true), (some str!"Ar++", true)] := by
  have hnames : ∀ x ∈ env.cfg.net.species, '/' ∉ x.name := by decide +kernel
  obtain ⟨red, l, t, h1, h2, h3, h4, h5, -⟩ := of_report (report_demo) rfl
  obtain ⟨made, e1, -, -⟩ := init_spec (E := env) disk_wf rfl (by decide +kernel) hnames st0
  have hi : init env disk st0 = (made, .ok red) := by
    rw [e1, show initRed env.abs st0 = .ok red from h1]; rfl
  obtain ⟨ops, r, hr⟩ := reduction_on_disk_ends (E := env) rfl disk_wf rfl (by decide +kernel) hnames hi ranking (fun _ => true) 0
  obtain ⟨-, r', rfl, q1, q2, q3⟩ := reduction_on_disk (E := env) rfl disk_wf rfl (by decide +kernel) hnames hi hr
  have hx : r' = .ok (finish t) := by
    unfold Reduce.RunsReduction at q1
    rw [show Reduce.startLoop env.abs ranking red = .ok l from h2] at q1
    obtain ⟨x, hx, rfl⟩ := q1
    rw [runs_det hx h3]
    rfl
  subst hx
  obtain ⟨q4, q5⟩ := q3 _ rfl
  refine ⟨made, red, ops, finish t, hi, hr, ?_, q4, q5, ?_⟩
  · simpa [finish] using congrArg List.length h4
  · have := congrArg (List.map fun x => (x.species, x.success)) h4
    simpa [finish, Function.comp_def] using this

/-- the same with an empty directory of that name -/
def disk2 : FS (Doc ℕ ℤ Unit) := disk.put env.dir (some .dir)

theorem disk2_empty (n : Str) : disk2 (env.dir ++ [n]) = none := by
  unfold disk2
  rw [put_ne _ _ (by intro h; have := congrArg List.length h; simp at this)]
  unfold disk
  rw [if_neg]
  rintro (h | h)
  · have := congrArg List.length h; simp [Env.dir, env] at this
  · have := congrArg List.length h; simp [Env.dir, env] at this

/-- in an empty directory the reduction that succeeds in a new one raises `FileNotFoundError` -/
example : ∃ red, init env disk2 st0 = ([], .ok red) ∧ ∀ ops r,
    RunsReduction env ranking (fun _ => true) 0 disk2 red ops r → r = .error .os := by
  obtain ⟨red, l, t, h1, h2, h3, h4, h5, -⟩ := of_report (report_demo) rfl
  have hwf : disk2.WF := Verif.Fwork.Log.wf_put_some disk_wf (p := [str!"results"]) rfl (.inl rfl)
  obtain ⟨e1, e2⟩ := empty_dir_never_reduces (Score := ℕ) (E := env) hwf (by decide +kernel) (put_same ..) disk2_empty st0
  refine ⟨red, by rw [e1, show initRed env.cfg st0 = .ok red from h1]; rfl, fun ops r hr => ?_⟩
  refine (e2 red h1 ranking (fun _ => true) 0 ops r hr).2 _ rfl (fun _ => rfl) ⟨(str!"Ar*", 0), List.mem_cons_self .., ?_⟩ ?_
  · rw [(initRed_ok h1).2.2.2.2]
    exact ⟨by decide +kernel, ArX, by decide +kernel, rfl, by decide +kernel, rfl, (by rintro (h | h) <;> revert h <;> decide +kernel)⟩
  · rw [startLoop_result (fs := disk2) (put_same ..), show Reduce.startLoop env.abs ranking red = .ok l from h2]
    · exact ⟨l, rfl⟩
    · intro p hpp
      by_contra hc
      by_cases he : env.dir ++ [runName 0 none] = p
      · rw [← he] at hc; exact hc (disk2_empty _)
      · have := hwf.above hpp he hc
        rw [isDir_iff, disk2_empty] at this
        cases this

/-- the hypotheses of `run_at_any_moment` are met -/
example (k : ℕ) : Moment (after disk2 ((runModel env disk2 0 st0 (runName 0 none)).1.take k)) (env.dir ++ [runName 0 none])
    (env.cfg.backend 0 st0) (env.cfg.net.dump env.cfg.path env.cfg.hash st0) := by
  have hwf : disk2.WF := Verif.Fwork.Log.wf_put_some disk_wf (p := [str!"results"]) rfl (.inl rfl)
  refine run_at_any_moment env disk2 0 st0 (runName_plain 0 fun _ h => by cases h) (put_same ..) (fun p hpp => ?_) k
  by_contra hc
  by_cases he : env.dir ++ [runName 0 none] = p
  · rw [← he] at hc; exact hc (disk2_empty _)
  · have := hwf.above hpp he hc
    rw [isDir_iff, disk2_empty] at this
    cases this

/-- all species are important -/
example : initRed { cfg with important := [str!"Ar", str!"Ar+", str!"Ar++", str!"Ar*"] } st0 = .error .init := by
  rfl

/-- A species whose name has a slash in it. -/
example : locate disk2 env.dir (runName 1 (some str!"Ar/He")) = none := by decide +kernel

end Demo

end Verif.Fwork.ReduceDisk
