/-
C93: the reduction loop with its files, crashes, and the refusals of the constructor.
-/
import Verif.Fwork.ReduceDiskProps

namespace Verif.Fwork.ReduceDisk
open Verif.Plaschem Verif.Plaschem.Net Verif.Fwork.Reduce
open Verif.Fwork.Log (Path FS Node fileName locate fetch Plain put_same put_ne isDir_iff fetch_plain locate_plain)

variable {Sol R M Score : Type} [LinearOrder R] [Zero R]

/-! ### specification -/

/-- the table of a history; there is none before the base case -/
def tableOf (h : List (Row Sol R)) : Option (Node (Doc Sol R M)) :=
  if h = [] then none else some (.file (some (.history (lines h))))

/-- What is on the disk if the process dies after any of the operations: the runs of some history that contains the rows of
the beginning (and is contained in the final one, if there is one), with the table of that history or an incomplete table;
nothing outside the directory of the reduction is touched. -/
structure Trace (E : Env Sol R M) (fs : FS (Doc Sol R M)) (h : List (Row Sol R)) (ops : List (Op (Doc Sol R M)))
    (final : Option (List (Row Sol R))) : Prop where
  within : ∀ o ∈ ops, E.dir <+: o.path
  crash : ∀ k, ∃ h', h <+: h' ∧ (∀ f, final = some f → h' <+: f) ∧ Safe E (after fs (ops.take k)) h' ∧
    (table E (after fs (ops.take k)) = tableOf h' ∨ table E (after fs (ops.take k)) = some (.file none))

/-! ### lemmas -/

omit [LinearOrder R] [Zero R] in
theorem Trace.final_prefix {E : Env Sol R M} {fs : FS (Doc Sol R M)} {h f : List (Row Sol R)} {ops : List (Op (Doc Sol R M))}
    (t : Trace E fs h ops (some f)) : h <+: f := by
  obtain ⟨h', h1, h2, -⟩ := t.crash 0
  exact h1.trans (h2 f rfl)

omit [LinearOrder R] [Zero R] in
theorem Trace.weaken {E : Env Sol R M} {fs : FS (Doc Sol R M)} {h : List (Row Sol R)} {f : Option (List (Row Sol R))}
    {ops : List (Op (Doc Sol R M))} (t : Trace E fs h ops f) : Trace E fs h ops none :=
  ⟨t.within, fun k => by
    obtain ⟨h', h1, -, h3⟩ := t.crash k
    exact ⟨h', h1, (by intro f hf; cases hf), h3⟩⟩

omit [LinearOrder R] [Zero R] in
theorem Trace.nil {E : Env Sol R M} {fs : FS (Doc Sol R M)} {s : Red Sol R} (h : OnDisk E fs s) :
    Trace E fs s.history [] (some s.history) :=
  ⟨fun o ho => absurd ho List.not_mem_nil, fun k => ⟨s.history, List.prefix_refl _, fun f hf => by cases hf; exact List.prefix_refl _,
    by rw [List.take_nil]; exact h.safe, .inl (by rw [List.take_nil]; exact h.logged)⟩⟩

omit [LinearOrder R] [Zero R] in
theorem Trace.append {E : Env Sol R M} {fs : FS (Doc Sol R M)} {h h1 : List (Row Sol R)} {f : Option (List (Row Sol R))}
    {a b : List (Op (Doc Sol R M))} (t : Trace E fs h a (some h1)) (t' : Trace E (after fs a) h1 b f) :
    Trace E fs h (a ++ b) f := by
  refine ⟨fun o ho => (List.mem_append.1 ho).elim (t.within o) (t'.within o), fun k => ?_⟩
  rw [List.take_append]
  rcases Nat.lt_or_ge k a.length with hk | hk
  · obtain ⟨h', p1, p2, p3⟩ := t.crash k
    rw [Nat.sub_eq_zero_of_le hk.le, List.take_zero, List.append_nil]
    refine ⟨h', p1, ?_, p3⟩
    intro g hg
    subst hg
    exact (p2 h1 rfl).trans t'.final_prefix
  · obtain ⟨h', p1, p2, p3⟩ := t'.crash (k - a.length)
    rw [List.take_of_length_le hk, after_append]
    exact ⟨h', t.final_prefix.trans p1, p2, p3⟩

omit [LinearOrder R] [Zero R] in
/-- operations in a new directory -/
theorem Trace.within_new {E : Env Sol R M} {fs : FS (Doc Sol R M)} {s : Red Sol R} (h : OnDisk E fs s) {name : Str}
    {ops : List (Op (Doc Sol R M))} (hw : Within (E.dir ++ [name]) ops) (hm : name ≠ metaName) (hh : name ≠ historyName)
    (hr : ∀ (i : ℕ) row, s.history[i]? = some row → runName i row.species ≠ name) :
    Trace E fs s.history ops (some s.history) := by
  refine ⟨fun o ho => (List.prefix_append ..).trans (hw o ho), fun k => ⟨s.history, List.prefix_refl _, fun f hf => ?_, ?_, .inl ?_⟩⟩
  · cases hf; exact List.prefix_refl _
  · exact h.safe.within (hw.take k) hm hr
  · exact ((hw.take k).frame fs (apart hh (List.prefix_refl (E.dir ++ [historyName])))).trans h.logged

omit [LinearOrder R] [Zero R] in
/-- operations in a new directory, then the table -/
theorem Trace.call {E : Env Sol R M} {fs : FS (Doc Sol R M)} {s s' : Red Sol R} (h : OnDisk E fs s) {name : Str}
    {a : List (Op (Doc Sol R M))} (hw : Within (E.dir ++ [name]) a) (hm : name ≠ metaName) (hh : name ≠ historyName)
    (hr : ∀ (i : ℕ) row, s.history[i]? = some row → runName i row.species ≠ name) (hpre : s.history <+: s'.history)
    (hs : Safe E (after fs a) s'.history) (hd : OnDisk E (after fs (a ++ logHistory E s'.history)) s') :
    Trace E fs s.history (a ++ logHistory E s'.history) (some s'.history) := by
  have t1 := Trace.within_new h hw hm hh hr
  refine ⟨?_, fun k => ?_⟩
  · intro o ho
    rcases List.mem_append.1 ho with ho | ho
    · exact t1.within o ho
    · exact (List.prefix_append ..).trans (within_history E s'.history o ho)
  · rw [List.take_append]
    rcases Nat.lt_or_ge a.length k with hk | hk
    · rw [List.take_of_length_le hk.le, after_append]
      have hw2 := within_history E s'.history
      refine ⟨s'.history, hpre, fun f hf => by cases hf; exact List.prefix_refl _,
        hs.within (hw2.take _) (by decide) (fun i r _ => runName_ne_history _ _), ?_⟩
      obtain ⟨m, hm⟩ : ∃ m, k - a.length = m + 1 := ⟨k - a.length - 1, by omega⟩
      rw [hm]
      cases m with
      | zero => exact .inr (put_same ..)
      | succ m =>
        refine .inl ?_
        rw [show (logHistory E s'.history).take (m + 1 + 1) = logHistory E s'.history from List.take_of_length_le (by
          simp only [logHistory, write, List.length_cons, List.length_nil]; omega), ← after_append]
        exact hd.logged
    · rw [Nat.sub_eq_zero_of_le hk, List.take_zero, List.append_nil]
      obtain ⟨h', p1, p2, p3⟩ := t1.crash k
      exact ⟨h', p1, fun f hf => by cases hf; exact (p2 _ rfl).trans hpre, p3⟩

/-- the final history of a call -/
def finalOf (r : Except RErr (Red Sol R)) : Option (List (Row Sol R)) :=
  match r with
  | .ok s => some s.history
  | .error _ => none

/-- **C93.** One removal: its result is that of the reduction without files, and it is safe against crashes. -/
theorem removeOne_refines {E : Env Sol R M} (hsame : E.same E.info E.info = true) {fs : FS (Doc Sol R M)} {s : Red Sol R}
    (h : OnDisk E fs s) (sp : Str) (bt : Bool) :
    ∃ ops, removeOne E fs s sp bt = (ops, lift (Reduce.removeOne E.abs s sp bt)) ∧
      Trace E fs s.history ops (finalOf (Reduce.removeOne E.abs s sp bt)) ∧
      ∀ s', Reduce.removeOne E.abs s sp bt = .ok s' → OnDisk E (after fs ops) s' := by
  obtain ⟨ops, h1, h2⟩ := removeOne_spec hsame h sp bt
  refine ⟨ops, h1, ?_⟩
  by_cases hne : s.history = []
  · have he : Reduce.removeOne E.abs s sp bt = .error .run := by
      unfold Reduce.removeOne; rw [if_pos hne]
    have h3 : ops = [] := by
      have : removeOne E fs s sp bt = ([], .error (.red .run)) := by unfold removeOne; rw [if_pos hne]
      rw [this] at h1
      exact (congrArg Prod.fst h1).symm
    rw [he, h3]
    exact ⟨(Trace.nil h).weaken, fun _ hc => by cases hc⟩
  · cases hr : Reduce.removeOne E.abs s sp bt with
    | error e =>
      rw [hr] at h2
      exact ⟨(Trace.within_new h h2 (runName_ne_meta _ _) (runName_ne_history _ _) (h.ne hne sp)).weaken,
        fun _ hc => by cases hc⟩
    | ok s' =>
      rw [hr] at h2
      obtain ⟨a, rfl, hw, hs, hd⟩ := h2
      obtain ⟨row, -, ht, -⟩ := removeOne_cases hr
      exact ⟨Trace.call h hw (runName_ne_meta _ _) (runName_ne_history _ _) (h.ne hne sp)
        (ht.history ▸ List.prefix_append ..) hs hd, fun _ hc => by cases hc; exact hd⟩

theorem runBase_refines {E : Env Sol R M} {fs : FS (Doc Sol R M)} {s : Red Sol R} (h : OnDisk E fs s) :
    ∃ ops, runBase E fs s = (ops, lift (Reduce.runBase E.abs s)) ∧
      Trace E fs s.history ops (finalOf (Reduce.runBase E.abs s)) ∧
      ∀ s', Reduce.runBase E.abs s = .ok s' → OnDisk E (after fs ops) s' := by
  obtain ⟨ops, h1, h2⟩ := runBase_spec h
  refine ⟨ops, h1, ?_⟩
  have hnone : s.history = [] → ∀ (i : ℕ) row, s.history[i]? = some row → runName i row.species ≠ runName 0 none := by
    intro he i row hi; rw [he] at hi; simp at hi
  cases hr : Reduce.runBase E.abs s with
  | error e =>
    rw [hr] at h2
    refine ⟨?_, fun _ hc => by cases hc⟩
    rcases h2 with ⟨-, rfl⟩ | ⟨he, hw⟩
    · exact (Trace.nil h).weaken
    · exact (Trace.within_new h hw (runName_ne_meta _ _) (runName_ne_history _ _) (hnone he)).weaken
  | ok s' =>
    rw [hr] at h2
    obtain ⟨he, a, rfl, hw, hs, hd⟩ := h2
    exact ⟨Trace.call h hw (runName_ne_meta _ _) (runName_ne_history _ _) (hnone he)
      (he ▸ List.nil_prefix) hs hd, fun _ hc => by cases hc; exact hd⟩

/-! ### the loop -/

def liftPass {A : Type} : Reduce.Pass A → Pass A
  | .next a => .next a
  | .done a => .done a
  | .raise e => .raise (.red e)

def finalOfPass : Reduce.Pass (Loop Sol R Score) → Option (List (Row Sol R))
  | .next s => some s.red.history
  | .done s => some s.red.history
  | .raise _ => none

/-- the loop state after a pass -/
def stateOfPass : Reduce.Pass (Loop Sol R Score) → Option (Red Sol R)
  | .next s => some s.red
  | .done s => some s.red
  | .raise _ => none

theorem pass_refines {E : Env Sol R M} (hsame : E.same E.info E.info = true) {fs : FS (Doc Sol R M)} {ranking : Ranking Score}
    {sorted : List (Str × Score) → Bool} {maxStreak : ℕ} {s : Loop Sol R Score} (h : OnDisk E fs s.red) :
    ∃ ops, pass E ranking sorted maxStreak fs s = (ops, liftPass (Reduce.pass E.abs ranking sorted maxStreak s)) ∧
      Trace E fs s.red.history ops (finalOfPass (Reduce.pass E.abs ranking sorted maxStreak s)) ∧
      ∀ red, stateOfPass (Reduce.pass E.abs ranking sorted maxStreak s) = some red → OnDisk E (after fs ops) red := by
  unfold pass Reduce.pass
  by_cases h1 : s.ranking = []
  · rw [if_pos h1, if_pos h1]; exact ⟨[], rfl, Trace.nil h, fun _ hc => by cases hc; exact h⟩
  rw [if_neg h1, if_neg h1]
  by_cases h2 : ¬ sorted s.ranking = true
  · rw [if_pos h2, if_pos h2]; exact ⟨[], rfl, (Trace.nil h).weaken, fun _ hc => by cases hc⟩
  rw [if_neg h2, if_neg h2]
  cases popNext s.red.attempted s.ranking with
  | none => exact ⟨[], rfl, Trace.nil h, fun _ hc => by cases hc; exact h⟩
  | some x =>
    obtain ⟨sp, rest⟩ := x
    simp only
    by_cases h3 : sp ∉ s.red.left
    · rw [if_pos h3, if_pos h3]; exact ⟨[], rfl, Trace.nil h, fun _ hc => by cases hc; exact h⟩
    rw [if_neg h3, if_neg h3]
    obtain ⟨ops, e1, e2, e3⟩ := removeOne_refines hsame h sp true
    rw [e1]
    cases hr : Reduce.removeOne E.abs s.red sp true with
    | error e => rw [hr] at e2; exact ⟨ops, rfl, e2, fun _ hc => by cases hc⟩
    | ok red =>
      rw [hr] at e2
      have hd := e3 red hr
      simp only [lift]
      have key : ∀ (p : Reduce.Pass (Loop Sol R Score)) (q : Pass (Loop Sol R Score)), q = liftPass p →
          (∀ x, stateOfPass p = some x → x = red) →
          ∃ ops', ((ops, q) : _ × Pass (Loop Sol R Score)) = (ops', liftPass p) ∧ Trace E fs s.red.history ops' (finalOfPass p) ∧
            ∀ x, stateOfPass p = some x → OnDisk E (after fs ops') x := by
        rintro p q rfl hp
        refine ⟨ops, rfl, ?_, fun x hx => by rw [hp x hx]; exact hd⟩
        cases p with
        | next l => have := hp _ rfl; simp only [finalOfPass]; rw [show l.red = red from this]; exact e2
        | done l => have := hp _ rfl; simp only [finalOfPass]; rw [show l.red = red from this]; exact e2
        | raise e => exact e2.weaken
      apply key
      · have e4 : E.abs.maxErr = E.cfg.maxErr := rfl
        rw [e4]
        cases red.history.getLast? with
        | none => rfl
        | some row =>
          simp only
          cases row.errBase with
          | none => simp only; split <;> rfl
          | some e =>
            simp only
            by_cases h5 : E.cfg.maxErr < e
            · simp only [if_pos h5]; split <;> rfl
            · simp only [if_neg h5]
              cases ranking with
              | fixed l => simp only; split <;> rfl
              | dynamic f =>
                simp only
                cases f red.history.length red.chem with
                | none => rfl
                | some l => simp only; split <;> rfl
      · intro x hx
        cases hg : red.history.getLast? with
        | none => rw [hg] at hx; cases hx
        | some row =>
          rw [hg] at hx
          simp only at hx
          cases he : row.errBase with
          | none => rw [he] at hx; simp only at hx; split at hx <;> (cases hx; rfl)
          | some e =>
            rw [he] at hx
            simp only at hx
            split at hx
            · split at hx <;> (cases hx; rfl)
            · cases ranking with
              | fixed l => simp only at hx; split at hx <;> (cases hx; rfl)
              | dynamic f =>
                simp only at hx
                cases hf : f red.history.length red.chem with
                | none => rw [hf] at hx; cases hx
                | some l => rw [hf] at hx; simp only at hx; split at hx <;> (cases hx; rfl)

/-- the final history of the loop -/
def finalOfLoop (r : Except RErr (Loop Sol R Score)) : Option (List (Row Sol R)) :=
  match r with
  | .ok s => some s.red.history
  | .error _ => none

theorem runs_refines {E : Env Sol R M} (hsame : E.same E.info E.info = true) {ranking : Ranking Score}
    {sorted : List (Str × Score) → Bool} {maxStreak : ℕ} {fs : FS (Doc Sol R M)} {s : Loop Sol R Score}
    {ops : List (Op (Doc Sol R M))} {r : Except DErr (Loop Sol R Score)} (h : OnDisk E fs s.red)
    (hr : Runs E ranking sorted maxStreak fs s ops r) :
    ∃ r', r = lift r' ∧ Reduce.Runs E.abs ranking sorted maxStreak s r' ∧ Trace E fs s.red.history ops (finalOfLoop r') ∧
      ∀ t, r' = .ok t → OnDisk E (after fs ops) t.red := by
  induction hr with
  | @done fs s ops s' hp =>
    obtain ⟨o, e1, e2, e3⟩ := pass_refines hsame (ranking := ranking) (sorted := sorted) (maxStreak := maxStreak) h
    rw [hp] at e1
    cases hq : Reduce.pass E.abs ranking sorted maxStreak s with
    | next x => rw [hq] at e1; cases e1
    | raise x => rw [hq] at e1; cases e1
    | done x =>
      rw [hq] at e1 e2 e3
      cases e1
      exact ⟨.ok s', rfl, .done hq, e2, fun t ht => by cases ht; exact e3 _ rfl⟩
  | @raise fs s ops e hp =>
    obtain ⟨o, e1, e2, e3⟩ := pass_refines hsame (ranking := ranking) (sorted := sorted) (maxStreak := maxStreak) h
    rw [hp] at e1
    cases hq : Reduce.pass E.abs ranking sorted maxStreak s with
    | next x => rw [hq] at e1; cases e1
    | done x => rw [hq] at e1; cases e1
    | raise x =>
      rw [hq] at e1 e2
      cases e1
      exact ⟨.error x, rfl, .raise hq, e2, fun t ht => by cases ht⟩
  | @next fs s ops s' ops' r hp _ ih =>
    obtain ⟨o, e1, e2, e3⟩ := pass_refines hsame (ranking := ranking) (sorted := sorted) (maxStreak := maxStreak) h
    rw [hp] at e1
    cases hq : Reduce.pass E.abs ranking sorted maxStreak s with
    | done x => rw [hq] at e1; cases e1
    | raise x => rw [hq] at e1; cases e1
    | next x =>
      rw [hq] at e1 e2 e3
      cases e1
      obtain ⟨r', f1, f2, f3, f4⟩ := ih (e3 _ rfl)
      refine ⟨r', f1, .next hq f2, e2.append f3, ?_⟩
      intro t ht
      rw [after_append]
      exact f4 t ht

/-- the loop with files follows the loop without -/
theorem runs_exists {E : Env Sol R M} (hsame : E.same E.info E.info = true) {ranking : Ranking Score}
    {sorted : List (Str × Score) → Bool} {maxStreak : ℕ} {s : Loop Sol R Score} {r : Except RErr (Loop Sol R Score)}
    (hr : Reduce.Runs E.abs ranking sorted maxStreak s r) :
    ∀ fs : FS (Doc Sol R M), OnDisk E fs s.red → ∃ ops, Runs E ranking sorted maxStreak fs s ops (lift r) := by
  induction hr with
  | @done s s' hp =>
    intro fs h
    obtain ⟨o, e1, -⟩ := pass_refines hsame (ranking := ranking) (sorted := sorted) (maxStreak := maxStreak) h
    rw [hp] at e1
    exact ⟨o, .done e1⟩
  | @raise s e hp =>
    intro fs h
    obtain ⟨o, e1, -⟩ := pass_refines hsame (ranking := ranking) (sorted := sorted) (maxStreak := maxStreak) h
    rw [hp] at e1
    exact ⟨o, .raise e1⟩
  | @next s s' r hp _ ih =>
    intro fs h
    obtain ⟨o, e1, -, e3⟩ := pass_refines hsame (ranking := ranking) (sorted := sorted) (maxStreak := maxStreak) h
    rw [hp] at e1 e3
    obtain ⟨o', h'⟩ := ih _ (e3 _ rfl)
    exact ⟨o ++ o', .next e1 h'⟩

/-! ### C93 -/

/-- **C93.** `run_reduction` of an iterator on a reduction run id that was not in use, with species names without slashes:
whatever it does on the disk, its result is one of the reduction without files (so that C42 and C43 apply), it touches nothing
outside its directory, and if the process dies after any file operation, all runs of the history up to then are complete on the
disk, with the table or an incomplete table. When it returns, table and runs are those of the final history. -/
theorem reduction_on_disk {E : Env Sol R M} (hsame : E.same E.info E.info = true) {fs : FS (Doc Sol R M)} (hwf : fs.WF)
    (hp : fs.isDir E.parent = true) (hnew : fs E.dir = none) (hnames : ∀ x ∈ E.cfg.net.species, '/' ∉ x.name)
    {chem : State} {made : List (Op (Doc Sol R M))} {red : Red Sol R} (hi : init E fs chem = (made, .ok red))
    {ranking : Ranking Score} {sorted : List (Str × Score) → Bool} {maxStreak : ℕ} {ops : List (Op (Doc Sol R M))}
    {r : Except DErr (Red Sol R)} (hr : RunsReduction E ranking sorted maxStreak (after fs made) red ops r) :
    initRed E.abs chem = .ok red ∧
    ∃ r', r = lift r' ∧ Reduce.RunsReduction E.abs ranking sorted maxStreak red r' ∧
      Trace E (after fs made) [] ops (finalOf r') ∧
      ∀ t, r' = .ok t → Safe E (after fs (made ++ ops)) t.history ∧
        table E (after fs (made ++ ops)) = tableOf t.history := by
  obtain ⟨o, e1, -, e3⟩ := init_spec hwf hp hnew hnames chem
  rw [hi] at e1
  have hin : initRed E.abs chem = .ok red := by
    cases hx : initRed E.abs chem with
    | error e => rw [hx] at e1; cases e1
    | ok s => rw [hx] at e1; cases e1; rfl
  obtain rfl : made = o := congrArg Prod.fst e1
  have hd := e3 red hin
  have hh : red.history = [] := (initRed_ok hin).2.2.2.1
  refine ⟨hin, ?_⟩
  unfold RunsReduction at hr
  unfold Reduce.RunsReduction
  have hdis : E.abs.net = E.cfg.net := rfl
  obtain ⟨b, b1, b2, b3⟩ := runBase_refines hd
  have hstart : ∃ ls : Except RErr (Loop Sol R Score), startLoop E ranking (after fs made) red =
        (if E.cfg.net.getDisabledSpecies red.chem ≠ [] ∨ E.cfg.net.getDisabledReactions red.chem ≠ [] then [] else b, lift ls) ∧
      Reduce.startLoop E.abs ranking red = ls ∧
      (∀ l, ls = .ok l → ¬ (E.cfg.net.getDisabledSpecies red.chem ≠ [] ∨ E.cfg.net.getDisabledReactions red.chem ≠ []) ∧
        Reduce.runBase E.abs red = .ok l.red) := by
    unfold startLoop Reduce.startLoop
    rw [hdis]
    by_cases hc : E.cfg.net.getDisabledSpecies red.chem ≠ [] ∨ E.cfg.net.getDisabledReactions red.chem ≠ []
    · simp only [if_pos hc]
      exact ⟨_, rfl, rfl, fun l hl => by cases hl⟩
    · simp only [if_neg hc, b1]
      cases hb : Reduce.runBase E.abs red with
      | error e => exact ⟨_, rfl, rfl, fun l hl => by cases hl⟩
      | ok red' =>
        simp only [lift]
        cases ranking with
        | fixed l => exact ⟨_, rfl, rfl, fun l hl => by cases hl; exact ⟨hc, rfl⟩⟩
        | dynamic f =>
          simp only
          cases f red'.history.length red'.chem with
          | none => exact ⟨_, rfl, rfl, fun l hl => by cases hl⟩
          | some l => exact ⟨_, rfl, rfl, fun l hl => by cases hl; exact ⟨hc, rfl⟩⟩
  obtain ⟨ls, s1, s2, s3⟩ := hstart
  rw [s1] at hr
  rw [s2]
  cases hls : ls with
  | error e =>
    rw [hls] at hr
    obtain ⟨rfl, rfl⟩ := hr
    refine ⟨.error e, rfl, rfl, ?_, fun t ht => by cases ht⟩
    by_cases hc : E.cfg.net.getDisabledSpecies red.chem ≠ [] ∨ E.cfg.net.getDisabledReactions red.chem ≠ []
    · rw [if_pos hc, ← hh]; exact (Trace.nil hd).weaken
    · rw [if_neg hc, ← hh]; exact b2.weaken
  | ok l =>
    rw [hls] at hr
    obtain ⟨o', x, hx, rfl, rfl⟩ := hr
    obtain ⟨hc, hb⟩ := s3 l hls
    rw [if_neg hc] at hx ⊢
    obtain ⟨x', f1, f2, f3, f4⟩ := runs_refines hsame (b3 _ hb) hx
    subst f1
    refine ⟨x'.map finish, ?_, ⟨x', f2, rfl⟩, ?_, ?_⟩
    · cases x' <;> rfl
    · rw [hb] at b2
      rw [← hh]
      have := Trace.append b2 f3
      cases x' <;> exact this
    · intro t ht
      cases x' with
      | error e => cases ht
      | ok y =>
        cases ht
        have := f4 y rfl
        rw [← after_append, ← after_append] at this
        exact ⟨this.safe, this.logged⟩

/-- **C93.** And there is always a result: the reduction with its files ends. -/
theorem reduction_on_disk_ends {E : Env Sol R M} (hsame : E.same E.info E.info = true) {fs : FS (Doc Sol R M)} (hwf : fs.WF)
    (hp : fs.isDir E.parent = true) (hnew : fs E.dir = none) (hnames : ∀ x ∈ E.cfg.net.species, '/' ∉ x.name)
    {chem : State} {made : List (Op (Doc Sol R M))} {red : Red Sol R} (hi : init E fs chem = (made, .ok red))
    (ranking : Ranking Score) (sorted : List (Str × Score) → Bool) (maxStreak : ℕ) :
    ∃ ops r, RunsReduction E ranking sorted maxStreak (after fs made) red ops r := by
  obtain ⟨o, e1, -, e3⟩ := init_spec hwf hp hnew hnames chem
  rw [hi] at e1
  have hin : initRed E.abs chem = .ok red := by
    cases hx : initRed E.abs chem with
    | error e => rw [hx] at e1; cases e1
    | ok s => rw [hx] at e1; cases e1; rfl
  obtain rfl : made = o := congrArg Prod.fst e1
  have hd := e3 red hin
  obtain ⟨b, b1, -, b3⟩ := runBase_refines hd
  unfold RunsReduction
  rcases hs : startLoop E ranking (after fs made) red with ⟨o, x⟩
  cases x with
  | error e => exact ⟨o, .error e, rfl, rfl⟩
  | ok l =>
    simp only
    have hl : o = b ∧ Reduce.runBase E.abs red = .ok l.red := by
      unfold startLoop at hs
      split at hs
      · cases hs
      · rw [b1] at hs
        cases hb : Reduce.runBase E.abs red with
        | error e => rw [hb] at hs; cases hs
        | ok red' =>
          rw [hb] at hs
          simp only [lift] at hs
          cases ranking with
          | fixed l => cases hs; exact ⟨rfl, rfl⟩
          | dynamic f =>
            simp only at hs
            cases hf : f red'.history.length red'.chem with
            | none => rw [hf] at hs; cases hs
            | some l => rw [hf] at hs; cases hs; exact ⟨rfl, rfl⟩
    obtain ⟨rfl, hb⟩ := hl
    obtain ⟨x, hx, -⟩ := loop_terminates E.abs ranking sorted maxStreak l
    obtain ⟨ops, ho⟩ := runs_exists hsame hx _ (b3 _ hb)
    exact ⟨_, _, ops, _, ho, rfl, rfl⟩

end Verif.Fwork.ReduceDisk
