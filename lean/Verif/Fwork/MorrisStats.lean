/-
Model of pygmo_fwork/optichem/morris.py, part 5: elementary effects, their statistics and the ranking of the factors
(C67-C69).

Numbers are real (rounding is not modelled). A logged solution is what the model of errors.py takes (`Sol`), and
`resultInTime` stands for `ResultsParser.get_results_frames` (results.py:227-248: linear interpolation in one column, an
assertion that the time is in range). The array operations are written for one time and one output, as they act
element by element. `nan` is `none` where pandas produces and skips it; a zero mean output (division by zero) stops the
model with `.nan`.
-/
import Verif.Fwork.Morris
import Verif.Fwork.Errors

namespace Verif.Fwork.MorrisStats
open Verif.Fwork

variable {L : Type} [DecidableEq L]

/-! ### model -/

/-- morris.py:808-819: what is read of a logged trajectory: the solution of the base run, those of the other runs, and
the steps and the labels of the factors from its meta file -/
structure Traj (L : Type) where
  base : Sol
  runs : List Sol
  deltas : List ℝ
  labels : List L

/-- morris.py:814-822: one output at one time, in all the runs of a trajectory -/
noncomputable def Traj.values (d : Traj L) (t : ℝ) (o : String) : Except ErrErr (List ℝ) :=
  mapE (fun s => resultInTime s o t) (d.base :: d.runs)

/-- morris.py:824: `(values[1:] - values[:-1]) / deltas` -/
noncomputable def quotients : List ℝ → List ℝ → List ℝ
  | a :: b :: l, δ :: ds => (b - a) / δ :: quotients (b :: l) ds
  | _, _ => []

/-- morris.py:824-836: the elementary effects on one output at one time, labelled. Arrays of different lengths raise
(numpy would repeat an array of length one; `run_trajectory` logs equal lengths). -/
noncomputable def Traj.effects (d : Traj L) (t : ℝ) (o : String) : Except ErrErr (List (L × ℝ)) :=
  match d.values t o with
  | .error e => .error e
  | .ok vs =>
    if d.deltas.length = d.runs.length ∧ d.labels.length = d.runs.length then
      .ok (d.labels.zip (quotients vs d.deltas))
    else .error .assertion

/-- the mean of an array -/
noncomputable def avg (l : List ℝ) : ℝ := l.sum / l.length

/-- pandas `std()`: one degree of freedom is taken, `nan` for less than two values -/
noncomputable def std (l : List ℝ) : Option ℝ :=
  if l.length < 2 then none else some (Real.sqrt ((l.map fun x => (x - avg l) ^ 2).sum / (l.length - 1)))

/-- morris.py:828: the mean of one output at one time over the runs of a trajectory -/
noncomputable def Traj.mean (d : Traj L) (t : ℝ) (o : String) : Except ErrErr ℝ :=
  match d.values t o with
  | .error e => .error e
  | .ok vs => .ok (avg vs)

/-- the statistics of one output at one time: the mean output and all elementary effects (the `concat`) -/
structure Stat (L : Type) where
  mean : ℝ
  effs : List (L × ℝ)

/-- the values in one group of the `groupby` -/
def Stat.group (s : Stat L) (l : L) : List ℝ := (s.effs.filter fun e => e.1 = l).map Prod.snd

/-- morris.py:912 -/
noncomputable def Stat.mu (s : Stat L) (l : L) : ℝ := avg (s.group l)

/-- morris.py:913 -/
noncomputable def Stat.sigma (s : Stat L) (l : L) : Option ℝ := std (s.group l)

/-- morris.py:919 -/
noncomputable def Stat.muRel (s : Stat L) (l : L) : ℝ := s.mu l / s.mean

/-- morris.py:920 -/
noncomputable def Stat.sigmaRel (s : Stat L) (l : L) : Option ℝ := (s.sigma l).map (· / s.mean)

/-- morris.py:844-929 `get_morris_stats`, for one time and one output. Without a trajectory `pd.concat` raises. -/
noncomputable def stats (trajs : List (Traj L)) (t : ℝ) (o : String) : Except ErrErr (Stat L) :=
  if trajs = [] then .error .empty
  else
    match mapE (fun d => d.mean t o) trajs with
    | .error e => .error e
    | .ok ms =>
      match mapE (fun d => d.effects t o) trajs with
      | .error e => .error e
      | .ok es => if avg ms = 0 then .error .nan else .ok { mean := avg ms, effs := es.flatten }

/-- morris.py:951: the two ways of scoring -/
inductive Method where
  | mean
  | max
deriving DecidableEq

/-- pandas `max()` of a row or column, skipping `nan` -/
noncomputable def maxSkip (l : List (Option ℝ)) : Option ℝ :=
  match l.filterMap id with
  | [] => none
  | x :: xs => some (xs.foldl max x)

/-- `a + b`, where either may be `nan` -/
noncomputable def addNan : Option ℝ → Option ℝ → Option ℝ
  | some a, some b => some (a + b)
  | _, _ => none

/-- morris.py:956-965: the score of one factor, the sums skipping `nan`; `rows` has the statistics by time and output -/
noncomputable def scoreMean (rows : List (List (Stat L))) (nt no : ℕ) (l : L) : Option ℝ :=
  some ((rows.map fun r => (r.map fun s => |s.muRel l|).sum + (r.map fun s => (s.sigmaRel l).getD 0).sum).sum / nt / no)

/-- morris.py:966-976 -/
noncomputable def scoreMax (rows : List (List (Stat L))) (l : L) : Option ℝ :=
  maxSkip (rows.map fun r => addNan (maxSkip (r.map fun s => some |s.muRel l|)) (maxSkip (r.map fun s => s.sigmaRel l)))

/-- morris.py:932-980 `get_ranking`. `sortValues` is the (unstable) sort of pandas. Without important times the code
raises, without important outputs it gives `nan` (`mean`: a division by zero). -/
noncomputable def getRanking (trajs : List (Traj L)) (outs : List String) (times : List ℝ) (method : Method)
    (sortValues : List (L × Option ℝ) → List (L × Option ℝ)) : Except ErrErr (List (L × Option ℝ)) :=
  if times = [] then .error .empty
  else if outs = [] then .error .nan
  else
    match mapE (fun t => mapE (fun o => stats trajs t o) outs) times with
    | .error e => .error e
    | .ok rows =>
      let labels := (trajs.flatMap Traj.labels).dedup
      .ok (sortValues (labels.map fun l => (l,
        match method with
        | .mean => scoreMean rows times.length outs.length l
        | .max => scoreMax rows l)))

/-! ### specification -/

/-- The logged trajectory `d` is that of the walk `steps` from `x0`, with `model` the solution at a point and `lab` the
labels of the factors (morris.py:598-709). -/
structure Logged {n : ℕ} (model : (Fin n → ℚ) → Sol) (lab : Fin n → L) (x0 : Fin n → ℚ) (steps : List (Morris.Step n))
    (d : Traj L) : Prop where
  base : d.base = model x0
  runs : d.runs = steps.map fun s => model s.x
  deltas : d.deltas = steps.map fun s => (s.delta : ℝ)
  labels : d.labels = steps.map fun s => lab s.factor

/-- `y` is the value of output `o` at time `t`, as a function of the factors, at the points of the trajectory. -/
def Output {n : ℕ} (model : (Fin n → ℚ) → Sol) (t : ℝ) (o : String) (x0 : Fin n → ℚ) (steps : List (Morris.Step n))
    (y : (Fin n → ℚ) → ℝ) : Prop :=
  ∀ x, x = x0 ∨ x ∈ steps.map Morris.Step.x → resultInTime (model x) o t = .ok (y x)

/-- `q` is a difference quotient of `y` in factor `i`, between two points that differ in that factor only by `h` up or
down. -/
def Quotient {n : ℕ} (y : (Fin n → ℚ) → ℝ) (h : ℚ) (i : Fin n) (q : ℝ) : Prop :=
  ∃ x x' : Fin n → ℚ, (∀ k, k ≠ i → x' k = x k) ∧ (x' i = x i + h ∨ x' i = x i - h) ∧
    q = (y x' - y x) / ((x' i - x i : ℚ) : ℝ)

/-- Each factor is changed exactly once. -/
def Each {n : ℕ} (steps : List (Morris.Step n)) : Prop := ∀ i, (steps.map Morris.Step.factor).count i = 1

/-! ### C67: elementary effects -/

omit [DecidableEq L] in
theorem values_ok {n : ℕ} {model : (Fin n → ℚ) → Sol} {lab : Fin n → L} {x0 : Fin n → ℚ} {steps : List (Morris.Step n)}
    {d : Traj L} (hd : Logged model lab x0 steps d) {t : ℝ} {o : String} {y : (Fin n → ℚ) → ℝ}
    (hy : Output model t o x0 steps y) : d.values t o = .ok (y x0 :: steps.map fun s => y s.x) := by
  unfold Traj.values
  rw [mapE_ok, hd.base, hd.runs]
  refine .cons (hy x0 (.inl rfl)) ?_
  have h2 : ∀ s ∈ steps, resultInTime (model s.x) o t = .ok (y s.x) :=
    fun s hs => hy _ (.inr (List.mem_map_of_mem hs))
  clear hy hd
  induction steps with
  | nil => exact .nil
  | cons s l ih => exact .cons (h2 s (List.mem_cons_self ..)) (ih fun s hs => h2 s (List.mem_cons_of_mem _ hs))

/-- The list of the effects along a walk -/
noncomputable def along {n : ℕ} (y : (Fin n → ℚ) → ℝ) : (Fin n → ℚ) → List (Morris.Step n) → List (Fin n × ℝ)
  | _, [] => []
  | x, s :: l => (s.factor, (y s.x - y x) / s.delta) :: along y s.x l

omit [DecidableEq L] in
theorem zip_quotients {n : ℕ} (lab : Fin n → L) (y : (Fin n → ℚ) → ℝ) (x : Fin n → ℚ) (steps : List (Morris.Step n)) :
    (steps.map fun s => lab s.factor).zip (quotients (y x :: steps.map fun s => y s.x) (steps.map fun s => (s.delta : ℝ))) =
      (along y x steps).map fun e => (lab e.1, e.2) := by
  induction steps generalizing x with
  | nil => rfl
  | cons s l ih =>
    simp only [List.map_cons, quotients, List.zip_cons_cons, along]
    rw [← ih]

omit [DecidableEq L] in
theorem effects_ok {n : ℕ} {model : (Fin n → ℚ) → Sol} {lab : Fin n → L} {x0 : Fin n → ℚ} {steps : List (Morris.Step n)}
    {d : Traj L} (hd : Logged model lab x0 steps d) {t : ℝ} {o : String} {y : (Fin n → ℚ) → ℝ}
    (hy : Output model t o x0 steps y) :
    d.effects t o = .ok ((along y x0 steps).map fun e => (lab e.1, e.2)) := by
  unfold Traj.effects
  rw [values_ok hd hy]
  simp only
  rw [if_pos ⟨by rw [hd.deltas, hd.runs]; simp, by rw [hd.labels, hd.runs]; simp⟩, hd.deltas, hd.labels, zip_quotients]

theorem along_fst {n : ℕ} (y : (Fin n → ℚ) → ℝ) (x : Fin n → ℚ) (steps : List (Morris.Step n)) :
    (along y x steps).map Prod.fst = steps.map Morris.Step.factor := by
  induction steps generalizing x with
  | nil => rfl
  | cons s l ih => simp [along, ih]

theorem along_quotient {n : ℕ} {y : (Fin n → ℚ) → ℝ} {h : ℚ} {x : Fin n → ℚ} {steps : List (Morris.Step n)}
    (hw : Morris.Walk h x steps) : ∀ e ∈ along y x steps, Quotient y h e.1 e.2 := by
  induction steps generalizing x with
  | nil => intro e he; cases he
  | cons s l ih =>
    obtain ⟨h1, h2, h3, h4⟩ := hw
    intro e he
    rcases List.mem_cons.1 he with rfl | he
    · refine ⟨x, s.x, h3, ?_, ?_⟩
      · rcases h1 with h1 | h1
        · left; rw [h2, h1]
        · right; rw [h2, h1]; ring
      · have : s.x s.factor - x s.factor = s.delta := by rw [h2]; ring
        rw [this]
    · exact ih h4 e he

/-- **C67.** The elementary effects of a trajectory: one per factor, and the one with the label of factor `i` is a
difference quotient of the output in that factor, with all the other factors fixed. -/
theorem effects_quotient {n : ℕ} {model : (Fin n → ℚ) → Sol} {lab : Fin n → L} (hlab : Function.Injective lab)
    {x0 : Fin n → ℚ} {steps : List (Morris.Step n)} {h : ℚ} (hw : Morris.Walk h x0 steps) (he : Each steps)
    {d : Traj L} (hd : Logged model lab x0 steps d) {t : ℝ} {o : String} {y : (Fin n → ℚ) → ℝ}
    (hy : Output model t o x0 steps y) :
    ∃ l : List (L × ℝ), d.effects t o = .ok l ∧ l.length = n ∧
      (∀ i, (l.map Prod.fst).count (lab i) = 1) ∧ ∀ i q, (lab i, q) ∈ l → Quotient y h i q := by
  refine ⟨_, effects_ok hd hy, ?_, fun i => ?_, fun i q hq => ?_⟩
  · rw [List.length_map, ← List.length_map (f := Prod.fst), along_fst]
    have hp : (steps.map Morris.Step.factor).Perm (List.finRange n) := by
      rw [List.perm_iff_count]
      intro i
      rw [he i, List.count_eq_one_of_mem (List.nodup_finRange n) (List.mem_finRange i)]
    rw [hp.length_eq, List.length_finRange]
  · rw [List.map_map]
    have : (Prod.fst ∘ fun e : Fin n × ℝ => (lab e.1, e.2)) = lab ∘ Prod.fst := rfl
    rw [this, ← List.map_map, along_fst, List.count_map_of_injective _ _ hlab]
    exact he i
  · obtain ⟨e, h1, h2⟩ := List.mem_map.1 hq
    simp only [Prod.mk.injEq] at h2
    obtain ⟨h2, rfl⟩ := h2
    rw [← hlab h2]
    exact along_quotient hw e h1

theorem along_telescope {n : ℕ} (y : (Fin n → ℚ) → ℝ) (x : Fin n → ℚ) (steps : List (Morris.Step n))
    (hδ : ∀ s ∈ steps, s.delta ≠ 0) :
    (List.zipWith (fun e (s : Morris.Step n) => e.2 * (s.delta : ℝ)) (along y x steps) steps).sum =
      y ((steps.map Morris.Step.x).getLastD x) - y x := by
  induction steps generalizing x with
  | nil => simp [along]
  | cons s l ih =>
    have h0 : (s.delta : ℝ) ≠ 0 := by exact_mod_cast hδ s (List.mem_cons_self ..)
    simp only [along, List.zipWith_cons_cons, List.sum_cons, List.map_cons, List.getLastD_cons]
    rw [ih s.x fun s' hs => hδ s' (List.mem_cons_of_mem _ hs)]
    field_simp
    ring

theorem walk_ne {n : ℕ} {h : ℚ} (h0 : h ≠ 0) {x : Fin n → ℚ} {steps : List (Morris.Step n)} (hw : Morris.Walk h x steps) :
    ∀ s ∈ steps, s.delta ≠ 0 := by
  induction steps generalizing x with
  | nil => intro s hs; cases hs
  | cons s l ih =>
    obtain ⟨h1, -, -, h4⟩ := hw
    intro s' hs
    rcases List.mem_cons.1 hs with rfl | hs
    · rcases h1 with h1 | h1
      · rw [h1]; exact h0
      · rw [h1]; exact neg_ne_zero.2 h0
    · exact ih h4 s' hs

omit [DecidableEq L] in
/-- **C67.** The effects times the logged steps add up to the change of the output from the base run to the last run. -/
theorem effects_telescope {n : ℕ} {model : (Fin n → ℚ) → Sol} {lab : Fin n → L} {x0 : Fin n → ℚ}
    {steps : List (Morris.Step n)} {h : ℚ} (h0 : h ≠ 0) (hw : Morris.Walk h x0 steps)
    {d : Traj L} (hd : Logged model lab x0 steps d) {t : ℝ} {o : String} {l : List (L × ℝ)} (hl : d.effects t o = .ok l)
    {v w : ℝ} (hv : resultInTime d.base o t = .ok v) (hv' : resultInTime (d.runs.getLastD d.base) o t = .ok w)
    {y : (Fin n → ℚ) → ℝ} (hy : Output model t o x0 steps y) :
    (List.zipWith (fun e δ => e.2 * δ) l d.deltas).sum = w - v := by
  rw [effects_ok hd hy] at hl
  cases hl
  have e1 := along_telescope y x0 steps (walk_ne h0 hw)
  rw [hd.deltas, List.zipWith_map, e1]
  rw [hd.base, hy x0 (.inl rfl)] at hv
  have hx : (steps.map Morris.Step.x).getLastD x0 = x0 ∨ (steps.map Morris.Step.x).getLastD x0 ∈ steps.map Morris.Step.x := by
    cases hs : steps.map Morris.Step.x with
    | nil => left; rfl
    | cons a l =>
      right
      rw [List.getLastD_cons, List.getLastD_eq_getLast?]
      cases hg : l.getLast? with
      | none => simp
      | some b => simpa using .inr (List.mem_of_getLast? hg)
  have hm : d.runs.getLastD d.base = model ((steps.map Morris.Step.x).getLastD x0) := by
    rw [hd.runs, hd.base, List.getLastD_eq_getLast?, List.getLastD_eq_getLast?, List.getLast?_map, List.getLast?_map]
    cases steps.getLast? <;> rfl
  rw [hm, hy _ hx] at hv'
  cases hv
  cases hv'
  rfl

/-! ### C68: statistics -/

/-- The logged trajectories `trajs` are those of the walks `walks`, all with step `h`, each changing every factor once. -/
def Sample {n : ℕ} (model : (Fin n → ℚ) → Sol) (lab : Fin n → L) (h : ℚ)
    (walks : List ((Fin n → ℚ) × List (Morris.Step n))) (trajs : List (Traj L)) : Prop :=
  List.Forall₂ (fun w d => Morris.Walk h w.1 w.2 ∧ Each w.2 ∧ Logged model lab w.1 w.2 d) walks trajs

/-- `y` is the value of output `o` at time `t` at all points of all walks -/
def Outputs {n : ℕ} (model : (Fin n → ℚ) → Sol) (t : ℝ) (o : String)
    (walks : List ((Fin n → ℚ) × List (Morris.Step n))) (y : (Fin n → ℚ) → ℝ) : Prop :=
  ∀ w ∈ walks, Output model t o w.1 w.2 y

/-- what one trajectory contributes to the group of a label -/
theorem effects_group {n : ℕ} {lab : Fin n → L} (hlab : Function.Injective lab) (y : (Fin n → ℚ) → ℝ) (x : Fin n → ℚ)
    {steps : List (Morris.Step n)} (he : Each steps) (i : Fin n) :
    ∃ q, ((((along y x steps).map fun e => (lab e.1, e.2)).filter fun e => e.1 = lab i).map Prod.snd) = [q] ∧
      (i, q) ∈ along y x steps := by
  have h1 : (((along y x steps).map fun e => (lab e.1, e.2)).filter fun e => e.1 = lab i) =
      ((along y x steps).filter fun e => e.1 = i).map fun e => (lab e.1, e.2) := by
    rw [List.filter_map]
    congr 1
    apply List.filter_congr
    intro e _
    simp [hlab.eq_iff]
  have h2 : ((along y x steps).filter fun e => e.1 = i).length = 1 := by
    have := he i
    rw [← along_fst y x, List.count_eq_countP, List.countP_map, List.countP_eq_length_filter] at this
    rw [← this]
    congr 1
  obtain ⟨e, hE⟩ := List.length_eq_one_iff.1 h2
  have hm : e ∈ (along y x steps).filter fun e => e.1 = i := by rw [hE]; exact List.mem_singleton.2 rfl
  rw [List.mem_filter, decide_eq_true_iff] at hm
  obtain ⟨a, q⟩ := e
  simp only at hm
  obtain ⟨hm, rfl⟩ := hm
  exact ⟨q, by rw [h1, hE]; rfl, hm⟩

omit [DecidableEq L] in
theorem mem_effect {n : ℕ} {lab : Fin n → L} {y : (Fin n → ℚ) → ℝ} {x : Fin n → ℚ}
    {steps : List (Morris.Step n)} {i : Fin n} {q : ℝ} (h : (i, q) ∈ along y x steps) :
    (lab i, q) ∈ (along y x steps).map fun e => (lab e.1, e.2) := List.mem_map.2 ⟨_, h, rfl⟩

/-- the concatenated effects -/
theorem concat_ok {n : ℕ} {model : (Fin n → ℚ) → Sol} {lab : Fin n → L} (hlab : Function.Injective lab) {h : ℚ}
    {walks : List ((Fin n → ℚ) × List (Morris.Step n))} {trajs : List (Traj L)} (hs : Sample model lab h walks trajs)
    {t : ℝ} {o : String} {y : (Fin n → ℚ) → ℝ} (hy : Outputs model t o walks y) :
    ∃ es, mapE (fun d => d.effects t o) trajs = .ok es ∧
      ∀ i, List.Forall₂ (fun d q => ∃ l, d.effects t o = .ok l ∧ (lab i, q) ∈ l ∧ Quotient y h i q) trajs
        ((es.flatten.filter fun e => e.1 = lab i).map Prod.snd) := by
  induction hs with
  | nil => exact ⟨[], rfl, fun i => .nil⟩
  | @cons w d walks trajs hd hs ih =>
    obtain ⟨es, h1, h2⟩ := ih fun w hw => hy w (List.mem_cons_of_mem _ hw)
    have e0 := effects_ok hd.2.2 (hy w (List.mem_cons_self ..))
    refine ⟨((along y w.1 w.2).map fun e => (lab e.1, e.2)) :: es, ?_, fun i => ?_⟩
    · rw [mapE, e0, h1]
    · obtain ⟨q, hq, hm⟩ := effects_group hlab y w.1 hd.2.1 i
      rw [List.flatten_cons, List.filter_append, List.map_append, hq]
      exact .cons ⟨_, e0, mem_effect hm, along_quotient hd.1 _ hm⟩ (h2 i)

omit [DecidableEq L] in
theorem means_ok {n : ℕ} {model : (Fin n → ℚ) → Sol} {lab : Fin n → L} {h : ℚ}
    {walks : List ((Fin n → ℚ) × List (Morris.Step n))} {trajs : List (Traj L)} (hs : Sample model lab h walks trajs)
    {t : ℝ} {o : String} {y : (Fin n → ℚ) → ℝ} (hy : Outputs model t o walks y) :
    mapE (fun d => d.mean t o) trajs =
      .ok (walks.map fun w => (y w.1 + (w.2.map fun s => y s.x).sum) / (w.2.length + 1)) := by
  induction hs with
  | nil => rfl
  | @cons w d walks trajs hd hs ih =>
    rw [mapE, ih fun w hw => hy w (List.mem_cons_of_mem _ hw)]
    have e : d.mean t o = .ok ((y w.1 + (w.2.map fun s => y s.x).sum) / (w.2.length + 1)) := by
      unfold Traj.mean
      rw [values_ok hd.2.2 (hy w (List.mem_cons_self ..))]
      simp [avg]
    rw [e]
    rfl

/-- the mean output over all runs of all trajectories -/
noncomputable def grandMean {n : ℕ} (y : (Fin n → ℚ) → ℝ) (walks : List ((Fin n → ℚ) × List (Morris.Step n))) : ℝ :=
  (walks.map fun w => (y w.1 + (w.2.map fun s => y s.x).sum) / (w.2.length + 1)).sum / walks.length

/-- **C68.** The statistics exist (unless the mean output is zero). The mean output is the mean over the trajectories of
the mean over their runs; `mu` of a factor is the mean, and `sigma` the sample standard deviation, of one elementary
effect per trajectory, each a difference quotient in that factor. With a single trajectory `sigma` is `nan`. -/
theorem stats_spec {n : ℕ} {model : (Fin n → ℚ) → Sol} {lab : Fin n → L} (hlab : Function.Injective lab) {h : ℚ}
    {walks : List ((Fin n → ℚ) × List (Morris.Step n))} {trajs : List (Traj L)} (hs : Sample model lab h walks trajs)
    (hne : trajs ≠ []) {t : ℝ} {o : String} {y : (Fin n → ℚ) → ℝ} (hy : Outputs model t o walks y)
    (h0 : grandMean y walks ≠ 0) :
    ∃ s, stats trajs t o = .ok s ∧ s.mean = grandMean y walks ∧
      ∀ i, ∃ g : List ℝ,
        List.Forall₂ (fun d q => ∃ l, d.effects t o = .ok l ∧ (lab i, q) ∈ l ∧ Quotient y h i q) trajs g ∧
        s.mu (lab i) = g.sum / trajs.length ∧
        s.sigma (lab i) = if trajs.length = 1 then none else
          some (Real.sqrt ((g.map fun q => (q - g.sum / trajs.length) ^ 2).sum / (trajs.length - 1))) := by
  obtain ⟨es, h1, h2⟩ := concat_ok hlab hs hy
  have hm := means_ok hs hy
  refine ⟨{ mean := grandMean y walks, effs := es.flatten }, ?_, ?_, fun i => ⟨_, h2 i, ?_, ?_⟩⟩
  · unfold stats
    rw [if_neg hne, hm, h1]
    simp only [avg, List.length_map]
    exact if_neg h0
  · rfl
  · show avg _ = _
    rw [(h2 i).length_eq]
    rfl
  · have hl := (h2 i).length_eq
    show std _ = _
    unfold std Stat.group
    have hpos : 0 < trajs.length := List.length_pos_iff.2 hne
    simp only at hl ⊢
    by_cases h1 : trajs.length = 1
    · rw [if_pos (by omega), if_pos h1]
    · rw [if_neg (by omega), if_neg h1, hl]
      simp only [avg]

/-- the effects of an output that is affine in one factor -/
theorem quotient_affine {n : ℕ} {y : (Fin n → ℚ) → ℝ} {h : ℚ} (h0 : h ≠ 0) {i : Fin n} {a : ℝ}
    (ha : ∀ x x' : Fin n → ℚ, (∀ k, k ≠ i → x' k = x k) → y x' - y x = a * ((x' i - x i : ℚ) : ℝ)) {q : ℝ}
    (hq : Quotient y h i q) : q = a := by
  obtain ⟨x, x', h1, h2, rfl⟩ := hq
  rw [ha x x' h1]
  have : ((x' i - x i : ℚ) : ℝ) ≠ 0 := by
    rw [Rat.cast_ne_zero]
    rcases h2 with h2 | h2
    · rw [h2]; simpa using h0
    · rw [h2]; simpa using h0
  field_simp

theorem std_const {g : List ℝ} {a : ℝ} (h : ∀ q ∈ g, q = a) (h2 : 2 ≤ g.length) : avg g = a ∧ std g = some 0 := by
  have e := List.eq_replicate_of_mem h
  have hn : (g.length : ℝ) ≠ 0 := by
    have : g.length ≠ 0 := by omega
    exact_mod_cast this
  have ha : avg g = a := by
    unfold avg
    rw [e, List.sum_replicate, List.length_replicate, nsmul_eq_mul]
    field_simp
  refine ⟨ha, ?_⟩
  unfold std
  rw [if_neg (by omega), ha]
  have : (g.map fun x => (x - a) ^ 2) = List.replicate g.length 0 := by
    rw [List.eq_replicate_iff]
    refine ⟨by simp, fun b hb => ?_⟩
    obtain ⟨q, hq, rfl⟩ := List.mem_map.1 hb
    rw [h q hq]
    ring
  rw [this]
  simp

theorem std_eq_zero {g : List ℝ} (h2 : 2 ≤ g.length) (h : std g = some 0) : ∀ q ∈ g, q = avg g := by
  unfold std at h
  rw [if_neg (by omega)] at h
  simp only [Option.some.injEq] at h
  have hn : (0 : ℝ) < (g.length : ℝ) - 1 := by
    have : (2 : ℝ) ≤ g.length := by exact_mod_cast h2
    linarith
  have hnn : 0 ≤ (g.map fun x => (x - avg g) ^ 2).sum := List.sum_nonneg (by
    intro b hb
    obtain ⟨q, -, rfl⟩ := List.mem_map.1 hb
    positivity)
  have h3 := (Real.sqrt_eq_zero (div_nonneg hnn hn.le)).1 h
  have h4 : (g.map fun x => (x - avg g) ^ 2).sum = 0 := by
    rcases div_eq_zero_iff.1 h3 with h | h
    · exact h
    · linarith
  intro q hq
  have h5 : (q - avg g) ^ 2 ≤ (g.map fun x => (x - avg g) ^ 2).sum :=
    List.single_le_sum (by
      intro b hb
      obtain ⟨q, -, rfl⟩ := List.mem_map.1 hb
      positivity) _ (List.mem_map.2 ⟨q, hq, rfl⟩)
  rw [h4] at h5
  have := pow_eq_zero_iff (two_ne_zero) |>.1 (le_antisymm h5 (sq_nonneg _))
  linarith

/-- the group of a factor, from successful statistics -/
theorem group_spec {n : ℕ} {model : (Fin n → ℚ) → Sol} {lab : Fin n → L} (hlab : Function.Injective lab) {h : ℚ}
    {walks : List ((Fin n → ℚ) × List (Morris.Step n))} {trajs : List (Traj L)} (hs : Sample model lab h walks trajs)
    {t : ℝ} {o : String} {y : (Fin n → ℚ) → ℝ} (hy : Outputs model t o walks y) {s : Stat L}
    (hst : stats trajs t o = .ok s) (i : Fin n) :
    (s.group (lab i)).length = trajs.length ∧ s.mean = grandMean y walks ∧ s.mean ≠ 0 ∧
      ∀ q ∈ s.group (lab i), Quotient y h i q := by
  obtain ⟨es, h1, h2⟩ := concat_ok hlab hs hy
  have hm := means_ok hs hy
  unfold stats at hst
  split at hst
  · cases hst
  rw [hm, h1] at hst
  simp only at hst
  split at hst
  · cases hst
  rename_i h0
  cases hst
  refine ⟨(h2 i).length_eq.symm, ?_, h0, fun q hq => ?_⟩
  · simp [avg, grandMean]
  · obtain ⟨d, -, l, -, -, hq⟩ := forall₂_mem_right (h2 i) hq
    exact hq

/-- **C68.** For an output that is affine in a factor, whatever the other factors are, `mu` is its slope and `sigma` is
zero. -/
theorem stats_affine {n : ℕ} {model : (Fin n → ℚ) → Sol} {lab : Fin n → L} (hlab : Function.Injective lab) {h : ℚ}
    (h0 : h ≠ 0) {walks : List ((Fin n → ℚ) × List (Morris.Step n))} {trajs : List (Traj L)}
    (hs : Sample model lab h walks trajs) (h2 : 2 ≤ trajs.length) {t : ℝ} {o : String} {y : (Fin n → ℚ) → ℝ}
    (hy : Outputs model t o walks y) {s : Stat L} (hst : stats trajs t o = .ok s) {i : Fin n} {a : ℝ}
    (ha : ∀ x x' : Fin n → ℚ, (∀ k, k ≠ i → x' k = x k) → y x' - y x = a * ((x' i - x i : ℚ) : ℝ)) :
    s.mu (lab i) = a ∧ s.sigma (lab i) = some 0 := by
  obtain ⟨h1, -, -, h3⟩ := group_spec hlab hs hy hst i
  exact std_const (fun q hq => quotient_affine h0 ha (h3 q hq)) (by omega)

/-- **C68.** If the output changes by at most `K` times the change of a factor, `mu` is between `-K` and `K`. -/
theorem mu_bounded {n : ℕ} {model : (Fin n → ℚ) → Sol} {lab : Fin n → L} (hlab : Function.Injective lab) {h : ℚ}
    (h0 : h ≠ 0) {walks : List ((Fin n → ℚ) × List (Morris.Step n))} {trajs : List (Traj L)}
    (hs : Sample model lab h walks trajs) (hne : trajs ≠ []) {t : ℝ} {o : String} {y : (Fin n → ℚ) → ℝ}
    (hy : Outputs model t o walks y) {s : Stat L} (hst : stats trajs t o = .ok s) {i : Fin n} {K : ℝ}
    (hK : ∀ x x' : Fin n → ℚ, (∀ k, k ≠ i → x' k = x k) → |y x' - y x| ≤ K * |((x' i - x i : ℚ) : ℝ)|) :
    |s.mu (lab i)| ≤ K := by
  obtain ⟨h1, -, -, h3⟩ := group_spec hlab hs hy hst i
  have hq : ∀ q ∈ s.group (lab i), |q| ≤ K := by
    intro q hq
    obtain ⟨x, x', e1, e2, rfl⟩ := h3 q hq
    have : ((x' i - x i : ℚ) : ℝ) ≠ 0 := by
      rw [Rat.cast_ne_zero]
      rcases e2 with e2 | e2
      · rw [e2]; simpa using h0
      · rw [e2]; simpa using h0
    rw [abs_div, div_le_iff₀ (abs_pos.2 this)]
    exact hK x x' e1
  have hpos : (0 : ℝ) < (s.group (lab i)).length := by
    rw [h1]; exact_mod_cast List.length_pos_iff.2 hne
  unfold Stat.mu avg
  rw [abs_div, abs_of_pos hpos, div_le_iff₀ hpos]
  have key : ∀ l : List ℝ, (∀ q ∈ l, |q| ≤ K) → |l.sum| ≤ K * l.length := by
    intro l
    induction l with
    | nil => intro _; simp
    | cons a l ih =>
      intro hl
      have := ih fun q hq => hl q (List.mem_cons_of_mem _ hq)
      have ha := hl a (List.mem_cons_self ..)
      rw [List.sum_cons, List.length_cons]
      push_cast
      calc |a + l.sum| ≤ |a| + |l.sum| := abs_add_le _ _
        _ ≤ K + K * l.length := by linarith
        _ = K * (l.length + 1) := by ring
  exact key _ hq

/-- every effect of every trajectory is in the group of its label -/
theorem mem_group {trajs : List (Traj L)} {t : ℝ} {o : String} {s : Stat L} (hst : stats trajs t o = .ok s) {d : Traj L}
    (hd : d ∈ trajs) {es : List (L × ℝ)} (hl : d.effects t o = .ok es) {l : L} {q : ℝ} (hq : (l, q) ∈ es) :
    q ∈ s.group l := by
  unfold stats at hst
  split at hst
  · cases hst
  split at hst
  · cases hst
  split at hst
  · cases hst
  rename_i es hes
  split at hst
  · cases hst
  cases hst
  obtain ⟨b, hb, hb'⟩ := forall₂_mem_left (mapE_ok.1 hes) hd
  rw [hl] at hb'
  cases hb'
  exact List.mem_map.2 ⟨(l, q), List.mem_filter.2 ⟨List.mem_flatten.2 ⟨_, hb, hq⟩, by simp⟩, rfl⟩

/-- **C68.** `sigma` is zero only if the effect is the same in all trajectories. -/
theorem sigma_zero {n : ℕ} {model : (Fin n → ℚ) → Sol} {lab : Fin n → L} (hlab : Function.Injective lab) {h : ℚ}
    {walks : List ((Fin n → ℚ) × List (Morris.Step n))} {trajs : List (Traj L)}
    (hs : Sample model lab h walks trajs) (h2 : 2 ≤ trajs.length) {t : ℝ} {o : String} {y : (Fin n → ℚ) → ℝ}
    (hy : Outputs model t o walks y) {s : Stat L} (hst : stats trajs t o = .ok s) {i : Fin n}
    (h0 : s.sigma (lab i) = some 0) {q q' : ℝ} {l l' : List (L × ℝ)} {d d' : Traj L} (hd : d ∈ trajs) (hd' : d' ∈ trajs)
    (hl : d.effects t o = .ok l) (hq : (lab i, q) ∈ l) (hl' : d'.effects t o = .ok l') (hq' : (lab i, q') ∈ l') :
    q = q' := by
  obtain ⟨h1, -, -, -⟩ := group_spec hlab hs hy hst i
  have hz := std_eq_zero (by omega) h0
  rw [hz q (mem_group hst hd hl hq), hz q' (mem_group hst hd' hl' hq')]

end Verif.Fwork.MorrisStats
