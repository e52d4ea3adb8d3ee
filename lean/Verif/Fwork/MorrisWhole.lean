/-
Property C112: what the statistics of a Morris run over the rate coefficients of a chemistry measure. Joins the model of the chemistry
(Plaschem), the mapping of the factors (MorrisMap), the trajectories (Morris), the processes and files (MorrisRuns, MorrisBatch), and
the evaluation (MorrisEval).
-/
import Verif.Fwork.MorrisEval
import Verif.Fwork.MorrisMap

namespace Verif.Fwork.MorrisWhole
open Verif.Plaschem Verif.Plaschem.Net Verif.Fwork.MorrisRuns Verif.Fwork.MorrisStats Verif.Fwork.MorrisEval
open Verif.Fwork.Morris (Kind perturbed nominal applyX applyAll setAll SameButArrh inForce dimension mapped mapSpecies mapReactions speciesFactor
  TakesPart)

/-! ### Model -/

/-- morris.py:550, 558: the ids of the factors, as they are logged -/
def factorIds (net : Net) (st : State) : Kind → List Str
  | .species => (net.getSpecies st false false true).map RP.name
  | .reactions => (net.getReactions st false).map fun r => Nat.toDigits 10 r.id

/-- morris.py:535-538: the two types of trajectories that vary the rate coefficients -/
def kindName : Kind → Str
  | .species => str!"species"
  | .reactions => str!"reactions"

/-- the vectors of factors of the runs of a trajectory, one after the other -/
def points {n : ℕ} (w : Path n) : List (List ℚ) := (w.1 :: w.2.map Morris.Step.x).map List.ofFn

/-- morris.py:545-561, 598-657: the solution of run `j`, `none` if it raises. The copy of the chemistry (morris.py:502) goes through all
the vectors up to that of the run. `solve` is what a run logs for a chemistry in a given state, the parameters being the same in all
runs. -/
def runSol (net : Net) (kind : Kind) (st : State) (solve : State → Option Sol) {n : ℕ} (w : Path n) (j : ℕ) : Option Sol :=
  match perturbed net kind st ((points w).take (j + 1)) with
  | .error _ => none
  | .ok st' => solve st'

/-- morris.py:449-717: `J` is a call of `run_trajectory` for the chemistry in state `st`, with the trajectory `w`. -/
structure IsTraj {κ π : Type} (net : Net) (kind : Kind) (st : State) (solve : State → Option Sol) {n : ℕ} (J : Job κ π Sol)
    (w : Path n) : Prop where
  type : J.cfg.type = kindName kind
  dim : dimension net st kind = n
  seed : ∀ i, w.1 i ∈ Morris.Setup.code.grid
  walk : ∃ choices : List (Fin n × Bool), (choices.map Prod.fst).Perm (List.finRange n) ∧
    Morris.Setup.code.trajectory choices w.1 = (w.2, none)
  steps : J.steps = w.2.map fun s => (s.delta, (factorIds net st kind).getD s.factor [])
  sols : ∀ j ≤ w.2.length, J.sols j = runSol net kind st solve w j

section
variable {κ π : Type} [DecidableEq κ] [DecidableEq π]

/-- morris.py:739-786: calls of `run_morris` with one worker one after the other, for one configuration, beginning in a new directory, each
of one trajectory at least. `walks` are the trajectories in the order of their numbers. -/
inductive Batches {n : ℕ} (T : Job κ π Sol → Path n → Prop) (c : Cfg κ π) : Fs κ π Sol → List (Path n) → Prop
  | new : Batches T c Fs.new []
  | batch {fs fs1 : Fs κ π Sol} {walks ws : List (Path n)} {a : MorrisBatch.Args κ π Sol} {bound : ℕ} {ids : List ℕ} {w : World κ π Sol}
      {m : ℕ} :
      Batches T c fs walks → a.cfg = c → a.Good → a.cores = 1 → ws.length = a.num → ws ≠ [] →
      (∀ (p : ℕ) (h : p < ws.length), T (a.job ids p) ws[p]) →
      (∀ i, bound ≤ i → (fs.trajs (trajName i)).info = none) →
      a.call bound fs = (fs1, .ok ids) → MorrisBatch.PoolRun (a.job ids) a.num a.cores (a.start fs1) m w →
      MorrisBatch.AllOver a.num w → Batches T c w.fs (walks ++ ws)

/-- the batches of a study -/
theorem Batches.analysis {n : ℕ} {T : Job κ π Sol → Path n → Prop} {A : Study n} (hT : ∀ J w, T J w → IsCall A J w) {c : Cfg κ π}
    {fs : Fs κ π Sol} {walks : List (Path n)} (hR : Batches T c fs walks) : Analysis A c fs walks := by
  induction hR with
  | new => exact .new
  | batch _ h1 h2 h3 h4 h5 h6 h7 h8 h9 h10 ih => exact .batch ih h1 h2 h3 h4 h5 (fun p hp => hT _ _ (h6 p hp)) h7 h8 h9 h10

/-- the calls of the batches; none of their runs raises -/
theorem Batches.calls {n : ℕ} {T : Job κ π Sol → Path n → Prop} {c : Cfg κ π} {fs : Fs κ π Sol} {walks : List (Path n)}
    (hR : Batches T c fs walks) : ∀ v ∈ walks, ∃ J, T J v ∧ ∀ j ≤ J.steps.length, (J.sols j).isSome := by
  induction hR with
  | new => intro v hv; cases hv
  | batch _ _ hg _ hl _ h6 _ _ _ _ ih =>
    intro v hv
    rcases List.mem_append.1 hv with hv | hv
    · exact ih v hv
    · obtain ⟨p, hp, rfl⟩ := List.mem_iff_getElem.1 hv
      refine ⟨_, h6 p hp, fun j hj => ?_⟩
      have hs := hg.solves p (by omega) j hj
      have : MorrisBatch.Args.supported _ = true := decide_eq_true hg.type
      simp only [MorrisBatch.Args.job, this, if_true]
      exact hs

end

/-! ### Specification -/

/-- All enabled reactions have rate data. -/
def Rated (net : Net) (st : State) : Prop := ∀ r ∈ net.getReactions st false, ∃ v, inForce st r = some v

/-- Two chemistries that are as `st` but for the rate coefficients. All of these are equal but that of `r`; it is below its value in
`st` in the first, and larger by just this value in the second. -/
structure OneRate (net : Net) (st : State) (r : Reaction) (lo hi : State) : Prop where
  left : SameButArrh lo st
  right : SameButArrh hi st
  others : ∀ r' ∈ net.getReactions st false, r'.id ≠ r.id → inForce lo r' = inForce hi r'
  this : ∀ v, inForce st r = some v → ∃ x, 0 < x ∧ x < 1 ∧ inForce lo r = some (v * x) ∧ inForce hi r = some (v * x + v)

/-- Two chemistries that are as `st` but for the rate coefficients. These are equal for the reactions in which `s` does not take part,
and in the ratio `x : x + 1` for all others, with `x` between 0 and 1. -/
structure OneSpecies (net : Net) (st : State) (s : RP) (lo hi : State) : Prop where
  left : SameButArrh lo st
  right : SameButArrh hi st
  others : ∀ r ∈ net.getReactions st false, ¬ TakesPart s r → inForce lo r = inForce hi r
  this : ∃ x, 0 < x ∧ x < 1 ∧ ∀ r ∈ net.getReactions st false, TakesPart s r →
    ∃ u, inForce lo r = some (u * x) ∧ inForce hi r = some (u * (x + 1))

/-- the chemistry at a vector of factors, perturbed once -/
def chemAt (net : Net) (kind : Kind) (st : State) {n : ℕ} (x : Fin n → ℚ) : State :=
  match perturbed net kind st [List.ofFn x] with
  | .error _ => st
  | .ok st' => st'

/-- what is analysed -/
def study (net : Net) (kind : Kind) (st : State) (solve : State → Option Sol) (n : ℕ) : Study n where
  model x := (solve (chemAt net kind st x)).getD ⟨[], fun _ => none⟩
  fid i := (factorIds net st kind).getD i []

/-! ### The chemistry does not depend on the path -/

private theorem set_set {d : Dict Nat ℚ} (a : Nat) (v w : ℚ) : (d.set a v).set a w = d.set a w := by
  induction d with
  | nil => simp [Dict.set]
  | cons e d ih =>
    obtain ⟨i, u⟩ := e
    simp only [Dict.set]
    by_cases h : i = a
    · simp only [if_pos h, Dict.set, if_true]
    · simp only [if_neg h, Dict.set, ih]

private theorem set_comm {d : Dict Nat ℚ} {a b : Nat} (hab : a ≠ b) (ha : a ∈ d.keys) (v w : ℚ) :
    (d.set b v).set a w = (d.set a w).set b v := by
  induction d with
  | nil => simp [Dict.keys] at ha
  | cons e d ih =>
    obtain ⟨i, u⟩ := e
    simp only [Dict.keys, List.map_cons, List.mem_cons] at ha
    simp only [Dict.set]
    by_cases h : i = a
    · subst h
      simp only [if_true, if_neg hab, Dict.set]
    · by_cases h' : i = b
      · subst h'
        simp only [if_true, if_neg h, Dict.set, Ne.symm hab, if_false]
      · simp only [if_neg h, if_neg h', Dict.set]
        rw [ih (ha.resolve_left fun e => h e.symm)]

private def setL (d : Dict Nat ℚ) (k : Dict Nat ℚ) : Dict Nat ℚ := k.foldl (fun d e => d.set e.1 e.2) d

private theorem setL_set {k : Dict Nat ℚ} : ∀ {d : Dict Nat ℚ} {a : Nat} (_ : a ∉ k.keys) (_ : a ∈ d.keys) (w : ℚ),
    (setL d k).set a w = setL (d.set a w) k := by
  induction k with
  | nil => intro d a _ _ w; rfl
  | cons e k ih =>
    intro d a hk hd w
    obtain ⟨i, v⟩ := e
    simp only [Dict.keys, List.map_cons, List.mem_cons, not_or] at hk
    show (setL (d.set i v) k).set a w = setL ((d.set a w).set i v) k
    rw [ih hk.2 (by rw [Dict.keys_set]; split; exact hd; exact List.mem_append_left _ hd), set_comm hk.1 hd]

private theorem setL_setL : ∀ {k₁ k₂ : Dict Nat ℚ} (_ : k₁.keys = k₂.keys) (_ : k₁.keys.Nodup) (d : Dict Nat ℚ),
    setL (setL d k₁) k₂ = setL d k₂
  | [], [], _, _, d => rfl
  | [], e :: k, h, _, d => by simp [Dict.keys] at h
  | e :: k, [], h, _, d => by simp [Dict.keys] at h
  | (i, v) :: k₁, (j, w) :: k₂, h, hn, d => by
    simp only [Dict.keys, List.map_cons, List.cons.injEq] at h
    obtain ⟨rfl, h⟩ := h
    simp only [Dict.keys, List.map_cons, List.nodup_cons] at hn
    have hi : i ∈ (d.set i v).keys := (Dict.mem_keys_iff _ _).2 ⟨v, by rw [Dict.get?_set, if_pos rfl]⟩
    show setL ((setL (d.set i v) k₁).set i w) k₂ = setL (d.set i w) k₂
    rw [setL_set hn.1 hi, set_set, setL_setL h hn.2]

private theorem setAll_eq {net : Net} {k : Dict Nat ℚ} : ∀ {st : State} (_ : ∀ i ∈ k.keys, i ∈ net.reactions.map Reaction.id),
    setAll net st k = { st with adArrhA := setL st.adArrhA k } := by
  induction k with
  | nil => intro st _; rfl
  | cons e k ih =>
    intro st hk
    obtain ⟨i, v⟩ := e
    have hi : i ∈ net.reactions.map Reaction.id := hk i (by simp [Dict.keys])
    have hstep : (net.step st (.adhocArrhA i v)).1 = { st with adArrhA := st.adArrhA.set i v } := by
      simp only [step, setAdhocArrhA, if_pos hi]
    show setAll net (net.step st (.adhocArrhA i v)).1 k = _
    rw [hstep, ih fun j hj => hk j (by simp only [Dict.keys, List.map_cons]; exact List.mem_cons_of_mem _ hj)]
    rfl

private theorem mapSpecies_same {net : Net} {a b : State} (h : SameButArrh a b) (x : List ℚ) (k : Dict Nat ℚ) :
    mapSpecies net a x k = mapSpecies net b x k := by
  unfold mapSpecies stoichiomatrix
  rw [h.species, h.reactions]

private theorem applyX_twice {net : Net} {st0 st st1 : State} (h : Reachable net st) (hs : SameButArrh st st0) (kind : Kind)
    {k : Dict Nat ℚ} (hk : k.keys = (net.getReactions st0 false).map Reaction.id) {x y : List ℚ}
    (hx : x.length = dimension net st0 kind) (hy : y.length = dimension net st0 kind) (h1 : applyX net kind k st y = .ok st1) :
    applyX net kind k st1 x = applyX net kind k st x := by
  have hnd : ((net.getReactions st0 false).map Reaction.id).Nodup :=
    (reachable_inv h).1.rNodup.sublist (List.filter_sublist.map _)
  have hsub : ∀ i ∈ (net.getReactions st0 false).map Reaction.id, i ∈ net.reactions.map Reaction.id := by
    intro i hi
    obtain ⟨r, hr, rfl⟩ := List.mem_map.1 hi
    exact List.mem_map_of_mem (List.mem_filter.1 hr).1
  have main : ∀ {k₁ k₂ : Dict Nat ℚ}, k₁.keys = k.keys → k₂.keys = k.keys →
      setAll net (setAll net st k₁) k₂ = setAll net st k₂ := by
    intro k₁ k₂ e₁ e₂
    rw [setAll_eq (k := k₂) (by rw [e₂, hk]; exact hsub), setAll_eq (k := k₁) (by rw [e₁, hk]; exact hsub),
      setAll_eq (k := k₂) (by rw [e₂, hk]; exact hsub)]
    simp only [setL_setL (e₁.trans e₂.symm) (by rw [e₁, hk]; exact hnd)]
  cases kind with
  | species =>
    obtain ⟨k₁, m1, m2, -⟩ := Morris.mapSpecies_spec h (x := y) (k := k) (by rw [hs.species]; exact hy) (by rw [hs.reactions]; exact hk)
    obtain ⟨k₂, n1, n2, -⟩ := Morris.mapSpecies_spec h (x := x) (k := k) (by rw [hs.species]; exact hx) (by rw [hs.reactions]; exact hk)
    unfold applyX at h1 ⊢
    simp only [m1] at h1
    cases h1
    have hsame : SameButArrh (setAll net st k₁) st :=
      (Morris.setAll_spec h k₁ (by rw [m2, hk]; exact hsub) (by rw [m2, hk]; exact hnd)).2.1
    simp only [mapSpecies_same hsame, n1, main m2 n2]
  | reactions =>
    obtain ⟨k₁, m1, m2, -⟩ := Morris.mapReactions_spec hnd (x := y) (k := k) hy hk
    obtain ⟨k₂, n1, n2, -⟩ := Morris.mapReactions_spec hnd (x := x) (k := k) hx hk
    unfold applyX at h1 ⊢
    simp only [m1] at h1
    cases h1
    simp only [n1, main m2 n2]

private theorem applyAll_last {net : Net} {st0 : State} (kind : Kind) {k : Dict Nat ℚ}
    (hk : k.keys = (net.getReactions st0 false).map Reaction.id) {x : List ℚ} (hx : x.length = dimension net st0 kind)
    (xs : List (List ℚ)) : (∀ y ∈ xs, y.length = dimension net st0 kind) → ∀ {st : State}, Reachable net st → SameButArrh st st0 →
    applyAll net kind k st (xs ++ [x]) = applyX net kind k st x := by
  induction xs with
  | nil =>
    intro _ st _ _
    simp only [List.nil_append, applyAll]
    cases applyX net kind k st x <;> rfl
  | cons y xs ih =>
    intro hy st h hs
    obtain ⟨st1, e, r1, s1, -⟩ := Morris.applyX_spec h hs kind hk (hy y (List.mem_cons_self ..))
    simp only [List.cons_append, applyAll, e]
    rw [ih (fun z hz => hy z (List.mem_cons_of_mem _ hz)) r1 s1, applyX_twice h hs kind hk hx (hy y (List.mem_cons_self ..)) e]

/-- **C112.** The chemistry of a run is determined by its vector of factors: the runs before it have left no trace. -/
theorem perturbed_last {net : Net} {st : State} (h : Reachable net st) (hr : Rated net st) (kind : Kind) (xs : List (List ℚ))
    (x : List ℚ) (hxs : ∀ y ∈ xs, y.length = dimension net st kind) (hx : x.length = dimension net st kind) :
    perturbed net kind st (xs ++ [x]) = perturbed net kind st [x] := by
  obtain ⟨k, k1, k2, -⟩ := Morris.nominal_spec h hr
  unfold perturbed
  simp only [k1]
  rw [applyAll_last kind k2 hx xs hxs h (.refl st)]
  exact (applyAll_last kind k2 hx [] (by simp) h (.refl st)).symm

/-- the chemistry at a vector of factors -/
theorem chemAt_spec {net : Net} {st : State} (h : Reachable net st) (hr : Rated net st) (kind : Kind) {n : ℕ}
    (hd : dimension net st kind = n) (x : Fin n → ℚ) :
    perturbed net kind st [List.ofFn x] = .ok (chemAt net kind st x) ∧ SameButArrh (chemAt net kind st x) st ∧
      ∀ r ∈ net.getReactions st false, ∀ v, inForce st r = some v →
        ∃ w, inForce (chemAt net kind st x) r = some w ∧ mapped net kind st (List.ofFn x) r v w := by
  obtain ⟨k, k1, k2, k3⟩ := Morris.nominal_spec h hr
  obtain ⟨st', e, -, s1, s2⟩ := Morris.applyX_spec h (.refl st) kind k2 (x := List.ofFn x) (by rw [List.length_ofFn, hd])
  have hp : perturbed net kind st [List.ofFn x] = .ok st' := by
    unfold perturbed
    simp only [k1, applyAll, e]
  have hc : chemAt net kind st x = st' := by unfold chemAt; rw [hp]
  rw [hc]
  refine ⟨hp, s1, fun r hrm v hv => ?_⟩
  obtain ⟨w, w1, w2⟩ := s2 r hrm v (k3 r hrm v hv)
  exact ⟨w, by unfold inForce; rw [w1], w2⟩

/-- **C112.** The solution of each run of a trajectory is that of the chemistry perturbed once, by the vector of that run. -/
theorem runSol_point {net : Net} {st : State} (h : Reachable net st) (hr : Rated net st) {kind : Kind} (solve : State → Option Sol)
    {n : ℕ} (hd : dimension net st kind = n) (w : Path n) {j : ℕ} {x : Fin n → ℚ} (hp : w.point j = some x) :
    runSol net kind st solve w j = solve (chemAt net kind st x) := by
  have hlen : ∀ y ∈ points w, y.length = dimension net st kind := by
    intro y hy
    obtain ⟨z, -, rfl⟩ := List.mem_map.1 hy
    rw [List.length_ofFn, hd]
  have hget : (points w)[j]? = some (List.ofFn x) := by
    cases j with
    | zero => cases hp; rfl
    | succ j =>
      simp only [Path.point] at hp
      simp only [points, List.map_cons, List.getElem?_cons_succ, List.getElem?_map]
      obtain ⟨s, h1, rfl⟩ := Option.map_eq_some_iff.1 hp
      rw [h1]
      rfl
  unfold runSol
  rw [List.take_succ, hget, Option.toList_some, perturbed_last h hr kind _ _ (fun y hy => hlen y (List.mem_of_mem_take hy))
    (by rw [List.length_ofFn, hd]), (chemAt_spec h hr kind hd x).1]

/-- the trajectories of a chemistry are those of the study -/
theorem trajectory_call {κ π : Type} {net : Net} {st : State} (h : Reachable net st) (hr : Rated net st) {kind : Kind}
    {solve : State → Option Sol} {n : ℕ} {J : Job κ π Sol} {w : Path n} (hJ : IsTraj net kind st solve J w) :
    IsCall (study net kind st solve n) J w where
  seed := hJ.seed
  walk := hJ.walk
  steps := hJ.steps
  sols := by
    intro j x s hp hs
    have hj : j ≤ w.2.length := by
      cases j with
      | zero => exact Nat.zero_le _
      | succ j =>
        simp only [Path.point] at hp
        obtain ⟨s, h1, -⟩ := Option.map_eq_some_iff.1 hp
        exact (List.getElem?_eq_some_iff.1 h1).1
    rw [hJ.sols j hj, runSol_point h hr solve hJ.dim w hp] at hs
    show s = (solve (chemAt net kind st x)).getD _
    rw [hs]
    rfl

/-! ### Steps of a trajectory -/

theorem walk_step {n : ℕ} {h : ℚ} {s : Morris.Step n} {l₂ : List (Morris.Step n)} : ∀ {l₁ : List (Morris.Step n)} {x : Fin n → ℚ},
    Morris.Walk h x (l₁ ++ s :: l₂) → (s.delta = h ∨ s.delta = -h) ∧
      s.x s.factor = (l₁.map Morris.Step.x).getLastD x s.factor + s.delta ∧
      ∀ k, k ≠ s.factor → s.x k = (l₁.map Morris.Step.x).getLastD x k
  | [], x, hw => ⟨hw.1, hw.2.1, hw.2.2.1⟩
  | a :: l₁, x, hw => by
    have := walk_step (l₁ := l₁) hw.2.2.2
    rw [List.map_cons, List.getLastD_cons]
    exact this

private theorem grid_unit : ∀ v ∈ Morris.Setup.code.grid, 0 < v ∧ v < 1 := by decide +kernel

/-- an elementary effect: twice the difference between the two sides of the step -/
theorem effect_pair {κ π : Type} {n : ℕ} (hn : 2 ≤ n) {A : Study n} {J : Job κ π Sol} {w : Path n} (h : IsCall A J w)
    {y : (Fin n → ℚ) → ℝ} {i : Fin n} {q : ℝ} (hq : Effect y w i q) :
    ∃ lo hi : Fin n → ℚ, (∀ k, k ≠ i → hi k = lo k) ∧ hi i = lo i + 1 / 2 ∧ 0 < lo i ∧ lo i < 1 / 2 ∧ (∀ k, 0 < lo k ∧ lo k < 1) ∧
      q = 2 * (y hi - y lo) := by
  obtain ⟨choices, h1, h2⟩ := h.walk
  obtain ⟨l, e, -, -, g3, g4, -⟩ := Morris.trajectory_code hn h1 h.seed
  rw [h2] at e
  injection e with e _
  subst e
  obtain ⟨l₁, s, l₂, e1, rfl, rfl⟩ := hq
  rw [e1] at g3
  obtain ⟨s1, s2, s3⟩ := walk_step g3
  set p := (l₁.map Morris.Step.x).getLastD w.1 with hp
  have hp0 : ∀ k, p k ∈ Morris.Setup.code.grid := by
    rcases List.eq_nil_or_concat l₁ with rfl | ⟨l', a, rfl⟩
    · exact h.seed
    · rw [List.concat_eq_append] at e1 hp
      rw [List.map_append, List.map_singleton, List.getLastD_concat] at hp
      intro k
      rw [hp]
      exact g4 a (by rw [e1]; simp) k
  have hs0 : ∀ k, s.x k ∈ Morris.Setup.code.grid := g4 s (by rw [e1]; simp)
  have hpu := fun k => grid_unit _ (hp0 k)
  have hsu := fun k => grid_unit _ (hs0 k)
  rcases s1 with s1 | s1
  · refine ⟨p, s.x, s3, by rw [s2, s1], (hpu _).1, ?_, hpu, ?_⟩
    · have := (hsu s.factor).2; rw [s2, s1] at this; linarith
    · rw [s1]; push_cast; ring
  · refine ⟨s.x, p, fun k hk => (s3 k hk).symm, by rw [s2, s1]; ring, (hsu _).1, ?_, hsu, ?_⟩
    · have := (hpu s.factor).2; rw [s2, s1]; linarith
    · rw [s1]; push_cast; ring

/-! ### C112 -/

section
variable {κ π : Type} [DecidableEq κ] [DecidableEq π]

private theorem stats_of {net : Net} {st : State} {kind : Kind} {solve : State → Option Sol} {n : ℕ} (hn : 2 ≤ n)
    (hinj : Function.Injective fun i : Fin n => label ((study net kind st solve n).fid i))
    {c : Cfg κ π} {fs : Fs κ π Sol} {walks : List (Path n)} (hA : Analysis (study net kind st solve n) c fs walks) (hne : walks ≠ [])
    {ds : List Str} (hds : Listing fs ds) {t : ℝ} {o : String} {Y : State → ℝ}
    (hY : ∀ v ∈ walks, ∀ x, x = v.1 ∨ x ∈ v.2.map Morris.Step.x → ∃ s, solve (chemAt net kind st x) = some s ∧
      resultInTime s o t = .ok (Y (chemAt net kind st x)))
    (h0 : grandMean (fun x => Y (chemAt net kind st x)) walks ≠ 0) :
    ∃ s, morrisStats fs ds t o = .ok s ∧ s.mean = grandMean (fun x => Y (chemAt net kind st x)) walks ∧
      ∀ i : Fin n, ∃ g : List ℝ, g.length = walks.length ∧ s.mu (label ((study net kind st solve n).fid i)) = g.sum / walks.length ∧
        s.sigma (label ((study net kind st solve n).fid i)) = std g ∧
        ∀ q ∈ g, ∃ lo hi : Fin n → ℚ, (∀ k, k ≠ i → hi k = lo k) ∧ hi i = lo i + 1 / 2 ∧ 0 < lo i ∧ lo i < 1 / 2 ∧
          (∀ k, 0 < lo k ∧ lo k < 1) ∧ q = 2 * (Y (chemAt net kind st hi) - Y (chemAt net kind st lo)) := by
  obtain ⟨s, h1, h2, h3⟩ := analysis_stats hn hinj hA hne hds (t := t) (o := o) (y := fun x => Y (chemAt net kind st x)) (by
    intro v hv x hx
    obtain ⟨s, s1, s2⟩ := hY v hv x hx
    show resultInTime ((solve _).getD _) o t = _
    rw [s1]
    exact s2) h0
  refine ⟨s, h1, h2, fun i => ?_⟩
  obtain ⟨⟨g, g1, -, g3, g4⟩, -⟩ := h3 i
  refine ⟨g, g1.length_eq.symm, g3, g4, fun q hq => ?_⟩
  obtain ⟨v, hv, hvq⟩ := forall₂_mem_right g1 hq
  obtain ⟨J, hJ⟩ := hA.calls v hv
  exact effect_pair hn hJ hvq

/-- **C112.** A Morris run over the reactions of a chemistry, from the first batch to the statistics: mu of a reaction, found under its
id, is the mean over the trajectories, and sigma the sample standard deviation, of twice the change of the output between two chemistries
that differ in the rate coefficient of this reaction only, by its nominal value. -/
theorem reactions_effects {net : Net} {st : State} (h : Reachable net st) (hr : Rated net st) {solve : State → Option Sol} {n : ℕ}
    (hn : 2 ≤ n) (hd : dimension net st .reactions = n) {c : Cfg κ π} {fs : Fs κ π Sol} {walks : List (Path n)}
    (hR : Batches (IsTraj net .reactions st solve) c fs walks) (hne : walks ≠ []) {ds : List Str} (hds : Listing fs ds)
    {t : ℝ} {o : String} {Y : State → ℝ}
    (hY : ∀ v ∈ walks, ∀ x, x = v.1 ∨ x ∈ v.2.map Morris.Step.x → ∃ s, solve (chemAt net .reactions st x) = some s ∧
      resultInTime s o t = .ok (Y (chemAt net .reactions st x)))
    (h0 : grandMean (fun x => Y (chemAt net .reactions st x)) walks ≠ 0) :
    ∃ s, morrisStats fs ds t o = .ok s ∧ ∀ r ∈ net.getReactions st false, ∃ g : List ℝ, g.length = walks.length ∧
      s.mu (.int r.id) = g.sum / walks.length ∧ s.sigma (.int r.id) = std g ∧
      ∀ q ∈ g, ∃ lo hi, OneRate net st r lo hi ∧ q = 2 * (Y hi - Y lo) := by
  subst hd
  have hnd : ((net.getReactions st false).map Reaction.id).Nodup :=
    (reachable_inv h).1.rNodup.sublist (List.filter_sublist.map _)
  have hfid : ∀ i : Fin (dimension net st .reactions), label ((study net .reactions st solve _).fid i) =
      .int ((net.getReactions st false)[i.1]'i.2).id := by
    intro i
    show label ((factorIds net st .reactions).getD i []) = _
    rw [List.getD_eq_getElem?_getD, factorIds, List.getElem?_map, List.getElem?_eq_getElem i.2]
    exact label_spec.1 _
  obtain ⟨s, s1, -, s3⟩ := stats_of (Y := Y) hn (fun i j hij => by
    simp only [hfid] at hij
    injection hij with hij
    have := (List.Nodup.getElem_inj_iff hnd (hi := by rw [List.length_map]; exact i.2) (hj := by rw [List.length_map]; exact j.2)).1
      (by rw [List.getElem_map, List.getElem_map]; exact hij)
    exact Fin.ext this) (hR.analysis fun _ _ => trajectory_call h hr) hne hds hY h0
  refine ⟨s, s1, fun r hrm => ?_⟩
  obtain ⟨i, hi, rfl⟩ := List.mem_iff_getElem.1 hrm
  obtain ⟨g, g1, g2, g3, g4⟩ := s3 ⟨i, hi⟩
  rw [hfid] at g2 g3
  refine ⟨g, g1, g2, g3, fun q hq => ?_⟩
  obtain ⟨lo, hi', e1, e2, e3, e4, -, e6⟩ := g4 q hq
  obtain ⟨-, l1, l2⟩ := chemAt_spec h hr .reactions rfl lo
  obtain ⟨-, u1, u2⟩ := chemAt_spec h hr .reactions rfl hi'
  have hz : ∀ (x : Fin (dimension net st .reactions) → ℚ) (j : ℕ) (hj : j < (net.getReactions st false).length),
      ((net.getReactions st false)[j], x ⟨j, hj⟩) ∈ (net.getReactions st false).zip (List.ofFn x) := by
    intro x j hj
    refine List.mem_iff_getElem.2 ⟨j, ?_, ?_⟩
    · rw [List.length_zip, List.length_ofFn]; exact lt_min hj hj
    · rw [List.getElem_zip, List.getElem_ofFn]
  have hval : ∀ (x : Fin (dimension net st .reactions) → ℚ) (j : ℕ) (hj : j < (net.getReactions st false).length) (v : ℚ),
      inForce st (net.getReactions st false)[j] = some v →
        inForce (chemAt net .reactions st x) (net.getReactions st false)[j] = some (v * (2 * x ⟨j, hj⟩)) := by
    intro x j hj v hv
    obtain ⟨w, w1, w2⟩ := (chemAt_spec h hr .reactions rfl x).2.2 _ (List.getElem_mem hj) v hv
    rw [w1, w2 _ (hz x j hj) rfl]
  refine ⟨_, _, ⟨l1, u1, fun r' hr' hne => ?_, fun v hv => ⟨2 * lo ⟨i, hi⟩, by linarith, by linarith, hval lo i hi v hv, ?_⟩⟩, e6⟩
  · obtain ⟨j, hj, rfl⟩ := List.mem_iff_getElem.1 hr'
    obtain ⟨v, hv⟩ := hr _ hr'
    rw [hval lo j hj v hv, hval hi' j hj v hv, e1 ⟨j, hj⟩ fun e => hne (by injection e with e; subst e; rfl)]
  · rw [hval hi' i hi v hv, e2]
    congr 1
    ring

/-- **C112.** If the rate of a reaction always changes the output by the same, `a` for a change by the nominal value, then mu of the
reaction is `2 a`, and sigma is 0 with two trajectories or more. In particular both are 0 for a reaction that has no influence. -/
theorem linear_reaction {net : Net} {st : State} (h : Reachable net st) (hr : Rated net st) {solve : State → Option Sol} {n : ℕ}
    (hn : 2 ≤ n) (hd : dimension net st .reactions = n) {c : Cfg κ π} {fs : Fs κ π Sol} {walks : List (Path n)}
    (hR : Batches (IsTraj net .reactions st solve) c fs walks) (hne : walks ≠ []) {ds : List Str} (hds : Listing fs ds)
    {t : ℝ} {o : String} {Y : State → ℝ}
    (hY : ∀ v ∈ walks, ∀ x, x = v.1 ∨ x ∈ v.2.map Morris.Step.x → ∃ s, solve (chemAt net .reactions st x) = some s ∧
      resultInTime s o t = .ok (Y (chemAt net .reactions st x)))
    (h0 : grandMean (fun x => Y (chemAt net .reactions st x)) walks ≠ 0) :
    ∃ s, morrisStats fs ds t o = .ok s ∧ ∀ r ∈ net.getReactions st false, ∀ a, (∀ lo hi, OneRate net st r lo hi → Y hi - Y lo = a) →
      s.mu (.int r.id) = 2 * a ∧ (2 ≤ walks.length → s.sigma (.int r.id) = some 0) := by
  obtain ⟨s, s1, s2⟩ := reactions_effects h hr hn hd hR hne hds hY h0
  refine ⟨s, s1, fun r hrm a ha => ?_⟩
  obtain ⟨g, g1, g2, g3, g4⟩ := s2 r hrm
  have hg : ∀ q ∈ g, q = 2 * a := by
    intro q hq
    obtain ⟨lo, hi, e1, rfl⟩ := g4 q hq
    rw [ha lo hi e1]
  constructor
  · have hl : (walks.length : ℝ) ≠ 0 := by
      have := List.length_pos_iff.2 hne
      positivity
    rw [g2, List.eq_replicate_of_mem hg, List.sum_replicate, g1, nsmul_eq_mul]
    field_simp
  · intro h2
    rw [g3]
    exact (std_const hg (by omega)).2

/-- **C112.** A Morris run over the species of a chemistry: mu of a species, found under its name, is the mean over the trajectories,
and sigma the sample standard deviation, of twice the change of the output between two chemistries that differ only in the rate
coefficients of the reactions in which the species takes part, all in the same ratio. -/
theorem species_effects {net : Net} {st : State} (h : Reachable net st) (hr : Rated net st) {solve : State → Option Sol} {n : ℕ}
    (hn : 2 ≤ n) (hd : dimension net st .species = n)
    (hnames : ∀ s ∈ net.getSpecies st false false true, ∃ ch ∈ s.name, ch.isDigit = false)
    {c : Cfg κ π} {fs : Fs κ π Sol} {walks : List (Path n)}
    (hR : Batches (IsTraj net .species st solve) c fs walks) (hne : walks ≠ []) {ds : List Str} (hds : Listing fs ds)
    {t : ℝ} {o : String} {Y : State → ℝ}
    (hY : ∀ v ∈ walks, ∀ x, x = v.1 ∨ x ∈ v.2.map Morris.Step.x → ∃ s, solve (chemAt net .species st x) = some s ∧
      resultInTime s o t = .ok (Y (chemAt net .species st x)))
    (h0 : grandMean (fun x => Y (chemAt net .species st x)) walks ≠ 0) :
    ∃ s, morrisStats fs ds t o = .ok s ∧ ∀ a ∈ net.getSpecies st false false true, ∃ g : List ℝ, g.length = walks.length ∧
      s.mu (.text a.name) = g.sum / walks.length ∧ s.sigma (.text a.name) = std g ∧
      ∀ q ∈ g, ∃ lo hi, OneSpecies net st a lo hi ∧ q = 2 * (Y hi - Y lo) := by
  subst hd
  have hwf := (reachable_inv h).1
  have hsub : (net.getSpecies st false false true).Sublist net.species := List.filter_sublist
  have hnd : ((net.getSpecies st false false true).map RP.name).Nodup := hwf.nameNodup.sublist (hsub.map _)
  have hfid : ∀ i : Fin (dimension net st .species), label ((study net .species st solve _).fid i) =
      .text ((net.getSpecies st false false true)[i.1]'i.2).name := by
    intro i
    show label ((factorIds net st .species).getD i []) = _
    rw [List.getD_eq_getElem?_getD, factorIds, List.getElem?_map, List.getElem?_eq_getElem i.2]
    exact label_spec.2 _ (hnames _ (List.getElem_mem _))
  obtain ⟨s, s1, -, s3⟩ := stats_of (Y := Y) hn (fun i j hij => by
    simp only [hfid] at hij
    injection hij with hij
    have := (List.Nodup.getElem_inj_iff hnd (hi := by rw [List.length_map]; exact i.2) (hj := by rw [List.length_map]; exact j.2)).1
      (by rw [List.getElem_map, List.getElem_map]; exact hij)
    exact Fin.ext this) (hR.analysis fun _ _ => trajectory_call h hr) hne hds hY h0
  refine ⟨s, s1, fun a ha => ?_⟩
  obtain ⟨i, hi, rfl⟩ := List.mem_iff_getElem.1 ha
  obtain ⟨g, g1, g2, g3, g4⟩ := s3 ⟨i, hi⟩
  rw [hfid] at g2 g3
  refine ⟨g, g1, g2, g3, fun q hq => ?_⟩
  obtain ⟨lo, hi', e1, e2, e3, e4, -, e6⟩ := g4 q hq
  obtain ⟨-, l1, l2⟩ := chemAt_spec h hr .species rfl lo
  obtain ⟨-, u1, u2⟩ := chemAt_spec h hr .species rfl hi'
  refine ⟨_, _, ⟨l1, u1, fun r hrm hnt => ?_, 2 * lo ⟨i, hi⟩, by linarith, by linarith, fun r hrm ht => ?_⟩, e6⟩
  · obtain ⟨v, hv⟩ := hr r hrm
    obtain ⟨w, w1, w2⟩ := l2 r hrm v hv
    obtain ⟨w', w1', w2'⟩ := u2 r hrm v hv
    rw [w1, w1', w2, w2']
    congr 2
    refine Morris.speciesFactor_local (by simp) fun j hj hx hy htp => ?_
    rw [List.getElem_ofFn, List.getElem_ofFn]
    refine (e1 _ fun e => hnt ?_).symm
    injection e with e
    subst e
    exact htp
  · obtain ⟨v, hv⟩ := hr r hrm
    obtain ⟨w, w1, w2⟩ := l2 r hrm v hv
    obtain ⟨w', w1', w2'⟩ := u2 r hrm v hv
    have hf : ∀ x : Fin (dimension net st .species) → ℚ, speciesFactor (net.getSpecies st false false true) (List.ofFn x) r =
        ∏ k : Fin (dimension net st .species),
          if TakesPart ((net.getSpecies st false false true)[k.1]'k.2) r then 2 * x k else 1 := by
      intro x
      unfold speciesFactor
      rw [← List.prod_ofFn]
      congr 1
      refine List.ext_getElem ?_ fun k h1 h2 => ?_
      · simp only [List.length_map, List.length_zip, List.length_ofFn]
        exact min_self _
      · simp only [List.getElem_map, List.getElem_zip, List.getElem_ofFn]
        rfl
    have hsplit : ∀ x : Fin (dimension net st .species) → ℚ, speciesFactor (net.getSpecies st false false true) (List.ofFn x) r =
        2 * x ⟨i, hi⟩ * ∏ k ∈ Finset.univ.erase (⟨i, hi⟩ : Fin (dimension net st .species)),
          if TakesPart ((net.getSpecies st false false true)[k.1]'k.2) r then 2 * x k else 1 := by
      intro x
      rw [hf, ← Finset.mul_prod_erase _ _ (Finset.mem_univ (⟨i, hi⟩ : Fin (dimension net st .species)))]
      congr 1
      exact if_pos ht
    have heq : (∏ k ∈ Finset.univ.erase (⟨i, hi⟩ : Fin (dimension net st .species)),
          if TakesPart ((net.getSpecies st false false true)[k.1]'k.2) r then 2 * hi' k else 1) =
        ∏ k ∈ Finset.univ.erase (⟨i, hi⟩ : Fin (dimension net st .species)),
          if TakesPart ((net.getSpecies st false false true)[k.1]'k.2) r then 2 * lo k else 1 :=
      Finset.prod_congr rfl fun k hk => by rw [e1 k (Finset.ne_of_mem_erase hk)]
    refine ⟨v * ∏ k ∈ Finset.univ.erase (⟨i, hi⟩ : Fin (dimension net st .species)),
          if TakesPart ((net.getSpecies st false false true)[k.1]'k.2) r then 2 * lo k else 1, ?_, ?_⟩
    · rw [w1, w2, hsplit]
      congr 1
      ring
    · rw [w1', w2', hsplit, heq, e2]
      congr 1
      ring

end

end Verif.Fwork.MorrisWhole
