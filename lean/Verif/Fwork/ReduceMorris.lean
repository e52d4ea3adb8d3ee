/-
Property C117: a reduction along the ranking of a Morris run over the species of the chemistry. Joins the evaluation of the directory of
such a run (MorrisEval, MorrisWhole), the ranking (MorrisRank; pygmo_fwork/optichem/morris.py:931-980), and the reduction (Reduce;
pygmo_fwork/optichem/reduction.py:288-375).
-/
import Verif.Fwork.MorrisWhole
import Verif.Fwork.ReduceOrder
import Verif.Fwork.ReduceRows

namespace Verif.Fwork.ReduceMorris
open Verif.Plaschem Verif.Plaschem.Net Verif.Fwork.MorrisStats Verif.Fwork.MorrisEval Verif.Fwork.MorrisWhole
open Verif.Fwork.MorrisRuns (Fs)
open Verif.Fwork.Morris (Kind dimension)
open Verif.Fwork.Reduce (Loop Red Row Ranking RunsReduction Runs Visited Eligible Accepted Rejected NeverNan names pass Goes popNext
  initRed startLoop PassCase)

/-! ### model -/

/-- morris.py:931-980 `get_ranking`, from the files; `ds` are the directories `glob` lists -/
noncomputable def filesRanking {κ π : Type} (fs : Fs κ π Sol) (ds : List Str) (outs : List String) (times : List ℝ) (method : MorrisStats.Method)
    (sortValues : List (Label × Option ℝ) → List (Label × Option ℝ)) : Except (EvErr ⊕ ErrErr) (List (Label × Option ℝ)) :=
  match readAll fs ds with
  | .error e => .error (.inl e)
  | .ok trajs =>
    match getRanking trajs outs times method sortValues with
    | .error e => .error (.inr e)
    | .ok r => .ok r

/-- the index of the ranking as `run_reduction` reads it. (An id is not a name, so it is never the name of a species that can be removed;
neither is the empty name that stands for it here.) -/
def index : Label → Str
  | .text s => s
  | .int _ => []

/-- the ranking as it is given to `run_reduction` -/
def series (r : List (Label × Option ℝ)) : List (Str × Option ℝ) := r.map fun e => (index e.1, e.2)

/-! ### specification -/

/-- A Morris run over the species of the chemistry `st`, in calls of `run_morris` with one worker one after the other, with at least two
trajectories, its directory `fs`, and important outputs and times. `Y t o c` is the value of output `o` at time `t` in a run with
the chemistry `c`; its mean is positive. -/
structure MorrisRun {κ π : Type} [DecidableEq κ] [DecidableEq π] (net : Net) (st : State) (solve : State → Option Sol) {n : ℕ}
    (c : MorrisRuns.Cfg κ π) (fs : Fs κ π Sol) (walks : List (Path n)) (ds : List Str) (outs : List String) (times : List ℝ)
    (Y : ℝ → String → State → ℝ) : Prop where
  reach : Reachable net st
  rated : Rated net st
  two : 2 ≤ n
  dim : dimension net st .species = n
  named : ∀ s ∈ net.getSpecies st false false true, ∃ ch ∈ s.name, ch.isDigit = false
  runs : Batches (IsTraj net .species st solve) c fs walks
  trajs : 2 ≤ walks.length
  listing : Listing fs ds
  someTime : times ≠ []
  someOut : outs ≠ []
  value : ∀ t ∈ times, ∀ o ∈ outs, ∀ v ∈ walks, ∀ x, x = v.1 ∨ x ∈ v.2.map Morris.Step.x →
    ∃ s, solve (chemAt net .species st x) = some s ∧ resultInTime s o t = .ok (Y t o (chemAt net .species st x))
  mean : ∀ t ∈ times, ∀ o ∈ outs, 0 < grandMean (fun x => Y t o (chemAt net .species st x)) walks

/-- `m` is the score of the species named `n`: the one documented, from the statistics of the directory -/
def Scored {κ π : Type} (fs : Fs κ π Sol) (ds : List Str) (outs : List String) (times : List ℝ) (method : MorrisStats.Method) (n : Str) (m : ℝ) :
    Prop :=
  ∃ (S : ℝ → String → Stat Label) (sd : ℝ → String → ℝ),
    (∀ t ∈ times, ∀ o ∈ outs, morrisStats fs ds t o = .ok (S t o) ∧ (S t o).sigmaRel (.text n) = some (sd t o)) ∧
    ScoreSpec S outs times (.text n) sd method m

/-- A common factor on the rates of all reactions of the species has no influence on the important outputs. -/
def Inert (net : Net) (st : State) (outs : List String) (times : List ℝ) (Y : ℝ → String → State → ℝ) (a : RP) : Prop :=
  ∀ t ∈ times, ∀ o ∈ outs, ∀ lo hi, OneSpecies net st a lo hi → Y t o lo = Y t o hi

/-- On one of the trajectories the step that changes this factor of the species changes one of the important outputs. -/
def Influential (net : Net) (st : State) (outs : List String) (times : List ℝ) (Y : ℝ → String → State → ℝ) {n : ℕ}
    (walks : List (Path n)) (b : RP) : Prop :=
  ∃ t ∈ times, ∃ o ∈ outs, ∃ v ∈ walks, ∃ l₁ s l₂, v.2 = l₁ ++ s :: l₂ ∧
    (net.getSpecies st false false true)[s.factor.1]? = some b ∧
    Y t o (chemAt net .species st s.x) ≠ Y t o (chemAt net .species st ((l₁.map Morris.Step.x).getLastD v.1))

/-- reduction.py:338-339: a ranking of numbers in ascending order passes the assertion. (What becomes of nan is open, it depends on
how pandas stores it.) -/
def Check (sorted : List (Str × Option ℝ) → Bool) : Prop :=
  ∀ l, (∀ e ∈ l, ∃ x, e.2 = some x) → l.Pairwise (fun a b => scoreLe a.2 b.2) → sorted l = true

/-! ### lemmas -/

variable {κ π : Type} [DecidableEq κ] [DecidableEq π]

section ranking
variable {net : Net} {st : State} {solve : State → Option Sol} {n : ℕ} {c : MorrisRuns.Cfg κ π} {fs : Fs κ π Sol} {walks : List (Path n)}
  {ds : List Str} {outs : List String} {times : List ℝ} {Y : ℝ → String → State → ℝ}

theorem MorrisRun.fid (h : MorrisRun net st solve c fs walks ds outs times Y) (i : Fin n) :
    ∃ a, (net.getSpecies st false false true)[i.1]? = some a ∧ label ((study net .species st solve n).fid i) = .text a.name := by
  have hi : i.1 < (net.getSpecies st false false true).length := by
    have := i.2
    have hd : (net.getSpecies st false false true).length = n := h.dim
    omega
  refine ⟨_, List.getElem?_eq_getElem hi, ?_⟩
  show label ((factorIds net st .species).getD i []) = _
  rw [List.getD_eq_getElem?_getD, factorIds, List.getElem?_map, List.getElem?_eq_getElem hi]
  exact label_spec.2 _ (h.named _ (List.getElem_mem _))

theorem MorrisRun.nodup (h : MorrisRun net st solve c fs walks ds outs times Y) :
    ((net.getSpecies st false false true).map RP.name).Nodup :=
  (reachable_inv h.reach).1.nameNodup.sublist (List.filter_sublist.map _)

theorem MorrisRun.injective (h : MorrisRun net st solve c fs walks ds outs times Y) :
    Function.Injective fun i : Fin n => label ((study net .species st solve n).fid i) := by
  intro i j hij
  obtain ⟨a, ha, ea⟩ := h.fid i
  obtain ⟨b, hb, eb⟩ := h.fid j
  simp only at hij
  rw [ea, eb] at hij
  injection hij with hij
  obtain ⟨hi, ha⟩ := List.getElem?_eq_some_iff.1 ha
  obtain ⟨hj, hb⟩ := List.getElem?_eq_some_iff.1 hb
  have := (List.Nodup.getElem_inj_iff h.nodup (hi := by rw [List.length_map]; exact hi) (hj := by rw [List.length_map]; exact hj)).1
    (by rw [List.getElem_map, List.getElem_map, ha, hb]; exact hij)
  exact Fin.ext this

theorem MorrisRun.outputs (h : MorrisRun net st solve c fs walks ds outs times Y) {walks' : List (Path n)} (hp : ∀ v ∈ walks', v ∈ walks)
    {t : ℝ} (ht : t ∈ times) {o : String} (ho : o ∈ outs) :
    Outputs (study net .species st solve n).model t o walks' fun x => Y t o (chemAt net .species st x) := by
  intro v hv x hx
  obtain ⟨s, s1, s2⟩ := h.value t ht o ho v (hp v hv) x hx
  show resultInTime ((solve _).getD _) o t = _
  rw [s1]
  exact s2

omit [DecidableEq κ] [DecidableEq π] in
private theorem grandMean_perm {n : ℕ} (y : (Fin n → ℚ) → ℝ) {l l' : List (Path n)} (h : l.Perm l') : grandMean y l = grandMean y l' := by
  unfold grandMean
  rw [h.length_eq, (h.map _).sum_eq]

/-- the statistics of the directory -/
theorem MorrisRun.stats (h : MorrisRun net st solve c fs walks ds outs times Y) {t : ℝ} (ht : t ∈ times) {o : String} (ho : o ∈ outs) :
    ∃ s, morrisStats fs ds t o = .ok s ∧ s.mean = grandMean (fun x => Y t o (chemAt net .species st x)) walks ∧ 0 < s.mean ∧
      ∀ i a, (net.getSpecies st false false true)[i]? = some a →
        (∃ g : List ℝ, 2 ≤ g.length ∧ s.mu (.text a.name) = avg g ∧ s.sigma (.text a.name) = std g ∧
          ∀ hi : i < n, List.Forall₂ (fun v q => Effect (fun x => Y t o (chemAt net .species st x)) v ⟨i, hi⟩ q) walks g) ∧
        ∃ g : List ℝ, 2 ≤ g.length ∧ s.mu (.text a.name) = avg g ∧ s.sigma (.text a.name) = std g ∧
          ∀ q ∈ g, ∃ lo hi, OneSpecies net st a lo hi ∧ q = 2 * (Y t o hi - Y t o lo) := by
  have hne : walks ≠ [] := by intro e; have := h.trajs; rw [e] at this; simp at this
  obtain ⟨s, s1, s2, s3⟩ := analysis_stats h.two h.injective (h.runs.analysis fun _ _ => trajectory_call h.reach h.rated) hne h.listing
    (h.outputs (fun v hv => hv) ht ho) (h.mean t ht o ho).ne'
  obtain ⟨s', s1', s3'⟩ := species_effects h.reach h.rated h.two h.dim h.named h.runs hne h.listing (h.value t ht o ho)
    (h.mean t ht o ho).ne'
  rw [s1] at s1'
  cases s1'
  refine ⟨s, s1, s2, by rw [s2]; exact h.mean t ht o ho, fun i a ha => ?_⟩
  obtain ⟨g', g1', g2', g3', g4'⟩ := s3' a (List.mem_of_getElem? ha)
  have hi : i < n := by
    obtain ⟨hi, -⟩ := List.getElem?_eq_some_iff.1 ha
    have hd : (net.getSpecies st false false true).length = n := h.dim
    omega
  obtain ⟨⟨g, g1, g2, g3, g4⟩, -⟩ := s3 ⟨i, hi⟩
  obtain ⟨a', ha', e⟩ := h.fid ⟨i, hi⟩
  rw [ha] at ha'
  cases ha'
  rw [e] at g3 g4
  have hl : g.length = walks.length := g1.length_eq.symm
  have h2 := h.trajs
  exact ⟨⟨g, by omega, by rw [g3]; unfold avg; rw [hl], g4, fun _ => g1⟩,
    ⟨g', by omega, by rw [g2']; unfold avg; rw [g1'], g3', g4'⟩⟩

/-- the ranking from the files -/
theorem MorrisRun.ranking (h : MorrisRun net st solve c fs walks ds outs times Y) (method : MorrisStats.Method)
    {sortValues : List (Label × Option ℝ) → List (Label × Option ℝ)} (hsort : SortOk sortValues) :
    ∃ r, filesRanking fs ds outs times method sortValues = .ok r ∧ ((series r).map Prod.fst).Nodup ∧
      (∀ m, m ∈ (series r).map Prod.fst ↔ m ∈ names net st) ∧ (series r).Pairwise (fun a b => scoreLe a.2 b.2) ∧
      ∀ m sc, (m, sc) ∈ series r → ∃ x, sc = some x ∧ Scored fs ds outs times method m x := by
  obtain ⟨trajs, walks', h1, h2, h3⟩ := analysis_reads h.two (h.runs.analysis fun _ _ => trajectory_call h.reach h.rated) h.listing
  have hlen : trajs.length = walks.length := by rw [← h3.length_eq, h2.length_eq]
  obtain ⟨r, S, e, hS, hnd, hmem, hsorted, hsc⟩ := ranking_complete h.injective h3 (by rw [hlen]; exact h.trajs) h.someTime h.someOut
    (fun t ht o ho => h.outputs (fun v hv => h2.mem_iff.1 hv) ht ho)
    (fun t ht o ho => by rw [grandMean_perm _ h2]; exact (h.mean t ht o ho).ne') method hsort
  have hlab : ∀ l, l ∈ r.map Prod.fst ↔ ∃ m ∈ names net st, l = .text m := by
    intro l
    rw [hmem]
    unfold Reduce.names getSpeciesName
    constructor
    · rintro ⟨i, rfl⟩
      obtain ⟨a, ha, ea⟩ := h.fid i
      exact ⟨a.name, List.mem_toFinset.2 (List.mem_map_of_mem (List.mem_of_getElem? ha)), ea⟩
    · rintro ⟨m, hm, rfl⟩
      obtain ⟨a, ha, rfl⟩ := List.mem_map.1 (List.mem_toFinset.1 hm)
      obtain ⟨i, hi, rfl⟩ := List.mem_iff_getElem.1 ha
      have hd : (net.getSpecies st false false true).length = n := h.dim
      obtain ⟨b, hb, eb⟩ := h.fid ⟨i, by omega⟩
      rw [List.getElem?_eq_getElem hi] at hb
      cases hb
      exact ⟨_, eb.symm⟩
  have hmap : (series r).map Prod.fst = (r.map Prod.fst).map index := by
    unfold series
    rw [List.map_map, List.map_map]
    rfl
  refine ⟨r, ?_, ?_, fun m => ?_, ?_, fun m sc hm => ?_⟩
  · unfold filesRanking
    rw [h1]
    simp only [e]
  · rw [hmap, List.nodup_map_iff_inj_on hnd]
    intro x hx y hy hxy
    obtain ⟨a, -, rfl⟩ := (hlab x).1 hx
    obtain ⟨b, -, rfl⟩ := (hlab y).1 hy
    exact congrArg Label.text hxy
  · rw [hmap, List.mem_map]
    constructor
    · rintro ⟨l, hl, rfl⟩
      obtain ⟨a, ha, rfl⟩ := (hlab l).1 hl
      exact ha
    · intro hm
      exact ⟨_, (hlab _).2 ⟨m, hm, rfl⟩, rfl⟩
  · unfold series
    rw [List.pairwise_map]
    exact hsorted
  · obtain ⟨⟨l, sc⟩, hl, he⟩ := List.mem_map.1 hm
    cases he
    obtain ⟨i, hi⟩ := (hmem l).1 (List.mem_map.2 ⟨_, hl, rfl⟩)
    obtain ⟨a, ha, ea⟩ := h.fid i
    obtain ⟨sd, x, hx, h4, h5⟩ := hsc i sc (by rw [← hi]; exact hl)
    rw [ea] at h4 h5 hi
    subst hi
    refine ⟨x, hx, S, sd, fun t ht o ho => ⟨?_, h4 t ht o ho⟩, h5⟩
    unfold morrisStats
    rw [h1]
    simp only [hS t ht o ho]

/-- a species without influence has the score 0 -/
theorem MorrisRun.inert (h : MorrisRun net st solve c fs walks ds outs times Y) {method : MorrisStats.Method} {a : RP}
    (ha : a ∈ net.getSpecies st false false true) (hi : Inert net st outs times Y a) {x : ℝ}
    (hx : Scored fs ds outs times method a.name x) : x = 0 := by
  obtain ⟨S, sd, h1, h2⟩ := hx
  obtain ⟨i, hia⟩ := List.mem_iff_getElem?.1 ha
  have key : ∀ t ∈ times, ∀ o ∈ outs, (S t o).muRel (.text a.name) = 0 ∧ sd t o = 0 := by
    intro t ht o ho
    obtain ⟨s, s1, -, -, s4⟩ := h.stats ht ho
    rw [(h1 t ht o ho).1] at s1
    cases s1
    obtain ⟨-, g, g1, g2, g3, g4⟩ := s4 i a hia
    obtain ⟨k1, k2⟩ := std_const (g := g) (a := 0) (fun q hq => by
      obtain ⟨lo, hi', e1, rfl⟩ := g4 q hq
      rw [hi t ht o ho lo hi' e1]; ring) g1
    refine ⟨by unfold Stat.muRel; rw [g2, k1, zero_div], ?_⟩
    have := (h1 t ht o ho).2
    unfold Stat.sigmaRel at this
    rw [g3, k2] at this
    simpa using this.symm
  exact score_zero (fun t ht o ho => (key t ht o ho).1) (fun t ht o ho => (key t ht o ho).2) h2

omit [DecidableEq κ] [DecidableEq π] in
private theorem walk_delta {n : ℕ} {x : Fin n → ℚ} {l : List (Morris.Step n)} (h : Morris.Walk (1 / 2) x l) : ∀ s ∈ l, s.delta ≠ 0 := by
  induction l generalizing x with
  | nil => intro s hs; cases hs
  | cons a l ih =>
    obtain ⟨h1, -, -, h2⟩ := h
    intro s hs
    rcases List.mem_cons.1 hs with rfl | hs
    · rcases h1 with h1 | h1 <;> rw [h1] <;> norm_num
    · exact ih h2 s hs

omit [DecidableEq κ] [DecidableEq π] in
private theorem step_unique {n : ℕ} {l₁ l₂ m₁ m₂ : List (Morris.Step n)} {s u : Morris.Step n} (he : Each (l₁ ++ s :: l₂))
    (h : l₁ ++ s :: l₂ = m₁ ++ u :: m₂) (hf : s.factor = u.factor) : l₁ = m₁ ∧ s = u := by
  have hc := he s.factor
  rcases List.append_eq_append_iff.1 h with ⟨k, h1, h2⟩ | ⟨k, h1, h2⟩ <;> cases k with
    | nil => simp only [List.nil_append, List.cons.injEq] at h2; simp only [List.append_nil] at h1; exact ⟨by simp [h1], by simp [h2.1]⟩
    | cons y k =>
      exfalso
      simp only [List.cons_append, List.cons.injEq] at h2
      first
        | (rw [h2.2] at hc
           simp only [List.map_append, List.map_cons, List.count_append, List.count_cons, hf, beq_self_eq_true, if_true] at hc
           omega)
        | (rw [h1, ← h2.1] at hc
           simp only [List.map_append, List.map_cons, List.count_append, List.count_cons, hf, beq_self_eq_true, if_true] at hc
           omega)

/-- a species with influence has a positive score -/
theorem MorrisRun.influential (h : MorrisRun net st solve c fs walks ds outs times Y) {method : MorrisStats.Method} {b : RP}
    (hb : Influential net st outs times Y walks b) {x : ℝ} (hx : Scored fs ds outs times method b.name x) : 0 < x := by
  obtain ⟨S, sd, h1, h2⟩ := hx
  obtain ⟨t, ht, o, ho, v, hv, l₁, s, l₂, hs, hsb, hne⟩ := hb
  have sd0 : ∀ t ∈ times, ∀ o ∈ outs, ∃ σ m, 0 ≤ σ ∧ 0 < m ∧ (S t o).mean = m ∧ (S t o).sigma (.text b.name) = some σ ∧ sd t o = σ / m := by
    intro t ht o ho
    obtain ⟨u, s1, -, s3, s4⟩ := h.stats ht ho
    obtain ⟨s1', s2'⟩ := h1 t ht o ho
    rw [s1'] at s1
    cases s1
    obtain ⟨⟨g, g1, -, g3, -⟩, -⟩ := s4 _ b hsb
    have hstd : std g = some (Real.sqrt ((g.map fun x => (x - avg g) ^ 2).sum / (g.length - 1))) := by
      unfold std
      exact if_neg (by omega)
    rw [hstd] at g3
    unfold Stat.sigmaRel at s2'
    rw [g3] at s2'
    exact ⟨_, _, Real.sqrt_nonneg _, s3, rfl, g3, by simpa using s2'.symm⟩
  refine score_pos (t₀ := t) (o₀ := o) (fun t ht o ho => ?_) ht ho ?_ h2
  · obtain ⟨σ, m, k1, k2, -, -, k5⟩ := sd0 t ht o ho
    rw [k5]
    exact div_nonneg k1 k2.le
  by_contra hc
  push Not at hc
  obtain ⟨hc1, hc2⟩ := hc
  obtain ⟨σ, m, k1, k2, k3, k4, k5⟩ := sd0 t ht o ho
  have hσ : σ = 0 := by
    by_contra hn
    have := div_pos (lt_of_le_of_ne k1 (Ne.symm hn)) k2
    linarith
  have hmu : (S t o).mu (.text b.name) = 0 := by
    unfold Stat.muRel at hc1
    rcases div_eq_zero_iff.1 hc1 with h | h
    · exact h
    · rw [k3] at h; exact absurd h k2.ne'
  obtain ⟨u, s1, -, -, s4⟩ := h.stats ht ho
  rw [(h1 t ht o ho).1] at s1
  cases s1
  obtain ⟨⟨g, g1, g2, g3, g4⟩, -⟩ := s4 _ b hsb
  rw [k4, hσ] at g3
  have hz := std_eq_zero g1 g3.symm
  rw [← g2, hmu] at hz
  obtain ⟨q, hq, hq'⟩ : ∃ q ∈ g, Effect (fun x => Y t o (chemAt net .species st x)) v s.factor q := by
    have := g4 s.factor.2
    obtain ⟨i, hi, rfl⟩ := List.mem_iff_getElem.1 hv
    obtain ⟨hl, hget⟩ := List.forall₂_iff_get.1 this
    exact ⟨g[i]'(by rw [← hl]; exact hi), List.getElem_mem _, hget i hi (by rw [← hl]; exact hi)⟩
  obtain ⟨J, hJ⟩ := (h.runs.analysis fun _ _ => trajectory_call h.reach h.rated).calls v hv
  obtain ⟨w1, w2, -⟩ := hJ.walks h.two
  obtain ⟨m₁, u, m₂, e1, e2, e3⟩ := hq'
  rw [hs] at w2
  obtain ⟨rfl, rfl⟩ := step_unique w2 (hs.symm.trans e1) e2.symm
  rw [hz q hq] at e3
  have hd := walk_delta w1 s (by rw [hs]; simp)
  rcases div_eq_zero_iff.1 e3.symm with e | e
  · exact hne (sub_eq_zero.1 e)
  · exact hd (by exact_mod_cast e)

end ranking

private theorem Greatest.unique {A : Type} {l : List A} {f g : A → ℝ} (hfg : ∀ x ∈ l, f x = g x) {m m' : ℝ} (h : Greatest l f m)
    (h' : Greatest l g m') : m = m' := by
  obtain ⟨⟨x, hx, rfl⟩, h2⟩ := h
  obtain ⟨⟨y, hy, rfl⟩, h2'⟩ := h'
  exact le_antisymm (by rw [hfg x hx]; exact h2' x hx) (by rw [← hfg y hy]; exact h2 y hy)

omit [DecidableEq κ] [DecidableEq π] in
/-- there is one score -/
theorem Scored.unique {fs : Fs κ π Sol} {ds : List Str} {outs : List String} {times : List ℝ} {method : MorrisStats.Method} {n : Str}
    {x y : ℝ} (hx : Scored fs ds outs times method n x) (hy : Scored fs ds outs times method n y) : x = y := by
  obtain ⟨S, sd, h1, h2⟩ := hx
  obtain ⟨S', sd', h1', h2'⟩ := hy
  have hS : ∀ t ∈ times, ∀ o ∈ outs, S t o = S' t o ∧ sd t o = sd' t o := by
    intro t ht o ho
    obtain ⟨e1, e2⟩ := h1 t ht o ho
    obtain ⟨e1', e2'⟩ := h1' t ht o ho
    rw [e1] at e1'
    have e : S t o = S' t o := by injection e1'
    rw [e, e2'] at e2
    exact ⟨e, by injection e2 with e2; exact e2.symm⟩
  cases method with
  | mean =>
    unfold ScoreSpec at h2 h2'
    rw [h2, h2']
    congr 3
    apply List.map_congr_left
    intro t ht
    congr 2 <;> apply List.map_congr_left <;> intro o ho
    · rw [(hS t ht o ho).1]
    · rw [(hS t ht o ho).2]
  | max =>
    obtain ⟨a, b, k1, k2, k3⟩ := h2
    obtain ⟨a', b', k1', k2', k3'⟩ := h2'
    refine Greatest.unique (fun t ht => ?_) k3 k3'
    have e1 := Greatest.unique (fun o ho => by rw [(hS t ht o ho).1]) (k1 t ht) (k1' t ht)
    have e2 := Greatest.unique (fun o ho => (hS t ht o ho).2) (k2 t ht) (k2' t ht)
    rw [e1, e2]

section check
variable {S R : Type} [LinearOrder R] [Zero R]

omit [Zero R] in
private theorem pass_check {cfg : Reduce.Cfg S R} {ranking : Ranking (Option ℝ)} {sorted : List (Str × Option ℝ) → Bool} {k : ℕ}
    {s : Loop S R (Option ℝ)} (h : sorted s.ranking = true) :
    pass cfg ranking sorted k s = pass cfg ranking (fun _ => true) k s := by
  unfold pass
  rw [h]

omit [Zero R] in
private theorem pass_sublist {cfg : Reduce.Cfg S R} {l : List (Str × Option ℝ)} {sorted : List (Str × Option ℝ) → Bool} {k : ℕ}
    {s t : Loop S R (Option ℝ)} (hs : s.ranking.Sublist l) (h : pass cfg (.fixed l) sorted k s = .next t) : t.ranking.Sublist l := by
  have pop : ∀ {sp rest}, popNext s.red.attempted s.ranking = some (sp, rest) → rest.Sublist l := by
    intro sp rest hp
    obtain ⟨w, x, z, D, h1, -, -, rfl⟩ := Reduce.popNext_order hp
    exact (List.filter_sublist.trans ((List.sublist_cons_self _ _).trans (List.sublist_append_right _ _))).trans (h1 ▸ hs)
  rcases Reduce.pass_cases (cfg := cfg) (ranking := .fixed l) (sorted := sorted) (maxStreak := k) (s := s) with
    ⟨e, he⟩ | ⟨t', he, hc⟩ | ⟨t', he, hc⟩ <;> rw [he] at h <;> cases h
  cases hc with
  | skip sp rest hpop hnl => exact pop hpop
  | tried sp rest _ row2 fin hpop hrem hhist hcase hfin =>
    rcases hcase with ⟨-, -, h⟩ | ⟨-, -, h⟩ | ⟨-, -, ⟨-, -, h⟩ | ⟨f, h, -⟩⟩
    · rw [h]; exact pop hpop
    · rw [h]; exact pop hpop
    · rw [h]; exact pop hpop
    · cases h

omit [Zero R] in
private theorem runs_check {cfg : Reduce.Cfg S R} {l : List (Str × Option ℝ)} {f g : List (Str × Option ℝ) → Bool} {k : ℕ}
    (hf : ∀ l', l'.Sublist l → f l' = true) (hg : ∀ l', l'.Sublist l → g l' = true)
    {s : Loop S R (Option ℝ)} {r : Except Reduce.RErr (Loop S R (Option ℝ))} (h : Runs cfg (.fixed l) f k s r) :
    s.ranking.Sublist l → Runs cfg (.fixed l) g k s r := by
  induction h with
  | done h => intro hs; exact .done (by rw [← h, pass_check (hf _ hs), pass_check (hg _ hs)])
  | raise h => intro hs; exact .raise (by rw [← h, pass_check (hf _ hs), pass_check (hg _ hs)])
  | next h _ ih =>
    intro hs
    exact .next (by rw [← h, pass_check (hf _ hs), pass_check (hg _ hs)]) (ih (pass_sublist hs h))

end check

/-! ### theorems -/

section theorems
variable {S R : Type} [LinearOrder R] [Zero R]

/-- **C117.** `get_ranking` of a Morris run over the species raises nothing. It lists each enabled species of the chemistry once, in
ascending order of the documented scores, all of them numbers; the score of a species without influence is 0, that of a species with
influence on one of the trajectories is positive. -/
theorem species_ranking {net : Net} {st : State} {solve : State → Option Sol} {n : ℕ} {c : MorrisRuns.Cfg κ π} {fs : Fs κ π Sol}
    {walks : List (Path n)} {ds : List Str} {outs : List String} {times : List ℝ} {Y : ℝ → String → State → ℝ}
    (h : MorrisRun net st solve c fs walks ds outs times Y) (method : MorrisStats.Method)
    {sortValues : List (Label × Option ℝ) → List (Label × Option ℝ)} (hsort : SortOk sortValues) :
    ∃ (r : List (Label × Option ℝ)) (score : Str → ℝ), filesRanking fs ds outs times method sortValues = .ok r ∧ ((series r).map Prod.fst).Nodup ∧
      (∀ m, m ∈ (series r).map Prod.fst ↔ ∃ s ∈ net.getSpecies st false false true, s.name = m) ∧
      (∀ m sc, (m, sc) ∈ series r → sc = some (score m) ∧ Scored fs ds outs times method m (score m)) ∧
      (series r).Pairwise (fun a b => score a.1 ≤ score b.1) ∧
      (∀ a ∈ net.getSpecies st false false true, Inert net st outs times Y a → score a.name = 0) ∧
      ∀ b, Influential net st outs times Y walks b → 0 < score b.name := by
  obtain ⟨r, h1, h2, h3, h4, h5⟩ := h.ranking method hsort
  have hmem : ∀ m, m ∈ names net st ↔ ∃ s ∈ net.getSpecies st false false true, s.name = m := by
    intro m
    unfold Reduce.names getSpeciesName
    rw [List.mem_toFinset, List.mem_map]
  have hex : ∀ m, ∃ x, m ∈ (series r).map Prod.fst → (m, some x) ∈ series r ∧ Scored fs ds outs times method m x := by
    intro m
    by_cases hm : m ∈ (series r).map Prod.fst
    · obtain ⟨⟨m', sc⟩, he, rfl⟩ := List.mem_map.1 hm
      obtain ⟨x, rfl, hx⟩ := h5 _ _ he
      exact ⟨x, fun _ => ⟨he, hx⟩⟩
    · exact ⟨0, fun h => absurd h hm⟩
  choose score hscore using hex
  have hsc : ∀ m sc, (m, sc) ∈ series r → sc = some (score m) ∧ Scored fs ds outs times method m (score m) := by
    intro m sc he
    obtain ⟨x, rfl, hx⟩ := h5 _ _ he
    have hy := (hscore m (List.mem_map.2 ⟨_, he, rfl⟩)).2
    exact ⟨by rw [hx.unique hy], hy⟩
  refine ⟨r, score, h1, h2, fun m => (h3 m).trans (hmem m), hsc, ?_, fun a ha hi => ?_, fun b hb => ?_⟩
  · refine h4.imp_of_mem fun {a b} ha hb hab => ?_
    rw [(hsc a.1 a.2 ha).1, (hsc b.1 b.2 hb).1] at hab
    exact hab
  · exact h.inert ha hi (hscore _ ((h3 _).2 ((hmem _).2 ⟨a, ha, rfl⟩))).2
  · have hbs : b ∈ net.getSpecies st false false true := by
      obtain ⟨-, -, -, -, -, -, -, s, -, -, hsb, -⟩ := hb
      exact List.mem_of_getElem? hsb
    exact h.influential hb (hscore _ ((h3 _).2 ((hmem _).2 ⟨b, hbs, rfl⟩))).2

/-- **C117.** Such a ranking passes the check of `run_reduction` that it is sorted, before every pass of its loop. -/
theorem check_passes {cfg : Reduce.Cfg S R} {sorted : List (Str × Option ℝ) → Bool} (hc : Check sorted) {l : List (Str × Option ℝ)}
    (hnum : ∀ e ∈ l, ∃ x, e.2 = some x) (hasc : l.Pairwise (fun a b => scoreLe a.2 b.2)) {k : ℕ} {s : Red S R}
    {r : Except Reduce.RErr (Red S R)} :
    RunsReduction cfg (.fixed l) sorted k s r ↔ RunsReduction cfg (.fixed l) (fun _ => true) k s r := by
  have h1 : ∀ l', l'.Sublist l → sorted l' = true := fun l' hl => hc l' (fun e he => hnum e (hl.subset he)) (hasc.sublist hl)
  have h2 : ∀ l' : List (Str × Option ℝ), l'.Sublist l → (fun _ => true) l' = true := fun _ _ => rfl
  unfold Reduce.RunsReduction
  cases he : startLoop cfg (.fixed l) s with
  | error e => exact Iff.rfl
  | ok t =>
    have ht : t.ranking.Sublist l := by
      rcases (Reduce.startLoop_ok he).2.2.2.2 with h | ⟨f, h, -⟩
      · cases h; exact .refl _
      · cases h
    exact ⟨fun ⟨x, hx, hr⟩ => ⟨x, runs_check h1 h2 hx ht, hr⟩, fun ⟨x, hx, hr⟩ => ⟨x, runs_check h2 h1 hx ht, hr⟩⟩

/-- **C117.** A reduction along this ranking: every row but that of the base case is about a species that is eligible, that is in the
chemistry of the last accepted run and has not been tried, and of all such species it is the one with the lowest score. -/
theorem least_influential_first {cfg : Reduce.Cfg S R} {st : State} {solve : State → Option Sol} {n : ℕ} {c : MorrisRuns.Cfg κ π}
    {fs : Fs κ π Sol} {walks : List (Path n)} {ds : List Str} {outs : List String} {times : List ℝ} {Y : ℝ → String → State → ℝ}
    (h : MorrisRun cfg.net st solve c fs walks ds outs times Y) {method : MorrisStats.Method}
    {sortValues : List (Label × Option ℝ) → List (Label × Option ℝ)} (hsort : SortOk sortValues) {r : List (Label × Option ℝ)}
    (hr : filesRanking fs ds outs times method sortValues = .ok r)
    (hcl : cfg.net.RetClosed) (hmax : 0 ≤ cfg.maxErr) (hnan : NeverNan cfg st) {sorted : List (Str × Option ℝ) → Bool} {maxStreak : ℕ}
    {t : Loop S R (Option ℝ)} (hv : Visited cfg (.fixed (series r)) sorted maxStreak st t) {pre post : List (Row S R)} {row : Row S R}
    (hh : t.red.history = pre ++ row :: post) (hpre : pre ≠ []) :
    ∃ a acc b cur file sol sp x, pre = a ++ acc :: b ∧ Accepted cfg acc ∧ (∀ r ∈ b, ¬ Accepted cfg r) ∧
      acc.run = some (cur, file, sol) ∧ row.species = some sp ∧ Scored fs ds outs times method sp x ∧
      Eligible cfg st sp ∧ sp ∈ names cfg.net cur ∧ (∀ r ∈ pre, r.species ≠ some sp) ∧
      ∀ m, Eligible cfg st m → m ∈ names cfg.net cur → (∀ r ∈ pre, r.species ≠ some m) →
        ∃ y, Scored fs ds outs times method m y ∧ x ≤ y := by
  obtain ⟨r', score, h1, -, h3, h4, h5, -⟩ := species_ranking h method hsort
  rw [hr] at h1
  cases h1
  obtain ⟨k, cur, sp, before, after, sc, hf⟩ := Reduce.tried_in_order h.reach hcl hmax hnan hv hh hpre
  obtain ⟨a, acc, b, file, sol, e1, -, e2, e3, e4⟩ := hf.last
  have hl : before ++ (sp, sc) :: after = series r := by
    rcases hf.force with e | ⟨f, e, -⟩
    · injection e with e; exact e.symm
    · cases e
  have hsp := h4 sp sc (by rw [← hl]; simp)
  refine ⟨a, acc, b, cur, file, sol, sp, score sp, e1, e2, e3, e4, hf.row, hsp.2, hf.eligible, hf.present, hf.fresh, fun m m1 m2 m3 => ?_⟩
  obtain ⟨⟨m', y⟩, hy, rfl⟩ := List.mem_map.1 ((h3 m).2 (by
    obtain ⟨-, s, s1, s2, s3, s4, -⟩ := m1
    have := Reduce.mem_names.2 ⟨s, s1, s2, s3, s4⟩
    unfold Reduce.names getSpeciesName at this
    exact List.mem_map.1 (List.mem_toFinset.1 this)))
  obtain ⟨rfl, hy2⟩ := h4 _ _ hy
  refine ⟨_, hy2, ?_⟩
  have hs : (before ++ (sp, sc) :: after).Pairwise fun a b => scoreLe a.2 b.2 := by
    rw [hl]
    refine h5.imp_of_mem fun {a b} ha hb hab => ?_
    rw [(h4 a.1 a.2 ha).1, (h4 b.1 b.2 hb).1]
    exact hab
  have := Reduce.lowest_first (le := scoreLe) (fun x => by cases x <;> simp [scoreLe]) hf hs (n := m') (by rw [hl]; exact hy) m1 m2 m3
  rw [hsp.1] at this
  exact this

/-- **C117.** Before a species with influence is tried, each eligible species without influence has been tried, or has gone from the
chemistry together with others. -/
theorem inert_first {cfg : Reduce.Cfg S R} {st : State} {solve : State → Option Sol} {n : ℕ} {c : MorrisRuns.Cfg κ π}
    {fs : Fs κ π Sol} {walks : List (Path n)} {ds : List Str} {outs : List String} {times : List ℝ} {Y : ℝ → String → State → ℝ}
    (h : MorrisRun cfg.net st solve c fs walks ds outs times Y) {method : MorrisStats.Method}
    {sortValues : List (Label × Option ℝ) → List (Label × Option ℝ)} (hsort : SortOk sortValues) {r : List (Label × Option ℝ)}
    (hr : filesRanking fs ds outs times method sortValues = .ok r)
    (hcl : cfg.net.RetClosed) (hmax : 0 ≤ cfg.maxErr) (hnan : NeverNan cfg st) {sorted : List (Str × Option ℝ) → Bool} {maxStreak : ℕ}
    {t : Loop S R (Option ℝ)} (hv : Visited cfg (.fixed (series r)) sorted maxStreak st t) {pre post : List (Row S R)} {row : Row S R}
    (hh : t.red.history = pre ++ row :: post) {b : RP} (hb : row.species = some b.name) (hinf : Influential cfg.net st outs times Y walks b)
    {a : RP} (ha : a ∈ cfg.net.getSpecies st false false true) (hin : Inert cfg.net st outs times Y a) (hel : Eligible cfg st a.name) :
    (∃ r ∈ pre, r.species = some a.name) ∨
      ∃ l₁ acc l₂ cur file sol, pre = l₁ ++ acc :: l₂ ∧ Accepted cfg acc ∧ (∀ r ∈ l₂, ¬ Accepted cfg r) ∧
        acc.run = some (cur, file, sol) ∧ a.name ∉ names cfg.net cur := by
  have hpre : pre ≠ [] := by
    rintro rfl
    rw [((Reduce.rows_truthful h.reach hcl hmax hnan hv hh).first rfl).1] at hb
    cases hb
  obtain ⟨l₁, acc, l₂, cur, file, sol, sp, x, e1, e2, e3, e4, e5, e6, e7, e8, e9, e10⟩ :=
    least_influential_first h hsort hr hcl hmax hnan hv hh hpre
  rw [hb] at e5
  cases e5
  by_contra hc
  push Not at hc
  obtain ⟨hc1, hc2⟩ := hc
  obtain ⟨y, y1, y2⟩ := e10 a.name hel (hc2 l₁ acc l₂ cur file sol e1 e2 e3 e4) hc1
  have := h.inert ha hin y1
  have := h.influential hinf e6
  linarith

/-- **C117.** With as many failures in a row allowed as there are species, each species that could be removed and is still there at
the end has been tried, and its removal was refused, or its run failed, or its error was above the threshold. -/
theorem morris_leaves_nothing_out {cfg : Reduce.Cfg S R} {st : State} {solve : State → Option Sol} {n : ℕ} {c : MorrisRuns.Cfg κ π}
    {fs : Fs κ π Sol} {walks : List (Path n)} {ds : List Str} {outs : List String} {times : List ℝ} {Y : ℝ → String → State → ℝ}
    (h : MorrisRun cfg.net st solve c fs walks ds outs times Y) {method : MorrisStats.Method}
    {sortValues : List (Label × Option ℝ) → List (Label × Option ℝ)} (hsort : SortOk sortValues) {r : List (Label × Option ℝ)}
    (hr : filesRanking fs ds outs times method sortValues = .ok r)
    (hcl : cfg.net.RetClosed) (hmax : 0 ≤ cfg.maxErr) (hnan : NeverNan cfg st) {sorted : List (Str × Option ℝ) → Bool} {maxStreak : ℕ}
    {red : Red S R} {l t : Loop S R (Option ℝ)} (hi : initRed cfg st = .ok red)
    (hl : startLoop cfg (.fixed (series r)) red = .ok l) (hrun : Runs cfg (.fixed (series r)) sorted maxStreak l (.ok t))
    (hstreak : (names cfg.net st).card ≤ maxStreak) {m : Str} (he : Eligible cfg st m) (hm : m ∈ names cfg.net t.red.chem) :
    ∃ x ∈ t.red.history, x.species = some m ∧ (x.success = false ∨ Rejected cfg x) := by
  obtain ⟨r', score, h1, -, h3, -⟩ := species_ranking h method hsort
  rw [hr] at h1
  cases h1
  have hin : ∀ n, Eligible cfg st n → n ∈ names cfg.net st := by
    rintro n ⟨-, s, s1, s2, s3, s4, -⟩
    exact Reduce.mem_names.2 ⟨s, s1, s2, s3, s4⟩
  refine ReduceWhole.nothing_left_out h.reach hcl hmax hnan hi hl hrun ?_ (B := names cfg.net st) hin hstreak he hm
  intro a acc b c file sol rl _ _ _ _ hf n hn _
  rcases hf with e | ⟨f, e, -⟩
  · cases e
    have := hin n hn
    unfold Reduce.names getSpeciesName at this
    exact List.mem_map.1 ((h3 n).2 (List.mem_map.1 (List.mem_toFinset.1 this)))
  · cases e

end theorems

end Verif.Fwork.ReduceMorris
