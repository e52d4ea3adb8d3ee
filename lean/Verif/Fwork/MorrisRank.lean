/-
The ranking of the factors of a Morris run (morris.py:932-980, model in MorrisStats.lean): C69.
-/
import Verif.Fwork.MorrisStats

namespace Verif.Fwork.MorrisStats
open Verif.Fwork

variable {L : Type} [DecidableEq L]

/-! ### specification -/

/-- ascending, `nan` at the end -/
def scoreLe : Option ℝ → Option ℝ → Prop
  | _, none => True
  | none, some _ => False
  | some a, some b => a ≤ b

/-- a sort by the score, ascending, with `nan` at the end; the order of equal scores is open -/
def SortOk (sortValues : List (L × Option ℝ) → List (L × Option ℝ)) : Prop :=
  ∀ l, (sortValues l).Perm l ∧ (sortValues l).Pairwise fun a b => scoreLe a.2 b.2

/-- `m` is the greatest of the values `f x` for `x` in the list -/
def Greatest {A : Type} (l : List A) (f : A → ℝ) (m : ℝ) : Prop := (∃ x ∈ l, m = f x) ∧ ∀ x ∈ l, f x ≤ m

/-- The score of label `l`, from the statistics `S t o`; `sd t o` are the relative standard deviations. -/
def ScoreSpec (S : ℝ → String → Stat L) (outs : List String) (times : List ℝ) (l : L) (sd : ℝ → String → ℝ) :
    Method → ℝ → Prop
  | .mean, m => m = (times.map fun t => (outs.map fun o => |(S t o).muRel l|).sum + (outs.map fun o => sd t o).sum).sum /
      times.length / outs.length
  | .max, m => ∃ a b : ℝ → ℝ, (∀ t ∈ times, Greatest outs (fun o => |(S t o).muRel l|) (a t)) ∧
      (∀ t ∈ times, Greatest outs (fun o => sd t o) (b t)) ∧ Greatest times (fun t => a t + b t) m

/-! ### lemmas -/

theorem maxSkip_some {A : Type} {l : List A} (hl : l ≠ []) (f : A → ℝ) :
    ∃ m, maxSkip (l.map fun x => some (f x)) = some m ∧ Greatest l f m := by
  have e : (l.map fun x => some (f x)).filterMap id = l.map f := by
    rw [List.filterMap_map]
    exact congrFun (List.filterMap_eq_map' (f := f)) l
  unfold maxSkip
  rw [e]
  cases l with
  | nil => exact absurd rfl hl
  | cons x l =>
    simp only [List.map_cons]
    obtain ⟨h1, h2, h3⟩ := foldl_max_spec (l.map f) (f x)
    refine ⟨_, rfl, ?_, ?_⟩
    · rcases h1 with h1 | h1
      · exact ⟨x, List.mem_cons_self .., h1⟩
      · obtain ⟨z, hz, h⟩ := List.mem_map.1 h1
        exact ⟨z, List.mem_cons_of_mem _ hz, h.symm⟩
    · intro z hz
      rcases List.mem_cons.1 hz with rfl | hz
      · exact h2
      · exact h3 _ (List.mem_map_of_mem hz)

theorem maxSkip_none {A : Type} (l : List A) : maxSkip (l.map fun _ => none) = none := by
  have e : (l.map fun _ => (none : Option ℝ)).filterMap id = [] := by
    rw [List.filterMap_eq_nil_iff]
    intro a ha
    obtain ⟨_, -, rfl⟩ := List.mem_map.1 ha
    rfl
  unfold maxSkip
  rw [e]

/-- a successful `mapE`, as a function -/
theorem mapE_total {A B : Type} {f : A → Except ErrErr B} {S : A → B} {l : List A} (h : ∀ a ∈ l, f a = .ok (S a)) :
    mapE f l = .ok (l.map S) := by
  rw [mapE_ok]
  induction l with
  | nil => exact .nil
  | cons a l ih => exact .cons (h a (List.mem_cons_self ..)) (ih fun b hb => h b (List.mem_cons_of_mem _ hb))

/-- all the statistics that are needed for a ranking -/
theorem all_stats {n : ℕ} {model : (Fin n → ℚ) → Sol} {lab : Fin n → L} (hlab : Function.Injective lab) {h : ℚ}
    {walks : List ((Fin n → ℚ) × List (Morris.Step n))} {trajs : List (Traj L)} (hs : Sample model lab h walks trajs)
    (hne : trajs ≠ []) {outs : List String} {times : List ℝ} {y : ℝ → String → (Fin n → ℚ) → ℝ}
    (hy : ∀ t ∈ times, ∀ o ∈ outs, Outputs model t o walks (y t o))
    (h0 : ∀ t ∈ times, ∀ o ∈ outs, grandMean (y t o) walks ≠ 0) :
    ∃ S : ℝ → String → Stat L, ∀ t ∈ times, ∀ o ∈ outs, stats trajs t o = .ok (S t o) := by
  classical
  have key : ∀ t o, ∃ s : Stat L, t ∈ times → o ∈ outs → stats trajs t o = .ok s := by
    intro t o
    by_cases ht : t ∈ times ∧ o ∈ outs
    · obtain ⟨s, hs, -⟩ := stats_spec hlab hs hne (hy t ht.1 o ht.2) (h0 t ht.1 o ht.2)
      exact ⟨s, fun _ _ => hs⟩
    · exact ⟨⟨0, []⟩, fun h1 h2 => absurd ⟨h1, h2⟩ ht⟩
  choose S hS using key
  exact ⟨S, fun t ht o ho => hS t o ht ho⟩

theorem getRanking_eq {trajs : List (Traj L)} {outs : List String} {times : List ℝ} {S : ℝ → String → Stat L}
    (hS : ∀ t ∈ times, ∀ o ∈ outs, stats trajs t o = .ok (S t o)) (ht : times ≠ []) (ho : outs ≠ []) (method : Method)
    (sortValues : List (L × Option ℝ) → List (L × Option ℝ)) :
    getRanking trajs outs times method sortValues = .ok (sortValues ((trajs.flatMap Traj.labels).dedup.map fun l => (l,
        match method with
        | .mean => scoreMean (times.map fun t => outs.map fun o => S t o) times.length outs.length l
        | .max => scoreMax (times.map fun t => outs.map fun o => S t o) l))) := by
  unfold getRanking
  rw [if_neg ht, if_neg ho, mapE_total (S := fun t => outs.map fun o => S t o)
    fun t ht => mapE_total fun o ho => hS t ht o ho]
  rfl

theorem scoreMean_eq (S : ℝ → String → Stat L) {outs : List String} {times : List ℝ} {l : L} {sd : ℝ → String → ℝ}
    (hsd : ∀ t ∈ times, ∀ o ∈ outs, (S t o).sigmaRel l = some (sd t o)) :
    ∃ m, scoreMean (times.map fun t => outs.map fun o => S t o) times.length outs.length l = some m ∧
      ScoreSpec S outs times l sd .mean m := by
  refine ⟨_, rfl, ?_⟩
  unfold ScoreSpec
  rw [List.map_map]
  congr 3
  apply List.map_congr_left
  intro t ht
  simp only [Function.comp_apply, List.map_map]
  congr 2
  apply List.map_congr_left
  intro o ho
  simp [hsd t ht o ho]

theorem scoreMax_eq (S : ℝ → String → Stat L) {outs : List String} {times : List ℝ} (ht : times ≠ []) (ho : outs ≠ [])
    {l : L} {sd : ℝ → String → ℝ} (hsd : ∀ t ∈ times, ∀ o ∈ outs, (S t o).sigmaRel l = some (sd t o)) :
    ∃ m, scoreMax (times.map fun t => outs.map fun o => S t o) l = some m ∧ ScoreSpec S outs times l sd .max m := by
  choose a ha1 ha2 using fun t : ℝ => maxSkip_some ho fun o => |(S t o).muRel l|
  choose b hb1 hb2 using fun t : ℝ => maxSkip_some ho fun o => sd t o
  obtain ⟨m, hm1, hm2⟩ := maxSkip_some ht fun t => a t + b t
  refine ⟨m, ?_, a, b, fun t _ => ha2 t, fun t _ => hb2 t, hm2⟩
  unfold scoreMax
  rw [← hm1, List.map_map]
  congr 1
  apply List.map_congr_left
  intro t ht
  have e : (outs.map fun o => (S t o).sigmaRel l) = outs.map fun o => some (sd t o) :=
    List.map_congr_left fun o ho => hsd t ht o ho
  simp only [Function.comp_apply, List.map_map]
  have e1 : maxSkip (outs.map ((fun s : Stat L => some |s.muRel l|) ∘ fun o => S t o)) = some (a t) := ha1 t
  have e2 : maxSkip (outs.map ((fun s : Stat L => s.sigmaRel l) ∘ fun o => S t o)) = some (b t) := by
    rw [← hb1 t, ← e]; rfl
  rw [e1, e2]
  rfl

theorem labels_mem {n : ℕ} {model : (Fin n → ℚ) → Sol} {lab : Fin n → L} {h : ℚ}
    {walks : List ((Fin n → ℚ) × List (Morris.Step n))} {trajs : List (Traj L)} (hs : Sample model lab h walks trajs)
    (hne : trajs ≠ []) (l : L) : l ∈ (trajs.flatMap Traj.labels).dedup ↔ ∃ i, l = lab i := by
  rw [List.mem_dedup, List.mem_flatMap]
  constructor
  · rintro ⟨d, hd, hl⟩
    obtain ⟨w, -, hw⟩ := forall₂_mem_right hs hd
    rw [hw.2.2.labels] at hl
    obtain ⟨s, -, rfl⟩ := List.mem_map.1 hl
    exact ⟨_, rfl⟩
  · rintro ⟨i, rfl⟩
    obtain ⟨d, hd⟩ := List.exists_mem_of_ne_nil _ hne
    obtain ⟨w, -, hw⟩ := forall₂_mem_right hs hd
    refine ⟨d, hd, ?_⟩
    rw [hw.2.2.labels]
    have := hw.2.1 i
    have hm : i ∈ w.2.map Morris.Step.factor := List.count_pos_iff.1 (by omega)
    obtain ⟨s, hs, rfl⟩ := List.mem_map.1 hm
    exact List.mem_map.2 ⟨s, hs, rfl⟩

/-- with two trajectories or more there are standard deviations -/
theorem sigmaRel_some {n : ℕ} {model : (Fin n → ℚ) → Sol} {lab : Fin n → L} (hlab : Function.Injective lab) {h : ℚ}
    {walks : List ((Fin n → ℚ) × List (Morris.Step n))} {trajs : List (Traj L)} (hs : Sample model lab h walks trajs)
    (h2 : 2 ≤ trajs.length) {t : ℝ} {o : String} {y : (Fin n → ℚ) → ℝ} (hy : Outputs model t o walks y) {s : Stat L}
    (hst : stats trajs t o = .ok s) (i : Fin n) :
    ∃ v, s.sigma (lab i) = some v ∧ s.sigmaRel (lab i) = some (v / s.mean) ∧ 0 ≤ v := by
  obtain ⟨h1, -, -, -⟩ := group_spec hlab hs hy hst i
  have : s.sigma (lab i) = some (Real.sqrt (((s.group (lab i)).map fun x => (x - avg (s.group (lab i))) ^ 2).sum /
      ((s.group (lab i)).length - 1))) := by
    show std _ = _
    unfold std
    exact if_neg (by omega)
  exact ⟨_, this, by unfold Stat.sigmaRel; rw [this]; rfl, Real.sqrt_nonneg _⟩

/-! ### C69 -/

/-- **C69.** From two or more trajectories (and mean outputs that are not zero) the ranking exists. It lists every factor
exactly once, scores ascending, and the score of a factor is the one documented: for `mean`, the mean over times and
outputs of relative `mu` (in absolute value) plus relative `sigma`; for `max`, the greatest over the times of the greatest
relative `mu` plus the greatest relative `sigma` over the outputs. -/
theorem ranking_complete {n : ℕ} {model : (Fin n → ℚ) → Sol} {lab : Fin n → L} (hlab : Function.Injective lab) {h : ℚ}
    {walks : List ((Fin n → ℚ) × List (Morris.Step n))} {trajs : List (Traj L)} (hs : Sample model lab h walks trajs)
    (h2 : 2 ≤ trajs.length) {outs : List String} {times : List ℝ} (ht : times ≠ []) (ho : outs ≠ [])
    {y : ℝ → String → (Fin n → ℚ) → ℝ} (hy : ∀ t ∈ times, ∀ o ∈ outs, Outputs model t o walks (y t o))
    (h0 : ∀ t ∈ times, ∀ o ∈ outs, grandMean (y t o) walks ≠ 0) (method : Method)
    {sortValues : List (L × Option ℝ) → List (L × Option ℝ)} (hsort : SortOk sortValues) :
    ∃ (r : List (L × Option ℝ)) (S : ℝ → String → Stat L), getRanking trajs outs times method sortValues = .ok r ∧
      (∀ t ∈ times, ∀ o ∈ outs, stats trajs t o = .ok (S t o)) ∧
      (r.map Prod.fst).Nodup ∧ (∀ l, l ∈ r.map Prod.fst ↔ ∃ i, l = lab i) ∧
      r.Pairwise (fun a b => scoreLe a.2 b.2) ∧
      ∀ i sc, (lab i, sc) ∈ r → ∃ (sd : ℝ → String → ℝ) (m : ℝ), sc = some m ∧
        (∀ t ∈ times, ∀ o ∈ outs, (S t o).sigmaRel (lab i) = some (sd t o)) ∧
        ScoreSpec S outs times (lab i) sd method m := by
  have hne : trajs ≠ [] := by rintro rfl; simp at h2
  obtain ⟨S, hS⟩ := all_stats hlab hs hne hy h0
  refine ⟨_, S, getRanking_eq hS ht ho method sortValues, hS, ?_, fun l => ?_, (hsort _).2, fun i sc hsc => ?_⟩
  · rw [((hsort _).1.map Prod.fst).nodup_iff, List.map_map]
    simpa [Function.comp_def] using List.nodup_dedup _
  · rw [((hsort _).1.map Prod.fst).mem_iff, List.map_map]
    simpa [Function.comp_def] using labels_mem hs hne l
  · have hm := (hsort _).1.mem_iff.1 hsc
    obtain ⟨l, -, he⟩ := List.mem_map.1 hm
    rw [Prod.mk.injEq] at he
    obtain ⟨rfl, he⟩ := he
    classical
    have hsd : ∀ t o, ∃ v, t ∈ times → o ∈ outs → (S t o).sigmaRel (lab i) = some v := by
      intro t o
      by_cases hto : t ∈ times ∧ o ∈ outs
      · obtain ⟨v, -, hv, -⟩ := sigmaRel_some hlab hs h2 (hy t hto.1 o hto.2) (hS t hto.1 o hto.2) i
        exact ⟨_, fun _ _ => hv⟩
      · exact ⟨0, fun a b => absurd ⟨a, b⟩ hto⟩
    choose sd hsd using hsd
    refine ⟨sd, ?_⟩
    cases method with
    | mean =>
      obtain ⟨m, hm, hsp⟩ := scoreMean_eq S fun t ht o ho => hsd t o ht ho
      exact ⟨m, by rw [← he]; exact hm, fun t ht o ho => hsd t o ht ho, hsp⟩
    | max =>
      obtain ⟨m, hm, hsp⟩ := scoreMax_eq S ht ho fun t ht o ho => hsd t o ht ho
      exact ⟨m, by rw [← he]; exact hm, fun t ht o ho => hsd t o ht ho, hsp⟩

/-- a score is zero if all its terms are -/
theorem score_zero {S : ℝ → String → Stat L} {outs : List String} {times : List ℝ} {l : L} {sd : ℝ → String → ℝ}
    (hmu : ∀ t ∈ times, ∀ o ∈ outs, (S t o).muRel l = 0) (hsd : ∀ t ∈ times, ∀ o ∈ outs, sd t o = 0) {method : Method} {m : ℝ}
    (h : ScoreSpec S outs times l sd method m) : m = 0 := by
  have h1 : ∀ t ∈ times, ∀ o ∈ outs, |(S t o).muRel l| = 0 := fun t ht o ho => by rw [hmu t ht o ho, abs_zero]
  cases method with
  | mean =>
    rw [show m = _ from h]
    have : (times.map fun t => (outs.map fun o => |(S t o).muRel l|).sum + (outs.map fun o => sd t o).sum).sum = 0 := by
      apply List.sum_eq_zero
      intro x hx
      obtain ⟨t, ht, rfl⟩ := List.mem_map.1 hx
      have e1 : (outs.map fun o => |(S t o).muRel l|).sum = 0 := by
        apply List.sum_eq_zero
        intro z hz
        obtain ⟨o, ho, rfl⟩ := List.mem_map.1 hz
        exact h1 t ht o ho
      have e2 : (outs.map fun o => sd t o).sum = 0 := by
        apply List.sum_eq_zero
        intro z hz
        obtain ⟨o, ho, rfl⟩ := List.mem_map.1 hz
        exact hsd t ht o ho
      rw [e1, e2, add_zero]
    rw [this]
    simp
  | max =>
    obtain ⟨a, b, ha, hb, ⟨t, ht, rfl⟩, -⟩ := h
    obtain ⟨⟨o, ho, e⟩, -⟩ := ha t ht
    obtain ⟨⟨o', ho', e'⟩, -⟩ := hb t ht
    simp only at e e' ⊢
    rw [e, e', h1 t ht o ho, hsd t ht o' ho', add_zero]

/-- a score is positive if no term is negative and one is positive -/
theorem score_pos {S : ℝ → String → Stat L} {outs : List String} {times : List ℝ} {l : L} {sd : ℝ → String → ℝ}
    (hsd : ∀ t ∈ times, ∀ o ∈ outs, 0 ≤ sd t o) {t₀ : ℝ} (ht₀ : t₀ ∈ times) {o₀ : String} (ho₀ : o₀ ∈ outs)
    (hpos : (S t₀ o₀).muRel l ≠ 0 ∨ 0 < sd t₀ o₀) {method : Method} {m : ℝ} (h : ScoreSpec S outs times l sd method m) :
    0 < m := by
  have hp : 0 < |(S t₀ o₀).muRel l| + sd t₀ o₀ := by
    rcases hpos with hpos | hpos
    · have := abs_pos.2 hpos
      have := hsd t₀ ht₀ o₀ ho₀
      linarith
    · have := abs_nonneg ((S t₀ o₀).muRel l)
      linarith
  cases method with
  | mean =>
    rw [show m = _ from h]
    have hT : (0 : ℝ) < times.length := by exact_mod_cast List.length_pos_iff.2 (List.ne_nil_of_mem ht₀)
    have hO : (0 : ℝ) < outs.length := by exact_mod_cast List.length_pos_iff.2 (List.ne_nil_of_mem ho₀)
    apply div_pos (div_pos ?_ hT) hO
    have k1 : ∀ t ∈ times, ∀ o ∈ outs, |(S t o).muRel l| ≤ (outs.map fun o => |(S t o).muRel l|).sum := fun t ht o ho =>
      List.single_le_sum (by
        intro b hb
        obtain ⟨o, -, rfl⟩ := List.mem_map.1 hb
        exact abs_nonneg _) _ (List.mem_map.2 ⟨o, ho, rfl⟩)
    have k2 : ∀ t ∈ times, ∀ o ∈ outs, sd t o ≤ (outs.map fun o => sd t o).sum := fun t ht o ho =>
      List.single_le_sum (by
        intro b hb
        obtain ⟨o, ho, rfl⟩ := List.mem_map.1 hb
        exact hsd t ht o ho) _ (List.mem_map.2 ⟨o, ho, rfl⟩)
    have k3 : (outs.map fun o => |(S t₀ o).muRel l|).sum + (outs.map fun o => sd t₀ o).sum ≤
        (times.map fun t => (outs.map fun o => |(S t o).muRel l|).sum + (outs.map fun o => sd t o).sum).sum :=
      List.single_le_sum (by
        intro b hb
        obtain ⟨t, ht, rfl⟩ := List.mem_map.1 hb
        have h1 := (abs_nonneg _).trans (k1 t ht o₀ ho₀)
        have h2 := (hsd t ht o₀ ho₀).trans (k2 t ht o₀ ho₀)
        linarith) _ (List.mem_map.2 ⟨t₀, ht₀, rfl⟩)
    have := k1 t₀ ht₀ o₀ ho₀
    have := k2 t₀ ht₀ o₀ ho₀
    linarith
  | max =>
    obtain ⟨a, b, ha, hb, -, hm⟩ := h
    have h1 := (ha t₀ ht₀).2 o₀ ho₀
    have h2 := (hb t₀ ht₀).2 o₀ ho₀
    have h3 := hm t₀ ht₀
    simp only at h1 h2 h3
    linarith

/-- **C69.** A factor that does not influence any important output at any important time is ranked before every factor
that has a nonzero elementary effect on one of them in one of the trajectories - for two or more trajectories and positive
mean outputs. -/
theorem inert_before_influential {n : ℕ} {model : (Fin n → ℚ) → Sol} {lab : Fin n → L} (hlab : Function.Injective lab)
    {h : ℚ} (hh : h ≠ 0) {walks : List ((Fin n → ℚ) × List (Morris.Step n))} {trajs : List (Traj L)}
    (hs : Sample model lab h walks trajs) (h2 : 2 ≤ trajs.length) {outs : List String} {times : List ℝ}
    {y : ℝ → String → (Fin n → ℚ) → ℝ} (hy : ∀ t ∈ times, ∀ o ∈ outs, Outputs model t o walks (y t o))
    (h0 : ∀ t ∈ times, ∀ o ∈ outs, 0 < grandMean (y t o) walks) {method : Method}
    {sortValues : List (L × Option ℝ) → List (L × Option ℝ)} (hsort : SortOk sortValues) {r : List (L × Option ℝ)}
    (hr : getRanking trajs outs times method sortValues = .ok r) {i j : Fin n}
    (hi : ∀ t ∈ times, ∀ o ∈ outs, ∀ x x' : Fin n → ℚ, (∀ k, k ≠ i → x' k = x k) → y t o x' = y t o x)
    {t₀ : ℝ} (ht₀ : t₀ ∈ times) {o₀ : String} (ho₀ : o₀ ∈ outs) {d : Traj L} (hd : d ∈ trajs) {es : List (L × ℝ)}
    (hes : d.effects t₀ o₀ = .ok es) {q : ℝ} (hq : (lab j, q) ∈ es) (hq0 : q ≠ 0) {l₁ l₂ : List (L × Option ℝ)}
    {sc : Option ℝ} (hr' : r = l₁ ++ (lab j, sc) :: l₂) : lab i ∈ l₁.map Prod.fst := by
  obtain ⟨r', S, e, hS, hnd, hmem, hsorted, hsc⟩ := ranking_complete hlab hs h2 (List.ne_nil_of_mem ht₀)
    (List.ne_nil_of_mem ho₀) hy (fun t ht o ho => (h0 t ht o ho).ne') method hsort
  rw [hr] at e
  cases e
  -- the inert factor
  obtain ⟨⟨_, si⟩, hmi, rfl⟩ := List.mem_map.1 ((hmem (lab i)).2 ⟨i, rfl⟩)
  have zero : si = some 0 := by
    obtain ⟨sd, m, rfl, hsd, hsp⟩ := hsc i si hmi
    have key : ∀ t ∈ times, ∀ o ∈ outs, (S t o).muRel (lab i) = 0 ∧ sd t o = 0 := by
      intro t ht o ho
      obtain ⟨h3, h4⟩ := stats_affine hlab hh hs h2 (hy t ht o ho) (hS t ht o ho) (i := i) (a := 0)
        (fun x x' hx => by rw [hi t ht o ho x x' hx]; ring)
      refine ⟨by unfold Stat.muRel; rw [h3, zero_div], ?_⟩
      have := hsd t ht o ho
      unfold Stat.sigmaRel at this
      rw [h4] at this
      simpa using this.symm
    rw [score_zero (fun t ht o ho => (key t ht o ho).1) (fun t ht o ho => (key t ht o ho).2) hsp]
  -- the influential factor
  have pos : ∃ m, sc = some m ∧ 0 < m := by
    obtain ⟨sd, m, rfl, hsd, hsp⟩ := hsc j sc (by rw [hr']; simp)
    refine ⟨m, rfl, score_pos (t₀ := t₀) (o₀ := o₀) ?_ ht₀ ho₀ ?_ hsp⟩
    · intro t ht o ho
      obtain ⟨v, -, h4, h5⟩ := sigmaRel_some hlab hs h2 (hy t ht o ho) (hS t ht o ho) j
      rw [hsd t ht o ho] at h4
      rw [Option.some.inj h4, (group_spec hlab hs (hy t ht o ho) (hS t ht o ho) j).2.1]
      exact div_nonneg h5 (h0 t ht o ho).le
    · by_contra hc
      push Not at hc
      obtain ⟨hc1, hc2⟩ := hc
      have hmean : (S t₀ o₀).mean = grandMean (y t₀ o₀) walks :=
        (group_spec hlab hs (hy t₀ ht₀ o₀ ho₀) (hS t₀ ht₀ o₀ ho₀) j).2.1
      have hmpos := h0 t₀ ht₀ o₀ ho₀
      rw [← hmean] at hmpos
      obtain ⟨v, h3, h4, h5⟩ := sigmaRel_some hlab hs h2 (hy t₀ ht₀ o₀ ho₀) (hS t₀ ht₀ o₀ ho₀) j
      rw [hsd t₀ ht₀ o₀ ho₀] at h4
      simp only [Option.some.injEq] at h4
      rw [h4] at hc2
      have hv : v = 0 := by
        by_contra hv
        have : 0 < v / (S t₀ o₀).mean := div_pos (lt_of_le_of_ne h5 (Ne.symm hv)) hmpos
        linarith
      subst hv
      have hmu : (S t₀ o₀).mu (lab j) = 0 := by
        unfold Stat.muRel at hc1
        rcases div_eq_zero_iff.1 hc1 with h | h
        · exact h
        · exact absurd h hmpos.ne'
      have hg := group_spec hlab hs (hy t₀ ht₀ o₀ ho₀) (hS t₀ ht₀ o₀ ho₀) j
      have := std_eq_zero (by rw [hg.1]; exact h2) h3 q (mem_group (hS t₀ ht₀ o₀ ho₀) hd hes hq)
      exact hq0 (this.trans hmu)
  obtain ⟨m, rfl, hm⟩ := pos
  subst zero
  rw [hr'] at hmi hsorted
  rcases List.mem_append.1 hmi with hmi | hmi
  · exact List.mem_map.2 ⟨_, hmi, rfl⟩
  · exfalso
    rcases List.mem_cons.1 hmi with hmi | hmi
    · rw [Prod.mk.injEq] at hmi
      have := hmi.2
      simp only [Option.some.injEq] at this
      linarith
    · have := (List.pairwise_cons.1 (List.pairwise_append.1 hsorted).2.1).1 _ hmi
      simp only [scoreLe] at this
      linarith

/-! ### change of units -/

/-- the same solution with every output in another unit -/
def rescale (c : String → ℝ) (s : Sol) : Sol := ⟨s.t, fun out => (s.col out).map (List.map (c out * ·))⟩

def Traj.rescale (c : String → ℝ) (d : Traj L) : Traj L :=
  { d with base := MorrisStats.rescale c d.base, runs := d.runs.map (MorrisStats.rescale c) }

theorem result_rescale (c : String → ℝ) (s : Sol) (o : String) (t : ℝ) :
    resultInTime (rescale c s) o t = (resultInTime s o t).map (c o * ·) := by
  rw [← resultInTime_scale]
  rfl

theorem mapE_comp {A B C : Type} (f : B → Except ErrErr C) (g : A → B) (l : List A) :
    mapE f (l.map g) = mapE (fun a => f (g a)) l := by
  induction l with
  | nil => rfl
  | cons a l ih => rw [List.map_cons, mapE, mapE, ih]

theorem mapE_lift {A B C : Type} (f : A → Except ErrErr B) (f' : A → Except ErrErr C) (g : B → C)
    (h : ∀ a, f' a = (f a).map g) (l : List A) : mapE f' l = (mapE f l).map (List.map g) := by
  induction l with
  | nil => rfl
  | cons a l ih =>
    rw [mapE, mapE, h a, ih]
    cases f a with
    | error e => rfl
    | ok b =>
      simp only [Except.map]
      cases mapE f l <;> rfl

omit [DecidableEq L] in
theorem values_rescale (c : String → ℝ) (d : Traj L) (t : ℝ) (o : String) :
    (d.rescale c).values t o = (d.values t o).map (List.map (c o * ·)) := by
  unfold Traj.values Traj.rescale
  simp only
  rw [← List.map_cons (f := MorrisStats.rescale c), mapE_comp]
  exact mapE_map _ _ _ (fun s => result_rescale c s o t) _

theorem quotients_scale (c : ℝ) : ∀ vs ds : List ℝ, quotients (vs.map (c * ·)) ds = (quotients vs ds).map (c * ·)
  | a :: b :: l, δ :: ds => by
    simp only [List.map_cons, quotients]
    rw [← List.map_cons (f := (c * ·)) (a := b), quotients_scale c (b :: l) ds]
    congr 1
    ring
  | [], _ => by simp [quotients]
  | [_], _ => by simp [quotients]
  | _ :: _ :: _, [] => by simp [quotients]

theorem avg_scale (c : ℝ) (l : List ℝ) : avg (l.map (c * ·)) = c * avg l := by
  unfold avg
  rw [List.length_map, List.sum_map_mul_left, List.map_id']
  ring

theorem std_scale {c : ℝ} (hc : 0 < c) (l : List ℝ) : std (l.map (c * ·)) = (std l).map (c * ·) := by
  unfold std
  rw [List.length_map]
  split
  · rfl
  · simp only [Option.map_some, Option.some.injEq, avg_scale, List.map_map]
    have e : (l.map ((fun x => (x - c * avg l) ^ 2) ∘ fun x => c * x)) =
        (l.map fun x => (x - avg l) ^ 2).map (c ^ 2 * ·) := by
      rw [List.map_map]
      apply List.map_congr_left
      intro x _
      simp only [Function.comp_apply]
      ring
    rw [e, List.sum_map_mul_left, List.map_id', mul_div_assoc, Real.sqrt_mul (by positivity), Real.sqrt_sq hc.le]

omit [DecidableEq L] in
theorem effects_rescale (c : String → ℝ) (d : Traj L) (t : ℝ) (o : String) :
    (d.rescale c).effects t o = (d.effects t o).map (List.map fun e => (e.1, c o * e.2)) := by
  unfold Traj.effects
  rw [values_rescale]
  cases d.values t o with
  | error e => rfl
  | ok vs =>
    simp only [Except.map, Traj.rescale, List.length_map]
    split
    · simp only [quotients_scale]
      congr 1
      rw [List.zip_map_right]
      rfl
    · rfl

omit [DecidableEq L] in
theorem mean_rescale (c : String → ℝ) (d : Traj L) (t : ℝ) (o : String) :
    (d.rescale c).mean t o = (d.mean t o).map (c o * ·) := by
  unfold Traj.mean
  rw [values_rescale]
  cases d.values t o with
  | error e => rfl
  | ok vs => simp only [Except.map, avg_scale]

omit [DecidableEq L] in
/-- the statistics in other units -/
theorem stats_rescale {c : String → ℝ} (hc : ∀ o, 0 < c o) (trajs : List (Traj L)) (t : ℝ) (o : String) :
    stats (trajs.map (Traj.rescale c)) t o = (stats trajs t o).map fun s =>
      { mean := c o * s.mean, effs := s.effs.map fun e => (e.1, c o * e.2) } := by
  unfold stats
  by_cases h : trajs = []
  · rw [if_pos h, if_pos (by rw [h]; rfl)]
    rfl
  rw [if_neg h, if_neg (by simpa using h), mapE_comp, mapE_comp,
    mapE_lift (fun d : Traj L => d.mean t o) _ (c o * ·) fun d => mean_rescale c d t o,
    mapE_lift (fun d : Traj L => d.effects t o) _ _ fun d => effects_rescale c d t o]
  cases mapE (fun d : Traj L => d.mean t o) trajs with
  | error e => rfl
  | ok ms =>
    simp only [Except.map]
    cases mapE (fun d : Traj L => d.effects t o) trajs with
    | error e => rfl
    | ok es =>
      simp only [avg_scale]
      by_cases h0 : avg ms = 0
      · rw [if_pos h0, if_pos (by rw [h0, mul_zero])]
      · rw [if_neg h0, if_neg (mul_ne_zero (hc o).ne' h0)]
        simp only [List.map_flatten]

/-- the relative statistics do not change -/
theorem rel_rescale {k : ℝ} (hk : 0 < k) (s : Stat L) (l : L) :
    (Stat.mk (k * s.mean) (s.effs.map fun e => (e.1, k * e.2))).muRel l = s.muRel l ∧
    (Stat.mk (k * s.mean) (s.effs.map fun e => (e.1, k * e.2))).sigmaRel l = s.sigmaRel l := by
  have hg : (Stat.mk (k * s.mean) (s.effs.map fun e => (e.1, k * e.2))).group l = (s.group l).map (k * ·) := by
    unfold Stat.group
    simp only [List.filter_map, List.map_map]
    rfl
  have hk' := hk.ne'
  constructor
  · unfold Stat.muRel Stat.mu
    rw [hg, avg_scale]
    simp only
    rw [mul_div_mul_left _ _ hk']
  · unfold Stat.sigmaRel Stat.sigma
    rw [hg, std_scale hk, Option.map_map]
    congr 1
    funext x
    simp only [Function.comp_apply]
    rw [mul_div_mul_left _ _ hk']

/-- **C69.** The ranking does not depend on the units of the outputs. -/
theorem ranking_units {c : String → ℝ} (hc : ∀ o, 0 < c o) (trajs : List (Traj L)) (outs : List String)
    (times : List ℝ) (method : Method) (sortValues : List (L × Option ℝ) → List (L × Option ℝ)) :
    getRanking (trajs.map (Traj.rescale c)) outs times method sortValues =
      getRanking trajs outs times method sortValues := by
  unfold getRanking
  by_cases ht : times = []
  · rw [if_pos ht, if_pos ht]
  by_cases ho : outs = []
  · rw [if_neg ht, if_neg ht, if_pos ho, if_pos ho]
  rw [if_neg ht, if_neg ht, if_neg ho, if_neg ho]
  -- the rows, output by output
  have hlabels : (trajs.map (Traj.rescale c)).flatMap Traj.labels = trajs.flatMap Traj.labels := by
    rw [List.flatMap_map]
    rfl
  let Rel : Stat L → Stat L → Prop := fun s s' => ∀ l, s'.muRel l = s.muRel l ∧ s'.sigmaRel l = s.sigmaRel l
  have key : ∀ t, ∀ os : List String, (∃ e, mapE (fun o => stats trajs t o) os = .error e ∧
        mapE (fun o => stats (trajs.map (Traj.rescale c)) t o) os = .error e) ∨
      ∃ r r', mapE (fun o => stats trajs t o) os = .ok r ∧
        mapE (fun o => stats (trajs.map (Traj.rescale c)) t o) os = .ok r' ∧ List.Forall₂ Rel r r' := by
    intro t os
    induction os with
    | nil => exact .inr ⟨[], [], rfl, rfl, .nil⟩
    | cons o os ih =>
      rw [mapE, mapE, stats_rescale hc]
      cases stats trajs t o with
      | error e => exact .inl ⟨e, rfl, rfl⟩
      | ok s =>
        simp only [Except.map]
        rcases ih with ⟨e, h1, h2⟩ | ⟨r, r', h1, h2, h3⟩
        · rw [h1, h2]; exact .inl ⟨e, rfl, rfl⟩
        · rw [h1, h2]; exact .inr ⟨_, _, rfl, rfl, .cons (fun l => rel_rescale (hc o) s l) h3⟩
  have key2 : ∀ ts : List ℝ, (∃ e, mapE (fun t => mapE (fun o => stats trajs t o) outs) ts = .error e ∧
        mapE (fun t => mapE (fun o => stats (trajs.map (Traj.rescale c)) t o) outs) ts = .error e) ∨
      ∃ r r', mapE (fun t => mapE (fun o => stats trajs t o) outs) ts = .ok r ∧
        mapE (fun t => mapE (fun o => stats (trajs.map (Traj.rescale c)) t o) outs) ts = .ok r' ∧
        List.Forall₂ (List.Forall₂ Rel) r r' := by
    intro ts
    induction ts with
    | nil => exact .inr ⟨[], [], rfl, rfl, .nil⟩
    | cons t ts ih =>
      rw [mapE, mapE]
      rcases key t outs with ⟨e, h1, h2⟩ | ⟨r, r', h1, h2, h3⟩
      · rw [h1, h2]; exact .inl ⟨e, rfl, rfl⟩
      · rw [h1, h2]
        simp only
        rcases ih with ⟨e, g1, g2⟩ | ⟨rs, rs', g1, g2, g3⟩
        · rw [g1, g2]; exact .inl ⟨e, rfl, rfl⟩
        · rw [g1, g2]; exact .inr ⟨_, _, rfl, rfl, .cons h3 g3⟩
  have map_eq : ∀ {A B : Type} {P : A → A → Prop} {f : A → B} {l l' : List A}, List.Forall₂ P l l' →
      (∀ a b, P a b → f b = f a) → l'.map f = l.map f := by
    intro A B P f l l' h hf
    induction h with
    | nil => rfl
    | cons h _ ih => rw [List.map_cons, List.map_cons, hf _ _ h, ih]
  rcases key2 times with ⟨e, h1, h2⟩ | ⟨r, r', h1, h2, h3⟩
  · rw [h1, h2]
  · rw [h1, h2]
    simp only [hlabels]
    congr 2
    apply List.map_congr_left
    intro l _
    cases method with
    | mean =>
      simp only [scoreMean]
      rw [map_eq h3]
      intro row row' hrow
      rw [map_eq hrow fun a b hab => by rw [(hab l).1], map_eq hrow fun a b hab => by rw [(hab l).2]]
    | max =>
      simp only [scoreMax]
      rw [map_eq h3]
      intro row row' hrow
      rw [map_eq hrow fun a b hab => by rw [(hab l).1], map_eq hrow fun a b hab => by rw [(hab l).2]]

/-! ### findings -/

/-- **Finding.** With a single trajectory the scores of the default method `max` are all `nan`: there is no ranking. -/
theorem single_trajectory_nan {n : ℕ} {model : (Fin n → ℚ) → Sol} {lab : Fin n → L} (hlab : Function.Injective lab)
    {h : ℚ} {walks : List ((Fin n → ℚ) × List (Morris.Step n))} {d : Traj L} (hs : Sample model lab h walks [d])
    {outs : List String} {times : List ℝ} (ht : times ≠ []) (ho : outs ≠ []) {y : ℝ → String → (Fin n → ℚ) → ℝ}
    (hy : ∀ t ∈ times, ∀ o ∈ outs, Outputs model t o walks (y t o))
    (h0 : ∀ t ∈ times, ∀ o ∈ outs, grandMean (y t o) walks ≠ 0)
    {sortValues : List (L × Option ℝ) → List (L × Option ℝ)} (hsort : SortOk sortValues) :
    ∃ r, getRanking [d] outs times .max sortValues = .ok r ∧ (∀ i, lab i ∈ r.map Prod.fst) ∧ ∀ e ∈ r, e.2 = none := by
  obtain ⟨S, hS⟩ := all_stats hlab hs (by simp) hy h0
  refine ⟨_, getRanking_eq hS ht ho .max sortValues, fun i => ?_, fun e he => ?_⟩
  · rw [((hsort _).1.map Prod.fst).mem_iff, List.map_map]
    simpa [Function.comp_def] using (labels_mem hs (by simp) (lab i)).2 ⟨i, rfl⟩
  · obtain ⟨l, hl, rfl⟩ := List.mem_map.1 ((hsort _).1.mem_iff.1 he)
    obtain ⟨i, rfl⟩ := (labels_mem hs (by simp) l).1 hl
    simp only
    unfold scoreMax
    rw [← maxSkip_none times, List.map_map]
    congr 1
    apply List.map_congr_left
    intro t ht
    have e2 : (outs.map fun o => (S t o).sigmaRel (lab i)) = outs.map fun _ => none := by
      apply List.map_congr_left
      intro o ho
      obtain ⟨h1, -, -, -⟩ := group_spec hlab hs (hy t ht o ho) (hS t ht o ho) i
      unfold Stat.sigmaRel Stat.sigma std
      rw [h1, if_pos (by simp)]
      rfl
    simp only [Function.comp_apply, List.map_map]
    have e3 : maxSkip (outs.map ((fun s : Stat L => s.sigmaRel (lab i)) ∘ fun o => S t o)) = none := by
      rw [← maxSkip_none outs, ← e2]; rfl
    rw [e3]
    unfold addNan
    split
    · rename_i hc; cases hc
    · rfl

/-- what the theorems of this file ask of the walks holds of every trajectory of the code (C44) -/
theorem code_walk {s : Morris.Setup} (hg : 2 * s.density ∣ 10 ^ 5) (hc : s.check = .ok ()) {n : ℕ} (hn : 2 ≤ n)
    {choices : List (Fin n × Bool)} (hperm : (choices.map Prod.fst).Perm (List.finRange n)) {seed : Fin n → ℚ}
    (hs : ∀ i, seed i ∈ s.grid) :
    ∃ l step, s.trajectory choices seed = (l, none) ∧ Morris.Walk step seed l ∧ Each l := by
  obtain ⟨l, step, h1, -, h2, -, h3, -⟩ := Morris.trajectory_ok hg hc hn hperm hs
  exact ⟨l, step, h1, h3, h2⟩

namespace Demo

/-- a solution that is constant in time -/
def const (v : ℝ) : Sol := ⟨[0, 1], fun _ => some [v, v]⟩

theorem const_result (v : ℝ) (o : String) : resultInTime (const v) o 0 = .ok v := by
  simp [resultInTime, const, interp]

/-- a model with two factors, the second of which has no influence -/
def model (x : Fin 2 → ℚ) : Sol := const (10 + (x 0 : ℝ))

def walks : List ((Fin 2 → ℚ) × List (Morris.Step 2)) :=
  [(![1/4, 1/4], [⟨0, 1/2, ![3/4, 1/4]⟩, ⟨1, 1/2, ![3/4, 3/4]⟩]),
   (![3/4, 1/4], [⟨1, 1/2, ![3/4, 3/4]⟩, ⟨0, -1/2, ![1/4, 3/4]⟩])]

noncomputable def trajs : List (Traj (Fin 2)) := walks.map fun w =>
  ⟨model w.1, w.2.map fun s => model s.x, w.2.map fun s => (s.delta : ℝ), w.2.map fun s => s.factor⟩

theorem sample : Sample model id (1/2) walks trajs := by
  refine .cons ⟨?_, ?_, ⟨rfl, rfl, rfl, rfl⟩⟩ (.cons ⟨?_, ?_, ⟨rfl, rfl, rfl, rfl⟩⟩ .nil)
  · refine ⟨.inl rfl, by norm_num, ?_, .inl rfl, by norm_num, ?_, trivial⟩
    · intro k hk; fin_cases k
      · exact absurd rfl hk
      · norm_num
    · intro k hk; fin_cases k
      · norm_num
      · exact absurd rfl hk
  · intro i; fin_cases i <;> decide
  · refine ⟨.inl rfl, by norm_num, ?_, .inr (by norm_num), by norm_num, ?_, trivial⟩
    · intro k hk; fin_cases k
      · norm_num
      · exact absurd rfl hk
    · intro k hk; fin_cases k
      · exact absurd rfl hk
      · norm_num
  · intro i; fin_cases i <;> decide

theorem outputs : Outputs model 0 "e" walks fun x => 10 + (x 0 : ℝ) :=
  fun _ _ _ _ => const_result _ _

theorem mean_pos : 0 < grandMean (fun x : Fin 2 → ℚ => 10 + (x 0 : ℝ)) walks := by
  norm_num [grandMean, walks]

/-- the hypotheses of `stats_affine` are met: the slope of the first factor is one -/
example : ∃ s, stats trajs 0 "e" = .ok s ∧ s.mu 0 = 1 ∧ s.sigma 0 = some 0 := by
  obtain ⟨s, h1, -⟩ := stats_spec (lab := (id : Fin 2 → Fin 2)) Function.injective_id sample (by simp [trajs, walks]) outputs
    mean_pos.ne'
  refine ⟨s, h1, stats_affine (lab := (id : Fin 2 → Fin 2)) (i := 0) Function.injective_id (by norm_num) sample
    (by simp [trajs, walks]) outputs h1 ?_⟩
  intro x x' _
  push_cast
  ring

omit [DecidableEq L] in
/-- a possible sort -/
theorem exists_sort : ∃ sortValues : List (L × Option ℝ) → List (L × Option ℝ), SortOk sortValues := by
  classical
  refine ⟨fun l => l.mergeSort fun a b => decide (scoreLe a.2 b.2), fun l => ⟨List.mergeSort_perm .., ?_⟩⟩
  have := List.pairwise_mergeSort (le := fun a b : L × Option ℝ => decide (scoreLe a.2 b.2))
    (by
      rintro ⟨_, a⟩ ⟨_, b⟩ ⟨_, c⟩ h1 h2
      simp only [decide_eq_true_eq] at *
      cases a <;> cases b <;> cases c <;> simp_all [scoreLe]
      exact h1.trans h2)
    (by
      rintro ⟨_, a⟩ ⟨_, b⟩
      rw [Bool.or_eq_true, decide_eq_true_iff, decide_eq_true_iff]
      cases a with
      | none => exact .inr (by cases b <;> trivial)
      | some a =>
        cases b with
        | none => exact .inl trivial
        | some b => exact le_total a b) l
  exact this.imp fun h => by simpa using h

/-- the hypotheses of `inert_before_influential` are met: the second factor is ranked before the first -/
example {sortValues : List (Fin 2 × Option ℝ) → List (Fin 2 × Option ℝ)} (hsort : SortOk sortValues) (method : Method) :
    ∃ r, getRanking trajs ["e"] [0] method sortValues = .ok r ∧
      ∀ l₁ l₂ sc, r = l₁ ++ ((0 : Fin 2), sc) :: l₂ → (1 : Fin 2) ∈ l₁.map Prod.fst := by
  have hy : ∀ t ∈ [(0 : ℝ)], ∀ o ∈ ["e"], Outputs model t o walks fun x => 10 + (x 0 : ℝ) := by
    simpa using outputs
  obtain ⟨r, S, hr, -⟩ := ranking_complete (lab := (id : Fin 2 → Fin 2)) Function.injective_id sample (by simp [trajs, walks])
    (outs := ["e"]) (times := [0]) (by simp) (by simp) hy (fun _ _ _ _ => mean_pos.ne') method hsort
  refine ⟨r, hr, fun l₁ l₂ sc hl => ?_⟩
  have he := effects_ok (lab := (id : Fin 2 → Fin 2)) (x0 := ![1/4, 1/4])
    (steps := [⟨0, 1/2, ![3/4, 1/4]⟩, ⟨1, 1/2, ![3/4, 3/4]⟩])
    (d := ⟨model ![1/4, 1/4], [model ![3/4, 1/4], model ![3/4, 3/4]], [((1/2 : ℚ) : ℝ), ((1/2 : ℚ) : ℝ)], [0, 1]⟩)
    ⟨rfl, rfl, rfl, rfl⟩ (outputs _ (List.mem_cons_self ..))
  refine inert_before_influential (lab := (id : Fin 2 → Fin 2)) (i := 1) (j := 0) Function.injective_id (h := 1/2)
    (by norm_num) sample (by simp [trajs, walks]) hy (fun _ _ _ _ => mean_pos) hsort hr ?_ (t₀ := 0) (o₀ := "e")
    (by simp) (by simp) (List.mem_cons_self ..) he (q := 1) ?_ one_ne_zero hl
  · intro t _ o _ x x' hx
    rw [hx 0 (by decide)]
  · refine List.mem_map.2 ⟨(0, 1), ?_, rfl⟩
    rw [along]
    apply List.mem_cons.2
    left
    norm_num

/-- two trajectories with opposite effects of factor 0 on a negative output, and none of factor 1 -/
noncomputable def negTrajs : List (Traj (Fin 2)) :=
  [⟨const (-4), [const (-7/2), const (-7/2)], [1/2, 1/2], [0, 1]⟩,
   ⟨const (-4), [const (-9/2), const (-9/2)], [1/2, 1/2], [0, 1]⟩]

theorem scoreMax_single {s : Stat L} {l : L} {v : ℝ} (h : s.sigmaRel l = some v) :
    scoreMax [[s]] l = some (|s.muRel l| + v) := by
  simp [scoreMax, maxSkip, h, addNan]

/-- **Finding.** For a negative mean output `sigma` counts negatively (only `mu` is taken absolutely): here a factor with
effects 1 and -1 gets a lower score than a factor without effect. -/
theorem negative_output_inverts : ∃ s, stats negTrajs 0 "e" = .ok s ∧ s.group 0 = [1, -1] ∧ s.group 1 = [0, 0] ∧
    ∃ a b, scoreMax [[s]] 0 = some a ∧ scoreMax [[s]] 1 = some b ∧ a < b := by
  have h1 : stats negTrajs 0 "e" = .ok ⟨-4, [(0, 1), (1, 0), (0, -1), (1, 0)]⟩ := by
    unfold stats
    rw [if_neg (by simp [negTrajs])]
    norm_num [negTrajs, mapE, Traj.mean, Traj.effects, Traj.values, const_result, avg, quotients]
  have g0 : Stat.group ⟨-4, [((0 : Fin 2), (1 : ℝ)), (1, 0), (0, -1), (1, 0)]⟩ 0 = [1, -1] := by
    simp [Stat.group]
  have g1 : Stat.group ⟨-4, [((0 : Fin 2), (1 : ℝ)), (1, 0), (0, -1), (1, 0)]⟩ 1 = [0, 0] := by
    simp [Stat.group]
  refine ⟨_, h1, g0, g1, -(Real.sqrt 2 / 4), 0, ?_, ?_, ?_⟩
  · have : Stat.sigmaRel ⟨-4, [((0 : Fin 2), (1 : ℝ)), (1, 0), (0, -1), (1, 0)]⟩ 0 = some (-(Real.sqrt 2 / 4)) := by
      unfold Stat.sigmaRel Stat.sigma
      rw [g0]
      norm_num [std, avg]
      ring
    rw [scoreMax_single this]
    unfold Stat.muRel Stat.mu
    rw [g0]
    norm_num [avg]
  · have : Stat.sigmaRel ⟨-4, [((0 : Fin 2), (1 : ℝ)), (1, 0), (0, -1), (1, 0)]⟩ 1 = some 0 := by
      unfold Stat.sigmaRel Stat.sigma
      rw [g1]
      norm_num [std, avg]
    rw [scoreMax_single this]
    unfold Stat.muRel Stat.mu
    rw [g1]
    norm_num [avg]
  · have : 0 < Real.sqrt 2 := Real.sqrt_pos.2 (by norm_num)
    linarith

end Demo

end Verif.Fwork.MorrisStats
