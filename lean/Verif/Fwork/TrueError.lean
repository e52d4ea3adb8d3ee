/-
Property C130: what the error computed from two numerical solutions says about the exact ones.
-/
import Verif.Fwork.Errors
import Verif.Fwork.RemoveEqns

namespace Verif.Fwork

/-- At the times considered the outputs read from the solution `s` differ from the exact ones, `f`, by at most `η`: the accuracy of the
solver and of the interpolation between its steps. -/
def Accurate (s : Sol) (outs : List String) (times : List ℝ) (f : String → ℝ → ℝ) (η : ℝ) : Prop :=
  ∀ out ∈ outs, ∀ t ∈ times, ∀ v, resultInTime s out t = .ok v → |v - f out t| ≤ η

variable {full red : Sol} {outs : List String} {times : List ℝ} {f g : String → ℝ → ℝ} {η x : ℝ}

/-- **C130.** If the error of a reduced solution is reported as `x`, then at every time considered the exact outputs differ by at most `x`
times the largest value of the full one, but for the accuracy of the solutions. -/
theorem true_error_le (h : errorMax full red outs times = .ok x) (hf : Accurate full outs times f η) (hg : Accurate red outs times g η)
    {out : String} (ho : out ∈ outs) (hnn : ∀ t ∈ times, 0 ≤ f out t) {M : ℝ} (hM : ∀ t ∈ times, f out t ≤ M) {t : ℝ} (ht : t ∈ times) :
    |g out t - f out t| ≤ x * (M + η) + 2 * η := by
  obtain ⟨errs, e1, e2⟩ := (errorMax_ok h).2 out ho
  obtain ⟨vf, vr, m, hd⟩ := outputErrors_ok.1 e1
  obtain ⟨hm1, -⟩ := maxOf_ok.1 hd.max
  obtain ⟨tm, htm, hvm⟩ := forall₂_mem_right hd.full hm1
  obtain ⟨f', r', e, p1, p2, p3, p4, p5, p6⟩ := errData_at hd ht
  have hx0 : 0 ≤ x := (abs_nonneg e).trans (e2 e p4)
  have h1 := abs_le.1 (hf out ho t ht f' p1)
  have h2 := abs_le.1 (hg out ho t ht r' p2)
  have h3 := abs_le.1 (hf out ho tm htm m hvm)
  have hden : |f' + m| ≤ 2 * (M + η) := abs_le.2 ⟨by linarith [hnn t ht, hnn tm htm, hM t ht, hM tm htm],
    by linarith [hM t ht, hM tm htm]⟩
  have hpos : 0 < |f' + m| := abs_pos.2 p5
  have habs := e2 e p4
  rw [p6, abs_div, abs_mul, abs_of_pos (by norm_num : (0 : ℝ) < 2), div_le_iff₀ hpos] at habs
  have h4 : |r' - f'| ≤ x * (M + η) := by
    have := mul_le_mul_of_nonneg_left hden hx0
    linarith
  rw [abs_le] at h4 ⊢
  constructor <;> linarith [h4.1, h4.2]

/-- **C130.** Conversely, if the exact outputs differ by at most `c` at the times considered and each of the full ones is at least `M` at
one of them, then the reported error is at most `2 c / M`, but for the accuracy of the solutions. -/
theorem reported_error_le (h : errorMax full red outs times = .ok x) (hf : Accurate full outs times f η)
    (hg : Accurate red outs times g η) (hnn : ∀ out ∈ outs, ∀ t ∈ times, 0 ≤ f out t) {c M : ℝ}
    (hc : ∀ out ∈ outs, ∀ t ∈ times, |g out t - f out t| ≤ c) (hM : ∀ out ∈ outs, ∃ t ∈ times, M ≤ f out t) (hη : 2 * η < M) :
    x ≤ 2 * (c + 2 * η) / (M - 2 * η) := by
  obtain ⟨out, ho, errs, e1, e, he, hx⟩ := (errorMax_ok h).1
  obtain ⟨vf, vr, m, hd⟩ := outputErrors_ok.1 e1
  obtain ⟨-, hm2⟩ := maxOf_ok.1 hd.max
  obtain ⟨tm, htm, hMt⟩ := hM out ho
  obtain ⟨vm, hvm, hv⟩ := forall₂_mem_left hd.full htm
  obtain ⟨t, ht, f', r', p1, p2, p3, p4, p5⟩ := errData_from hd he
  have h1 := abs_le.1 (hf out ho t ht f' p1)
  have h2 := abs_le.1 (hg out ho t ht r' p2)
  have h3 := abs_le.1 (hf out ho tm htm vm hv)
  have h4 := abs_le.1 (hc out ho t ht)
  have hden : M - 2 * η ≤ f' + m := by linarith [hm2 vm hvm, hnn out ho t ht]
  have hpos : 0 < M - 2 * η := by linarith
  have hnum : |r' - f'| ≤ c + 2 * η := abs_le.2 ⟨by linarith [h4.1], by linarith [h4.2]⟩
  rw [← hx, p5, abs_div, abs_mul, abs_of_pos (by norm_num : (0 : ℝ) < 2), abs_of_pos (hpos.trans_le hden)]
  have : 0 ≤ c + 2 * η := (abs_nonneg _).trans hnum
  exact div_le_div₀ (by linarith) (by linarith) hpos hden

/-- The error can be computed for valid solutions if the outputs of the full one are positive at the times considered. -/
theorem errorMax_exists (hf : full.Valid outs times) (hr : red.Valid outs times) (ho : outs ≠ []) (ht : times ≠ [])
    (hpos : ∀ out ∈ outs, ∀ t ∈ times, ∀ v, resultInTime full out t = .ok v → 0 < v) : ∃ x, errorMax full red outs times = .ok x := by
  obtain ⟨t0, ht0⟩ := List.exists_mem_of_ne_nil _ ht
  have hone : ∀ out ∈ outs, ∃ y, outputErrorMax full red times out = .ok y := fun out ho => by
    obtain ⟨v, hv, -⟩ := resultInTime_ok hf ho ht0
    obtain ⟨errs, he, hne⟩ := errors_exist hf hr ho ⟨fun t ht v hv => (hpos out ho t ht v hv).le, t0, ht0, v, hv, hpos out ho t0 ht0 v hv⟩
    obtain ⟨y, hy⟩ := maxOf_exists (l := errs.map fun x => |x|) (by simpa using hne)
    exact ⟨y, by unfold outputErrorMax; rw [he]; exact hy⟩
  have hall : ∀ l : List String, (∀ o ∈ l, o ∈ outs) → ∃ ys, mapE (outputErrorMax full red times) l = .ok ys ∧ ys.length = l.length := by
    intro l
    induction l with
    | nil => exact fun _ => ⟨[], rfl, rfl⟩
    | cons o l ih =>
      intro hl
      obtain ⟨y, hy⟩ := hone o (hl o (List.mem_cons_self ..))
      obtain ⟨ys, hys, hlen⟩ := ih fun o h => hl o (List.mem_cons_of_mem _ h)
      exact ⟨y :: ys, by unfold mapE; rw [hy]; simp only [hys], by simp [hlen]⟩
  obtain ⟨ys, hys, hlen⟩ := hall outs fun _ h => h
  obtain ⟨x, hx⟩ := maxOf_exists (l := ys) (by
    rintro rfl
    exact ho (List.length_eq_zero_iff.1 hlen.symm))
  exact ⟨x, by unfold errorMax; rw [hys]; exact hx⟩

/-- The hypotheses of `true_error_le` and `reported_error_le` are met: the exact outputs are `1 + t` and `1 + 2 t + 1/10`, the second is
read without the last term. -/
example : ∃ (full red : Sol) (x : ℝ), errorMax full red ["e"] [0, 1] = .ok x ∧ Accurate full ["e"] [0, 1] (fun _ t => 1 + t) (1 / 10) ∧
    Accurate red ["e"] [0, 1] (fun _ t => 1 + 2 * t + 1 / 10) (1 / 10) ∧ (∀ t ∈ [(0 : ℝ), 1], (0 : ℝ) ≤ 1 + t ∧ 1 + t ≤ 2) ∧
    (∀ t ∈ [(0 : ℝ), 1], |1 + 2 * t + 1 / 10 - (1 + t)| ≤ 11 / 10) ∧ ∃ t ∈ [(0 : ℝ), 1], 2 ≤ 1 + t := by
  refine ⟨⟨[0, 1], fun _ => some [1, 2]⟩, ⟨[0, 1], fun _ => some [1, 3]⟩, 1 / 2, ?_, ?_, ?_, ?_, ?_, 1, by simp, by norm_num⟩
  · norm_num [errorMax, mapE, outputErrorMax, outputErrors, resultInTime, interp, maxOf, relErr]
  · intro o _ t ht v hv
    simp only [List.mem_cons, List.not_mem_nil, or_false] at ht
    rcases ht with rfl | rfl <;> norm_num [resultInTime, interp] at hv <;> subst hv <;> norm_num
  · intro o _ t ht v hv
    simp only [List.mem_cons, List.not_mem_nil, or_false] at ht
    rcases ht with rfl | rfl <;> norm_num [resultInTime, interp] at hv <;> subst hv <;> norm_num [abs_le]
  · intro t ht
    simp only [List.mem_cons, List.not_mem_nil, or_false] at ht
    rcases ht with rfl | rfl <;> norm_num
  · intro t ht
    simp only [List.mem_cons, List.not_mem_nil, or_false] at ht
    rcases ht with rfl | rfl <;> norm_num [abs_le]

end Verif.Fwork

namespace Verif.Fwork.MorrisEqns
open Finset Verif.Plaschem Verif.Plaschem.Net Verif.Pygmol
open Verif.Fwork.GraphRun (ns nr)
open Verif.Fwork.Morris (PyDicts inForce SameButArrh)
open Verif.Fwork.ReducedEqns Verif.Fwork.AdhocEqns

variable {net : Net} {st st' : State} {X : RP → Extra} {P : ReducedEqns.Params}

/-- the column of a species in a solution, model.py:216-218 -/
def column (s : RP) : String := String.ofList s.name

/-- At the times considered the densities read from the solution `s` differ from those of the development `y` by at most `η`. -/
def Reports (net : Net) (st : State) (s : Sol) (times : List ℝ) (y : ℝ → Y (ns net st)) (η : ℝ) : Prop :=
  ∀ i, ∀ t ∈ times, ∀ v, resultInTime s (column (spAt net st i)) t = .ok v → |v - (y t).n i| ≤ η

theorem column_inj (hr : Reachable net st) {i k : Fin (ns net st)} (h : column (spAt net st i) = column (spAt net st k)) : i = k := by
  have hn : ((net.getSpecies st false false true).map RP.name).Nodup :=
    (reachable_inv hr).1.nameNodup.sublist (List.filter_sublist.map _)
  have hk : (spAt net st i).name = (spAt net st k).name := String.ofList_injective h
  refine spAt_inj hr (List.inj_on_of_nodup_map hn (List.getElem_mem i.2) (List.getElem_mem k.2) hk)

/-- **C130.** The error reported for a reduced chemistry from which only slow reactions are missing is as small as asked for: for every
`ε` there are a bound for the rates and an accuracy such that whenever the missing reactions are slower than the bound and both numerical
solutions are that accurate, the error reported for densities of species is at most `ε`. -/
theorem disabled_error (hr : Reachable net st) (hr' : Reachable net st') (hcl : net.RetClosed) (hpy : PyDicts net st)
    (h : Shrinks net st st') (hsp : ∀ s ∈ net.species, s.isSpecial = false → st.enSp s.id = true → st'.enSp s.id = true)
    {D : Data (ns net st) (nr net st)} {D' : Data (ns net st') (nr net st')} (hD : ReadsAll X P D) (hD' : ReadsAll X P D')
    (hph : D.Physical) {T : ℝ} (hT : 0 < T) (hP : ContinuousOn P.power (Set.Icc 0 T)) {y : ℝ → Y (ns net st')} (hy : D'.Solves T y)
    (hdef : ∀ t ∈ Set.Icc 0 T, D'.Defined (y t)) {outs : List String} {times : List ℝ}
    (houts : ∀ out ∈ outs, ∃ i, out = column (spAt net st' i)) (hne : times ≠ []) (hts : ∀ t ∈ times, t ∈ Set.Icc 0 T) {ε : ℝ} (hε : 0 < ε) :
    ∃ η > (0 : ℝ), ∃ δ > (0 : ℝ), ∀ b, SameButArrh b st →
      (∀ r ∈ net.reactions, st'.enR r.id = true → inForce b r = inForce st r) →
      ∀ E : Data (ns net b) (nr net b), ReadsAll X P E → (∀ j, 0 ≤ E.arrhA j) →
      (∀ j, st'.enR (reAt net b j).id = false → E.arrhA j ≤ δ) →
      ∃ z, E.Solves T z ∧ SameY net st' b (y 0) (z 0) ∧ ∀ full red : Sol, Reports net b full times z η →
        Reports net st' red times y η → ∀ x, errorMax full red outs times = .ok x → x ≤ ε := by
  obtain ⟨t0, ht0⟩ := List.exists_mem_of_ne_nil _ hne
  -- the smallest density at a time considered
  obtain ⟨M, hM0, hM⟩ : ∃ M > (0 : ℝ), ∀ i, M ≤ (y t0).n i := by
    have hpos := (hdef t0 (hts t0 ht0)).1
    rcases isEmpty_or_nonempty (Fin (ns net st')) with he | he
    · exact ⟨1, one_pos, fun i => (he.false i).elim⟩
    · obtain ⟨k, hk⟩ := Finite.exists_min (y t0).n
      exact ⟨(y t0).n k, hpos k, hk⟩
  obtain ⟨L, hL, δ, hδ, key⟩ := disabled_stable hr hr' hcl hpy h hsp hD hD' hph hT hP hy hdef
  set c := min (M / 4) (ε * M / 8) with hc
  have hc0 : 0 < c := lt_min (by positivity) (by positivity)
  set d := min δ (c / L) with hd
  have hd0 : 0 < d := lt_min hδ (by positivity)
  have hLd : L * d ≤ c := by
    have : d ≤ c / L := min_le_right _ _
    rw [le_div_iff₀ hL] at this
    linarith
  refine ⟨c / 2, by positivity, d, hd0, fun b hb hkept E hE hE0 hEd => ?_⟩
  obtain ⟨z, hz, hz0, hnear⟩ := key d ⟨hd0, min_le_left _ _⟩ b hb hkept E hE hE0 hEd
  refine ⟨z, hz, hz0, fun full red hfull hred x hx => ?_⟩
  -- the exact curves
  obtain ⟨p, q, hp⟩ := places h
  obtain ⟨a, rfl⟩ : ∃ a, b = { st with adArrhA := a } := ⟨_, same_eq hb⟩
  have hinj : ∀ i k : Fin (ns net st'), column (spAt net st' i) = column (spAt net st' k) → i = k := fun i k e => column_inj hr' e
  classical
  set u : String → ℝ → ℝ := fun o t => if hk : ∃ i, o = column (spAt net st' i) then (y t).n hk.choose else 0 with hu
  set w : String → ℝ → ℝ := fun o t => if hk : ∃ i, o = column (spAt net st' i) then (z t).n (p hk.choose) else 0 with hw
  have eu : ∀ i t, u (column (spAt net st' i)) t = (y t).n i := fun i t => by
    have hk : ∃ k, column (spAt net st' i) = column (spAt net st' k) := ⟨i, rfl⟩
    simp only [hu, dif_pos hk]
    rw [← hinj i _ hk.choose_spec]
  have ew : ∀ i t, w (column (spAt net st' i)) t = (z t).n (p i) := fun i t => by
    have hk : ∃ k, column (spAt net st' i) = column (spAt net st' k) := ⟨i, rfl⟩
    simp only [hw, dif_pos hk]
    rw [← hinj i _ hk.choose_spec]
  have hdiff : ∀ i, ∀ t ∈ times, |(z t).n (p i) - (y t).n i| ≤ c := fun i t ht =>
    ((hnear t (hts t ht)).2.n i (p i) (hp.sp i).symm).trans hLd
  have hcM : c ≤ M / 4 := min_le_left _ _
  have hcE : c ≤ ε * M / 8 := min_le_right _ _
  have key2 := reported_error_le (full := full) (red := red) (f := w) (g := u) (η := c / 2) (c := c) (M := M - c) hx
    (fun o ho t ht v hv => by
      obtain ⟨i, rfl⟩ := houts o ho
      rw [ew]
      refine hfull (p i) t ht v ?_
      have : spAt net { st with adArrhA := a } (p i) = spAt net st' i := hp.sp i
      rw [this]; exact hv)
    (fun o ho t ht v hv => by
      obtain ⟨i, rfl⟩ := houts o ho
      rw [eu]
      exact hred i t ht v hv)
    (fun o ho t ht => by
      obtain ⟨i, rfl⟩ := houts o ho
      rw [ew]
      exact ((hnear t (hts t ht)).1.1 (p i)).le)
    (fun o ho t ht => by
      obtain ⟨i, rfl⟩ := houts o ho
      rw [ew, eu, abs_sub_comm]
      exact hdiff i t ht)
    (fun o ho => by
      obtain ⟨i, rfl⟩ := houts o ho
      refine ⟨t0, ht0, ?_⟩
      rw [ew]
      have := (abs_le.1 (hdiff i t0 ht0)).1
      linarith [hM i])
    (by linarith)
  refine key2.trans ?_
  rw [div_le_iff₀ (by linarith)]
  nlinarith

end Verif.Fwork.MorrisEqns

namespace Verif.Fwork.MorrisEqns.Demo
open Finset Verif.Plaschem Verif.Plaschem.Net Verif.Pygmol
open Verif.Fwork.GraphRun (ns nr)
open Verif.Fwork.Morris (inForce SameButArrh)
open Verif.Fwork.ReducedEqns
open Verif.Plaschem.Demo (Ar ArP)
open Verif.Fwork.PhysEqns.Demo (X)

/-- The hypotheses of `disabled_error` are met: the quenching of Ar* is disabled, the error of the densities of Ar and Ar+ at the ends of
the run is asked to be at most one per cent. There are such reactions, by the example after `disabled_stable`. -/
example (C : Consts) : ∃ T ∈ Set.Ioc 0 Pygmol.Demo.params.tEnd, ∃ y, (less_D C).Solves T y ∧ y 0 = less_y0 ∧
    ∃ η > (0 : ℝ), ∃ δ > (0 : ℝ), ∀ b, SameButArrh b st →
      (∀ r ∈ net.reactions, less.enR r.id = true → inForce b r = inForce st r) →
      ∀ E : Data (ns net b) (nr net b), ReadsAll X (P C) E → (∀ j, 0 ≤ E.arrhA j) →
      (∀ j, less.enR (reAt net b j).id = false → E.arrhA j ≤ δ) →
      ∃ z, E.Solves T z ∧ SameY net less b (y 0) (z 0) ∧ ∀ full red : Sol, Reports net b full [0, T] z η → Reports net less red [0, T] y η →
        ∀ x, errorMax full red [column Ar, column ArP] [0, T] = .ok x → x ≤ 1 / 100 := by
  obtain ⟨T, hT, y, h1, h2, h3, -⟩ := less_develops C
  refine ⟨T, hT, y, h1, h2, disabled_error reach less_history.reachable retClosed pyDicts (shrinks_disable reach [] [3])
    (fun s hs h _ => less_species s hs h) (reads C) (less_reads C) (physical C) hT.1 ((power_cont C).mono (Set.Icc_subset_Icc_right hT.2)) h1
    h3 ?_ (by simp) (fun t ht => ?_) (by norm_num)⟩
  · intro o ho
    simp only [List.mem_cons, List.not_mem_nil, or_false] at ho
    have ha : ∃ i, spAt net less i = Ar := by decide +kernel
    have hb : ∃ i, spAt net less i = ArP := by decide +kernel
    obtain ⟨i, hi⟩ := ha
    obtain ⟨k, hk⟩ := hb
    rcases ho with rfl | rfl
    · exact ⟨i, by rw [hi]⟩
    · exact ⟨k, by rw [hk]⟩
  · simp only [List.mem_cons, List.not_mem_nil, or_false] at ht
    rcases ht with rfl | rfl
    · exact ⟨le_rfl, hT.1.le⟩
    · exact ⟨hT.1.le, le_rfl⟩

/-- Solutions that report a development exactly at the ends of the run exist, and errors are computed from them. -/
example {T : ℝ} (hT : 0 < T) {a b : State} (ha : Reachable net a) (hb : Reachable net b) (u : ℝ → Y (ns net a)) (v : ℝ → Y (ns net b))
    (hu : ∀ i, 0 < (u 0).n i ∧ 0 < (u T).n i) {o : String} (i : Fin (ns net a)) (hi : o = column (spAt net a i)) :
    ∃ full red : Sol, Reports net a full [0, T] u 0 ∧ Reports net b red [0, T] v 0 ∧ ∃ x, errorMax full red [o] [0, T] = .ok x := by
  classical
  have mk : ∀ (s : State) (_ : Reachable net s) (w : ℝ → Y (ns net s)), ∃ f : Sol, f.Valid [o] [0, T] ∧ Reports net s f [0, T] w 0 := by
    intro s hs w
    set col : String → Option (List ℝ) := fun o =>
      some (if hk : ∃ i, o = column (spAt net s i) then [(w 0).n hk.choose, (w T).n hk.choose] else [0, 0]) with hcol
    have hc : ∀ k, col (column (spAt net s k)) = some [(w 0).n k, (w T).n k] := fun k => by
      have hk : ∃ m, column (spAt net s k) = column (spAt net s m) := ⟨k, rfl⟩
      have e := column_inj hs hk.choose_spec
      simp only [hcol]
      rw [dif_pos hk, ← e]
    refine ⟨⟨[0, T], col⟩,
      ⟨by simp, by simpa using hT, fun o _ => ⟨_, rfl, by split_ifs <;> simp⟩, fun t ht => ⟨0, T, rfl, rfl, ?_⟩⟩, fun k t ht x hx => ?_⟩
    · simp only [List.mem_cons, List.not_mem_nil, or_false] at ht
      rcases ht with rfl | rfl
      · exact ⟨le_rfl, hT.le⟩
      · exact ⟨hT.le, le_rfl⟩
    · simp only [List.mem_cons, List.not_mem_nil, or_false] at ht
      have hT' : T ≠ 0 := hT.ne'
      unfold resultInTime at hx
      simp only [hc] at hx
      rcases ht with rfl | rfl <;> simp [interp, hT.le, hT'] at hx <;> subst hx <;> simp
  obtain ⟨full, h1, h2⟩ := mk a ha u
  obtain ⟨red, h3, h4⟩ := mk b hb v
  refine ⟨full, red, h2, h4, errorMax_exists h1 h3 (by simp) (by simp) fun o' ho' t ht x hx => ?_⟩
  obtain rfl : o' = o := by simpa using ho'
  subst hi
  have := h2 i t ht x hx
  have e : x = (u t).n i := by
    have := abs_nonpos_iff.1 this
    linarith
  simp only [List.mem_cons, List.not_mem_nil, or_false] at ht
  rcases ht with rfl | rfl
  · rw [e]; exact (hu i).1
  · rw [e]; exact (hu i).2

end Verif.Fwork.MorrisEqns.Demo
