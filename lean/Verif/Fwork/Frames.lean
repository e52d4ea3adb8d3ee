/-
Interpolated rows of a result table (`ResultsParser.get_results_frames`, pygmo_fwork/results.py:237-260) and
the check for convergence (`GlobalModel.check_convergency`, pygmo_fwork/global_model.py:282-333).
Properties C74, C75.
-/
import Verif.Plaschem.Base
import Verif.Pygmol.Power

namespace Verif.Fwork.Frames
open Verif.Plaschem Verif.Pygmol

/-- a result table: the column 't' and the other columns, by name (or by another label) -/
structure Table (L : Type := Str) where
  t : List ℝ
  cols : Dict L (List ℝ)

/-- a table as the solver produces it: strictly increasing times, columns of equal length, at least one row -/
structure Table.Valid {L : Type} (T : Table L) : Prop where
  nonempty : T.t ≠ []
  increasing : T.t.Pairwise (· < ·)
  lengths : ∀ c ∈ T.cols, c.2.length = T.t.length

inductive FErr
  | assertion | index
  deriving DecidableEq, Repr

/-- results.py:237-260 `get_results_frames`. (For no requested times and an empty table numpy raises; reported
as `index` here.) -/
noncomputable def getResultsFrames {L : Type} (T : Table L) (times : List ℝ) : Except FErr (Table L) :=
  match T.t.head?, T.t.getLast? with
  | some a, some b =>
    if ∀ t ∈ times, a ≤ t ∧ t ≤ b then
      .ok { t := times, cols := T.cols.map (fun c => (c.1, times.map (interp (T.t.zip c.2)))) }
    else .error .assertion
  | _, _ => .error .index

/-- the result of `check_convergency`: the returned flags and whether the warning about the end time is
among the messages -/
structure Verdict where
  converged : Dict Str Prop
  notReached : Prop

/-- global_model.py:315-323 for one column with value `e` at the end and `s` at the start of the window: a
division by zero gives `inf` or `nan`, for which the comparison is false. -/
def colConverged (eps e s : ℝ) : Prop := e + s ≠ 0 ∧ |(e - s) / (e + s) * 2| ≤ eps

/-- global_model.py:282-333 `check_convergency`; `none` if the table is empty (IndexError). `np.isclose(a, b,
rtol)` is `|a - b| <= 1e-8 + rtol * |b|`. -/
noncomputable def checkConvergency (T : Table) (tEnd0 eps window : ℝ) : Option Verdict :=
  match T.t.getLast? with
  | none => none
  | some tEnd =>
    some {
      converged := T.cols.map (fun c => (c.1, colConverged eps (c.2.getLast?.getD 0)
        (interp (T.t.zip c.2) (tEnd - tEnd * window))))
      notReached := tEnd < tEnd0 ∧ ¬ |tEnd - tEnd0| ≤ 1e-8 + 0.05 * |tEnd0| }

/-! ### C74 -/

theorem zip_pairwise {xs ys : List ℝ} (h : xs.Pairwise (· < ·)) :
    (xs.zip ys).Pairwise (fun p q => p.1 < q.1) := by
  rw [List.pairwise_iff_getElem] at h ⊢
  intro i j hi hj hij
  simp only [List.length_zip] at hi hj
  simp only [List.getElem_zip]
  exact h i j (by omega) (by omega) hij

/-- **C74.** Rows can be requested exactly for times within the range of the table: there is no
extrapolation. The result has the requested times and the columns of the table, in this order. -/
theorem frames_defined {L : Type} (T : Table L) (times : List ℝ) :
    (∃ R, getResultsFrames T times = .ok R) ↔
      ∃ a b, T.t.head? = some a ∧ T.t.getLast? = some b ∧ ∀ t ∈ times, a ≤ t ∧ t ≤ b := by
  unfold getResultsFrames
  constructor
  · rintro ⟨R, h⟩
    split at h
    · rename_i a b ha hb
      split at h
      · rename_i hall; exact ⟨a, b, ha, hb, hall⟩
      · cases h
    · cases h
  · rintro ⟨a, b, ha, hb, hall⟩
    simp only [ha, hb]
    rw [if_pos hall]
    exact ⟨_, rfl⟩

theorem frames_eq {L : Type} {T R : Table L} {times : List ℝ} (h : getResultsFrames T times = .ok R) :
    R = { t := times, cols := T.cols.map (fun c => (c.1, times.map (interp (T.t.zip c.2)))) } := by
  unfold getResultsFrames at h
  split at h
  · split at h
    · cases h; rfl
    · cases h
  · cases h

/-- **C74.** What the rows contain: the requested times, the same columns, and in each column the value logged
at the time, if the time was logged, else the value on the straight line between the two neighbouring rows. -/
theorem frames_values {L : Type} {T R : Table L} (hT : T.Valid) {times : List ℝ} (h : getResultsFrames T times = .ok R) :
    R.t = times ∧ R.cols.keys = T.cols.keys ∧
    ∀ (k : ℕ) (hk : k < T.cols.length), ∃ col, R.cols[k]? = some (T.cols[k].1, col) ∧
      ∀ (i : ℕ) (t : ℝ), times[i]? = some t → ∃ v, col[i]? = some v ∧
        (∀ (j : ℕ) (w : ℝ), T.t[j]? = some t → T.cols[k].2[j]? = some w → v = w) ∧
        (∀ (j : ℕ) (p q vp vq : ℝ), T.t[j]? = some p → T.t[j + 1]? = some q → T.cols[k].2[j]? = some vp →
          T.cols[k].2[j + 1]? = some vq → p ≤ t → t ≤ q →
          v = vp + (vq - vp) * ((t - p) / (q - p)) ∧ min vp vq ≤ v ∧ v ≤ max vp vq) := by
  have hR := frames_eq h
  subst hR
  refine ⟨rfl, by simp [Dict.keys, Function.comp_def], fun k hk => ?_⟩
  have hz := zip_pairwise (ys := T.cols[k].2) hT.increasing
  refine ⟨times.map (interp (T.t.zip T.cols[k].2)), by simp [hk], fun i t hi => ?_⟩
  refine ⟨interp (T.t.zip T.cols[k].2) t, by rw [List.getElem?_map, hi]; rfl, ?_, ?_⟩
  · intro j w h1 h2
    have hm : (t, w) ∈ T.t.zip T.cols[k].2 := by
      refine List.mem_of_getElem? (i := j) ?_
      rw [List.getElem?_zip_eq_some]; exact ⟨h1, h2⟩
    exact interp_hits hz (t, w) hm
  · intro j p q vp vq hp hq hvp hvq hpt htq
    have e1 : (T.t.zip T.cols[k].2)[j]? = some (p, vp) := by rw [List.getElem?_zip_eq_some]; exact ⟨hp, hvp⟩
    have e2 : (T.t.zip T.cols[k].2)[j + 1]? = some (q, vq) := by
      rw [List.getElem?_zip_eq_some]; exact ⟨hq, hvq⟩
    generalize hL : T.t.zip T.cols[k].2 = L at *
    obtain ⟨hj1, e2'⟩ := List.getElem?_eq_some_iff.1 e2
    obtain ⟨hj, e1'⟩ := List.getElem?_eq_some_iff.1 e1
    have hsplit : L = L.take j ++ (p, vp) :: (q, vq) :: L.drop (j + 2) := by
      conv_lhs => rw [← List.take_append_drop j L, List.drop_eq_getElem_cons hj,
        List.drop_eq_getElem_cons hj1, e1', e2']
    have hpq : p < q := by
      have := List.pairwise_iff_getElem.1 hz j (j + 1) hj hj1 (by omega)
      rw [e1', e2'] at this; exact this
    have hv : interp L t = vp + (vq - vp) * ((t - p) / (q - p)) := by
      rcases htq.lt_or_eq with hlt | rfl
      · have hlin := interp_linear (l₁ := L.take j) (l₂ := L.drop (j + 2)) (p := (p, vp)) (q := (q, vq))
          (by rw [← hsplit]; exact hz) hpt hlt
        rw [← hsplit] at hlin
        have hne : q - p ≠ 0 := by linarith
        simp only at hlin
        field_simp
        linarith
      · have := interp_hits hz (t, vq) (List.mem_of_getElem? e2)
        simp only at this
        have hne : t - p ≠ 0 := by linarith
        rw [this, div_self hne]; ring
    refine ⟨hv, ?_, ?_⟩
    all_goals
      have h0 : 0 ≤ (t - p) / (q - p) := div_nonneg (by linarith) (by linarith)
      have h1 : (t - p) / (q - p) ≤ 1 := by rw [div_le_one (by linarith)]; linarith
      rw [hv]
      generalize (t - p) / (q - p) = x at h0 h1
    · rcases le_total vp vq with hc | hc
      · rw [min_eq_left hc]; nlinarith
      · rw [min_eq_right hc]; nlinarith
    · rcases le_total vp vq with hc | hc
      · rw [max_eq_right hc]; nlinarith
      · rw [max_eq_left hc]; nlinarith

/-- **C74.** Asking for the logged times gives the table back. -/
theorem frames_own_times {L : Type} {T : Table L} (hT : T.Valid) : getResultsFrames T T.t = .ok T := by
  obtain ⟨R, hR⟩ := (frames_defined T T.t).2 (by
    obtain ⟨a, l, hal⟩ := List.exists_cons_of_ne_nil hT.nonempty
    refine ⟨a, T.t.getLast hT.nonempty, by rw [hal]; rfl, List.getLast?_eq_some_getLast _, fun t ht => ?_⟩
    have hle : T.t.Pairwise (· ≤ ·) := hT.increasing.imp le_of_lt
    constructor
    · rw [hal] at ht hle
      rcases List.mem_cons.1 ht with rfl | ht
      · exact le_refl _
      · exact (List.pairwise_cons.1 hle).1 t ht
    · obtain ⟨i, hi, rfl⟩ := List.getElem_of_mem ht
      rw [List.getLast_eq_getElem]
      rcases Nat.lt_or_ge i (T.t.length - 1) with h | h
      · exact List.pairwise_iff_getElem.1 hle i _ hi (by omega) h
      · exact le_of_eq (getElem_congr_idx (by omega)))
  rw [hR, frames_eq hR]
  obtain ⟨ts, cols⟩ := T
  simp only [Except.ok.injEq, Table.mk.injEq, true_and]
  conv_rhs => rw [← List.map_id cols]
  refine List.map_congr_left fun c hc => Prod.ext rfl ?_
  have hlen := hT.lengths c hc
  simp only at hlen
  refine List.ext_getElem (by simp [hlen]) fun i h1 h2 => ?_
  rw [List.getElem_map]
  have h3 : i < ts.length := by simpa using h1
  have hm : (ts[i], c.2[i]'(by omega)) ∈ ts.zip c.2 :=
    List.mem_iff_getElem.2 ⟨i, by simp [hlen, h3], by simp⟩
  exact interp_hits (zip_pairwise hT.increasing) _ hm

/-! interpolating an interpolation -/

theorem interp_affine {L : List (ℝ × ℝ)} (hL : L.Pairwise (fun p q => p.1 < q.1)) {p q : ℝ}
    (hgap : ∀ x ∈ L, x.1 ≤ p ∨ q ≤ x.1) {t : ℝ} (h1 : p ≤ t) (h2 : t ≤ q) :
    (interp L t - interp L p) * (q - p) = (interp L q - interp L p) * (t - p) := by
  induction L with
  | nil => simp [interp]
  | cons a L ih =>
    cases L with
    | nil => simp [interp]
    | cons b l =>
      have hab : a.1 < b.1 := (List.pairwise_cons.1 hL).1 b (by simp)
      have hb : interp (b :: l) b.1 = b.2 := interp_hits (List.pairwise_cons.1 hL).2 b (by simp)
      rcases hgap a (by simp) with ha | ha
      · rcases hgap b (by simp) with hbp | hbq
        · have e : ∀ s, b.1 ≤ s → interp (a :: b :: l) s = interp (b :: l) s := by
            intro s hs
            rw [interp, if_neg (by linarith), if_neg (by linarith)]
          rw [e t (by linarith), e p hbp, e q (by linarith)]
          exact ih (List.pairwise_cons.1 hL).2 (fun x hx => hgap x (by simp [hx]))
        · have e : ∀ s, a.1 ≤ s → s ≤ b.1 →
              interp (a :: b :: l) s = (b.2 - a.2) / (b.1 - a.1) * (s - a.1) + a.2 := by
            intro s hs hs'
            rw [interp, if_neg (by linarith)]
            rcases hs'.lt_or_eq with h | rfl
            · rw [if_pos h]
            · rw [if_neg (lt_irrefl _), hb, div_mul_cancel₀ _ (by linarith)]; ring
          rw [e t (by linarith) (by linarith), e p ha (by linarith), e q (by linarith) hbq]
          ring
      · have e : ∀ s, s ≤ a.1 → interp (a :: b :: l) s = a.2 := by
          intro s hs
          rw [interp]
          rcases hs.lt_or_eq with h | rfl
          · rw [if_pos h]
          · rw [if_neg (lt_irrefl _), if_pos hab]; ring
        rw [e t (by linarith), e p (by linarith), e q ha]
        ring

theorem interp_samples {g : ℝ → ℝ} {ts : List ℝ} (hts : ts.Pairwise (· < ·))
    (haff : ∀ p ∈ ts, ∀ q ∈ ts, (∀ x ∈ ts, x ≤ p ∨ q ≤ x) → ∀ t, p ≤ t → t ≤ q →
      (g t - g p) * (q - p) = (g q - g p) * (t - p))
    {t a b : ℝ} (ha : ts.head? = some a) (hb : ts.getLast? = some b) (h1 : a ≤ t) (h2 : t ≤ b) :
    interp (ts.map (fun x => (x, g x))) t = g t := by
  induction ts generalizing a with
  | nil => cases ha
  | cons p l ih =>
    have hap : p = a := by simpa using ha
    subst hap
    rename' p => a
    cases l with
    | nil =>
      have hb' : a = b := by simpa using hb
      have : t = a := le_antisymm (h2.trans_eq hb'.symm) h1
      subst this
      simp [interp]
    | cons q l =>
      have hpq : a < q := (List.pairwise_cons.1 hts).1 q (by simp)
      rw [List.map_cons, List.map_cons, interp, if_neg (by simpa using h1)]
      by_cases htq : t < q
      · rw [if_pos htq]
        have hgap : ∀ x ∈ a :: q :: l, x ≤ a ∨ q ≤ x := by
          intro x hx
          rcases List.mem_cons.1 hx with rfl | hx
          · exact .inl le_rfl
          · rcases List.mem_cons.1 hx with rfl | hx
            · exact .inr le_rfl
            · exact .inr ((List.pairwise_cons.1 (List.pairwise_cons.1 hts).2).1 x hx).le
        have := haff a (by simp) q (by simp) hgap t h1 htq.le
        have hne : q - a ≠ 0 := by linarith
        simp only
        field_simp
        linarith
      · rw [if_neg htq]
        rw [← List.map_cons (f := fun x => (x, g x))]
        refine ih (List.pairwise_cons.1 hts).2 ?_ rfl (by simpa using hb) (not_lt.1 htq)
        intro x hx y hy hgap s hs1 hs2
        refine haff x (by simp [hx]) y (by simp [hy]) ?_ s hs1 hs2
        intro z hz
        rcases List.mem_cons.1 hz with rfl | hz
        · exact .inl ((List.pairwise_cons.1 hts).1 x hx).le
        · exact hgap z hz

theorem zip_map_self {α β : Type} (l : List α) (g : α → β) : l.zip (l.map g) = l.map (fun x => (x, g x)) := by
  induction l with
  | nil => rfl
  | cons a l ih => simp [ih]

/-- **C74.** Interpolating to a finer grid of times loses nothing: rows requested from the finer table are
those requested from the table itself. -/
theorem frames_refine {L : Type} {T F : Table L} (hT : T.Valid) {grid : List ℝ} (hg : grid.Pairwise (· < ·))
    (hsub : T.t ⊆ grid) (hF : getResultsFrames T grid = .ok F) (times : List ℝ) :
    getResultsFrames F times = getResultsFrames T times := by
  obtain ⟨a, b, ha, hb, hab⟩ := (frames_defined T grid).1 ⟨F, hF⟩
  have hFe := frames_eq hF
  subst hFe
  have hsame : grid.head? = some a ∧ grid.getLast? = some b := by
    have hne : grid ≠ [] := fun h => by
      have := hsub (List.mem_of_head? ha)
      rw [h] at this; cases this
    have hle : grid.Pairwise (· ≤ ·) := hg.imp le_of_lt
    constructor
    · obtain ⟨x, l, hx⟩ := List.exists_cons_of_ne_nil hne
      rw [hx] at hle hsub hab ⊢
      have h1 : a ≤ x := (hab x (by simp)).1
      have h2 : x ≤ a := by
        rcases List.mem_cons.1 (hsub (List.mem_of_head? ha)) with h | h
        · exact h.ge
        · exact (List.pairwise_cons.1 hle).1 a h
      rw [List.head?_cons, le_antisymm h1 h2]
    · rw [List.getLast?_eq_some_getLast hne]
      have h1 := (hab _ (List.getLast_mem hne)).2
      have h2 : b ≤ grid.getLast hne := by
        obtain ⟨i, hi, he⟩ := List.getElem_of_mem (hsub (List.mem_of_getLast? hb))
        rw [List.getLast_eq_getElem, ← he]
        rcases Nat.lt_or_ge i (grid.length - 1) with h | h
        · exact List.pairwise_iff_getElem.1 hle i _ hi (by omega) h
        · exact le_of_eq (getElem_congr_idx (by omega))
      rw [le_antisymm h1 h2]
  unfold getResultsFrames
  simp only [ha, hb, hsame.1, hsame.2]
  by_cases hall : ∀ t ∈ times, a ≤ t ∧ t ≤ b
  · rw [if_pos hall, if_pos hall]
    simp only [List.map_map, Except.ok.injEq, Table.mk.injEq, true_and]
    refine List.map_congr_left fun c hc => Prod.ext rfl ?_
    simp only [Function.comp_apply]
    refine List.map_congr_left fun t ht => ?_
    rw [zip_map_self]
    refine interp_samples hg ?_ hsame.1 hsame.2 (hall t ht).1 (hall t ht).2
    intro p hp q hq hgap s hs1 hs2
    refine interp_affine (zip_pairwise hT.increasing) ?_ hs1 hs2
    intro x hx
    exact hgap x.1 (hsub (List.of_mem_zip hx).1)
  · rw [if_neg hall, if_neg hall]

/-! ### C75 -/

/-- **C75.** The verdict for one output is a comparison of its value at the end with its (interpolated) value
at the start of the window: converged if and only if the two do not cancel and differ by at most `eps` times
the absolute value of their mean. -/
theorem converged_iff (eps e s : ℝ) : colConverged eps e s ↔ e + s ≠ 0 ∧ |e - s| ≤ eps * |(e + s) / 2| := by
  unfold colConverged
  refine and_congr_right fun h => ?_
  have h0 : 0 < |e + s| := abs_pos.2 h
  rw [abs_mul, abs_div, abs_div, abs_two, div_mul_eq_mul_div, div_le_iff₀ h0]
  constructor <;> intro h <;> linarith

/-- **C75.** The verdict by column: the end value is that of the last row, the start value the one on the
polygon through the logged values at the start of the window, or the first value if the window starts
earlier. -/
theorem convergency_exact {T : Table} (hT : T.Valid) (tEnd0 eps window : ℝ) :
    ∃ v tEnd, checkConvergency T tEnd0 eps window = some v ∧ T.t.getLast? = some tEnd ∧
      v.converged.keys = T.cols.keys ∧
      ∀ (k : ℕ) (hk : k < T.cols.length), ∃ e s, T.cols[k].2.getLast? = some e ∧
        (∃ P, v.converged[k]? = some (T.cols[k].1, P) ∧ (P ↔ e + s ≠ 0 ∧ |e - s| ≤ eps * |(e + s) / 2|)) ∧
        (∀ a, T.t.head? = some a → a ≤ tEnd - tEnd * window → tEnd - tEnd * window ≤ tEnd →
          ∃ R, getResultsFrames T [tEnd - tEnd * window] = .ok R ∧ R.cols[k]? = some (T.cols[k].1, [s])) ∧
        (∀ a, T.t.head? = some a → tEnd - tEnd * window ≤ a → T.cols[k].2.head? = some s) := by
  have hlast := List.getLast?_eq_some_getLast hT.nonempty
  refine ⟨_, T.t.getLast hT.nonempty, by unfold checkConvergency; rw [hlast], hlast,
    by simp [Dict.keys, Function.comp_def], fun k hk => ?_⟩
  have hlen : T.cols[k].2.length = T.t.length := hT.lengths _ (List.getElem_mem hk)
  have hne : T.cols[k].2 ≠ [] := by
    intro h; rw [h] at hlen; exact hT.nonempty (List.length_eq_zero_iff.1 hlen.symm)
  have he := List.getLast?_eq_some_getLast hne
  refine ⟨_, interp (T.t.zip T.cols[k].2) (T.t.getLast hT.nonempty - T.t.getLast hT.nonempty * window), he,
    ⟨_, by rw [List.getElem?_map, List.getElem?_eq_getElem hk]; rfl, ?_⟩, ?_, ?_⟩
  · rw [he]; exact converged_iff _ _ _
  · intro a ha h1 h2
    obtain ⟨R, hR⟩ := (frames_defined T [T.t.getLast hT.nonempty - T.t.getLast hT.nonempty * window]).2
      ⟨a, _, ha, hlast, fun t ht => by rw [List.mem_singleton.1 ht]; exact ⟨h1, h2⟩⟩
    refine ⟨R, hR, ?_⟩
    rw [frames_eq hR]
    simp [hk]
  · intro a ha h1
    obtain ⟨b, l, hb⟩ := List.exists_cons_of_ne_nil hne
    obtain ⟨a', l', ha'⟩ := List.exists_cons_of_ne_nil hT.nonempty
    rw [ha'] at ha; cases ha
    have hz := zip_pairwise (ys := T.cols[k].2) hT.increasing
    rw [(interp_outside hz).1 (a, b) (by rw [ha', hb]; rfl) h1, hb]
    rfl

/-- **C75.** The verdict does not depend on the unit of the output, only gets more lenient with larger `eps`,
and for an output that does not change it is "converged" unless the output is zero. -/
theorem converged_props (eps e s : ℝ) :
    (∀ c : ℝ, c ≠ 0 → (colConverged eps (c * e) (c * s) ↔ colConverged eps e s)) ∧
    (∀ eps', eps ≤ eps' → colConverged eps e s → colConverged eps' e s) ∧
    (0 ≤ eps → (colConverged eps e e ↔ e ≠ 0)) ∧
    (colConverged eps e s ↔ colConverged eps s e) ∧
    (eps < 2 → e * s < 0 → ¬ colConverged eps e s) := by
  simp only [converged_iff]
  refine ⟨fun c hc => ?_, fun eps' h h' => ⟨h'.1, h'.2.trans (mul_le_mul_of_nonneg_right h (abs_nonneg _))⟩,
    fun h => ?_, ?_, fun h2 hneg => ?_⟩
  · have e1 : c * e + c * s = c * (e + s) := by ring
    have e2 : c * e - c * s = c * (e - s) := by ring
    have e3 : c * (e + s) / 2 = c * ((e + s) / 2) := by ring
    have hc' : 0 < |c| := abs_pos.2 hc
    rw [e1, e2, e3, abs_mul, abs_mul c, mul_left_comm, mul_le_mul_iff_right₀ hc']
    simp [hc]
  · rw [sub_self, abs_zero]
    have : e + e = 2 * e := by ring
    rw [this]
    constructor
    · rintro ⟨h1, -⟩ rfl; simp at h1
    · intro h1; exact ⟨by simpa using h1, mul_nonneg h (abs_nonneg _)⟩
  · rw [add_comm e s, abs_sub_comm]
  · rintro ⟨h0, h⟩
    have hlt : |e + s| < |e - s| := by
      apply sq_lt_sq.1
      nlinarith
    have hpos : 0 < |e + s| := abs_pos.2 h0
    rw [abs_div, abs_two] at h
    nlinarith

/-- **C75.** The warning about the end time: it is given exactly if the run stopped short of 95% of the
prescribed time (up to an absolute slack of 1e-8). -/
theorem not_reached_iff {T : Table} {tEnd0 eps window : ℝ} (h0 : 0 ≤ tEnd0) {v : Verdict}
    (h : checkConvergency T tEnd0 eps window = some v) :
    ∃ tEnd, T.t.getLast? = some tEnd ∧ (v.notReached ↔ tEnd < 0.95 * tEnd0 - 1e-8) := by
  unfold checkConvergency at h
  split at h
  · cases h
  · rename_i tEnd hl
    cases h
    refine ⟨tEnd, hl, ?_⟩
    simp only
    rw [abs_of_nonneg h0, not_le]
    constructor
    · rintro ⟨h1, h2⟩
      rw [abs_of_neg (by linarith)] at h2
      norm_num at h2 ⊢
      linarith
    · intro h
      norm_num at h ⊢
      have hlt : tEnd < tEnd0 := by linarith
      refine ⟨hlt, ?_⟩
      rw [abs_of_neg (by linarith)]
      linarith

/-- a two-column table of an oscillating and a steady output -/
def demoTable : Table := {
  t := [0, 8, 9, 10]
  cols := [(str!"osc", [1, 1, 100, 1]), (str!"one", [1, 3, 3, 3])] }

theorem demo_valid : demoTable.Valid :=
  ⟨by simp [demoTable], by norm_num [demoTable], by simp [demoTable]⟩

/-- The verdict compares two values only. An output that changes by a factor of 100 inside the window is
reported as converged, although the documentation says that `eps` is the "maximum relative difference of
values inside the last t_end*timewindow time window". -/
theorem oscillation_converged : ∃ v, checkConvergency demoTable 10 0 0.2 = some v ∧
    ∃ P, v.converged[0]? = some (str!"osc", P) ∧ P := by
  refine ⟨_, rfl, _, rfl, ?_⟩
  rw [converged_iff]
  norm_num [demoTable, interp]

/-- An output which stays zero is reported as not converged, for every tolerance. -/
theorem zero_not_converged (eps : ℝ) : ¬ colConverged eps 0 0 := by
  rw [converged_iff]; simp

example : demoTable.Valid ∧ (∃ R, getResultsFrames demoTable [0, 8.5, 10] = .ok R ∧
    R.cols = [(str!"osc", [1, 50.5, 1]), (str!"one", [1, 3, 3])]) := by
  refine ⟨demo_valid, ?_⟩
  obtain ⟨R, hR⟩ := (frames_defined demoTable [0, 8.5, 10]).2 ⟨0, 10, rfl, rfl, by norm_num⟩
  refine ⟨R, hR, ?_⟩
  rw [frames_eq hR]
  norm_num [demoTable, interp]

example : ∃ F, getResultsFrames demoTable [0, 1, 8, 9, 10] = .ok F ∧
    ([0, 1, 8, 9, 10] : List ℝ).Pairwise (· < ·) ∧ demoTable.t ⊆ [0, 1, 8, 9, 10] := by
  obtain ⟨R, hR⟩ := (frames_defined demoTable [0, 1, 8, 9, 10]).2 ⟨0, 10, rfl, rfl, by norm_num⟩
  exact ⟨R, hR, by norm_num, by simp [demoTable]⟩

example : colConverged 0.1 100 99 ∧ ¬ colConverged 0.1 100 80 := by
  rw [converged_iff, converged_iff]; norm_num

end Verif.Fwork.Frames
