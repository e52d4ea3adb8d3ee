/-
C114: from the directory of a reduction that has ended to the reduced mechanism. Joins the error measure of errors.py (C41), the
reduction with its files (C42, C43, C93), loading of chemistries (C22, C108) and disabling (C01, C05, C06).
-/
import Verif.Fwork.Errors
import Verif.Fwork.ReduceRows
import Verif.Fwork.ReduceDiskLoop
import Verif.Plaschem.LoadHist
import Verif.Plaschem.ChemProps2

namespace Verif.Fwork.ReduceWhole
open Verif.Plaschem Verif.Plaschem.Net Verif.Fwork.Reduce
open Verif.Fwork.ReduceDisk (Env Doc Op Line after lines runName)
open Verif.Fwork.Log (Path FS)

set_option linter.unusedSectionVars false

/-! ### Model -/

/-- reduction.py:259 with errors.py:89-97: the error of a solution with respect to another one. The outer `none` is an exception.
Simplification: wherever a quotient has the denominator zero the result counts as nan (the code may go on with inf). -/
noncomputable def errOf (outs : List String) (times : List ℝ) (full red : Sol) : Option (Option ℝ) :=
  match errorMax full red outs times with
  | .ok x => some (some x)
  | .error .nan => some none
  | .error _ => none

/-! ### Specification -/

/-- A table as solvers give them: two rows or more, increasing times, columns of equal length. -/
structure Tabular (s : Sol) : Prop where
  two : 2 ≤ s.t.length
  increasing : s.t.Pairwise (· < ·)
  cols : ∀ out ys, s.col out = some ys → ys.length = s.t.length

/-- `X` is the largest consistent part of what is enabled in `st` without the species named in `S`. -/
structure Largest (net : Net) (st : State) (S : Str → Prop) (X : Sub) : Prop where
  consistent : X.Consistent net
  part : X.Le net st.enabledPart
  without : ∀ s ∈ net.species, S s.name → ¬ X.sp s.id
  largest : ∀ Y : Sub, Y.Consistent net → Y.Le net st.enabledPart → (∀ s ∈ net.species, S s.name → ¬ Y.sp s.id) → Y.Le net X

/-- The reduced solution differs from the full one in every important output and at every important time by at most `x` times the
largest of the full values of this output at these times. -/
def Within (x : ℝ) (outs : List String) (times : List ℝ) (full red : Sol) : Prop :=
  ∀ out ∈ outs, ∃ m, (∃ t ∈ times, ValueAt full out t m) ∧ (∀ t ∈ times, ∀ f, ValueAt full out t f → f ≤ m) ∧
    ∀ t ∈ times, (∃ f, ValueAt full out t f) ∧ (∃ r, ValueAt red out t r) ∧
      ∀ f r, ValueAt full out t f → ValueAt red out t r → |r - f| ≤ x * m

/-- The full solution is as expected of densities: not negative at the important times, and positive at one of them, in every
important output. -/
def Positive (outs : List String) (times : List ℝ) (full : Sol) : Prop :=
  ∀ out ∈ outs, (∀ t ∈ times, ∀ f, ValueAt full out t f → 0 ≤ f) ∧ ∃ t ∈ times, ∃ f, ValueAt full out t f ∧ 0 < f

/-- The line of the table reports a run with an error within the threshold. -/
def Good (x : ℝ) (l : Line ℝ) : Prop := l.success = true ∧ ∃ y, l.errBase = some y ∧ y ≤ x

/-- What is in the directory of a reduction of the chemistry `chem`, and what it means. Line number `k` of the table is the last
one with an error within the threshold; the run it names was made with the chemistry `st`, with the solution `red`; `full` is the
solution for the full chemistry. -/
structure Promise {M : Type} (E : Env Sol ℝ M) (fs : FS (Doc Sol ℝ M)) (chem : State) (outs : List String) (times : List ℝ)
    (table : List (Line ℝ)) (k : ℕ) (line : Line ℝ) (x : ℝ) (st : State) (file : Attrs) (full red : Sol) : Prop where
  onDisk : fs (E.dir ++ [str!"reduction_history.csv"]) = some (.file (some (.history table)))
  entry : table[k]? = some line
  good : line.success = true ∧ line.errBase = some x ∧ x ≤ E.cfg.maxErr
  last : ∀ j l, k < j → table[j]? = some l → ¬ Good E.cfg.maxErr l
  /-- the files of the two runs -/
  files : ∃ name, line.runId = some name ∧ ReduceDisk.Kept fs (E.dir ++ [name]) red file
  baseFiles : ∃ baseFile, ReduceDisk.Kept fs (E.dir ++ [str!"00_full_chemistry"]) full baseFile
  base : E.cfg.backend 0 chem = .solved full
  solved : E.cfg.backend k st = .solved red
  /-- how far off the reduced solution is -/
  accuracy : k = 0 ∧ red = full ∨ Within x outs times full red
  /-- the attributes can be loaded, into whatever chemistry of these species and reactions -/
  loads : (∀ e ∈ chem.adRet, ∀ p ∈ e.2, EnabledName E.cfg.net st p.1) → ∀ cur check,
    ∃ c, E.cfg.net.load E.cfg.path E.cfg.hash cur file check = (c, none) ∧ SameState E.cfg.net c st
  /-- which chemistry it is -/
  consistent : E.cfg.net.assertConsistency st = .ok ()
  largest : Largest E.cfg.net chem (fun n => ∃ l ∈ table, Good E.cfg.maxErr l ∧ l.species = some n) st.enabledPart
  important : ∀ out ∈ outs, out.toList ∈ names E.cfg.net chem → out.toList ∈ names E.cfg.net st
  kept : ∀ s ∈ E.cfg.net.species, chem.Protected s.id → chem.enSp s.id = true → st.enSp s.id = true
  eligible : ∀ n ∈ names E.cfg.net chem, n ∉ names E.cfg.net st → Eligible E.cfg chem n
  left : line.totalLeft = (names E.cfg.net st).card
  coefs : st.adStick = chem.adStick ∧ st.adArrhA = chem.adArrhA ∧
    List.Forall₂ (fun a b => a.1 = b.1 ∧ a.2.Perm b.2) st.adRet chem.adRet
  /-- and how to get it in one call -/
  oneCall : ∀ l : List Str, (∀ n, n ∈ l ↔ ∃ x ∈ table, Good E.cfg.maxErr x ∧ x.species = some n) →
    ∃ c, E.cfg.net.disable chem (l.map .name) [] = (c, none) ∧
      (∀ s ∈ E.cfg.net.species, c.enSp s.id = st.enSp s.id) ∧ ∀ r ∈ E.cfg.net.reactions, c.enR r.id = st.enR r.id

/-! ### values -/

theorem value_unique {s : Sol} (h : s.t.Pairwise (· < ·)) {out : String} {t v w : ℝ} (hv : ValueAt s out t v)
    (hw : ValueAt s out t w) : v = w := by
  obtain ⟨ys, hc, i, x₀, x₁, y₀, y₁, a0, a1, b0, b1, hx, l0, l1, rfl⟩ := hv
  obtain ⟨zs, hc', j, u₀, u₁, z₀, z₁, c0, c1, d0, d1, hu, k0, k1, rfl⟩ := hw
  obtain rfl : ys = zs := by rw [hc] at hc'; exact Option.some.inj hc'
  have mono : ∀ {a b : ℕ} {x y : ℝ}, a < b → s.t[a]? = some x → s.t[b]? = some y → x < y := by
    intro a b x y hab ha hb
    obtain ⟨p, rfl⟩ := List.getElem?_eq_some_iff.1 ha
    obtain ⟨q, rfl⟩ := List.getElem?_eq_some_iff.1 hb
    exact List.pairwise_iff_getElem.1 h a b p q hab
  rcases lt_trichotomy i j with hij | rfl | hij
  · have e : j = i + 1 := by
      by_contra hne
      have := mono (show i + 1 < j by omega) a1 c0
      linarith
    subst e
    obtain rfl : x₁ = u₀ := by rw [a1] at c0; exact Option.some.inj c0
    obtain rfl : y₁ = z₀ := by rw [b1] at d0; exact Option.some.inj d0
    obtain rfl : t = x₁ := le_antisymm l1 k0
    have : t - x₀ ≠ 0 := by linarith
    field_simp
    ring
  · rw [a0] at c0; rw [a1] at c1; rw [b0] at d0; rw [b1] at d1
    cases c0; cases c1; cases d0; cases d1
    rfl
  · have e : i = j + 1 := by
      by_contra hne
      have := mono (show j + 1 < i by omega) c1 a0
      linarith
    subst e
    obtain rfl : x₀ = u₁ := by rw [c1] at a0; exact (Option.some.inj a0).symm
    obtain rfl : y₀ = z₁ := by rw [d1] at b0; exact (Option.some.inj b0).symm
    obtain rfl : t = x₀ := le_antisymm k1 l0
    have : t - u₀ ≠ 0 := by linarith
    field_simp
    ring

/-- **C114, C41.** The value read from a table is the one on the line between its neighbours. -/
theorem value_iff {s : Sol} (h : Tabular s) {out : String} {t v : ℝ} : resultInTime s out t = .ok v ↔ ValueAt s out t v := by
  have range : ∀ {ys a b}, s.col out = some ys → s.t.head? = some a → s.t.getLast? = some b → a ≤ t → t ≤ b →
      s.Valid [out] [t] := by
    intro ys a b h1 h2 h3 h4 h5
    refine ⟨h.two, h.increasing, fun o ho => ?_, fun x hx => ?_⟩
    · obtain rfl := List.mem_singleton.1 ho
      exact ⟨ys, h1, h.cols _ _ h1⟩
    · obtain rfl := List.mem_singleton.1 hx
      exact ⟨a, b, h2, h3, h4, h5⟩
  constructor
  · intro hv
    have hv' := hv
    unfold resultInTime at hv'
    cases hc : s.col out with
    | none => rw [hc] at hv'; cases hv'
    | some ys =>
      rw [hc] at hv'
      simp only at hv'
      cases ha : s.t.head? with
      | none => rw [ha] at hv'; cases hv'
      | some a =>
        cases hb : s.t.getLast? with
        | none => rw [ha, hb] at hv'; cases hv'
        | some b =>
          rw [ha, hb] at hv'
          simp only at hv'
          by_cases hr : a ≤ t ∧ t ≤ b
          · obtain ⟨w, h1, h2⟩ := resultInTime_ok (range hc ha hb hr.1 hr.2) (List.mem_singleton.2 rfl) (List.mem_singleton.2 rfl)
            rw [hv] at h1
            cases h1
            exact h2
          · rw [if_neg hr] at hv'; cases hv'
  · intro hv
    have hv' := hv
    obtain ⟨ys, hc, i, x₀, x₁, y₀, y₁, a0, a1, b0, b1, hx, l0, l1, -⟩ := hv'
    obtain ⟨p, e0⟩ := List.getElem?_eq_some_iff.1 a0
    obtain ⟨q, e1⟩ := List.getElem?_eq_some_iff.1 a1
    have hne : s.t ≠ [] := by intro h0; rw [h0] at p; cases p
    have mono : ∀ {a b : ℕ} (ha : a < s.t.length) (hb : b < s.t.length), a ≤ b → s.t[a] ≤ s.t[b] := by
      intro a b ha hb hab
      rcases Nat.lt_or_eq_of_le hab with hab | rfl
      · exact (List.pairwise_iff_getElem.1 h.increasing a b ha hb hab).le
      · exact le_refl _
    have hpos : 0 < s.t.length := List.length_pos_iff.2 hne
    have ha : s.t.head? = some (s.t[0]'hpos) := by rw [List.head?_eq_getElem?, List.getElem?_eq_getElem hpos]
    have hb : s.t.getLast? = some (s.t[s.t.length - 1]'(by omega)) := by
      rw [List.getLast?_eq_getElem?, List.getElem?_eq_getElem]
    obtain ⟨w, h1, h2⟩ := resultInTime_ok
      (range hc ha hb (by have := mono hpos p (Nat.zero_le _); rw [e0] at this; linarith)
        (by have := mono q (show s.t.length - 1 < s.t.length by omega) (by omega); rw [e1] at this; linarith))
      (List.mem_singleton.2 rfl) (List.mem_singleton.2 rfl)
    rw [h1, value_unique h.increasing h2 hv]

/-! ### errors -/

theorem mapE_nan {A B : Type} {f : A → Except ErrErr B} {l : List A} (h : mapE f l = .error .nan) :
    ∃ a ∈ l, f a = .error .nan := by
  induction l with
  | nil => cases h
  | cons a l ih =>
    rw [mapE] at h
    cases ha : f a with
    | error e =>
      rw [ha] at h
      simp only [Except.error.injEq] at h
      exact ⟨a, List.mem_cons_self, by rw [ha, h]⟩
    | ok b =>
      rw [ha] at h
      simp only at h
      cases hm : mapE f l with
      | ok bs => rw [hm] at h; cases h
      | error e =>
        rw [hm] at h
        simp only [Except.error.injEq] at h
        subst h
        obtain ⟨x, hx, hx2⟩ := ih hm
        exact ⟨x, List.mem_cons_of_mem _ hx, hx2⟩

theorem maxOf_not_nan {l : List ℝ} : maxOf l ≠ .error .nan := by
  cases l with
  | nil => simp [maxOf]
  | cons x l => simp [maxOf]

theorem result_not_nan {s : Sol} (h : Tabular s) {out : String} {t : ℝ} : resultInTime s out t ≠ .error .nan := by
  intro hv
  have hv' := hv
  unfold resultInTime at hv'
  cases hc : s.col out with
  | none => rw [hc] at hv'; cases hv'
  | some ys =>
    rw [hc] at hv'
    simp only at hv'
    cases ha : s.t.head? with
    | none => rw [ha] at hv'; cases hv'
    | some a =>
      cases hb : s.t.getLast? with
      | none => rw [ha, hb] at hv'; cases hv'
      | some b =>
        rw [ha, hb] at hv'
        simp only at hv'
        by_cases hr : a ≤ t ∧ t ≤ b
        · obtain ⟨v, e, -⟩ := interp_ok s.t ys t a b (h.cols _ _ hc).symm h.two h.increasing ha hb hr.1 hr.2
          rw [if_pos hr, e] at hv'
          cases hv'
        · rw [if_neg hr] at hv'; cases hv'

/-- **C114.** Between tables, and with a full solution that is not negative and positive somewhere, the error is never nan. -/
theorem error_not_nan {full red : Sol} (hf : Tabular full) (hr : Tabular red) {outs : List String} {times : List ℝ}
    (hp : Positive outs times full) : errOf outs times full red ≠ some none := by
  intro h
  unfold errOf at h
  cases he : errorMax full red outs times with
  | ok x => rw [he] at h; cases h
  | error e =>
    rw [he] at h
    have hnan : e = .nan := by cases e <;> simp_all
    subst hnan
    unfold errorMax at he
    cases hm : mapE (outputErrorMax full red times) outs with
    | ok l => rw [hm] at he; exact maxOf_not_nan he
    | error e =>
      rw [hm] at he
      cases he
      obtain ⟨out, ho, h1⟩ := mapE_nan hm
      unfold outputErrorMax at h1
      cases h2 : outputErrors full red out times with
      | ok l => rw [h2] at h1; exact maxOf_not_nan h1
      | error e =>
        rw [h2] at h1
        cases h1
        unfold outputErrors at h2
        cases h3 : mapE (resultInTime full out) times with
        | error e =>
          rw [h3] at h2
          cases h2
          obtain ⟨t, -, ht⟩ := mapE_nan h3
          exact result_not_nan hf ht
        | ok vf =>
          rw [h3] at h2
          simp only at h2
          cases h4 : mapE (resultInTime red out) times with
          | error e =>
            rw [h4] at h2
            cases h2
            obtain ⟨t, -, ht⟩ := mapE_nan h4
            exact result_not_nan hr ht
          | ok vr =>
            rw [h4] at h2
            simp only at h2
            cases h5 : maxOf vf with
            | error e => rw [h5] at h2; cases h2; exact maxOf_not_nan h5
            | ok m =>
              rw [h5] at h2
              simp only at h2
              obtain ⟨p, hpm, h6⟩ := mapE_nan h2
              unfold relErr at h6
              obtain ⟨hnn, t1, ht1, f1, hv1, hpos⟩ := hp out ho
              have hfull := mapE_ok.1 h3
              obtain ⟨g, hg, hg2⟩ := forall₂_mem_left hfull ht1
              have hg3 := (value_iff hf).2 hv1
              have e1 := resultInTime_unique hg2 hg3
              have hm1 := (maxOf_ok.1 h5).2 g hg
              obtain ⟨t2, ht2, hv2⟩ := forall₂_mem_right hfull (List.of_mem_zip hpm).2
              have := hnn t2 ht2 _ ((value_iff hf).1 hv2)
              rw [if_neg (by linarith)] at h6
              cases h6

/-- what an error that was computed means -/
theorem within_of_error {full red : Sol} (hf : Tabular full) (hr : Tabular red) {outs : List String} {times : List ℝ}
    (hp : Positive outs times full) {x : ℝ} (h : errOf outs times full red = some (some x)) : Within x outs times full red := by
  unfold errOf at h
  cases he : errorMax full red outs times with
  | error e => rw [he] at h; cases e <;> simp at h
  | ok y =>
    rw [he] at h
    simp only [Option.some.injEq] at h
    subst h
    intro out ho
    obtain ⟨m, ⟨t0, ht0, hm⟩, h2, h3⟩ := error_max_bounds he ho
      (fun t ht v hv => (hp out ho).1 t ht v ((value_iff hf).1 hv))
    refine ⟨m, ⟨t0, ht0, (value_iff hf).1 hm⟩, fun t ht f hfv => h2 t ht f ((value_iff hf).2 hfv), fun t ht => ?_⟩
    obtain ⟨errs, e1, -⟩ := (errorMax_ok he).2 out ho
    obtain ⟨vf, vr, m', hd⟩ := outputErrors_ok.1 e1
    obtain ⟨f, r, -, p1, p2, -⟩ := errData_at hd ht
    exact ⟨⟨f, (value_iff hf).1 p1⟩, ⟨r, (value_iff hr).1 p2⟩, fun f r hv hw =>
      (h3 t ht f r ((value_iff hf).2 hv) ((value_iff hr).2 hw)).2⟩

/-! ### the removals -/

section
variable {S R Score : Type} [LinearOrder R] [Zero R]

theorem requested_names {net : Net} {l : List Str} {i : ℕ} :
    Requested net (l.map SpIdent.name) i ↔ ∃ s ∈ net.species, s.name ∈ l ∧ s.id = i := by
  constructor
  · rintro ⟨x, hx, hd⟩
    obtain ⟨n, hn, rfl⟩ := List.mem_map.1 hx
    obtain ⟨s, hs, rfl, hi⟩ := hd
    exact ⟨s, hs, hn, hi⟩
  · rintro ⟨s, hs, hn, hi⟩
    exact ⟨_, List.mem_map_of_mem hn, s, hs, rfl, hi⟩

/-- parts of states that agree -/
theorem consistent_same {net : Net} (hwf : WF net) {a b : State} (h : SameState net a b)
    (hc : b.enabledPart.Consistent net) : a.enabledPart.Consistent net := by
  constructor
  · intro r hr he i ho
    obtain ⟨p, hp, rfl⟩ := ho
    have hps : p ∈ net.species := hwf.closed r hr p hp
    have := hc.1 r hr (show b.enR r.id = true by rw [← h.enR r hr]; exact he) p.id ⟨p, hp, rfl⟩
    show a.enSp p.id = true
    rw [h.enSp p hps]
    exact this
  · intro s hs he
    obtain ⟨r, hr, h1, h2⟩ := hc.2 s hs (show b.enSp s.id = true by rw [← h.enSp s hs]; exact he)
    exact ⟨r, hr, by show a.enR r.id = true; rw [h.enR r hr]; exact h1, h2⟩

theorem le_same {net : Net} {a b : State} (h : SameState net a b) : a.enabledPart.Le net b.enabledPart :=
  ⟨fun s hs he => by show b.enSp s.id = true; rw [← h.enSp s hs]; exact he,
    fun r hr he => by show b.enR r.id = true; rw [← h.enR r hr]; exact he⟩

theorem le_trans {net : Net} {X Y Z : Sub} (h : X.Le net Y) (k : Y.Le net Z) : X.Le net Z :=
  ⟨fun s hs hx => k.1 s hs (h.1 s hs hx), fun r hr hx => k.2 r hr (h.2 r hr hx)⟩

/-- the species of the accepted rows -/
def gone (cfg : Cfg S R) (h : List (Row S R)) (n : Str) : Prop := ∃ x ∈ h, Accepted cfg x ∧ x.species = some n

/-- what is known about the run of an accepted row -/
structure Reduced (cfg : Cfg S R) (chem : State) (g : Str → Prop) (st r : State) : Prop where
  reach : Reachable cfg.net r
  same : SameState cfg.net st r
  largest : Largest cfg.net chem g st.enabledPart
  prot : r.protSp = chem.protSp
  stick : r.adStick = chem.adStick
  ret : r.adRet = chem.adRet
  arrh : r.adArrhA = chem.adArrhA
  adhoc : ∀ i, chem.adhocSp i = true → r.adhocSp i = true
  keeps : ∀ s ∈ cfg.net.species, chem.Protected s.id → chem.enSp s.id = true → st.enSp s.id = true

theorem accepted_run {cfg : Cfg S R} {ranking : Ranking Score} {sorted : List (Str × Score) → Bool}
    {maxStreak : ℕ} {chem : State} (hr : Reachable cfg.net chem) (hcl : cfg.net.RetClosed) (hmax : 0 ≤ cfg.maxErr)
    (hnan : NeverNan cfg chem) {t : Loop S R Score} (hv : Visited cfg ranking sorted maxStreak chem t) :
    ∀ (k : ℕ) (pre : List (Row S R)) (row : Row S R) (post : List (Row S R)), pre.length = k →
      t.red.history = pre ++ row :: post → Accepted cfg row →
      ∃ st file sol r, row.run = some (st, file, sol) ∧ Reduced cfg chem (gone cfg (pre ++ [row])) st r := by
  intro k
  induction k using Nat.strong_induction_on with
  | _ k ih =>
    intro pre row post hk hh hacc
    have ht := rows_truthful hr hcl hmax hnan hv hh
    obtain ⟨hwf, hinv⟩ := reachable_inv hr
    by_cases hpre : pre = []
    · subst hpre
      obtain ⟨h1, -, -, -, -, -, file, sol, hrun, -⟩ := ht.first rfl
      refine ⟨chem, file, sol, chem, hrun, hr, .refl _ _, ⟨hinv.ok.consistent, ⟨fun _ _ h => h, fun _ _ h => h⟩, ?_,
        fun Y _ h _ => h⟩, rfl, rfl, rfl, rfl, fun _ h => h, fun _ _ _ h => h⟩
      rintro s - ⟨x, hx, -, hs⟩
      obtain rfl := List.mem_singleton.1 hx
      rw [h1] at hs
      cases hs
    · obtain ⟨sp, hsp, a, b, acc, st, file, sol, hsplit, hacc', hnacc, hrun, -, hsucc, -⟩ := ht.later hpre
      obtain ⟨c, f, sol', hrun', ⟨prev, hprev, hdis⟩, -⟩ := hsucc hacc.1
      obtain ⟨st', file', sol2, r, hrun2, hred⟩ := ih a.length (by rw [← hk, hsplit]; simp) a acc (b ++ row :: post) rfl
        (by rw [hh, hsplit]; simp) hacc'
      rw [hrun] at hrun2
      cases hrun2
      obtain ⟨ho, hs⟩ := (same_behaviour (hprev.trans hred.same)).2.2.2.2.2.2 [.disable [.name sp] []]
      simp only [outcomes, Net.step, List.cons.injEq, and_true, Net.run] at ho hs
      rw [hdis] at ho hs
      simp only at ho hs
      obtain ⟨r', hr'⟩ : ∃ r', cfg.net.disable r [.name sp] [] = (r', none) :=
        ⟨_, Prod.ext rfl ho.symm⟩
      rw [hr'] at hs
      have hstep : Reachable cfg.net r' := by
        have := hred.reach.step (.disable [.name sp] [])
        simp only [Net.step] at this
        rw [hr'] at this
        exact this
      obtain ⟨g1, g2, g3, g4⟩ := disable_greatest hred.reach hr'
      have hcas : r'.protSp = r.protSp ∧ r'.adStick = r.adStick ∧ r'.adRet = r.adRet ∧ r'.adArrhA = r.adArrhA ∧
          (∀ i, r.adhocSp i = true → r'.adhocSp i = true) ∧
          ∀ s ∈ cfg.net.species, r.Protected s.id → r.enSp s.id = true → r'.enSp s.id = true := by
        rcases (Sound.of_reachable hred.reach).disable_cases hcl [.name sp] [] with ⟨e, -, h, -⟩ | h | ⟨_, x, -, hc, -, h⟩
        · rw [hr'] at h; cases h
        · rw [hr'] at h; cases h
        · rw [hr'] at h
          cases h
          exact ⟨hc.prot, hc.stick, hc.ret, hc.arrh, hc.adhoc, fun s hs => hc.keeps s.id ⟨s, hs, rfl⟩⟩
      have hgone : ∀ n, gone cfg (pre ++ [row]) n ↔ gone cfg (a ++ [acc]) n ∨ n = sp := by
        intro n
        constructor
        · rintro ⟨x, hx, hxa, hxs⟩
          rw [hsplit] at hx
          simp only [List.append_assoc, List.cons_append, List.mem_append, List.mem_cons, List.not_mem_nil, or_false] at hx
          rcases hx with hx | rfl | hx | rfl
          · exact .inl ⟨x, by simp [hx], hxa, hxs⟩
          · exact .inl ⟨x, by simp, hxa, hxs⟩
          · exact absurd hxa (hnacc x hx)
          · rw [hsp] at hxs
            exact .inr (Option.some.inj hxs).symm
        · rintro (⟨x, hx, hxa, hxs⟩ | rfl)
          · refine ⟨x, ?_, hxa, hxs⟩
            rw [hsplit]
            simp only [List.mem_append, List.mem_cons, List.not_mem_nil, or_false] at hx ⊢
            tauto
          · exact ⟨row, by simp, hacc, hsp⟩
      refine ⟨c, f, sol', r', hrun', hstep, hs, ⟨consistent_same hwf hs g1, ?_, ?_, ?_⟩, by rw [hcas.1, hred.prot],
        by rw [hcas.2.1, hred.stick], by rw [hcas.2.2.1, hred.ret], by rw [hcas.2.2.2.1, hred.arrh],
        fun i hi => hcas.2.2.2.2.1 i (hred.adhoc i hi), fun s hmem hp hon => ?_⟩
      · exact le_trans (le_same hs) (le_trans g2 (le_trans (le_same hred.same.symm) hred.largest.part))
      · intro s hmem hg hon
        rcases (hgone _).1 hg with hg | hg
        · refine hred.largest.without s hmem hg ?_
          exact (le_trans (le_same hs) (le_trans g2 (le_same hred.same.symm))).1 s hmem hon
        · exact g3.1 s.id ⟨.name sp, List.mem_singleton.2 rfl, s, hmem, hg, rfl⟩ ((le_same hs).1 s hmem hon)
      · intro Y hY hle hav
        have h1 := hred.largest.largest Y hY hle fun s hmem hg => hav s hmem ((hgone _).2 (.inl hg))
        refine le_trans (g4 Y hY (le_trans h1 (le_same hred.same)) ⟨?_, ?_⟩) (le_same hs.symm)
        · rintro i ⟨x, hx, hd⟩
          obtain rfl := List.mem_singleton.1 hx
          obtain ⟨s, hmem, hn, rfl⟩ := hd
          exact hav s hmem ((hgone _).2 (.inr hn))
        · rintro i ⟨⟩
      · rw [hs.enSp s hmem]
        refine hcas.2.2.2.2.2 s hmem ?_ (by rw [← hred.same.enSp s hmem]; exact hred.keeps s hmem hp hon)
        rcases hp with hp | hp
        · exact .inl (by rw [hred.prot]; exact hp)
        · exact .inr (hred.adhoc _ hp)

theorem forced_on {net : Net} {st : State} {A B : ℕ → Prop} {i : ℕ} (h : ForcedS net st A B i) : st.enSp i = true := by
  cases h <;> assumption

theorem last_unique {α : Type} {P : α → Prop} {a b a' b' : List α} {x x' : α} (h : a ++ x :: b = a' ++ x' :: b') (hx : P x)
    (hx' : P x') (hb : ∀ y ∈ b, ¬ P y) (hb' : ∀ y ∈ b', ¬ P y) : x = x' := by
  rcases List.append_eq_append_iff.1 h with ⟨c, -, h2⟩ | ⟨c, -, h2⟩ <;> cases c with
    | nil => cases h2; rfl
    | cons y c =>
      simp only [List.cons_append, List.cons.injEq] at h2
      first
        | exact absurd hx' (hb x' (by rw [h2.2]; simp))
        | exact absurd hx (hb' x (by rw [h2.2]; simp))

/-- the state of the loop, and the run of the last accepted row -/
theorem last_run {cfg : Cfg S R} {ranking : Ranking Score} {sorted : List (Str × Score) → Bool}
    {maxStreak : ℕ} {chem : State} (hr : Reachable cfg.net chem) (hcl : cfg.net.RetClosed) (hmax : 0 ≤ cfg.maxErr)
    (hnan : NeverNan cfg chem) {t : Loop S R Score} (hv : Visited cfg ranking sorted maxStreak chem t) :
    ∃ pre row post st file sol r, LInv cfg ranking chem t pre row post st file sol ∧
      Reduced cfg chem (gone cfg t.red.history) st r := by
  obtain ⟨pre, row, post, st, file, sol, h⟩ := inv_visited (.of_reachable hr) hcl hmax hnan hv
  obtain ⟨st', file', sol', r, hrun, hred⟩ := accepted_run hr hcl hmax hnan hv _ pre row post rfl h.hist h.acc
  rw [h.run] at hrun
  cases hrun
  refine ⟨pre, row, post, st, file, sol, r, h, ?_⟩
  have : gone cfg t.red.history = gone cfg (pre ++ [row]) := by
    funext n
    refine propext ⟨?_, ?_⟩
    · rintro ⟨x, hx, hxa, hxs⟩
      rw [h.hist] at hx
      simp only [List.mem_append, List.mem_cons] at hx
      rcases hx with hx | rfl | hx
      · exact ⟨x, by simp [hx], hxa, hxs⟩
      · exact ⟨x, by simp, hxa, hxs⟩
      · exact absurd hxa (h.nacc x hx)
    · rintro ⟨x, hx, hxa, hxs⟩
      refine ⟨x, ?_, hxa, hxs⟩
      rw [h.hist]
      simp only [List.mem_append, List.mem_cons, List.not_mem_nil, or_false] at hx ⊢
      tauto
  rw [this]
  exact hred

/-- **C114.** The chemistry of a reduction at any time, with all its refusals, failures, backtracking and restored files, is
what one call of `disable` with the species of the accepted rows makes of the full chemistry: that call succeeds, and the same
species and reactions are enabled after it. -/
theorem as_one_call {cfg : Cfg S R} {ranking : Ranking Score} {sorted : List (Str × Score) → Bool}
    {maxStreak : ℕ} {chem : State} (hr : Reachable cfg.net chem) (hcl : cfg.net.RetClosed) (hmax : 0 ≤ cfg.maxErr)
    (hnan : NeverNan cfg chem) {t : Loop S R Score} (hv : Visited cfg ranking sorted maxStreak chem t) {l : List Str}
    (hl : ∀ n, n ∈ l ↔ ∃ x ∈ t.red.history, Accepted cfg x ∧ x.species = some n) :
    ∃ c, cfg.net.disable chem (l.map .name) [] = (c, none) ∧
      (∀ s ∈ cfg.net.species, c.enSp s.id = t.red.chem.enSp s.id) ∧
      (∀ r ∈ cfg.net.reactions, c.enR r.id = t.red.chem.enR r.id) := by
  obtain ⟨pre, row, post, st, file, sol, r, h, hred⟩ := last_run hr hcl hmax hnan hv
  obtain ⟨hwf, hinv⟩ := reachable_inv hr
  have hav : st.enabledPart.Avoids (Requested cfg.net (l.map .name)) (ReqR []) := by
    constructor
    · intro i hi
      obtain ⟨s, hs, hn, rfl⟩ := requested_names.1 hi
      exact hred.largest.without s hs ((hl _).1 hn)
    · rintro i ⟨⟩
  have hforced := (not_forced_of_consistent hred.largest.part hred.largest.consistent hav).1
  have hgone : ∀ s ∈ cfg.net.species, chem.enSp s.id = true → ¬ st.enSp s.id = true → ¬ chem.Protected s.id := by
    intro s hs h1 h2 hp
    exact h2 (hred.keeps s hs hp h1)
  have hok : (cfg.net.disable chem (l.map .name) []).2 = none := by
    refine (disable_succeeds_iff hr hcl _ _).2 ⟨⟨?_, ?_⟩, .inr ?_⟩
    · intro x hx
      obtain ⟨n, hn, rfl⟩ := List.mem_map.1 hx
      obtain ⟨y, hy, -, hys⟩ := (hl n).1 hn
      obtain ⟨-, s, hs, hsn, -⟩ := (each_species_once hv).2 n (List.mem_filterMap.2 ⟨y, hy, hys⟩)
      exact ⟨s.id, s, hs, hsn, rfl⟩
    · rintro i ⟨⟩
    · rintro (⟨i, hi, hp⟩ | ⟨i, hf, hp⟩ | ⟨hq, hall⟩)
      · obtain ⟨s, hs, hn, rfl⟩ := requested_names.1 hi
        obtain ⟨y, hy, -, hys⟩ := (hl _).1 hn
        obtain ⟨-, x, hx, hxn, -, -, hxp⟩ := (each_species_once hv).2 _ (List.mem_filterMap.2 ⟨y, hy, hys⟩)
        rw [hwf.eq_of_name hx hs hxn] at hxp
        exact hxp hp
      · have hmem : ∃ s ∈ cfg.net.species, s.id = i := by
          cases hf with
          | requested h1 _ => obtain ⟨s, hs, -, hi⟩ := requested_names.1 h1; exact ⟨s, hs, hi⟩
          | isolated h1 _ _ => exact ⟨_, h1, rfl⟩
        obtain ⟨s, hs, rfl⟩ := hmem
        exact hgone s hs (forced_on hf) (hforced _ hf) hp
      · obtain ⟨s, hs, hpos, hen⟩ := positive_ion_survives hred.reach hq
        have hst : st.enSp s.id = true := by rw [hred.same.enSp s hs]; exact hen
        exact hforced _ (hall s hs hpos (hred.largest.part.1 s hs hst)) hst
  obtain ⟨c, hc⟩ : ∃ c, cfg.net.disable chem (l.map .name) [] = (c, none) := ⟨_, Prod.ext rfl hok⟩
  obtain ⟨g1, g2, g3, g4⟩ := disable_greatest hr hc
  have h1 := g4 _ hred.largest.consistent hred.largest.part hav
  have h2 := hred.largest.largest _ g1 g2 fun s hs hg => g3.1 s.id (requested_names.2 ⟨s, hs, (hl _).2 hg, rfl⟩)
  refine ⟨c, hc, fun s hs => ?_, fun x hx => ?_⟩
  · rw [h.same.enSp s hs]
    exact Bool.eq_iff_iff.2 ⟨fun e => h2.1 s hs e, fun e => h1.1 s hs e⟩
  · rw [h.same.enR x hx]
    exact Bool.eq_iff_iff.2 ⟨fun e => h2.2 x hx e, fun e => h1.2 x hx e⟩

/-- `nothing_left_out` with what is known about the chemistry of the last accepted run -/
theorem nothing_left_out_of {cfg : Cfg S R} {ranking : Ranking Score} {sorted : List (Str × Score) → Bool}
    {maxStreak : ℕ} {chem : State} (hr : Reachable cfg.net chem) (hcl : cfg.net.RetClosed) (hmax : 0 ≤ cfg.maxErr)
    (hnan : NeverNan cfg chem) {red : Red S R} {l t : Loop S R Score} (hi : initRed cfg chem = .ok red)
    (hl : startLoop cfg ranking red = .ok l) (hrun : Runs cfg ranking sorted maxStreak l (.ok t))
    (hrank : ∀ a acc b c file sol rl, t.red.history = a ++ acc :: b → Accepted cfg acc → (∀ x ∈ b, ¬ Accepted cfg x) →
      acc.run = some (c, file, sol) → Sound cfg.net c →
      List.Forall₂ (fun x y => x.1 = y.1 ∧ x.2.Perm y.2) c.adRet chem.adRet → InForce ranking (a.length + 1) c rl →
      ∀ n, Eligible cfg chem n → n ∈ names cfg.net c → ∃ e ∈ rl, e.1 = n)
    {B : Finset Str} (hB : ∀ n, Eligible cfg chem n → n ∈ B) (hstreak : B.card ≤ maxStreak) {n : Str}
    (he : Eligible cfg chem n) (hn : n ∈ names cfg.net t.red.chem) :
    ∃ x ∈ t.red.history, x.species = some n ∧ (x.success = false ∨ Rejected cfg x) := by
  have hv : Visited cfg ranking sorted maxStreak chem t := by
    obtain ⟨s, hg, ⟨t', ht, hd⟩ | ⟨e, he, -⟩⟩ := goes_of_runs hrun
    · cases ht
      exact ⟨red, l, s, hi, hl, hg, .inr hd⟩
    · cases he
  obtain ⟨pre, row, post, st, file, sol, r, h, hred⟩ := last_run hr hcl hmax hnan hv
  have hnacc : ∀ x ∈ t.red.history, x.species = some n → ¬ Accepted cfg x := by
    intro x hx hxs hxa
    obtain ⟨s, hs, hsn, hse, -⟩ := mem_names.1 hn
    refine hred.largest.without s hs ⟨x, hx, hxa, by rw [hsn]; exact hxs⟩ ?_
    show st.enSp s.id = true
    rw [← h.same.enSp s hs]
    exact hse
  have hkind : ∀ x ∈ t.red.history, ¬ Accepted cfg x → x.success = false ∨ Rejected cfg x := by
    intro x hx hna
    cases hs : x.success with
    | false => exact .inl rfl
    | true =>
      right
      obtain ⟨a, b, hab⟩ := List.append_of_mem hx
      have htr := rows_truthful hr hcl hmax hnan hv hab
      by_cases ha : a = []
      · obtain ⟨-, -, -, -, h5, -⟩ := htr.first ha
        exact absurd ⟨hs, 0, h5, hmax⟩ hna
      · obtain ⟨_, -, _, _, _, _, _, _, -, -, -, -, -, h1, -⟩ := htr.later ha
        obtain ⟨c2, _, sol', -, -, -, -, -, -, hb, ⟨base, hb0, herr⟩, -⟩ := h1 hs
        cases heb : x.errBase with
        | none => rw [heb] at herr; exact absurd herr (hnan base hb0 _ _ _ hb)
        | some e =>
          refine ⟨e, heb, ?_⟩
          by_contra hle
          exact hna ⟨hs, e, heb, not_lt.1 hle⟩
  suffices hx : ∃ x ∈ t.red.history, x.species = some n by
    obtain ⟨x, hx, hxs⟩ := hx
    exact ⟨x, hx, hxs, hkind x hx (hnacc x hx hxs)⟩
  obtain ⟨pre', post', row', st', file', sol', hh, hacc, hna, hrun', h3⟩ := (loop_stops hr hcl hmax hnan hi hl).2 t hrun
  rcases h3 with h3 | h3 | ⟨rl, hrl, h3⟩
  · exfalso
    have h4 : rejections cfg post' ≤ (post'.filterMap Row.species).length := by
      have : (post'.filterMap Row.species).length = post'.length := by
        rw [List.filterMap_length_eq_length]
        intro x hx
        obtain ⟨a, b, rfl⟩ := List.append_of_mem hx
        obtain ⟨sp, hsp, -⟩ := (rows_truthful hr hcl hmax hnan hv (pre := pre' ++ row' :: a) (row := x) (post := b)
          (by rw [hh]; simp)).later (by simp)
        rw [hsp]
        rfl
      rw [this]
      exact List.countP_le_length
    have h5 : (post'.filterMap Row.species).toFinset ⊆ B := by
      intro m hm
      obtain ⟨x, hx, hxs⟩ := List.mem_filterMap.1 (List.mem_toFinset.1 hm)
      refine hB m ((each_species_once hv).2 m (List.mem_filterMap.2 ⟨x, ?_, hxs⟩))
      rw [hh]
      simp [hx]
    have h6 : (post'.filterMap Row.species).Nodup := by
      have := (each_species_once hv).1
      rw [hh, List.filterMap_append, List.filterMap_cons] at this
      have h7 := (List.nodup_append.1 this).2.1
      split at h7
      · exact h7
      · exact (List.nodup_cons.1 h7).2
    have h8 := Finset.card_le_card h5
    rw [List.toFinset_card_of_nodup h6] at h8
    omega
  · exact absurd hn (h3 n he)
  · have hst : n ∈ names cfg.net st' := by
      obtain rfl := last_unique (P := Accepted cfg) (h.hist.symm.trans hh) h.acc hacc h.nacc hna
      rw [h.run] at hrun'
      cases hrun'
      rw [← names_same h.same]
      exact hn
    have hsnd : Sound cfg.net st' ∧ List.Forall₂ (fun x y => x.1 = y.1 ∧ x.2.Perm y.2) st'.adRet chem.adRet := by
      obtain rfl := last_unique (P := Accepted cfg) (h.hist.symm.trans hh) h.acc hacc h.nacc hna
      rw [h.run] at hrun'
      cases hrun'
      exact ⟨h.snd, h.adRe⟩
    obtain ⟨e, hel, rfl⟩ := hrank _ _ _ _ _ _ _ hh hacc hna hrun' hsnd.1 hsnd.2 hrl n he hst
    rcases h3 e hel with h | h
    · exact h
    · exact absurd ⟨he, hn⟩ h

/-- **C114.** With a ranking that lists, after the last accepted run, what may still be removed, and as many failures in a row
allowed as there are species that may be removed, no species is left out: each one that is still there at the end has been tried, and
its removal was refused, or its run failed, or its error was above the threshold. -/
theorem nothing_left_out {cfg : Cfg S R} {ranking : Ranking Score} {sorted : List (Str × Score) → Bool}
    {maxStreak : ℕ} {chem : State} (hr : Reachable cfg.net chem) (hcl : cfg.net.RetClosed) (hmax : 0 ≤ cfg.maxErr)
    (hnan : NeverNan cfg chem) {red : Red S R} {l t : Loop S R Score} (hi : initRed cfg chem = .ok red)
    (hl : startLoop cfg ranking red = .ok l) (hrun : Runs cfg ranking sorted maxStreak l (.ok t))
    (hrank : ∀ a acc b c file sol rl, t.red.history = a ++ acc :: b → Accepted cfg acc → (∀ x ∈ b, ¬ Accepted cfg x) →
      acc.run = some (c, file, sol) → InForce ranking (a.length + 1) c rl →
      ∀ n, Eligible cfg chem n → n ∈ names cfg.net c → ∃ e ∈ rl, e.1 = n)
    {B : Finset Str} (hB : ∀ n, Eligible cfg chem n → n ∈ B) (hstreak : B.card ≤ maxStreak) {n : Str}
    (he : Eligible cfg chem n) (hn : n ∈ names cfg.net t.red.chem) :
    ∃ x ∈ t.red.history, x.species = some n ∧ (x.success = false ∨ Rejected cfg x) :=
  nothing_left_out_of hr hcl hmax hnan hi hl hrun
    (fun a acc b c file sol rl h1 h2 h3 h4 _ _ h5 => hrank a acc b c file sol rl h1 h2 h3 h4 h5) hB hstreak he hn
end

/-! ### the files -/

theorem mem_lines {S R : Type} {h : List (Row S R)} {i : ℕ} {l : Line R} : (lines h)[i]? = some l ↔
    ∃ r, h[i]? = some r ∧ l = ⟨ReduceDisk.rowName i r, r.species, r.success, r.additional, r.totalRemoved, r.totalLeft, r.errBase,
      r.errLast⟩ := by
  unfold lines
  rw [List.getElem?_mapIdx, Option.map_eq_some_iff]
  exact ⟨fun ⟨r, h1, h2⟩ => ⟨r, h1, h2.symm⟩, fun ⟨r, h1, h2⟩ => ⟨r, h1, h2.symm⟩⟩

theorem good_lines {S : Type} {cfg : Cfg S ℝ} {h : List (Row S ℝ)} {n : Str} :
    (∃ l ∈ lines h, Good cfg.maxErr l ∧ l.species = some n) ↔ gone cfg h n := by
  constructor
  · rintro ⟨l, hl, hg, hs⟩
    obtain ⟨i, hi⟩ := List.mem_iff_getElem?.1 hl
    obtain ⟨r, hr, rfl⟩ := mem_lines.1 hi
    exact ⟨r, List.mem_of_getElem? hr, hg, hs⟩
  · rintro ⟨r, hr, hg, hs⟩
    obtain ⟨i, hi⟩ := List.mem_iff_getElem?.1 hr
    exact ⟨_, List.mem_of_getElem? (mem_lines.2 ⟨r, hi, rfl⟩), hg, hs⟩

/-- **C114.** `run_reduction` has ended, on a reduction run id that was not in use, with a backend whose solutions are tables, with
a full solution that is not negative and somewhere positive, and with the error measure of `SolutionsDiff`. Whatever the history of
removals, refusals, failures and restored chemistries was: its directory holds a reduced mechanism that keeps its promise. -/
theorem reduced_model {M Score : Type} {E : Env Sol ℝ M} (hE : E.same E.info E.info = true) {fs : FS (Doc Sol ℝ M)}
    (hwf : fs.WF) (hp : fs.isDir E.parent = true) (hnew : fs E.dir = none)
    (hnames : ∀ x ∈ E.cfg.net.species, '/' ∉ x.name) {chem : State} {made : List (Op (Doc Sol ℝ M))} {red0 : Red Sol ℝ}
    (hi : ReduceDisk.init E fs chem = (made, .ok red0)) {ranking : Ranking Score} {sorted : List (Str × Score) → Bool}
    {maxStreak : ℕ} {ops : List (Op (Doc Sol ℝ M))} {t : Red Sol ℝ}
    (hr : ReduceDisk.RunsReduction E ranking sorted maxStreak (after fs made) red0 ops (.ok t))
    (reach : Reachable E.cfg.net chem) (closed : E.cfg.net.RetClosed) (max : 0 ≤ E.cfg.maxErr) {outs : List String}
    {times : List ℝ} (himp : E.cfg.important = outs.map String.toList) (herr : E.cfg.err = errOf outs times)
    (htab : ∀ i c s, E.cfg.backend i c = .solved s → Tabular s)
    (hpos : ∀ base, E.cfg.backend 0 chem = .solved base → Positive outs times base) :
    ∃ table k line x st file full red, Promise E (after fs (made ++ ops)) chem outs times table k line x st file full red := by
  have nan0 : NeverNan E.cfg chem := by
    intro base hb i c sol hs
    rw [herr]
    exact error_not_nan (htab _ _ _ hb) (htab _ _ _ hs) (hpos base hb)
  have nan := nan0.abs
  have habs : ∀ {i c s}, E.abs.backend i c = .solved s → E.cfg.backend i c = .solved s := by
    intro i c s hs
    unfold Env.abs at hs
    simp only at hs
    split at hs
    · cases hs
    · exact hs
  obtain ⟨hin, r', hr1, hrun, -, hfin⟩ := ReduceDisk.reduction_on_disk hE hwf hp hnew hnames hi hr
  have hr' : r' = .ok t := by
    cases r' with
    | error e => cases hr1
    | ok t' => cases hr1; rfl
  subst hr'
  obtain ⟨hsafe, htable⟩ := hfin t rfl
  unfold Reduce.RunsReduction at hrun
  cases hl : Reduce.startLoop E.abs ranking red0 with
  | error e => rw [hl] at hrun; cases hrun
  | ok l =>
    rw [hl] at hrun
    obtain ⟨x, hx, hrx⟩ := hrun
    cases x with
    | error e => cases hrx
    | ok t' =>
      have hrt : t = finish t' := by simpa [Except.map] using hrx
      obtain ⟨s, hg, ⟨t2, ht2, hd⟩ | ⟨e, he, -⟩⟩ := goes_of_runs hx
      swap
      · cases he
      cases ht2
      have hv : Visited E.abs ranking sorted maxStreak chem t' := ⟨red0, l, s, hin, hl, hg, .inr hd⟩
      have hh : t.history = t'.red.history := by rw [hrt]; rfl
      obtain ⟨pre, row, post, st, file, red, r, h, hred⟩ := last_run (cfg := E.abs) reach closed max nan hv
      obtain ⟨-, e, he, hle⟩ := h.acc
      obtain ⟨full, hb0, -, hb1⟩ := h.base
      have hrow : t'.red.history[pre.length]? = some row := by rw [h.hist]; simp
      have hne : t.history ≠ [] := by rw [hh, h.hist]; simp
      unfold ReduceDisk.tableOf at htable
      rw [if_neg hne] at htable
      have htr := rows_truthful (cfg := E.abs) reach closed max nan hv h.hist
      have hfirst : ∃ r0 rest f0, t'.red.history = r0 :: rest ∧ r0.species = none ∧ r0.run = some (chem, f0, full) := by
        cases hist : t'.red.history with
        | nil => rw [h.hist] at hist; simp at hist
        | cons r0 rest =>
          obtain ⟨h1, -, -, -, -, -, f0, s0, h2, h3⟩ :=
            (rows_truthful (cfg := E.abs) reach closed max nan hv (pre := []) hist).first rfl
          rw [hb0] at h3
          cases h3
          exact ⟨r0, rest, f0, rfl, h1, h2⟩
      obtain ⟨r0, rest, f0, hhist, hsp0, hrun0⟩ := hfirst
      refine ⟨lines t'.red.history, pre.length, ⟨ReduceDisk.rowName pre.length row, row.species, row.success, row.additional,
        row.totalRemoved, row.totalLeft, row.errBase, row.errLast⟩, e, st, file, full, red, ?_⟩
      have hlarge : Largest E.cfg.net chem (fun n => ∃ l ∈ lines t'.red.history, Good E.cfg.maxErr l ∧ l.species = some n)
          st.enabledPart := by
        have : (fun n => ∃ l ∈ lines t'.red.history, Good E.cfg.maxErr l ∧ l.species = some n) = gone E.abs t'.red.history :=
          funext fun n => propext (good_lines (cfg := E.abs))
        rw [this]
        exact hred.largest
      exact {
        onDisk := by rw [← hh]; exact htable
        entry := mem_lines.2 ⟨row, hrow, rfl⟩
        good := ⟨h.acc.1, he, hle⟩
        last := by
          intro j l hj hlj hgood
          obtain ⟨r1, hr1, rfl⟩ := mem_lines.1 hlj
          rw [h.hist, List.getElem?_append_right hj.le] at hr1
          obtain ⟨m, hm⟩ : ∃ m, j - pre.length = m + 1 := ⟨j - pre.length - 1, by omega⟩
          rw [hm, List.getElem?_cons_succ] at hr1
          exact h.nacc r1 (List.mem_of_getElem? hr1) hgood
        files := ⟨runName pre.length row.species, by unfold ReduceDisk.rowName; rw [h.run]; rfl,
          hsafe.runs pre.length row (by rw [hh]; exact hrow) _ _ _ h.run⟩
        baseFiles := by
          refine ⟨f0, ?_⟩
          have := hsafe.runs 0 r0 (by rw [hh, hhist]; rfl) _ _ _ hrun0
          rw [hsp0] at this
          exact this
        base := habs hb0
        solved := habs h.solved
        accuracy := by
          rcases hb1 with ⟨h1, h2⟩ | h2
          · exact .inl ⟨by rw [h1]; rfl, h2⟩
          · right
            have h3 : E.cfg.err full red = some (some e) := by rw [← he]; exact h2
            rw [herr] at h3
            exact within_of_error (htab _ _ _ (habs hb0)) (htab _ _ _ (habs h.solved)) (hpos full (habs hb0)) h3
        loads := by
          intro hen cur check
          refine load_dump_sound h.snd closed ?_ h.dump cur check
          intro a ha p hpa
          have hf := hred.same.ret
          rw [hred.ret] at hf
          obtain ⟨b, hb, hab⟩ := forall₂_mem_left hf ha
          exact hen b hb p (hab.2.mem_iff.1 hpa)
        consistent := h.snd.consistency closed
        largest := hlarge
        important := by
          intro out ho hn
          by_contra hc
          exact (h.gone _ hn hc).1 (by show _ ∈ E.cfg.important; rw [himp]; exact List.mem_map_of_mem ho)
        kept := hred.keeps
        eligible := h.gone
        left := by
          by_cases hpre : pre = []
          · obtain ⟨-, -, -, h4, -, -, f1, s1, h7, -⟩ := htr.first hpre
            rw [h.run] at h7
            cases h7
            have := htr.total
            rw [h4] at this
            show row.totalLeft = _
            have h8 : ((Reduce.names E.abs.net chem).card : ℤ) = (Reduce.names E.cfg.net chem).card := rfl
            omega
          · obtain ⟨_, -, _, _, _, _, _, _, -, -, -, -, -, h1, -⟩ := htr.later hpre
            obtain ⟨c2, f2, s2, h2, -, -, -, -, h3, -⟩ := h1 h.acc.1
            rw [h.run] at h2
            cases h2
            exact h3
        coefs := by
          refine ⟨by rw [hred.same.stick, hred.stick], by rw [hred.same.arrh, hred.arrh], ?_⟩
          have hf := hred.same.ret
          rw [hred.ret] at hf
          exact hf
        oneCall := by
          intro l hll
          obtain ⟨c, h1, h2, h3⟩ := as_one_call (cfg := E.abs) reach closed max nan hv (l := l)
            (fun n => (hll n).trans (good_lines (cfg := E.abs)))
          exact ⟨c, h1, fun s hs => (h2 s hs).trans (h.same.enSp s hs), fun x hx => (h3 x hx).trans (h.same.enR x hx)⟩ }

end Verif.Fwork.ReduceWhole
