/-
C96, continued: the figure for the tables of reductions, from their files; the names in it.
-/
import Verif.Fwork.ReducePlotProps
import Verif.Fwork.ReduceRows
import Verif.Fwork.ReduceDiskLoop
import Mathlib.Algebra.Order.Ring.Rat
import Mathlib.Tactic.IntervalCases

namespace Verif.Fwork.ReducePlot
open Verif.Plaschem Verif.Plaschem.Net Verif.Fwork.Reduce Verif.Fwork.ReduceDisk
open Verif.Fwork.Log (FS)

variable {R : Type} [Field R] [LinearOrder R]

/-- The table of a reduction (finished or not), as it is read back: a chemistry that can be reached, an error measure that is
a number and not negative, a maximal error that is not negative, and species names that are not read as missing values. -/
inductive OfReduction (isNa : Str → Bool) (order : Finset Str → List Str) : Run R → Prop
  | mk {Sol Score : Type} {cfg : Cfg Sol R} {ranking : Ranking Score} {sorted : List (Str × Score) → Bool} {maxStreak : ℕ}
      {chem : State} {t : Loop Sol R Score} {name : Str} {m : R} (reach : Reachable cfg.net chem)
      (closed : cfg.net.RetClosed) (nan : NeverNan cfg chem)
      (pos : ∀ a b e, cfg.err a b = some (some e) → 0 ≤ e) (max : 0 ≤ cfg.maxErr) (hm : m / 100 = cfg.maxErr)
      (names : ∀ x ∈ cfg.net.species, isNa x.name = false) (visited : Visited cfg ranking sorted maxStreak chem t) :
      OfReduction isNa order ⟨name, (lines t.red.history).map (cells isNa order), m⟩

/-! ### the rows -/

private def cellOf (isNa : Str → Bool) (order : Finset Str → List Str) {Sol : Type} (r : Row Sol R) : Cells R :=
  { species := r.species.filter fun s => !isNa s
    success := r.success
    additional :=
      if r.additional = ∅ then none
      else (some (List.intercalate (str!", ") (order r.additional))).filter fun s => !isNa s
    removed := r.totalRemoved
    err := r.errBase }

omit [Field R] [LinearOrder R] in
private theorem cells_lines (isNa : Str → Bool) (order : Finset Str → List Str) {Sol : Type} (h : List (Row Sol R)) :
    (lines h).map (cells isNa order) = h.map (cellOf isNa order) := by
  apply List.ext_getElem
  · simp [lines]
  · intro i h1 h2
    simp [lines, cells, cellOf]

private theorem accepted_iff {Sol : Type} {cfg : Cfg Sol R} {m : R} (hm : m / 100 = cfg.maxErr) {isNa : Str → Bool}
    {order : Finset Str → List Str} {r : Row Sol R} : Accepted cfg r ↔ ∃ e, Within m (cellOf isNa order r) e := by
  unfold Accepted Within
  rw [hm]
  exact ⟨fun ⟨h1, e, h2, h3⟩ => ⟨e, h1, h2, h3⟩, fun ⟨e, h1, h2, h3⟩ => ⟨h1, e, h2, h3⟩⟩

private theorem map_split {α β : Type} {f : α → β} {l : List α} {pre post : List β} {c : β} (h : l.map f = pre ++ c :: post) :
    ∃ a x b, l = a ++ x :: b ∧ a.map f = pre ∧ f x = c ∧ b.map f = post := by
  obtain ⟨a, l2, rfl, h1, h2⟩ := List.map_eq_append_iff.1 h
  obtain ⟨x, b, rfl, h3, h4⟩ := List.map_eq_cons_iff.1 h2
  exact ⟨a, x, b, rfl, h1, h3, h4⟩

/-- **C96.** The table of a reduction is of the kind the figure is made for, and its rows have species, except the first. -/
theorem OfReduction.descends {isNa : Str → Bool} {order : Finset Str → List Str} {run : Run R} (h : OfReduction isNa order run) :
    Descends run.maxError run.rows ∧
      ∀ pre c post, run.rows = pre ++ c :: post → pre ≠ [] → c.species ≠ none := by
  cases h with
  | @mk Sol Score cfg ranking sorted maxStreak chem t name m reach closed nan pos max hm names visited =>
    simp only
    rw [cells_lines]
    have truth := fun pre row post (hh : t.red.history = pre ++ row :: post) =>
      rows_truthful reach closed max nan visited hh
    refine ⟨⟨?_, ?_, ?_⟩, ?_⟩
    · obtain ⟨pre, post, row, _, _, _, _, hh, -⟩ := chemistry_is_last_accepted reach closed max nan visited
      cases hist : t.red.history with
      | nil => rw [hist] at hh; simp at hh
      | cons r rest =>
        obtain ⟨-, h2, -, h4, h5, -⟩ := (truth [] r rest hist).first rfl
        refine ⟨cellOf isNa order r, rest.map (cellOf isNa order), rfl, ⟨h2, h5, ?_⟩, h4⟩
        rw [hm]
        exact max
    · intro pre c post hrow hne hs
      obtain ⟨a, x, b, hh, rfl, rfl, -⟩ := map_split hrow
      have hne' : a ≠ [] := by rintro rfl; exact hne rfl
      obtain ⟨sp, -, a', b', acc, st, file, sol, hsplit, hacc, hnacc, hrun, hmem, hsucc, -⟩ :=
        (truth a x b hh).later hne'
      obtain ⟨c', f, sol', hrun', -, hsub, hdiff, -, hleft, -⟩ := hsucc hs
      obtain ⟨e, he⟩ := (accepted_iff hm (isNa := isNa) (order := order)).1 hacc
      refine ⟨cellOf isNa order acc, e, ⟨a'.map (cellOf isNa order), b'.map (cellOf isNa order), ?_, he, ?_⟩, ?_⟩
      · rw [hsplit]; simp
      · rintro _ hy e' he'
        obtain ⟨y, hy2, rfl⟩ := List.mem_map.1 hy
        exact hnacc y hy2 ((accepted_iff hm).2 ⟨e', he'⟩)
      · -- fewer species are left than in the accepted row
        have htacc := truth a' acc (b' ++ x :: b) (by rw [hh, hsplit]; simp)
        have hacc_left : acc.totalLeft = (Reduce.names cfg.net st).card := by
          by_cases ha' : a' = []
          · obtain ⟨-, -, -, h4, -, -, f0, s0, h7, -⟩ := htacc.first ha'
            rw [hrun] at h7
            cases h7
            have := htacc.total
            rw [h4] at this
            omega
          · obtain ⟨_, -, _, _, _, _, _, _, -, -, -, -, -, h1, -⟩ := htacc.later ha'
            obtain ⟨c2, f2, s2, h2, -, -, -, -, h3, -⟩ := h1 hacc.1
            rw [hrun] at h2
            cases h2
            exact h3
        have hlt : (Reduce.names cfg.net c').card < (Reduce.names cfg.net st).card := by
          refine Finset.card_lt_card ⟨hsub, fun hx => ?_⟩
          have : sp ∈ Reduce.names cfg.net st \ Reduce.names cfg.net c' := by rw [hdiff]; exact Finset.mem_insert_self _ _
          exact (Finset.mem_sdiff.1 this).2 (hx hmem)
        have t1 := htacc.total
        have t2 := (truth a x b hh).total
        show acc.totalRemoved < x.totalRemoved
        omega
    · rintro _ hc e he
      obtain ⟨x, hx, rfl⟩ := List.mem_map.1 hc
      obtain ⟨a, b, hh⟩ := List.append_of_mem hx
      change x.errBase = some e at he
      by_cases ha : a = []
      · obtain ⟨-, -, -, -, h5, -⟩ := (truth a x b hh).first ha
        rw [h5] at he
        cases he
        exact le_refl _
      · obtain ⟨_, -, _, _, _, _, _, _, -, -, -, -, -, h1, h2⟩ := (truth a x b hh).later ha
        cases hs : x.success with
        | false =>
          obtain ⟨-, -, h3, -⟩ := h2 hs
          rw [h3] at he
          cases he
        | true =>
          obtain ⟨_, _, sol', -, -, -, -, -, -, -, ⟨base, -, herr⟩, -⟩ := h1 hs
          rw [he] at herr
          exact pos _ _ _ herr
    · intro pre c post hrow hne
      obtain ⟨a, x, b, hh, rfl, rfl, -⟩ := map_split hrow
      have hne' : a ≠ [] := by rintro rfl; exact hne rfl
      obtain ⟨sp, hsp, _, _, _, st, _, _, -, -, -, -, hmem, -⟩ := (truth a x b hh).later hne'
      obtain ⟨y, hy, hn, -⟩ := mem_names.1 hmem
      have : isNa sp = false := by rw [← hn]; exact names y hy
      show x.species.filter _ ≠ none
      rw [hsp]
      simp [Option.filter, this]

/-- **C96.** The figure of any number of reductions with the same maximal error can always be made, with enough styles (that
are not empty, for the annotations) and labels. -/
theorem reductions_compared {isNa : Str → Bool} {order : Finset Str → List Str} {o : Opts R} {runs : List (Run R)}
    (hne : runs ≠ []) (he : Enough o runs) (hsame : ∀ r ∈ runs, ∀ r' ∈ runs, r.maxError = r'.maxError)
    (hred : ∀ r ∈ runs, OfReduction isNa order r)
    (hann : o.annotate = true → (∀ s ∈ o.stylesOk.getD (styles (str!"-o")), s ≠ []) ∧
      ∀ s ∈ o.stylesBad.getD (styles (str!":X")), s ≠ []) :
    ∃ fig, compare o runs = .ok fig := by
  refine compare_succeeds_iff.2 ⟨hne, he, hsame, fun i run so sb lab hu => ?_⟩
  obtain ⟨hd, hsp⟩ := (hred run (List.mem_of_getElem? hu.run)).descends
  obtain ⟨c, rest, hrow, hw, -⟩ := hd.base
  refine ⟨⟨c, by rw [hrow]; exact List.mem_cons_self, 0, hw⟩, fun ha => (hann ha).1 so (List.mem_of_getElem? hu.ok),
    fun _ pre d post e hr hb => ?_⟩
  have hpre : pre ≠ [] := by
    rintro rfl
    rw [hrow] at hr
    simp only [List.nil_append, List.cons.injEq] at hr
    have := hw.2.1
    rw [hr.1, hb.2.1] at this
    cases this
    exact absurd hb.2.2 (not_lt.2 hw.2.2)
  refine ⟨?_, fun ha => ⟨(hann ha).2 sb (List.mem_of_getElem? hu.bad), hsp pre d post hr hpre⟩⟩
  obtain ⟨c0, e0, ⟨a, b, rfl, hw0, -⟩, -⟩ := hd.step pre d post hr hpre hb.1
  exact ⟨c0, by simp, e0, hw0⟩

/-! ### the files -/

/-- **C96.** What is read from the directory of a reduction that has ended is its table and its maximal error. -/
theorem read_reduction {Sol M Score : Type} {E : Env Sol R M} (hE : E.same E.info E.info = true) {fs : FS (Doc Sol R M)}
    (hwf : fs.WF) (hp : fs.isDir E.parent = true) (hnew : fs E.dir = none)
    (hnames : ∀ x ∈ E.cfg.net.species, '/' ∉ x.name) {chem : State} {made : List (Op (Doc Sol R M))} {red : Red Sol R}
    (hi : init E fs chem = (made, .ok red)) {ranking : Ranking Score} {sorted : List (Str × Score) → Bool} {maxStreak : ℕ}
    {ops : List (Op (Doc Sol R M))} {t : Red Sol R}
    (hr : ReduceDisk.RunsReduction E ranking sorted maxStreak (after fs made) red ops (.ok t)) (maxOf : M → R)
    (isNa : Str → Bool) (order : Finset Str → List Str) (reach : Reachable E.cfg.net chem) (closed : E.cfg.net.RetClosed)
    (nan : NeverNan E.cfg chem) (pos : ∀ a b e, E.cfg.err a b = some (some e) → 0 ≤ e)
    (max : 0 ≤ E.cfg.maxErr) (hm : maxOf E.info / 100 = E.cfg.maxErr) (hna : ∀ x ∈ E.cfg.net.species, isNa x.name = false) :
    ∃ run, readRun maxOf isNa order (after fs (made ++ ops)) E.parent E.id = .ok run ∧ OfReduction isNa order run ∧
      run.rows = (lines t.history).map (cells isNa order) := by
  have nan := nan.abs
  obtain ⟨hin, r', hr1, hrun, -, hfin⟩ := reduction_on_disk hE hwf hp hnew hnames hi hr
  have hr' : r' = .ok t := by
    cases r' with
    | error e => cases hr1
    | ok t' => cases hr1; rfl
  subst hr'
  obtain ⟨hsafe, htab⟩ := hfin t rfl
  unfold Reduce.RunsReduction at hrun
  cases hl : Reduce.startLoop E.abs ranking red with
  | error e => rw [hl] at hrun; cases hrun
  | ok l =>
    rw [hl] at hrun
    obtain ⟨x, hx, hrx⟩ := hrun
    cases x with
    | error e => cases hrx
    | ok t' =>
      have hrt : t = finish t' := by simpa [Except.map] using hrx
      obtain ⟨s, hg, ⟨t2, ht2, hd⟩ | ⟨e, he, -⟩⟩ := goes_of_runs hx
      swap
      · cases he
      cases ht2
      have hv : Visited E.abs ranking sorted maxStreak chem t' := ⟨red, l, s, hin, hl, hg, .inr hd⟩
      have hh : t.history = t'.red.history := by rw [hrt]; rfl
      have hne : t.history ≠ [] := by
        obtain ⟨pre, post, row, _, _, _, _, hx, -⟩ :=
          chemistry_is_last_accepted (cfg := E.abs) reach closed max nan hv
        rw [hh, hx]
        simp
      unfold tableOf at htab
      rw [if_neg hne] at htab
      refine ⟨⟨E.id, (lines t.history).map (cells isNa order), maxOf E.info⟩, ?_, ?_, rfl⟩
      · unfold readRun
        have h1 : after fs (made ++ ops) (E.parent ++ [E.id] ++ [historyName]) = some (.file (some (.history (lines t.history)))) :=
          htab
        have h2 : after fs (made ++ ops) (E.parent ++ [E.id] ++ [metaName]) = some (.file (some (.info E.info))) := hsafe.info
        rw [h1, h2]
      · rw [hh]
        exact OfReduction.mk (cfg := E.abs) reach closed nan pos max hm hna hv

/-! ### the names -/

/-- `+`, `-` and the digits from 1 to 9, each raised or lowered -/
def prettyChar (c : Char) : Str :=
  if c = '+' ∨ c = '-' then str!"$^{" ++ [c] ++ str!"}$"
  else if '1' ≤ c ∧ c ≤ '9' then str!"$_{" ++ [c] ++ str!"}$"
  else [c]

private theorem replace_flatMap {f : Char → Str} {c : Char} {new s : Str} :
    replaceChar c new (s.flatMap f) = s.flatMap fun x => replaceChar c new (f x) := by
  unfold replaceChar
  rw [List.flatMap_assoc]

private theorem foldl_flatMap {g : Char → Str} (cs : Str) (f : Char → Str) (s : Str) :
    cs.foldl (fun s c => replaceChar c (g c) s) (s.flatMap f) =
      s.flatMap fun x => cs.foldl (fun s c => replaceChar c (g c) s) (f x) := by
  induction cs generalizing f with
  | nil => rfl
  | cons c cs ih =>
    rw [List.foldl_cons, replace_flatMap, ih]
    rfl

private theorem replace_of_not {c : Char} {new s : Str} (h : c ∉ s) : replaceChar c new s = s := by
  unfold replaceChar
  induction s with
  | nil => rfl
  | cons x s ih =>
    rw [List.flatMap_cons, ih (fun hx => h (List.mem_cons_of_mem _ hx)), if_neg (by rintro rfl; exact h List.mem_cons_self)]
    rfl

private theorem foldl_of_not {g : Char → Str} {cs s : Str} (h : ∀ c ∈ cs, c ∉ s) :
    cs.foldl (fun s c => replaceChar c (g c) s) s = s := by
  induction cs with
  | nil => rfl
  | cons c cs ih =>
    rw [List.foldl_cons, replace_of_not (h c List.mem_cons_self), ih fun d hd => h d (List.mem_cons_of_mem _ hd)]

private theorem mem_digits {c : Char} : '1' ≤ c ∧ c ≤ '9' ↔ c ∈ (str!"123456789" : Str) := by
  constructor
  · rintro ⟨h1, h2⟩
    have e1 : 49 ≤ c.toNat := h1
    have e2 : c.toNat ≤ 57 := h2
    have : c = Char.ofNat c.toNat := (Char.ofNat_toNat c).symm
    rw [this]
    interval_cases c.toNat <;> decide
  · intro h
    simp only [List.mem_cons, List.not_mem_nil, or_false] at h
    rcases h with rfl | rfl | rfl | rfl | rfl | rfl | rfl | rfl | rfl <;> decide

/-- **C96.** Names without a given annotation are changed character by character: charges are raised, digits except 0 are
lowered, everything else stays. -/
theorem pretty_names {o : Opts R} {raw : Str} :
    pretty o raw = (o.names raw).getD (raw.flatMap prettyChar) := by
  unfold pretty
  cases o.names raw with
  | some s => rfl
  | none =>
    simp only [Option.getD_none]
    have h0 : raw = raw.flatMap fun x => [x] := by simp
    conv_lhs => rw [h0]
    rw [foldl_flatMap, foldl_flatMap]
    refine congrArg (fun f => raw.flatMap f) (funext fun x => ?_)
    unfold prettyChar
    by_cases h1 : x = '+' ∨ x = '-'
    · rw [if_pos h1]
      rcases h1 with rfl | rfl <;> decide
    · rw [if_neg h1]
      have hs : (str!"+-" : Str).foldl (fun s c => replaceChar c (str!"$^{" ++ [c] ++ str!"}$") s) [x] = [x] := by
        refine foldl_of_not fun c hc hx => h1 ?_
        rw [List.mem_singleton] at hx
        subst hx
        simpa using hc
      rw [hs]
      by_cases h2 : '1' ≤ x ∧ x ≤ '9'
      · rw [if_pos h2]
        have := mem_digits.1 h2
        simp only [List.mem_cons, List.not_mem_nil, or_false] at this
        rcases this with rfl | rfl | rfl | rfl | rfl | rfl | rfl | rfl | rfl <;> decide
      · rw [if_neg h2]
        refine foldl_of_not fun c hc hx => h2 ?_
        rw [List.mem_singleton] at hx
        subst hx
        exact mem_digits.2 hc

end Verif.Fwork.ReducePlot
