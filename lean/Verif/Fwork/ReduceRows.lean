/-
C43, continued: what a row of the history of a reduction records.
-/
import Verif.Fwork.ReduceExc

namespace Verif.Fwork.Reduce
open Verif.Plaschem
open Verif.Plaschem.Net

variable {Sol R Score : Type} [LinearOrder R] [Zero R]

/-- The row after the rows `pre`, of a reduction of the chemistry `chem`, tells the truth. The first row is the base
case. Every other row is about one species `sp`; let `st` be the chemistry of the last accepted run before it. If the run
succeeded, with the chemistry `c`, then `c` is what disabling `sp` in `st` leads to, the species of `st` that are missing in `c` are `sp` and the additional ones, the
number left is that of `c`, and the errors are those of the solution for `c` with respect to the base case and to the run of
`st`; otherwise the number left is that of `st`. What is removed and what is left add up to the
species at the start. -/
structure Truthful (cfg : Cfg Sol R) (chem : State) (pre : List (Row Sol R)) (row : Row Sol R) : Prop where
  total : row.totalRemoved + row.totalLeft = (names cfg.net chem).card
  first : pre = [] → row.species = none ∧ row.success = true ∧ row.additional = ∅ ∧ row.totalRemoved = 0 ∧
    row.errBase = some 0 ∧ row.errLast = some 0 ∧
    ∃ file sol, row.run = some (chem, file, sol) ∧ cfg.backend 0 chem = .solved sol
  later : pre ≠ [] → ∃ sp, row.species = some sp ∧ ∃ (a b : List (Row Sol R)) (acc : Row Sol R) (st : State)
    (file : Attrs) (sol : Sol), pre = a ++ acc :: b ∧ Accepted cfg acc ∧ (∀ r ∈ b, ¬ Accepted cfg r) ∧
    acc.run = some (st, file, sol) ∧ sp ∈ names cfg.net st ∧
    (row.success = true → ∃ c f sol', row.run = some (c, f, sol') ∧
      (∃ prev, SameState cfg.net prev st ∧ cfg.net.disable prev [.name sp] [] = (c, none)) ∧
      names cfg.net c ⊆ names cfg.net st ∧
      names cfg.net st \ names cfg.net c = insert sp row.additional ∧ sp ∉ row.additional ∧
      row.totalLeft = (names cfg.net c).card ∧ cfg.backend pre.length c = .solved sol' ∧
      (∃ base, cfg.backend 0 chem = .solved base ∧ cfg.err base sol' = some row.errBase) ∧
      cfg.err sol sol' = some row.errLast) ∧
    (row.success = false → row.run = none ∧ row.additional = ∅ ∧ row.errBase = none ∧ row.errLast = none ∧
      row.totalLeft = (names cfg.net st).card)

omit [Zero R] in
/-- the row a call of `remove_one_species_and_run` adds -/
theorem removeOne_row {cfg : Cfg Sol R} {s s' : Red Sol R} {sp : Str} {bt : Bool}
    (h : removeOne cfg s sp bt = .ok s') :
    ∃ row : Row Sol R, s'.history = s.history ++ [row] ∧ row.species = some sp ∧
      row.totalRemoved = (s.all.card : ℤ) - row.totalLeft ∧
      ((row.success = false ∧ row.run = none ∧ row.additional = ∅ ∧ row.errBase = none ∧ row.errLast = none ∧
          row.totalLeft = (names cfg.net s'.chem).card) ∨
       (∃ c sol f last file, attempt cfg s.history.length file s.chem sp = .ok (c, some (sol, f)) ∧
          restoreFile cfg bt s.history = some file ∧
          row.success = true ∧ row.run = some (c, f, sol) ∧ sp ∈ names cfg.net s.chem \ names cfg.net c ∧
          row.additional = (names cfg.net s.chem \ names cfg.net c).erase sp ∧
          row.totalLeft = (names cfg.net c).card ∧ s.solLast = some last ∧ cfg.err last sol = some row.errLast)) := by
  unfold removeOne at h
  by_cases h1 : s.history = []
  · rw [if_pos h1] at h; cases h
  rw [if_neg h1] at h
  by_cases h2 : sp ∉ s.left
  · rw [if_pos h2] at h; cases h
  rw [if_neg h2] at h
  by_cases h3 : sp ∈ s.attempted
  · rw [if_pos h3] at h; cases h
  rw [if_neg h3] at h
  by_cases h4 : (insert sp s.attempted).card ≠ s.history.length
  · rw [if_pos h4] at h; cases h
  rw [if_neg h4] at h
  cases h5 : restoreFile cfg bt s.history with
  | none => rw [h5] at h; cases h
  | some file =>
    rw [h5] at h
    simp only at h
    cases h6 : attempt cfg s.history.length file s.chem sp with
    | error e => rw [h6] at h; cases h
    | ok p =>
      obtain ⟨c, o⟩ := p
      rw [h6] at h
      cases o with
      | none =>
        simp only [Except.ok.injEq] at h
        subst h
        exact ⟨_, rfl, rfl, rfl, .inl ⟨rfl, rfl, rfl, rfl, rfl, rfl⟩⟩
      | some q =>
        obtain ⟨sol, f⟩ := q
        simp only at h
        unfold record at h
        simp only at h
        by_cases h7 : sp ∉ names cfg.net s.chem \ names cfg.net c
        · rw [if_pos h7] at h; cases h
        rw [if_neg h7] at h
        by_cases h8 : ¬ (names cfg.net s.chem \ names cfg.net c).erase sp ⊆ s.left.erase sp
        · rw [if_pos h8] at h; cases h
        rw [if_neg h8] at h
        cases hb : s.solBase with
        | none => rw [hb] at h; cases h
        | some base =>
          cases hl : s.solLast with
          | none => rw [hb, hl] at h; cases h
          | some last =>
            rw [hb, hl] at h
            simp only at h
            cases he1 : cfg.err base sol with
            | none => rw [he1] at h; cases h
            | some eb =>
              cases he2 : cfg.err last sol with
              | none => rw [he1, he2] at h; cases h
              | some el =>
                rw [he1, he2] at h
                simp only at h
                cases h9 : (bt && tooLarge cfg eb) with
                | true =>
                  rw [h9, if_pos rfl] at h
                  cases h10 : restore cfg file c with
                  | error e => rw [h10] at h; cases h
                  | ok c' =>
                    rw [h10] at h
                    simp only [Except.ok.injEq] at h
                    subst h
                    exact ⟨_, rfl, rfl, rfl, .inr ⟨c, sol, f, last, file, h6, rfl, rfl, rfl, not_not.1 h7, rfl, rfl,
                      rfl, he2⟩⟩
                | false =>
                  rw [h9, if_neg (by decide)] at h
                  simp only [Except.ok.injEq] at h
                  subst h
                  exact ⟨_, rfl, rfl, rfl, .inr ⟨c, sol, f, last, file, h6, rfl, rfl, rfl, not_not.1 h7, rfl, rfl,
                    rfl, he2⟩⟩

omit [Zero R] in
private theorem pass_case {cfg : Cfg Sol R} {ranking : Ranking Score} {sorted : List (Str × Score) → Bool}
    {maxStreak : ℕ} {s t : Loop Sol R Score}
    (h : pass cfg ranking sorted maxStreak s = .next t ∨ pass cfg ranking sorted maxStreak s = .done t) :
    ∃ fin, PassCase cfg ranking maxStreak s fin t := by
  rcases pass_cases (cfg := cfg) (ranking := ranking) (sorted := sorted) (maxStreak := maxStreak) (s := s) with
    ⟨e, he⟩ | ⟨t', he, hc⟩ | ⟨t', he, hc⟩ <;> rw [he] at h <;> rcases h with h | h <;> cases h
  · exact ⟨_, hc⟩
  · exact ⟨_, hc⟩

/-- every row is truthful -/
private def AllTrue (cfg : Cfg Sol R) (chem : State) (h : List (Row Sol R)) : Prop :=
  ∀ pre row post, h = pre ++ row :: post → Truthful cfg chem pre row

private theorem allTrue_snoc {cfg : Cfg Sol R} {chem : State} {h : List (Row Sol R)} {row : Row Sol R}
    (hh : AllTrue cfg chem h) (hr : Truthful cfg chem h row) : AllTrue cfg chem (h ++ [row]) := by
  intro pre x post he
  rcases List.eq_nil_or_concat post with rfl | ⟨q, y, rfl⟩
  · obtain ⟨rfl, he2⟩ := List.append_inj' he rfl
    cases he2
    exact hr
  · have : h ++ [row] = (pre ++ x :: q) ++ [y] := by rw [he]; simp
    exact hh pre x q (List.append_inj' this rfl).1

private theorem step_true {cfg : Cfg Sol R} {ranking : Ranking Score} {maxStreak : ℕ} {chem0 : State}
    (hcl : cfg.net.RetClosed) {s t : Loop Sol R Score} {fin : Bool}
    (hp : PassCase cfg ranking maxStreak s fin t) {pre : List (Row Sol R)} {row : Row Sol R}
    {post : List (Row Sol R)} {st : State} {file : Attrs} {sol : Sol}
    (h : LInv cfg ranking chem0 s pre row post st file sol) (ht : AllTrue cfg chem0 s.red.history) :
    AllTrue cfg chem0 t.red.history := by
  cases hp with
  | over t hov hred hstr hrk => rw [hred]; exact ht
  | skip sp rest hpop hnl => exact ht
  | tried sp rest _ row' fin hpop hrem hhist hcase hfin =>
    have hsnd : Sound cfg.net s.red.chem := h.snd.same h.same
    have hnames : names cfg.net s.red.chem = names cfg.net st := names_same h.same
    obtain ⟨row2, hrow, hsp, htot, hout⟩ := removeOne_row hrem
    obtain ⟨row3, file3, htr, hrest, hout3⟩ := removeOne_cases hrem
    have hmem : sp ∈ names cfg.net st := by rw [← hnames]; exact ((h.left sp).1 htr.mem).2
    have h23 : row3 = row2 := by simpa using htr.history.symm.trans hrow
    subst h23
    have hfile : file3 = file := by
      have := restoreFile_last h.hist h.acc h.nacc h.run
      rw [this] at hrest
      exact (Option.some.inj hrest).symm
    subst hfile
    rw [hrow]
    refine allTrue_snoc ht ⟨by rw [htot, h.all]; ring, fun he => ?_, fun _ => ?_⟩
    · rw [h.hist] at he; simp at he
    · refine ⟨sp, hsp, pre, post, row, st, file3, sol, h.hist, h.acc, h.nacc, h.run, hmem, fun hs => ?_, fun hs => ?_⟩
      · rcases hout with ⟨hf, -⟩ | ⟨c, sol', f, last, file2, hat, hrf, -, hrun, hin, had, hleft, hlast, herr⟩
        · rw [hs] at hf; cases hf
        · have hfile : file2 = file3 := by rw [hrest] at hrf; exact (Option.some.inj hrf).symm
          subst hfile
          rcases attempt_cases hcl hsnd h.snd h.dump hat with ⟨ho, -⟩ | ⟨sol2, f2, sids, ho, hbk, -, hdis, -, hcas⟩
          · cases ho
          obtain ⟨rfl, rfl⟩ : sol' = sol2 ∧ f = f2 := by simpa using ho
          have hbase : ∃ base, cfg.backend 0 chem0 = .solved base ∧ cfg.err base sol' = some row3.errBase := by
            rcases hout3 with ⟨_, -, -, hsuc, -⟩ | ⟨c3, sol3, f3, eb, base, -, -, hrun3, heb, hsb, herr3, -⟩
            · rw [hs] at hsuc; cases hsuc
            · rw [hrun] at hrun3
              obtain ⟨b, hb1, hb2, -⟩ := h.base
              rw [hb2] at hsb
              cases hsb
              cases hrun3
              exact ⟨_, hb1, by rw [herr3, heb]⟩
          rw [h.last] at hlast
          cases hlast
          refine ⟨c, f, sol', hrun, ⟨_, h.same, hdis⟩, fun n hn => ?_, ?_, ?_, hleft, hbk, hbase, herr⟩
          · rw [← hnames]
            obtain ⟨x, h1, h2, h3, h4⟩ := mem_names.1 hn
            exact mem_names.2 ⟨x, h1, h2, hcas.monoS _ h3, h4⟩
          · rw [had, ← hnames, Finset.insert_erase hin]
          · rw [had]; exact Finset.notMem_erase _ _
      · rcases hout with ⟨-, h1, h2, h3, h4, h5⟩ | ⟨_, _, _, _, _, _, _, hsuc, _⟩
        · refine ⟨h1, h2, h3, h4, ?_⟩
          rw [h5]
          rcases hout3 with ⟨c, hat, hc, -⟩ | ⟨_, _, _, _, _, _, hsuc, _⟩
          · rcases attempt_cases hcl hsnd h.snd h.dump hat with ⟨-, hcc | hcc⟩ | ⟨_, _, _, ho, -⟩
            · rw [hc, hcc, hnames]
            · rw [hc, names_same hcc]
            · cases ho
          · rw [hs] at hsuc; cases hsuc
        · rw [hs] at hsuc; cases hsuc

private theorem start_true {cfg : Cfg Sol R} {ranking : Ranking Score} {chem : State} {red : Red Sol R}
    {l : Loop Sol R Score} (hi : initRed cfg chem = .ok red) (hl : startLoop cfg ranking red = .ok l) :
    AllTrue cfg chem l.red.history := by
  obtain ⟨i1, i2, i3, i4, i5⟩ := initRed_ok hi
  obtain ⟨-, -, hb, -, -⟩ := startLoop_ok hl
  unfold runBase at hb
  split at hb
  · cases hb
  · split at hb
    · cases hb
    · split at hb
      · cases hb
      · cases hb
      · rename_i sol file hrun
        simp only [Except.ok.injEq] at hb
        rw [← hb]
        have hsol : cfg.backend 0 chem = .solved sol := by
          rw [i1] at hrun
          unfold runModel at hrun
          cases hbk : cfg.backend 0 chem with
          | failed => rw [hbk] at hrun; cases hrun
          | raised => rw [hbk] at hrun; cases hrun
          | solved sol' =>
            rw [hbk] at hrun
            simp only at hrun
            cases hdu : cfg.net.dump cfg.path cfg.hash chem with
            | error e => rw [hdu] at hrun; cases hrun
            | ok f => rw [hdu] at hrun; cases hrun; rfl
        have := allTrue_snoc (cfg := cfg) (chem := chem) (h := [])
          (row := { species := none, success := true, additional := ∅, totalRemoved := 0, totalLeft := red.all.card,
                    run := some (red.chem, file, sol), errBase := some 0, errLast := some 0 })
          (fun pre row post he => by simp at he)
          ⟨by simp [i2], fun _ => ⟨rfl, rfl, rfl, rfl, rfl, rfl, file, sol, by rw [i1], hsol⟩, fun h => absurd rfl h⟩
        exact this

/-- **C43.** Every row of the history is truthful, at every point of every reduction. -/
theorem rows_truthful {cfg : Cfg Sol R} {ranking : Ranking Score} {sorted : List (Str × Score) → Bool}
    {maxStreak : ℕ} {chem : State} (hr : Reachable cfg.net chem) (hcl : cfg.net.RetClosed) (hmax : 0 ≤ cfg.maxErr)
    (hnan : NeverNan cfg chem) {t : Loop Sol R Score}
    (hv : Visited cfg ranking sorted maxStreak chem t) {pre post : List (Row Sol R)} {row : Row Sol R}
    (hh : t.red.history = pre ++ row :: post) : Truthful cfg chem pre row := by
  obtain ⟨red, l, s, hi, hl, hg, hend⟩ := hv
  have hs := Sound.of_reachable hr
  have key : AllTrue cfg chem s.red.history := by
    clear hend
    induction hg with
    | refl => exact start_true hi hl
    | @tail b c hb hst ih =>
      obtain ⟨-, _, _, _, _, _, _, hinv⟩ := inv_goes hs hcl hmax hnan hi hl hb
      obtain ⟨fin, hc⟩ := pass_case (.inl hst)
      exact step_true hcl hc hinv ih
  have : AllTrue cfg chem t.red.history := by
    rcases hend with rfl | hd
    · exact key
    · obtain ⟨-, _, _, _, _, _, _, hinv⟩ := inv_goes hs hcl hmax hnan hi hl hg
      obtain ⟨fin, hc⟩ := pass_case (.inr hd)
      exact step_true hcl hc hinv key
  exact this pre row post hh

/-- The hypotheses are met: the third row of the reduction of the demo, about Ar++. -/
example : ∃ t pre row, Visited Demo.cfg Demo.ranking (fun _ => true) 0 Verif.Plaschem.Demo.st0 t ∧
    t.red.history = pre ++ row :: [] ∧ pre.length = 2 ∧ Truthful Demo.cfg Verif.Plaschem.Demo.st0 pre row := by
  obtain ⟨red, l, t, h1, h2, h3, h4, h5, -⟩ := Demo.of_report Demo.report_demo rfl
  obtain ⟨s, h6, ⟨t', ht, h7⟩ | ⟨e, he, -⟩⟩ := goes_of_runs h3
  swap
  · cases he
  obtain rfl : t = t' := Except.ok.inj ht
  have hv : Visited Demo.cfg Demo.ranking (fun _ => true) 0 Verif.Plaschem.Demo.st0 t := ⟨red, l, s, h1, h2, h6, .inr h7⟩
  have hlen : t.red.history.length = 3 := by simpa using congrArg List.length h4
  obtain ⟨pre, row, hp⟩ : ∃ pre row, t.red.history = pre ++ [row] := by
    rcases List.eq_nil_or_concat t.red.history with h | ⟨pre, row, h⟩
    · rw [h] at hlen; cases hlen
    · exact ⟨pre, row, by simpa using h⟩
  refine ⟨t, pre, row, hv, hp, ?_, rows_truthful Verif.Plaschem.Demo.reach0 Verif.Plaschem.Demo.net_retClosed (by decide)
    (by intro a _ i c b _ h; cases h) hv hp⟩
  rw [hp] at hlen
  simpa using hlen

end Verif.Fwork.Reduce
