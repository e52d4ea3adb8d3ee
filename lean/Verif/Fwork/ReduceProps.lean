/-
Properties C42 and C43 of the reduction loop.
-/
import Verif.Fwork.Reduce
import Mathlib.Logic.Relation
import Mathlib.Data.Finset.Basic
import Mathlib.Data.Prod.Lex
import Mathlib.Order.WellFounded

namespace Verif.Fwork.Reduce
open Verif.Plaschem
open Verif.Plaschem.Net

variable {Sol R Score : Type} [LinearOrder R] [Zero R]

/-! ### specification -/

/-- The row records a run with an error within the threshold. -/
def Accepted (cfg : Cfg Sol R) (r : Row Sol R) : Prop := r.success = true ∧ ∃ e, r.errBase = some e ∧ e ≤ cfg.maxErr

/-- The row records a run with an error above the threshold. -/
def Rejected (cfg : Cfg Sol R) (r : Row Sol R) : Prop := ∃ e, r.errBase = some e ∧ cfg.maxErr < e

/-- The loop goes on from `s` with `t`. -/
def Goes (cfg : Cfg Sol R) (ranking : Ranking Score) (sorted : List (Str × Score) → Bool) (maxStreak : ℕ)
    (s t : Loop Sol R Score) : Prop := pass cfg ranking sorted maxStreak s = .next t

/-- `t` is a state of the loop, at the head of a pass or when the loop is left, of a reduction that starts from the
chemistry `chem`. -/
def Visited (cfg : Cfg Sol R) (ranking : Ranking Score) (sorted : List (Str × Score) → Bool) (maxStreak : ℕ)
    (chem : State) (t : Loop Sol R Score) : Prop :=
  ∃ (red : Red Sol R) (l s : Loop Sol R Score), initRed cfg chem = .ok red ∧ startLoop cfg ranking red = .ok l ∧
    Relation.ReflTransGen (Goes cfg ranking sorted maxStreak) l s ∧
    (s = t ∨ pass cfg ranking sorted maxStreak s = .done t)

/-- The species that may be removed: enabled, not special, not protected, not important. -/
def Eligible (cfg : Cfg Sol R) (chem : State) (n : Str) : Prop :=
  n ∉ cfg.important ∧
    ∃ s ∈ cfg.net.species, s.name = n ∧ chem.enSp s.id = true ∧ s.isSpecial = false ∧ ¬ chem.Protected s.id

/-! ### one call -/

/-- what a call of `remove_one_species_and_run` can do -/
structure Tried (cfg : Cfg Sol R) (s s' : Red Sol R) (sp : Str) (row : Row Sol R) : Prop where
  mem : sp ∈ s.left
  fresh : sp ∉ s.attempted
  attempted : s'.attempted = insert sp s.attempted
  all : s'.all = s.all
  base : s'.solBase = s.solBase
  history : s'.history = s.history ++ [row]
  species : row.species = some sp

omit [Zero R] in
theorem removeOne_cases {cfg : Cfg Sol R} {s s' : Red Sol R} {sp : Str} {bt : Bool}
    (h : removeOne cfg s sp bt = .ok s') :
    ∃ (row : Row Sol R) (file : Attrs), Tried cfg s s' sp row ∧ restoreFile cfg bt s.history = some file ∧
      ((∃ c, attempt cfg s.history.length file s.chem sp = .ok (c, none) ∧ s'.chem = c ∧ row.success = false ∧
          row.errBase = none ∧ row.run = none ∧ s'.left = s.left ∧ s'.solLast = s.solLast) ∨
       (∃ c sol f eb base, attempt cfg s.history.length file s.chem sp = .ok (c, some (sol, f)) ∧
          row.success = true ∧ row.run = some (c, f, sol) ∧ row.errBase = eb ∧ s.solBase = some base ∧
          cfg.err base sol = some eb ∧
          sp ∈ names cfg.net s.chem \ names cfg.net c ∧
          (names cfg.net s.chem \ names cfg.net c).erase sp ⊆ s.left.erase sp ∧
          (((bt && tooLarge cfg eb) = true ∧ s'.left = s.left ∧ s'.solLast = s.solLast ∧
              restore cfg file c = .ok s'.chem) ∨
           ((bt && tooLarge cfg eb) = false ∧ s'.chem = c ∧ s'.solLast = some sol ∧
              s'.left = s.left \ (names cfg.net s.chem \ names cfg.net c))))) := by
  unfold removeOne at h
  by_cases h1 : s.history = []
  · rw [if_pos h1] at h; cases h
  rw [if_neg h1] at h
  by_cases h2 : sp ∉ s.left
  · rw [if_pos h2] at h; cases h
  rw [if_neg h2] at h
  by_cases h3 : sp ∈ s.attempted
  · rw [if_pos h3] at h; cases h
  rw [if_neg h3] at h
  by_cases h4 : (insert sp s.attempted).card ≠ s.history.length
  · rw [if_pos h4] at h; cases h
  rw [if_neg h4] at h
  cases h5 : restoreFile cfg bt s.history with
  | none => rw [h5] at h; cases h
  | some file =>
    rw [h5] at h
    simp only at h
    cases h6 : attempt cfg s.history.length file s.chem sp with
    | error e => rw [h6] at h; cases h
    | ok p =>
      obtain ⟨c, o⟩ := p
      rw [h6] at h
      cases o with
      | none =>
        simp only [Except.ok.injEq] at h
        subst h
        exact ⟨_, file, ⟨not_not.1 h2, h3, rfl, rfl, rfl, rfl, rfl⟩, rfl, .inl ⟨c, h6, rfl, rfl, rfl, rfl, rfl, rfl⟩⟩
      | some q =>
        obtain ⟨sol, f⟩ := q
        simp only at h
        unfold record at h
        simp only at h
        by_cases h7 : sp ∉ names cfg.net s.chem \ names cfg.net c
        · rw [if_pos h7] at h; cases h
        rw [if_neg h7] at h
        by_cases h8 : ¬ (names cfg.net s.chem \ names cfg.net c).erase sp ⊆ s.left.erase sp
        · rw [if_pos h8] at h; cases h
        rw [if_neg h8] at h
        have hdiff : (s.left.erase sp) \ ((names cfg.net s.chem \ names cfg.net c).erase sp) =
            s.left \ (names cfg.net s.chem \ names cfg.net c) := by
          ext x
          simp only [Finset.mem_sdiff, Finset.mem_erase, not_and]
          by_cases hx : x = sp
          · subst hx
            have := not_not.1 h7
            simp only [Finset.mem_sdiff] at this
            simp [this]
          · simp [hx]
        have hback : insert sp ((s.left.erase sp) \ ((names cfg.net s.chem \ names cfg.net c).erase sp)) ∪
            ((names cfg.net s.chem \ names cfg.net c).erase sp) = s.left := by
          ext x
          simp only [Finset.mem_union, Finset.mem_insert, Finset.mem_sdiff (s := s.left.erase sp)]
          constructor
          · rintro ((rfl | hx) | hx)
            · exact not_not.1 h2
            · exact Finset.mem_of_mem_erase hx.1
            · exact Finset.mem_of_mem_erase (not_not.1 h8 hx)
          · intro hx
            by_cases he : x = sp
            · exact .inl (.inl he)
            · by_cases hr : x ∈ (names cfg.net s.chem \ names cfg.net c).erase sp
              · exact .inr hr
              · exact .inl (.inr ⟨Finset.mem_erase.2 ⟨he, hx⟩, hr⟩)
        cases hb : s.solBase with
        | none => rw [hb] at h; cases h
        | some base =>
          cases hl : s.solLast with
          | none => rw [hb, hl] at h; cases h
          | some last =>
            rw [hb, hl] at h
            simp only at h
            cases he1 : cfg.err base sol with
            | none => rw [he1] at h; cases h
            | some eb =>
              cases he2 : cfg.err last sol with
              | none => rw [he1, he2] at h; cases h
              | some el =>
                rw [he1, he2] at h
                simp only at h
                cases h9 : (bt && tooLarge cfg eb) with
                | true =>
                  rw [h9, if_pos rfl] at h
                  cases h10 : restore cfg file c with
                  | error e => rw [h10] at h; cases h
                  | ok c' =>
                    rw [h10] at h
                    simp only [Except.ok.injEq] at h
                    subst h
                    exact ⟨_, file, ⟨not_not.1 h2, h3, rfl, rfl, hb.symm ▸ rfl, rfl, rfl⟩, rfl,
                      .inr ⟨c, sol, f, eb, base, h6, rfl, rfl, rfl, hb ▸ rfl, he1, not_not.1 h7, not_not.1 h8,
                        .inl ⟨h9, hback, hl.symm ▸ rfl, h10⟩⟩⟩
                | false =>
                  rw [h9, if_neg (by decide)] at h
                  simp only [Except.ok.injEq] at h
                  subst h
                  exact ⟨_, file, ⟨not_not.1 h2, h3, rfl, rfl, hb.symm ▸ rfl, rfl, rfl⟩, rfl,
                    .inr ⟨c, sol, f, eb, base, h6, rfl, rfl, rfl, hb ▸ rfl, he1, not_not.1 h7, not_not.1 h8,
                      .inr ⟨h9, rfl, rfl, hdiff⟩⟩⟩

omit [Zero R] in
theorem removeOne_left {cfg : Cfg Sol R} {s s' : Red Sol R} {sp : Str} {bt : Bool}
    (h : removeOne cfg s sp bt = .ok s') : s'.left ⊆ s.left := by
  obtain ⟨row, file, -, -, ⟨c, -, -, -, -, -, hl, -⟩ | ⟨c, sol, f, eb, base, -, -, -, -, -, -, -, -,
    ⟨-, hl, -, -⟩ | ⟨-, -, -, hl⟩⟩⟩ := removeOne_cases h
  · rw [hl]
  · rw [hl]
  · rw [hl]; exact Finset.sdiff_subset

/-! ### the loop -/

theorem popNext_spec {att : Finset Str} {l rest : List (Str × Score)} {sp : Str}
    (h : popNext att l = some (sp, rest)) :
    sp ∉ att ∧ rest.length < l.length ∧ (∃ e ∈ l, e.1 = sp) ∧ (∀ e ∈ rest, e ∈ l ∧ e.1 ≠ sp) ∧
    ∀ e ∈ l, e.1 ∈ att ∨ e.1 = sp ∨ e ∈ rest := by
  induction hn : l.length using Nat.strong_induction_on generalizing l with
  | _ n ih =>
    cases l with
    | nil => rw [popNext] at h; cases h
    | cons e l =>
      obtain ⟨x, v⟩ := e
      have hlen : (dropLabel x l).length ≤ l.length := List.length_filter_le _ _
      rw [popNext] at h
      by_cases hx : x ∈ att
      · rw [if_pos hx] at h
        obtain ⟨h1, h2, ⟨e, h3, h4⟩, h5, h6⟩ := ih _ (by rw [← hn, List.length_cons]; omega) h rfl
        refine ⟨h1, by rw [List.length_cons] at hn; omega, ⟨e, List.mem_cons_of_mem _ (List.mem_of_mem_filter h3), h4⟩, fun e he => ?_, fun e he => ?_⟩
        · exact ⟨List.mem_cons_of_mem _ (List.mem_of_mem_filter (h5 e he).1), (h5 e he).2⟩
        · rcases List.mem_cons.1 he with rfl | he
          · exact .inl hx
          · by_cases hex : e.1 = x
            · exact .inl (hex ▸ hx)
            · exact h6 e (List.mem_filter.2 ⟨he, by simpa using hex⟩)
      · rw [if_neg hx] at h
        simp only [Option.some.injEq, Prod.mk.injEq] at h
        obtain ⟨rfl, rfl⟩ := h
        refine ⟨hx, by rw [List.length_cons] at hn; omega, ⟨(x, v), by simp, rfl⟩, fun e he => ?_, fun e he => ?_⟩
        · obtain ⟨h1, h2⟩ := List.mem_filter.1 he
          exact ⟨List.mem_cons_of_mem _ h1, by simpa using h2⟩
        · rcases List.mem_cons.1 he with rfl | he
          · exact .inr (.inl rfl)
          · by_cases hex : e.1 = x
            · exact .inr (.inl hex)
            · exact .inr (.inr (List.mem_filter.2 ⟨he, by simpa using hex⟩))

theorem popNext_none {att : Finset Str} {l : List (Str × Score)} (h : popNext att l = none) :
    ∀ e ∈ l, e.1 ∈ att := by
  induction hn : l.length using Nat.strong_induction_on generalizing l with
  | _ n ih =>
    cases l with
    | nil => intro e he; cases he
    | cons e l =>
      obtain ⟨x, v⟩ := e
      have hlen : (dropLabel x l).length ≤ l.length := List.length_filter_le _ _
      rw [popNext] at h
      by_cases hx : x ∈ att
      · rw [if_pos hx] at h
        have h6 := ih _ (by rw [← hn, List.length_cons]; omega) h rfl
        intro e he
        rcases List.mem_cons.1 he with rfl | he
        · exact hx
        · by_cases hex : e.1 = x
          · exact hex ▸ hx
          · exact h6 e (List.mem_filter.2 ⟨he, by simpa using hex⟩)
      · rw [if_neg hx] at h; cases h

/-- what one pass of the loop that raises nothing does -/
inductive PassCase (cfg : Cfg Sol R) (ranking : Ranking Score) (maxStreak : ℕ) (s : Loop Sol R Score) :
    Bool → Loop Sol R Score → Prop
  /-- nothing left to try -/
  | over (t : Loop Sol R Score) : (∀ e ∈ s.ranking, e.1 ∈ s.red.attempted) → t.red = s.red → t.streak = s.streak →
      t.ranking = [] → PassCase cfg ranking maxStreak s true t
  /-- a species that cannot be removed is dropped from the ranking -/
  | skip (sp : Str) (rest : List (Str × Score)) : popNext s.red.attempted s.ranking = some (sp, rest) →
      sp ∉ s.red.left → PassCase cfg ranking maxStreak s false { s with ranking := rest }
  /-- a species is tried -/
  | tried (sp : Str) (rest : List (Str × Score)) (t : Loop Sol R Score) (row : Row Sol R) (fin : Bool) :
      popNext s.red.attempted s.ranking = some (sp, rest) → removeOne cfg s.red sp true = .ok t.red →
      t.red.history = s.red.history ++ [row] →
      ((row.errBase = none ∧ t.streak = s.streak ∧ t.ranking = rest) ∨
       (Rejected cfg row ∧ t.streak = s.streak + 1 ∧ t.ranking = rest) ∨
       ((∃ e, row.errBase = some e ∧ e ≤ cfg.maxErr) ∧ t.streak = 0 ∧
          ((∃ l, ranking = .fixed l ∧ t.ranking = rest) ∨
            ∃ f, ranking = .dynamic f ∧ f t.red.history.length t.red.chem = some t.ranking))) →
      (fin = true ↔ t.streak > maxStreak ∨ t.red.left = ∅) → PassCase cfg ranking maxStreak s fin t

omit [Zero R] in
theorem pass_cases {cfg : Cfg Sol R} {ranking : Ranking Score} {sorted : List (Str × Score) → Bool} {maxStreak : ℕ}
    {s : Loop Sol R Score} :
    (∃ e, pass cfg ranking sorted maxStreak s = .raise e) ∨
    (∃ t, pass cfg ranking sorted maxStreak s = .next t ∧ PassCase cfg ranking maxStreak s false t) ∨
    (∃ t, pass cfg ranking sorted maxStreak s = .done t ∧ PassCase cfg ranking maxStreak s true t) := by
  unfold pass
  by_cases h1 : s.ranking = []
  · rw [if_pos h1]
    exact .inr (.inr ⟨s, rfl, .over s (by rw [h1]; intro e he; cases he) rfl rfl h1⟩)
  rw [if_neg h1]
  by_cases h2 : ¬ sorted s.ranking = true
  · rw [if_pos h2]; exact .inl ⟨_, rfl⟩
  rw [if_neg h2]
  cases h3 : popNext s.red.attempted s.ranking with
  | none =>
    exact .inr (.inr ⟨_, rfl, .over _ (popNext_none h3) rfl rfl rfl⟩)
  | some p =>
    obtain ⟨sp, rest⟩ := p
    simp only
    by_cases h4 : sp ∉ s.red.left
    · rw [if_pos h4]
      exact .inr (.inl ⟨_, rfl, .skip sp rest h3 h4⟩)
    rw [if_neg h4]
    cases h5 : removeOne cfg s.red sp true with
    | error e => exact .inl ⟨_, rfl⟩
    | ok red =>
      obtain ⟨row, file, htr, -⟩ := removeOne_cases h5
      simp only
      have hlast : red.history.getLast? = some row := by rw [htr.history]; simp
      rw [hlast]
      simp only
      have fin : ∀ t : Loop Sol R Score, t.red = red →
          ((row.errBase = none ∧ t.streak = s.streak ∧ t.ranking = rest) ∨
            (Rejected cfg row ∧ t.streak = s.streak + 1 ∧ t.ranking = rest) ∨
            ((∃ e, row.errBase = some e ∧ e ≤ cfg.maxErr) ∧ t.streak = 0 ∧
              ((∃ l, ranking = .fixed l ∧ t.ranking = rest) ∨
                ∃ f, ranking = .dynamic f ∧ f t.red.history.length t.red.chem = some t.ranking))) →
          ((∃ t', (if t.streak > maxStreak ∨ red.left = ∅ then Pass.done t else Pass.next t) = .next t' ∧
              PassCase cfg ranking maxStreak s false t') ∨
           ∃ t', (if t.streak > maxStreak ∨ red.left = ∅ then Pass.done t else Pass.next t) = .done t' ∧
              PassCase cfg ranking maxStreak s true t') := by
        rintro t rfl hc
        by_cases hf : t.streak > maxStreak ∨ t.red.left = ∅
        · rw [if_pos hf]
          exact .inr ⟨t, rfl, .tried sp rest t row true h3 h5 htr.history hc ⟨fun _ => hf, fun _ => rfl⟩⟩
        · rw [if_neg hf]
          exact .inl ⟨t, rfl, .tried sp rest t row false h3 h5 htr.history hc ⟨fun h => (by cases h), fun h => absurd h hf⟩⟩
      cases he : row.errBase with
      | none =>
        exact .inr (fin { red := red, ranking := rest, streak := s.streak } rfl (.inl ⟨he, rfl, rfl⟩))
      | some e =>
        simp only
        by_cases hgt : cfg.maxErr < e
        · rw [if_pos hgt]
          exact .inr (fin { red := red, ranking := rest, streak := s.streak + 1 } rfl
            (.inr (.inl ⟨⟨e, he, hgt⟩, rfl, rfl⟩)))
        · rw [if_neg hgt]
          cases hr : ranking with
          | fixed l =>
            have := fin { red := red, ranking := rest, streak := 0 } rfl
              (.inr (.inr ⟨⟨e, he, not_lt.1 hgt⟩, rfl, .inl ⟨l, hr, rfl⟩⟩))
            rw [hr] at this
            exact .inr this
          | dynamic f =>
            simp only
            cases hf : f red.history.length red.chem with
            | none => exact .inl ⟨_, rfl⟩
            | some l =>
              have := fin { red := red, ranking := l, streak := 0 } rfl
                (.inr (.inr ⟨⟨e, he, not_lt.1 hgt⟩, rfl, .inr ⟨f, hr, hf⟩⟩))
              rw [hr] at this
              exact .inr this

/-! ### C42: termination -/

/-- the number of species that could still be tried and the length of the ranking -/
private def size (s : Loop Sol R Score) : ℕ ×ₗ ℕ := toLex ((s.red.left \ s.red.attempted).card, s.ranking.length)

omit [Zero R] in
private theorem size_lt {cfg : Cfg Sol R} {ranking : Ranking Score} {sorted : List (Str × Score) → Bool} {maxStreak : ℕ}
    {s t : Loop Sol R Score} (h : pass cfg ranking sorted maxStreak s = .next t) : size t < size s := by
  rcases pass_cases (cfg := cfg) (ranking := ranking) (sorted := sorted) (maxStreak := maxStreak) (s := s) with
    ⟨e, he⟩ | ⟨t', he, hc⟩ | ⟨t', he, hc⟩
  · rw [he] at h; cases h
  · rw [he] at h
    cases h
    unfold size
    rw [Prod.Lex.toLex_lt_toLex]
    cases hc with
    | skip sp rest hp hl => exact .inr ⟨rfl, (popNext_spec hp).2.1⟩
    | tried sp rest _ row _ hp hrem hh hcase hfin =>
      left
      obtain ⟨_, _, htr, -⟩ := removeOne_cases hrem
      have hsub := removeOne_left hrem
      apply Finset.card_lt_card
      refine ⟨fun x hx => ?_, fun hc => ?_⟩
      · rw [Finset.mem_sdiff] at hx ⊢
        rw [htr.attempted] at hx
        exact ⟨hsub hx.1, fun hc => hx.2 (Finset.mem_insert_of_mem hc)⟩
      · have := hc (Finset.mem_sdiff.2 ⟨htr.mem, htr.fresh⟩)
        rw [Finset.mem_sdiff, htr.attempted] at this
        exact this.2 (Finset.mem_insert_self _ _)
  · rw [he] at h; cases h

omit [Zero R] in
/-- **C42.** The reduction loop ends, with exactly one result, for every ranking (fixed or recomputed) and every
behaviour of the backend, the error measure and the chemistry. -/
theorem loop_terminates (cfg : Cfg Sol R) (ranking : Ranking Score) (sorted : List (Str × Score) → Bool)
    (maxStreak : ℕ) (s : Loop Sol R Score) : ∃! r, Runs cfg ranking sorted maxStreak s r := by
  have wf : WellFounded (fun a b : Loop Sol R Score => size a < size b) := InvImage.wf size wellFounded_lt
  induction s using wf.induction with
  | _ s ih =>
    rcases pass_cases (cfg := cfg) (ranking := ranking) (sorted := sorted) (maxStreak := maxStreak) (s := s) with
      ⟨e, he⟩ | ⟨t, he, -⟩ | ⟨t, he, -⟩
    · refine ⟨.error e, .raise he, ?_⟩
      rintro r (h | h | ⟨h, -⟩) <;> rw [he] at h <;> cases h
      rfl
    · obtain ⟨r, hr, hu⟩ := ih t (size_lt he)
      refine ⟨r, .next he hr, ?_⟩
      rintro r' (h | h | ⟨h, h'⟩) <;> rw [he] at h <;> cases h
      exact hu _ h'
    · refine ⟨.ok t, .done he, ?_⟩
      rintro r (h | h | ⟨h, -⟩) <;> rw [he] at h <;> cases h
      rfl

/-- **C42.** `run_reduction` ends, with exactly one result. -/
theorem reduction_terminates (cfg : Cfg Sol R) (ranking : Ranking Score) (sorted : List (Str × Score) → Bool)
    (maxStreak : ℕ) (s : Red Sol R) : ∃! r, RunsReduction cfg ranking sorted maxStreak s r := by
  unfold RunsReduction
  cases startLoop cfg ranking s with
  | error e => exact ⟨_, rfl, fun _ h => h⟩
  | ok l =>
    obtain ⟨x, hx, hu⟩ := loop_terminates cfg ranking sorted maxStreak l
    refine ⟨_, ⟨x, hx, rfl⟩, ?_⟩
    rintro r ⟨y, hy, rfl⟩
    rw [hu y hy]

/-! ### C43: the invariant of the loop -/

theorem mem_names {net : Net} {st : State} {n : Str} :
    n ∈ names net st ↔ ∃ s ∈ net.species, s.name = n ∧ st.enSp s.id = true ∧ s.isSpecial = false := by
  unfold names getSpeciesName getSpecies speciesMask
  simp only [List.mem_toFinset, List.mem_map, List.mem_filter, Bool.false_or, Bool.true_or, Bool.and_true,
    Bool.and_eq_true, Bool.not_eq_true']
  constructor
  · rintro ⟨s, ⟨h1, h2, h3⟩, h4⟩; exact ⟨s, h1, h4, h2, h3⟩
  · rintro ⟨s, h1, h4, h2, h3⟩; exact ⟨s, ⟨h1, h2, h3⟩, h4⟩

theorem names_same {net : Net} {a b : State} (h : SameState net a b) : names net a = names net b := by
  ext n
  rw [mem_names, mem_names]
  constructor
  · rintro ⟨s, h1, h2, h3, h4⟩; exact ⟨s, h1, h2, by rw [← h.enSp s h1]; exact h3, h4⟩
  · rintro ⟨s, h1, h2, h3, h4⟩; exact ⟨s, h1, h2, by rw [h.enSp s h1]; exact h3, h4⟩

omit [Zero R] in
theorem restorable_iff {cfg : Cfg Sol R} {r : Row Sol R} : restorable cfg true r = true ↔ Accepted cfg r := by
  unfold restorable Accepted
  cases r.errBase <;> simp

omit [Zero R] in
theorem restoreFile_last {cfg : Cfg Sol R} {h pre post : List (Row Sol R)} {row : Row Sol R} {st : State} {file : Attrs}
    {sol : Sol} (hh : h = pre ++ row :: post) (ha : Accepted cfg row) (hn : ∀ r ∈ post, ¬ Accepted cfg r)
    (hr : row.run = some (st, file, sol)) : restoreFile cfg true h = some file := by
  have h1 : post.filter (restorable cfg true) = [] := by
    rw [List.filter_eq_nil_iff]
    intro r hr hc
    exact hn r hr (restorable_iff.1 hc)
  have h2 : h.filter (restorable cfg true) = pre.filter (restorable cfg true) ++ [row] := by
    rw [hh, List.filter_append, List.filter_cons, if_pos (restorable_iff.2 ha), h1]
  unfold restoreFile
  rw [h2, List.filterMap_append]
  simp [hr]

omit [LinearOrder R] [Zero R] in
/-- what `attempt` does in a sound state when it raises nothing -/
theorem attempt_cases {cfg : Cfg Sol R} (hcl : cfg.net.RetClosed) {chem st : State} (hs : Sound cfg.net chem)
    (hst : Sound cfg.net st) {file : Attrs} (hd : cfg.net.dump cfg.path cfg.hash st = .ok file) {i : ℕ} {sp : Str}
    {c : State} {o : Option (Sol × Attrs)} (h : attempt cfg i file chem sp = .ok (c, o)) :
    (o = none ∧ (c = chem ∨ SameState cfg.net c st)) ∨
    (∃ sol f sids, o = some (sol, f) ∧ cfg.backend i c = .solved sol ∧ cfg.net.dump cfg.path cfg.hash c = .ok f ∧
      cfg.net.disable chem [.name sp] [] = (c, none) ∧ Sound cfg.net c ∧ Cascade cfg.net chem c sids []) := by
  unfold attempt at h
  rcases hs.disable_cases hcl [.name sp] [] with ⟨e, he, hdis, -⟩ | hdis | ⟨sids, c0, -, hcas, hs0, hdis⟩
  · rw [hdis] at h
    cases e <;> first | exact absurd rfl he | cases h
  · rw [hdis] at h
    simp only [Except.ok.injEq, Prod.mk.injEq] at h
    exact .inl ⟨h.2.symm, .inl h.1.symm⟩
  · rw [hdis] at h
    simp only at h
    unfold runModel at h
    cases hb : cfg.backend i c0 with
    | solved sol =>
      rw [hb] at h
      simp only at h
      cases hdu : cfg.net.dump cfg.path cfg.hash c0 with
      | error e => rw [hdu] at h; cases h
      | ok f =>
        rw [hdu] at h
        simp only [Except.ok.injEq, Prod.mk.injEq] at h
        obtain ⟨rfl, rfl⟩ := h
        exact .inr ⟨sol, f, sids, rfl, hb, hdu, hdis, hs0, hcas⟩
    | failed =>
      rw [hb] at h
      simp only at h
      unfold restore at h
      cases hl : cfg.net.load cfg.path cfg.hash c0 file true with
      | mk c1 oe =>
        rw [hl] at h
        cases oe with
        | some e => cases h
        | none =>
          simp only [Except.ok.injEq, Prod.mk.injEq] at h
          obtain ⟨rfl, rfl⟩ := h
          exact .inl ⟨rfl, .inr (hst.load_same hcl hd hl)⟩
    | raised => rw [hb] at h; cases h

omit [LinearOrder R] [Zero R] in
theorem restore_same {cfg : Cfg Sol R} (hcl : cfg.net.RetClosed) {st : State} (hst : Sound cfg.net st) {file : Attrs}
    (hd : cfg.net.dump cfg.path cfg.hash st = .ok file) {c c' : State} (h : restore cfg file c = .ok c') :
    SameState cfg.net c' st := by
  unfold restore at h
  cases hl : cfg.net.load cfg.path cfg.hash c file true with
  | mk c1 oe =>
    rw [hl] at h
    cases oe with
    | some e => cases h
    | none =>
      simp only [Except.ok.injEq] at h
      subst h
      exact hst.load_same hcl hd hl

open Classical in
/-- number of rejected rows -/
noncomputable def rejections (cfg : Cfg Sol R) (l : List (Row Sol R)) : ℕ := l.countP (fun r => decide (Rejected cfg r))

/-- the ranking in force after the accepted row number `k` with the chemistry `c` -/
def InForce (ranking : Ranking Score) (k : ℕ) (c : State) (l : List (Str × Score)) : Prop :=
  ranking = .fixed l ∨ ∃ f, ranking = .dynamic f ∧ f k c = some l

/-- No solution of the backend has nan as its error with respect to the base case of the reduction of `chem`. -/
def NeverNan (cfg : Cfg Sol R) (chem : State) : Prop :=
  ∀ base, cfg.backend 0 chem = .solved base → ∀ i c sol, cfg.backend i c = .solved sol → cfg.err base sol ≠ some none

/-- the invariant of the loop of a reduction of the chemistry `chem0`: `row` is the last accepted row, made with the
chemistry `st`. -/
structure LInv (cfg : Cfg Sol R) (ranking : Ranking Score) (chem0 : State) (t : Loop Sol R Score)
    (pre : List (Row Sol R)) (row : Row Sol R) (post : List (Row Sol R)) (st : State) (file : Attrs) (sol : Sol) :
    Prop where
  hist : t.red.history = pre ++ row :: post
  acc : Accepted cfg row
  nacc : ∀ r ∈ post, ¬ Accepted cfg r
  run : row.run = some (st, file, sol)
  solved : cfg.backend pre.length st = .solved sol
  snd : Sound cfg.net st
  dump : cfg.net.dump cfg.path cfg.hash st = .ok file
  same : SameState cfg.net t.red.chem st
  last : t.red.solLast = some sol
  base : ∃ base, cfg.backend 0 chem0 = .solved base ∧ t.red.solBase = some base ∧
    (pre = [] ∧ sol = base ∨ cfg.err base sol = some row.errBase)
  len : t.red.history.length = t.red.attempted.card + 1
  species : ∀ n, n ∈ t.red.attempted ↔ ∃ r ∈ t.red.history, r.species = some n
  nodup : (t.red.history.filterMap Row.species).Nodup
  tried : ∀ n ∈ t.red.attempted, Eligible cfg chem0 n
  left : ∀ n, n ∈ t.red.left ↔ Eligible cfg chem0 n ∧ n ∈ names cfg.net t.red.chem
  all : t.red.all = names cfg.net chem0
  sub : ∀ s ∈ cfg.net.species, st.enSp s.id = true → chem0.enSp s.id = true
  gone : ∀ n ∈ names cfg.net chem0, n ∉ names cfg.net st → Eligible cfg chem0 n
  prot : ∀ s ∈ cfg.net.species, st.protSp s.id = chem0.protSp s.id
  adh : ∀ s ∈ cfg.net.species, chem0.adhocSp s.id = true → st.adhocSp s.id = true
  adSt : st.adStick = chem0.adStick
  adAr : st.adArrhA = chem0.adArrhA
  adRe : List.Forall₂ (fun x y => x.1 = y.1 ∧ x.2.Perm y.2) st.adRet chem0.adRet
  streak : t.streak = rejections cfg post
  rank : ∃ l, InForce ranking (pre.length + 1) st l ∧
    ∀ e ∈ l, e.1 ∈ t.red.attempted ∨ e.1 ∉ t.red.left ∨ e ∈ t.ranking

private abbrev RetSame := List.Forall₂ (fun x y : Nat × Dict Str ℚ => x.1 = y.1 ∧ x.2.Perm y.2)

private theorem retSame_refl (a : Dict Nat (Dict Str ℚ)) : RetSame a a := List.forall₂_same.2 fun _ _ => ⟨rfl, .refl _⟩

private theorem retSame_trans {a b c : Dict Nat (Dict Str ℚ)} (h1 : RetSame a b) (h2 : RetSame b c) : RetSame a c := by
  induction h1 generalizing c with
  | nil => cases h2; exact .nil
  | cons h _ ih => cases h2 with | cons h' h2 => exact .cons ⟨h.1.trans h'.1, h.2.trans h'.2⟩ (ih h2)

private theorem same_refl (net : Net) (a : State) : SameState net a a :=
  ⟨fun _ _ => rfl, fun _ _ => rfl, fun _ _ => rfl, fun _ _ => rfl, rfl, rfl, retSame_refl _⟩

omit [LinearOrder R] [Zero R] in
theorem mem_eligible {cfg : Cfg Sol R} {chem : State} {n : Str} :
    n ∈ (cfg.net.getSpeciesName chem false false false).toFinset.filter (· ∉ cfg.important) ↔
      Eligible cfg chem n := by
  unfold Eligible getSpeciesName getSpecies speciesMask State.Protected
  simp only [Finset.mem_filter, List.mem_toFinset, List.mem_map, List.mem_filter, Bool.false_or, Bool.and_eq_true,
    Bool.not_eq_true', Bool.or_eq_false_iff, not_or, Bool.not_eq_true]
  constructor
  · rintro ⟨⟨s, ⟨h1, ⟨h2, h3⟩, h4⟩, h5⟩, h6⟩; exact ⟨h6, s, h1, h5, h2, h3, h4⟩
  · rintro ⟨h6, s, h1, h5, h2, h3, h4⟩; exact ⟨⟨s, ⟨h1, ⟨h2, h3⟩, h4⟩, h5⟩, h6⟩

omit [LinearOrder R] [Zero R] in
theorem Eligible.mem_names {cfg : Cfg Sol R} {chem : State} {n : Str} (h : Eligible cfg chem n) :
    n ∈ names cfg.net chem := by
  obtain ⟨-, s, h1, h2, h3, h4, -⟩ := h
  exact Reduce.mem_names.2 ⟨s, h1, h2, h3, h4⟩

omit [LinearOrder R] [Zero R] in
theorem initRed_ok {cfg : Cfg Sol R} {chem : State} {red : Red Sol R} (h : initRed cfg chem = .ok red) :
    red.chem = chem ∧ red.all = names cfg.net chem ∧ red.attempted = ∅ ∧ red.history = [] ∧
      ∀ n, n ∈ red.left ↔ Eligible cfg chem n := by
  unfold initRed at h
  simp only at h
  split at h
  · cases h
  · split at h
    · cases h
    · simp only [Except.ok.injEq] at h
      subst h
      exact ⟨rfl, rfl, rfl, rfl, fun n => mem_eligible⟩

omit [LinearOrder R] in
theorem startLoop_ok {cfg : Cfg Sol R} {ranking : Ranking Score} {red : Red Sol R} {l : Loop Sol R Score}
    (h : startLoop cfg ranking red = .ok l) :
    cfg.net.getDisabledSpecies red.chem = [] ∧ cfg.net.getDisabledReactions red.chem = [] ∧
    runBase cfg red = .ok l.red ∧ l.streak = 0 ∧ InForce ranking l.red.history.length l.red.chem l.ranking := by
  unfold startLoop at h
  split at h
  · cases h
  · rename_i hd
    push Not at hd
    split at h
    · cases h
    · rename_i r hr
      split at h
      · cases h; exact ⟨hd.1, hd.2, hr, rfl, .inl rfl⟩
      · split at h
        · cases h
        · rename_i f _ l hf
          cases h; exact ⟨hd.1, hd.2, hr, rfl, .inr ⟨f, rfl, hf⟩⟩

theorem inv_start {cfg : Cfg Sol R} {ranking : Ranking Score} {chem0 : State} (hs : Sound cfg.net chem0)
    (hmax : 0 ≤ cfg.maxErr) {red : Red Sol R} {l : Loop Sol R Score} (hi : initRed cfg chem0 = .ok red)
    (hl : startLoop cfg ranking red = .ok l) :
    ∃ row st file sol, LInv cfg ranking chem0 l [] row [] st file sol := by
  obtain ⟨i1, i2, i3, i4, i5⟩ := initRed_ok hi
  obtain ⟨-, -, hb, hst, hf⟩ := startLoop_ok hl
  unfold runBase at hb
  rw [if_neg (by rw [i4]; simp)] at hb
  split at hb
  · cases hb
  · unfold runModel at hb
    cases hbk : cfg.backend 0 red.chem with
    | failed => rw [hbk] at hb; cases hb
    | raised => rw [hbk] at hb; cases hb
    | solved sol =>
      rw [hbk] at hb
      simp only at hb
      cases hd : cfg.net.dump cfg.path cfg.hash red.chem with
      | error e => rw [hd] at hb; cases hb
      | ok file =>
        rw [hd] at hb
        simp only [Except.ok.injEq] at hb
        rw [i1] at hbk hd
        let r0 : Row Sol R := { species := none, success := true, additional := ∅, totalRemoved := 0
                                totalLeft := red.all.card, run := some (red.chem, file, sol), errBase := some 0
                                errLast := some 0 }
        refine ⟨r0, chem0, file, sol, ?_⟩
        obtain ⟨lr, lk, lst⟩ := l
        simp only at hb hst hf
        subst hb hst
        refine ⟨rfl, ⟨rfl, 0, rfl, hmax⟩, fun r hr => (by cases hr), ?_, hbk, hs, hd, ?_, rfl, ⟨sol, hbk, rfl, .inl ⟨rfl, rfl⟩⟩,
          ?_, ?_, ?_, ?_, ?_, i2, fun _ _ h => h, fun n h h' => absurd h h', fun _ _ => rfl, fun _ _ h => h, rfl, rfl,
          retSame_refl _, ?_, ⟨lk, ?_, fun e he => .inr (.inr he)⟩⟩
        · simp only [r0, i1]
        · simp only [i1]; exact same_refl _ _
        · simp [i3]
        · simp [i3]
        · simp
        · simp [i3]
        · intro n
          simp only [i5, i1]
          exact ⟨fun h => ⟨h, h.mem_names⟩, fun h => h.1⟩
        · simp [rejections]
        · simp only [List.length_nil]
          rcases hf with hf | ⟨f, h1, h2⟩
          · exact .inl hf
          · refine .inr ⟨f, h1, ?_⟩
            rw [i1] at h2
            exact h2

omit [Zero R] in
private theorem not_accepted_of_rejected {cfg : Cfg Sol R} {r : Row Sol R} (h : Rejected cfg r) : ¬ Accepted cfg r := by
  obtain ⟨e, h1, h2⟩ := h
  rintro ⟨-, e', h3, h4⟩
  rw [h1] at h3
  cases h3
  exact absurd h2 (not_lt.2 h4)

omit [Zero R] in
private theorem rejections_snoc {cfg : Cfg Sol R} {l : List (Row Sol R)} {r : Row Sol R} :
    (Rejected cfg r → rejections cfg (l ++ [r]) = rejections cfg l + 1) ∧
    (¬ Rejected cfg r → rejections cfg (l ++ [r]) = rejections cfg l) := by
  unfold rejections
  rw [List.countP_append]
  constructor
  · intro h; simp [h]
  · intro h; simp [h]

omit [Zero R] in
theorem inv_step {cfg : Cfg Sol R} {ranking : Ranking Score} {maxStreak : ℕ} {chem0 : State}
    (hcl : cfg.net.RetClosed) (hnan : NeverNan cfg chem0) {s t : Loop Sol R Score} {fin : Bool}
    (hp : PassCase cfg ranking maxStreak s fin t) {pre : List (Row Sol R)} {row : Row Sol R}
    {post : List (Row Sol R)} {st : State} {file : Attrs} {sol : Sol}
    (h : LInv cfg ranking chem0 s pre row post st file sol) :
    ∃ pre row post st file sol, LInv cfg ranking chem0 t pre row post st file sol := by
  obtain ⟨rl, hrl, hrank⟩ := h.rank
  cases hp with
  | over t hov hred hstr hrk =>
    refine ⟨pre, row, post, st, file, sol, ?_⟩
    obtain ⟨tr, tk, ts⟩ := t
    simp only at hred hstr hrk
    subst hred hstr hrk
    exact { h with
      rank := ⟨rl, hrl, fun e he => by
        rcases hrank e he with h' | h' | h'
        · exact .inl h'
        · exact .inr (.inl h')
        · exact .inl (hov e h')⟩ }
  | skip sp rest hpop hnl =>
    refine ⟨pre, row, post, st, file, sol, ?_⟩
    exact { h with
      rank := ⟨rl, hrl, fun e he => by
        rcases hrank e he with h' | h' | h'
        · exact .inl h'
        · exact .inr (.inl h')
        · rcases (popNext_spec hpop).2.2.2.2 e h' with h'' | h'' | h''
          · exact .inl h''
          · exact .inr (.inl (by rw [h'']; exact hnl))
          · exact .inr (.inr h'')⟩ }
  | tried sp rest _ row' fin hpop hrem hhist hcase hfin =>
    have hsnd : Sound cfg.net s.red.chem := h.snd.same h.same
    obtain ⟨row2, file2, htr, hrest, hout⟩ := removeOne_cases hrem
    have hrow : row2 = row' := by
      have := htr.history.symm.trans hhist
      simpa using this
    subst hrow
    have hfile : file2 = file := by
      have := restoreFile_last h.hist h.acc h.nacc h.run
      rw [this] at hrest
      exact (Option.some.inj hrest).symm
    subst hfile
    have hnames : names cfg.net s.red.chem = names cfg.net st := names_same h.same
    have hlen : t.red.history.length = t.red.attempted.card + 1 := by
      rw [htr.history, htr.attempted, Finset.card_insert_of_notMem htr.fresh, List.length_append, h.len]
      rfl
    have hspecies : ∀ n, n ∈ t.red.attempted ↔ ∃ r ∈ t.red.history, r.species = some n := by
      intro n
      rw [htr.attempted, htr.history, Finset.mem_insert, h.species]
      constructor
      · rintro (rfl | ⟨r, h1, h2⟩)
        · exact ⟨row2, by simp, htr.species⟩
        · exact ⟨r, by simp [h1], h2⟩
      · rintro ⟨r, h1, h2⟩
        rcases List.mem_append.1 h1 with h1 | h1
        · exact .inr ⟨r, h1, h2⟩
        · rw [List.mem_singleton] at h1
          subst h1
          rw [htr.species] at h2
          exact .inl (Option.some.inj h2).symm
    have hnodup : (t.red.history.filterMap Row.species).Nodup := by
      rw [htr.history, List.filterMap_append]
      simp only [List.filterMap_cons, htr.species, List.filterMap_nil]
      rw [List.nodup_append]
      refine ⟨h.nodup, by simp, ?_⟩
      rintro a ha b hb rfl
      rw [List.mem_singleton] at hb
      subst hb
      obtain ⟨r, h1, h2⟩ := List.mem_filterMap.1 ha
      exact htr.fresh ((h.species _).2 ⟨r, h1, h2⟩)
    have htried : ∀ n ∈ t.red.attempted, Eligible cfg chem0 n := by
      intro n hn
      rw [htr.attempted, Finset.mem_insert] at hn
      rcases hn with rfl | hn
      · exact ((h.left _).1 htr.mem).1
      · exact h.tried n hn
    have hleft' := removeOne_left hrem
    have hrank' : ∀ e ∈ rl, e.1 ∈ t.red.attempted ∨ e.1 ∉ t.red.left ∨ e ∈ rest := by
      intro e he
      rw [htr.attempted, Finset.mem_insert]
      rcases hrank e he with h' | h' | h'
      · exact .inl (.inr h')
      · exact .inr (.inl fun hc => h' (hleft' hc))
      · rcases (popNext_spec hpop).2.2.2.2 e h' with h'' | h'' | h''
        · exact .inl (.inr h'')
        · exact .inl (.inl h'')
        · exact .inr (.inr h'')
    -- the rows that are not accepted
    have keep : (hna : ¬ Accepted cfg row2) → t.red.left = s.red.left → t.red.solLast = s.red.solLast →
        SameState cfg.net t.red.chem st → t.streak = rejections cfg (post ++ [row2]) → t.ranking = rest →
        LInv cfg ranking chem0 t pre row (post ++ [row2]) st file2 sol := by
      intro hna hl hsl hsame hstr hrk
      refine { h with
        hist := by rw [htr.history, h.hist]; simp
        nacc := fun r hr => by
          rcases List.mem_append.1 hr with hr | hr
          · exact h.nacc r hr
          · rw [List.mem_singleton] at hr; subst hr; exact hna
        same := hsame, last := hsl.trans h.last
        base := by rw [htr.base]; exact h.base
        len := hlen, species := hspecies, nodup := hnodup, tried := htried
        left := fun n => by rw [hl, h.left, hnames, names_same hsame]
        all := htr.all.trans h.all
        streak := hstr
        rank := ⟨rl, hrl, by rw [hrk]; exact hrank'⟩ }
    rcases hout with ⟨c, hat, hc, hsuc, herr, -, hl, hsl⟩ |
      ⟨c, sol', f, eb, base, hat, hsuc, hrun, heb, hbase, herr, hin, himp, hbr⟩
    · -- not removed
      have hna : ¬ Accepted cfg row2 := fun ha => by rw [ha.1] at hsuc; cases hsuc
      have hnr : ¬ Rejected cfg row2 := by rintro ⟨e, h1, -⟩; rw [herr] at h1; cases h1
      have hsame : SameState cfg.net t.red.chem st := by
        rcases attempt_cases hcl hsnd h.snd h.dump hat with ⟨-, hcc | hcc⟩ | ⟨_, _, _, ho, -⟩
        · rw [hc, hcc]; exact h.same
        · rw [hc]; exact hcc
        · cases ho
      rcases hcase with ⟨-, h1, h2⟩ | ⟨hr, -⟩ | ⟨⟨e, h1, -⟩, -⟩
      · exact ⟨_, _, _, _, _, _, keep hna hl hsl hsame (by rw [h1, h.streak, (rejections_snoc).2 hnr]) h2⟩
      · exact absurd hr hnr
      · rw [herr] at h1; cases h1
    · rcases attempt_cases hcl hsnd h.snd h.dump hat with ⟨ho, -⟩ | ⟨sol2, f2, sids, ho, hbk, hdu, -, hsc, hcas⟩
      · cases ho
      obtain ⟨rfl, rfl⟩ : sol' = sol2 ∧ f = f2 := by cases ho; exact ⟨rfl, rfl⟩
      obtain ⟨b0, hb0, hb1, -⟩ := h.base
      obtain ⟨e, rfl⟩ : ∃ e, eb = some e := by
        cases eb with
        | none =>
          rw [hb1] at hbase
          cases hbase
          exact absurd herr (hnan _ hb0 _ _ _ hbk)
        | some e => exact ⟨e, rfl⟩
      rcases hbr with ⟨hbig, hl, hsl, hres⟩ | ⟨hsmall, hc, hsl, hl⟩
      · -- rejected
        have hgt : cfg.maxErr < e := by simpa [tooLarge] using hbig
        have hrej : Rejected cfg row2 := ⟨e, heb, hgt⟩
        have hna := not_accepted_of_rejected hrej
        rcases hcase with ⟨h1, -⟩ | ⟨-, h1, h2⟩ | ⟨⟨e', h1, h2⟩, -⟩
        · rw [heb] at h1; cases h1
        · exact ⟨_, _, _, _, _, _, keep hna hl hsl (restore_same hcl h.snd h.dump hres)
            (by rw [h1, h.streak, (rejections_snoc).1 hrej]) h2⟩
        · rw [heb] at h1; cases h1; exact absurd hgt (not_lt.2 h2)
      · -- accepted
        have hle : e ≤ cfg.maxErr := by simpa [tooLarge] using hsmall
        have hacc : Accepted cfg row2 := ⟨hsuc, e, heb, hle⟩
        have hmono : ∀ n, n ∈ names cfg.net c → n ∈ names cfg.net s.red.chem := by
          intro n hn
          obtain ⟨x, h1, h2, h3, h4⟩ := mem_names.1 hn
          exact mem_names.2 ⟨x, h1, h2, hcas.monoS _ h3, h4⟩
        have hinv : t.streak = 0 ∧ (∃ l, InForce ranking (s.red.history.length + 1) c l ∧
            ∀ e ∈ l, e.1 ∈ t.red.attempted ∨ e.1 ∉ t.red.left ∨ e ∈ t.ranking) := by
          rcases hcase with ⟨h1, -⟩ | ⟨⟨e', h1, h2⟩, -⟩ | ⟨-, h1, ⟨l, h2, h3⟩ | ⟨f', h2, h3⟩⟩
          · rw [heb] at h1; cases h1
          · rw [heb] at h1; cases h1; exact absurd h2 (not_lt.2 hle)
          · refine ⟨h1, rl, ?_, by rw [h3]; exact hrank'⟩
            rcases hrl with hrl | ⟨_, hrl, -⟩
            · exact .inl hrl
            · rw [h2] at hrl; cases hrl
          · refine ⟨h1, t.ranking, .inr ⟨f', h2, ?_⟩, fun e he => .inr (.inr he)⟩
            rw [hc, htr.history] at h3
            simpa using h3
        refine ⟨s.red.history, row2, [], c, f, sol', ?_⟩
        exact {
          hist := htr.history
          acc := hacc
          nacc := fun r hr => by cases hr
          run := hrun
          solved := hbk
          snd := hsc
          dump := hdu
          same := by rw [hc]; exact same_refl _ _
          last := hsl
          base := by
            obtain ⟨b, h1, h2, -⟩ := h.base
            have : b = base := by rw [h2] at hbase; exact Option.some.inj hbase
            subst this
            exact ⟨b, h1, by rw [htr.base]; exact h2, .inr (by rw [heb]; exact herr)⟩
          len := hlen, species := hspecies, nodup := hnodup, tried := htried
          left := fun n => by
            rw [hl, hc, Finset.mem_sdiff, h.left, Finset.mem_sdiff]
            constructor
            · rintro ⟨⟨h1, h2⟩, h3⟩
              exact ⟨h1, by_contra fun h4 => h3 ⟨h2, h4⟩⟩
            · rintro ⟨h1, h2⟩
              exact ⟨⟨h1, hmono n h2⟩, fun h3 => h3.2 h2⟩
          all := htr.all.trans h.all
          sub := fun x hx he => h.sub x hx (by rw [← h.same.enSp x hx]; exact hcas.monoS _ he)
          gone := fun n h1 h2 => by
            by_cases h3 : n ∈ names cfg.net st
            · rw [← hnames] at h3
              by_cases h4 : n = sp
              · subst h4; exact ((h.left _).1 htr.mem).1
              · have := himp (Finset.mem_erase.2 ⟨h4, Finset.mem_sdiff.2 ⟨h3, h2⟩⟩)
                exact ((h.left _).1 (Finset.mem_of_mem_erase this)).1
            · exact h.gone n h1 h3
          prot := fun x hx => by rw [hcas.prot, h.same.protSp x hx]; exact h.prot x hx
          adh := fun x hx hh => hcas.adhoc _ (by rw [h.same.adhocSp x hx]; exact h.adh x hx hh)
          adSt := by rw [hcas.stick, h.same.stick]; exact h.adSt
          adAr := by rw [hcas.arrh, h.same.arrh]; exact h.adAr
          adRe := by rw [hcas.ret]; exact retSame_trans h.same.ret h.adRe
          streak := by rw [hinv.1]; simp [rejections]
          rank := hinv.2 }

/-! ### the theorems -/

omit [Zero R] in
private theorem next_case {cfg : Cfg Sol R} {ranking : Ranking Score} {sorted : List (Str × Score) → Bool}
    {maxStreak : ℕ} {s t : Loop Sol R Score} (h : pass cfg ranking sorted maxStreak s = .next t) :
    PassCase cfg ranking maxStreak s false t := by
  rcases pass_cases (cfg := cfg) (ranking := ranking) (sorted := sorted) (maxStreak := maxStreak) (s := s) with
    ⟨e, he⟩ | ⟨t', he, hc⟩ | ⟨t', he, hc⟩ <;> rw [he] at h <;> cases h
  exact hc

omit [Zero R] in
private theorem done_case {cfg : Cfg Sol R} {ranking : Ranking Score} {sorted : List (Str × Score) → Bool}
    {maxStreak : ℕ} {s t : Loop Sol R Score} (h : pass cfg ranking sorted maxStreak s = .done t) :
    PassCase cfg ranking maxStreak s true t := by
  rcases pass_cases (cfg := cfg) (ranking := ranking) (sorted := sorted) (maxStreak := maxStreak) (s := s) with
    ⟨e, he⟩ | ⟨t', he, hc⟩ | ⟨t', he, hc⟩ <;> rw [he] at h <;> cases h
  exact hc

theorem inv_goes {cfg : Cfg Sol R} {ranking : Ranking Score} {sorted : List (Str × Score) → Bool}
    {maxStreak : ℕ} {chem0 : State} (hs : Sound cfg.net chem0) (hcl : cfg.net.RetClosed) (hmax : 0 ≤ cfg.maxErr)
    (hnan : NeverNan cfg chem0) {red : Red Sol R} {l s : Loop Sol R Score}
    (hi : initRed cfg chem0 = .ok red) (hl : startLoop cfg ranking red = .ok l)
    (hg : Relation.ReflTransGen (Goes cfg ranking sorted maxStreak) l s) :
    s.streak ≤ maxStreak ∧ ∃ pre row post st file sol, LInv cfg ranking chem0 s pre row post st file sol := by
  induction hg with
  | refl =>
    obtain ⟨row, st, file, sol, h⟩ := inv_start hs hmax hi hl
    exact ⟨by rw [(startLoop_ok hl).2.2.2.1]; exact Nat.zero_le _, _, _, _, _, _, _, h⟩
  | tail _ hst ih =>
    obtain ⟨h1, pre, row, post, st, file, sol, h2⟩ := ih
    have hc := next_case hst
    refine ⟨?_, inv_step hcl hnan hc h2⟩
    cases hc with
    | skip sp rest _ _ => exact h1
    | tried sp rest _ row' _ hpop hrem hhist hcase hfin =>
      by_contra hgt
      exact absurd (hfin.2 (.inl (not_le.1 hgt))) (by decide)

theorem inv_visited {cfg : Cfg Sol R} {ranking : Ranking Score} {sorted : List (Str × Score) → Bool}
    {maxStreak : ℕ} {chem0 : State} (hs : Sound cfg.net chem0) (hcl : cfg.net.RetClosed) (hmax : 0 ≤ cfg.maxErr)
    (hnan : NeverNan cfg chem0) {t : Loop Sol R Score}
    (hv : Visited cfg ranking sorted maxStreak chem0 t) :
    ∃ pre row post st file sol, LInv cfg ranking chem0 t pre row post st file sol := by
  obtain ⟨red, l, s, hi, hl, hg, rfl | hd⟩ := hv
  · exact (inv_goes hs hcl hmax hnan hi hl hg).2
  · obtain ⟨-, pre, row, post, st, file, sol, h⟩ := inv_goes hs hcl hmax hnan hi hl hg
    exact inv_step hcl hnan (done_case hd) h

omit [Zero R] in
theorem goes_of_runs {cfg : Cfg Sol R} {ranking : Ranking Score} {sorted : List (Str × Score) → Bool}
    {maxStreak : ℕ} {l : Loop Sol R Score} {r : Except RErr (Loop Sol R Score)}
    (h : Runs cfg ranking sorted maxStreak l r) :
    ∃ s, Relation.ReflTransGen (Goes cfg ranking sorted maxStreak) l s ∧
      ((∃ t, r = .ok t ∧ pass cfg ranking sorted maxStreak s = .done t) ∨
       ∃ e, r = .error e ∧ pass cfg ranking sorted maxStreak s = .raise e) := by
  induction h with
  | done h => exact ⟨_, .refl, .inl ⟨_, rfl, h⟩⟩
  | raise h => exact ⟨_, .refl, .inr ⟨_, rfl, h⟩⟩
  | next h _ ih =>
    obtain ⟨s, h1, h2⟩ := ih
    exact ⟨s, .head h h1, h2⟩

/-- **C43.** At the head of every pass of the loop, and when the loop is left, the chemistry is (up to the order of
dictionaries) the one recorded with the last accepted run, the backend solved the model for exactly that chemistry, and
the error of that solution with respect to the full model is within the threshold.
Hypotheses: the return species exist, the threshold is not negative, no error with respect to the base case is nan. -/
theorem chemistry_is_last_accepted {cfg : Cfg Sol R} {ranking : Ranking Score} {sorted : List (Str × Score) → Bool}
    {maxStreak : ℕ} {chem : State} (hr : Reachable cfg.net chem) (hcl : cfg.net.RetClosed) (hmax : 0 ≤ cfg.maxErr)
    (hnan : NeverNan cfg chem) {t : Loop Sol R Score}
    (hv : Visited cfg ranking sorted maxStreak chem t) :
    ∃ (pre post : List (Row Sol R)) (row : Row Sol R) (st : State) (file : Attrs) (sol base : Sol),
      t.red.history = pre ++ row :: post ∧ Accepted cfg row ∧ (∀ r ∈ post, ¬ Accepted cfg r) ∧
      row.run = some (st, file, sol) ∧ cfg.backend pre.length st = .solved sol ∧ SameState cfg.net t.red.chem st ∧
      t.red.solLast = some sol ∧ cfg.backend 0 chem = .solved base ∧
      (pre = [] ∧ sol = base ∨ ∃ e, cfg.err base sol = some (some e) ∧ e ≤ cfg.maxErr) := by
  obtain ⟨pre, row, post, st, file, sol, h⟩ := inv_visited (.of_reachable hr) hcl hmax hnan hv
  obtain ⟨base, h1, -, h3⟩ := h.base
  refine ⟨pre, post, row, st, file, sol, base, h.hist, h.acc, h.nacc, h.run, h.solved, h.same, h.last, h1, ?_⟩
  rcases h3 with h3 | h3
  · exact .inl h3
  · obtain ⟨-, e, he, hle⟩ := h.acc
    exact .inr ⟨e, by rw [h3, he], hle⟩

/-- **C43.** During the reduction only eligible species are missing from the chemistry, so every important output and
every protected species stays, and the set of species that may still be removed is exactly the set of eligible species
that are still enabled. -/
theorem only_eligible_removed {cfg : Cfg Sol R} {ranking : Ranking Score} {sorted : List (Str × Score) → Bool}
    {maxStreak : ℕ} {chem : State} (hr : Reachable cfg.net chem) (hcl : cfg.net.RetClosed) (hmax : 0 ≤ cfg.maxErr)
    (hnan : NeverNan cfg chem) {t : Loop Sol R Score}
    (hv : Visited cfg ranking sorted maxStreak chem t) :
    (∀ s ∈ cfg.net.species, t.red.chem.enSp s.id = true → chem.enSp s.id = true) ∧
    (∀ n ∈ names cfg.net chem, n ∉ names cfg.net t.red.chem → Eligible cfg chem n) ∧
    (∀ n ∈ names cfg.net chem, n ∈ cfg.important → n ∈ names cfg.net t.red.chem) ∧
    (∀ n, n ∈ t.red.left ↔ Eligible cfg chem n ∧ n ∈ names cfg.net t.red.chem) := by
  obtain ⟨pre, row, post, st, file, sol, h⟩ := inv_visited (.of_reachable hr) hcl hmax hnan hv
  have hn := names_same h.same
  refine ⟨fun s hs he => h.sub s hs (by rw [← h.same.enSp s hs]; exact he), fun n h1 h2 => h.gone n h1 (by rw [← hn]; exact h2),
    fun n h1 h2 => ?_, h.left⟩
  by_contra h3
  exact (h.gone n h1 (by rw [← hn]; exact h3)).1 h2

/-- **C42.** Every species is tried at most once, and only eligible species are tried. (No hypotheses on the oracles.) -/
theorem each_species_once {cfg : Cfg Sol R} {ranking : Ranking Score} {sorted : List (Str × Score) → Bool}
    {maxStreak : ℕ} {chem : State} {t : Loop Sol R Score} (hv : Visited cfg ranking sorted maxStreak chem t) :
    (t.red.history.filterMap Row.species).Nodup ∧
    ∀ n ∈ t.red.history.filterMap Row.species, Eligible cfg chem n := by
  suffices hk : ∀ t : Loop Sol R Score, Visited cfg ranking sorted maxStreak chem t →
      (t.red.history.filterMap Row.species).Nodup ∧ (∀ n ∈ t.red.history.filterMap Row.species, n ∈ t.red.attempted) ∧
      (∀ n ∈ t.red.attempted, Eligible cfg chem n) ∧ ∀ n ∈ t.red.left, Eligible cfg chem n by
    obtain ⟨h1, h2, h3, -⟩ := hk t hv
    exact ⟨h1, fun n hn => h3 n (h2 n hn)⟩
  have step : ∀ (s t : Loop Sol R Score) (fin : Bool), PassCase cfg ranking maxStreak s fin t →
      ((s.red.history.filterMap Row.species).Nodup ∧ (∀ n ∈ s.red.history.filterMap Row.species, n ∈ s.red.attempted) ∧
        (∀ n ∈ s.red.attempted, Eligible cfg chem n) ∧ ∀ n ∈ s.red.left, Eligible cfg chem n) →
      (t.red.history.filterMap Row.species).Nodup ∧ (∀ n ∈ t.red.history.filterMap Row.species, n ∈ t.red.attempted) ∧
        (∀ n ∈ t.red.attempted, Eligible cfg chem n) ∧ ∀ n ∈ t.red.left, Eligible cfg chem n := by
    rintro s t fin hc ⟨h1, h2, h3, h4⟩
    cases hc with
    | over t hov hred hstr hrk => rw [hred]; exact ⟨h1, h2, h3, h4⟩
    | skip sp rest hpop hnl => exact ⟨h1, h2, h3, h4⟩
    | tried sp rest _ row' fin hpop hrem hhist hcase hfin =>
      obtain ⟨row2, file2, htr, -⟩ := removeOne_cases hrem
      have hlist : t.red.history.filterMap Row.species = s.red.history.filterMap Row.species ++ [sp] := by
        rw [htr.history, List.filterMap_append]
        simp [htr.species]
      refine ⟨?_, ?_, ?_, fun n hn => h4 n (removeOne_left hrem hn)⟩
      · rw [hlist, List.nodup_append]
        refine ⟨h1, by simp, ?_⟩
        rintro a ha b hb rfl
        rw [List.mem_singleton] at hb
        subst hb
        exact htr.fresh (h2 _ ha)
      · rw [hlist, htr.attempted]
        intro n hn
        rcases List.mem_append.1 hn with hn | hn
        · exact Finset.mem_insert_of_mem (h2 n hn)
        · rw [List.mem_singleton] at hn; subst hn; exact Finset.mem_insert_self _ _
      · rw [htr.attempted]
        intro n hn
        rcases Finset.mem_insert.1 hn with rfl | hn
        · exact h4 _ htr.mem
        · exact h3 n hn
  rintro t ⟨red, l, s, hi, hl, hg, hend⟩
  have hs : (s.red.history.filterMap Row.species).Nodup ∧
      (∀ n ∈ s.red.history.filterMap Row.species, n ∈ s.red.attempted) ∧
      (∀ n ∈ s.red.attempted, Eligible cfg chem n) ∧ ∀ n ∈ s.red.left, Eligible cfg chem n := by
    clear hend
    induction hg with
    | refl =>
      obtain ⟨i1, i2, i3, i4, i5⟩ := initRed_ok hi
      obtain ⟨-, -, hb, -, -⟩ := startLoop_ok hl
      unfold runBase at hb
      split at hb
      · cases hb
      · split at hb
        · cases hb
        · split at hb
          · cases hb
          · cases hb
          · simp only [Except.ok.injEq] at hb
            rw [← hb]
            simp only [List.filterMap_cons, List.filterMap_nil, i3]
            exact ⟨by simp, fun n hn => (by cases hn), fun n hn => absurd hn (Finset.notMem_empty n),
              fun n hn => (i5 n).1 hn⟩
    | tail _ hst ih => exact step _ _ _ (next_case hst) ih
  rcases hend with rfl | hd
  · exact hs
  · exact step _ _ _ (done_case hd) hs

/-- **C42.** While the loop goes on there are at most `max_unsuccess_streak` rejections since the last accepted run.
When it is left, one of three things has happened: exactly `max_unsuccess_streak + 1` rejections since the last
accepted run (runs that failed do not count), no eligible species is left in the chemistry, or every species of the
ranking in force (the fixed one, or the one computed after the last accepted run) has been tried or may not be
removed. -/
theorem loop_stops {cfg : Cfg Sol R} {ranking : Ranking Score} {sorted : List (Str × Score) → Bool}
    {maxStreak : ℕ} {chem : State} (hr : Reachable cfg.net chem) (hcl : cfg.net.RetClosed) (hmax : 0 ≤ cfg.maxErr)
    (hnan : NeverNan cfg chem) {red : Red Sol R} {l : Loop Sol R Score}
    (hi : initRed cfg chem = .ok red) (hl : startLoop cfg ranking red = .ok l) :
    (∀ t, Relation.ReflTransGen (Goes cfg ranking sorted maxStreak) l t →
      ∃ (pre post : List (Row Sol R)) (row : Row Sol R), t.red.history = pre ++ row :: post ∧ Accepted cfg row ∧
        (∀ r ∈ post, ¬ Accepted cfg r) ∧ rejections cfg post ≤ maxStreak) ∧
    (∀ t, Runs cfg ranking sorted maxStreak l (.ok t) →
      ∃ (pre post : List (Row Sol R)) (row : Row Sol R) (st : State) (file : Attrs) (sol : Sol),
        t.red.history = pre ++ row :: post ∧ Accepted cfg row ∧ (∀ r ∈ post, ¬ Accepted cfg r) ∧
        row.run = some (st, file, sol) ∧
        (rejections cfg post = maxStreak + 1 ∨
         (∀ n, Eligible cfg chem n → n ∉ names cfg.net t.red.chem) ∨
         ∃ rl, InForce ranking (pre.length + 1) st rl ∧
           ∀ e ∈ rl, (∃ r ∈ t.red.history, r.species = some e.1) ∨
             ¬ (Eligible cfg chem e.1 ∧ e.1 ∈ names cfg.net t.red.chem))) := by
  have hs := Sound.of_reachable hr
  constructor
  · intro t ht
    obtain ⟨h1, pre, row, post, st, file, sol, h⟩ := inv_goes hs hcl hmax hnan hi hl ht
    exact ⟨pre, post, row, h.hist, h.acc, h.nacc, by rw [← h.streak]; exact h1⟩
  · intro t ht
    obtain ⟨s, hg, ⟨t', ht', hd⟩ | ⟨e, he, -⟩⟩ := goes_of_runs ht
    · cases ht'
      obtain ⟨h1, pre0, row0, post0, st0, file0, sol0, h0⟩ := inv_goes hs hcl hmax hnan hi hl hg
      have hc := done_case hd
      obtain ⟨pre, row, post, st, file, sol, h⟩ := inv_step hcl hnan hc h0
      refine ⟨pre, post, row, st, file, sol, h.hist, h.acc, h.nacc, h.run, ?_⟩
      obtain ⟨rl, hrl, hrank⟩ := h.rank
      have conv : t.ranking = [] → ∃ rl, InForce ranking (pre.length + 1) st rl ∧
           ∀ e ∈ rl, (∃ r ∈ t.red.history, r.species = some e.1) ∨
             ¬ (Eligible cfg chem e.1 ∧ e.1 ∈ names cfg.net t.red.chem) := by
        intro hk
        refine ⟨rl, hrl, fun e he => ?_⟩
        rcases hrank e he with h' | h' | h'
        · exact .inl ((h.species _).1 h')
        · exact .inr (fun hc => h' ((h.left _).2 hc))
        · rw [hk] at h'; cases h'
      cases hc with
      | over _ hov hred hstr hrk => exact .inr (.inr (conv hrk))
      | tried sp rest _ row' _ hpop hrem hhist hcase hfin =>
        rcases hfin.1 rfl with hgt | hemp
        · left
          rw [← h.streak]
          rcases hcase with ⟨-, h2, -⟩ | ⟨-, h2, -⟩ | ⟨-, h2, -⟩ <;> omega
        · right; left
          intro n h2 h3
          have := (h.left n).2 ⟨h2, h3⟩
          rw [hemp] at this
          exact absurd this (Finset.notMem_empty n)
    · cases he

/-- **C43.** When `run_reduction` returns, the chemistry is what it was before: everything is enabled (it had to be),
the user protection and all ad-hoc attributes are the ones from before. -/
theorem reduction_restores_chemistry {cfg : Cfg Sol R} {ranking : Ranking Score}
    {sorted : List (Str × Score) → Bool} {maxStreak : ℕ} {chem : State} (hr : Reachable cfg.net chem)
    (hcl : cfg.net.RetClosed) (hmax : 0 ≤ cfg.maxErr) (hnan : NeverNan cfg chem) {red r : Red Sol R}
    (hi : initRed cfg chem = .ok red) (h : RunsReduction cfg ranking sorted maxStreak red (.ok r)) :
    (∀ s ∈ cfg.net.species, r.chem.enSp s.id = chem.enSp s.id) ∧
    (∀ x ∈ cfg.net.reactions, r.chem.enR x.id = chem.enR x.id) ∧
    (∀ s ∈ cfg.net.species, r.chem.protSp s.id = chem.protSp s.id) ∧
    r.chem.adStick = chem.adStick ∧ r.chem.adArrhA = chem.adArrhA ∧
    List.Forall₂ (fun x y => x.1 = y.1 ∧ x.2.Perm y.2) r.chem.adRet chem.adRet := by
  unfold RunsReduction at h
  cases hl : startLoop cfg ranking red with
  | error e => rw [hl] at h; cases h
  | ok l =>
    rw [hl] at h
    obtain ⟨x, hx, hrx⟩ := h
    cases x with
    | error e => cases hrx
    | ok t =>
      have hrt : r = finish t := by simpa [Except.map] using hrx
      obtain ⟨s, hg, ⟨t', ht', hd⟩ | ⟨e, he, -⟩⟩ := goes_of_runs hx
      · cases ht'
        obtain ⟨pre, row, post, st, file, sol, h⟩ := inv_visited (.of_reachable hr) hcl hmax hnan
          ⟨red, l, s, hi, hl, hg, .inr hd⟩
        obtain ⟨i1, -⟩ := initRed_ok hi
        obtain ⟨d1, d2, -⟩ := startLoop_ok hl
        rw [i1] at d1 d2
        rw [hrt]
        refine ⟨fun s hs => ?_, fun x hx => ?_, fun s hs => ?_, ?_, ?_, ?_⟩
        · show true = _
          have : s ∉ cfg.net.getDisabledSpecies chem := by rw [d1]; simp
          unfold getDisabledSpecies at this
          simp only [List.mem_filter, hs, true_and, Bool.not_eq_true', Bool.not_eq_false] at this
          exact this.symm
        · show true = _
          have : x ∉ cfg.net.getDisabledReactions chem := by rw [d2]; simp
          unfold getDisabledReactions at this
          simp only [List.mem_filter, hx, true_and, Bool.not_eq_true', Bool.not_eq_false] at this
          exact this.symm
        · exact (h.same.protSp s hs).trans (h.prot s hs)
        · exact h.same.stick.trans h.adSt
        · exact h.same.arrh.trans h.adAr
        · exact retSame_trans h.same.ret h.adRe
      · cases he

end Verif.Fwork.Reduce
