/-
Property C115, first part: in which order a reduction tries the species (pygmo_fwork/optichem/reduction.py:336-370; model in
Reduce.lean).
-/
import Verif.Fwork.ReduceWhole

namespace Verif.Fwork.Reduce
open Verif.Plaschem Verif.Plaschem.Net

variable {Sol R Score : Type} [LinearOrder R] [Zero R]

/-! ### specification -/

/-- The row `row` of a reduction of the chemistry `chem`, after the rows `pre`, is about the first species that could be tried: let
`st` be the chemistry of the last accepted run before the row, number `k` of the history; in the ranking that was in force after that run
(the fixed one, or the one computed then) every species listed before it had been tried, was not eligible, or was no longer in
the chemistry. The species itself is eligible, in the chemistry, and had not been tried. -/
structure FirstOf (cfg : Cfg Sol R) (ranking : Ranking Score) (chem : State) (pre : List (Row Sol R)) (row : Row Sol R) (k : ℕ)
    (st : State) (sp : Str) (before after : List (Str × Score)) (x : Score) : Prop where
  row : row.species = some sp
  last : ∃ a acc b file sol, pre = a ++ acc :: b ∧ a.length = k ∧ Accepted cfg acc ∧ (∀ r ∈ b, ¬ Accepted cfg r) ∧
    acc.run = some (st, file, sol)
  force : InForce ranking (k + 1) st (before ++ (sp, x) :: after)
  before : ∀ e ∈ before, (∃ r ∈ pre, r.species = some e.1) ∨ ¬ Eligible cfg chem e.1 ∨ e.1 ∉ names cfg.net st
  eligible : Eligible cfg chem sp
  present : sp ∈ names cfg.net st
  fresh : ∀ r ∈ pre, r.species ≠ some sp

/-! ### lemmas -/

omit [LinearOrder R] [Zero R] in
/-- what `popNext` takes and leaves -/
theorem popNext_order {att : Finset Str} {l rest : List (Str × Score)} {sp : Str} (h : popNext att l = some (sp, rest)) :
    ∃ w x z, ∃ D : List Str, l = w ++ (sp, x) :: z ∧ (∀ e ∈ w, e.1 ∈ att) ∧ (∀ d ∈ D, d ∈ att ∨ d = sp) ∧
      rest = z.filter (fun e => decide (e.1 ∉ D)) := by
  induction hn : l.length using Nat.strong_induction_on generalizing l with
  | _ n ih =>
    cases l with
    | nil => rw [popNext] at h; cases h
    | cons e l =>
      obtain ⟨y, v⟩ := e
      have hlen : (dropLabel y l).length ≤ l.length := List.length_filter_le _ _
      rw [popNext] at h
      by_cases hy : y ∈ att
      · rw [if_pos hy] at h
        obtain ⟨w, x, z, D, h1, h2, h3, h4⟩ := ih _ (by rw [← hn, List.length_cons]; omega) h rfl
        unfold dropLabel at h1
        obtain ⟨l₁, l₂, rfl, rfl, h6⟩ := List.filter_eq_append_iff.1 h1
        obtain ⟨m, z', rfl, h7, -, rfl⟩ := List.filter_eq_cons_iff.1 h6
        refine ⟨(y, v) :: l₁ ++ m, x, z', y :: D, by simp, fun e he => ?_, fun d hd => ?_, ?_⟩
        · rw [List.cons_append, List.mem_cons, List.mem_append] at he
          rcases he with rfl | he | he
          · exact hy
          · by_cases hey : e.1 = y
            · exact hey ▸ hy
            · exact h2 e (List.mem_filter.2 ⟨he, by simpa using hey⟩)
          · have := h7 e he
            simp only [ne_eq, decide_not, Bool.not_eq_eq_eq_not, Bool.not_true, decide_eq_false_iff_not, not_not] at this
            exact this ▸ hy
        · rcases List.mem_cons.1 hd with rfl | hd
          · exact .inl hy
          · exact h3 d hd
        · rw [h4, List.filter_filter]
          apply List.filter_congr
          intro e _
          simp only [List.mem_cons, not_or, ne_eq, Bool.decide_and]
          exact Bool.and_comm _ _
      · rw [if_neg hy] at h
        simp only [Option.some.injEq, Prod.mk.injEq] at h
        obtain ⟨rfl, rfl⟩ := h
        exact ⟨[], v, l, [y], rfl, (by intro e he; cases he), fun d hd => .inr (List.mem_singleton.1 hd), by
          unfold dropLabel; apply List.filter_congr; intro e _; simp⟩

/-- the species has been tried or cannot be removed -/
def Past (s : Red Sol R) (n : Str) : Prop := n ∈ s.attempted ∨ n ∉ s.left

/-- what the loop has left of the ranking `l` -/
def Rest (s : Loop Sol R Score) (l : List (Str × Score)) : Prop :=
  ∃ u v, ∃ D : List Str, l = u ++ v ∧ s.ranking = v.filter (fun e => decide (e.1 ∉ D)) ∧ (∀ e ∈ u, Past s.red e.1) ∧
    ∀ d ∈ D, Past s.red d

omit [LinearOrder R] [Zero R] in
theorem Rest.whole {s : Loop Sol R Score} : Rest s s.ranking := ⟨[], s.ranking, [], rfl, by simp, by simp, by simp⟩

omit [LinearOrder R] [Zero R] in
/-- the next species, and what is left after it -/
theorem Rest.pop {s : Loop Sol R Score} {l rest : List (Str × Score)} (h : Rest s l) {sp : Str}
    (hp : popNext s.red.attempted s.ranking = some (sp, rest)) :
    ∃ before x after, l = before ++ (sp, x) :: after ∧ (∀ e ∈ before, Past s.red e.1) ∧
      ∃ D : List Str, rest = after.filter (fun e => decide (e.1 ∉ D)) ∧ ∀ d ∈ D, Past s.red d ∨ d = sp := by
  obtain ⟨u, v, D, rfl, h2, h3, h4⟩ := h
  obtain ⟨w, x, z, D', h5, h6, h7, rfl⟩ := popNext_order hp
  rw [h2] at h5
  obtain ⟨l₁, l₂, rfl, rfl, h8⟩ := List.filter_eq_append_iff.1 h5
  obtain ⟨m, z', rfl, h9, -, rfl⟩ := List.filter_eq_cons_iff.1 h8
  refine ⟨u ++ (l₁ ++ m), x, z', by simp, fun e he => ?_, D ++ D', ?_, fun d hd => ?_⟩
  · rcases List.mem_append.1 he with he | he
    · exact h3 e he
    rcases List.mem_append.1 he with he | he
    · by_cases hd : e.1 ∈ D
      · exact h4 _ hd
      · exact .inl (h6 e (List.mem_filter.2 ⟨he, by simpa using hd⟩))
    · exact h4 _ (by simpa using h9 e he)
  · rw [List.filter_filter]
    apply List.filter_congr
    intro e _
    simp only [List.mem_append, not_or, Bool.decide_and]
    exact Bool.and_comm _ _
  · rcases List.mem_append.1 hd with hd | hd
    · exact .inl (h4 _ hd)
    · rcases h7 d hd with hd | hd
      · exact .inl (.inl hd)
      · exact .inr hd

omit [LinearOrder R] [Zero R] in
theorem Rest.after {s t : Loop Sol R Score} {l rest : List (Str × Score)} (h : Rest s l) {sp : Str}
    (hp : popNext s.red.attempted s.ranking = some (sp, rest)) (ht : t.ranking = rest)
    (hm : ∀ n, Past s.red n → Past t.red n) (hs : Past t.red sp) : Rest t l := by
  obtain ⟨before, x, after, rfl, h2, D, h3, h4⟩ := h.pop hp
  refine ⟨before ++ [(sp, x)], after, D, by simp, by rw [ht, h3], fun e he => ?_, fun d hd => ?_⟩
  · rcases List.mem_append.1 he with he | he
    · exact hm _ (h2 e he)
    · rw [List.mem_singleton.1 he]; exact hs
  · rcases h4 d hd with h | rfl
    · exact hm _ h
    · exact hs

theorem last_unique_pre {α : Type} {P : α → Prop} {a b a' b' : List α} {x x' : α} (h : a ++ x :: b = a' ++ x' :: b') (hx : P x)
    (hx' : P x') (hb : ∀ y ∈ b, ¬ P y) (hb' : ∀ y ∈ b', ¬ P y) : a = a' ∧ x = x' ∧ b = b' := by
  rcases List.append_eq_append_iff.1 h with ⟨c, h1, h2⟩ | ⟨c, h1, h2⟩ <;> cases c with
    | nil => cases h2; simp [h1]
    | cons y c =>
      simp only [List.cons_append, List.cons.injEq] at h2
      first
        | exact absurd hx' (hb x' (by rw [h2.2]; simp))
        | exact absurd hx (hb' x (by rw [h2.2]; simp))

/-- the ranking in force and what is left of it -/
def Ranked (cfg : Cfg Sol R) (ranking : Ranking Score) (chem0 : State) (s : Loop Sol R Score) : Prop :=
  ∀ pre row post st file sol, LInv cfg ranking chem0 s pre row post st file sol →
    ∃ l, InForce ranking (pre.length + 1) st l ∧ Rest s l

private theorem past_mono {s t : Red Sol R} (h1 : s.attempted ⊆ t.attempted) (h2 : t.left ⊆ s.left) (n : Str) (h : Past s n) :
    Past t n := h.imp (fun h => h1 h) fun h hc => h (h2 hc)

private theorem ranked_step {cfg : Cfg Sol R} {ranking : Ranking Score} {maxStreak : ℕ} {chem0 : State}
    {s t : Loop Sol R Score} {fin : Bool} (hp : PassCase cfg ranking maxStreak s fin t) {pre : List (Row Sol R)} {row : Row Sol R}
    {post : List (Row Sol R)} {st : State} {file : Attrs} {sol : Sol}
    (h : LInv cfg ranking chem0 s pre row post st file sol) (hs : Ranked cfg ranking chem0 s) : Ranked cfg ranking chem0 t := by
  intro pre' row' post' st' file' sol' h'
  obtain ⟨l, hl, hrest⟩ := hs _ _ _ _ _ _ h
  cases hp with
  | over t hov hred hstr hrk =>
    obtain ⟨rfl, rfl, rfl⟩ := last_unique_pre (P := Accepted cfg) (h.hist.symm.trans (hred ▸ h'.hist)) h.acc h'.acc h.nacc h'.nacc
    have := h.run.symm.trans h'.run
    cases this
    refine ⟨l, hl, l, [], [], by simp, by simp [hrk], fun e he => ?_, by simp⟩
    rw [hred]
    obtain ⟨u, v, D, rfl, h2, h3, h4⟩ := hrest
    rcases List.mem_append.1 he with he | he
    · exact h3 e he
    · by_cases hd : e.1 ∈ D
      · exact h4 _ hd
      · exact .inl (hov e (by rw [h2]; exact List.mem_filter.2 ⟨he, by simpa using hd⟩))
  | skip sp rest hpop hnl =>
    obtain ⟨rfl, rfl, rfl⟩ := last_unique_pre (P := Accepted cfg) (h.hist.symm.trans h'.hist) h.acc h'.acc h.nacc h'.nacc
    have := h.run.symm.trans h'.run
    cases this
    exact ⟨l, hl, hrest.after hpop rfl (fun _ h => h) (.inr hnl)⟩
  | tried sp rest _ row2 fin hpop hrem hhist hcase hfin =>
    obtain ⟨row3, file2, htr, -, hout⟩ := removeOne_cases hrem
    obtain rfl : row3 = row2 := by simpa using htr.history.symm.trans hhist
    have hmono := past_mono (s := s.red) (t := t.red) (by rw [htr.attempted]; exact Finset.subset_insert _ _) (removeOne_left hrem)
    have hpast : Past t.red sp := .inl (by rw [htr.attempted]; exact Finset.mem_insert_self _ _)
    have keep : ¬ Accepted cfg row3 → t.ranking = rest → ∃ l, InForce ranking (pre'.length + 1) st' l ∧ Rest t l := by
      intro hna hrk
      have hh := h'.hist
      rw [htr.history, h.hist] at hh
      obtain ⟨rfl, rfl, rfl⟩ := last_unique_pre (P := Accepted cfg) (b := post ++ [row3]) (by simpa using hh) h.acc h'.acc (by
        intro y hy
        rcases List.mem_append.1 hy with hy | hy
        · exact h.nacc y hy
        · rw [List.mem_singleton.1 hy]; exact hna) h'.nacc
      have := h.run.symm.trans h'.run
      cases this
      exact ⟨l, hl, hrest.after hpop hrk hmono hpast⟩
    rcases hcase with ⟨h1, -, h3⟩ | ⟨⟨e, h1, h2⟩, -, h3⟩ | ⟨⟨e, h1, h2⟩, -, ⟨l', h3, h4⟩ | ⟨f, h3, h4⟩⟩
    · exact keep (by rintro ⟨-, e, he, -⟩; rw [h1] at he; cases he) h3
    · exact keep (by rintro ⟨-, e', he, hle⟩; rw [h1] at he; cases he; exact absurd h2 (not_lt.2 hle)) h3
    · refine ⟨l, ?_, hrest.after hpop h4 hmono hpast⟩
      rcases hl with hl | ⟨_, hl, -⟩
      · exact .inl hl
      · rw [h3] at hl; cases hl
    · refine ⟨t.ranking, .inr ⟨f, h3, ?_⟩, .whole⟩
      rcases hout with ⟨_, -, -, -, h5, -⟩ | ⟨c, sol2, f2, eb, base, -, hsuc, hrun, heb, -, -, -, -, hbr⟩
      · rw [h5] at h1; cases h1
      rw [h1] at heb
      subst heb
      have hacc : Accepted cfg row3 := ⟨hsuc, e, h1, h2⟩
      obtain ⟨rfl, rfl, rfl⟩ := last_unique_pre (P := Accepted cfg) (a := s.red.history) (x := row3) (b := [])
        (htr.history.symm.trans h'.hist) hacc h'.acc (by intro y hy; cases hy) h'.nacc
      have := hrun.symm.trans h'.run
      cases this
      rcases hbr with ⟨hbig, -⟩ | ⟨-, hc, -⟩
      · have : cfg.maxErr < e := by simpa [tooLarge] using hbig
        exact absurd this (not_lt.2 h2)
      · rw [hc, htr.history] at h4
        simpa using h4

/-- what the row says about the order, and what is known about the chemistry `st` -/
private def Ordered (cfg : Cfg Sol R) (ranking : Ranking Score) (chem : State) (pre : List (Row Sol R)) (row : Row Sol R) : Prop :=
  pre ≠ [] → ∃ k st sp before after x, FirstOf cfg ranking chem pre row k st sp before after x ∧ Sound cfg.net st ∧
    List.Forall₂ (fun x y => x.1 = y.1 ∧ x.2.Perm y.2) st.adRet chem.adRet

private theorem ordered_snoc {P : List (Row Sol R) → Row Sol R → Prop} {h : List (Row Sol R)} {row : Row Sol R}
    (hh : ∀ pre row post, h = pre ++ row :: post → P pre row) (hr : P h row) :
    ∀ pre x post, h ++ [row] = pre ++ x :: post → P pre x := by
  intro pre x post he
  rcases List.eq_nil_or_concat post with rfl | ⟨q, y, rfl⟩
  · obtain ⟨rfl, he2⟩ := List.append_inj' he rfl
    cases he2
    exact hr
  · have : h ++ [row] = (pre ++ x :: q) ++ [y] := by rw [he]; simp
    exact hh pre x q (List.append_inj' this rfl).1

private theorem ordered_step {cfg : Cfg Sol R} {ranking : Ranking Score} {maxStreak : ℕ} {chem0 : State}
    {s t : Loop Sol R Score} {fin : Bool} (hp : PassCase cfg ranking maxStreak s fin t) {pre : List (Row Sol R)} {row : Row Sol R}
    {post : List (Row Sol R)} {st : State} {file : Attrs} {sol : Sol}
    (h : LInv cfg ranking chem0 s pre row post st file sol) (hs : Ranked cfg ranking chem0 s)
    (ht : ∀ pre row post, s.red.history = pre ++ row :: post → Ordered cfg ranking chem0 pre row) :
    ∀ pre row post, t.red.history = pre ++ row :: post → Ordered cfg ranking chem0 pre row := by
  cases hp with
  | over t hov hred hstr hrk => rw [hred]; exact ht
  | skip sp rest hpop hnl => exact ht
  | tried sp rest _ row2 fin hpop hrem hhist hcase hfin =>
    obtain ⟨row3, file2, htr, -, hout⟩ := removeOne_cases hrem
    rw [htr.history]
    refine ordered_snoc ht fun _ => ?_
    obtain ⟨l, hl, hrest⟩ := hs _ _ _ _ _ _ h
    obtain ⟨before, x, after, rfl, h2, -⟩ := hrest.pop hpop
    have hnames := names_same h.same
    refine ⟨pre.length, st, sp, before, after, x, ⟨htr.species, ⟨pre, row, post, file, sol, h.hist, rfl, h.acc, h.nacc, h.run⟩, hl,
      fun e he => ?_, ((h.left sp).1 htr.mem).1, hnames ▸ ((h.left sp).1 htr.mem).2, fun r hr hc => ?_⟩, h.snd, h.adRe⟩
    · rcases h2 e he with h3 | h3
      · exact .inl ((h.species _).1 h3)
      · by_cases h4 : Eligible cfg chem0 e.1
        · exact .inr (.inr fun h5 => h3 ((h.left _).2 ⟨h4, by rw [hnames]; exact h5⟩))
        · exact .inr (.inl h4)
    · exact htr.fresh ((h.species _).2 ⟨r, hr, hc⟩)

private theorem step_case {cfg : Cfg Sol R} {ranking : Ranking Score} {sorted : List (Str × Score) → Bool}
    {maxStreak : ℕ} {s t : Loop Sol R Score}
    (h : pass cfg ranking sorted maxStreak s = .next t ∨ pass cfg ranking sorted maxStreak s = .done t) :
    ∃ fin, PassCase cfg ranking maxStreak s fin t := by
  rcases pass_cases (cfg := cfg) (ranking := ranking) (sorted := sorted) (maxStreak := maxStreak) (s := s) with
    ⟨e, he⟩ | ⟨t', he, hc⟩ | ⟨t', he, hc⟩ <;> rw [he] at h <;> rcases h with h | h <;> cases h
  · exact ⟨_, hc⟩
  · exact ⟨_, hc⟩

/-- `tried_in_order` with what is known about the chemistry -/
theorem rows_ordered {cfg : Cfg Sol R} {ranking : Ranking Score} {sorted : List (Str × Score) → Bool}
    {maxStreak : ℕ} {chem : State} (hr : Reachable cfg.net chem) (hcl : cfg.net.RetClosed) (hmax : 0 ≤ cfg.maxErr)
    (hnan : NeverNan cfg chem) {t : Loop Sol R Score}
    (hv : Visited cfg ranking sorted maxStreak chem t) {pre post : List (Row Sol R)} {row : Row Sol R}
    (hh : t.red.history = pre ++ row :: post) (hpre : pre ≠ []) :
    ∃ k st sp before after x, FirstOf cfg ranking chem pre row k st sp before after x ∧ Sound cfg.net st ∧
      List.Forall₂ (fun x y => x.1 = y.1 ∧ x.2.Perm y.2) st.adRet chem.adRet := by
  obtain ⟨red, l, s, hi, hl, hg, hend⟩ := hv
  have hs := Sound.of_reachable hr
  have key : Ranked cfg ranking chem s ∧ ∀ pre row post, s.red.history = pre ++ row :: post → Ordered cfg ranking chem pre row := by
    clear hend
    induction hg with
    | refl =>
      obtain ⟨row0, st0, file0, sol0, h0⟩ := inv_start hs hmax hi hl
      constructor
      · intro pre row post st file sol h
        obtain ⟨rfl, rfl, rfl⟩ := last_unique_pre (P := Accepted cfg) (h0.hist.symm.trans h.hist) h0.acc h.acc h0.nacc h.nacc
        have := h0.run.symm.trans h.run
        cases this
        obtain ⟨-, -, -, -, h5⟩ := startLoop_ok hl
        refine ⟨l.ranking, ?_, .whole⟩
        rcases h5 with h5 | ⟨f, h5, h6⟩
        · exact .inl h5
        · obtain ⟨rl, hrl, -⟩ := h0.rank
          have hst : l.red.chem = st0 := by
            have hb := (startLoop_ok hl).2.2.1
            have hrun := h0.run
            have hhist := h0.hist
            unfold runBase at hb
            split at hb
            · cases hb
            · split at hb
              · cases hb
              · split at hb
                · cases hb
                · cases hb
                · simp only [Except.ok.injEq] at hb
                  rw [← hb] at hhist ⊢
                  simp only [List.nil_append, List.cons.injEq] at hhist
                  rw [← hhist.1] at hrun
                  simp only [Option.some.injEq, Prod.mk.injEq] at hrun
                  exact hrun.1
          rw [h0.hist, hst] at h6
          exact .inr ⟨f, h5, h6⟩
      · intro pre row post he hp
        rw [h0.hist] at he
        cases pre with
        | nil => exact absurd rfl hp
        | cons a pre => simp at he
    | @tail b c hb hst ih =>
      obtain ⟨-, _, _, _, _, _, _, hinv⟩ := inv_goes hs hcl hmax hnan hi hl hb
      obtain ⟨fin, hc⟩ := step_case (.inl hst)
      exact ⟨ranked_step hc hinv ih.1, ordered_step hc hinv ih.1 ih.2⟩
  have : ∀ pre row post, t.red.history = pre ++ row :: post → Ordered cfg ranking chem pre row := by
    rcases hend with rfl | hd
    · exact key.2
    · obtain ⟨-, _, _, _, _, _, _, hinv⟩ := inv_goes hs hcl hmax hnan hi hl hg
      obtain ⟨fin, hc⟩ := step_case (.inr hd)
      exact ordered_step hc hinv key.1 key.2
  exact this pre row post hh hpre

/-! ### theorems -/

/-- **C115.** Every row of every reduction but that of the base case is about the first species of the ranking in force that could be
tried. -/
theorem tried_in_order {cfg : Cfg Sol R} {ranking : Ranking Score} {sorted : List (Str × Score) → Bool}
    {maxStreak : ℕ} {chem : State} (hr : Reachable cfg.net chem) (hcl : cfg.net.RetClosed) (hmax : 0 ≤ cfg.maxErr)
    (hnan : NeverNan cfg chem) {t : Loop Sol R Score}
    (hv : Visited cfg ranking sorted maxStreak chem t) {pre post : List (Row Sol R)} {row : Row Sol R}
    (hh : t.red.history = pre ++ row :: post) (hpre : pre ≠ []) :
    ∃ k st sp before after x, FirstOf cfg ranking chem pre row k st sp before after x := by
  obtain ⟨k, st, sp, before, after, x, h, -⟩ := rows_ordered hr hcl hmax hnan hv hh hpre
  exact ⟨k, st, sp, before, after, x, h⟩

/-- **C115.** If the rankings are in ascending order, the species that is tried has the lowest score among those that are eligible, in
the chemistry and not tried yet. -/
theorem lowest_first {cfg : Cfg Sol R} {ranking : Ranking Score} {le : Score → Score → Prop} (hle : ∀ x, le x x) {chem : State}
    {pre : List (Row Sol R)} {row : Row Sol R} {k : ℕ} {st : State} {sp : Str} {before after : List (Str × Score)} {x : Score}
    (h : FirstOf cfg ranking chem pre row k st sp before after x)
    (hs : (before ++ (sp, x) :: after).Pairwise fun a b => le a.2 b.2) {n : Str} {y : Score}
    (hn : (n, y) ∈ before ++ (sp, x) :: after) (he : Eligible cfg chem n) (hp : n ∈ names cfg.net st)
    (hf : ∀ r ∈ pre, r.species ≠ some n) : le x y := by
  rcases List.mem_append.1 hn with hn | hn
  · rcases h.before _ hn with ⟨r, h1, h2⟩ | h1 | h1
    · exact absurd h2 (hf r h1)
    · exact absurd he h1
    · exact absurd hp h1
  · rcases List.mem_cons.1 hn with hn | hn
    · cases hn; exact hle _
    · exact (List.pairwise_cons.1 (List.pairwise_append.1 hs).2.1).1 _ hn

end Verif.Fwork.Reduce
