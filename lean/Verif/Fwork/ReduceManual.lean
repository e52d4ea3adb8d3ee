/-
Property C98: a reduction stepped by hand, with `run_base_case` and `remove_one_species_and_run` in any order, with or without
backtracking, and what happens when a reduction is run again.
-/
import Verif.Fwork.ReduceRows

namespace Verif.Fwork.Reduce
open Verif.Plaschem
open Verif.Plaschem.Net

variable {Sol R Score : Type} [LinearOrder R] [Zero R]

/-! ### Model -/

/-- a call of one of the public methods -/
inductive Call where
  /-- `run_base_case()` -/
  | base
  /-- `remove_one_species_and_run(species, backtrack_if_over_max_error=back)` -/
  | remove (species : Str) (back : Bool)
deriving DecidableEq

/-- reduction.py:142-277 -/
def call (cfg : Cfg Sol R) (s : Red Sol R) : Call → Except RErr (Red Sol R)
  | .base => runBase cfg s
  | .remove sp bt => removeOne cfg s sp bt

/-- reduction.py:97-103 `can_be_removed` -/
def canBeRemoved (s : Red Sol R) (sp : Str) : Prop := sp ∈ s.left

/-- The iterator made for the chemistry `chem` after the calls that returned. `ReductionRunError` is raised before anything
is changed (`protocol` below says exactly when), so calls that raise it are left out; the model does not go on after other
exceptions. -/
inductive Stepped (cfg : Cfg Sol R) (chem : State) : List Call → Red Sol R → Prop
  | init {red : Red Sol R} : initRed cfg chem = .ok red → Stepped cfg chem [] red
  | call {l : List Call} {s s' : Red Sol R} {c : Call} : Stepped cfg chem l s → call cfg s c = .ok s' →
      Stepped cfg chem (l ++ [c]) s'

/-! ### Specification -/

/-- the row is one the iterator goes back to, if called with `back` -/
def Kept (cfg : Cfg Sol R) (back : Bool) (r : Row Sol R) : Prop :=
  r.success = true ∧ (back = true → ∃ e, r.errBase = some e ∧ e ≤ cfg.maxErr)

/-- the calls and the rows agree: nothing, or the base case and one row for each species, in order -/
structure Protocol (cfg : Cfg Sol R) (chem : State) (l : List Call) (s : Red Sol R) (rm : List (Str × Bool)) : Prop where
  calls : l = .base :: rm.map (fun p => .remove p.1 p.2)
  rows : s.history.map Row.species = none :: rm.map (fun p => some p.1)
  once : (rm.map Prod.fst).Nodup
  eligible : ∀ p ∈ rm, Eligible cfg chem p.1

/-! ### Proofs -/

omit [Zero R] in
theorem restorable_kept {cfg : Cfg Sol R} {b : Bool} {r : Row Sol R} : restorable cfg b r = true ↔ Kept cfg b r := by
  unfold restorable Kept
  cases b <;> cases r.errBase <;> simp

omit [Zero R] in
theorem restoreFile_kept {cfg : Cfg Sol R} {b : Bool} {h pre post : List (Row Sol R)} {row : Row Sol R} {st : State}
    {file : Attrs} {sol : Sol} (hh : h = pre ++ row :: post) (ha : Kept cfg b row) (hn : ∀ r ∈ post, ¬ Kept cfg b r)
    (hr : row.run = some (st, file, sol)) : restoreFile cfg b h = some file := by
  have h1 : post.filter (restorable cfg b) = [] := by
    rw [List.filter_eq_nil_iff]
    intro r hr hc
    exact hn r hr (restorable_kept.1 hc)
  have h2 : h.filter (restorable cfg b) = pre.filter (restorable cfg b) ++ [row] := by
    rw [hh, List.filter_append, List.filter_cons, if_pos (restorable_kept.2 ha), h1]
  unfold restoreFile
  rw [h2, List.filterMap_append]
  simp [hr]

omit [LinearOrder R] in
/-- the base case, if it returns -/
theorem runBase_ok {cfg : Cfg Sol R} {s s' : Red Sol R} (h : runBase cfg s = .ok s') :
    s.history = [] ∧ s.attempted = ∅ ∧ ∃ sol file, cfg.backend 0 s.chem = .solved sol ∧
      cfg.net.dump cfg.path cfg.hash s.chem = .ok file ∧
      s' = { s with
        history := [{ species := none, success := true, additional := ∅, totalRemoved := 0, totalLeft := s.all.card,
                      run := some (s.chem, file, sol), errBase := some 0, errLast := some 0 }]
        solBase := some sol, solLast := some sol } := by
  unfold runBase at h
  split at h
  · cases h
  · rename_i h1
    split at h
    · cases h
    · rename_i h2
      push Not at h1 h2
      split at h
      · cases h
      · cases h
      · rename_i sol file hrun
        unfold runModel at hrun
        cases hb : cfg.backend 0 s.chem with
        | failed => rw [hb] at hrun; cases hrun
        | raised => rw [hb] at hrun; cases hrun
        | solved sol' =>
          rw [hb] at hrun
          simp only at hrun
          cases hd : cfg.net.dump cfg.path cfg.hash s.chem with
          | error e => rw [hd] at hrun; cases hrun
          | ok f =>
            rw [hd] at hrun
            cases hrun
            exact ⟨h1, h2.1, _, _, rfl, rfl, (Except.ok.inj h).symm⟩

/-- the invariant of all histories -/
structure MInv (cfg : Cfg Sol R) (chem0 : State) (l : List Call) (s : Red Sol R) : Prop where
  start : l = [] → initRed cfg chem0 = .ok s
  steps : l ≠ [] → ∃ rm, Protocol cfg chem0 l s rm
  att : ∀ n, n ∈ s.attempted ↔ ∃ r ∈ s.history, r.species = some n
  card : s.history ≠ [] → s.history.length = s.attempted.card + 1
  left : ∀ n ∈ s.left, Eligible cfg chem0 n
  all : s.all = names cfg.net chem0
  snd : Sound cfg.net s.chem
  base : s.history ≠ [] → ∃ base, cfg.backend 0 chem0 = .solved base ∧ s.solBase = some base
  runs : ∀ r ∈ s.history, r.success = true → ∃ st file sol, r.run = some (st, file, sol) ∧ Sound cfg.net st ∧
    cfg.net.dump cfg.path cfg.hash st = .ok file
  now : s.history ≠ [] → ∃ r ∈ s.history, r.success = true ∧ ∃ st file sol, r.run = some (st, file, sol) ∧
    SameState cfg.net s.chem st

private theorem sameRefl (net : Net) (a : State) : SameState net a a :=
  ⟨fun _ _ => rfl, fun _ _ => rfl, fun _ _ => rfl, fun _ _ => rfl, rfl, rfl, List.forall₂_same.2 fun _ _ => ⟨rfl, .refl _⟩⟩

private theorem sameTrans {net : Net} {a b c : State} (h1 : SameState net a b) (h2 : SameState net b c) :
    SameState net a c where
  enSp s hs := (h1.enSp s hs).trans (h2.enSp s hs)
  enR r hr := (h1.enR r hr).trans (h2.enR r hr)
  protSp s hs := (h1.protSp s hs).trans (h2.protSp s hs)
  adhocSp s hs := (h1.adhocSp s hs).trans (h2.adhocSp s hs)
  stick := h1.stick.trans h2.stick
  arrh := h1.arrh.trans h2.arrh
  ret := by
    have : ∀ {x y z : Dict Nat (Dict Str ℚ)}, List.Forall₂ (fun x y => x.1 = y.1 ∧ x.2.Perm y.2) x y →
        List.Forall₂ (fun x y => x.1 = y.1 ∧ x.2.Perm y.2) y z →
        List.Forall₂ (fun x y => x.1 = y.1 ∧ x.2.Perm y.2) x z := by
      intro x y z h
      induction h generalizing z with
      | nil => intro h; cases h; exact .nil
      | cons h _ ih => intro h2; cases h2 with | cons h' h2 => exact .cons ⟨h.1.trans h'.1, h.2.trans h'.2⟩ (ih h2)
    exact this h1.ret h2.ret

omit [Zero R] in
/-- the file that is restored is that of a successful row -/
theorem restoreFile_mem {cfg : Cfg Sol R} {b : Bool} {h : List (Row Sol R)} {file : Attrs}
    (hr : restoreFile cfg b h = some file) : ∃ r ∈ h, Kept cfg b r ∧ ∃ st sol, r.run = some (st, file, sol) := by
  unfold restoreFile at hr
  cases hl : ((h.filter (restorable cfg b)).filterMap Row.run).getLast? with
  | none => rw [hl] at hr; cases hr
  | some p =>
    rw [hl] at hr
    obtain ⟨st, f, sol⟩ := p
    obtain rfl : f = file := Option.some.inj hr
    have := List.mem_of_getLast? hl
    obtain ⟨r, h1, h2⟩ := List.mem_filterMap.1 this
    obtain ⟨h3, h4⟩ := List.mem_filter.1 h1
    exact ⟨r, h3, restorable_kept.1 h4, st, sol, h2⟩

theorem minv {cfg : Cfg Sol R} {chem : State} (hs : Sound cfg.net chem) (hcl : cfg.net.RetClosed) {l : List Call}
    {s : Red Sol R} (h : Stepped cfg chem l s) : MInv cfg chem l s := by
  induction h with
  | @init red hi =>
    obtain ⟨i1, i2, i3, i4, i5⟩ := initRed_ok hi
    exact { start := fun _ => hi, steps := fun h => absurd rfl h, att := by simp [i3, i4], card := fun h => absurd i4 h
            left := fun n hn => (i5 n).1 hn, all := i2, snd := by rw [i1]; exact hs
            base := fun h => absurd i4 h
            runs := fun r hr => by rw [i4] at hr; cases hr
            now := fun h => absurd i4 h }
  | @call l s s' c _ hc ih =>
    have hne : l ++ [c] ≠ [] := by simp
    cases c with
    | base =>
      obtain ⟨b1, b2, sol, file, hbk, hd, rfl⟩ := runBase_ok hc
      have hl : l = [] := by
        by_contra hl
        obtain ⟨rm, hp⟩ := ih.steps hl
        have := hp.rows
        rw [b1] at this
        simp at this
      have hi := ih.start hl
      obtain ⟨i1, i2, i3, i4, i5⟩ := initRed_ok hi
      exact {
        start := fun h => absurd h hne
        steps := fun _ => ⟨[], by simp [hl], by simp, by simp, fun p hp => by cases hp⟩
        att := by simp [b2]
        card := fun _ => by simp [b2]
        left := ih.left, all := ih.all, snd := ih.snd
        base := fun _ => ⟨sol, by rw [← i1]; exact hbk, rfl⟩
        runs := fun r hr _ => by
          rw [List.mem_singleton] at hr
          subst hr
          exact ⟨_, _, _, rfl, ih.snd, hd⟩
        now := fun _ => ⟨_, List.mem_singleton.2 rfl, rfl, _, _, _, rfl, sameRefl _ _⟩ }
    | remove sp bt =>
      change removeOne cfg s sp bt = .ok s' at hc
      obtain ⟨row, file, htr, hrest, hout⟩ := removeOne_cases hc
      obtain ⟨row2, hhist, hsp, -, -⟩ := removeOne_row hc
      have hnh : s.history ≠ [] := by
        intro h0
        rw [removeOne, if_pos h0] at hc
        cases hc
      have hl : l ≠ [] := by
        intro hl
        exact hnh (initRed_ok (ih.start hl)).2.2.2.1
      obtain ⟨rm, hp⟩ := ih.steps hl
      obtain ⟨rr, hrr, hkept, st, sol, hrun⟩ := restoreFile_mem hrest
      obtain ⟨st', file', sol', hrun', hsnd, hdump⟩ := ih.runs rr hrr hkept.1
      rw [hrun] at hrun'
      obtain ⟨rfl, rfl, rfl⟩ : st = st' ∧ file = file' ∧ sol = sol' := by simpa using hrun'
      have hspecies : ∀ n, n ∈ s'.attempted ↔ ∃ r ∈ s'.history, r.species = some n := by
        intro n
        rw [htr.attempted, htr.history, Finset.mem_insert, ih.att]
        constructor
        · rintro (rfl | ⟨r, h1, h2⟩)
          · exact ⟨row, by simp, htr.species⟩
          · exact ⟨r, by simp [h1], h2⟩
        · rintro ⟨r, h1, h2⟩
          rcases List.mem_append.1 h1 with h1 | h1
          · exact .inr ⟨r, h1, h2⟩
          · rw [List.mem_singleton] at h1
            subst h1
            rw [htr.species] at h2
            exact .inl (Option.some.inj h2).symm
      have hnew : sp ∉ rm.map Prod.fst := by
        intro hm
        obtain ⟨p, h1, rfl⟩ := List.mem_map.1 hm
        have : some p.1 ∈ s.history.map Row.species := by
          rw [hp.rows]; exact List.mem_cons_of_mem _ (List.mem_map.2 ⟨p, h1, rfl⟩)
        obtain ⟨r, h2, h3⟩ := List.mem_map.1 this
        exact htr.fresh ((ih.att _).2 ⟨r, h2, h3⟩)
      have hchem : Sound cfg.net s'.chem ∧ (∀ r ∈ s'.history, r.success = true → ∃ st file sol,
          r.run = some (st, file, sol) ∧ Sound cfg.net st ∧ cfg.net.dump cfg.path cfg.hash st = .ok file) ∧
          ∃ r ∈ s'.history, r.success = true ∧ ∃ st file sol, r.run = some (st, file, sol) ∧
            SameState cfg.net s'.chem st := by
        rw [htr.history]
        rcases hout with ⟨c, hat, hc', hsuc, -, -, -, -⟩ |
          ⟨c, sol', f, eb, base, hat, hsuc, hrun', -, -, -, -, -, hbr⟩
        · refine ⟨?_, fun r hr h1 => ?_, ?_⟩
          · rcases attempt_cases hcl ih.snd hsnd hdump hat with ⟨-, hcc | hcc⟩ | ⟨_, _, _, ho, -⟩
            · rw [hc', hcc]; exact ih.snd
            · rw [hc']; exact hsnd.same hcc
            · cases ho
          · rcases List.mem_append.1 hr with hr | hr
            · exact ih.runs r hr h1
            · rw [List.mem_singleton] at hr
              subst hr
              rw [hsuc] at h1; cases h1
          · rcases attempt_cases hcl ih.snd hsnd hdump hat with ⟨-, hcc | hcc⟩ | ⟨_, _, _, ho, -⟩
            · obtain ⟨r, h1, h2, h3⟩ := ih.now hnh
              rw [hc', hcc]
              exact ⟨r, List.mem_append_left _ h1, h2, h3⟩
            · rw [hc']
              exact ⟨rr, List.mem_append_left _ hrr, hkept.1, st, file, sol, hrun, hcc⟩
            · cases ho
        · rcases attempt_cases hcl ih.snd hsnd hdump hat with ⟨ho, -⟩ | ⟨sol2, f2, sids, ho, hbk, hdu, -, hsc, hcas⟩
          · cases ho
          obtain ⟨rfl, rfl⟩ : sol' = sol2 ∧ f = f2 := by cases ho; exact ⟨rfl, rfl⟩
          refine ⟨?_, fun r hr h1 => ?_, ?_⟩
          · rcases hbr with ⟨-, -, -, hres⟩ | ⟨-, hcc, -, -⟩
            · exact hsnd.same (restore_same hcl hsnd hdump hres)
            · rw [hcc]; exact hsc
          · rcases List.mem_append.1 hr with hr | hr
            · exact ih.runs r hr h1
            · rw [List.mem_singleton] at hr
              subst hr
              exact ⟨_, _, _, hrun', hsc, hdu⟩
          · rcases hbr with ⟨-, -, -, hres⟩ | ⟨-, hcc, -, -⟩
            · exact ⟨rr, List.mem_append_left _ hrr, hkept.1, st, file, sol, hrun, restore_same hcl hsnd hdump hres⟩
            · exact ⟨row, by simp, hsuc, c, f, sol', hrun', by rw [hcc]; exact sameRefl _ _⟩
      exact {
        start := fun h => absurd h hne
        steps := fun _ => ⟨rm ++ [(sp, bt)], by rw [hp.calls]; simp, by
            rw [htr.history, List.map_append, hp.rows]; simp [htr.species], by
            rw [List.map_append, List.nodup_append]
            refine ⟨hp.once, by simp, ?_⟩
            rintro a ha b hb rfl
            simp at hb
            subst hb
            exact hnew ha, fun p hpm => by
            rcases List.mem_append.1 hpm with hpm | hpm
            · exact hp.eligible p hpm
            · rw [List.mem_singleton] at hpm
              subst hpm
              exact ih.left _ htr.mem⟩
        att := hspecies
        card := fun _ => by
          rw [htr.history, htr.attempted, Finset.card_insert_of_notMem htr.fresh, List.length_append, ih.card hnh]
          rfl
        left := fun n hn => ih.left n (removeOne_left hc hn)
        all := htr.all.trans ih.all
        snd := hchem.1
        base := fun _ => by rw [htr.base]; exact ih.base hnh
        runs := hchem.2.1
        now := fun _ => hchem.2.2 }

/-- **C98.** The order of calls: the base case comes first and only once, then come removals, each species at most once and only
eligible ones; there is one row for each call, in order, about the species of the call. -/
theorem calls_in_order {cfg : Cfg Sol R} {chem : State} (hr : Reachable cfg.net chem) (hcl : cfg.net.RetClosed)
    {l : List Call} {s : Red Sol R} (h : Stepped cfg chem l s) :
    (l = [] ∧ s.history = []) ∨ ∃ rm, Protocol cfg chem l s rm := by
  have m := minv (Sound.of_reachable hr) hcl h
  by_cases hl : l = []
  · exact .inl ⟨hl, (initRed_ok (m.start hl)).2.2.2.1⟩
  · exact .inr (m.steps hl)

/-- **C98.** `ReductionRunError` is raised by `run_base_case` exactly if something returned before, by
`remove_one_species_and_run` exactly if nothing did or `can_be_removed` says no. Only eligible species can be removed. -/
theorem protocol {cfg : Cfg Sol R} {chem : State} (hr : Reachable cfg.net chem) (hcl : cfg.net.RetClosed)
    {l : List Call} {s : Red Sol R} (h : Stepped cfg chem l s) :
    (call cfg s .base = .error .run ↔ l ≠ []) ∧
    (∀ sp bt, call cfg s (.remove sp bt) = .error .run ↔ l = [] ∨ ¬ canBeRemoved s sp) ∧
    ∀ sp, canBeRemoved s sp → Eligible cfg chem sp := by
  have m := minv (Sound.of_reachable hr) hcl h
  have hh : l = [] ↔ s.history = [] := by
    constructor
    · intro hl; exact (initRed_ok (m.start hl)).2.2.2.1
    · intro h0
      by_contra hl
      obtain ⟨rm, hp⟩ := m.steps hl
      have := hp.rows
      rw [h0] at this
      simp at this
  refine ⟨?_, fun sp bt => ?_, fun sp => m.left sp⟩
  · rw [Ne, hh]
    constructor
    · intro hc h0
      change runBase cfg s = _ at hc
      rw [runBase, if_neg (by rw [h0]; simp)] at hc
      split at hc
      · cases hc
      · split at hc
        · cases hc
        · rename_i e he
          unfold runModel at he
          split at he
          · cases he
          · cases he; cases hc
          · split at he
            · cases he; cases hc
            · cases he
        · cases hc
    · intro h0
      change runBase cfg s = _
      rw [runBase, if_pos h0]
  · rw [hh]
    constructor
    · intro hc
      change removeOne cfg s sp bt = _ at hc
      by_contra hcon
      push Not at hcon
      obtain ⟨h1, h2⟩ := hcon
      have h2 : sp ∈ s.left := h2
      rw [removeOne, if_neg h1, if_neg (not_not.2 h2)] at hc
      split at hc
      · cases hc
      · split at hc
        · cases hc
        · split at hc
          · cases hc
          · rename_i file hf
            split at hc
            · rename_i e he
              cases hc
              unfold attempt at he
              split at he
              · cases he
              · cases he
              · split at he
                · cases he
                · rename_i hrun
                  unfold runModel at hrun
                  split at hrun
                  · cases hrun
                  · cases hrun; cases he
                  · split at hrun
                    · cases hrun; cases he
                    · cases hrun
                · split at he
                  · rename_i hres
                    unfold restore at hres
                    split at hres
                    · cases hres
                    · cases hres; cases he
                  · cases he
            · cases hc
            · unfold record at hc
              simp only at hc
              split at hc
              · cases hc
              · split at hc
                · cases hc
                · split at hc
                  · split at hc
                    · split at hc
                      · split at hc
                        · rename_i hres
                          unfold restore at hres
                          split at hres
                          · cases hres
                          · cases hres; cases hc
                        · cases hc
                      · cases hc
                    · cases hc
                  · cases hc
    · intro hc
      change removeOne cfg s sp bt = _
      by_cases h1 : s.history = []
      · rw [removeOne, if_pos h1]
      · rw [removeOne, if_neg h1, if_pos (show sp ∉ s.left from hc.resolve_left h1)]

/-- **C98.** In every history, whatever the flags, the chemistry is that of a successful run of the history (a state, not a
mixture), and the number of rows counts the species tried. -/
theorem chemistry_of_a_row {cfg : Cfg Sol R} {chem : State} (hr : Reachable cfg.net chem) (hcl : cfg.net.RetClosed)
    {l : List Call} {s : Red Sol R} (h : Stepped cfg chem l s) (hl : l ≠ []) :
    s.history.length = s.attempted.card + 1 ∧ ∃ r ∈ s.history, r.success = true ∧
      ∃ st file sol, r.run = some (st, file, sol) ∧ SameState cfg.net s.chem st := by
  have m := minv (Sound.of_reachable hr) hcl h
  have h0 : s.history ≠ [] := by
    intro h0
    obtain ⟨rm, hp⟩ := m.steps hl
    have := hp.rows
    rw [h0] at this
    simp at this
  exact ⟨m.card h0, m.now h0⟩

/-! ### one mode only -/

/-- all removals were called with the flag `back` -/
def Only (back : Bool) (l : List Call) : Prop := ∀ sp b, Call.remove sp b ∈ l → b = back

/-- `row` is the last row the iterator goes back to, made with the chemistry `st` -/
structure UInv (cfg : Cfg Sol R) (back : Bool) (chem0 : State) (s : Red Sol R) (pre : List (Row Sol R)) (row : Row Sol R)
    (post : List (Row Sol R)) (st : State) (file : Attrs) (sol : Sol) : Prop where
  hist : s.history = pre ++ row :: post
  kept : Kept cfg back row
  nkept : ∀ r ∈ post, ¬ Kept cfg back r
  run : row.run = some (st, file, sol)
  snd : Sound cfg.net st
  dump : cfg.net.dump cfg.path cfg.hash st = .ok file
  same : SameState cfg.net s.chem st
  left : ∀ n, n ∈ s.left ↔ Eligible cfg chem0 n ∧ n ∈ names cfg.net s.chem
  down : back = false → s.history.Pairwise (fun a b => b.totalLeft ≤ a.totalLeft) ∧
    ∀ r ∈ s.history, (names cfg.net s.chem).card ≤ r.totalLeft

theorem uinv {cfg : Cfg Sol R} {chem : State} (hs : Sound cfg.net chem) (hcl : cfg.net.RetClosed) {back : Bool}
    (hmax : back = true → 0 ≤ cfg.maxErr) (hnan : back = true → NeverNan cfg chem) {l : List Call}
    {s : Red Sol R} (h : Stepped cfg chem l s) (ho : Only back l) (hl : l ≠ []) :
    ∃ pre row post st file sol, UInv cfg back chem s pre row post st file sol := by
  induction h with
  | @init red hi => exact absurd rfl hl
  | @call l s s' c hst hc ih =>
    have m := minv hs hcl hst
    have ho' : Only back l := fun sp b hb => ho sp b (List.mem_append_left _ hb)
    cases c with
    | base =>
      obtain ⟨b1, b2, sol, file, hbk, hd, rfl⟩ := runBase_ok hc
      have hl : l = [] := by
        by_contra hl
        obtain ⟨rm, hp⟩ := m.steps hl
        have := hp.rows
        rw [b1] at this
        simp at this
      obtain ⟨i1, i2, i3, i4, i5⟩ := initRed_ok (m.start hl)
      refine ⟨[], _, [], s.chem, file, sol, rfl, ⟨rfl, fun hb => ⟨0, rfl, hmax hb⟩⟩, fun r hr => (by cases hr), rfl, m.snd, hd,
        sameRefl _ _, fun n => ?_, fun _ => ⟨by simp, fun r hr => ?_⟩⟩
      · simp only [i5, i1]
        exact ⟨fun h => ⟨h, h.mem_names⟩, fun h => h.1⟩
      · rw [List.mem_singleton] at hr
        subst hr
        simp only [i2, i1, le_refl]
    | remove sp bt =>
      obtain rfl : bt = back := ho sp bt (by simp)
      change removeOne cfg s sp bt = .ok s' at hc
      have hnh : s.history ≠ [] := by
        intro h0
        rw [removeOne, if_pos h0] at hc
        cases hc
      have hl' : l ≠ [] := by
        intro hl
        exact hnh (initRed_ok (m.start hl)).2.2.2.1
      obtain ⟨pre, row, post, st, file, sol, h⟩ := ih ho' hl'
      obtain ⟨row2, file2, htr, hrest, hout⟩ := removeOne_cases hc
      obtain ⟨row3, hhist3, -, -, hrow3⟩ := removeOne_row hc
      have h23 : row3 = row2 := by simpa using hhist3.symm.trans htr.history
      subst h23
      have hfile : file2 = file := by
        rw [restoreFile_kept h.hist h.kept h.nkept h.run] at hrest
        exact (Option.some.inj hrest).symm
      subst hfile
      have hnames : names cfg.net s.chem = names cfg.net st := names_same h.same
      have keep : ¬ Kept cfg bt row3 → s'.left = s.left → SameState cfg.net s'.chem st →
          (bt = false → row3.totalLeft = (names cfg.net s'.chem).card) →
          UInv cfg bt chem s' pre row (post ++ [row3]) st file2 sol := by
        intro hnk hleft hsame htot
        have hn' : names cfg.net s'.chem = names cfg.net s.chem := (names_same hsame).trans hnames.symm
        exact { h with
          hist := by rw [htr.history, h.hist]; simp
          nkept := fun r hr => by
            rcases List.mem_append.1 hr with hr | hr
            · exact h.nkept r hr
            · rw [List.mem_singleton] at hr; subst hr; exact hnk
          same := hsame
          left := fun n => by rw [hleft, h.left, hn']
          down := fun hb => by
            obtain ⟨d1, d2⟩ := h.down hb
            rw [htr.history]
            refine ⟨List.pairwise_append.2 ⟨d1, List.pairwise_singleton _ _, fun a ha b hb' => ?_⟩, fun r hr => ?_⟩
            · rw [List.mem_singleton] at hb'
              subst hb'
              rw [htot hb, hn']
              exact d2 a ha
            · rcases List.mem_append.1 hr with hr | hr
              · rw [hn']; exact d2 r hr
              · rw [List.mem_singleton] at hr
                subst hr
                rw [htot hb] }
      rcases hout with ⟨c, hat, hc', hsuc, herr, -, hleft, hsl⟩ |
        ⟨c, sol', f, eb, base, hat, hsuc, hrun, heb, hbase, herr, hin, himp, hbr⟩
      · have hsame : SameState cfg.net s'.chem st := by
          rcases attempt_cases hcl m.snd h.snd h.dump hat with ⟨-, hcc | hcc⟩ | ⟨_, _, _, ho, -⟩
          · rw [hc', hcc]; exact h.same
          · rw [hc']; exact hcc
          · cases ho
        refine ⟨_, _, _, _, _, _, keep (fun hk => ?_) hleft hsame fun _ => ?_⟩
        · rw [hk.1] at hsuc; cases hsuc
        · rcases hrow3 with ⟨-, -, -, -, -, h5⟩ | ⟨_, _, _, _, _, _, _, hs3, _⟩
          · exact h5
          · rw [hsuc] at hs3; cases hs3
      · rcases attempt_cases hcl m.snd h.snd h.dump hat with ⟨ho, -⟩ | ⟨sol2, f2, sids, ho, hbk, hdu, -, hsc, hcas⟩
        · cases ho
        obtain ⟨rfl, rfl⟩ : sol' = sol2 ∧ f = f2 := by cases ho; exact ⟨rfl, rfl⟩
        have hsub : names cfg.net c ⊆ names cfg.net s.chem := by
          intro n hn
          obtain ⟨x, h1, h2, h3, h4⟩ := mem_names.1 hn
          exact mem_names.2 ⟨x, h1, h2, hcas.monoS _ h3, h4⟩
        rcases hbr with ⟨hbig, hleft, hsl, hres⟩ | ⟨hsmall, hcc, hsl, hleft⟩
        · obtain ⟨hb, hbig⟩ := Bool.and_eq_true_iff.1 hbig
          refine ⟨_, _, _, _, _, _, keep (fun hk => ?_) hleft (restore_same hcl h.snd h.dump hres) fun h0 => ?_⟩
          · obtain ⟨e, h1, h2⟩ := hk.2 hb
            rw [heb] at h1
            subst h1
            simp only [tooLarge, decide_eq_true_eq] at hbig
            exact absurd hbig (not_lt.2 h2)
          · rw [hb] at h0; cases h0
        · have hk : Kept cfg bt row3 := by
            refine ⟨hsuc, fun hb => ?_⟩
            cases eb with
            | none =>
              obtain ⟨b0, hb0, hb1⟩ := m.base hnh
              rw [hb1] at hbase
              cases hbase
              exact absurd herr (hnan hb _ hb0 _ _ _ hbk)
            | some e =>
              refine ⟨e, heb, ?_⟩
              rw [hb] at hsmall
              simpa [tooLarge] using hsmall
          have htot : row3.totalLeft = (names cfg.net c).card := by
            rcases hrow3 with ⟨hs3, -⟩ | ⟨c3, _, _, _, _, _, _, -, hr3, -, -, h6, -⟩
            · rw [hsuc] at hs3; cases hs3
            · rw [hrun] at hr3
              cases hr3
              exact h6
          refine ⟨s.history, row3, [], c, f, sol', htr.history, hk, fun r hr => (by cases hr), hrun, hsc, hdu,
            by rw [hcc]; exact sameRefl _ _, fun n => ?_, fun hb => ?_⟩
          · rw [hleft, hcc, Finset.mem_sdiff, h.left, Finset.mem_sdiff]
            constructor
            · rintro ⟨⟨h1, h2⟩, h3⟩
              exact ⟨h1, by_contra fun h4 => h3 ⟨h2, h4⟩⟩
            · rintro ⟨h1, h2⟩
              exact ⟨⟨h1, hsub h2⟩, fun h3 => h3.2 h2⟩
          · obtain ⟨d1, d2⟩ := h.down hb
            have hle := Finset.card_le_card hsub
            rw [htr.history, hcc]
            refine ⟨List.pairwise_append.2 ⟨d1, List.pairwise_singleton _ _, fun a ha b hb' => ?_⟩, fun r hr => ?_⟩
            · rw [List.mem_singleton] at hb'
              subst hb'
              rw [htot]
              exact hle.trans (d2 a ha)
            · rcases List.mem_append.1 hr with hr | hr
              · exact hle.trans (d2 r hr)
              · rw [List.mem_singleton] at hr
                subst hr
                rw [htot]

/-- **C98.** If all removals are called with the same flag, the chemistry is at all times that of the last row to which the
iterator goes back (without backtracking: the last successful run; with it: the last one within the maximal error), and
`can_be_removed` says yes exactly for the eligible species that the chemistry still has. -/
theorem chemistry_by_hand {cfg : Cfg Sol R} {chem : State} (hr : Reachable cfg.net chem) (hcl : cfg.net.RetClosed)
    {back : Bool} (hmax : back = true → 0 ≤ cfg.maxErr) (hnan : back = true → NeverNan cfg chem)
    {l : List Call} {s : Red Sol R} (h : Stepped cfg chem l s) (ho : Only back l) (hl : l ≠ []) :
    (∃ pre row post st file sol, s.history = pre ++ row :: post ∧ Kept cfg back row ∧ (∀ r ∈ post, ¬ Kept cfg back r) ∧
      row.run = some (st, file, sol) ∧ SameState cfg.net s.chem st) ∧
    ∀ n, canBeRemoved s n ↔ Eligible cfg chem n ∧ n ∈ names cfg.net s.chem := by
  obtain ⟨pre, row, post, st, file, sol, u⟩ := uinv (Sound.of_reachable hr) hcl hmax hnan h ho hl
  exact ⟨⟨pre, row, post, st, file, sol, u.hist, u.kept, u.nkept, u.run, u.same⟩, u.left⟩

/-- **C98.** Without backtracking the number of species never grows from row to row. -/
theorem species_only_go {cfg : Cfg Sol R} {chem : State} (hr : Reachable cfg.net chem) (hcl : cfg.net.RetClosed)
    {l : List Call} {s : Red Sol R} (h : Stepped cfg chem l s) (ho : Only false l) :
    s.history.Pairwise (fun a b => b.totalLeft ≤ a.totalLeft) := by
  by_cases hl : l = []
  · have m := minv (Sound.of_reachable hr) hcl h
    rw [(initRed_ok (m.start hl)).2.2.2.1]
    exact .nil
  · obtain ⟨pre, row, post, st, file, sol, u⟩ :=
      uinv (Sound.of_reachable hr) hcl (fun h => by cases h) (fun h => by cases h) h ho hl
    exact (u.down rfl).1

/-! ### running it again -/

/-- **C98.** An iterator serves for one reduction: after a reduction that ended, every further `run_reduction` and every
`run_base_case` raises `ReductionRunError`. -/
theorem second_run {cfg : Cfg Sol R} {ranking : Ranking Score} {sorted : List (Str × Score) → Bool} {k : ℕ}
    {red red' : Red Sol R} (h : RunsReduction cfg ranking sorted k red (.ok red'))
    {Score' : Type} (ranking' : Ranking Score') (sorted' : List (Str × Score') → Bool) (k' : ℕ) :
    call cfg red' .base = .error .run ∧ ∀ r, RunsReduction cfg ranking' sorted' k' red' r ↔ r = .error .run := by
  unfold RunsReduction at h
  split at h
  · cases h
  · rename_i l hl
    obtain ⟨x, hx, he⟩ := h
    cases x with
    | error e => cases he
    | ok t =>
      obtain rfl : red' = finish t := by simpa [Except.map] using he
      have hne : t.red.history ≠ [] := by
        obtain ⟨-, -, hb, -, -⟩ := startLoop_ok hl
        obtain ⟨-, -, _, _, -, -, hl'⟩ := runBase_ok hb
        have h0 : l.red.history ≠ [] := by rw [hl']; simp
        obtain ⟨s, hg, ⟨t', ht, hd⟩ | ⟨e, he, -⟩⟩ := goes_of_runs hx
        swap
        · cases he
        obtain rfl : t = t' := Except.ok.inj ht
        have step : ∀ {a b : Loop Sol R Score}, (∃ fin, PassCase cfg ranking k a fin b) → a.red.history ≠ [] →
            b.red.history ≠ [] := by
          rintro a b ⟨fin, hp⟩ ha
          cases hp with
          | over t hov hred hstr hrk => rw [hred]; exact ha
          | skip sp rest hpop hnl => exact ha
          | tried sp rest _ row' fin hpop hrem hhist hcase hfin => rw [hhist]; simp
        have pc : ∀ {a b : Loop Sol R Score}, pass cfg ranking sorted k a = .next b ∨ pass cfg ranking sorted k a = .done b →
            ∃ fin, PassCase cfg ranking k a fin b := by
          intro a b hab
          rcases pass_cases (cfg := cfg) (ranking := ranking) (sorted := sorted) (maxStreak := k) (s := a) with
            ⟨e, he⟩ | ⟨t', he, hc⟩ | ⟨t', he, hc⟩ <;> rw [he] at hab <;> rcases hab with h | h <;> cases h
          · exact ⟨_, hc⟩
          · exact ⟨_, hc⟩
        refine step (pc (.inr hd)) ?_
        clear hd hx
        induction hg with
        | refl => exact h0
        | tail _ hst ih => exact step (pc (.inl hst)) ih
      have hb : runBase cfg (finish t) = .error .run := by
        rw [runBase, if_pos (show (finish t).history ≠ [] from hne)]
      refine ⟨hb, fun r => ?_⟩
      have hs : startLoop cfg ranking' (finish t) = .error .run := by
        unfold startLoop
        rw [if_neg, hb]
        rintro (h | h) <;> apply h
        · simp [getDisabledSpecies, finish, reset]
        · simp [getDisabledReactions, finish, reset]
      unfold RunsReduction
      rw [hs]

/-! ### concrete histories -/

namespace Demo
open Verif.Plaschem.Demo

/-- the calls, one after the other; the result of the last and whether all returned -/
def steps (cfg : Cfg ℕ ℤ) (chem : State) (l : List Call) : Except RErr (Red ℕ ℤ) :=
  l.foldl (fun r c => r.bind fun s => call cfg s c) (initRed cfg chem)

theorem stepped {cfg : Cfg ℕ ℤ} {chem : State} {l : List Call} {s : Red ℕ ℤ} (h : steps cfg chem l = .ok s) :
    Stepped cfg chem l s := by
  induction l using List.reverseRecOn generalizing s with
  | nil => exact .init h
  | append_singleton l c ih =>
    unfold steps at h ih
    rw [List.foldl_append] at h
    simp only [List.foldl_cons, List.foldl_nil] at h
    cases hr : List.foldl (fun r c => r.bind fun s => call cfg s c) (initRed cfg chem) l with
    | error e => rw [hr] at h; cases h
    | ok s0 => rw [hr] at h; exact .call (ih hr) h

/-- what can be seen of the iterator -/
def seen (r : Except RErr (Red ℕ ℤ)) : Option (List Line × Finset Str × Finset Str) :=
  match r with
  | .ok s => some (s.history.map (fun r => ⟨r.species, r.success, r.errBase⟩), names cfg.net s.chem, s.left)
  | .error _ => none

/-- without backtracking, Ar++ stays removed although the error is too large -/
theorem by_hand : seen (steps cfg st0 [.base, .remove str!"Ar*" false, .remove str!"Ar++" false]) =
    some ([⟨none, true, some 0⟩, ⟨some str!"Ar*", true, some 1⟩, ⟨some str!"Ar++", true, some 2⟩],
      {str!"Ar", str!"Ar+"}, {str!"Ar+"}) := by decide +kernel

/-- the hypotheses of `chemistry_by_hand` and `species_only_go` are met -/
example : ∃ l s, Stepped cfg st0 l s ∧ Only false l ∧ l.length = 3 ∧ names cfg.net s.chem = {str!"Ar", str!"Ar+"} := by
  have h := by_hand
  cases hs : steps cfg st0 [.base, .remove str!"Ar*" false, .remove str!"Ar++" false] with
  | error e => rw [hs] at h; cases h
  | ok s =>
    rw [hs] at h
    refine ⟨_, s, stepped hs, fun sp b hb => ?_, rfl, ?_⟩
    · simp at hb
      rcases hb with hb | hb <;> exact hb.2
    · have := congrArg (fun o => o.map (fun x => x.2.1)) h
      simpa [seen] using this

/-- **Finding.** If the flags are mixed, a species that was removed can come back and yet cannot be removed any more: Ar* is
removed without backtracking (the error is above the threshold); then removing Ar++ with backtracking goes back to
the base case, which has Ar*, but `can_be_removed` says no. -/
theorem mixed_flags :
    seen (steps { cfg with maxErr := 0 } st0 [.base, .remove str!"Ar*" false, .remove str!"Ar++" true]) =
      some ([⟨none, true, some 0⟩, ⟨some str!"Ar*", true, some 1⟩, ⟨some str!"Ar++", true, some 2⟩],
        {str!"Ar", str!"Ar+", str!"Ar++", str!"Ar*"}, {str!"Ar+", str!"Ar++"}) ∧
    Eligible { cfg with maxErr := 0 } st0 str!"Ar*" := by
  refine ⟨by decide +kernel, by decide +kernel, ArX, by decide +kernel, rfl, rfl, by decide +kernel, ?_⟩
  simp [State.Protected, st0, State.fresh, setMask, ArX]

/-- the hypotheses of `second_run` are met -/
example : ∃ red red', initRed cfg st0 = .ok red ∧ RunsReduction cfg ranking (fun _ => true) 0 red (.ok red') := by
  obtain ⟨red, l, t, h1, h2, h3, -⟩ := of_report report_demo rfl
  refine ⟨red, finish t, h1, ?_⟩
  unfold RunsReduction
  rw [h2]
  exact ⟨_, h3, rfl⟩

end Demo

end Verif.Fwork.Reduce
