/-
Properties C42 and C43 of the reduction loop, continued: which exceptions can end it, and concrete reductions.
-/
import Verif.Fwork.ReduceProps
import Verif.Plaschem.ChemProps

namespace Verif.Fwork.Reduce
open Verif.Plaschem
open Verif.Plaschem.Net

variable {Sol R Score : Type} [LinearOrder R] [Zero R]

omit [LinearOrder R] [Zero R] in
private theorem dump_ok {cfg : Cfg Sol R} {st st' : State} {file : Attrs}
    (h : cfg.net.dump cfg.path cfg.hash st = .ok file) : ∃ f, cfg.net.dump cfg.path cfg.hash st' = .ok f := by
  unfold dump chemistryAttributes at h ⊢
  cases hx : xmlHashOf cfg.hash cfg.path with
  | error e => rw [hx] at h; cases h
  | ok v => exact ⟨_, rfl⟩

omit [LinearOrder R] [Zero R] in
private theorem restore_ok {cfg : Cfg Sol R} (hcl : cfg.net.RetClosed) {st : State} (hst : Sound cfg.net st)
    (had : st.adRet = []) {file : Attrs} (hd : cfg.net.dump cfg.path cfg.hash st = .ok file) (c : State) :
    ∃ c', restore cfg file c = .ok c' := by
  obtain ⟨c', h, -⟩ := load_dump_sound hst hcl (by rw [had]; intro e he; cases he) hd c true
  exact ⟨c', by unfold restore; rw [h]⟩

/-- a species disabled by name is gone afterwards -/
private theorem disable_names {net : Net} {chem c : State} (h : Sound net chem) (hcl : net.RetClosed) {sp : Str}
    (hd : net.disable chem [.name sp] [] = (c, none)) : sp ∉ names net c := by
  rcases h.disable_cases hcl [.name sp] [] with ⟨e, he, hdis, -⟩ | hdis | ⟨sids, c0, hsid, hcas, hs0, hdis⟩
  · rw [hdis] at hd; cases hd
  · rw [hdis] at hd; cases hd
  · rw [hdis] at hd
    obtain rfl : c0 = c := congrArg Prod.fst hd
    intro hc
    obtain ⟨x, hx1, hx2, hx3, -⟩ := mem_names.1 hc
    have := hcas.goneS x.id ((resolveSpecies_iff h.wf hsid x.id).2 ⟨_, List.mem_singleton.2 rfl, x, hx1, hx2, rfl⟩)
    rw [hx3] at this; cases this

/-- **C42.** If the backend raises nothing but `ModelSolutionError` (or is interrupted), the error measure and the
ranking function raise nothing and give no nan, the rankings are sorted, and the chemistry has no ad-hoc return
coefficients, then the only exception that can leave the loop is the `KeyError` of the bookkeeping of eligible species,
and that happens only when disabling some eligible species takes an important output with it. -/
theorem loop_raises_only {cfg : Cfg Sol R} {ranking : Ranking Score} {sorted : List (Str × Score) → Bool}
    {maxStreak : ℕ} {chem : State} (hr : Reachable cfg.net chem) (hcl : cfg.net.RetClosed) (hmax : 0 ≤ cfg.maxErr)
    (herr : ∀ i c a, cfg.backend i c = .solved a → ∀ j d b, cfg.backend j d = .solved b → ∃ e, cfg.err a b = some (some e))
    (hback : ∀ i c, cfg.backend i c ≠ .raised)
    (hsort : ∀ l, sorted l = true) (hrk : ∀ f, ranking = .dynamic f → ∀ i c, f i c ≠ none) (had : chem.adRet = [])
    {red : Red Sol R} {l : Loop Sol R Score} (hi : initRed cfg chem = .ok red)
    (hl : startLoop cfg ranking red = .ok l) {e : RErr} (h : Runs cfg ranking sorted maxStreak l (.error e)) :
    e = .key ∧ ∃ (c c' : State) (sp n : Str), Eligible cfg chem sp ∧
      cfg.net.disable c [.name sp] [] = (c', none) ∧ n ∈ cfg.important ∧ n ∈ names cfg.net c ∧
      n ∉ names cfg.net c' := by
  have hnan : NeverNan cfg chem := by
    intro a ha i c b hb hc
    obtain ⟨x, hx⟩ := herr _ _ _ ha _ _ _ hb
    rw [hx] at hc; cases hc
  have hs := Sound.of_reachable hr
  obtain ⟨s, hg, ⟨t', ht', -⟩ | ⟨e', he', hd⟩⟩ := goes_of_runs h
  · cases ht'
  cases he'
  obtain ⟨hstreak, pre, row, post, st, file, sol, hinv⟩ := inv_goes hs hcl hmax hnan hi hl hg
  have hchem : Sound cfg.net s.red.chem := hinv.snd.same hinv.same
  have hstad : st.adRet = [] := by
    have := hinv.adRe
    rw [had] at this
    exact List.forall₂_nil_right_iff.1 this
  unfold pass at hd
  by_cases h1 : s.ranking = []
  · rw [if_pos h1] at hd; cases hd
  rw [if_neg h1, if_neg (by rw [hsort]; simp)] at hd
  cases h3 : popNext s.red.attempted s.ranking with
  | none => rw [h3] at hd; cases hd
  | some p =>
    obtain ⟨sp, rest⟩ := p
    rw [h3] at hd
    simp only at hd
    by_cases h4 : sp ∉ s.red.left
    · rw [if_pos h4] at hd; cases hd
    rw [if_neg h4] at hd
    have hmem : sp ∈ s.red.left := not_not.1 h4
    obtain ⟨hel, hnm⟩ := (hinv.left sp).1 hmem
    have hfresh := (popNext_spec h3).1
    cases h5 : removeOne cfg s.red sp true with
    | ok red' =>
      exfalso
      rw [h5] at hd
      simp only at hd
      obtain ⟨row2, file2, htr, -, -⟩ := removeOne_cases h5
      have hlast : red'.history.getLast? = some row2 := by rw [htr.history]; simp
      rw [hlast] at hd
      simp only at hd
      cases hx : row2.errBase with
      | none => rw [hx] at hd; simp only at hd; split at hd <;> cases hd
      | some x =>
        rw [hx] at hd
        simp only at hd
        split at hd
        · split at hd <;> cases hd
        · cases ranking with
          | fixed _ => simp only at hd; split at hd <;> cases hd
          | dynamic f =>
            simp only at hd
            cases hf : f red'.history.length red'.chem with
            | none => exact hrk f rfl _ _ hf
            | some l' => rw [hf] at hd; simp only at hd; split at hd <;> cases hd
    | error e1 =>
      rw [h5] at hd
      simp only [Pass.raise.injEq] at hd
      subst hd
      unfold removeOne at h5
      have hlen := hinv.len
      rw [if_neg (by intro hc; rw [hc] at hlen; simp at hlen), if_neg h4, if_neg hfresh,
        if_neg (by rw [Finset.card_insert_of_notMem hfresh]; omega),
        restoreFile_last hinv.hist hinv.acc hinv.nacc hinv.run] at h5
      simp only at h5
      -- the attempt
      have hres : ∃ sids, cfg.net.resolveSpecies [.name sp] = .ok sids := by
        obtain ⟨x, hx, hxn, -⟩ := mem_names.1 hnm
        refine (resolveSpecies_known hchem.wf).2 fun y hy => ?_
        rw [List.mem_singleton] at hy
        subst hy
        exact ⟨x.id, x, hx, hxn, rfl⟩
      obtain ⟨sids0, hsids0⟩ := hres
      cases hat : attempt cfg s.red.history.length file s.red.chem sp with
      | error e2 =>
        exfalso
        unfold attempt at hat
        rcases hchem.disable_cases hcl [.name sp] [] with ⟨e, he, hdis, hwhy | hwhy⟩ | hdis | ⟨sids, c0, -, hcas, hs0, hdis⟩
        · rw [hsids0] at hwhy; cases hwhy
        · cases hwhy
        · rw [hdis] at hat; cases hat
        · rw [hdis] at hat
          simp only at hat
          unfold runModel at hat
          cases hb : cfg.backend s.red.history.length c0 with
          | raised => exact hback _ _ hb
          | solved x =>
            rw [hb] at hat
            obtain ⟨f, hf⟩ := dump_ok (st' := c0) hinv.dump
            simp only [hf] at hat
            cases hat
          | failed =>
            rw [hb] at hat
            obtain ⟨c', hc'⟩ := restore_ok hcl hinv.snd hstad hinv.dump c0
            simp only [hc'] at hat
            cases hat
      | ok p =>
        obtain ⟨c, o⟩ := p
        rw [hat] at h5
        cases o with
        | none => cases h5
        | some q =>
          obtain ⟨x, f⟩ := q
          simp only at h5
          rcases attempt_cases hcl hchem hinv.snd hinv.dump hat with ⟨ho, -⟩ | ⟨sol2, f2, sids, ho, hbk, hdu, hdis, hsc, hcas⟩
          · cases ho
          unfold record at h5
          simp only at h5
          have hcons := (disable_names hchem hcl hdis)
          rw [if_neg (not_not.2 (Finset.mem_sdiff.2 ⟨hnm, hcons⟩))] at h5
          by_cases h8 : (names cfg.net s.red.chem \ names cfg.net c).erase sp ⊆ s.red.left.erase sp
          · exfalso
            rw [if_neg (not_not.2 h8)] at h5
            obtain ⟨base, hbase0, hb2, -⟩ := hinv.base
            have hx : cfg.backend s.red.history.length c = .solved x := by cases ho; exact hbk
            rw [hb2, hinv.last] at h5
            simp only at h5
            obtain ⟨e3, he3⟩ := herr _ _ _ hbase0 _ _ _ hx
            obtain ⟨e4, he4⟩ := herr _ _ _ hinv.solved _ _ _ hx
            rw [he3, he4] at h5
            simp only at h5
            split at h5
            · obtain ⟨c', hc'⟩ := restore_ok hcl hinv.snd hstad hinv.dump c
              rw [hc'] at h5
              cases h5
            · cases h5
          · rw [if_pos h8] at h5
            cases h5
            refine ⟨rfl, s.red.chem, c, sp, ?_⟩
            obtain ⟨n, hn1, hn2⟩ := Finset.not_subset.1 h8
            obtain ⟨hne, hn3⟩ := Finset.mem_erase.1 hn1
            obtain ⟨hn4, hn5⟩ := Finset.mem_sdiff.1 hn3
            have hnl : n ∉ s.red.left := fun hc => hn2 (Finset.mem_erase.2 ⟨hne, hc⟩)
            refine ⟨n, hel, hdis, ?_, hn4, hn5⟩
            by_contra hni
            apply hnl
            rw [hinv.left]
            refine ⟨⟨hni, ?_⟩, hn4⟩
            obtain ⟨y, hy1, hy2, hy3, hy4⟩ := mem_names.1 hn4
            refine ⟨y, hy1, hy2, hinv.sub y hy1 (by rw [← hinv.same.enSp y hy1]; exact hy3), hy4, fun hp => hn5 ?_⟩
            refine mem_names.2 ⟨y, hy1, hy2, hcas.keeps _ ⟨y, hy1, rfl⟩ ?_ hy3, hy4⟩
            rcases hp with hp | hp
            · left; rw [hinv.same.protSp y hy1, hinv.prot y hy1]; exact hp
            · right; rw [hinv.same.adhocSp y hy1]; exact hinv.adh y hy1 hp

/-! ### concrete reductions -/

namespace Demo
open Verif.Plaschem.Demo

/-- A backend whose solution is the number of species; the error is the difference of these numbers; one unit is
allowed; Ar is important. -/
def cfg : Cfg ℕ ℤ where
  net := net
  path := none
  hash := fun _ => none
  backend := fun _ c => .solved (net.getSpeciesName c false false true).length
  err := fun a b => some (some ((a : ℤ) - b))
  important := [str!"Ar"]
  maxErr := 1

def ranking : Ranking ℕ := .fixed [(str!"Ar*", 0), (str!"Ar++", 1), (str!"Ar+", 2)]

/-- the loop, run for at most `n` passes -/
def go {R : Type} [LinearOrder R] [Zero R] (cfg : Cfg ℕ R) (ranking : Ranking ℕ) (k : ℕ) :
    ℕ → Loop ℕ R ℕ → Except RErr (Loop ℕ R ℕ)
  | 0, _ => .error .external
  | n + 1, s =>
    match pass cfg ranking (fun _ => true) k s with
    | .raise e => .error e
    | .done t => .ok t
    | .next t => go cfg ranking k n t

theorem runs_of_go {R : Type} [LinearOrder R] [Zero R] {cfg : Cfg ℕ R} {ranking : Ranking ℕ} {k n : ℕ} {s : Loop ℕ R ℕ}
    {r : Except RErr (Loop ℕ R ℕ)} (h : go cfg ranking k n s = r) (hr : r ≠ .error .external) : Runs cfg ranking (fun _ => true) k s r := by
  induction n generalizing s with
  | zero => exact absurd h.symm hr
  | succ n ih =>
    unfold go at h
    cases hp : pass cfg ranking (fun _ => true) k s with
    | raise e => rw [hp] at h; subst h; exact .raise hp
    | done t => rw [hp] at h; subst h; exact .done hp
    | next t => rw [hp] at h; exact .next hp (ih h)

/-- one tried species: its name, whether the run succeeded, the error -/
structure Line where
  species : Option Str
  success : Bool
  err : Option ℤ
deriving DecidableEq

/-- what a reduction did: the exception, the rows of the history, the species left when the loop ended and the final
number of failures in a row -/
structure Report where
  error : Option RErr
  lines : List Line
  left : Finset Str
  streak : ℕ
deriving DecidableEq

/-- a reduction of at most `n` passes -/
def report (cfg : Cfg ℕ ℤ) (ranking : Ranking ℕ) (k n : ℕ) (chem : State) : Report :=
  match initRed cfg chem with
  | .error e => ⟨some e, [], ∅, 0⟩
  | .ok red =>
    match startLoop cfg ranking red with
    | .error e => ⟨some e, [], ∅, 0⟩
    | .ok l =>
      match go cfg ranking k n l with
      | .error e => ⟨some e, [], ∅, 0⟩
      | .ok t => ⟨none, t.red.history.map (fun r => ⟨r.species, r.success, r.errBase⟩), names cfg.net t.red.chem, t.streak⟩

/-- Ar* is removed; removing Ar++ as well gives an error of two, so it is put back and the loop ends. -/
theorem report_demo : report cfg ranking 0 10 st0 =
    ⟨none, [⟨none, true, some 0⟩, ⟨some str!"Ar*", true, some 1⟩, ⟨some str!"Ar++", true, some 2⟩],
      {str!"Ar", str!"Ar+", str!"Ar++"}, 1⟩ := by decide +kernel

/-- what the report says in terms of the model -/
theorem of_report {cfg : Cfg ℕ ℤ} {ranking : Ranking ℕ} {k n : ℕ} {chem : State} {r : Report}
    (h : report cfg ranking k n chem = r) (he : r.error = none) :
    ∃ (red : Red ℕ ℤ) (l t : Loop ℕ ℤ ℕ), initRed cfg chem = .ok red ∧ startLoop cfg ranking red = .ok l ∧
      Runs cfg ranking (fun _ => true) k l (.ok t) ∧
      t.red.history.map (fun r => (⟨r.species, r.success, r.errBase⟩ : Line)) = r.lines ∧
      names cfg.net t.red.chem = r.left ∧ t.streak = r.streak := by
  unfold report at h
  cases hi : initRed cfg chem with
  | error e => rw [hi] at h; subst h; cases he
  | ok red =>
    rw [hi] at h
    simp only at h
    cases hl : startLoop cfg ranking red with
    | error e => rw [hl] at h; subst h; cases he
    | ok l =>
      rw [hl] at h
      simp only at h
      cases hg : go cfg ranking k n l with
      | error e => rw [hg] at h; subst h; cases he
      | ok t =>
        rw [hg] at h
        subst h
        exact ⟨red, l, t, rfl, hl, runs_of_go hg (by intro h; cases h), rfl, rfl, rfl⟩

/-- the exception the report shows is the one that leaves the loop -/
theorem of_report_error {cfg : Cfg ℕ ℤ} {ranking : Ranking ℕ} {k n : ℕ} {chem : State} {e : RErr} {red : Red ℕ ℤ}
    {l : Loop ℕ ℤ ℕ} (h : (report cfg ranking k n chem).error = some e) (he : e ≠ .external)
    (hi : initRed cfg chem = .ok red) (hl : startLoop cfg ranking red = .ok l) :
    Runs cfg ranking (fun _ => true) k l (.error e) := by
  unfold report at h
  rw [hi] at h
  simp only at h
  rw [hl] at h
  simp only at h
  cases hg : go cfg ranking k n l with
  | error e' =>
    rw [hg] at h
    obtain rfl : e' = e := Option.some.inj h
    exact runs_of_go hg (by intro h; exact he (Except.error.inj h))
  | ok t => rw [hg] at h; cases h

/-- the hypotheses of the theorems on the loop are met by this reduction -/
example : Reachable cfg.net st0 ∧ cfg.net.RetClosed ∧ 0 ≤ cfg.maxErr ∧ NeverNan cfg st0 ∧
    (∀ a b, ∃ e, cfg.err a b = some (some e)) ∧ (∀ i c, cfg.backend i c ≠ .raised) ∧ st0.adRet = [] ∧
    ∃ t, Visited cfg ranking (fun _ => true) 0 st0 t ∧ t.red.history.length = 3 ∧
      names cfg.net t.red.chem = {str!"Ar", str!"Ar+", str!"Ar++"} := by
  refine ⟨reach0, net_retClosed, by decide, (by intro a _ i c b _ h; cases h), fun a b => ⟨_, rfl⟩, (by intro i c h; cases h), rfl, ?_⟩
  obtain ⟨red, l, t, h1, h2, h3, h4, h5, -⟩ := of_report (report_demo) rfl
  obtain ⟨s, h6, ⟨t', ht, h7⟩ | ⟨e, he, -⟩⟩ := goes_of_runs h3
  swap
  · cases he
  obtain rfl : t = t' := Except.ok.inj ht
  exact ⟨t, ⟨red, l, s, h1, h2, h6, .inr h7⟩, by simpa using congrArg List.length h4, h5⟩

/-- With `max_unsuccess_streak = 1` two failures in a row are needed to stop. -/
example : report { cfg with maxErr := 0 } ranking 1 10 st0 =
    ⟨none, [⟨none, true, some 0⟩, ⟨some str!"Ar*", true, some 1⟩, ⟨some str!"Ar++", true, some 1⟩],
      {str!"Ar", str!"Ar+", str!"Ar++", str!"Ar*"}, 2⟩ := by decide +kernel

/-- A higher state that is reached from Ar* only. -/
def ArXX : RP := { oid := 6, id := 5, name := str!"Ar**", mass := some 40, stateless := some str!"Ar",
                   state := some str!"4p" }

def net2 : Net :=
  { species := [e, M, Ar, ArP, ArPP, ArX, ArXX]
    reactions := [r1, r2, r3, r4, r5, { id := 6, reactants := [e, ArX], products := [ArXX, e] }] }

/-- **Finding.** Removing Ar* removes Ar** with it. If Ar** is an important output, the reduction does not keep it: it
dies with a `KeyError`. -/
theorem important_cascade_raises :
    net2.init = .ok st0 ∧
    (report { cfg with net := net2, important := [str!"Ar**"] } ranking 0 10 st0).error = some .key := by
  refine ⟨rfl, ?_⟩
  decide +kernel

/-- The error of a chemistry without Ar* is nan. -/
def cfgNan : Cfg ℕ ℤ :=
  { cfg with
    backend := fun _ c => .solved (if str!"Ar*" ∈ net.getSpeciesName c false false true then 4 else
      (net.getSpeciesName c false false true).length)
    err := fun a b => some (if b = 3 then none else some ((a : ℤ) - b)) }

/-- **Finding.** A removal whose error is nan is kept although no error within the threshold was found, and it does not
count as a failure. A later failure, however, restores the last chemistry whose error was within the threshold, so that
the removed species is silently back. -/
theorem nan_error_accepted :
    report cfgNan (.fixed [(str!"Ar*", 0)]) 0 10 st0 =
      ⟨none, [⟨none, true, some 0⟩, ⟨some str!"Ar*", true, none⟩], {str!"Ar", str!"Ar+", str!"Ar++"}, 0⟩ ∧
    report cfgNan (.fixed [(str!"Ar*", 0), (str!"Ar++", 1)]) 0 10 st0 =
      ⟨none, [⟨none, true, some 0⟩, ⟨some str!"Ar*", true, none⟩, ⟨some str!"Ar++", true, some 2⟩],
        {str!"Ar", str!"Ar+", str!"Ar++", str!"Ar*"}, 1⟩ := by
  constructor <;> decide +kernel

/-- **Finding.** With a negative threshold not even the base case is within it, and the first removal raises an
`IndexError`. -/
theorem negative_threshold_raises :
    (report { cfg with maxErr := -1 } ranking 0 10 st0).error = some .index := by decide +kernel

/-- A failed run is undone, a removal the chemistry refuses (Ar+ is the last positive ion) changes nothing; neither
counts towards the failures in a row. -/
example : report { cfg with backend := fun i c => if i = 1 then .failed else cfg.backend i c } ranking 0 10 st0 =
    ⟨none, [⟨none, true, some 0⟩, ⟨some str!"Ar*", false, none⟩, ⟨some str!"Ar++", true, some 1⟩,
      ⟨some str!"Ar+", false, none⟩], {str!"Ar", str!"Ar+", str!"Ar*"}, 0⟩ := by decide +kernel

end Demo

end Verif.Fwork.Reduce
