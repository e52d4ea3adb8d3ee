/-
A whole call of `GlobalModel.run` with its checks, the default directory and the logs (pygmo_fwork/global_model.py:143-280),
and what is read back from the logs (pygmo_fwork/results.py:73-93, 250-288). Property C106.
-/
import Verif.Fwork.ConfigProps
import Verif.Pygmol.ParamsLog
import Verif.Pygmol.InitN

namespace Verif.Fwork.RunLog
open scoped Classical
open Verif.Plaschem
open Verif.Pygmol
open Verif.Fwork.Log (Path FS Node fileName fetch Plain Exec Steps)

variable {α κ : Type} {ns nr : ℕ}

/-- contents of a log file: a table, the attributes of the chemistry, the attributes of the model (parameters, electron
temperature, densities), the log of the solver -/
inductive Doc (α κ : Type)
  | table (a : α)
  | chemistry (k : κ)
  | attributes (params : List (Str × Val)) (elTemp : ℝ) (initN : Dict Str ℝ)
  | solver (a : α)

/-- what the backend gives after a successful run -/
structure Results (α : Type) where
  solution : α
  rates : α
  fluxes : α
  solverLog : α

/-- a global model: its backend as it was spelled, the parameters as they were passed, the equations, the names of the
species, the attributes of the chemistry -/
structure Model (κ : Type) (ns nr : ℕ) where
  backend : Str
  passed : List (Str × Val)
  data : Data ns nr
  names : Fin ns → Str
  chemistry : κ

/-- the machine: configuration, working directory, compression of tables (C58, C59) -/
structure Host (α : Type) where
  cfg : Str → Option Config.Val
  cwd : Path
  compress : α → α

/-- global_model.py:143-144 the arguments of `run`; `runId` is `none` if it is not a string -/
structure Args where
  runId : Option Str := none
  elTemp : ℝ := 1
  initN : Option (Dict Str ℝ) := none
  logResults : Bool := true
  logTo : Option Path := none
  overwrite : Bool := false
  compress : Bool := false

inductive RErr
  /-- GlobalModelAttributeError: no run id -/
  | runId
  /-- raised by the configuration -/
  | config (e : Config.Err)
  /-- GlobalModelLogError: no such directory -/
  | logTo
  /-- GlobalModelInitialGuessError -/
  | guess
  /-- raised by the backend, or by printing -/
  | backend
  /-- refused by `log_results` -/
  | log (e : Log.LErr)
  /-- stopped while logging -/
  | stopped

/-- global_model.py:167-174: where the run is to be logged, and the file system after the default directory was made -/
def place (H : Host α) (M : Model κ ns nr) (fs : FS (Doc α κ)) (a : Args) :
    FS (Doc α κ) × Except RErr (Option (Path × Str)) :=
  if a.logResults then
    match a.runId with
    | none => (fs, .error .runId)
    | some id =>
      match (match a.logTo with
        | none => Config.query H.cfg H.cwd fs (.results M.backend)
        | some R => (fs, .ok R)) with
      | (fs', .error e) => (fs', .error (.config e))
      | (fs', .ok R) => if fs'.isDir R then (fs', .ok (some (R, id))) else (fs', .error .logTo)
  else (fs, .ok none)

/-- global_model.py:176-181: the initial densities, given or generated (with the default fractions of line 81), validated -/
noncomputable def densities (M : Model κ ns nr) (a : Args) : Except RErr (Dict Str ℝ) :=
  if a.elTemp ≤ 0 then .error .guess
  else
    let n := match a.initN with
      | none => Data.initDict M.names (M.data.genN 1e-15 1e-15 1e-15)
      | some n => n
    match M.data.validateInitialN M.names n with
    | none => .error .guess
    | some () => .ok n

/-- global_model.py:254-279 the contents of the six files -/
noncomputable def docs (H : Host α) (M : Model κ ns nr) (a : Args) (n : Dict Str ℝ) (d : List (Str × Val)) (r : Results α) :
    Fin 6 → Doc α κ :=
  let c : α → α := if a.compress then H.compress else id
  fun i => match i with
    | 0 => .table (c r.solution)
    | 1 => .table (c r.rates)
    | 2 => .table (c r.fluxes)
    | 3 => .chemistry M.chemistry
    | 4 => .attributes d a.elTemp n
    | 5 => .solver r.solverLog

/-- A call of `run` (global_model.py:143-212): what the solver starts from (`none` if it is not reached), the file system
afterwards, what the call does. The solver (model.py:169-198, 263-273) gives any results or fails; the attribute `success` and the
getters are the matter of C55 and C63. -/
inductive Run (H : Host α) (M : Model κ ns nr) (fs : FS (Doc α κ)) (a : Args) :
    Option (Y ns) → FS (Doc α κ) → Except RErr Unit → Prop
  | unplaced {fs' e} (h : place H M fs a = (fs', .error e)) : Run H M fs a none fs' (.error e)
  | rejected {fs' p e} (h : place H M fs a = (fs', .ok p)) (hd : densities M a = .error e) : Run H M fs a none fs' (.error e)
  | unstarted {fs' p n} (h : place H M fs a = (fs', .ok p)) (hd : densities M a = .ok n)
      (hy : M.data.y0FromInit M.names a.elTemp n = none) : Run H M fs a none fs' (.error .backend)
  | failed {fs' p n y} (h : place H M fs a = (fs', .ok p)) (hd : densities M a = .ok n)
      (hy : M.data.y0FromInit M.names a.elTemp n = some y) : Run H M fs a (some y) fs' (.error .backend)
  | unlogged {fs' n y} (h : place H M fs a = (fs', .ok none)) (hd : densities M a = .ok n)
      (hy : M.data.y0FromInit M.names a.elTemp n = some y) (hv : M.data.validY0 y) : Run H M fs a (some y) fs' (.ok ())
  | refused {fs' R id n y d r e} (h : place H M fs a = (fs', .ok (some (R, id)))) (hd : densities M a = .ok n)
      (hy : M.data.y0FromInit M.names a.elTemp n = some y) (hv : M.data.validY0 y) (hp : cleaned M.passed = .ok d)
      (hs : Log.start fs' R id a.overwrite (docs H M a n d r) = .error e) : Run H M fs a (some y) fs' (.error (.log e))
  | stopped {fs' R id n y d r s acts s'} (h : place H M fs a = (fs', .ok (some (R, id)))) (hd : densities M a = .ok n)
      (hy : M.data.y0FromInit M.names a.elTemp n = some y) (hv : M.data.validY0 y) (hp : cleaned M.passed = .ok d)
      (hs : Log.start fs' R id a.overwrite (docs H M a n d r) = .ok s) (ha : ∀ l ∈ acts, l = .act)
      (hst : Steps s acts s') : Run H M fs a (some y) s'.fs (.error .stopped)
  | logged {fs' R id n y d r fs''} (h : place H M fs a = (fs', .ok (some (R, id)))) (hd : densities M a = .ok n)
      (hy : M.data.y0FromInit M.names a.elTemp n = some y) (hv : M.data.validY0 y) (hp : cleaned M.passed = .ok d)
      (hx : Exec fs' R id a.overwrite (docs H M a n d r) fs'') : Run H M fs a (some y) fs'' (.ok ())

/-- results.py:73-93 `_fetch_model_attributes`, 250-288 `fetch_model_params`, `fetch_initial_params` in the directory `R`: the loader
may give dictionaries in another order (`yaml.dump` sorts the keys) -/
inductive FetchAttrs (fs : FS (Doc α κ)) (R : Path) (id : Str) (params : List (Str × Val)) (elTemp : ℝ) (initN : Dict Str ℝ) : Prop
  | mk (d n) (h : fetch fs R id (str!"model_attributes.yaml") = some (some (.attributes d elTemp n))) (hd : Loaded d params)
      (hn : n.Perm initN)

/-! ### properties -/

/-- the directory that the call logs into: the given one, or the one of the backend -/
def LogDir (H : Host α) (M : Model κ ns nr) (fs : FS (Doc α κ)) (a : Args) (R : Path) : Prop :=
  a.logTo = some R ∨ (a.logTo = none ∧ (Config.query H.cfg H.cwd fs (.results M.backend)).2 = .ok R)

/-- it does not log, or there are a run id and a directory to log into -/
def Args.CanLog (a : Args) (H : Host α) (M : Model κ ns nr) (fs : FS (Doc α κ)) : Prop :=
  a.logResults = true → (∃ id, a.runId = some id) ∧ ∃ R, LogDir H M fs a R ∧ (a.logTo = some R → fs.isDir R = true)

/-- arguments that are accepted -/
def Args.Good (a : Args) (H : Host α) (M : Model κ ns nr) (fs : FS (Doc α κ)) : Prop :=
  a.CanLog H M fs ∧
  0 < a.elTemp ∧
  M.data.validateInitialN M.names (match a.initN with
    | none => Data.initDict M.names (M.data.genN 1e-15 1e-15 1e-15)
    | some n => n) = some ()

theorem place_fs {H : Host α} {M : Model κ ns nr} {fs fs' : FS (Doc α κ)} (hwf : fs.WF) {a : Args} {x}
    (h : place H M fs a = (fs', x)) :
    (fs' = fs ∨ ∃ R, (Config.query H.cfg H.cwd fs (.results M.backend)).2 = .ok R ∧ a.logTo = none ∧ a.logResults = true ∧
      fs' = Config.withDirs fs R) ∧ fs'.WF := by
  have hq := Config.query_wf (cfg := H.cfg) (cwd := H.cwd) hwf (.results M.backend)
  unfold place at h
  split at h
  · rename_i hl
    split at h
    · cases h; exact ⟨.inl rfl, hwf⟩
    · cases hlt : a.logTo with
      | some R =>
        rw [hlt] at h
        dsimp only at h
        split at h <;> (cases h; exact ⟨.inl rfl, hwf⟩)
      | none =>
        rw [hlt] at h
        dsimp only at h
        split at h
        · rename_i fs1 e he
          cases h
          have : (Config.query H.cfg H.cwd fs (.results M.backend)).1 = fs := Config.query_error hwf (e := e) (by rw [he])
          rw [he] at this
          dsimp only at this
          subst this
          exact ⟨.inl rfl, hwf⟩
        · rename_i fs1 R he
          have h2 := (Config.query_ok hwf (cfg := H.cfg) (cwd := H.cwd) (q := .results M.backend) (p := R)).2 (by rw [he])
          rw [he] at h2 hq
          dsimp only at h2
          split at h <;> (cases h; exact ⟨.inr ⟨R, (by rw [he]), rfl, hl, h2⟩, hq⟩)
  · cases h; exact ⟨.inl rfl, hwf⟩

theorem place_ok {H : Host α} {M : Model κ ns nr} {fs : FS (Doc α κ)} (hwf : fs.WF) {a : Args} :
    (∃ p, (place H M fs a).2 = .ok p) ↔ a.CanLog H M fs := by
  unfold place Args.CanLog LogDir
  by_cases hl : a.logResults = true
  · rw [if_pos hl]
    simp only [hl, true_imp_iff]
    cases hid : a.runId with
    | none => simp
    | some id =>
      dsimp only
      cases hlt : a.logTo with
      | some R =>
        dsimp only
        by_cases hR : fs.isDir R = true
        · rw [if_pos hR]
          exact ⟨fun _ => ⟨⟨id, rfl⟩, R, .inl rfl, fun _ => hR⟩, fun _ => ⟨_, rfl⟩⟩
        · rw [if_neg hR]
          simp only [reduceCtorEq, exists_false, Option.some.injEq, false_and, or_false, exists_eq', true_and,
            false_iff]
          rintro ⟨R', rfl, h⟩
          exact hR (h rfl)
      | none =>
        dsimp only
        cases he : Config.query H.cfg H.cwd fs (.results M.backend) with
        | mk fs1 r =>
          cases r with
          | error e => simp
          | ok R =>
            have h2 := (Config.query_ok hwf (cfg := H.cfg) (cwd := H.cwd) (q := .results M.backend) (p := R)).2 (by rw [he])
            rw [he] at h2
            dsimp only at h2 ⊢
            have : fs1.isDir R = true := by
              rw [h2]; exact Log.isDir_iff.2 (Config.withDirs_in _ (List.prefix_refl _))
            rw [if_pos this]
            simp
  · rw [if_neg hl]
    simp [hl]

theorem place_some {H : Host α} {M : Model κ ns nr} {fs fs' : FS (Doc α κ)} {a : Args} {R : Path} {id : Str}
    (h : place H M fs a = (fs', .ok (some (R, id)))) :
    a.logResults = true ∧ a.runId = some id ∧ LogDir H M fs a R ∧ fs'.isDir R = true := by
  unfold place at h
  split at h
  · rename_i hl
    split at h
    · cases h
    · rename_i id' hid
      split at h
      · cases h
      · rename_i fs1 R' hq
        split at h
        · rename_i hd
          cases h
          refine ⟨hl, hid, ?_, hd⟩
          cases hlt : a.logTo with
          | some R' =>
            rw [hlt] at hq
            cases hq
            exact .inl hlt
          | none =>
            rw [hlt] at hq
            exact .inr ⟨hlt, by dsimp only at hq; rw [hq]⟩
        · cases h
  · cases h

theorem densities_ok {M : Model κ ns nr} {a : Args} {n : Dict Str ℝ} :
    densities M a = .ok n ↔ 0 < a.elTemp ∧ M.data.validateInitialN M.names n = some () ∧
      n = (match a.initN with
        | none => Data.initDict M.names (M.data.genN 1e-15 1e-15 1e-15)
        | some n => n) := by
  unfold densities
  by_cases hT : a.elTemp ≤ 0
  · rw [if_pos hT]
    simp only [reduceCtorEq, false_iff]
    exact fun h => absurd h.1 (not_lt.2 hT)
  · rw [if_neg hT]
    dsimp only
    have hT := not_le.1 hT
    split
    · rename_i hv
      simp only [reduceCtorEq, false_iff]
      rintro ⟨-, h, rfl⟩
      rw [hv] at h; cases h
    · rename_i hv
      simp only [Except.ok.injEq]
      constructor
      · rintro rfl; exact ⟨hT, hv, rfl⟩
      · rintro ⟨-, -, rfl⟩; rfl

/-- **C106.** The solver is reached exactly for good arguments, and then it starts from the given densities (or the generated
ones), a valid start, whatever happens afterwards. -/
theorem solver_reached {H : Host α} {M : Model κ ns nr} {fs fs' : FS (Doc α κ)} (hwf : fs.WF) {a : Args} {y : Option (Y ns)}
    {x : Except RErr Unit} (h : Run H M fs a y fs' x) :
    (y.isSome ↔ a.Good H M fs) ∧ ∀ v, y = some v → M.data.validY0 v ∧ 0 < M.data.getElectronDensity v none ∧
      M.data.y0FromInit M.names a.elTemp (match a.initN with
        | none => Data.initDict M.names (M.data.genN 1e-15 1e-15 1e-15)
        | some n => n) = some v := by
  have hgood : ∀ {fs1 p n}, place H M fs a = (fs1, .ok p) → densities M a = .ok n → a.Good H M fs := by
    intro fs1 p n h1 h2
    obtain ⟨h3, h4, rfl⟩ := densities_ok.1 h2
    exact ⟨(place_ok hwf).1 ⟨p, by rw [h1]⟩, h3, h4⟩
  have hstart : ∀ {n v}, densities M a = .ok n → M.data.y0FromInit M.names a.elTemp n = some v →
      M.data.validY0 v ∧ 0 < M.data.getElectronDensity v none ∧
      M.data.y0FromInit M.names a.elTemp (match a.initN with
        | none => Data.initDict M.names (M.data.genN 1e-15 1e-15 1e-15)
        | some n => n) = some v := by
    intro n v h2 hy
    obtain ⟨h3, h4, rfl⟩ := densities_ok.1 h2
    obtain ⟨y', hy', h5, h6⟩ := (Data.validate_iff_starts M.names a.elTemp _).1 h4
    rw [hy] at hy'
    cases hy'
    exact ⟨h5, h6, hy⟩
  have hsome : ∀ {fs1 p n v}, place H M fs a = (fs1, .ok p) → densities M a = .ok n →
      M.data.y0FromInit M.names a.elTemp n = some v →
      ((some v).isSome ↔ a.Good H M fs) ∧ ∀ w, some v = some w → M.data.validY0 w ∧ 0 < M.data.getElectronDensity w none ∧
      M.data.y0FromInit M.names a.elTemp (match a.initN with
        | none => Data.initDict M.names (M.data.genN 1e-15 1e-15 1e-15)
        | some n => n) = some w := by
    intro fs1 p n v h1 h2 hy
    refine ⟨by simpa using hgood h1 h2, fun w hw => ?_⟩
    cases hw
    exact hstart h2 hy
  cases h with
  | unplaced h =>
    refine ⟨⟨fun h => (by cases h), fun hg => ?_⟩, fun v hv => (by cases hv)⟩
    obtain ⟨p, hp⟩ := (place_ok hwf).2 hg.1
    rw [h] at hp; cases hp
  | rejected h hd =>
    refine ⟨⟨fun h => (by cases h), fun hg => ?_⟩, fun v hv => (by cases hv)⟩
    have := densities_ok.2 ⟨hg.2.1, hg.2.2, rfl⟩
    rw [hd] at this; cases this
  | unstarted h hd hy =>
    obtain ⟨h3, h4, rfl⟩ := densities_ok.1 hd
    obtain ⟨y', hy', -⟩ := (Data.validate_iff_starts M.names a.elTemp _).1 h4
    rw [hy] at hy'; cases hy'
  | failed h hd hy => exact hsome h hd hy
  | unlogged h hd hy hv => exact hsome h hd hy
  | refused h hd hy hv hp hs => exact hsome h hd hy
  | stopped h hd hy hv hp hs ha hst => exact hsome h hd hy
  | logged h hd hy hv hp hx => exact hsome h hd hy

/-- **C106.** Before the logging nothing is written: if the call fails in any way other than being stopped while it logs, or does not
log, then nothing has changed, apart from the default directory. In particular a call that is refused because the run exists
(which is checked after the computation only) leaves that run as it was. -/
theorem nothing_written {H : Host α} {M : Model κ ns nr} {fs fs' : FS (Doc α κ)} (hwf : fs.WF) {a : Args} {y : Option (Y ns)}
    {x : Except RErr Unit} (h : Run H M fs a y fs' x)
    (hx : a.logResults = false ∨ ∃ e, x = .error e ∧ e ≠ .stopped) :
    fs' = fs ∨ ∃ R, LogDir H M fs a R ∧ a.logTo = none ∧ a.logResults = true ∧ fs' = Config.withDirs fs R := by
  have key : ∀ {fs1 z}, place H M fs a = (fs1, z) →
      fs1 = fs ∨ ∃ R, LogDir H M fs a R ∧ a.logTo = none ∧ a.logResults = true ∧ fs1 = Config.withDirs fs R := by
    intro fs1 z h
    rcases (place_fs hwf h).1 with h | ⟨R, h1, h2, h3, h4⟩
    · exact .inl h
    · exact .inr ⟨R, .inr ⟨h2, h1⟩, h2, h3, h4⟩
  cases h with
  | unplaced h => exact key h
  | rejected h _ => exact key h
  | unstarted h _ _ => exact key h
  | failed h _ _ => exact key h
  | unlogged h _ _ _ => exact key h
  | refused h _ _ _ _ _ => exact key h
  | stopped h _ _ _ _ _ _ _ =>
    rcases hx with hx | ⟨e, he, hx⟩
    · rw [(place_some h).1] at hx; cases hx
    · cases he; exact (hx rfl).elim
  | logged h _ _ _ _ _ =>
    rcases hx with hx | ⟨e, he, hx⟩
    · rw [(place_some h).1] at hx; cases hx
    · cases he

/-- **C106.** Other runs are not touched, however the call ends: outside the directory of its own run nothing changes, apart from the
default directory. An existing run is not touched either unless it is to be overwritten; the call then raises. -/
theorem other_runs_kept {H : Host α} {M : Model κ ns nr} {fs fs' : FS (Doc α κ)} (hwf : fs.WF) {a : Args} {y : Option (Y ns)}
    {x : Except RErr Unit} (h : Run H M fs a y fs' x) {id : Str} {R : Path} (hlog : a.logResults = true) (hid : a.runId = some id)
    (hplain : Plain id) (hR : LogDir H M fs a R) :
    (∀ q, ¬ (R ++ [id]) <+: q → fs' q = fs q ∨ (a.logTo = none ∧ q <+: R ∧ fs' q = some .dir)) ∧
    (fs.isDir (R ++ [id]) = true → a.overwrite = false → fs' = fs ∧ ∃ e, x = .error e) := by
  have hRR : ∀ {fs1 R1 id1}, place H M fs a = (fs1, .ok (some (R1, id1))) → R1 = R ∧ id1 = id := by
    intro fs1 R1 id1 hpl
    obtain ⟨-, h2, h3, -⟩ := place_some hpl
    rw [hid] at h2
    cases h2
    refine ⟨?_, rfl⟩
    rcases h3 with h3 | ⟨h3, h3'⟩ <;> rcases hR with h5 | ⟨h5, h5'⟩
    · rw [h3] at h5; cases h5; rfl
    · rw [h3] at h5; cases h5
    · rw [h3] at h5; cases h5
    · rw [h3'] at h5'; cases h5'; rfl
  have h1 : ∀ {fs1 z}, place H M fs a = (fs1, z) →
      (∀ q, fs1 q = fs q ∨ (a.logTo = none ∧ q <+: R ∧ fs1 q = some .dir)) ∧ (fs.isDir (R ++ [id]) = true → fs1 = fs) := by
    intro fs1 z hpl
    rcases (place_fs hwf hpl).1 with rfl | ⟨R1, h2, h3, -, rfl⟩
    · exact ⟨fun q => .inl rfl, fun _ => rfl⟩
    · have : R1 = R := by
        rcases hR with hR | ⟨-, hR⟩
        · rw [h3] at hR; cases hR
        · rw [h2] at hR; cases hR; rfl
      subst this
      constructor
      · intro q
        by_cases hq : q <+: R1
        · exact .inr ⟨h3, hq, Config.withDirs_in _ hq⟩
        · exact .inl (Config.withDirs_out _ hq)
      · intro hd
        refine Config.withDirs_idem fun r hr => ?_
        exact hwf.above (hr.trans (List.prefix_append _ [id])) (fun h => by
          have := hr.length_le; rw [h] at this; simp at this) (by rw [Log.isDir_iff.1 hd]; simp)
  have hst : ∀ {fs1 : FS (Doc α κ)} {dc : Fin 6 → Doc α κ} {s acts s'}, Log.start fs1 R id a.overwrite dc = .ok s → Steps s acts s' →
      (∀ l ∈ acts, l = .act) → ∀ q, ¬ (R ++ [id]) <+: q → s'.fs q = fs1 q := by
    intro fs1 dc s acts s' h0 h1 h2 q hq
    obtain ⟨t, -, ht, hf⟩ := Log.log_frame h0 h1 (fun l hl => by rw [h2 l hl]; rfl)
    exact hf q (ht hplain ▸ hq)
  have hno : ∀ {fs1 : FS (Doc α κ)} {dc : Fin 6 → Doc α κ} {s}, Log.start fs1 R id a.overwrite dc = .ok s → fs1.isDir R = true →
      fs1.isDir (R ++ [id]) = true → a.overwrite = false → False := by
    intro fs1 dc s h0 hd h2 h3
    obtain ⟨e, he⟩ := Log.log_refused_iff (docs := dc).2 (.inr (.inr ⟨_, Log.locate_plain hplain hd, .inl ⟨h2, h3⟩⟩))
    rw [h0] at he; cases he
  cases h with
  | unplaced h => exact ⟨fun q _ => (h1 h).1 q, fun hd _ => ⟨(h1 h).2 hd, _, rfl⟩⟩
  | rejected h _ => exact ⟨fun q _ => (h1 h).1 q, fun hd _ => ⟨(h1 h).2 hd, _, rfl⟩⟩
  | unstarted h _ _ => exact ⟨fun q _ => (h1 h).1 q, fun hd _ => ⟨(h1 h).2 hd, _, rfl⟩⟩
  | failed h _ _ => exact ⟨fun q _ => (h1 h).1 q, fun hd _ => ⟨(h1 h).2 hd, _, rfl⟩⟩
  | refused h _ _ _ _ _ => exact ⟨fun q _ => (h1 h).1 q, fun hd _ => ⟨(h1 h).2 hd, _, rfl⟩⟩
  | unlogged h _ _ _ =>
    exfalso
    unfold place at h
    rw [if_pos hlog, hid] at h
    dsimp only at h
    split at h
    · cases h
    · split at h <;> cases h
  | stopped h _ _ _ _ hs ha hx =>
    obtain ⟨rfl, rfl⟩ := hRR h
    refine ⟨fun q hq => ?_, fun hd ho => ?_⟩
    · rw [hst hs hx ha q hq]
      exact (h1 h).1 q
    · have := (h1 h).2 hd
      subst this
      exact (hno hs (place_some h).2.2.2 hd ho).elim
  | logged h _ _ _ _ hx =>
    obtain ⟨rfl, rfl⟩ := hRR h
    obtain ⟨s, acts, s', h0, ha, hx1, hx2⟩ := hx
    refine ⟨fun q hq => ?_, fun hd ho => ?_⟩
    · have : fs' = s'.fs := by cases hx2; rfl
      rw [this, hst h0 hx1 ha q hq]
      exact (h1 h).1 q
    · have := (h1 h).2 hd
      subst this
      exact (hno h0 (place_some h).2.2.2 hd ho).elim

theorem get?_perm {d d' : Dict Str ℝ} (hp : d.Perm d') (hn : d.keys.Nodup) (k : Str) : Dict.get? d k = Dict.get? d' k := by
  have hn' : d'.keys.Nodup := (hp.map Prod.fst).nodup_iff.1 hn
  cases h : Dict.get? d k with
  | some v =>
    have := Dict.mem_of_get? h
    exact (Dict.get?_of_mem hn' (hp.mem_iff.1 this)).symm
  | none =>
    cases h' : Dict.get? d' k with
    | none => rfl
    | some v =>
      have := Dict.mem_of_get? h'
      rw [Dict.get?_of_mem hn (hp.mem_iff.2 this)] at h
      cases h

theorem y0_perm {D : Data ns nr} {names : Fin ns → Str} {T : ℝ} {d d' : Dict Str ℝ} (hp : d.Perm d') (hn : d.keys.Nodup) :
    D.y0FromInit names T d' = D.y0FromInit names T d := by
  have hk : ∀ k, k ∈ d'.keys ↔ k ∈ d.keys := fun k => ((hp.map Prod.fst).mem_iff).symm
  unfold Data.y0FromInit
  simp only [hk, get?_perm hp hn]

theorem validate_perm {D : Data ns nr} {names : Fin ns → Str} {d d' : Dict Str ℝ} (hp : d.Perm d') (hn : d.keys.Nodup) :
    D.validateInitialN names d' = D.validateInitialN names d := by
  have hk : ∀ k, k ∈ d'.keys ↔ k ∈ d.keys := fun k => ((hp.map Prod.fst).mem_iff).symm
  unfold Data.validateInitialN
  simp only [hk, get?_perm hp hn]

/-- **C106.** A logged run can be repeated from its log. If a call with logging returns, everybody who asks for the directory it was
logged into (for this backend, in any spelling, if none was given) finds the run there, with the tables, the attributes of the
chemistry and of the model. The logged parameters are accepted and have the same values; a call with the logged electron temperature
and densities, in whichever order they are loaded, starts the solver from the same vector. -/
theorem logged_run_repeats {H : Host α} {M : Model κ ns nr} {fs fs' : FS (Doc α κ)} (hwf : fs.WF) {a : Args} {y : Option (Y ns)}
    {P : Params} (hP : initParams M.passed = .ok P) (hinj : Function.Injective M.names) (hlog : a.logResults = true)
    (hkeys : ∀ n, a.initN = some n → n.keys.Nodup) (hid : ∀ id, a.runId = some id → Plain id)
    (h : Run H M fs a y fs' (.ok ())) :
    ∃ (id : Str) (R : Path) (r : Results α), a.runId = some id ∧ LogDir H M fs a R ∧ fs'.WF ∧
      (a.logTo = none → ∀ b, MorrisRuns.lower b = MorrisRuns.lower M.backend →
        Config.query H.cfg H.cwd fs' (.results b) = (fs', .ok R)) ∧
      (fetch fs' R id (str!"solution.csv") = some (some (.table (if a.compress then H.compress r.solution else r.solution))) ∧
       fetch fs' R id (str!"rates.csv") = some (some (.table (if a.compress then H.compress r.rates else r.rates))) ∧
       fetch fs' R id (str!"wall_fluxes.csv") = some (some (.table (if a.compress then H.compress r.fluxes else r.fluxes))) ∧
       fetch fs' R id (str!"chemistry_attributes.yaml") = some (some (.chemistry M.chemistry)) ∧
       fetch fs' R id (str!"solver_log.yaml") = some (some (.solver r.solverLog))) ∧
      (∃ d n, FetchAttrs fs' R id d a.elTemp n) ∧
      ∀ d T n, FetchAttrs fs' R id d T n → T = a.elTemp ∧ (∃ Q, initParams d = .ok Q ∧ P.Same Q) ∧
        ∀ (a' : Args) fs₁ y' fs₂ x, a'.elTemp = T → a'.initN = some n → fs₁.WF → Run H M fs₁ a' y' fs₂ x →
          y' = if a'.CanLog H M fs₁ then y else none := by
  cases h with
  | unlogged hpl _ _ _ =>
    unfold place at hpl
    rw [if_pos hlog] at hpl
    split at hpl
    · cases hpl
    · split at hpl
      · cases hpl
      · split at hpl <;> cases hpl
  | @logged fs1 R id n y d r _ hpl hd hy hv hp hx =>
    obtain ⟨h1, h2, h3, h4⟩ := place_some hpl
    have hwf1 := (place_fs hwf hpl).2
    obtain ⟨t, -, ht, h5, h6, h7, h8, h9, hwf', h10⟩ := Log.log_exact hwf1 hx
    obtain rfl := ht (hid id h2)
    obtain ⟨hT, hval, hn⟩ := densities_ok.1 hd
    have hnd : n.keys.Nodup := by
      cases hin : a.initN with
      | some m =>
        rw [hin] at hn
        subst hn
        exact hkeys _ hin
      | none =>
        rw [hin] at hn
        subst hn
        have : Dict.keys (Data.initDict M.names (M.data.genN 1e-15 1e-15 1e-15)) = (List.finRange ns).map M.names := by
          simp [Dict.keys, Data.initDict, List.map_map, Function.comp_def]
        rw [this]
        exact (List.nodup_finRange ns).map hinj
    have hc : ∀ z, (if a.compress then H.compress else _root_.id : α → α) z = if a.compress then H.compress z else z := by
      intro z; cases a.compress <;> rfl
    refine ⟨id, R, r, h2, h3, hwf', fun hlt b hb => ?_, ⟨?_, ?_, ?_, ?_, ?_⟩, ?_, ?_⟩
    · rcases h3 with h3 | ⟨-, h3⟩
      · rw [hlt] at h3; cases h3
      · have hfs1 : fs1 = (Config.query H.cfg H.cwd fs (.results M.backend)).1 := by
          unfold place at hpl
          rw [if_pos hlog, h2, hlt] at hpl
          dsimp only at hpl
          split at hpl
          · cases hpl
          · rename_i fs2 R' he
            rw [he]
            split at hpl <;> cases hpl
            rfl
        exact (Config.logged_found hwf h3 (hid id h2) (hfs1 ▸ hx)).1 b hb
    · have := h10 0; rw [← hc]; exact this
    · have := h10 1; rw [← hc]; exact this
    · have := h10 2; rw [← hc]; exact this
    · exact h10 3
    · exact h10 5
    · exact ⟨_, _, d, n, h10 4, ⟨d, List.forall₂_same.2 fun e _ => ⟨rfl, by cases e.2 <;> constructor; rfl⟩, .refl _⟩, .refl _⟩
    · rintro d' T n' ⟨d1, n1, hf, hd', hn'⟩
      have h44 := h10 4
      have : some (some (Doc.attributes d1 T n1)) = some (some (docs H M a n d r 4)) := hf.symm.trans h44
      simp only [docs, Option.some.injEq, Doc.attributes.injEq] at this
      obtain ⟨rfl, rfl, rfl⟩ := this
      refine ⟨rfl, ?_, fun a' fs₁ y' fs₂ x ha' hn₁ hwf₁ hrun => ?_⟩
      · obtain ⟨d2, hd2, hall⟩ := stored_params hP
        rw [hp] at hd2
        cases hd2
        exact hall d' hd'
      · obtain ⟨hr1, hr2⟩ := solver_reached hwf₁ hrun
        have hg : a'.Good H M fs₁ ↔ a'.CanLog H M fs₁ := by
          refine ⟨fun h => h.1, fun h => ⟨h, ha' ▸ hT, ?_⟩⟩
          rw [hn₁]
          exact (validate_perm hn' hnd).trans hval
        by_cases hcan : a'.CanLog H M fs₁
        · rw [if_pos hcan]
          obtain ⟨v, rfl⟩ := Option.isSome_iff_exists.1 (hr1.2 (hg.2 hcan))
          have := (hr2 v rfl).2.2
          rw [hn₁, ha'] at this
          dsimp only at this
          rw [y0_perm hn' hnd, hy] at this
          exact this.symm
        · rw [if_neg hcan]
          cases y' with
          | none => rfl
          | some v => exact absurd (hg.1 (hr1.1 rfl)) hcan

theorem exec_new {δ : Type} {fs : FS δ} {R : Path} {id : Str} (ow : Bool) (docs : Fin 6 → δ) (hR : fs.isDir R = true)
    (hid : Plain id) (hnew : fs (R ++ [id]) = none) : ∃ fs', Exec fs R id ow docs fs' := by
  have hs : ∃ j : Log.Job δ, Log.start fs R id ow docs = .ok ⟨fs.put (R ++ [id]) (some .dir), .writing j 0 false⟩ := by
    have hnd : fs.isDir (R ++ [id]) ≠ true := by
      intro h
      rw [Log.isDir_iff, hnew] at h; cases h
    unfold Log.start
    rw [if_pos hR, Log.locate_plain hid hR]
    dsimp only
    rw [if_neg hnd, if_neg (by rw [hnew]; simp)]
    exact ⟨_, rfl⟩
  obtain ⟨j, hs⟩ := hs
  have hk : ∀ k : Nat, k ≤ 6 → ∃ acts fs', (∀ l ∈ acts, l = Log.Label.act) ∧
      Steps ⟨fs.put (R ++ [id]) (some .dir), .writing j 0 false⟩ acts ⟨fs', .writing j k false⟩ := by
    intro k
    induction k with
    | zero => exact fun _ => ⟨[], _, (fun l h => by cases h), .nil⟩
    | succ k ih =>
      intro hk
      obtain ⟨acts, fs', ha, hst⟩ := ih (by omega)
      refine ⟨acts ++ [.act] ++ [.act], _, ?_, .snoc (.snoc hst (Log.Step.opened ⟨k, by omega⟩)) (Log.Step.filled ⟨k, by omega⟩)⟩
      intro l hl
      simp only [List.mem_append, List.mem_singleton] at hl
      rcases hl with (hl | hl) | hl
      · exact ha l hl
      · exact hl
      · exact hl
  obtain ⟨acts, fs', ha, hst⟩ := hk 6 le_rfl
  exact ⟨fs', _, acts, _, hs, ha, hst, .done⟩

/-- **C106.** And nothing else is in the way: with good arguments and a new run id, whatever the solver gives is logged. -/
theorem run_logs {H : Host α} {M : Model κ ns nr} {fs : FS (Doc α κ)} (hwf : fs.WF) {a : Args} {P : Params}
    (hP : initParams M.passed = .ok P) (hgood : a.Good H M fs) {id : Str} {R : Path} (hlog : a.logResults = true)
    (hid : a.runId = some id) (hplain : Plain id) (hR : LogDir H M fs a R) (hnew : fs (R ++ [id]) = none) (r : Results α) :
    ∃ y fs', Run H M fs a (some y) fs' (.ok ()) ∧
      fetch fs' R id (str!"solution.csv") = some (some (.table (if a.compress then H.compress r.solution else r.solution))) := by
  obtain ⟨p, hp⟩ := (place_ok hwf).2 hgood.1
  cases hpl : place H M fs a with
  | mk fs1 z =>
    rw [hpl] at hp
    dsimp only at hp
    subst hp
    have hsome : ∃ R' id', p = some (R', id') := by
      cases p with
      | some q => exact ⟨q.1, q.2, rfl⟩
      | none =>
        exfalso
        unfold place at hpl
        rw [if_pos hlog, hid] at hpl
        dsimp only at hpl
        split at hpl
        · cases hpl
        · split at hpl <;> cases hpl
    obtain ⟨R', id', rfl⟩ := hsome
    obtain ⟨-, h2, h3, h4⟩ := place_some hpl
    rw [hid] at h2
    cases h2
    have hRR : R' = R := by
      rcases h3 with h3 | ⟨h3, h3'⟩ <;> rcases hR with h5 | ⟨h5, h5'⟩
      · rw [h3] at h5; cases h5; rfl
      · rw [h3] at h5; cases h5
      · rw [h3] at h5; cases h5
      · rw [h3'] at h5'; cases h5'; rfl
    subst hRR
    obtain ⟨hfs, hwf1⟩ := place_fs hwf hpl
    have hnew1 : fs1 (R' ++ [id]) = none := by
      rcases hfs with rfl | ⟨R2, h5, h6, -, rfl⟩
      · exact hnew
      · rcases h3 with h3 | ⟨-, h3⟩
        · rw [h6] at h3; cases h3
        · rw [h3] at h5
          cases h5
          rw [Config.withDirs_out _ (fun h => by have := h.length_le; simp at this)]
          exact hnew
    obtain ⟨d, hd, -⟩ := stored_params hP
    obtain ⟨y, hy, hv, -⟩ := (Data.validate_iff_starts M.names a.elTemp _).1 hgood.2.2
    have hden := densities_ok.2 ⟨hgood.2.1, hgood.2.2, rfl⟩
    obtain ⟨fs', hx⟩ := exec_new a.overwrite (docs H M a _ d r) h4 hplain hnew1
    refine ⟨y, fs', .logged hpl hden hy hv hd hx, ?_⟩
    obtain ⟨t, -, ht, -, -, -, -, -, -, h10⟩ := Log.log_exact hwf1 hx
    have := h10 0
    have hc : ∀ z, (if a.compress then H.compress else _root_.id : α → α) z = if a.compress then H.compress z else z := by
      intro z; cases a.compress <;> rfl
    rw [← hc]
    exact this

/-! ### Cases -/

namespace Demo

/-- the argon model with pulsed power -/
noncomputable def model : Model Unit 3 3 where
  backend := str!"PyGMol"
  passed := Pygmol.Demo.passed []
  data := Pygmol.Demo.argon
  names := ![str!"Ar", str!"Ar+", str!"Ar*"]
  chemistry := ()

theorem names_inj : Function.Injective model.names := by
  intro i k h
  fin_cases i <;> fin_cases k <;> first | rfl | (exfalso; revert h; simp [model])

def host : Host Nat := ⟨fun k => if k = str!"workspace" then some (.text (str!"/ws")) else none, [], fun _ => 0⟩

/-- an empty disk -/
def disk : FS (Doc Nat Unit) := fun p => if p = [] then some .dir else none

theorem disk_wf : disk.WF := by
  constructor
  · rfl
  · intro p c h
    exact absurd (by simp [disk]) h

def args : Args := { runId := some (str!"run1") }

theorem plain : Plain (str!"run1") := ⟨by decide, by decide, by decide, by decide⟩

theorem dir : LogDir host model disk args [str!"ws", str!"results", str!"pygmol"] := .inr ⟨rfl, by
  have h : (Config.query host.cfg host.cwd disk (.results (str!"PyGMol"))).2.toOption =
    some [str!"ws", str!"results", str!"pygmol"] := by decide +kernel
  show (Config.query host.cfg host.cwd disk (.results (str!"PyGMol"))).2 = _
  cases hq : (Config.query host.cfg host.cwd disk (.results (str!"PyGMol"))).2 with
  | error e => rw [hq] at h; cases h
  | ok R => rw [hq] at h; simp only [Except.toOption, Option.some.injEq] at h; rw [h]⟩

theorem good : args.Good host model disk := by
  refine ⟨fun _ => ⟨⟨_, rfl⟩, _, dir, fun h => (by cases h)⟩, by norm_num [args], ?_⟩
  exact (Data.init_roundtrip (elTemp := 1) Pygmol.Demo.physical (fun i hi => by revert hi; fin_cases i <;> simp [Pygmol.Demo.argon])
    ⟨1, by simp [Pygmol.Demo.argon]⟩ names_inj (by norm_num)).1

/-- a run with generated densities is logged into the default directory, and can be repeated -/
example : ∃ y fs', Run host model disk args (some y) fs' (.ok ()) ∧ ∃ R r d n,
    fetch fs' R (str!"run1") (str!"solution.csv") = some (some (.table (r : Results Nat).solution)) ∧
    FetchAttrs fs' R (str!"run1") d 1 n ∧
    ∀ (a' : Args) fs₁ y' fs₂ x, a'.elTemp = 1 → a'.initN = some n → a'.logResults = false → fs₁.WF →
      Run host model fs₁ a' y' fs₂ x → y' = some y := by
  obtain ⟨y, fs', h, -⟩ := run_logs disk_wf Pygmol.Demo.accepted good (R := [str!"ws", str!"results", str!"pygmol"]) rfl rfl plain dir rfl
    ⟨1, 2, 3, 4⟩
  refine ⟨y, fs', h, ?_⟩
  obtain ⟨id, R, r, h1, -, -, -, h5, ⟨d, n, h6⟩, h7⟩ := logged_run_repeats disk_wf Pygmol.Demo.accepted names_inj rfl
    (fun n hn => (by cases hn)) (fun id h => by cases h; exact plain) h
  cases h1
  refine ⟨R, r, d, n, h5.1, h6, fun a' fs₁ y' fs₂ x ha hn hl hwf hr => ?_⟩
  have hcan : a'.CanLog host model fs₁ := fun h => by rw [hl] at h; cases h
  rw [(h7 d _ n h6).2.2 a' fs₁ y' fs₂ x ha hn hwf hr, if_pos hcan]

/-- nothing appears beside the directory -/
example {y fs' x} (h : Run host model disk args y fs' x) : fs' [str!"ws", str!"results", str!"morris"] = none := by
  rcases (other_runs_kept disk_wf h rfl rfl plain dir).1 [str!"ws", str!"results", str!"morris"] (by decide) with h | ⟨-, h, -⟩
  · rw [h]; rfl
  · exact absurd h (by decide)

end Demo

end Verif.Fwork.RunLog
