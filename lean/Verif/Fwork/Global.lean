/-
Model of the run/getter protocol of pygmo_fwork/global_model.py (GlobalModel) and of
pygmo_fwork/pygmol/model.py (Model), properties C55, C63.
-/
import Verif.Plaschem.Base
import Mathlib.Tactic.Common
import Mathlib.Data.List.Induction

namespace Verif.Fwork
open Verif.Plaschem (Str)
open Verif.Plaschem

/-- what the getters of a chemistry report: names of the enabled species, ids of the enabled reactions. -/
structure Chem where
  names : List Str
  ids : List Nat

inductive GErr where
  /-- BackendNoRunError -/
  | noRun
  /-- BackendRunUnsuccessfulError -/
  | unsuccessful
  /-- ModelSolutionError -/
  | noSolution
  /-- AttributeError on `None` -/
  | attribute
  /-- ValueError: number of column labels -/
  | value
  /-- KeyError: missing column -/
  | key
  /-- anything raised by validation, the solver, printing or logging -/
  | failed
deriving DecidableEq

/-- column labels of a data frame, apart from `t` -/
inductive Label where
  | species (s : Str)
  | reaction (i : Nat)
  | rho
  | value
deriving DecidableEq

/-- The backend model (model.py:69-78). Solutions are represented by arbitrary payloads `α`. -/
structure Backend (α : Type) where
  /-- numbers of species and reactions of `self.equations` (model.py:72, 184) -/
  numSpecies : Nat
  numReactions : Nat
  /-- `sol_raw.success` -/
  raw : Option Bool := none
  /-- `sol_primary` -/
  primary : Option α := none
  /-- `sol_secondary` with its species columns -/
  secondary : Option (α × List Str) := none

/-- model.py:229-261 `diagnose`: the column labels of a quantity with `w` components. The chemistry is the one
at the time of the call, the equations are those of the last run. -/
def Backend.labels {α : Type} (b : Backend α) (c : Chem) (w : Nat) : Except GErr (List Label) :=
  let l :=
    if w = b.numSpecies then c.names.map .species
    else if w = b.numReactions then c.ids.map .reaction
    else if w = b.numSpecies + 1 then c.names.map .species ++ [.rho]
    else [.value]
  if l.length = w then .ok l else .error .value

/-- What can happen in one call of `run`, up to and including the solver. -/
inductive Solver (α : Type) where
  /-- an exception before the backend is entered (global_model.py:169-185, model.py:142-153) -/
  | rejected
  /-- an exception after the equations were rebuilt, before the solver returned (model.py:186-196) -/
  | crashed
  /-- the solver returned -/
  | returned (success : Bool) (sol : α)

/-- model.py:200-227 `_parse_raw_sol`, `_post_process` on a state whose equations were just built. -/
def Backend.postProcess {α : Type} (b : Backend α) (c : Chem) (success : Bool) (sol : α) :
    Backend α × Except GErr Unit :=
  let b' := { b with raw := some success, primary := some sol }
  -- model.py:217-219: the number of columns has to match
  if b.numSpecies ≠ c.names.length then (b', .error .value)
  else
    -- the frame is assigned before it is complete; for its remaining columns (e, Te, Tg, p, t) see `Fwork/Secondary`
    let b'' := { b' with secondary := some (sol, c.names) }
    -- model.py:224: `self.diagnose('total_pressure')['value']`
    match b''.labels c 1 with
    | .error e => (b'', .error e)
    | .ok l => if l = [.value] then (b'', .ok ()) else (b'', .error .key)

/-- model.py:169-198, 271-282 `run`. -/
def Backend.run {α : Type} (b : Backend α) (c : Chem) : Solver α → Backend α × Except GErr Unit
  | .rejected => (b, .error .failed)
  | .crashed => ({ b with numSpecies := c.names.length, numReactions := c.ids.length }, .error .failed)
  | .returned success sol =>
    let b₁ := { b with numSpecies := c.names.length, numReactions := c.ids.length }
    match b₁.postProcess c success sol with
    | (b₂, .error e) => (b₂, .error e)
    | (b₂, .ok ()) => if success then (b₂, .ok ()) else (b₂, .error .noSolution)

/-- model.py:290-297 `get_solution`. -/
def Backend.getSolution {α : Type} (b : Backend α) : Except GErr (α × List Str) :=
  match b.primary with
  | none => .error .noSolution
  | some _ =>
    match b.secondary with
    | none => .error .attribute
    | some s => .ok s

/-- model.py:306-314 `get_rates`. -/
def Backend.getRates {α : Type} (b : Backend α) (c : Chem) : Except GErr (α × List Label) :=
  match b.primary with
  | none => .error .noSolution
  | some p =>
    match b.labels c b.numReactions with
    | .error e => .error e
    | .ok l => .ok (p, l)

/-- model.py:323-331 `get_wall_fluxes`. -/
def Backend.getWallFluxes {α : Type} (b : Backend α) (c : Chem) : Except GErr (α × List Label) :=
  match b.primary with
  | none => .error .noSolution
  | some p =>
    match b.labels c b.numSpecies with
    | .error e => .error e
    | .ok l => .ok (p, l)

/-- `GlobalModel` (global_model.py:40-70) together with the chemistry it refers to. -/
structure GM (α : Type) where
  chem : Chem
  last : Option Bool
  model : Option (Backend α)

/-- global_model.py:40-70, model.py:42-80: construction. -/
def GM.init (α : Type) (c : Chem) : GM α :=
  ⟨c, none, some { numSpecies := c.names.length, numReactions := c.ids.length }⟩

/-- operations of a user -/
inductive Op (α : Type) where
  /-- the chemistry is modified in place -/
  | modify (c : Chem)
  /-- `run`; `reporting` is false if printing or logging raises after the solver has finished -/
  | run (s : Solver α) (reporting : Bool)
  /-- `reload_model_parameters`; `accepted` is false if the parameters are rejected -/
  | reload (accepted : Bool)

/-- global_model.py:143-212 `run`, 72-78 `reload_model_parameters`. -/
def GM.step {α : Type} (g : GM α) : Op α → GM α × Except GErr Unit
  | .modify c => ({ g with chem := c }, .ok ())
  | .run s reporting =>
    let g := { g with last := some false }
    match s with
    | .rejected => (g, .error .failed)
    | s =>
      match g.model with
      | none => (g, .error .attribute)
      | some b =>
        match b.run g.chem s with
        | (b', .error e) => ({ g with model := some b' }, .error e)
        | (b', .ok ()) =>
          let g' := { g with model := some b', last := b'.raw }
          if reporting then (g', .ok ()) else (g', .error .failed)
  | .reload accepted =>
    match g.model with
    | none => (g, .error .attribute)
    | some _ =>
      if accepted then (GM.init α g.chem, .ok ())
      -- global_model.py:55, 59: `self.model = None`, then the backend raises
      else ({ g with model := none }, .error .failed)

/-- global_model.py:214-228 `success`, `assert_success`. -/
def GM.success {α : Type} (g : GM α) : Except GErr Bool :=
  match g.last with
  | none => .error .noRun
  | some b => .ok b

/-- global_model.py:337-377: the getters. -/
def GM.guarded {α β : Type} (g : GM α) (f : Backend α → Except GErr β) : Except GErr β :=
  match g.success with
  | .error e => .error e
  | .ok false => .error .unsuccessful
  | .ok true =>
    match g.model with
    | none => .error .attribute
    | some b => f b

def GM.getSolution {α : Type} (g : GM α) : Except GErr (α × List Str) := g.guarded Backend.getSolution
def GM.getRates {α : Type} (g : GM α) : Except GErr (α × List Label) := g.guarded (·.getRates g.chem)
def GM.getWallFluxes {α : Type} (g : GM α) : Except GErr (α × List Label) :=
  g.guarded (·.getWallFluxes g.chem)

/-- the state after a history of operations; exceptions are caught by the user -/
def GM.after {α : Type} (g : GM α) (ops : List (Op α)) : GM α := ops.foldl (fun g o => (g.step o).1) g

/-! ### specification -/

/-- `Latest c₀ ops sol c`: the last call of `run` in the history finished with the solution `sol`, the
chemistry at that time was `c`, and the model was not reloaded since. -/
inductive Latest {α : Type} : Chem → List (Op α) → α → Chem → Prop
  | mk (c₀ : Chem) (before after : List (Op α)) (sol : α) (reporting : Bool) :
      (∀ o ∈ after, ∃ c, o = .modify c) →
      Latest c₀ (before ++ .run (.returned true sol) reporting :: after) sol
        (GM.after (GM.init α c₀) before).chem

theorem Latest.unfold {α : Type} {c₀ : Chem} {ops : List (Op α)} {sol : α} {c : Chem}
    (h : Latest c₀ ops sol c) : ∃ before after reporting,
      ops = before ++ .run (.returned true sol) reporting :: after ∧ (∀ o ∈ after, ∃ c, o = .modify c) ∧
      c = (GM.after (GM.init α c₀) before).chem := by
  cases h with
  | mk before after _ reporting h => exact ⟨before, after, reporting, rfl, h, rfl⟩

/-! ### C55 -/

/-- what a state says about the history that led to it -/
structure Fresh {α : Type} (c₀ : Chem) (ops : List (Op α)) (g : GM α) : Prop where
  sound : g.last = some true → ∀ b, g.model = some b → ∃ sol c, Latest c₀ ops sol c ∧
    b.primary = some sol ∧ b.secondary = some (sol, c.names) ∧ b.numSpecies = c.names.length ∧
    b.numReactions = c.ids.length ∧ b.numSpecies ≠ 1 ∧ b.numReactions ≠ 1

theorem GM.after_append {α : Type} (g : GM α) (a b : List (Op α)) : g.after (a ++ b) = (g.after a).after b := by
  unfold GM.after; exact List.foldl_append

theorem postProcess_ok {α : Type} {b b' : Backend α} {c : Chem} {s : Bool} {sol : α}
    (hs : b.numSpecies = c.names.length)
    (h : b.postProcess c s sol = (b', .ok ())) :
    b' = { b with raw := some s, primary := some sol, secondary := some (sol, c.names) } ∧
      b.numSpecies ≠ 1 ∧ b.numReactions ≠ 1 := by
  unfold Backend.postProcess at h
  rw [if_neg (not_not.2 hs)] at h
  simp only at h
  have hl : ∀ l,
      ({ b with raw := some s, primary := some sol, secondary := some (sol, c.names) } : Backend α).labels c 1 = .ok l → l = [.value] →
      b.numSpecies ≠ 1 ∧ b.numReactions ≠ 1 := by
    intro l hl hv
    subst hv
    unfold Backend.labels at hl
    simp only at hl
    constructor
    · intro h1
      rw [if_pos h1.symm] at hl
      split at hl
      · simp only [Except.ok.injEq] at hl
        cases hn : c.names with
        | nil => rw [hn] at hl; cases hl
        | cons a l => rw [hn] at hl; cases hl
      · cases hl
    · intro h1
      by_cases h2 : 1 = b.numSpecies
      · rw [if_pos h2] at hl
        split at hl
        · simp only [Except.ok.injEq] at hl
          cases hn : c.names with
          | nil => rw [hn] at hl; cases hl
          | cons a l => rw [hn] at hl; cases hl
        · cases hl
      · rw [if_neg h2, if_pos h1.symm] at hl
        split at hl
        · simp only [Except.ok.injEq] at hl
          cases hn : c.ids with
          | nil => rw [hn] at hl; cases hl
          | cons a l => rw [hn] at hl; cases hl
        · cases hl
  cases hlab : ({ b with raw := some s, primary := some sol, secondary := some (sol, c.names) } : Backend α).labels c 1 with
  | error e => rw [hlab] at h; cases h
  | ok l =>
    rw [hlab] at h
    simp only at h
    by_cases hv : l = [.value]
    · rw [if_pos hv] at h
      cases h
      exact ⟨rfl, hl l hlab hv⟩
    · rw [if_neg hv] at h; cases h

theorem run_ok {α : Type} {b b' : Backend α} {c : Chem} {s : Solver α} (h : b.run c s = (b', .ok ())) :
    ∃ sol, s = .returned true sol ∧ b'.raw = some true ∧ b'.primary = some sol ∧
      b'.secondary = some (sol, c.names) ∧ b'.numSpecies = c.names.length ∧ b'.numReactions = c.ids.length ∧
      b'.numSpecies ≠ 1 ∧ b'.numReactions ≠ 1 := by
  cases s with
  | rejected => cases h
  | crashed => cases h
  | returned success sol =>
    unfold Backend.run at h
    simp only at h
    cases hp : ({ b with numSpecies := c.names.length, numReactions := c.ids.length } : Backend α).postProcess c
      success sol with
    | mk b₂ r =>
      rw [hp] at h
      cases r with
      | error e => cases h
      | ok u =>
        simp only at h
        cases success with
        | false => cases h
        | true =>
          rw [if_pos rfl] at h
          cases h
          obtain ⟨rfl, h1, h2⟩ := postProcess_ok rfl hp
          exact ⟨sol, rfl, rfl, rfl, rfl, rfl, rfl, h1, h2⟩

theorem fresh_after {α : Type} (c₀ : Chem) (ops : List (Op α)) :
    Fresh c₀ ops ((GM.init α c₀).after ops) := by
  induction ops using List.reverseRecOn with
  | nil => exact ⟨fun h => by cases h⟩
  | append_singleton ops o ih =>
    rw [GM.after_append]
    generalize hg : (GM.init α c₀).after ops = g at ih
    show Fresh c₀ (ops ++ [o]) (g.step o).1
    cases o with
    | modify c =>
      refine ⟨fun hl b hb => ?_⟩
      obtain ⟨sol, c', hL, h1⟩ := ih.sound hl b hb
      obtain ⟨before, after, rep, rfl, ha, rfl⟩ := hL.unfold
      refine ⟨sol, _, ?_, h1⟩
      rw [List.append_assoc, List.cons_append]
      refine Latest.mk c₀ before _ sol rep fun o ho => ?_
      rcases List.mem_append.1 ho with ho | ho
      · exact ha o ho
      · rw [List.mem_singleton.1 ho]; exact ⟨c, rfl⟩
    | reload acc =>
      unfold GM.step
      simp only
      cases hm : g.model with
      | none => exact ⟨fun hl b hb => by simp only at hb; rw [hm] at hb; cases hb⟩
      | some b =>
        simp only
        cases acc with
        | true => exact ⟨fun hl => by cases hl⟩
        | false => exact ⟨fun hl b hb => by cases hb⟩
    | run s rep =>
      unfold GM.step
      simp only
      cases s with
      | rejected => exact ⟨fun hl => by cases hl⟩
      | crashed =>
        simp only
        cases hm : g.model with
        | none => exact ⟨fun hl => by cases hl⟩
        | some b => exact ⟨fun hl => by cases hl⟩
      | returned success sol =>
        simp only
        cases hm : g.model with
        | none => exact ⟨fun hl => by cases hl⟩
        | some b =>
          simp only
          cases hr : b.run g.chem (.returned success sol) with
          | mk b' r =>
            cases r with
            | error e => exact ⟨fun hl => by cases hl⟩
            | ok u =>
              obtain ⟨sol', hs, h1, h2⟩ := run_ok hr
              obtain ⟨rfl, rfl⟩ : success = true ∧ sol = sol' := by cases hs; exact ⟨rfl, rfl⟩
              have key : ∀ b'', some b' = some b'' → ∃ sol' c,
                  Latest c₀ (ops ++ [.run (.returned true sol) rep]) sol' c ∧
                  b''.primary = some sol' ∧ b''.secondary = some (sol', c.names) ∧
                  b''.numSpecies = c.names.length ∧ b''.numReactions = c.ids.length ∧ b''.numSpecies ≠ 1 ∧
                  b''.numReactions ≠ 1 := by
                intro b'' hb
                cases hb
                refine ⟨sol, g.chem, ?_, h2⟩
                rw [← hg]
                exact Latest.mk c₀ ops [] sol rep (by simp)
              cases rep with
              | true => exact ⟨fun _ b'' hb => key b'' hb⟩
              | false => exact ⟨fun _ b'' hb => key b'' hb⟩

theorem guarded_ok {α β : Type} {g : GM α} {f : Backend α → Except GErr β} {x : β} (h : g.guarded f = .ok x) :
    g.last = some true ∧ ∃ b, g.model = some b ∧ f b = .ok x := by
  unfold GM.guarded GM.success at h
  cases hl : g.last with
  | none => rw [hl] at h; cases h
  | some s =>
    rw [hl] at h
    cases s with
    | false => cases h
    | true =>
      simp only at h
      cases hm : g.model with
      | none => rw [hm] at h; cases h
      | some b => rw [hm] at h; exact ⟨rfl, b, rfl, h⟩

/-- **C55.** After any history, data returned by a getter come from the last call of `run`, which was
successful and after which the model was not reloaded; the solution is labelled with the species enabled at
the time of that run. -/
theorem getters_never_stale {α : Type} (c₀ : Chem) (ops : List (Op α)) :
    let g := (GM.init α c₀).after ops
    (∀ sol l, g.getSolution = .ok (sol, l) → ∃ c, Latest c₀ ops sol c ∧ l = c.names) ∧
    (∀ sol l, g.getRates = .ok (sol, l) → ∃ c, Latest c₀ ops sol c) ∧
    (∀ sol l, g.getWallFluxes = .ok (sol, l) → ∃ c, Latest c₀ ops sol c) := by
  intro g
  have hf := fresh_after c₀ ops
  refine ⟨fun sol l h => ?_, fun sol l h => ?_, fun sol l h => ?_⟩
  · obtain ⟨hl, b, hb, h⟩ := guarded_ok h
    obtain ⟨sol', c, hL, h1, h2, -⟩ := hf.sound hl b hb
    unfold Backend.getSolution at h
    rw [h1, h2] at h
    cases h
    exact ⟨c, hL, rfl⟩
  · obtain ⟨hl, b, hb, h⟩ := guarded_ok h
    obtain ⟨sol', c, hL, h1, -⟩ := hf.sound hl b hb
    unfold Backend.getRates at h
    rw [h1] at h
    simp only at h
    split at h
    · cases h
    · cases h; exact ⟨c, hL⟩
  · obtain ⟨hl, b, hb, h⟩ := guarded_ok h
    obtain ⟨sol', c, hL, h1, -⟩ := hf.sound hl b hb
    unfold Backend.getWallFluxes at h
    rw [h1] at h
    simp only at h
    split at h
    · cases h
    · cases h; exact ⟨c, hL⟩

/-- **C55.** Before any run every getter raises "no run". -/
theorem getters_before_run {α : Type} (c₀ : Chem) (cs : List Chem) :
    let g := (GM.init α c₀).after (cs.map .modify)
    g.getSolution = .error .noRun ∧ g.getRates = .error .noRun ∧ g.getWallFluxes = .error .noRun ∧
      g.success = .error .noRun := by
  intro g
  have h : g.last = none := by
    have : ∀ (cs : List Chem) (g : GM α), g.last = none → (g.after (cs.map .modify)).last = none := by
      intro cs
      induction cs with
      | nil => intro g h; exact h
      | cons c cs ih => intro g h; exact ih _ h
    exact this cs _ rfl
  unfold GM.getSolution GM.getRates GM.getWallFluxes GM.guarded GM.success
  rw [h]
  exact ⟨rfl, rfl, rfl, rfl⟩

/-- **C55.** After a run that raised in or before the solver, or whose solver failed, every getter raises. -/
theorem getters_after_failure {α : Type} (g : GM α) (s : Solver α) (rep : Bool)
    (hs : ∀ sol, s ≠ .returned true sol) :
    let g' := (g.step (.run s rep)).1
    g'.getSolution = .error .unsuccessful ∧ g'.getRates = .error .unsuccessful ∧
      g'.getWallFluxes = .error .unsuccessful ∧ g'.success = .ok false := by
  intro g'
  have h : g'.last = some false := by
    show (g.step (.run s rep)).1.last = some false
    unfold GM.step
    simp only
    cases s with
    | rejected => rfl
    | crashed => simp only; cases g.model <;> rfl
    | returned success sol =>
      simp only
      cases hm : g.model with
      | none => rfl
      | some b =>
        simp only
        cases hr : b.run g.chem (.returned success sol) with
        | mk b' r =>
          cases r with
          | error e => rfl
          | ok u =>
            obtain ⟨sol', h1, -⟩ := run_ok hr
            exact absurd h1 (hs sol')
  unfold GM.getSolution GM.getRates GM.getWallFluxes GM.guarded GM.success
  rw [h]
  exact ⟨rfl, rfl, rfl, rfl⟩

/-! ### C63 labels -/

theorem getters_after_success {α : Type} (g : GM α) (b : Backend α) (hb : g.model = some b) (sol : α) (rep : Bool)
    (h1 : g.chem.names.length ≠ 1) (h2 : g.chem.ids.length ≠ 1) (h3 : g.chem.names ≠ []) :
    let g' := (g.step (.run (.returned true sol) rep)).1
    g'.chem = g.chem ∧ g'.last = some true ∧ g'.model = some
      { numSpecies := g.chem.names.length, numReactions := g.chem.ids.length, raw := some true,
        primary := some sol, secondary := some (sol, g.chem.names) } := by
  have h4 : g.chem.names.length ≠ 0 := fun h => h3 (List.length_eq_zero_iff.1 h)
  have hrun : b.run g.chem (.returned true sol) = ((
      { numSpecies := g.chem.names.length, numReactions := g.chem.ids.length, raw := some true,
        primary := some sol, secondary := some (sol, g.chem.names) } : Backend α), .ok ()) := by
    simp only [Backend.run, Backend.postProcess, Backend.labels]
    rw [if_neg (not_not.2 rfl), if_neg (Ne.symm h1), if_neg (Ne.symm h2),
      if_neg (show ¬ (1 = g.chem.names.length + 1) by omega)]
    rfl
  simp only [GM.step, hb, hrun]
  cases rep <;> exact ⟨rfl, rfl, rfl⟩

/-- **C63.** Right after a run whose solver succeeded, whether or not the reporting raised: all getters return
its data; solution and fluxes are labelled by the species and the rates by the reactions, provided there are
at least two species, not exactly one reaction, and not as many reactions as species. -/
theorem labels_after_success {α : Type} (g : GM α) (b : Backend α) (hb : g.model = some b) (sol : α) (rep : Bool)
    (h1 : 2 ≤ g.chem.names.length) (h2 : g.chem.ids.length ≠ 1)
    (hne : g.chem.ids.length ≠ g.chem.names.length) :
    let g' := (g.step (.run (.returned true sol) rep)).1
    g'.getSolution = .ok (sol, g.chem.names) ∧
    g'.getRates = .ok (sol, g.chem.ids.map .reaction) ∧
    g'.getWallFluxes = .ok (sol, g.chem.names.map .species) := by
  intro g'
  obtain ⟨e1, e2, e3⟩ := getters_after_success g b hb sol rep (by omega) h2
    (by intro h; rw [h] at h1; simp at h1)
  have hg' : g' = ⟨g.chem, some true, some
      { numSpecies := g.chem.names.length, numReactions := g.chem.ids.length, raw := some true,
        primary := some sol, secondary := some (sol, g.chem.names) }⟩ := by
    cases hgg : g' with
    | mk c l m =>
      have a1 : c = g.chem := by rw [← e1]; show c = g'.chem; rw [hgg]
      have a2 : l = some true := by rw [← e2]; show l = g'.last; rw [hgg]
      have a3 : m = g'.model := by rw [hgg]
      rw [a1, a2, a3, e3]
  rw [hg']
  refine ⟨rfl, ?_, ?_⟩
  · simp [GM.getRates, GM.guarded, GM.success, Backend.getRates, Backend.labels, hne]
  · simp [GM.getWallFluxes, GM.guarded, GM.success, Backend.getWallFluxes, Backend.labels]

/-- Finding: with exactly one reaction (or one species) no run can succeed: the total pressure is labelled as
a reaction (species) and the column "value" is missing. -/
theorem one_reaction_fails {α : Type} (b : Backend α) (c : Chem) (h : c.ids.length = 1 ∨ c.names.length = 1)
    (s : Solver α) : ∃ e, (b.run c s).2 = .error e := by
  cases hr : b.run c s with
  | mk b' r =>
    cases r with
    | error e => exact ⟨e, rfl⟩
    | ok u =>
      obtain ⟨sol, -, -, -, -, h1, h2, h3, h4⟩ := run_ok hr
      rcases h with h | h
      · exact absurd (h2.trans h) h4
      · exact absurd (h1.trans h) h3

/-- Finding: with as many reactions as species the rates are labelled with the names of the species. -/
theorem rates_labelled_as_species {α : Type} (g : GM α) (b : Backend α) (hb : g.model = some b) (sol : α)
    (rep : Bool) (h1 : 2 ≤ g.chem.names.length) (he : g.chem.ids.length = g.chem.names.length) :
    (g.step (.run (.returned true sol) rep)).1.getRates = .ok (sol, g.chem.names.map .species) := by
  obtain ⟨e1, e2, e3⟩ := getters_after_success g b hb sol rep (by omega) (by omega)
    (by intro h; rw [h] at h1; simp at h1)
  simp only [GM.getRates, GM.guarded, GM.success, e1, e2, e3, Backend.getRates, Backend.labels]
  simp [he]

/-- Finding: if the chemistry is modified after the run and has as many enabled species as before, the fluxes
are labelled with the new species. -/
theorem fluxes_mislabelled {α : Type} (g : GM α) (b : Backend α) (hb : g.model = some b) (sol : α) (c : Chem)
    (h1 : 2 ≤ g.chem.names.length) (h2 : g.chem.ids.length ≠ 1) (hc : c.names.length = g.chem.names.length) :
    (g.after [.run (.returned true sol) true, .modify c]).getWallFluxes =
      .ok (sol, c.names.map .species) := by
  obtain ⟨e1, e2, e3⟩ := getters_after_success g b hb sol true (by omega) h2
    (by intro h; rw [h] at h1; simp at h1)
  have : (g.after [.run (.returned true sol) true, .modify c]) =
    { (g.step (.run (.returned true sol) true)).1 with chem := c } := rfl
  rw [this]
  simp only [GM.getWallFluxes, GM.guarded, GM.success, e2, e3, Backend.getWallFluxes, Backend.labels]
  simp [hc]

/-- Finding: rejected parameters in `reload_model_parameters` leave an object that reports success of the last
run but raises AttributeError for everything else, forever. -/
theorem reload_failure {α : Type} (g : GM α) (h : g.last = some true) (hm : g.model.isSome) :
    let g' := (g.step (.reload false)).1
    g'.success = .ok true ∧ g'.getSolution = .error .attribute ∧
    ∀ ops, (g'.after ops).model = none := by
  obtain ⟨b, hb⟩ := Option.isSome_iff_exists.1 hm
  have e : (g.step (.reload false)).1 = { g with model := none } := by
    unfold GM.step; simp only [hb]; rfl
  intro g'
  have hg : g' = { g with model := none } := e
  refine ⟨?_, ?_, ?_⟩
  · rw [hg]; unfold GM.success; rw [h]
  · rw [hg]; unfold GM.getSolution GM.guarded GM.success; rw [h]
  · have : ∀ (ops : List (Op α)) (g : GM α), g.model = none → (g.after ops).model = none := by
      intro ops
      induction ops with
      | nil => intro g h; exact h
      | cons o ops ih =>
        intro g h
        refine ih _ ?_
        cases o with
        | modify c => exact h
        | reload acc => unfold GM.step; simp only [h]
        | run s rep =>
          unfold GM.step
          simp only
          cases s <;> simp only [h]
    intro ops
    exact this ops g' (by rw [hg])

/-- Finding: the backend used on its own returns the solution of an earlier run after a failed one. -/
theorem backend_stale {α : Type} (b b' : Backend α) (c c' : Chem) (sol : α)
    (h : b.run c (.returned true sol) = (b', .ok ())) :
    ∃ e, (b'.run c' .crashed).2 = .error e ∧ (b'.run c' .crashed).1.getSolution = .ok (sol, c.names) := by
  obtain ⟨sol', hs, h1, h2, h3, -⟩ := run_ok h
  cases hs
  refine ⟨.failed, rfl, ?_⟩
  simp only [Backend.run, Backend.getSolution, h2, h3]

/-! ### examples -/

def demoModel : Chem := ⟨[str!"Ar", str!"Ar+"], [1, 2, 3]⟩

/-- a successful run after a failed one -/
example : ((GM.init Nat demoModel).after [.run .crashed true, .run (.returned true 7) true]).getSolution =
    .ok (7, [str!"Ar", str!"Ar+"]) := rfl
/-- a failed run after a successful one -/
example : ((GM.init Nat demoModel).after [.run (.returned true 7) true, .run .crashed true]).getSolution =
    .error .unsuccessful := rfl
/-- logging raised -/
example : ((GM.init Nat demoModel).after [.run (.returned true 7) false]).getRates =
    .ok (7, [.reaction 1, .reaction 2, .reaction 3]) := rfl
example : ((GM.init Nat demoModel).after [.run (.returned true 7) true,
    .modify ⟨[str!"Ar", str!"Ar*"], [1, 2, 3]⟩]).getWallFluxes =
    .ok (7, [.species str!"Ar", .species str!"Ar*"]) := rfl
example : ((GM.init Nat demoModel).after [.run (.returned true 7) true, .reload true]).getSolution =
    .error .noRun := rfl

end Verif.Fwork
