/-
Property C116: a chemistry graph built from the results of a run of the model. Joins pygmo_fwork/pygmol/model.py:229-261
(`diagnose`) and 306-331 (the getters of rates and wall fluxes), pygmo_fwork/results.py:226-248 (rows at given times) and
pygmo_fwork/optichem/graph.py:298-379 (the constructor).
-/
import Verif.Fwork.Global
import Verif.Fwork.Frames
import Verif.Fwork.CoupleChem

namespace Verif.Fwork.GraphRun
open Finset Verif.Plaschem Verif.Plaschem.Net Verif.Pygmol
open Verif.Fwork.Rates (Lab ReadsWall)
open Verif.Fwork.CoupleInit (Frame)
open Verif.Fwork.Frames (Table getResultsFrames FErr)
open Verif.Fwork.Morris (PyDicts)

/-! ### the results of a run -/

/-- model.py:200-208: the times of the solver and the vectors of unknowns -/
structure Solved where
  t : List ℝ
  ys : List (List ℝ)

/-- equations.py:296-314: `y[:-1]` and `y[-1]` -/
def toY (ns : ℕ) (y : List ℝ) : Y ns := ⟨fun i => y.getD i 0, y.getLastD 0⟩

/-- what the model reads from a chemistry to label its tables, model.py:217, 247-252 -/
def chemOf (net : Net) (st : State) : Chem :=
  ⟨net.getSpeciesName st false false true, (net.getReactions st false).map Reaction.id⟩

/-- model.py:246: a quantity of the equations at each step of the solution, one after the other, with the arrays of the equations
object as they are left by the call before. Each result is copied. -/
noncomputable def evalAll {ns nr w : ℕ} (q : Y ns → Data.M ns nr (Fin w → ℝ)) :
    List (List ℝ) → Data.M ns nr (List (Fin w → ℝ))
  | [] => pure []
  | y :: ys => do
    let r ← q (toY ns y)
    let rest ← evalAll q ys
    return r :: rest

/-- model.py:246-261: the frame with its labels. (A solution has at least one step.) -/
def tableOf {w : ℕ} (labels : List Label) (t : List ℝ) (rows : List (Fin w → ℝ)) : Table Label :=
  { t := t, cols := List.zipWith (fun l i => (l, rows.map fun r => r i)) labels (List.finRange w) }

/-- model.py:306-314 `get_rates`; `D` are the equations of the last run and `c` their arrays -/
noncomputable def getRates {ns nr : ℕ} (b : Backend Solved) (chem : Chem) (D : Data ns nr) (c : Data.Cache ns nr) :
    Except GErr (Table Label) :=
  match b.getRates chem with
  | .error e => .error e
  | .ok (sol, labels) =>
    .ok (tableOf labels sol.t ((evalAll (fun y => D.getReactionRates y none none none none) sol.ys).run c).1)

/-- model.py:323-331 `get_wall_fluxes` -/
noncomputable def getWallFluxes {ns nr : ℕ} (b : Backend Solved) (chem : Chem) (D : Data ns nr) (c : Data.Cache ns nr) :
    Except GErr (Table Label) :=
  match b.getWallFluxes chem with
  | .error e => .error e
  | .ok (sol, labels) =>
    .ok (tableOf labels sol.t ((evalAll (fun y => D.getWallFluxes (nr := nr) y none none none) sol.ys).run c).1)

/-- model.py:247-254: labels are names, ids or one of two words -/
def lab : Label → Lab
  | .species n => .name n
  | .reaction i => .id i
  | .rho => .name str!"rho"
  | .value => .name str!"value"

/-- the same for the frame of the fluxes, all labels of which are strings (an id there would be an integer; there is none) -/
def word : Label → Str
  | .species n => n
  | .reaction _ => []
  | .rho => str!"rho"
  | .value => str!"value"

/-- the table as the first frame `ChemistryGraph` is given, model.py:259-260 -/
noncomputable def ratesFrame (T : Table Label) : Frame Lab where
  cols := .t :: T.cols.map fun c => lab c.1
  rows := (List.range T.t.length).map fun k l =>
    if l = .t then T.t.getD k 0 else ((Dict.get? (T.cols.map fun c => (lab c.1, c.2)) l).getD []).getD k 0

/-- the table as the second frame -/
noncomputable def fluxesFrame (T : Table Label) : Frame Str where
  cols := str!"t" :: T.cols.map fun c => word c.1
  rows := (List.range T.t.length).map fun k l =>
    if l = str!"t" then T.t.getD k 0 else ((Dict.get? (T.cols.map fun c => (word c.1, c.2)) l).getD []).getD k 0

/-! ### specification -/

/-- the number of heavy species and of reactions of a chemistry that are enabled -/
abbrev ns (net : Net) (st : State) : ℕ := (net.getSpecies st false false true).length
abbrev nr (net : Net) (st : State) : ℕ := (net.getReactions st false).length

/-- `F` and `W` are the rates and the fluxes to the wall at the given times, as logged by a run of the model with the chemistry
`st` that succeeded with the solution `sol`; whatever the model was used for before, and whatever was asked of it after. -/
def Logged (net : Net) (st : State) (D : Data (ns net st) (nr net st)) (sol : Solved) (times : List ℝ) (F : Frame Lab)
    (W : Frame Str) : Prop :=
  ∃ (b b' : Backend Solved) (junk : Data.Cache (ns net st) (nr net st)) (calls calls' : List (Data.Call (ns net st) (nr net st)))
    (T T' V V' : Table Label),
    b.run (chemOf net st) (.returned true sol) = (b', .ok ()) ∧
    getRates b' (chemOf net st) D (D.history junk calls) = .ok T ∧
    getWallFluxes b' (chemOf net st) D (D.history junk calls') = .ok V ∧
    getResultsFrames T times = .ok T' ∧ getResultsFrames V times = .ok V' ∧ F = ratesFrame T' ∧ W = fluxesFrame V'

/-- a solution as the solver returns it -/
structure Solved.Ok (sol : Solved) : Prop where
  steps : sol.ys.length = sol.t.length
  start : sol.t ≠ []
  increasing : sol.t.Pairwise (· < ·)

/-! ### lemmas -/

theorem evalAll_run {ns nr w : ℕ} {D : Data ns nr} {q : Y ns → Data.M ns nr (Fin w → ℝ)} {f : Y ns → Fin w → ℝ}
    (h : ∀ y, D.Gives (q y) (f y)) {c : Data.Cache ns nr} (hc : D.Valid c) (ys : List (List ℝ)) :
    ((evalAll q ys).run c).1 = ys.map fun y => f (toY ns y) := by
  have : D.Gives (evalAll q ys) (ys.map fun y => f (toY ns y)) := by
    induction ys with
    | nil => exact Data.Gives.pure _
    | cons y ys ih => exact (h _).bind (ih.bind (Data.Gives.pure _))
  exact (this c hc).1

theorem run_pos {α : Type} {b b' : Backend α} {c : Chem} {s : Solver α} (h : b.run c s = (b', .ok ())) : c.names ≠ [] := by
  intro hn
  cases s with
  | rejected => cases h
  | crashed => cases h
  | returned success sol =>
    unfold Backend.run Backend.postProcess Backend.labels at h
    by_cases h1 : c.ids.length = 1
    · simp [hn, h1] at h
    · simp [hn, Ne.symm h1] at h

theorem names_nodup {net : Net} (hwf : WF net) (st : State) : (net.getSpeciesName st false false true).Nodup := by
  unfold getSpeciesName
  have hsub : (net.getSpecies st false false true).Sublist net.species := List.filter_sublist
  have hnd : (net.getSpecies st false false true).Nodup := (List.Nodup.of_map RP.id hwf.spNodup).sublist hsub
  refine (List.nodup_map_iff_inj_on hnd).2 fun a ha b hb hab => hwf.eq_of_name (hsub.subset ha) (hsub.subset hb) hab

theorem ids_nodup {net : Net} (hwf : WF net) (st : State) : ((net.getReactions st false).map Reaction.id).Nodup :=
  hwf.rNodup.sublist (List.filter_sublist.map _)

/-- the columns of a table of a run -/
theorem tableOf_keys {w : ℕ} {labels : List Label} (hl : labels.length = w) (t : List ℝ) (rows : List (Fin w → ℝ)) :
    (tableOf labels t rows).cols.map Prod.fst = labels := by
  unfold tableOf
  refine List.ext_getElem (by simp [hl]) fun i h1 h2 => by simp

theorem column {K : Type} [DecidableEq K] {w : ℕ} {labels : List Label} (f : Label → K) (hl : labels.length = w)
    (hn : (labels.map f).Nodup) (φ : Fin w → List ℝ) (i : Fin w) :
    Dict.get? ((List.zipWith (fun l i => (l, φ i)) labels (List.finRange w)).map fun c => (f c.1, c.2))
      (f (labels[i.1]'(by omega))) = some (φ i) := by
  refine Dict.get?_of_mem (κ := K) (p := (f (labels[i.1]'(by omega)), φ i)) ?_ ?_
  · have : Dict.keys (κ := K) ((List.zipWith (fun l i => (l, φ i)) labels (List.finRange w)).map fun c => (f c.1, c.2)) = labels.map f := by
      unfold Dict.keys
      refine List.ext_getElem (by simp [hl]) fun i h1 h2 => by simp
    rw [this]
    exact hn
  · rw [List.mem_map]
    refine ⟨(labels[i.1]'(by omega), φ i), ?_, rfl⟩
    rw [List.mem_iff_getElem]
    exact ⟨i.1, by simp [hl], by simp⟩

/-- the labels of the tables of a run -/
theorem run_labels {net : Net} {st : State} {b b' : Backend Solved} {sol : Solved}
    (h : b.run (chemOf net st) (.returned true sol) = (b', .ok ())) :
    ns net st ≠ 0 ∧ ns net st ≠ 1 ∧ nr net st ≠ 1 ∧
    b'.getWallFluxes (chemOf net st) = .ok (sol, (net.getSpeciesName st false false true).map .species) ∧
    b'.getRates (chemOf net st) = .ok (sol, if nr net st = ns net st then (net.getSpeciesName st false false true).map .species
      else ((net.getReactions st false).map Reaction.id).map .reaction) := by
  obtain ⟨sol', hs, -, h2, -, h4, h5, h6, h7⟩ := run_ok h
  cases hs
  have h8 := run_pos h
  have e1 : (chemOf net st).names.length = ns net st := by simp [chemOf, getSpeciesName]
  have e2 : (chemOf net st).ids.length = nr net st := by simp [chemOf]
  rw [e1] at h4
  rw [e2] at h5
  refine ⟨fun h0 => h8 (List.length_eq_zero_iff.1 (e1.trans h0)), h4 ▸ h6, h5 ▸ h7, ?_, ?_⟩
  · unfold Backend.getWallFluxes Backend.labels
    simp only [h2, h4, if_true, List.length_map, e1]
    rfl
  · unfold Backend.getRates Backend.labels
    simp only [h2, h4, h5]
    by_cases hc : nr net st = ns net st
    · rw [if_pos hc, if_pos hc, if_pos (by rw [List.length_map, e1, hc])]
      rfl
    · rw [if_neg hc, if_neg hc]
      simp only [if_true, List.length_map, e2]
      rfl

/-- what the frames of a run contain -/
structure Contents (net : Net) (st : State) (D : Data (ns net st) (nr net st)) (sol : Solved) (times : List ℝ) (F : Frame Lab)
    (W : Frame Str) : Prop where
  pos : ns net st ≠ 0
  fluxCols : W.cols = str!"t" :: net.getSpeciesName st false false true
  rateCols : F.cols = .t :: if nr net st = ns net st then (net.getSpeciesName st false false true).map .name
    else (net.getReactions st false).map fun r => .id r.id
  rateTimes : F.rows.map (fun f => f .t) = times
  fluxTimes : W.rows.map (fun w => w str!"t") = times
  range : ∀ τ ∈ times, ∃ a b, sol.t.head? = some a ∧ sol.t.getLast? = some b ∧ a ≤ τ ∧ τ ≤ b
  rates : nr net st ≠ ns net st → ∀ (k : ℕ) f τ, F.rows[k]? = some f → times[k]? = some τ → ∀ j,
    f (.id (reAt net st j).id) = interp (sol.t.zip (sol.ys.map fun y => D.pRates (toY _ y) j)) τ
  zero : ∀ f ∈ F.rows, ∀ l, l ∉ F.cols → f l = 0
  fluxes : (∀ s ∈ net.getSpecies st false false true, s.name ≠ str!"t") → ∀ (k : ℕ) w τ, W.rows[k]? = some w →
    times[k]? = some τ → ∀ i, w (spAt net st i).name = interp (sol.t.zip (sol.ys.map fun y => D.pWall (toY _ y) i)) τ

theorem Logged.contents {net : Net} (hwf : WF net) {st : State} {D : Data (ns net st) (nr net st)} {sol : Solved} {times : List ℝ}
    {F : Frame Lab} {W : Frame Str} (h : Logged net st D sol times F W) : Contents net st D sol times F W := by
  obtain ⟨b, b', junk, calls, calls', T, T', V, V', hrun, hT, hV, hT', hV', rfl, rfl⟩ := h
  obtain ⟨h0, -, -, h3, h4⟩ := run_labels hrun
  unfold getRates at hT
  rw [h4] at hT
  simp only [Except.ok.injEq] at hT
  rw [evalAll_run (D.gives_rates) (D.valid_history junk calls)] at hT
  unfold getWallFluxes at hV
  rw [h3] at hV
  simp only [Except.ok.injEq] at hV
  rw [evalAll_run (D.gives_wall) (D.valid_history junk calls')] at hV
  have hrange := (Frames.frames_defined V times).1 ⟨V', hV'⟩
  have eT := Frames.frames_eq hT'
  have eV := Frames.frames_eq hV'
  have htT : T.t = sol.t := by rw [← hT]; rfl
  have htV : V.t = sol.t := by rw [← hV]; rfl
  have hl : (net.getSpeciesName st false false true).length = ns net st := by simp [getSpeciesName]
  have hlV : ((net.getSpeciesName st false false true).map Label.species).length = ns net st := by simp [hl]
  -- the columns of the fluxes
  have hVcols : V'.cols = List.zipWith (fun l i => (l, times.map (interp (sol.t.zip (sol.ys.map fun y => D.pWall (toY _ y) i)))))
      ((net.getSpeciesName st false false true).map Label.species) (List.finRange (ns net st)) := by
    rw [eV, htV, ← hV]
    unfold tableOf
    simp only [List.map_zipWith, List.map_map, Function.comp_def]
  have hVkeys : V'.cols.map (fun c => word c.1) = net.getSpeciesName st false false true := by
    rw [hVcols, List.map_zipWith]
    refine List.ext_getElem (by simp [hl]) fun i h1 h2 => by simp [word]
  refine ⟨h0, ?_, ?_, ?_, ?_, ?_, ?_, ?_, ?_⟩
  · unfold fluxesFrame; rw [hVkeys]
  · unfold ratesFrame
    have : T'.cols.map (fun c => lab c.1) = (T.cols.map Prod.fst).map lab := by rw [eT]; simp [Function.comp_def]
    rw [this, ← hT]
    congr 1
    by_cases hc : nr net st = ns net st
    · rw [tableOf_keys (by rw [if_pos hc, hlV, hc]), if_pos hc, if_pos hc, List.map_map]
      rfl
    · rw [tableOf_keys (by rw [if_neg hc]; simp), if_neg hc, if_neg hc, List.map_map, List.map_map]
      rfl
  · have : T'.t = times := by rw [eT]
    unfold ratesFrame
    simp only [List.map_map, this]
    refine List.ext_getElem (by simp) fun i h1 h2 => by simp [h2]
  · have : V'.t = times := by rw [eV]
    unfold fluxesFrame
    simp only [List.map_map, this]
    refine List.ext_getElem (by simp) fun i h1 h2 => by simp [h2]
  · obtain ⟨a, b, h1, h2, h5⟩ := hrange
    rw [htV] at h1 h2
    exact fun τ hτ => ⟨a, b, h1, h2, h5 τ hτ⟩
  · intro hc k f τ hf hτ j
    have hk : k < times.length := (List.getElem?_eq_some_iff.1 hτ).1
    have hcols : T'.cols = List.zipWith (fun l i => (l, times.map (interp (sol.t.zip (sol.ys.map fun y => D.pRates (toY _ y) i)))))
        (((net.getReactions st false).map Reaction.id).map Label.reaction) (List.finRange (nr net st)) := by
      rw [eT, htT, ← hT, if_neg hc]
      unfold tableOf
      simp only [List.map_zipWith, List.map_map, Function.comp_def]
    have hlen : (((net.getReactions st false).map Reaction.id).map Label.reaction).length = nr net st := by simp
    have hnd : ((((net.getReactions st false).map Reaction.id).map Label.reaction).map lab).Nodup := by
      rw [List.map_map]
      exact (ids_nodup hwf st).map (fun a b h => by cases h; rfl)
    have key := column lab hlen hnd (fun i => times.map (interp (sol.t.zip (sol.ys.map fun y => D.pRates (toY _ y) i)))) j
    rw [← hcols] at key
    have hlb : lab ((((net.getReactions st false).map Reaction.id).map Label.reaction)[j.1]'(by rw [hlen]; exact j.2)) =
        .id (reAt net st j).id := by simp [lab]
    rw [hlb] at key
    unfold ratesFrame at hf
    rw [List.getElem?_map] at hf
    obtain ⟨k', hk', rfl⟩ := Option.map_eq_some_iff.1 hf
    obtain ⟨-, rfl⟩ : k < T'.t.length ∧ k = k' := by
      rw [List.getElem?_eq_some_iff] at hk'
      obtain ⟨h, e⟩ := hk'
      exact ⟨by simpa using h, by simpa using e⟩
    simp only [reduceCtorEq, if_false, key]
    rw [Option.getD_some, List.getD_eq_getElem?_getD, List.getElem?_map, hτ]
    rfl
  · intro f hf l hl
    unfold ratesFrame at hf hl
    obtain ⟨k, -, rfl⟩ := List.mem_map.1 hf
    rw [List.mem_cons, not_or] at hl
    have : Dict.get? (T'.cols.map fun c => (lab c.1, c.2)) l = none := by
      cases hg : Dict.get? (T'.cols.map fun c => (lab c.1, c.2)) l with
      | none => rfl
      | some v =>
        obtain ⟨c, hc, he⟩ := List.mem_map.1 (Dict.mem_of_get? hg)
        exact absurd (List.mem_map.2 ⟨c, hc, (Prod.mk.inj he).1⟩) hl.2
    simp only [if_neg hl.1, this, Option.getD_none]
    rfl
  · intro ht k w τ hw hτ i
    have hnd : (((net.getSpeciesName st false false true).map Label.species).map word).Nodup := by
      rw [List.map_map]
      exact (names_nodup hwf st).map (fun a b h => h)
    have key := column word hlV hnd (fun i => times.map (interp (sol.t.zip (sol.ys.map fun y => D.pWall (toY _ y) i)))) i
    rw [← hVcols] at key
    have hlb : word ((((net.getSpeciesName st false false true)).map Label.species)[i.1]'(by rw [hlV]; exact i.2)) =
        (spAt net st i).name := by simp [word, getSpeciesName]
    rw [hlb] at key
    unfold fluxesFrame at hw
    rw [List.getElem?_map] at hw
    obtain ⟨k', hk', rfl⟩ := Option.map_eq_some_iff.1 hw
    obtain ⟨-, rfl⟩ : k < V'.t.length ∧ k = k' := by
      rw [List.getElem?_eq_some_iff] at hk'
      obtain ⟨h, e⟩ := hk'
      exact ⟨by simpa using h, by simpa using e⟩
    simp only [key]
    rw [if_neg (show ¬ (spAt net st i).name = ['t'] from ht _ (List.getElem_mem i.2)), Option.getD_some, List.getD_eq_getElem?_getD, List.getElem?_map, hτ]
    rfl

end Verif.Fwork.GraphRun
