/-
Property C134: the table of results of a run. Models pygmo_fwork/pygmol/model.py:210-227 (`_post_process`), 290-304 (`get_solution`,
`get_solution_final`).
-/
import Verif.Fwork.FinalRow

namespace Verif.Fwork.GraphRun
open Finset Verif.Plaschem Verif.Plaschem.Net Verif.Pygmol

/-- model.py:216-218: a frame with one column for each heavy species -/
def densityColumns {N : ℕ} (names : List Str) (sol : Solved) : Dict Str (List ℝ) :=
  List.zipWith (fun n i => (n, sol.ys.map fun y => (toY N y).n i)) names (List.finRange N)

/-- model.py:219-225: the columns assigned after that; an assignment to a column that exists replaces its values. (The gas temperature
of the parameters, `Tg`, is another name of the parameter the equations are built with, equations.py:185, model_parameters.py:168.) -/
noncomputable def assigned {N R : ℕ} (names : List Str) (D : Data N R) (sol : Solved) : Dict Str (List ℝ) :=
  Dict.set (Dict.set (Dict.set (Dict.set (Dict.set (densityColumns (N := N) names sol)
    str!"e" (sol.ys.map fun y => D.getElectronDensity (toY N y) none))
    str!"Te" (sol.ys.map fun y => D.getElectronTemperature (toY N y) none none))
    str!"Tg" (sol.ys.map fun _ => D.tempG))
    str!"p" (sol.ys.map fun y => D.getTotalPressure (toY N y) none))
    str!"t" sol.t

/-- model.py:210-227 `_post_process`; the last statement moves the last column to the front. -/
noncomputable def postProcess {N R : ℕ} (names : List Str) (D : Data N R) (sol : Solved) : Dict Str (List ℝ) :=
  let F := assigned names D sol
  (str!"t" :: F.keys.dropLast).map fun k => (k, (F.get? k).getD [])

/-- model.py:290-297 `get_solution` -/
noncomputable def getSolution {N R : ℕ} (b : Backend Solved) (D : Data N R) : Except GErr (Dict Str (List ℝ)) :=
  match b.getSolution with
  | .error e => .error e
  | .ok (sol, names) => .ok (postProcess names D sol)

/-- model.py:299-304 `get_solution_final`: `.iloc[-1]`. (A solution without rows raises `IndexError`, reported as `failed`.) -/
noncomputable def getSolutionFinal {N R : ℕ} (b : Backend Solved) (D : Data N R) : Except GErr (Dict Str ℝ) :=
  match getSolution b D with
  | .error e => .error e
  | .ok S => if S.get? str!"t" = some [] then .error .failed else .ok (S.map fun c => (c.1, c.2.getLastD 0))

/-! ### specification -/

/-- the value in a column of a table at a row -/
def val (S : Dict Str (List ℝ)) (c : Str) (k : ℕ) : Option ℝ := (S.get? c).bind fun l => l[k]?

/-- the columns that belong to no species -/
def reserved : List Str := [str!"t", str!"e", str!"Te", str!"Tg", str!"p"]

/-! ### lemmas -/

theorem get?_map_keys {α : Type} (f : Str → α) (l : List Str) (k : Str) (h : k ∈ l) :
    Dict.get? (l.map fun k => (k, f k)) k = some (f k) := by
  induction l with
  | nil => cases h
  | cons a l ih =>
    rw [List.map_cons, Dict.get?_cons]
    by_cases e : a = k
    · rw [if_pos e, e]
    · rw [if_neg e]
      exact ih (by rcases List.mem_cons.1 h with rfl | h; exacts [absurd rfl e, h])

theorem get?_map_val {α β : Type} (g : α → β) (d : Dict Str α) (k : Str) :
    Dict.get? (d.map fun c => (c.1, g c.2)) k = (d.get? k).map g := by
  induction d with
  | nil => rfl
  | cons a l ih =>
    obtain ⟨x, v⟩ := a
    rw [List.map_cons, Dict.get?_cons, Dict.get?_cons, ih]
    split <;> rfl

theorem densityColumns_keys {N : ℕ} {names : List Str} (hl : names.length = N) (sol : Solved) :
    (densityColumns (N := N) names sol).keys = names := by
  unfold densityColumns Dict.keys
  exact List.ext_getElem (by simp [hl]) fun i h1 h2 => by simp

theorem densityColumns_get {N : ℕ} {names : List Str} (hl : names.length = N) (hn : names.Nodup) (sol : Solved) (i : Fin N) :
    (densityColumns (N := N) names sol).get? (names[i.1]'(by omega)) = some (sol.ys.map fun y => (toY N y).n i) := by
  refine Dict.get?_of_mem (p := (names[i.1]'(by omega), sol.ys.map fun y => (toY N y).n i)) ?_ ?_
  · rw [densityColumns_keys hl]; exact hn
  · rw [List.mem_iff_getElem]
    exact ⟨i.1, by simp [densityColumns, hl], by simp [densityColumns]⟩

theorem assigned_get {N R : ℕ} (names : List Str) (D : Data N R) (sol : Solved) (k : Str) :
    (assigned names D sol).get? k = if str!"t" = k then some sol.t else
      if str!"p" = k then some (sol.ys.map fun y => D.getTotalPressure (toY N y) none) else
      if str!"Tg" = k then some (sol.ys.map fun _ => D.tempG) else
      if str!"Te" = k then some (sol.ys.map fun y => D.getElectronTemperature (toY N y) none none) else
      if str!"e" = k then some (sol.ys.map fun y => D.getElectronDensity (toY N y) none) else
      (densityColumns (N := N) names sol).get? k := by
  unfold assigned
  simp only [Dict.get?_set]

theorem assigned_keys {N R : ℕ} {names : List Str} (hl : names.length = N) (D : Data N R) (sol : Solved)
    (hr : ∀ n ∈ names, n ∉ reserved) :
    (assigned names D sol).keys = names ++ [str!"e", str!"Te", str!"Tg", str!"p", str!"t"] := by
  have h : ∀ k ∈ reserved, k ∉ names := fun k hk hn => hr k hn hk
  have h1 := h str!"t" (by decide)
  have h2 := h str!"e" (by decide)
  have h3 := h str!"Te" (by decide)
  have h4 := h str!"Tg" (by decide)
  have h5 := h str!"p" (by decide)
  unfold assigned
  have k1 := Dict.keys_set (densityColumns (N := N) names sol) str!"e" (sol.ys.map fun y => D.getElectronDensity (toY N y) none)
  rw [densityColumns_keys hl, if_neg h2] at k1
  have step : ∀ (d : Dict Str (List ℝ)) (k : Str) (v : List ℝ) (l : List Str), d.keys = names ++ l → k ∉ names → k ∉ l →
      (d.set k v).keys = names ++ (l ++ [k]) := fun d k v l e a b => by
    rw [Dict.keys_set, e, if_neg (by simp [a, b]), List.append_assoc]
  exact step _ _ _ _ (step _ _ _ _ (step _ _ _ _ (step _ _ _ _ k1 h3 (by decide)) h4 (by decide)) h5 (by decide)) h1 (by decide)

section
variable {net : Net} {st : State} {D : Data (ns net st) (nr net st)} {b b' : Backend Solved} {sol : Solved}

theorem getSolution_run (h : b.run (chemOf net st) (.returned true sol) = (b', .ok ())) :
    getSolution b' D = .ok (postProcess (net.getSpeciesName st false false true) D sol) := by
  obtain ⟨sol', hs, -, h2, h3, -⟩ := run_ok h
  cases hs
  unfold getSolution Backend.getSolution
  rw [h2, h3]
  rfl

/-- **C134.** The table of results of a run that succeeded has the columns `t`, the names of the enabled heavy species in order, `e`,
`Te`, `Tg` and `p`, if no species has one of these five names. Each row is a step of the solver: its time, the densities of the
species, the electron density that makes the plasma neutral, the electron temperature that belongs to the energy density (but at least
that of the gas), the gas temperature, and the pressure of an ideal gas of all heavy species. -/
theorem solution_table (hwf : WF net) (hr : Reads D) (h : b.run (chemOf net st) (.returned true sol) = (b', .ok ())) (hs : sol.Ok)
    (hn : ∀ i, (spAt net st i).name ∉ reserved) :
    ∃ S, getSolution b' D = .ok S ∧
      S.keys = str!"t" :: (net.getSpecies st false false true).map (fun s => s.name) ++ [str!"e", str!"Te", str!"Tg", str!"p"] ∧
      ∀ k y, sol.ys[k]? = some y → ∃ (τ : ℝ) (n : Fin (ns net st) → ℝ), sol.t[k]? = some τ ∧ (∀ i, n i = y.getD i 0) ∧
        val S str!"t" k = some τ ∧ (∀ i, val S (spAt net st i).name k = some (n i)) ∧
        val S str!"e" k = some (∑ i, n i * ((spAt net st i).chargeOf : ℝ)) ∧
        val S str!"Te" k = some (max (y.getLastD 0 / (∑ i, n i * ((spAt net st i).chargeOf : ℝ)) * 2 / 3) (D.tempG * D.C.kB / D.C.e)) ∧
        val S str!"Tg" k = some D.tempG ∧ val S str!"p" k = some (D.C.kB * D.tempG * ∑ i, n i) := by
  have hl : (net.getSpeciesName st false false true).length = ns net st := by simp [getSpeciesName]
  have hres : ∀ n ∈ net.getSpeciesName st false false true, n ∉ reserved := by
    intro n hm
    unfold getSpeciesName at hm
    obtain ⟨s, hs, rfl⟩ := List.mem_map.1 hm
    obtain ⟨i, hi, rfl⟩ := List.mem_iff_getElem.1 hs
    exact hn ⟨i, hi⟩
  have hk := assigned_keys hl D sol hres
  have hget : ∀ k ∈ str!"t" :: (assigned (net.getSpeciesName st false false true) D sol).keys.dropLast,
      (postProcess (net.getSpeciesName st false false true) D sol).get? k =
        some (((assigned (net.getSpeciesName st false false true) D sol).get? k).getD []) := fun k hk => get?_map_keys _ _ _ hk
  have hdl : (assigned (net.getSpeciesName st false false true) D sol).keys.dropLast =
      net.getSpeciesName st false false true ++ [str!"e", str!"Te", str!"Tg", str!"p"] := by
    rw [hk, List.dropLast_append_of_ne_nil (by simp)]; rfl
  refine ⟨_, getSolution_run h, ?_, fun k y hy => ?_⟩
  · unfold postProcess Dict.keys
    rw [List.map_map]
    simp only [Function.comp_def, List.map_id']
    show str!"t" :: (assigned _ D sol).keys.dropLast = _
    rw [hdl]
    rfl
  · have hlt : k < sol.t.length := by
      rw [← hs.steps]
      exact (List.getElem?_eq_some_iff.1 hy).1
    have hcol : ∀ f : List ℝ → ℝ, (sol.ys.map f)[k]? = some (f y) := fun f => by rw [List.getElem?_map, hy]; rfl
    have hne : D.getElectronDensity (toY _ y) none = ∑ i : Fin (ns net st), y.getD i 0 * ((spAt net st i).chargeOf : ℝ) := by
      show ∑ i, _ * (D.charge i : ℝ) = _
      exact sum_congr rfl fun i _ => by rw [hr.charge i]; rfl
    refine ⟨sol.t[k], fun i => y.getD i 0, List.getElem?_eq_getElem hlt, fun _ => rfl, ?_, fun i => ?_, ?_, ?_, ?_, ?_⟩
    · unfold val
      rw [hget _ (by simp), assigned_get, if_pos rfl]
      exact List.getElem?_eq_getElem hlt
    · have hni : (spAt net st i).name = (net.getSpeciesName st false false true)[i.1]'(by rw [hl]; exact i.2) := by
        simp [getSpeciesName]
      have hnr := hn i
      simp only [reserved, List.mem_cons, List.not_mem_nil, or_false, not_or] at hnr
      obtain ⟨a1, a2, a3, a4, a5⟩ := hnr
      unfold val
      rw [hget _ (by rw [hdl, hni]; simp), assigned_get, if_neg (Ne.symm a1), if_neg (Ne.symm a5), if_neg (Ne.symm a4),
        if_neg (Ne.symm a3), if_neg (Ne.symm a2), hni, densityColumns_get hl (names_nodup hwf st)]
      exact hcol _
    · unfold val
      rw [hget _ (by rw [hdl]; simp), assigned_get, if_neg (by decide), if_neg (by decide), if_neg (by decide), if_neg (by decide), if_pos rfl]
      exact (hcol _).trans (by rw [hne])
    · unfold val
      rw [hget _ (by rw [hdl]; simp), assigned_get, if_neg (by decide), if_neg (by decide), if_neg (by decide), if_pos rfl]
      refine (hcol _).trans ?_
      show some (max (y.getLastD 0 / D.getElectronDensity (toY _ y) none * 2 / 3) _) = _
      rw [hne]
    · unfold val
      rw [hget _ (by rw [hdl]; simp), assigned_get, if_neg (by decide), if_neg (by decide), if_pos rfl]
      exact hcol _
    · unfold val
      rw [hget _ (by rw [hdl]; simp), assigned_get, if_neg (by decide), if_pos rfl]
      exact hcol _

/-- **C134.** The final solution is the row of that table at the last step. -/
theorem final_solution (hwf : WF net) (hr : Reads D) (h : b.run (chemOf net st) (.returned true sol) = (b', .ok ())) (hs : sol.Ok)
    (hn : ∀ i, (spAt net st i).name ∉ reserved) :
    ∃ S L, getSolution b' D = .ok S ∧ getSolutionFinal b' D = .ok L ∧ L.keys = S.keys ∧
      ∀ c ∈ S.keys, L.get? c = val S c (sol.t.length - 1) ∧ L.get? c ≠ none := by
  obtain ⟨S, h1, h2, h3⟩ := solution_table hwf hr h hs hn
  have hpos := List.length_pos_of_ne_nil hs.start
  have hylen : sol.t.length - 1 < sol.ys.length := by rw [hs.steps]; omega
  obtain ⟨τ, n, hτ, hnn, v1, v2, v3, v4, v5, v6⟩ := h3 _ _ (List.getElem?_eq_getElem hylen)
  have hlen : ∀ c ∈ S.keys, ∃ l, S.get? c = some l ∧ l.length = sol.t.length := by
    intro c hc
    have hS := getSolution_run (D := D) h
    rw [h1] at hS
    cases hS
    have hl : (net.getSpeciesName st false false true).length = ns net st := by simp [getSpeciesName]
    obtain ⟨l, hl'⟩ := (Dict.mem_keys_iff _ _).1 hc
    refine ⟨l, hl', ?_⟩
    have hmem : c ∈ str!"t" :: (assigned (net.getSpeciesName st false false true) D sol).keys.dropLast := by
      have : (postProcess (net.getSpeciesName st false false true) D sol).keys =
          str!"t" :: (assigned (net.getSpeciesName st false false true) D sol).keys.dropLast := by
        unfold postProcess Dict.keys
        rw [List.map_map]
        simp only [Function.comp_def, List.map_id']
      rwa [this] at hc
    have hg : (postProcess (net.getSpeciesName st false false true) D sol).get? c = some _ := get?_map_keys _ _ _ hmem
    rw [hl'] at hg
    have hg := Option.some.inj hg
    rw [assigned_get] at hg
    have hys := hs.steps
    split at hg
    · rw [hg]; rfl
    split at hg
    · rw [hg]; simpa using hys
    split at hg
    · rw [hg]; simpa using hys
    split at hg
    · rw [hg]; simpa using hys
    split at hg
    · rw [hg]; simpa using hys
    · rename_i q1 q2 q3 q4 q5
      rw [h2] at hc
      have hc' : c ∈ net.getSpeciesName st false false true := by
        simp only [List.cons_append, List.mem_cons, List.mem_append, List.not_mem_nil, or_false] at hc
        rcases hc with rfl | hc | rfl | rfl | rfl | rfl
        · exact absurd rfl q1
        · exact hc
        · exact absurd rfl q5
        · exact absurd rfl q4
        · exact absurd rfl q3
        · exact absurd rfl q2
      obtain ⟨i, hi, rfl⟩ := List.mem_iff_getElem.1 hc'
      rw [densityColumns_get hl (names_nodup hwf st) sol ⟨i, by omega⟩] at hg
      rw [hg]; simpa using hys
  refine ⟨S, S.map fun c => (c.1, c.2.getLastD 0), h1, ?_, ?_, fun c hc => ?_⟩
  · unfold getSolutionFinal
    rw [h1]
    simp only
    rw [if_neg]
    intro e
    unfold val at v1
    rw [e] at v1
    simp at v1
  · unfold Dict.keys
    rw [List.map_map]
    rfl
  · obtain ⟨l, e, hl⟩ := hlen c hc
    have hlne : l ≠ [] := fun h => by rw [h] at hl; simp at hl; omega
    rw [get?_map_val (fun l : List ℝ => l.getLastD 0), e]
    unfold val
    rw [e]
    refine ⟨?_, by simp⟩
    show some (l.getLastD 0) = l[_]?
    rw [← hl, ← List.getLast?_eq_getElem?, List.getLast?_eq_some_getLast hlne, List.getLastD_eq_getLast?, List.getLast?_eq_some_getLast hlne]
    rfl

/-- **C134** is false without the restriction on names: the densities of atoms of tellurium, `Te`, are in no column, their column holds
the electron temperatures. -/
theorem tellurium_lost (h : b.run (chemOf net st) (.returned true sol) = (b', .ok ())) (hT : ∃ i, (spAt net st i).name = str!"Te")
    (ht : ∀ i, (spAt net st i).name ≠ str!"t") :
    ∃ S, getSolution b' D = .ok S ∧ S.get? str!"Te" = some (sol.ys.map fun y => D.getElectronTemperature (toY _ y) none none) ∧
      ∀ c ∈ S.keys, c ∈ (net.getSpecies st false false true).map (fun s => s.name) ∨ c ∈ reserved := by
  have hl : (net.getSpeciesName st false false true).length = ns net st := by simp [getSpeciesName]
  have hTe : str!"Te" ∈ net.getSpeciesName st false false true := by
    obtain ⟨i, hi⟩ := hT
    exact hi ▸ List.mem_map_of_mem (List.getElem_mem i.2)
  have htn : str!"t" ∉ net.getSpeciesName st false false true := by
    intro hm
    obtain ⟨s, hs, e⟩ := List.mem_map.1 hm
    obtain ⟨i, hi, rfl⟩ := List.mem_iff_getElem.1 hs
    exact ht ⟨i, hi⟩ e
  have hmem : ∀ c, c ∈ (assigned (net.getSpeciesName st false false true) D sol).keys.dropLast ↔
      c ∈ net.getSpeciesName st false false true ∨ c ∈ [str!"e", str!"Te", str!"Tg", str!"p"] := by
    intro c
    have hm : ∀ (d : Dict Str (List ℝ)) (k : Str) (v : List ℝ) (c : Str), c ∈ (d.set k v).keys ↔ c = k ∨ c ∈ d.keys := by
      intro d k v c
      simp only [Dict.mem_keys_iff, Dict.get?_set]
      by_cases e : k = c
      · simp [e]
      · simp [e, Ne.symm e]
    unfold assigned
    rw [Dict.keys_set, if_neg, List.dropLast_concat]
    · simp only [hm, densityColumns_keys hl, List.mem_cons, List.not_mem_nil, or_false]
      tauto
    · simp only [hm, densityColumns_keys hl, not_or]
      exact ⟨by decide, by decide, by decide, by decide, htn⟩
  refine ⟨_, getSolution_run h, ?_, fun c hc => ?_⟩
  · have hg : (postProcess (net.getSpeciesName st false false true) D sol).get? str!"Te" = some _ :=
      get?_map_keys _ _ _ (List.mem_cons_of_mem _ ((hmem _).2 (.inl hTe)))
    rw [hg, assigned_get, if_neg (by decide), if_neg (by decide), if_neg (by decide), if_pos rfl]
    rfl
  · have hk : (postProcess (net.getSpeciesName st false false true) D sol).keys =
        str!"t" :: (assigned (net.getSpeciesName st false false true) D sol).keys.dropLast := by
      unfold postProcess Dict.keys
      rw [List.map_map]
      simp only [Function.comp_def, List.map_id']
    rw [hk, List.mem_cons, hmem] at hc
    rcases hc with rfl | hc | hc
    · exact .inr (by decide)
    · exact .inl hc
    · exact .inr (List.mem_cons_of_mem _ hc)

end

namespace Demo

/-- The hypotheses of `solution_table` and `final_solution` are met by the run with five reactions and four heavy species of C116. -/
example : ∃ (b b' : Backend Solved) (S : Dict Str (List ℝ)) (L : Dict Str ℝ),
    b.run (chemOf Verif.Plaschem.Demo.net Verif.Plaschem.Demo.stRet) (.returned true sol) = (b', .ok ()) ∧
    getSolution b' D = .ok S ∧ getSolutionFinal b' D = .ok L ∧ S.keys.length = 9 ∧ L.get? str!"Ar" = some 2 := by
  obtain ⟨F, W, b, b', junk, calls, calls', T, T', V, V', hrun, -⟩ := logs
  have hwf := (reachable_inv Rates.demo_reach).1
  have hn : ∀ i, (spAt Verif.Plaschem.Demo.net Verif.Plaschem.Demo.stRet i).name ∉ reserved := by decide +kernel
  obtain ⟨S, h1, h2, h3⟩ := solution_table hwf D_reads.1 hrun sol_ok hn
  obtain ⟨S', L, h1', h4, h5, h6⟩ := final_solution hwf D_reads.1 hrun sol_ok hn
  cases h1.symm.trans h1'
  refine ⟨b, b', S, L, hrun, h1, h4, ?_, ?_⟩
  · rw [h2]; decide +kernel
  · have hm : str!"Ar" ∈ S.keys := by rw [h2]; decide +kernel
    rw [(h6 _ hm).1]
    obtain ⟨τ, n, -, hnn, -, hv, -⟩ := h3 1 [2, 2, 2, 2, 2] rfl
    have := hv ⟨0, by decide +kernel⟩
    rw [hnn] at this
    exact this

/-- a chemistry of tellurium -/
def telluriumNet : Net :=
  let e := Verif.Plaschem.Demo.e
  let te : RP := { oid := 1, id := 1, name := str!"Te", mass := some 128 }
  let ion : RP := { oid := 2, id := 2, name := str!"Te+", mass := some 128, charge := some 1 }
  { species := [e, te, ion]
    reactions := [{ id := 1, reactants := [e, te], products := [ion, e, e] }, { id := 2, reactants := [ion, e], products := [te] },
      { id := 3, reactants := [e, te], products := [e, te] }] }

/-- The hypotheses of `tellurium_lost` are met by a chemistry that is accepted, and the densities 7 and 8 are lost. -/
example : ∃ st, telluriumNet.init = .ok st ∧ ∀ D : Data (ns telluriumNet st) (nr telluriumNet st), Reads D →
    ∃ (b b' : Backend Solved) (S : Dict Str (List ℝ)),
      b.run (chemOf telluriumNet st) (.returned true ⟨[0, 1], [[7, 1, 1], [8, 1, 1]]⟩) = (b', .ok ()) ∧ getSolution b' D = .ok S ∧
      S.get? str!"Te" ≠ none ∧ S.get? str!"Te" ≠ some [7, 8] := by
  refine ⟨_, rfl, fun D hr => ?_⟩
  obtain ⟨F, W, b, b', junk, calls, calls', T, T', V, V', hrun, -⟩ := logged_exists telluriumNet _ D ⟨[0, 1], [[7, 1, 1], [8, 1, 1]]⟩ []
    (by decide +kernel) (by decide +kernel) (by decide +kernel) ⟨0, 1, rfl, rfl, by simp⟩
  obtain ⟨S, h1, h2, -⟩ := tellurium_lost (D := D) hrun ⟨⟨0, by decide +kernel⟩, by decide +kernel⟩ (by decide +kernel)
  refine ⟨b, b', S, hrun, h1, by rw [h2]; simp, fun h => ?_⟩
  rw [h2] at h
  have hne : D.getElectronDensity (toY _ [7, 1, 1]) none = D.getElectronDensity (toY _ [8, 1, 1]) none := by
    show ∑ i, _ * (D.charge i : ℝ) = ∑ i, _ * (D.charge i : ℝ)
    refine sum_congr rfl fun i _ => ?_
    rw [hr.charge i]
    obtain ⟨i, hi⟩ := i
    have hi2 : i < 2 := hi
    rcases (by omega : i = 0 ∨ i = 1) with rfl | rfl
    · have : (spAt telluriumNet _ ⟨0, hi⟩).chargeOf = 0 := by rfl
      rw [this]; simp
    · rfl
  have e : D.getElectronTemperature (toY _ [7, 1, 1]) none none = D.getElectronTemperature (toY _ [8, 1, 1]) none none := by
    show D.fElectronTemp (D.getElectronDensity _ none) 1 = D.fElectronTemp (D.getElectronDensity _ none) 1
    rw [hne]
  simp only [List.map_cons, List.map_nil, Option.some.injEq, List.cons.injEq, and_true] at h
  rw [e] at h
  linarith [h.1, h.2]

end Demo

end Verif.Fwork.GraphRun
