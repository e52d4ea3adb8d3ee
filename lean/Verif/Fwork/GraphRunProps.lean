/-
Property C116: a chemistry graph built from the results of a run of the model (model in GraphRun.lean).
-/
import Verif.Fwork.GraphRun
import Verif.Fwork.ReduceGraph

namespace Verif.Fwork.GraphRun
open Finset Verif.Plaschem Verif.Plaschem.Net Verif.Pygmol
open Verif.Fwork.Rates (Lab ReadsWall mem_heavy)
open Verif.Fwork.CoupleInit (Frame returned wall Matching accepted_iff arrays sum_list count_id chemistry_ranking)
open Verif.Fwork.Morris (PyDicts ret_nodup)

/-! ### what the equations and the graph read from the same chemistry -/

/-- The equations accept a chemistry only if every species with ad-hoc return coefficients is enabled. -/
theorem adhoc_enabled {net : Net} {st : State} (hr : Reachable net st) (hcl : net.RetClosed) (hpy : PyDicts net st)
    {D : Data (ns net st) (nr net st)} (hw : ReadsWall D) :
    ∀ i ∈ st.adRet.keys, ∃ s ∈ net.species, s.id = i ∧ st.enSp s.id = true := by
  obtain ⟨hwf, -⟩ := reachable_inv hr
  obtain ⟨M, hM, h1, h2, -⟩ := hw.ret
  obtain ⟨-, hcols⟩ := Rates.square_of_shape hr hcl (fun d hd => ret_nodup hpy hd) hM h1 h2
  obtain ⟨d, hd, -, -, -, hkeys⟩ := ret_coefs_value hr hcl false false true
  obtain ⟨M', hM', hc, -⟩ := return_matrix_entries hr hcl false hd (ret_nodup hpy hd)
  rw [hM] at hM'; cases hM'
  intro i hi
  have : i ∈ d.keys := (hkeys i).2 (.inr (.inl hi))
  rw [← hc, hcols] at this
  obtain ⟨s, hs, rfl⟩ := List.mem_map.1 this
  obtain ⟨h3, h4, -⟩ := mem_heavy.1 hs
  exact ⟨s, h3, rfl, h4⟩

theorem ret_returned {net : Net} {st : State} (hr : Reachable net st) (hcl : net.RetClosed) (hpy : PyDicts net st)
    {D : Data (ns net st) (nr net st)} (hw : ReadsWall D) (i k : Fin (ns net st)) :
    D.ret i k = (returned st (spAt net st k) (spAt net st i) : ℝ) := by
  obtain ⟨hwf, -⟩ := reachable_inv hr
  obtain ⟨M, hM, h1, h2, hret⟩ := hw.ret
  obtain ⟨hrows, hcols⟩ := Rates.square_of_shape hr hcl (fun d hd => ret_nodup hpy hd) hM h1 h2
  obtain ⟨d, hd, hval, -, -, -⟩ := ret_coefs_value hr hcl false false true
  obtain ⟨M', hM', -, -, -, hent⟩ := return_matrix_entries hr hcl false hd (ret_nodup hpy hd)
  rw [hM] at hM'; cases hM'
  have e1 : M.rows[i]'(i.2.trans_eq h1.symm) = (spAt net st i).id := by
    have : M.rows[i]'(i.2.trans_eq h1.symm) =
      ((net.getSpecies st false false true).map RP.id)[i]'(by simp) := getElem_congr_coll hrows
    rw [this]; simp
  have e2 : M.cols[k]'(k.2.trans_eq h2.symm) = (spAt net st k).id := by
    have : M.cols[k]'(k.2.trans_eq h2.symm) =
      ((net.getSpecies st false false true).map RP.id)[k]'(by simp) := getElem_congr_coll hcols
    rw [this]; simp
  have hi : spAt net st i ∈ net.getSpecies st false false true := List.getElem_mem i.2
  have hk : spAt net st k ∈ net.getSpecies st false false true := List.getElem_mem k.2
  obtain ⟨hi1, hi2, hi3⟩ := mem_heavy.1 hi
  obtain ⟨hk1, hk2, hk3⟩ := mem_heavy.1 hk
  rw [hret, e1, e2, hent _ hi1]
  unfold returned
  rw [hi3, hk3]
  obtain ⟨nominal, hn, hg⟩ := hval _ hk
  rw [hg, hn]
  simp only [Bool.or_false, Bool.false_eq_true, if_false]
  cases hf : retInForce st (spAt net st k) nominal with
  | none => simp
  | some c =>
    have hkk : (keepEnabled net st c).get? (spAt net st i).name = c.get? (spAt net st i).name := by
      classical
      unfold keepEnabled
      exact CoupleInit.get?_filter_key c (EnabledName net st) ⟨_, hi1, rfl, hi2⟩
    simp only [Option.map_some, hkk]

theorem net_counts {net : Net} {st : State} (hr : Reachable net st) {D : Data (ns net st) (nr net st)} (hread : Pygmol.Reads D)
    (j : Fin (nr net st)) (i : Fin (ns net st)) :
    (D.net j i : ℝ) = ((reAt net st j).products.count (spAt net st i) : ℝ) - (reAt net st j).reactants.count (spAt net st i) := by
  obtain ⟨hwf, -⟩ := reachable_inv hr
  have hin : spAt net st i ∈ net.getSpecies st false false true := List.getElem_mem i.2
  obtain ⟨N, hN, hn⟩ := hread.netC
  obtain ⟨N', hN', -, hrow⟩ := stoichiomatrix_entries hr false false (m := .net) (by simp)
  rw [hN] at hN'; cases hN'
  obtain ⟨row, h1, -, h2⟩ := hrow (reAt net st j) (List.getElem_mem _)
  have hj : reAt net st j ∈ net.reactions := (List.mem_filter.1 (List.getElem_mem (l := net.getReactions st false) j.2)).1
  have hc : ∀ l, l ⊆ (reAt net st j).rps → (l.map RP.id).count (spAt net st i).id = l.count (spAt net st i) := fun l hl =>
    count_id fun p hp he => hwf.eq_of_id (hwf.closed _ hj _ (hl hp)) (mem_heavy.1 hin).1 he
  rw [hn]
  unfold cell
  rw [h1]
  simp only [h2 _ hin, Option.getD_some]
  unfold Plaschem.multiplicity
  simp only
  rw [← hc _ fun p hp => List.mem_append_right _ hp, ← hc _ fun p hp => List.mem_append_left _ hp]
  push_cast
  rfl

theorem labels_differ {net : Net} {st : State} (h0 : ns net st ≠ 0)
    (h : (net.getSpeciesName st false false true).map Lab.name = (net.getReactions st false).map fun r => Lab.id r.id) : False := by
  have h3 : (net.getSpeciesName st false false true) ≠ [] := by
    intro hn
    apply h0
    have := congrArg List.length hn
    simpa [getSpeciesName] using this
  obtain ⟨n, l, hl⟩ := List.exists_cons_of_ne_nil h3
  rw [hl] at h
  have h4 : Lab.name n ∈ (net.getReactions st false).map fun r => Lab.id r.id := by rw [← h]; simp
  obtain ⟨r, -, h5⟩ := List.mem_map.1 h4
  cases h5

/-! ### C116 -/

/-- **C116.** The rows of a solution are read as states: the densities in order, then the energy density. -/
theorem read_row {n : ℕ} (y : Y n) : toY n (List.ofFn y.n ++ [y.rho]) = y := by
  unfold toY
  cases y with
  | mk d rho =>
    congr 1
    · funext i
      rw [List.getD_eq_getElem?_getD, List.getElem?_append_left (by simp), List.getElem?_ofFn]
      simp
    · simp

/-- **C116.** Take any chemistry, a run of the model with it that succeeded, and the rates and wall fluxes logged by that run at any
times. A chemistry graph can be built from them exactly if the number of enabled reactions is not the number of enabled heavy
species: with equal numbers the rates come labelled by species, and the constructor refuses them. -/
theorem graph_from_run_iff {net : Net} {st : State} (hr : Reachable net st) (hcl : net.RetClosed) (hpy : PyDicts net st)
    {D : Data (ns net st) (nr net st)} (hw : ReadsWall D) {sol : Solved} {times : List ℝ} {F : Frame Lab} {W : Frame Str}
    (h : Logged net st D sol times F W) (radius length : ℝ) :
    (∃ C, CoupleInit.init net st radius length F W = .ok C) ↔ (net.getReactions st false).length ≠ (net.getSpecies st false false true).length := by
  obtain ⟨hwf, -⟩ := reachable_inv hr
  have hc := h.contents hwf
  rw [accepted_iff hr hcl hpy]
  constructor
  · intro hm he
    have h1 := hm.rates
    rw [hc.rateCols, if_pos he] at h1
    exact labels_differ hc.pos (List.cons.inj h1).2
  · intro hne
    refine ⟨?_, ?_, ?_, adhoc_enabled hr hcl hpy hw⟩
    · rw [hc.rateCols, if_neg hne]
    · rw [hc.fluxCols]; rfl
    · rw [hc.rateTimes, hc.fluxTimes]

/-- **C116.** The refusal with equal numbers names the rates. -/
theorem graph_from_run_refusal {net : Net} {st : State} (hr : Reachable net st) (hcl : net.RetClosed) (hpy : PyDicts net st)
    {D : Data (ns net st) (nr net st)} (hw : ReadsWall D) {sol : Solved} {times : List ℝ} {F : Frame Lab} {W : Frame Str}
    (h : Logged net st D sol times F W) (radius length : ℝ)
    (heq : (net.getReactions st false).length = (net.getSpecies st false false true).length) :
    CoupleInit.init net st radius length F W = .error .rates := by
  obtain ⟨hwf, -⟩ := reachable_inv hr
  have hc := h.contents hwf
  cases hC : CoupleInit.init net st radius length F W with
  | ok C => exact absurd heq ((graph_from_run_iff hr hcl hpy hw h radius length).1 ⟨C, hC⟩)
  | error e =>
    rcases CoupleInit.refusals hr hcl hpy hC with ⟨-, h1 | h1⟩ | ⟨-, h1⟩ | ⟨rfl, -⟩ | ⟨-, h1⟩ | ⟨-, i, hi, h1⟩
    · exact absurd (by rw [hc.rateCols]; simp) h1
    · exact absurd (by rw [hc.fluxCols]; simp) h1
    · exact absurd (by rw [hc.rateTimes, hc.fluxTimes]) h1
    · rfl
    · exact absurd (by rw [hc.fluxCols]; rfl) h1
    · obtain ⟨s, hs, he, hen⟩ := adhoc_enabled hr hcl hpy hw i hi
      rw [h1 s hs he] at hen
      cases hen

/-- **C116.** The rates in the graph are those of the equations: at each of the times, for each reaction, the value interpolated
between the steps of the solver, and at a step of the solver the rate at that step. -/
theorem graph_of_run_rates {net : Net} {st : State} (hr : Reachable net st) (hcl : net.RetClosed) (hpy : PyDicts net st)
    {D : Data (ns net st) (nr net st)} (hw : ReadsWall D) {sol : Solved} (hsol : sol.Ok) {times : List ℝ} {F : Frame Lab}
    {W : Frame Str} (h : Logged net st D sol times F W) {radius length : ℝ}
    {C : ChemGraph Str ℝ (net.getSpecies st false true true).length (net.getReactions st false).length F.rows.length}
    (hC : CoupleInit.init net st radius length F W = .ok C) :
    ∃ hn : F.rows.length = times.length, ∀ (k : ℕ) (hk : k < F.rows.length) (j : Fin (nr net st)),
      C.rates ⟨k, hk⟩ j = Pygmol.interp (sol.t.zip (sol.ys.map fun y => D.pRates (toY _ y) j)) (times[k]'(hn ▸ hk)) ∧
      ∀ (m : ℕ) y, sol.t[m]? = some (times[k]'(hn ▸ hk)) → sol.ys[m]? = some y → C.rates ⟨k, hk⟩ j = D.pRates (toY _ y) j := by
  obtain ⟨hwf, -⟩ := reachable_inv hr
  have hc := h.contents hwf
  have hne := (graph_from_run_iff hr hcl hpy hw h radius length).1 ⟨C, hC⟩
  have hn : F.rows.length = times.length := by rw [← hc.rateTimes, List.length_map]
  have hR := arrays (.of_reachable hr) hcl hpy hC
  refine ⟨hn, fun k hk j => ?_⟩
  have e : C.rates ⟨k, hk⟩ j = Pygmol.interp (sol.t.zip (sol.ys.map fun y => D.pRates (toY _ y) j)) (times[k]'(hn ▸ hk)) := by
    rw [hR.rates]
    exact hc.rates hne k _ _ (List.getElem?_eq_getElem hk) (List.getElem?_eq_getElem (hn ▸ hk)) j
  refine ⟨e, fun m y h1 h2 => ?_⟩
  rw [e]
  refine interp_hits (Frames.zip_pairwise hsol.increasing) (_, D.pRates (toY _ y) j) (List.mem_of_getElem? (i := m) ?_)
  rw [List.getElem?_zip_eq_some]
  exact ⟨h1, by rw [List.getElem?_map, h2]; rfl⟩

theorem rates_nonneg_of_run {net : Net} {st : State} (hr : Reachable net st)
    {D : Data (ns net st) (nr net st)} {sol : Solved} (hsol : sol.Ok) {times : List ℝ} {F : Frame Lab}
    {W : Frame Str} (h : Logged net st D sol times F W) (hph : D.Physical)
    (hpos : ∀ y ∈ sol.ys, (∀ i, 0 ≤ (toY (ns net st) y).n i) ∧ 0 < D.pNe (toY (ns net st) y))
    (hne : (net.getReactions st false).length ≠ (net.getSpecies st false false true).length) :
    ∀ f ∈ F.rows, ∀ r ∈ net.getReactions st false, 0 ≤ f (.id r.id) := by
  obtain ⟨hwf, -⟩ := reachable_inv hr
  have hc := h.contents hwf
  intro f hf r hrm
  obtain ⟨k, hk, rfl⟩ := List.getElem_of_mem hf
  obtain ⟨j, hj, rfl⟩ := List.getElem_of_mem hrm
  have hn : F.rows.length = times.length := by rw [← hc.rateTimes, List.length_map]
  have e := hc.rates hne k _ _ (List.getElem?_eq_getElem hk) (List.getElem?_eq_getElem (hn ▸ hk)) ⟨j, hj⟩
  have e' : F.rows[k] (.id (net.getReactions st false)[j].id) = _ := e
  rw [e']
  have hz : sol.t.zip (sol.ys.map fun y => D.pRates (toY _ y) ⟨j, hj⟩) ≠ [] := by
    intro h0
    have := congrArg List.length h0
    rw [List.length_zip, List.length_map, hsol.steps, min_self] at this
    exact hsol.start (List.length_eq_zero_iff.1 this)
  obtain ⟨M, hM⟩ : ∃ M, ∀ y ∈ sol.ys, D.pRates (toY _ y) ⟨j, hj⟩ ≤ M := by
    generalize sol.ys = l
    induction l with
    | nil => exact ⟨0, fun _ h => by cases h⟩
    | cons x l ih =>
      obtain ⟨M, hM⟩ := ih
      refine ⟨max M (D.pRates (toY _ x) ⟨j, hj⟩), fun y hy => ?_⟩
      rcases List.mem_cons.1 hy with rfl | hy
      · exact le_max_right _ _
      · exact (hM y hy).trans (le_max_left _ _)
  refine (interp_bounds hz (lo := 0) (hi := M) (fun p hp => ?_) _).1
  obtain ⟨y, hy, he⟩ := List.mem_map.1 (List.of_mem_zip hp).2
  rw [← he]
  exact ⟨Data.rates_nonneg hph (hpos y hy).1 (hpos y hy).2 _, hM y hy⟩

/-- **C116.** From a run to the ranking. If the run succeeded with physical parameters and no density went negative, the numbers of
reactions and heavy species differ, and there is a time and a species that is no target, then the graph is built and
weighted, and the ranking lists every enabled heavy species that is no target once, ascending by score; the score of a species is the largest
strength of a chain from it to a target. -/
theorem ranking_from_run {L : Type} [DecidableEq L] {net : Net} {st : State} (hr : Reachable net st) (hcl : net.RetClosed)
    (hpy : PyDicts net st) {D : Data (ns net st) (nr net st)} (hw : ReadsWall D) {sol : Solved} (hsol : sol.Ok) {times : List ℝ}
    {F : Frame Lab} {W : Frame Str} (h : Logged net st D sol times F W) (hph : D.Physical)
    (hpos : ∀ y ∈ sol.ys, (∀ i, 0 ≤ (toY (ns net st) y).n i) ∧ 0 < D.pNe (toY (ns net st) y))
    (hne : (net.getReactions st false).length ≠ (net.getSpecies st false false true).length) (ht : times ≠ []) (important : List Str)
    (hrest : ∃ s ∈ net.species, st.enSp s.id = true ∧ s.isSpecial = false ∧ s.name ∉ important)
    (method : SearchMethod) (hmeth : method ≠ .maxFlow)
    (label : Str → ℕ → L) (hlab : ∀ i t i' t', label i t = label i' t' → i = i' ∧ t = t')
    (iter : Finset Str → List Str) (hiter : IterOk iter) (sortValues : List (Str × Score) → List (Str × Score))
    (hsort : SortOk sortValues) :
    ∃ C Gs ranking, CoupleInit.init net st D.r D.z F W = .ok C ∧ C.distributeWeights .drg true = .ok Gs ∧
      C.getRanking Gs important method label iter sortValues = .ok ranking ∧
      (ranking.map Prod.fst).Nodup ∧
      (∀ n, n ∈ ranking.map Prod.fst ↔
        ∃ s ∈ net.species, s.name = n ∧ st.enSp s.id = true ∧ s.isSpecial = false ∧ n ∉ important) ∧
      ranking.Pairwise (fun a b => scoreLe a.2 b.2) ∧ Gs.length = times.length ∧
      ∃ entry : Str → ℕ → Str → Score,
        (∀ imp ∈ important, ∀ (t : ℕ) G, Gs[t]? = some G → ∀ n ∈ ranking.map Prod.fst,
          EntryOk G method n imp (entry imp t n)) ∧
        ∀ n s, (n, s) ∈ ranking → IsMaxScore {e | ∃ imp ∈ important, ∃ t < times.length, e = entry imp t n} s := by
  obtain ⟨hwf, -⟩ := reachable_inv hr
  have hc := h.contents hwf
  have hn : F.rows.length = times.length := by rw [← hc.rateTimes, List.length_map]
  obtain ⟨C, hC⟩ := (graph_from_run_iff hr hcl hpy hw h D.r D.z).2 hne
  have hnn := rates_nonneg_of_run hr hsol h hph hpos hne
  obtain ⟨Gs, ranking, h1, h2, h3, h4, h5, entry, h6, h7⟩ := chemistry_ranking hr hcl hpy hC hnn
    (by rintro h0; rw [h0] at hn; exact ht (List.length_eq_zero_iff.1 hn.symm)) important hrest method hmeth label hlab iter hiter
    sortValues hsort
  obtain ⟨Gs', h8, h9, -⟩ := CoupleInit.chemistry_weights hr hcl hpy hC hnn
  rw [h1] at h8; cases h8
  exact ⟨C, Gs, ranking, hC, h1, h2, h3, h4, h5, h9.trans hn, entry, h6, fun n s hm => hn ▸ h7 n s hm⟩

/-- the difference of the totals is the sum of what they are made of -/
theorem tot_sub {V : Type} {n m nt : ℕ} (C : ChemGraph V ℝ n m nt) (surface : Bool) (t : Fin nt) (a : Fin n) :
    C.totProd surface t a - C.totCons surface t a = ∑ j, C.net j a * C.rates t j + ∑ b, C.surf surface t b a := by
  have key : ∀ x : ℝ, (if x < 0 then 0 else x) - (if -x < 0 then 0 else -x) = x := by
    intro x
    rcases lt_trichotomy x 0 with h | h | h
    · rw [if_pos h, if_neg (by linarith)]; ring
    · subst h; simp
    · rw [if_neg (by linarith), if_pos (by linarith)]; ring
  unfold ChemGraph.totProd ChemGraph.totCons
  have e1 : ∑ j, C.net j a * C.rates t j = ∑ j, (if C.net j a < 0 then 0 else C.net j a) * C.rates t j -
      ∑ j, (if -C.net j a < 0 then 0 else -C.net j a) * C.rates t j := by
    rw [← sum_sub_distrib]
    refine sum_congr rfl fun j _ => ?_
    rw [← sub_mul, key]
  have e2 : ∑ b, C.surf surface t b a = (∑ b, if C.surf surface t b a < 0 then 0 else C.surf surface t b a) -
      ∑ b, if -C.surf surface t b a < 0 then 0 else -C.surf surface t b a := by
    rw [← sum_sub_distrib]
    exact sum_congr rfl fun b _ => (key _).symm
  rw [e1, e2]
  ring

/-- **C116.** The graph sees the balance of the solver. At a logged step of the solver, for every heavy species, the total production
less the total consumption by which DRGEP weights are normalised, together with the flow and the artificial correction, is the
component of the right-hand side the solver integrates; provided the graph is given the radius and the length of the run. -/
theorem graph_balance {net : Net} {st : State} (hr : Reachable net st) (hcl : net.RetClosed) (hpy : PyDicts net st)
    (hnt : ∀ s ∈ net.getSpecies st false false true, s.name ≠ str!"t")
    {D : Data (ns net st) (nr net st)} (hread : Pygmol.Reads D) (hw : ReadsWall D) {sol : Solved} (hsol : sol.Ok) {times : List ℝ}
    {F : Frame Lab} {W : Frame Str} (h : Logged net st D sol times F W)
    {C : ChemGraph Str ℝ (net.getSpecies st false true true).length (net.getReactions st false).length F.rows.length}
    (hC : CoupleInit.init net st D.r D.z F W = .ok C) {k : ℕ} (hk : k < F.rows.length) {τ : ℝ} (hτ : times[k]? = some τ)
    {m : ℕ} {y : List ℝ} (hm : sol.t[m]? = some τ) (hy : sol.ys[m]? = some y) {a : Fin (net.getSpecies st false true true).length}
    {i : Fin (ns net st)} (ha : C.species a = (spAt net st i).name) :
    C.totProd true ⟨k, hk⟩ a - C.totCons true ⟨k, hk⟩ a + D.getFlowSourceRates (toY _ y) none none i +
      Data.getMinNCorrection (toY _ y) none i = (D.rhs τ (toY _ y)).n i := by
  obtain ⟨hwf, -⟩ := reachable_inv hr
  have hc := h.contents hwf
  have hR := arrays (.of_reachable hr) hcl hpy hC
  obtain ⟨hn, hrates⟩ := graph_of_run_rates hr hcl hpy hw hsol h hC
  have hτk : times[k]'(hn ▸ hk) = τ := (List.getElem?_eq_some_iff.1 hτ).2
  have hin : spAt net st i ∈ net.getSpecies st false false true := List.getElem_mem i.2
  have hA : (net.getSpecies st false true true)[a] = spAt net st i := by
    rw [hR.species] at ha
    exact hwf.eq_of_name (mem_getSpecies.1 (List.getElem_mem (l := net.getSpecies st false true true) a.2)).1 (mem_heavy.1 hin).1 ha
  -- the row of the fluxes
  have hlw : W.rows.length = times.length := by rw [← hc.fluxTimes, List.length_map]
  have hkw : k < W.rows.length := by rw [hlw, ← hn]; exact hk
  have hwrow : W.rows[k]? = some W.rows[k] := List.getElem?_eq_getElem hkw
  have hflux : ∀ i, W.rows[k] (spAt net st i).name = D.pWall (toY _ y) i := by
    intro i
    rw [hc.fluxes hnt k _ _ hwrow hτ]
    refine interp_hits (Frames.zip_pairwise hsol.increasing) (_, D.pWall (toY _ y) i) (List.mem_of_getElem? (i := m) ?_)
    rw [List.getElem?_zip_eq_some]
    exact ⟨hm, by rw [List.getElem?_map, hy]; rfl⟩
  have hvol : ∑ j, C.net j a * C.rates ⟨k, hk⟩ j = D.pVol (toY _ y) i := by
    refine sum_congr rfl fun j _ => ?_
    rw [(hrates k hk j).2 m y (by rw [hτk]; exact hm) hy, net_counts hr hread]
    unfold ChemGraph.net
    rw [hR.lhs, hR.rhs, hA]
  have hsurf : ∀ b, C.surf true ⟨k, hk⟩ b a =
      wall st D.r D.z W.rows[k] (net.getSpecies st false true true)[b] (spAt net st i) := by
    intro b
    unfold ChemGraph.surf wall
    rw [if_pos rfl, hR.fluxes _ _ _ hwrow, hR.area, hR.vol, hR.ret, hA]
    have hiff : (b = a) ↔ (net.getSpecies st false true true)[b] = spAt net st i := by
      rw [← hA]
      constructor
      · intro h; rw [h]
      · intro h
        have h2 := List.nodup_iff_injective_get.1 (reachable_inv hr).2.ok.names
        have h3 := @h2 ⟨b.1, by simp⟩ ⟨a.1, by simp⟩ (by simpa using congrArg RP.name h)
        simpa [Fin.ext_iff] using h3
    by_cases hs : (net.getSpecies st false true true)[b].isSpecial = true
    · rw [if_pos hs, if_pos hs]; simp
    · rw [if_neg hs, if_neg hs]
      by_cases hba : b = a
      · rw [if_pos hba, if_pos (hiff.1 hba)]; ring
      · rw [if_neg hba, if_neg (fun h => hba (hiff.2 h))]; ring
  have hfil : (net.getSpecies st false true true).filter (fun s => !s.isSpecial) = net.getSpecies st false false true := by
    unfold getSpecies speciesMask
    rw [List.filter_filter]
    refine List.filter_congr fun s _ => ?_
    cases hs : s.isSpecial <;> cases he : st.enSp s.id <;> simp [hs, he]
  have hwalls : ∑ b, C.surf true ⟨k, hk⟩ b a = D.pSrc (toY _ y) i := by
    simp only [hsurf]
    rw [sum_list _ fun c => wall st D.r D.z W.rows[k] c (spAt net st i)]
    have hz : ∀ l : List RP, (l.map fun c => wall st D.r D.z W.rows[k] c (spAt net st i)).sum =
        ((l.filter fun s => !s.isSpecial).map fun c => wall st D.r D.z W.rows[k] c (spAt net st i)).sum := by
      intro l
      induction l with
      | nil => rfl
      | cons x l ih =>
        rw [List.map_cons, List.sum_cons, ih]
        by_cases hx : x.isSpecial = true
        · rw [List.filter_cons_of_neg (by simp [hx])]
          unfold wall
          rw [if_pos hx, zero_add]
        · rw [List.filter_cons_of_pos (by simpa using hx), List.map_cons, List.sum_cons]
    rw [hz, hfil, ← sum_list]
    have hone : ∀ b : Fin (ns net st), wall st D.r D.z W.rows[k] (net.getSpecies st false false true)[b] (spAt net st i) =
        (if b = i then D.pSinks (toY _ y) b else 0) - D.pSinks (toY _ y) b * D.ret i b := by
      intro b
      have hb : (net.getSpecies st false false true)[b] = spAt net st b := rfl
      unfold wall
      rw [hb, show (spAt net st b).isSpecial = false from
        (mem_heavy.1 (List.getElem_mem (l := net.getSpecies st false false true) b.2)).2.2, hflux, ret_returned hr hcl hpy hw]
      have hiff : spAt net st b = spAt net st i ↔ b = i := by
        constructor
        · intro h
          have h2 := List.nodup_iff_injective_get.1 (names_nodup hwf st)
          have h3 := @h2 ⟨b.1, by simp [getSpeciesName]⟩ ⟨i.1, by simp [getSpeciesName]⟩ (by simpa [getSpeciesName] using congrArg RP.name h)
          simpa [Fin.ext_iff] using h3
        · intro h; rw [h]
      simp only [hiff, Bool.false_eq_true, if_false]
      have hsk : D.pSinks (toY _ y) b = D.pWall (toY _ y) b * D.area / D.volume := rfl
      have har : D.area = 2 * Real.pi * D.r * (D.r + D.z) := rfl
      have hvo : D.volume = Real.pi * D.r ^ 2 * D.z := rfl
      rw [hsk, har, hvo]
      by_cases hbi : b = i
      · rw [if_pos hbi, if_pos hbi]; ring
      · rw [if_neg hbi, if_neg hbi]; ring
    rw [sum_congr rfl fun b _ => hone b, sum_sub_distrib, sum_ite_eq' univ i, if_pos (mem_univ i)]
    have h5 : D.pSrc (toY _ y) i = D.pSinks (toY _ y) i + ∑ k, -D.pSinks (toY _ y) k * D.ret i k := rfl
    rw [h5, sub_eq_add_neg, ← sum_neg_distrib]
    congr 1
    exact sum_congr rfl fun b _ => by ring
  rw [tot_sub, hvol, hwalls]
  have h3 : (D.rhs τ (toY _ y)).n i = D.pVol (toY _ y) i + D.getFlowSourceRates (toY _ y) none none i + D.pSrc (toY _ y) i
      + Data.getMinNCorrection (toY _ y) none i := rfl
  rw [h3]
  ring

/-- **C116.** A reduction guided by chemistry graphs. In whatever state it is, if the frames the last graph was built from are logs
of the accepted run, then the chemistry of that run has not as many reactions as heavy species: a reduction that reaches such a
chemistry does not go on. -/
theorem guided_by_runs {Sol R L : Type} [LinearOrder R] [Zero R] [DecidableEq L] {g : Reduce.Guide L} {cfg : Reduce.Cfg Sol R} (hg : g.Ok cfg.important)
    (ht : g.targets ≠ []) {sorted : List (Str × Score) → Bool} {maxStreak : ℕ} {chem : State} (hr : Reachable cfg.net chem)
    (hcl : cfg.net.RetClosed) (hpy : PyDicts cfg.net chem) (hmax : 0 ≤ cfg.maxErr) (hnan : Reduce.NeverNan cfg chem)
    {t : Reduce.Loop Sol R Score} (hv : Reduce.Visited cfg (g.ranking cfg.net) sorted maxStreak chem t) :
    ∃ a acc b st file sol, t.red.history = a ++ acc :: b ∧ Reduce.Accepted cfg acc ∧ (∀ r ∈ b, ¬ Reduce.Accepted cfg r) ∧
      acc.run = some (st, file, sol) ∧
      ∀ (D : Data (ns cfg.net st) (nr cfg.net st)) (result : Solved) (times : List ℝ),
        Logged cfg.net st D result times (g.rates (a.length + 1)) (g.fluxes (a.length + 1)) →
        (cfg.net.getReactions st false).length ≠ (cfg.net.getSpecies st false false true).length := by
  obtain ⟨a, acc, b, st, file, sol, h1, h2, h3, h4, hm, -⟩ := Reduce.accepted_matches hg ht hr hcl hpy hmax hnan hv
  refine ⟨a, acc, b, st, file, sol, h1, h2, h3, h4, fun D result times hl he => ?_⟩
  have hc := hl.contents (reachable_inv hr).1
  have h5 := hm.rates
  rw [hc.rateCols, if_pos he] at h5
  exact labels_differ hc.pos (List.cons.inj h5).2

end Verif.Fwork.GraphRun
