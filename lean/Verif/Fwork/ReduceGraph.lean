/-
Property C115, second part: a reduction whose ranking is recomputed with the chemistry graph
(pygmo_fwork/optichem/reduction.py:269-378 with graph.py:274-547; models in Reduce.lean, CoupleInit.lean, Coupling.lean, Ranking.lean).
-/
import Verif.Fwork.ReduceOrder
import Verif.Fwork.CoupleChem

namespace Verif.Fwork.Reduce
open Verif.Plaschem Verif.Plaschem.Net
open Verif.Fwork.CoupleInit (Frame)
open Verif.Fwork.Rates (Lab)
open Verif.Fwork.Morris (PyDicts)

/-! ### the ranking function -/

/-- What a user of the chemistry graph fixes, and what the `k`-th run logs: the rates and the fluxes to the wall it logs are those
of the chemistry it was made with, so they depend on the run. The order in which a set is iterated and what the unstable sort does with
equal scores may differ between calls. -/
structure Guide (L : Type) where
  radius : ℝ
  length : ℝ
  rates : ℕ → Frame Lab
  fluxes : ℕ → Frame Str
  targets : List Str
  method : SearchMethod
  label : Str → ℕ → L
  iter : ℕ → Finset Str → List Str
  sortValues : ℕ → List (Str × Score) → List (Str × Score)

/-- reduction.py:283-293, graph.py:274-547: the ranking function `lambda model: ranking`, where a `ChemistryGraph` is built from the
logs of the model just solved, weighted with `drg`, and asked for the ranking. `none` if one of the three raises. -/
noncomputable def Guide.rank {L : Type} [DecidableEq L] (g : Guide L) (net : Net) (k : ℕ) (st : State) :
    Option (List (Str × Score)) :=
  match CoupleInit.init net st g.radius g.length (g.rates k) (g.fluxes k) with
  | .error _ => none
  | .ok C =>
    match C.distributeWeights .drg true with
    | .error _ => none
    | .ok Gs =>
      match C.getRanking Gs g.targets g.method g.label (g.iter k) (g.sortValues k) with
      | .error _ => none
      | .ok l => some l

/-- the dynamic ranking given to `run_reduction` -/
noncomputable def Guide.ranking {L : Type} [DecidableEq L] (g : Guide L) (net : Net) : Ranking Score := .dynamic (g.rank net)

/-! ### specification -/

/-- What the guide has to meet: one label for each target and time, some time, no negative rate, the search of the graph by
paths, targets that are important for the reduction too, and a sort that sorts. -/
structure Guide.Ok {L : Type} (g : Guide L) (important : List Str) : Prop where
  label : ∀ i t i' t', g.label i t = g.label i' t' → i = i' ∧ t = t'
  times : ∀ k, (g.rates k).rows ≠ []
  nonneg : ∀ k, ∀ f ∈ (g.rates k).rows, ∀ i, 0 ≤ f (.id i)
  method : g.method ≠ .maxFlow
  targets : ∀ n ∈ g.targets, n ∈ important
  iter : ∀ k, IterOk (g.iter k)
  sort : ∀ k, SortOk (g.sortValues k)

/-- `c` is the coupling of the species `n` to the targets in the chemistry `st` at the times logged by run `k`: the largest, over
the targets and the times, of the strength of its strongest chain of reactions to the target in the graph of the chemistry at that time.
`nan` if it is in none of the graphs. -/
def Coupled {L : Type} (g : Guide L) (net : Net) (st : State) (k : ℕ) (n : Str) (c : Score) : Prop :=
  ∃ C Gs, CoupleInit.init net st g.radius g.length (g.rates k) (g.fluxes k) = .ok C ∧ C.distributeWeights .drg true = .ok Gs ∧
    ∃ entry : Str → ℕ → Score,
      (∀ imp ∈ g.targets, ∀ (t : ℕ) G, Gs[t]? = some G → EntryOk G g.method n imp (entry imp t)) ∧
      IsMaxScore {e | ∃ imp ∈ g.targets, ∃ t < (g.rates k).rows.length, e = entry imp t} c

/-! ### lemmas -/

theorem Guide.rank_some {L : Type} [DecidableEq L] {g : Guide L} {net : Net} {k : ℕ} {st : State} {l : List (Str × Score)}
    (h : g.rank net k st = some l) : ∃ C Gs, CoupleInit.init net st g.radius g.length (g.rates k) (g.fluxes k) = .ok C ∧
      C.distributeWeights .drg true = .ok Gs ∧
      C.getRanking Gs g.targets g.method g.label (g.iter k) (g.sortValues k) = .ok l := by
  unfold Guide.rank at h
  split at h
  · cases h
  · rename_i C hC
    split at h
    · cases h
    · rename_i Gs hGs
      split at h
      · cases h
      · rename_i l' hl
        cases h
        exact ⟨C, Gs, hC, hGs, hl⟩

theorem Guide.rank_of {L : Type} [DecidableEq L] {g : Guide L} {net : Net} {k : ℕ} {st : State} {l : List (Str × Score)}
    {C : ChemGraph Str ℝ (net.getSpecies st false true true).length (net.getReactions st false).length (g.rates k).rows.length}
    (hC : CoupleInit.init net st g.radius g.length (g.rates k) (g.fluxes k) = .ok C) {Gs : List (Graph Str ℝ)}
    (hGs : C.distributeWeights .drg true = .ok Gs)
    (hl : C.getRanking Gs g.targets g.method g.label (g.iter k) (g.sortValues k) = .ok l) : g.rank net k st = some l := by
  unfold Guide.rank
  rw [hC]
  simp only [hGs, hl]

theorem Guide.in_force {L : Type} [DecidableEq L] {g : Guide L} {net : Net} {k : ℕ} {st : State} {l : List (Str × Score)} :
    InForce (g.ranking net) k st l ↔ g.rank net k st = some l := by
  constructor
  · rintro (h | ⟨f, h, h2⟩)
    · cases h
    · cases h
      exact h2
  · exact fun h => .inr ⟨_, rfl, h⟩

theorem pyDicts_of {net : Net} {st chem : State} (h : PyDicts net chem)
    (hs : List.Forall₂ (fun x y => x.1 = y.1 ∧ x.2.Perm y.2) st.adRet chem.adRet) : PyDicts net st := by
  refine ⟨h.nominal, fun e he => ?_⟩
  have : ∀ {a b : List (Nat × Dict Str ℚ)}, List.Forall₂ (fun x y => x.1 = y.1 ∧ x.2.Perm y.2) a b → e ∈ a →
      ∃ e' ∈ b, e.2.Perm e'.2 := by
    intro a b h he
    induction h with
    | nil => cases he
    | @cons x y a b hxy _ ih =>
      rcases List.mem_cons.1 he with rfl | he
      · exact ⟨y, List.mem_cons_self, hxy.2⟩
      · obtain ⟨e', h1, h2⟩ := ih he
        exact ⟨e', List.mem_cons_of_mem _ h1, h2⟩
  obtain ⟨e', h1, h2⟩ := this hs he
  exact (h2.map Prod.fst).nodup_iff.2 (h.adhoc e' h1)

/-- what the ranking of a chemistry lists, and in which order -/
theorem Guide.rank_spec {L : Type} [DecidableEq L] {g : Guide L} {net : Net} {k : ℕ} {st : State} {important : List Str}
    (hg : g.Ok important) (hs : Sound net st) (hcl : net.RetClosed) (hpy : PyDicts net st) {l : List (Str × Score)}
    (h : g.rank net k st = some l)
    (hrest : ∃ s ∈ net.species, st.enSp s.id = true ∧ s.isSpecial = false ∧ s.name ∉ g.targets) :
    (l.map Prod.fst).Nodup ∧
      (∀ n, n ∈ l.map Prod.fst ↔ ∃ s ∈ net.species, s.name = n ∧ st.enSp s.id = true ∧ s.isSpecial = false ∧ n ∉ g.targets) ∧
      l.Pairwise (fun a b => scoreLe a.2 b.2) ∧ ∀ n c, (n, c) ∈ l → Coupled g net st k n c := by
  obtain ⟨C, Gs, hC, hGs, hl⟩ := Guide.rank_some h
  obtain ⟨Gs', l', h1, h2, h3, h4, h5, entry, h6, h7⟩ := CoupleInit.chemistry_ranking_sound hs hcl hpy hC
    (fun f hf r _ => hg.nonneg k f hf r.id) (hg.times k) g.targets hrest g.method hg.method g.label hg.label (g.iter k) (hg.iter k)
    (g.sortValues k) (hg.sort k)
  rw [hGs] at h1
  cases h1
  rw [hl] at h2
  cases h2
  refine ⟨h3, h4, h5, fun n c hn => ⟨C, Gs, hC, hGs, fun imp t => entry imp t n, fun imp hi t G hG =>
    h6 imp hi t G hG n (List.mem_map_of_mem hn), h7 n c hn⟩⟩

/-- a ranking with a target has a species that is neither a target nor special -/
theorem getRanking_assessed {V : Type} [LinearOrder V] {n m nt : ℕ} {L : Type} [DecidableEq L] {C : ChemGraph V ℝ n m nt}
    {Gs : List (Graph V ℝ)} {important : List V} {method : SearchMethod} {label : V → ℕ → L} {iter : Finset V → List V}
    {sortValues : List (V × Score) → List (V × Score)} {l : List (V × Score)}
    (h : C.getRanking Gs important method label iter sortValues = .ok l) (hi : important ≠ []) (hnt : nt ≠ 0) :
    ∃ i, C.species i ∉ important ∧ C.species i ∉ C.special := by
  by_contra hno
  push Not at hno
  unfold ChemGraph.getRanking at h
  split at h
  · cases h
  dsimp only at h
  have hnil : ((List.finRange n).map C.species).filter (fun sp => !(sp ∈ important || sp ∈ C.special)) = [] := by
    rw [List.filter_eq_nil_iff]
    intro x hx
    obtain ⟨i, -, rfl⟩ := List.mem_map.1 hx
    by_cases h1 : C.species i ∈ important
    · simp [h1]
    · simp [hno i h1]
  rw [hnil] at h
  obtain ⟨imp, rest, rfl⟩ := List.exists_cons_of_ne_nil hi
  obtain ⟨k, rfl⟩ := Nat.exists_eq_succ_of_ne_zero hnt
  rw [List.flatMap_cons, List.range_succ_eq_map, List.map_cons, List.cons_append, rankRows] at h
  split at h
  · cases h
  · rename_i h2
    split at h2
    · cases h2
    · split at h2
      · cases h2
      · rw [if_pos rfl] at h2
        cases h2

theorem init_species {net : Net} {st : State} {radius length : ℝ} {F : Frame Lab} {W : Frame Str}
    {C : ChemGraph Str ℝ (net.getSpecies st false true true).length (net.getReactions st false).length F.rows.length}
    (h : CoupleInit.init net st radius length F W = .ok C) :
    C.special = (net.species.filter RP.isSpecial).map RP.name ∧
      ∀ i, C.species i = (net.getSpecies st false true true)[i].name := by
  unfold CoupleInit.init at h
  split at h
  · cases h
  · split at h
    · cases h
      exact ⟨rfl, fun _ => rfl⟩
    all_goals cases h

/-- nothing but targets and special species: no ranking -/
theorem Guide.rank_rest {L : Type} [DecidableEq L] {g : Guide L} {net : Net} {k : ℕ} {st : State} (ht : g.targets ≠ [])
    (hrows : (g.rates k).rows ≠ []) {l : List (Str × Score)} (h : g.rank net k st = some l) :
    ∃ n ∈ names net st, n ∉ g.targets := by
  obtain ⟨C, Gs, hC, hGs, hl⟩ := Guide.rank_some h
  obtain ⟨i, h1, h2⟩ := getRanking_assessed hl ht (by simpa using hrows)
  obtain ⟨h3, h4⟩ := init_species hC
  rw [h4] at h1 h2
  rw [h3] at h2
  have hmem : (net.getSpecies st false true true)[i] ∈ net.getSpecies st false true true := List.getElem_mem _
  refine ⟨_, mem_names.2 ⟨(net.getSpecies st false true true)[i], ?_, rfl, ?_, ?_⟩, h1⟩
  · unfold getSpecies at hmem; exact List.mem_of_mem_filter hmem
  · generalize (net.getSpecies st false true true)[i] = s at hmem
    unfold getSpecies speciesMask at hmem
    simpa using (List.mem_filter.1 hmem).2
  · rw [← Bool.not_eq_true]
    intro hc
    refine h2 (List.mem_map_of_mem (List.mem_filter.2 ⟨?_, hc⟩))
    unfold getSpecies at hmem; exact List.mem_of_mem_filter hmem

/-- when the ranking function does not raise -/
theorem Guide.rank_iff {L : Type} [DecidableEq L] {g : Guide L} {net : Net} {k : ℕ} {st : State} {important : List Str}
    (hg : g.Ok important) (ht : g.targets ≠ []) (hs : Sound net st) (hcl : net.RetClosed) (hpy : PyDicts net st) :
    (∃ l, g.rank net k st = some l) ↔
      CoupleInit.Matching net st (g.rates k) (g.fluxes k) ∧ ∃ n ∈ names net st, n ∉ g.targets := by
  constructor
  · rintro ⟨l, hl⟩
    refine ⟨?_, Guide.rank_rest ht (hg.times k) hl⟩
    obtain ⟨C, -, hC, -⟩ := Guide.rank_some hl
    exact (CoupleInit.accepted_iff_sound hs hcl hpy _ _ _ _).1 ⟨C, hC⟩
  · rintro ⟨hm, n, hn, hnt⟩
    obtain ⟨C, hC⟩ := (CoupleInit.accepted_iff_sound hs hcl hpy g.radius g.length _ _).2 hm
    obtain ⟨s, h1, h2, h3, h4⟩ := mem_names.1 hn
    obtain ⟨Gs, l, h5, h6, -⟩ := CoupleInit.chemistry_ranking_sound hs hcl hpy hC
      (fun f hf r _ => hg.nonneg k f hf r.id) (hg.times k) g.targets ⟨s, h1, h3, h4, h2 ▸ hnt⟩ g.method hg.method g.label hg.label
      (g.iter k) (hg.iter k) (g.sortValues k) (hg.sort k)
    exact ⟨l, Guide.rank_of hC h5 h6⟩

theorem Coupled.listed {L : Type} [DecidableEq L] {l : List (Str × Score)} {n : Str} (h : n ∈ l.map Prod.fst) :
    ∃ c, (n, c) ∈ l := by
  obtain ⟨⟨m, c⟩, h1, rfl⟩ := List.mem_map.1 h
  exact ⟨c, h1⟩

/-! ### theorems -/

variable {Sol R : Type} [LinearOrder R] [Zero R]

/-- **C115.** A reduction guided by the chemistry graph, whatever was accepted, refused, failed and restored before: the species a row
tries is one that may be removed and is still there, and in the chemistry of the last accepted run its coupling to the targets is no
stronger than that of any other species that may be removed, is still there and has not been tried. -/
theorem weakest_first {L : Type} [DecidableEq L] {g : Guide L} {cfg : Cfg Sol R} (hg : g.Ok cfg.important)
    {sorted : List (Str × Score) → Bool} {maxStreak : ℕ} {chem : State} (hr : Reachable cfg.net chem) (hcl : cfg.net.RetClosed)
    (hpy : PyDicts cfg.net chem) (hmax : 0 ≤ cfg.maxErr) (hnan : NeverNan cfg chem) {t : Loop Sol R Score}
    (hv : Visited cfg (g.ranking cfg.net) sorted maxStreak chem t) {pre post : List (Row Sol R)} {row : Row Sol R}
    (hh : t.red.history = pre ++ row :: post) (hpre : pre ≠ []) :
    ∃ sp a acc b st file sol, row.species = some sp ∧ pre = a ++ acc :: b ∧ Accepted cfg acc ∧ (∀ r ∈ b, ¬ Accepted cfg r) ∧
      acc.run = some (st, file, sol) ∧ Eligible cfg chem sp ∧ sp ∈ names cfg.net st ∧ (∀ r ∈ pre, r.species ≠ some sp) ∧
      ∃ coupling : Str → Score,
        (∀ n, Eligible cfg chem n → n ∈ names cfg.net st → Coupled g cfg.net st (a.length + 1) n (coupling n)) ∧
        ∀ n, Eligible cfg chem n → n ∈ names cfg.net st → (∀ r ∈ pre, r.species ≠ some n) →
          scoreLe (coupling sp) (coupling n) := by
  obtain ⟨k, st, sp, before, after, x, h, hsnd, hre⟩ := rows_ordered hr hcl hmax hnan hv hh hpre
  obtain ⟨a, acc, b, file, sol, rfl, rfl, h3, h4, h5⟩ := h.last
  have hlist : ∀ n, Eligible cfg chem n → n ∈ names cfg.net st →
      ∃ s ∈ cfg.net.species, s.name = n ∧ st.enSp s.id = true ∧ s.isSpecial = false ∧ n ∉ g.targets := by
    rintro n ⟨h1, s, hs, hn, -, hsp, -⟩ hm
    obtain ⟨s', hs', hn', he', -⟩ := mem_names.1 hm
    obtain rfl : s' = s := hsnd.wf.eq_of_name hs' hs (hn'.trans hn.symm)
    exact ⟨s', hs, hn, he', hsp, fun hc => h1 (hg.targets n hc)⟩
  have hf := Guide.in_force.1 h.force
  obtain ⟨h6, h7, h8, h9⟩ := Guide.rank_spec hg hsnd hcl (pyDicts_of hpy hre) hf (by
    obtain ⟨s, h1, h2, h3, h4, h5⟩ := hlist sp h.eligible h.present
    exact ⟨s, h1, h3, h4, h2 ▸ h5⟩)
  classical
  choose! c hc using fun n (hn : n ∈ (before ++ (sp, x) :: after).map Prod.fst) => Coupled.listed (L := L) hn
  have hcx : c sp = x := by
    have h1 := hc sp (by simp)
    have h2 : (sp, x) ∈ before ++ (sp, x) :: after := by simp
    exact congrArg Prod.snd (List.inj_on_of_nodup_map h6 h1 h2 rfl)
  refine ⟨sp, a, acc, b, st, file, sol, h.row, rfl, h3, h4, h5, h.eligible, h.present, h.fresh, c, fun n he hn => ?_,
    fun n he hn hfr => ?_⟩
  · exact h9 n _ (hc n ((h7 n).2 (hlist n he hn)))
  · rw [hcx]
    exact lowest_first (le := scoreLe) (fun x => by cases x <;> simp [scoreLe]) h h8 (hc n ((h7 n).2 (hlist n he hn))) he hn hfr

/-- **C115.** If such a reduction ends, and as many failures in a row are allowed as there are species that may be removed, each of
them that is still there has been tried in vain. -/
theorem guided_leaves_nothing_out {L : Type} [DecidableEq L] {g : Guide L} {cfg : Cfg Sol R} (hg : g.Ok cfg.important)
    {sorted : List (Str × Score) → Bool} {maxStreak : ℕ} {chem : State} (hr : Reachable cfg.net chem) (hcl : cfg.net.RetClosed)
    (hpy : PyDicts cfg.net chem) (hmax : 0 ≤ cfg.maxErr) (hnan : NeverNan cfg chem) {red : Red Sol R} {l t : Loop Sol R Score}
    (hi : initRed cfg chem = .ok red) (hl : startLoop cfg (g.ranking cfg.net) red = .ok l)
    (hrun : Runs cfg (g.ranking cfg.net) sorted maxStreak l (.ok t)) {B : Finset Str} (hB : ∀ n, Eligible cfg chem n → n ∈ B)
    (hstreak : B.card ≤ maxStreak) {n : Str} (he : Eligible cfg chem n) (hn : n ∈ names cfg.net t.red.chem) :
    ∃ x ∈ t.red.history, x.species = some n ∧ (x.success = false ∨ Rejected cfg x) := by
  refine ReduceWhole.nothing_left_out_of hr hcl hmax hnan hi hl hrun ?_ hB hstreak he hn
  rintro a acc b c file sol rl _ _ _ _ hsnd hre hf m ⟨h1, s, hs, hm, -, hsp, -⟩ hmc
  obtain ⟨s', hs', hn', he', -⟩ := mem_names.1 hmc
  obtain rfl : s' = s := hsnd.wf.eq_of_name hs' hs (hn'.trans hm.symm)
  have hm' : m ∉ g.targets := fun hc => h1 (hg.targets m hc)
  obtain ⟨-, h7, -, -⟩ := Guide.rank_spec hg hsnd hcl (pyDicts_of hpy hre) (Guide.in_force.1 hf)
    ⟨s', hs, he', hsp, hm ▸ hm'⟩
  obtain ⟨e, h2, h3⟩ := List.mem_map.1 ((h7 m).2 ⟨s', hs, hm, he', hsp, hm'⟩)
  exact ⟨e, h2, h3⟩

/-- **C115.** A finding: no reduction guided by the chemistry graph gets down to its targets. When the last other species has been
removed and the run has been accepted, the ranking function is called once more, before it is checked that nothing is left to be
removed, and raises. -/
theorem never_down_to_targets {L : Type} [DecidableEq L] {g : Guide L} {cfg : Cfg Sol R} (ht : g.targets ≠ [])
    (hrows : ∀ k, (g.rates k).rows ≠ []) {sorted : List (Str × Score) → Bool} {maxStreak : ℕ} {chem : State}
    (hr : Reachable cfg.net chem) (hcl : cfg.net.RetClosed) (hmax : 0 ≤ cfg.maxErr) (hnan : NeverNan cfg chem) {t : Loop Sol R Score}
    (hv : Visited cfg (g.ranking cfg.net) sorted maxStreak chem t) : ∃ n ∈ names cfg.net t.red.chem, n ∉ g.targets := by
  obtain ⟨pre, row, post, st, file, sol, h⟩ := inv_visited (.of_reachable hr) hcl hmax hnan hv
  obtain ⟨l, hl, -⟩ := h.rank
  rw [names_same h.same]
  exact Guide.rank_rest ht (hrows _) (Guide.in_force.1 hl)

/-- **C115.** The same call raises once a species with ad-hoc return coefficients has been removed, so in no state of such a
reduction is one missing, and the logs of the last accepted run match the chemistry. -/
theorem accepted_matches {L : Type} [DecidableEq L] {g : Guide L} {cfg : Cfg Sol R} (hg : g.Ok cfg.important) (ht : g.targets ≠ [])
    {sorted : List (Str × Score) → Bool} {maxStreak : ℕ} {chem : State} (hr : Reachable cfg.net chem) (hcl : cfg.net.RetClosed)
    (hpy : PyDicts cfg.net chem) (hmax : 0 ≤ cfg.maxErr) (hnan : NeverNan cfg chem) {t : Loop Sol R Score}
    (hv : Visited cfg (g.ranking cfg.net) sorted maxStreak chem t) :
    ∃ a acc b st file sol, t.red.history = a ++ acc :: b ∧ Accepted cfg acc ∧ (∀ r ∈ b, ¬ Accepted cfg r) ∧
      acc.run = some (st, file, sol) ∧ CoupleInit.Matching cfg.net st (g.rates (a.length + 1)) (g.fluxes (a.length + 1)) ∧
      ∀ s ∈ cfg.net.species, s.id ∈ chem.adRet.keys → t.red.chem.enSp s.id = true := by
  obtain ⟨pre, row, post, st, file, sol, h⟩ := inv_visited (.of_reachable hr) hcl hmax hnan hv
  obtain ⟨l, hl, -⟩ := h.rank
  have hm := ((Guide.rank_iff hg ht h.snd hcl (pyDicts_of hpy h.adRe)).1 ⟨l, Guide.in_force.1 hl⟩).1
  refine ⟨pre, row, post, st, file, sol, h.hist, h.acc, h.nacc, h.run, hm, fun s hs hk => ?_⟩
  have hkeys : ∀ {a b : List (Nat × Dict Str ℚ)}, List.Forall₂ (fun x y => x.1 = y.1 ∧ x.2.Perm y.2) a b →
      a.map Prod.fst = b.map Prod.fst := by
    intro a b h
    induction h with
    | nil => rfl
    | cons h _ ih => simp [h.1, ih]
  obtain ⟨s', hs', he, hen⟩ := hm.adhoc s.id (by
    have := hkeys h.adRe
    unfold Dict.keys at hk ⊢
    rw [this]
    exact hk)
  rw [h.same.enSp s hs, ← he]
  exact hen

/-- **C115.** As long as logs match the chemistry and something else than targets is left, the ranking function does not raise. -/
theorem ranking_function_iff {L : Type} [DecidableEq L] {g : Guide L} {net : Net} {important : List Str} (hg : g.Ok important)
    (ht : g.targets ≠ []) {st : State} (h : Reachable net st) (hcl : net.RetClosed) (hpy : PyDicts net st) (k : ℕ) :
    (∃ l, g.rank net k st = some l) ↔
      CoupleInit.Matching net st (g.rates k) (g.fluxes k) ∧ ∃ n ∈ names net st, n ∉ g.targets :=
  Guide.rank_iff hg ht (.of_reachable h) hcl hpy

end Verif.Fwork.Reduce
