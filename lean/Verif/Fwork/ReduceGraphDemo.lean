/-
C115: concrete reductions guided by the chemistry graph.
-/
import Verif.Fwork.ReduceGraph
import Verif.Fwork.CoupleDemo
import Verif.Fwork.ReduceExc

namespace Verif.Fwork.Reduce
open Verif.Plaschem Verif.Plaschem.Net
open Verif.Fwork.Morris (PyDicts)

namespace GraphDemo
open Verif.Plaschem.Demo Verif.Fwork.CoupleInit.Demo

theorem exists_sort : ∃ sortValues : List (Str × Score) → List (Str × Score), SortOk sortValues := by
  classical
  refine ⟨fun l => l.mergeSort fun a b => decide (scoreLe a.2 b.2), fun l => ⟨List.mergeSort_perm .., ?_⟩⟩
  have := List.pairwise_mergeSort (le := fun a b : Str × Score => decide (scoreLe a.2 b.2))
    (by
      rintro ⟨_, a⟩ ⟨_, b⟩ ⟨_, c⟩ h1 h2
      simp only [decide_eq_true_eq] at *
      cases a <;> cases b <;> cases c <;> simp_all [scoreLe]
      exact h1.trans h2)
    (by
      rintro ⟨_, a⟩ ⟨_, b⟩
      rw [Bool.or_eq_true, decide_eq_true_iff, decide_eq_true_iff]
      cases a with
      | none => exact .inr (by cases b <;> trivial)
      | some a =>
        cases b with
        | none => exact .inl trivial
        | some b => exact le_total a b) l
  exact this.imp fun h => by simpa using h

/-- the frames of the full chemistry, whatever the run -/
noncomputable def guide (targets : List Str) : Guide (Str × ℕ) where
  radius := 1
  length := 2
  rates := fun _ => F
  fluxes := fun _ => W
  targets := targets
  method := .shortestPath
  label := fun n t => (n, t)
  iter := fun _ s => s.sort (· ≤ ·)
  sortValues := fun _ => exists_sort.choose

theorem guide_ok {targets important : List Str} (h : ∀ n ∈ targets, n ∈ important) : (guide targets).Ok important where
  label := by rintro i t i' t' h; exact ⟨congrArg Prod.fst h, congrArg Prod.snd h⟩
  times := by intro k; simp [guide, F]
  nonneg := by
    intro k f hf i
    simp only [guide, F, List.mem_cons, List.not_mem_nil, or_false] at hf
    rcases hf with rfl | rfl <;> simp
  method := by intro h; cases h
  targets := h
  iter := fun k s => ⟨Finset.sort_nodup .., fun v => Finset.mem_sort _⟩
  sort := fun _ => exists_sort.choose_spec

theorem py0 : PyDicts net st0 := pyDicts (by intro e he; cases he)

/-- the ranking of the full chemistry exists and lists what is to be removed -/
theorem rank0 {targets : List Str} (hrest : ∃ s ∈ net.species, st0.enSp s.id = true ∧ s.isSpecial = false ∧ s.name ∉ targets) :
    ∃ l, (guide targets).rank net 1 st0 = some l ∧ (l.map Prod.fst).Nodup ∧
      ∀ n, n ∈ l.map Prod.fst ↔ ∃ s ∈ net.species, s.name = n ∧ st0.enSp s.id = true ∧ s.isSpecial = false ∧ n ∉ targets := by
  obtain ⟨C, hC⟩ := accepted
  have hg := guide_ok (targets := targets) (important := targets) (fun _ h => h)
  obtain ⟨Gs, l, h1, h2, h3, h4, -⟩ := CoupleInit.chemistry_ranking_sound (.of_reachable reach0) net_retClosed py0 hC rates_nonneg
    (hg.times 1) targets hrest .shortestPath (by decide) (guide targets).label hg.label ((guide targets).iter 1) (hg.iter 1)
    ((guide targets).sortValues 1) (hg.sort 1)
  refine ⟨l, ?_, h3, h4⟩
  exact Guide.rank_of hC h1 h2

/-- no error is allowed; Ar is important -/
def strict : Cfg ℕ ℤ := { Demo.cfg with maxErr := 0 }

/-- everything but Ar* is important -/
def single : Cfg ℕ ℤ := { Demo.cfg with important := [str!"Ar", str!"Ar+", str!"Ar++"] }

/-- the base case -/
def base (cfg : Cfg ℕ ℤ) : Option (Red ℕ ℤ × Red ℕ ℤ) :=
  match initRed cfg st0 with
  | .error _ => none
  | .ok red =>
    match runBase cfg red with
    | .error _ => none
    | .ok red1 => some (red, red1)

/-- what one try does: the error of its row, and the species left -/
def try1 (cfg : Cfg ℕ ℤ) (sp : Str) : Option (Option ℤ × Finset Str) :=
  match base cfg with
  | none => none
  | some (_, red1) =>
    if sp ∈ red1.left ∧ sp ∉ red1.attempted then
      match removeOne cfg red1 sp true with
      | .error _ => none
      | .ok red2 => red2.history.getLast?.map fun r => (r.errBase, names cfg.net red2.chem)
    else none

theorem base_ok {cfg : Cfg ℕ ℤ} {red red1 : Red ℕ ℤ} (h : base cfg = some (red, red1)) :
    initRed cfg st0 = .ok red ∧ runBase cfg red = .ok red1 ∧ red.chem = st0 ∧ red1.chem = st0 ∧ red1.history.length = 1 := by
  unfold base at h
  split at h
  · cases h
  · rename_i r hr
    split at h
    · cases h
    · rename_i r1 hr1
      cases h
      have h1 : red.chem = st0 := by
        unfold initRed at hr
        dsimp only at hr
        split at hr
        · cases hr
        · split at hr
          · cases hr
          · cases hr; rfl
      refine ⟨hr, hr1, h1, ?_⟩
      unfold runBase at hr1
      split at hr1
      · cases hr1
      · split at hr1
        · cases hr1
        · split at hr1
          · cases hr1
          · cases hr1
          · cases hr1; exact ⟨h1, rfl⟩

/-- the reduction up to the first try -/
theorem first_try {cfg : Cfg ℕ ℤ} (hnet : cfg.net = net) {targets : List Str} {l : List (Str × Score)}
    (hl : (guide targets).rank net 1 st0 = some l) (hne : l ≠ []) (htry : ∀ n ∈ l.map Prod.fst, (try1 cfg n).isSome) :
    ∃ red s sp c rest red2 row, initRed cfg st0 = .ok red ∧ startLoop cfg ((guide targets).ranking cfg.net) red = .ok s ∧
      l = (sp, c) :: rest ∧ s.ranking = l ∧ sp ∈ s.red.left ∧ sp ∉ s.red.attempted ∧ removeOne cfg s.red sp true = .ok red2 ∧
      red2.history.getLast? = some row ∧ try1 cfg sp = some (row.errBase, names cfg.net red2.chem) ∧ s.red.history.length = 1 ∧
      s.streak = 0 := by
  obtain ⟨⟨sp, c⟩, rest, rfl⟩ := List.exists_cons_of_ne_nil hne
  have ht := htry sp (by simp)
  obtain ⟨x, hx⟩ := Option.isSome_iff_exists.1 ht
  have hx0 := hx
  unfold try1 at hx
  split at hx
  · cases hx
  · rename_i red red1 hb
    obtain ⟨h1, h2, h3, h4, h5⟩ := base_ok hb
    split at hx
    · rename_i hmem
      split at hx
      · cases hx
      · rename_i red2 hr2
        obtain ⟨row, hrow, rfl⟩ := Option.map_eq_some_iff.1 hx
        refine ⟨red, ⟨red1, (sp, c) :: rest, 0⟩, sp, c, rest, red2, row, h1, ?_, rfl, rfl, hmem.1, hmem.2, hr2, hrow, hx0, h5, rfl⟩
        unfold startLoop
        rw [if_neg (by rw [hnet, h3]; decide +kernel), h2]
        simp only [Guide.ranking, h4, h5, hnet, hl]
    · cases hx

theorem pass_head {cfg : Cfg ℕ ℤ} {ranking : Ranking Score} {k : ℕ} {s : Loop ℕ ℤ Score} {sp : Str} {c : Score}
    {rest : List (Str × Score)} (hs : s.ranking = (sp, c) :: rest) (h1 : sp ∈ s.red.left) (h2 : sp ∉ s.red.attempted)
    {red2 : Red ℕ ℤ} (h3 : removeOne cfg s.red sp true = .ok red2) {row : Row ℕ ℤ} (h4 : red2.history.getLast? = some row) :
    ((row.errBase = none ∨ ∃ e, row.errBase = some e ∧ cfg.maxErr < e) → ∃ t, t.red = red2 ∧ t.ranking = dropLabel sp rest ∧
      (pass cfg ranking (fun _ => true) k s = .next t ∨ pass cfg ranking (fun _ => true) k s = .done t)) ∧
    (∀ f e, ranking = .dynamic f → row.errBase = some e → e ≤ cfg.maxErr → f red2.history.length red2.chem = none →
      pass cfg ranking (fun _ => true) k s = .raise .external) := by
  have hp : popNext s.red.attempted s.ranking = some (sp, dropLabel sp rest) := by
    rw [hs, popNext, if_neg h2]
  have h0 : s.ranking ≠ [] := by rw [hs]; simp
  unfold pass
  rw [if_neg h0, if_neg (by simp), hp]
  simp only [h1, not_true_eq_false, if_false, h3, h4]
  constructor
  · rintro (h | ⟨e, h, he⟩)
    · rw [h]
      simp only
      split
      · exact ⟨_, rfl, rfl, .inr rfl⟩
      · exact ⟨_, rfl, rfl, .inl rfl⟩
    · rw [h]
      simp only [he, if_true]
      split
      · exact ⟨_, rfl, rfl, .inr rfl⟩
      · exact ⟨_, rfl, rfl, .inl rfl⟩
  · rintro f e rfl h he hf
    rw [h]
    simp only [not_lt.2 he, if_false, hf]

theorem ranked3 {n : Str} (h : ∃ s ∈ net.species, s.name = n ∧ st0.enSp s.id = true ∧ s.isSpecial = false ∧ n ∉ [str!"Ar"]) :
    n ∈ [str!"Ar*", str!"Ar++", str!"Ar+"] := by
  obtain ⟨s, hs, rfl, -, hsp, hi⟩ := h
  revert hi hsp
  revert s
  decide +kernel

theorem ranked1 {n : Str} (h : ∃ s ∈ net.species, s.name = n ∧ st0.enSp s.id = true ∧ s.isSpecial = false ∧
    n ∉ [str!"Ar", str!"Ar+", str!"Ar++"]) : n = str!"Ar*" := by
  obtain ⟨s, hs, rfl, -, hsp, hi⟩ := h
  revert hi hsp
  revert s
  decide +kernel

theorem try_strict : ∀ n ∈ [str!"Ar*", str!"Ar++", str!"Ar+"],
    (try1 strict n).isSome ∧ ∀ x ∈ try1 strict n, x.1 = none ∨ ∃ e, x.1 = some e ∧ 0 < e := by
  have key : ∀ n ∈ [str!"Ar*", str!"Ar++", str!"Ar+"],
      (try1 strict n).isSome ∧ ((try1 strict n).all fun x => x.1.all fun e => decide (0 < e)) := by decide +kernel
  intro n hn
  refine ⟨(key n hn).1, fun x hx => ?_⟩
  have := (key n hn).2
  rw [Option.mem_def.1 hx] at this
  obtain ⟨o, fs⟩ := x
  cases o with
  | none => exact .inl rfl
  | some e => exact .inr ⟨e, rfl, by simpa using this⟩

/-- The hypotheses of `weakest_first` and `never_down_to_targets` are met: a reduction for the target Ar, with one try. -/
example : (guide [str!"Ar"]).Ok strict.important ∧ Reachable strict.net st0 ∧ strict.net.RetClosed ∧ PyDicts strict.net st0 ∧
    0 ≤ strict.maxErr ∧ NeverNan strict st0 ∧ (guide [str!"Ar"]).targets ≠ [] ∧
    ∃ t pre row post, Visited strict ((guide [str!"Ar"]).ranking strict.net) (fun _ => true) 0 st0 t ∧
      t.red.history = pre ++ row :: post ∧ pre ≠ [] := by
  refine ⟨guide_ok (by intro n h; exact h), reach0, net_retClosed, py0, le_refl _, (by intro a _ i c b _ h; cases h), (by simp [guide]), ?_⟩
  obtain ⟨l, hl, -, hmem⟩ := rank0 (targets := [str!"Ar"]) (by decide +kernel)
  have hne : l ≠ [] := by
    rintro rfl
    exact absurd ((hmem str!"Ar*").2 (by decide +kernel)) (by simp)
  obtain ⟨red, s, sp, c, rest, red2, row, h1, h2, rfl, h4, h5, h6, h7, h8, h9, h10, -⟩ := first_try (cfg := strict) rfl hl hne
    (fun n hn => (try_strict n (ranked3 ((hmem n).1 hn))).1)
  obtain ⟨t, rfl, -, ht⟩ := (pass_head (ranking := (guide [str!"Ar"]).ranking strict.net) (k := 0) h4 h5 h6 h7 h8).1
    ((try_strict sp (ranked3 ((hmem sp).1 (by simp)))).2 _ h9)
  obtain ⟨row2, -, htr, -⟩ := removeOne_cases h7
  refine ⟨t, s.red.history, row2, [], ?_, htr.history, by rw [← List.length_pos_iff, h10]; exact Nat.one_pos⟩
  rcases ht with ht | ht
  · exact ⟨red, s, t, h1, h2, .single ht, .inl rfl⟩
  · exact ⟨red, s, s, h1, h2, .refl, .inr ht⟩

theorem try_single : try1 single str!"Ar*" = some (some 1, {str!"Ar", str!"Ar+", str!"Ar++"}) := by decide +kernel

/-- Every species but Ar* is a target, Ar* is removed, the run is accepted, and the reduction raises. -/
example : ∃ red s, initRed single st0 = .ok red ∧
    startLoop single ((guide [str!"Ar", str!"Ar+", str!"Ar++"]).ranking single.net) red = .ok s ∧
    (∃ red2, removeOne single s.red str!"Ar*" true = .ok red2 ∧ ∃ row, red2.history.getLast? = some row ∧ row.errBase = some 1) ∧
    Runs single ((guide [str!"Ar", str!"Ar+", str!"Ar++"]).ranking single.net) (fun _ => true) 0 s (.error .external) := by
  obtain ⟨l, hl, -, hmem⟩ := rank0 (targets := [str!"Ar", str!"Ar+", str!"Ar++"]) (by decide +kernel)
  have hne : l ≠ [] := by
    rintro rfl
    exact absurd ((hmem str!"Ar*").2 (by decide +kernel)) (by simp)
  obtain ⟨red, s, sp, c, rest, red2, row, h1, h2, rfl, h4, h5, h6, h7, h8, h9, h10, -⟩ := first_try (cfg := single) rfl hl hne
    (fun n hn => by rw [ranked1 ((hmem n).1 hn), try_single]; rfl)
  obtain rfl := ranked1 ((hmem sp).1 (by simp))
  rw [try_single] at h9
  simp only [Option.some.injEq, Prod.mk.injEq] at h9
  refine ⟨red, s, h1, h2, ⟨red2, h7, row, h8, h9.1.symm⟩, .raise ?_⟩
  refine (pass_head (k := 0) h4 h5 h6 h7 h8).2 _ 1 rfl h9.1.symm (by decide) ?_
  cases hr : (guide [str!"Ar", str!"Ar+", str!"Ar++"]).rank single.net red2.history.length red2.chem with
  | none => rfl
  | some l' =>
    obtain ⟨n, hn, hnt⟩ := Guide.rank_rest (by simp [guide]) (by simp [guide, CoupleInit.Demo.F]) hr
    rw [← h9.2] at hn
    exact absurd hn (by revert hnt; simp [guide])

/-- no error is allowed, and everything but Ar* is important -/
def lone : Cfg ℕ ℤ := { single with maxErr := 0 }

theorem try_lone : try1 lone str!"Ar*" = some (some 1, {str!"Ar", str!"Ar+", str!"Ar++", str!"Ar*"}) := by decide +kernel

/-- The hypotheses of `guided_leaves_nothing_out` are met: Ar* is tried in vain and stays. -/
example : ∃ red s t, initRed lone st0 = .ok red ∧
    startLoop lone ((guide [str!"Ar", str!"Ar+", str!"Ar++"]).ranking lone.net) red = .ok s ∧
    Runs lone ((guide [str!"Ar", str!"Ar+", str!"Ar++"]).ranking lone.net) (fun _ => true) 1 s (.ok t) ∧
    (∀ n, Eligible lone st0 n → n ∈ ({str!"Ar*"} : Finset Str)) ∧ Eligible lone st0 str!"Ar*" ∧
    str!"Ar*" ∈ names lone.net t.red.chem := by
  obtain ⟨l, hl, hnd, hmem⟩ := rank0 (targets := [str!"Ar", str!"Ar+", str!"Ar++"]) (by decide +kernel)
  have hne : l ≠ [] := by
    rintro rfl
    exact absurd ((hmem str!"Ar*").2 (by decide +kernel)) (by simp)
  obtain ⟨red, s, sp, c, rest, red2, row, h1, h2, rfl, h4, h5, h6, h7, h8, h9, h10, -⟩ := first_try (cfg := lone) rfl hl hne
    (fun n hn => by rw [ranked1 ((hmem n).1 hn), try_lone]; rfl)
  obtain rfl := ranked1 ((hmem sp).1 (by simp))
  have hrest : rest = [] := by
    cases rest with
    | nil => rfl
    | cons e rest =>
      have := ranked1 ((hmem e.1).1 (by simp))
      simp [this] at hnd
  subst hrest
  rw [try_lone] at h9
  simp only [Option.some.injEq, Prod.mk.injEq] at h9
  obtain ⟨t, rfl, hrk, ht⟩ := (pass_head (ranking := (guide [str!"Ar", str!"Ar+", str!"Ar++"]).ranking lone.net) (k := 1) h4 h5 h6 h7
    h8).1 (.inr ⟨1, h9.1.symm, by decide⟩)
  refine ⟨red, s, t, h1, h2, ?_, ?_, ?_, ?_⟩
  · rcases ht with ht | ht
    · refine .next ht (.done ?_)
      unfold pass
      rw [if_pos (by rw [hrk]; rfl)]
    · exact .done ht
  · rintro n ⟨hi, x, hx, hn, he, hsp, -⟩
    exact Finset.mem_singleton.2 (ranked1 ⟨x, hx, hn, he, hsp, hi⟩)
  · refine ⟨by decide, ArX, by decide +kernel, rfl, rfl, rfl, ?_⟩
    rintro (h | h) <;> cases h
  · rw [← h9.2]; decide

end GraphDemo
end Verif.Fwork.Reduce
