/-
C113: a concrete Morris run over two return coefficients that meets the hypotheses.
-/
import Verif.Fwork.MorrisWholeRet
import Verif.Fwork.MorrisWholeDemo

namespace Verif.Fwork.MorrisWholeRet.Demo
open Verif.Plaschem Verif.Plaschem.Net Verif.Fwork.MorrisRuns Verif.Fwork.MorrisStats Verif.Fwork.MorrisEval Verif.Fwork.MorrisBatch
open Verif.Fwork.MorrisWhole
open Verif.Fwork.MorrisBatch.Demo (exec exec_run)
open Verif.Fwork.MorrisWhole.Demo (path seed_grid choices choices_perm path_ok)
open Verif.Fwork.Morris (Pair demoPw coef PyDicts SameButRet)

def net : Net := Plaschem.Demo.net

/-- Ar+ and Ar++ return Ar and themselves, one half each -/
def ops : List Op := [.adhocRet (.id 2) [(str!"Ar", 1/2), (str!"Ar+", 1/2)], .adhocRet (.id 3) [(str!"Ar", 1/2), (str!"Ar++", 1/2)]]

def st : State := net.run Plaschem.Demo.st0 ops

theorem reach : Reachable net st := Reachable.run (.init rfl) _

theorem dicts : PyDicts net st := by
  refine ⟨?_, ?_⟩
  · intro s hs c hc
    simp only [net, Plaschem.Demo.net, List.mem_cons, List.not_mem_nil, or_false] at hs
    rcases hs with rfl | rfl | rfl | rfl | rfl | rfl <;> cases hc <;> simp [Dict.keys]
  · intro e he
    have : st.adRet = [(2, [(str!"Ar", 1/2), (str!"Ar+", 1/2)]), (3, [(str!"Ar", 1/2), (str!"Ar++", 1/2)])] := rfl
    rw [this] at he
    simp only [List.mem_cons, List.not_mem_nil, or_false] at he
    rcases he with rfl | rfl <;> decide

def pairs : Fin 2 → Pair := ![⟨str!"Ar+", str!"Ar", 1/2, 2⟩, ⟨str!"Ar++", str!"Ar", 1/2, 2⟩]

theorem asked : Asked net st pairs where
  distinct := by decide
  nominal := by decide +kernel

/-- the coefficient of Ar+ for Ar -/
def retAr (s : State) : ℚ :=
  if Plaschem.Demo.ArP ∈ net.getSpecies s false false true ∧ Plaschem.Demo.Ar ∈ net.getSpecies s false true true then
    coef net s Plaschem.Demo.ArP str!"Ar"
  else 0

/-- an output that depends on this coefficient only -/
noncomputable def Y (s : State) : ℝ := 10 + (retAr s : ℝ)

noncomputable def solve (s : State) : Option Sol := some (MorrisStats.Demo.const (Y s))

theorem solve_same (a b : State) (h : SameChem net a b) : solve a = solve b := by
  have : retAr a = retAr b := by
    unfold retAr
    rw [h.rest.species, h.rest.species]
    by_cases hc : Plaschem.Demo.ArP ∈ net.getSpecies b false false true ∧ Plaschem.Demo.Ar ∈ net.getSpecies b false true true
    · rw [if_pos hc, if_pos hc]
      exact h.coefs _ hc.1 _ hc.2
    · rw [if_neg hc, if_neg hc]
  unfold solve Y
  rw [this]

noncomputable def args : Args ℕ ℕ Sol :=
  { cfg := { chem := 0, params := 0, type := str!"return_coefficients", backend := str!"pygmol" }, num := 2, cores := 1, trajId := false,
    ret := some (some [(str!"Ar+", str!"Ar"), (str!"Ar++", str!"Ar")]), ranges := some (some true),
    steps := fun p => (path 2 p).2.map fun s => (s.delta, fid (pairs s.factor)),
    sols := fun p => runSol net demoPw st solve pairs (path 2 p) }

theorem runs_ok : ∀ p < 2, ∀ j ≤ 2, (match runState net demoPw st pairs (path 2 p) j with
    | .ok s => decide (0 ≤ retAr s)
    | .error _ => false) = true := by
  decide +kernel

theorem args_good : args.Good where
  type := by simp [args]
  accepted := by
    simp only [args, Args.accepted]
    decide
  backend := by simp only [args]; decide
  solves := by
    intro p hp j hj
    simp only [args, List.length_map, (path_ok (n := 2) (by decide) p).2] at hp hj ⊢
    have := runs_ok p hp j hj
    unfold runSol
    cases h : runState net demoPw st pairs (path 2 p) j with
    | error e => rw [h] at this; cases this
    | ok s => rfl

theorem is_traj (ids : List ℕ) (p : ℕ) : IsRetTraj net demoPw st solve pairs (args.job ids p) (path 2 p) where
  type := rfl
  seed := seed_grid 2 p
  walk := ⟨choices 2 p, choices_perm 2 p, (path_ok (by decide) p).1⟩
  steps := rfl
  sols := by
    intro j _
    have : args.supported = true := by simp [args, Args.supported]
    simp only [Args.job, this, if_true]
    rfl

/-- the directory after the call -/
def fs1 : Fs ℕ ℕ Sol := Fs.new.mkTraj (trajName 1)

theorem call_new : args.call 0 Fs.new = (fs1, .ok [1, 2]) := by
  have hq : ∀ n i, queue (used (Fs.new : Fs ℕ ℕ Sol)) 0 i n = List.range' i n := by
    intro n
    induction n with
    | zero => intro i; simp [queue]
    | succ n ih => intro i; rw [queue]; simp [ih, List.range'_succ]
  have hn : (Fs.new : Fs ℕ ℕ Sol).nextId = some (trajName 1) := by decide +kernel
  unfold Args.call
  simp only [args, hn, hq, Option.isNone_some, Bool.false_eq_true, or_self, and_false, if_false]
  rfl

theorem runs : ∃ fs : Fs ℕ ℕ Sol, Batches (IsRetTraj net demoPw st solve pairs) args.cfg fs [path 2 0, path 2 1] := by
  have he : ((exec (args.job [1, 2]) 2 1 (args.start fs1) (List.replicate 21 0 ++ List.replicate 24 1)).map fun w =>
      decide (Over (w.pc 0) ∧ Over (w.pc 1))) = some true := by
    decide +kernel
  obtain ⟨w, hw, hv⟩ := Option.map_eq_some_iff.1 he
  obtain ⟨m, hm⟩ := exec_run .refl hw
  simp only [decide_eq_true_eq] at hv
  refine ⟨w.fs, ?_⟩
  have h : ∀ p, p < 2 → p = 0 ∨ p = 1 := fun p hp => by omega
  exact Batches.batch (a := args) (bound := 0) (w := w) (walks := []) (ws := [path 2 0, path 2 1]) .new rfl
    args_good rfl rfl (by simp) (fun p hp => by rcases h p hp with rfl | rfl <;> exact is_traj ..)
    (fun _ _ => rfl) call_new hm (fun p hp => by
      rcases h p hp with rfl | rfl
      · exact hv.1
      · exact hv.2)

theorem chem_nonneg : ∀ p < 2, ∀ j ≤ 2, 0 ≤ retAr (chem net demoPw st pairs (path 2 p) j) := by
  decide +kernel

/-- mu of Ar+ > Ar, on which the output depends, is positive, mu of Ar++ > Ar is zero -/
example : ∃ fs : Fs ℕ ℕ Sol, ∀ ds, Listing fs ds → ∃ s, morrisStats fs ds 0 "e" = .ok s ∧ 0 < s.mu (.text str!"r(Ar+>Ar)") ∧
    s.mu (.text str!"r(Ar++>Ar)") = 0 := by
  obtain ⟨fs, h⟩ := runs
  refine ⟨fs, fun ds hds => ?_⟩
  have hY : ∀ p < 2, ∀ j ≤ 2, 0 < Y (chem net demoPw st pairs (path 2 p) j) := by
    intro p hp j hj
    have : (0 : ℝ) ≤ (retAr (chem net demoPw st pairs (path 2 p) j) : ℝ) := by exact_mod_cast chem_nonneg p hp j hj
    unfold Y
    linarith
  have hlen := fun p => (path_ok (n := 2) (by decide) p).2
  obtain ⟨s, h1, h2⟩ := ret_effects (by exact Plaschem.Demo.net_retClosed) reach dicts solve_same (by decide) asked (by decide) h (by simp) hds
    (t := 0) (o := "e") (Y := Y) (fun v _ j _ s hs => by
      cases hs
      exact MorrisStats.Demo.const_result _ _) (by
      simp only [List.map_cons, List.map_nil, List.sum_cons, List.sum_nil, hlen]
      have a0 := hY 0 (by decide) 0 (by decide)
      have a1 := hY 0 (by decide) 1 (by decide)
      have a2 := hY 0 (by decide) 2 (by decide)
      have b0 := hY 1 (by decide) 0 (by decide)
      have b1 := hY 1 (by decide) 1 (by decide)
      have b2 := hY 1 (by decide) 2 (by decide)
      simp only [List.range_succ, List.range_zero, List.nil_append, List.cons_append, List.map_cons, List.map_nil, List.sum_cons, List.sum_nil]
      refine ne_of_gt (div_pos ?_ (by simp))
      norm_num
      linarith)
  have hAr : ∀ {x : State}, SameButRet x st → retAr x = coef net x Plaschem.Demo.ArP str!"Ar" := by
    intro x hx
    unfold retAr
    rw [hx.species, hx.species, if_pos (by decide +kernel)]
  have hArP : Plaschem.Demo.ArP ∈ net.getSpecies st false false true := by decide +kernel
  refine ⟨s, h1, ?_, ?_⟩
  · obtain ⟨g, g1, -, g3⟩ := h2 0
    have hpos : ∀ q ∈ g, 0 < q := by
      intro q hq
      obtain ⟨v, hv, j, k, lo, hi, -, -, e, rfl⟩ := forall₂_mem_right g3 hq
      obtain ⟨a, ha, han, ⟨y, y1, y2, c1, c2⟩, -⟩ := e.coef
      have : a = Plaschem.Demo.ArP := by
        revert ha han
        clear * - 
        revert a
        decide +kernel
      subst this
      have d0 : coef net st Plaschem.Demo.ArP (pairs 0).ret = 1 / 2 := by decide +kernel
      rw [d0] at c1 c2
      have hlt : retAr lo < retAr hi := by
        rw [hAr e.left, hAr e.right]
        show coef net lo _ (pairs 0).ret < coef net hi _ (pairs 0).ret
        rw [c1, c2]
        have p1 : demoPw (pairs 0).range y ≤ 1 := by
          unfold demoPw
          rw [if_neg (by linarith), show (pairs 0).range = 2 from rfl, div_le_one (by linarith)]
          linarith
        have p2 : 1 < demoPw (pairs 0).range (y + 1) := by
          unfold demoPw
          rw [if_pos (by linarith), show (pairs 0).range = 2 from rfl]
          linarith
        linarith
      have : (retAr lo : ℝ) < retAr hi := by exact_mod_cast hlt
      unfold Y
      linarith
    have hg : g.length = 2 := g3.length_eq.symm
    rw [show str!"r(Ar+>Ar)" = fid (pairs 0) from rfl, g1]
    refine div_pos (List.sum_pos _ hpos fun e => ?_) (by simp)
    rw [e] at hg
    cases hg
  · obtain ⟨g, g1, -, g3⟩ := h2 1
    have hz : ∀ q ∈ g, q = 0 := by
      intro q hq
      obtain ⟨v, hv, j, k, lo, hi, -, -, e, rfl⟩ := forall₂_mem_right g3 hq
      obtain ⟨a, ha, han, -, -, -, -, hoth⟩ := e.coef
      have : retAr lo = retAr hi := by
        rw [hAr e.left, hAr e.right]
        refine hoth _ hArP (fun e => ?_) _
        rw [← e] at han
        revert han
        decide
      unfold Y
      rw [this, sub_self, mul_zero]
    rw [show str!"r(Ar++>Ar)" = fid (pairs 1) from rfl, g1, List.sum_eq_zero hz, zero_div]

end Verif.Fwork.MorrisWholeRet.Demo
