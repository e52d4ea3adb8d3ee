/-
C112: concrete Morris runs over a small chemistry that meet the hypotheses of the theorems.
-/
import Verif.Fwork.MorrisWhole
import Verif.Fwork.MorrisBatchDemo
import Verif.Fwork.MorrisRank

namespace Verif.Fwork.MorrisWhole.Demo
open Verif.Plaschem Verif.Plaschem.Net Verif.Fwork.MorrisRuns Verif.Fwork.MorrisStats Verif.Fwork.MorrisEval Verif.Fwork.MorrisBatch
open Verif.Fwork.MorrisBatch.Demo (exec exec_run)
open Verif.Fwork.Morris (Kind netRates dimension inForce SameButArrh)

/-- 4 species, 5 reactions with rate 5 -/
def net : Net := netRates

def st : State := Plaschem.Demo.st0

theorem reach : Reachable net st := .init rfl

theorem rated : Rated net st := by
  intro r hr
  refine ⟨5, ?_⟩
  have : r ∈ netRates.reactions := (List.mem_filter.1 hr).1
  obtain ⟨r', -, rfl⟩ := List.mem_map.1 this
  rfl

/-- reaction 3, `Ar + e > Ar* + e` -/
def r3 : Reaction := { Plaschem.Demo.r3 with arrhA := some 5, arrhAUnit := some str!"m3.s-1" }

/-- the rate of reaction 3 -/
def rate3 (s : State) : ℚ := (inForce s r3).getD 0

/-- an output that depends on the rate of reaction 3 only -/
noncomputable def Y (s : State) : ℝ := 10 + (rate3 s : ℝ)

noncomputable def solve (s : State) : Option Sol := some (MorrisStats.Demo.const (Y s))

def seed (n p : ℕ) : Fin n → ℚ := fun i => if (i.1 + p) % 2 = 0 then 1/4 else 11/20

def choices (n p : ℕ) : List (Fin n × Bool) :=
  (if p % 2 = 0 then List.finRange n else (List.finRange n).reverse).map fun i => (i, true)

/-- the trajectories of the code -/
def path (n p : ℕ) : Path n := (seed n p, (Morris.Setup.code.trajectory (choices n p) (seed n p)).1)

theorem seed_grid (n p : ℕ) (i : Fin n) : seed n p i ∈ Morris.Setup.code.grid := by
  unfold seed
  split <;> decide +kernel

theorem choices_perm (n p : ℕ) : ((choices n p).map Prod.fst).Perm (List.finRange n) := by
  unfold choices
  rw [List.map_map, show (Prod.fst ∘ fun i : Fin n => (i, true)) = id from rfl, List.map_id]
  split
  · exact .refl _
  · exact List.reverse_perm _

theorem path_ok {n : ℕ} (hn : 2 ≤ n) (p : ℕ) :
    Morris.Setup.code.trajectory (choices n p) (seed n p) = ((path n p).2, none) ∧ (path n p).2.length = n := by
  obtain ⟨l, e, hl, -⟩ := Morris.trajectory_code hn (choices_perm n p) (seed_grid n p)
  unfold path
  simp only [e, hl, and_self]

noncomputable def args (kind : Kind) (n num : ℕ) : Args ℕ ℕ Sol :=
  { cfg := { chem := 0, params := 0, type := kindName kind, backend := str!"pygmol" }, num := num, cores := 1, trajId := false,
    ret := none, ranges := none,
    steps := fun p => (path n p).2.map fun s => (s.delta, (factorIds net st kind).getD s.factor []),
    sols := fun p => runSol net kind st solve (path n p) }

theorem args_good (kind : Kind) {n : ℕ} (hd : dimension net st kind = n) (num : ℕ) : (args kind n num).Good where
  type := by cases kind <;> simp [args, kindName]
  accepted := by
    have : kindName kind ≠ str!"return_coefficients" := by cases kind <;> decide
    simp [args, Args.accepted, this]
  backend := by simp only [args]; decide
  solves := by
    intro p _ j hj
    simp only [args, List.length_map] at hj ⊢
    have : ∃ x, (path n p).point j = some x := by
      cases j with
      | zero => exact ⟨_, rfl⟩
      | succ j => exact ⟨_, by rw [Path.point, List.getElem?_eq_getElem hj]; rfl⟩
    obtain ⟨x, hx⟩ := this
    rw [runSol_point reach rated solve hd _ hx]
    rfl

theorem is_traj {kind : Kind} {n : ℕ} (hn : 2 ≤ n) (hd : dimension net st kind = n) (num : ℕ) (ids : List ℕ) (p : ℕ) :
    IsTraj net kind st solve ((args kind n num).job ids p) (path n p) where
  type := rfl
  dim := hd
  seed := seed_grid n p
  walk := ⟨choices n p, choices_perm n p, (path_ok hn p).1⟩
  steps := rfl
  sols := by
    intro j _
    have : (args kind n num).supported = true := by cases kind <;> simp [args, Args.supported, kindName]
    simp only [Args.job, this, if_true]
    rfl

/-- the directory after the call -/
def fs1 : Fs ℕ ℕ Sol := Fs.new.mkTraj (trajName 1)

theorem call_new (kind : Kind) (n num : ℕ) : (args kind n num).call 0 Fs.new = (fs1, .ok (List.range' 1 num)) := by
  have hq : ∀ n i, queue (used (Fs.new : Fs ℕ ℕ Sol)) 0 i n = List.range' i n := by
    intro n
    induction n with
    | zero => intro i; simp [queue]
    | succ n ih => intro i; rw [queue]; simp [ih, List.range'_succ]
  have hn : (Fs.new : Fs ℕ ℕ Sol).nextId = some (trajName 1) := by decide +kernel
  have hk : kindName kind ≠ str!"return_coefficients" := by cases kind <;> decide
  unfold Args.call
  simp only [args, hn, hq, hk, false_and, if_false]
  rfl

/-- a batch of two trajectories, until it is over -/
theorem runs {kind : Kind} {n : ℕ} (hn : 2 ≤ n) (hd : dimension net st kind = n) (a b : ℕ)
    (he : ((exec ((args kind n 2).job [1, 2]) 2 1 ((args kind n 2).start fs1) (List.replicate a 0 ++ List.replicate b 1)).map fun w =>
      decide (Over (w.pc 0) ∧ Over (w.pc 1))) = some true) :
    ∃ fs : Fs ℕ ℕ Sol, Batches (IsTraj net kind st solve) (args kind n 2).cfg fs [path n 0, path n 1] := by
  obtain ⟨w, hw, hv⟩ := Option.map_eq_some_iff.1 he
  obtain ⟨m, hm⟩ := exec_run .refl hw
  simp only [decide_eq_true_eq] at hv
  refine ⟨w.fs, ?_⟩
  have h : ∀ p, p < 2 → p = 0 ∨ p = 1 := fun p hp => by omega
  exact Batches.batch (a := args kind n 2) (bound := 0) (w := w) (walks := []) (ws := [path n 0, path n 1]) .new rfl
    (args_good kind hd 2) rfl rfl (by simp) (fun p hp => by rcases h p hp with rfl | rfl <;> exact is_traj hn hd ..)
    (fun _ _ => rfl) (call_new kind n 2) hm (fun p hp => by
      rcases h p hp with rfl | rfl
      · exact hv.1
      · exact hv.2)

theorem runs_reactions : ∃ fs : Fs ℕ ℕ Sol, Batches (IsTraj net .reactions st solve) (args .reactions 5 2).cfg fs [path 5 0, path 5 1] :=
  runs (by decide) rfl 30 33 (by decide +kernel)

theorem runs_species : ∃ fs : Fs ℕ ℕ Sol, Batches (IsTraj net .species st solve) (args .species 4 2).cfg fs [path 4 0, path 4 1] :=
  runs (by decide) rfl 27 30 (by decide +kernel)

theorem grandMean_pos {n : ℕ} {y : (Fin n → ℚ) → ℝ} {walks : List (Path n)} (hne : walks ≠ [])
    (h : ∀ v ∈ walks, ∀ x ∈ v.1 :: v.2.map Morris.Step.x, 0 < y x) : grandMean y walks ≠ 0 := by
  unfold grandMean
  have hl : (0 : ℝ) < walks.length := by exact_mod_cast List.length_pos_iff.2 hne
  refine (div_pos (List.sum_pos _ ?_ (by simpa using hne)) hl).ne'
  intro q hq
  obtain ⟨v, hv, rfl⟩ := List.mem_map.1 hq
  refine div_pos (add_pos_of_pos_of_nonneg (h v hv _ (List.mem_cons_self ..)) (List.sum_nonneg fun a ha => ?_)) (by positivity)
  obtain ⟨s, hs, rfl⟩ := List.mem_map.1 ha
  exact (h v hv _ (List.mem_cons_of_mem _ (List.mem_map_of_mem hs))).le

theorem mean_ok {kind : Kind} {n : ℕ}
    (h : ∀ v ∈ [path n 0, path n 1], ∀ x ∈ v.1 :: v.2.map Morris.Step.x, 0 ≤ rate3 (chemAt net kind st x)) :
    grandMean (fun x => Y (chemAt net kind st x)) [path n 0, path n 1] ≠ 0 :=
  grandMean_pos (by simp) fun v hv x hx => by
    have : (0 : ℝ) ≤ (rate3 (chemAt net kind st x) : ℝ) := by exact_mod_cast h v hv x hx
    unfold Y
    linarith

/-- The run over the reactions: mu of reaction 3 is twice its nominal rate, mu of all others is 0, and so is sigma. -/
example : ∃ fs : Fs ℕ ℕ Sol, ∀ ds, Listing fs ds → ∃ s, morrisStats fs ds 0 "e" = .ok s ∧ s.mu (.int 3) = 10 ∧ s.sigma (.int 3) = some 0 ∧
    ∀ i ∈ [1, 2, 4, 5], s.mu (.int i) = 0 ∧ s.sigma (.int i) = some 0 := by
  obtain ⟨fs, h⟩ := runs_reactions
  refine ⟨fs, fun ds hds => ?_⟩
  obtain ⟨s, h1, h2⟩ := linear_reaction reach rated (n := 5) (by decide) rfl h (by simp) hds (t := 0) (o := "e") (Y := Y)
    (fun _ _ _ _ => ⟨_, rfl, MorrisStats.Demo.const_result _ _⟩) (mean_ok (by decide +kernel))
  have hm : r3 ∈ net.getReactions st false := by
    rw [show net.getReactions st false = net.reactions from rfl]
    simp [net, netRates, Plaschem.Demo.net, r3]
  have h3 := h2 r3 hm 5 (by
    intro lo hi hlh
    obtain ⟨x, -, -, e1, e2⟩ := hlh.this 5 rfl
    simp only [Y, rate3, e1, e2, Option.getD_some]
    push_cast
    ring)
  refine ⟨s, h1, by rw [show Label.int 3 = .int r3.id from rfl, h3.1]; norm_num, h3.2 (by simp), fun i hi => ?_⟩
  have hex : ∃ r ∈ net.getReactions st false, r.id = i ∧ r.id ≠ 3 := by
    simp only [List.mem_cons, List.not_mem_nil, or_false] at hi
    rcases hi with rfl | rfl | rfl | rfl
    · exact ⟨_, List.mem_cons_self .., rfl, by decide⟩
    · exact ⟨_, List.mem_cons_of_mem _ (List.mem_cons_self ..), rfl, by decide⟩
    · exact ⟨_, List.mem_cons_of_mem _ (List.mem_cons_of_mem _ (List.mem_cons_of_mem _ (List.mem_cons_self ..))), rfl, by decide⟩
    · exact ⟨_, List.mem_cons_of_mem _ (List.mem_cons_of_mem _ (List.mem_cons_of_mem _ (List.mem_cons_of_mem _ (List.mem_cons_self ..)))), rfl,
        by decide⟩
  obtain ⟨r, hr, rfl, hr3⟩ := hex
  have h4 := h2 r hr 0 (by
    intro lo hi hlh
    have := hlh.others r3 hm fun e => hr3 e.symm
    simp only [Y, rate3, this, sub_self])
  exact ⟨by rw [h4.1]; norm_num, h4.2 (by simp)⟩

/-- The run over the species: mu of Ar+, which does not take part in reaction 3, is 0. -/
example : ∃ fs : Fs ℕ ℕ Sol, ∀ ds, Listing fs ds → ∃ s, morrisStats fs ds 0 "e" = .ok s ∧ s.mu (.text str!"Ar+") = 0 := by
  obtain ⟨fs, h⟩ := runs_species
  refine ⟨fs, fun ds hds => ?_⟩
  obtain ⟨s, h1, h2⟩ := species_effects reach rated (n := 4) (by decide) rfl (by decide +kernel) h (by simp) hds (t := 0) (o := "e") (Y := Y)
    (fun _ _ _ _ => ⟨_, rfl, MorrisStats.Demo.const_result _ _⟩) (mean_ok (by decide +kernel))
  have hm : r3 ∈ net.getReactions st false := by
    rw [show net.getReactions st false = net.reactions from rfl]
    simp [net, netRates, Plaschem.Demo.net, r3]
  obtain ⟨g, -, g2, -, g4⟩ := h2 Plaschem.Demo.ArP (by decide)
  refine ⟨s, h1, ?_⟩
  have : ∀ q ∈ g, q = 0 := by
    intro q hq
    obtain ⟨lo, hi, e1, rfl⟩ := g4 q hq
    have := e1.others r3 hm (by decide)
    simp only [Y, rate3, this, sub_self, mul_zero]
  rw [show str!"Ar+" = Plaschem.Demo.ArP.name from rfl, g2, List.sum_eq_zero this, zero_div]

end Verif.Fwork.MorrisWhole.Demo
