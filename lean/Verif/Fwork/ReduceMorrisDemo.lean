/-
C117: a concrete Morris run over the species of a small chemistry, and a reduction along its ranking.
-/
import Verif.Fwork.ReduceMorris
import Verif.Fwork.MorrisWholeDemo
import Verif.Fwork.ReduceExc

namespace Verif.Fwork.Reduce
open Verif.Plaschem Verif.Plaschem.Net

variable {S R A B : Type} [LinearOrder R] [Zero R]

/-- the loop with other scores -/
def Loop.rescore (g : A → B) (s : Loop S R A) : Loop S R B := { red := s.red, ranking := s.ranking.map fun e => (e.1, g e.2), streak := s.streak }

def Pass.rescore (g : A → B) : Pass (Loop S R A) → Pass (Loop S R B)
  | .next t => .next (t.rescore g)
  | .done t => .done (t.rescore g)
  | .raise e => .raise e

theorem popNext_rescore (g : A → B) (att : Finset Str) (l : List (Str × A)) :
    popNext att (l.map fun e => (e.1, g e.2)) = (popNext att l).map fun p => (p.1, p.2.map fun e => (e.1, g e.2)) := by
  have hd : ∀ (x : Str) (l : List (Str × A)), dropLabel x (l.map fun e => (e.1, g e.2)) = (dropLabel x l).map fun e => (e.1, g e.2) := by
    intro x l
    unfold dropLabel
    rw [List.filter_map]
    rfl
  induction hn : l.length using Nat.strong_induction_on generalizing l with
  | _ n ih =>
    cases l with
    | nil => rw [List.map_nil, popNext, popNext]; rfl
    | cons e l =>
      obtain ⟨y, v⟩ := e
      have hlen : (dropLabel y l).length ≤ l.length := List.length_filter_le _ _
      rw [List.map_cons, popNext, popNext]
      dsimp only
      by_cases hy : y ∈ att
      · rw [if_pos hy, if_pos hy, hd, ih _ (by rw [← hn, List.length_cons]; omega) _ rfl]
      · rw [if_neg hy, if_neg hy, hd]
        rfl

omit [LinearOrder R] [Zero R] in
theorem rescore_ite (g : A → B) (c : Prop) [Decidable c] (t : Loop S R A) :
    (if c then Pass.done (t.rescore g) else Pass.next (t.rescore g)) = (if c then Pass.done t else Pass.next t : Pass (Loop S R A)).rescore g := by
  split <;> rfl

omit [Zero R] in
/-- what a pass does with a sorted ranking does not depend on the scores -/
theorem pass_rescore (g : A → B) {cfg : Cfg S R} {l : List (Str × A)} {l' : List (Str × B)} {k : ℕ} (s : Loop S R A) :
    pass cfg (.fixed l') (fun _ => true) k (s.rescore g) = (pass cfg (.fixed l) (fun _ => true) k s).rescore g := by
  unfold pass
  by_cases h1 : s.ranking = []
  · rw [if_pos h1, if_pos (by simp [Loop.rescore, h1])]
    rfl
  rw [if_neg h1, if_neg (by simpa [Loop.rescore] using h1), if_neg (by simp), if_neg (by simp)]
  have hp := popNext_rescore g s.red.attempted s.ranking
  have e : (s.rescore g).ranking = s.ranking.map fun e => (e.1, g e.2) := rfl
  have e' : (s.rescore g).red = s.red := rfl
  rw [e, e', hp]
  cases popNext s.red.attempted s.ranking with
  | none => rfl
  | some p =>
    obtain ⟨sp, rest⟩ := p
    simp only [Option.map_some]
    by_cases h4 : sp ∉ s.red.left
    · rw [if_pos h4, if_pos h4]; rfl
    rw [if_neg h4, if_neg h4]
    cases removeOne cfg s.red sp true with
    | error e => rfl
    | ok red =>
      simp only
      cases red.history.getLast? with
      | none => rfl
      | some row =>
        simp only
        cases row.errBase with
        | none => exact rescore_ite g _ { red := red, ranking := rest, streak := s.streak }
        | some e =>
          simp only
          split
          · exact rescore_ite g _ { red := red, ranking := rest, streak := s.streak + 1 }
          · exact rescore_ite g _ { red := red, ranking := rest, streak := 0 }

end Verif.Fwork.Reduce

namespace Verif.Fwork.ReduceMorris.Demo
open Verif.Plaschem Verif.Plaschem.Net Verif.Fwork.MorrisRuns Verif.Fwork.MorrisStats Verif.Fwork.MorrisEval Verif.Fwork.MorrisBatch
open Verif.Fwork.MorrisWhole Verif.Fwork.MorrisWhole.Demo
open Verif.Fwork.MorrisBatch.Demo (exec exec_run)
open Verif.Fwork.Morris (Kind dimension inForce TakesPart)
open Verif.Fwork.Reduce (Loop Red Row Visited Eligible NeverNan names pass initRed startLoop Goes)

/-! ### the Morris run -/

/-- a run over the species, and a listing of its directory -/
theorem runs_listed : ∃ (fs : Fs ℕ ℕ Sol) (ds : List Str),
    Batches (IsTraj net .species st solve) (args .species 4 2).cfg fs [path 4 0, path 4 1] ∧ Listing fs ds := by
  have he : ((exec ((args .species 4 2).job [1, 2]) 2 1 ((args .species 4 2).start fs1) (List.replicate 27 0 ++ List.replicate 30 1)).map
    fun w => decide (Over (w.pc 0) ∧ Over (w.pc 1))) = some true := by decide +kernel
  obtain ⟨w, hw, hv⟩ := Option.map_eq_some_iff.1 he
  obtain ⟨m, hm⟩ := exec_run .refl hw
  simp only [decide_eq_true_eq] at hv
  have h : ∀ p, p < 2 → p = 0 ∨ p = 1 := fun p hp => by omega
  refine ⟨w.fs, [trajName 1, trajName 2].filter fun t => w.fs.made t, ?_, ?_, fun t => ?_⟩
  · exact Batches.batch (a := args .species 4 2) (bound := 0) (w := w) (walks := []) (ws := [path 4 0, path 4 1]) .new rfl
      (args_good .species rfl 2) rfl rfl (by simp) (fun p hp => by rcases h p hp with rfl | rfl <;> exact is_traj (by decide) rfl ..)
      (fun _ _ => rfl) (call_new .species 4 2) hm (fun p hp => by
        rcases h p hp with rfl | rfl
        · exact hv.1
        · exact hv.2)
  · exact List.Nodup.filter _ (by decide +kernel)
  · rw [List.mem_filter]
    have hd : ∀ i, (trajName i).head? ≠ some '.' := fun i => by simp [trajName]
    constructor
    · rintro ⟨h1, h2⟩
      refine ⟨h2, ?_⟩
      simp only [List.mem_cons, List.not_mem_nil, or_false] at h1
      rcases h1 with rfl | rfl <;> exact hd _
    · rintro ⟨h1, -⟩
      refine ⟨?_, h1⟩
      rcases (batch_made (a := args .species 4 2) (bound := 0) (fun _ _ => rfl) (call_new .species 4 2) hm).2.1 t h1 with ht | ⟨p, hp, rfl⟩
      · simp only [fs1, Fs.mkTraj, Function.update_apply] at ht
        split at ht
        · rename_i h; simp [h]
        · cases ht
      · have hp : p < 2 := hp
        rcases h p hp with rfl | rfl
        · exact List.mem_cons_self ..
        · exact List.mem_cons_of_mem _ (List.mem_cons_self ..)

theorem morris {fs : Fs ℕ ℕ Sol} {ds : List Str} (h : Batches (IsTraj net .species st solve) (args .species 4 2).cfg fs [path 4 0, path 4 1])
    (hl : Listing fs ds) :
    MorrisRun net st solve (args .species 4 2).cfg fs [path 4 0, path 4 1] ds ["e"] [0] fun _ _ => Y where
  reach := reach
  rated := rated
  two := by decide
  dim := rfl
  named := by decide +kernel
  runs := h
  trajs := by simp
  listing := hl
  someTime := by simp
  someOut := by simp
  value := fun t ht o ho _ _ _ _ => by
    rw [List.mem_singleton.1 ht, List.mem_singleton.1 ho]
    exact ⟨_, rfl, MorrisStats.Demo.const_result _ _⟩
  mean := by
    intro _ _ _ _
    have hp : ∀ v ∈ [path 4 0, path 4 1], ∀ x ∈ v.1 :: v.2.map Morris.Step.x, 0 ≤ rate3 (chemAt net .species st x) := by decide +kernel
    have hY : ∀ v ∈ [path 4 0, path 4 1], ∀ x ∈ v.1 :: v.2.map Morris.Step.x, 0 < Y (chemAt net .species st x) := by
      intro v hv x hx
      have : (0 : ℝ) ≤ (rate3 (chemAt net .species st x) : ℝ) := by exact_mod_cast hp v hv x hx
      unfold Y
      linarith
    refine lt_of_le_of_ne ?_ (Ne.symm (grandMean_pos (by simp) hY))
    unfold grandMean
    refine div_nonneg (List.sum_nonneg fun q hq => ?_) (by positivity)
    obtain ⟨v, hv, rfl⟩ := List.mem_map.1 hq
    refine div_nonneg (add_nonneg (hY v hv _ (List.mem_cons_self ..)).le (List.sum_nonneg fun a ha => ?_)) (by positivity)
    obtain ⟨s, hs, rfl⟩ := List.mem_map.1 ha
    exact (hY v hv _ (List.mem_cons_of_mem _ (List.mem_map_of_mem hs))).le

/-- the ions take no part in reaction 3 -/
theorem inert_ion {a : RP} (h : ¬ TakesPart a r3) : Inert net st ["e"] [0] (fun _ _ => Y) a := by
  intro _ _ _ _ lo hi e1
  have hm : r3 ∈ net.getReactions st false := by
    rw [show net.getReactions st false = net.reactions from rfl]
    simp [net, Morris.netRates, Plaschem.Demo.net, r3]
  simp only [Y, rate3, e1.others r3 hm h]

/-- Ar* does -/
theorem influential_ArX : Influential net st ["e"] [0] (fun _ _ => Y) [path 4 0, path 4 1] Plaschem.Demo.ArX := by
  refine ⟨0, by simp, "e", by simp, path 4 0, by simp, (path 4 0).2.take 3, (path 4 0).2[3]'(by decide +kernel), [], ?_, by decide +kernel, ?_⟩
  · rw [List.take_append_getElem]
    exact (List.take_of_length_le (by decide +kernel)).symm
  have : rate3 (chemAt net .species st ((path 4 0).2[3]'(by decide +kernel)).x) ≠
    rate3 (chemAt net .species st ((((path 4 0).2.take 3).map Morris.Step.x).getLastD (path 4 0).1)) := by decide +kernel
  simp only [Y]
  intro h
  exact this (by exact_mod_cast add_left_cancel h)

/-! ### the reduction -/

/-- The error is the number of species that are gone, one is allowed; Ar is important. -/
def cfg : Reduce.Cfg ℕ ℤ where
  net := net
  path := none
  hash := fun _ => none
  backend := fun _ c => .solved (net.getSpeciesName c false false true).length
  err := fun a b => some (some ((a : ℤ) - b))
  important := [str!"Ar"]
  maxErr := 1

/-- the state of the loop after at most `n` passes -/
def go (l : List (Str × Unit)) : ℕ → Loop ℕ ℤ Unit → Option (Loop ℕ ℤ Unit)
  | 0, s => some s
  | n + 1, s =>
    match pass cfg (.fixed l) (fun _ => true) 9 s with
    | .raise _ => none
    | .done t => some t
    | .next t => go l n t

/-- the species tried in four passes along a ranking -/
def tried (l : List Str) : Option (List (Option Str)) :=
  match initRed cfg st with
  | .error _ => none
  | .ok red =>
    match startLoop cfg (.fixed (l.map fun n => (n, ()))) red with
    | .error _ => none
    | .ok s => (go (l.map fun n => (n, ())) 4 s).map fun t => t.red.history.map Row.species

/-- in whatever order the species are listed, Ar* is tried -/
theorem tries_ArX : ∀ l ∈ [str!"Ar", str!"Ar+", str!"Ar++", str!"Ar*"].permutations',
    ∃ h, tried l = some h ∧ some str!"Ar*" ∈ h := by
  have : ∀ l ∈ [str!"Ar", str!"Ar+", str!"Ar++", str!"Ar*"].permutations',
    ((tried l).map fun h => decide (some str!"Ar*" ∈ h)) = some true := by decide +kernel
  intro l hl
  obtain ⟨h, h1, h2⟩ := Option.map_eq_some_iff.1 (this l hl)
  exact ⟨h, h1, by simpa using h2⟩

theorem go_visited {A : Type} (g : A → Unit) {l : List (Str × A)} {l' : List (Str × Unit)} {n : ℕ} {s : Loop ℕ ℤ A} {t : Loop ℕ ℤ Unit}
    (h : go l' n (s.rescore g) = some t) : ∃ u v, Relation.ReflTransGen (Goes cfg (.fixed l) (fun _ => true) 9) s u ∧
      (u = v ∨ pass cfg (.fixed l) (fun _ => true) 9 u = .done v) ∧ v.red = t.red := by
  induction n generalizing s with
  | zero =>
    simp only [go, Option.some.injEq] at h
    subst h
    exact ⟨s, s, .refl, .inl rfl, rfl⟩
  | succ n ih =>
    unfold go at h
    rw [Reduce.pass_rescore g (l := l)] at h
    cases hp : pass cfg (.fixed l) (fun _ => true) 9 s with
    | raise e => rw [hp] at h; cases h
    | done v =>
      rw [hp] at h
      simp only [Reduce.Pass.rescore, Option.some.injEq] at h
      subst h
      exact ⟨s, v, .refl, .inr hp, rfl⟩
    | next v =>
      rw [hp] at h
      obtain ⟨u, v', h1, h2, h3⟩ := ih h
      exact ⟨u, v', .head hp h1, h2, h3⟩

/-- a reduction along any ranking of the four species comes to Ar* -/
theorem visits {A : Type} {l : List (Str × A)} (hl : (l.map Prod.fst).Perm [str!"Ar", str!"Ar+", str!"Ar++", str!"Ar*"]) :
    ∃ t, Visited cfg (.fixed l) (fun _ => true) 9 st t ∧ ∃ pre row post, t.red.history = pre ++ row :: post ∧ row.species = some str!"Ar*" := by
  obtain ⟨h, h1, h2⟩ := tries_ArX _ (List.mem_permutations'.2 hl)
  unfold tried at h1
  cases hi : initRed cfg st with
  | error e => rw [hi] at h1; cases h1
  | ok red =>
    rw [hi] at h1
    simp only at h1
    cases hs : startLoop cfg (.fixed ((l.map Prod.fst).map fun n => (n, ()))) red with
    | error e => rw [hs] at h1; cases h1
    | ok s =>
      rw [hs] at h1
      obtain ⟨t, h3, rfl⟩ := Option.map_eq_some_iff.1 h1
      obtain ⟨row, hrow, hsp⟩ := List.mem_map.1 h2
      have hstart : ∃ s', startLoop cfg (.fixed l) red = .ok s' ∧ s'.rescore (fun _ => ()) = s := by
        unfold startLoop at hs ⊢
        split at hs
        · cases hs
        · rename_i hd
          rw [if_neg hd]
          split at hs
          · cases hs
          · rename_i red1 hb
            simp only [Except.ok.injEq] at hs
            subst hs
            exact ⟨_, rfl, by simp [Loop.rescore, Function.comp_def]⟩
      obtain ⟨s', hs', rfl⟩ := hstart
      obtain ⟨u, v, h4, h5, h6⟩ := go_visited _ (l := l) h3
      obtain ⟨pre, post, hpp⟩ := List.append_of_mem (h6 ▸ hrow)
      exact ⟨v, ⟨red, s', u, hi, hs', h4, h5⟩, pre, row, post, hpp, hsp⟩

theorem closed : cfg.net.RetClosed := by
  intro s hs
  exact Plaschem.Demo.net_retClosed s hs

theorem no_nan : NeverNan cfg st := by
  intro _ _ _ _ _ _ h
  simp [cfg] at h

/-- There is a run with a directory, its ranking exists, and a reduction along it comes to Ar*, which has influence. The ions are
eligible and have none; by `inert_first` they were tried before, or were gone. -/
example {sortValues : List (Label × Option ℝ) → List (Label × Option ℝ)} (hsort : SortOk sortValues) (method : MorrisStats.Method) :
    ∃ (fs : Fs ℕ ℕ Sol) (ds : List Str) (r : List (Label × Option ℝ)) (t : Loop ℕ ℤ (Option ℝ)) (pre post : List (Row ℕ ℤ)) (row : Row ℕ ℤ),
      MorrisRun net st solve (args .species 4 2).cfg fs [path 4 0, path 4 1] ds ["e"] [0] (fun _ _ => Y) ∧
      filesRanking fs ds ["e"] [0] method sortValues = .ok r ∧ Visited cfg (.fixed (series r)) (fun _ => true) 9 st t ∧
      t.red.history = pre ++ row :: post ∧ row.species = some str!"Ar*" ∧ Eligible cfg st str!"Ar*" ∧
      ∀ n ∈ [str!"Ar+", str!"Ar++"], Eligible cfg st n ∧ ((∃ x ∈ pre, x.species = some n) ∨
        ∃ l₁ acc l₂ cur file sol, pre = l₁ ++ acc :: l₂ ∧ Reduce.Accepted cfg acc ∧ (∀ r ∈ l₂, ¬ Reduce.Accepted cfg r) ∧
          acc.run = some (cur, file, sol) ∧ n ∉ names net cur) := by
  obtain ⟨fs, ds, hb, hl⟩ := runs_listed
  have hm := morris hb hl
  obtain ⟨r, score, h1, h2, h3, -⟩ := species_ranking hm method hsort
  have hperm : ((series r).map Prod.fst).Perm [str!"Ar", str!"Ar+", str!"Ar++", str!"Ar*"] := by
    rw [List.perm_ext_iff_of_nodup h2 (by decide)]
    intro m
    rw [h3]
    have : (net.getSpecies st false false true).map RP.name = [str!"Ar", str!"Ar+", str!"Ar++", str!"Ar*"] := by decide +kernel
    rw [← this, List.mem_map]
  obtain ⟨t, hv, pre, row, post, hh, hs⟩ := visits hperm
  have hr : ∀ a : RP, a ∈ net.getSpecies st false false true → ¬ TakesPart a r3 → Eligible cfg st a.name → _ := fun a ha hn he =>
    inert_first (cfg := cfg) hm hsort h1 closed (by decide) no_nan hv hh (b := Plaschem.Demo.ArX) hs influential_ArX ha (inert_ion hn) he
  have e1 : Eligible cfg st str!"Ar*" := ⟨by decide, Plaschem.Demo.ArX, by decide +kernel, rfl, by decide, by decide, by simp [State.Protected, st, Plaschem.Demo.st0, setMask, State.fresh]; decide⟩
  have e2 : Eligible cfg st str!"Ar+" := ⟨by decide, Plaschem.Demo.ArP, by decide +kernel, rfl, by decide, by decide, by simp [State.Protected, st, Plaschem.Demo.st0, setMask, State.fresh]; decide⟩
  have e3 : Eligible cfg st str!"Ar++" := ⟨by decide, Plaschem.Demo.ArPP, by decide +kernel, rfl, by decide, by decide, by simp [State.Protected, st, Plaschem.Demo.st0, setMask, State.fresh]; decide⟩
  refine ⟨fs, ds, r, t, pre, post, row, hm, h1, hv, hh, hs, e1, fun n hn => ?_⟩
  simp only [List.mem_cons, List.not_mem_nil, or_false] at hn
  rcases hn with rfl | rfl
  · exact ⟨e2, hr Plaschem.Demo.ArP (by decide +kernel) (by decide +kernel) e2⟩
  · exact ⟨e3, hr Plaschem.Demo.ArPP (by decide +kernel) (by decide +kernel) e3⟩

/-- a check that does what the code does with numbers; it is met, and it does refuse rankings -/
example : ∃ sorted : List (Str × Option ℝ) → Bool, Check sorted ∧ sorted [(str!"Ar", some 1), (str!"Ar+", some 0)] = false := by
  classical
  refine ⟨fun l => decide (l.Pairwise fun a b => scoreLe a.2 b.2), fun l _ h => by simpa using h, ?_⟩
  simp [scoreLe]

/-- sorting exists -/
theorem exists_sort : ∃ sortValues : List (Label × Option ℝ) → List (Label × Option ℝ), SortOk sortValues := by
  classical
  refine ⟨fun l => l.mergeSort fun a b => decide (scoreLe a.2 b.2), fun l => ⟨List.mergeSort_perm .., ?_⟩⟩
  have := List.pairwise_mergeSort (le := fun a b : Label × Option ℝ => decide (scoreLe a.2 b.2))
    (by
      rintro ⟨_, a⟩ ⟨_, b⟩ ⟨_, c⟩ h1 h2
      simp only [decide_eq_true_eq] at *
      cases a <;> cases b <;> cases c <;> simp_all [scoreLe]
      exact h1.trans h2)
    (by
      rintro ⟨_, a⟩ ⟨_, b⟩
      rw [Bool.or_eq_true, decide_eq_true_iff, decide_eq_true_iff]
      cases a with
      | none => exact .inr (by cases b <;> trivial)
      | some a =>
        cases b with
        | none => exact .inl trivial
        | some b => exact le_total a b) l
  exact this.imp fun h => by simpa using h

end Verif.Fwork.ReduceMorris.Demo
