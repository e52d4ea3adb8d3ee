/-
C114, continued: examples, and what a finished reduction does not promise.
-/
import Verif.Fwork.ReduceWhole
import Verif.Fwork.ReduceDiskDemo

namespace Verif.Fwork.ReduceWhole
open Verif.Plaschem Verif.Plaschem.Net Verif.Fwork.Reduce
open Verif.Fwork.ReduceDisk (Env Doc Op Line after lines runName)
open Verif.Fwork.Log (Path FS)

namespace Demo
open Verif.Plaschem.Demo

/-- two times, the electron temperature constant -/
noncomputable def sol (n : ℕ) : Sol where
  t := [0, 1]
  col := fun out => if out = "Te" then some [(n : ℝ) + 1, n + 1] else none

theorem sol_tabular (n : ℕ) : Tabular (sol n) := by
  refine ⟨by simp [sol], by simp [sol], fun out ys h => ?_⟩
  simp only [sol] at h
  split at h
  · cases h; rfl
  · cases h

theorem sol_value (n : ℕ) : ValueAt (sol n) "Te" 1 (n + 1) := by
  refine ⟨[(n : ℝ) + 1, n + 1], rfl, 0, 0, 1, n + 1, n + 1, rfl, rfl, rfl, rfl, by norm_num, by norm_num, le_refl _, by ring⟩

theorem sol_positive (n : ℕ) : Positive ["Te"] [1] (sol n) := by
  intro out ho
  obtain rfl := List.mem_singleton.1 ho
  refine ⟨fun t ht f hf => ?_, 1, by simp, n + 1, sol_value n, by positivity⟩
  obtain rfl := List.mem_singleton.1 ht
  rw [value_unique (sol_tabular n).increasing hf (sol_value n)]
  positivity

/-- the chemistry of `Reduce.Demo`, with an electron temperature that depends on the number of species, and errors up to 30 % -/
noncomputable def env : Env Sol ℝ Unit where
  cfg :=
    { net := net
      path := none
      hash := fun _ => none
      backend := fun _ c => .solved (sol (net.getSpeciesName c false false true).length)
      err := errOf ["Te"] [1]
      important := [str!"Te"]
      maxErr := 3 / 10 }
  parent := [str!"results"]
  id := str!"try1"
  info := ()
  same := fun _ _ => true
  cut := fun _ => none

/-- a disk with the directory `/results` -/
def disk : FS (Doc Sol ℝ Unit) := fun p => if p = [] ∨ p = [str!"results"] then some .dir else none

theorem disk_wf : disk.WF := by
  refine ⟨rfl, fun p c h => ?_⟩
  unfold disk at h
  split at h
  · rename_i hp
    rcases hp with hp | hp
    · exact absurd hp (by simp)
    · obtain ⟨rfl, -⟩ := List.append_inj' (s₁ := p) (s₂ := []) (t₁ := [c]) (t₂ := [str!"results"]) hp rfl
      rfl
  · exact absurd rfl h

theorem err_number (m n : ℕ) : ∃ e, errOf ["Te"] [1] (sol m) (sol n) = some (some e) := by
  have hv : ∀ n, (sol n).Valid ["Te"] [1] := by
    intro n
    refine ⟨by simp [sol], by simp [sol], fun o ho => ?_, fun x hx => ?_⟩
    · obtain rfl := List.mem_singleton.1 ho
      exact ⟨_, rfl, rfl⟩
    · obtain rfl := List.mem_singleton.1 hx
      exact ⟨0, 1, rfl, rfl, by norm_num, le_refl _⟩
  obtain ⟨errs, he, hne⟩ := errors_exist (hv m) (hv n) (out := "Te") (by simp)
    ⟨fun t ht v h => (sol_positive m "Te" (by simp)).1 t ht v ((value_iff (sol_tabular m)).1 h),
      1, by simp, m + 1, (value_iff (sol_tabular m)).2 (sol_value m), by positivity⟩
  unfold errOf errorMax
  obtain ⟨x, hx⟩ := maxOf_exists (l := errs.map fun x => |x|) (by simpa using hne)
  have : outputErrorMax (sol m) (sol n) [1] "Te" = .ok x := by
    unfold outputErrorMax
    rw [he]
    exact hx
  exact ⟨x, by simp [mapE, this, maxOf]⟩

open Verif.Fwork.Reduce.Demo (ranking) in
/-- Its reduction ends, and all the hypotheses of `reduced_model` are met. -/
example : ∃ made red0 ops t, ReduceDisk.init env disk st0 = (made, .ok red0) ∧
    ReduceDisk.RunsReduction env ranking (fun _ => true) 0 (after disk made) red0 ops (.ok t) ∧
    ∃ table k line x st file full red, Promise env (after disk (made ++ ops)) st0 ["Te"] [1] table k line x st file full red := by
  have hnames : ∀ x ∈ env.cfg.net.species, '/' ∉ x.name := by decide +kernel
  have hnew : disk env.dir = none := by decide +kernel
  obtain ⟨made, e1, -, -⟩ := ReduceDisk.init_spec (E := env) disk_wf rfl hnew hnames st0
  obtain ⟨red, h1⟩ : ∃ red, initRed env.abs st0 = .ok red := ⟨_, rfl⟩
  have hi : ReduceDisk.init env disk st0 = (made, .ok red) := by
    rw [e1, h1]; rfl
  obtain ⟨ops, r, hr⟩ := ReduceDisk.reduction_on_disk_ends (E := env) rfl disk_wf rfl hnew hnames hi ranking (fun _ => true) 0
  obtain ⟨-, r', hr', q1, q2, q3⟩ := ReduceDisk.reduction_on_disk (E := env) rfl disk_wf rfl hnew hnames hi hr
  have hmax : (0 : ℝ) ≤ env.cfg.maxErr := by show (0 : ℝ) ≤ 3 / 10; norm_num
  have hok : ∃ t, r' = .ok t := by
    unfold Reduce.RunsReduction at q1
    obtain ⟨l, h2⟩ : ∃ l, Reduce.startLoop env.abs ranking red = .ok l := by
      cases h1
      exact ⟨_, rfl⟩
    rw [h2] at q1
    obtain ⟨x, hx, rfl⟩ := q1
    cases x with
    | ok t => exact ⟨_, rfl⟩
    | error e =>
      obtain ⟨-, c, c', sp, n, -, -, hn, hc, -⟩ := loop_raises_only (cfg := env.abs) reach0 net_retClosed hmax
        (fun i c a ha j d b hb => by cases ha; cases hb; exact err_number _ _) (fun i c h => nomatch h) (fun _ => rfl)
        (by intro f hf; cases hf) rfl h1 h2 hx
      obtain ⟨s, hs, hsn, -⟩ := mem_names.1 hc
      obtain rfl := List.mem_singleton.1 hn
      exact absurd hsn ((by decide +kernel : ∀ s ∈ net.species, s.name ≠ str!"Te") s hs)
  obtain ⟨t, rfl⟩ := hok
  cases hr'
  refine ⟨made, red, ops, t, hi, hr, reduced_model (E := env) rfl disk_wf rfl hnew hnames hi hr reach0 net_retClosed hmax
    rfl rfl ?_ ?_⟩
  · intro i c s hs
    cases hs
    exact sol_tabular _
  · intro base hb
    cases hb
    exact sol_positive _

open Verif.Fwork.Reduce.Demo (cfg report of_report)

/-- all species that may be removed -/
def ranking3 : Ranking ℕ := .fixed [(str!"Ar*", 0), (str!"Ar++", 1), (str!"Ar+", 2)]

/-- Ar* goes; the others are tried in vain. -/
theorem report3 : report cfg ranking3 3 10 st0 =
    ⟨none, [⟨none, true, some 0⟩, ⟨some str!"Ar*", true, some 1⟩, ⟨some str!"Ar++", true, some 2⟩, ⟨some str!"Ar+", false, none⟩],
      {str!"Ar", str!"Ar+", str!"Ar++"}, 1⟩ := by decide +kernel

theorem eligible3 {n : Str} (h : Eligible cfg st0 n) : n ∈ ({str!"Ar*", str!"Ar++", str!"Ar+"} : Finset Str) := by
  obtain ⟨hi, s, hs, rfl, -, hsp, -⟩ := h
  revert hi hsp
  revert s
  decide +kernel

/-- The hypotheses of `nothing_left_out` and `as_one_call` are met by this reduction; Ar++ is one of the species that stay. -/
example : ∃ red l t, initRed cfg st0 = .ok red ∧ startLoop cfg ranking3 red = .ok l ∧ Runs cfg ranking3 (fun _ => true) 3 l (.ok t) ∧
    (∀ k c rl, InForce ranking3 k c rl → ∀ n, Eligible cfg st0 n → n ∈ names cfg.net c → ∃ e ∈ rl, e.1 = n) ∧
    ({str!"Ar*", str!"Ar++", str!"Ar+"} : Finset Str).card ≤ 3 ∧
    (∃ x ∈ t.red.history, x.species = some str!"Ar++" ∧ (x.success = false ∨ Rejected cfg x)) ∧
    ∃ c, cfg.net.disable st0 [.name str!"Ar*"] [] = (c, none) ∧
      (∀ s ∈ cfg.net.species, c.enSp s.id = t.red.chem.enSp s.id) ∧
      (∀ r ∈ cfg.net.reactions, c.enR r.id = t.red.chem.enR r.id) := by
  obtain ⟨red, l, t, h1, h2, h3, h4, h5, -⟩ := of_report report3 rfl
  have hnan : NeverNan cfg st0 := by intro a _ i c b _ h; cases h
  have hv : Visited cfg ranking3 (fun _ => true) 3 st0 t := by
    obtain ⟨s, h6, ⟨t', ht, h7⟩ | ⟨e, he, -⟩⟩ := goes_of_runs h3
    · cases ht
      exact ⟨red, l, s, h1, h2, h6, .inr h7⟩
    · cases he
  have hrank : ∀ k c rl, InForce ranking3 k c rl → ∀ n, Eligible cfg st0 n → n ∈ names cfg.net c → ∃ e ∈ rl, e.1 = n := by
    rintro k c rl (h | ⟨f, h, -⟩) n he -
    · cases h
      have := eligible3 he
      simp only [Finset.mem_insert, Finset.mem_singleton] at this
      rcases this with rfl | rfl | rfl <;> simp
    · cases h
  refine ⟨red, l, t, h1, h2, h3, hrank, by decide, ?_, ?_⟩
  · refine nothing_left_out reach0 net_retClosed (by decide) hnan h1 h2 h3 (fun a _ _ c _ _ rl _ _ _ _ => hrank _ c rl) (fun n => eligible3) (by decide) ?_ ?_
    · refine ⟨by decide, ArPP, by decide +kernel, rfl, rfl, rfl, ?_⟩
      rintro (h | h) <;> cases h
    · rw [h5]; decide
  · refine as_one_call reach0 net_retClosed (by decide) hnan hv (l := [str!"Ar*"]) ?_
    intro n
    have hrows : ∀ x ∈ t.red.history, (⟨x.species, x.success, x.errBase⟩ : Reduce.Demo.Line) ∈
        [(⟨none, true, some 0⟩ : Reduce.Demo.Line), ⟨some str!"Ar*", true, some 1⟩, ⟨some str!"Ar++", true, some 2⟩,
          ⟨some str!"Ar+", false, none⟩] := by
      intro x hx
      have := List.mem_map_of_mem (f := fun r : Row ℕ ℤ => (⟨r.species, r.success, r.errBase⟩ : Reduce.Demo.Line)) hx
      rw [h4] at this
      exact this
    constructor
    · intro hn
      obtain rfl := List.mem_singleton.1 hn
      have : (⟨some str!"Ar*", true, some 1⟩ : Reduce.Demo.Line) ∈
          t.red.history.map (fun r => (⟨r.species, r.success, r.errBase⟩ : Reduce.Demo.Line)) := by rw [h4]; simp
      obtain ⟨x, hx, he⟩ := List.mem_map.1 this
      cases x with
      | mk a b c d e f g h =>
        simp only [Reduce.Demo.Line.mk.injEq] at he
        obtain ⟨rfl, rfl, rfl⟩ := he
        exact ⟨_, hx, ⟨rfl, 1, rfl, by decide⟩, rfl⟩
    · rintro ⟨x, hx, ⟨-, e, he, hle⟩, hs⟩
      have := hrows x hx
      rw [hs, he] at this
      simp only [List.mem_cons, Reduce.Demo.Line.mk.injEq, Option.some.injEq, reduceCtorEq, false_and, false_or, List.not_mem_nil,
        or_false, and_false] at this
      have hle' : e ≤ 1 := hle
      rcases this with ⟨rfl, -, rfl⟩ | ⟨rfl, -, rfl⟩
      · simp
      · exact absurd hle' (by decide)

/-- Without Ar* the result is right only if Ar++ is gone as well. -/
def cfg2 : Cfg ℕ ℤ :=
  { cfg with
    backend := fun _ c => .solved (if str!"Ar*" ∈ names cfg.net c then 0 else if str!"Ar++" ∈ names cfg.net c then 2 else 0)
    err := fun a b => some (some ((b : ℤ) - a)) }

/-- **Finding.** Each species is tried once only, at the time its turn comes: Ar* is rejected as long as Ar++ is there; Ar++
is then removed, and Ar* stays, although the chemistry without it is now as good as the full one. So with every species tried the
reduced chemistry need not be one from which no further species can be removed. -/
theorem not_minimal :
    report cfg2 ranking3 3 10 st0 =
      ⟨none, [⟨none, true, some 0⟩, ⟨some str!"Ar*", true, some 2⟩, ⟨some str!"Ar++", true, some 0⟩, ⟨some str!"Ar+", false, none⟩],
        {str!"Ar", str!"Ar+", str!"Ar*"}, 0⟩ ∧
    ∃ c, cfg2.net.disable st0 [.name str!"Ar++", .name str!"Ar*"] [] = (c, none) ∧
      names cfg2.net c = {str!"Ar", str!"Ar+"} ∧ cfg2.backend 4 c = .solved 0 ∧ cfg2.backend 0 st0 = .solved 0 ∧
      cfg2.err 0 0 = some (some 0) := by
  refine ⟨by decide +kernel, (cfg2.net.disable st0 [.name str!"Ar++", .name str!"Ar*"] []).1, ?_, ?_, ?_, ?_, rfl⟩
  · exact Prod.ext rfl (by decide +kernel)
  · decide +kernel
  · unfold cfg2; simp only; rw [if_neg (by decide +kernel), if_neg (by decide +kernel)]
  · unfold cfg2; simp only; rw [if_pos (by decide +kernel)]

end Demo

end Verif.Fwork.ReduceWhole
