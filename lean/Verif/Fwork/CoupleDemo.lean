/-
C92: a concrete chemistry, and a finding.
-/
import Verif.Fwork.CoupleChem

namespace Verif.Fwork.CoupleInit
open Verif.Plaschem Verif.Plaschem.Net Verif.Fwork.Rates
open Verif.Fwork.Morris (PyDicts)

/-- **C92.** Finding: once a species with ad-hoc return coefficients is disabled, no graph of the chemistry can be built,
whatever the frames. -/
theorem disabled_adhoc_refused {net : Net} {st : State} (h : Reachable net st) (hcl : net.RetClosed) (hpy : PyDicts net st)
    {s : RP} (hs : s ∈ net.species) (hk : s.id ∈ st.adRet.keys) (hd : st.enSp s.id = false) (radius length : ℝ)
    (F : Frame Lab) (W : Frame Str) : ∀ C, init net st radius length F W ≠ .ok C := by
  intro C hC
  obtain ⟨u, hu, he, hen⟩ := ((accepted_iff h hcl hpy radius length F W).1 ⟨C, hC⟩).adhoc _ hk
  rw [he, hd] at hen
  cases hen

namespace Demo

theorem pyDicts {st : State} (h : ∀ e ∈ st.adRet, e.2.keys.Nodup) : PyDicts Verif.Plaschem.Demo.net st := by
  refine ⟨?_, h⟩
  intro s hs c hc
  simp only [Verif.Plaschem.Demo.net, List.mem_cons, List.not_mem_nil, or_false] at hs
  rcases hs with rfl | rfl | rfl | rfl | rfl | rfl <;> cases hc <;> simp [Dict.keys]

/-- rates at two times: reaction `i` has rate `i`, then twice that -/
noncomputable def F : Frame Lab where
  cols := .t :: [1, 2, 3, 4, 5].map Lab.id
  rows := [fun l => match l with | .id i => i | _ => 0, fun l => match l with | .t => 1 | .id i => 2 * i | .name _ => 0]

/-- no fluxes to the wall -/
noncomputable def W : Frame Str where
  cols := [str!"t", str!"Ar", str!"Ar+", str!"Ar++", str!"Ar*"]
  rows := [fun _ => 0, fun n => if n = str!"t" then 1 else 0]

theorem matching : Matching Verif.Plaschem.Demo.net Verif.Plaschem.Demo.st0 F W where
  rates := rfl
  fluxes := rfl
  times := by simp [F, W]
  adhoc := by intro i hi; cases hi

/-- the constructor accepts these frames -/
theorem accepted : ∃ C, init Verif.Plaschem.Demo.net Verif.Plaschem.Demo.st0 1 2 F W = .ok C :=
  (accepted_iff Verif.Plaschem.Demo.reach0 Verif.Plaschem.Demo.net_retClosed (pyDicts (by intro e he; cases he)) 1 2 F W).2
    matching

theorem rates_nonneg : ∀ f ∈ F.rows, ∀ r ∈ Verif.Plaschem.Demo.net.getReactions Verif.Plaschem.Demo.st0 false,
    0 ≤ f (.id r.id) := by
  intro f hf r _
  simp only [F, List.mem_cons, List.not_mem_nil, or_false] at hf
  rcases hf with rfl | rfl <;> simp

/-- `chemistry_weights` on the frames: of the turnover 1 + 3 + 4 of Ar the reactions with Ar* make up 3 + 4. -/
example : ∃ C Gs, init Verif.Plaschem.Demo.net Verif.Plaschem.Demo.st0 1 2 F W = .ok C ∧
    C.distributeWeights .drg true = .ok Gs ∧ ∃ G, Gs[0]? = some G ∧ HasEdge G str!"Ar*" str!"Ar" (7 / 8) := by
  obtain ⟨C, hC⟩ := accepted
  obtain ⟨Gs, e, hlen, H⟩ := chemistry_weights Verif.Plaschem.Demo.reach0 Verif.Plaschem.Demo.net_retClosed
    (pyDicts (by intro e he; cases he)) hC rates_nonneg
  have h0 : 0 < Gs.length := by rw [hlen]; decide
  refine ⟨C, Gs, hC, e, Gs[0], List.getElem?_eq_getElem h0, ?_⟩
  have key := H 0 Gs[0] _ _ (List.getElem?_eq_getElem h0) rfl rfl Verif.Plaschem.Demo.ArX (by decide +kernel)
    Verif.Plaschem.Demo.Ar (by decide +kernel) (by decide +kernel) 7 8
  have hwall : ∀ c, wall Verif.Plaschem.Demo.st0 1 2 (fun _ => 0) c Verif.Plaschem.Demo.Ar = 0 := by
    intro c
    unfold wall
    split
    · rfl
    · simp
  have hf : (Verif.Plaschem.Demo.net.getReactions Verif.Plaschem.Demo.st0 false).filter (fun r =>
      Verif.Plaschem.Demo.ArX ∈ r.reactants ∨ Verif.Plaschem.Demo.ArX ∈ r.products) =
      [Verif.Plaschem.Demo.r3, Verif.Plaschem.Demo.r4] := by decide +kernel
  have hg : Verif.Plaschem.Demo.net.getReactions Verif.Plaschem.Demo.st0 false = Verif.Plaschem.Demo.net.reactions := rfl
  have ht : ∀ (f : Lab → ℝ) (r : Reaction) (x y : ℕ), r.products.count Verif.Plaschem.Demo.Ar = x →
      r.reactants.count Verif.Plaschem.Demo.Ar = y →
      turnover f Verif.Plaschem.Demo.Ar r = |(x : ℝ) - y| * f (.id r.id) := by
    rintro f r _ _ rfl rfl
    rfl
  refine ((key ?_ ?_).2 (by norm_num)).1
  · rw [hwall, hf]
    simp only [List.map_cons, List.map_nil, List.sum_cons, List.sum_nil]
    rw [ht _ Verif.Plaschem.Demo.r3 0 1 (by decide +kernel) (by decide +kernel),
      ht _ Verif.Plaschem.Demo.r4 1 0 (by decide +kernel) (by decide +kernel)]
    norm_num [Verif.Plaschem.Demo.r3, Verif.Plaschem.Demo.r4]
  · simp only [hwall]
    rw [hg, Verif.Plaschem.Demo.net]
    simp only [List.map_cons, List.map_nil, List.sum_cons, List.sum_nil]
    rw [ht _ Verif.Plaschem.Demo.r1 0 1 (by decide +kernel) (by decide +kernel),
      ht _ Verif.Plaschem.Demo.r2 0 0 (by decide +kernel) (by decide +kernel),
      ht _ Verif.Plaschem.Demo.r3 0 1 (by decide +kernel) (by decide +kernel),
      ht _ Verif.Plaschem.Demo.r4 1 0 (by decide +kernel) (by decide +kernel),
      ht _ Verif.Plaschem.Demo.r5 0 0 (by decide +kernel) (by decide +kernel)]
    norm_num [Verif.Plaschem.Demo.r1, Verif.Plaschem.Demo.r3, Verif.Plaschem.Demo.r4]

/-- a species that can be ranked, so that `chemistry_ranking` applies with Ar as the target; the iteration order and the sort
exist for any chemistry -/
example : (∃ s ∈ Verif.Plaschem.Demo.net.species, Verif.Plaschem.Demo.st0.enSp s.id = true ∧ s.isSpecial = false ∧
    s.name ∉ [str!"Ar"]) ∧ F.rows ≠ [] ∧ IterOk (fun s : Finset Str => s.sort (· ≤ ·)) ∧
    ∃ sortValues : List (Str × Score) → List (Str × Score), SortOk sortValues := by
  refine ⟨by decide +kernel, by simp [F], fun s => ⟨Finset.sort_nodup .., fun v => Finset.mem_sort _⟩, ?_⟩
  classical
  refine ⟨fun l => l.mergeSort fun a b => decide (scoreLe a.2 b.2), fun l => ⟨List.mergeSort_perm .., ?_⟩⟩
  have := List.pairwise_mergeSort (le := fun a b : Str × Score => decide (scoreLe a.2 b.2))
    (by
      rintro ⟨_, a⟩ ⟨_, b⟩ ⟨_, c⟩ h1 h2
      simp only [decide_eq_true_eq] at *
      cases a <;> cases b <;> cases c <;> simp_all [scoreLe]
      exact h1.trans h2)
    (by
      rintro ⟨_, a⟩ ⟨_, b⟩
      rw [Bool.or_eq_true, decide_eq_true_iff, decide_eq_true_iff]
      cases a with
      | none => exact .inr (by cases b <;> trivial)
      | some a =>
        cases b with
        | none => exact .inl trivial
        | some b => exact le_total a b) l
  exact this.imp fun h => by simpa using h

/-- Ar* gets ad-hoc return coefficients and is then disabled -/
def stOff : State := Verif.Plaschem.Demo.net.run Verif.Plaschem.Demo.st0
  [.adhocRet (.id 4) [(str!"Ar", 1)], .disable [.id 4] []]

/-- the hypotheses of `disabled_adhoc_refused` are met -/
example (radius length : ℝ) (G : Frame Lab) (V : Frame Str) :
    ∀ C, init Verif.Plaschem.Demo.net stOff radius length G V ≠ .ok C :=
  disabled_adhoc_refused (s := Verif.Plaschem.Demo.ArX) (Reachable.run Verif.Plaschem.Demo.reach0 _)
    Verif.Plaschem.Demo.net_retClosed
    (pyDicts (by
      intro e he
      have : stOff.adRet = [(4, [(str!"Ar", 1)])] := rfl
      rw [show (Verif.Plaschem.Demo.net.run Verif.Plaschem.Demo.st0 _).adRet = _ from this, List.mem_singleton] at he
      subst he
      decide)) (by decide +kernel) (by decide +kernel) (by decide +kernel) radius length G V

/-- a frame with the columns in another order is refused -/
example : ∃ e, init Verif.Plaschem.Demo.net Verif.Plaschem.Demo.st0 1 2 { F with cols := F.cols.reverse } W = .error e := by
  cases h : init Verif.Plaschem.Demo.net Verif.Plaschem.Demo.st0 1 2 { F with cols := F.cols.reverse } W with
  | error e => exact ⟨e, rfl⟩
  | ok C =>
    have := ((accepted_iff Verif.Plaschem.Demo.reach0 Verif.Plaschem.Demo.net_retClosed
      (pyDicts (by intro e he; cases he)) 1 2 _ W).1 ⟨C, h⟩).rates
    exact absurd this (by decide +kernel)

end Demo
end Verif.Fwork.CoupleInit
