/-
Properties C72, C73: concrete cases, and where the documentation of `get_surface_rates` is wrong.
-/
import Verif.Fwork.RatesProps

namespace Verif.Fwork.Rates
open Finset Verif.Plaschem Verif.Plaschem.Net Verif.Pygmol

open Classical in
/-- a sorter exists -/
noncomputable def mergeSorter (α : Type) : Sorter α (· ≥ ·) where
  sort l := l.mergeSort (fun a b => decide (a.2 ≥ b.2))
  perm l := List.mergeSort_perm _ _
  ordered l := by
    have := List.pairwise_mergeSort (le := fun a b : α × ℝ => decide (a.2 ≥ b.2))
      (fun a b c h1 h2 => by simp only [decide_eq_true_eq] at *; exact le_trans h2 h1)
      (fun a b => by simp only [Bool.or_eq_true, decide_eq_true_eq]; exact le_total _ _) l
    exact this.imp (fun h => by simpa using h)

theorem demo_reach : Reachable Demo.net Demo.stRet := .step _ Demo.reach0

theorem demo_labels : ∀ s ∈ Demo.net.getSpecies Demo.stRet false false true, s.name ≠ str!"t" := by
  decide +kernel

theorem demo_dict : ∀ d, Demo.net.getSpeciesRetCoefs Demo.stRet false false true = .ok d →
    ∀ i c, d.get? i = some (some c) → c.keys.Nodup := by
  intro d hd i c h
  have : d = [(1, some []), (2, some [(str!"Ar", 1), (str!"Ar*", 3)]), (3, some [(str!"Ar", 1)]),
       (4, some [(str!"Ar", 1)])] := by
    have e : Demo.net.getSpeciesRetCoefs Demo.stRet false false true = .ok
      [(1, some []), (2, some [(str!"Ar", 1), (str!"Ar*", 3)]), (3, some [(str!"Ar", 1)]),
       (4, some [(str!"Ar", 1)])] := rfl
    rw [e] at hd; cases hd; rfl
  subst this
  have hm := Dict.mem_of_get? h
  simp only [List.mem_cons, Prod.mk.injEq, List.not_mem_nil, or_false, Option.some.injEq] at hm
  rcases hm with ⟨-, rfl⟩ | ⟨-, rfl⟩ | ⟨-, rfl⟩ | ⟨-, rfl⟩ <;> decide

/-- the return matrix of the demo chemistry -/
def demoM : RetMat := match Demo.net.getReturnMatrix Demo.stRet false with
  | .ok M => M
  | .error _ => ⟨[], [], []⟩

theorem demoM_ok : Demo.net.getReturnMatrix Demo.stRet false = .ok demoM := rfl

/-- equations of the demo chemistry, any other data -/
noncomputable def demoD (D : Data (Demo.net.getSpecies Demo.stRet false false true).length
    (Demo.net.getReactions Demo.stRet false).length) :
    Data (Demo.net.getSpecies Demo.stRet false false true).length
    (Demo.net.getReactions Demo.stRet false).length :=
  { fromChem Demo.net Demo.stRet D with
    ret := fun i k => (demoM.entry (demoM.rows[i]'i.2) (demoM.cols[k]'k.2) : ℝ) }

/-- all hypotheses of `rates_add_up` hold for the demo chemistry with ad-hoc return coefficients -/
example (D : Data (Demo.net.getSpecies Demo.stRet false false true).length
    (Demo.net.getReactions Demo.stRet false).length) :
    Reachable Demo.net Demo.stRet ∧ Demo.net.RetClosed ∧ Reads (demoD D) ∧ ReadsWall (demoD D) ∧
    Demo.net.getRp (.name str!"Ar*") = .ok (spAt Demo.net Demo.stRet ⟨3, by decide⟩) ∧
    (demoD D).ret ⟨3, by decide⟩ ⟨1, by decide⟩ = 3 := by
  have h := reads_fromChem demo_reach rfl D
  refine ⟨demo_reach, Demo.net_retClosed, ⟨h.charge, h.netC, h.lhs, h.eNet, h.eLhs, h.mLhs⟩,
    ⟨demoM, demoM_ok, rfl, rfl, fun _ _ => rfl⟩, rfl, ?_⟩
  have : demoM.entry 4 2 = 3 := rfl
  show ((demoM.entry 4 2 : ℚ) : ℝ) = 3
  rw [this]; norm_num

/-- **C73, negative part.** After an ad-hoc return coefficient was set for a species that is disabled
afterwards, the surface rates of every other heavy species are refused, for every frame. -/
theorem surface_refused :
    let st := Demo.net.run Demo.st0 [.adhocRet (.id 4) [(str!"Ar", 1)], .disable [.id 4] []]
    Reachable Demo.net st ∧ st.enSp 1 = true ∧
    ∀ f : FluxFrame, f.keys.Nodup → ∀ radius length l, surface Demo.net st radius length (.id 1) f ≠ .ok l := by
  intro st
  have hr : Reachable Demo.net st := .step _ (.step _ Demo.reach0)
  refine ⟨hr, rfl, fun f hf radius length l h => ?_⟩
  obtain ⟨-, h2⟩ := surface_exact hr (s := Demo.Ar) rfl hf h
  obtain ⟨-, M, hM, -, -, hrows, -⟩ := h2 rfl
  have hM' : ∃ M', Demo.net.getReturnMatrix st false = .ok M' ∧ M'.rows = [1, 2, 3, 4] := ⟨_, rfl, rfl⟩
  obtain ⟨M', e, hR⟩ := hM'
  rw [hM] at e; cases e
  obtain ⟨t, ht, hid⟩ := (hrows 4).1 (by rw [hR]; simp)
  have : ∀ t ∈ Demo.net.getSpecies st false false true, t.id ≠ 4 := by decide +kernel
  exact this t ht hid

/-- the return matrix right after construction -/
def demoM0 : RetMat := match Demo.net.getReturnMatrix Demo.st0 false with
  | .ok M => M
  | .error _ => ⟨[], [], []⟩

/-- **C73, negative part.** The surface rates are not sorted, although the documentation says so. -/
theorem surface_not_sorted :
    ∃ f : FluxFrame, ∃ l, surface Demo.net Demo.st0 1 1 (.id 1) f = .ok l ∧
      ¬ l.Pairwise (fun a b => a.2 ≥ b.2) := by
  refine ⟨[(str!"Ar", 0), (str!"Ar+", -1), (str!"Ar++", -2), (str!"Ar*", 0)], _, rfl, fun hp => ?_⟩
  have hpi := Real.pi_pos
  have key : ∀ q : ℝ, q * (2 * Real.pi * 1 * (1 + 1)) / (Real.pi * 1 ^ 2 * 1) = 4 * q := by
    intro q; field_simp; ring
  have hsub : List.Sublist [((2 : Nat), (-1 : ℝ)), (3, -2)] [(1, 0), (2, -1), (3, -2), (4, 0)] :=
    .cons _ (.cons_cons _ (.cons_cons _ (.cons _ .slnil)))
  have := hp.sublist ((hsub.map _).filter _)
  simp only [List.map_cons, List.map_nil, key] at this
  have e2 : (demoM0.entry 1 2 : ℝ) = 1 := by
    have : demoM0.entry 1 2 = 1 := rfl
    rw [this]; norm_num
  have e3 : (demoM0.entry 1 3 : ℝ) = 1 := by
    have : demoM0.entry 1 3 = 1 := rfl
    rw [this]; norm_num
  have h4 : List.Pairwise (fun a b : Nat × ℝ => a.2 ≥ b.2) (List.filter (fun x => decide (x.2 ≠ 0))
      [(2, (if 2 = Demo.Ar.id then 4 * -1 else 0) + -((demoM0.entry 1 2 : ℝ) * (4 * -1))),
       (3, (if 3 = Demo.Ar.id then 4 * -2 else 0) + -((demoM0.entry 1 3 : ℝ) * (4 * -2)))]) := this
  rw [e2, e3, if_neg (by decide), if_neg (by decide), List.filter_cons_of_pos (by norm_num),
    List.filter_cons_of_pos (by norm_num)] at h4
  norm_num at h4

end Verif.Fwork.Rates
