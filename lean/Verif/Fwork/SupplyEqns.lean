/-
Property C129 for chemistries and model parameters.
-/
import Verif.Pygmol.Supply
import Verif.Fwork.DependEqns

namespace Verif.Fwork.MorrisEqns
open Finset Verif.Plaschem Verif.Plaschem.Net Verif.Pygmol
open Verif.Fwork.GraphRun (ns nr)
open Verif.Fwork.Morris (PyDicts)
open Verif.Fwork.ReducedEqns Verif.Fwork.AdhocEqns

variable {net : Net} {st : State} {X : RP → Extra} {P : ReducedEqns.Params}

/-- only the feed flows and the power depend on these parameters -/
theorem data_supply (hr : Reachable net st) (hcl : net.RetClosed) (hpy : PyDicts net st) {F : Dict Str ℝ} {p : ℝ → ℝ}
    {D D' : Data (ns net st) (nr net st)} (hD : ReadsAll X P D) (hD' : ReadsAll X { P with feeds := F, power := p } D') :
    D' = D.withSupply D'.feed p := by
  have h : ReadsAll X P ({ D' with feed := D.feed, power := D.power } : Data (ns net st) (nr net st)) :=
    ⟨⟨hD'.coefs.charge, hD'.coefs.netC, hD'.coefs.lhs, hD'.coefs.eNet, hD'.coefs.eLhs, hD'.coefs.mLhs⟩, ⟨hD'.wall.ret⟩, hD'.mass,
      hD'.lj, hD'.stick, hD'.arrhA, hD'.arrhB, hD'.arrhC, hD'.enLoss, hD'.elastic, hD.feed, hD'.consts, hD'.tempG, hD'.radius,
      hD'.length, hD'.p0, hD.power, hD'.flux⟩
  have e := reads_unique hr hcl hpy hD h
  have hp : D'.power = p := hD'.power
  rw [← e, ← hp]
  rfl

theorem feed_of (hr : Reachable net st) (hcl : net.RetClosed) (hpy : PyDicts net st) {F : Dict Str ℝ} {p : ℝ → ℝ}
    {D D' : Data (ns net st) (nr net st)} (hD : ReadsAll X P D) (hD' : ReadsAll X { P with feeds := F, power := p } D')
    (i : Fin (ns net st)) : ∃ n, D.feed i = (P.feeds.get? n).getD 0 ∧ D'.feed i = (F.get? n).getD 0 := by
  obtain ⟨d, hd, h⟩ := hD.feed
  obtain ⟨d', hd', h'⟩ := hD'.feed
  rw [hd] at hd'
  cases hd'
  obtain ⟨n, hn, e⟩ := h i
  obtain ⟨n', hn', e'⟩ := h' i
  have : n' = n := by
    unfold At at hn hn'
    rw [hn] at hn'
    exact (Option.some.inj hn').symm
  exact ⟨n, e, this ▸ e'⟩

/-- **C129.** If a run reaches its end, so does every run of the same chemistry with the same parameters but for feed flows and powers
that differ by little, and at all times it differs from the first by at most a constant times the largest of these differences. A feed that
is not named is zero; the powers `a`, `b` are given at the times `times`. -/
theorem supply_stable (hr : Reachable net st) (hcl : net.RetClosed) (hpy : PyDicts net st) {D : Data (ns net st) (nr net st)}
    (hD : ReadsAll X P D) (hph : D.Physical) {times a : List ℝ} (hts : times.Pairwise (· < ·)) (hpow : P.power = powerExt times a) {T : ℝ}
    (hT : 0 < T) {y : ℝ → Y (ns net st)} (hy : D.Solves T y) (hdef : ∀ t ∈ Set.Icc 0 T, D.Defined (y t)) :
    ∃ L > (0 : ℝ), ∃ δ > (0 : ℝ), ∀ d ∈ Set.Ioc 0 δ, ∀ (F : Dict Str ℝ) (b : List ℝ), (∀ n, 0 ≤ (F.get? n).getD 0) →
      (∀ n, |(F.get? n).getD 0 - (P.feeds.get? n).getD 0| ≤ d) → List.Forall₂ (fun x x' => |x' - x| ≤ d) a b →
      ∀ D' : Data (ns net st) (nr net st), ReadsAll X { P with feeds := F, power := powerExt times b } D' →
      ∃ z, z 0 = y 0 ∧ D'.Solves T z ∧ ∀ t ∈ Set.Icc 0 T, D'.Defined (z t) ∧ Data.Within (L * d) (y t) (z t) := by
  have hc : ∀ b : List ℝ, Continuous (powerExt times b) := fun b => interp_continuous (by
    clear hpow
    induction times generalizing b with
    | nil => simp
    | cons t times ih =>
      cases b with
      | nil => simp
      | cons v b =>
        rw [List.zip_cons_cons, List.pairwise_cons]
        exact ⟨fun q hq => (List.pairwise_cons.1 hts).1 _ (List.of_mem_zip hq).1, ih (List.pairwise_cons.1 hts).2 b⟩)
  have hDp : D.power = powerExt times a := hD.power.trans hpow
  obtain ⟨L, hL, δ, hδ, key⟩ := Data.supply_stable hph hT (hDp ▸ (hc a).continuousOn) hy hdef
  refine ⟨L, hL, δ, hδ, fun d hd F b hF hFd hb D' hD' => ?_⟩
  have e := data_supply hr hcl hpy hD hD'
  obtain ⟨z, hz0, hz, hnear⟩ := key d hd D'.feed (powerExt times b) (fun i => by
      obtain ⟨n, -, h⟩ := feed_of hr hcl hpy hD hD' i
      rw [h]; exact hF n)
    (fun i => by
      obtain ⟨n, h, h'⟩ := feed_of hr hcl hpy hD hD' i
      rw [h, h']; exact hFd n) (hc b).continuousOn
    (fun t _ => by rw [hDp]; exact powerExt_near hd.1.le (hts.imp le_of_lt) hb t)
  refine ⟨z, hz0, by rw [e]; exact hz, fun t ht => ⟨?_, (hnear t ht).2⟩⟩
  rw [e]
  exact Data.withSupply_defined.2 (hnear t ht).1

end Verif.Fwork.MorrisEqns

namespace Verif.Fwork.MorrisEqns.Demo
open Finset Verif.Plaschem Verif.Plaschem.Net Verif.Pygmol
open Verif.Fwork.GraphRun (ns nr)
open Verif.Fwork.ReducedEqns
open Verif.Fwork.PhysEqns.Demo (X)

/-- a little more argon, a little less power -/
noncomputable abbrev near (C : Consts) (d : ℝ) : ReducedEqns.Params :=
  { P C with feeds := [(str!"Ar", 20 + d)], power := powerExt Pygmol.Demo.params.time [0, 500 - d] }

/-- the hypotheses of `supply_stable` are met -/
example (C : Consts) : ∃ T ∈ Set.Ioc 0 Pygmol.Demo.params.tEnd, ∃ y, (D C).Solves T y ∧ y 0 = y0 ∧
    ∃ L > (0 : ℝ), ∃ δ > (0 : ℝ), ∀ d ∈ Set.Ioc 0 δ, ∃ z, z 0 = y0 ∧ (construct net st X (near C d)).Solves T z ∧
      ∀ t ∈ Set.Icc 0 T, Data.Within (L * d) (y t) (z t) := by
  obtain ⟨T, hT, y, h1, h2, h3, -⟩ := develops C
  obtain ⟨L, hL, δ, hδ, key⟩ := supply_stable reach retClosed pyDicts (reads C) (physical C) (times := Pygmol.Demo.params.time)
    (a := Pygmol.Demo.params.power) (by simp [Pygmol.Demo.params]) rfl hT.1 h1 h3
  refine ⟨T, hT, y, h1, h2, L, hL, δ, hδ, fun d hd => ?_⟩
  have hd0 : 0 < d := hd.1
  have hfeeds : (P C).feeds = [(str!"Ar", 20)] := rfl
  obtain ⟨z, hz0, hz, hn⟩ := key d hd [(str!"Ar", 20 + d)] [0, 500 - d] (fun n => by
      by_cases h : str!"Ar" = n
      · simp [Dict.get?, h]; linarith
      · simp [Dict.get?, h])
    (fun n => by
      rw [hfeeds]
      by_cases h : str!"Ar" = n
      · simp [Dict.get?, h, abs_of_pos hd0]
      · simp [Dict.get?, h, hd0.le])
    (.cons (by simpa using hd0.le) (.cons (by simp [abs_of_pos hd0]) .nil)) _ (readsAll_construct reach rfl defined (near C d))
  exact ⟨z, hz0.trans h2, hz, fun t ht => (hn t ht).2⟩

end Verif.Fwork.MorrisEqns.Demo

namespace Verif.Pygmol.TimeDemo

/-- the hypotheses of `Data.supply_stable` are met -/
example : ∃ L > (0 : ℝ), ∃ δ > (0 : ℝ), ∀ d ∈ Set.Ioc 0 δ, ∀ (F : Fin 3 → ℝ) (p : ℝ → ℝ), (∀ i, 0 ≤ F i) → (∀ i, |F i - swap.feed i| ≤ d) →
    ContinuousOn p (Set.Icc 0 7) → (∀ t ∈ Set.Icc (0 : ℝ) 7, |p t - swap.power t| ≤ d) →
    ∃ z, z 0 = sol 0 ∧ (swap.withSupply F p).Solves 7 z ∧ ∀ t ∈ Set.Icc (0 : ℝ) 7, swap.Defined (z t) ∧ Data.Within (L * d) (sol t) (z t) :=
  Data.supply_stable physical (by norm_num) continuousOn_const solves fun t _ => sol_defined t

end Verif.Pygmol.TimeDemo
