/-
C17: the stored form of a species with its units and strings (Xml.lean) and the abstract species of the other modules
(Species.lean) answer the same questions alike; in particular the surface coefficients have the same defaults.
-/
import Verif.Plaschem.XmlDemo
import Verif.Plaschem.ReactProps2

namespace Verif.Plaschem.Xml
open Verif.Plaschem

variable {F : Type}

private theorem core_parts {C : Codec F} {oid : Nat} {rp : Rp F} {s : RP} (h : rp.core C oid = .ok s) :
    rp.getName C = .ok s.name ∧ s.state = (rp.attr str!"state").optText C ∧
    s.stateless = (rp.attr str!"stateless").optText C ∧ s.stickCoef = none ∧ s.retCoefs = none ∧
    (s.name ≠ str!"M" → (rp.attr str!"charge").intOr C none = .ok s.charge) := by
  unfold Rp.core at h
  cases hn : rp.getName C with
  | error e => rw [hn] at h; cases h
  | ok n =>
    rw [hn] at h
    change ((if n = str!"M" then Except.ok none else (rp.attr str!"charge").intOr C none) >>= _) = _ at h
    by_cases hM : n = str!"M"
    · rw [if_pos hM] at h
      cases h
      exact ⟨rfl, rfl, rfl, rfl, rfl, fun hne => absurd hM hne⟩
    · rw [if_neg hM] at h
      cases hc : (rp.attr str!"charge").intOr C none with
      | error e => rw [hc] at h; cases h
      | ok c =>
        rw [hc] at h
        cases h
        exact ⟨rfl, rfl, rfl, rfl, rfl, fun _ => rfl⟩

private theorem intOr_ne {C : Codec F} {v : Val F} (d : Option Int) (h : v ≠ .null) :
    v.intOr C d = (v.toInt C).map some := by
  cases v with
  | null => exact absurd rfl h
  | str t => unfold Val.intOr; simp only; cases (Val.str t : Val F).toInt C <;> rfl
  | int t => unfold Val.intOr; simp only; cases (Val.int t : Val F).toInt C <;> rfl
  | float t => unfold Val.intOr; simp only; cases (Val.float t : Val F).toInt C <;> rfl
  | bool t => unfold Val.intOr; simp only; cases (Val.bool t : Val F).toInt C <;> rfl

private theorem intOr_default {C : Codec F} {v : Val F} {c : Option Int} (h : v.intOr C none = .ok c) :
    v.intOr C (some 0) = .ok (some (c.getD 0)) := by
  by_cases hv : v = .null
  · subst hv; cases h; rfl
  · rw [intOr_ne _ hv] at h ⊢
    cases hf : v.toInt C with
    | error e => rw [hf] at h; cases h
    | ok x => rw [hf] at h; cases h; rfl

/-- **C17.** Whatever is stored, in whatever type: state, stateless name, charge and atoms are those of the abstract
species, and if no sticking (return) coefficient was given, the default is the one of the abstract species. -/
theorem core_agrees {C : Codec F} {oid : Nat} {rp : Rp F} {s : RP} (h : rp.core C oid = .ok s) :
    rp.isSpecial C = .ok s.isSpecial ∧
    rp.getState C = .ok s.getState ∧
    rp.getStateless C = s.getStateless ∧
    rp.getCharge C = .ok s.getCharge ∧
    (∀ A, rp.getAtoms C A = s.getAtoms A) ∧
    (rp.attr str!"stick_coef" = .null → rp.getStick C = .ok (s.getStickCoef.map C.lit)) ∧
    (rp.ret = none →
      rp.getRet C = s.getRetCoefs.map (Option.map (List.map fun p => (p.1, C.lit p.2)))) := by
  obtain ⟨hn, hst, hsl, hstick, hret, hch⟩ := core_parts h
  have h1 : rp.isSpecial C = .ok s.isSpecial := by
    unfold Rp.isSpecial RP.isSpecial
    rw [hn]
    rfl
  have h2 : rp.getState C = .ok s.getState := by
    unfold Rp.getState RP.getState
    rw [h1]
    change (if s.isSpecial = true then _ else _) = _
    by_cases hs : s.isSpecial = true
    · rw [if_pos hs, if_pos hs]; rfl
    · rw [if_neg hs, if_neg hs, hst]; rfl
  have h3 : rp.getStateless C = s.getStateless := by
    unfold Rp.getStateless RP.getStateless
    rw [h1]
    change (if s.isSpecial = true then _ else _) = _
    by_cases hs : s.isSpecial = true
    · rw [if_pos hs, if_pos hs, hn]
    · rw [if_neg hs, if_neg hs, hsl]
      cases hx : (rp.attr str!"stateless").optText C with
      | some x => rfl
      | none =>
        simp only
        rw [h2]
        change (match s.getState with | some _ => _ | none => _) = _
        cases s.getState with
        | some _ => rfl
        | none => exact hn
  have h4 : rp.getCharge C = .ok s.getCharge := by
    unfold Rp.getCharge RP.getCharge
    rw [hn]
    change (if s.name = str!"M" then _ else _) = _
    by_cases hs : s.name = str!"M"
    · rw [if_pos hs, if_pos hs]; rfl
    · rw [if_neg hs, if_neg hs, intOr_default (hch hs)]
      cases s.charge <;> rfl
  have h5 : rp.isGround C = .ok (decide (s.getState = none ∧ s.getCharge = some 0)) := by
    unfold Rp.isGround
    rw [h2]
    change (match s.getState with | some _ => _ | none => _) = _
    cases s.getState with
    | some _ => simp only [reduceCtorEq, false_and, decide_false]; rfl
    | none => simp only [true_and]; rw [h4]; rfl
  refine ⟨h1, h2, h3, h4, fun A => ?_, fun hk => ?_, fun hk => ?_⟩
  · unfold Rp.getAtoms RP.getAtoms
    rw [hn]
    change (if s.name = str!"e" then _ else _) = _
    by_cases he : s.name = str!"e"
    · rw [if_pos he, if_pos he]; rfl
    · rw [if_neg he, if_neg he]
      change (if s.name = str!"M" then _ else _) = _
      by_cases hM : s.name = str!"M"
      · rw [if_pos hM, if_pos hM]; rfl
      · rw [if_neg hM, if_neg hM, h3]
        cases s.getStateless with
        | error e => rfl
        | ok n =>
          change (match A (stripCharge n) with | some d => _ | none => _) = _
          simp only
          cases A (stripCharge n) <;> rfl
  · unfold Rp.getStick RP.getStickCoef
    rw [h1]
    change (if s.isSpecial = true then _ else _) = _
    by_cases hs : s.isSpecial = true
    · rw [if_pos hs, if_pos hs]; rfl
    · rw [if_neg hs, if_neg hs, hk, hstick, h5]
      change (if decide (s.getState = none ∧ s.getCharge = some 0) = true then _ else _) = _
      by_cases hg : s.getState = none ∧ s.getCharge = some 0
      · rw [if_pos (by simpa using hg)]; simp only; rw [if_pos hg]; rfl
      · rw [if_neg (by simpa using hg)]; simp only; rw [if_neg hg]; rfl
  · unfold Rp.getRet RP.getRetCoefs
    rw [h1]
    change (if s.isSpecial = true then _ else _) = _
    by_cases hs : s.isSpecial = true
    · rw [if_pos hs, if_pos hs]; rfl
    · rw [if_neg hs, if_neg hs, hk, hret, h5]
      change (if decide (s.getState = none ∧ s.getCharge = some 0) = true then _ else _) = _
      by_cases hg : s.getState = none ∧ s.getCharge = some 0
      · rw [if_pos (by simpa using hg)]; simp only; rw [if_pos hg]; rfl
      · rw [if_neg (by simpa using hg)]; simp only; rw [if_neg hg, h3]
        cases s.getStateless <;> rfl

/-- **C17.** What was given wins over the defaults. -/
theorem given_surface {C : Codec F} {oid : Nat} {rp : Rp F} {s : RP} (h : rp.core C oid = .ok s)
    (hs : s.isSpecial = false) :
    (∀ v x, rp.attr str!"stick_coef" = v → v ≠ .null → v.toFloat C = .ok x → rp.getStick C = .ok (some x)) ∧
    (∀ d e, rp.ret = some d → List.Forall₂ (fun p q => q.1 = p.1 ∧ p.2.toFloat C = .ok q.2) d e →
      rp.getRet C = .ok (some e)) := by
  have h1 := (core_agrees h).1
  rw [hs] at h1
  refine ⟨fun v x hv hne hx => ?_, fun d e hd hde => ?_⟩
  · unfold Rp.getStick
    rw [h1]
    change ((rp.attr str!"stick_coef").floatOr C none >>= _) = _
    have : v.floatOr C none = .ok (some x) := by
      cases v with
      | null => exact absurd rfl hne
      | _ => unfold Val.floatOr; simp only [hx]
    rw [hv, this]
    rfl
  · unfold Rp.getRet
    rw [h1, hd]
    have hc : Classify.collect (fun p : Str × Val F => do return (p.1, ← p.2.toFloat C)) d = .ok e := by
      clear hd
      induction hde with
      | nil => rfl
      | @cons p q l m hpq _ ih =>
        unfold Classify.collect
        obtain ⟨ha, hb⟩ := hpq
        rw [hb]
        simp only [bind, Except.bind, pure, Except.pure] at ih ⊢
        rw [ih]
        obtain ⟨q1, q2⟩ := q
        cases ha
        rfl
    change (Classify.collect _ d >>= _) = _
    rw [hc]
    rfl

/-- an excited argon atom without coefficients sticks and returns argon; argon neither sticks nor returns; the ion of
the demo has what was given -/
example :
    let m := Verif.Plaschem.DemoX.mk 3 [(str!"name", .str str!"Ar*"), (str!"mass", .float 40), (str!"state", .str str!"*"),
      (str!"stateless", .str str!"Ar")] none []
    RpReach Verif.Plaschem.DemoX.C m ∧ (m.core Verif.Plaschem.DemoX.C 0).toOption.isSome = true ∧ (m.getStick Verif.Plaschem.DemoX.C).toOption = some (some 1) ∧
    (m.getRet Verif.Plaschem.DemoX.C).toOption = some (some [(str!"Ar", 1)]) ∧
    (Verif.Plaschem.DemoX.Ar.getStick Verif.Plaschem.DemoX.C).toOption = some (some 0) ∧ (Verif.Plaschem.DemoX.Ar.getRet Verif.Plaschem.DemoX.C).toOption = some (some []) :=
  ⟨Verif.Plaschem.DemoX.reach_mk (by simp) (by decide +kernel), by decide +kernel, by decide +kernel, by decide +kernel,
    by decide +kernel, by decide +kernel⟩

end Verif.Plaschem.Xml
