/-
Properties C01-C09 and C18: disabling and enabling of species and reactions.
-/
import Verif.Plaschem.ChemChar

namespace Verif.Plaschem
open Net

/-- The set of species ids requested by identifiers and the set of requested reaction ids. -/
abbrev ReqR (rs : List Nat) : Nat → Prop := fun i => i ∈ rs

private theorem req_eq {net : Net} (hwf : WF net) {xs : List SpIdent} {l : List Nat}
    (h : net.resolveSpecies xs = .ok l) : (fun i => i ∈ l) = Requested net xs := by
  funext i; exact propext (resolveSpecies_iff hwf h i)

/-! ### a concrete chemistry used for the non-vacuity examples

Species e, M, Ar, Ar+, Ar++ , Ar*; reactions
1: e + Ar > Ar+ + e + e, 2: e + Ar+ > Ar++ + e + e, 3: e + Ar > Ar* + e,
4: Ar* + M > Ar + M, 5: Ar++ + e > Ar+. -/
namespace Demo

def e : RP := { oid := 0, id := 0, name := str!"e", charge := some (-1), mass := some 1 }
def M : RP := { oid := 1, id := 999, name := str!"M" }
def Ar : RP := { oid := 2, id := 1, name := str!"Ar", mass := some 40 }
def ArP : RP := { oid := 3, id := 2, name := str!"Ar+", mass := some 40, charge := some 1 }
def ArPP : RP := { oid := 4, id := 3, name := str!"Ar++", mass := some 40, charge := some 2 }
def ArX : RP := { oid := 5, id := 4, name := str!"Ar*", mass := some 40, stateless := some str!"Ar",
                  state := some str!"4s" }
def r1 : Reaction := { id := 1, reactants := [e, Ar], products := [ArP, e, e] }
def r2 : Reaction := { id := 2, reactants := [e, ArP], products := [ArPP, e, e] }
def r3 : Reaction := { id := 3, reactants := [e, Ar], products := [ArX, e] }
def r4 : Reaction := { id := 4, reactants := [ArX, M], products := [Ar, M] }
def r5 : Reaction := { id := 5, reactants := [ArPP, e], products := [ArP] }
def net : Net := { species := [e, M, Ar, ArP, ArPP, ArX], reactions := [r1, r2, r3, r4, r5] }

/-- the state right after construction: the electron is protected -/
def st0 : State := { State.fresh with protSp := setMask (fun _ => false) [0] true }

theorem init_ok : net.init = .ok st0 := by rfl

theorem reach0 : Reachable net st0 := .init init_ok

end Demo

/-! ### C01 -/

/-- **C01.** After a successful `disable`, the enabled part is consistent, contained in what was
enabled before, avoids the request, and contains every other such part: it is the largest one. -/
theorem disable_greatest {net : Net} {st st' : State} {species : List SpIdent} {reactions : List Nat}
    (h : Reachable net st) (hd : net.disable st species reactions = (st', none)) :
    st'.enabledPart.Consistent net ∧
    st'.enabledPart.Le net st.enabledPart ∧
    st'.enabledPart.Avoids (Requested net species) (ReqR reactions) ∧
    ∀ X : Sub, X.Consistent net → X.Le net st.enabledPart →
      X.Avoids (Requested net species) (ReqR reactions) → X.Le net st'.enabledPart := by
  obtain ⟨hwf, hinv⟩ := reachable_inv h
  rcases disable_cases hinv species reactions with
    ⟨e, -, -, -, he, -⟩ | ⟨sids, -, -, he, -⟩ | ⟨sids, st'', hs, hr, hrec, he⟩
  · rw [he] at hd; simp at hd
  · rw [he] at hd; simp at hd
  · rw [he] at hd
    obtain ⟨rfl, hd⟩ := Prod.mk.inj hd
    have c := cascade_of_ok hwf hrec
    have hc := (char_of_ok hwf hinv hrec)
    rw [req_eq hwf hs] at hc
    refine ⟨(inv_of_cascade hwf hinv c).ok.consistent, ⟨fun s _ h => c.monoS _ h, fun r _ h => c.monoR _ h⟩,
      ⟨?_, ?_⟩, ?_⟩
    · intro i hi
      have := c.goneS i ((resolveSpecies_iff hwf hs i).2 hi)
      simp [State.enabledPart, this]
    · intro i hi
      have := c.goneR i hi
      simp [State.enabledPart, this]
    · intro X hX hle hav
      have nf := not_forced_of_consistent hle hX hav
      constructor
      · intro s hsm hsp
        exact (hc.1 s.id).2 ⟨hle.1 s hsm hsp, fun hf => nf.1 _ hf hsp⟩
      · intro r hrm hrx
        exact (hc.2.1 r.id).2 ⟨hle.2 r hrm hrx, fun hf => nf.2 _ hf hrx⟩

/-- **C01/C05, explicit form.** A successful `disable` removes exactly the forced removals, leaves the
user protection and all ad-hoc attributes alone and gives automatic protection exactly to a positive
ion that is left alone by a request that disabled something. -/
theorem disable_exact {net : Net} {st st' : State} {species : List SpIdent} {reactions : List Nat}
    (h : Reachable net st) (hd : net.disable st species reactions = (st', none)) :
    (∀ i, st'.enSp i = true ↔
      st.enSp i = true ∧ ¬ ForcedS net st (Requested net species) (ReqR reactions) i) ∧
    (∀ i, st'.enR i = true ↔
      st.enR i = true ∧ ¬ ForcedR net st (Requested net species) (ReqR reactions) i) ∧
    (∀ i, st'.adhocSp i = true ↔ st.adhocSp i = true ∨
      (net.requiresCharge = true ∧
        ((∃ i, Requested net species i ∧ st.enSp i = true) ∨ (∃ i ∈ reactions, st.enR i = true)) ∧
        OnlyIon net st' i)) ∧
    st'.protSp = st.protSp ∧ st'.adStick = st.adStick ∧ st'.adRet = st.adRet ∧
    st'.adArrhA = st.adArrhA := by
  obtain ⟨hwf, hinv⟩ := reachable_inv h
  rcases disable_cases hinv species reactions with
    ⟨e, -, -, -, he, -⟩ | ⟨sids, -, -, he, -⟩ | ⟨sids, st'', hs, hr, hrec, he⟩
  · rw [he] at hd; simp at hd
  · rw [he] at hd; simp at hd
  · rw [he] at hd
    obtain ⟨rfl, hd⟩ := Prod.mk.inj hd
    have c := cascade_of_ok hwf hrec
    have hc := (char_of_ok hwf hinv hrec)
    rw [req_eq hwf hs] at hc
    refine ⟨hc.1, hc.2.1, ?_, c.prot, c.stick, c.ret, c.arrh⟩
    have := hc.2.2
    simpa only [resolveSpecies_iff hwf hs] using this

/-- the hypotheses are met: disabling Ar* takes its two reactions and M with it and nothing else -/
example : ∃ st', Demo.net.disable Demo.st0 [.name str!"Ar*"] [] = (st', none) ∧
    (Demo.net.getSpecies st' false true true).map RP.name =
      [str!"e", str!"Ar", str!"Ar+", str!"Ar++"] ∧
    (Demo.net.getReactions st' false).map Reaction.id = [1, 2, 5] := by
  refine ⟨_, rfl, ?_, ?_⟩ <;> rfl

/-! ### C02 -/

/-- **C02.** Whatever the outcome of a `disable`, an enabled protected species stays enabled. -/
theorem protected_survives_disable {net : Net} {st : State} (h : Reachable net st)
    (species : List SpIdent) (reactions : List Nat) {s : RP} (hs : s ∈ net.species)
    (hp : st.Protected s.id) (he : st.enSp s.id = true) :
    (net.disable st species reactions).1.enSp s.id = true := by
  obtain ⟨hwf, hinv⟩ := reachable_inv h
  rcases disable_cases hinv species reactions with
    ⟨e, -, -, -, hd, -⟩ | ⟨sids, -, -, hd, -⟩ | ⟨sids, st'', _, _, hrec, hd⟩
  · rw [hd]; exact he
  · rw [hd]; exact he
  · rw [hd]; exact (cascade_of_ok hwf hrec).keeps _ ⟨s, hs, rfl⟩ hp he

/-- **C02, over histories.** A species protected by the user and enabled stays enabled and protected
through any further history of calls, successful or failing. -/
theorem protected_survives_history {net : Net} {st : State} (h : Reachable net st) {s : RP}
    (hs : s ∈ net.species) (hp : st.protSp s.id = true) (he : st.enSp s.id = true) (ops : List Op) :
    (net.run st ops).enSp s.id = true ∧ (net.run st ops).protSp s.id = true := by
  induction ops generalizing st with
  | nil => exact ⟨he, hp⟩
  | cons o ops ih =>
    refine ih (h.step o) ?_ ?_
    · cases o with
      | disable sp rx =>
        obtain ⟨hwf, hinv⟩ := reachable_inv h
        simp only [step]
        rcases disable_cases hinv sp rx with
          ⟨e, -, -, -, hd, -⟩ | ⟨sids, -, -, hd, -⟩ | ⟨sids, st'', _, _, hrec, hd⟩
        · rw [hd]; exact hp
        · rw [hd]; exact hp
        · rw [hd]; simp only; rw [(cascade_of_ok hwf hrec).prot]; exact hp
      | reset => exact hp
      | protect sp => exact setProtected_spec.2.2.2.2.2.2 _ hp
      | adhocStick p v =>
        simp only [step, setAdhocStick]; split
        · exact hp
        · split <;> exact hp
      | adhocRet p v =>
        simp only [step, setAdhocRet]; split
        · exact hp
        · split
          · exact hp
          · split <;> exact hp
      | resetAdhocSpecies a b => exact hp
      | adhocArrhA r v => simp only [step, setAdhocArrhA]; split <;> exact hp
      | resetAdhocReactions => exact hp
    · cases o with
      | disable sp rx => exact protected_survives_disable h sp rx hs (.inl hp) he
      | reset => rfl
      | protect sp => simp only [step]; rw [setProtected_spec.1]; exact he
      | adhocStick p v =>
        simp only [step, setAdhocStick]; split
        · exact he
        · split <;> exact he
      | adhocRet p v =>
        simp only [step, setAdhocRet]; split
        · exact he
        · split
          · exact he
          · split <;> exact he
      | resetAdhocSpecies a b => exact he
      | adhocArrhA r v => simp only [step, setAdhocArrhA]; split <;> exact he
      | resetAdhocReactions => exact he

/-- **C02, electron.** In every reachable state of a charged chemistry the electron is enabled and
protected. -/
theorem electron_always_enabled {net : Net} {st : State} (h : Reachable net st)
    (hq : net.requiresCharge = true) :
    ∃ s ∈ net.species, s.name = str!"e" ∧ st.enSp s.id = true ∧ st.protSp s.id = true := by
  obtain ⟨hwf, hinv⟩ := reachable_inv h
  obtain ⟨s, hs, he, hn⟩ := hinv.ok.electron hq
  exact ⟨s, hs, hn, he, hinv.elec hq s hs hn⟩

/-- protecting Ar* makes the request above fail and Ar* stays -/
example : let st := (Demo.net.setProtected Demo.st0 [.name str!"Ar*"]).1
    st.Protected 4 ∧ st.enSp 4 = true ∧
    (Demo.net.disable st [] [3, 4]).2 = some .disable ∧
    (Demo.net.disable st [] [3, 4]).1.enSp 4 = true ∧
    (Demo.net.disable Demo.st0 [] [3, 4]).1.enSp 4 = false :=
  ⟨.inl rfl, rfl, rfl, rfl, rfl⟩

/-! ### C03 -/

/-- **C03.** A `disable` that raises `ChemistryDisableError` leaves the whole state as it was. -/
theorem disable_error_atomic {net : Net} {st : State} (h : Reachable net st)
    (species : List SpIdent) (reactions : List Nat)
    (he : (net.disable st species reactions).2 = some .disable) :
    (net.disable st species reactions).1 = st := by
  obtain ⟨hwf, hinv⟩ := reachable_inv h
  rcases disable_cases hinv species reactions with
    ⟨e, h1, -, -, hd, -⟩ | ⟨sids, -, -, hd, -⟩ | ⟨sids, st'', _, _, hrec, hd⟩
  · rw [hd]
  · rw [hd]
  · exfalso
    rw [hd] at he
    simp only at he
    split at he
    · rename_i e hac
      simp only [Option.some.injEq] at he
      subst he
      -- the consistency check itself never raises a disable error
      exact absurd (assertConsistency_error (reachable_ret h).1 hac) (by decide)
    · cases he

/-- the failing request below gets past the first round (it disables Ar+, then all ion reactions)
before it is refused, so the restored state is not trivially unchanged -/
example : (Demo.net.disable Demo.st0 [.name str!"Ar+"] []).2 = some .disable ∧
    (Demo.net.disableRec Demo.net.fuelBound Demo.st0 [2] []).1.enSp 2 = false := ⟨rfl, rfl⟩

end Verif.Plaschem
