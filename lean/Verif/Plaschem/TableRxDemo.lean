/-
C89: chemistries that meet the hypotheses of the theorems on the table of reactions, and what they do not say.
-/
import Verif.Plaschem.TableRxProps
import Verif.Plaschem.TableDemo

namespace Verif.Plaschem.DemoT
open Verif.Plaschem Xml Pretty Table Classify TableRx

/-! ### rows -/

def e : RP := { oid := 0, id := 0, name := str!"e", charge := some (-1), mass := some 1 }
def Ar : RP := { oid := 1, id := 1, name := str!"Ar", mass := some 40 }
def ArX : RP := { oid := 2, id := 2, name := str!"Ar(3s2.3p5.4s_3P_metastable)", stateless := some str!"Ar",
                  state := some str!"4s", mass := some 40 }
def ArP : RP := { oid := 3, id := 3, name := str!"Ar+", mass := some 40, charge := some 1 }
def He : RP := { oid := 4, id := 4, name := str!"He", mass := some 4 }

def sp : List RP := [e, Ar, ArX, ArP, He]

/-- two elastic collisions with an excitation between them, and a reaction of a type without categories -/
def rx : List Reaction :=
  [{ id := 1, reactants := [e, Ar], products := [e, Ar], elastic := some true },
   { id := 2, reactants := [e, Ar], products := [e, ArX], elastic := some false },
   { id := 3, reactants := [e, He], products := [e, He], elastic := some true },
   { id := 4, reactants := [ArX], products := [Ar], elastic := some false }]

theorem ids : Ids sp rx := by
  refine ⟨by decide +kernel, by decide +kernel, by decide +kernel⟩

theorem classes : ∀ r ∈ rx, ∃ k, classify r = .ok k := by
  intro r hr
  have : (classify r).isOk = true := by
    revert r
    decide +kernel
  exact of_isOk this

/-- the table with headings -/
theorem table : (sheet A false true sp rx).toOption = some
    [(.typ 1, str!"ELECTRON IMPACT COLLISIONS"),
     (.cat 1 1, str!"elastic and momentum transfer            "),
     (.rx 1, str!"e + Ar > e + Ar              "),
     (.rx 3, str!"e + He > e + He                          "),
     (.cat 1 2, str!"excitation                               "),
     (.rx 2, str!"e + Ar > e + Ar(3s2.3p5.4s_3P_metastable)"),
     (.typ 2, str!"RADIATIVE DECAY"),
     (.rx 4, str!"Ar(3s2.3p5.4s_3P_metastable) > Ar        ")] := by decide +kernel

/-- read from the top -/
example : ((sheet A false true sp rx).toOption.map (headings [] none)) = some
    [(1, str!"ELECTRON IMPACT COLLISIONS", some str!"elastic and momentum transfer"),
     (3, str!"ELECTRON IMPACT COLLISIONS", some str!"elastic and momentum transfer"),
     (2, str!"ELECTRON IMPACT COLLISIONS", some str!"excitation"), (4, str!"RADIATIVE DECAY", none)] := by
  decide +kernel

/-- The strings of two reactions of one class need not have the same length: each is padded to the width known when
its turn comes. Since pandas prints strings to the right, the columns are then not below each other. -/
theorem strings_of_different_length : ∃ lines r q s t, Ids sp rx ∧ sheet A false true sp rx = .ok lines ∧ r ∈ rx ∧
    q ∈ rx ∧ classify r = classify q ∧ (Label.rx r.id, s) ∈ lines ∧ (Label.rx q.id, t) ∈ lines ∧ s.length ≠ t.length := by
  have h := table
  cases hs : sheet A false true sp rx with
  | error e => rw [hs] at h; cases h
  | ok lines =>
    rw [hs] at h
    have h : lines = _ := Option.some.inj h
    refine ⟨lines, rx[0], rx[2], str!"e + Ar > e + Ar              ", str!"e + He > e + He                          ",
      ids, rfl, by decide +kernel, by decide +kernel, rfl, ?_, ?_, by decide⟩ <;>
    · rw [h]
      decide +kernel

/-! ### cells -/

/-- elastic scattering, with a text for the flag -/
def xe : Rx Int :=
  match Rx.init DemoX.C DemoR.F 8 [DemoX.e, DemoX.Ar] [DemoX.e, DemoX.Ar]
    [(str!"arrh_a", .float 3), (str!"elastic", .str str!"True")] [(str!"arrh_a", str!"cm3.s-1")] with
  | .ok x => x
  | .error _ => DemoX.x

theorem reach_xe : RxReach DemoX.C DemoR.F xe := by
  have : Rx.init DemoX.C DemoR.F 8 [DemoX.e, DemoX.Ar] [DemoX.e, DemoX.Ar]
    [(str!"arrh_a", .float 3), (str!"elastic", .str str!"True")] [(str!"arrh_a", str!"cm3.s-1")] = .ok xe := by rfl
  exact .new this

def rxs : List (Rx Int) := [DemoX.x, xe]

def coreS : List RP :=
  [{ oid := 0, id := 0, name := str!"e", charge := some (-1) }, { oid := 1, id := 1, name := str!"Ar", charge := none },
   { oid := 2, id := 2, name := str!"Ar+", charge := some 1 }]

def coreR : List Reaction :=
  [{ id := 7, reactants := [coreS[0], coreS[1]], products := [coreS[0], coreS[0], coreS[2]], elastic := some false,
     elEnLoss := some 16 },
   { id := 8, reactants := [coreS[0], coreS[1]], products := [coreS[0], coreS[1]], elastic := some true,
     elEnLoss := some 0 }]

theorem rxs_cases {x : Rx Int} (h : x ∈ rxs) : x = DemoX.x ∨ x = xe := by simpa [rxs] using h

theorem truths_unread : ∀ p ∈ truths, DemoX.C.readF p.1 = none := by decide +kernel

/-- The hypotheses of `reaction_table_total` hold for these reactions, whatever is asked for; reaction 7 may be
disabled. -/
theorem has_reactions {o : TableRx.Opts} (h : o.disabled = true) (en : Nat → Bool) :
    ∃ t, reactionsAttributes DemoX.C DemoR.F (fun s => .ok s) (fun _ => none) en o rxs coreS coreR = .ok t := by
  refine reaction_table_total (fun _ => rfl) readF_of_readI ?_ ?_ ?_ ?_ ?_ ?_
  · exact ⟨by decide +kernel, by decide +kernel, by decide +kernel⟩
  · rw [h]
    rfl
  · intro x hx
    rcases rxs_cases hx with rfl | rfl
    · exact (RxReach.new DemoX.init_x).valid
    · exact reach_xe.valid
  · intro x hx a ha
    have : (TableRx.returned DemoX.C (fun s => .ok s) (fun _ => none) a x).isOk = true := by
      revert a
      rcases rxs_cases hx with rfl | rfl <;> decide +kernel
    exact of_isOk this
  · intro _ s hs
    have : (speciesKey DemoR.F s).isOk = true := by
      revert s
      decide +kernel
    exact of_isOk this
  · intro _ r hr
    have : (classify r).isOk = true := by
      revert r
      decide +kernel
    exact of_isOk this

/-- the texts and colours of the row of a reaction -/
def rowOf (en : Nat → Bool) (o : TableRx.Opts) (i : Nat) : Option (List (Str × Color)) :=
  match reactionsAttributes DemoX.C DemoR.F (fun s => .ok s) (fun _ => none) en o rxs coreS coreR with
  | .error _ => none
  | .ok t => (t.rows.find? fun r => r.1 = .rx i).map fun r => (r.2.1.value, r.2.1.color) ::
      r.2.2.map fun c => ((match c.value with
        | .str s => s
        | .int n => DemoX.C.showI n
        | .float x => DemoX.C.showF x
        | .bool b => if b then str!"True" else str!"False"
        | _ => str!"?"), c.color)

/-- ionisation: what was passed is plain, defaults are blue, and what is missing is three dots -/
example : rowOf (fun _ => true) { units := true } 7 = some
    [(str!"e + Ar > e + e + Ar+", .reset), (str!"3.0", .reset), (str!"cm3.s-1", .reset), (str!"0.0", .blue),
     (str!"15.0", .reset), (str!"eV", .reset), (str!"False", .reset), (str!"16.0", .reset), (str!"eV", .blue),
     (str!"0.0", .blue), (str!"eV", .blue), (str!"10", .blue), (str!"...", .reset), (str!"...", .reset),
     (str!"...", .reset), (str!"...", .reset)] := by decide +kernel

/-- The text passed for the flag of the elastic reaction is recognised only in the table with headings; without them
its cell is blue although the value returned is the one passed. -/
theorem text_for_flag :
    (rowOf (fun _ => true) { classify := true } 8).bind (·[4]?) = some (str!"True", .reset) ∧
    (rowOf (fun _ => true) {} 8).bind (·[4]?) = some (str!"True", .blue) := by decide +kernel

end Verif.Plaschem.DemoT
