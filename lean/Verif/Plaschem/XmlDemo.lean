/-
C48-C50: conversions that satisfy what is assumed of them, a chemistry that is written and read, and the cases the
hypotheses of the theorems exclude.
-/
import Verif.Plaschem.XmlBuild
import Verif.Plaschem.ReactProps2
import Mathlib.Algebra.Order.Floor.Ring
import Mathlib.Data.Rat.Floor

namespace Verif.Plaschem.DemoX
open Verif.Plaschem Xml

/-! ### conversions -/

def readNat (s : Str) : Option Nat := if s ≠ [] ∧ ∀ c ∈ s, c.isDigit then some (Nat.ofDigitChars 10 s 0) else none

def readInt : Str → Option Int
  | '-' :: s => (readNat s).map fun n => -(n : Int)
  | s => (readNat s).map fun n => (n : Int)

def showInt (n : Int) : Str := if n < 0 then '-' :: Nat.toDigits 10 n.natAbs else Nat.toDigits 10 n.natAbs

theorem readNat_digits (n : Nat) : readNat (Nat.toDigits 10 n) = some n := by
  unfold readNat
  rw [if_pos ⟨Nat.toDigits_ne_nil, fun c hc => Nat.isDigit_of_mem_toDigits (by decide) (by decide) hc⟩,
    Nat.ofDigitChars_ten_toDigits]

theorem digits_ne_minus (n : Nat) (s : Str) : Nat.toDigits 10 n ≠ '-' :: s := by
  intro h
  have := Nat.isDigit_of_mem_toDigits (b := 10) (n := n) (c := '-') (by decide) (by decide) (by rw [h]; simp)
  exact absurd this (by decide)

theorem readInt_of_ne {s : Str} (h : ∀ t, s ≠ '-' :: t) : readInt s = (readNat s).map fun n => (n : Int) := by
  unfold readInt
  split
  · rename_i t
    exact absurd rfl (h t)
  · rfl

theorem readInt_show (n : Int) : readInt (showInt n) = some n := by
  unfold showInt
  split
  · simp only [readInt, readNat_digits]
    show some (-((n.natAbs : Nat) : Int)) = some n
    rw [show (-((n.natAbs : Nat) : Int)) = n by omega]
  · rw [readInt_of_ne (digits_ne_minus _), readNat_digits]
    show some ((n.natAbs : Nat) : Int) = some n
    rw [show ((n.natAbs : Nat) : Int) = n by omega]

/-- Floats with integer values, written with a decimal point. -/
def C : Codec Int where
  showF x := showInt x ++ str!".0"
  readF s := if Reaction.endsWith s str!".0" then readInt (s.take (s.length - 2)) else readInt s
  showI := showInt
  readI := readInt
  ofInt := some
  lit q := ⌊q⌋
  val x := x
  scale _ x := x

theorem showInt_ne (n : Int) : showInt n ≠ [] := by
  unfold showInt
  split
  · exact List.cons_ne_nil _ _
  · exact Nat.toDigits_ne_nil

theorem showInt_not_dot (n : Int) : '.' ∉ showInt n := by
  have : ∀ m : Nat, '.' ∉ Nat.toDigits 10 m := fun m h =>
    absurd (Nat.isDigit_of_mem_toDigits (by decide) (by decide) h) (by decide)
  unfold showInt
  split
  · simp [this]
  · exact this _

theorem lawful : C.Lawful where
  float x := by
    show (if Reaction.endsWith (showInt x ++ str!".0") str!".0" = true then _ else _) = _
    have h : Reaction.endsWith (showInt x ++ str!".0") str!".0" = true := by simp [Reaction.endsWith]
    rw [if_pos h]
    show readInt ((showInt x ++ str!".0").take ((showInt x ++ str!".0").length - 2)) = some x
    rw [show (showInt x ++ str!".0").take ((showInt x ++ str!".0").length - 2) = showInt x by simp]
    exact readInt_show x
  int := readInt_show
  intFloat n x h := by
    cases h
    show (if Reaction.endsWith (showInt n) str!".0" = true then _ else _) = _
    rw [if_neg]
    · exact readInt_show n
    · intro h
      apply showInt_not_dot n
      unfold Reaction.endsWith at h
      have hp := List.isPrefixOf_iff_prefix.1 h
      exact List.mem_reverse.1 (hp.subset (by decide))
  floatText x := by
    show showInt x ++ str!".0" ≠ []
    simp
  intText := showInt_ne
  empty := by decide +kernel

/-! ### a chemistry that is written and read -/

/-- the species of a list of attributes -/
def mk (id : Nat) (attrs : Dict Str (Val Int)) (ret : Option (Dict Str (Val Int))) (units : Dict Str Str) : Rp Int :=
  match Rp.init C id attrs (ret.map some) units with
  | .ok rp => rp
  | .error _ => Rp.blank 0

def e : Rp Int := mk 0 [(str!"name", .str str!"e"), (str!"mass", .float 0), (str!"charge", .int (-1))] none []
def Ar : Rp Int := mk 1 [(str!"name", .str str!"Ar"), (str!"mass", .float 40)] none [(str!"mass", str!"amu")]
def ArP : Rp Int :=
  mk 2 [(str!"name", .str str!"Ar+"), (str!"mass", .int 40), (str!"charge", .str str!"1"), (str!"stick_coef", .float 1),
    (str!"comments", .str str!"ion")] (some [(str!"Ar", .float 1)]) []

theorem reach_mk {id : Nat} {attrs : Dict Str (Val Int)} {ret : Option (Dict Str (Val Int))} {units : Dict Str Str}
    (hd : ∀ d, ret = some d → IsDict d) (h : (Rp.init C id attrs (ret.map some) units).isOk = true) :
    RpReach C (mk id attrs ret units) := by
  unfold mk
  cases hi : Rp.init C id attrs (ret.map some) units with
  | error e => rw [hi] at h; cases h
  | ok rp =>
    refine .new (ret := ret.map some) ?_ hi
    intro d hd'
    cases ret with
    | none => cases hd'
    | some r => cases hd'; exact hd d rfl

theorem reach_e : RpReach C e := reach_mk (by simp) (by decide +kernel)
theorem reach_Ar : RpReach C Ar := reach_mk (by simp) (by decide +kernel)
theorem reach_ArP : RpReach C ArP := reach_mk (by intro d h; cases h; unfold IsDict; decide) (by decide +kernel)

/-- only the attributes that exist have to be looked at -/
theorem filled_of {rp : Rp Int} (h : RpReach C rp) (hk : ∀ a ∈ rpKinds.keys, rp.attr a ≠ .str []) (a : Str) :
    rp.attr a ≠ .str [] := by
  by_cases ha : a ∈ rpKinds.keys
  · exact hk a ha
  · rw [h.valid.other a ((get?_none_iff _ _).2 ha)]
    intro h
    cases h

theorem good_e : GoodRp C e :=
  ⟨reach_e, ⟨⟨str!"e", rfl, by decide, by decide⟩, filled_of reach_e (by decide +kernel), .inr (by decide +kernel),
    .inl rfl, fun d h => by cases h⟩, ⟨str!"e", rfl, by decide, by decide +kernel⟩⟩
theorem good_Ar : GoodRp C Ar :=
  ⟨reach_Ar, ⟨⟨str!"Ar", rfl, by decide, by decide⟩, filled_of reach_Ar (by decide +kernel), .inr (by decide +kernel),
    .inl rfl, fun d h => by cases h⟩, ⟨str!"Ar", rfl, by decide, by decide +kernel⟩⟩
theorem good_ArP : GoodRp C ArP :=
  ⟨reach_ArP, ⟨⟨str!"Ar+", rfl, by decide, by decide⟩, filled_of reach_ArP (by decide +kernel),
    .inr (by decide +kernel), .inl rfl, fun d h => by
      have : ArP.ret = some [(str!"Ar", .float 1)] := rfl
      rw [this] at h
      cases h
      decide⟩, ⟨str!"Ar+", rfl, by decide, by decide +kernel⟩⟩

def xAttrs : Dict Str (Val Int) :=
  [(str!"arrh_a", .float 3), (str!"arrh_c", .int 15), (str!"el_en_loss", .str str!"16"), (str!"elastic", .bool false)]

def xUnits : Dict Str Str := [(str!"arrh_a", str!"cm3.s-1"), (str!"arrh_c", str!"eV")]

/-- ionisation -/
def x : Rx Int :=
  match Rx.init C DemoR.F 7 [e, Ar] [e, e, ArP] xAttrs xUnits with
  | .ok x => x
  | .error _ => { id := 0, reactants := [], products := [], attr := fun _ => .null, unit := fun _ => none }

theorem init_x : Rx.init C DemoR.F 7 [e, Ar] [e, e, ArP] xAttrs xUnits = .ok x := by rfl

theorem good_x : GoodRx C DemoR.F x := by
  have hr : RxReach C DemoR.F x := .new init_x
  refine ⟨hr, ?_, .inr (by decide +kernel)⟩
  intro a
  by_cases ha : a ∈ rxAttributes
  · exact (by decide +kernel : ∀ a ∈ rxAttributes, x.attr a ≠ .str []) a ha
  · rw [hr.valid.other a ha]
    intro h
    cases h

/-- the species and the reaction come back, whatever the parser of LaTeX names -/
example (T : Str → Except Err Str) :
    ∃ b, Builder.addChemistry C ({} : Builder Int) [1, 2, 0] [x] = (.ok (), b) ∧
      ∃ S' X', readBack C DemoR.F b = .ok (S', X') ∧ List.Forall₂ (SameRp C DemoR.F T) [Ar, ArP, e] S' ∧
        List.Forall₂ (SameRx C DemoR.F T) [x] X' :=
  chemistry_round_trip lawful T (U := [Ar, ArP, e]) (X := [x])
    (by simp [good_Ar, good_ArP, good_e]) (by simp [good_x])
    (by
      intro y hy
      rw [List.mem_singleton.1 hy]
      have : x.rps = [e, Ar, e, e, ArP] := rfl
      rw [this]
      simp)
    (by
      intro a ha b hb h
      have hn : Rp.getName C Ar = .ok str!"Ar" ∧ Rp.getName C ArP = .ok str!"Ar+" ∧ Rp.getName C e = .ok str!"e" :=
        ⟨rfl, rfl, rfl⟩
      simp only [List.mem_cons, List.not_mem_nil, or_false] at ha hb
      rcases ha with rfl | rfl | rfl <;> rcases hb with rfl | rfl | rfl <;>
        simp [hn.1, hn.2.1, hn.2.2] at h ⊢)
    (by decide +kernel)

/-- the exception of a result -/
def err? {α : Type} : Except Err α → Option Err
  | .ok _ => none
  | .error e => some e

theorem of_err? {α : Type} {r : Except Err α} {e : Err} (h : err? r = some e) : r = .error e := by
  cases r with
  | ok a => cases h
  | error d => cases h; rfl

theorem of_toOption {α : Type} {r : Except Err α} {a : α} (h : r.toOption = some a) : r = .ok a := by
  cases r with
  | ok b => cases h; rfl
  | error d => cases h

/-- the parsed file -/
def parsed : List (Rp Int) × List (Rx Int) :=
  (readBack C DemoR.F (Builder.addChemistry C ({} : Builder Int) [1, 2, 0] [x]).2).toOption.getD ([], [])

/-- and what is read is what was given -/
example : parsed.1.map (fun rp => (rp.id, (rp.getName C).toOption)) =
    [(1, some str!"Ar"), (2, some str!"Ar+"), (0, some str!"e")] := by decide +kernel

example : parsed.2.map (fun y => (y.id, (Rx.names C y.reactants).toOption)) =
    [(7, some [str!"e", str!"Ar"])] := by decide +kernel

example : parsed.1.map (fun rp => (rp.getCharge C).toOption) = [some (some 0), some (some 1), some (some (-1))] := by
  decide +kernel

example : parsed.2.map (fun y => ((y.getArrhA C false).toOption : Option (Option Int))) = [some (some 3)] := by
  decide +kernel

/-- a history with two reactions and a species of its own -/
def ops : List (Op Int) :=
  [.rpInstance Ar, .rxInstance x, .rp none [(str!"name", .str str!"M")] none [], .rpInstance Ar, .assign]

theorem named_Ar : Named (Ar.attr str!"name") := ⟨str!"Ar", by decide, rfl⟩
theorem named_ArP : Named (ArP.attr str!"name") := ⟨str!"Ar+", by decide, rfl⟩
theorem named_e : Named (e.attr str!"name") := ⟨str!"e", by decide, rfl⟩

theorem named_ops : ∀ op ∈ ops, op.Named := by
  intro op h
  simp only [ops, List.mem_cons, List.not_mem_nil, or_false] at h
  rcases h with rfl | rfl | rfl | rfl | rfl
  · exact named_Ar
  · have : x.rps = [e, Ar, e, e, ArP] := rfl
    show ∀ rp ∈ x.rps, Named (rp.attr str!"name")
    rw [this]
    simp [named_Ar, named_ArP, named_e]
  · intro v h
    cases h
    exact ⟨str!"M", by decide, rfl⟩
  · exact named_Ar
  · exact trivial

example : ((history C DemoR.F ops).species.map Elem.name).Nodup := one_of_each_name named_ops

/-- the names and ids after it -/
example : (history C DemoR.F ops).species.map (fun q => (q.name, q.id)) =
    [(some str!"Ar", str!"1"), (some str!"e", str!"0"), (some str!"Ar+", str!"2"), (some str!"M", str!"999")] ∧
    (history C DemoR.F ops).reactions.map Elem.id = [str!"1"] := by decide +kernel

example : (((history C DemoR.F ops).step C DemoR.F .assign).2.species.map Elem.id).Nodup :=
  ((ids_distinct lawful named_ops).1).2 (.inl (by decide +kernel))

/-! ### what the hypotheses exclude -/

/-- A name with a comma: the file that is written cannot be parsed. -/
theorem comma_breaks : let rp := mk 3 [(str!"name", .str str!"N,2"), (str!"mass", .float 28)] none []
    RpReach C rp ∧ Writable C rp ∧ ∃ b b' : Builder Int, ({} : Builder Int).addRpInstance C rp = .ok b ∧
    b.addRx C [str!"N,2"] [str!"N,2"] (some 1) [(str!"special_number", .int 10)] [] = .ok b' ∧
    readBack C (fun _ => some []) b' = .error .keyError := by
  intro rp
  have hr : RpReach C rp := reach_mk (by simp) (by decide +kernel)
  exact ⟨hr, ⟨⟨str!"N,2", rfl, by decide, by decide⟩, filled_of hr (by decide +kernel), .inr (by decide +kernel),
    .inl rfl, fun d h => by cases h⟩, _, _, rfl, rfl, of_err? (by decide +kernel)⟩

/-- A name with a space at an end: the same. -/
theorem space_breaks : let rp := mk 3 [(str!"name", .str str!" N2"), (str!"mass", .float 28)] none []
    RpReach C rp ∧ Writable C rp ∧ ∃ b b' : Builder Int, ({} : Builder Int).addRpInstance C rp = .ok b ∧
    b.addRx C [str!" N2"] [str!" N2"] (some 1) [(str!"special_number", .int 10)] [] = .ok b' ∧
    readBack C (fun _ => some []) b' = .error .keyError := by
  intro rp
  have hr : RpReach C rp := reach_mk (by simp) (by decide +kernel)
  exact ⟨hr, ⟨⟨str!" N2", rfl, by decide, by decide⟩, filled_of hr (by decide +kernel), .inr (by decide +kernel),
    .inl rfl, fun d h => by cases h⟩, _, _, rfl, rfl, of_err? (by decide +kernel)⟩

/-- An attribute that is an empty string: it is `None` afterwards. -/
theorem empty_lost :
    let rp := mk 3 [(str!"name", .str str!"N2"), (str!"mass", .float 28), (str!"comments", .str [])] none []
    RpReach C rp ∧ rp.getText C str!"comments" = .ok (some []) ∧
    ∃ rp', parseRp C (rp.elem C).file = .ok rp' ∧ rp'.getText C str!"comments" = .ok none :=
  ⟨reach_mk (by simp) (by decide +kernel), rfl, _, rfl, rfl⟩

/-- A mass that is passed as `None`: accepted, but what is written cannot be parsed. -/
theorem no_mass_breaks : let rp := mk 3 [(str!"name", .str str!"N2"), (str!"mass", .null)] none []
    RpReach C rp ∧ parseRp C (rp.elem C).file = .error .rpAttribute :=
  ⟨reach_mk (by simp) (by decide +kernel), of_err? (by decide +kernel)⟩

/-- A state with a stateless name passed as `None`: the same. -/
theorem no_stateless_breaks :
    let rp := mk 3 [(str!"name", .str str!"N2(v)"), (str!"mass", .float 28), (str!"state", .str str!"v"),
      (str!"stateless", .null)] none []
    RpReach C rp ∧ parseRp C (rp.elem C).file = .error .rpAttribute :=
  ⟨reach_mk (by simp) (by decide +kernel), of_err? (by decide +kernel)⟩

/-- A return coefficient `True`: it is the number 1 before, and cannot be converted afterwards. -/
theorem bool_breaks :
    let rp := mk 3 [(str!"name", .str str!"N2"), (str!"mass", .float 28)] (some [(str!"N", .bool true)]) []
    RpReach C rp ∧ (rp.getRet C).toOption.isSome = true ∧
    ∃ rp', parseRp C (rp.elem C).file = .ok rp' ∧ rp'.getRet C = .error .valueError :=
  ⟨reach_mk (by intro d h; cases h; unfold IsDict; decide) (by decide +kernel), by decide +kernel, _, rfl,
    of_err? (by decide +kernel)⟩

/-- A unit that is passed for an attribute that is `None`: it is not checked, reported, and lost in the file. -/
theorem unit_lost :
    let rp := mk 3 [(str!"name", .str str!"N2"), (str!"mass", .float 28), (str!"h_form", .null)] none
      [(str!"h_form", str!"furlong")]
    RpReach C rp ∧ rp.getUnit str!"h_form" = .ok str!"furlong" ∧
    ∃ rp', parseRp C (rp.elem C).file = .ok rp' ∧ rp'.getUnit str!"h_form" = .ok str!"eV" :=
  ⟨reach_mk (by simp) (by decide +kernel), rfl, _, rfl, rfl⟩

/-- A reaction with neither a rate nor a special number can be made by passing `None`; it cannot be parsed. -/
theorem no_rate_breaks : ∃ y b b', Rx.init C DemoR.F 7 [e, Ar] [e, Ar] [(str!"special_number", .null)] [] = .ok y ∧
    ({} : Builder Int).addRxInstance C y = (.ok (), b) ∧ b' = b ∧
    readBack C DemoR.F b = .error .reactionAttribute :=
  ⟨_, _, _, rfl, rfl, rfl, of_err? (by decide +kernel)⟩

/-- Merging a file is silent: a species of the same name with another mass is dropped, and a reaction between species
that are not there is taken over; the result cannot be parsed. -/
theorem merge_silent :
    let b : Builder Int := (({} : Builder Int).addRpInstance C Ar).toOption.getD {}
    let other := rpElem C 5 [(str!"name", .str str!"Ar"), (str!"mass", .float 39)] none []
    let r := rxElem C [str!"O"] [str!"O"] 1 [(str!"special_number", .int 10)] []
    b.step C DemoR.F (.xml [other] [r]) = (.ok (), { b with reactions := [r] }) ∧
    readBack C DemoR.F { b with reactions := [r] } = .error .keyError :=
  ⟨rfl, of_err? (by decide +kernel)⟩

/-- A chemistry cannot be added to a builder with a species that is not part of it; its reactions are added
nevertheless. -/
theorem chemistry_after_other :
    let O := mk 9 [(str!"name", .str str!"O"), (str!"mass", .float 16)] none []
    let b : Builder Int := (({} : Builder Int).addRpInstance C O).toOption.getD {}
    (b.addChemistry C [1, 2, 0] [x]).1 = .error .valueError ∧ (b.addChemistry C [1, 2, 0] [x]).2.reactions ≠ [] :=
  ⟨of_err? (by decide +kernel), by decide +kernel⟩

/-- Names that are not strings: two species end up with the same name in the file. -/
theorem number_names : ∃ b : Builder Int, history C DemoR.F
    [.rp none [(str!"name", .int 5)] none [], .rp none [(str!"name", .str str!"5")] none []] = b ∧
    b.species.map Elem.name = [some str!"5", some str!"5"] :=
  ⟨_, rfl, by decide +kernel⟩

end Verif.Plaschem.DemoX
