/-
Property C109: exactly which arguments the constructor of a reaction accepts, with attributes in whatever type they are passed
(plaschem/reactions.py:73-173, 347-375, 418-471), what the reaction keeps of them, and which getters can raise afterwards.
-/
import Verif.Plaschem.XmlAgree
import Verif.Plaschem.XmlInit
import Verif.Plaschem.ReactInit

namespace Verif.Plaschem.Xml
open Verif.Plaschem
variable {F : Type}

/-! ### Specification -/

/-- attributes of reactions that are texts -/
def rxTexts : List Str := [str!"doi", str!"comments", str!"latex"]
/-- attributes of reactions that are numbers -/
def rxNumbers : List Str := [str!"arrh_a", str!"arrh_b", str!"arrh_c", str!"el_en_loss", str!"gas_heat_contrib"]
/-- attributes of reactions that are integers -/
def rxIntegers : List Str := [str!"special_number", str!"qdb_r_id", str!"qdb_ds_id"]

/-- the float that a value is, or that its text or its integer stands for -/
def IsFloat (C : Codec F) (v : Val F) (x : F) : Prop :=
  v = .float x ∨ (∃ s, v = .str s ∧ C.readF s = some x) ∨ ∃ n, v = .int n ∧ C.ofInt n = some x

/-- the species is an electron -/
def IsE (C : Codec F) (rp : Rp F) : Prop := rp.getName C = .ok str!"e"

/-- a species answers with its name, its charge and its atoms -/
def Answers (C : Codec F) (A : Str → Option (Dict Str Nat)) (rp : Rp F) : Prop :=
  (∃ n, rp.getName C = .ok n) ∧ (∃ q, rp.getCharge C = .ok q) ∧ ∃ d, rp.getAtoms C A = .ok d

/-- the charge that a species answers with; M has none -/
def chargeIn (C : Codec F) (rp : Rp F) : Int :=
  match rp.getCharge C with
  | .ok (some q) => q
  | _ => 0

/-- the number of atoms `el` that a species answers with -/
def atomsIn (C : Codec F) (A : Str → Option (Dict Str Nat)) (el : Str) (rp : Rp F) : Nat :=
  match rp.getAtoms C A with
  | .ok d => (d.get? el).getD 0
  | .error _ => 0

/-- What the arguments of a reaction have to satisfy. -/
structure SoundRx (C : Codec F) (A : Str → Option (Dict Str Nat)) (id : Int) (rs ps : List (Rp F)) (attrs : Dict Str (Val F))
    (units : Dict Str Str) : Prop where
  id : 0 < id
  reactants : rs.length = 1 ∨ rs.length = 2 ∨ rs.length = 3
  products : ps ≠ []
  /-- at least one of the two is passed (possibly as `None`) -/
  rate : attrs.get? str!"arrh_a" ≠ none ∨ attrs.get? str!"special_number" ≠ none
  known : ∀ a ∈ attrs.keys, a ∈ rxTexts ∨ a ∈ rxNumbers ∨ a ∈ rxIntegers ∨ a = str!"elastic"
  text : ∀ a ∈ rxTexts, ∀ v, attrs.get? a = some v → v = .null ∨ ∃ s, v = .str s
  number : ∀ a ∈ rxNumbers, ∀ v, attrs.get? a = some v → v = .null ∨ (∃ s, v = .str s) ∨ (∃ n, v = .int n) ∨ ∃ x, v = .float x
  integer : ∀ a ∈ rxIntegers, ∀ v, attrs.get? a = some v → v = .null ∨ (∃ s, v = .str s) ∨ ∃ n, v = .int n
  flag : ∀ v, attrs.get? str!"elastic" = some v → v = .null ∨ (∃ b, v = .bool b) ∨
    ∃ s ∈ [str!"true", str!"True", str!"TRUE", str!"false", str!"False", str!"FALSE"], v = .str s
  /-- units are passed beside attributes only, and have to be for the two that can have several -/
  unitful : ∀ a ∈ units.keys, a ∈ attrs.keys ∧
    (a = str!"arrh_a" ∨ a = str!"arrh_c" ∨ a = str!"el_en_loss" ∨ a = str!"gas_heat_contrib")
  mandatory : ∀ a, a = str!"arrh_a" ∨ a = str!"arrh_c" → a ∈ attrs.keys → a ∈ units.keys
  /-- the factor is a number, not negative, and its unit suits the number of reactants -/
  factor : ∀ v, attrs.get? str!"arrh_a" = some v → v ≠ .null → (∃ x, IsFloat C v x ∧ 0 ≤ C.val x) ∧
    (rs.length = 1 → units.get? str!"arrh_a" = some str!"s-1") ∧
    (rs.length = 2 → units.get? str!"arrh_a" = some str!"cm3.s-1" ∨ units.get? str!"arrh_a" = some str!"m3.s-1") ∧
    (rs.length = 3 → units.get? str!"arrh_a" = some str!"cm6.s-1" ∨ units.get? str!"arrh_a" = some str!"m6.s-1")
  /-- activation energies are in eV for reactions with electrons and in K for all others -/
  activation : ∀ v, attrs.get? str!"arrh_c" = some v → v ≠ .null →
    ((∃ s ∈ rs, IsE C s) → units.get? str!"arrh_c" = some str!"eV") ∧
    ((∀ s ∈ rs, ¬ IsE C s) → units.get? str!"arrh_c" = some str!"K")
  /-- other energies are in eV -/
  energy : ∀ a, a = str!"el_en_loss" ∨ a = str!"gas_heat_contrib" → ∀ v u, attrs.get? a = some v → v ≠ .null →
    units.get? a = some u → u = str!"eV"
  answers : ∀ s ∈ rs ++ ps, Answers C A s
  charge : (rs.map (chargeIn C)).sum = (ps.map (chargeIn C)).sum
  atoms : ∀ el, (rs.map (atomsIn C A el)).sum = (ps.map (atomsIn C A el)).sum

/-- the reaction keeps what was passed; what was not passed is `None` -/
structure KeepsRx (id : Int) (rs ps : List (Rp F)) (attrs : Dict Str (Val F)) (units : Dict Str Str) (x : Rx F) : Prop where
  id : (x.id : Int) = id
  reactants : x.reactants = rs
  products : x.products = ps
  attr : ∀ a, x.attr a = (attrs.get? a).getD .null
  unit : ∀ a, x.unit a = units.get? a

/-! ### Proofs -/

private theorem given_some {attrs : Dict Str (Val F)} {a : Str} {v : Val F} (h : attrs.get? a = some v) : given attrs a = v := by
  unfold given; rw [h]; rfl

private theorem given_ne {attrs : Dict Str (Val F)} {a : Str} (h : given attrs a ≠ .null) : attrs.get? a = some (given attrs a) := by
  unfold given at h ⊢
  cases e : attrs.get? a with
  | none => rw [e] at h; exact (h rfl).elim
  | some v => rfl

private theorem fits_text {v : Val F} : v.fits .text = true ↔ v = .null ∨ ∃ s, v = .str s := by cases v <;> simp [Val.fits]
private theorem fits_number {v : Val F} :
    v.fits .number = true ↔ v = .null ∨ (∃ s, v = .str s) ∨ (∃ n, v = .int n) ∨ ∃ x, v = .float x := by
  cases v <;> simp [Val.fits]
private theorem fits_integer {v : Val F} : v.fits .integer = true ↔ v = .null ∨ (∃ s, v = .str s) ∨ ∃ n, v = .int n := by
  cases v <;> simp [Val.fits]
private theorem fits_flag {v : Val F} : elasticOk v = true ∧ v.fits .flag = true ↔ v = .null ∨ (∃ b, v = .bool b) ∨
    ∃ s ∈ [str!"true", str!"True", str!"TRUE", str!"false", str!"False", str!"FALSE"], v = .str s := by
  cases v <;> simp [Val.fits, elasticOk]

private theorem kinds_attr {a : Str} (h : a ∈ rxTexts ∨ a ∈ rxNumbers ∨ a ∈ rxIntegers ∨ a = str!"elastic") : a ∈ rxAttributes := by
  rcases h with h | h | h | h
  · exact (by decide : ∀ a ∈ rxTexts, a ∈ rxAttributes) a h
  · exact (by decide : ∀ a ∈ rxNumbers, a ∈ rxAttributes) a h
  · exact (by decide : ∀ a ∈ rxIntegers, a ∈ rxAttributes) a h
  · rw [h]; decide

private theorem attr_kinds {a : Str} (h : a ∈ rxAttributes) : a ∈ rxTexts ∨ a ∈ rxNumbers ∨ a ∈ rxIntegers ∨ a = str!"elastic" :=
  (by decide : ∀ a ∈ rxAttributes, a ∈ rxTexts ∨ a ∈ rxNumbers ∨ a ∈ rxIntegers ∨ a = str!"elastic") a h

private theorem kind_text {a : Str} (h : a ∈ rxTexts) : rxKinds.get? a = some .text :=
  (by decide : ∀ a ∈ rxTexts, rxKinds.get? a = some .text) a h
private theorem kind_number {a : Str} (h : a ∈ rxNumbers) : rxKinds.get? a = some .number :=
  (by decide : ∀ a ∈ rxNumbers, rxKinds.get? a = some .number) a h
private theorem kind_integer {a : Str} (h : a ∈ rxIntegers) : rxKinds.get? a = some .integer :=
  (by decide : ∀ a ∈ rxIntegers, rxKinds.get? a = some .integer) a h

private theorem floatOr_iff {C : Codec F} {v : Val F} (hf : v.fits .number = true) (hv : v ≠ .null) :
    (∃ f, v.floatOr C none = .ok f ∧ ¬ ∃ y ∈ f, C.val y < 0) ↔ ∃ x, IsFloat C v x ∧ 0 ≤ C.val x := by
  unfold IsFloat
  cases v with
  | null => exact (hv rfl).elim
  | str s => cases h : C.readF s <;> simp [Val.floatOr, Val.toFloat, h]
  | int n => cases h : C.ofInt n <;> simp [Val.floatOr, Val.toFloat, h]
  | float x => simp [Val.floatOr, Val.toFloat]
  | bool b => cases hf

/-- what `set_reaction_attribute` asks for -/
private theorem checks_iff {C : Codec F} {rs : List (Rp F)} {a : Str} {v : Val F} {u : Option Str} :
    Checks C rs a v u ↔
      (v ≠ .null → Rx.checkUnit C ⟨0, rs, [], fun _ => .null, fun _ => none⟩ a u = .ok ()) ∧
      (∃ k, rxKinds.get? a = some k ∧ v.fits k = true) ∧ (a = str!"elastic" → elasticOk v = true) ∧
      (a = str!"arrh_a" → ∃ f, v.floatOr C none = .ok f ∧ ¬ ∃ y ∈ f, C.val y < 0) := by
  unfold Checks Rx.set
  have hw : (if v.isSome then Rx.checkUnit C ⟨0, rs, [], fun _ => .null, fun _ => none⟩ a u else .ok () : Except Err Unit) = .ok () ↔
      (v ≠ .null → Rx.checkUnit C ⟨0, rs, [], fun _ => .null, fun _ => none⟩ a u = .ok ()) := by
    by_cases h : v = .null
    · subst h; simp [Val.isSome]
    · rw [if_pos (Val.isSome_iff.2 h)]; simp [h]
  rw [← hw]
  generalize (if v.isSome then Rx.checkUnit C ⟨0, rs, [], fun _ => .null, fun _ => none⟩ a u
    else .ok () : Except Err Unit) = w
  cases w with
  | error e => simp
  | ok t =>
    cases rxKinds.get? a with
    | none => simp
    | some k =>
      simp only [Option.some.injEq, exists_eq_left']
      by_cases c : (a = str!"elastic" ∧ ¬ elasticOk v) ∨ ¬ v.fits k
      · simp only [if_pos c]
        refine ⟨fun ⟨_, h⟩ => (by cases h), fun ⟨_, h1, h2, _⟩ => ?_⟩
        rcases c with c | c
        · exact (c.2 (h2 c.1)).elim
        · exact (c h1).elim
      · simp only [if_neg c]
        rw [not_or, not_not, not_and, not_not] at c
        simp only [true_and, c.2]
        by_cases ha : a = str!"arrh_a"
        · simp only [if_pos ha]
          have hne : a ≠ str!"elastic" := by rw [ha]; decide
          simp only [hne, false_imp_iff, true_and]
          cases v.floatOr C none with
          | error e => simp [ha]
          | ok f =>
            simp only
            by_cases c2 : ∃ y ∈ f, C.val y < 0
            · simp only [if_pos c2]
              refine ⟨fun ⟨_, h⟩ => (by cases h), fun h => ?_⟩
              obtain ⟨f', h1, h2⟩ := h ha
              cases h1
              exact (h2 c2).elim
            · simp only [if_neg c2]
              exact ⟨fun _ _ => ⟨f, rfl, c2⟩, fun _ => ⟨_, rfl⟩⟩
        · simp only [if_neg ha]
          refine ⟨fun _ => ⟨c.1, fun h => (ha h).elim⟩, fun _ => ?_⟩
          simp

private theorem isElectron_ok {C : Codec F} {x : Rx F} {b : Bool} (h : x.isElectron C = .ok b) :
    b = true ↔ ∃ s ∈ x.reactants, IsE C s := by
  unfold Rx.isElectron at h
  cases e : Classify.collect (·.getName C) x.reactants with
  | error e' => rw [e] at h; cases h
  | ok ns =>
    rw [e] at h
    cases h
    rw [decide_eq_true_iff]
    generalize x.reactants = l at e ⊢
    induction l generalizing ns with
    | nil => cases e; simp
    | cons s l ih =>
      unfold Classify.collect at e
      cases e1 : s.getName C with
      | error e' => rw [e1] at e; cases e
      | ok n =>
        rw [e1] at e
        simp only at e
        cases e2 : Classify.collect (·.getName C) l with
        | error e' => rw [e2] at e; cases e
        | ok ns' =>
          rw [e2] at e
          cases e
          rw [List.mem_cons, ih _ e2]
          simp only [List.mem_cons, exists_eq_or_imp, IsE, e1, Except.ok.injEq]
          rw [eq_comm]

private theorem isElectron_total {C : Codec F} {x : Rx F} (h : ∀ s ∈ x.reactants, ∃ n, s.getName C = .ok n) :
    ∃ b, x.isElectron C = .ok b := by
  obtain ⟨l, hl⟩ := Classify.collect_ok h
  unfold Rx.isElectron
  rw [hl]
  exact ⟨_, rfl⟩

/-- units -/
private theorem checkUnit_a {C : Codec F} {rs : List (Rp F)} (hn : rs.length = 1 ∨ rs.length = 2 ∨ rs.length = 3) {u : Option Str} :
    Rx.checkUnit C ⟨0, rs, [], fun _ => .null, fun _ => none⟩ str!"arrh_a" u = .ok () ↔
    (rs.length = 1 → u = some str!"s-1") ∧
    (rs.length = 2 → u = some str!"cm3.s-1" ∨ u = some str!"m3.s-1") ∧
    (rs.length = 3 → u = some str!"cm6.s-1" ∨ u = some str!"m6.s-1") := by
  unfold Rx.checkUnit
  rw [if_neg (by decide : str!"arrh_a" ≠ str!"arrh_c"), if_pos rfl]
  have hal : (rxAllowed.get? str!"arrh_a").getD [] = Reaction.allowedUnitsA := by decide
  cases u with
  | none =>
    dsimp only
    rw [if_pos (by decide : str!"arrh_a" ∈ rxMandatory)]
    refine ⟨fun h => (by cases h), fun h => ?_⟩
    rcases hn with hn | hn | hn <;> simp [hn] at h
  | some w =>
    simp only [hal]
    by_cases hw : w ∈ Reaction.allowedUnitsA
    · rw [if_neg (not_not_intro hw)]
      simp only [Reaction.allowedUnitsA, List.mem_cons, List.not_mem_nil, or_false] at hw
      rcases hw with rfl | rfl | rfl | rfl | rfl <;> rcases hn with hn | hn | hn <;> simp only [hn] <;> decide
    · rw [if_pos hw]
      refine ⟨fun h => (by cases h), fun h => ?_⟩
      exfalso
      apply hw
      rcases hn with hn | hn | hn <;> simp only [hn] at h <;> simp at h
      · simp [Reaction.allowedUnitsA, h]
      · rcases h with rfl | rfl <;> simp [Reaction.allowedUnitsA]
      · rcases h with rfl | rfl <;> simp [Reaction.allowedUnitsA]

private theorem checkUnit_c {C : Codec F} {rs : List (Rp F)} (hr : ∀ s ∈ rs, ∃ n, s.getName C = .ok n) {u : Option Str} :
    Rx.checkUnit C ⟨0, rs, [], fun _ => .null, fun _ => none⟩ str!"arrh_c" u = .ok () ↔
    ((∃ s ∈ rs, IsE C s) → u = some str!"eV") ∧ ((∀ s ∈ rs, ¬ IsE C s) → u = some str!"K") := by
  obtain ⟨b, hb⟩ := isElectron_total (x := ⟨0, rs, [], fun _ => .null, fun _ => none⟩) (C := C) hr
  have hb' := isElectron_ok hb
  simp only at hb'
  have h2 : (∀ s ∈ rs, ¬ IsE C s) ↔ b = false := by
    rw [← Bool.not_eq_true, hb']; simp
  rw [h2, ← hb']
  unfold Rx.checkUnit
  rw [if_pos rfl, if_neg (by decide : str!"arrh_c" ≠ str!"arrh_a"), hb]
  have hal : (rxAllowed.get? str!"arrh_c").getD [] = [str!"eV", str!"K"] := by decide
  cases u with
  | none =>
    dsimp only
    rw [if_pos (by decide : str!"arrh_c" ∈ rxMandatory)]
    refine ⟨fun h => (by cases h), fun h => ?_⟩
    cases b <;> simp at h
  | some w =>
    simp only [hal]
    by_cases hw : w ∈ [str!"eV", str!"K"]
    · rw [if_neg (not_not_intro hw)]
      simp only [List.mem_cons, List.not_mem_nil, or_false] at hw
      rcases hw with rfl | rfl <;> cases b <;> decide
    · rw [if_pos hw]
      refine ⟨fun h => (by cases h), fun h => ?_⟩
      exfalso
      apply hw
      cases b <;> simp at h <;> simp [h]

private theorem checkUnit_e {C : Codec F} {rs : List (Rp F)} {a : Str} (ha : a ∈ rxAttributes) (h1 : a ≠ str!"arrh_a") (h2 : a ≠ str!"arrh_c")
    {u : Option Str} :
    Rx.checkUnit C ⟨0, rs, [], fun _ => .null, fun _ => none⟩ a u = .ok () ↔
    ∀ w, u = some w → w = str!"eV" ∧ (a = str!"el_en_loss" ∨ a = str!"gas_heat_contrib") := by
  unfold Rx.checkUnit
  rw [if_neg h1, if_neg h2]
  cases u with
  | none =>
    have : a ∉ rxMandatory := by simp [rxMandatory, h1, h2]
    dsimp only
    rw [if_neg this]
    exact ⟨fun _ _ h => (by cases h), fun _ => rfl⟩
  | some w =>
    have hal : (w ∈ (rxAllowed.get? a).getD []) ↔ w = str!"eV" ∧ (a = str!"el_en_loss" ∨ a = str!"gas_heat_contrib") := by
      by_cases hc : a = str!"el_en_loss" ∨ a = str!"gas_heat_contrib"
      · have : (rxAllowed.get? a).getD [] = [str!"eV"] := by rcases hc with rfl | rfl <;> decide
        rw [this]; simp [hc]
      · have : (rxAllowed.get? a).getD [] = [] := by
          rw [not_or] at hc
          exact (by decide : ∀ a ∈ rxAttributes, a ≠ str!"arrh_a" → a ≠ str!"arrh_c" → a ≠ str!"el_en_loss" → a ≠ str!"gas_heat_contrib" →
            (rxAllowed.get? a).getD [] = []) a ha h1 h2 hc.1 hc.2
        rw [this]; simp [hc]
    by_cases hw : w ∈ (rxAllowed.get? a).getD []
    · simp only
      rw [if_neg (not_not_intro hw)]
      exact ⟨fun _ w' h => (by cases h; exact hal.1 hw), fun _ => rfl⟩
    · simp only
      rw [if_pos hw]
      exact ⟨fun h => (by cases h), fun h => (hw (hal.2 (h w rfl))).elim⟩

/-- the converted species -/
private theorem core_iff {C : Codec F} {rp : Rp F} (o : Nat) : (∃ s, rp.core C o = .ok s) ↔ (∃ n, rp.getName C = .ok n) ∧ ∃ q, rp.getCharge C = .ok q := by
  unfold Rp.core Rp.getCharge
  cases hn : rp.getName C with
  | error e => exact ⟨fun ⟨_, h⟩ => (by cases h), fun ⟨⟨_, h⟩, _⟩ => (by cases h)⟩
  | ok n =>
    simp only [bind, Except.bind, pure, Except.pure]
    by_cases hM : n = str!"M"
    · simp [if_pos hM]
    · simp only [if_neg hM]
      cases rp.attr str!"charge" with
      | null => simp [Val.intOr]
      | str s => cases h : C.readI s <;> simp [Val.intOr, Val.toInt, h]
      | int n => simp [Val.intOr, Val.toInt]
      | float x => simp [Val.intOr, Val.toInt]
      | bool b => simp [Val.intOr, Val.toInt]

private theorem core_values {C : Codec F} {A : Str → Option (Dict Str Nat)} {rp : Rp F} {o : Nat} {s : RP} (h : rp.core C o = .ok s) :
    s.chargeOf = chargeIn C rp ∧ (∀ el, s.atomCount A el = atomsIn C A el rp) ∧ (s.Parses A ↔ ∃ d, rp.getAtoms C A = .ok d) := by
  obtain ⟨-, -, -, h1, h2, -⟩ := core_agrees h
  refine ⟨?_, fun el => ?_, ?_⟩
  · unfold chargeIn RP.chargeOf
    rw [h1]
    cases s.getCharge <;> rfl
  · unfold atomsIn RP.atomCount
    rw [h2]
    rfl
  · unfold RP.Parses
    rw [h2]

private theorem cores_values {C : Codec F} {A : Str → Option (Dict Str Nat)} : ∀ {l : List (Rp F)} {m : List RP},
    Classify.collect (Rp.core C 0) l = .ok m →
    m.map RP.chargeOf = l.map (chargeIn C) ∧ (∀ el, m.map (fun s => s.atomCount A el) = l.map (atomsIn C A el)) ∧
    ((∀ s ∈ m, s.Parses A) ↔ ∀ rp ∈ l, ∃ d, rp.getAtoms C A = .ok d)
  | [], m, h => by cases h; simp
  | a :: l, m, h => by
    unfold Classify.collect at h
    cases e1 : a.core C 0 with
    | error e => rw [e1] at h; cases h
    | ok s =>
      rw [e1] at h
      simp only at h
      cases e2 : Classify.collect (Rp.core C 0) l with
      | error e => rw [e2] at h; cases h
      | ok ss =>
        rw [e2] at h
        cases h
        obtain ⟨h1, h2, h3⟩ := core_values (A := A) e1
        obtain ⟨g1, g2, g3⟩ := cores_values (A := A) e2
        refine ⟨by simp [h1, g1], fun el => by simp only [List.map_cons, h2, g2], ?_⟩
        rw [List.forall_mem_cons, List.forall_mem_cons, h3, g3]

private theorem cores_error {C : Codec F} {l : List (Rp F)} {e : Err} (h : Classify.collect (Rp.core C 0) l = .error e) :
    ∃ rp ∈ l, ¬ ∃ s, rp.core C 0 = .ok s := by
  by_contra hc
  push Not at hc
  obtain ⟨m, hm⟩ := Classify.collect_ok hc
  rw [hm] at h
  cases h

private theorem consistent_iff {C : Codec F} {A : Str → Option (Dict Str Nat)} (hA : GoodParser A) {rs ps : List (Rp F)} :
    Rx.consistent C A rs ps = .ok () ↔ (∀ s ∈ rs ++ ps, Answers C A s) ∧
      (rs.map (chargeIn C)).sum = (ps.map (chargeIn C)).sum ∧
      ∀ el, (rs.map (atomsIn C A el)).sum = (ps.map (atomsIn C A el)).sum := by
  unfold Rx.consistent
  have hno : ∀ {l : List (Rp F)}, (∀ rp ∈ l, rp ∈ rs ++ ps) → (∃ rp ∈ l, ¬ ∃ s, rp.core C 0 = .ok s) →
      ¬ ∀ s ∈ rs ++ ps, Answers C A s := fun hl ⟨rp, h1, h2⟩ h =>
    h2 ((core_iff 0).2 ⟨(h rp (hl rp h1)).1, (h rp (hl rp h1)).2.1⟩)
  cases e1 : Classify.collect (Rp.core C 0) rs with
  | error e => exact ⟨fun h => (by cases h), fun h => (hno (by simp +contextual) (cores_error e1) h.1).elim⟩
  | ok r =>
    cases e2 : Classify.collect (Rp.core C 0) ps with
    | error e => exact ⟨fun h => (by cases h), fun h => (hno (by simp +contextual) (cores_error e2) h.1).elim⟩
    | ok p =>
      obtain ⟨h1, h2, h3⟩ := cores_values (A := A) e1
      obtain ⟨g1, g2, g3⟩ := cores_values (A := A) e2
      refine (reaction_check_iff hA _).trans ?_
      simp only [Balanced]
      rw [List.forall_mem_append, h3, g3, h1, g1]
      simp only [h2, g2]
      have hans : (∀ rp ∈ rs ++ ps, Answers C A rp) ↔ (∀ rp ∈ rs, ∃ d, rp.getAtoms C A = .ok d) ∧ ∀ rp ∈ ps, ∃ d, rp.getAtoms C A = .ok d := by
        rw [List.forall_mem_append]
        have key : ∀ {l : List (Rp F)} {m : List RP}, Classify.collect (Rp.core C 0) l = .ok m →
            ((∀ rp ∈ l, Answers C A rp) ↔ ∀ rp ∈ l, ∃ d, rp.getAtoms C A = .ok d) := by
          intro l m hm
          refine forall₂_congr fun rp hrp => ⟨fun h => h.2.2, fun h => ?_⟩
          obtain ⟨s, hs⟩ := Classify.collect_ok_mem hm rp hrp
          have := (core_iff (C := C) (rp := rp) 0).1 ⟨s, hs⟩
          exact ⟨this.1, this.2, h⟩
        rw [key e1, key e2]
      rw [hans]

/-- the cascade of checks of the constructor -/
private theorem init_eq {C : Codec F} {A : Str → Option (Dict Str Nat)} {id : Int} {rs ps : List (Rp F)}
    {attrs : Dict Str (Val F)} {units : Dict Str Str} {x : Rx F} :
    Rx.init C A id rs ps attrs units = .ok x ↔ 0 < id ∧ (1 ≤ rs.length ∧ 1 ≤ ps.length) ∧ rs.length ≤ 3 ∧
      ¬ ((attrs.get? str!"special_number").isNone ∧ (attrs.get? str!"arrh_a").isNone) ∧
      (∀ a ∈ attrs.keys, a ∈ rxAttributes) ∧ (∀ a ∈ units.keys, a ∈ Dict.keys rxUnits ∧ a ∈ attrs.keys) ∧
      (∀ a ∈ rxMandatory, a ∈ attrs.keys → a ∈ units.keys) ∧
      (∀ a ∈ rxAttributes, Checks C rs a (given attrs a) (units.get? a)) ∧ Rx.consistent C A rs ps = .ok () ∧
      (x.id = id.toNat ∧ x.reactants = rs ∧ x.products = ps ∧
        (∀ a, x.attr a = if a ∈ rxAttributes then given attrs a else .null) ∧
        (∀ a, x.unit a = if a ∈ rxAttributes then units.get? a else none)) := by
  unfold Rx.init
  by_cases c1 : id ≤ 0
  · rw [if_pos c1]; exact ⟨fun h => (by cases h), fun h => (by omega)⟩
  rw [if_neg c1]
  by_cases c2 : rs.length < 1 ∨ ps.length < 1
  · rw [if_pos c2]; exact ⟨fun h => (by cases h), fun h => (by omega)⟩
  rw [if_neg c2]
  by_cases c3 : rs.length > 3
  · rw [if_pos c3]; exact ⟨fun h => (by cases h), fun h => (by omega)⟩
  rw [if_neg c3]
  by_cases c4 : (attrs.get? str!"special_number").isNone ∧ (attrs.get? str!"arrh_a").isNone
  · rw [if_pos c4]; exact ⟨fun h => (by cases h), fun h => (h.2.2.2.1 c4).elim⟩
  rw [if_neg c4]
  by_cases c5 : ∃ a ∈ attrs.keys, a ∉ rxAttributes
  · rw [if_pos c5]; exact ⟨fun h => (by cases h), fun h => (c5.elim fun a ha => (ha.2 (h.2.2.2.2.1 a ha.1)).elim)⟩
  rw [if_neg c5]
  by_cases c6 : ∃ a ∈ units.keys, a ∉ Dict.keys rxUnits ∨ a ∉ attrs.keys
  · rw [if_pos c6]
    exact ⟨fun h => (by cases h), fun h => (c6.elim fun a ha => (ha.2.elim (fun g => g (h.2.2.2.2.2.1 a ha.1).1)
      fun g => g (h.2.2.2.2.2.1 a ha.1).2).elim)⟩
  rw [if_neg c6]
  by_cases c7 : ∃ a ∈ rxMandatory, a ∈ attrs.keys ∧ a ∉ units.keys
  · rw [if_pos c7]
    exact ⟨fun h => (by cases h), fun h => (c7.elim fun a ha => (ha.2.2 (h.2.2.2.2.2.2.1 a ha.1 ha.2.1)).elim)⟩
  rw [if_neg c7]
  have d5 : ∀ a ∈ attrs.keys, a ∈ rxAttributes := fun a ha => by_contra fun h => c5 ⟨a, ha, h⟩
  have d6 : ∀ a ∈ units.keys, a ∈ Dict.keys rxUnits ∧ a ∈ attrs.keys := fun a ha =>
    ⟨by_contra fun h => c6 ⟨a, ha, .inl h⟩, by_contra fun h => c6 ⟨a, ha, .inr h⟩⟩
  have d7 : ∀ a ∈ rxMandatory, a ∈ attrs.keys → a ∈ units.keys := fun a h1 h2 => by_contra fun h => c7 ⟨a, h1, h2, h⟩
  have hext : ∀ {y : Rx F}, (x.id = id.toNat ∧ x.reactants = rs ∧ x.products = ps ∧
        (∀ a, x.attr a = if a ∈ rxAttributes then given attrs a else .null) ∧
        (∀ a, x.unit a = if a ∈ rxAttributes then units.get? a else none)) →
      (y.id = id.toNat ∧ y.reactants = rs ∧ y.products = ps ∧
        (∀ a, y.attr a = if a ∈ rxAttributes then given attrs a else .null) ∧
        (∀ a, y.unit a = if a ∈ rxAttributes then units.get? a else none)) → y = x := by
    rintro y ⟨h1, h2, h3, h4, h5⟩ ⟨g1, g2, g3, g4, g5⟩
    have h4' := funext fun a => (h4 a).trans (g4 a).symm
    have h5' := funext fun a => (h5 a).trans (g5 a).symm
    cases x
    cases y
    simp_all
  constructor
  · intro h
    split at h
    · cases h
    rename_i y hy
    have hc := Rx.setAll_inv _ hy
    obtain ⟨x', h1, h2, h3, h4, h5, h6⟩ := Rx.setAll_ok _ _ hc
    rw [hy] at h1
    cases h1
    split at h
    · cases h
    rename_i hcons
    cases h
    exact ⟨by omega, by omega, by omega, c4, d5, d6, d7, hc, hcons, h2, h3, h4, h5, h6⟩
  · rintro ⟨-, -, -, -, -, -, -, hc, hcons, hx⟩
    obtain ⟨x', h1, h2, h3, h4, h5, h6⟩ := Rx.setAll_ok (attrs := attrs) (units := units) rxAttributes
      { id := id.toNat, reactants := rs, products := ps, attr := fun _ => .null, unit := fun _ => none } hc
    rw [h1, hcons]
    simp only
    rw [hext hx ⟨h2, h3, h4, h5, h6⟩]

private theorem unitful_iff {a : Str} : a ∈ Dict.keys rxUnits ↔
    (a = str!"arrh_a" ∨ a = str!"arrh_c" ∨ a = str!"el_en_loss" ∨ a = str!"gas_heat_contrib") := by
  simp [rxUnits, Dict.keys]

private theorem cased {attrs : Dict Str (Val F)} {a : Str} {p : Val F → Prop} (h0 : p .null) :
    p (given attrs a) ↔ ∀ v, attrs.get? a = some v → p v := by
  constructor
  · intro h v hv
    rwa [given_some hv] at h
  · intro h
    by_cases hz : given attrs a = .null
    · rw [hz]; exact h0
    · exact h _ (given_ne hz)

/-- **C109.** The constructor of a reaction accepts exactly the sound arguments. -/
theorem rx_init_iff (C : Codec F) {A : Str → Option (Dict Str Nat)} (hA : GoodParser A) {id : Int} {rs ps : List (Rp F)}
    {attrs : Dict Str (Val F)} {units : Dict Str Str} :
    (∃ x, Rx.init C A id rs ps attrs units = .ok x) ↔ SoundRx C A id rs ps attrs units := by
  constructor
  · rintro ⟨x, h⟩
    obtain ⟨h1, h2, h3, h4, h5, h6, h7, hc, hcons, -⟩ := init_eq.1 h
    obtain ⟨ha, hq, hel⟩ := (consistent_iff hA).1 hcons
    have hn : rs.length = 1 ∨ rs.length = 2 ∨ rs.length = 3 := by omega
    have hfit : ∀ {a k}, rxKinds.get? a = some k → ∀ v, attrs.get? a = some v → v.fits k = true := by
      intro a k hk v hv
      obtain ⟨-, ⟨k', hk', hf⟩, -⟩ := checks_iff.1 (hc a (rxKinds_keys hk))
      rw [hk] at hk'
      cases hk'
      rwa [given_some hv] at hf
    refine ⟨h1, hn, ?_, ?_, fun a ha => attr_kinds (h5 a ha), fun a ha v hv => fits_text.1 (hfit (kind_text ha) v hv),
      fun a ha v hv => fits_number.1 (hfit (kind_number ha) v hv), fun a ha v hv => fits_integer.1 (hfit (kind_integer ha) v hv),
      ?_, fun a ha => ⟨(h6 a ha).2, unitful_iff.1 (h6 a ha).1⟩, ?_, ?_, ?_, ?_, ha, hq, hel⟩
    · intro hp; rw [hp] at h2; simp at h2
    · by_contra hcon
      rw [not_or, not_not, not_not] at hcon
      exact h4 ⟨by rw [hcon.2]; rfl, by rw [hcon.1]; rfl⟩
    · intro v hv
      refine fits_flag.1 ⟨?_, hfit (by decide) v hv⟩
      have := (checks_iff.1 (hc str!"elastic" (by decide))).2.2.1 rfl
      rwa [given_some hv] at this
    · intro a ha h
      exact h7 a (by rcases ha with rfl | rfl <;> decide) h
    · intro v hv hne
      obtain ⟨g1, -, -, g4⟩ := checks_iff.1 (hc str!"arrh_a" (by decide))
      rw [given_some hv] at g1 g4
      exact ⟨(floatOr_iff (hfit (by decide) v hv) hne).1 (g4 rfl), (checkUnit_a hn).1 (g1 hne)⟩
    · intro v hv hne
      obtain ⟨g1, -⟩ := checks_iff.1 (hc str!"arrh_c" (by decide))
      rw [given_some hv] at g1
      exact (checkUnit_c fun s hs => (ha s (List.mem_append_left _ hs)).1).1 (g1 hne)
    · intro a hae v u hv hne hu
      have hmem : a ∈ rxAttributes ∧ a ≠ str!"arrh_a" ∧ a ≠ str!"arrh_c" := by rcases hae with rfl | rfl <;> decide
      obtain ⟨g1, -⟩ := checks_iff.1 (hc a hmem.1)
      rw [given_some hv] at g1
      exact ((checkUnit_e hmem.1 hmem.2.1 hmem.2.2).1 (g1 hne) u hu).1
  · intro hs
    suffices hall : ∀ a ∈ rxAttributes, Checks C rs a (given attrs a) (units.get? a) by
      refine ⟨{ id := id.toNat, reactants := rs, products := ps,
                attr := fun a => if a ∈ rxAttributes then given attrs a else .null,
                unit := fun a => if a ∈ rxAttributes then units.get? a else none }, init_eq.2 ⟨hs.id, ?_, ?_, ?_,
        fun a ha => kinds_attr (hs.known a ha), fun a ha => ⟨unitful_iff.2 (hs.unitful a ha).2, (hs.unitful a ha).1⟩,
        fun a ha h => hs.mandatory a (by simpa [rxMandatory] using ha) h, hall,
        (consistent_iff hA).2 ⟨hs.answers, hs.charge, hs.atoms⟩, rfl, rfl, rfl, fun _ => rfl, fun _ => rfl⟩⟩
      · have := hs.reactants
        have := List.length_pos_iff.2 hs.products
        omega
      · have := hs.reactants; omega
      · rintro ⟨g1, g2⟩
        rcases hs.rate with h | h
        · exact h (by simpa using g2)
        · exact h (by simpa using g1)
    intro a ha
    refine checks_iff.2 ⟨fun hne => ?_, ?_, ?_, ?_⟩
    · have hv := given_ne hne
      by_cases c1 : a = str!"arrh_a"
      · subst c1
        exact (checkUnit_a hs.reactants).2 (hs.factor _ hv hne).2
      by_cases c2 : a = str!"arrh_c"
      · subst c2
        exact (checkUnit_c fun s h => (hs.answers s (List.mem_append_left _ h)).1).2 (hs.activation _ hv hne)
      refine (checkUnit_e ha c1 c2).2 fun w hw => ?_
      have hu : a ∈ units.keys := (Dict.mem_keys_iff _ _).2 ⟨w, hw⟩
      have h3 := (hs.unitful a hu).2
      have h4 : a = str!"el_en_loss" ∨ a = str!"gas_heat_contrib" := by
        rcases h3 with h | h | h | h
        · exact (c1 h).elim
        · exact (c2 h).elim
        · exact .inl h
        · exact .inr h
      exact ⟨hs.energy a h4 _ w hv hne hw, h4⟩
    · rcases attr_kinds ha with h | h | h | h
      · exact ⟨_, kind_text h, (cased (p := fun v => v.fits .text = true) rfl).2 fun v hv => fits_text.2 (hs.text a h v hv)⟩
      · exact ⟨_, kind_number h, (cased (p := fun v => v.fits .number = true) rfl).2 fun v hv => fits_number.2 (hs.number a h v hv)⟩
      · exact ⟨_, kind_integer h, (cased (p := fun v => v.fits .integer = true) rfl).2 fun v hv => fits_integer.2 (hs.integer a h v hv)⟩
      · subst h
        exact ⟨.flag, by decide, (cased (p := fun v => v.fits .flag = true) rfl).2 fun v hv => (fits_flag.2 (hs.flag v hv)).2⟩
    · rintro rfl
      exact (cased (p := fun v => elasticOk v = true) rfl).2 fun v hv => (fits_flag.2 (hs.flag v hv)).1
    · rintro rfl
      refine (cased (p := fun v => ∃ f, v.floatOr C none = .ok f ∧ ¬ ∃ y ∈ f, C.val y < 0) ⟨none, rfl, by simp⟩).2 fun v hv => ?_
      by_cases hz : v = .null
      · subst hz; exact ⟨none, rfl, by simp⟩
      · exact (floatOr_iff (fits_number.2 (hs.number _ (by decide) v hv)) hz).2 (hs.factor v hv hz).1

/-- **C109.** The reaction keeps what was passed. -/
theorem rx_init_keeps {C : Codec F} {A : Str → Option (Dict Str Nat)} {id : Int} {rs ps : List (Rp F)}
    {attrs : Dict Str (Val F)} {units : Dict Str Str} {x : Rx F} (h : Rx.init C A id rs ps attrs units = .ok x) :
    KeepsRx id rs ps attrs units x := by
  obtain ⟨h1, -, -, -, h5, h6, -, -, -, g1, g2, g3, g4, g5⟩ := init_eq.1 h
  refine ⟨by rw [g1]; omega, g2, g3, fun a => ?_, fun a => ?_⟩
  · rw [g4]
    change _ = given attrs a
    by_cases ha : a ∈ attrs.keys
    · rw [if_pos (h5 a ha)]
    · have : given attrs a = .null := by unfold given; rw [(get?_none_iff _ _).2 ha]; rfl
      rw [this]
      split <;> rfl
  · rw [g5]
    by_cases ha : a ∈ units.keys
    · rw [if_pos (h5 a (h6 a ha).2)]
    · rw [(get?_none_iff _ _).2 ha]
      split <;> rfl

private theorem floatOr_error {C : Codec F} {v : Val F} (d : Option F) (hf : v.fits .number = true) :
    (∃ e, v.floatOr C d = .error e) ↔ Unreadable C v := by
  unfold Unreadable
  cases v with
  | null => simp [Val.floatOr]
  | str s => cases h : C.readF s <;> simp [Val.floatOr, Val.toFloat, h]
  | int n => cases h : C.ofInt n <;> simp [Val.floatOr, Val.toFloat, h]
  | float x => simp [Val.floatOr, Val.toFloat]
  | bool b => cases hf

private theorem intOr_error {C : Codec F} {v : Val F} (d : Option Int) (hf : v.fits .integer = true) :
    (∃ e, v.intOr C d = .error e) ↔ ∃ s, v = .str s ∧ C.readI s = none := by
  cases v with
  | null => simp [Val.intOr]
  | str s => cases h : C.readI s <;> simp [Val.intOr, Val.toInt, h]
  | int n => simp [Val.intOr, Val.toInt]
  | float x => cases hf
  | bool b => cases hf

/-- **C109.** What the getters of an accepted reaction do: the factor is there exactly if it was passed with a value, in nominal
units it is that value; the other getters raise exactly if their attribute is a text (or a too large integer) that is no number. -/
theorem rx_getters {C : Codec F} {A : Str → Option (Dict Str Nat)} (hA : GoodParser A) {id : Int} {rs ps : List (Rp F)}
    {attrs : Dict Str (Val F)} {units : Dict Str Str} {x : Rx F} (h : Rx.init C A id rs ps attrs units = .ok x) :
    (∀ si, (attrs.get? str!"arrh_a").getD .null = .null → x.getArrhA C si = .ok none) ∧
    (∀ v, attrs.get? str!"arrh_a" = some v → v ≠ .null → ∃ y u, IsFloat C v y ∧ 0 ≤ C.val y ∧ units.get? str!"arrh_a" = some u ∧
      x.getArrhA C false = .ok (some y) ∧ x.getArrhA C true = .ok (some (C.scale u y))) ∧
    (∀ a, a = str!"arrh_b" ∨ a = str!"arrh_c" →
      ((∃ e, x.getArrh C a = .error e) ↔ ∃ v, attrs.get? a = some v ∧ Unreadable C v)) ∧
    (∀ a, a = str!"el_en_loss" ∨ a = str!"gas_heat_contrib" →
      ((∃ e, x.getFloat C a = .error e) ↔ ∃ v, attrs.get? a = some v ∧ Unreadable C v)) ∧
    (∀ a, a = str!"qdb_r_id" ∨ a = str!"qdb_ds_id" →
      ((∃ e, x.getInt C a = .error e) ↔ ∃ s, attrs.get? a = some (.str s) ∧ C.readI s = none)) ∧
    ((∃ e, x.getSpecial C = .error e) ↔ ∃ s, attrs.get? str!"special_number" = some (.str s) ∧ C.readI s = none) ∧
    (∃ b, x.getElastic C = .ok b) ∧ ∃ b, x.isElectron C = .ok b ∧ (b = true ↔ ∃ s ∈ rs, IsE C s) := by
  have hs := (rx_init_iff C hA).1 ⟨x, h⟩
  have hk := rx_init_keeps h
  have hnum : ∀ a ∈ rxNumbers, (x.attr a).fits .number = true := fun a ha => by
    rw [hk.attr]
    exact (cased (p := fun v => v.fits .number = true) rfl).2 fun v hv => fits_number.2 (hs.number a ha v hv)
  have hint : ∀ a ∈ rxIntegers, (x.attr a).fits .integer = true := fun a ha => by
    rw [hk.attr]
    exact (cased (p := fun v => v.fits .integer = true) rfl).2 fun v hv => fits_integer.2 (hs.integer a ha v hv)
  have hun : ∀ a, Unreadable C (x.attr a) ↔ ∃ v, attrs.get? a = some v ∧ Unreadable C v := fun a => by
    rw [hk.attr]
    cases e : attrs.get? a with
    | none => simp [Unreadable]
    | some v => simp
  have hst : ∀ a, (∃ s, x.attr a = .str s ∧ C.readI s = none) ↔ ∃ s, attrs.get? a = some (.str s) ∧ C.readI s = none := fun a => by
    rw [hk.attr]
    cases e : attrs.get? a with
    | none => simp
    | some v => simp
  have hnone : ∀ si, (attrs.get? str!"arrh_a").getD .null = .null → x.getArrhA C si = .ok none := fun si hz => by
    unfold Rx.getArrhA
    rw [hk.attr, hz]
    rfl
  have hsome : ∀ v, attrs.get? str!"arrh_a" = some v → v ≠ .null → ∃ y u, IsFloat C v y ∧ 0 ≤ C.val y ∧
      units.get? str!"arrh_a" = some u ∧
      x.getArrhA C false = .ok (some y) ∧ x.getArrhA C true = .ok (some (C.scale u y)) := by
    intro v hv hne
    obtain ⟨⟨y, hy, h0⟩, h1, h2, h3⟩ := hs.factor v hv hne
    have hu : ∃ u ∈ Reaction.siFactors.keys, units.get? str!"arrh_a" = some u := by
      rcases hs.reactants with g | g | g
      · exact ⟨_, by decide, h1 g⟩
      · rcases h2 g with e | e
        · exact ⟨_, by decide, e⟩
        · exact ⟨_, by decide, e⟩
      · rcases h3 g with e | e
        · exact ⟨_, by decide, e⟩
        · exact ⟨_, by decide, e⟩
    obtain ⟨u, hm, hu⟩ := hu
    have hf : (x.attr str!"arrh_a").floatOr C none = .ok (some y) := by
      rw [hk.attr, hv]
      rcases hy with rfl | ⟨t, rfl, e⟩ | ⟨n, rfl, e⟩
      · rfl
      · simp [Val.floatOr, Val.toFloat, e]
      · simp [Val.floatOr, Val.toFloat, e]
    have hg : x.getUnit str!"arrh_a" = .ok (some u) := by
      unfold Rx.getUnit
      rw [show rxUnits.get? str!"arrh_a" = some none by decide, hk.unit, hu]
      rfl
    refine ⟨y, u, hy, h0, hu, ?_, ?_⟩
    · unfold Rx.getArrhA
      rw [hf]
      rfl
    · unfold Rx.getArrhA
      rw [hf]
      simp only [bind, Except.bind, if_true, hg, pure, Except.pure]
      rw [if_pos hm]
  have htot : ∃ o, x.getArrhA C true = .ok o := by
    by_cases hz : (attrs.get? str!"arrh_a").getD .null = .null
    · exact ⟨_, hnone true hz⟩
    · cases e : attrs.get? str!"arrh_a" with
      | none => rw [e] at hz; exact (hz rfl).elim
      | some v =>
        rw [e] at hz
        obtain ⟨y, u, -, -, -, -, g⟩ := hsome v e hz
        exact ⟨_, g⟩
  obtain ⟨b, hb⟩ := isElectron_total (C := C) (x := x) (by rw [hk.reactants]; exact fun s g => (hs.answers s (List.mem_append_left _ g)).1)
  have hb' := isElectron_ok hb
  rw [hk.reactants] at hb'
  refine ⟨hnone, hsome, fun a ha => ?_, fun a ha => ?_, fun a ha => ?_, ?_, ?_, b, hb, hb'⟩
  · have hm : a ∈ rxNumbers := by rcases ha with rfl | rfl <;> decide
    rw [← hun, ← floatOr_error none (hnum a hm)]
    unfold Rx.getArrh
    obtain ⟨o, ho⟩ := htot
    cases (x.attr a).floatOr C none with
    | error e => exact ⟨fun _ => ⟨e, rfl⟩, fun _ => ⟨e, rfl⟩⟩
    | ok f =>
      refine ⟨fun ⟨e, he⟩ => ?_, fun ⟨e, he⟩ => (by cases he)⟩
      cases f with
      | some y => cases he
      | none =>
        simp only [bind, Except.bind, ho, pure, Except.pure] at he
        cases o <;> cases he
  · have hm : a ∈ rxNumbers := by rcases ha with rfl | rfl <;> decide
    rw [← hun, ← floatOr_error (some (C.lit 0)) (hnum a hm)]
    rfl
  · have hm : a ∈ rxIntegers := by rcases ha with rfl | rfl <;> decide
    rw [← hst, ← intOr_error none (hint a hm)]
    rfl
  · rw [← hst, ← intOr_error none (hint _ (by decide))]
    unfold Rx.getSpecial
    cases (x.attr str!"special_number").intOr C none with
    | error e => exact ⟨fun _ => ⟨e, rfl⟩, fun _ => ⟨e, rfl⟩⟩
    | ok f =>
      refine ⟨fun ⟨e, he⟩ => ?_, fun ⟨e, he⟩ => (by cases he)⟩
      cases f with
      | some y => cases he
      | none =>
        simp only [bind, Except.bind, hb, pure, Except.pure] at he
        cases b <;> cases he
  · unfold Rx.getElastic
    obtain ⟨l, hl⟩ := Classify.collect_ok (f := fun s : Rp F => s.getName C) (l := x.reactants)
      (by rw [hk.reactants]; exact fun s g => (hs.answers s (List.mem_append_left _ g)).1)
    obtain ⟨r, hr⟩ := Classify.collect_ok (f := fun s : Rp F => s.getName C) (l := x.products)
      (by rw [hk.products]; exact fun s g => (hs.answers s (List.mem_append_right _ g)).1)
    split
    · rw [hl, hr]; exact ⟨_, rfl⟩
    · exact ⟨_, rfl⟩
    · exact ⟨_, rfl⟩
    · exact ⟨_, rfl⟩

/-- **C109.** Neither the order of the reactants, nor that of the products, nor that of the attributes matters. -/
theorem rx_init_perm {C : Codec F} {A : Str → Option (Dict Str Nat)} (hA : GoodParser A) {id : Int} {rs rs' ps ps' : List (Rp F)}
    {attrs attrs' : Dict Str (Val F)} {units units' : Dict Str Str} (hr : rs.Perm rs') (hp : ps.Perm ps')
    (ha : ∀ a, attrs.get? a = attrs'.get? a) (hu : ∀ a, units.get? a = units'.get? a)
    (h : ∃ x, Rx.init C A id rs ps attrs units = .ok x) : ∃ x, Rx.init C A id rs' ps' attrs' units' = .ok x := by
  have hs := (rx_init_iff C hA).1 h
  have hka : ∀ a, a ∈ attrs'.keys ↔ a ∈ attrs.keys := fun a => by
    rw [← not_iff_not, ← get?_none_iff, ← get?_none_iff, ha]
  have hku : ∀ a, a ∈ units'.keys ↔ a ∈ units.keys := fun a => by
    rw [← not_iff_not, ← get?_none_iff, ← get?_none_iff, hu]
  refine (rx_init_iff C hA).2 ?_
  obtain ⟨h1, h2, h3, h4, h5, h6, h7, h8, h9, h10, h11, h12, h13, h14, h15, h16, h17⟩ := hs
  simp only [ha, hu] at h4 h6 h7 h8 h9 h12 h13 h14
  simp only [← hka, ← hku] at h5 h10 h11
  simp only [hr.length_eq] at h2 h12
  simp only [hr.mem_iff] at h13
  refine ⟨h1, h2, fun e => h3 (by rw [e] at hp; exact hp.eq_nil), h4, h5, h6, h7, h8, h9, h10, h11, h12, h13, h14, ?_, ?_, ?_⟩
  · exact fun s hsm => h15 s ((hr.append hp).mem_iff.2 hsm)
  · rw [← (hr.map _).sum_eq, ← (hp.map _).sum_eq]; exact h16
  · intro el
    rw [← (hr.map _).sum_eq, ← (hp.map _).sum_eq]; exact h17 el

/-! ### Cases -/

namespace RxInitDemo
open Verif.Plaschem.DemoX

/-- the ionisation of argon -/
example : SoundRx C DemoR.F 7 [e, Ar] [e, e, ArP] xAttrs xUnits := (rx_init_iff C DemoR.goodF).1 ⟨_, init_x⟩
example : KeepsRx 7 [e, Ar] [e, e, ArP] xAttrs xUnits x := rx_init_keeps init_x
/-- with the sides in another order -/
example : ∃ y, Rx.init C DemoR.F 7 [Ar, e] [e, ArP, e] xAttrs.reverse xUnits.reverse = .ok y :=
  rx_init_perm DemoR.goodF (.swap _ _ _) (.cons _ (.swap _ _ _))
    (fun a => by
      by_cases h1 : a = str!"arrh_a"
      · subst h1; decide +kernel
      by_cases h2 : a = str!"arrh_c"
      · subst h2; decide +kernel
      by_cases h3 : a = str!"el_en_loss"
      · subst h3; decide +kernel
      by_cases h4 : a = str!"elastic"
      · subst h4; decide +kernel
      rw [(get?_none_iff _ _).2, (get?_none_iff _ _).2] <;> simp [xAttrs, Dict.keys, h1, h2, h3, h4])
    (fun a => by
      by_cases h1 : a = str!"arrh_a"
      · subst h1; decide +kernel
      by_cases h2 : a = str!"arrh_c"
      · subst h2; decide +kernel
      rw [(get?_none_iff _ _).2, (get?_none_iff _ _).2] <;> simp [xUnits, Dict.keys, h1, h2])
    ⟨_, init_x⟩
/-- an electron less -/
example : ¬ SoundRx C DemoR.F 7 [e, Ar] [e, ArP] xAttrs xUnits := fun h => absurd h.charge (by decide +kernel)
/-- an activation energy in K -/
example : ¬ SoundRx C DemoR.F 7 [e, Ar] [e, e, ArP] xAttrs [(str!"arrh_a", str!"cm3.s-1"), (str!"arrh_c", str!"K")] := fun h =>
  absurd ((h.activation (.int 15) (by decide +kernel) (by decide)).1 ⟨e, by simp, rfl⟩) (by decide +kernel)
/-- a factor with the unit of three bodies -/
example : ¬ SoundRx C DemoR.F 7 [e, Ar] [e, e, ArP] xAttrs [(str!"arrh_a", str!"m6.s-1"), (str!"arrh_c", str!"eV")] := fun h =>
  absurd ((h.factor (.float 3) (by decide +kernel) (by decide)).2.2.1 rfl) (by decide +kernel)

/-- Finding: a text that is no number is accepted for the exponent, and only the getter raises; a reaction with `None` for its special
number and without Arrhenius parameters is accepted, although nothing gives it a rate. -/
theorem accepted_but_unusable_rx :
    (∃ y : Rx Int, Rx.init C DemoR.F 7 [e, Ar] [e, Ar]
        [(str!"arrh_a", .float 3), (str!"arrh_b", .str str!"half")] [(str!"arrh_a", str!"m3.s-1")] = .ok y ∧
      ∃ err, y.getArrh C str!"arrh_b" = .error err) ∧
    ∃ y : Rx Int, Rx.init C DemoR.F 7 [e, Ar] [e, Ar] [(str!"special_number", .null)] [] = .ok y ∧
      y.getArrhA C true = .ok none :=
  ⟨⟨_, rfl, _, rfl⟩, ⟨_, rfl, rfl⟩⟩

/-- Finding: a text that is no number is refused for the factor, but not with the exception for wrong attributes. -/
theorem unreadable_factor : Rx.init C DemoR.F 7 [e, Ar] [e, Ar]
    [(str!"arrh_a", .str str!"many")] [(str!"arrh_a", str!"m3.s-1")] = .error .valueError := by rfl

end RxInitDemo

end Verif.Plaschem.Xml
