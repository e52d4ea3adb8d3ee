/-
Property C100: exactly which arguments the constructor of a species accepts (plaschem/species.py:76-166), what the species keeps
of them, and which getters can raise afterwards.
-/
import Verif.Plaschem.XmlRp
import Verif.Plaschem.XmlDemo

namespace Verif.Plaschem.Xml
open Verif.Plaschem
variable {F : Type}

/-! ### Specification -/

/-- attributes that are texts -/
def texts : List Str := [str!"name", str!"stateless", str!"state", str!"hpem_name", str!"comments", str!"latex"]
/-- attributes that are numbers -/
def numbers : List Str := [str!"mass", str!"h_form", str!"lj_epsilon", str!"lj_sigma", str!"stick_coef"]
/-- attributes that are integers -/
def integers : List Str := [str!"charge", str!"qdb_id"]

/-- What the arguments of a species have to satisfy. -/
structure SoundRp (id : Int) (attrs : Dict Str (Val F)) (units : Dict Str Str) : Prop where
  id : 0 ≤ id
  name : ∃ n, attrs.get? str!"name" = some (.str n) ∧ '<' ∉ n ∧ '>' ∉ n
  mass : attrs.get? str!"mass" ≠ none ∨ attrs.get? str!"name" = some (.str str!"M")
  /-- species with a state have to say what they are without it -/
  stateless : ∀ s, attrs.get? str!"state" = some (.str s) → s ≠ [] → attrs.get? str!"stateless" ≠ none
  known : ∀ a ∈ attrs.keys, a ∈ texts ∨ a ∈ numbers ∨ a ∈ integers
  text : ∀ a ∈ texts, ∀ v, attrs.get? a = some v → v = .null ∨ ∃ s, v = .str s
  number : ∀ a ∈ numbers, ∀ v, attrs.get? a = some v → v = .null ∨ (∃ s, v = .str s) ∨ (∃ n, v = .int n) ∨ ∃ x, v = .float x
  integer : ∀ a ∈ integers, ∀ v, attrs.get? a = some v → v = .null ∨ (∃ s, v = .str s) ∨ ∃ n, v = .int n
  /-- a unit is given only beside a value, and is the right one -/
  unit : ∀ a u, units.get? a = some u → a ∈ attrs.keys ∧
    (a = str!"mass" ∨ a = str!"charge" ∨ a = str!"h_form" ∨ a = str!"lj_epsilon" ∨ a = str!"lj_sigma") ∧
    (attrs.get? a ≠ some .null → (a, u) ∈ [(str!"mass", str!"amu"), (str!"charge", str!"e"), (str!"h_form", str!"eV"),
      (str!"lj_epsilon", str!"K"), (str!"lj_sigma", str!"A")])

/-- the species keeps what was passed; what was not passed is `None` -/
structure KeepsRp (id : Int) (attrs : Dict Str (Val F)) (ret : Option (Option (Dict Str (Val F)))) (units : Dict Str Str)
    (rp : Rp F) : Prop where
  id : (rp.id : Int) = id
  attr : ∀ a, rp.attr a = (attrs.get? a).getD .null
  ret : rp.ret = ret.join
  unit : ∀ a, rp.unit a = units.get? a

/-- a text or an integer that is no float -/
def Unreadable (C : Codec F) (v : Val F) : Prop :=
  (∃ s, v = .str s ∧ C.readF s = none) ∨ ∃ n, v = .int n ∧ C.ofInt n = none

/-! ### Proofs -/

/-- what `set_species_attribute` asks of an attribute -/
private def Fine (attrs : Dict Str (Val F)) (ret : Option (Dict Str (Val F))) (units : Dict Str Str) (a : Str) : Prop :=
  if a = str!"ret_coefs" then ret = none ∨ units.get? a = none
  else (given attrs a = .null ∨ units.get? a = none ∨ rpUnits.get? a = units.get? a) ∧
    ∃ k, rpKinds.get? a = some k ∧ (given attrs a).fits k = true

private theorem setAll_iff {attrs : Dict Str (Val F)} {ret : Option (Dict Str (Val F))} {units : Dict Str Str} (l : List Str) (rp : Rp F) :
    (∃ rp', Rp.setAll attrs ret units l rp = .ok rp') ↔ ∀ a ∈ l, Fine attrs ret units a := by
  induction l generalizing rp with
  | nil => exact ⟨fun _ a h => (by cases h), fun _ => ⟨rp, rfl⟩⟩
  | cons b l ih =>
    rw [List.forall_mem_cons]
    unfold Rp.setAll
    by_cases c : b = str!"ret_coefs"
    · rw [if_pos c]
      unfold Rp.setRet
      have hF : Fine attrs ret units b ↔ ret = none ∨ units.get? b = none := by unfold Fine; rw [if_pos c]
      rw [hF]
      by_cases d : ret ≠ none ∧ units.get? b ≠ none
      · rw [if_pos d]
        exact ⟨fun ⟨_, h⟩ => (by cases h), fun ⟨h, _⟩ => (h.elim d.1 d.2).elim⟩
      · rw [if_neg d]
        simp only
        rw [ih]
        refine ⟨fun h => ⟨?_, h⟩, fun h => h.2⟩
        by_contra hc
        rw [not_or] at hc
        exact d hc
    · rw [if_neg c]
      unfold Rp.set
      have hF : Fine attrs ret units b ↔ (given attrs b = .null ∨ units.get? b = none ∨ rpUnits.get? b = units.get? b) ∧
        ∃ k, rpKinds.get? b = some k ∧ (given attrs b).fits k = true := by unfold Fine; rw [if_neg c]
      rw [hF]
      by_cases d : (given attrs b).isSome = true ∧ units.get? b ≠ none ∧ rpUnits.get? b ≠ units.get? b
      · rw [if_pos d]
        refine ⟨fun ⟨_, h⟩ => (by cases h), fun ⟨⟨h, _⟩, _⟩ => ?_⟩
        rcases h with h | h | h
        · exact (Val.isSome_iff.1 d.1 h).elim
        · exact (d.2.1 h).elim
        · exact (d.2.2 h).elim
      · rw [if_neg d]
        have d' : given attrs b = .null ∨ units.get? b = none ∨ rpUnits.get? b = units.get? b := by
          by_contra hc
          rw [not_or, not_or] at hc
          exact d ⟨Val.isSome_iff.2 hc.1, hc.2⟩
        cases hk : rpKinds.get? b with
        | none =>
          refine ⟨fun ⟨_, h⟩ => (by cases h), fun ⟨⟨_, k, h, _⟩, _⟩ => (by cases h)⟩
        | some k =>
          simp only
          by_cases hf : (given attrs b).fits k = true
          · rw [if_pos hf]
            simp only
            rw [ih]
            exact ⟨fun h => ⟨⟨d', k, rfl, hf⟩, h⟩, fun h => h.2⟩
          · rw [if_neg hf]
            refine ⟨fun ⟨_, h⟩ => (by cases h), fun ⟨⟨_, k', h, h'⟩, _⟩ => ?_⟩
            cases h
            exact (hf h').elim

private theorem setAll_keeps {attrs : Dict Str (Val F)} {ret : Option (Dict Str (Val F))} {units : Dict Str Str} (l : List Str)
    {rp rp' : Rp F} (h : Rp.setAll attrs ret units l rp = .ok rp') : rp'.id = rp.id ∧
      (∀ a, rp'.attr a = if a ∈ l ∧ a ≠ str!"ret_coefs" then given attrs a else rp.attr a) ∧
      (rp'.ret = if str!"ret_coefs" ∈ l then ret else rp.ret) ∧
      (∀ a, rp'.unit a = if a ∈ l then units.get? a else rp.unit a) := by
  induction l generalizing rp with
  | nil => cases h; exact ⟨rfl, fun a => by simp, by simp, fun a => by simp⟩
  | cons b l ih =>
    unfold Rp.setAll at h
    by_cases c : b = str!"ret_coefs"
    · rw [if_pos c] at h
      unfold Rp.setRet at h
      split at h
      · cases h
      · rename_i rp₁ h₁
        split at h₁
        · cases h₁
        · cases h₁
          obtain ⟨h2, h3, h4, h5⟩ := ih h
          refine ⟨h2, fun a => ?_, ?_, fun a => ?_⟩
          · rw [h3]
            by_cases ha : a = b
            · subst ha; simp [c]
            · simp [ha]
          · rw [h4]; subst c; simp
          · rw [h5]
            subst c
            by_cases hal : a ∈ l
            · simp [hal]
            · by_cases ha : a = str!"ret_coefs" <;> simp [hal, ha]
    · rw [if_neg c] at h
      unfold Rp.set at h
      split at h
      · cases h
      · rename_i rp₁ h₁
        split at h₁
        · cases h₁
        · split at h₁
          · cases h₁
          · split at h₁
            · cases h₁
              obtain ⟨h2, h3, h4, h5⟩ := ih h
              refine ⟨h2, fun a => ?_, ?_, fun a => ?_⟩
              · rw [h3]
                by_cases hal : a ∈ l ∧ a ≠ str!"ret_coefs"
                · simp [hal]
                · rw [if_neg hal]
                  by_cases ha : a = b
                  · subst ha; simp [c]
                  · simp [ha] at hal ⊢
                    intro h1 h2
                    exact (h2 (hal h1)).elim
              · rw [h4]
                have : (str!"ret_coefs" ∈ b :: l) ↔ str!"ret_coefs" ∈ l := by simp [Ne.symm c]
                simp only [this]
              · rw [h5]
                by_cases hal : a ∈ l
                · simp [hal]
                · by_cases ha : a = b <;> simp [hal, ha]
            · cases h₁

private theorem attr_kinds {a : Str} (h : a ∈ rpAttributes) :
    a ∈ texts ∨ a ∈ numbers ∨ a ∈ integers ∨ a = str!"ret_coefs" :=
  (by decide : ∀ a ∈ rpAttributes, a ∈ texts ∨ a ∈ numbers ∨ a ∈ integers ∨ a = str!"ret_coefs") a h

private theorem kinds_attr {a : Str} (h : a ∈ texts ∨ a ∈ numbers ∨ a ∈ integers) : a ∈ rpAttributes ∧ a ≠ str!"ret_coefs" := by
  rcases h with h | h | h
  · exact (by decide : ∀ a ∈ texts, a ∈ rpAttributes ∧ a ≠ str!"ret_coefs") a h
  · exact (by decide : ∀ a ∈ numbers, a ∈ rpAttributes ∧ a ≠ str!"ret_coefs") a h
  · exact (by decide : ∀ a ∈ integers, a ∈ rpAttributes ∧ a ≠ str!"ret_coefs") a h

private theorem kind_text {a : Str} (h : a ∈ texts) : rpKinds.get? a = some .text :=
  (by decide : ∀ a ∈ texts, rpKinds.get? a = some .text) a h
private theorem kind_number {a : Str} (h : a ∈ numbers) : rpKinds.get? a = some .number :=
  (by decide : ∀ a ∈ numbers, rpKinds.get? a = some .number) a h
private theorem kind_integer {a : Str} (h : a ∈ integers) : rpKinds.get? a = some .integer :=
  (by decide : ∀ a ∈ integers, rpKinds.get? a = some .integer) a h

private theorem unit_pairs {a u : Str} : (a, u) ∈ [(str!"mass", str!"amu"), (str!"charge", str!"e"), (str!"h_form", str!"eV"),
      (str!"lj_epsilon", str!"K"), (str!"lj_sigma", str!"A")] ↔ rpUnits.get? a = some u := by
  change (a, u) ∈ rpUnits ↔ _
  constructor
  · intro h
    exact (by decide : ∀ p ∈ rpUnits, rpUnits.get? p.1 = some p.2) _ h
  · intro h
    unfold Dict.get? at h
    obtain ⟨p, hp, rfl⟩ := Option.map_eq_some_iff.1 h
    have h1 := List.mem_of_find?_eq_some hp
    have h2 := List.find?_some hp
    simp only [beq_iff_eq] at h2
    subst h2
    exact h1

private theorem unit_keys {a : Str} : (a = str!"mass" ∨ a = str!"charge" ∨ a = str!"h_form" ∨ a = str!"lj_epsilon" ∨ a = str!"lj_sigma") ↔
    a ∈ Dict.keys rpUnits := by simp [rpUnits, Dict.keys]

private theorem given_some {attrs : Dict Str (Val F)} {a : Str} {v : Val F} (h : attrs.get? a = some v) : given attrs a = v := by
  unfold given; rw [h]; rfl

private theorem given_ne {attrs : Dict Str (Val F)} {a : Str} (h : given attrs a ≠ .null) : attrs.get? a = some (given attrs a) := by
  unfold given at h ⊢
  cases e : attrs.get? a with
  | none => rw [e] at h; exact (h rfl).elim
  | some v => rfl

private theorem fits_text {v : Val F} : v.fits .text = true ↔ v = .null ∨ ∃ s, v = .str s := by cases v <;> simp [Val.fits]
private theorem fits_number {v : Val F} :
    v.fits .number = true ↔ v = .null ∨ (∃ s, v = .str s) ∨ (∃ n, v = .int n) ∨ ∃ x, v = .float x := by
  cases v <;> simp [Val.fits]
private theorem fits_integer {v : Val F} : v.fits .integer = true ↔ v = .null ∨ (∃ s, v = .str s) ∨ ∃ n, v = .int n := by
  cases v <;> simp [Val.fits]

/-- **C100.** The constructor of a species accepts exactly the sound arguments. -/
theorem rp_init_iff (C : Codec F) {id : Int} {attrs : Dict Str (Val F)} {ret : Option (Option (Dict Str (Val F)))}
    {units : Dict Str Str} (hr : str!"ret_coefs" ∉ attrs.keys) :
    (∃ rp, Rp.init C id attrs ret units = .ok rp) ↔ SoundRp id attrs units := by
  constructor
  · rintro ⟨rp, h⟩
    unfold Rp.init at h
    by_cases c1 : id < 0
    · rw [if_pos c1] at h; cases h
    rw [if_neg c1] at h
    split at h
    · cases h
    rename_i c2
    simp only [not_or, not_and] at c2
    obtain ⟨hn, hst, hm⟩ := c2
    split at h
    case h_2 => cases h
    rename_i n hgn
    split at h
    · cases h
    rename_i c3
    rw [not_or] at c3
    split at h
    · cases h
    rename_i c4
    split at h
    · cases h
    rename_i c5
    have hall := (setAll_iff rpAttributes _).1 ⟨rp, h⟩
    have hfine : ∀ a, a ∈ texts ∨ a ∈ numbers ∨ a ∈ integers → ∃ k, rpKinds.get? a = some k ∧ (given attrs a).fits k = true := by
      intro a ha
      obtain ⟨h1, h2⟩ := kinds_attr ha
      have := hall a h1
      unfold Fine at this
      rw [if_neg h2] at this
      exact this.2
    have hname : attrs.get? str!"name" = some (.str n) := by rw [given_ne (by rw [hgn]; simp), hgn]
    have hknown : ∀ a ∈ attrs.keys, a ∈ texts ∨ a ∈ numbers ∨ a ∈ integers := by
      intro a ha
      have : a ∈ rpAttributes := by
        by_contra hc
        exact c4 ⟨a, ha, hc⟩
      rcases attr_kinds this with h | h | h | h
      · exact .inl h
      · exact .inr (.inl h)
      · exact .inr (.inr h)
      · exact (hr (h ▸ ha)).elim
    refine ⟨by omega, ⟨n, hname, c3.1, c3.2⟩, ?_, ?_, hknown, ?_, ?_, ?_, ?_⟩
    · by_cases hM : n = str!"M"
      · exact .inr (hM ▸ hname)
      · left
        have := hm (by rw [hgn]; simp [Val.isStr, hM])
        intro hc
        rw [hc] at this
        simp at this
    · intro s hs hne hc
      have := hst (by rw [given_some hs]; simpa [Val.truthy] using hne)
      rw [hc] at this
      simp at this
    · intro a ha v hv
      obtain ⟨k, hk, hf⟩ := hfine a (.inl ha)
      rw [kind_text ha] at hk
      cases hk
      rw [given_some hv] at hf
      exact fits_text.1 hf
    · intro a ha v hv
      obtain ⟨k, hk, hf⟩ := hfine a (.inr (.inl ha))
      rw [kind_number ha] at hk
      cases hk
      rw [given_some hv] at hf
      exact fits_number.1 hf
    · intro a ha v hv
      obtain ⟨k, hk, hf⟩ := hfine a (.inr (.inr ha))
      rw [kind_integer ha] at hk
      cases hk
      rw [given_some hv] at hf
      exact fits_integer.1 hf
    · intro a u hu
      have hau : a ∈ units.keys := by
        by_contra hc
        rw [(get?_none_iff _ _).2 hc] at hu
        cases hu
      have h1 : a ∈ Dict.keys rpUnits ∧ a ∈ attrs.keys := by
        by_contra hc
        rw [not_and_or] at hc
        exact c5 ⟨a, hau, hc⟩
      refine ⟨h1.2, unit_keys.2 h1.1, fun hne => unit_pairs.2 ?_⟩
      obtain ⟨h2, h3⟩ := kinds_attr (hknown a h1.2)
      have := hall a h2
      unfold Fine at this
      rw [if_neg h3] at this
      rcases this.1 with h | h | h
      · exfalso
        cases e : attrs.get? a with
        | none => exact (get?_none_iff _ _).1 e h1.2
        | some v =>
          rw [given_some e] at h
          rw [e, h] at hne
          exact hne rfl
      · rw [hu] at h; cases h
      · rw [h, hu]
  · intro hs
    obtain ⟨n, hname, hlt, hgt⟩ := hs.name
    have hunit : ∀ a ∈ units.keys, a ∈ Dict.keys rpUnits ∧ a ∈ attrs.keys := by
      intro a ha
      cases e : units.get? a with
      | none => exact ((get?_none_iff _ _).1 e ha).elim
      | some u => exact ⟨unit_keys.1 (hs.unit a u e).2.1, (hs.unit a u e).1⟩
    unfold Rp.init
    rw [if_neg (not_lt.2 hs.id), if_neg]
    · simp only [given_some hname]
      rw [if_neg (by rw [not_or]; exact ⟨hlt, hgt⟩), if_neg, if_neg]
      · rw [setAll_iff]
        intro a ha
        unfold Fine
        by_cases c : a = str!"ret_coefs"
        · rw [if_pos c]
          right
          cases e : units.get? a with
          | none => rfl
          | some u =>
            have := (hs.unit a u e).2.1
            subst c
            exact absurd this (by decide)
        · rw [if_neg c]
          constructor
          · cases e : units.get? a with
            | none => exact .inr (.inl rfl)
            | some u =>
              obtain ⟨h1, -, h3⟩ := hs.unit a u e
              by_cases hz : attrs.get? a = some .null
              · exact .inl (given_some hz)
              · exact .inr (.inr (unit_pairs.1 (h3 hz)))
          · have hcase : ∀ {p : Val F → Prop}, p .null → (∀ v, attrs.get? a = some v → p v) → p (given attrs a) := by
              intro p h0 h1
              by_cases hz : given attrs a = .null
              · rw [hz]; exact h0
              · exact h1 _ (given_ne hz)
            rcases attr_kinds ha with h | h | h | h
            · exact ⟨_, kind_text h, hcase (p := fun v => v.fits .text = true) rfl fun v hv => fits_text.2 (hs.text a h v hv)⟩
            · exact ⟨_, kind_number h, hcase (p := fun v => v.fits .number = true) rfl fun v hv => fits_number.2 (hs.number a h v hv)⟩
            · exact ⟨_, kind_integer h, hcase (p := fun v => v.fits .integer = true) rfl fun v hv => fits_integer.2 (hs.integer a h v hv)⟩
            · exact (c h).elim
      · rintro ⟨a, ha, h | h⟩
        · exact h (hunit a ha).1
        · exact h (hunit a ha).2
      · rintro ⟨a, ha, h⟩
        exact h (kinds_attr (hs.known a ha)).1
    · rintro (h | ⟨h1, h2⟩ | ⟨h1, h2⟩)
      · rw [hname] at h; cases h
      · have hne : given attrs str!"state" ≠ .null := by
          intro e
          rw [e] at h1
          cases h1
        have e := given_ne hne
        rcases hs.text _ (by decide) _ e with h | ⟨s, h⟩
        · exact hne h
        · rw [h] at h1 e
          exact hs.stateless s e (by simpa [Val.truthy] using h1) (by simpa using h2)
      · rcases hs.mass with h | h
        · exact h (by simpa using h2)
        · rw [given_some h] at h1
          exact h1 (by simp [Val.isStr])

/-- **C100.** A species keeps what was passed. -/
theorem rp_init_keeps {C : Codec F} {id : Int} {attrs : Dict Str (Val F)} {ret : Option (Option (Dict Str (Val F)))}
    {units : Dict Str Str} (hr : str!"ret_coefs" ∉ attrs.keys) {rp : Rp F} (h : Rp.init C id attrs ret units = .ok rp) :
    KeepsRp id attrs ret units rp := by
  have hs := (rp_init_iff C hr).1 ⟨rp, h⟩
  unfold Rp.init at h
  by_cases c1 : id < 0
  · rw [if_pos c1] at h; cases h
  rw [if_neg c1] at h
  split at h
  · cases h
  split at h
  case h_2 => cases h
  split at h
  · cases h
  split at h
  · cases h
  split at h
  · cases h
  obtain ⟨h1, h2, h3, h4⟩ := setAll_keeps _ h
  refine ⟨?_, fun a => ?_, ?_, fun a => ?_⟩
  · rw [h1]
    change ((id.toNat : ℕ) : Int) = id
    omega
  · rw [h2]
    change _ = given attrs a
    by_cases ha : a ∈ attrs.keys
    · rw [if_pos (kinds_attr (hs.known a ha))]
    · have : given attrs a = .null := by unfold given; rw [(get?_none_iff _ _).2 ha]; rfl
      rw [this]
      split <;> rfl
  · rw [h3, if_pos (by decide)]
    cases ret with
    | none => rfl
    | some o => rfl
  · rw [h4]
    by_cases ha : a ∈ units.keys
    · cases e : units.get? a with
      | none => exact ((get?_none_iff _ _).1 e ha).elim
      | some u => rw [if_pos (kinds_attr (hs.known a (hs.unit a u e).1)).1]
    · rw [(get?_none_iff _ _).2 ha]
      split <;> rfl

private theorem toFloat_error {C : Codec F} {v : Val F} (hf : v.fits .number = true) (hv : v ≠ .null) :
    (∃ e, v.toFloat C = .error e) ↔ Unreadable C v := by
  unfold Unreadable
  cases v with
  | null => exact (hv rfl).elim
  | str s => cases h : C.readF s <;> simp [Val.toFloat, h]
  | int n => cases h : C.ofInt n <;> simp [Val.toFloat, h]
  | float x => simp [Val.toFloat]
  | bool b => cases hf

/-- **C100.** What can still go wrong with an accepted species: the mass is missing or is no number, the charge is no number, or there
is a state (an empty text counts) but no stateless name. -/
theorem getters_raise {C : Codec F} {id : Int} {attrs : Dict Str (Val F)} {ret : Option (Option (Dict Str (Val F)))}
    {units : Dict Str Str} (hr : str!"ret_coefs" ∉ attrs.keys) {rp : Rp F} (h : Rp.init C id attrs ret units = .ok rp) :
    ∃ n, attrs.get? str!"name" = some (.str n) ∧ rp.getName C = .ok n ∧ (∃ s, rp.getState C = .ok s) ∧
      ((∃ e, rp.getMass C = .error e) ↔ n ≠ str!"M" ∧ ∃ v, attrs.get? str!"mass" = some v ∧ (v = .null ∨ Unreadable C v)) ∧
      ((∃ e, rp.getCharge C = .error e) ↔ n ≠ str!"M" ∧ ∃ s, attrs.get? str!"charge" = some (.str s) ∧ C.readI s = none) ∧
      ((∃ e, rp.getStateless C = .error e) ↔ n ≠ str!"e" ∧ n ≠ str!"M" ∧
        (attrs.get? str!"stateless").getD .null = .null ∧ ∃ s, attrs.get? str!"state" = some (.str s)) := by
  have hs := (rp_init_iff C hr).1 ⟨rp, h⟩
  have hk := rp_init_keeps hr h
  obtain ⟨n, hname, -, -⟩ := hs.name
  have hN : rp.getName C = .ok n := by
    unfold Rp.getName
    rw [hk.attr, hname]
    rfl
  have hS : rp.isSpecial C = .ok (decide (n = str!"e" ∨ n = str!"M")) := by
    unfold Rp.isSpecial
    rw [hN]
    rfl
  refine ⟨n, hname, hN, ?_, ?_, ?_, ?_⟩
  · unfold Rp.getState
    rw [hS]
    simp only [bind, Except.bind, pure, Except.pure]
    split <;> exact ⟨_, rfl⟩
  · unfold Rp.getMass
    rw [hN]
    simp only [bind, Except.bind, pure, Except.pure]
    by_cases hM : n = str!"M"
    · rw [if_pos hM]
      exact ⟨fun ⟨e, he⟩ => (by cases he), fun he => (he.1 hM).elim⟩
    · rw [if_neg hM, hk.attr]
      have hm := hs.mass.resolve_right fun hc => hM (by rw [hname] at hc; simpa using hc)
      obtain ⟨v, hv⟩ := Option.ne_none_iff_exists'.1 hm
      have hf := fits_number.2 (hs.number str!"mass" (by decide) v hv)
      rw [hv]
      simp only [Option.getD_some, Option.some.injEq, exists_eq_left', ne_eq, hM, not_false_eq_true, true_and]
      by_cases hz : v = .null
      · subst hz
        exact ⟨fun _ => .inl rfl, fun _ => ⟨_, rfl⟩⟩
      · have hfo : v.floatOr C none = (v.toFloat C).map some := by
          cases v with
          | null => exact (hz rfl).elim
          | _ => simp only [Val.floatOr]; split <;> rename_i e <;> rw [e] <;> rfl
        rw [hfo, ← toFloat_error (C := C) hf hz]
        simp only [hz, false_or]
        cases e : v.toFloat C with
        | error e => exact ⟨fun _ => ⟨_, rfl⟩, fun _ => ⟨_, rfl⟩⟩
        | ok x => exact ⟨fun ⟨_, he⟩ => (by cases he), fun ⟨_, he⟩ => (by cases he)⟩
  · unfold Rp.getCharge
    rw [hN]
    simp only [bind, Except.bind, pure, Except.pure]
    by_cases hM : n = str!"M"
    · rw [if_pos hM]
      exact ⟨fun ⟨e, he⟩ => (by cases he), fun he => (he.1 hM).elim⟩
    · rw [if_neg hM, hk.attr]
      simp only [ne_eq, hM, not_false_eq_true, true_and]
      cases hc : attrs.get? str!"charge" with
      | none => exact ⟨fun ⟨e, he⟩ => (by cases he), fun ⟨s, he, _⟩ => (by cases he)⟩
      | some v =>
        rcases hs.integer str!"charge" (by decide) v hc with rfl | ⟨s, rfl⟩ | ⟨m, rfl⟩
        · exact ⟨fun ⟨e, he⟩ => (by cases he), fun ⟨s, he, _⟩ => (by cases he)⟩
        · cases hrd : C.readI s <;> simp [Val.intOr, Val.toInt, hrd]
        · exact ⟨fun ⟨e, he⟩ => (by cases he), fun ⟨s, he, _⟩ => (by cases he)⟩
  · unfold Rp.getStateless Rp.getState
    rw [hS, hN]
    simp only [bind, Except.bind, pure, Except.pure]
    by_cases hsp : n = str!"e" ∨ n = str!"M"
    · simp only [hsp, decide_true, if_true]
      refine ⟨fun ⟨e, he⟩ => (by cases he), fun ⟨h1, h2, _⟩ => (hsp.elim h1 h2).elim⟩
    · simp only [hsp, decide_false, Bool.false_eq_true, if_false]
      rw [not_or] at hsp
      simp only [ne_eq, hsp, not_false_eq_true, true_and]
      rw [hk.attr, hk.attr]
      have h1 : ∀ a ∈ texts, (attrs.get? a).getD .null = .null ∨ ∃ s, attrs.get? a = some (.str s) := by
        intro a ha
        cases e : attrs.get? a with
        | none => exact .inl rfl
        | some v =>
          rcases hs.text a ha v e with h | ⟨s, h⟩
          · exact .inl h
          · exact .inr ⟨s, by rw [h]⟩
      rcases h1 str!"stateless" (by decide) with e1 | ⟨s1, e1⟩
      · rw [e1]
        simp only [Val.optText, true_and]
        rcases h1 str!"state" (by decide) with e2 | ⟨s2, e2⟩
        · rw [e2]
          simp only [Val.optText]
          refine ⟨fun ⟨e, he⟩ => (by cases he), fun ⟨s, he⟩ => ?_⟩
          rw [he] at e2
          cases e2
        · rw [e2]
          exact ⟨fun _ => ⟨s2, rfl⟩, fun _ => ⟨.rpAttribute, rfl⟩⟩
      · rw [e1]
        simp [Val.optText]

/-! ### Cases -/

namespace InitDemo

/-- an excited argon atom -/
def attrs : Dict Str (Val Int) :=
  [(str!"name", .str str!"Ar*"), (str!"state", .str str!"4s"), (str!"stateless", .str str!"Ar"), (str!"mass", .int 40), (str!"charge", .str str!"0")]

def units : Dict Str Str := [(str!"mass", str!"amu")]

def accepts (attrs : Dict Str (Val Int)) (units : Dict Str Str) : Bool := (Rp.init Verif.Plaschem.DemoX.C 3 attrs none units).toOption.isSome

private theorem sound_of {attrs : Dict Str (Val Int)} {units : Dict Str Str} (hr : str!"ret_coefs" ∉ attrs.keys)
    (h : accepts attrs units = true) : SoundRp 3 attrs units := by
  refine (rp_init_iff Verif.Plaschem.DemoX.C (ret := none) hr).1 ?_
  unfold accepts at h
  cases e : Rp.init Verif.Plaschem.DemoX.C 3 attrs none units with
  | error e' => rw [e] at h; cases h
  | ok rp => exact ⟨rp, rfl⟩

example : SoundRp 3 attrs units := sound_of (by decide +kernel) (by decide +kernel)
/-- without the stateless name -/
example : ¬ SoundRp 3 (attrs.filter fun p => p.1 ≠ str!"stateless") units := fun h =>
  h.stateless str!"4s" (by decide +kernel) (by decide +kernel) (by decide +kernel)
/-- with a wrong unit -/
example : ¬ SoundRp 3 attrs [(str!"mass", str!"kg")] := fun h =>
  absurd ((h.unit str!"mass" str!"kg" (by decide +kernel)).2.2 (by decide +kernel)) (by decide +kernel)

/-- Finding: a species with an empty text as state is accepted without a stateless name, but its stateless name, and with it
its atoms, cannot be determined; a species with an explicit `None` for its mass is accepted. -/
theorem accepted_but_unusable : ∃ rp : Rp Int,
    Rp.init Verif.Plaschem.DemoX.C 3 [(str!"name", .str str!"Ar"), (str!"state", .str []), (str!"mass", .null)] none [] = .ok rp ∧
    (∃ e, rp.getStateless Verif.Plaschem.DemoX.C = .error e) ∧ (∃ e, rp.getMass Verif.Plaschem.DemoX.C = .error e) := by
  have hr : str!"ret_coefs" ∉ Dict.keys ([(str!"name", .str str!"Ar"), (str!"state", .str []), (str!"mass", .null)] : Dict Str (Val Int)) := by
    decide +kernel
  obtain ⟨rp, h⟩ := (rp_init_iff Verif.Plaschem.DemoX.C (ret := none) hr).2 (sound_of hr (by decide +kernel) : SoundRp 3 _ [])
  obtain ⟨n, hn, -, -, hm, -, hs⟩ := getters_raise hr h
  obtain rfl : n = str!"Ar" := by
    have : some (Val.str (F := Int) str!"Ar") = some (.str n) := hn
    simpa using this.symm
  exact ⟨rp, h, hs.2 ⟨by decide, by decide, rfl, [], rfl⟩, hm.2 ⟨by decide, .null, rfl, .inl rfl⟩⟩

end InitDemo

end Verif.Plaschem.Xml

namespace Verif.Plaschem

/-- **C100.** The same for the simplified constructor used elsewhere in the model. -/
theorem RP.init_iff {oid : Nat} {a : RPArgs} : (∃ s, RP.init oid a = .ok s) ↔
    0 ≤ a.id ∧ (∃ n, a.name = some (some n) ∧ '<' ∉ n ∧ '>' ∉ n) ∧ (a.mass ≠ none ∨ a.name = some (some str!"M")) ∧
    (∀ s, a.state = some (some s) → s ≠ [] → a.stateless ≠ none) ∧ a.unknown = [] := by
  have hst : a.lacksStateless = true ↔ ¬ ∀ s, a.state = some (some s) → s ≠ [] → a.stateless ≠ none := by
    unfold RPArgs.lacksStateless
    rcases a.state with _ | _ | _ | ⟨c, s⟩ <;> simp
  constructor
  · rintro ⟨s, h⟩
    unfold RP.init at h
    by_cases c1 : a.id < 0
    · rw [if_pos c1] at h; cases h
    rw [if_neg c1] at h
    by_cases c2 : a.name = none
    · rw [if_pos c2] at h; cases h
    rw [if_neg c2] at h
    by_cases c3 : a.lacksStateless = true
    · rw [if_pos c3] at h; cases h
    rw [if_neg c3] at h
    by_cases c4 : a.name ≠ some (some str!"M") ∧ a.mass = none
    · rw [if_pos c4] at h; cases h
    rw [if_neg c4] at h
    split at h
    · cases h
    · cases h
    · rename_i n hn
      split at h
      · cases h
      · rename_i hany
        split at h
        · cases h
        · rename_i hu
          simp only [List.any_eq_true, decide_eq_true_eq, not_exists, not_and, not_or] at hany
          refine ⟨by omega, ⟨n, hn, fun hc => (hany _ hc).1 rfl, fun hc => (hany _ hc).2 rfl⟩, ?_, ?_, by simpa using hu⟩
          · rw [not_and_or, not_not] at c4
            exact c4.symm
          · by_contra hc
            exact c3 (hst.2 hc)
  · rintro ⟨h1, ⟨n, hn, hlt, hgt⟩, hm, hs, hu⟩
    unfold RP.init
    rw [if_neg (by omega), if_neg (by rw [hn]; simp), if_neg (fun hc => hst.1 hc hs),
      if_neg (fun hc => hm.elim (fun g => g hc.2) (fun g => hc.1 g)), hn]
    simp only
    rw [if_neg, if_neg (not_not_intro hu)]
    · exact ⟨_, rfl⟩
    · simp only [List.any_eq_true, decide_eq_true_eq, not_exists, not_and, not_or]
      exact fun c hc => ⟨fun e => hlt (e ▸ hc), fun e => hgt (e ▸ hc)⟩

/-- **C100.** It keeps what was passed. -/
theorem RP.init_keeps {oid : Nat} {a : RPArgs} {s : RP} (h : RP.init oid a = .ok s) :
    (s.id : Int) = a.id ∧ some (some s.name) = a.name ∧ s.stateless = a.stateless.join ∧ s.state = a.state.join ∧
    s.mass = a.mass.join ∧ s.charge = a.charge.join ∧ s.stickCoef = a.stickCoef.join ∧ s.retCoefs = a.retCoefs.join ∧
    s.hpemName = a.hpemName.join ∧ s.oid = oid := by
  have h0 := (RP.init_iff.1 ⟨s, h⟩).1
  obtain ⟨-, ⟨n, hn, -, -⟩, -, -, -⟩ := RP.init_iff.1 ⟨s, h⟩
  unfold RP.init at h
  rw [hn] at h
  simp only at h
  split at h
  · cases h
  split at h
  · cases h
  split at h
  · cases h
  split at h
  · cases h
  split at h
  · cases h
  split at h
  · cases h
  cases h
  exact ⟨by simp only; omega, hn.symm, rfl, rfl, rfl, rfl, rfl, rfl, rfl, rfl⟩

end Verif.Plaschem
