/-
Species written to an XML file and read back.
-/
import Verif.Plaschem.XmlLemmas
import Verif.Plaschem.XmlSpec

namespace Verif.Plaschem.Xml
open Verif.Plaschem

variable {F : Type} {C : Codec F}

/-! ### answers that are kept -/

/-- an answer is kept -/
def Keeps {α : Type} (x y : Except Err α) : Prop := ∀ v, x = .ok v → y = .ok v

namespace Keeps
variable {α β : Type}

theorem refl (x : Except Err α) : Keeps x x := fun _ h => h

theorem of_eq {x y : Except Err α} (h : y = x) : Keeps x y := h ▸ refl x

theorem bind {x y : Except Err α} {f g : α → Except Err β} (h : Keeps x y) (hf : ∀ a, Keeps (f a) (g a)) :
    Keeps (x >>= f) (y >>= g) := by
  intro v hv
  cases x with
  | error e => cases hv
  | ok a => rw [h a rfl]; exact hf a v hv

theorem map {x y : Except Err α} (f : α → β) (h : Keeps x y) : Keeps (x.map f) (y.map f) := by
  intro v hv
  cases x with
  | error e => cases hv
  | ok a => rw [h a rfl]; exact hv

theorem ite {p : Prop} [Decidable p] {x y x' y' : Except Err α} (h : Keeps x y) (h' : Keeps x' y') :
    Keeps (if p then x else x') (if p then y else y') := by
  split
  · exact h
  · exact h'

theorem collect {f : α → Except Err β} {g : α → Except Err β} (l : List α) (k : α → α)
    (h : ∀ a ∈ l, Keeps (f a) (g (k a))) : Keeps (Classify.collect f l) (Classify.collect g (l.map k)) := by
  induction l with
  | nil => exact refl _
  | cons a l ih =>
    intro v hv
    unfold Classify.collect at hv
    rw [List.map_cons]
    unfold Classify.collect
    cases ha : f a with
    | error e => rw [ha] at hv; cases hv
    | ok b =>
      rw [ha] at hv
      rw [h a (by simp) b ha]
      simp only at hv ⊢
      cases hl : Classify.collect f l with
      | error e => rw [hl] at hv; cases hv
      | ok bs => rw [hl] at hv; rw [ih (fun c hc => h c (List.mem_cons_of_mem _ hc)) bs hl]; exact hv

end Keeps

/-! ### values -/

/-- a value after it was written and read -/
def Val.reread (C : Codec F) (v : Val F) : Val F := if v.present then .str (v.text C) else .null

theorem Val.text_ne (hC : C.Lawful) {v : Val F} (h : v ≠ .str []) : v.text C ≠ [] := by
  cases v with
  | null => simp [Val.text]
  | str s => intro h'; exact h (by rw [show s = [] from h'])
  | int n => exact hC.intText n
  | float x => exact hC.floatText x
  | bool b => cases b <;> simp [Val.text]

theorem Val.present_iff {v : Val F} : v.present = true ↔ v ≠ .null ∧ v ≠ .str [] := by
  cases v <;> simp [Val.present]

theorem Val.present_of_ne {v : Val F} (h : v ≠ .str []) : v.present = v.isSome := by
  cases v <;> simp_all [Val.present, Val.isSome]

theorem Val.isSome_iff {v : Val F} : v.isSome = true ↔ v ≠ .null := by
  cases v <;> simp [Val.isSome]

theorem Val.optText_reread {v : Val F} (h : v ≠ .str []) : (v.reread C).optText C = v.optText C := by
  cases v <;> simp_all [Val.reread, Val.present, Val.optText, Val.text]

theorem Val.toFloat_text (hC : C.Lawful) {v : Val F} (h : ∀ b, v ≠ .bool b) (hn : v ≠ .null) :
    Keeps (v.toFloat C) (Val.toFloat C (.str (v.text C))) := by
  intro w hw
  cases v with
  | null => exact absurd rfl hn
  | str s => exact hw
  | int n =>
    simp only [Val.toFloat] at hw
    cases ho : C.ofInt n with
    | none => rw [ho] at hw; cases hw
    | some x =>
      rw [ho] at hw
      simp only [Val.toFloat, Val.text, hC.intFloat n x ho]
      exact hw
  | float x => simp only [Val.toFloat, Val.text, hC.float]; exact hw
  | bool b => exact absurd rfl (h b)

theorem Val.floatOr_reread (hC : C.Lawful) {v : Val F} (h : v ≠ .str []) (hf : v.fits .number = true) (d : Option F) :
    Keeps (v.floatOr C d) ((v.reread C).floatOr C d) := by
  by_cases hn : v = .null
  · subst hn; exact Keeps.refl _
  · have hp : v.present = true := Val.present_iff.2 ⟨hn, h⟩
    have hb : ∀ b, v ≠ .bool b := by rintro b rfl; simp [Val.fits] at hf
    have e : v.reread C = .str (v.text C) := by rw [Val.reread, if_pos hp]
    rw [e]
    intro w hw
    have key := Val.toFloat_text hC hb hn
    have e1 : v.floatOr C d = match v.toFloat C with
        | .ok x => .ok (some x)
        | .error e => .error e := by
      cases v <;> first | rfl | exact absurd rfl hn
    rw [e1] at hw
    cases ht : v.toFloat C with
    | error e => rw [ht] at hw; cases hw
    | ok x => rw [ht] at hw; simp only [Val.floatOr, key x ht]; exact hw

theorem Val.intOr_reread (hC : C.Lawful) {v : Val F} (h : v ≠ .str []) (hf : v.fits .integer = true) (d : Option Int) :
    (v.reread C).intOr C d = v.intOr C d := by
  cases v with
  | null => rfl
  | str s =>
    have : s ≠ [] := fun e => h (by rw [e])
    simp [Val.reread, Val.present, this, Val.text]
  | int n => simp [Val.reread, Val.present, Val.text, Val.intOr, Val.toInt, hC.int]
  | float x => simp [Val.fits] at hf
  | bool b => simp [Val.fits] at hf

/-! ### instances -/

/-- what holds of every species instance -/
structure Rp.Valid (rp : Rp F) : Prop where
  fits : ∀ a k, rpKinds.get? a = some k → (rp.attr a).fits k = true
  other : ∀ a, rpKinds.get? a = none → rp.attr a = .null
  units : ∀ a, rp.attr a ≠ .null → rp.unit a = none ∨ rp.unit a = rpUnits.get? a
  dict : ∀ d, rp.ret = some d → IsDict d

theorem Rp.valid_blank (id : Nat) : (Rp.blank id : Rp F).Valid :=
  ⟨fun _ _ _ => rfl, fun _ _ => rfl, fun _ h => absurd rfl h, fun _ h => by cases h⟩

theorem Rp.valid_set {rp rp' : Rp F} {a : Str} {v : Val F} {u : Option Str} (h : rp.Valid)
    (hs : rp.set a v u = .ok rp') : rp'.Valid := by
  unfold Rp.set at hs
  by_cases c1 : v.isSome = true ∧ u ≠ none ∧ rpUnits.get? a ≠ u
  · rw [if_pos c1] at hs; cases hs
  rw [if_neg c1] at hs
  cases hk : rpKinds.get? a with
  | none => rw [hk] at hs; cases hs
  | some k =>
    rw [hk] at hs
    simp only at hs
    by_cases c2 : v.fits k = true
    · rw [if_pos c2] at hs
      cases hs
      refine ⟨?_, ?_, ?_, h.dict⟩
      · intro b j hj
        by_cases hb : b = a
        · subst hb
          rw [hk] at hj
          cases hj
          simpa using c2
        · simpa [Function.update_of_ne hb] using h.fits b j hj
      · intro b hb
        have : b ≠ a := by rintro rfl; rw [hk] at hb; cases hb
        simpa [Function.update_of_ne this] using h.other b hb
      · intro b hb
        by_cases e : b = a
        · subst e
          simp only [Function.update_self] at hb ⊢
          by_cases hu : u = none
          · exact Or.inl hu
          · right
            by_contra hne
            exact c1 ⟨Val.isSome_iff.2 hb, hu, fun h' => hne h'.symm⟩
        · simp only [Function.update_of_ne e] at hb ⊢
          exact h.units b hb
    · rw [if_neg c2] at hs; cases hs

theorem Rp.valid_setRet {rp rp' : Rp F} {d : Option (Dict Str (Val F))} {u : Option Str} (h : rp.Valid)
    (hd : ∀ e, d = some e → IsDict e) (hs : rp.setRet d u = .ok rp') : rp'.Valid := by
  unfold Rp.setRet at hs
  by_cases c1 : d ≠ none ∧ u ≠ none
  · rw [if_pos c1] at hs; cases hs
  rw [if_neg c1] at hs
  cases hs
  refine ⟨h.fits, h.other, ?_, hd⟩
  intro a ha
  have : a ≠ str!"ret_coefs" := by
    rintro rfl
    exact ha (h.other _ (by decide))
  simp only [Function.update_of_ne this]
  exact h.units a ha

theorem Rp.valid_setAll {attrs : Dict Str (Val F)} {ret : Option (Dict Str (Val F))} {units : Dict Str Str}
    (hd : ∀ e, ret = some e → IsDict e) (l : List Str) {rp rp' : Rp F} (h : rp.Valid)
    (hs : Rp.setAll attrs ret units l rp = .ok rp') : rp'.Valid := by
  induction l generalizing rp with
  | nil => cases hs; exact h
  | cons a l ih =>
    unfold Rp.setAll at hs
    by_cases c : a = str!"ret_coefs"
    · rw [if_pos c] at hs
      cases hq : rp.setRet ret (units.get? a) with
      | error e => rw [hq] at hs; cases hs
      | ok rp1 => rw [hq] at hs; exact ih (Rp.valid_setRet h hd hq) hs
    · rw [if_neg c] at hs
      cases hq : rp.set a (given attrs a) (units.get? a) with
      | error e => rw [hq] at hs; cases hs
      | ok rp1 => rw [hq] at hs; exact ih (Rp.valid_set h hq) hs

theorem RpReach.valid {rp : Rp F} (h : RpReach C rp) : rp.Valid := by
  induction h with
  | @new id attrs ret units rp hd hi =>
    unfold Rp.init at hi
    repeat' split at hi
    all_goals first | (cases hi) | skip
    refine Rp.valid_setAll ?_ _ (Rp.valid_blank _) hi
    intro e he
    cases ret with
    | none => cases he
    | some r => exact hd e (by rw [← he]; rfl)
  | set _ hs ih => exact Rp.valid_set ih hs
  | setRet _ hd hs ih => exact Rp.valid_setRet ih hd hs

/-! ### setting all attributes -/

theorem Rp.setAll_ok {attrs : Dict Str (Val F)} {ret : Option (Dict Str (Val F))} {units : Dict Str Str}
    (l : List Str) (rp : Rp F) (hr : units.get? str!"ret_coefs" = none)
    (hu : ∀ a ∈ l, units.get? a = none ∨ rpUnits.get? a = units.get? a)
    (hk : ∀ a ∈ l, a ≠ str!"ret_coefs" → ∃ k, rpKinds.get? a = some k ∧ (given attrs a).fits k = true) :
    ∃ rp', Rp.setAll attrs ret units l rp = .ok rp' ∧ rp'.id = rp.id ∧
      (∀ a, rp'.attr a = if a ∈ l ∧ a ≠ str!"ret_coefs" then given attrs a else rp.attr a) ∧
      (rp'.ret = if str!"ret_coefs" ∈ l then ret else rp.ret) ∧
      (∀ a, rp'.unit a = if a ∈ l then units.get? a else rp.unit a) := by
  induction l generalizing rp with
  | nil => exact ⟨rp, rfl, rfl, fun a => by simp, by simp, fun a => by simp⟩
  | cons b l ih =>
    have hu' := fun a ha => hu a (List.mem_cons_of_mem b ha)
    have hk' := fun a ha => hk a (List.mem_cons_of_mem b ha)
    unfold Rp.setAll
    by_cases c : b = str!"ret_coefs"
    · rw [if_pos c]
      have e : rp.setRet ret (units.get? b) =
          .ok { rp with ret := ret, unit := Function.update rp.unit str!"ret_coefs" (units.get? b) } := by
        unfold Rp.setRet
        rw [if_neg (by rw [c, hr]; simp)]
      rw [e]
      obtain ⟨rp', h1, h2, h3, h4, h5⟩ := ih
        { rp with ret := ret, unit := Function.update rp.unit str!"ret_coefs" (units.get? b) } hu' hk'
      refine ⟨rp', h1, h2, ?_, ?_, ?_⟩
      · intro a
        rw [h3 a]
        by_cases ha : a = b
        · subst ha; simp [c]
        · simp [ha]
      · rw [h4]; simp [c]
      · intro a
        rw [h5 a]
        by_cases ha : a = b
        · subst ha
          by_cases hl : a ∈ l
          · simp [hl]
          · simp [hl, c]
        · have : a ≠ str!"ret_coefs" := c ▸ ha
          by_cases hl : a ∈ l
          · simp [hl]
          · simp [hl, ha, Function.update_of_ne this]
    · rw [if_neg c]
      obtain ⟨k, hkk, hf⟩ := hk b (by simp) c
      have e : rp.set b (given attrs b) (units.get? b) =
          .ok { rp with attr := Function.update rp.attr b (given attrs b),
                        unit := Function.update rp.unit b (units.get? b) } := by
        unfold Rp.set
        rw [if_neg, hkk]
        · simp only [hf, if_true]
        · rintro ⟨_, h1, h2⟩
          rcases hu b (by simp) with h | h
          · exact h1 h
          · exact h2 h
      rw [e]
      obtain ⟨rp', h1, h2, h3, h4, h5⟩ := ih { rp with attr := Function.update rp.attr b (given attrs b),
                                                       unit := Function.update rp.unit b (units.get? b) } hu' hk'
      refine ⟨rp', h1, h2, ?_, ?_, ?_⟩
      · intro a
        rw [h3 a]
        by_cases ha : a = b
        · subst ha
          by_cases hl : a ∈ l
          · simp [hl, c]
          · simp [hl, c]
        · by_cases hl : a ∈ l
          · simp [hl, ha]
          · simp [hl, ha, Function.update_of_ne ha]
      · rw [h4]
        simp [Ne.symm c]
      · intro a
        rw [h5 a]
        by_cases ha : a = b
        · subst ha
          by_cases hl : a ∈ l
          · simp [hl]
          · simp [hl]
        · by_cases hl : a ∈ l
          · simp [hl]
          · simp [hl, ha, Function.update_of_ne ha]

/-! ### the element of a species -/

/-- the element written for an instance -/
def Rp.elem (C : Codec F) (rp : Rp F) : Elem := rpElem C rp.id rp.attrs rp.ret rp.units

theorem Rp.given_attrs {rp : Rp F} (h : rp.Valid) (a : Str) : given rp.attrs a = rp.attr a := by
  unfold given Rp.attrs
  rw [get?_mapKeys]
  by_cases ha : a ∈ Dict.keys rpKinds
  · rw [if_pos ha]; rfl
  · rw [if_neg ha, h.other a ((get?_none_iff _ _).2 ha)]; rfl

theorem get?_mapSnd {κ α β : Type} [DecidableEq κ] (d : Dict κ α) (f : κ → α → β) (a : κ) :
    Dict.get? (d.map fun p => (p.1, f p.1 p.2)) a = (Dict.get? d a).map (f a) := by
  induction d with
  | nil => rfl
  | cons p d ih =>
    obtain ⟨b, w⟩ := p
    rw [List.map_cons, Dict.get?_cons, Dict.get?_cons, ih]
    by_cases hb : b = a
    · subst hb; simp
    · rw [if_neg hb, if_neg hb]

/-- the unit written for an attribute -/
theorem Rp.get?_units (rp : Rp F) (a : Str) :
    Dict.get? rp.units a = (rpUnits.get? a).map fun d => (rp.unit a).getD d :=
  get?_mapSnd rpUnits (fun a d => (rp.unit a).getD d) a

/-- the text of a sub-element after writing and reading -/
theorem fileText_some {s : Str} (h : s ≠ []) : fileText (some s) = some s := by
  unfold fileText
  split
  · rename_i h'; exact absurd (Option.some.inj h') h
  · rfl

/-- the sub-elements of the element of a species, after writing and reading -/
def Rp.sub (C : Codec F) (rp : Rp F) (a : Str) : Option Sub :=
  if a = str!"ret_coefs" then
    rp.ret.map fun d => { tag := a, rs := d.map fun p => (p.1, fileText (some (p.2.text C))) }
  else if (rp.attr a).present then
    some { tag := a, unit := Dict.get? rp.units a, text := some ((rp.attr a).text C) }
  else none

theorem Rp.elem_file (hC : C.Lawful) {rp : Rp F} (h : rp.Valid) :
    (rp.elem C).file = { id := C.showI rp.id, subs := rpAttributes.filterMap (rp.sub C) } := by
  unfold Rp.elem rpElem Elem.file
  simp only [List.map_filterMap]
  congr 2
  funext a
  unfold Rp.sub
  by_cases c : a = str!"ret_coefs"
  · simp only [c, if_true]
    cases rp.ret with
    | none => rfl
    | some d => simp [fileText]
  · rw [if_neg c, if_neg c, Rp.given_attrs h]
    by_cases hp : (rp.attr a).present = true
    · rw [if_pos hp]
      simp [fileText_some (Val.text_ne hC (Val.present_iff.1 hp).2)]
    · rw [if_neg hp]; rfl

theorem Rp.sub_tag {rp : Rp F} {a : Str} {s : Sub} (h : rp.sub C a = some s) : s.tag = a := by
  unfold Rp.sub at h
  split at h
  · cases hr : rp.ret with
    | none => rw [hr] at h; cases h
    | some d => rw [hr] at h; cases h; rfl
  · split at h
    · cases h; rfl
    · cases h

theorem filterMap_tags_nodup {f : Str → Option Sub} (hf : ∀ a s, f a = some s → s.tag = a) {l : List Str}
    (hl : l.Nodup) : ((l.filterMap f).map Sub.tag).Nodup := by
  have : (l.filterMap f).map Sub.tag = l.filter (fun a => (f a).isSome) := by
    induction l with
    | nil => rfl
    | cons a l ih =>
      rw [List.filterMap_cons]
      cases h : f a with
      | none => simpa [h] using ih (List.nodup_cons.1 hl).2
      | some s => simp [h, ih (List.nodup_cons.1 hl).2, hf a s h]
  rw [this]
  exact hl.filter _

/-- the dictionary of texts, for sub-elements given by their tags -/
theorem texts_filterMap {f : Str → Option Sub} (hf : ∀ a s, f a = some s → s.tag = a) {l : List Str}
    (hl : l.Nodup) (skip : List Str) (id : Str) :
    (Elem.texts ⟨id, l.filterMap f⟩ skip : Dict Str (Val F)) =
      l.filterMap fun a => (if a ∈ skip then none else (f a).map fun s => textVal s.text).map (Prod.mk a) := by
  unfold Elem.texts
  have hn : (((l.filterMap f).filter (fun s => s.tag ∉ skip)).map Sub.tag).Nodup :=
    (filterMap_tags_nodup hf hl).sublist (List.Sublist.map _ List.filter_sublist)
  have := foldl_set (α := Val F) Sub.tag (fun s => some (textVal s.text)) _ [] hn (by simp [Dict.keys])
  simp only [Option.map_some, List.nil_append, Option.elim_some] at this
  rw [this, List.filter_filterMap, List.filterMap_filterMap]
  congr 1
  funext a
  cases h : f a with
  | none => simp
  | some s =>
    have ht := hf a s h
    by_cases hs : a ∈ skip
    · simp [ht, hs, Option.filter]
    · simp [ht, hs, Option.filter]

/-- the dictionary of units -/
theorem units_filterMap {f : Str → Option Sub} (hf : ∀ a s, f a = some s → s.tag = a) {l : List Str}
    (hl : l.Nodup) (id : Str) :
    (Elem.units ⟨id, l.filterMap f⟩) = l.filterMap fun a => ((f a).bind Sub.unit).map (Prod.mk a) := by
  unfold Elem.units
  have := foldl_set (α := Str) Sub.tag Sub.unit _ [] (filterMap_tags_nodup hf hl) (by simp [Dict.keys])
  rw [this, List.nil_append, List.filterMap_filterMap]
  congr 1
  funext a
  cases h : f a with
  | none => rfl
  | some s => simp [hf a s h]

/-- finding a sub-element -/
theorem find_filterMap {f : Str → Option Sub} (hf : ∀ a s, f a = some s → s.tag = a) (l : List Str) (id a : Str) :
    Elem.find ⟨id, l.filterMap f⟩ a = if a ∈ l then f a else none := by
  unfold Elem.find
  simp only
  induction l with
  | nil => rfl
  | cons b l ih =>
    rw [List.filterMap_cons]
    cases h : f b with
    | none =>
      simp only [ih, List.mem_cons]
      by_cases hb : a = b
      · subst hb; simp [h]
      · simp [hb]
    | some s =>
      have ht := hf b s h
      by_cases hb : a = b
      · subst hb; simp [ht, h]
      · rw [List.find?_cons_of_neg (by simp [ht, Ne.symm hb]), ih]
        simp [hb]

/-! ### reading the element -/

theorem rpAttributes_nodup : rpAttributes.Nodup := by decide

theorem Rp.given_texts {rp : Rp F} (h : rp.Valid) (a : Str) (id : Str) :
    given (Elem.texts ⟨id, rpAttributes.filterMap (rp.sub C)⟩ [str!"ret_coefs"]) a = (rp.attr a).reread C := by
  rw [texts_filterMap (fun _ _ => Rp.sub_tag) rpAttributes_nodup]
  unfold given
  rw [get?_filterMap]
  by_cases hr : a = str!"ret_coefs"
  · subst hr
    rw [h.other _ (by decide)]
    simp [Val.reread, Val.present]
  · by_cases ha : a ∈ rpAttributes
    · rw [if_pos ha, if_neg (by simpa using hr)]
      unfold Rp.sub Val.reread
      rw [if_neg hr]
      split <;> rfl
    · rw [if_neg ha]
      have : rpKinds.get? a = none := by
        rw [get?_none_iff]
        intro h'
        exact ha ((by decide : ∀ k ∈ Dict.keys rpKinds, k ∈ rpAttributes) a h')
      rw [h.other a this]
      rfl

theorem Rp.get?_texts {rp : Rp F} {a : Str} (ha : a ∈ rpAttributes) (hr : a ≠ str!"ret_coefs") (id : Str) :
    (Dict.get? (Elem.texts ⟨id, rpAttributes.filterMap (rp.sub C)⟩ [str!"ret_coefs"] : Dict Str (Val F)) a).isNone =
      !(rp.attr a).present := by
  rw [texts_filterMap (fun _ _ => Rp.sub_tag) rpAttributes_nodup, get?_filterMap, if_pos ha,
    if_neg (by simpa using hr)]
  unfold Rp.sub
  rw [if_neg hr]
  cases (rp.attr a).present <;> rfl

theorem Rp.keys_texts {rp : Rp F} {a : Str} (id : Str) :
    a ∈ Dict.keys (Elem.texts ⟨id, rpAttributes.filterMap (rp.sub C)⟩ [str!"ret_coefs"] : Dict Str (Val F)) ↔
      a ∈ rpAttributes ∧ a ≠ str!"ret_coefs" ∧ (rp.attr a).present = true := by
  rw [texts_filterMap (fun _ _ => Rp.sub_tag) rpAttributes_nodup, keys_filterMap, List.mem_filter]
  refine and_congr_right fun _ => ?_
  by_cases hr : a = str!"ret_coefs"
  · simp [hr]
  · rw [if_neg (by simpa using hr)]
    unfold Rp.sub
    rw [if_neg hr]
    cases (rp.attr a).present <;> simp [hr]

theorem Rp.get?_file_units {rp : Rp F} (a : Str) (id : Str) :
    Dict.get? (Elem.units ⟨id, rpAttributes.filterMap (rp.sub C)⟩) a =
      if a ∈ rpAttributes ∧ a ≠ str!"ret_coefs" ∧ (rp.attr a).present = true then
        (rpUnits.get? a).map fun d => (rp.unit a).getD d else none := by
  rw [units_filterMap (fun _ _ => Rp.sub_tag) rpAttributes_nodup, get?_filterMap]
  by_cases ha : a ∈ rpAttributes
  · rw [if_pos ha]
    unfold Rp.sub
    by_cases hr : a = str!"ret_coefs"
    · rw [if_pos hr, if_neg (by simp [hr])]
      cases rp.ret <;> rfl
    · rw [if_neg hr]
      by_cases hp : (rp.attr a).present = true
      · rw [if_pos hp, if_pos ⟨ha, hr, hp⟩, Option.bind_some, Rp.get?_units]
      · rw [if_neg hp, if_neg (by simp [hp])]; rfl
  · rw [if_neg ha, if_neg (by simp [ha])]

/-- return coefficients after writing and reading -/
def rereadRet (C : Codec F) (d : Dict Str (Val F)) : Dict Str (Val F) :=
  d.map fun p => (p.1, textVal (fileText (some (p.2.text C))))

/-- The files that can be read back: exactly those of species with a name without angle brackets, a mass unless the
name is M, and a stateless name if there is a state. -/
def Rp.Readable (rp : Rp F) : Prop :=
  (∃ n, rp.attr str!"name" = .str n ∧ n ≠ [] ∧ '<' ∉ n ∧ '>' ∉ n) ∧
  (rp.attr str!"name" = .str str!"M" ∨ (rp.attr str!"mass").present = true) ∧
  ((rp.attr str!"state").present = true → (rp.attr str!"stateless").present = true)

theorem Rp.parse_elem (hC : C.Lawful) {rp : Rp F} (h : rp.Valid) (hr : rp.Readable) :
    ∃ rp', parseRp C (rp.elem C).file = .ok rp' ∧ rp'.id = rp.id ∧
      (∀ a, rp'.attr a = (rp.attr a).reread C) ∧ rp'.ret = rp.ret.map (rereadRet C) ∧
      (∀ a, rp'.unit a = if (rp.attr a).present = true then (rpUnits.get? a).map fun d => (rp.unit a).getD d
        else none) := by
  obtain ⟨⟨n, hn, hne, hlt, hgt⟩, hm, hs⟩ := hr
  rw [Rp.elem_file hC h]
  unfold parseRp
  simp only [hC.int]
  have hfind : Elem.find ⟨C.showI rp.id, rpAttributes.filterMap (rp.sub C)⟩ str!"ret_coefs" =
      rp.sub C str!"ret_coefs" := by
    rw [find_filterMap (fun _ _ => Rp.sub_tag), if_pos (by decide)]
  have hret : ((rp.sub C str!"ret_coefs").map fun s : Sub =>
      some (s.rs.foldl (fun (d : Dict Str (Val F)) p => d.set p.1 (textVal p.2)) [])) =
      rp.ret.map fun d => some (rereadRet C d) := by
    unfold Rp.sub
    rw [if_pos rfl]
    cases hr : rp.ret with
    | none => rfl
    | some d =>
      have hd := h.dict d hr
      have e := foldl_set (α := Val F) (β := Str × Option Str) Prod.fst (fun p => some (textVal p.2))
        (d.map fun p => (p.1, fileText (some (p.2.text C)))) [] (by
          rw [List.map_map]; exact hd) (by simp [Dict.keys])
      simp only [Option.map_some, List.nil_append, Option.elim_some] at e
      simp only [Option.map_some, e, rereadRet]
      rw [show (fun x : Str × Option Str => some (x.1, (textVal x.2 : Val F))) =
        some ∘ fun x => (x.1, textVal x.2) from rfl, List.filterMap_eq_map, List.map_map]
      rfl
  rw [hfind, hret]
  unfold Rp.init
  have hid : ¬ ((rp.id : Int) < 0) := by omega
  have hg : ∀ a, given (Elem.texts ⟨C.showI rp.id, rpAttributes.filterMap (rp.sub C)⟩ [str!"ret_coefs"]) a =
      (rp.attr a).reread C := fun a => Rp.given_texts h a _
  have hname : (rp.attr str!"name").reread C = .str n := by
    rw [hn]; simp [Val.reread, Val.present, hne, Val.text]
  rw [if_neg hid, if_neg]
  · rw [hg, hname]
    simp only
    rw [if_neg (by simp [hlt, hgt]), if_neg, if_neg]
    · obtain ⟨rp', h1, h2, h3, h4, h5⟩ := Rp.setAll_ok
        (attrs := Elem.texts ⟨C.showI rp.id, rpAttributes.filterMap (rp.sub C)⟩ [str!"ret_coefs"])
        (ret := rp.ret.map (rereadRet C))
        (units := Elem.units ⟨C.showI rp.id, rpAttributes.filterMap (rp.sub C)⟩)
        rpAttributes (Rp.blank (rp.id : Int).toNat) (by rw [Rp.get?_file_units, if_neg (by simp)]) (by
          intro a _
          rw [Rp.get?_file_units]
          split
          · rename_i hc
            right
            cases hu : rpUnits.get? a with
            | none => rfl
            | some d =>
              have hv := h.units a (Val.present_iff.1 hc.2.2).1
              rcases hv with hv | hv
              · simp [hv]
              · simp [hv, hu]
          · exact Or.inl rfl) (by
          intro a ha hne
          have : rpKinds.get? a ≠ none := by
            rw [Ne, get?_none_iff, not_not]
            exact (by decide : ∀ k ∈ rpAttributes, k ≠ str!"ret_coefs" → k ∈ Dict.keys rpKinds) a ha hne
          obtain ⟨k, hk⟩ := Option.ne_none_iff_exists'.1 this
          refine ⟨k, hk, ?_⟩
          rw [hg]
          unfold Val.reread
          split <;> simp [Val.fits])
      refine ⟨rp', ?_, by rw [h2]; simp [Rp.blank], ?_, by rw [h4, if_pos (by decide)], ?_⟩
      · rw [← h1]
        congr 1
        cases rp.ret <;> rfl
      · intro a
        rw [h3 a, hg]
        split
        · rfl
        · rename_i hc
          have : rpKinds.get? a = none := by
            rw [get?_none_iff]
            intro h'
            exact hc ((by decide : ∀ k ∈ Dict.keys rpKinds, k ∈ rpAttributes ∧ k ≠ str!"ret_coefs") a h')
          rw [h.other a this]
          rfl
      · intro a
        rw [h5 a, Rp.get?_file_units]
        by_cases hp : (rp.attr a).present = true
        · rw [if_pos hp]
          have hk : a ∈ Dict.keys rpKinds := by
            by_contra hk
            rw [h.other a ((get?_none_iff _ _).2 hk)] at hp
            cases hp
          obtain ⟨h6, h7⟩ := (by decide : ∀ k ∈ Dict.keys rpKinds, k ∈ rpAttributes ∧ k ≠ str!"ret_coefs") a hk
          rw [if_pos h6, if_pos ⟨h6, h7, hp⟩]
        · rw [if_neg hp]
          rw [if_neg (c := a ∈ rpAttributes ∧ _) (by simp [hp])]
          split <;> rfl
    · rintro ⟨a, ha, hb⟩
      obtain ⟨v, hv⟩ := (Dict.mem_keys_iff _ _).1 ha
      rw [Rp.get?_file_units] at hv
      split at hv
      · rename_i hc
        rcases hb with hb | hb
        · rw [(get?_none_iff _ _).2 hb] at hv; cases hv
        · exact hb ((Rp.keys_texts _).2 hc)
      · cases hv
    · rintro ⟨a, ha, hb⟩
      exact hb ((Rp.keys_texts _).1 ha).1
  · rw [Rp.get?_texts (by decide) (by decide), Rp.get?_texts (by decide) (by decide),
      Rp.get?_texts (by decide) (by decide), hg, hg, hname, hn]
    rintro (h1 | ⟨h1, h2⟩ | ⟨h1, h2⟩)
    · simp [Val.present, hne] at h1
    · have hp : (rp.attr str!"state").present = true := by
        unfold Val.reread at h1
        by_contra hp
        rw [if_neg hp] at h1
        simp [Val.truthy] at h1
      rw [hs hp] at h2
      simp at h2
    · rcases hm with hm | hm
      · rw [hn] at hm
        exact h1 (by simpa [Val.isStr] using hm)
      · rw [hm] at h2; simp at h2

/-! ### what the instance read back answers -/

/-- `rp'` is `rp` written and read -/
structure Reread (C : Codec F) (rp rp' : Rp F) : Prop where
  id : rp'.id = rp.id
  attr : ∀ a, rp'.attr a = (rp.attr a).reread C
  ret : rp'.ret = rp.ret.map (rereadRet C)
  unit : ∀ a, rp'.unit a = if (rp.attr a).present = true then (rpUnits.get? a).map fun d => (rp.unit a).getD d
    else none

section answers
variable {rp rp' : Rp F} (hC : C.Lawful) (hv : rp.Valid) (hw : Writable C rp) (h : Reread C rp rp')
include hw h

theorem Reread.getName : rp'.getName C = rp.getName C := by
  obtain ⟨n, hn, -⟩ := hw.name
  have hne : n ≠ [] := fun e => hw.filled str!"name" (by rw [hn, e])
  unfold Rp.getName
  rw [h.attr, hn]
  simp [Val.reread, Val.present, hne, Val.text]

theorem Reread.isSpecial : rp'.isSpecial C = rp.isSpecial C := by
  unfold Rp.isSpecial
  rw [h.getName hw]

theorem Reread.optText (a : Str) : (rp'.attr a).optText C = (rp.attr a).optText C := by
  rw [h.attr, Val.optText_reread (hw.filled a)]

theorem Reread.getState : rp'.getState C = rp.getState C := by
  unfold Rp.getState
  rw [h.isSpecial hw, h.optText hw]

theorem Reread.getStateless : rp'.getStateless C = rp.getStateless C := by
  unfold Rp.getStateless
  rw [h.isSpecial hw, h.optText hw, h.getName hw, h.getState hw]

include hC hv

theorem Reread.floatOr {a : Str} (ha : rpKinds.get? a = some .number) (d : Option F) :
    Keeps ((rp.attr a).floatOr C d) ((rp'.attr a).floatOr C d) := by
  rw [h.attr]
  exact Val.floatOr_reread hC (hw.filled a) (hv.fits a _ ha) d

theorem Reread.intOr {a : Str} (ha : rpKinds.get? a = some .integer) (d : Option Int) :
    (rp'.attr a).intOr C d = (rp.attr a).intOr C d := by
  rw [h.attr]
  exact Val.intOr_reread hC (hw.filled a) (hv.fits a _ ha) d

theorem Reread.getMass : Keeps (rp.getMass C) (rp'.getMass C) := by
  unfold Rp.getMass
  rw [h.getName hw]
  refine Keeps.bind (Keeps.refl _) fun n => Keeps.ite (Keeps.refl _) ?_
  exact Keeps.bind (h.floatOr hC hv hw rfl none) fun _ => Keeps.refl _

theorem Reread.getCharge : rp'.getCharge C = rp.getCharge C := by
  unfold Rp.getCharge
  rw [h.getName hw, h.intOr hC hv hw rfl]

theorem Reread.getFloat {a : Str} (ha : rpKinds.get? a = some .number) (d : ℚ) :
    Keeps (rp.getFloat C a d) (rp'.getFloat C a d) := by
  unfold Rp.getFloat
  rw [h.isSpecial hw]
  refine Keeps.bind (Keeps.refl _) fun n => Keeps.ite (Keeps.refl _) ?_
  exact h.floatOr hC hv hw ha _

theorem Reread.isGround : rp'.isGround C = rp.isGround C := by
  unfold Rp.isGround
  rw [h.getState hw, h.getCharge hC hv hw]

theorem Reread.getStick : Keeps (rp.getStick C) (rp'.getStick C) := by
  unfold Rp.getStick
  rw [h.isSpecial hw, h.isGround hC hv hw]
  refine Keeps.bind (Keeps.refl _) fun n => Keeps.ite (Keeps.refl _) ?_
  exact Keeps.bind (h.floatOr hC hv hw rfl none) fun _ => Keeps.refl _

theorem Reread.getRet : Keeps (rp.getRet C) (rp'.getRet C) := by
  unfold Rp.getRet
  rw [h.isSpecial hw, h.isGround hC hv hw, h.getStateless hw, h.ret]
  refine Keeps.bind (Keeps.refl _) fun n => Keeps.ite (Keeps.refl _) ?_
  cases hr : rp.ret with
  | none => exact Keeps.refl _
  | some d =>
    simp only [Option.map_some, rereadRet]
    refine Keeps.bind (Keeps.collect d _ ?_) fun _ => Keeps.refl _
    intro p hp v hv'
    have hb := hw.coefs d hr p hp
    obtain ⟨k, w⟩ := p
    simp only at hb hv' ⊢
    cases hx : w.toFloat C with
    | error e => rw [hx] at hv'; cases hv'
    | ok x =>
      rw [hx] at hv'
      have hn : w ≠ .null := by rintro rfl; cases hx
      have he : w ≠ .str [] := by rintro rfl; simp [Val.toFloat, hC.empty] at hx
      rw [fileText_some (Val.text_ne hC he), textVal, Val.toFloat_text hC hb hn x hx]
      exact hv'

omit hC hv in
theorem Reread.getLatex (T : Str → Except Err Str) : rp'.getLatex C T = rp.getLatex C T := by
  unfold Rp.getLatex
  rw [h.optText hw, h.getName hw]

omit hC hv in
theorem Reread.getAtoms (A : Str → Option (Dict Str Nat)) : rp'.getAtoms C A = rp.getAtoms C A := by
  unfold Rp.getAtoms
  rw [h.getName hw, h.getStateless hw]

theorem Reread.core (oid : Nat) : rp'.core C oid = rp.core C oid := by
  unfold Rp.core
  rw [h.getName hw, h.optText hw, h.optText hw, h.intOr hC hv hw rfl, h.id]

theorem Reread.same (A : Str → Option (Dict Str Nat)) (T : Str → Except Err Str) : SameRp C A T rp rp' := by
  refine ⟨h.id, ?_, ?_⟩
  · intro q
    change Keeps (rp.ask C A T q) (rp'.ask C A T q)
    cases q <;> simp only [Rp.ask] <;> refine Keeps.map _ ?_
    · exact Keeps.of_eq (h.getName hw)
    · exact Keeps.of_eq (h.getStateless hw)
    · exact Keeps.of_eq (h.getState hw)
    · exact h.getMass hC hv hw
    · exact Keeps.of_eq (h.getCharge hC hv hw)
    · exact h.getFloat hC hv hw rfl _
    · exact h.getFloat hC hv hw rfl _
    · exact h.getFloat hC hv hw rfl _
    · exact Keeps.of_eq (by unfold Rp.getText; rw [h.optText hw])
    · exact Keeps.of_eq (h.intOr hC hv hw rfl none)
    · exact h.getStick hC hv hw
    · exact h.getRet hC hv hw
    · exact Keeps.of_eq (by unfold Rp.getText; rw [h.optText hw])
    · exact Keeps.of_eq (h.getLatex hw T)
    · exact Keeps.of_eq (h.getAtoms hw A)
    · exact Keeps.of_eq (h.isSpecial hw)
  · intro a ha
    unfold Rp.getUnit
    rw [h.unit, Val.present_of_ne (hw.filled a), if_pos ha]
    cases rpUnits.get? a <;> simp

end answers

theorem Writable.readable {rp : Rp F} (hw : Writable C rp) : rp.Readable := by
  have hp : ∀ a, rp.attr a ≠ .null → (rp.attr a).present = true := fun a ha => Val.present_iff.2 ⟨ha, hw.filled a⟩
  refine ⟨?_, hw.mass.imp id (hp _), ?_⟩
  · obtain ⟨n, hn, h1, h2⟩ := hw.name
    exact ⟨n, hn, fun e => hw.filled str!"name" (by rw [hn, e]), h1, h2⟩
  · intro hs
    rcases hw.stateless with h | h
    · rw [h] at hs; cases hs
    · exact hp _ h

/-- A species that is written comes back. -/
theorem rp_comes_back (hC : C.Lawful) {rp : Rp F} (hr : RpReach C rp) (hw : Writable C rp) :
    ∃ rp', parseRp C (rp.elem C).file = .ok rp' ∧ Reread C rp rp' := by
  obtain ⟨rp', h1, h2, h3, h4, h5⟩ := Rp.parse_elem hC hr.valid hw.readable
  exact ⟨rp', h1, h2, h3, h4, h5⟩

end Verif.Plaschem.Xml
