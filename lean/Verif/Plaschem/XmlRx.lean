/-
Reactions written to an XML file and read back.
-/
import Verif.Plaschem.XmlRp

namespace Verif.Plaschem.Xml
open Verif.Plaschem

variable {F : Type} {C : Codec F} {A : Str → Option (Dict Str Nat)}

/-! ### setting attributes -/

/-- the checks of `set_reaction_attribute` for a reaction with these reactants -/
def Checks (C : Codec F) (rs : List (Rp F)) (a : Str) (v : Val F) (u : Option Str) : Prop :=
  ∃ y, Rx.set C ⟨0, rs, [], fun _ => .null, fun _ => none⟩ a v u = .ok y

theorem checkUnit_congr {x y : Rx F} (h : x.reactants = y.reactants) (a : Str) (u : Option Str) :
    x.checkUnit C a u = y.checkUnit C a u := by
  unfold Rx.checkUnit Rx.isElectron
  rw [h]

theorem Rx.set_iff {x x' : Rx F} {a : Str} {v : Val F} {u : Option Str} :
    x.set C a v u = .ok x' ↔ Checks C x.reactants a v u ∧
      x' = { x with attr := Function.update x.attr a v, unit := Function.update x.unit a u } := by
  have hc : x.checkUnit C a u = Rx.checkUnit C ⟨0, x.reactants, [], fun _ => .null, fun _ => none⟩ a u :=
    checkUnit_congr rfl a u
  unfold Checks Rx.set
  rw [hc]
  generalize (if v.isSome then Rx.checkUnit C ⟨0, x.reactants, [], fun _ => .null, fun _ => none⟩ a u
    else .ok () : Except Err Unit) = w
  cases w with
  | error e => simp
  | ok t =>
    cases rxKinds.get? a with
    | none => simp
    | some k =>
      simp only
      by_cases c : (a = str!"elastic" ∧ ¬ elasticOk v) ∨ ¬ v.fits k
      · simp only [if_pos c]; simp
      · simp only [if_neg c]
        generalize (if a = str!"arrh_a" then v.floatOr C none else .ok none) = f
        cases f with
        | error e => simp
        | ok f =>
          simp only
          by_cases c2 : ∃ y ∈ f, C.val y < 0
          · simp only [if_pos c2]; simp
          · simp only [if_neg c2]
            constructor
            · intro h; cases h; exact ⟨⟨_, rfl⟩, rfl⟩
            · rintro ⟨_, rfl⟩; rfl

theorem Rx.setAll_ok {attrs : Dict Str (Val F)} {units : Dict Str Str} (l : List Str) (x : Rx F)
    (h : ∀ a ∈ l, Checks C x.reactants a (given attrs a) (units.get? a)) :
    ∃ x', Rx.setAll C attrs units l x = .ok x' ∧ x'.id = x.id ∧ x'.reactants = x.reactants ∧
      x'.products = x.products ∧ (∀ a, x'.attr a = if a ∈ l then given attrs a else x.attr a) ∧
      (∀ a, x'.unit a = if a ∈ l then units.get? a else x.unit a) := by
  induction l generalizing x with
  | nil => exact ⟨x, rfl, rfl, rfl, rfl, fun a => by simp, fun a => by simp⟩
  | cons b l ih =>
    unfold Rx.setAll
    rw [Rx.set_iff.2 ⟨h b (by simp), rfl⟩]
    obtain ⟨x', h1, h2, h3, h4, h5, h6⟩ := ih
      { x with attr := Function.update x.attr b (given attrs b),
               unit := Function.update x.unit b (units.get? b) } (fun a ha => h a (List.mem_cons_of_mem _ ha))
    refine ⟨x', h1, h2, h3, h4, ?_, ?_⟩
    · intro a
      rw [h5 a]
      by_cases ha : a = b
      · subst ha; simp
      · simp [ha]
    · intro a
      rw [h6 a]
      by_cases ha : a = b
      · subst ha; simp
      · simp [ha]

/-! ### instances -/

/-- what holds of every reaction instance -/
structure Rx.Valid (C : Codec F) (A : Str → Option (Dict Str Nat)) (x : Rx F) : Prop where
  pos : 0 < x.id
  reactants : 1 ≤ x.reactants.length ∧ x.reactants.length ≤ 3
  products : 1 ≤ x.products.length
  checks : ∀ a ∈ rxAttributes, Checks C x.reactants a (x.attr a) (x.unit a)
  other : ∀ a, a ∉ rxAttributes → x.attr a = .null
  consistent : Rx.consistent C A x.reactants x.products = .ok ()

theorem Checks.mem {rs : List (Rp F)} {a : Str} {v : Val F} {u : Option Str} (h : Checks C rs a v u) :
    ∃ k, rxKinds.get? a = some k ∧ v.fits k = true := by
  obtain ⟨y, h⟩ := h
  unfold Rx.set at h
  split at h
  · cases h
  · cases hk : rxKinds.get? a with
    | none => rw [hk] at h; cases h
    | some k =>
      rw [hk] at h
      simp only at h
      refine ⟨k, rfl, ?_⟩
      by_contra hf
      rw [if_pos (Or.inr hf)] at h
      cases h

theorem rxKinds_keys {a : Str} {k : Kind} (h : rxKinds.get? a = some k) : a ∈ rxAttributes :=
  (by decide : ∀ b ∈ Dict.keys rxKinds, b ∈ rxAttributes) a ((Dict.mem_keys_iff _ _).2 ⟨k, h⟩)

theorem rxAttributes_nodup : rxAttributes.Nodup := by decide

theorem Rx.setAll_inv {attrs : Dict Str (Val F)} {units : Dict Str Str} (l : List Str) {x x' : Rx F}
    (h : Rx.setAll C attrs units l x = .ok x') :
    ∀ a ∈ l, Checks C x.reactants a (given attrs a) (units.get? a) := by
  induction l generalizing x with
  | nil => simp
  | cons b l ih =>
    unfold Rx.setAll at h
    cases hs : x.set C b (given attrs b) (units.get? b) with
    | error e => rw [hs] at h; cases h
    | ok y =>
      rw [hs] at h
      obtain ⟨hc, rfl⟩ := Rx.set_iff.1 hs
      intro a ha
      rcases List.mem_cons.1 ha with rfl | ha
      · exact hc
      · exact ih h a ha

theorem RxReach.valid {x : Rx F} (h : RxReach C A x) : x.Valid C A := by
  induction h with
  | @new id rs ps attrs units x hi =>
    unfold Rx.init at hi
    by_cases c1 : id ≤ 0
    · rw [if_pos c1] at hi; cases hi
    rw [if_neg c1] at hi
    by_cases c2 : rs.length < 1 ∨ ps.length < 1
    · rw [if_pos c2] at hi; cases hi
    rw [if_neg c2] at hi
    by_cases c3 : rs.length > 3
    · rw [if_pos c3] at hi; cases hi
    rw [if_neg c3] at hi
    split at hi
    · cases hi
    split at hi
    · cases hi
    split at hi
    · cases hi
    split at hi
    · cases hi
    split at hi
    · cases hi
    rename_i y hy
    split at hi
    · cases hi
    rename_i hcons
    cases hi
    have hc := Rx.setAll_inv _ hy
    obtain ⟨x', h1, h2, h3, h4, h5, h6⟩ := Rx.setAll_ok _ _ hc
    rw [hy] at h1
    cases h1
    refine ⟨?_, ?_, ?_, ?_, ?_, ?_⟩
    · rw [h2]; simp only; omega
    · rw [h3]; simp only; omega
    · rw [h4]; simp only; omega
    · intro a ha
      rw [h3, h5, h6, if_pos ha, if_pos ha]
      exact hc a ha
    · intro a ha
      rw [h5, if_neg ha]
    · rw [h3, h4]; exact hcons
  | @set x x' a v u _ hs ih =>
    obtain ⟨hc, rfl⟩ := Rx.set_iff.1 hs
    obtain ⟨k, hk, _⟩ := hc.mem
    refine ⟨ih.pos, ih.reactants, ih.products, ?_, ?_, ih.consistent⟩
    · intro b hb
      by_cases e : b = a
      · subst e; simpa using hc
      · simpa [Function.update_of_ne e] using ih.checks b hb
    · intro b hb
      have : b ≠ a := by rintro rfl; exact hb (rxKinds_keys hk)
      simpa [Function.update_of_ne this] using ih.other b hb

/-! ### checks after reading -/

/-- the unit of an attribute after writing and reading -/
def reunit (a : Str) (v : Val F) (u : Option Str) : Option Str :=
  if v.present = true then (rxUnits.get? a).bind fun d => u.or d else none

theorem elasticOk_reread {v : Val F} (h : v ≠ .str []) (ho : elasticOk v = true) : elasticOk (v.reread C) = true := by
  cases v with
  | null => rfl
  | str s =>
    have : s ≠ [] := fun e => h (by rw [e])
    simpa [Val.reread, Val.present, this, Val.text] using ho
  | int n => cases ho
  | float x => cases ho
  | bool b => cases b <;> simp [Val.reread, Val.present, Val.text, elasticOk]

theorem Checks.reread (hC : C.Lawful) {rs rs' : List (Rp F)}
    (hlen : rs'.length = rs.length)
    (hel : Rx.isElectron C ⟨0, rs', [], fun _ => .null, fun _ => none⟩ =
      Rx.isElectron C ⟨0, rs, [], fun _ => .null, fun _ => none⟩)
    {a : Str} {v : Val F} {u : Option Str} (h : Checks C rs a v u) (hne : v ≠ .str []) :
    Checks C rs' a (v.reread C) (reunit a v u) := by
  obtain ⟨k, hk, hf⟩ := h.mem
  obtain ⟨y, h⟩ := h
  unfold Rx.set at h
  by_cases hn : v = .null
  · subst hn
    refine ⟨⟨0, rs', [], Function.update (fun _ => .null) a .null, Function.update (fun _ => none) a none⟩, ?_⟩
    unfold Rx.set
    have e1 : (Val.null : Val F).reread C = .null := rfl
    have e2 : reunit a (Val.null : Val F) u = none := rfl
    rw [e1, e2]
    rw [if_neg (show ¬ (Val.null : Val F).isSome = true by simp [Val.isSome]), hk]
    simp only
    rw [if_neg (by simp [elasticOk, Val.fits])]
    by_cases ha : a = str!"arrh_a"
    · simp [ha, Val.floatOr]
    · simp [ha]
  · have hp : v.present = true := Val.present_iff.2 ⟨hn, hne⟩
    have e : v.reread C = .str (v.text C) := by rw [Val.reread, if_pos hp]
    rw [if_pos (Val.isSome_iff.2 hn)] at h
    cases hcu : Rx.checkUnit C ⟨0, rs, [], fun _ => .null, fun _ => none⟩ a u with
    | error er => rw [hcu] at h; cases h
    | ok t =>
      rw [hcu, hk] at h
      simp only at h
      by_cases c : (a = str!"elastic" ∧ ¬ elasticOk v) ∨ ¬ v.fits k
      · rw [if_pos c] at h; cases h
      rw [if_neg c] at h
      cases hfl : (if a = str!"arrh_a" then v.floatOr C none else .ok none : Except Err (Option F)) with
      | error er => rw [hfl] at h; cases h
      | ok f =>
        rw [hfl] at h
        simp only at h
        by_cases c2 : ∃ y ∈ f, C.val y < 0
        · rw [if_pos c2] at h; cases h
        have hunit : Rx.checkUnit C ⟨0, rs', [], fun _ => .null, fun _ => none⟩ a (reunit a v u) = .ok () := by
          unfold reunit
          rw [if_pos hp]
          cases u with
          | some w =>
            have hin : w ∈ (rxAllowed.get? a).getD [] := by
              by_contra hcon
              unfold Rx.checkUnit at hcu
              simp only [hcon, not_false_eq_true, if_true] at hcu
              cases hcu
            have hd : ∃ d, rxUnits.get? a = some d := by
              cases hra : rxAllowed.get? a with
              | none => rw [hra] at hin; simp at hin
              | some ws =>
                have := (by decide : ∀ b ∈ Dict.keys rxAllowed, b ∈ Dict.keys rxUnits) a
                  ((Dict.mem_keys_iff _ _).2 ⟨ws, hra⟩)
                exact (Dict.mem_keys_iff _ _).1 this
            obtain ⟨d, hd⟩ := hd
            rw [hd]
            simp only [Option.bind_some, Option.some_or]
            unfold Rx.checkUnit at hcu ⊢
            rw [hel]
            simp only [hlen]
            exact hcu
          | none =>
            have hmand : a ∉ rxMandatory := by
              intro hm'
              unfold Rx.checkUnit at hcu
              simp only [hm', if_true] at hcu
              cases hcu
            have hac : a ≠ str!"arrh_c" := by rintro rfl; exact hmand (by decide)
            have haa : a ≠ str!"arrh_a" := by rintro rfl; exact hmand (by decide)
            simp only [Option.none_or]
            cases hra : rxUnits.get? a with
            | none =>
              simp [Rx.checkUnit, hmand, hac, haa]
              rfl
            | some d =>
              have hmem := (Dict.mem_of_get? hra)
              simp only [rxUnits, List.mem_cons, Prod.mk.injEq, List.not_mem_nil, or_false] at hmem
              rcases hmem with ⟨h1, _⟩ | ⟨h1, _⟩ | ⟨h1, h2⟩ | ⟨h1, h2⟩
              · exact absurd h1 haa
              · exact absurd h1 hac
              · subst h1; subst h2; rfl
              · subst h1; subst h2; rfl
        have hfl' : (if a = str!"arrh_a" then (v.reread C).floatOr C none else .ok none : Except Err (Option F)) =
            .ok f := by
          by_cases ha : a = str!"arrh_a"
          · rw [if_pos ha] at hfl ⊢
            subst ha
            have : k = .number := by
              have : rxKinds.get? str!"arrh_a" = some .number := rfl
              rw [this] at hk; exact (Option.some.inj hk).symm
            exact Val.floatOr_reread hC hne (this ▸ hf) none f hfl
          · rw [if_neg ha] at hfl ⊢
            exact hfl
        refine ⟨⟨0, rs', [], Function.update (fun _ => .null) a (v.reread C),
            Function.update (fun _ => none) a (reunit a v u)⟩, ?_⟩
        unfold Rx.set
        rw [if_pos (by rw [e]; rfl), hunit, hk]
        simp only
        rw [if_neg, hfl']
        · simp only [if_neg c2]
        · push Not at c ⊢
          refine ⟨fun ha => elasticOk_reread hne (c.1 ha), ?_⟩
          rw [e]; rfl

/-! ### the element of a reaction -/

/-- the element written for an instance, with the names of its species -/
def Rx.elem (C : Codec F) (x : Rx F) (rs ps : List Str) : Elem := rxElem C rs ps x.id x.attrs x.units

theorem Rx.given_attrs {x : Rx F} (h : ∀ a, a ∉ rxAttributes → x.attr a = .null) (a : Str) :
    given x.attrs a = x.attr a := by
  unfold given Rx.attrs
  rw [get?_mapKeys]
  by_cases ha : a ∈ Dict.keys rxKinds
  · rw [if_pos ha]; rfl
  · rw [if_neg ha, h a (fun h' => ha ((by decide : ∀ b ∈ rxAttributes, b ∈ Dict.keys rxKinds) a h'))]; rfl

theorem Rx.get?_units (x : Rx F) (a : Str) :
    Dict.get? x.units a = (rxUnits.get? a).bind fun d => (x.unit a).or d := by
  unfold Rx.units
  generalize hd : rxUnits = d
  have hn : (Dict.keys d).Nodup := by rw [← hd]; decide
  clear hd
  induction d with
  | nil => rfl
  | cons p d ih =>
    obtain ⟨b, w⟩ := p
    have e : Dict.keys ((b, w) :: d) = b :: Dict.keys d := rfl
    rw [e, List.nodup_cons] at hn
    rw [List.filterMap_cons, Dict.get?_cons]
    by_cases hb : b = a
    · subst hb
      simp only [if_true, Option.bind_some]
      cases hu : (x.unit b).or w with
      | none =>
        simp only [Option.map_none, ih hn.2, (get?_none_iff _ _).2 hn.1]
        rfl
      | some u => simp [Dict.get?_cons]
    · rw [if_neg hb]
      cases hu : (x.unit b).or w with
      | none => simpa using ih hn.2
      | some u => simp only [Option.map_some, Dict.get?_cons, if_neg hb]; exact ih hn.2

/-- the tags of a reaction element -/
def rxTags : List Str := str!"reactants" :: str!"products" :: rxAttributes

theorem rxTags_nodup : rxTags.Nodup := by decide

/-- the sub-elements of the element of a reaction, after writing and reading -/
def Rx.sub (C : Codec F) (x : Rx F) (rs ps : List Str) (a : Str) : Option Sub :=
  if a = str!"reactants" then some { tag := a, text := fileText (some (joinStr str!", " rs)) }
  else if a = str!"products" then some { tag := a, text := fileText (some (joinStr str!", " ps)) }
  else if (x.attr a).present then
    some { tag := a, unit := Dict.get? x.units a, text := some ((x.attr a).text C) }
  else none

theorem Rx.sub_tag {x : Rx F} {rs ps : List Str} {a : Str} {s : Sub} (h : x.sub C rs ps a = some s) : s.tag = a := by
  unfold Rx.sub at h
  repeat' split at h
  all_goals cases h
  all_goals rfl

theorem Rx.elem_file (hC : C.Lawful) {x : Rx F} (h : ∀ a, a ∉ rxAttributes → x.attr a = .null) (rs ps : List Str) :
    (x.elem C rs ps).file = { id := C.showI x.id, subs := rxTags.filterMap (x.sub C rs ps) } := by
  unfold Rx.elem rxElem Elem.file rxTags
  simp only [List.map_cons, List.map_filterMap, List.filterMap_cons]
  have h1 : x.sub C rs ps str!"reactants" = some { tag := str!"reactants", text := fileText (some (joinStr str!", " rs)) } := by
    simp [Rx.sub]
  have h2 : x.sub C rs ps str!"products" = some { tag := str!"products", text := fileText (some (joinStr str!", " ps)) } := by
    simp [Rx.sub]
  rw [h1, h2]
  simp only [List.map_nil]
  congr 3
  refine List.filterMap_congr ?_
  intro a ha
  have hr : a ≠ str!"reactants" := by rintro rfl; revert ha; decide
  have hp : a ≠ str!"products" := by rintro rfl; revert ha; decide
  unfold Rx.sub
  rw [if_neg hr, if_neg hp, Rx.given_attrs h]
  by_cases hp : (x.attr a).present = true
  · rw [if_pos hp]
    simp [fileText_some (Val.text_ne hC (Val.present_iff.1 hp).2)]
  · rw [if_neg hp]; rfl

theorem Rx.sub_attr {x : Rx F} {rs ps : List Str} {a : Str} (ha : a ∉ [str!"reactants", str!"products"]) :
    x.sub C rs ps a = if (x.attr a).present then
      some { tag := a, unit := Dict.get? x.units a, text := some ((x.attr a).text C) } else none := by
  simp only [List.mem_cons, List.not_mem_nil, or_false, not_or] at ha
  unfold Rx.sub
  rw [if_neg ha.1, if_neg ha.2]

theorem rxAttributes_ne {a : Str} (ha : a ∈ rxAttributes) : a ∉ [str!"reactants", str!"products"] :=
  (by decide : ∀ b ∈ rxAttributes, b ∉ [str!"reactants", str!"products"]) a ha

theorem Rx.get?_texts {x : Rx F} {rs ps : List Str} (a : Str) (id : Str) :
    (Dict.get? (Elem.texts ⟨id, rxTags.filterMap (x.sub C rs ps)⟩ [str!"reactants", str!"products"] :
      Dict Str (Val F)) a) =
      if a ∈ rxAttributes ∧ (x.attr a).present = true then some (.str ((x.attr a).text C)) else none := by
  rw [texts_filterMap (fun _ _ => Rx.sub_tag) rxTags_nodup, get?_filterMap]
  by_cases ha : a ∈ rxAttributes
  · rw [if_pos (by simp [rxTags, ha]), if_neg (rxAttributes_ne ha), Rx.sub_attr (rxAttributes_ne ha)]
    by_cases hp : (x.attr a).present = true
    · rw [if_pos hp, if_pos ⟨ha, hp⟩]; rfl
    · rw [if_neg hp, if_neg (by simp [hp])]; rfl
  · rw [if_neg (c := a ∈ rxAttributes ∧ _) (by simp [ha])]
    by_cases hs : a ∈ [str!"reactants", str!"products"]
    · rw [if_pos hs]; simp
    · rw [if_neg]
      intro h
      simp only [rxTags, List.mem_cons] at h
      simp only [List.mem_cons, List.not_mem_nil, or_false, not_or] at hs
      rcases h with h | h | h
      · exact hs.1 h
      · exact hs.2 h
      · exact ha h

theorem Rx.given_texts {x : Rx F} {rs ps : List Str} (h : ∀ a, a ∉ rxAttributes → x.attr a = .null) (a id : Str) :
    given (Elem.texts ⟨id, rxTags.filterMap (x.sub C rs ps)⟩ [str!"reactants", str!"products"]) a =
      (x.attr a).reread C := by
  unfold given
  rw [Rx.get?_texts]
  unfold Val.reread
  by_cases ha : a ∈ rxAttributes
  · by_cases hp : (x.attr a).present = true
    · rw [if_pos ⟨ha, hp⟩, if_pos hp]; rfl
    · rw [if_neg (by simp [hp]), if_neg hp]; rfl
  · rw [if_neg (by simp [ha]), h a ha]; rfl

theorem Rx.get?_file_units {x : Rx F} {rs ps : List Str} (h : ∀ a, a ∉ rxAttributes → x.attr a = .null) (a id : Str) :
    Dict.get? (Elem.units ⟨id, rxTags.filterMap (x.sub C rs ps)⟩) a = reunit a (x.attr a) (x.unit a) := by
  rw [units_filterMap (fun _ _ => Rx.sub_tag) rxTags_nodup, get?_filterMap]
  unfold reunit
  by_cases ha : a ∈ rxAttributes
  · rw [if_pos (by simp [rxTags, ha]), Rx.sub_attr (rxAttributes_ne ha)]
    by_cases hp : (x.attr a).present = true
    · rw [if_pos hp, if_pos hp, Option.bind_some, Rx.get?_units]
    · rw [if_neg hp, if_neg hp]; rfl
  · rw [h a ha, if_neg (c := Val.null.present = true) (by simp [Val.present])]
    by_cases ht : a ∈ rxTags
    · rw [if_pos ht]
      unfold Rx.sub
      split
      · rfl
      · split
        · rfl
        · rw [h a ha]; rfl
    · rw [if_neg ht]

/-! ### reading the element -/

theorem collect_map {α β γ : Type} (f : β → Except Err γ) (g : α → β) (l : List α) :
    Classify.collect f (l.map g) = Classify.collect (fun a => f (g a)) l := by
  induction l with
  | nil => rfl
  | cons a l ih =>
    rw [List.map_cons]
    unfold Classify.collect
    rw [ih]

theorem collect_forall₂ {α β : Type} {f : α → Except Err β} {l : List α} {m : List β}
    (h : List.Forall₂ (fun a b => f a = .ok b) l m) : Classify.collect f l = .ok m := by
  induction h with
  | nil => rfl
  | cons ha _ ih =>
    unfold Classify.collect
    rw [ha, ih]

theorem joinStr_ne {sep : Str} {l : List Str} (hl : l ≠ []) (h : ∀ n ∈ l, n ≠ []) : joinStr sep l ≠ [] := by
  cases l with
  | nil => exact absurd rfl hl
  | cons n l =>
    have hn := h n (by simp)
    cases l with
    | nil => simpa [joinStr] using hn
    | cons m l => simp [joinStr, hn]

/-- The species of a side as they are found again: `d` is the dictionary of the species that were read. -/
theorem parseSide_ok {d : Dict Str (Rp F)} {x : Rx F} {rs ps side : List Str} {tag id : Str} {sps' : List (Rp F)}
    (htag : x.sub C rs ps tag = some { tag, text := fileText (some (joinStr str!", " side)) }) (hmem : tag ∈ rxTags)
    (hne : side ≠ []) (hplain : ∀ n ∈ side, n ≠ [] ∧ ',' ∉ n ∧ strip n = n)
    (hd : List.Forall₂ (fun n rp' => d.get? n = some rp') side sps') :
    parseSide d ⟨id, rxTags.filterMap (x.sub C rs ps)⟩ tag = .ok sps' := by
  unfold parseSide
  rw [find_filterMap (fun _ _ => Rx.sub_tag), if_pos hmem, htag, Option.bind_some]
  simp only [fileText_some (joinStr_ne hne fun n hn => (hplain n hn).1)]
  have e : Classify.collect (fun n => lookupRp d (strip n)) (splitStr str!"," (joinStr str!", " side)) =
      Classify.collect (lookupRp d) side := by
    rw [← collect_map (lookupRp d) strip, split_names hne fun n hn => (hplain n hn).2.1]
    congr 1
    exact (List.map_congr_left fun n hn => (hplain n hn).2.2).trans (List.map_id _)
  rw [e]
  refine collect_forall₂ (hd.imp ?_)
  intro n rp' h
  unfold lookupRp
  rw [h]

/-- `x'` is `x` written and read -/
structure RereadRx (C : Codec F) (x x' : Rx F) : Prop where
  id : x'.id = x.id
  reactants : List.Forall₂ (Reread C) x.reactants x'.reactants
  products : List.Forall₂ (Reread C) x.products x'.products
  attr : ∀ a, x'.attr a = (x.attr a).reread C
  unit : ∀ a, x'.unit a = reunit a (x.attr a) (x.unit a)

theorem collect_congr₂ {α β : Type} {f : α → Except Err β} {l m : List α}
    (h : List.Forall₂ (fun a b => f b = f a) l m) : Classify.collect f m = Classify.collect f l := by
  induction h with
  | nil => rfl
  | cons ha _ ih =>
    unfold Classify.collect
    rw [ha, ih]

theorem Forall₂.imp_mem {α β : Type} {R S : α → β → Prop} {l : List α} {m : List β} (h : List.Forall₂ R l m)
    (hi : ∀ a ∈ l, ∀ b, R a b → S a b) : List.Forall₂ S l m := by
  induction h with
  | nil => exact .nil
  | cons ha _ ih => exact .cons (hi _ (by simp) _ ha) (ih fun a h b => hi a (List.mem_cons_of_mem _ h) b)

/-- A reaction that is written comes back. -/
theorem rx_comes_back (hC : C.Lawful) {x : Rx F} (hx : x.Valid C A) (hw : WritableRx x)
    {d : Dict Str (Rp F)} {rs ps : List Str} {rps' pps' : List (Rp F)}
    (hrn : Rx.names C x.reactants = .ok rs) (hpn : Rx.names C x.products = .ok ps)
    (hplain : ∀ n ∈ rs ++ ps, n ≠ [] ∧ ',' ∉ n ∧ strip n = n)
    (hsp : ∀ rp ∈ x.reactants ++ x.products, rp.Valid ∧ Writable C rp)
    (hr : List.Forall₂ (Reread C) x.reactants rps') (hp : List.Forall₂ (Reread C) x.products pps')
    (hdr : List.Forall₂ (fun n rp' => d.get? n = some rp') rs rps')
    (hdp : List.Forall₂ (fun n rp' => d.get? n = some rp') ps pps') :
    ∃ x', parseRx C A d (x.elem C rs ps).file = .ok x' ∧ RereadRx C x x' := by
  have hlr : rs.length = rps'.length := hdr.length_eq
  have hlp : ps.length = pps'.length := hdp.length_eq
  have hlr' := hr.length_eq
  have hlp' := hp.length_eq
  have hx1 := hx.reactants
  have hx2 := hx.products
  have hvr : ∀ rp ∈ x.reactants, rp.Valid ∧ Writable C rp := fun rp h => hsp rp (List.mem_append_left _ h)
  have hvp : ∀ rp ∈ x.products, rp.Valid ∧ Writable C rp := fun rp h => hsp rp (List.mem_append_right _ h)
  rw [Rx.elem_file hC hx.other]
  unfold parseRx
  simp only [hC.int]
  have h1 : parseSide d ⟨C.showI x.id, rxTags.filterMap (x.sub C rs ps)⟩ str!"reactants" = .ok rps' :=
    parseSide_ok (side := rs) (by simp [Rx.sub]) (by decide) (by rintro rfl; simp at hlr; omega)
      (fun n hn => hplain n (List.mem_append_left _ hn)) hdr
  have h2 : parseSide d ⟨C.showI x.id, rxTags.filterMap (x.sub C rs ps)⟩ str!"products" = .ok pps' :=
    parseSide_ok (side := ps) (by simp [Rx.sub]) (by decide) (by rintro rfl; simp at hlp; omega)
      (fun n hn => hplain n (List.mem_append_right _ hn)) hdp
  rw [h1, h2]
  simp only [bind, Except.bind]
  unfold Rx.init
  have hpos := hx.pos
  have hget : ∀ a, a ∈ rxAttributes → x.attr a ≠ .null → Dict.get? (Elem.texts
      ⟨C.showI x.id, rxTags.filterMap (x.sub C rs ps)⟩ [str!"reactants", str!"products"] : Dict Str (Val F)) a =
      some (.str ((x.attr a).text C)) := by
    intro a ha hn
    rw [Rx.get?_texts, if_pos ⟨ha, Val.present_iff.2 ⟨hn, hw.filled a⟩⟩]
  rw [if_neg (by omega), if_neg (by omega), if_neg (by omega), if_neg, if_neg, if_neg, if_neg]
  · obtain ⟨x', e1, e2, e3, e4, e5, e6⟩ := Rx.setAll_ok (C := C)
      (attrs := Elem.texts ⟨C.showI x.id, rxTags.filterMap (x.sub C rs ps)⟩ [str!"reactants", str!"products"])
      (units := Elem.units ⟨C.showI x.id, rxTags.filterMap (x.sub C rs ps)⟩) rxAttributes
      { id := (x.id : Int).toNat, reactants := rps', products := pps', attr := fun _ => .null,
        unit := fun _ => none } (by
        intro a ha
        rw [Rx.given_texts hx.other, Rx.get?_file_units hx.other]
        refine (hx.checks a ha).reread hC hlr'.symm ?_ (hw.filled a)
        unfold Rx.isElectron
        simp only
        rw [collect_congr₂ (Forall₂.imp_mem hr fun rp hrp rp' h => h.getName (hvr rp hrp).2)])
    rw [e1]
    simp only
    have hcons : Rx.consistent C A rps' pps' = .ok () := by
      rw [← hx.consistent]
      unfold Rx.consistent
      rw [collect_congr₂ (Forall₂.imp_mem hr fun rp hrp rp' h => h.core hC (hvr rp hrp).1 (hvr rp hrp).2 0),
        collect_congr₂ (Forall₂.imp_mem hp fun rp hrp rp' h => h.core hC (hvp rp hrp).1 (hvp rp hrp).2 0)]
    rw [hcons]
    refine ⟨x', rfl, by rw [e2]; simp, by rw [e3]; exact hr, by rw [e4]; exact hp, ?_, ?_⟩
    · intro a
      rw [e5, Rx.given_texts hx.other]
      split
      · rfl
      · rename_i ha; rw [hx.other a ha]; rfl
    · intro a
      rw [e6, Rx.get?_file_units hx.other]
      split
      · rfl
      · rename_i ha; rw [hx.other a ha]; rfl
  · rintro ⟨a, ha, h3, h4⟩
    apply h4
    obtain ⟨v, hv⟩ := (Dict.mem_keys_iff _ _).1 h3
    rw [Rx.get?_texts] at hv
    split at hv
    · rename_i hc
      have hck := hx.checks a hc.1
      obtain ⟨hn, hne⟩ := Val.present_iff.1 hc.2
      rw [Dict.mem_keys_iff, Rx.get?_file_units hx.other]
      unfold reunit
      rw [if_pos hc.2]
      cases hu : x.unit a with
      | none =>
        exfalso
        obtain ⟨y, hy⟩ := hck
        unfold Rx.set at hy
        rw [if_pos (Val.isSome_iff.2 hn), hu] at hy
        have : Rx.checkUnit C ⟨0, x.reactants, [], fun _ => .null, fun _ => none⟩ a none =
            .error .reactionAttribute := by
          unfold Rx.checkUnit
          simp only [ha, if_true]
          rfl
        rw [this] at hy
        cases hy
      | some u =>
        have : a ∈ Dict.keys rxUnits := (by decide : ∀ b ∈ rxMandatory, b ∈ Dict.keys rxUnits) a ha
        obtain ⟨w, hw'⟩ := (Dict.mem_keys_iff _ _).1 this
        exact ⟨u, by rw [hw']; rfl⟩
    · cases hv
  · rintro ⟨a, ha, hb⟩
    obtain ⟨v, hv⟩ := (Dict.mem_keys_iff _ _).1 ha
    rw [Rx.get?_file_units hx.other] at hv
    unfold reunit at hv
    split at hv
    · rename_i hpres
      rcases hb with hb | hb
      · rw [(get?_none_iff _ _).2 hb] at hv; cases hv
      · apply hb
        rw [Dict.mem_keys_iff, Rx.get?_texts, if_pos]
        · exact ⟨_, rfl⟩
        · refine ⟨?_, hpres⟩
          by_contra hcon
          rw [hx.other a hcon] at hpres
          cases hpres
    · cases hv
  · rintro ⟨a, ha, hb⟩
    obtain ⟨v, hv⟩ := (Dict.mem_keys_iff _ _).1 ha
    rw [Rx.get?_texts] at hv
    split at hv
    · rename_i hc; exact hb hc.1
    · cases hv
  · rintro ⟨ha, hb⟩
    rcases hw.rate with h | h
    · rw [hget _ (by decide) h] at ha; cases ha
    · rw [hget _ (by decide) h] at hb; cases hb

end Verif.Plaschem.Xml
