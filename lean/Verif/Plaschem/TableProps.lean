/-
C88: the table of the attributes of the species.
-/
import Verif.Plaschem.Table
import Verif.Plaschem.XmlRp
import Verif.Plaschem.XmlRx
import Verif.Plaschem.ClassifierProps

namespace Verif.Plaschem.Table
open Verif.Plaschem Pretty Xml Classify

variable {F : Type} {C : Codec F}

/-! ### specification -/

/-- the exact value of a number passed -/
def exact (C : Codec F) : Val F → Option ℚ
  | .int n => some n
  | .float x => some (C.val x)
  | _ => none

/-- the exact value of a number shown -/
def exactS (C : Codec F) : Shown F → Option ℚ
  | .int n => some n
  | .float x => some (C.val x)
  | _ => none

/-- two dictionaries have the same keys -/
def SameKeys {α β : Type} (d : Dict Str α) (e : Dict Str β) : Prop := ∀ k, k ∈ d.keys ↔ k ∈ e.keys

/-- The value `w` returned is the same as the value `s` passed: both are missing, or they are the same text, the same
truth value, the same number, two things that `float` turns into the same number, or dictionaries with the same keys
and for each key the same number, exactly or after `float`. -/
inductive Same (C : Codec F) : Stored F → Shown F → Prop
  | missing {w} : w = .null ∨ w = .nan → Same C (.val .null) w
  | missingDict {w} : w = .null ∨ w = .nan → Same C (.ret none) w
  | text (t) : Same C (.val (.str t)) (.str t)
  | truth (b) : Same C (.val (.bool b)) (.bool b)
  | number {v w q} : exact C v = some q → exactS C w = some q → Same C (.val v) w
  | rounded {v w x y} : v.toFloat C = .ok x → w.toFloat C = .ok (some y) → C.val x = C.val y → Same C (.val v) w
  | dict {d : Dict Str (Val F)} {e : Dict Str F} : SameKeys d e →
      (∀ k v x, d.get? k = some v → e.get? k = some x → exact C v = some (C.val x)) → Same C (.ret (some d)) (.dict e)
  | roundedDict {d : Dict Str (Val F)} {e : Dict Str F} : SameKeys d e →
      (∀ k v x, d.get? k = some v → e.get? k = some x → ∃ y, v.toFloat C = .ok y ∧ C.val y = C.val x) →
      Same C (.ret (some d)) (.dict e)

/-- the value is missing -/
def Absent : Shown F → Prop
  | .null | .nan => True
  | _ => False

/-- how a value returned by a getter appears in a series: unchanged, or in a series of floats `None` as `nan` and an
integer as a float -/
inductive ShownAs (C : Codec F) : Shown F → Shown F → Prop
  | refl (w) : ShownAs C w w
  | nan : ShownAs C .null .nan
  | float {n x} : C.ofInt n = some x → ShownAs C (.int n) (.float x)

/-- A cell as it should be: the text "..." for a missing value and the value `w` otherwise, red if the species is
disabled, and otherwise blue exactly if the value differs from the one passed. -/
structure CellOk (enabled : Bool) (same : Prop) (w : Shown F) (c : CV (Shown F)) : Prop where
  missing : Absent w → c.value = .str str!"..."
  value : ¬ Absent w → c.value = w
  red : c.color = .red ↔ enabled = false
  blue : c.color = .blue ↔ enabled = true ∧ ¬ same
  plain : c.color = .reset ↔ enabled = true ∧ same

/-! ### comparing -/

theorem valEq_iff {v : Val F} {w : Shown F} : valEq C v w = true →
    Same C (.val v) w := by
  intro h
  cases v <;> cases w <;> simp [valEq] at h
  · exact .missing (.inl rfl)
  · subst h; exact .text _
  · subst h; exact .number rfl rfl
  · exact .number (q := _) rfl (by simp [exactS, h])
  · exact .number (q := _) rfl (by simp [exactS, h])
  · exact .number (q := _) rfl (by simp [exactS, h])
  · subst h; exact .truth _

theorem valEq_float {v : Val F} {x : F} : valEq C v (.float x) = true ↔ exact C v = some (C.val x) := by
  cases v <;> simp [valEq, exact, eq_comm]

theorem valEq_exact {v : Val F} {w : Shown F} {q : ℚ} (h : exact C v = some q) (h' : exactS C w = some q) :
    valEq C v w = true := by
  cases v <;> simp [exact] at h <;> cases w <;> simp [exactS] at h' <;> simp [valEq, ← h, ← h'] <;>
    · subst h
      first
        | exact h'
        | exact h'.symm
        | exact_mod_cast h'.symm

theorem get?_none_iff {α : Type} {d : Dict Str α} {k : Str} : d.get? k = none ↔ k ∉ d.keys := by
  simp only [Dict.get?, Dict.keys, Option.map_eq_none_iff, List.find?_eq_none, List.mem_map, beq_iff_eq, not_exists,
    not_and]

theorem get?_some_of_mem {α : Type} {d : Dict Str α} {k : Str} (h : k ∈ d.keys) : ∃ v, d.get? k = some v := by
  cases e : d.get? k with
  | none => exact absurd h (get?_none_iff.1 e)
  | some v => exact ⟨v, rfl⟩

theorem dictEq_iff {α β : Type} {eq : α → β → Bool} {d : Dict Str α} {e : Dict Str β} :
    dictEq eq d e = true ↔ SameKeys d e ∧ ∀ k a b, d.get? k = some a → e.get? k = some b → eq a b = true := by
  unfold dictEq SameKeys
  simp only [Bool.and_eq_true, List.all_eq_true, decide_eq_true_eq]
  constructor
  · rintro ⟨h1, h2⟩
    refine ⟨fun k => ⟨fun hk => ?_, fun hk => h2 k hk⟩, fun k a b ha hb => ?_⟩
    · by_contra hn
      have := h1 k hk
      rw [get?_none_iff.2 hn] at this
      obtain ⟨v, hv⟩ := get?_some_of_mem hk
      rw [hv] at this
      simp at this
    · have hk : k ∈ d.keys := by
        by_contra hn
        rw [get?_none_iff.2 hn] at ha
        cases ha
      have := h1 k hk
      rw [ha, hb] at this
      exact this
  · rintro ⟨h1, h2⟩
    refine ⟨fun k hk => ?_, fun k hk => (h1 k).2 hk⟩
    obtain ⟨a, ha⟩ := get?_some_of_mem hk
    obtain ⟨b, hb⟩ := get?_some_of_mem ((h1 k).1 hk)
    rw [ha, hb]
    exact h2 k a b ha hb

/-- the dictionary with its values converted -/
theorem collect_dict {d : Dict Str (Val F)} {d' : Dict Str F}
    (h : floats C d = .ok d') :
    d'.keys = d.keys ∧ ∀ k v, d.get? k = some v → ∃ x, v.toFloat C = .ok x ∧ d'.get? k = some x := by
  unfold floats at h
  induction d generalizing d' with
  | nil =>
    cases h
    exact ⟨rfl, fun k v hv => by cases hv⟩
  | cons p d ih =>
    unfold collect at h
    cases hp : p.2.toFloat C with
    | error e =>
      rw [hp] at h
      cases h
    | ok x =>
      rw [hp] at h
      cases hd : collect (fun p : Str × Val F => do return (p.1, ← p.2.toFloat C)) d with
      | error e =>
        rw [hd] at h
        cases h
      | ok d'' =>
        rw [hd] at h
        have h : d' = (p.1, x) :: d'' := by
          cases h
          rfl
        obtain ⟨h1, h2⟩ := ih hd
        subst h
        refine ⟨by simp [Dict.keys] at h1 ⊢; exact h1, fun k v hv => ?_⟩
        by_cases e : p.1 = k
        · subst e
          have : p.2 = v := by simpa [Dict.get?] using hv
          subst this
          exact ⟨x, hp, by simp [Dict.get?]⟩
        · have hv' : Dict.get? d k = some v := by simpa [Dict.get?, e] using hv
          obtain ⟨y, hy1, hy2⟩ := h2 k v hv'
          exact ⟨y, hy1, by simpa [Dict.get?, e] using hy2⟩

theorem catchType_ok {e : Except Err Bool} {b : Bool} (h : catchType e = .ok b) :
    e = .ok b ∨ (e = .error .typeError ∧ b = false) := by
  unfold catchType at h
  split at h
  · cases h
    exact .inr ⟨rfl, rfl⟩
  · exact .inl h

theorem storedEq_same {s : Stored F} {w : Shown F} (h : storedEq C s w = true) : Same C s w := by
  cases s with
  | val v => exact valEq_iff h
  | ret d =>
    cases d with
    | none =>
      cases w <;> simp [storedEq] at h
      exact .missingDict (.inl rfl)
    | some d =>
      cases w <;> simp [storedEq] at h
      obtain ⟨h1, h2⟩ := dictEq_iff.1 h
      exact .dict h1 fun k v x hv hx => valEq_float.1 (h2 k v x hv hx)

theorem floatsEqual_same {s : Stored F} {w : Shown F} (h : floatsEqual C s w = .ok true) : Same C s w := by
  unfold floatsEqual at h
  cases s with
  | ret d => cases h
  | val v =>
    change (v.toFloat C >>= _) = _ at h
    cases hx : v.toFloat C with
    | error e => rw [hx] at h; cases h
    | ok x =>
      rw [hx] at h
      cases hy : w.toFloat C with
      | error e =>
        change (w.toFloat C >>= _) = _ at h
        rw [hy] at h; cases h
      | ok o =>
        change (w.toFloat C >>= _) = _ at h
        rw [hy] at h
        cases o with
        | none => cases h
        | some y =>
          have h : decide (C.val x = C.val y) = true := by
            injection h
          exact .rounded hx hy (of_decide_eq_true h)

theorem dictsEqual_same {s : Stored F} {w : Shown F} (h : dictsEqual C s w = .ok true) : Same C s w := by
  unfold dictsEqual at h
  split at h
  · rename_i d
    cases hd : floats C d with
    | error e => rw [hd] at h; cases h
    | ok d' =>
      rw [hd] at h
      obtain ⟨h1, h2⟩ := collect_dict hd
      have h : dictIs C d' w = true := by injection h
      cases w <;> simp only [dictIs, Bool.false_eq_true] at h
      obtain ⟨h3, h4⟩ := dictEq_iff.1 h
      refine .roundedDict (fun k => by rw [← h1]; exact h3 k) fun k v x hv hx => ?_
      obtain ⟨y, hy1, hy2⟩ := h2 k v hv
      exact ⟨y, hy1, of_decide_eq_true (h4 k y x hy2 hx)⟩
  · cases h

/-- is the value passed a dictionary -/
def Stored.isRet : Stored F → Bool
  | .ret _ => true
  | _ => false

/-- the comparison answers whether the two are the same -/
theorem same_spec {s : Stored F} {w : Shown F} {b : Bool} (hd : ∀ d, s = .ret (some d) → IsDict d)
    (h : same C s.isRet s w = .ok b) :
    b = true ↔ Same C s w := by
  unfold same at h
  by_cases h1 : storedEq C s w = true
  · rw [h1] at h
    have : b = true := by
      cases s <;> cases h <;> rfl
    exact ⟨fun _ => storedEq_same h1, fun _ => this⟩
  · rw [Bool.not_eq_true] at h1
    rw [h1] at h
    simp only [Bool.not_false, if_true] at h
    cases h2 : catchType (if s.isNone = true then w.isnan else .ok false) with
    | error e => rw [h2] at h; cases h
    | ok b2 =>
      rw [h2] at h
      cases b2 with
      | true =>
        have hb : b = true := by
          cases s <;> cases h <;> rfl
        refine ⟨fun _ => ?_, fun _ => hb⟩
        rcases catchType_ok h2 with h2 | ⟨_, h2⟩
        · by_cases hn : s.isNone = true
          · rw [if_pos hn] at h2
            have hw : w = .nan := by
              cases w <;> simp [Shown.isnan] at h2
              rfl
            cases s with
            | val v =>
              cases v <;> simp [Stored.isNone] at hn
              exact .missing (.inr hw)
            | ret d =>
              cases d <;> simp [Stored.isNone] at hn
              exact .missingDict (.inr hw)
          · rw [if_neg hn] at h2
            cases h2
        · cases h2
      | false =>
        change (catchType (floatsEqual C s w) >>= _) = _ at h
        cases h3 : catchType (floatsEqual C s w) with
        | error e => rw [h3] at h; cases h
        | ok b3 =>
          rw [h3] at h
          cases b3 with
          | true =>
            have hb : b = true := by
              cases s <;> cases h <;> rfl
            refine ⟨fun _ => ?_, fun _ => hb⟩
            rcases catchType_ok h3 with h3 | ⟨_, h3⟩
            · exact floatsEqual_same h3
            · cases h3
          | false =>
            change (if (!false && s.isRet) = true then catchType (dictsEqual C s w) else .ok false) = _ at h
            constructor
            · rintro rfl
              split at h
              · rcases catchType_ok h with h | ⟨_, h⟩
                · exact dictsEqual_same h
                · cases h
              · cases h
            · intro hs
              cases hs with
              | @missing w hw =>
                rcases hw with rfl | rfl
                · simp [storedEq, valEq] at h1
                · simp [catchType, Stored.isNone, Shown.isnan] at h2
              | @missingDict w hw =>
                rcases hw with rfl | rfl
                · simp [storedEq] at h1
                · simp [catchType, Stored.isNone, Shown.isnan] at h2
              | text t => simp [storedEq, valEq] at h1
              | truth t => simp [storedEq, valEq] at h1
              | @number v w q hv hw =>
                have := valEq_exact hv hw
                rw [show storedEq C (.val v) w = valEq C v w from rfl, this] at h1
                cases h1
              | @rounded v w x y hx hy e =>
                rcases catchType_ok h3 with h3 | ⟨h3, _⟩
                · unfold floatsEqual at h3
                  change (v.toFloat C >>= _) = _ at h3
                  rw [hx] at h3
                  change (w.toFloat C >>= _) = _ at h3
                  rw [hy] at h3
                  have h3 : decide (C.val x = C.val y) = false := by injection h3
                  simp [e] at h3
                · unfold floatsEqual at h3
                  change (v.toFloat C >>= _) = _ at h3
                  rw [hx] at h3
                  change (w.toFloat C >>= _) = _ at h3
                  rw [hy] at h3
                  cases h3
              | @dict d e hk hv =>
                have : storedEq C (.ret (some d)) (.dict e) = true :=
                  dictEq_iff.2 ⟨hk, fun k v x h h' => valEq_float.2 (hv k v x h h')⟩
                rw [this] at h1
                cases h1
              | @roundedDict d e hk hv =>
                have hd := hd d rfl
                obtain ⟨d', hd'⟩ := collect_ok (f := fun p : Str × Val F => do return (p.1, ← p.2.toFloat C)) (l := d)
                  (by
                    intro p hp
                    obtain ⟨x, hx⟩ := get?_some_of_mem ((hk p.1).1 (List.mem_map_of_mem hp))
                    obtain ⟨y, hy, -⟩ := hv p.1 p.2 x (Dict.get?_of_mem hd hp) hx
                    exact ⟨(p.1, y), by rw [hy]; rfl⟩)
                have hd' : floats C d = .ok d' := hd'
                obtain ⟨k1, k2⟩ := collect_dict hd'
                have : dictsEqual C (.ret (some d)) (.dict e) = .ok true := by
                  unfold dictsEqual
                  simp only
                  rw [hd']
                  have : dictEq (fun x y => decide (C.val x = C.val y)) d' e = true := by
                    refine dictEq_iff.2 ⟨fun k => by rw [k1]; exact hk k, fun k y x hy hx => ?_⟩
                    have hkd : k ∈ d.keys := (hk k).2 (by
                      by_contra hn
                      rw [get?_none_iff.2 hn] at hx
                      cases hx)
                    obtain ⟨v, hvk⟩ := get?_some_of_mem hkd
                    obtain ⟨z, hz1, hz2⟩ := hv k v x hvk hx
                    obtain ⟨z', hz1', hz2'⟩ := k2 k v hvk
                    rw [hz1] at hz1'
                    cases hz1'
                    rw [hy] at hz2'
                    cases hz2'
                    exact decide_eq_true hz2
                  change Except.ok (dictEq _ d' e) = _
                  rw [this]
                rw [this] at h
                cases h
                rfl

/-! ### cells -/

theorem dots_spec (w : Shown F) : (Absent w → dots w = .str str!"...") ∧ (¬ Absent w → dots w = w) := by
  cases w <;> simp [Absent, dots, Shown.isnan]

theorem paint_spec {s : Stored F} {w : Shown F} {c : CV (Shown F)} {en : Bool} (hd : ∀ d, s = .ret (some d) → IsDict d)
    (h : paint C en s.isRet s w = .ok c) : CellOk en (Same C s w) w c := by
  unfold paint at h
  cases en with
  | false =>
    cases h
    exact ⟨(dots_spec w).1, (dots_spec w).2, by simp, by simp, by simp⟩
  | true =>
    simp only [Bool.not_true, Bool.false_eq_true, if_false] at h
    cases hs : same C s.isRet s w with
    | error e => rw [hs] at h; cases h
    | ok b =>
      rw [hs] at h
      cases h
      have := same_spec hd hs
      refine ⟨(dots_spec w).1, (dots_spec w).2, ?_, ?_, ?_⟩ <;> cases b <;> simp_all

/-- the text of a unit, which may be missing -/
theorem paintUnit_spec (en : Bool) (saved returned : Option Str) :
    CellOk en (saved = returned) (ofText returned) (paintUnit en saved returned : CV (Shown F)) := by
  have hw : ∀ r : Option Str, (match r with
    | some u => Shown.str u
    | none => (Shown.null : Shown F)) = ofText r := by
    intro r
    cases r <;> rfl
  unfold paintUnit
  simp only [hw]
  cases en with
  | false => exact ⟨(dots_spec _).1, (dots_spec _).2, by simp, by simp, by simp⟩
  | true =>
    simp only [Bool.not_true, Bool.false_eq_true, if_false]
    refine ⟨(dots_spec _).1, (dots_spec _).2, ?_, ?_, ?_⟩ <;> by_cases h : saved = returned <;> simp [h]

/-! ### columns -/

theorem series_shownAs (l : List (Shown F)) : List.Forall₂ (ShownAs C) l (series C l) := by
  unfold series
  split
  · rw [List.forall₂_map_right_iff, List.forall₂_same]
    intro w _
    cases w with
    | null => exact .nan
    | int n =>
      simp only [toSeries]
      cases h : C.ofInt n with
      | none => exact .refl _
      | some x => exact .float h
    | _ => exact .refl _
  · rw [List.forall₂_same]
    exact fun w _ => .refl w

theorem forall₂_collect {α β : Type} {f : α → Except Err β} : ∀ {l : List α} {m : List β},
    collect f l = .ok m → List.Forall₂ (fun a b => f a = .ok b) l m
  | [], m, h => by cases h; exact .nil
  | a :: l, m, h => by
    unfold collect at h
    cases ha : f a with
    | error e => rw [ha] at h; cases h
    | ok b =>
      rw [ha] at h
      simp only at h
      cases hl : collect f l with
      | error e => rw [hl] at h; cases h
      | ok bs =>
        rw [hl] at h
        cases h
        exact .cons ha (forall₂_collect hl)

/-- what stands in a column for a species, before missing values are replaced -/
inductive Stands (C : Codec F) (texify : Str → Except Err Str) (S : Surface F) (rp : Rp F) : Col → Shown F → Prop
  | attr {a r w} : returned C texify S a rp = .ok r → ShownAs C r w → Stands C texify S rp (.attr a) w
  | unit {a u} : rp.getUnit a = .ok u → Stands C texify S rp (.unit a) (.str u)

variable {texify : Str → Except Err Str} {S : Surface F} {A : Str → Option (Dict Str Nat)} {en : Nat → Bool}

theorem columns_stand {units : Bool} {sel : List (Rp F)} : ∀ {l : List Str} {cols : List (Column F)},
    columns C texify S units sel l = .ok cols →
    ∀ c ∈ cols, List.Forall₂ (fun rp w => Stands C texify S rp c.1 w) sel c.2
  | [], cols, h => by
    cases h
    intro c hc
    cases hc
  | a :: l, cols, h => by
    unfold columns at h
    cases hv : collect (returned C texify S a) sel with
    | error e => rw [hv] at h; cases h
    | ok vs =>
      rw [hv] at h
      cases hr : columns C texify S units sel l with
      | error e => rw [hr] at h; cases h
      | ok rest =>
        rw [hr] at h
        have ih := columns_stand hr
        injection h with h
        subst h
        intro c hc
        rw [List.cons_append, List.mem_cons, List.mem_append] at hc
        rcases hc with rfl | hc | hc
        · have h1 := forall₂_collect hv
          have h2 := series_shownAs (C := C) vs
          clear hv ih hr
          show List.Forall₂ (fun rp w => Stands C texify S rp (.attr a) w) sel (series C vs)
          generalize series C vs = ws at h2
          induction h1 generalizing ws with
          | nil => cases h2; exact .nil
          | cons ha _ ih =>
            cases h2 with
            | cons hb hr => exact .cons (.attr ha hb) (ih _ hr)
        · cases hu : (if units = true then collect (fun rp : Rp F => rp.getUnit a) sel
            else .error .rpAttribute : Except Err (List Str)) with
          | error e => rw [hu] at hc; cases hc
          | ok us =>
            rw [hu] at hc
            rw [List.mem_singleton] at hc
            subst hc
            cases units with
            | false => cases hu
            | true =>
              rw [if_pos rfl] at hu
              rw [List.forall₂_map_right_iff]
              exact (forall₂_collect hu).imp fun rp u h => .unit h
        · exact ih c hc

/-- the headings: every attribute in order, its unit next to it if asked for and if it has one -/
theorem columns_heads {units : Bool} {sel : List (Rp F)} (hs : sel ≠ []) : ∀ {l : List Str} {cols : List (Column F)},
    columns C texify S units sel l = .ok cols →
    cols.map Prod.fst = l.flatMap fun a => .attr a :: if units = true ∧ a ∈ rpUnits.keys then [.unit a] else []
  | [], cols, h => by
    cases h
    rfl
  | a :: l, cols, h => by
    unfold columns at h
    cases hv : collect (returned C texify S a) sel with
    | error e => rw [hv] at h; cases h
    | ok vs =>
      rw [hv] at h
      cases hr : columns C texify S units sel l with
      | error e => rw [hr] at h; cases h
      | ok rest =>
        rw [hr] at h
        injection h with h
        subst h
        rw [List.flatMap_cons, List.cons_append, List.map_cons, List.map_append, columns_heads hs hr, List.cons_append]
        congr 2
        cases units with
        | false => simp
        | true =>
          simp only [if_true, true_and]
          by_cases ha : a ∈ rpUnits.keys
          · rw [if_pos ha]
            obtain ⟨us, hu⟩ := collect_ok (f := fun rp : Rp F => rp.getUnit a) (l := sel) (by
              intro rp _
              unfold Rp.getUnit
              obtain ⟨d, hd⟩ := get?_some_of_mem ha
              rw [hd]
              exact ⟨_, rfl⟩)
            rw [hu]
            rfl
          · rw [if_neg ha]
            cases sel with
            | nil => exact absurd rfl hs
            | cons rp sel =>
              unfold collect Rp.getUnit
              rw [get?_none_iff.2 ha]
              rfl

/-! ### rows -/

theorem rowsOf_spec {sel : List (Rp F)} {cols : List (Column F)}
    (h : ∀ c ∈ cols, List.Forall₂ (fun rp w => Stands C texify S rp c.1 w) sel c.2) :
    (rowsOf sel cols).map Prod.fst = sel ∧
    ∀ r ∈ rowsOf sel cols, List.Forall₂ (fun col p => p.1 = col ∧ Stands C texify S r.1 p.1 p.2) (cols.map Prod.fst) r.2 := by
  constructor
  · unfold rowsOf
    rw [List.map_map]
    have : (Prod.fst ∘ fun p : Rp F × ℕ => (p.1, cols.map fun c => (c.1, (c.2[p.2]?).getD .null))) = Prod.fst := rfl
    rw [this, List.zipIdx_map_fst]
  · intro r hr
    obtain ⟨p, hp, rfl⟩ := List.mem_map.1 hr
    obtain ⟨hi, hp⟩ := List.mem_zipIdx' (x := p.1) (i := p.2) hp
    simp only
    rw [List.forall₂_map_left_iff, List.forall₂_map_right_iff, List.forall₂_same]
    intro c hc
    refine ⟨rfl, ?_⟩
    have hc := h c hc
    have hl := hc.length_eq
    have := hc.get hi (hl ▸ hi)
    simp only [List.get_eq_getElem] at this
    rw [List.getElem?_eq_getElem (hl ▸ hi), Option.getD_some, hp]
    exact this

/-- the keys by which species are ordered; those of species that raise do not matter -/
def keyOf (C : Codec F) (A : Str → Option (Dict Str Nat)) (rp : Rp F) : ℚ := (key C A rp).toOption.getD 0

theorem ordered_spec {α : Type} {k : α → Except Err ℚ} {sort : Bool} {rows rows' : List α}
    (h : ordered k sort rows = .ok rows') :
    rows'.Perm rows ∧ (sort = false → rows' = rows) ∧
      (sort = true → rows'.Pairwise fun a b => (k a).toOption.getD 0 ≤ (k b).toOption.getD 0) := by
  unfold ordered at h
  cases sort with
  | false =>
    cases h
    exact ⟨.refl _, fun _ => rfl, fun h => by cases h⟩
  | true =>
    rw [if_pos rfl] at h
    cases hk : collect k rows with
    | error e => rw [hk] at h; cases h
    | ok ks =>
      rw [hk] at h
      injection h with h
      subst h
      have hz : ks.zip rows = rows.map (fun s => ((k s).toOption.getD 0, s)) := by
        rw [collect_keys 0 hk]
        exact zip_map_self _ _
      rw [hz, sortPairs_eq (by simp only [decide_eq_true_eq]; exact fun a b c => le_trans) (by simp [le_total])]
      have := mergeSort_sortedBy (le := fun a b : ℚ => decide (a ≤ b)) (fun s => (k s).toOption.getD 0) rows (by simp)
        (by simp only [decide_eq_true_eq]; exact fun a b c => le_trans) (by simp [le_total])
      exact ⟨this.perm, (fun h => by cases h), fun _ => this.sorted.imp (by simp)⟩

/-! ### the table -/

/-- one cell of the table as it should be -/
inductive Cell (C : Codec F) (texify : Str → Except Err Str) (S : Surface F) (en : Nat → Bool) (pretty : Bool)
    (rp : Rp F) : Col → CV (Shown F) → Prop
  | raw {col w} : pretty = false → Stands C texify S rp col w → Cell C texify S en pretty rp col ⟨w, .reset⟩
  | attr {a w c} : pretty = true → Stands C texify S rp (.attr a) w → CellOk (en rp.id) (Same C (savedOf rp a) w) w c →
      Cell C texify S en pretty rp (.attr a) c
  | unit {a u c} : pretty = true → rp.getUnit a = .ok u → CellOk (en rp.id) (rp.unit a = some u) (.str u) c →
      Cell C texify S en pretty rp (.unit a) c

theorem savedOf_isRet (rp : Rp F) (a : Str) : (savedOf rp a).isRet = decide (a = str!"ret_coefs") := by
  unfold savedOf
  split <;> simp_all [Stored.isRet]

theorem savedOf_dict {rp : Rp F} (h : rp.Valid) (a : Str) : ∀ d, savedOf rp a = .ret (some d) → IsDict d := by
  intro d hd
  unfold savedOf at hd
  split at hd
  · exact h.dict d (by injection hd)
  · cases hd

theorem cell_spec {rp : Rp F} {o : Bool} {p : Col × Shown F} {c : CV (Shown F)} (hv : rp.Valid)
    (hs : Stands C texify S rp p.1 p.2) (h : cell C en o rp p = .ok c) : Cell C texify S en o rp p.1 c := by
  obtain ⟨col, w⟩ := p
  unfold cell at h
  cases o with
  | false =>
    cases h
    exact .raw rfl hs
  | true =>
    simp only [Bool.not_true, Bool.false_eq_true, if_false] at h
    cases col with
    | attr a =>
      simp only at h
      rw [← savedOf_isRet rp a] at h
      exact .attr rfl hs (paint_spec (savedOf_dict hv a) h)
    | unit a =>
      cases hs with
      | @unit _ u hu =>
        injection h with h
        subst h
        exact .unit rfl hu (paintUnit_spec _ _ _)

/-- C88: what the table of species attributes shows. The rows are the species selected (all, or those that are enabled
and those that are not special, as asked for), each once, in their order or sorted by the key of the classifier. Every
attribute that is not ignored has a column, followed by one of its units if asked for. Every cell stands in its row for
what the getter returns: the value itself or three dots if there is none; red exactly if the species is disabled;
blue exactly if the species is enabled and the value differs from the one passed. -/
theorem species_table {o : Opts} {species : List (Rp F)} {t : Out F} (hv : ∀ rp ∈ species, rp.Valid)
    (h : speciesAttributes C A texify S en o species = .ok t) :
    ∃ rows : List (Rp F),
      (o.sort = false → rows.Sublist species) ∧ (o.sort = true → rows.Pairwise fun a b => keyOf C A a ≤ keyOf C A b) ∧
      (∃ l : List (Rp F), rows.Perm l ∧ l.Sublist species) ∧
      (∀ rp, rp ∈ rows ↔ rp ∈ species ∧ (o.disabled = true ∨ en rp.id = true) ∧
        (o.special = true ∨ ¬ (rp.getName C = .ok str!"e" ∨ rp.getName C = .ok str!"M"))) ∧
      t.rows = rows.map Rp.id ∧
      (rows ≠ [] → t.cols = (rpAttributes.filter (· ∉ o.ignored)).flatMap fun a =>
        .attr a :: if o.units = true ∧ a ∈ rpUnits.keys then [.unit a] else []) ∧
      List.Forall₂ (fun rp cs => List.Forall₂ (fun col c => Cell C texify S en o.pretty rp col c) t.cols cs)
        rows t.cells := by
  unfold speciesAttributes at h
  simp only at h
  cases hc : columns C texify S o.units (select C en o species) (rpAttributes.filter (· ∉ o.ignored)) with
  | error e => rw [hc] at h; cases h
  | ok cols =>
    rw [hc] at h
    cases hr : ordered (fun r : Row F => key C A r.1) o.sort (rowsOf (select C en o species) cols) with
    | error e =>
      change (ordered (fun r : Row F => key C A r.1) o.sort (rowsOf (select C en o species) cols) >>= _) = _ at h
      rw [hr] at h; cases h
    | ok rows =>
      change (ordered (fun r : Row F => key C A r.1) o.sort (rowsOf (select C en o species) cols) >>= _) = _ at h
      rw [hr] at h
      cases hl : collect (fun r : Row F => collect (cell C en o.pretty r.1) r.2) rows with
      | error e =>
        change (collect (fun r : Row F => collect (cell C en o.pretty r.1) r.2) rows >>= _) = _ at h
        rw [hl] at h; cases h
      | ok cells =>
        change (collect (fun r : Row F => collect (cell C en o.pretty r.1) r.2) rows >>= _) = _ at h
        rw [hl] at h
        injection h with h
        subst h
        obtain ⟨p1, p2, p3⟩ := ordered_spec hr
        obtain ⟨q1, q2⟩ := rowsOf_spec (columns_stand hc)
        have hperm : (rows.map Prod.fst).Perm (select C en o species) := q1 ▸ p1.map Prod.fst
        have hsel : ∀ rp, rp ∈ select C en o species ↔ rp ∈ species ∧ (o.disabled = true ∨ en rp.id = true) ∧
            (o.special = true ∨ ¬ (rp.getName C = .ok str!"e" ∨ rp.getName C = .ok str!"M")) := by
          intro rp
          unfold select
          rw [List.mem_filter]
          have hsp : (rp.isSpecial C).toOption ≠ some true ↔
              ¬ (rp.getName C = .ok str!"e" ∨ rp.getName C = .ok str!"M") := by
            unfold Rp.isSpecial
            cases hn : rp.getName C with
            | error e => simp [bind, Except.bind, Except.toOption]
            | ok n => simp [bind, Except.bind, Except.toOption, pure, Except.pure]
          simp only [Bool.and_eq_true, Bool.or_eq_true, decide_eq_true_eq, hsp]
        refine ⟨rows.map Prod.fst, ?_, ?_, ⟨_, hperm, List.filter_sublist⟩, ?_, ?_, ?_, ?_⟩
        · intro hs
          rw [p2 hs, q1]
          exact List.filter_sublist
        · intro hs
          rw [List.pairwise_map]
          exact p3 hs
        · intro rp
          rw [hperm.mem_iff, hsel]
        · simp [List.map_map, Function.comp_def]
        · intro hne
          refine columns_heads (fun h0 => hne ?_) hc
          rw [h0] at hperm
          exact hperm.eq_nil
        · rw [List.forall₂_map_left_iff]
          have hm : ∀ r ∈ rows, r ∈ rowsOf (select C en o species) cols := fun r hr => p1.mem_iff.1 hr
          have hval : ∀ r ∈ rows, r.1.Valid := by
            intro r hr
            apply hv
            exact ((hsel _).1 (hperm.mem_iff.1 (List.mem_map_of_mem hr))).1
          have hf := forall₂_collect hl
          clear hl p1 p2 p3 hperm hr
          induction hf with
          | nil => exact .nil
          | @cons r cs rows cells hrc _ ih =>
            refine .cons ?_ (ih (fun r hr => hm r (List.mem_cons_of_mem _ hr))
              (fun r hr => hval r (List.mem_cons_of_mem _ hr)))
            have h1 := q2 r (hm r List.mem_cons_self)
            have h2 := forall₂_collect hrc
            have hv1 := hval r List.mem_cons_self
            clear ih hm hval hrc
            show List.Forall₂ (fun col c => Cell C texify S en o.pretty r.1 col c) (cols.map Prod.fst) cs
            revert h1 h2
            generalize cols.map Prod.fst = heads
            generalize r.2 = ps
            intro h1 h2
            induction h1 generalizing cs with
            | nil => cases h2; exact .nil
            | @cons col p heads ps hp _ ih =>
              cases h2 with
              | cons hc hr => exact .cons (hp.1 ▸ cell_spec hv1 hp.2 hc) (ih hr)

/-! ### when there is a table -/

/-- What a special species must not have been passed for the table to be made: a text that is not a number for an
attribute that special species do not have, or a different stateless name. -/
structure Quiet (C : Codec F) (rp : Rp F) : Prop where
  stateless : rp.attr str!"stateless" = .null ∨ ∃ t, rp.attr str!"stateless" = .str t ∧ rp.getName C = .ok t
  numbers : ∀ a ∈ [str!"state", str!"mass", str!"charge", str!"h_form", str!"lj_epsilon", str!"lj_sigma",
    str!"stick_coef"], ∀ t, rp.attr a = .str t → (C.readF t).isSome = true
  dict : ∀ d, rp.ret = some d → ∀ p ∈ d, ∃ x, p.2.toFloat C = .ok x

/-- an answer or a `TypeError` -/
def Fine (e : Except Err Bool) : Prop := (∃ b, e = .ok b) ∨ e = .error .typeError

theorem Fine.caught {e : Except Err Bool} (h : Fine e) : ∃ b, catchType e = .ok b := by
  rcases h with ⟨b, rfl⟩ | rfl
  · exact ⟨b, rfl⟩
  · exact ⟨false, rfl⟩

theorem same_total {s : Stored F} {w : Shown F} {ret : Bool} (h : storedEq C s w = true ∨
    (Fine (floatsEqual C s w) ∧ (ret = true → Fine (dictsEqual C s w)))) : ∃ b, same C ret s w = .ok b := by
  unfold same
  by_cases h1 : storedEq C s w = true
  · rw [h1]
    cases ret <;> exact ⟨true, rfl⟩
  · have hf := h.resolve_left h1
    rw [Bool.not_eq_true] at h1
    rw [h1]
    simp only [Bool.not_false, if_true]
    have h2 : Fine (if s.isNone = true then w.isnan else .ok false) := by
      split
      · cases w <;> simp [Shown.isnan, Fine]
      · exact .inl ⟨false, rfl⟩
    obtain ⟨b2, h2⟩ := h2.caught
    rw [h2]
    cases b2 with
    | true => cases ret <;> exact ⟨true, rfl⟩
    | false =>
      change ∃ b, (catchType (floatsEqual C s w) >>= _) = _
      obtain ⟨b3, h3⟩ := hf.1.caught
      rw [h3]
      cases b3 with
      | true => cases ret <;> exact ⟨true, rfl⟩
      | false =>
        cases ret with
        | false => exact ⟨false, rfl⟩
        | true => exact (hf.2 rfl).caught

/-- no text -/
def NotText : Shown F → Prop
  | .str _ => False
  | _ => True

theorem fine_null {s : Stored F} {w : Shown F} (h : s.toFloat C = .error .typeError) : Fine (floatsEqual C s w) := by
  unfold floatsEqual
  rw [h]
  exact .inr rfl

theorem fine_number (hI : ∀ n, (C.ofInt n).isSome = true) {s : Stored F} {w : Shown F} {x : F}
    (h : s.toFloat C = .ok x) (hw : NotText w) : Fine (floatsEqual C s w) := by
  unfold floatsEqual
  rw [h]
  change Fine (w.toFloat C >>= _)
  cases w with
  | null => exact .inr rfl
  | nan => exact .inl ⟨_, rfl⟩
  | str t => exact hw.elim
  | int n =>
    obtain ⟨y, hy⟩ := Option.isSome_iff_exists.1 (hI n)
    simp only [Shown.toFloat, hy]
    exact .inl ⟨_, rfl⟩
  | float y => exact .inl ⟨_, rfl⟩
  | bool b => exact .inl ⟨_, rfl⟩
  | dict d => exact .inr rfl

/-- a number was passed or nothing -/
theorem fine_val (hI : ∀ n, (C.ofInt n).isSome = true) {v : Val F} {w : Shown F}
    (h : v = .null ∨ ∃ x, v.toFloat C = .ok x) (hw : NotText w) : ∃ b, same C false (.val v) w = .ok b := by
  refine same_total (.inr ⟨?_, fun h => by cases h⟩)
  rcases h with rfl | ⟨x, hx⟩
  · exact fine_null rfl
  · exact fine_number hI hx hw

theorem ShownAs.notText {r w : Shown F} (h : ShownAs C r w) (hr : NotText r) : NotText w := by
  cases h with
  | refl => exact hr
  | nan => trivial
  | float _ => trivial

theorem ShownAs.str {t : Str} {w : Shown F} (h : ShownAs C (.str t) w) : w = .str t := by
  cases h
  rfl

theorem notText_ofFloat (o : Option F) : NotText (ofFloat o) := by cases o <;> trivial
theorem notText_ofInt (o : Option Int) : NotText (ofInt o : Shown F) := by cases o <;> trivial
theorem notText_ofDict (o : Option (Dict Str F)) : NotText (ofDict o) := by cases o <;> trivial

theorem floatOr_ok {v : Val F} {d o : Option F} (h : v.floatOr C d = .ok o) : v = .null ∨ ∃ x, v.toFloat C = .ok x := by
  cases v with
  | null => exact .inl rfl
  | _ =>
    right
    revert h
    simp only [Val.floatOr]
    split
    · rename_i y hy
      exact fun _ => ⟨y, hy⟩
    · intro h
      cases h

theorem intOr_ok (hI : ∀ n, (C.ofInt n).isSome = true) (hR : ∀ s n, C.readI s = some n → (C.readF s).isSome = true)
    {v : Val F} (hf : v.fits .integer = true) {d o : Option Int} (h : v.intOr C d = .ok o) :
    v = .null ∨ ∃ x, v.toFloat C = .ok x := by
  cases v with
  | null => exact .inl rfl
  | int n =>
    obtain ⟨y, hy⟩ := Option.isSome_iff_exists.1 (hI n)
    exact .inr ⟨y, by simp [Val.toFloat, hy]⟩
  | str s =>
    right
    simp only [Val.intOr, Val.toInt] at h
    cases hr : C.readI s with
    | none => rw [hr] at h; cases h
    | some n =>
      obtain ⟨y, hy⟩ := Option.isSome_iff_exists.1 (hR s n hr)
      exact ⟨y, by simp [Val.toFloat, hy]⟩
  | float x => simp [Val.fits] at hf
  | bool b => simp [Val.fits] at hf

/-- a value of a kind with numbers, the texts among which are numbers -/
theorem number_ok (hI : ∀ n, (C.ofInt n).isSome = true) {v : Val F} (h : ∀ t, v = .str t → (C.readF t).isSome = true) :
    v = .null ∨ ∃ x, v.toFloat C = .ok x := by
  cases v with
  | null => exact .inl rfl
  | int n =>
    obtain ⟨y, hy⟩ := Option.isSome_iff_exists.1 (hI n)
    exact .inr ⟨y, by simp [Val.toFloat, hy]⟩
  | str s =>
    obtain ⟨y, hy⟩ := Option.isSome_iff_exists.1 (h s rfl)
    exact .inr ⟨y, by simp [Val.toFloat, hy]⟩
  | float x => exact .inr ⟨x, rfl⟩
  | bool b => exact .inr ⟨_, rfl⟩

theorem text_cases {v : Val F} (h : v.fits .text = true) : v = .null ∨ ∃ t, v = .str t := by
  cases v with
  | null => exact .inl rfl
  | str t => exact .inr ⟨t, rfl⟩
  | _ => simp [Val.fits] at h

/-- a text that is returned as it was passed -/
theorem text_same {v : Val F} (h : v.fits .text = true) {w : Shown F} (hw : ∀ t, v = .str t → w = .str t) :
    ∃ b, same C false (.val v) w = .ok b := by
  rcases text_cases h with rfl | ⟨t, rfl⟩
  · exact same_total (.inr ⟨fine_null rfl, fun h => by cases h⟩)
  · rw [hw t rfl]
    exact same_total (.inl (by simp [storedEq, valEq]))

theorem bind_ok {α β : Type} {x : Except Err α} {f : α → Except Err β} {b : β} (h : (x >>= f) = .ok b) :
    ∃ a, x = .ok a ∧ f a = .ok b := by
  cases x with
  | error e => cases h
  | ok a => exact ⟨a, rfl, h⟩

theorem special_or (rp : Rp F) {n : Str} (hn : rp.getName C = .ok n) :
    (rp.isSpecial C = .ok true ∧ (n = str!"e" ∨ n = str!"M")) ∨ (rp.isSpecial C = .ok false ∧ n ≠ str!"M") := by
  unfold Rp.isSpecial
  rw [hn]
  by_cases h : n = str!"e" ∨ n = str!"M"
  · exact .inl ⟨by simp [bind, Except.bind, pure, Except.pure, h], h⟩
  · exact .inr ⟨by simp [bind, Except.bind, pure, Except.pure, h], fun e => h (.inr e)⟩

theorem isSpecial_name {rp : Rp F} {b : Bool} (h : rp.isSpecial C = .ok b) : ∃ n, rp.getName C = .ok n := by
  obtain ⟨n, hn, -⟩ := bind_ok h
  exact ⟨n, hn⟩

/-- comparing never fails for a valid species, which is quiet if it is special -/
theorem same_attr (hI : ∀ n, (C.ofInt n).isSome = true) (hR : ∀ s n, C.readI s = some n → (C.readF s).isSome = true)
    {rp : Rp F} (hv : rp.Valid)
    (hq : rp.getName C = .ok str!"e" ∨ rp.getName C = .ok str!"M" → Quiet C rp)
    {a : Str} (ha : a ∈ rpAttributes) {r w : Shown F} (hr : returned C texify S a rp = .ok r) (hw : ShownAs C r w) :
    ∃ b, same C (a = str!"ret_coefs") (savedOf rp a) w = .ok b := by
  have hq' : rp.isSpecial C = .ok true → Quiet C rp := by
    intro h
    obtain ⟨n, hn⟩ := isSpecial_name h
    rcases special_or rp hn with ⟨-, h' | h'⟩ | ⟨h', -⟩
    · exact hq (.inl (h' ▸ hn))
    · exact hq (.inr (h' ▸ hn))
    · rw [h] at h'; cases h'
  simp only [rpAttributes, List.mem_cons, List.not_mem_nil, or_false] at ha
  rcases ha with rfl | rfl | rfl | rfl | rfl | rfl | rfl | rfl | rfl | rfl | rfl | rfl | rfl | rfl
  · -- name
    change (rp.getName C >>= _) = _ at hr
    obtain ⟨n, hn, hr⟩ := bind_ok hr
    cases hr
    refine text_same (hv.fits str!"name" .text rfl) fun t ht => ?_
    rw [Rp.getName, ht] at hn
    cases hn
    exact hw.str
  · -- stateless
    change (rp.getStateless C >>= _) = _ at hr
    obtain ⟨n, hn, hr⟩ := bind_ok hr
    cases hr
    refine text_same (hv.fits str!"stateless" .text rfl) fun t ht => ?_
    have ht : rp.attr str!"stateless" = .str t := ht
    rw [hw.str]
    unfold Rp.getStateless at hn
    obtain ⟨b, hb, hn⟩ := bind_ok hn
    cases b with
    | true =>
      rw [if_pos rfl] at hn
      rcases (hq' hb).stateless with h | ⟨t', h, h'⟩
      · rw [h] at ht; cases ht
      · rw [h] at ht
        cases ht
        rw [h'] at hn
        cases hn
        rfl
    | false =>
      rw [if_neg (by simp), ht] at hn
      cases hn
      rfl
  · -- state
    change (rp.getState C >>= _) = _ at hr
    obtain ⟨n, hn, hr⟩ := bind_ok hr
    cases hr
    unfold Rp.getState at hn
    obtain ⟨b, hb, hn⟩ := bind_ok hn
    cases b with
    | true =>
      cases hn
      exact fine_val hI (number_ok hI ((hq' hb).numbers str!"state" (by decide))) (hw.notText trivial)
    | false =>
      rw [if_neg (by simp)] at hn
      cases hn
      refine text_same (hv.fits str!"state" .text rfl) fun t ht => ?_
      have ht : rp.attr str!"state" = .str t := ht
      rw [ht] at hw
      exact hw.str
  · -- mass
    change (rp.getMass C >>= _) = _ at hr
    obtain ⟨n, hn, hr⟩ := bind_ok hr
    cases hr
    refine fine_val hI ?_ (hw.notText (notText_ofFloat n))
    unfold Rp.getMass at hn
    obtain ⟨m, hm, hn⟩ := bind_ok hn
    by_cases h : m = str!"M"
    · exact number_ok hI ((hq (.inr (h ▸ hm))).numbers str!"mass" (by decide))
    · rw [if_neg h] at hn
      obtain ⟨o, ho, -⟩ := bind_ok hn
      exact floatOr_ok ho
  · -- charge
    change (rp.getCharge C >>= _) = _ at hr
    obtain ⟨n, hn, hr⟩ := bind_ok hr
    cases hr
    refine fine_val hI ?_ (hw.notText (notText_ofInt n))
    unfold Rp.getCharge at hn
    obtain ⟨m, hm, hn⟩ := bind_ok hn
    by_cases h : m = str!"M"
    · exact number_ok hI ((hq (.inr (h ▸ hm))).numbers str!"charge" (by decide))
    · rw [if_neg h] at hn
      exact intOr_ok hI hR (hv.fits str!"charge" .integer rfl) hn
  · -- h_form
    change (rp.getFloat C _ _ >>= _) = _ at hr
    obtain ⟨n, hn, hr⟩ := bind_ok hr
    cases hr
    refine fine_val hI ?_ (hw.notText (notText_ofFloat n))
    unfold Rp.getFloat at hn
    obtain ⟨b, hb, hn⟩ := bind_ok hn
    cases b with
    | true => exact number_ok hI ((hq' hb).numbers str!"h_form" (by decide))
    | false => exact floatOr_ok hn
  · -- lj_epsilon
    change (rp.getFloat C _ _ >>= _) = _ at hr
    obtain ⟨n, hn, hr⟩ := bind_ok hr
    cases hr
    refine fine_val hI ?_ (hw.notText (notText_ofFloat n))
    unfold Rp.getFloat at hn
    obtain ⟨b, hb, hn⟩ := bind_ok hn
    cases b with
    | true => exact number_ok hI ((hq' hb).numbers str!"lj_epsilon" (by decide))
    | false => exact floatOr_ok hn
  · -- lj_sigma
    change (rp.getFloat C _ _ >>= _) = _ at hr
    obtain ⟨n, hn, hr⟩ := bind_ok hr
    cases hr
    refine fine_val hI ?_ (hw.notText (notText_ofFloat n))
    unfold Rp.getFloat at hn
    obtain ⟨b, hb, hn⟩ := bind_ok hn
    cases b with
    | true => exact number_ok hI ((hq' hb).numbers str!"lj_sigma" (by decide))
    | false => exact floatOr_ok hn
  · -- hpem_name
    change (rp.getText C _ >>= _) = _ at hr
    obtain ⟨n, hn, hr⟩ := bind_ok hr
    cases hr
    cases hn
    refine text_same (hv.fits str!"hpem_name" .text rfl) fun t ht => ?_
    have ht : rp.attr str!"hpem_name" = .str t := ht
    rw [ht] at hw
    exact hw.str
  · -- qdb_id
    change (rp.getQdbId C >>= _) = _ at hr
    obtain ⟨n, hn, hr⟩ := bind_ok hr
    cases hr
    exact fine_val hI (intOr_ok hI hR (hv.fits str!"qdb_id" .integer rfl) hn) (hw.notText (notText_ofInt n))
  · -- stick_coef
    change (rp.getStick C >>= _) = _ at hr
    obtain ⟨n, hn, hr⟩ := bind_ok hr
    cases hr
    refine fine_val hI ?_ (hw.notText (notText_ofFloat _))
    unfold Rp.getStick at hn
    obtain ⟨b, hb, hn⟩ := bind_ok hn
    cases b with
    | true => exact number_ok hI ((hq' hb).numbers str!"stick_coef" (by decide))
    | false =>
      rw [if_neg (by simp)] at hn
      obtain ⟨o, ho, -⟩ := bind_ok hn
      exact floatOr_ok ho
  · -- ret_coefs
    change (rp.getRet C >>= _) = _ at hr
    obtain ⟨n, hn, hr⟩ := bind_ok hr
    cases hr
    refine same_total (.inr ⟨fine_null rfl, fun _ => ?_⟩)
    change Fine (dictsEqual C (.ret rp.ret) w)
    cases hd : rp.ret with
    | none => exact .inr rfl
    | some d =>
      have hf : ∃ d', floats C d = .ok d' := by
        unfold Rp.getRet at hn
        obtain ⟨b, hb, hn⟩ := bind_ok hn
        cases b with
        | true =>
          refine collect_ok fun p hp => ?_
          obtain ⟨x, hx⟩ := (hq' hb).dict d hd p hp
          exact ⟨(p.1, x), by rw [hx]; rfl⟩
        | false =>
          rw [if_neg (by simp), hd] at hn
          obtain ⟨d', hd', -⟩ := bind_ok hn
          exact ⟨d', hd'⟩
      obtain ⟨d', hd'⟩ := hf
      unfold dictsEqual
      simp only
      rw [hd']
      exact .inl ⟨_, rfl⟩
  · -- comments
    change (rp.getText C _ >>= _) = _ at hr
    obtain ⟨n, hn, hr⟩ := bind_ok hr
    cases hr
    cases hn
    refine text_same (hv.fits str!"comments" .text rfl) fun t ht => ?_
    have ht : rp.attr str!"comments" = .str t := ht
    rw [ht] at hw
    exact hw.str
  · -- latex
    change (rp.getLatex C _ >>= _) = _ at hr
    obtain ⟨n, hn, hr⟩ := bind_ok hr
    cases hr
    refine text_same (hv.fits str!"latex" .text rfl) fun t ht => ?_
    have ht : rp.attr str!"latex" = .str t := ht
    unfold Rp.getLatex at hn
    rw [ht] at hn
    cases hn
    exact hw.str

/-- the attributes of the columns -/
theorem columns_attrs {units : Bool} {sel : List (Rp F)} : ∀ {l : List Str} {cols : List (Column F)},
    columns C texify S units sel l = .ok cols → ∀ c ∈ cols, ∀ a, c.1 = .attr a → a ∈ l
  | [], cols, h => by
    cases h
    intro c hc
    cases hc
  | a :: l, cols, h => by
    unfold columns at h
    obtain ⟨vs, -, h⟩ := bind_ok h
    simp only at h
    obtain ⟨rest, hr, h⟩ := bind_ok h
    have ih := columns_attrs hr
    injection h with h
    subst h
    intro c hc b hb
    rw [List.cons_append, List.mem_cons, List.mem_append] at hc
    rcases hc with rfl | hc | hc
    · injection hb with hb
      rw [← hb]
      exact List.mem_cons_self
    · split at hc
      · rw [List.mem_singleton] at hc
        subst hc
        cases hb
      · cases hc
    · exact List.mem_cons_of_mem _ (ih c hc b hb)

/-- C88: there is a table whenever the getters answer for all species in it (and, if it is to be sorted, the key can be
computed), unless a special species that is enabled was passed a text that is not a number for an attribute it does
not have. -/
theorem species_table_total (hI : ∀ n, (C.ofInt n).isSome = true)
    (hR : ∀ s n, C.readI s = some n → (C.readF s).isSome = true) {o : Opts} {species : List (Rp F)}
    (hv : ∀ rp ∈ species, rp.Valid)
    (hg : ∀ rp ∈ species, ∀ a ∈ rpAttributes, ∃ r, returned C texify S a rp = .ok r)
    (hk : o.sort = true → ∀ rp ∈ species, ∃ k, key C A rp = .ok k)
    (hq : ∀ rp ∈ species, en rp.id = true → rp.getName C = .ok str!"e" ∨ rp.getName C = .ok str!"M" → Quiet C rp) :
    ∃ t, speciesAttributes C A texify S en o species = .ok t := by
  have hsub : ∀ rp ∈ select C en o species, rp ∈ species := fun rp h => (List.mem_filter.1 h).1
  have hcols : ∀ l : List Str, (∀ a ∈ l, a ∈ rpAttributes) →
      ∃ cols, columns C texify S o.units (select C en o species) l = .ok cols := by
    intro l hl
    induction l with
    | nil => exact ⟨[], rfl⟩
    | cons a l ih =>
      obtain ⟨rest, hr⟩ := ih fun b hb => hl b (List.mem_cons_of_mem _ hb)
      obtain ⟨vs, hvs⟩ := collect_ok (f := returned C texify S a) (l := select C en o species)
        fun rp hrp => hg rp (hsub rp hrp) a (hl a List.mem_cons_self)
      unfold columns
      rw [hvs, hr]
      exact ⟨_, rfl⟩
  obtain ⟨cols, hc⟩ := hcols (rpAttributes.filter (· ∉ o.ignored)) fun a ha => (List.mem_filter.1 ha).1
  obtain ⟨q1, q2⟩ := rowsOf_spec (columns_stand hc)
  have hrow : ∀ r ∈ rowsOf (select C en o species) cols, r.1 ∈ species := fun r hr =>
    hsub _ (q1 ▸ List.mem_map_of_mem hr)
  have hord : ∃ rows, ordered (fun r : Row F => key C A r.1) o.sort (rowsOf (select C en o species) cols) = .ok rows := by
    unfold ordered
    cases hs : o.sort with
    | false => exact ⟨_, rfl⟩
    | true =>
      obtain ⟨ks, hks⟩ := collect_ok (f := fun r : Row F => key C A r.1) (l := rowsOf (select C en o species) cols)
        fun r hr => hk hs r.1 (hrow r hr)
      rw [if_pos rfl, hks]
      exact ⟨_, rfl⟩
  obtain ⟨rows, hr⟩ := hord
  obtain ⟨p1, -, -⟩ := ordered_spec hr
  obtain ⟨cells, hcells⟩ := collect_ok (f := fun r : Row F => collect (cell C en o.pretty r.1) r.2) (l := rows) (by
    intro r hrr
    have hrr := p1.mem_iff.1 hrr
    have hm := hrow r hrr
    have hst := q2 r hrr
    refine collect_ok fun p hp => ?_
    have hpp : ∃ col ∈ cols.map Prod.fst, p.1 = col ∧ Stands C texify S r.1 p.1 p.2 := by
      clear hr p1 hcols
      revert hst hp
      generalize cols.map Prod.fst = heads
      generalize r.2 = ps
      intro hst hp
      induction hst with
      | nil => cases hp
      | cons hx _ ih =>
        rcases List.mem_cons.1 hp with rfl | hp
        · exact ⟨_, List.mem_cons_self, hx⟩
        · obtain ⟨c, hc, h⟩ := ih hp
          exact ⟨c, List.mem_cons_of_mem _ hc, h⟩
    obtain ⟨col, hcol, hpc, hs⟩ := hpp
    obtain ⟨col0, w⟩ := p
    unfold cell
    cases o.pretty with
    | false => exact ⟨_, rfl⟩
    | true =>
      simp only [Bool.not_true, Bool.false_eq_true, if_false]
      cases col0 with
      | unit a => exact ⟨_, rfl⟩
      | attr a =>
        simp only
        unfold paint
        cases he : en r.1.id with
        | false => exact ⟨_, rfl⟩
        | true =>
          cases hs with
          | attr hret hw =>
            obtain ⟨c, hcm, rfl⟩ := List.mem_map.1 hcol
            have ha := (List.mem_filter.1 (columns_attrs hc c hcm a hpc.symm)).1
            obtain ⟨b, hb⟩ := same_attr hI hR (hv _ hm) (hq _ hm he) ha hret hw
            simp only [Bool.not_true, Bool.false_eq_true, if_false]
            rw [hb]
            exact ⟨_, rfl⟩)
  unfold speciesAttributes
  simp only
  rw [hc]
  change ∃ t, (ordered (fun r : Row F => key C A r.1) o.sort (rowsOf (select C en o species) cols) >>= _) = _
  rw [hr]
  change ∃ t, (collect (fun r : Row F => collect (cell C en o.pretty r.1) r.2) rows >>= _) = _
  rw [hcells]
  exact ⟨_, rfl⟩

end Verif.Plaschem.Table
