/-
C89: the cells of the table of the attributes of the reactions.
-/
import Verif.Plaschem.TableRxRows
import Verif.Plaschem.TableProps

namespace Verif.Plaschem.TableRx
open Verif.Plaschem Pretty Xml Classify Table

variable {F : Type} {C : Codec F}

/-! ### specification -/

/-- the texts that can be passed for truth values -/
def truths : List (Str × Bool) :=
  [(str!"True", true), (str!"true", true), (str!"TRUE", true), (str!"False", false), (str!"false", false),
   (str!"FALSE", false)]

/-- A text was passed for the truth value that is returned. -/
def Spelled (v : Val F) (w : Shown F) : Prop := ∃ p ∈ truths, v = .str p.1 ∧ w = .bool p.2

/-! ### comparing -/

theorem flagText_iff {v : Val F} {b : Bool} : flagText v = some b ↔ ∃ p ∈ truths, v = .str p.1 ∧ p.2 = b := by
  constructor
  · intro h
    unfold flagText at h
    split at h
    · rename_i s
      split at h
      · rename_i hs
        obtain rfl := Option.some.inj h
        simp only [List.mem_cons, List.not_mem_nil, or_false] at hs
        rcases hs with rfl | rfl | rfl
        · exact ⟨(str!"True", true), by decide, rfl, rfl⟩
        · exact ⟨(str!"true", true), by decide, rfl, rfl⟩
        · exact ⟨(str!"TRUE", true), by decide, rfl, rfl⟩
      · split at h
        · rename_i hs
          obtain rfl := Option.some.inj h
          simp only [List.mem_cons, List.not_mem_nil, or_false] at hs
          rcases hs with rfl | rfl | rfl
          · exact ⟨(str!"False", false), by decide, rfl, rfl⟩
          · exact ⟨(str!"false", false), by decide, rfl, rfl⟩
          · exact ⟨(str!"FALSE", false), by decide, rfl, rfl⟩
        · cases h
    · cases h
  · rintro ⟨p, hp, rfl, rfl⟩
    have : ∀ p ∈ truths, (if p.1 ∈ [str!"True", str!"true", str!"TRUE"] then some true
      else if p.1 ∈ [str!"False", str!"false", str!"FALSE"] then some false else none) = some p.2 := by decide
    exact this p hp

/-- apart from texts for truth values the comparison is that of the table of species -/
theorem same_eq {boxed : Bool} {v : Val F} {w : Shown F} (hn : flagText v = none) :
    same C boxed v w = Table.same C false (.val v) w := by
  unfold same Table.same
  rw [hn]
  simp only [storedEq, Bool.and_false, Bool.false_eq_true, if_false]
  cases valEq C v w with
  | true => rfl
  | false =>
    simp only [Bool.not_false, if_true]
    cases catchType (if (Stored.val v).isNone = true then w.isnan else .ok false) with
    | error e => rfl
    | ok b =>
      cases b with
      | true => rfl
      | false =>
        simp only [bind, Except.bind, Bool.not_false, if_true]
        cases catchType (floatsEqual C (.val v) w) <;> rfl

/-- The comparison answers whether the two are the same. Texts for truth values count only in a table with headings;
they are not numbers. -/
theorem same_spec (hF : ∀ p ∈ truths, C.readF p.1 = none) {boxed : Bool} {v : Val F} {w : Shown F} {b : Bool}
    (h : same C boxed v w = .ok b) : b = true ↔ Same C (.val v) w ∨ (boxed = true ∧ Spelled v w) := by
  cases hf : flagText v with
  | none =>
    rw [same_eq hf] at h
    have hns : ¬ Spelled v w := by
      rintro ⟨p, hp, hv, -⟩
      rw [flagText_iff.2 ⟨p, hp, hv, rfl⟩] at hf
      cases hf
    simp only [hns, and_false, or_false]
    exact Table.same_spec (s := .val v) (fun d hd => by cases hd) h
  | some t =>
    obtain ⟨p, hp, rfl, rfl⟩ := flagText_iff.1 hf
    unfold same at h
    rw [hf] at h
    have hsame : Same C (.val (.str p.1)) w ↔ w = .str p.1 := by
      constructor
      · intro hs
        cases hs with
        | text => rfl
        | number he _ => cases he
        | rounded he _ _ => simp [Val.toFloat, hF p hp] at he
      · rintro rfl
        exact .text _
    have hsp : Spelled (.str p.1 : Val F) w ↔ w = .bool p.2 := by
      constructor
      · rintro ⟨q, hq, e, rfl⟩
        have e : p.1 = q.1 := by injection e
        have := (by decide : ∀ p ∈ truths, ∀ q ∈ truths, p.1 = q.1 → p.2 = q.2) p hp q hq e
        rw [this]
      · rintro rfl
        exact ⟨p, hp, rfl, rfl⟩
    rw [hsame, hsp]
    cases w with
    | str t =>
      by_cases e : p.1 = t
      · subst e
        simp [valEq, bind, Except.bind] at h
        simp [← h]
      · have e' : ¬ t = p.1 := fun h => e h.symm
        simp [valEq, e, Stored.isNone, catchType, bind, Except.bind] at h
        simp [← h, e']
    | bool t =>
      simp [valEq, Stored.isNone, catchType, bind, Except.bind] at h
      subst h
      cases boxed <;> cases t <;> cases p.2 <;> simp
    | _ =>
      simp [valEq, Stored.isNone, catchType, bind, Except.bind] at h
      simp [← h]

theorem paint_spec (hF : ∀ p ∈ truths, C.readF p.1 = none) {v : Val F} {w : Shown F} {c : CV (Shown F)} {en boxed : Bool}
    (h : paint C en boxed v w = .ok c) : CellOk en (Same C (.val v) w ∨ (boxed = true ∧ Spelled v w)) w c := by
  unfold paint at h
  cases en with
  | false =>
    cases h
    exact ⟨(dots_spec w).1, (dots_spec w).2, by simp, by simp, by simp⟩
  | true =>
    simp only [Bool.not_true, Bool.false_eq_true, if_false] at h
    cases hs : same C boxed v w with
    | error e => rw [hs] at h; cases h
    | ok b =>
      rw [hs] at h
      cases h
      have := same_spec hF hs
      refine ⟨(dots_spec w).1, (dots_spec w).2, ?_, ?_, ?_⟩ <;> cases b <;> simp_all

/-! ### columns -/

/-- what stands in a column for a reaction, before missing values are replaced -/
inductive Stands (C : Codec F) (T : Str → Except Err Str) (adA : Nat → Option F) (x : Rx F) : Col → Shown F → Prop
  | attr {a r w} : returned C T adA a x = .ok r → ShownAs C r w → Stands C T adA x (.attr a) w
  | unit {a u} : x.getUnit a = .ok u → Stands C T adA x (.unit a) (ofText u)

variable {T : Str → Except Err Str} {adA : Nat → Option F} {en : Nat → Bool} {A : Str → Option (Dict Str Nat)}

theorem columns_stand {units : Bool} {sel : List (Rx F)} : ∀ {l : List Str} {cols : List (Column F)},
    columns C T adA units sel l = .ok cols →
    ∀ c ∈ cols, List.Forall₂ (fun x w => Stands C T adA x c.1 w) sel c.2
  | [], cols, h => by
    cases h
    intro c hc
    cases hc
  | a :: l, cols, h => by
    unfold columns at h
    cases hv : collect (returned C T adA a) sel with
    | error e => rw [hv] at h; cases h
    | ok vs =>
      rw [hv] at h
      cases hr : columns C T adA units sel l with
      | error e => rw [hr] at h; cases h
      | ok rest =>
        rw [hr] at h
        have ih := columns_stand hr
        injection h with h
        subst h
        intro c hc
        rw [List.cons_append, List.mem_cons, List.mem_append] at hc
        rcases hc with rfl | hc | hc
        · have h1 := forall₂_collect hv
          have h2 := series_shownAs (C := C) vs
          clear hv ih hr
          show List.Forall₂ (fun x w => Stands C T adA x (.attr a) w) sel (series C vs)
          generalize series C vs = ws at h2
          induction h1 generalizing ws with
          | nil => cases h2; exact .nil
          | cons ha _ ih =>
            cases h2 with
            | cons hb hr => exact .cons (.attr ha hb) (ih _ hr)
        · cases hu : (if units = true then collect (fun x : Rx F => x.getUnit a) sel
            else .error .reactionAttribute : Except Err (List (Option Str))) with
          | error e => rw [hu] at hc; cases hc
          | ok us =>
            rw [hu] at hc
            rw [List.mem_singleton] at hc
            subst hc
            cases units with
            | false => cases hu
            | true =>
              rw [if_pos rfl] at hu
              rw [List.forall₂_map_right_iff]
              exact (forall₂_collect hu).imp fun x u h => .unit h
        · exact ih c hc

/-- the headings: every attribute in order, its unit next to it if asked for and if it has one -/
theorem columns_heads {units : Bool} {sel : List (Rx F)} (hs : sel ≠ []) : ∀ {l : List Str} {cols : List (Column F)},
    columns C T adA units sel l = .ok cols →
    cols.map Prod.fst = l.flatMap fun a => .attr a :: if units = true ∧ a ∈ rxUnits.keys then [.unit a] else []
  | [], cols, h => by
    cases h
    rfl
  | a :: l, cols, h => by
    unfold columns at h
    cases hv : collect (returned C T adA a) sel with
    | error e => rw [hv] at h; cases h
    | ok vs =>
      rw [hv] at h
      cases hr : columns C T adA units sel l with
      | error e => rw [hr] at h; cases h
      | ok rest =>
        rw [hr] at h
        injection h with h
        subst h
        rw [List.flatMap_cons, List.cons_append, List.map_cons, List.map_append, columns_heads hs hr, List.cons_append]
        congr 2
        cases units with
        | false => simp
        | true =>
          simp only [if_true, true_and]
          by_cases ha : a ∈ rxUnits.keys
          · rw [if_pos ha]
            obtain ⟨us, hu⟩ := collect_ok (f := fun x : Rx F => x.getUnit a) (l := sel) (by
              intro x _
              unfold Rx.getUnit
              obtain ⟨d, hd⟩ := get?_some_of_mem ha
              rw [hd]
              exact ⟨_, rfl⟩)
            rw [hu]
            rfl
          · rw [if_neg ha]
            cases sel with
            | nil => exact absurd rfl hs
            | cons x sel =>
              unfold collect Rx.getUnit
              rw [get?_none_iff.2 ha]
              rfl

theorem rowsOf_spec {sel : List (Rx F)} {cols : List (Column F)}
    (h : ∀ c ∈ cols, List.Forall₂ (fun x w => Stands C T adA x c.1 w) sel c.2) :
    (rowsOf sel cols).map Prod.fst = sel ∧
    ∀ r ∈ rowsOf sel cols, List.Forall₂ (fun col p => p.1 = col ∧ Stands C T adA r.1 p.1 p.2) (cols.map Prod.fst) r.2 := by
  constructor
  · unfold rowsOf
    rw [List.map_map]
    have : (Prod.fst ∘ fun p : Rx F × ℕ => (p.1, cols.map fun c => (c.1, (c.2[p.2]?).getD .null))) = Prod.fst := rfl
    rw [this, List.zipIdx_map_fst]
  · intro r hr
    obtain ⟨p, hp, rfl⟩ := List.mem_map.1 hr
    obtain ⟨hi, hp⟩ := List.mem_zipIdx' (x := p.1) (i := p.2) hp
    simp only
    rw [List.forall₂_map_left_iff, List.forall₂_map_right_iff, List.forall₂_same]
    intro c hc
    refine ⟨rfl, ?_⟩
    have hc := h c hc
    have hl := hc.length_eq
    have := hc.get hi (hl ▸ hi)
    simp only [List.get_eq_getElem] at this
    rw [List.getElem?_eq_getElem (hl ▸ hi), Option.getD_some, hp]
    exact this

/-! ### the table -/

/-- one cell of the table as it should be -/
inductive Cell (C : Codec F) (T : Str → Except Err Str) (adA : Nat → Option F) (en : Nat → Bool) (o : Opts)
    (x : Rx F) : Col → CV (Shown F) → Prop
  | raw {col w} : o.pretty = false → Stands C T adA x col w → Cell C T adA en o x col ⟨w, .reset⟩
  | attr {a w c} : o.pretty = true → Stands C T adA x (.attr a) w →
      CellOk (en x.id) (Same C (.val (x.attr a)) w ∨ (o.classify = true ∧ Spelled (x.attr a) w)) w c →
      Cell C T adA en o x (.attr a) c
  | unit {a u c} : o.pretty = true → x.getUnit a = .ok u → CellOk (en x.id) (x.unit a = u) (ofText u) c →
      Cell C T adA en o x (.unit a) c

theorem cell_spec (hF : ∀ p ∈ truths, C.readF p.1 = none) {x : Rx F} {o : Opts} {p : Col × Shown F} {c : CV (Shown F)}
    (hs : Stands C T adA x p.1 p.2) (h : cell C en o x p = .ok c) : Cell C T adA en o x p.1 c := by
  obtain ⟨col, w⟩ := p
  unfold cell at h
  cases hp : o.pretty with
  | false =>
    rw [hp] at h
    cases h
    exact .raw hp hs
  | true =>
    rw [hp] at h
    simp only [Bool.not_true, Bool.false_eq_true, if_false] at h
    cases col with
    | attr a => exact .attr hp hs (paint_spec hF h)
    | unit a =>
      cases hs with
      | @unit _ u hu =>
        injection h with h
        subst h
        cases u with
        | none => exact .unit hp hu (paintUnit_spec _ _ none)
        | some u => exact .unit hp hu (paintUnit_spec _ _ (some u))

/-- a row as it should be: the row of a reaction with the cells of its attributes, or one with a heading -/
inductive RowOk (C : Codec F) (T : Str → Except Err Str) (adA : Nat → Option F) (en : Nat → Bool) (o : Opts)
    (rxs : List (Rx F)) (cols : List Col) : Lined → Label × CV Str × List (CV (Shown F)) → Prop
  | reaction {x s cs} : x ∈ rxs → (o.disabled = true ∨ en x.id = true) →
      List.Forall₂ (fun col c => Cell C T adA en o x col c) cols cs →
      RowOk C T adA en o rxs cols (.rx x.id, s)
        (.rx x.id, ⟨s, if o.pretty = true ∧ en x.id = false then .red else .reset⟩, cs)
  | type {i s cs} : cs = cols.map (fun _ => ⟨.str [], .reset⟩) → RowOk C T adA en o rxs cols (.typ i, s)
      (.typ i, ⟨s, if o.pretty = true then .yellow else .reset⟩, cs)
  | category {i j s cs} : cs = cols.map (fun _ => ⟨.str [], .reset⟩) → RowOk C T adA en o rxs cols (.cat i j, s)
      (.cat i j, ⟨s, if o.pretty = true then .magenta else .reset⟩, cs)

/-- C89: what the table of reaction attributes shows. Every attribute that is not ignored has a column, followed by one
of its units if asked for. The rows are those of `rows_plain` or `rows_under_headings`. Every cell in the row of a
reaction stands for what the getter returns: the value itself or three dots if there is none; red exactly if the
reaction is disabled; blue exactly if it is enabled and the value differs from the one passed. Headings stand in
their colour in rows that are empty otherwise. -/
theorem reaction_table (hF : ∀ p ∈ truths, C.readF p.1 = none) {o : Opts} {rxs : List (Rx F)} {S : List RP}
    {R : List Reaction} {t : Out F}
    (h : reactionsAttributes C A T adA en o rxs S R = .ok t) :
    ∃ lines, sheet A o.sort o.classify S R = .ok lines ∧
      ((∃ x ∈ rxs, o.disabled = true ∨ en x.id = true) →
        t.cols = (rxAttributes.filter (· ∉ o.ignored)).flatMap fun a =>
          .attr a :: if o.units = true ∧ a ∈ rxUnits.keys then [.unit a] else []) ∧
      List.Forall₂ (RowOk C T adA en o rxs t.cols) lines t.rows := by
  unfold reactionsAttributes at h
  simp only at h
  obtain ⟨cols, hc, h⟩ := bind_ok h
  obtain ⟨lines, hl, h⟩ := bind_ok h
  obtain ⟨rows, hr, h⟩ := bind_ok h
  injection h with h
  subst h
  refine ⟨lines, hl, ?_, ?_⟩
  · rintro ⟨x, hx, he⟩
    refine columns_heads (sel := select en o rxs) (fun h0 => ?_) hc
    have : x ∈ select en o rxs := List.mem_filter.2 ⟨hx, by simpa using he⟩
    rw [h0] at this
    cases this
  · obtain ⟨q1, q2⟩ := rowsOf_spec (columns_stand hc)
    refine (forall₂_collect hr).imp fun l row hrow => ?_
    obtain ⟨lab, s⟩ := l
    unfold finish at hrow
    cases lab with
    | typ i =>
      injection hrow with hrow
      subst hrow
      simp only [firstColor]
      exact .type (by simp [Function.comp_def])
    | cat i j =>
      injection hrow with hrow
      subst hrow
      simp only [firstColor]
      exact .category (by simp [Function.comp_def])
    | rx i =>
      simp only at hrow
      split at hrow
      · cases hrow
      · rename_i r hfind
        obtain ⟨cs, hcs, hrow⟩ := bind_ok hrow
        injection hrow with hrow
        subst hrow
        have hi : r.1.id = i := by simpa using List.find?_some hfind
        have hmem := List.mem_of_find?_eq_some hfind
        have hsel : r.1 ∈ select en o rxs := q1 ▸ List.mem_map_of_mem hmem
        obtain ⟨hx, he⟩ := List.mem_filter.1 hsel
        subst hi
        have hcol : firstColor en o.pretty (.rx r.1.id) =
            if o.pretty = true ∧ en r.1.id = false then .red else .reset := by
          simp only [firstColor]
          cases o.pretty <;> cases en r.1.id <;> rfl
        rw [hcol]
        refine .reaction hx (by simpa using he) ?_
        have h1 := q2 r hmem
        have h2 := forall₂_collect hcs
        clear hcs q2 hc hr hfind hrow
        revert h1 h2
        show List.Forall₂ _ (cols.map Prod.fst) r.2 → _ → List.Forall₂ (fun col c => Cell C T adA en o r.1 col c)
          (cols.map Prod.fst) cs
        generalize cols.map Prod.fst = heads
        generalize r.2 = ps
        intro h1 h2
        induction h1 generalizing cs with
        | nil => cases h2; exact .nil
        | @cons col p heads ps hp _ ih =>
          cases h2 with
          | cons hc hr => exact .cons (hp.1 ▸ cell_spec hF hp.2 hc) (ih _ hr)

/-! ### when there is a table -/

/-- comparing never fails for a valid reaction -/
theorem same_attr (hI : ∀ n, (C.ofInt n).isSome = true) (hR : ∀ s n, C.readI s = some n → (C.readF s).isSome = true)
    {x : Rx F} (hv : x.Valid C A) {a : Str} (ha : a ∈ rxAttributes) {r w : Shown F}
    (hr : returned C T adA a x = .ok r) (hw : ShownAs C r w) (boxed : Bool) :
    ∃ b, same C boxed (x.attr a) w = .ok b := by
  -- it is enough to compare as in the table of species
  have red : (∃ b, Table.same C false (.val (x.attr a)) w = .ok b) ∨ (∃ b, flagText (x.attr a) = some b) →
      ∃ b, same C boxed (x.attr a) w = .ok b := by
    intro h
    cases hf : flagText (x.attr a) with
    | some b =>
      unfold same
      rw [hf]
      have : (Stored.val (x.attr a)).isNone = false := by
        obtain ⟨p, -, hp, -⟩ := flagText_iff.1 hf
        rw [hp]
        rfl
      cases valEq C (x.attr a) w with
      | true => exact ⟨true, by simp [bind, Except.bind]⟩
      | false => simp [this, catchType, bind, Except.bind]
    | none =>
      rw [same_eq hf]
      rcases h with h | ⟨b, hb⟩
      · exact h
      · rw [hf] at hb; cases hb
  obtain ⟨k, hk, hfit⟩ := (hv.checks a ha).mem
  simp only [rxAttributes, List.mem_cons, List.not_mem_nil, or_false] at ha
  rcases ha with rfl | rfl | rfl | rfl | rfl | rfl | rfl | rfl | rfl | rfl | rfl | rfl
  · -- arrh_a
    refine red (.inl ?_)
    obtain ⟨v, hv', hr⟩ := bind_ok (show (x.getArrhA C false >>= _) = _ from hr)
    injection hr with hr
    subst hr
    unfold Rx.getArrhA at hv'
    obtain ⟨y, hy, -⟩ := bind_ok hv'
    exact fine_val hI (floatOr_ok hy) (hw.notText (notText_ofFloat _))
  · refine red (.inl ?_)
    obtain ⟨v, hv', hr⟩ := bind_ok (show (x.getArrh C _ >>= _) = _ from hr)
    injection hr with hr
    subst hr
    unfold Rx.getArrh at hv'
    obtain ⟨y, hy, -⟩ := bind_ok hv'
    exact fine_val hI (floatOr_ok hy) (hw.notText (notText_ofFloat _))
  · refine red (.inl ?_)
    obtain ⟨v, hv', hr⟩ := bind_ok (show (x.getArrh C _ >>= _) = _ from hr)
    injection hr with hr
    subst hr
    unfold Rx.getArrh at hv'
    obtain ⟨y, hy, -⟩ := bind_ok hv'
    exact fine_val hI (floatOr_ok hy) (hw.notText (notText_ofFloat _))
  · -- elastic
    obtain ⟨v, hv', hr⟩ := bind_ok (show (x.getElastic C >>= _) = _ from hr)
    injection hr with hr
    subst hr
    have hok : elasticOk (x.attr str!"elastic") = true := by
      obtain ⟨y, hy⟩ := hv.checks str!"elastic" (by decide)
      unfold Rx.set at hy
      split at hy
      · cases hy
      · rw [hk] at hy
        simp only at hy
        by_contra hne
        rw [if_pos (.inl ⟨trivial, hne⟩)] at hy
        cases hy
    cases he : x.attr str!"elastic" with
    | null =>
      refine he ▸ red (.inl ?_)
      rw [he]
      exact fine_val hI (.inl rfl) (hw.notText trivial)
    | bool b =>
      refine he ▸ red (.inl ?_)
      rw [he]
      exact fine_val hI (.inr ⟨_, rfl⟩) (hw.notText trivial)
    | str s =>
      refine he ▸ red (.inr ?_)
      rw [he] at hok ⊢
      simp only [elasticOk, decide_eq_true_eq] at hok
      have : ∀ s ∈ [str!"true", str!"True", str!"TRUE", str!"false", str!"False", str!"FALSE"],
        ∃ p ∈ truths, p.1 = s := by decide
      obtain ⟨p, hp, rfl⟩ := this s hok
      exact ⟨p.2, flagText_iff.2 ⟨p, hp, rfl, rfl⟩⟩
    | int n => rw [he] at hok; cases hok
    | float y => rw [he] at hok; cases hok
  · refine red (.inl ?_)
    obtain ⟨v, hv', hr⟩ := bind_ok (show (x.getFloat C _ >>= _) = _ from hr)
    injection hr with hr
    subst hr
    exact fine_val hI (floatOr_ok hv') (hw.notText (notText_ofFloat _))
  · refine red (.inl ?_)
    obtain ⟨v, hv', hr⟩ := bind_ok (show (x.getFloat C _ >>= _) = _ from hr)
    injection hr with hr
    subst hr
    exact fine_val hI (floatOr_ok hv') (hw.notText (notText_ofFloat _))
  · refine red (.inl ?_)
    obtain ⟨v, hv', hr⟩ := bind_ok (show (x.getSpecial C >>= _) = _ from hr)
    injection hr with hr
    subst hr
    unfold Rx.getSpecial at hv'
    obtain ⟨y, hy, -⟩ := bind_ok hv'
    have hkk : k = .integer := by
      have : rxKinds.get? str!"special_number" = some .integer := rfl
      rw [this] at hk
      exact (Option.some.inj hk).symm
    exact fine_val hI (intOr_ok hI hR (hkk ▸ hfit) hy) (hw.notText (notText_ofInt _))
  · refine red (.inl ?_)
    obtain ⟨v, hv', hr⟩ := bind_ok (show (x.getInt C _ >>= _) = _ from hr)
    injection hr with hr
    subst hr
    have hkk : k = .integer := by
      have : rxKinds.get? str!"qdb_r_id" = some .integer := rfl
      rw [this] at hk
      exact (Option.some.inj hk).symm
    exact fine_val hI (intOr_ok hI hR (hkk ▸ hfit) hv') (hw.notText (notText_ofInt _))
  · refine red (.inl ?_)
    obtain ⟨v, hv', hr⟩ := bind_ok (show (x.getInt C _ >>= _) = _ from hr)
    injection hr with hr
    subst hr
    have hkk : k = .integer := by
      have : rxKinds.get? str!"qdb_ds_id" = some .integer := rfl
      rw [this] at hk
      exact (Option.some.inj hk).symm
    exact fine_val hI (intOr_ok hI hR (hkk ▸ hfit) hv') (hw.notText (notText_ofInt _))
  · -- doi
    refine red (.inl ?_)
    obtain ⟨v, hv', hr⟩ := bind_ok (show (x.getText C _ >>= _) = _ from hr)
    injection hr with hr
    subst hr
    injection hv' with hv'
    have hkk : k = .text := by
      have : rxKinds.get? str!"doi" = some .text := rfl
      rw [this] at hk
      exact (Option.some.inj hk).symm
    refine text_same (hkk ▸ hfit) fun t ht => ?_
    rw [ht] at hv'
    subst hv'
    exact hw.str
  · refine red (.inl ?_)
    obtain ⟨v, hv', hr⟩ := bind_ok (show (x.getText C _ >>= _) = _ from hr)
    injection hr with hr
    subst hr
    injection hv' with hv'
    have hkk : k = .text := by
      have : rxKinds.get? str!"comments" = some .text := rfl
      rw [this] at hk
      exact (Option.some.inj hk).symm
    refine text_same (hkk ▸ hfit) fun t ht => ?_
    rw [ht] at hv'
    subst hv'
    exact hw.str
  · refine red (.inl ?_)
    obtain ⟨v, hv', hr⟩ := bind_ok (show (x.getLatex C T >>= _) = _ from hr)
    injection hr with hr
    subst hr
    have hkk : k = .text := by
      have : rxKinds.get? str!"latex" = some .text := rfl
      rw [this] at hk
      exact (Option.some.inj hk).symm
    refine text_same (hkk ▸ hfit) fun t ht => ?_
    unfold Rx.getLatex at hv'
    rw [ht] at hv'
    injection hv' with hv'
    subst hv'
    exact hw.str

theorem mem_headings {i : Nat} {u : Str} : ∀ {l : List Lined} {t : Str} {k : Option Str}, (Label.rx i, u) ∈ l →
    ∃ x ∈ headings t k l, x.1 = i
  | (lab, v) :: l, t, k, h => by
    rcases List.mem_cons.1 h with h | h'
    · cases h
      exact ⟨_, List.mem_cons_self, rfl⟩
    · cases lab with
      | typ a => exact mem_headings (l := l) h'
      | cat a b => exact mem_headings (l := l) h'
      | rx a =>
        obtain ⟨x, hx, e⟩ := mem_headings (l := l) (t := t) (k := k) h'
        exact ⟨x, List.mem_cons_of_mem _ hx, e⟩

/-- the rows of reactions are rows of reactions selected -/
theorem sheet_ids {S : List RP} {R : List Reaction} (hI : Ids S R) {sort cl : Bool} {lines : List Lined}
    (h : sheet A sort cl S R = .ok lines) {i : Nat} {u : Str} (hi : (Label.rx i, u) ∈ lines) :
    i ∈ R.map Reaction.id := by
  have hperm : ∀ R', Ordered A sort S R R' → R'.Perm R := by
    intro R' ho
    unfold Ordered at ho
    split at ho
    · obtain ⟨S', -, ho⟩ := ho
      exact ho.perm
    · exact ho ▸ .refl _
  cases cl with
  | false =>
    obtain ⟨R', ho, rfl⟩ := rows_plain hI h
    obtain ⟨r, hr, e⟩ := List.mem_map.1 hi
    cases e
    exact List.mem_map_of_mem ((hperm R' ho).mem_iff.1 hr)
  | true =>
    obtain ⟨R', L, ho, hL, hf, -, -⟩ := rows_under_headings hI h
    obtain ⟨x, hx, rfl⟩ := mem_headings (t := []) (k := none) hi
    have : ∃ r ∈ L.flat, x.1 = r.id := by
      clear hi
      revert hx hf
      generalize headings [] none lines = hs
      generalize L.flat = rs
      intro hf hx
      induction hf with
      | nil => cases hx
      | cons h _ ih =>
        rcases List.mem_cons.1 hx with rfl | hx
        · exact ⟨_, List.mem_cons_self, h.1⟩
        · obtain ⟨r, hr, e⟩ := ih hx
          exact ⟨r, List.mem_cons_of_mem _ hr, e⟩
    obtain ⟨r, hr, e⟩ := this
    rw [e]
    exact List.mem_map_of_mem ((hperm R' ho).mem_iff.1 (hL.complete.mem_iff.1 hr))

theorem columns_attrs {units : Bool} {sel : List (Rx F)} : ∀ {l : List Str} {cols : List (Column F)},
    columns C T adA units sel l = .ok cols → ∀ c ∈ cols, ∀ a, c.1 = .attr a → a ∈ l
  | [], cols, h => by
    cases h
    intro c hc
    cases hc
  | b :: l, cols, h => by
    unfold columns at h
    obtain ⟨vs, -, h⟩ := bind_ok h
    obtain ⟨rest, hr, h⟩ := bind_ok h
    injection h with h
    subst h
    intro c hc a ha
    rw [List.cons_append, List.mem_cons, List.mem_append] at hc
    rcases hc with rfl | hc | hc
    · cases ha
      exact List.mem_cons_self
    · split at hc
      · rw [List.mem_singleton] at hc
        subst hc
        cases ha
      · cases hc
    · exact List.mem_cons_of_mem _ (columns_attrs hr c hc a ha)

/-- C89: when there is a table. If the getters of the reactions selected answer, every species has a sort key (if the
table is to be sorted) and every reaction a class (if it is to have headings), then there is one, whatever was passed
for the attributes and whatever is disabled. `R` are the reactions selected as the classifier sees them. -/
theorem reaction_table_total (hI : ∀ n, (C.ofInt n).isSome = true)
    (hR : ∀ s n, C.readI s = some n → (C.readF s).isSome = true) {o : Opts} {rxs : List (Rx F)} {S : List RP}
    {R : List Reaction} (hids : Ids S R)
    (hsel : R.map Reaction.id = (rxs.filter fun x => o.disabled || en x.id).map Rx.id)
    (hv : ∀ x ∈ rxs, x.Valid C A) (hg : ∀ x ∈ rxs, ∀ a ∈ rxAttributes, ∃ r, returned C T adA a x = .ok r)
    (hs : o.sort = true → ∀ s ∈ S, ∃ v, speciesKey A s = .ok v)
    (hc : o.classify = true → ∀ r ∈ R, ∃ k, classify r = .ok k) :
    ∃ t, reactionsAttributes C A T adA en o rxs S R = .ok t := by
  have hsub : ∀ x ∈ select en o rxs, x ∈ rxs := fun x h => (List.mem_filter.1 h).1
  have hcols : ∀ l : List Str, (∀ a ∈ l, a ∈ rxAttributes) →
      ∃ cols, columns C T adA o.units (select en o rxs) l = .ok cols := by
    intro l hl
    induction l with
    | nil => exact ⟨[], rfl⟩
    | cons a l ih =>
      obtain ⟨rest, hr⟩ := ih fun b hb => hl b (List.mem_cons_of_mem _ hb)
      obtain ⟨vs, hvs⟩ := collect_ok (f := returned C T adA a) (l := select en o rxs)
        fun x hx => hg x (hsub x hx) a (hl a List.mem_cons_self)
      unfold columns
      rw [hvs, hr]
      exact ⟨_, rfl⟩
  obtain ⟨cols, hcol⟩ := hcols (rxAttributes.filter (· ∉ o.ignored)) fun a ha => (List.mem_filter.1 ha).1
  obtain ⟨q1, q2⟩ := rowsOf_spec (columns_stand hcol)
  obtain ⟨lines, hl⟩ := (sheet_total (A := A) (sort := o.sort) (cl := o.classify) hids).2 ⟨hs, hc⟩
  obtain ⟨rows, hrows⟩ := collect_ok (f := finish C en o cols (rowsOf (select en o rxs) cols)) (l := lines) (by
    intro l hlm
    obtain ⟨lab, u⟩ := l
    unfold finish
    cases lab with
    | typ i => exact ⟨_, rfl⟩
    | cat i j => exact ⟨_, rfl⟩
    | rx i =>
      simp only
      have hi := sheet_ids hids hl hlm
      rw [hsel] at hi
      obtain ⟨x, hx, rfl⟩ := List.mem_map.1 hi
      have hx : x ∈ (rowsOf (select en o rxs) cols).map Prod.fst := q1.symm ▸ hx
      obtain ⟨r0, hr0, e0⟩ := List.mem_map.1 hx
      split
      · rename_i hnone
        have := List.find?_eq_none.1 hnone r0 hr0
        simp [e0] at this
      · rename_i r hfind
        have hmem := List.mem_of_find?_eq_some hfind
        have hin : r.1 ∈ rxs := hsub _ (q1 ▸ List.mem_map_of_mem hmem)
        have hst := q2 r hmem
        obtain ⟨cs, hcs⟩ := collect_ok (f := cell C en o r.1) (l := r.2) (by
          intro p hp
          have hpp : ∃ col ∈ cols.map Prod.fst, p.1 = col ∧ Stands C T adA r.1 p.1 p.2 := by
            clear hl hcols hcol q2 hfind
            revert hst hp
            generalize cols.map Prod.fst = heads
            generalize r.2 = ps
            intro hst hp
            induction hst with
            | nil => cases hp
            | cons hx _ ih =>
              rcases List.mem_cons.1 hp with rfl | hp
              · exact ⟨_, List.mem_cons_self, hx⟩
              · obtain ⟨c, hc, h⟩ := ih hp
                exact ⟨c, List.mem_cons_of_mem _ hc, h⟩
          obtain ⟨col, hcm, hpc, hstd⟩ := hpp
          obtain ⟨col0, w⟩ := p
          unfold cell
          cases o.pretty with
          | false => exact ⟨_, rfl⟩
          | true =>
            simp only [Bool.not_true, Bool.false_eq_true, if_false]
            cases col0 with
            | unit a => exact ⟨_, rfl⟩
            | attr a =>
              simp only
              unfold paint
              cases en r.1.id with
              | false => exact ⟨_, rfl⟩
              | true =>
                cases hstd with
                | attr hret hw =>
                  obtain ⟨c, hcm', rfl⟩ := List.mem_map.1 hcm
                  have ha := (List.mem_filter.1 (columns_attrs hcol c hcm' a hpc.symm)).1
                  obtain ⟨b, hb⟩ := same_attr hI hR (hv _ hin) ha hret hw o.classify
                  simp only [Bool.not_true, Bool.false_eq_true, if_false]
                  rw [hb]
                  exact ⟨_, rfl⟩)
        rw [hcs]
        exact ⟨_, rfl⟩)
  unfold reactionsAttributes
  simp only
  rw [hcol]
  change ∃ t, (sheet A o.sort o.classify S R >>= _) = _
  rw [hl]
  change ∃ t, (collect (finish C en o cols (rowsOf (select en o rxs) cols)) lines >>= _) = _
  rw [hrows]
  exact ⟨_, rfl⟩

end Verif.Plaschem.TableRx
