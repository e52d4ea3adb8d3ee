/-
C48, C49: ids assigned by the XML builder, and names of its species, over all histories of calls.
-/
import Verif.Plaschem.XmlTrip

namespace Verif.Plaschem.Xml
open Verif.Plaschem

variable {F : Type} {C : Codec F} {A : Str → Option (Dict Str Nat)}

/-! ### specification -/

/-- the name of a species element: the text of its sub-element `name` -/
def Elem.name (e : Elem) : Option Str := (e.find str!"name").bind Sub.text

/-- The public methods of the builder that change it. The arguments of `chemistry` are the ids of the enabled species
and the enabled reactions of a chemistry, those of `xml` the elements of a file. -/
inductive Op (F : Type)
  | rp (id : Option Int) (attrs : Dict Str (Val F)) (ret : Option (Dict Str (Val F))) (units : Dict Str Str)
  | rpInstance (rp : Rp F)
  | rx (reactants products : List Str) (id : Option Int) (attrs : Dict Str (Val F)) (units : Dict Str Str)
  | rxInstance (x : Rx F)
  | chemistry (ids : List Nat) (xs : List (Rx F))
  | xml (species reactions : List Elem)
  | assignSpecies | assignReactions | assign | sort | reset

/-- an exception leaves the builder as it was -/
def atomic (b : Builder F) : Except Err (Builder F) → Except Err Unit × Builder F
  | .ok b' => (.ok (), b')
  | .error e => (.error e, b)

/-- one call: what it returns, and the builder afterwards (also if it raised) -/
def Builder.step [DecidableEq F] (C : Codec F) (A : Str → Option (Dict Str Nat)) (b : Builder F) :
    Op F → Except Err Unit × Builder F
  | .rp id attrs ret units => atomic b (b.addRp C id attrs ret units)
  | .rpInstance rp => atomic b (b.addRpInstance C rp)
  | .rx rs ps id attrs units => atomic b (b.addRx C rs ps id attrs units)
  | .rxInstance x => b.addRxInstance C x
  | .chemistry ids xs => b.addChemistry C ids xs
  | .xml sp rx => b.addXml sp rx
  | .assignSpecies => b.assignSpecies C
  | .assignReactions => (.ok (), b.assignReactions C)
  | .assign => b.assign C
  | .sort => b.sort C A
  | .reset => (.ok (), {})

/-- the builder after a history of calls, each of which may have raised -/
def history [DecidableEq F] (C : Codec F) (A : Str → Option (Dict Str Nat)) (ops : List (Op F)) : Builder F :=
  ops.foldl (fun b op => (b.step C A op).2) {}

/-- a name that is passed: a string that is not empty -/
def Named (v : Val F) : Prop := ∃ n, n ≠ [] ∧ v = .str n

/-- calls in which every species has a name -/
def Op.Named : Op F → Prop
  | .rp _ attrs _ _ => ∀ v, attrs.get? str!"name" = some v → Xml.Named v
  | .rpInstance p => Xml.Named (p.attr str!"name")
  | .rxInstance x => ∀ rp ∈ x.rps, Xml.Named (rp.attr str!"name")
  | .chemistry _ xs => ∀ x ∈ xs, ∀ rp ∈ x.rps, Xml.Named (rp.attr str!"name")
  | .xml species _ => ∀ e ∈ species, ∃ n, n ≠ [] ∧ e.name = some n
  | _ => True

/-- nothing is taken over from a file -/
def Op.NoFile : Op F → Prop
  | .xml _ _ => False
  | _ => True

/-! ### invariants -/

/-- the names that are remembered are those of the elements, each once -/
structure Tidy (b : Builder F) : Prop where
  nodup : b.names.Nodup
  perm : b.names.Perm (b.species.map fun e => textVal e.name)
  named : ∀ e ∈ b.species, ∃ n, e.name = some n

theorem name_rpElem (C : Codec F) (id : Int) {attrs : Dict Str (Val F)} (ret : Option (Dict Str (Val F)))
    (units : Dict Str Str) {n : Str} (hn : n ≠ []) (h : attrs.get? str!"name" = some (.str n)) :
    (rpElem C id attrs ret units).name = some n := by
  have hg : given attrs str!"name" = .str n := by unfold given; rw [h]; rfl
  unfold Elem.name Elem.find rpElem rpAttributes
  rw [List.filterMap_cons, if_neg (by decide), hg, if_pos (by simpa [Val.present] using hn)]
  simp [Val.text]

theorem Tidy.new : Tidy ({} : Builder F) := ⟨List.nodup_nil, .refl _, by simp⟩

theorem Tidy.append {b : Builder F} (h : Tidy b) {e : Elem} {n : Str} (he : e.name = some n) (hn : .str n ∉ b.names) :
    Tidy { b with species := b.species ++ [e], names := b.names ++ [.str n] } := by
  refine ⟨?_, ?_, ?_⟩
  · rw [List.nodup_append]
    refine ⟨h.nodup, by simp, ?_⟩
    rintro a ha c hc rfl
    exact hn ((List.mem_singleton.1 hc) ▸ ha)
  · rw [List.map_append]
    exact h.perm.append (by simp [he, textVal])
  · intro q hq
    rcases List.mem_append.1 hq with hq | hq
    · exact h.named q hq
    · exact ⟨n, by rw [List.mem_singleton.1 hq]; exact he⟩

theorem Tidy.mem {b : Builder F} (h : Tidy b) (n : Str) : .str n ∈ b.names ↔ ∃ e ∈ b.species, e.name = some n := by
  rw [h.perm.mem_iff, List.mem_map]
  constructor
  · rintro ⟨e, he, hn⟩
    refine ⟨e, he, ?_⟩
    cases hx : e.name with
    | none => rw [hx] at hn; cases hn
    | some m => rw [hx] at hn; cases hn; rfl
  · rintro ⟨e, he, hn⟩
    exact ⟨e, he, by rw [hn]; rfl⟩

theorem Tidy.distinct {b : Builder F} (h : Tidy b) : (b.species.map Elem.name).Nodup := by
  have := h.perm.nodup_iff.1 h.nodup
  rw [show (fun e : Elem => (textVal e.name : Val F)) = textVal ∘ Elem.name from rfl, ← List.map_map] at this
  exact this.of_map _

/-- the elements are rearranged and their ids changed -/
structure Shuffled (b b' : Builder F) : Prop where
  names : b'.names = b.names
  species : (b'.species.map Elem.subs).Perm (b.species.map Elem.subs)
  reactions : (b'.reactions.map Elem.subs).Perm (b.reactions.map Elem.subs)

theorem Shuffled.refl (b : Builder F) : Shuffled b b := ⟨rfl, .refl _, .refl _⟩

theorem Shuffled.trans {a b c : Builder F} (h : Shuffled a b) (g : Shuffled b c) : Shuffled a c :=
  ⟨g.names.trans h.names, g.species.trans h.species, g.reactions.trans h.reactions⟩

/-- the name, from the sub-elements -/
def subsName (l : List Sub) : Option Str := (l.find? (fun s => s.tag = str!"name")).bind Sub.text

theorem map_name (l : List Elem) : l.map Elem.name = (l.map Elem.subs).map subsName := by
  rw [List.map_map]
  rfl

theorem Shuffled.perm_name {b b' : Builder F} (h : Shuffled b b') :
    (b'.species.map Elem.name).Perm (b.species.map Elem.name) := by
  rw [map_name, map_name]
  exact h.species.map _

theorem Tidy.shuffled {b b' : Builder F} (h : Tidy b) (g : Shuffled b b') : Tidy b' := by
  have hp := g.perm_name
  refine ⟨by rw [g.names]; exact h.nodup, ?_, ?_⟩
  · rw [g.names]
    refine h.perm.trans ?_
    have := (hp.map (textVal (F := F))).symm
    rw [List.map_map, List.map_map] at this
    exact this
  · intro e he
    obtain ⟨q, hq, hn⟩ := List.mem_map.1 (hp.mem_iff.1 (List.mem_map_of_mem he))
    obtain ⟨n, hn'⟩ := h.named q hq
    exact ⟨n, by rw [← hn]; exact hn'⟩

theorem assignFrom_subs (C : Codec F) : ∀ (k : Nat) (l : List Elem),
    (assignFrom C k l).2.map Elem.subs = l.map Elem.subs
  | _, [] => rfl
  | k, e :: l => by
    unfold assignFrom
    split
    · rfl
    · split
      · simp only [List.map_cons]; rw [assignFrom_subs C k l]
      · split
        · simp only [List.map_cons]; rw [assignFrom_subs C k l]
        · simp only [List.map_cons]; rw [assignFrom_subs C (k + 1) l]

theorem assignRxFrom_subs (C : Codec F) : ∀ (k : Nat) (l : List Elem),
    (assignRxFrom C k l).map Elem.subs = l.map Elem.subs
  | _, [] => rfl
  | k, e :: l => by
    unfold assignRxFrom
    simp only [List.map_cons]; rw [assignRxFrom_subs C (k + 1) l]

theorem Shuffled.assignSpecies (C : Codec F) (b : Builder F) : Shuffled b (b.assignSpecies C).2 :=
  ⟨rfl, .of_eq (assignFrom_subs C 1 b.species), .refl _⟩

theorem Shuffled.assignReactions (C : Codec F) (b : Builder F) : Shuffled b (b.assignReactions C) :=
  ⟨rfl, .refl _, .of_eq (assignRxFrom_subs C 1 b.reactions)⟩

theorem Shuffled.assign (C : Codec F) (b : Builder F) : Shuffled b (b.assign C).2 := by
  unfold Builder.assign
  have h := Shuffled.assignSpecies C b
  generalize b.assignSpecies C = q at h
  obtain ⟨r, b'⟩ := q
  cases r with
  | error e => exact h
  | ok _ => exact h.trans (Shuffled.assignReactions C b')

theorem sorted_perm {f : Elem → Except Err Nat} {l : List Elem} {ks : List Nat} (h : Classify.collect f l = .ok ks) :
    (Classify.sortPairs (fun i j => decide (i ≤ j)) (ks.zip l)).Perm l := by
  have hz : ks.zip l = l.map fun e => ((f e).toOption.getD 0, e) := by
    rw [Classify.collect_keys 0 h]
    clear h
    induction l with
    | nil => rfl
    | cons e l ih => simp only [List.map_cons, List.zip_cons_cons, ih]
  rw [hz, Classify.sortPairs_eq]
  · exact List.mergeSort_perm _ _
  · intro a b c h1 h2
    simp only [decide_eq_true_eq] at *
    omega
  · intro a b
    simp only [Bool.or_eq_true, decide_eq_true_eq]
    omega

theorem sortByIds_perm {ids : List Str} {l l' : List Elem} (h : sortByIds ids l = .ok l') : l'.Perm l := by
  unfold sortByIds at h
  cases hc : Classify.collect (strKey ids) l with
  | error e => rw [hc] at h; cases h
  | ok ks =>
    rw [hc] at h
    cases h
    exact sorted_perm hc

theorem Shuffled.reassign (C : Codec F) (b : Builder F) (d : Bool) :
    Shuffled b (if d then b.assignSpecies C else (.ok (), b) : Except Err Unit × Builder F).2 := by
  cases d with
  | true => exact Shuffled.assignSpecies C b
  | false => exact .refl b

theorem Shuffled.sort (C : Codec F) (A : Str → Option (Dict Str Nat)) (b : Builder F) : Shuffled b (b.sort C A).2 := by
  unfold Builder.sort
  simp only
  generalize (!decide (b.species.map Elem.id).Nodup) = ds
  generalize (!decide (b.reactions.map Elem.id).Nodup) = dr
  have h1 := Shuffled.reassign C b ds
  generalize (if ds = true then b.assignSpecies C else (.ok (), b) : Except Err Unit × Builder F) = q at h1
  obtain ⟨r, b1⟩ := q
  cases r with
  | error e => exact h1
  | ok _ =>
    simp only
    have h2 : Shuffled b1 (if dr = true then b1.assignReactions C else b1) := by
      cases dr with
      | true => exact Shuffled.assignReactions C b1
      | false => exact .refl b1
    have h12 := h1.trans h2
    generalize (if dr = true then b1.assignReactions C else b1) = b2 at h12
    cases hs : sortedIds C A b2.species b2.reactions with
    | error e => exact h12
    | ok p =>
      obtain ⟨is, js⟩ := p
      simp only
      cases h3 : sortByIds is b2.species with
      | error e => exact h12
      | ok sp =>
        simp only
        have h4 : Shuffled b { b2 with species := sp } :=
          h12.trans ⟨rfl, (sortByIds_perm h3).map _, .refl _⟩
        cases h5 : sortByIds js b2.reactions with
        | error e => exact h4
        | ok rx =>
          simp only
          have h6 : Shuffled b { b2 with species := sp, reactions := rx } :=
            h4.trans ⟨rfl, .refl _, (sortByIds_perm h5).map _⟩
          generalize ({ b2 with species := sp, reactions := rx } : Builder F) = b3 at h6
          have h7 := Shuffled.reassign C b3 ds
          generalize (if ds = true then b3.assignSpecies C else (.ok (), b3) : Except Err Unit × Builder F) = q at h7
          obtain ⟨r, b4⟩ := q
          cases r with
          | error e => exact h6.trans h7
          | ok _ =>
            refine (h6.trans h7).trans ?_
            cases dr with
            | true => exact Shuffled.assignReactions C b4
            | false => exact .refl b4

section steps
variable [DecidableEq F]

theorem Tidy.addRp {b b' : Builder F} (h : Tidy b) {id : Option Int} {attrs : Dict Str (Val F)}
    {ret : Option (Dict Str (Val F))} {units : Dict Str Str}
    (hn : ∀ v, attrs.get? str!"name" = some v → Xml.Named v) (hs : b.addRp C id attrs ret units = .ok b') :
    Tidy b' ∧ b'.reactions = b.reactions ∧ (∀ v ∈ b.names, v ∈ b'.names) := by
  unfold Builder.addRp at hs
  cases hg : attrs.get? str!"name" with
  | none => rw [hg] at hs; cases hs
  | some v =>
    rw [hg] at hs
    obtain ⟨n, hne, rfl⟩ := hn v hg
    simp only at hs
    by_cases hm : Val.str n ∈ b.names
    · rw [if_pos hm] at hs; cases hs
    · rw [if_neg hm] at hs
      cases hs
      exact ⟨h.append (name_rpElem C _ ret units hne hg) hm, rfl, fun v hv => List.mem_append_left _ hv⟩

theorem Tidy.addRpInstance {b b' : Builder F} (h : Tidy b) {rp : Rp F} (hn : Xml.Named (rp.attr str!"name"))
    (hs : b.addRpInstance C rp = .ok b') : Tidy b' ∧ b'.reactions = b.reactions ∧ (∀ v ∈ b.names, v ∈ b'.names) := by
  refine h.addRp ?_ hs
  intro v hv
  rw [get?_name] at hv
  cases hv
  exact hn

theorem Tidy.addMissing {b : Builder F} (h : Tidy b) {l : List (Rp F)} (hl : ∀ rp ∈ l, Xml.Named (rp.attr str!"name")) :
    Tidy (b.addMissing C l).2 ∧ (b.addMissing C l).2.reactions = b.reactions ∧
      (∀ v ∈ b.names, v ∈ (b.addMissing C l).2.names) := by
  induction l generalizing b with
  | nil => exact ⟨h, rfl, fun _ h => h⟩
  | cons rp l ih =>
    have hl' : ∀ r ∈ l, Xml.Named (r.attr str!"name") := fun r hr => hl r (List.mem_cons_of_mem _ hr)
    unfold Builder.addMissing
    cases rp.getName C with
    | error e => exact ⟨h, rfl, fun _ h => h⟩
    | ok n =>
      simp only
      split
      · exact ih h hl'
      · cases hs : b.addRpInstance C rp with
        | error e => exact ⟨h, rfl, fun _ h => h⟩
        | ok b1 =>
          obtain ⟨h1, h2, h3⟩ := h.addRpInstance (hl rp (by simp)) hs
          obtain ⟨h4, h5, h6⟩ := ih h1 hl'
          exact ⟨h4, h5.trans h2, fun v hv => h6 v (h3 v hv)⟩

/-- every reaction element names species that are there -/
def Closed (C : Codec F) (b : Builder F) : Prop :=
  ∀ e ∈ b.reactions, ∃ rs ps id attrs units, e.subs = (rxElem C rs ps id attrs units).subs ∧
    ∀ n ∈ rs ++ ps, Val.str n ∈ b.names

omit [DecidableEq F] in
theorem Closed.mono {b b' : Builder F} (h : Closed C b) (hr : b'.reactions = b.reactions)
    (hn : ∀ v ∈ b.names, v ∈ b'.names) : Closed C b' := by
  intro e he
  rw [hr] at he
  obtain ⟨rs, ps, id, attrs, units, h1, h2⟩ := h e he
  exact ⟨rs, ps, id, attrs, units, h1, fun n hm => hn _ (h2 n hm)⟩

omit [DecidableEq F] in
theorem Closed.shuffled {b b' : Builder F} (h : Closed C b) (g : Shuffled b b') : Closed C b' := by
  intro e he
  obtain ⟨q, hq, hs⟩ := List.mem_map.1 (g.reactions.mem_iff.1 (List.mem_map_of_mem he))
  obtain ⟨rs, ps, id, attrs, units, h1, h2⟩ := h q hq
  refine ⟨rs, ps, id, attrs, units, hs.symm.trans h1, ?_⟩
  rw [g.names]
  exact h2

theorem Closed.addRx {b b' : Builder F} (h : Closed C b) {rs ps : List Str} {id : Option Int}
    {attrs : Dict Str (Val F)} {units : Dict Str Str} (hs : b.addRx C rs ps id attrs units = .ok b') : Closed C b' := by
  unfold Builder.addRx at hs
  split at hs
  · cases hs
  · rename_i hc
    cases hs
    intro e he
    rcases List.mem_append.1 he with he | he
    · exact h e he
    · rw [List.mem_singleton.1 he]
      refine ⟨rs, ps, _, attrs, units, rfl, fun n hn => ?_⟩
      by_contra hno
      exact hc ⟨n, hn, hno⟩

theorem Tidy.addRx {b b' : Builder F} (h : Tidy b) {rs ps : List Str} {id : Option Int} {attrs : Dict Str (Val F)}
    {units : Dict Str Str} (hs : b.addRx C rs ps id attrs units = .ok b') : Tidy b' := by
  unfold Builder.addRx at hs
  split at hs
  · cases hs
  · cases hs
    exact ⟨h.nodup, h.perm, h.named⟩

theorem inv_addRxInstance {b : Builder F} (h : Tidy b) {x : Rx F} (hx : ∀ rp ∈ x.rps, Xml.Named (rp.attr str!"name")) :
    Tidy (b.addRxInstance C x).2 ∧ (Closed C b → Closed C (b.addRxInstance C x).2) := by
  obtain ⟨h1, h2, h3⟩ := h.addMissing (C := C) hx
  unfold Builder.addRxInstance
  rw [show x.reactants ++ x.products = x.rps from rfl]
  generalize b.addMissing C x.rps = q at h1 h2 h3
  obtain ⟨r, b1⟩ := q
  have hcl : Closed C b → Closed C b1 := fun hc => hc.mono h2 h3
  cases r with
  | error e => exact ⟨h1, hcl⟩
  | ok _ =>
    simp only
    cases Rx.names C x.reactants with
    | error e => exact ⟨h1, hcl⟩
    | ok rs =>
      cases Rx.names C x.products with
      | error e => exact ⟨h1, hcl⟩
      | ok ps =>
        simp only
        cases hs : b1.addRx C rs ps (some x.id) x.attrs x.units with
        | error e => exact ⟨h1, hcl⟩
        | ok b2 => exact ⟨h1.addRx hs, fun hc => (hcl hc).addRx hs⟩

theorem inv_addRxs {b : Builder F} (h : Tidy b) {xs : List (Rx F)}
    (hx : ∀ x ∈ xs, ∀ rp ∈ x.rps, Xml.Named (rp.attr str!"name")) :
    Tidy (b.addRxs C xs).2 ∧ (Closed C b → Closed C (b.addRxs C xs).2) := by
  induction xs generalizing b with
  | nil => exact ⟨h, id⟩
  | cons x xs ih =>
    obtain ⟨h1, h2⟩ := inv_addRxInstance (C := C) h (hx x (by simp))
    unfold Builder.addRxs
    generalize b.addRxInstance C x = q at h1 h2
    obtain ⟨r, b1⟩ := q
    cases r with
    | error e => exact ⟨h1, h2⟩
    | ok _ =>
      obtain ⟨h3, h4⟩ := ih h1 fun y hy => hx y (List.mem_cons_of_mem _ hy)
      exact ⟨h3, fun hc => h4 (h2 hc)⟩

theorem inv_addChemistry {b : Builder F} (h : Tidy b) {ids : List Nat} {xs : List (Rx F)}
    (hx : ∀ x ∈ xs, ∀ rp ∈ x.rps, Xml.Named (rp.attr str!"name")) :
    Tidy (b.addChemistry C ids xs).2 ∧ (Closed C b → Closed C (b.addChemistry C ids xs).2) := by
  obtain ⟨h1, h2⟩ := inv_addRxs (C := C) h hx
  unfold Builder.addChemistry
  generalize b.addRxs C xs = q at h1 h2
  obtain ⟨r, b1⟩ := q
  cases r with
  | error e => exact ⟨h1, h2⟩
  | ok _ =>
    simp only
    cases hc : Classify.collect (idKey C ids) b1.species with
    | error e => exact ⟨h1, h2⟩
    | ok ks =>
      have g : Shuffled b1 { b1 with species := Classify.sortPairs (fun i j => decide (i ≤ j)) (ks.zip b1.species) } :=
        ⟨rfl, (sorted_perm hc).map _, .refl _⟩
      exact ⟨h1.shuffled g, fun hcl => (h2 hcl).shuffled g⟩

theorem Tidy.addSpeciesXml {b : Builder F} (h : Tidy b) {l : List Elem} (hl : ∀ e ∈ l, ∃ n, n ≠ [] ∧ e.name = some n) :
    Tidy (b.addSpeciesXml l).2 := by
  induction l generalizing b with
  | nil => exact h
  | cons e l ih =>
    have hl' : ∀ r ∈ l, ∃ n, n ≠ [] ∧ r.name = some n := fun r hr => hl r (List.mem_cons_of_mem _ hr)
    obtain ⟨n, hne, hn⟩ := hl e (by simp)
    unfold Builder.addSpeciesXml
    cases hf : e.find str!"name" with
    | none => exact h
    | some s =>
      have hs : s.text = some n := by
        unfold Elem.name at hn
        rw [hf] at hn
        exact hn
      simp only [hs, textVal]
      split
      · exact ih h hl'
      · rename_i hm
        exact ih (h.append hn hm) hl'

theorem Tidy.addXml {b : Builder F} (h : Tidy b) {sp rx : List Elem} (hl : ∀ e ∈ sp, ∃ n, n ≠ [] ∧ e.name = some n) :
    Tidy (b.addXml sp rx).2 := by
  have h1 := h.addSpeciesXml hl
  unfold Builder.addXml
  generalize b.addSpeciesXml sp = q at h1
  obtain ⟨r, b1⟩ := q
  cases r with
  | error e => exact h1
  | ok _ => exact ⟨h1.nodup, h1.perm, h1.named⟩

theorem Tidy.step {b : Builder F} (h : Tidy b) {op : Op F} (ho : op.Named) : Tidy (b.step C A op).2 := by
  cases op with
  | rp id attrs ret units =>
    simp only [Builder.step]
    cases hs : b.addRp C id attrs ret units with
    | error e => exact h
    | ok b' => exact (h.addRp ho hs).1
  | rpInstance rp =>
    simp only [Builder.step]
    cases hs : b.addRpInstance C rp with
    | error e => exact h
    | ok b' => exact (h.addRpInstance ho hs).1
  | rx rs ps id attrs units =>
    simp only [Builder.step]
    cases hs : b.addRx C rs ps id attrs units with
    | error e => exact h
    | ok b' => exact h.addRx hs
  | rxInstance x => exact (inv_addRxInstance h ho).1
  | chemistry ids xs => exact (inv_addChemistry h ho).1
  | xml sp rx => exact h.addXml ho
  | assignSpecies => exact h.shuffled (.assignSpecies C b)
  | assignReactions => exact h.shuffled (.assignReactions C b)
  | assign => exact h.shuffled (.assign C b)
  | sort => exact h.shuffled (.sort C A b)
  | reset => exact .new

theorem Closed.step {b : Builder F} (ht : Tidy b) (h : Closed C b) {op : Op F} (ho : op.Named) (hf : op.NoFile) :
    Closed C (b.step C A op).2 := by
  cases op with
  | rp id attrs ret units =>
    simp only [Builder.step]
    cases hs : b.addRp C id attrs ret units with
    | error e => exact h
    | ok b' =>
      obtain ⟨-, h2, h3⟩ := ht.addRp ho hs
      exact h.mono h2 h3
  | rpInstance rp =>
    simp only [Builder.step]
    cases hs : b.addRpInstance C rp with
    | error e => exact h
    | ok b' =>
      obtain ⟨-, h2, h3⟩ := ht.addRpInstance ho hs
      exact h.mono h2 h3
  | rx rs ps id attrs units =>
    simp only [Builder.step]
    cases hs : b.addRx C rs ps id attrs units with
    | error e => exact h
    | ok b' => exact h.addRx hs
  | rxInstance x => exact (inv_addRxInstance ht ho).2 h
  | chemistry ids xs => exact (inv_addChemistry ht ho).2 h
  | xml sp rx => exact hf.elim
  | assignSpecies => exact h.shuffled (.assignSpecies C b)
  | assignReactions => exact h.shuffled (.assignReactions C b)
  | assign => exact h.shuffled (.assign C b)
  | sort => exact h.shuffled (.sort C A b)
  | reset => intro e he; cases he

theorem tidy_history {ops : List (Op F)} (ho : ∀ op ∈ ops, op.Named) : Tidy (history C A ops) := by
  unfold history
  suffices ∀ b : Builder F, Tidy b → Tidy (ops.foldl (fun b op => (b.step C A op).2) b) from this _ .new
  induction ops with
  | nil => exact fun _ h => h
  | cons op ops ih =>
    intro b h
    rw [List.foldl_cons]
    exact ih (fun o h' => ho o (List.mem_cons_of_mem _ h')) _ (h.step (ho op (by simp)))

/-! ### C49 -/

/-- **C49.** Whatever was called before, a builder has one species of each name: no two of its species have the same
name. -/
theorem one_of_each_name {ops : List (Op F)} (ho : ∀ op ∈ ops, op.Named) :
    ((history C A ops).species.map Elem.name).Nodup := (tidy_history ho).distinct

/-- **C49.** Adding a species explicitly is refused exactly if one of its name is there, and otherwise appends it. -/
theorem add_refused_iff {ops : List (Op F)} (ho : ∀ op ∈ ops, op.Named) (id : Option Int) {attrs : Dict Str (Val F)}
    (ret : Option (Dict Str (Val F))) (units : Dict Str Str) {n : Str} (hn : n ≠ [])
    (ha : attrs.get? str!"name" = some (.str n)) :
    let b := history C A ops
    ((∃ e ∈ b.species, e.name = some n) → b.step C A (.rp id attrs ret units) = (.error .xml, b)) ∧
    ((∀ e ∈ b.species, e.name ≠ some n) → ∃ b', b.step C A (.rp id attrs ret units) = (.ok (), b') ∧
      ∃ e, e.name = some n ∧ b'.species = b.species ++ [e] ∧ b'.reactions = b.reactions) := by
  intro b
  have ht : Tidy b := tidy_history ho
  have hs : b.addRp C id attrs ret units = if Val.str n ∈ b.names then .error .xml else
      .ok { b with species := b.species ++ [rpElem C (id.getD 999) attrs ret units],
                   names := b.names ++ [Val.str n] } := by
    unfold Builder.addRp
    rw [ha]
  refine ⟨fun h => ?_, fun h => ?_⟩
  · rw [if_pos ((ht.mem n).2 h)] at hs
    simp only [Builder.step, hs, atomic]
  · rw [if_neg (fun hm => by obtain ⟨e, he, hn⟩ := (ht.mem n).1 hm; exact h e he hn)] at hs
    have hst : b.step C A (.rp id attrs ret units) = atomic b (b.addRp C id attrs ret units) := rfl
    rw [hs] at hst
    exact ⟨_, hst, _, name_rpElem C _ ret units hn ha, rfl, rfl⟩

/-- **C49.** Species that come with a reaction or a file and have a name that is there are not added. -/
theorem known_names_not_added {ops : List (Op F)} (ho : ∀ op ∈ ops, op.Named) :
    let b := history C A ops
    (∀ x : Rx F, (∀ rp ∈ x.rps, ∃ n, rp.getName C = .ok n ∧ ∃ e ∈ b.species, e.name = some n) →
      (b.step C A (.rxInstance x)).2.species = b.species) ∧
    (∀ sp rx, (∀ e ∈ sp, ∃ n, e.name = some n ∧ ∃ q ∈ b.species, q.name = some n) →
      (b.step C A (.xml sp rx)) = (.ok (), { b with reactions := b.reactions ++ rx })) := by
  intro b
  have ht : Tidy b := tidy_history ho
  constructor
  · intro x hx
    have key : ∀ l : List (Rp F), (∀ rp ∈ l, ∃ n, rp.getName C = .ok n ∧ ∃ e ∈ b.species, e.name = some n) →
        b.addMissing C l = (.ok (), b) := by
      intro l
      induction l with
      | nil => intro _; rfl
      | cons rp l ih =>
        intro hl
        obtain ⟨n, h1, h2⟩ := hl rp (by simp)
        unfold Builder.addMissing
        rw [h1]
        simp only
        rw [if_pos ((ht.mem n).2 h2)]
        exact ih fun r hr => hl r (List.mem_cons_of_mem _ hr)
    simp only [Builder.step]
    unfold Builder.addRxInstance
    rw [show x.reactants ++ x.products = x.rps from rfl, key _ hx]
    simp only
    cases Rx.names C x.reactants with
    | error e => rfl
    | ok rs =>
      cases Rx.names C x.products with
      | error e => rfl
      | ok ps =>
        simp only
        cases hs : b.addRx C rs ps (some x.id) x.attrs x.units with
        | error e => rfl
        | ok b' =>
          unfold Builder.addRx at hs
          split at hs
          · cases hs
          · cases hs; rfl
  · intro sp rx hsp
    have key : b.addSpeciesXml sp = (.ok (), b) := by
      induction sp with
      | nil => rfl
      | cons e l ih =>
        obtain ⟨n, h1, h2⟩ := hsp e (by simp)
        unfold Builder.addSpeciesXml
        cases hf : e.find str!"name" with
        | none => unfold Elem.name at h1; rw [hf] at h1; cases h1
        | some s =>
          have hs : s.text = some n := by
            unfold Elem.name at h1
            rw [hf] at h1
            exact h1
          simp only [hs, textVal]
          rw [if_pos ((ht.mem n).2 h2)]
          exact ih fun r hr => hsp r (List.mem_cons_of_mem _ hr)
    simp only [Builder.step]
    unfold Builder.addXml
    rw [key]

/-- Unless reactions were taken from a file, every reaction names species that are there. -/
theorem participants_present {ops : List (Op F)} (ho : ∀ op ∈ ops, op.Named) (hf : ∀ op ∈ ops, op.NoFile) :
    let b := history C A ops
    ∀ r ∈ b.reactions, ∃ rs ps : List Str,
      (∃ s, r.find str!"reactants" = some s ∧ s.text = some (joinStr str!", " rs)) ∧
      (∃ s, r.find str!"products" = some s ∧ s.text = some (joinStr str!", " ps)) ∧
      ∀ n ∈ rs ++ ps, ∃ e ∈ b.species, e.name = some n := by
  intro b
  have ht : Tidy b := tidy_history ho
  have hc : Closed C b := by
    have key : ∀ (l : List (Op F)) (b : Builder F), Tidy b → Closed C b → (∀ op ∈ l, op.Named) →
        (∀ op ∈ l, op.NoFile) → Closed C (l.foldl (fun b op => (b.step C A op).2) b) := by
      intro l
      induction l with
      | nil => exact fun _ _ h _ _ => h
      | cons op l ih =>
        intro b ht hc h1 h2
        rw [List.foldl_cons]
        exact ih _ (ht.step (h1 op (by simp))) (hc.step ht (h1 op (by simp)) (h2 op (by simp)))
          (fun o h' => h1 o (List.mem_cons_of_mem _ h')) (fun o h' => h2 o (List.mem_cons_of_mem _ h'))
    exact key ops {} .new (fun e he => by cases he) ho hf
  intro r hr
  obtain ⟨rs, ps, id, attrs, units, h1, h2⟩ := hc r hr
  refine ⟨rs, ps, ?_, ?_, fun n hn => (ht.mem n).1 (h2 n hn)⟩
  · unfold Elem.find
    rw [h1]
    exact ⟨_, rfl, rfl⟩
  · unfold Elem.find
    rw [h1]
    exact ⟨_, rfl, rfl⟩

end steps

/-! ### C48 -/

/-- neither the electron nor M -/
def Ordinary (e : Elem) : Prop := e.name ≠ some str!"e" ∧ e.name ≠ some str!"M"

instance (e : Elem) : Decidable (Ordinary e) := inferInstanceAs (Decidable (_ ∧ _))

/-- the number of ordinary species -/
def ordinary (l : List Elem) : Nat := l.countP fun e => decide (Ordinary e)

/-- the id of the species `e` that comes after the species `before` -/
def newId (before : List Elem) (e : Elem) : Nat :=
  if e.name = some str!"e" then 0 else if e.name = some str!"M" then 999 else ordinary before + 1

theorem assignFrom_eq (C : Codec F) : ∀ (k : Nat) (pre l : List Elem), k = ordinary pre + 1 →
    (∀ e ∈ l, ∃ n, e.name = some n) →
    (assignFrom C k l).1 = .ok () ∧ ((assignFrom C k l).2.map Elem.id) =
      l.mapIdx fun i e => C.showI (newId (pre ++ l.take i) e)
  | _, _, [], _, _ => ⟨rfl, rfl⟩
  | k, pre, e :: l, hk, hl => by
    obtain ⟨n, hn⟩ := hl e (by simp)
    have hl' : ∀ e ∈ l, ∃ n, e.name = some n := fun q hq => hl q (List.mem_cons_of_mem _ hq)
    have hcons : ∀ i, pre ++ (e :: l).take (i + 1) = (pre ++ [e]) ++ l.take i := by intro i; simp
    cases hf : e.find str!"name" with
    | none => unfold Elem.name at hn; rw [hf] at hn; cases hn
    | some s =>
      have hs : s.text = e.name := by unfold Elem.name; rw [hf]; rfl
      unfold assignFrom
      rw [hf]
      simp only
      rw [List.mapIdx_cons, hs]
      simp only [hcons, List.take_zero, List.append_nil]
      by_cases h1 : e.name = some str!"e"
      · rw [if_pos h1]
        have hk' : k = ordinary (pre ++ [e]) + 1 := by simp [ordinary, Ordinary, h1, hk]
        obtain ⟨ih1, ih2⟩ := assignFrom_eq C k (pre ++ [e]) l hk' hl'
        refine ⟨ih1, ?_⟩
        simp only [List.map_cons, ih2, newId, if_pos h1]
        rfl
      · rw [if_neg h1]
        by_cases h2 : e.name = some str!"M"
        · rw [if_pos h2]
          have hk' : k = ordinary (pre ++ [e]) + 1 := by simp [ordinary, Ordinary, h2, hk]
          obtain ⟨ih1, ih2⟩ := assignFrom_eq C k (pre ++ [e]) l hk' hl'
          refine ⟨ih1, ?_⟩
          simp only [List.map_cons, ih2, newId, if_neg h1, if_pos h2]
          rfl
        · rw [if_neg h2]
          have hk' : k + 1 = ordinary (pre ++ [e]) + 1 := by
            simp only [ordinary, Ordinary, List.countP_append] at hk ⊢
            simp [h1, h2, hk]
          obtain ⟨ih1, ih2⟩ := assignFrom_eq C (k + 1) (pre ++ [e]) l hk' hl'
          refine ⟨ih1, ?_⟩
          have hid : newId pre e = k := by unfold newId; rw [if_neg h1, if_neg h2, hk]
          simp only [List.map_cons, ih2, hid]

theorem assignRxFrom_eq (C : Codec F) : ∀ (k : Nat) (l : List Elem),
    (assignRxFrom C k l).map Elem.id = (List.range' k l.length).map fun i => C.showI (i : Nat)
  | _, [] => rfl
  | k, e :: l => by
    unfold assignRxFrom
    rw [List.map_cons, assignRxFrom_eq C (k + 1) l, List.length_cons, List.range'_succ, List.map_cons]

theorem Codec.Lawful.showI_inj (hC : C.Lawful) {m n : Int} (h : C.showI m = C.showI n) : m = n := by
  have := hC.int m
  rw [h, hC.int n] at this
  exact (Option.some.inj this).symm

theorem ordinary_take_lt {l : List Elem} {i j : Nat} (hij : i < j) (hi : i < l.length) (ho : Ordinary l[i]) :
    ordinary (l.take i) < ordinary (l.take j) := by
  have h1 : l.take (i + 1) = l.take i ++ [l[i]] := (List.take_append_getElem hi).symm
  have h2 : ordinary (l.take (i + 1)) = ordinary (l.take i) + 1 := by
    rw [h1]
    unfold ordinary
    rw [List.countP_append]
    simp [ho]
  have h3 : l.take (i + 1) = (l.take j).take (i + 1) := by rw [List.take_take]; congr 1; omega
  have h4 : ordinary (l.take (i + 1)) ≤ ordinary (l.take j) := by
    rw [h3]
    exact List.Sublist.countP_le (List.take_sublist _ _)
  omega

theorem ordinary_take_lt_total {l : List Elem} {i : Nat} (hi : i < l.length) (ho : Ordinary l[i]) :
    ordinary (l.take i) < ordinary l := by
  have := ordinary_take_lt hi hi ho
  rwa [List.take_length] at this

theorem exists_nth_ordinary : ∀ {l : List Elem} {k : Nat}, k < ordinary l →
    ∃ i, ∃ hi : i < l.length, Ordinary l[i] ∧ ordinary (l.take i) = k
  | [], k, h => by simp [ordinary] at h
  | e :: l, k, h => by
    by_cases he : Ordinary e
    · have hs : ordinary (e :: l) = ordinary l + 1 := by simp [ordinary, he]
      cases k with
      | zero => exact ⟨0, by simp, he, rfl⟩
      | succ k =>
        obtain ⟨i, hi, h1, h2⟩ := exists_nth_ordinary (l := l) (k := k) (by omega)
        refine ⟨i + 1, by simpa using hi, h1, ?_⟩
        rw [List.take_succ_cons]
        unfold ordinary at h2 ⊢
        rw [List.countP_cons_of_pos (by simpa using he), h2]
    · have hs : ordinary (e :: l) = ordinary l := by simp [ordinary, he]
      obtain ⟨i, hi, h1, h2⟩ := exists_nth_ordinary (l := l) (k := k) (by omega)
      refine ⟨i + 1, by simpa using hi, h1, ?_⟩
      rw [List.take_succ_cons]
      unfold ordinary at h2 ⊢
      rw [List.countP_cons_of_neg (by simpa using he), h2]

variable [DecidableEq F]

/-- **C48.** `assign_ids` succeeds whatever was called before, changes nothing but ids, and gives 0 to the electron,
999 to M, to any other species one more than the number of ordinary species before it, and 1 to `n` to the
reactions. -/
theorem ids_assigned {ops : List (Op F)} (ho : ∀ op ∈ ops, op.Named) :
    let b := history C A ops
    ∃ b', b.step C A .assign = (.ok (), b') ∧
      b'.species.map Elem.subs = b.species.map Elem.subs ∧ b'.reactions.map Elem.subs = b.reactions.map Elem.subs ∧
      (∀ i (h : i < b'.species.length),
        (b'.species[i].name = some str!"e" → b'.species[i].id = C.showI 0) ∧
        (b'.species[i].name = some str!"M" → b'.species[i].id = C.showI 999) ∧
        (Ordinary b'.species[i] → b'.species[i].id = C.showI (ordinary (b'.species.take i) + 1))) ∧
      (∀ i (h : i < b'.reactions.length), b'.reactions[i].id = C.showI (i + 1)) := by
  intro b
  have ht : Tidy b := tidy_history ho
  obtain ⟨h1, h2⟩ := assignFrom_eq C 1 [] b.species rfl ht.named
  have hs := assignFrom_subs C 1 b.species
  have hr := assignRxFrom_subs C 1 b.reactions
  have hr2 := assignRxFrom_eq C 1 b.reactions
  refine ⟨{ b with species := (assignFrom C 1 b.species).2, reactions := assignRxFrom C 1 b.reactions }, ?_, hs, hr, ?_,
    ?_⟩
  · simp only [Builder.step, Builder.assign, Builder.assignSpecies]
    generalize assignFrom C 1 b.species = q at h1
    obtain ⟨r, l⟩ := q
    cases h1
    rfl
  · generalize (assignFrom C 1 b.species).2 = l at hs h2
    intro i hi
    have hn : l.map Elem.name = b.species.map Elem.name := by rw [map_name, map_name, hs]
    have hlen : l.length = b.species.length := by simpa using congrArg List.length hs
    have hi' : i < l.length := hi
    have hnm : l[i].name = (b.species[i]'(by omega)).name := by
      have := List.getElem_of_eq hn (i := i) (by simpa using hi')
      simpa using this
    have htk : ordinary (l.take i) = ordinary (b.species.take i) := by
      have : ∀ m : List Elem, ordinary m = (m.map Elem.name).countP
          fun x => decide (x ≠ some str!"e" ∧ x ≠ some str!"M") := by
        intro m
        unfold ordinary
        rw [List.countP_map]
        rfl
      rw [this, this, List.map_take, List.map_take, hn]
    have hid : l[i].id = C.showI (newId (b.species.take i) (b.species[i]'(by omega))) := by
      have := List.getElem_of_eq h2 (i := i) (by simpa using hi')
      simpa using this
    show (l[i].name = _ → l[i].id = _) ∧ (l[i].name = _ → l[i].id = _) ∧ (Ordinary l[i] → l[i].id = _)
    rw [htk, hid]
    refine ⟨fun h => ?_, fun h => ?_, fun h => ?_⟩
    · unfold newId
      rw [if_pos (hnm ▸ h)]
      rfl
    · unfold newId
      rw [if_neg (by rw [← hnm, h]; decide), if_pos (hnm ▸ h)]
      rfl
    · unfold newId
      rw [if_neg (fun h' => h.1 (hnm ▸ h')), if_neg (fun h' => h.2 (hnm ▸ h'))]
      rfl
  · intro i hi
    have hi' : i < (assignRxFrom C 1 b.reactions).length := hi
    have := List.getElem_of_eq hr2 (i := i) (by simpa using hi')
    simp only [List.getElem_map, List.getElem_range'] at this
    show (assignRxFrom C 1 b.reactions)[i].id = _
    rw [this]
    congr 1
    push_cast
    omega

/-- **C48.** The ids of the species are then distinct exactly if there are fewer than 999 ordinary species or there is
no M; those of the reactions always are. -/
theorem ids_distinct (hC : C.Lawful) {ops : List (Op F)} (ho : ∀ op ∈ ops, op.Named) :
    let b := history C A ops
    let b' := (b.step C A .assign).2
    ((b'.species.map Elem.id).Nodup ↔ ordinary b.species < 999 ∨ ∀ e ∈ b.species, e.name ≠ some str!"M") ∧
    (b'.reactions.map Elem.id).Nodup := by
  intro b b'
  have ht : Tidy b := tidy_history ho
  obtain ⟨b1, h1, h2, -, h4, h5⟩ := ids_assigned (C := C) (A := A) ho
  have hb' : b' = b1 := by show (b.step C A .assign).2 = b1; rw [h1]
  rw [hb']
  have hn : b1.species.map Elem.name = b.species.map Elem.name := by rw [map_name, map_name, h2]
  have hd : (b1.species.map Elem.name).Nodup := by rw [hn]; exact ht.distinct
  have hcnt : ordinary b1.species = ordinary b.species := by
    have : ∀ m : List Elem, ordinary m = (m.map Elem.name).countP
        fun x => decide (x ≠ some str!"e" ∧ x ≠ some str!"M") := by
      intro m
      unfold ordinary
      rw [List.countP_map]
      rfl
    rw [this, this, hn]
  have hM : (∀ e ∈ b.species, e.name ≠ some str!"M") ↔ ∀ e ∈ b1.species, e.name ≠ some str!"M" := by
    have : ∀ m : List Elem, (∀ e ∈ m, e.name ≠ some str!"M") ↔ ∀ x ∈ m.map Elem.name, x ≠ some str!"M" := by
      intro m; simp
    rw [this, this, hn]
  rw [← hcnt, hM]
  clear hn hcnt hM h2 h1 hb' b'
  generalize b1.species = l at *
  have hname : ∀ i (hi : i < l.length) j (hj : j < l.length), l[i].name = l[j].name → i = j := by
    intro i hi j hj he
    have := (List.Nodup.getElem_inj_iff hd (i := i) (j := j) (hi := by simpa using hi) (hj := by simpa using hj)).1
      (by simpa using he)
    exact this
  refine ⟨⟨?_, ?_⟩, ?_⟩
  · intro hnd
    by_contra hcon
    rw [not_or] at hcon
    obtain ⟨hcount, hex⟩ := hcon
    simp only [not_forall, not_not] at hex
    obtain ⟨e, he, hen⟩ := hex
    obtain ⟨j, hj, rfl⟩ := List.mem_iff_getElem.1 he
    obtain ⟨i, hi, hio, hik⟩ := exists_nth_ordinary (l := l) (k := 998) (by omega)
    have e1 := (h4 i hi).2.2 hio
    have e2 := (h4 j hj).2.1 hen
    rw [hik] at e1
    have hij : i = j := by
      refine (List.Nodup.getElem_inj_iff hnd (i := i) (j := j) (hi := by simpa using hi) (hj := by simpa using hj)).1 ?_
      rw [List.getElem_map, List.getElem_map, e1, e2]
      rfl
    subst hij
    exact hio.2 hen
  · intro hor
    rw [List.Nodup, List.pairwise_iff_getElem]
    intro i j hi hj hij heq
    rw [List.length_map] at hi hj
    rw [List.getElem_map, List.getElem_map] at heq
    obtain ⟨i1, i2, i3⟩ := h4 i hi
    obtain ⟨j1, j2, j3⟩ := h4 j hj
    have bound : ∀ k (hk : k < l.length), Ordinary l[k] → ∀ m (hm : m < l.length), l[m].name = some str!"M" →
        l[k].id ≠ l[m].id := by
      intro k hk hko m hm hmn he
      rw [(h4 k hk).2.2 hko, (h4 m hm).2.1 hmn] at he
      have := hC.showI_inj he
      rcases hor with h | h
      · have := ordinary_take_lt_total hk hko
        omega
      · exact h _ (List.getElem_mem hm) hmn
    by_cases ie : l[i].name = some str!"e"
    · by_cases je : l[j].name = some str!"e"
      · exact absurd (hname i hi j hj (ie.trans je.symm)) (by omega)
      · by_cases jm : l[j].name = some str!"M"
        · rw [i1 ie, j2 jm] at heq
          exact absurd (hC.showI_inj heq) (by decide)
        · rw [i1 ie, j3 ⟨je, jm⟩] at heq
          have := hC.showI_inj heq
          omega
    · by_cases im : l[i].name = some str!"M"
      · by_cases je : l[j].name = some str!"e"
        · rw [i2 im, j1 je] at heq
          exact absurd (hC.showI_inj heq) (by decide)
        · by_cases jm : l[j].name = some str!"M"
          · exact absurd (hname i hi j hj (im.trans jm.symm)) (by omega)
          · exact bound j hj ⟨je, jm⟩ i hi im heq.symm
      · by_cases je : l[j].name = some str!"e"
        · rw [i3 ⟨ie, im⟩, j1 je] at heq
          have := hC.showI_inj heq
          omega
        · by_cases jm : l[j].name = some str!"M"
          · exact bound i hi ⟨ie, im⟩ j hj jm heq
          · rw [i3 ⟨ie, im⟩, j3 ⟨je, jm⟩] at heq
            have := hC.showI_inj heq
            have := ordinary_take_lt hij hi ⟨ie, im⟩
            omega
  · rw [List.Nodup, List.pairwise_iff_getElem]
    intro i j hi hj hij heq
    rw [List.length_map] at hi hj
    rw [List.getElem_map, List.getElem_map, h5 i hi, h5 j hj] at heq
    have := hC.showI_inj heq
    omega

end Verif.Plaschem.Xml
