/-
C87, C88: chemistries that meet the hypotheses of the theorems on printed tables, and the cases these exclude.
-/
import Verif.Plaschem.TableProps
import Verif.Plaschem.ChemProps
import Verif.Plaschem.XmlDemo

namespace Verif.Plaschem.DemoT
open Verif.Plaschem Xml Pretty Table

/-! ### frames -/

/-- the chemistry of the demo with the doubly charged ion disabled -/
def st : State := (Demo.net.disable Demo.st0 [.id 3] []).1

/-- a frame with all reactions as rows and two species as columns -/
def f : Frame Nat := { index := [1, 2, 3, 4, 5], columns := [1, 3], cell := fun i c => 10 * i + c }

theorem f_rows : Of Demo.net f.index .reactions := by
  refine .reactions (by decide +kernel) ⟨5, by decide, by decide +kernel⟩

theorem f_columns : Of Demo.net f.columns .species := .species (by decide +kernel)

/-- what is printed of it -/
example : (pretty Demo.net st f true).toOption = some
    { rowHeads := [none, some 1, some 2, some 3, some 4, some 5]
      columnHeads := [none, some 1, some 3]
      cells :=
        [[⟨.label [], .reset⟩, ⟨.label str!"Ar", .reset⟩, ⟨.label str!"Ar++", .red⟩],
         [⟨.label str!"e + Ar > Ar+ + e + e", .reset⟩, ⟨.val 11, .reset⟩, ⟨.val 13, .red⟩],
         [⟨.label str!"e + Ar+ > Ar++ + e + e", .red⟩, ⟨.val 21, .red⟩, ⟨.val 23, .red⟩],
         [⟨.label str!"e + Ar > Ar* + e", .reset⟩, ⟨.val 31, .reset⟩, ⟨.val 33, .red⟩],
         [⟨.label str!"Ar* + M > Ar + M", .reset⟩, ⟨.val 41, .reset⟩, ⟨.val 43, .red⟩],
         [⟨.label str!"Ar++ + e > Ar+", .red⟩, ⟨.val 51, .red⟩, ⟨.val 53, .red⟩]] } := by decide +kernel

/-- A frame with the first four reactions as rows is taken for one with species as rows: the rows are labelled with
the names of species, and the row of reaction 3, which is enabled, is red since species 3 is disabled. This is why
the theorems ask for an id that no species has. -/
theorem reactions_taken_for_species :
    ∃ p : Printed Nat, pretty Demo.net st { f with index := [1, 2, 3, 4] } true = .ok p ∧ st.enR 3 = true ∧
      p.rowHeads[3]? = some (some 3) ∧ (p.cells[3]?.bind (·[0]?)) = some ⟨.label str!"Ar++", .red⟩ :=
  ⟨_, rfl, by decide +kernel, by decide +kernel, by decide +kernel⟩

/-- without annotations the first id is blanked out all the same -/
example : (pretty Demo.net st f false).toOption.map Printed.rowHeads =
    some [none, some 2, some 3, some 4, some 5] := by decide +kernel

/-- an empty frame is refused without annotations, and an unknown id with a different error -/
example : (match pretty Demo.net st { f with index := [] } false with
    | .error e => some e
    | .ok _ => none) = some .valueError := by decide +kernel
example : pretty Demo.net st { f with index := [77] } true = .error .keyError :=
  pretty_refused.2 (.inl fun k h => by
    cases h with
    | species h => exact absurd (h 77 (by simp)) (by decide +kernel)
    | reactions h _ => exact absurd (h 77 (by simp)) (by decide +kernel))

/-! ### attributes of species -/

/-- getters of the chemistry without ad-hoc values -/
def S : Surface Int where
  stick i := if i = 2 then some 1 else if i = 1 then some 0 else none
  ret i := if i = 2 then some [(str!"Ar", 1)] else if i = 1 then some [] else none

def A : Str → Option (Dict Str Nat) := fun s => if s = str!"Ar" then some [(str!"Ar", 1)] else none

def species : List (Rp Int) := [DemoX.e, DemoX.Ar, DemoX.ArP]

def err? {α : Type} (x : Except Err α) : Option Err := match x with
  | .error e => some e
  | .ok _ => none

theorem of_err? {α : Type} {x : Except Err α} {e : Err} (h : err? x = some e) : x = .error e := by
  cases x <;> cases h
  rfl

theorem of_isOk {α : Type} {x : Except Err α} (h : x.isOk = true) : ∃ a, x = .ok a := by
  cases x with
  | error e => cases h
  | ok a => exact ⟨a, rfl⟩

theorem species_cases {rp : Rp Int} (h : rp ∈ species) : rp = DemoX.e ∨ rp = DemoX.Ar ∨ rp = DemoX.ArP := by
  simpa [species] using h

theorem valid : ∀ rp ∈ species, rp.Valid := by
  intro rp h
  rcases species_cases h with rfl | rfl | rfl
  · exact DemoX.reach_e.valid
  · exact DemoX.reach_Ar.valid
  · exact DemoX.reach_ArP.valid

theorem answers : ∀ rp ∈ species, ∀ a ∈ rpAttributes, ∃ r, returned DemoX.C (fun s => .ok s) S a rp = .ok r := by
  intro rp h a ha
  have : (returned DemoX.C (fun s => .ok s) S a rp).isOk = true := by
    revert a
    rcases species_cases h with rfl | rfl | rfl <;> decide +kernel
  exact of_isOk this

theorem keys : ∀ rp ∈ species, ∃ k, key DemoX.C A rp = .ok k := by
  intro rp h
  have : (key DemoX.C A rp).isOk = true := by
    rcases species_cases h with rfl | rfl | rfl <;> decide +kernel
  exact of_isOk this

theorem readF_of_readI (s : Str) (n : Int) (h : DemoX.C.readI s = some n) : (DemoX.C.readF s).isSome = true := by
  have h : DemoX.readInt s = some n := h
  show (if Reaction.endsWith s str!".0" = true then _ else _ : Option Int).isSome = true
  split
  · rename_i hd
    exfalso
    have hdot : '.' ∈ s := by
      unfold Reaction.endsWith at hd
      exact List.mem_reverse.1 ((List.isPrefixOf_iff_prefix.1 hd).subset (by decide))
    have key : ∀ t : Str, '.' ∈ t → DemoX.readNat t = none := by
      intro t ht
      unfold DemoX.readNat
      rw [if_neg]
      rintro ⟨-, h⟩
      exact absurd (h '.' ht) (by decide)
    unfold DemoX.readInt at h
    split at h
    · rename_i t _
      rw [key t (by simpa using hdot)] at h
      cases h
    · rw [key s hdot] at h
      cases h
  · rw [h]; rfl

theorem quiet : ∀ rp ∈ species, rp.getName DemoX.C = .ok str!"e" ∨ rp.getName DemoX.C = .ok str!"M" →
    Quiet DemoX.C rp := by
  intro rp h hn
  rcases species_cases h with rfl | rfl | rfl
  · refine ⟨.inl rfl, ?_, fun d hd => by cases hd⟩
    intro a ha t ht
    simp only [List.mem_cons, List.not_mem_nil, or_false] at ha
    rcases ha with rfl | rfl | rfl | rfl | rfl | rfl | rfl <;> cases ht
  · rcases hn with hn | hn <;> cases hn
  · rcases hn with hn | hn <;> cases hn

/-- the hypotheses of `species_table_total` hold for this chemistry, whatever is asked for and whatever is disabled -/
theorem has_table (en : Nat → Bool) (o : Opts) :
    ∃ t, speciesAttributes DemoX.C A (fun s => .ok s) S en o species = .ok t :=
  species_table_total (fun _ => rfl) readF_of_readI valid answers (fun _ => keys) (fun rp h _ => quiet rp h)

/-- the texts and colours of a row -/
def row (en : Nat → Bool) (o : Opts) (i : Nat) : Option (List (Str × Color)) :=
  match speciesAttributes DemoX.C A (fun s => .ok s) S en o species with
  | .error _ => none
  | .ok t => (t.cells[i]?).map fun cs => cs.map fun c => ((match c.value with
      | .str s => s
      | .int n => DemoX.C.showI n
      | .float x => DemoX.C.showF x
      | _ => str!"?"), c.color)

/-- The ion, enabled: its name, mass, charge, sticking coefficient and comments are those passed; what was not passed and
has a default is blue, like the units. -/
example : row (fun _ => true)
    { units := true, ignored := [str!"latex", str!"ret_coefs", str!"stateless", str!"state", str!"qdb_id", str!"doi"] }
    2 = some
    [(str!"Ar+", .reset), (str!"40.0", .reset), (str!"amu", .blue), (str!"1", .reset), (str!"e", .blue),
     (str!"0.0", .blue), (str!"eV", .blue), (str!"0.0", .blue), (str!"K", .blue), (str!"3.0", .blue), (str!"A", .blue),
     (str!"...", .reset), (str!"1.0", .reset), (str!"ion", .reset)] := by decide +kernel

/-- A special species for which a text was passed that is not a number: the table cannot be made with colours, since
the `ValueError` of `float` is not caught, but it can be made without. -/
def eBad : Rp Int := DemoX.mk 0 [(str!"name", .str str!"e"), (str!"mass", .float 0), (str!"charge", .int (-1)),
  (str!"stateless", .str str!"e"), (str!"state", .str str!"free")] none []

theorem state_of_electron : RpReach DemoX.C eBad ∧
    speciesAttributes DemoX.C A (fun s => .ok s) S (fun _ => true) {} [eBad] = .error .valueError ∧
    ∃ t, speciesAttributes DemoX.C A (fun s => .ok s) S (fun _ => true) { pretty := false } [eBad] = .ok t :=
  ⟨DemoX.reach_mk (by simp) (by decide +kernel), of_err? (by decide +kernel),
    of_isOk (by decide +kernel)⟩

end Verif.Plaschem.DemoT
