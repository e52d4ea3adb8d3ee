/-
Property C132: files of chemistry attributes and the XML file of the chemistry. Models plaschem/chemistry.py:498-515 (`dump_chemistry_attributes`),
517-582 (`load_chemistry_attributes`) and 600-610 (`check_coherence`) with the file they read and write.
-/
import Verif.Plaschem.DumpProps

namespace Verif.Plaschem

/-- what is found at the path of a yaml file -/
inductive YamlFile
  | absent
  | empty
  | complete (a : Attrs)

namespace Net

/-- plaschem/chemistry.py:513-515: the file is opened, which empties it, before the attributes are collected. What was there before plays
no role. (The disk is not full, the path can be written to.) -/
def dumpTo (net : Net) (path : Option Str) (hash : Str → Option Str) (st : State) : YamlFile × Option Err :=
  match net.dump path hash st with
  | .error e => (.empty, some e)
  | .ok a => (.complete a, none)

/-- plaschem/chemistry.py:532-582: an empty file is read as `None`, which cannot be subscripted. -/
def loadFrom (net : Net) (path : Option Str) (hash : Str → Option Str) (st : State) (f : YamlFile) (checkHash : Bool) : State × Option Err :=
  match f with
  | .absent => (st, some .chemAttribute)
  | .empty => (st, some .typeError)
  | .complete a => net.load path hash st a checkHash

/-- plaschem/chemistry.py:608-610 for a file that exists; `none` if it is empty -/
def coherentWith (net : Net) (path : Option Str) (hash : Str → Option Str) (st : State) : Option Attrs → Except Err Bool
  | none =>
    match net.chemistryAttributes path hash st with
    | .error e => .error e
    | .ok _ => .ok false
  | some a => net.checkCoherence path hash st a

end Net
open Net

section
variable {net : Net} {path path' : Option Str} {hash hash' : Str → Option Str} {b cur : State} {f : YamlFile}

theorem xmlHashOf_ok {h : Option Str} (hx : xmlHashOf hash path = .ok h) : h = path.bind hash ∧ ∀ p, path = some p → (hash p).isSome := by
  cases path with
  | none => cases hx; exact ⟨rfl, fun p h => by cases h⟩
  | some p =>
    simp only [xmlHashOf] at hx
    cases hp : hash p with
    | none => rw [hp] at hx; cases hx
    | some v =>
      rw [hp] at hx
      cases hx
      exact ⟨by simp [hp], fun q h => by cases h; simp [hp]⟩

theorem xmlHashOf_error {e : Err} (hx : xmlHashOf hash path = .error e) : e = .chemAttribute ∧ ∃ p, path = some p ∧ hash p = none := by
  cases path with
  | none => cases hx
  | some p =>
    simp only [xmlHashOf] at hx
    cases hp : hash p with
    | none => rw [hp] at hx; cases hx; exact ⟨rfl, p, rfl, hp⟩
    | some v => rw [hp] at hx; cases hx

theorem dump_cases (net : Net) (path : Option Str) (hash : Str → Option Str) (st : State) :
    (∃ a, net.dump path hash st = .ok a ∧ a.xmlPath = path ∧ xmlHashOf hash path = .ok a.xmlHash) ∨
    ∃ e, net.dump path hash st = .error e ∧ xmlHashOf hash path = .error e := by
  unfold dump chemistryAttributes
  cases hx : xmlHashOf hash path with
  | error e => exact .inr ⟨e, rfl, rfl⟩
  | ok h => exact .inl ⟨_, rfl, rfl, rfl⟩

/-- **C132.** Attributes can be dumped exactly if the chemistry has no XML file or the file exists. -/
theorem dump_succeeds_iff (net : Net) (path : Option Str) (hash : Str → Option Str) (st : State) :
    (net.dumpTo path hash st).2 = none ↔ ∀ p, path = some p → (hash p).isSome := by
  unfold dumpTo
  rcases dump_cases net path hash st with ⟨a, h, -, hx⟩ | ⟨e, h, hx⟩
  · rw [h]; exact ⟨fun _ => (xmlHashOf_ok hx).2, fun _ => rfl⟩
  · rw [h]
    obtain ⟨-, p, h1, h2⟩ := xmlHashOf_error hx
    refine ⟨fun h => (by cases h), fun h => ?_⟩
    have := h p h1
    rw [h2] at this
    cases this

/-- **C132.** If the chemistry refers to another XML file than the one that dumped, or the content of the file has changed since, or the
file is gone, then loading with the check raises `ChemistryAttributeError` and changes nothing. -/
theorem changed_xml_refused (hd : net.dumpTo path hash b = (f, none)) (h : path' ≠ path ∨ ∃ p, path' = some p ∧ hash' p ≠ hash p)
    (cur : State) : net.loadFrom path' hash' cur f true = (cur, some .chemAttribute) := by
  unfold dumpTo at hd
  rcases dump_cases net path hash b with ⟨a, ha, hp, hx⟩ | ⟨e, he, -⟩
  · rw [ha] at hd
    cases hd
    unfold loadFrom load
    simp only [if_true]
    by_cases hpp : a.xmlPath = path'
    · obtain ⟨p, rfl, hh⟩ := h.resolve_left (fun h => h (hpp.symm.trans hp))
      rw [if_neg (not_not.2 hpp)]
      obtain rfl : path = some p := hp.symm.trans hpp
      cases hx' : xmlHashOf hash' (some p) with
      | error e => rw [(xmlHashOf_error hx').1]
      | ok v =>
        have h1 := (xmlHashOf_ok hx').1
        have h2 := (xmlHashOf_ok hx).1
        simp only
        rw [if_pos]
        rw [h1, h2]
        exact fun h => hh h.symm
    · rw [if_pos hpp]
  · rw [he] at hd; cases hd

/-- **C132.** If nothing of that has changed, the check makes no difference; and without it the XML file plays no role. -/
theorem unchanged_xml_same (hd : net.dumpTo path hash b = (f, none)) (cur : State) :
    net.loadFrom path hash cur f true = net.loadFrom path' hash' cur f false := by
  unfold dumpTo at hd
  rcases dump_cases net path hash b with ⟨a, ha, hp, hx⟩ | ⟨e, he, -⟩
  · rw [ha] at hd
    cases hd
    unfold loadFrom load
    simp [hp, hx]
  · rw [he] at hd; cases hd

/-- **C132.** A chemistry is coherent with a file only if the XML file has the same path and content as when the attributes were dumped. -/
theorem coherent_same_xml {a : Attrs} (hd : net.dumpTo path hash b = (.complete a, none))
    (h : net.coherentWith path' hash' cur (some a) = .ok true) : path' = path ∧ ∀ p, path = some p → hash' p = hash p := by
  unfold dumpTo at hd
  rcases dump_cases net path hash b with ⟨a', ha, hp, hx⟩ | ⟨e, he, -⟩
  · rw [ha] at hd
    cases hd
    unfold coherentWith checkCoherence chemistryAttributes at h
    cases hx' : xmlHashOf hash' path' with
    | error e => rw [hx'] at h; cases h
    | ok v =>
      rw [hx'] at h
      simp only [Except.ok.injEq, attrsEq, decide_eq_true_eq] at h
      have h1 : a.xmlPath = path' := congrArg Attrs.xmlPath h
      have h2 : a.xmlHash = v := congrArg Attrs.xmlHash h
      have hpp : path' = path := h1.symm.trans hp
      refine ⟨hpp, fun p e => ?_⟩
      have h3 := (xmlHashOf_ok hx').1
      have h4 := (xmlHashOf_ok hx).1
      rw [hpp, e] at h3
      rw [e] at h4
      exact h3.symm.trans (h2.symm.trans h4)
  · rw [he] at hd; cases hd

/-- **C132, negative part.** A dump that raises, because the XML file is gone, destroys the file it should have written: it leaves an
empty file, whatever was there, from which nothing can be loaded any more, with or without the check, even after the XML file is back.
The exception is then a `TypeError`, not the documented `ChemistryAttributeError`, and `check_coherence` says no for every state. -/
theorem failed_dump_destroys {p : Str} (h : hash p = none) (st : State) : ∃ f, net.dumpTo (some p) hash st = (f, some .chemAttribute) ∧
    (∀ path' hash' cur check, net.loadFrom path' hash' cur f check = (cur, some .typeError)) ∧
    ∀ path' hash' cur, net.coherentWith path' hash' cur none ≠ .ok true := by
  refine ⟨.empty, ?_, fun _ _ _ _ => rfl, fun path' hash' cur => ?_⟩
  · unfold dumpTo dump chemistryAttributes xmlHashOf
    simp [h]
  · unfold coherentWith
    cases net.chemistryAttributes path' hash' cur <;> simp

end

namespace DumpFileDemo
open Verif.Plaschem.Demo (net st0)

/-- the file `c.xml` with the given content -/
def disk (content : Str) : Str → Option Str := fun p => if p = str!"c.xml" then some content else none

/-- The hypotheses are met: the file is dumped, and the XML file is changed or removed. -/
example : ∃ f, net.dumpTo (some str!"c.xml") (disk str!"1") st0 = (f, none) ∧ disk str!"2" str!"c.xml" ≠ disk str!"1" str!"c.xml" ∧
    net.loadFrom (some str!"c.xml") (disk str!"2") st0 f true = (st0, some .chemAttribute) ∧
    net.loadFrom (some str!"c.xml") (fun _ => none) st0 f true = (st0, some .chemAttribute) := by
  have h : (net.dumpTo (some str!"c.xml") (disk str!"1") st0).2 = none := (dump_succeeds_iff _ _ _ _).2 fun p hp => by
    cases hp; decide
  have hd : net.dumpTo (some str!"c.xml") (disk str!"1") st0 = (_, none) := Prod.ext rfl h
  have hne : disk str!"2" str!"c.xml" ≠ disk str!"1" str!"c.xml" := by decide
  exact ⟨_, hd, hne, changed_xml_refused hd (.inr ⟨_, rfl, hne⟩) _, changed_xml_refused hd (.inr ⟨_, rfl, by decide⟩) _⟩

/-- A state that is coherent with its own file. -/
example : ∃ a, net.dumpTo (some str!"c.xml") (disk str!"1") st0 = (.complete a, none) ∧
    net.coherentWith (some str!"c.xml") (disk str!"1") st0 (some a) = .ok true := by
  refine ⟨_, rfl, ?_⟩
  decide +kernel

/-- A disk without the XML file. -/
example : (fun _ => none : Str → Option Str) str!"c.xml" = none := rfl

end DumpFileDemo

end Verif.Plaschem
