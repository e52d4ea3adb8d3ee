/-
C86: a chemistry of the database that is imported, and what the hypotheses of the theorems exclude.
-/
import Verif.Plaschem.XmlQdbFile

namespace Verif.Plaschem.DemoX
open Verif.Plaschem Xml

/-! ### a chemistry that is imported, written and read -/

def qe : QdbRp Int := ⟨1, str!"e-", [], 0, -1, none, none, none, none⟩
def qAr : QdbRp Int := ⟨2, str!"Ar", [], 40, 0, some 0, some 114, some 4, some str!"AR"⟩
def qArS : QdbRp Int := ⟨3, str!"Ar", [str!"4s"], 40, 0, some 11, none, some 0, none⟩
def qArL : QdbRp Int := ⟨4, str!"Ar", [str!"*"], 40, 0, some 11, none, some 0, none⟩
def qArP : QdbRp Int := ⟨5, str!"Ar+", [], 40, 1, none, none, none, some []⟩
def qArPP : QdbRp Int := ⟨6, str!"Ar+2", [], 40, 2, none, none, none, none⟩

example : [qe, qAr, qArS, qArL, qArP, qArPP].map QdbRp.name =
    [str!"e", str!"Ar", str!"Ar(4s)", str!"Ar*", str!"Ar+", str!"Ar++"] := by decide +kernel

theorem regular_of {r : QdbRp Int} (n : Nat)
    (h : r.formula.drop n ∈ [str!"", str!"+", str!"+2", str!"+3", str!"-", str!"-2", str!"-3"] ∧ r.formula.take n ≠ [] ∧
      (∀ c ∈ r.formula.take n, c ∉ str!"+-*(") ∧ r.formula ≠ str!"e" ∧ ∀ s ∈ r.states, s ≠ [] ∧ ',' ∉ s) : r.Regular :=
  ⟨⟨r.formula.take n, r.formula.drop n, h.1, (List.take_append_drop n _).symm, h.2.1, h.2.2.1⟩, h.2.2.2.1, h.2.2.2.2⟩

theorem regular_all : ∀ r ∈ [qe, qAr, qArS, qArL, qArP, qArPP], r.Regular := by
  simp only [List.mem_cons, List.not_mem_nil, or_false, forall_eq_or_imp, forall_eq]
  exact ⟨regular_of 1 (by decide), regular_of 2 (by decide), regular_of 2 (by decide), regular_of 2 (by decide),
    regular_of 2 (by decide), regular_of 2 (by decide)⟩

/-- names distinguish the species -/
example : qArS.name ≠ qArL.name := by
  intro h
  have := (qdb_name_inj (regular_all qArS (by simp)) (regular_all qArL (by simp)) h).2
  revert this
  decide

/-- excitation to a level and to the level it is lumped with -/
def qResolved : QdbSides Int := ⟨21, [qe, qAr], [qe, qArS], [qe, qAr, qArS]⟩
def qLumped : QdbSides Int := ⟨20, [qe, qAr], [qe, qArL], [qe, qAr, qArL]⟩
def qIonisation : QdbSides Int := ⟨22, [qe, qAr], [qe, qe, qArP], [qe, qAr, qArP]⟩
def qTransfer : QdbSides Int := ⟨23, [qArPP, qAr], [qArP, qArP], [qArPP, qAr, qArP]⟩

def ds1 : QdbDs Int := ⟨101, 1, .arrh [(3, str!"m3.s-1")] [0] [(11, str!"eV"), (12, str!"eV")], none, [none, some str!"10.1/x"]⟩
def ds2 : QdbDs Int := ⟨102, 1, .arrh [(5, str!"m3.s-1")] [1] [(15, str!"eV")], some 7, []⟩
def ds3 : QdbDs Int := ⟨103, 2, .xsec 6 1 15 none 16, some (-4), [some str!"None"]⟩
def ds4 : QdbDs Int := ⟨104, 3, .arrh [(7, str!"cm3.s-1")] [0] [(0, str!"K")], none, []⟩

def lExc : QdbLeaf Int := ⟨qResolved, [ds1], [qLumped]⟩
def lIon : QdbLeaf Int := ⟨qIonisation, [ds2, ds3], []⟩
def lTr : QdbLeaf Int := ⟨qTransfer, [ds3, ds4], []⟩

/-- the chemistry has the lumped reaction; the data are those of the resolved one -/
def qChem : List (QdbRx Int) :=
  [.mk ⟨qLumped, [], []⟩ [.mk lExc []], .mk lIon [], .mk lTr []]

example : leavesAll qChem = [lExc, lIon, lTr] := by simp [qChem, leavesAll, QdbRx.leaves]

theorem data_exc : lExc.Has C DemoR.F ds1 3 str!"m3.s-1" 0 11 str!"eV" :=
  ⟨⟨by decide, .inl rfl, .arrh⟩, ⟨by decide, by decide, by decide, by decide +kernel, .inr (.inl ⟨rfl, .inl rfl⟩),
    fun _ => by decide +kernel, by decide, of_toOption (by decide +kernel)⟩⟩

theorem data_ion : lIon.Has C DemoR.F ds3 6 str!"cm3.s-1" 1 15 str!"eV" :=
  ⟨⟨by decide, .inr ⟨by decide, .inl ⟨[ds2], [], rfl, ⟨fun _ => rfl, fun h => absurd (by decide +kernel) h⟩, by
      intro d hd h
      rw [List.mem_singleton.1 hd] at h
      exact absurd (h.1 (by decide +kernel)) (by decide)⟩⟩, .two rfl⟩,
    ⟨by decide, by decide, by decide, by decide +kernel, .inr (.inl ⟨rfl, .inr rfl⟩),
    fun _ => by decide +kernel, by decide, of_toOption (by decide +kernel)⟩⟩

theorem data_tr : lTr.Has C DemoR.F ds4 7 str!"cm3.s-1" 0 0 str!"K" :=
  ⟨⟨by decide, .inr ⟨by decide, .inl ⟨[ds3], [], rfl, ⟨fun h => absurd h (by decide +kernel), fun _ => .inr rfl⟩, by
      intro d hd h
      rw [List.mem_singleton.1 hd] at h
      exact absurd (h.2 (by decide +kernel)) (by decide)⟩⟩, .arrh⟩,
    ⟨by decide, by decide, by decide, by decide +kernel, .inr (.inl ⟨rfl, .inr rfl⟩),
    fun h => absurd rfl h, by decide, of_toOption (by decide +kernel)⟩⟩

theorem leaves_qChem : leavesAll qChem = [lExc, lIon, lTr] := by simp [qChem, leavesAll, QdbRx.leaves]

theorem species_qChem : ∀ r ∈ qdbSpecies qChem, r ∈ [qe, qAr, qArS, qArL, qArP, qArPP] := by
  unfold qdbSpecies
  rw [leaves_qChem]
  simp [lExc, lIon, lTr, QdbLeaf.master, qLumped, qIonisation, qTransfer]

/-- the hypotheses of `qdb_file` hold of this chemistry -/
example : ∃ bl N S X, ({} : Builder Int).addQdb C qChem = (.ok (), bl) ∧ readBack C DemoR.F bl = .ok (S, X) ∧
    N.Nodup ∧ (∀ r, r ∈ N ↔ r ∈ qdbSpecies qChem) ∧ List.Forall₂ (QdbRp.ReadAs C) N S ∧
    List.Forall₂ (fun x y => ∃ d a ua b c uc, x.HasData d a ua b c uc ∧ x.ReadAs C d a ua b c uc y) (leavesAll qChem) X :=
  qdb_file lawful DemoR.F qChem
    (by
      rw [leaves_qChem]
      simp [lExc, lIon, lTr, QdbLeaf.master, qLumped, qIonisation, qTransfer]
      tauto)
    (fun r hr => regular_all r (species_qChem r hr))
    (fun r hr => (by decide +kernel : ∀ r ∈ [qe, qAr, qArS, qArL, qArP, qArPP],
      (∀ c ∈ str!"<>,", c ∉ r.name) ∧ strip r.name = r.name) r (species_qChem r hr))
    (by
      intro r hr r' hr' h1 h2
      have hr := species_qChem r hr
      have hr' := species_qChem r' hr'
      simp only [List.mem_cons, List.not_mem_nil, or_false] at hr hr'
      rcases hr with rfl | rfl | rfl | rfl | rfl | rfl <;> rcases hr' with rfl | rfl | rfl | rfl | rfl | rfl <;>
        first
        | rfl
        | exact absurd h1 (by decide)
        | exact absurd h2 (by decide))
    (by
      rw [leaves_qChem]
      simp only [List.mem_cons, List.not_mem_nil, or_false, forall_eq_or_imp, forall_eq]
      exact ⟨⟨_, _, _, _, _, _, data_exc⟩, ⟨_, _, _, _, _, _, data_ion⟩, ⟨_, _, _, _, _, _, data_tr⟩⟩)

/-! ### what the hypotheses exclude -/

/-- Names of charges above three are not rewritten, and then differ from the notation used elsewhere. -/
theorem qdb_four_charges : (⟨1, str!"Ar+4", [], 40, 4, none, none, none, none⟩ : QdbRp Int).name = str!"Ar+4" := by
  decide +kernel

/-- A state with a comma has the name of two states. -/
theorem qdb_names_collide : ∃ r r' : QdbRp Int, r.states ≠ r'.states ∧ r.name = r'.name :=
  ⟨⟨1, str!"N2", [str!"v=1,J=2"], 28, 0, none, none, none, none⟩,
   ⟨2, str!"N2", [str!"v=1", str!"J=2"], 28, 0, none, none, none, none⟩, by decide, by decide +kernel⟩

/-- a molecule with an electronic and a vibrational state -/
def qN2 : QdbRp Int := ⟨1, str!"N2", [str!"X", str!"v=1"], 28, 0, none, none, none, none⟩
def qN2g : QdbRp Int := ⟨2, str!"N2", [], 28, 0, none, none, none, none⟩

/-- such a species is regular -/
example : qN2.Regular := regular_of 2 (by decide)

def qRelax : List (QdbRx Int) := [.mk ⟨⟨7, [qN2, qN2g], [qN2g, qN2g], [qN2, qN2g]⟩, [ds4], []⟩ []]

/-- A species with two states has a comma in its name, so the file its reactions are written to cannot be read. -/
theorem qdb_two_states : ∃ bl, ({} : Builder Int).addQdb C qRelax = (.ok (), bl) ∧
    readBack C (fun _ => some [(str!"N", 2)]) bl = .error .keyError := by
  have h : (({} : Builder Int).addQdb C qRelax).1 = .ok () := of_toOption (by decide +kernel)
  exact ⟨(({} : Builder Int).addQdb C qRelax).2, Prod.ext h rfl, of_err? (by decide +kernel)⟩

/-- Activation energies of cross sections are always in eV, so a collision of heavy species with such data is imported
but cannot be read. -/
theorem qdb_heavy_xsec : ∃ bl, ({} : Builder Int).addQdb C [.mk ⟨⟨7, [qArPP, qAr], [qArP, qArP], [qArPP, qAr, qArP]⟩, [ds3], []⟩ []] =
    (.ok (), bl) ∧ readBack C DemoR.F bl = .error .reactionAttribute := by
  have h : (({} : Builder Int).addQdb C [.mk ⟨⟨7, [qArPP, qAr], [qArP, qArP], [qArPP, qAr, qArP]⟩, [ds3], []⟩ []]).1 = .ok () :=
    of_toOption (by decide +kernel)
  exact ⟨_, Prod.ext h rfl, of_err? (by decide +kernel)⟩

/-- An import that fails leaves what it added. -/
theorem qdb_half_loaded : (({} : Builder Int).addQdb C [.mk lTr [], .mk ⟨qIonisation, [], []⟩ []]).1 = .error .xml ∧
    (({} : Builder Int).addQdb C [.mk lTr [], .mk ⟨qIonisation, [], []⟩ []]).2.names =
      [.str str!"Ar++", .str str!"Ar", .str str!"Ar+", .str str!"e"] ∧
    (({} : Builder Int).addQdb C [.mk lTr [], .mk ⟨qIonisation, [], []⟩ []]).2.reactions.length = 1 :=
  ⟨of_err? (by decide +kernel), by decide +kernel, by decide +kernel⟩

/-- A lumped reaction with two resolved ones gives two reactions with the same species; both carry their own id. -/
example : ((({} : Builder Int).addQdb C [.mk ⟨qLumped, [], []⟩
    [.mk lExc [], .mk ⟨⟨24, [qe, qAr], [qe, qArS], [qe, qAr, qArS]⟩, [ds2], [qLumped]⟩ []]]).2.reactions.map Elem.id) =
    [str!"21", str!"24"] := by decide +kernel

end Verif.Plaschem.DemoX
