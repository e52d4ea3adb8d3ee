/-
What a reaction that was read back answers.
-/
import Verif.Plaschem.XmlRx

namespace Verif.Plaschem.Xml
open Verif.Plaschem

variable {F : Type} {C : Codec F} {A : Str → Option (Dict Str Nat)}

theorem Checks.fits {rs : List (Rp F)} {a : Str} {v : Val F} {u : Option Str} (h : Checks C rs a v u) {k : Kind}
    (hk : rxKinds.get? a = some k) : v.fits k = true := by
  obtain ⟨k', hk', hf⟩ := h.mem
  rw [hk] at hk'
  cases hk'
  exact hf

theorem latexSide_congr {T : Str → Except Err Str} {all all' side side' : List (Rp F)}
    (h : List.Forall₂ (fun rp rp' : Rp F => rp'.id = rp.id ∧ rp'.getLatex C T = rp.getLatex C T) all all')
    (hs : side'.map Rp.id = side.map Rp.id) (l : List Nat) (d : Dict Str Str) :
    latexSide C T all' side' l d = latexSide C T all side l d := by
  induction l generalizing d with
  | nil => rfl
  | cons i l ih =>
    unfold latexSide
    have hf : (all'.find? (fun rp => rp.id = i)).map (Rp.getLatex C T) =
        (all.find? (fun rp => rp.id = i)).map (Rp.getLatex C T) := by
      clear ih hs
      induction h with
      | nil => rfl
      | @cons a b l₁ l₂ hab _ ih =>
        rw [List.find?_cons, List.find?_cons, hab.1]
        split
        · simp [hab.2]
        · exact ih
    cases h1 : all'.find? (fun rp => rp.id = i) with
    | none =>
      rw [h1] at hf
      cases h2 : all.find? (fun rp => rp.id = i) with
      | none => rfl
      | some rp => rw [h2] at hf; cases hf
    | some rp' =>
      rw [h1] at hf
      cases h2 : all.find? (fun rp => rp.id = i) with
      | none => rw [h2] at hf; cases hf
      | some rp =>
        rw [h2] at hf
        simp only [Option.map_some, Option.some.injEq] at hf
        simp only [hf, hs]
        congr 1
        funext s
        exact ih _

section answers
variable {x x' : Rx F} (hC : C.Lawful) (hx : x.Valid C A) (hw : WritableRx x)
  (hsp : ∀ rp ∈ x.reactants ++ x.products, rp.Valid ∧ Writable C rp) (h : RereadRx C x x')

include hsp h in
theorem RereadRx.names_eq : Rx.names C x'.reactants = Rx.names C x.reactants ∧
    Rx.names C x'.products = Rx.names C x.products := by
  refine ⟨?_, ?_⟩
  · exact collect_congr₂ (Forall₂.imp_mem h.reactants fun rp hrp rp' hr =>
      hr.getName (hsp rp (List.mem_append_left _ hrp)).2)
  · exact collect_congr₂ (Forall₂.imp_mem h.products fun rp hrp rp' hr =>
      hr.getName (hsp rp (List.mem_append_right _ hrp)).2)

include hsp h in
theorem RereadRx.isElectron : x'.isElectron C = x.isElectron C := by
  have := (h.names_eq hsp).1
  unfold Rx.names at this
  unfold Rx.isElectron
  rw [this]

include hw h in
theorem RereadRx.optText (a : Str) : (x'.attr a).optText C = (x.attr a).optText C := by
  rw [h.attr, Val.optText_reread (hw.filled a)]

include hC hx hw h

theorem RereadRx.floatOr {a : Str} (ha : rxKinds.get? a = some .number) (d : Option F) :
    Keeps ((x.attr a).floatOr C d) ((x'.attr a).floatOr C d) := by
  rw [h.attr]
  exact Val.floatOr_reread hC (hw.filled a) ((hx.checks a (rxKinds_keys ha)).fits ha) d

theorem RereadRx.intOr {a : Str} (ha : rxKinds.get? a = some .integer) (d : Option Int) :
    (x'.attr a).intOr C d = (x.attr a).intOr C d := by
  rw [h.attr]
  exact Val.intOr_reread hC (hw.filled a) ((hx.checks a (rxKinds_keys ha)).fits ha) d

omit hC hx in
theorem RereadRx.getUnit {a : Str} (ha : x.attr a ≠ .null) : x'.getUnit a = x.getUnit a := by
  unfold Rx.getUnit
  rw [h.unit]
  unfold reunit
  rw [if_pos (Val.present_iff.2 ⟨ha, hw.filled a⟩)]
  cases rxUnits.get? a with
  | none => rfl
  | some d => cases x.unit a <;> cases d <;> rfl

theorem RereadRx.getArrhA (si : Bool) : Keeps (x.getArrhA C si) (x'.getArrhA C si) := by
  unfold Rx.getArrhA
  by_cases hn : x.attr str!"arrh_a" = .null
  · have : x'.attr str!"arrh_a" = .null := by rw [h.attr, hn]; rfl
    rw [hn, this]
    exact Keeps.refl _
  · rw [h.getUnit hw hn]
    exact Keeps.bind (h.floatOr hC hx hw rfl none) fun _ => Keeps.refl _

theorem RereadRx.getArrh {a : Str} (ha : rxKinds.get? a = some .number) : Keeps (x.getArrh C a) (x'.getArrh C a) := by
  unfold Rx.getArrh
  refine Keeps.bind (h.floatOr hC hx hw ha none) fun o => ?_
  cases o with
  | some y => exact Keeps.refl _
  | none => exact Keeps.bind (h.getArrhA hC hx hw true) fun _ => Keeps.refl _

include hsp in
omit hC in
theorem RereadRx.getElastic : x'.getElastic C = x.getElastic C := by
  have hn := h.names_eq hsp
  unfold Rx.names at hn
  have hk : rxKinds.get? str!"elastic" = some .flag := by decide
  have hf := (hx.checks str!"elastic" (by decide)).fits hk
  have hne := hw.filled str!"elastic"
  unfold Rx.getElastic
  rw [h.attr]
  cases hv : x.attr str!"elastic" with
  | null =>
    simp only [Val.reread, Val.present]
    simp only [Bool.false_eq_true, if_false]
    rw [hn.1, hn.2]
  | str s =>
    rw [hv] at hne
    have : s ≠ [] := fun e => hne (by rw [e])
    simp [Val.reread, Val.present, this, Val.text]
  | int n => rw [hv] at hf; cases hf
  | float y => rw [hv] at hf; cases hf
  | bool b => cases b <;> simp [Val.reread, Val.present, Val.text]

include hsp

omit hC hx in
theorem RereadRx.getLatex (T : Str → Except Err Str) : x'.getLatex C T = x.getLatex C T := by
  have hid : ∀ {l l' : List (Rp F)}, List.Forall₂ (Reread C) l l' → l'.map Rp.id = l.map Rp.id := by
    intro l l' hl
    induction hl with
    | nil => rfl
    | cons ha _ ih => rw [List.map_cons, List.map_cons, ha.id, ih]
  have hall : List.Forall₂ (fun rp rp' : Rp F => rp'.id = rp.id ∧ rp'.getLatex C T = rp.getLatex C T)
      (x.reactants ++ x.products) (x'.reactants ++ x'.products) := by
    refine List.rel_append ?_ ?_
    · exact Forall₂.imp_mem h.reactants fun rp hrp rp' hr =>
        ⟨hr.id, hr.getLatex (hsp rp (List.mem_append_left _ hrp)).2 T⟩
    · exact Forall₂.imp_mem h.products fun rp hrp rp' hr =>
        ⟨hr.id, hr.getLatex (hsp rp (List.mem_append_right _ hrp)).2 T⟩
  unfold Rx.getLatex
  rw [h.optText hw, hid h.reactants, hid h.products, latexSide_congr hall (hid h.reactants),
    latexSide_congr hall (hid h.products)]

theorem RereadRx.same (T : Str → Except Err Str) : SameRx C A T x x' := by
  refine ⟨h.id, ?_, ?_, ?_, ?_⟩
  · exact Forall₂.imp_mem h.reactants fun rp hrp rp' hr =>
      hr.same hC (hsp rp (List.mem_append_left _ hrp)).1 (hsp rp (List.mem_append_left _ hrp)).2 A T
  · exact Forall₂.imp_mem h.products fun rp hrp rp' hr =>
      hr.same hC (hsp rp (List.mem_append_right _ hrp)).1 (hsp rp (List.mem_append_right _ hrp)).2 A T
  · intro q
    change Keeps (x.ask C T q) (x'.ask C T q)
    cases q <;> simp only [Rx.ask] <;> refine Keeps.map _ ?_
    · exact Keeps.of_eq (h.names_eq hsp).1
    · exact Keeps.of_eq (h.names_eq hsp).2
    · exact h.getArrhA hC hx hw _
    · exact h.getArrh hC hx hw rfl
    · exact h.getArrh hC hx hw rfl
    · exact Keeps.of_eq (h.getElastic hx hw hsp)
    · exact h.floatOr hC hx hw rfl _
    · exact h.floatOr hC hx hw rfl _
    · unfold Rx.getSpecial
      rw [h.intOr hC hx hw rfl, h.isElectron hsp]
      exact Keeps.refl _
    · exact Keeps.of_eq (h.intOr hC hx hw rfl _)
    · exact Keeps.of_eq (h.intOr hC hx hw rfl _)
    · exact Keeps.of_eq (by unfold Rx.getText; rw [h.optText hw])
    · exact Keeps.of_eq (by unfold Rx.getText; rw [h.optText hw])
    · exact Keeps.of_eq (h.getLatex hw hsp T)
    · exact Keeps.of_eq (h.isElectron hsp)
  · intro a ha
    exact h.getUnit hw (Val.isSome_iff.1 ha)

end answers

end Verif.Plaschem.Xml
