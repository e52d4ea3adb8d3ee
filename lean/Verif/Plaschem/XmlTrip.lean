/-
C50: species and reactions written to an XML input file with the builder come back when the file is parsed.
-/
import Verif.Plaschem.XmlSame
import Verif.Plaschem.ClassifierProps
import Mathlib.Data.List.Nodup

namespace Verif.Plaschem.Xml
open Verif.Plaschem

variable {F : Type} {C : Codec F} {A : Str → Option (Dict Str Nat)}

/-! ### specification -/

/-- a species that can be written and referred to by its name -/
structure GoodRp (C : Codec F) (rp : Rp F) : Prop where
  reach : RpReach C rp
  writable : Writable C rp
  plain : Plain C rp

/-- a reaction that can be written -/
structure GoodRx (C : Codec F) (A : Str → Option (Dict Str Nat)) (x : Rx F) : Prop where
  reach : RxReach C A x
  writable : WritableRx x

/-- the species of a reaction -/
def Rx.rps (x : Rx F) : List (Rp F) := x.reactants ++ x.products

/-- A builder filled from instances: species by `add_rp_from_instance`, reactions by `add_reaction_from_instance`,
where the species of the reactions are among the species added before. -/
inductive Built (C : Codec F) [DecidableEq F] : Builder F → List (Rp F) → List (Rx F) → Prop
  | new : Built C {} [] []
  | rp {b b' S X rp} : Built C b S X → b.addRpInstance C rp = .ok b' → Built C b' (S ++ [rp]) X
  | rx {b b' S X x} : Built C b S X → (∀ rp ∈ x.rps, rp ∈ S) → b.addRxInstance C x = (.ok (), b') →
      Built C b' S (X ++ [x])

/-- the file that is written and parsed again -/
def readBack (C : Codec F) (A : Str → Option (Dict Str Nat)) (b : Builder F) :
    Except Err (List (Rp F) × List (Rx F)) :=
  parse C A (b.species.map Elem.file) (b.reactions.map Elem.file)

/-! ### names -/

/-- the name of a species -/
def nm (rp : Rp F) : Str :=
  match rp.attr str!"name" with
  | .str n => n
  | _ => []

theorem Writable.attr_name {rp : Rp F} (h : Writable C rp) : rp.attr str!"name" = .str (nm rp) := by
  obtain ⟨n, hn, -⟩ := h.name
  unfold nm
  rw [hn]

theorem Writable.getName {rp : Rp F} (h : Writable C rp) : rp.getName C = .ok (nm rp) := by
  unfold Rp.getName
  rw [h.attr_name]
  rfl

theorem Writable.nm_ne {rp : Rp F} (h : Writable C rp) : nm rp ≠ [] := by
  intro e
  have := h.filled str!"name"
  rw [h.attr_name, e] at this
  exact this rfl

theorem Writable.names {l : List (Rp F)} (h : ∀ rp ∈ l, Writable C rp) : Rx.names C l = .ok (l.map nm) := by
  unfold Rx.names
  refine collect_forall₂ ?_
  induction l with
  | nil => exact .nil
  | cons rp l ih => exact .cons (h rp (by simp)).getName (ih fun r hr => h r (List.mem_cons_of_mem _ hr))

theorem GoodRp.plain_nm {rp : Rp F} (h : GoodRp C rp) : nm rp ≠ [] ∧ ',' ∉ nm rp ∧ strip (nm rp) = nm rp := by
  obtain ⟨n, hn, h1, h2⟩ := h.plain
  rw [h.writable.getName] at hn
  cases hn
  exact ⟨h.writable.nm_ne, h1, h2⟩

/-! ### what the builder holds -/

/-- the builder holds these species and reactions -/
structure Holds (C : Codec F) (b : Builder F) (S : List (Rp F)) (X : List (Rx F)) : Prop where
  species : b.species = S.map (Rp.elem C)
  names : b.names = S.map fun rp => .str (nm rp)
  reactions : b.reactions = X.map fun x => x.elem C (x.reactants.map nm) (x.products.map nm)

theorem mem_names {b : Builder F} {S : List (Rp F)} {X : List (Rx F)} (h : Holds C b S X) (n : Str) :
    Val.str n ∈ b.names ↔ n ∈ S.map nm := by
  rw [h.names]
  simp

section building
variable [DecidableEq F]

theorem get?_name (rp : Rp F) : Dict.get? rp.attrs str!"name" = some (rp.attr str!"name") := by
  unfold Rp.attrs
  rw [get?_mapKeys, if_pos (by decide)]

theorem addRpInstance_eq {b : Builder F} {rp : Rp F} (hw : Writable C rp) :
    b.addRpInstance C rp = if .str (nm rp) ∈ b.names then .error .xml
      else .ok { b with species := b.species ++ [rp.elem C], names := b.names ++ [.str (nm rp)] } := by
  unfold Builder.addRpInstance Builder.addRp
  rw [get?_name, hw.attr_name]
  rfl

/-- species that are not there yet, appended in order -/
def addAll (S : List (Rp F)) (l : List (Rp F)) : List (Rp F) :=
  l.foldl (fun S rp => if nm rp ∈ S.map nm then S else S ++ [rp]) S

theorem addMissing_eq {b : Builder F} {S : List (Rp F)} {X : List (Rx F)} (h : Holds C b S X) {l : List (Rp F)}
    (hl : ∀ rp ∈ l, Writable C rp) :
    ∃ b', b.addMissing C l = (.ok (), b') ∧ Holds C b' (addAll S l) X := by
  induction l generalizing b S with
  | nil => exact ⟨b, rfl, h⟩
  | cons rp l ih =>
    have hw := hl rp (by simp)
    have hl' : ∀ r ∈ l, Writable C r := fun r hr => hl r (List.mem_cons_of_mem _ hr)
    unfold Builder.addMissing addAll
    rw [hw.getName, List.foldl_cons]
    simp only
    by_cases hm : nm rp ∈ S.map nm
    · rw [if_pos ((mem_names h _).2 hm), if_pos hm]
      exact ih h hl'
    · have hm' := mt (mem_names h _).1 hm
      rw [if_neg hm', if_neg hm, addRpInstance_eq hw, if_neg hm']
      refine ih ⟨?_, ?_, h.reactions⟩ hl'
      · simp [h.species]
      · simp [h.names]

theorem mem_addAll (S l : List (Rp F)) (n : Str) : n ∈ (addAll S l).map nm ↔ n ∈ S.map nm ∨ n ∈ l.map nm := by
  unfold addAll
  induction l generalizing S with
  | nil => simp
  | cons rp l ih =>
    rw [List.foldl_cons, ih]
    by_cases hm : nm rp ∈ S.map nm
    · rw [if_pos hm, List.map_cons, List.mem_cons]
      constructor
      · rintro (h | h)
        · exact Or.inl h
        · exact Or.inr (Or.inr h)
      · rintro (h | rfl | h)
        · exact Or.inl h
        · exact Or.inl hm
        · exact Or.inr h
    · rw [if_neg hm, List.map_append, List.mem_append, List.map_cons, List.map_cons, List.mem_cons]
      simp only [List.map_nil, List.not_mem_nil, or_false, List.mem_cons]
      exact or_assoc

theorem addAll_subset (S l : List (Rp F)) : ∀ rp ∈ addAll S l, rp ∈ S ∨ rp ∈ l := by
  unfold addAll
  induction l generalizing S with
  | nil => intro rp h; exact Or.inl h
  | cons q l ih =>
    intro rp h
    rw [List.foldl_cons] at h
    rcases ih _ rp h with h | h
    · split at h
      · exact Or.inl h
      · rcases List.mem_append.1 h with h | h
        · exact Or.inl h
        · exact Or.inr (by simp at h; simp [h])
    · exact Or.inr (List.mem_cons_of_mem _ h)

theorem nodup_addAll {S : List (Rp F)} (hS : (S.map nm).Nodup) (l : List (Rp F)) : ((addAll S l).map nm).Nodup := by
  unfold addAll
  induction l generalizing S with
  | nil => exact hS
  | cons q l ih =>
    rw [List.foldl_cons]
    apply ih
    split
    · exact hS
    · rename_i hm
      rw [List.map_append, List.nodup_append]
      refine ⟨hS, by simp, ?_⟩
      rintro a ha b hb rfl
      simp only [List.map_cons, List.map_nil, List.mem_singleton] at hb
      exact hm (hb ▸ ha)

theorem addAll_of_mem {S l : List (Rp F)} (h : ∀ rp ∈ l, nm rp ∈ S.map nm) : addAll S l = S := by
  unfold addAll
  induction l with
  | nil => rfl
  | cons q l ih =>
    rw [List.foldl_cons, if_pos (h q (by simp))]
    exact ih fun r hr => h r (List.mem_cons_of_mem _ hr)

theorem addRxInstance_eq {b : Builder F} {S : List (Rp F)} {X : List (Rx F)} (h : Holds C b S X) {x : Rx F}
    (hl : ∀ rp ∈ x.rps, Writable C rp) :
    ∃ b', b.addRxInstance C x = (.ok (), b') ∧ Holds C b' (addAll S x.rps) (X ++ [x]) := by
  obtain ⟨b1, h1, h2⟩ := addMissing_eq h hl
  unfold Builder.addRxInstance
  rw [show x.reactants ++ x.products = x.rps from rfl, h1]
  simp only
  rw [Writable.names fun rp hr => hl rp (List.mem_append_left _ hr),
    Writable.names fun rp hr => hl rp (List.mem_append_right _ hr)]
  simp only
  have hin : ¬ ∃ n ∈ x.reactants.map nm ++ x.products.map nm, Val.str n ∉ b1.names := by
    rintro ⟨n, hn, hc⟩
    apply hc
    rw [mem_names h2, mem_addAll]
    right
    rw [Rx.rps, List.map_append]
    exact hn
  unfold Builder.addRx
  rw [if_neg hin]
  refine ⟨_, rfl, h2.species, h2.names, ?_⟩
  simp only [h2.reactions, List.map_append, List.map_cons, List.map_nil]
  rfl

theorem addRxs_eq {b : Builder F} {S : List (Rp F)} {X Y : List (Rx F)} (h : Holds C b S X)
    (hl : ∀ x ∈ Y, ∀ rp ∈ x.rps, Writable C rp) :
    ∃ b', b.addRxs C Y = (.ok (), b') ∧ Holds C b' (addAll S (Y.flatMap Rx.rps)) (X ++ Y) := by
  induction Y generalizing b S X with
  | nil => exact ⟨b, rfl, by simpa [addAll] using h⟩
  | cons x Y ih =>
    obtain ⟨b1, h1, h2⟩ := addRxInstance_eq h (hl x (by simp))
    obtain ⟨b2, h3, h4⟩ := ih h2 fun y hy => hl y (List.mem_cons_of_mem _ hy)
    refine ⟨b2, ?_, ?_⟩
    · unfold Builder.addRxs
      rw [h1]
      exact h3
    · simp only [addAll, List.flatMap_cons, List.foldl_append] at h4 ⊢
      simpa using h4

theorem Built.holds {b : Builder F} {S : List (Rp F)} {X : List (Rx F)} (h : Built C b S X)
    (hS : ∀ rp ∈ S, Writable C rp) : Holds C b S X ∧ (S.map nm).Nodup := by
  induction h with
  | new => exact ⟨⟨rfl, rfl, rfl⟩, by simp⟩
  | @rp b b' S X rp _ hs ih =>
    obtain ⟨ih1, ih2⟩ := ih fun r hr => hS r (List.mem_append_left _ hr)
    rw [addRpInstance_eq (hS rp (by simp))] at hs
    by_cases hm : Val.str (nm rp) ∈ b.names
    · rw [if_pos hm] at hs; cases hs
    · rw [if_neg hm] at hs
      cases hs
      refine ⟨⟨by simp [ih1.species], by simp [ih1.names], ih1.reactions⟩, ?_⟩
      rw [List.map_append, List.nodup_append]
      refine ⟨ih2, by simp, ?_⟩
      rintro a ha c hc rfl
      simp only [List.map_cons, List.map_nil, List.mem_singleton] at hc
      exact hm ((mem_names ih1 _).2 (hc ▸ ha))
  | @rx b b' S X x _ hx hs ih =>
    obtain ⟨ih1, ih2⟩ := ih hS
    obtain ⟨b1, h1, h2⟩ := addRxInstance_eq ih1 (x := x) fun rp hr => hS rp (hx rp hr)
    rw [hs] at h1
    cases h1
    rw [addAll_of_mem fun rp hr => List.mem_map_of_mem (hx rp hr)] at h2
    exact ⟨h2, ih2⟩

end building

/-! ### parsing what the builder holds -/

theorem parseSpecies_ok (hC : C.Lawful) (S : List (Rp F)) (hS : ∀ rp ∈ S, GoodRp C rp) (hn : (S.map nm).Nodup)
    (d : Dict Str (Rp F)) :
    ∃ S' d', parseSpecies C ((S.map (Rp.elem C)).map Elem.file) d = .ok (S', d') ∧
      List.Forall₂ (Reread C) S S' ∧ (∀ n, n ∉ S.map nm → d'.get? n = d.get? n) ∧
      (∀ rp ∈ S, ∃ rp', Reread C rp rp' ∧ d'.get? (nm rp) = some rp') := by
  induction S generalizing d with
  | nil => exact ⟨[], d, rfl, .nil, fun _ _ => rfl, by simp⟩
  | cons rp S ih =>
    have hg := hS rp (by simp)
    obtain ⟨rp', h1, h2⟩ := rp_comes_back hC hg.reach hg.writable
    rw [List.map_cons, List.nodup_cons] at hn
    obtain ⟨S', d', h3, h4, h5, h6⟩ := ih (fun r hr => hS r (List.mem_cons_of_mem _ hr)) hn.2 (d.set (nm rp) rp')
    have hname : rp'.getName C = .ok (nm rp) := by rw [h2.getName hg.writable, hg.writable.getName]
    refine ⟨rp' :: S', d', ?_, .cons h2 h4, ?_, ?_⟩
    · rw [List.map_cons, List.map_cons]
      unfold parseSpecies
      rw [h1]
      simp only [bind, Except.bind]
      rw [hname]
      simp only
      rw [h3]
      rfl
    · intro n hnn
      rw [List.map_cons, List.mem_cons, not_or] at hnn
      rw [h5 n hnn.2, Dict.get?_set, if_neg (Ne.symm hnn.1)]
    · intro r hr
      rcases List.mem_cons.1 hr with rfl | hr
      · exact ⟨rp', h2, by rw [h5 _ hn.1, Dict.get?_set, if_pos rfl]⟩
      · exact h6 r hr

theorem exists_forall₂ {α β : Type} {R : α → β → Prop} {l : List α} (h : ∀ a ∈ l, ∃ b, R a b) :
    ∃ m, List.Forall₂ R l m := by
  induction l with
  | nil => exact ⟨[], .nil⟩
  | cons a l ih =>
    obtain ⟨b, hb⟩ := h a (by simp)
    obtain ⟨m, hm⟩ := ih fun c hc => h c (List.mem_cons_of_mem _ hc)
    exact ⟨b :: m, .cons hb hm⟩

theorem readBack_holds (hC : C.Lawful) {b : Builder F} {S : List (Rp F)} {X : List (Rx F)} (h : Holds C b S X)
    (hS : ∀ rp ∈ S, GoodRp C rp) (hn : (S.map nm).Nodup) (hX : ∀ x ∈ X, GoodRx C A x)
    (hin : ∀ x ∈ X, ∀ rp ∈ x.rps, rp ∈ S) :
    ∃ S' X', readBack C A b = .ok (S', X') ∧ List.Forall₂ (Reread C) S S' ∧ List.Forall₂ (RereadRx C) X X' := by
  obtain ⟨S', d, h1, h2, -, h4⟩ := parseSpecies_ok hC S hS hn []
  have hrx : ∀ x ∈ X, ∃ x', parseRx C A d (x.elem C (x.reactants.map nm) (x.products.map nm)).file = .ok x' ∧
      RereadRx C x x' := by
    intro x hx
    have hsub : ∀ rp ∈ x.rps, GoodRp C rp := fun rp hr => hS rp (hin x hx rp hr)
    have side : ∀ l : List (Rp F), (∀ rp ∈ l, rp ∈ x.rps) → ∃ l', List.Forall₂ (Reread C) l l' ∧
        List.Forall₂ (fun n rp' => d.get? n = some rp') (l.map nm) l' := by
      intro l hl
      obtain ⟨l', hl'⟩ := exists_forall₂ (R := fun rp rp' => Reread C rp rp' ∧ d.get? (nm rp) = some rp')
        fun rp hr => h4 rp (hin x hx rp (hl rp hr))
      refine ⟨l', hl'.imp fun _ _ h => h.1, ?_⟩
      rw [List.forall₂_map_left_iff]
      exact hl'.imp fun _ _ h => h.2
    obtain ⟨rs', hr1, hr2⟩ := side x.reactants fun rp hr => List.mem_append_left _ hr
    obtain ⟨ps', hp1, hp2⟩ := side x.products fun rp hr => List.mem_append_right _ hr
    refine rx_comes_back hC (hX x hx).reach.valid (hX x hx).writable
      (Writable.names fun rp hr => (hsub rp (List.mem_append_left _ hr)).writable)
      (Writable.names fun rp hr => (hsub rp (List.mem_append_right _ hr)).writable) ?_ ?_ hr1 hp1 hr2 hp2
    · intro n hn'
      rw [← List.map_append] at hn'
      obtain ⟨rp, hrp, rfl⟩ := List.mem_map.1 hn'
      exact (hsub rp hrp).plain_nm
    · exact fun rp hr => ⟨(hsub rp hr).reach.valid, (hsub rp hr).writable⟩
  obtain ⟨X', hX'⟩ := exists_forall₂ hrx
  refine ⟨S', X', ?_, h2, hX'.imp fun _ _ h => h.2⟩
  unfold readBack parse
  rw [h.species, h.reactions, h1]
  simp only [bind, Except.bind]
  rw [List.map_map, collect_forall₂ (m := X')]
  · rfl
  · rw [List.forall₂_map_left_iff]
    exact hX'.imp fun _ _ h => h.1

/-! ### theorems -/

theorem same_all (hC : C.Lawful) (T : Str → Except Err Str) {S S' : List (Rp F)} {X X' : List (Rx F)}
    (hS : ∀ rp ∈ S, GoodRp C rp) (hX : ∀ x ∈ X, GoodRx C A x) (hin : ∀ x ∈ X, ∀ rp ∈ x.rps, rp ∈ S)
    (h1 : List.Forall₂ (Reread C) S S') (h2 : List.Forall₂ (RereadRx C) X X') :
    List.Forall₂ (SameRp C A T) S S' ∧ List.Forall₂ (SameRx C A T) X X' := by
  refine ⟨?_, ?_⟩
  · exact Forall₂.imp_mem h1 fun rp hr rp' h => h.same hC (hS rp hr).reach.valid (hS rp hr).writable A T
  · refine Forall₂.imp_mem h2 fun x hx x' h => h.same hC (hX x hx).reach.valid (hX x hx).writable ?_ T
    exact fun rp hr => ⟨(hS rp (hin x hx rp hr)).reach.valid, (hS rp (hin x hx rp hr)).writable⟩

/-- **C50**: a file written from species and reactions, in any order of additions, parses to the same species and the
same reactions in the order of the additions. -/
theorem xml_round_trip [DecidableEq F] (hC : C.Lawful) (T : Str → Except Err Str) {b : Builder F} {S : List (Rp F)}
    {X : List (Rx F)} (h : Built C b S X) (hS : ∀ rp ∈ S, GoodRp C rp) (hX : ∀ x ∈ X, GoodRx C A x) :
    ∃ S' X', readBack C A b = .ok (S', X') ∧ List.Forall₂ (SameRp C A T) S S' ∧
      List.Forall₂ (SameRx C A T) X X' := by
  obtain ⟨h1, h2⟩ := h.holds fun rp hr => (hS rp hr).writable
  have hin : ∀ x ∈ X, ∀ rp ∈ x.rps, rp ∈ S := by
    clear h1 h2 hS hX
    induction h with
    | new => simp
    | rp _ _ ih => exact fun x hx rp hr => List.mem_append_left _ (ih x hx rp hr)
    | rx _ hx _ ih =>
      intro y hy
      rcases List.mem_append.1 hy with hy | hy
      · exact ih y hy
      · rw [List.mem_singleton.1 hy]; exact hx
  obtain ⟨S', X', h3, h4, h5⟩ := readBack_holds hC h1 hS h2 hX hin
  exact ⟨S', X', h3, same_all hC T hS hX hin h4 h5⟩

/-- is the species part of one of the reactions? -/
def used (X : List (Rx F)) (rp : Rp F) : Bool := X.any fun x => x.rps.any fun q => q.id = rp.id

theorem idx_pairwise {l : List Nat} (h : l.Nodup) : l.Pairwise fun a b => l.idxOf a ≤ l.idxOf b := by
  rw [List.pairwise_iff_getElem]
  intro i j hi hj hij
  rw [h.idxOf_getElem, h.idxOf_getElem]
  omega

/-- **C50**, for a chemistry: `U` are its enabled species, special ones included, in its order, and `X` its enabled
reactions. The file written by `add_chemistry_from_instance` parses to the species that take part in a reaction, in the
order of the chemistry, and to its reactions. -/
theorem chemistry_round_trip [DecidableEq F] (hC : C.Lawful) (T : Str → Except Err Str) {U : List (Rp F)}
    {X : List (Rx F)} (hU : ∀ rp ∈ U, GoodRp C rp) (hX : ∀ x ∈ X, GoodRx C A x)
    (hin : ∀ x ∈ X, ∀ rp ∈ x.rps, rp ∈ U) (hnames : ∀ a ∈ U, ∀ b ∈ U, a.getName C = b.getName C → a = b)
    (hids : (U.map Rp.id).Nodup) :
    ∃ b, Builder.addChemistry C ({} : Builder F) (U.map Rp.id) X = (.ok (), b) ∧
      ∃ S' X', readBack C A b = .ok (S', X') ∧ List.Forall₂ (SameRp C A T) (U.filter (used X)) S' ∧
        List.Forall₂ (SameRx C A T) X X' := by
  have hnm : ∀ a ∈ U, ∀ b ∈ U, nm a = nm b → a = b := fun a ha b hb e =>
    hnames a ha b hb (by rw [(hU a ha).writable.getName, (hU b hb).writable.getName, e])
  obtain ⟨b, h1, h2⟩ := addRxs_eq (C := C) (b := {}) (S := []) (X := []) (Y := X) ⟨rfl, rfl, rfl⟩
    fun x hx rp hr => (hU rp (hin x hx rp hr)).writable
  rw [List.nil_append] at h2
  generalize hSdef : addAll [] (X.flatMap Rx.rps) = S at h2
  have hSU : ∀ rp ∈ S, rp ∈ U := by
    intro rp hr
    rw [← hSdef] at hr
    rcases addAll_subset _ _ rp hr with h | h
    · cases h
    · obtain ⟨x, hx, hr'⟩ := List.mem_flatMap.1 h
      exact hin x hx rp hr'
  have hSn : (S.map nm).Nodup := by rw [← hSdef]; exact nodup_addAll (by simp) _
  have hSin : ∀ x ∈ X, ∀ rp ∈ x.rps, rp ∈ S := by
    intro x hx rp hr
    have : nm rp ∈ S.map nm := by
      rw [← hSdef, mem_addAll]
      exact Or.inr (List.mem_map_of_mem (List.mem_flatMap.2 ⟨x, hx, hr⟩))
    obtain ⟨q, hq, he⟩ := List.mem_map.1 this
    rw [← hnm q (hSU q hq) rp (hin x hx rp hr) he]
    exact hq
  have hUinj : ∀ a ∈ U, ∀ b ∈ U, a.id = b.id → a = b := by
    intro a ha b hb e
    exact List.inj_on_of_nodup_map hids ha hb e
  -- the order of the species
  let le : Rp F → Rp F → Bool := fun a b => decide ((U.map Rp.id).idxOf a.id ≤ (U.map Rp.id).idxOf b.id)
  have hsort : S.mergeSort le = U.filter (used X) := by
    refine List.Perm.eq_of_pairwise (le := fun a b => le a b = true) ?_ ?_ ?_ ?_
    · intro a c ha hc h1 h2
      have ha' : a ∈ U := hSU a ((List.mergeSort_perm S le).mem_iff.1 ha)
      have hc' : c ∈ U := (List.mem_filter.1 hc).1
      simp only [le, decide_eq_true_eq] at h1 h2
      exact hUinj a ha' c hc' ((List.idxOf_inj (List.mem_map_of_mem ha')).1 (Nat.le_antisymm h1 h2))
    · refine List.pairwise_mergeSort ?_ ?_ S
      · intro a b c h1 h2
        simp only [le, decide_eq_true_eq] at *
        omega
      · intro a b
        simp only [le, Bool.or_eq_true, decide_eq_true_eq]
        omega
    · refine List.Pairwise.filter _ ?_
      have := List.pairwise_map.1 (idx_pairwise hids)
      exact this.imp fun h => by simpa [le] using h
    · refine (List.mergeSort_perm S le).trans ?_
      rw [List.perm_ext_iff_of_nodup (List.Nodup.of_map _ hSn) ((List.Nodup.of_map _ hids).filter _)]
      intro rp
      rw [List.mem_filter]
      constructor
      · intro hr
        refine ⟨hSU rp hr, ?_⟩
        rw [← hSdef] at hr
        rcases addAll_subset _ _ rp hr with h | h
        · cases h
        · obtain ⟨x, hx, hr'⟩ := List.mem_flatMap.1 h
          simp only [used, List.any_eq_true, decide_eq_true_eq]
          exact ⟨x, hx, rp, hr', rfl⟩
      · rintro ⟨hrU, hu⟩
        simp only [used, List.any_eq_true, decide_eq_true_eq] at hu
        obtain ⟨x, hx, q, hq, e⟩ := hu
        rw [← hUinj q (hin x hx q hq) rp hrU e]
        exact hSin x hx q hq
  have hkeys : Classify.collect (idKey C (U.map Rp.id)) b.species =
      .ok (S.map fun rp => (U.map Rp.id).idxOf rp.id) := by
    rw [h2.species, collect_map]
    refine collect_forall₂ ?_
    rw [List.forall₂_map_right_iff, List.forall₂_same]
    intro rp hr
    unfold idKey
    have : (rp.elem C).id = C.showI rp.id := rfl
    rw [this, hC.int]
    simp only
    rw [if_pos ⟨by omega, by simpa using ⟨rp, hSU rp hr, rfl⟩⟩]
    simp
  let k : Elem → Nat := fun e => (U.map Rp.id).idxOf ((C.readI e.id).getD 0).toNat
  have hk : ∀ rp : Rp F, k (rp.elem C) = (U.map Rp.id).idxOf rp.id := by
    intro rp
    have : (rp.elem C).id = C.showI rp.id := rfl
    simp only [k, this, hC.int]
    simp
  have hzip : (S.map fun rp => (U.map Rp.id).idxOf rp.id).zip b.species =
      b.species.map fun e => (k e, e) := by
    rw [h2.species]
    clear * - hk
    induction S with
    | nil => rfl
    | cons rp S ih => simp only [List.map_cons, List.zip_cons_cons, ih, hk]
  have hsp : Classify.sortPairs (fun i j => decide (i ≤ j))
      ((S.map fun rp => (U.map Rp.id).idxOf rp.id).zip b.species) = (U.filter (used X)).map (Rp.elem C) := by
    rw [hzip, Classify.sortPairs_eq, h2.species, ← hsort]
    · exact (List.map_mergeSort (r := le) (fun a _ c _ => by simp [hk, le])).symm
    · intro a b c h1 h2
      simp only [decide_eq_true_eq] at *
      omega
    · intro a b
      simp only [Bool.or_eq_true, decide_eq_true_eq]
      omega
  refine ⟨{ b with species := (U.filter (used X)).map (Rp.elem C) }, ?_, ?_⟩
  · unfold Builder.addChemistry
    rw [h1]
    simp only
    rw [hkeys]
    simp only
    rw [hsp]
  · have hperm : S.Perm (U.filter (used X)) := by rw [← hsort]; exact (List.mergeSort_perm S le).symm
    have hS2 : ∀ rp ∈ U.filter (used X), GoodRp C rp := fun rp hr => hU rp (List.mem_filter.1 hr).1
    have hin2 : ∀ x ∈ X, ∀ rp ∈ x.rps, rp ∈ U.filter (used X) := fun x hx rp hr => hperm.mem_iff.1 (hSin x hx rp hr)
    have hn2 : ((U.filter (used X)).map nm).Nodup := (hperm.map nm).nodup_iff.1 hSn
    -- the names do not matter for reading
    obtain ⟨S', X', h3, h4, h5⟩ := readBack_holds hC
      (b := { species := (U.filter (used X)).map (Rp.elem C), names := (U.filter (used X)).map fun rp => .str (nm rp),
              reactions := b.reactions }) ⟨rfl, rfl, h2.reactions⟩ hS2 hn2 hX hin2
    exact ⟨S', X', h3, same_all hC T hS2 hX hin2 h4 h5⟩

end Verif.Plaschem.Xml
