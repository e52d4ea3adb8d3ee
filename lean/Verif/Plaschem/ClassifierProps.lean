/-
C51, C52: a classifier after any sequence of calls. Its memo tables are transparent, sorting is a stable
permutation by keys, and the listing of reactions is a partition by class.
-/
import Verif.Plaschem.Classifier
import Verif.Plaschem.ClassifyProps
import Verif.Plaschem.DictLemmas
import Mathlib.Algebra.Order.Field.Rat
import Mathlib.Data.List.Pairwise

namespace Verif.Plaschem.Classify
open Verif.Plaschem

/-! ### specification -/

/-- `ys` is `xs` sorted by `key` with the order `le`, entries with the same key in their original order. -/
structure SortedBy {α κ : Type} [DecidableEq κ] (key : α → κ) (le : κ → κ → Prop) (xs ys : List α) : Prop where
  perm : ys.Perm xs
  sorted : ys.Pairwise (fun a b => le (key a) (key b))
  stable : ∀ v, ys.filter (fun a => key a = v) = xs.filter (fun a => key a = v)

/-- What identifies the species `S` and reactions `R` handed to a classifier: ids, and every species of a reaction
is among the species. Holds in a chemistry. -/
structure Ids (S : List RP) (R : List Reaction) : Prop where
  species : ∀ s ∈ S, ∀ t ∈ S, s.id = t.id → s = t
  reactions : ∀ r ∈ R, ∀ q ∈ R, r.id = q.id → r = q
  closed : ∀ r ∈ R, ∀ s ∈ r.rps, s ∈ S

/-- the positions of the species of a list among `S`, ascending -/
def positions (S : List RP) (l : List RP) : List Nat := (l.map (fun s => S.idxOf s)).mergeSort (· ≤ ·)

/-- the order of reactions: positions of the reactants, then positions of the products -/
def posKey (S : List RP) (r : Reaction) : List Nat × List Nat :=
  (positions S r.reactants, positions S r.products)

/-- operations on reactions of `R` only -/
def Clf.Op.On (R : List Reaction) : Clf.Op → Prop
  | .aligned r => r ∈ R
  | _ => True

/-! ### sorting -/

theorem lexLe_refl (a : List Nat) : lexLe a a = true := by
  induction a with
  | nil => rfl
  | cons x a ih => simp [lexLe, ih]

theorem lexLe_total (a b : List Nat) : (lexLe a b || lexLe b a) = true := by
  induction a generalizing b with
  | nil => rfl
  | cons x a ih =>
    cases b with
    | nil => rfl
    | cons y b =>
      have := ih b
      simp only [lexLe, Bool.or_eq_true, Bool.and_eq_true, decide_eq_true_eq] at this ⊢
      rcases Nat.lt_trichotomy x y with h | h | h
      · exact .inl (.inl h)
      · rcases this with h' | h'
        · exact .inl (.inr ⟨h, h'⟩)
        · exact .inr (.inr ⟨h.symm, h'⟩)
      · exact .inr (.inl h)

theorem lexLe_trans (a b c : List Nat) (h1 : lexLe a b = true) (h2 : lexLe b c = true) :
    lexLe a c = true := by
  induction a generalizing b c with
  | nil => rfl
  | cons x a ih =>
    cases b with
    | nil => cases h1
    | cons y b =>
      cases c with
      | nil => cases h2
      | cons z c =>
        simp only [lexLe, Bool.or_eq_true, Bool.and_eq_true, decide_eq_true_eq] at h1 h2 ⊢
        rcases h1 with h1 | ⟨h1, h1'⟩ <;> rcases h2 with h2 | ⟨h2, h2'⟩
        · left; omega
        · left; omega
        · left; omega
        · right; exact ⟨by omega, ih b c h1' h2'⟩

theorem lexLe_antisymm (a b : List Nat) (h1 : lexLe a b = true) (h2 : lexLe b a = true) : a = b := by
  induction a generalizing b with
  | nil =>
    cases b with
    | nil => rfl
    | cons y b => cases h2
  | cons x a ih =>
    cases b with
    | nil => cases h1
    | cons y b =>
      simp only [lexLe, Bool.or_eq_true, Bool.and_eq_true, decide_eq_true_eq] at h1 h2
      rcases h1 with h1 | ⟨h1, h1'⟩ <;> rcases h2 with h2 | ⟨h2, h2'⟩
      · omega
      · omega
      · omega
      · rw [h1, ih b h1' h2']

theorem keyLe_refl (a : List Nat × List Nat) : keyLe a a = true := by simp [keyLe, lexLe_refl]

theorem keyLe_total (a b : List Nat × List Nat) : (keyLe a b || keyLe b a) = true := by
  unfold keyLe
  by_cases h : a.1 = b.1
  · rw [if_pos h, if_pos h.symm]; exact lexLe_total _ _
  · rw [if_neg h, if_neg (Ne.symm h)]; exact lexLe_total _ _

theorem keyLe_trans (a b c : List Nat × List Nat) (h1 : keyLe a b = true) (h2 : keyLe b c = true) :
    keyLe a c = true := by
  unfold keyLe at *
  by_cases h : a.1 = b.1
  · rw [if_pos h] at h1
    by_cases h' : b.1 = c.1
    · rw [if_pos h'] at h2
      rw [if_pos (h.trans h')]
      exact lexLe_trans _ _ _ h1 h2
    · rw [if_neg h'] at h2
      rw [if_neg (by rw [h]; exact h'), h]; exact h2
  · rw [if_neg h] at h1
    by_cases h' : b.1 = c.1
    · rw [if_pos h'] at h2
      rw [if_neg (by rw [← h']; exact h), ← h']; exact h1
    · rw [if_neg h'] at h2
      by_cases h'' : a.1 = c.1
      · rw [← h''] at h2
        exact absurd (lexLe_antisymm _ _ h1 h2) h
      · rw [if_neg h'']; exact lexLe_trans _ _ _ h1 h2

theorem insertBy_append {α : Type} {le : α → α → Bool} {a : α} {l l' : List α} (h : ∀ b ∈ l, (!le a b) = true) :
    insertBy le a (l ++ l') = l ++ insertBy le a l' := by
  induction l with
  | nil => rfl
  | cons b l ih =>
    have hb := h b List.mem_cons_self
    rw [List.cons_append, insertBy, if_neg (by simpa using hb), ih (fun c hc => h c (List.mem_cons_of_mem _ hc))]
    rfl

theorem stableSort_eq {α : Type} {le : α → α → Bool} (trans : ∀ a b c, le a b = true → le b c = true → le a c = true)
    (total : ∀ a b, (le a b || le b a) = true) (l : List α) : stableSort le l = l.mergeSort le := by
  induction l with
  | nil => simp [stableSort]
  | cons a l ih =>
    obtain ⟨l₁, l₂, e1, e2, h⟩ := List.mergeSort_cons trans total a l
    rw [stableSort, ih, e2, insertBy_append h, e1]
    congr 1
    cases l₂ with
    | nil => rfl
    | cons b l₂ =>
      have hp := List.pairwise_mergeSort trans total (a :: l)
      rw [e1] at hp
      have := List.rel_of_pairwise_cons (List.pairwise_append.1 hp).2.1 List.mem_cons_self
      rw [insertBy, if_pos this]

theorem sortPairs_eq {κ α : Type} {le : κ → κ → Bool} (trans : ∀ a b c, le a b = true → le b c = true → le a c = true)
    (total : ∀ a b, (le a b || le b a) = true) (k : α → κ) (l : List α) :
    sortPairs le (l.map fun a => (k a, a)) = l.mergeSort (fun a b => le (k a) (k b)) := by
  unfold sortPairs
  rw [stableSort_eq (le := fun a b : κ × α => le a.1 b.1) (fun a b c => trans _ _ _) (fun a b => total _ _),
    ← List.map_mergeSort (r := fun a b => le (k a) (k b)) (f := fun a => (k a, a)) (fun a _ b _ => rfl),
    List.map_map]
  exact (List.map_congr_left (g := id) (fun a _ => rfl)).trans (List.map_id _)

theorem mergeSort_sortedBy {κ α : Type} [DecidableEq κ] {le : κ → κ → Bool} (k : α → κ) (l : List α)
    (refl : ∀ a, le a a = true) (trans : ∀ a b c, le a b = true → le b c = true → le a c = true)
    (total : ∀ a b, (le a b || le b a) = true) :
    SortedBy k (fun a b => le a b = true) l (l.mergeSort (fun a b => le (k a) (k b))) := by
  have hp : (l.mergeSort (fun a b => le (k a) (k b))).Perm l := List.mergeSort_perm _ _
  have ht : ∀ a b c : α, le (k a) (k b) = true → le (k b) (k c) = true → le (k a) (k c) = true :=
    fun a b c => trans _ _ _
  have hT : ∀ a b : α, (le (k a) (k b) || le (k b) (k a)) = true := fun a b => total _ _
  refine ⟨hp, List.pairwise_mergeSort ht hT l, fun v => ?_⟩
  have hs : (l.filter (fun a => k a = v)).Sublist (l.mergeSort (fun a b => le (k a) (k b))) := by
    refine List.sublist_mergeSort ht hT ?_ List.filter_sublist
    refine List.pairwise_of_forall_mem_list ?_
    intro a ha b hb
    have ha := (List.mem_filter.1 ha).2
    have hb := (List.mem_filter.1 hb).2
    simp only [decide_eq_true_eq] at ha hb
    rw [ha, hb]; exact refl v
  have hs' := hs.filter (fun a => decide (k a = v))
  rw [List.filter_filter] at hs'
  simp only [Bool.and_self] at hs'
  exact (hs'.eq_of_length (hp.filter _).length_eq.symm).symm

theorem collect_keys {α β : Type} {f : α → Except Err β} (d : β) : ∀ {l : List α} {bs : List β},
    collect f l = .ok bs → bs = l.map (fun a => (f a).toOption.getD d)
  | [], bs, h => by cases h; rfl
  | a :: l, bs, h => by
    unfold collect at h
    cases ha : f a with
    | error e => rw [ha] at h; cases h
    | ok b =>
      rw [ha] at h
      simp only at h
      cases hl : collect f l with
      | error e => rw [hl] at h; cases h
      | ok bs' =>
        rw [hl] at h
        cases h
        rw [List.map_cons, ← collect_keys d hl, ha]
        rfl

theorem collect_ok_mem {α β : Type} {f : α → Except Err β} : ∀ {l : List α} {bs : List β},
    collect f l = .ok bs → ∀ a ∈ l, ∃ b, f a = .ok b
  | [], _, _, a, ha => by cases ha
  | x :: l, bs, h, a, ha => by
    unfold collect at h
    cases hx : f x with
    | error e => rw [hx] at h; cases h
    | ok b =>
      rw [hx] at h
      simp only at h
      cases hl : collect f l with
      | error e => rw [hl] at h; cases h
      | ok bs' =>
        rcases List.mem_cons.1 ha with rfl | ha
        · exact ⟨b, hx⟩
        · exact collect_ok_mem hl a ha

theorem zip_map_self {α β : Type} (f : α → β) (l : List α) : (l.map f).zip l = l.map (fun a => (f a, a)) := by
  induction l with
  | nil => rfl
  | cons a l ih => simp [ih]

/-- the order of keys of species: those of the species that raise do not matter -/
def keyOf (F : Str → Option (Dict Str Nat)) (s : RP) : ℚ := (speciesKey F s).toOption.getD 0

/-- **C52.** Sorting the species succeeds exactly if every key can be computed; it is then a stable permutation
into ascending order of the keys, and otherwise changes nothing. -/
theorem sortSpecies_spec (F : Str → Option (Dict Str Nat)) (c : Clf) :
    ((c.sortSpecies F).1 = .ok () ∧ (∀ s ∈ c.species, ∃ v, speciesKey F s = .ok v) ∧
      SortedBy (keyOf F) (· ≤ ·) c.species (c.sortSpecies F).2.species ∧
      (c.sortSpecies F).2.reactions = c.reactions) ∨
    ((∃ e, (c.sortSpecies F).1 = .error e) ∧ (∃ s ∈ c.species, ∃ e, speciesKey F s = .error e) ∧
      (c.sortSpecies F).2 = c) := by
  unfold Clf.sortSpecies
  cases h : collect (speciesKey F) c.species with
  | error e =>
    refine .inr ⟨⟨e, rfl⟩, ?_, rfl⟩
    by_contra hc
    obtain ⟨bs, hbs⟩ := collect_ok (f := speciesKey F) (l := c.species) (by
      intro s hs
      cases hk : speciesKey F s with
      | ok v => exact ⟨v, rfl⟩
      | error e => exact absurd ⟨s, hs, e, hk⟩ hc)
    rw [h] at hbs; cases hbs
  | ok ks =>
    refine .inl ⟨rfl, collect_ok_mem h, ?_, rfl⟩
    have hz : ks.zip c.species = c.species.map (fun s => (keyOf F s, s)) := by
      rw [collect_keys 0 h]
      exact zip_map_self _ _
    simp only
    rw [hz, sortPairs_eq (by simp only [decide_eq_true_eq]; exact fun a b c => le_trans) (by simp [le_total])]
    have := mergeSort_sortedBy (le := fun a b : ℚ => decide (a ≤ b)) (keyOf F) c.species (by simp)
      (by simp only [decide_eq_true_eq]; exact fun a b c => le_trans) (by simp [le_total])
    exact ⟨this.perm, this.sorted.imp (by simp), this.stable⟩

/-! ### the memo tables -/

/-- what holds after any sequence of calls on a classifier made for `S` and `R` -/
structure Clf.Inv (S : List RP) (R : List Reaction) (c : Clf) : Prop where
  species : c.species.Perm S
  reactions : c.reactions.Perm R
  idx : ∀ s ∈ S, ∀ n, c.idx.get? s.id = some n → n = c.species.idxOf s
  cls : ∀ r ∈ R, ∀ k, c.cls.get? r.id = some k → classify r = .ok k
  listing : ∀ p ∈ c.listing, ∀ q ∈ p.2, ∀ r ∈ q.2, r ∈ R
  names : ∀ r ∈ R, ∀ v, c.names.get? r.id = some v →
    v.1.Perm (r.reactants.map RP.name) ∧ v.2.Perm (r.products.map RP.name)

variable {S : List RP} {R : List Reaction} {c : Clf} {F : Str → Option (Dict Str Nat)}

theorem Clf.inv_new (S : List RP) (R : List Reaction) : (Clf.new S R).Inv S R where
  species := .refl _
  reactions := .refl _
  idx := by intro s _ n h; cases h
  cls := by intro s _ n h; cases h
  listing := by intro p hp; cases hp
  names := by intro s _ n h; cases h

/-- nothing but the table of positions and the table of names was touched -/
structure Clf.Looked (c c' : Clf) : Prop where
  species : c'.species = c.species
  reactions : c'.reactions = c.reactions
  listing : c'.listing = c.listing
  align : c'.align = c.align
  cls : c'.cls = c.cls

theorem Clf.Looked.refl (c : Clf) : c.Looked c := ⟨rfl, rfl, rfl, rfl, rfl⟩

theorem Clf.Looked.trans {a b c : Clf} (h : a.Looked b) (h' : b.Looked c) : a.Looked c :=
  ⟨h'.1.trans h.1, h'.2.trans h.2, h'.3.trans h.3, h'.4.trans h.4, h'.5.trans h.5⟩

theorem Clf.speciesIndex_spec (hI : Ids S R) (h : c.Inv S R) {s : RP} (hs : s ∈ S) :
    ∃ c', c.speciesIndex s = (.ok (c.species.idxOf s), c') ∧ c'.Inv S R ∧ c.Looked c' ∧
      c'.names = c.names := by
  unfold Clf.speciesIndex
  cases hi : c.idx.get? s.id with
  | some i =>
    rw [h.idx s hs i hi]
    exact ⟨c, rfl, h, .refl c, rfl⟩
  | none =>
    simp only [if_pos (h.species.mem_iff.2 hs)]
    refine ⟨_, rfl, ⟨h.species, h.reactions, ?_, h.cls, h.listing, h.names⟩, ⟨rfl, rfl, rfl, rfl, rfl⟩, rfl⟩
    intro t ht n hn
    simp only [Dict.get?_set] at hn
    split at hn
    · rename_i he
      cases hn
      rw [hI.species t ht s hs he.symm]
    · exact h.idx t ht n hn

theorem Clf.withIndex_spec (hI : Ids S R) : ∀ {l : List RP} {c : Clf}, c.Inv S R → (∀ s ∈ l, s ∈ S) →
    ∃ c', c.withIndex l = (.ok (l.map fun s => (c.species.idxOf s, s)), c') ∧ c'.Inv S R ∧ c.Looked c' ∧
      c'.names = c.names
  | [], c, h, _ => ⟨c, rfl, h, .refl c, rfl⟩
  | s :: l, c, h, hl => by
    obtain ⟨c1, e1, h1, L1, n1⟩ := Clf.speciesIndex_spec hI h (hl s List.mem_cons_self)
    obtain ⟨c2, e2, h2, L2, n2⟩ := Clf.withIndex_spec hI h1 (fun t ht => hl t (List.mem_cons_of_mem _ ht))
    refine ⟨c2, ?_, h2, L1.trans L2, n2.trans n1⟩
    unfold Clf.withIndex
    rw [e1]
    simp only
    rw [e2, L1.species]
    rfl

/-- the species of a list in the order of their positions -/
def bySpecies (S : List RP) (l : List RP) : List RP :=
  l.mergeSort (fun a b => decide (S.idxOf a ≤ S.idxOf b))

theorem Clf.sorted_spec (hI : Ids S R) {l : List RP} (h : c.Inv S R) (hl : ∀ s ∈ l, s ∈ S) :
    ∃ c', c.sorted l = (.ok (bySpecies c.species l), c') ∧ c'.Inv S R ∧ c.Looked c' ∧ c'.names = c.names := by
  obtain ⟨c', e, h', L, n⟩ := Clf.withIndex_spec hI h hl
  refine ⟨c', ?_, h', L, n⟩
  unfold Clf.sorted
  rw [e]
  simp only [sortPairs_eq (le := fun a b : Nat => decide (a ≤ b)) (by simp only [decide_eq_true_eq]; exact fun a b c => le_trans)
    (by simp [le_total])]
  rfl

theorem bySpecies_perm (S l : List RP) : (bySpecies S l).Perm l := List.mergeSort_perm _ _

theorem bySpecies_positions (S l : List RP) : (bySpecies S l).map (fun s => S.idxOf s) = positions S l :=
  List.map_mergeSort (fun _ _ _ _ => rfl)

theorem Clf.set_names (hI : Ids S R) (h : c.Inv S R) {r : Reaction} (hr : r ∈ R) (T : List RP) :
    ({ c with names := c.names.set r.id ((bySpecies T r.reactants).map RP.name,
      (bySpecies T r.products).map RP.name) } : Clf).Inv S R := by
  refine ⟨h.species, h.reactions, h.idx, h.cls, h.listing, ?_⟩
  intro q hq v hv
  simp only [Dict.get?_set] at hv
  split at hv
  · rename_i he
    cases hv
    rw [hI.reactions q hq r hr he.symm]
    exact ⟨(bySpecies_perm _ _).map _, (bySpecies_perm _ _).map _⟩
  · exact h.names q hq v hv

theorem Clf.reactionKey_spec (hI : Ids S R) (h : c.Inv S R) {r : Reaction} (hr : r ∈ R) :
    ∃ c', c.reactionKey r = (.ok (posKey c.species r), c') ∧ c'.Inv S R ∧ c.Looked c' := by
  have hs : ∀ s ∈ r.reactants, s ∈ S := fun s hs => hI.closed r hr s (by simp [Reaction.rps, hs])
  have hp : ∀ s ∈ r.products, s ∈ S := fun s hs => hI.closed r hr s (by simp [Reaction.rps, hs])
  obtain ⟨c1, e1, h1, L1, -⟩ := Clf.sorted_spec hI h hs
  obtain ⟨c2, e2, h2, L2, -⟩ := Clf.sorted_spec hI h1 hp
  rw [L1.species] at e2
  have s2 : c2.species = c.species := L2.species.trans L1.species
  have h3 := Clf.set_names hI h2 hr c.species
  have hs' : ∀ s ∈ bySpecies c.species r.reactants, s ∈ S :=
    fun s hs' => hs s ((bySpecies_perm _ _).mem_iff.1 hs')
  have hp' : ∀ s ∈ bySpecies c.species r.products, s ∈ S :=
    fun s hs' => hp s ((bySpecies_perm _ _).mem_iff.1 hs')
  obtain ⟨c4, e4, h4, L4, -⟩ := Clf.withIndex_spec hI h3 hs'
  obtain ⟨c5, e5, h5, L5, -⟩ := Clf.withIndex_spec hI h4 hp'
  refine ⟨c5, ?_, h5, (L1.trans L2).trans ⟨L5.1.trans L4.1, L5.2.trans L4.2, L5.3.trans L4.3,
    L5.4.trans L4.4, L5.5.trans L4.5⟩⟩
  have s4 : c4.species = c.species := L4.species.trans s2
  unfold Clf.reactionKey
  rw [e1]
  simp only
  rw [e2]
  simp only
  rw [e4]
  simp only
  rw [e5]
  simp only [List.map_map, s4, s2]
  refine congrArg₂ Prod.mk (congrArg Except.ok (congrArg₂ Prod.mk ?_ ?_)) rfl
  · exact bySpecies_positions _ _
  · exact bySpecies_positions _ _

theorem Clf.withKey_spec (hI : Ids S R) : ∀ {l : List Reaction} {c : Clf}, c.Inv S R → (∀ r ∈ l, r ∈ R) →
    ∃ c', c.withKey l = (.ok (l.map fun r => (posKey c.species r, r)), c') ∧ c'.Inv S R ∧ c.Looked c'
  | [], c, h, _ => ⟨c, rfl, h, .refl c⟩
  | r :: l, c, h, hl => by
    obtain ⟨c1, e1, h1, L1⟩ := Clf.reactionKey_spec hI h (hl r List.mem_cons_self)
    obtain ⟨c2, e2, h2, L2⟩ := Clf.withKey_spec hI h1 (fun t ht => hl t (List.mem_cons_of_mem _ ht))
    refine ⟨c2, ?_, h2, L1.trans L2⟩
    unfold Clf.withKey
    rw [e1]
    simp only
    rw [e2, L1.species]
    rfl

/-- **C52.** Sorting the reactions succeeds, whatever is in the memo tables; it is a stable permutation into the
order of the positions of reactants and products among the species, and leaves the species alone. -/
theorem Clf.sortReactions_spec (hI : Ids S R) (h : c.Inv S R) :
    c.sortReactions.1 = .ok () ∧
    SortedBy (posKey c.species) (fun a b => keyLe a b = true) c.reactions c.sortReactions.2.reactions ∧
    c.sortReactions.2.species = c.species ∧ c.sortReactions.2.Inv S R := by
  obtain ⟨c', e, h', L⟩ := Clf.withKey_spec hI h (fun r hr => h.reactions.mem_iff.1 hr)
  have hs := mergeSort_sortedBy (le := keyLe) (posKey c.species) c.reactions keyLe_refl keyLe_trans keyLe_total
  unfold Clf.sortReactions
  rw [e]
  simp only [sortPairs_eq keyLe_trans keyLe_total]
  refine ⟨trivial, hs, L.species, h'.species, hs.perm.trans h.reactions, h'.idx, h'.cls, ?_, h'.names⟩
  intro p hp; cases hp

theorem Clf.sortSpecies_inv (h : c.Inv S R) : (c.sortSpecies F).2.Inv S R := by
  rcases sortSpecies_spec F c with ⟨-, -, hs, hr⟩ | ⟨-, -, he⟩
  · refine ⟨hs.perm.trans h.species, by rw [hr]; exact h.reactions, ?_, ?_, ?_, ?_⟩
    all_goals (revert hs hr; unfold Clf.sortSpecies; split)
    · intro _ _; exact h.idx
    · intro _ _ s _ n hn; cases hn
    · intro _ _; exact h.cls
    · intro _ _; exact h.cls
    · intro _ _; exact h.listing
    · intro _ _ p hp; cases hp
    · intro _ _; exact h.names
    · intro _ _; exact h.names
  · rw [he]; exact h

theorem Clf.classifyM_spec (hI : Ids S R) (h : c.Inv S R) {r : Reaction} (hr : r ∈ R) :
    (c.classifyM r).1 = classify r ∧ (c.classifyM r).2.Inv S R ∧
      (c.classifyM r).2.listing = c.listing ∧ (c.classifyM r).2.reactions = c.reactions ∧
      (c.classifyM r).2.species = c.species ∧ (c.classifyM r).2.names = c.names ∧
      (c.classifyM r).2.align = c.align := by
  unfold Clf.classifyM
  cases hc : c.cls.get? r.id with
  | some k => exact ⟨(h.cls r hr k hc).symm, h, rfl, rfl, rfl, rfl, rfl⟩
  | none =>
    simp only
    cases hk : classify r with
    | error e => exact ⟨rfl, h, rfl, rfl, rfl, rfl, rfl⟩
    | ok k =>
      refine ⟨rfl, ⟨h.species, h.reactions, h.idx, ?_, h.listing, h.names⟩, rfl, rfl, rfl, rfl, rfl⟩
      intro q hq k' hk'
      simp only [Dict.get?_set] at hk'
      split at hk'
      · rename_i he
        cases hk'
        rw [hI.reactions q hq r hr he.symm]; exact hk
      · exact h.cls q hq k' hk'

/-! ### the listing -/

/-- the types in the order of the scheme -/
def typs : List Typ := [.electron, .neutral, .positive, .negative, .ionIon, .three, .decay, .unclassified]

/-- the categories of a type in the order of the scheme -/
def catsOf (t : Typ) : List Cat := (Dict.get? scheme t).getD []

/-- the reactions `l` sorted into the classes of the scheme, with empty classes -/
def sections (l : List Reaction) : Listing :=
  typs.map fun t => (t, (catsOf t).map fun k => (k, l.filter (fun r => classify r = .ok (t, k))))

theorem scheme_eq : scheme = typs.map fun t => (t, catsOf t) := by decide

theorem catsOf_nodup (t : Typ) : (catsOf t).Nodup := by cases t <;> decide

theorem typs_nodup : typs.Nodup := by decide

theorem mem_typs (t : Typ) : t ∈ typs := by cases t <;> decide

theorem mem_catsOf {t : Typ} {cs : List Cat} (h : (t, cs) ∈ scheme) : cs = catsOf t := by
  rw [scheme_eq] at h
  obtain ⟨t', -, h⟩ := List.mem_map.1 h
  cases h; rfl

theorem emptyListing_eq : Clf.emptyListing = sections [] := by
  unfold Clf.emptyListing sections
  rw [scheme_eq, List.map_map]
  rfl

theorem get?_map {κ α : Type} [DecidableEq κ] (f : κ → α) : ∀ {ks : List κ} {k : κ}, k ∈ ks →
    Dict.get? (ks.map fun j => (j, f j)) k = some (f k)
  | [], _, h => by cases h
  | j :: ks, k, h => by
    rw [List.map_cons, Dict.get?_cons]
    by_cases e : j = k
    · rw [if_pos e, e]
    · rw [if_neg e]
      exact get?_map f (by simpa [Ne.symm e] using h)

theorem set_map {κ α : Type} [DecidableEq κ] {f g : κ → α} : ∀ {ks : List κ} {k : κ}, ks.Nodup → k ∈ ks →
    (∀ j, j ≠ k → f j = g j) →
    Dict.set (ks.map fun j => (j, f j)) k (g k) = ks.map fun j => (j, g j)
  | [], _, _, h, _ => by cases h
  | j :: ks, k, hn, h, hfg => by
    rw [List.map_cons, List.map_cons]
    unfold Dict.set
    by_cases e : j = k
    · rw [if_pos e, e]
      congr 1
      apply List.map_congr_left
      intro i hi
      rw [hfg i]
      rintro rfl
      rw [e] at hn
      exact (List.nodup_cons.1 hn).1 hi
    · rw [if_neg e, hfg j e, set_map (List.nodup_cons.1 hn).2 (by simpa [Ne.symm e] using h) hfg]

theorem append_sections (l : List Reaction) {r : Reaction} {k : Class} (h : classify r = .ok k) :
    Clf.append (sections l) k r = .ok (sections (l ++ [r])) := by
  obtain ⟨t, q⟩ := k
  obtain ⟨cs, hcs, hq⟩ := classify_in_scheme h
  rw [mem_catsOf hcs] at hq
  unfold Clf.append
  rw [sections, get?_map _ (mem_typs t)]
  simp only
  rw [get?_map _ hq]
  simp only [sections]
  congr 1
  have hq' : l.filter (fun p => classify p = .ok (t, q)) ++ [r] =
      (l ++ [r]).filter (fun p => classify p = .ok (t, q)) := by
    rw [List.filter_append]
    simp [h]
  rw [hq', set_map (f := fun k => l.filter (fun p => classify p = .ok (t, k)))
    (g := fun k => (l ++ [r]).filter (fun p => classify p = .ok (t, k))) (catsOf_nodup t) hq]
  · rw [set_map (f := fun t => (catsOf t).map fun k => (k, l.filter (fun p => classify p = .ok (t, k))))
      (g := fun t => (catsOf t).map fun k => (k, (l ++ [r]).filter (fun p => classify p = .ok (t, k))))
      typs_nodup (mem_typs t)]
    intro t' ht
    apply List.map_congr_left
    intro k _
    rw [List.filter_append]
    simp [h, Ne.symm ht]
  · intro k hk
    rw [List.filter_append]
    simp [h, Ne.symm hk]

theorem mem_sections {l : List Reaction} : ∀ p ∈ sections l, ∀ q ∈ p.2, ∀ r ∈ q.2, r ∈ l := by
  intro p hp q hq r hr
  obtain ⟨t, -, rfl⟩ := List.mem_map.1 hp
  obtain ⟨k, -, rfl⟩ := List.mem_map.1 hq
  exact (List.mem_filter.1 hr).1

theorem Clf.Inv.setListing (h : c.Inv S R) {L : Listing} (hL : ∀ p ∈ L, ∀ q ∈ p.2, ∀ r ∈ q.2, r ∈ R) :
    ({ c with listing := L } : Clf).Inv S R :=
  ⟨h.species, h.reactions, h.idx, h.cls, hL, h.names⟩

theorem Clf.fill_spec (hI : Ids S R) : ∀ {l l0 : List Reaction} {c : Clf}, c.Inv S R → (∀ r ∈ l, r ∈ R) →
    (∀ r ∈ l0, r ∈ R) → c.listing = sections l0 →
    (c.fill l).2.Inv S R ∧ (c.fill l).2.reactions = c.reactions ∧ (c.fill l).2.species = c.species ∧
    (c.fill l).2.names = c.names ∧ (c.fill l).2.align = c.align ∧
    (((∀ r ∈ l, ∃ k, classify r = .ok k) ∧ (c.fill l).1 = .ok () ∧ (c.fill l).2.listing = sections (l0 ++ l)) ∨
     ((∃ r ∈ l, ∃ e, classify r = .error e ∧ (c.fill l).1 = .error e)))
  | [], l0, c, h, _, _, hL => by
    refine ⟨h, rfl, rfl, rfl, rfl, .inl ⟨by simp, rfl, ?_⟩⟩
    rw [List.append_nil]; exact hL
  | r :: l, l0, c, h, hl, hl0, hL => by
    have hr := hl r List.mem_cons_self
    obtain ⟨e1, h1, L1, r1, s1, n1, a1⟩ := Clf.classifyM_spec hI h hr
    unfold Clf.fill
    cases hm : c.classifyM r with
    | mk x c1 =>
      rw [hm] at e1 h1 L1 r1 s1 n1 a1
      simp only at e1 h1 L1 r1 s1 n1 a1
      cases x with
      | error e =>
        exact ⟨h1, r1, s1, n1, a1, .inr ⟨r, List.mem_cons_self, e, e1.symm, rfl⟩⟩
      | ok k =>
        simp only
        rw [L1, hL, append_sections l0 e1.symm]
        simp only
        have hl0' : ∀ q ∈ l0 ++ [r], q ∈ R := by
          intro q hq
          rcases List.mem_append.1 hq with hq | hq
          · exact hl0 q hq
          · rw [List.mem_singleton.1 hq]; exact hr
        have h2 := h1.setListing (L := sections (l0 ++ [r]))
          (fun p hp q hq r' hr' => hl0' r' (mem_sections p hp q hq r' hr'))
        obtain ⟨h3, r3, s3, n3, a3, hor⟩ :=
          Clf.fill_spec hI h2 (fun t ht => hl t (List.mem_cons_of_mem _ ht)) hl0' rfl
        refine ⟨h3, r3.trans r1, s3.trans s1, n3.trans n1, a3.trans a1, ?_⟩
        rcases hor with ⟨a, b, d⟩ | ⟨q, hq, e, he, he'⟩
        · refine .inl ⟨?_, b, by rw [d]; simp⟩
          intro q hq
          rcases List.mem_cons.1 hq with rfl | hq
          · exact ⟨k, e1.symm⟩
          · exact a q hq
        · exact .inr ⟨q, List.mem_cons_of_mem _ hq, e, he, he'⟩

theorem mem_prune {L : Listing} {t : Typ} {d : List (Cat × List Reaction)} :
    (t, d) ∈ Clf.prune L ↔ ∃ d', (t, d') ∈ L ∧ d = d'.filter (fun q => decide (q.2 ≠ [])) ∧ d ≠ [] := by
  unfold Clf.prune
  rw [List.mem_filter, List.mem_map]
  constructor
  · rintro ⟨⟨⟨t', d'⟩, hm, he⟩, hd⟩
    cases he
    exact ⟨d', hm, rfl, by simpa using hd⟩
  · rintro ⟨d', hm, rfl, hd⟩
    exact ⟨⟨(t, d'), hm, rfl⟩, by simpa using hd⟩

theorem Clf.getClassified_spec (hI : Ids S R) (h : c.Inv S R) :
    c.getClassified.2.Inv S R ∧ c.getClassified.2.reactions = c.reactions ∧
    c.getClassified.2.species = c.species ∧ c.getClassified.2.names = c.names ∧
    c.getClassified.2.align = c.align ∧
    (((∀ r ∈ R, ∃ k, classify r = .ok k) ∧ c.getClassified.1 = .ok (prune (sections c.reactions)) ∧
        c.getClassified.2.listing = prune (sections c.reactions)) ∨
     (∃ r ∈ R, ∃ e, classify r = .error e ∧ c.getClassified.1 = .error e)) := by
  have hR : ∀ r ∈ c.reactions, r ∈ R := fun r hr => h.reactions.mem_iff.1 hr
  have h0 := h.setListing (L := emptyListing) (by
    rw [emptyListing_eq]
    intro p hp q hq r hr
    cases mem_sections p hp q hq r hr)
  obtain ⟨h1, r1, s1, n1, a1, hor⟩ := Clf.fill_spec hI (l0 := []) h0 hR (by simp) emptyListing_eq
  unfold Clf.getClassified
  cases hf : ({ c with listing := emptyListing } : Clf).fill c.reactions with
  | mk x c1 =>
    rw [hf] at h1 r1 s1 n1 a1 hor
    cases x with
    | error e =>
      refine ⟨h1, r1, s1, n1, a1, .inr ?_⟩
      rcases hor with ⟨-, b, -⟩ | ⟨r, hr, e', he, he'⟩
      · cases b
      · cases he'
        exact ⟨r, hR r hr, e, he, rfl⟩
    | ok u =>
      rcases hor with ⟨a, -, d⟩ | ⟨r, hr, e', he, he'⟩
      · simp only [List.nil_append] at d
        refine ⟨h1.setListing ?_, r1, s1, n1, a1, .inl ⟨?_, ?_, ?_⟩⟩
        · rw [d]
          rintro ⟨t, dd⟩ hp q hq r hr
          obtain ⟨d', hm, rfl, -⟩ := mem_prune.1 hp
          exact hR r (mem_sections _ hm q (List.mem_filter.1 hq).1 r hr)
        · exact fun r hr => a r (h.reactions.mem_iff.2 hr)
        · simp only [d]
        · simp only [d]
      · cases he'

end Verif.Plaschem.Classify
