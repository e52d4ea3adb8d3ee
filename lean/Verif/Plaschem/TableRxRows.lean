/-
C89: the rows of the table of reactions: their order, the headings above them and the strings in the first column.
-/
import Verif.Plaschem.TableRx
import Verif.Plaschem.ClassifierHist

namespace Verif.Plaschem.TableRx
open Verif.Plaschem Classify

/-! ### specification -/

/-- a text without the spaces at its end -/
def rstrip (s : Str) : Str := (s.reverse.dropWhile (· = ' ')).reverse

/-- Reading the first column from the top: for every reaction its id and the headings of type and category that were
read last, where a heading of a type ends the category before. -/
def headings (t : Str) (k : Option Str) : List Lined → List (Nat × Str × Option Str)
  | [] => []
  | (.typ _, s) :: l => headings (rstrip s) none l
  | (.cat _ _, s) :: l => headings t (some (rstrip s)) l
  | (.rx i, _) :: l => (i, t, k) :: headings t k l

/-- The titles of a class. Types that are not divided have no title of a category. -/
def titles (k : Class) : Str × Option Str := (k.1.label, if k.2 = .noCat then none else some k.2.label)

/-- the order of the reactions: as in the chemistry, or sorted by the positions of their species in the sorted list of
species -/
def Ordered (A : Str → Option (Dict Str Nat)) (sort : Bool) (S : List RP) (R R' : List Reaction) : Prop :=
  if sort then ∃ S', SortedBy (keyOf A) (· ≤ ·) S S' ∧ SortedBy (posKey S') (fun a b => keyLe a b = true) R R'
  else R' = R

/-- the headings of types, with their numbers -/
def typeHeads (l : List Lined) : List (Nat × Str) := l.filterMap fun p => match p.1 with
  | .typ i => some (i, rstrip p.2)
  | _ => none

/-- the headings of categories, with their numbers -/
def catHeads (l : List Lined) : List (Nat × Nat × Str) := l.filterMap fun p => match p.1 with
  | .cat i j => some (i, j, rstrip p.2)
  | _ => none

variable {A : Str → Option (Dict Str Nat)} {S : List RP} {R : List Reaction} {sort cl : Bool} {lines : List Lined}

/-! ### titles -/

theorem rstrip_append_spaces (s : Str) (n : Nat) : rstrip (s ++ List.replicate n ' ') = rstrip s := by
  unfold rstrip
  congr 1
  rw [List.reverse_append, List.reverse_replicate]
  induction n with
  | zero => rfl
  | succ n ih => rw [List.replicate_succ, List.cons_append, List.dropWhile_cons_of_pos (by simp)]; exact ih

theorem rstrip_pad (s : Str) (w : Nat) : rstrip (Clf.pad s w) = rstrip s := rstrip_append_spaces _ _

theorem rstrip_typ (t : Typ) : rstrip t.label = t.label := by cases t <;> rfl
theorem rstrip_cat (k : Cat) : rstrip k.label = k.label := by cases k <;> rfl

/-- **C89.** A heading tells the type or the category: no two have the same text. -/
theorem headings_tell : (∀ k k' : Cat, k.label = k'.label → k = k') ∧ ∀ t t' : Typ, t.label = t'.label → t = t' :=
  ⟨fun k k' h => by cases k <;> cases k' <;> first | rfl | exact absurd h (by decide),
    fun t t' h => by cases t <;> cases t' <;> first | rfl | exact absurd h (by decide)⟩

/-! ### the layout -/

/-- undivided, or divided into categories with a title -/
def Plain (d : List (Cat × List Reaction)) : Prop := (∃ rs, d = [(.noCat, rs)]) ∨ ∀ p ∈ d, p.1 ≠ .noCat

theorem plain_of_listing {L : Listing} (h : IsListing R L) {t : Typ} {d : List (Cat × List Reaction)}
    (hd : (t, d) ∈ L) : Plain d := by
  obtain ⟨cs, hcs, hsub⟩ := h.cats t d hd
  obtain ⟨hne, -⟩ := h.nonempty t d hd
  have : cs = [.noCat] ∨ ∀ k ∈ cs, k ≠ .noCat := (by decide : ∀ p ∈ scheme, p.2 = [.noCat] ∨ ∀ k ∈ p.2, k ≠ .noCat) _ hcs
  rcases this with rfl | this
  · left
    cases d with
    | nil => exact absurd rfl hne
    | cons p d =>
      obtain ⟨k, rs⟩ := p
      have hl := hsub.length_le
      simp only [List.map_cons, List.length_cons, List.length_nil, List.length_map] at hl
      have : d = [] := List.length_eq_zero_iff.1 (by omega)
      subst this
      have := hsub.subset (List.mem_cons_self (a := k))
      simp only [List.mem_singleton] at this
      subst this
      exact ⟨rs, rfl⟩
  · right
    intro p hp
    exact this _ (hsub.subset (List.mem_map_of_mem hp))

variable {strs : Dict Nat Str} {w : Nat}

theorem headings_rx (t : Str) (k : Option Str) (rs : List Reaction) (l : List Lined) :
    headings t k ((rs.map fun r => firstColumn strs w (.rx r.id, none)) ++ l) =
      rs.map (fun r => (r.id, t, k)) ++ headings t k l := by
  induction rs with
  | nil => rfl
  | cons r rs ih => simp only [List.map_cons, List.cons_append, firstColumn, headings]; rw [← ih]; rfl

theorem headings_catRows (t : Str) (i : Nat) : ∀ (d : List (Cat × List Reaction)) (j : Nat) (k : Option Str)
    (l : List Lined), (∀ p ∈ d, p.1 ≠ .noCat) → (∀ t k, headings t k l = headings [] none l) →
    headings t k ((catRows i j d).map (firstColumn strs w) ++ l) =
      (d.flatMap fun p => p.2.map fun r => (r.id, t, some p.1.label)) ++ headings [] none l
  | [], j, k, l, _, hl => by simp [catRows, hl t k]
  | (c, rs) :: d, j, k, l, h, hl => by
    have hc : c ≠ .noCat := h (c, rs) List.mem_cons_self
    rw [catRows, if_neg hc]
    simp only [List.map_append, List.map_cons, List.map_nil, List.map_map, List.append_assoc, List.cons_append,
      List.nil_append, firstColumn, headings, List.flatMap_cons]
    have := headings_rx (strs := strs) (w := w) t (some (rstrip (Clf.pad c.label w))) rs
      ((catRows i (j + 1) d).map (firstColumn strs w) ++ l)
    rw [show (fun r : Reaction => firstColumn strs w (.rx r.id, none)) =
      (firstColumn strs w ∘ fun r : Reaction => (.rx r.id, none)) from rfl] at this
    rw [this, headings_catRows t i d (j + 1) _ l (fun p hp => h p (List.mem_cons_of_mem _ hp)) hl, rstrip_pad, rstrip_cat]

theorem headings_layout : ∀ (L : Listing) (i : Nat) (t : Str) (k : Option Str), (∀ p ∈ L, Plain p.2) →
    headings t k ((layout i L).map (firstColumn strs w)) =
      L.flatMap fun p => p.2.flatMap fun q => q.2.map fun r => (r.id, titles (p.1, q.1))
  | [], i, t, k, _ => rfl
  | (ty, d) :: L, i, t, k, h => by
    have ih := fun t k => headings_layout L (i + 1) t k (fun p hp => h p (List.mem_cons_of_mem _ hp))
    rw [layout, List.cons_append, List.map_cons, List.map_append]
    simp only [firstColumn, headings, List.flatMap_cons]
    rw [rstrip_typ, ← ih [] none]
    rcases h (ty, d) List.mem_cons_self with ⟨rs, hrs⟩ | hp
    · have hrs : d = [(.noCat, rs)] := hrs
      subst hrs
      simp only [catRows, if_true, List.nil_append, List.append_nil, List.map_map, List.flatMap_cons, List.flatMap_nil]
      have := headings_rx (strs := strs) (w := w) ty.label none rs ((layout (i + 1) L).map (firstColumn strs w))
      rw [show (fun r : Reaction => firstColumn strs w (.rx r.id, none)) =
        (firstColumn strs w ∘ fun r : Reaction => (.rx r.id, none)) from rfl] at this
      rw [this, ih, ih]
      rfl
    · replace hp : ∀ p ∈ d, p.1 ≠ .noCat := hp
      rw [headings_catRows ty.label i d 1 none _ hp (fun t k => by rw [ih, ih])]
      congr 1
      clear h ih
      induction d with
      | nil => rfl
      | cons p d ihd =>
        simp only [List.flatMap_cons]
        rw [ihd fun q hq => hp q (List.mem_cons_of_mem _ hq)]
        congr 1
        simp [titles, hp p List.mem_cons_self]

/-! ### the classifier -/

/-- the calls before the listing -/
def preps (sort : Bool) : List Clf.Op := if sort then [.sortSpecies, .sortReactions] else []

theorem preps_prepares : ∀ op ∈ preps sort, op.Prepares := by
  intro op h
  unfold preps at h
  split at h
  · simp only [List.mem_cons, List.not_mem_nil, or_false] at h
    rcases h with rfl | rfl <;> trivial
  · cases h

theorem prepare_spec (hI : Ids S R) {c : Clf} (h : prepare A sort S R = (.ok (), c)) :
    c = (Clf.new S R).run A (preps sort) ∧ Ordered A sort S R c.reactions := by
  unfold prepare at h
  unfold preps Ordered
  cases sort with
  | false =>
    simp only [Bool.false_eq_true, if_false] at h ⊢
    cases h
    exact ⟨rfl, rfl⟩
  | true =>
    simp only [if_true] at h ⊢
    have hs := sortSpecies_spec A (Clf.new S R)
    have hinv := Clf.sortSpecies_inv (F := A) (Clf.inv_new S R)
    cases e : (Clf.new S R).sortSpecies A with
    | mk x c1 =>
      rw [e] at h hs hinv
      cases x with
      | error e => cases h
      | ok u =>
        cases u
        simp only at h hs hinv
        rcases hs with ⟨-, -, hs, hr⟩ | ⟨⟨e, he⟩, -⟩
        · obtain ⟨-, h2, -, -⟩ := Clf.sortReactions_spec hI hinv
          have : c = c1.sortReactions.2 := by rw [h]
          refine ⟨?_, c1.species, hs, ?_⟩
          · rw [this]
            simp [Clf.run, Clf.apply, e]
          · rw [this]
            rw [hr] at h2
            exact h2
        · cases he

theorem prepare_total (hI : Ids S R) :
    (∃ c, prepare A sort S R = (.ok (), c)) ↔ (sort = true → ∀ s ∈ S, ∃ v, speciesKey A s = .ok v) := by
  unfold prepare
  cases sort with
  | false => simp
  | true =>
    simp only [if_true, forall_const]
    have hs := sortSpecies_spec A (Clf.new S R)
    have hinv := Clf.sortSpecies_inv (F := A) (Clf.inv_new S R)
    cases e : (Clf.new S R).sortSpecies A with
    | mk x c1 =>
      rw [e] at hs hinv
      cases x with
      | error e =>
        rcases hs with ⟨he, -⟩ | ⟨-, ⟨s, hs, e', he⟩, -⟩
        · cases he
        · constructor
          · rintro ⟨c, hc⟩
            cases hc
          · intro hall
            obtain ⟨v, hv⟩ := hall s hs
            rw [he] at hv
            cases hv
      | ok u =>
        cases u
        rcases hs with ⟨-, hall, -⟩ | ⟨⟨e', he⟩, -⟩
        · refine ⟨fun _ => hall, fun _ => ⟨c1.sortReactions.2, ?_⟩⟩
          have : c1.sortReactions.1 = .ok () := (Clf.sortReactions_spec hI hinv).1
          show c1.sortReactions = _
          rw [← this]
        · cases he

theorem run_single (c : Clf) (op : Clf.Op) (ops : List Clf.Op) : c.run A (op :: ops) = (c.apply A op).run A ops := rfl

/-- the strings made one after the other -/
theorem alignAll_spec : ∀ {l : List Reaction} {c c' : Clf} {w w' : Nat} {d : Dict Nat Str},
    alignAll c w l = (.ok (d, w'), c') →
    d.keys = l.map Reaction.id ∧ w ≤ w' ∧
    ∀ l1 r l2, l = l1 ++ r :: l2 → ∃ s m, ((c.run A (l1.map .aligned)).aligned r).1 = .ok s ∧
      (r.id, Clf.pad s m) ∈ d ∧ (Clf.pad s m).length ≤ w'
  | [], c, c', w, w', d, h => by
    cases h
    refine ⟨rfl, le_refl _, fun l1 r l2 e => ?_⟩
    simp at e
  | q :: l, c, c', w, w', d, h => by
    unfold alignAll at h
    cases e : c.aligned q with
    | mk x c1 =>
      rw [e] at h
      cases x with
      | error e => cases h
      | ok s =>
        simp only at h
        cases e2 : alignAll c1 (if w < s.length then s.length else w) l with
        | mk x c2 =>
          rw [e2] at h
          cases x with
          | error e => cases h
          | ok p =>
            obtain ⟨d2, w2⟩ := p
            cases h
            obtain ⟨h1, h2, h3⟩ := alignAll_spec e2
            have hw : w ≤ w' ∧ s.length ≤ w' := by
              split at h2 <;> omega
            refine ⟨by simpa [Dict.keys] using h1, hw.1, fun l1 r l2 el => ?_⟩
            cases l1 with
            | nil =>
              simp only [List.nil_append, List.cons.injEq] at el
              obtain ⟨rfl, rfl⟩ := el
              refine ⟨s, w, by simp [Clf.run, e], List.mem_cons_self, ?_⟩
              simp only [Clf.pad, List.length_append, List.length_replicate]
              omega
            | cons q' l1 =>
              simp only [List.cons_append, List.cons.injEq] at el
              obtain ⟨rfl, rfl⟩ := el
              obtain ⟨s', m, hs, hm, hl⟩ := h3 l1 r l2 rfl
              refine ⟨s', m, ?_, List.mem_cons_of_mem _ hm, hl⟩
              rw [List.map_cons, run_single]
              simp only [Clf.apply, e]
              exact hs

theorem alignAll_total : ∀ {l : List Reaction} {c : Clf} {w : Nat},
    (∀ l1 r l2, l = l1 ++ r :: l2 → ∃ s, ((c.run A (l1.map .aligned)).aligned r).1 = .ok s) →
    ∃ p c', alignAll c w l = (.ok p, c')
  | [], c, w, _ => ⟨_, _, rfl⟩
  | q :: l, c, w, h => by
    unfold alignAll
    obtain ⟨s, hs⟩ := h [] q l rfl
    simp only [List.map_nil, Clf.run, List.foldl_nil] at hs
    cases e : c.aligned q with
    | mk x c1 =>
      rw [e] at hs
      cases hs
      simp only
      obtain ⟨p, c', hp⟩ := alignAll_total (l := l) (c := c1) (w := if w < s.length then s.length else w)
        fun l1 r l2 el => by
          obtain ⟨s', hs'⟩ := h (q :: l1) r l2 (by rw [el]; rfl)
          refine ⟨s', ?_⟩
          rw [List.map_cons, run_single] at hs'
          simpa only [Clf.apply, e] using hs'
      rw [hp]
      exact ⟨_, _, rfl⟩

/-- what is behind a table with headings -/
theorem sheet_inv (hI : Ids S R) (h : sheet A sort true S R = .ok lines) :
    ∃ R' L strs w, Ordered A sort S R R' ∧ IsListing R' L ∧ (∀ r ∈ R, ∃ k, classify r = .ok k) ∧
      lines = (layout 1 L).map (firstColumn strs w) ∧ R'.Perm R ∧
      strs.keys = R.map Reaction.id ∧ headWidth L ≤ w ∧
      ∀ l1 r l2, R = l1 ++ r :: l2 → ∃ s m,
        (((Clf.new S R).run A (preps sort ++ .getClassified :: l1.map .aligned)).aligned r).1 = .ok s ∧
        (r.id, Clf.pad s m) ∈ strs ∧ (Clf.pad s m).length ≤ w := by
  unfold sheet at h
  simp only [Bool.or_true, if_true] at h
  cases hp : prepare A sort S R with
  | mk x c =>
    rw [hp] at h
    cases x with
    | error e => cases h
    | ok u =>
      cases u
      obtain ⟨hrun, hord⟩ := prepare_spec hI hp
      simp only at h
      cases hg : c.getClassified with
      | mk x c1 =>
        rw [hg] at h
        cases x with
        | error e => cases h
        | ok L =>
          simp only at h
          cases ha : alignAll c1 (headWidth L) R with
          | mk x c2 =>
            rw [ha] at h
            cases x with
            | error e => cases h
            | ok p =>
              obtain ⟨strs, w⟩ := p
              cases h
              have hon : ∀ op ∈ preps sort, op.On R := by
                intro op ho
                have := preps_prepares op ho
                cases op <;> trivial
              obtain ⟨g1, g2, -⟩ := listing_of_history (F := A) hI hon
              rw [← hrun, hg] at g1 g2
              obtain ⟨i1, -⟩ := g2 L rfl
              obtain ⟨a1, a2, a3⟩ := alignAll_spec (A := A) ha
              refine ⟨c.reactions, L, strs, w, hord, i1, g1.1 ⟨L, rfl⟩, rfl, ?_, a1, a2, ?_⟩
              · have := (Clf.run_inv (F := A) hI (Clf.inv_new S R) hon).reactions
                rw [← hrun] at this
                exact this
              · intro l1 r l2 el
                obtain ⟨s, m, h1, h2, h3⟩ := a3 l1 r l2 el
                refine ⟨s, m, ?_, h2, h3⟩
                rw [Clf.run_append, ← hrun, run_single]
                simpa only [Clf.apply, hg] using h1

/-! ### C89 -/

/-- C89: without headings there is one row for each reaction, with its equation, in the order asked for. -/
theorem rows_plain (hI : Ids S R) (h : sheet A sort false S R = .ok lines) :
    ∃ R', Ordered A sort S R R' ∧ lines = R'.map fun r => (.rx r.id, r.toStr) := by
  unfold sheet at h
  cases sort with
  | false =>
    cases h
    exact ⟨R, by simp [Ordered], rfl⟩
  | true =>
    simp only [Bool.or_false, if_true, Bool.false_eq_true, if_false] at h
    cases hp : prepare A true S R with
    | mk x c =>
      rw [hp] at h
      cases x with
      | error e => cases h
      | ok u =>
        cases u
        cases h
        exact ⟨c.reactions, (prepare_spec hI hp).2, rfl⟩

/-- C89: with headings, reading the first column from the top, every reaction selected is found exactly once, under
the heading of its type and of its category; the reactions of one class stand together in the order asked for, and
the types and categories are numbered and come in the order of the scheme, each once and none without reactions. -/
theorem rows_under_headings (hI : Ids S R) (h : sheet A sort true S R = .ok lines) :
    ∃ R' L, Ordered A sort S R R' ∧ IsListing R' L ∧
      List.Forall₂ (fun x r => x.1 = r.id ∧ ∃ k, classify r = .ok k ∧ x.2 = titles k) (headings [] none lines) L.flat ∧
      typeHeads lines = (L.zipIdx 1).map (fun p => (p.2, p.1.1.label)) ∧
      catHeads lines = (L.zipIdx 1).flatMap (fun p => (p.1.2.zipIdx 1).filterMap fun q =>
        if q.1.1 = .noCat then none else some (p.2, q.2, q.1.1.label)) := by
  obtain ⟨R', L, strs, w, hord, hL, -, rfl, -, -, -, -⟩ := sheet_inv hI h
  refine ⟨R', L, hord, hL, ?_, ?_, ?_⟩
  · rw [headings_layout L 1 [] none fun p hp => plain_of_listing hL (t := p.1) hp]
    unfold Listing.flat
    have hm := hL.members
    clear hord hL h
    induction L with
    | nil => exact .nil
    | cons p L ih =>
      simp only [List.flatMap_cons]
      refine List.rel_append ?_ (ih fun t d hd => hm t d (List.mem_cons_of_mem _ hd))
      have hp := hm p.1 p.2 List.mem_cons_self
      obtain ⟨t, d⟩ := p
      simp only at hp ⊢
      clear ih hm
      induction d with
      | nil => exact .nil
      | cons q d ihd =>
        simp only [List.flatMap_cons]
        refine List.rel_append ?_ (ihd fun k rs hk => hp k rs (List.mem_cons_of_mem _ hk))
        have hq := hp q.1 q.2 List.mem_cons_self
        rw [List.forall₂_map_left_iff, List.forall₂_same]
        intro r hr
        rw [hq] at hr
        refine ⟨rfl, (t, q.1), ?_, rfl⟩
        simpa using (List.mem_filter.1 hr).2
  · have key : ∀ (L : Listing) (i : Nat), typeHeads ((layout i L).map (firstColumn strs w)) =
        (L.zipIdx i).map fun p => (p.2, p.1.1.label) := by
      have kc : ∀ (d : List (Cat × List Reaction)) (i j : Nat), typeHeads ((catRows i j d).map (firstColumn strs w)) = [] := by
        intro d i
        induction d with
        | nil => intro j; rfl
        | cons p d ih =>
          intro j
          rw [catRows]
          unfold typeHeads at ih ⊢
          rw [List.map_append, List.map_append, List.filterMap_append, List.filterMap_append, ih]
          simp only [List.append_nil, List.append_eq_nil_iff]
          constructor
          · split <;> simp [firstColumn]
          · simp [firstColumn]
      intro L
      induction L with
      | nil => intro i; rfl
      | cons p L ih =>
        intro i
        have h1 := ih (i + 1)
        have h2 := kc p.2 i 1
        unfold typeHeads at h1 h2 ⊢
        rw [layout, List.cons_append, List.map_cons, List.map_append, List.filterMap_cons, List.filterMap_append, h1, h2]
        simp [firstColumn, rstrip_typ, List.zipIdx_cons]
    exact key L 1
  · have kc : ∀ (d : List (Cat × List Reaction)) (i j : Nat), catHeads ((catRows i j d).map (firstColumn strs w)) =
        (d.zipIdx j).filterMap fun q => if q.1.1 = .noCat then none else some (i, q.2, q.1.1.label) := by
      intro d i
      induction d with
      | nil => intro j; rfl
      | cons p d ih =>
        intro j
        have h1 := ih (j + 1)
        rw [catRows]
        unfold catHeads at h1 ⊢
        rw [List.map_append, List.map_append, List.filterMap_append, List.filterMap_append, h1, List.zipIdx_cons,
          List.filterMap_cons]
        have h3 : ((p.2.map fun r => ((Label.rx r.id, none) : Label × Option (Cat ⊕ Typ))).map
            (firstColumn strs w)).filterMap (fun p => match p.1 with
              | .cat i j => some (i, j, rstrip p.2)
              | _ => none) = [] := by
          simp [firstColumn]
        rw [h3]
        by_cases hk : p.1 = .noCat
        · simp [hk]
        · simp [hk, firstColumn, rstrip_pad, rstrip_cat]
    have key : ∀ (L : Listing) (i : Nat), catHeads ((layout i L).map (firstColumn strs w)) =
        (L.zipIdx i).flatMap (fun p => (p.1.2.zipIdx 1).filterMap fun q =>
          if q.1.1 = .noCat then none else some (p.2, q.2, q.1.1.label)) := by
      intro L
      induction L with
      | nil => intro i; rfl
      | cons p L ih =>
        intro i
        have h1 := ih (i + 1)
        have h2 := kc p.2 i 1
        unfold catHeads at h1 h2 ⊢
        rw [layout, List.cons_append, List.map_cons, List.map_append, List.filterMap_cons, List.filterMap_append, h1, h2,
          List.zipIdx_cons, List.flatMap_cons]
        simp [firstColumn]
    exact key L 1

theorem mem_layout {L : Listing} {r : Reaction} (h : r ∈ L.flat) (i : Nat) :
    (.rx r.id, none) ∈ layout i L := by
  have kc : ∀ (d : List (Cat × List Reaction)) (i j : Nat), (∃ q ∈ d, r ∈ q.2) → (.rx r.id, none) ∈ catRows i j d := by
    intro d i
    induction d with
    | nil => rintro j ⟨q, hq, -⟩; cases hq
    | cons p d ih =>
      rintro j ⟨q, hq, hr⟩
      rw [catRows, List.mem_append, List.mem_append]
      rcases List.mem_cons.1 hq with rfl | hq
      · exact .inl (.inr (List.mem_map.2 ⟨r, hr, rfl⟩))
      · exact .inr (ih _ ⟨q, hq, hr⟩)
  induction L generalizing i with
  | nil => cases h
  | cons p L ih =>
    rw [layout, List.cons_append, List.mem_cons, List.mem_append]
    unfold Listing.flat at h
    rw [List.flatMap_cons, List.mem_append] at h
    rcases h with h | h
    · obtain ⟨q, hq, hr⟩ := List.mem_flatMap.1 h
      exact .inr (.inl (kc _ _ _ ⟨q, hq, hr⟩))
    · exact .inr (.inr (ih h _))

/-- C89: with headings, the strings of two reactions of one class show the names of their species in the same columns,
one below the other. Spaces may follow. -/
theorem strings_aligned (hI : Ids S R) (hn : (R.map Reaction.id).Nodup) (h : sheet A sort true S R = .ok lines)
    {r q : Reaction} (hr : r ∈ R) (hq : q ∈ R) (hc : classify r = classify q) :
    ∃ left right len s t ns ps ms ls m n,
      (Label.rx r.id, s ++ List.replicate m ' ') ∈ lines ∧ (Label.rx q.id, t ++ List.replicate n ' ') ∈ lines ∧
      LaidOut left right len s ns ps ∧ LaidOut left right len t ms ls ∧
      ns.Perm (r.reactants.map RP.name) ∧ ps.Perm (r.products.map RP.name) ∧
      ms.Perm (q.reactants.map RP.name) ∧ ls.Perm (q.products.map RP.name) := by
  obtain ⟨R', L, strs, w, hord, hL, hall, rfl, hperm, hkeys, -, hstr⟩ := sheet_inv hI h
  have hline : ∀ r ∈ R, ∀ s m, (r.id, Clf.pad s m) ∈ strs →
      (Label.rx r.id, s ++ List.replicate (m - s.length) ' ') ∈ (layout 1 L).map (firstColumn strs w) := by
    intro r hr s m hs
    have hd : (Dict.keys strs).Nodup := hkeys ▸ hn
    refine List.mem_map.2 ⟨(.rx r.id, none), mem_layout (hL.complete.mem_iff.2 (hperm.mem_iff.2 hr)) 1, ?_⟩
    simp only [firstColumn]
    rw [Dict.get?_of_mem hd hs]
    rfl
  have hpre := preps_prepares (sort := sort)
  have hpre' : ∀ op ∈ preps sort ++ [.getClassified], op.Prepares := by
    intro op ho
    rcases List.mem_append.1 ho with ho | ho
    · exact hpre op ho
    · simp only [List.mem_singleton] at ho
      subst ho
      trivial
  have hprint : ∀ l : List Reaction, (∀ x ∈ l, x ∈ R) → ∀ op ∈ l.map Clf.Op.aligned, op.On R ∧ op.Prints := by
    intro l hl op ho
    obtain ⟨x, hx, rfl⟩ := List.mem_map.1 ho
    exact ⟨hl x hx, trivial⟩
  have heq : ∀ l : List Reaction, preps sort ++ .getClassified :: l.map .aligned =
      (preps sort ++ [.getClassified]) ++ l.map .aligned := by simp
  -- the case of `r` before `q`
  have main : ∀ r q l1 l2 l3, R = l1 ++ r :: l2 ++ q :: l3 → classify r = classify q →
      ∃ left right len s t ns ps ms ls m n,
      (Label.rx r.id, s ++ List.replicate m ' ') ∈ (layout 1 L).map (firstColumn strs w) ∧
      (Label.rx q.id, t ++ List.replicate n ' ') ∈ (layout 1 L).map (firstColumn strs w) ∧
      LaidOut left right len s ns ps ∧ LaidOut left right len t ms ls ∧
      ns.Perm (r.reactants.map RP.name) ∧ ps.Perm (r.products.map RP.name) ∧
      ms.Perm (q.reactants.map RP.name) ∧ ls.Perm (q.products.map RP.name) := by
    intro r q l1 l2 l3 el hc
    have hr : r ∈ R := by rw [el]; simp
    have hq : q ∈ R := by rw [el]; simp
    obtain ⟨s, m, hs, hsm, -⟩ := hstr l1 r (l2 ++ q :: l3) (by rw [el]; simp)
    obtain ⟨t, n, ht, htm, -⟩ := hstr (l1 ++ r :: l2) q l3 el
    rw [heq] at hs ht
    have e2 : preps sort ++ [Clf.Op.getClassified] ++ (l1 ++ r :: l2).map .aligned =
        preps sort ++ [.getClassified] ++ l1.map .aligned ++ [.aligned r] ++ l2.map .aligned := by simp
    rw [e2] at ht
    obtain ⟨left, right, len, ns, ps, ms, ls, hlay⟩ := strings_line_up (F := A) hI hall hpre'
      (hprint l1 fun x hx => by rw [el]; simp [hx]) (hprint l2 fun x hx => by rw [el]; simp [hx]) hr hq hc hs ht
    exact ⟨left, right, len, s, t, ns, ps, ms, ls, _, _, hline r hr s m hsm, hline q hq t n htm, hlay⟩
  by_cases e : r = q
  · subst e
    obtain ⟨l1, l2, el⟩ := List.append_of_mem hr
    obtain ⟨s, m, hs, hsm, -⟩ := hstr l1 r l2 el
    rw [heq] at hs
    have i0 := Clf.run_prepares (F := A) hI hall (Clf.inv_new S R) rfl (.inl rfl) hpre'
    obtain ⟨i1, li1, -, -⟩ := Clf.run_prints (F := A) hI hall i0.1 i0.2
      (hprint l1 fun x hx => by rw [el]; simp [hx])
    rw [← Clf.run_append] at i1 li1
    have c1 := Clf.aligned_spec hI i1 hr
    obtain ⟨k, ws, v, hk, hws, hv, rfl⟩ := c1.result s hs
    obtain ⟨v1, hv1, f1, f1'⟩ := (c1.laid li1).fits k ws hws r hr hk
    rw [hv] at hv1; cases hv1
    obtain ⟨p1, p2⟩ := c1.inv.names r hr v hv
    exact ⟨_, _, _, _, _, _, _, _, _, _, _, hline r hr _ m hsm, hline r hr _ m hsm, render_laidOut f1 f1',
      render_laidOut f1 f1', p1, p2, p1, p2⟩
  · obtain ⟨l1, l2, el⟩ := List.append_of_mem hr
    rw [el, List.mem_append, List.mem_cons] at hq
    rcases hq with hq | hq | hq
    · obtain ⟨k1, k2, ek⟩ := List.append_of_mem hq
      obtain ⟨left, right, len, s, t, ns, ps, ms, ls, m, n, h1, h2, h3, h4, h5, h6, h7, h8⟩ :=
        main q r k1 k2 l2 (by rw [el, ek]) hc.symm
      exact ⟨left, right, len, t, s, ms, ls, ns, ps, n, m, h2, h1, h4, h3, h7, h8, h5, h6⟩
    · exact absurd hq.symm e
    · obtain ⟨k1, k2, ek⟩ := List.append_of_mem hq
      exact main r q l1 k1 k2 (by rw [el, ek]; simp) hc

/-- C89: the headings of categories reach over the whole first column: no string of a reaction is longer. -/
theorem headings_wide (hI : Ids S R) (hn : (R.map Reaction.id).Nodup) (h : sheet A sort true S R = .ok lines)
    {i j k : Nat} {s t : Str} (hs : (Label.cat i j, s) ∈ lines) (ht : (Label.rx k, t) ∈ lines) :
    t.length ≤ s.length := by
  obtain ⟨R', L, strs, w, -, -, -, rfl, -, hkeys, -, hstr⟩ := sheet_inv hI h
  have h1 : w ≤ s.length := by
    obtain ⟨⟨l, o⟩, hp, e⟩ := List.mem_map.1 hs
    have hsh : ∀ (L : Listing) (a : Nat), ∀ p ∈ layout a L, ∀ i j, p.1 = Label.cat i j → ∃ k, p.2 = some (.inl k) := by
      have kc : ∀ (d : List (Cat × List Reaction)) (a b : Nat), ∀ p ∈ catRows a b d, ∀ i j, p.1 = Label.cat i j →
          ∃ k, p.2 = some (.inl k) := by
        intro d a
        induction d with
        | nil => intro b p hp; cases hp
        | cons q d ih =>
          intro b p hp i j e
          rw [catRows, List.mem_append, List.mem_append] at hp
          rcases hp with (hp | hp) | hp
          · split at hp
            · cases hp
            · simp only [List.mem_singleton] at hp
              subst hp
              exact ⟨_, rfl⟩
          · obtain ⟨r, -, rfl⟩ := List.mem_map.1 hp
            cases e
          · exact ih _ p hp i j e
      intro L
      induction L with
      | nil => intro a p hp; cases hp
      | cons q L ih =>
        intro a p hp i j e
        rw [layout, List.cons_append, List.mem_cons, List.mem_append] at hp
        rcases hp with rfl | hp | hp
        · cases e
        · exact kc _ _ _ p hp i j e
        · exact ih _ p hp i j e
    have hl : l = .cat i j := by
      have := congrArg Prod.fst e
      rcases o with _ | o | o <;> cases l <;> simp_all [firstColumn]
    obtain ⟨c, hc⟩ := hsh L 1 _ hp i j hl
    simp only at hc
    subst hc
    simp only [firstColumn, Prod.mk.injEq] at e
    rw [← e.2]
    simp only [Clf.pad, List.length_append, List.length_replicate]
    omega
  have h2 : t.length ≤ w := by
    obtain ⟨⟨l, o⟩, hp, e⟩ := List.mem_map.1 ht
    rcases o with _ | o
    · cases l with
      | rx x =>
        simp only [firstColumn, Prod.mk.injEq, Label.rx.injEq] at e
        obtain ⟨rfl, rfl⟩ := e
        cases hg : strs.get? x with
        | none => simp
        | some v =>
          have hm := Dict.mem_of_get? hg
          have hk : x ∈ Dict.keys strs := List.mem_map_of_mem hm
          rw [hkeys] at hk
          obtain ⟨r, hr, rfl⟩ := List.mem_map.1 hk
          obtain ⟨l1, l2, el⟩ := List.append_of_mem hr
          obtain ⟨u, m, -, hu, hl⟩ := hstr l1 r l2 el
          rw [Dict.get?_of_mem (hkeys ▸ hn) hu] at hg
          cases hg
          exact hl
      | typ x => simp [firstColumn] at e
      | cat x y => simp [firstColumn] at e
    · exfalso
      have hsh : ∀ (L : Listing) (a : Nat), ∀ p ∈ layout a L, ∀ i, p.1 = Label.rx i → p.2 = none := by
        have kc : ∀ (d : List (Cat × List Reaction)) (a b : Nat), ∀ p ∈ catRows a b d, ∀ i, p.1 = Label.rx i →
            p.2 = none := by
          intro d a
          induction d with
          | nil => intro b p hp; cases hp
          | cons q d ih =>
            intro b p hp i e
            rw [catRows, List.mem_append, List.mem_append] at hp
            rcases hp with (hp | hp) | hp
            · split at hp
              · cases hp
              · simp only [List.mem_singleton] at hp
                subst hp
                cases e
            · obtain ⟨r, -, rfl⟩ := List.mem_map.1 hp
              rfl
            · exact ih _ p hp i e
        intro L
        induction L with
        | nil => intro a p hp; cases hp
        | cons q L ih =>
          intro a p hp i e
          rw [layout, List.cons_append, List.mem_cons, List.mem_append] at hp
          rcases hp with rfl | hp | hp
          · cases e
          · exact kc _ _ _ p hp i e
          · exact ih _ p hp i e
      have hl : l = .rx k := by
        have := congrArg Prod.fst e
        rcases o with o | o <;> cases l <;> simp_all [firstColumn]
      have := hsh L 1 _ hp k hl
      cases this
  omega

/-- C89: when there is a table: if it is to be sorted, all species must have a sort key; if it is to have headings, all
reactions must have a class. -/
theorem sheet_total (hI : Ids S R) :
    (∃ lines, sheet A sort cl S R = .ok lines) ↔
      (sort = true → ∀ s ∈ S, ∃ v, speciesKey A s = .ok v) ∧ (cl = true → ∀ r ∈ R, ∃ k, classify r = .ok k) := by
  rw [← prepare_total (A := A) (R := R) hI]
  unfold sheet
  cases cl with
  | false =>
    cases sort with
    | false =>
      simp only [Bool.or_self, Bool.false_eq_true, if_false, false_implies, and_true]
      refine ⟨fun _ => ?_, fun _ => ⟨_, rfl⟩⟩
      unfold prepare
      simp
    | true =>
      simp only [Bool.or_false, if_true, Bool.false_eq_true, if_false, false_implies, and_true]
      cases hp : prepare A true S R with
      | mk x c =>
        cases x with
        | error e => simp
        | ok u => cases u; simp
  | true =>
    simp only [Bool.or_true, if_true, forall_const]
    cases hp : prepare A sort S R with
    | mk x c =>
      cases x with
      | error e => simp
      | ok u =>
        cases u
        obtain ⟨hrun, -⟩ := prepare_spec hI hp
        have hon : ∀ op ∈ preps sort, op.On R := by
          intro op ho
          have := preps_prepares op ho
          cases op <;> trivial
        obtain ⟨g1, -, -⟩ := listing_of_history (F := A) hI hon
        rw [← hrun] at g1
        simp only
        constructor
        · rintro ⟨lines, h⟩
          refine ⟨⟨c, rfl⟩, g1.1 ?_⟩
          cases hg : c.getClassified with
          | mk x c1 =>
            rw [hg] at h
            cases x with
            | error e => cases h
            | ok L => exact ⟨L, rfl⟩
        · rintro ⟨-, hall⟩
          obtain ⟨L, hL⟩ := g1.2 hall
          cases hg : c.getClassified with
          | mk x c1 =>
            rw [hg] at hL
            cases hL
            simp only
            obtain ⟨p, c', hp'⟩ := alignAll_total (A := A) (l := R) (c := c1) (w := headWidth L) (by
              intro l1 r l2 el
              obtain ⟨s, hs⟩ := string_available (F := A) hI hall (preps_prepares (sort := sort)) (rs := l1)
                (fun x hx => by rw [el]; simp [hx]) (r := r) (by rw [el]; simp)
              refine ⟨s, ?_⟩
              rw [Clf.run_append, ← hrun, run_single] at hs
              simpa only [Clf.apply, hg] using hs)
            rw [hp']
            obtain ⟨strs, w⟩ := p
            exact ⟨_, rfl⟩

end Verif.Plaschem.TableRx
