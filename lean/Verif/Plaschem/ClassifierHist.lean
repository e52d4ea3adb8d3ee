/-
C51, C52, C70: a classifier after any history of calls: what the listing contains, and how the strings of one
category line up.
-/
import Verif.Plaschem.ClassifierProps
import Mathlib.Data.List.Flatten

namespace Verif.Plaschem.Classify
open Verif.Plaschem

variable {S : List RP} {R : List Reaction} {c : Clf} {F : Str → Option (Dict Str Nat)}

/-! ### partition -/

theorem flatMap_filter_perm {α κ : Type} [DecidableEq κ] (f : α → κ) : ∀ {ks : List κ} {l : List α}, ks.Nodup →
    (∀ a ∈ l, f a ∈ ks) → (ks.flatMap fun k => l.filter (fun a => f a = k)).Perm l
  | [], l, _, h => by
    have : l = [] := List.eq_nil_iff_forall_not_mem.2 (fun a ha => by cases h a ha)
    subst this; exact .refl _
  | k :: ks, l, hn, h => by
    rw [List.flatMap_cons]
    have hn' := List.nodup_cons.1 hn
    have ih := flatMap_filter_perm f (ks := ks) (l := l.filter (fun a => !decide (f a = k))) hn'.2 (by
      intro a ha
      have := List.mem_filter.1 ha
      have hm := h a this.1
      simp only [Bool.not_eq_eq_eq_not, Bool.not_true, decide_eq_false_iff_not] at this
      exact (List.mem_cons.1 hm).resolve_left this.2)
    have he : ks.flatMap (fun k' => (l.filter (fun a => !decide (f a = k))).filter (fun a => f a = k')) =
        ks.flatMap (fun k' => l.filter (fun a => f a = k')) := by
      apply List.flatMap_congr
      intro k' hk'
      rw [List.filter_filter]
      apply List.filter_congr
      intro a _
      by_cases e : f a = k'
      · have : f a ≠ k := by rintro rfl; exact hn'.1 (e ▸ hk')
        simp [e, e ▸ this]
      · simp [e]
    rw [he] at ih
    exact (ih.append_left _).trans (List.filter_append_perm _ l)

/-- all reactions of a listing, in its order -/
def Listing.flat (L : Listing) : List Reaction := L.flatMap fun p => p.2.flatMap fun q => q.2

theorem flat_prune (L : Listing) : (Clf.prune L).flat = L.flat := by
  unfold Clf.prune Listing.flat
  have hq : ∀ d : List (Cat × List Reaction),
      (d.filter (fun q => decide (q.2 ≠ []))).flatMap (fun q => q.2) = d.flatMap (fun q => q.2) := by
    intro d
    induction d with
    | nil => rfl
    | cons q d ih =>
      rw [List.filter_cons]
      by_cases h : q.2 = []
      · simp only [h, ne_eq, not_true_eq_false, decide_false, Bool.false_eq_true, if_false, ih,
          List.flatMap_cons, List.nil_append]
      · simp only [ne_eq, h, not_false_eq_true, decide_true, if_true, List.flatMap_cons]
        rw [← ih]
  induction L with
  | nil => rfl
  | cons p L ih =>
    rw [List.map_cons, List.filter_cons]
    by_cases h : p.2.filter (fun q => decide (q.2 ≠ [])) = []
    · simp only [h, ne_eq, not_true_eq_false, decide_false, Bool.false_eq_true, if_false,
        List.flatMap_cons]
      have := hq p.2
      rw [h] at this
      rw [← this]
      exact ih
    · simp only [ne_eq] at h
      simp only [ne_eq, h, not_false_eq_true, decide_true, if_true, List.flatMap_cons]
      have := hq p.2
      simp only [ne_eq] at this ih
      rw [this, ← ih]

/-- the classes of the scheme in order -/
def classes : List Class := typs.flatMap fun t => (catsOf t).map fun k => (t, k)

theorem classes_nodup : classes.Nodup := by decide

theorem mem_classes {r : Reaction} {k : Class} (h : classify r = .ok k) : k ∈ classes := by
  obtain ⟨t, q⟩ := k
  obtain ⟨cs, hcs, hq⟩ := classify_in_scheme h
  rw [mem_catsOf hcs] at hq
  exact List.mem_flatMap.2 ⟨t, mem_typs t, List.mem_map.2 ⟨q, hq, rfl⟩⟩

theorem flat_sections (l : List Reaction) (h : ∀ r ∈ l, ∃ k, classify r = .ok k) : (sections l).flat.Perm l := by
  have e : (sections l).flat =
      classes.flatMap fun k => l.filter (fun r => (classify r).toOption.getD (.decay, .noCat) = k) := by
    unfold sections Listing.flat classes
    rw [List.flatMap_map, List.flatMap_assoc]
    apply List.flatMap_congr
    intro t _
    rw [List.flatMap_map, List.flatMap_map]
    apply List.flatMap_congr
    intro k _
    apply List.filter_congr
    intro r hr
    obtain ⟨k', hk'⟩ := h r hr
    simp [hk', Except.toOption]
  rw [e]
  apply flatMap_filter_perm _ classes_nodup
  intro r hr
  obtain ⟨k, hk⟩ := h r hr
  rw [hk]
  exact mem_classes hk

/-- What `get_classified_reactions` promises about the listing `L` of the reactions `l`. -/
structure IsListing (l : List Reaction) (L : Listing) : Prop where
  /-- every reaction occurs exactly as often as in the chemistry -/
  complete : L.flat.Perm l
  /-- types in the order of the scheme, each at most once -/
  types : (L.map Prod.fst).Sublist (scheme.map Prod.fst)
  /-- the same for the categories of each type -/
  cats : ∀ t d, (t, d) ∈ L → ∃ cs, (t, cs) ∈ scheme ∧ (d.map Prod.fst).Sublist cs
  /-- no empty types and categories -/
  nonempty : ∀ t d, (t, d) ∈ L → d ≠ [] ∧ ∀ k rs, (k, rs) ∈ d → rs ≠ []
  /-- each category has exactly the reactions of that class, in the order of the chemistry -/
  members : ∀ t d, (t, d) ∈ L → ∀ k rs, (k, rs) ∈ d → rs = l.filter (fun r => classify r = .ok (t, k))

theorem isListing_sections (l : List Reaction) (h : ∀ r ∈ l, ∃ k, classify r = .ok k) :
    IsListing l (Clf.prune (sections l)) where
  complete := by rw [flat_prune]; exact flat_sections l h
  types := by
    unfold Clf.prune
    have e : scheme.map Prod.fst = ((sections l).map
        (fun p => (p.1, p.2.filter (fun q => decide (q.2 ≠ []))))).map Prod.fst := by
      rw [scheme_eq]
      unfold sections
      simp only [List.map_map]
      rfl
    rw [e]
    exact List.filter_sublist.map _
  cats := by
    intro t d hd
    obtain ⟨d', hm, rfl, -⟩ := mem_prune.1 hd
    obtain ⟨t', -, he⟩ := List.mem_map.1 hm
    cases he
    refine ⟨catsOf t, ?_, ?_⟩
    · rw [scheme_eq]; exact List.mem_map.2 ⟨t, mem_typs t, rfl⟩
    · have : catsOf t = ((catsOf t).map fun k => (k, l.filter (fun r => classify r = .ok (t, k)))).map Prod.fst := by
        rw [List.map_map]; exact (List.map_id _).symm
      conv => rhs; rw [this]
      exact List.filter_sublist.map _
  nonempty := by
    intro t d hd
    obtain ⟨d', hm, rfl, hne⟩ := mem_prune.1 hd
    refine ⟨hne, fun k rs hk => ?_⟩
    simpa using (List.mem_filter.1 hk).2
  members := by
    intro t d hd k rs hk
    obtain ⟨d', hm, rfl, -⟩ := mem_prune.1 hd
    obtain ⟨t', -, he⟩ := List.mem_map.1 hm
    cases he
    obtain ⟨k', -, he⟩ := List.mem_map.1 (List.mem_filter.1 hk).1
    cases he
    rfl

/-! ### aligned strings: the widths -/

/-- every name fits into its column -/
def Fits : List Str → List Nat → Prop
  | [], _ => True
  | _ :: _, [] => False
  | n :: ns, w :: ws => n.length ≤ w ∧ Fits ns ws

theorem fits_widen_self : ∀ (ws : List Nat) (ns : List Str), Fits ns (Clf.widen ws ns)
  | _, [] => by unfold Fits; trivial
  | [], n :: ns => ⟨le_refl _, fits_widen_self [] ns⟩
  | w :: ws, n :: ns => by
    refine ⟨?_, fits_widen_self ws ns⟩
    split <;> omega

theorem fits_widen {ms : List Str} : ∀ {ws : List Nat} {ns : List Str}, Fits ms ws → Fits ms (Clf.widen ws ns) := by
  induction ms with
  | nil => intro ws ns _; unfold Fits; trivial
  | cons m ms ih =>
    intro ws ns h
    cases ws with
    | nil => cases h
    | cons w ws =>
      cases ns with
      | nil => exact h
      | cons n ns =>
        refine ⟨?_, ih h.2⟩
        have := h.1
        split <;> omega

theorem Clf.widths_spec (hI : Ids S R) : ∀ {l : List Reaction} {c : Clf} {ws : List Nat × List Nat}, c.Inv S R →
    (∀ r ∈ l, r ∈ R) →
    ∃ ws' c', c.widths ws l = (.ok ws', c') ∧ c'.Inv S R ∧ c.Looked c' ∧
      (∀ i v, c.names.get? i = some v → c'.names.get? i = some v) ∧
      (∀ r ∈ l, ∃ v, c'.names.get? r.id = some v ∧ Fits v.1 ws'.1 ∧ Fits v.2 ws'.2) ∧
      (∀ ns, Fits ns ws.1 → Fits ns ws'.1) ∧ (∀ ns, Fits ns ws.2 → Fits ns ws'.2)
  | [], c, ws, h, _ => ⟨ws, c, rfl, h, .refl c, fun _ _ h => h, by simp, fun _ h => h, fun _ h => h⟩
  | r :: l, c, ws, h, hl => by
    have hr := hl r List.mem_cons_self
    have hl' : ∀ q ∈ l, q ∈ R := fun q hq => hl q (List.mem_cons_of_mem _ hq)
    unfold Clf.widths
    cases hn : c.names.get? r.id with
    | some v =>
      obtain ⟨a, b⟩ := v
      simp only
      obtain ⟨ws', c', e, h', L, hk, hf, f1, f2⟩ := Clf.widths_spec hI (ws := (widen ws.1 a, widen ws.2 b)) h hl'
      refine ⟨ws', c', e, h', L, hk, ?_, fun ns hns => f1 ns (fits_widen hns), fun ns hns => f2 ns (fits_widen hns)⟩
      intro q hq
      rcases List.mem_cons.1 hq with rfl | hq
      · exact ⟨(a, b), hk _ _ hn, f1 _ (fits_widen_self _ _), f2 _ (fits_widen_self _ _)⟩
      · exact hf q hq
    | none =>
      simp only
      obtain ⟨c1, e1, h1, L1, n1⟩ := Clf.sorted_spec hI h
        (fun s hs => hI.closed r hr s (by simp [Reaction.rps, hs]) : ∀ s ∈ r.reactants, s ∈ S)
      obtain ⟨c2, e2, h2, L2, n2⟩ := Clf.sorted_spec hI h1
        (fun s hs => hI.closed r hr s (by simp [Reaction.rps, hs]) : ∀ s ∈ r.products, s ∈ S)
      rw [e1]
      simp only
      rw [e2]
      simp only
      rw [L1.species]
      have h3 := Clf.set_names hI h2 hr c.species
      obtain ⟨ws', c', e, h', L, hk, hf, f1, f2⟩ := Clf.widths_spec hI
        (ws := (widen ws.1 ((bySpecies c.species r.reactants).map RP.name),
          widen ws.2 ((bySpecies c.species r.products).map RP.name))) h3 hl'
      refine ⟨ws', c', e, h', ?_, ?_, ?_, fun ns hns => f1 ns (fits_widen hns), fun ns hns => f2 ns (fits_widen hns)⟩
      · exact (L1.trans L2).trans ⟨L.1, L.2, L.3, L.4, L.5⟩
      · intro i v hv
        apply hk
        simp only [Dict.get?_set]
        by_cases hi : r.id = i
        · subst hi; rw [hn] at hv; cases hv
        · rw [if_neg hi, n2, n1]; exact hv
      · intro q hq
        rcases List.mem_cons.1 hq with rfl | hq
        · refine ⟨((bySpecies c.species q.reactants).map RP.name, (bySpecies c.species q.products).map RP.name),
            hk _ _ ?_, f1 _ (fits_widen_self _ _), f2 _ (fits_widen_self _ _)⟩
          simp only [Dict.get?_set, if_pos]
        · exact hf q hq

/-! ### aligned strings: the layout -/

/-- the name `n` stands at position `pos` of the string -/
def At (s : Str) (pos : Nat) (n : Str) : Prop := ∃ a b, s = a ++ n ++ b ∧ a.length = pos

theorem At.left {s n : Str} {pos : Nat} (h : At s pos n) (t : Str) : At (s ++ t) pos n := by
  obtain ⟨a, b, rfl, hp⟩ := h
  exact ⟨a, b ++ t, by simp, hp⟩

theorem At.right {s n : Str} {pos : Nat} (h : At s pos n) (t : Str) : At (t ++ s) (t.length + pos) n := by
  obtain ⟨a, b, rfl, hp⟩ := h
  exact ⟨t ++ a, b, by simp, by simp [hp]⟩

/-- where column `i` starts -/
def start : List Nat → Nat → Nat
  | [], _ => 0
  | _, 0 => 0
  | w :: ws, i + 1 => w + 3 + start ws i

/-- the length of one side -/
def total : List Nat → Nat
  | [] => 0
  | [w] => w
  | w :: v :: ws => w + 3 + total (v :: ws)

theorem pad_length {n : Str} {w : Nat} (h : n.length ≤ w) : (Clf.pad n w).length = w := by
  unfold Clf.pad; simp; omega

theorem fits_tail {ns : List Str} {w : Nat} {ws : List Nat} (h : Fits ns (w :: ws)) : Fits ns.tail ws := by
  cases ns with
  | nil => exact trivial
  | cons n ns => exact h.2

theorem side_cons {ns : List Str} {w : Nat} {ws : List Nat} (h : Fits ns (w :: ws)) :
    ∃ x, Clf.side ns (w :: ws) = x :: Clf.side ns.tail ws ∧ x.length = w := by
  cases ns with
  | nil => exact ⟨_, rfl, pad_length (Nat.zero_le _)⟩
  | cons n ns => exact ⟨_, rfl, pad_length h.1⟩

theorem join_length : ∀ {ws : List Nat} {ns : List Str}, Fits ns ws →
    (Clf.joinWith str!" + " (Clf.side ns ws)).length = total ws
  | [], _, _ => by rw [Clf.side]; rfl
  | [w], ns, h => by
    obtain ⟨x, hx, hl⟩ := side_cons h
    rw [hx, Clf.side]
    exact hl
  | w :: v :: ws, ns, h => by
    obtain ⟨x, hx, hl⟩ := side_cons h
    obtain ⟨y, hy, -⟩ := side_cons (fits_tail h)
    have ih := join_length (fits_tail h)
    rw [hx]
    rw [hy] at ih ⊢
    unfold Clf.joinWith
    rw [List.length_append, List.length_append, ih, hl]
    rfl

theorem join_at : ∀ {ws : List Nat} {ns : List Str}, Fits ns ws → ∀ i (h : i < ns.length),
    At (Clf.joinWith str!" + " (Clf.side ns ws)) (start ws i) ns[i]
  | [], [], _, i, h => by cases h
  | [], n :: ns, h, _, _ => by cases h
  | w :: ws, [], _, i, h => by cases h
  | w :: ws, n :: ns, h, 0, _ => by
    have hx : Clf.side (n :: ns) (w :: ws) = Clf.pad n w :: Clf.side ns ws := rfl
    rw [hx]
    unfold Clf.pad
    have : ∀ l : List Str, At (Clf.joinWith str!" + " ((n ++ List.replicate (w - n.length) ' ') :: l)) 0 n := by
      intro l
      cases l with
      | nil => exact ⟨[], _, rfl, rfl⟩
      | cons y l =>
        refine ⟨[], List.replicate (w - n.length) ' ' ++ str!" + " ++ Clf.joinWith str!" + " (y :: l), ?_, rfl⟩
        simp [Clf.joinWith]
    exact this _
  | w :: ws, n :: ns, h, i + 1, hi => by
    have hi' : i < ns.length := by simpa using hi
    cases ws with
    | nil =>
      cases ns with
      | nil => cases hi'
      | cons m ns => cases h.2
    | cons v ws =>
      have ih := join_at h.2 i hi'
      obtain ⟨y, hy, -⟩ := side_cons h.2
      have hx : Clf.side (n :: ns) (w :: v :: ws) = Clf.pad n w :: Clf.side ns (v :: ws) := rfl
      rw [hx]
      rw [hy] at ih ⊢
      have e : Clf.joinWith str!" + " (Clf.pad n w :: y :: Clf.side ns.tail ws) =
          (Clf.pad n w ++ str!" + ") ++ Clf.joinWith str!" + " (y :: Clf.side ns.tail ws) := rfl
      rw [e]
      have := ih.right (Clf.pad n w ++ str!" + ")
      rw [List.length_append, pad_length h.1] at this
      exact this

/-- The string `s` shows the names `ns` and `ps` at the positions `left` and `right` and has length `len`. -/
structure LaidOut (left right : Nat → Nat) (len : Nat) (s : Str) (ns ps : List Str) : Prop where
  reactants : ∀ i (h : i < ns.length), At s (left i) ns[i]
  products : ∀ i (h : i < ps.length), At s (right i) ps[i]
  length : s.length = len

theorem render_laidOut {v : List Str × List Str} {ws : List Nat × List Nat} (h1 : Fits v.1 ws.1)
    (h2 : Fits v.2 ws.2) :
    LaidOut (start ws.1) (fun i => total ws.1 + 3 + start ws.2 i) (total ws.1 + 3 + total ws.2)
      (Clf.render v ws) v.1 v.2 := by
  have e : Clf.render v ws = Clf.joinWith str!" + " (Clf.side v.1 ws.1) ++ str!" > " ++
      Clf.joinWith str!" + " (Clf.side v.2 ws.2) := rfl
  refine ⟨?_, ?_, ?_⟩
  · intro i h
    rw [e, List.append_assoc]
    exact (join_at h1 i h).left _
  · intro i h
    rw [e]
    have := (join_at h2 i h).right (Clf.joinWith str!" + " (Clf.side v.1 ws.1) ++ str!" > ")
    rw [List.length_append, join_length h1] at this
    exact this
  · rw [e, List.length_append, List.length_append, join_length h1, join_length h2]
    rfl

/-! ### aligned strings: the calls -/

theorem keys_sublist_nodup {κ α : Type} {d : List (κ × α)} {ks : List κ} (h : (d.map Prod.fst).Sublist ks)
    (hn : ks.Nodup) : (d.map Prod.fst).Nodup := h.nodup hn

theorem lookup_listing {l : List Reaction} {L : Listing} (h : IsListing l L) {t : Typ} {k : Cat}
    {rs : List Reaction} (hl : (Dict.get? L t).bind (fun d => Dict.get? d k) = some rs) :
    rs = l.filter (fun r => classify r = .ok (t, k)) := by
  obtain ⟨d, hd, hk⟩ := Option.bind_eq_some_iff.1 hl
  exact h.members t d (Dict.mem_of_get? hd) k rs (Dict.mem_of_get? hk)

theorem lookup_listing_some {l : List Reaction} {L : Listing} (h : IsListing l L) {r : Reaction} (hr : r ∈ l)
    {t : Typ} {k : Cat} (hk : classify r = .ok (t, k)) :
    ∃ rs, (Dict.get? L t).bind (fun d => Dict.get? d k) = some rs := by
  have hf := h.complete.mem_iff.2 hr
  obtain ⟨⟨t', d⟩, hd, hq⟩ := List.mem_flatMap.1 hf
  obtain ⟨⟨k', rs⟩, hk', hr'⟩ := List.mem_flatMap.1 hq
  simp only at hr' hk'
  have hm := h.members t' d hd k' rs hk'
  rw [hm] at hr'
  have := (List.mem_filter.1 hr').2
  rw [hk] at this
  simp only [decide_eq_true_eq, Except.ok.injEq, Prod.mk.injEq] at this
  obtain ⟨rfl, rfl⟩ := this
  refine ⟨rs, Option.bind_eq_some_iff.2 ⟨d, ?_, ?_⟩⟩
  · have hn : (L.map Prod.fst).Nodup := h.types.nodup (by decide)
    exact Dict.get?_of_mem (d := L) hn hd
  · obtain ⟨cs, hcs, hsub⟩ := h.cats t d hd
    have hn : (d.map Prod.fst).Nodup := hsub.nodup (by rw [mem_catsOf hcs]; exact catsOf_nodup t)
    exact Dict.get?_of_mem (d := d) hn hk'

/-- The alignment data of a classifier is in order: the listing is empty or complete, and every category that has
column widths has room for all its reactions. -/
structure Clf.Laid (R : List Reaction) (c : Clf) : Prop where
  listing : c.listing = [] ∨ IsListing c.reactions c.listing
  fits : ∀ k ws, c.align.get? k = some ws → ∀ r ∈ R, classify r = .ok k →
    ∃ v, c.names.get? r.id = some v ∧ Fits v.1 ws.1 ∧ Fits v.2 ws.2

theorem Clf.Laid.of_looked {c c' : Clf} (h : c.Laid R) (hl : c.Looked c')
    (hn : ∀ i v, c.names.get? i = some v → c'.names.get? i = some v) : c'.Laid R := by
  refine ⟨by rw [hl.listing, hl.reactions]; exact h.listing, ?_⟩
  intro k ws hk r hr hc
  rw [hl.align] at hk
  obtain ⟨v, hv, hf⟩ := h.fits k ws hk r hr hc
  exact ⟨v, hn _ _ hv, hf⟩

/-- What a call of `get_aligned_reaction_string` does. -/
structure AlignedCall (S : List RP) (R : List Reaction) (c : Clf) (r : Reaction) : Prop where
  inv : (c.aligned r).2.Inv S R
  laid : c.Laid R → (c.aligned r).2.Laid R
  species : (c.aligned r).2.species = c.species
  reactions : (c.aligned r).2.reactions = c.reactions
  listing : (c.aligned r).2.listing = c.listing
  names : ∀ i v, c.names.get? i = some v → (c.aligned r).2.names.get? i = some v
  align : ∀ k ws, c.align.get? k = some ws → (c.aligned r).2.align.get? k = some ws
  result : ∀ s, (c.aligned r).1 = .ok s → ∃ k ws v, classify r = .ok k ∧
    (c.aligned r).2.align.get? k = some ws ∧ (c.aligned r).2.names.get? r.id = some v ∧ s = Clf.render v ws
  success : c.Laid R → IsListing c.reactions c.listing → (∃ k, classify r = .ok k) → ∃ s, (c.aligned r).1 = .ok s

theorem Clf.aligned_spec (hI : Ids S R) (h : c.Inv S R) {r : Reaction} (hr : r ∈ R) : AlignedCall S R c r := by
  obtain ⟨e1, h1, L1, r1, s1, n1, a1⟩ := Clf.classifyM_spec hI h hr
  cases hm : c.classifyM r with
  | mk x c1 =>
    rw [hm] at e1 h1 L1 r1 s1 n1 a1
    simp only at e1 h1 L1 r1 s1 n1 a1
    have hlaid1 : c.Laid R → c1.Laid R := by
      intro hl
      refine ⟨by rw [L1, r1]; exact hl.listing, ?_⟩
      rw [a1, n1]; exact hl.fits
    cases x with
    | error e =>
      have ha : c.aligned r = (.error e, c1) := by unfold Clf.aligned; rw [hm]
      refine ⟨?_, ?_, ?_, ?_, ?_, ?_, ?_, ?_, ?_⟩ <;> rw [ha]
      · exact h1
      · exact hlaid1
      · exact s1
      · exact r1
      · exact L1
      · rw [n1]; exact fun _ _ h => h
      · rw [a1]; exact fun _ _ h => h
      · intro s hs; cases hs
      · rintro _ _ ⟨k, hk⟩; rw [hk] at e1; cases e1
    | ok k =>
      have hk : classify r = .ok k := e1.symm
      cases hal : c1.align.get? k with
      | some ws =>
        cases hnm : c1.names.get? r.id with
        | none =>
          have ha : c.aligned r = (.error .keyError, c1) := by
            unfold Clf.aligned; rw [hm]; simp only [hal, hnm]
          refine ⟨?_, ?_, ?_, ?_, ?_, ?_, ?_, ?_, ?_⟩ <;> rw [ha]
          · exact h1
          · exact hlaid1
          · exact s1
          · exact r1
          · exact L1
          · rw [n1]; exact fun _ _ h => h
          · rw [a1]; exact fun _ _ h => h
          · intro s hs; cases hs
          · intro hl _ _
            obtain ⟨v, hv, -⟩ := (hlaid1 hl).fits k ws hal r hr hk
            rw [hnm] at hv; cases hv
        | some v =>
          have ha : c.aligned r = (.ok (render v ws), c1) := by
            unfold Clf.aligned; rw [hm]; simp only [hal, hnm]
          refine ⟨?_, ?_, ?_, ?_, ?_, ?_, ?_, ?_, ?_⟩ <;> rw [ha]
          · exact h1
          · exact hlaid1
          · exact s1
          · exact r1
          · exact L1
          · rw [n1]; exact fun _ _ h => h
          · rw [a1]; exact fun _ _ h => h
          · intro s hs; cases hs; exact ⟨k, ws, v, hk, hal, hnm, rfl⟩
          · intro _ _ _; exact ⟨_, rfl⟩
      | none =>
        cases hlk : (Dict.get? c1.listing k.1).bind (fun d => Dict.get? d k.2) with
        | none =>
          have ha : c.aligned r = (.error .keyError, c1) := by
            unfold Clf.aligned; rw [hm]; simp only [hal, hlk]
          refine ⟨?_, ?_, ?_, ?_, ?_, ?_, ?_, ?_, ?_⟩ <;> rw [ha]
          · exact h1
          · exact hlaid1
          · exact s1
          · exact r1
          · exact L1
          · rw [n1]; exact fun _ _ h => h
          · rw [a1]; exact fun _ _ h => h
          · intro s hs; cases hs
          · intro _ hil _
            rw [← L1, ← r1] at hil
            obtain ⟨rs, hrs⟩ := lookup_listing_some hil (h1.reactions.mem_iff.2 hr) hk
            rw [hlk] at hrs; cases hrs
        | some rs =>
          have hrs : ∀ q ∈ rs, q ∈ R := by
            obtain ⟨d, hd, hk'⟩ := Option.bind_eq_some_iff.1 hlk
            exact h1.listing _ (Dict.mem_of_get? hd) _ (Dict.mem_of_get? hk')
          obtain ⟨ws, c2, e2, h2, L2, kn, hf, -, -⟩ := Clf.widths_spec hI (ws := ([], [])) h1 hrs
          have hali : ∀ k' ws', c.align.get? k' = some ws' → (c2.align.set k ws).get? k' = some ws' := by
            intro k' ws' hk'
            rw [Dict.get?_set]
            by_cases hkk : k = k'
            · subst hkk; rw [← a1, hal] at hk'; cases hk'
            · rw [if_neg hkk, L2.align, a1]; exact hk'
          have hlaid2 : c.Laid R → ({ c2 with align := c2.align.set k ws } : Clf).Laid R := by
            intro hl
            have hl1 := hlaid1 hl
            refine ⟨by show c2.listing = [] ∨ IsListing c2.reactions c2.listing
                       rw [L2.listing, L2.reactions]; exact hl1.listing, ?_⟩
            intro k' ws' hk' q hq hcq
            simp only [Dict.get?_set] at hk'
            split at hk'
            · rename_i hkk
              cases hk'
              subst hkk
              apply hf
              rcases hl1.listing with hl0 | hil
              · rw [hl0] at hlk; cases hlk
              · rw [lookup_listing hil hlk]
                exact List.mem_filter.2 ⟨h1.reactions.mem_iff.2 hq, by simpa using hcq⟩
            · rw [L2.align] at hk'
              obtain ⟨v, hv, hfv⟩ := hl1.fits k' ws' hk' q hq hcq
              exact ⟨v, kn _ _ hv, hfv⟩
          have hinv2 : ({ c2 with align := c2.align.set k ws } : Clf).Inv S R :=
            ⟨h2.species, h2.reactions, h2.idx, h2.cls, h2.listing, h2.names⟩
          have hset : (c2.align.set k ws).get? k = some ws := by rw [Dict.get?_set, if_pos rfl]
          cases hnm : c2.names.get? r.id with
          | none =>
            have ha : c.aligned r = (.error .keyError, { c2 with align := c2.align.set k ws }) := by
              unfold Clf.aligned; rw [hm]; simp only [hal, hlk, e2, hnm]
            refine ⟨?_, ?_, ?_, ?_, ?_, ?_, ?_, ?_, ?_⟩ <;> rw [ha]
            · exact hinv2
            · exact hlaid2
            · exact L2.species.trans s1
            · exact L2.reactions.trans r1
            · exact L2.listing.trans L1
            · exact fun i v hv => kn i v (by rw [n1]; exact hv)
            · exact hali
            · intro s hs; cases hs
            · intro hl _ _
              obtain ⟨v, hv, -⟩ := (hlaid2 hl).fits k ws hset r hr hk
              simp only [hnm] at hv; cases hv
          | some v =>
            have ha : c.aligned r = (.ok (render v ws), { c2 with align := c2.align.set k ws }) := by
              unfold Clf.aligned; rw [hm]; simp only [hal, hlk, e2, hnm]
            refine ⟨?_, ?_, ?_, ?_, ?_, ?_, ?_, ?_, ?_⟩ <;> rw [ha]
            · exact hinv2
            · exact hlaid2
            · exact L2.species.trans s1
            · exact L2.reactions.trans r1
            · exact L2.listing.trans L1
            · exact fun i v hv => kn i v (by rw [n1]; exact hv)
            · exact hali
            · intro s hs; cases hs; exact ⟨k, ws, v, hk, hset, hnm, rfl⟩
            · intro _ _ _; exact ⟨_, rfl⟩

/-! ### histories -/

theorem Clf.apply_inv (hI : Ids S R) (h : c.Inv S R) {op : Clf.Op} (ho : op.On R) : (c.apply F op).Inv S R := by
  cases op with
  | sortSpecies => exact Clf.sortSpecies_inv h
  | sortReactions => exact (Clf.sortReactions_spec hI h).2.2.2
  | getClassified => exact (Clf.getClassified_spec hI h).1
  | aligned r => exact (Clf.aligned_spec hI h ho).inv

theorem Clf.run_inv (hI : Ids S R) : ∀ {ops : List Clf.Op} {c : Clf}, c.Inv S R → (∀ op ∈ ops, op.On R) →
    (c.run F ops).Inv S R
  | [], _, h, _ => h
  | op :: _, c, h, ho => Clf.run_inv (c := c.apply F op) hI (Clf.apply_inv hI h (ho op List.mem_cons_self))
      (fun o h' => ho o (List.mem_cons_of_mem _ h'))

/-- **C51.** After any history of calls, `get_classified_reactions` succeeds exactly if every reaction can be
classified, and then lists every reaction exactly once, under its class, in the order of the chemistry, with the
types and categories in the order of the scheme and without empty entries. -/
theorem listing_of_history (hI : Ids S R) {ops : List Clf.Op} (ho : ∀ op ∈ ops, op.On R) :
    let c := (Clf.new S R).run F ops
    ((∃ L, c.getClassified.1 = .ok L) ↔ ∀ r ∈ R, ∃ k, classify r = .ok k) ∧
    (∀ L, c.getClassified.1 = .ok L → IsListing c.reactions L ∧ L.flat.Perm R) ∧
    (∀ e, c.getClassified.1 = .error e → ∃ r ∈ R, classify r = .error e) := by
  intro c
  have h : c.Inv S R := Clf.run_inv hI (Clf.inv_new S R) ho
  obtain ⟨-, -, -, -, -, hor⟩ := Clf.getClassified_spec hI h
  rcases hor with ⟨hall, he, -⟩ | ⟨r, hr, e, hc, he⟩
  · have hL := isListing_sections c.reactions (fun r hr => hall r (h.reactions.mem_iff.1 hr))
    rw [he]
    refine ⟨⟨fun _ => hall, fun _ => ⟨_, rfl⟩⟩, ?_, ?_⟩
    · intro L hL'; cases hL'; exact ⟨hL, hL.complete.trans h.reactions⟩
    · intro e he'; cases he'
  · rw [he]
    refine ⟨⟨fun ⟨L, hL⟩ => (by cases hL), fun hall => ?_⟩, ?_, ?_⟩
    · obtain ⟨k, hk⟩ := hall r hr
      rw [hc] at hk; cases hk
    · intro L hL; cases hL
    · intro e' he'; cases he'; exact ⟨r, hr, hc⟩

/-- **C52.** After any history of calls: the species and reactions are those of the chemistry in some order;
sorting the species gives the stable order of their keys; sorting the reactions succeeds and gives the stable order
of the positions of their reactants and products among the species as they are now. -/
theorem sorting_of_history (hI : Ids S R) {ops : List Clf.Op} (ho : ∀ op ∈ ops, op.On R) :
    let c := (Clf.new S R).run F ops
    c.species.Perm S ∧ c.reactions.Perm R ∧
    ((∀ s ∈ S, ∃ v, speciesKey F s = .ok v) → (c.sortSpecies F).1 = .ok () ∧
      SortedBy (keyOf F) (· ≤ ·) c.species (c.sortSpecies F).2.species) ∧
    ((∃ s ∈ S, ∃ e, speciesKey F s = .error e) → (∃ e, (c.sortSpecies F).1 = .error e) ∧
      (c.sortSpecies F).2 = c) ∧
    c.sortReactions.1 = .ok () ∧
    SortedBy (posKey c.species) (fun a b => keyLe a b = true) c.reactions c.sortReactions.2.reactions := by
  intro c
  have h : c.Inv S R := Clf.run_inv hI (Clf.inv_new S R) ho
  obtain ⟨e1, e2, -, -⟩ := Clf.sortReactions_spec hI h
  refine ⟨h.species, h.reactions, ?_, ?_, e1, e2⟩
  · intro hall
    rcases sortSpecies_spec F c with ⟨a, -, b, -⟩ | ⟨-, ⟨s, hs, e, he⟩, -⟩
    · exact ⟨a, b⟩
    · obtain ⟨v, hv⟩ := hall s (h.species.mem_iff.1 hs)
      rw [he] at hv; cases hv
  · rintro ⟨s, hs, e, he⟩
    rcases sortSpecies_spec F c with ⟨-, a, -, -⟩ | ⟨a, -, b⟩
    · obtain ⟨v, hv⟩ := a s (h.species.mem_iff.2 hs)
      rw [he] at hv; cases hv
    · exact ⟨a, b⟩

/-- no strings are asked for -/
def Clf.Op.Prepares : Clf.Op → Prop
  | .aligned _ => False
  | _ => True

/-- the reactions are not sorted again -/
def Clf.Op.Prints : Clf.Op → Prop
  | .sortReactions => False
  | _ => True

theorem Clf.sortSpecies_rest (F : Str → Option (Dict Str Nat)) (c : Clf) :
    (c.sortSpecies F).2.align = c.align ∧ (c.sortSpecies F).2.names = c.names ∧
    (c.sortSpecies F).2.reactions = c.reactions ∧
    ((c.sortSpecies F).2.listing = c.listing ∨ (c.sortSpecies F).2.listing = []) := by
  unfold Clf.sortSpecies
  split
  · exact ⟨rfl, rfl, rfl, .inl rfl⟩
  · exact ⟨rfl, rfl, rfl, .inr rfl⟩

theorem Clf.getClassified_laid (hI : Ids S R) (h : c.Inv S R) (hall : ∀ r ∈ R, ∃ k, classify r = .ok k) :
    IsListing c.getClassified.2.reactions c.getClassified.2.listing := by
  obtain ⟨-, e, -, -, -, hor⟩ := Clf.getClassified_spec hI h
  rcases hor with ⟨-, -, hl⟩ | ⟨r, hr, e, hc, -⟩
  · rw [hl, e]
    exact isListing_sections _ (fun r hr => hall r (h.reactions.mem_iff.1 hr))
  · obtain ⟨k, hk⟩ := hall r hr
    rw [hk] at hc; cases hc

/-- before any string was asked for -/
theorem Clf.run_prepares (hI : Ids S R) (hall : ∀ r ∈ R, ∃ k, classify r = .ok k) :
    ∀ {ops : List Clf.Op} {c : Clf}, c.Inv S R → c.align = [] → (c.listing = [] ∨ IsListing c.reactions c.listing) →
    (∀ op ∈ ops, op.Prepares) → (c.run F ops).Inv S R ∧ (c.run F ops).Laid R
  | [], c, h, ha, hl, _ => ⟨h, hl, by intro k ws hk; unfold Clf.run at hk; simp only [List.foldl_nil] at hk; rw [ha] at hk; cases hk⟩
  | op :: ops, c, h, ha, hl, ho => by
    have hop := ho op List.mem_cons_self
    have hops := fun o h' => ho o (List.mem_cons_of_mem op h')
    have on : op.On R := by cases op <;> trivial
    refine Clf.run_prepares (c := c.apply F op) hI hall (Clf.apply_inv hI h on) ?_ ?_ hops
    · cases op with
      | sortSpecies => exact (Clf.sortSpecies_rest F c).1.trans ha
      | sortReactions =>
        obtain ⟨c', e, -, L⟩ := Clf.withKey_spec hI h (fun r hr => h.reactions.mem_iff.1 hr)
        show c.sortReactions.2.align = []
        unfold Clf.sortReactions
        rw [e]
        exact L.align.trans ha
      | getClassified => exact (Clf.getClassified_spec hI h).2.2.2.2.1.trans ha
      | aligned r => cases hop
    · cases op with
      | sortSpecies =>
        obtain ⟨-, -, e, hh⟩ := Clf.sortSpecies_rest F c
        show (c.sortSpecies F).2.listing = [] ∨ IsListing (c.sortSpecies F).2.reactions (c.sortSpecies F).2.listing
        rcases hh with hh | hh
        · rw [hh, e]; exact hl
        · exact .inl hh
      | sortReactions =>
        left
        show c.sortReactions.2.listing = []
        obtain ⟨c', e, -, L⟩ := Clf.withKey_spec hI h (fun r hr => h.reactions.mem_iff.1 hr)
        unfold Clf.sortReactions
        rw [e]
      | getClassified => exact .inr (Clf.getClassified_laid hI h hall)
      | aligned r => cases hop

/-- as long as the reactions are not sorted again -/
theorem Clf.run_prints (hI : Ids S R) (hall : ∀ r ∈ R, ∃ k, classify r = .ok k) :
    ∀ {ops : List Clf.Op} {c : Clf}, c.Inv S R → c.Laid R → (∀ op ∈ ops, op.On R ∧ op.Prints) →
    (c.run F ops).Inv S R ∧ (c.run F ops).Laid R ∧
    (∀ k ws, c.align.get? k = some ws → (c.run F ops).align.get? k = some ws) ∧
    (∀ i v, c.names.get? i = some v → (c.run F ops).names.get? i = some v)
  | [], c, h, hl, _ => ⟨h, hl, fun _ _ h => h, fun _ _ h => h⟩
  | op :: ops, c, h, hl, ho => by
    obtain ⟨on, pr⟩ := ho op List.mem_cons_self
    have hops := fun o h' => ho o (List.mem_cons_of_mem op h')
    have key : (c.apply F op).Laid R ∧ (∀ k ws, c.align.get? k = some ws → (c.apply F op).align.get? k = some ws) ∧
        (∀ i v, c.names.get? i = some v → (c.apply F op).names.get? i = some v) := by
      cases op with
      | sortSpecies =>
        obtain ⟨a, n, e, hh⟩ := Clf.sortSpecies_rest F c
        show (c.sortSpecies F).2.Laid R ∧ _
        unfold Clf.apply
        simp only
        refine ⟨⟨?_, ?_⟩, ?_, ?_⟩
        · rcases hh with hh | hh
          · rw [hh, e]; exact hl.listing
          · exact .inl hh
        · rw [a, n]; exact hl.fits
        · rw [a]; exact fun _ _ h => h
        · rw [n]; exact fun _ _ h => h
      | sortReactions => cases pr
      | getClassified =>
        obtain ⟨-, e, -, n, a, -⟩ := Clf.getClassified_spec hI h
        show c.getClassified.2.Laid R ∧ _
        unfold Clf.apply
        simp only
        refine ⟨⟨.inr (Clf.getClassified_laid hI h hall), ?_⟩, ?_, ?_⟩
        · rw [a, n]; exact hl.fits
        · rw [a]; exact fun _ _ h => h
        · rw [n]; exact fun _ _ h => h
      | aligned r =>
        have := Clf.aligned_spec hI h on
        exact ⟨this.laid hl, this.align, this.names⟩
    obtain ⟨i1, l1, a1, n1⟩ := Clf.run_prints (c := c.apply F op) hI hall (Clf.apply_inv hI h on) key.1 hops
    exact ⟨i1, l1, fun k ws hk => a1 k ws (key.2.1 k ws hk), fun i v hv => n1 i v (key.2.2 i v hv)⟩

theorem Clf.run_append (F : Str → Option (Dict Str Nat)) (c : Clf) (o1 o2 : List Clf.Op) :
    c.run F (o1 ++ o2) = (c.run F o1).run F o2 := List.foldl_append

/-- **C70.** First sort and list (`prep`), then ask for strings (`print`, without sorting the reactions again): the
strings of two reactions `r` and `q` of one class have the same length and show the names of their reactants and of
their products in the same columns, whatever is called in between (`more`). -/
theorem strings_line_up (hI : Ids S R) (hall : ∀ r ∈ R, ∃ k, classify r = .ok k) {prep print more : List Clf.Op}
    (hprep : ∀ op ∈ prep, op.Prepares) (hprint : ∀ op ∈ print, op.On R ∧ op.Prints)
    (hmore : ∀ op ∈ more, op.On R ∧ op.Prints) {r q : Reaction} (hr : r ∈ R) (hq : q ∈ R)
    (hc : classify r = classify q) {s t : Str}
    (hs : (((Clf.new S R).run F (prep ++ print)).aligned r).1 = .ok s)
    (ht : (((Clf.new S R).run F (prep ++ print ++ [.aligned r] ++ more)).aligned q).1 = .ok t) :
    ∃ left right len ns ps ms ls, LaidOut left right len s ns ps ∧ LaidOut left right len t ms ls ∧
      ns.Perm (r.reactants.map RP.name) ∧ ps.Perm (r.products.map RP.name) ∧
      ms.Perm (q.reactants.map RP.name) ∧ ls.Perm (q.products.map RP.name) := by
  obtain ⟨i0, l0⟩ := Clf.run_prepares (F := F) hI hall (Clf.inv_new S R) rfl (.inl rfl) hprep
  obtain ⟨i1, l1, -, -⟩ := Clf.run_prints (F := F) hI hall i0 l0 hprint
  rw [← Clf.run_append] at i1 l1
  have c1 := Clf.aligned_spec hI i1 hr
  obtain ⟨k, ws, v, hk, hws, hv, rfl⟩ := c1.result s hs
  obtain ⟨i2, l2, a2, n2⟩ := Clf.run_prints (F := F) hI hall c1.inv (c1.laid l1) hmore
  have e2 : ((Clf.new S R).run F (prep ++ print ++ [.aligned r] ++ more)) =
      ((((Clf.new S R).run F (prep ++ print)).aligned r).2).run F more := by
    rw [Clf.run_append, Clf.run_append]; rfl
  rw [e2] at ht
  have c3 := Clf.aligned_spec hI i2 hq
  obtain ⟨k', ws', v', hk', hws', hv', rfl⟩ := c3.result t ht
  rw [hk, hk'] at hc
  cases hc
  have := c3.align k ws (a2 k ws hws)
  rw [hws'] at this
  cases this
  obtain ⟨v1, hv1, f1, f1'⟩ := (c1.laid l1).fits k ws hws r hr hk
  rw [hv] at hv1; cases hv1
  obtain ⟨v2, hv2, f2, f2'⟩ := (c3.laid l2).fits k ws hws' q hq hk'
  rw [hv'] at hv2; cases hv2
  obtain ⟨p1, p2⟩ := c1.inv.names r hr v hv
  obtain ⟨p3, p4⟩ := c3.inv.names q hq v' hv'
  exact ⟨_, _, _, v.1, v.2, v'.1, v'.2, render_laidOut f1 f1', render_laidOut f2 f2', p1, p2, p3, p4⟩

/-- **C70.** After a listing, the string of every reaction can be had as long as nothing is sorted. -/
theorem string_available (hI : Ids S R) (hall : ∀ r ∈ R, ∃ k, classify r = .ok k) {prep : List Clf.Op}
    (hprep : ∀ op ∈ prep, op.Prepares) {rs : List Reaction} (hrs : ∀ r ∈ rs, r ∈ R) {r : Reaction} (hr : r ∈ R) :
    ∃ s, (((Clf.new S R).run F (prep ++ .getClassified :: rs.map .aligned)).aligned r).1 = .ok s := by
  obtain ⟨i0, l0⟩ := Clf.run_prepares (F := F) hI hall (Clf.inv_new S R) rfl (.inl rfl) hprep
  have e : (Clf.new S R).run F (prep ++ .getClassified :: rs.map .aligned) =
      ((Clf.new S R).run F prep).getClassified.2.run F (rs.map .aligned) := by rw [Clf.run_append]; rfl
  rw [e]
  have i1 := (Clf.getClassified_spec hI i0).1
  have hl := Clf.getClassified_laid hI i0 hall
  have l1 : ((Clf.new S R).run F prep).getClassified.2.Laid R :=
    (Clf.run_prints (F := F) (ops := [.getClassified]) hI hall i0 l0 (by simp [Clf.Op.On, Clf.Op.Prints])).2.1
  have key : ∀ (rs : List Reaction), (∀ r ∈ rs, r ∈ R) → ∀ c : Clf, c.Inv S R → c.Laid R →
      IsListing c.reactions c.listing → ∃ s, ((c.run F (rs.map .aligned)).aligned r).1 = .ok s := by
    intro rs
    induction rs with
    | nil => exact fun _ c hi hl hL => (Clf.aligned_spec hI hi hr).success hl hL (hall r hr)
    | cons q rs ih =>
      intro hrs c hi hl hL
      have := Clf.aligned_spec hI hi (hrs q List.mem_cons_self)
      apply ih (fun p hp => hrs p (List.mem_cons_of_mem _ hp)) (c.aligned q).2 this.inv (this.laid hl)
      rw [this.reactions, this.listing]
      exact hL
  exact key rs hrs _ i1 l1 hl

end Verif.Plaschem.Classify
