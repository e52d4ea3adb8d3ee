/-
C86: reactions imported from the QDB database: which species and reactions are added, and what a file written after the
import contains.
-/
import Verif.Plaschem.XmlQdb

namespace Verif.Plaschem.Xml
open Verif.Plaschem

variable {F : Type}

/-! ### Specification -/

mutual
/-- the reactions with data that a reaction stands for: itself, or those with resolved states that it lumps -/
def QdbRx.leaves : QdbRx F → List (QdbLeaf F)
  | .mk x [] => [x]
  | .mk _ (p :: ps) => leavesAll (p :: ps)

def leavesAll : List (QdbRx F) → List (QdbLeaf F)
  | [] => []
  | x :: l => x.leaves ++ leavesAll l
end

/-- Which dataset is used: the only one; of several the first of the preferred type, and the first if there is none of
it. -/
def Chosen (preferred : Nat → Prop) (l : List (QdbDs F)) (d : QdbDs F) : Prop :=
  l = [d] ∨ (2 ≤ l.length ∧
    ((∃ l1 l2, l = l1 ++ d :: l2 ∧ preferred d.type ∧ ∀ x ∈ l1, ¬ preferred x.type) ∨
     (∃ l2, l = d :: l2 ∧ ∀ x ∈ l, ¬ preferred x.type)))

/-- cross sections for electron collisions, Arrhenius data otherwise -/
def Preferred (electron : Prop) (type : Nat) : Prop := (electron → type = 2) ∧ (¬ electron → type = 1 ∨ type = 3)

/-- the rate of a reaction with `n` reactants: `arrh_a` with its unit, `arrh_b`, `arrh_c` with its unit -/
inductive IsRate (n : Nat) : QdbData F → F → Str → F → F → Str → Prop
  | two {a b c t h} : n = 2 → IsRate n (.xsec a b c t h) a str!"cm3.s-1" b c str!"eV"
  | three {a b c t h} : n = 3 → IsRate n (.xsec a b c t h) a str!"cm6.s-1" b c str!"eV"
  | arrh {a ua b c uc as bs cs} : IsRate n (.arrh ((a, ua) :: as) (b :: bs) ((c, uc) :: cs)) a ua b c uc

/-- the names of the reactants and products of an imported reaction -/
def QdbLeaf.rs (x : QdbLeaf F) : List Str := x.master.reactants.map QdbRp.name
def QdbLeaf.ps (x : QdbLeaf F) : List Str := x.master.products.map QdbRp.name

/-- the data of a reaction: its dataset and rate -/
structure QdbLeaf.HasData (x : QdbLeaf F) (d : QdbDs F) (a : F) (ua : Str) (b c : F) (uc : Str) : Prop where
  children : x.children.length ≤ 1
  dataset : Chosen (Preferred (str!"e" ∈ x.rs)) x.datasets d
  rate : IsRate x.rs.length d.data a ua b c uc

/-- Species added for those of a list: the first one of each name that is not there yet. -/
structure Added (old : List (Val F)) (l N : List (QdbRp F)) : Prop where
  sub : N.Sublist l
  nodup : (N.map QdbRp.name).Nodup
  new : ∀ r ∈ N, .str r.name ∉ old
  first : ∀ r ∈ N, l.find? (fun q => q.name = r.name) = some r
  covers : ∀ r ∈ l, .str r.name ∈ old ∨ r.name ∈ N.map QdbRp.name

/-- the elements of imported species and reactions -/
def QdbRp.elem (C : Codec F) (r : QdbRp F) : Elem := rpElem C r.pk (r.attrs C) none (r.units C)
def QdbLeaf.elem (C : Codec F) (x : QdbLeaf F) (d : QdbDs F) (v : (F × Str) × F × (F × Str)) : Elem :=
  rxElem C x.rs x.ps x.sides.pk (x.attrs C d v) (x.units C d v)

/-- `e` is the element of a reaction -/
def QdbLeaf.Imports (C : Codec F) (x : QdbLeaf F) (e : Elem) : Prop :=
  ∃ d a ua b c uc, x.HasData d a ua b c uc ∧ e = x.elem C d ((a, ua), b, (c, uc))

/-! ### Proofs: species -/

theorem Added.nil (old : List (Val F)) : Added old [] [] :=
  ⟨.refl _, List.nodup_nil, by simp, by simp, by simp⟩

theorem Added.append {old : List (Val F)} {l l' N N' : List (QdbRp F)} (h : Added old l N)
    (h' : Added (old ++ N.map fun r => .str r.name) l' N') : Added old (l ++ l') (N ++ N') := by
  have hnew : ∀ r ∈ N', .str r.name ∉ old ∧ r.name ∉ N.map QdbRp.name := by
    intro r hr
    have := h'.new r hr
    rw [List.mem_append, not_or] at this
    refine ⟨this.1, fun hm => this.2 ?_⟩
    obtain ⟨q, hq, e⟩ := List.mem_map.1 hm
    exact List.mem_map.2 ⟨q, hq, by rw [e]⟩
  refine ⟨h.sub.append h'.sub, ?_, ?_, ?_, ?_⟩
  · rw [List.map_append, List.nodup_append]
    refine ⟨h.nodup, h'.nodup, ?_⟩
    rintro a ha b hb rfl
    obtain ⟨r, hr, rfl⟩ := List.mem_map.1 hb
    exact (hnew r hr).2 ha
  · intro r hr
    rcases List.mem_append.1 hr with hr | hr
    · exact h.new r hr
    · exact (hnew r hr).1
  · intro r hr
    rw [List.find?_append]
    rcases List.mem_append.1 hr with hr | hr
    · rw [h.first r hr]; rfl
    · have : l.find? (fun q => q.name = r.name) = none := by
        rw [List.find?_eq_none]
        intro q hq he
        have he : q.name = r.name := by simpa using he
        rcases h.covers q hq with hc | hc
        · exact (hnew r hr).1 (he ▸ hc)
        · exact (hnew r hr).2 (he ▸ hc)
      rw [this, h'.first r hr]; rfl
  · intro r hr
    rcases List.mem_append.1 hr with hr | hr
    · exact (h.covers r hr).imp_right fun hm => by rw [List.map_append]; exact List.mem_append_left _ hm
    · rcases h'.covers r hr with hc | hc
      · rcases List.mem_append.1 hc with hc | hc
        · exact .inl hc
        · obtain ⟨q, hq, e⟩ := List.mem_map.1 hc
          right
          rw [List.map_append]
          exact List.mem_append_left _ (List.mem_map.2 ⟨q, hq, Val.str.inj e⟩)
      · exact .inr (by rw [List.map_append]; exact List.mem_append_right _ hc)

theorem Added.one (old : List (Val F)) (r : QdbRp F) [DecidableEq F] :
    Added old [r] (if .str r.name ∈ old then [] else [r]) := by
  split
  · rename_i h
    exact ⟨List.nil_sublist _, List.nodup_nil, by simp, by simp, fun q hq => .inl (by rw [List.mem_singleton.1 hq]; exact h)⟩
  · rename_i h
    exact ⟨.refl _, by simp, by simpa using h, by simp, by simp⟩

section building
variable [DecidableEq F]

/-- a builder with further species and reactions -/
def Builder.plus (C : Codec F) (b : Builder F) (N : List (QdbRp F)) (R : List Elem) : Builder F :=
  { species := b.species ++ N.map (QdbRp.elem C), names := b.names ++ N.map fun r => .str r.name,
    reactions := b.reactions ++ R }

omit [DecidableEq F] in
theorem Builder.plus_plus (C : Codec F) (b : Builder F) (N N' : List (QdbRp F)) (R R' : List Elem) :
    (b.plus C N R).plus C N' R' = b.plus C (N ++ N') (R ++ R') := by
  simp [Builder.plus]

omit [DecidableEq F] in
theorem Builder.plus_nil (C : Codec F) (b : Builder F) : b.plus C [] [] = b := by simp [Builder.plus]

theorem addQdbRps_eq (C : Codec F) (b : Builder F) (l : List (QdbRp F)) :
    ∃ N, Added b.names l N ∧ b.addQdbRps C l = (.ok (), b.plus C N []) := by
  induction l generalizing b with
  | nil => exact ⟨[], .nil _, by rw [b.plus_nil]; rfl⟩
  | cons r l ih =>
    unfold Builder.addQdbRps
    by_cases h : Val.str r.name ∈ b.names
    · rw [if_pos h]
      obtain ⟨N, h1, h2⟩ := ih b
      refine ⟨N, ?_, h2⟩
      have := Added.one b.names r
      rw [if_pos h] at this
      exact (this.append (by simpa using h1) : Added b.names ([r] ++ l) ([] ++ N))
    · rw [if_neg h]
      have e : b.addQdbRp C r = .ok (b.plus C [r] []) := by
        unfold Builder.addQdbRp Builder.addRp
        rw [show (r.attrs C).get? str!"name" = some (.str r.name) from rfl]
        simp [h, Builder.plus, QdbRp.elem]
      rw [e]
      obtain ⟨N, h1, h2⟩ := ih (b.plus C [r] [])
      refine ⟨r :: N, ?_, ?_⟩
      · have := Added.one b.names r
        rw [if_neg h] at this
        exact (this.append h1 : Added b.names ([r] ++ l) ([r] ++ N))
      · rw [show (r :: N) = [r] ++ N from rfl, show ([] : List Elem) = [] ++ [] from rfl, ← Builder.plus_plus]
        exact h2

end building

/-! ### Proofs: datasets -/

theorem filter_first {α : Type} {p : α → Bool} {l : List α} {d : α} {m : List α} (h : l.filter p = d :: m) :
    ∃ l1 l2, l = l1 ++ d :: l2 ∧ p d = true ∧ ∀ x ∈ l1, ¬ p x = true := by
  induction l with
  | nil => cases h
  | cons x l ih =>
    rw [List.filter_cons] at h
    split at h
    · rename_i hx
      cases h
      exact ⟨[], l, rfl, hx, by simp⟩
    · rename_i hx
      obtain ⟨l1, l2, rfl, h2, h3⟩ := ih h
      refine ⟨x :: l1, l2, rfl, h2, ?_⟩
      intro y hy
      rcases List.mem_cons.1 hy with rfl | hy
      · exact hx
      · exact h3 y hy

theorem chooseDs_ok {rs : List Str} {l : List (QdbDs F)} {d : QdbDs F} (h : chooseDs rs l = .ok d) :
    Chosen (Preferred (str!"e" ∈ rs)) l d := by
  unfold chooseDs at h
  match l, h with
  | [d'], h => cases h; exact .inl rfl
  | d1 :: d2 :: l, h =>
    right
    refine ⟨by simp, ?_⟩
    dsimp only at h
    by_cases he : str!"e" ∈ rs
    · rw [if_pos he] at h
      have pr : ∀ t, Preferred (str!"e" ∈ rs) t ↔ t = 2 := fun t => by simp [Preferred, he]
      split at h
      · rename_i hf
        cases h
        obtain ⟨l1, l2, h1, h2, h3⟩ := filter_first hf
        exact .inl ⟨l1, l2, h1, by simpa [pr] using h2, fun x hx => by simpa [pr] using h3 x hx⟩
      · rename_i hf
        cases h
        refine .inr ⟨_, rfl, fun x hx => ?_⟩
        rw [pr]
        simpa using List.filter_eq_nil_iff.1 hf x hx
    · rw [if_neg he] at h
      have pr : ∀ t, Preferred (str!"e" ∈ rs) t ↔ t = 1 ∨ t = 3 := fun t => by simp [Preferred, he]
      split at h
      · rename_i hf
        cases h
        obtain ⟨l1, l2, h1, h2, h3⟩ := filter_first hf
        exact .inl ⟨l1, l2, h1, by simpa [pr] using h2, fun x hx => by simpa [pr] using h3 x hx⟩
      · rename_i hf
        cases h
        refine .inr ⟨_, rfl, fun x hx => ?_⟩
        rw [pr]
        simpa using List.filter_eq_nil_iff.1 hf x hx

/-- there is one choice -/
theorem Chosen.unique {p : Nat → Prop} {l : List (QdbDs F)} {d d' : QdbDs F} (h : Chosen p l d) (h' : Chosen p l d') :
    d = d' := by
  rcases h with h | ⟨hl, h⟩
  · rcases h' with h' | ⟨hl', -⟩
    · rw [h] at h'; exact (List.cons.inj h').1
    · rw [h] at hl'; simp at hl'
  · rcases h' with h' | ⟨-, h'⟩
    · rw [h'] at hl; simp at hl
    · rcases h with ⟨l1, l2, h1, h2, h3⟩ | ⟨l2, h1, h2⟩ <;> rcases h' with ⟨m1, m2, g1, g2, g3⟩ | ⟨m2, g1, g2⟩
      · rw [h1] at g1
        rcases List.append_eq_append_iff.1 g1 with ⟨u, e1, e2⟩ | ⟨u, e1, e2⟩
        · cases u with
          | nil => simp at e2; exact e2.1
          | cons y u =>
            simp only [List.cons_append, List.cons.injEq] at e2
            exact absurd h2 (g3 d (by rw [e1, e2.1]; simp))
        · cases u with
          | nil => simp at e2; exact e2.1.symm
          | cons y u =>
            simp only [List.cons_append, List.cons.injEq] at e2
            exact absurd g2 (h3 d' (by rw [e1, e2.1]; simp))
      · exact absurd h2 (g2 d (by rw [h1]; simp))
      · exact absurd g2 (h2 d' (by rw [g1]; simp))
      · rw [h1] at g1; exact (List.cons.inj g1).1

theorem Chosen.mem {p : Nat → Prop} {l : List (QdbDs F)} {d : QdbDs F} (h : Chosen p l d) : d ∈ l := by
  rcases h with h | ⟨-, ⟨l1, l2, h, -⟩ | ⟨l2, h, -⟩⟩ <;> rw [h] <;> simp

theorem chooseDs_iff {rs : List Str} {l : List (QdbDs F)} {d : QdbDs F} :
    chooseDs rs l = .ok d ↔ Chosen (Preferred (str!"e" ∈ rs)) l d := by
  refine ⟨chooseDs_ok, fun h => ?_⟩
  cases hc : chooseDs rs l with
  | ok d' => rw [(chooseDs_ok hc).unique h]
  | error e =>
    exfalso
    have hne : l ≠ [] := by
      rintro rfl
      exact absurd h.mem (by simp)
    unfold chooseDs at hc
    match l, hc, hne with
    | [], _, hne => exact hne rfl
    | [_], hc, _ => cases hc
    | _ :: _ :: _, hc, _ =>
      dsimp only at hc
      split at hc <;> split at hc <;> cases hc

theorem rate_iff {n : Nat} {d : QdbData F} {a : F} {ua : Str} {b c : F} {uc : Str} :
    d.rate n = .ok ((a, ua), b, (c, uc)) ↔ IsRate n d a ua b c uc := by
  constructor
  · intro h
    unfold QdbData.rate at h
    split at h
    · split at h
      · rename_i hn
        cases h; exact .two hn
      · split at h
        · rename_i hn
          cases h; exact .three hn
        · cases h
    · split at h
      · cases h
      · split at h
        · cases h
        · split at h
          · cases h
          · cases h
            exact .arrh
    · cases h
  · intro h
    cases h with
    | two hn => subst hn; rfl
    | three hn => subst hn; rfl
    | arrh => rfl

/-! ### Proofs: reactions -/

section building
variable [DecidableEq F]

/-- One reaction with data: its species and the reaction are added exactly if it has at most one child and data. -/
theorem addQdbLeaf_eq (C : Codec F) (b : Builder F) (x : QdbLeaf F)
    (hall : ∀ r ∈ x.master.reactants ++ x.master.products, r ∈ x.master.all) :
    (∃ N e, Added b.names x.master.all N ∧ x.Imports C e ∧ b.addQdbLeaf C x = (.ok (), b.plus C N [e])) ∨
    ((¬ ∃ e, x.Imports C e) ∧ ∃ N, (Added b.names x.master.all N ∨ N = []) ∧
      b.addQdbLeaf C x = (.error .xml, b.plus C N [])) := by
  unfold Builder.addQdbLeaf
  by_cases hc : 1 < x.children.length
  · rw [if_pos hc]
    refine .inr ⟨?_, [], .inr rfl, by rw [b.plus_nil]⟩
    rintro ⟨e, d, a, ua, v, c, uc, h, -⟩
    have := h.children
    omega
  rw [if_neg hc]
  obtain ⟨N, h1, h2⟩ := addQdbRps_eq C b x.master.all
  rw [h2]
  dsimp only
  cases hd : chooseDs (x.master.reactants.map QdbRp.name) x.datasets with
  | error e =>
    have he : e = .xml := by
      unfold chooseDs at hd
      split at hd
      · cases hd; rfl
      · cases hd
      · split at hd <;> split at hd <;> cases hd
    subst he
    refine .inr ⟨?_, N, .inl h1, rfl⟩
    rintro ⟨e, d, a, ua, v, c, uc, h, -⟩
    have := chooseDs_iff.2 h.dataset
    rw [show x.rs = x.master.reactants.map QdbRp.name from rfl, hd] at this
    cases this
  | ok d =>
    dsimp only
    cases hr : d.data.rate (x.master.reactants.map QdbRp.name).length with
    | error e =>
      have he : e = .xml := by
        unfold QdbData.rate at hr
        split at hr
        · split at hr
          · cases hr
          · split at hr <;> cases hr
            rfl
        · split at hr
          · cases hr; rfl
          · split at hr
            · cases hr; rfl
            · split at hr <;> cases hr
              rfl
        · cases hr; rfl
      subst he
      refine .inr ⟨?_, N, .inl h1, rfl⟩
      rintro ⟨e, d', a, ua, v, c, uc, h, -⟩
      have hdd : d = d' := (chooseDs_iff.1 hd).unique h.dataset
      subst hdd
      have := rate_iff.2 h.rate
      rw [show x.rs = x.master.reactants.map QdbRp.name from rfl, hr] at this
      cases this
    | ok v =>
      obtain ⟨⟨a, ua⟩, v, c, uc⟩ := v
      dsimp only
      left
      refine ⟨N, x.elem C d ((a, ua), v, (c, uc)), h1,
        ⟨d, a, ua, v, c, uc, ⟨by omega, chooseDs_iff.1 hd, rate_iff.1 hr⟩, rfl⟩, ?_⟩
      have hn : ¬ ∃ n ∈ x.master.reactants.map QdbRp.name ++ x.master.products.map QdbRp.name,
          Val.str n ∉ (b.plus C N []).names := by
        rintro ⟨n, hn, hno⟩
        rw [← List.map_append] at hn
        obtain ⟨r, hr, rfl⟩ := List.mem_map.1 hn
        apply hno
        show Val.str r.name ∈ b.names ++ N.map fun r => Val.str r.name
        rcases h1.covers r (hall r hr) with h | h
        · exact List.mem_append_left _ h
        · obtain ⟨q, hq, e⟩ := List.mem_map.1 h
          exact List.mem_append_right _ (List.mem_map.2 ⟨q, hq, by rw [e]⟩)
      unfold Builder.addRx
      rw [if_neg hn]
      simp [Builder.plus, QdbLeaf.elem, QdbLeaf.rs, QdbLeaf.ps]

/-- all reactions with data, one after the other -/
def Builder.addLeaves (C : Codec F) (b : Builder F) : List (QdbLeaf F) → Except Err Unit × Builder F
  | [] => (.ok (), b)
  | x :: l =>
    match b.addQdbLeaf C x with
    | (.error e, b) => (.error e, b)
    | (.ok (), b) => b.addLeaves C l

theorem addLeaves_append (C : Codec F) (b : Builder F) (l m : List (QdbLeaf F)) :
    b.addLeaves C (l ++ m) = match b.addLeaves C l with
      | (.error e, b) => (.error e, b)
      | (.ok (), b) => b.addLeaves C m := by
  induction l generalizing b with
  | nil => rfl
  | cons x l ih =>
    rw [List.cons_append, Builder.addLeaves, Builder.addLeaves]
    generalize b.addQdbLeaf C x = q
    obtain ⟨r, b'⟩ := q
    cases r with
    | error e => rfl
    | ok u => exact ih b'

mutual
theorem addQdbRx_leaves (C : Codec F) (b : Builder F) : ∀ x : QdbRx F, b.addQdbRx C x = b.addLeaves C x.leaves
  | .mk x [] => by
    rw [Builder.addQdbRx, QdbRx.leaves, Builder.addLeaves]
    generalize b.addQdbLeaf C x = q
    obtain ⟨r, b'⟩ := q
    cases r <;> rfl
  | .mk _ (p :: ps) => by
    rw [Builder.addQdbRx, QdbRx.leaves]
    exact addQdb_leaves C b (p :: ps)

theorem addQdb_leaves (C : Codec F) (b : Builder F) : ∀ l : List (QdbRx F), b.addQdb C l = b.addLeaves C (leavesAll l)
  | [] => by rw [Builder.addQdb, leavesAll]; rfl
  | x :: l => by
    rw [Builder.addQdb, leavesAll, addLeaves_append, addQdbRx_leaves C b x]
    generalize b.addLeaves C x.leaves = q
    obtain ⟨r, b'⟩ := q
    cases r with
    | error e => rfl
    | ok u => exact addQdb_leaves C b' l
end

/-- **C86.** Reactions of the database are imported in turn; a lumped reaction stands for the resolved reactions it
lumps. Either all of them have data, and then exactly the species they need that were not there (the first of each name)
and the reactions are added, or the import stops with an error at the first one without data, after adding those
before it (and perhaps species of that one). -/
theorem qdb_import (C : Codec F) (b : Builder F) (xs : List (QdbRx F))
    (hall : ∀ x ∈ leavesAll xs, ∀ r ∈ x.master.reactants ++ x.master.products, r ∈ x.master.all) :
    (∃ N R, Added b.names ((leavesAll xs).flatMap fun x => x.master.all) N ∧
      List.Forall₂ (QdbLeaf.Imports C) (leavesAll xs) R ∧ b.addQdb C xs = (.ok (), b.plus C N R)) ∨
    (∃ l1 x l2 N N' R, leavesAll xs = l1 ++ x :: l2 ∧ (¬ ∃ e, x.Imports C e) ∧
      Added b.names (l1.flatMap fun x => x.master.all) N ∧ N'.Sublist x.master.all ∧
      List.Forall₂ (QdbLeaf.Imports C) l1 R ∧ b.addQdb C xs = (.error .xml, b.plus C (N ++ N') R)) := by
  rw [addQdb_leaves]
  generalize leavesAll xs = l at hall
  induction l generalizing b with
  | nil => exact .inl ⟨[], [], .nil _, .nil, by rw [b.plus_nil]; rfl⟩
  | cons x l ih =>
    unfold Builder.addLeaves
    rcases addQdbLeaf_eq C b x (hall x (by simp)) with ⟨N, e, h1, h2, h3⟩ | ⟨h1, N, h2, h3⟩
    · rw [h3]
      dsimp only
      rcases ih (b.plus C N [e]) fun y hy => hall y (List.mem_cons_of_mem _ hy) with
        ⟨N', R, g1, g2, g3⟩ | ⟨l1, y, l2, N', N'', R, g0, g1, g2, g3, g4, g5⟩
      · left
        refine ⟨N ++ N', e :: R, ?_, .cons h2 g2, ?_⟩
        · rw [List.flatMap_cons]
          exact h1.append g1
        · rw [g3, Builder.plus_plus]; rfl
      · right
        refine ⟨x :: l1, y, l2, N ++ N', N'', e :: R, by rw [g0]; rfl, g1, ?_, g3, .cons h2 g4, ?_⟩
        · rw [List.flatMap_cons]
          exact h1.append g2
        · rw [g5, Builder.plus_plus, List.append_assoc]; rfl
    · rw [h3]
      right
      refine ⟨[], x, l, [], N, [], rfl, h1, .nil _, ?_, .nil, rfl⟩
      rcases h2 with h2 | rfl
      · exact h2.sub
      · exact List.nil_sublist _

end building

end Verif.Plaschem.Xml
