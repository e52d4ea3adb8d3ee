/-
C90: the LaTeX table of reactions (plaschem/latex.py:333-370, class `ReactionsTable`).
-/
import Verif.Plaschem.TexTableHist
import Verif.Plaschem.XmlDemo

namespace Verif.Plaschem.Tex

open LatexRate Classify Xml

variable {F : Type}

/-! ### Model -/

/-- plaschem/latex.py:99-145 for a reaction: `get_arrh_a` comes first, and formatting a missing value is a `TypeError`. -/
def rateText (N : NumFmt F) (C : Codec F) (x : Rx F) : Except Err Str := do
  match ← x.getArrhA C true with
  | none => throw .typeError
  | some a =>
    match ← x.getArrh C str!"arrh_b", ← x.getArrh C str!"arrh_c" with
    | some b, some c => texifyRate N false ⟨some a, b, c, ← x.isElectron C⟩
    | _, _ => throw .typeError

/-- plaschem/latex.py:343-367: the texts of one column. -/
def column (N : NumFmt F) (C : Codec F) (T : Str → Except Err Str) (rxs : List (Rx F)) (col : Str) :
    Except Err (List Str) :=
  if col = str!"ID" then .ok (rxs.map fun x => showNat x.id)
  else if col = str!"Reaction" then collect (fun x => do return str!"$" ++ (← x.getLatex C T) ++ str!"$") rxs
  else if col = str!"$k$" then collect (fun x => do return str!"$" ++ (← rateText N C x) ++ str!"$") rxs
  else if col = str!"$\\Delta E_\\mathrm{e}$" then
    collect (fun x => do
      match ← x.getFloat C str!"el_en_loss" with
      | some y => return lossCell N y
      | none => throw .typeError) rxs
  else if col = str!"Source" then
    collect (fun x => do return (← x.getText C str!"doi").getD str!"None") rxs
  else .error .valueError

/-- plaschem/latex.py:342-367: the columns in turn. -/
def columnsOf (N : NumFmt F) (C : Codec F) (T : Str → Except Err Str) (rxs : List (Rx F)) :
    List Str → Except Err (List (Str × List Str))
  | [] => .ok []
  | col :: cols => do
    let texts ← column N C T rxs col
    return (col, texts) :: (← columnsOf N C T rxs cols)

/-- the cell of a frame made of columns: the text at the place of the row in the column -/
def pick (ids : List Nat) (cols : List (Str × List Str)) (i : Nat) (c : Str) : Val :=
  match Dict.get? cols c with
  | some texts =>
    match texts[ids.idxOf i]? with
    | some s => .text s
    | none => .other str!"nan"
  | none => .other str!"nan"

/-- plaschem/latex.py:335-370 `ReactionsTable.__init__`. `rxs` are the enabled reactions, whose ids are the labels of the rows
(distinct in a chemistry); the columns are taken to be distinct, see `Frame`. -/
def reactionsTable (N : NumFmt F) (C : Codec F) (T : Str → Except Err Str) (rxs : List (Rx F)) (columns : List Str)
    (hi : (rxs.map Rx.id).Nodup) (hc : columns.Nodup) : Except Err (Table Nat) := do
  let cols ← columnsOf N C T rxs columns
  return Table.loadDataframe { tableType := str!"longtable" } ⟨rxs.map Rx.id, columns, pick (rxs.map Rx.id) cols, hi, hc⟩

/-! ### Specification -/

/-- what is to stand in the table for a reaction -/
inductive CellFor (N : NumFmt F) (C : Codec F) (T : Str → Except Err Str) (x : Rx F) : Str → Str → Prop
  | id : CellFor N C T x str!"ID" (Nat.toDigits 10 x.id)
  | reaction {s} : x.getLatex C T = .ok s → CellFor N C T x str!"Reaction" (str!"$" ++ s ++ str!"$")
  | rate {a b c el s} : x.getArrhA C true = .ok (some a) → x.getArrh C str!"arrh_b" = .ok (some b) →
      x.getArrh C str!"arrh_c" = .ok (some c) → x.isElectron C = .ok el → texifyRate N false ⟨some a, b, c, el⟩ = .ok s →
      CellFor N C T x str!"$k$" (str!"$" ++ s ++ str!"$")
  | loss {y} : x.getFloat C str!"el_en_loss" = .ok (some y) → CellFor N C T x str!"$\\Delta E_\\mathrm{e}$" (lossCell N y)
  | source : CellFor N C T x str!"Source" (((x.attr str!"doi").optText C).getD str!"None")

/-! ### proofs -/

variable {N : NumFmt F} {C : Codec F} {T : Str → Except Err Str} {rxs : List (Rx F)}

theorem bind_ok {α β : Type} {a : Except Err α} {f : α → Except Err β} {b : β} (h : (a >>= f) = .ok b) :
    ∃ x, a = .ok x ∧ f x = .ok b := by
  cases a with
  | error e => cases h
  | ok x => exact ⟨x, rfl, h⟩

theorem collect_forall₂ {α β : Type} {f : α → Except Err β} : ∀ {l : List α} {m : List β}, collect f l = .ok m →
    List.Forall₂ (fun a b => f a = .ok b) l m
  | [], m, h => by cases h; exact .nil
  | a :: l, m, h => by
    unfold collect at h
    cases ha : f a with
    | error e => rw [ha] at h; cases h
    | ok b =>
      rw [ha] at h
      cases hl : collect f l with
      | error e => rw [hl] at h; cases h
      | ok bs =>
        rw [hl] at h
        cases h
        exact .cons ha (collect_forall₂ hl)

theorem rateText_ok {x : Rx F} {s : Str} (h : rateText N C x = .ok s) : ∃ a b c el, x.getArrhA C true = .ok (some a) ∧
    x.getArrh C str!"arrh_b" = .ok (some b) ∧ x.getArrh C str!"arrh_c" = .ok (some c) ∧ x.isElectron C = .ok el ∧
    texifyRate N false ⟨some a, b, c, el⟩ = .ok s := by
  unfold rateText at h
  obtain ⟨a, ha, h⟩ := bind_ok h
  cases a with
  | none => cases h
  | some a =>
    simp only at h
    obtain ⟨b, hb, h⟩ := bind_ok h
    obtain ⟨c, hc, h⟩ := bind_ok h
    cases b with
    | none => cases h
    | some b =>
      cases c with
      | none => cases h
      | some c =>
        obtain ⟨el, he, h⟩ := bind_ok h
        exact ⟨a, b, c, el, ha, hb, hc, he, h⟩

theorem column_spec {col : Str} {texts : List Str} (h : column N C T rxs col = .ok texts) :
    List.Forall₂ (fun x s => CellFor N C T x col s) rxs texts := by
  unfold column at h
  split at h
  · rename_i e
    subst e
    cases h
    exact List.forall₂_map_right_iff.2 (List.forall₂_same.2 fun x _ => .id)
  split at h
  · rename_i e
    subst e
    refine (collect_forall₂ h).imp fun x s hs => ?_
    obtain ⟨l, hl, hs⟩ := bind_ok hs
    cases hs
    exact .reaction hl
  split at h
  · rename_i e
    subst e
    refine (collect_forall₂ h).imp fun x s hs => ?_
    obtain ⟨l, hl, hs⟩ := bind_ok hs
    cases hs
    obtain ⟨a, b, c, el, ha, hb, hc, he, hr⟩ := rateText_ok hl
    exact .rate ha hb hc he hr
  split at h
  · rename_i e
    subst e
    refine (collect_forall₂ h).imp fun x s hs => ?_
    obtain ⟨y, hy, hs⟩ := bind_ok hs
    cases y with
    | none => cases hs
    | some y =>
      cases hs
      exact .loss hy
  split at h
  · rename_i e
    subst e
    refine (collect_forall₂ h).imp fun x s hs => ?_
    obtain ⟨y, hy, hs⟩ := bind_ok hs
    cases hy
    cases hs
    exact .source
  · cases h

theorem columnsOf_spec : ∀ {columns : List Str} {cols : List (Str × List Str)}, columnsOf N C T rxs columns = .ok cols →
    Dict.keys cols = columns ∧ ∀ p ∈ cols, List.Forall₂ (fun x s => CellFor N C T x p.1 s) rxs p.2
  | [], cols, h => by
    cases h
    exact ⟨rfl, fun p hp => by cases hp⟩
  | col :: columns, cols, h => by
    unfold columnsOf at h
    obtain ⟨texts, ht, h⟩ := bind_ok h
    obtain ⟨rest, hr, h⟩ := bind_ok h
    cases h
    obtain ⟨h1, h2⟩ := columnsOf_spec hr
    refine ⟨by rw [← h1]; rfl, fun p hp => ?_⟩
    rcases List.mem_cons.1 hp with rfl | hp
    · exact column_spec ht
    · exact h2 p hp

theorem cellFor_unique {x : Rx F} {c s s' : Str} (h : CellFor N C T x c s) (h' : CellFor N C T x c s') : s = s' := by
  cases h with
  | id => cases h'; rfl
  | reaction h1 =>
    cases h' with
    | reaction h2 => rw [h1] at h2; cases h2; rfl
  | rate h1 h2 h3 h4 h5 =>
    cases h' with
    | rate g1 g2 g3 g4 g5 =>
      rw [h1] at g1; cases g1
      rw [h2] at g2; cases g2
      rw [h3] at g3; cases g3
      rw [h4] at g4; cases g4
      rw [h5] at g5; cases g5
      rfl
  | loss h1 =>
    cases h' with
    | loss h2 => rw [h1] at h2; cases h2; rfl
  | source => cases h'; rfl

/-- C90: the table of reactions has a row for every enabled reaction, in their order, with its data in each column. -/
theorem reactions_table {columns : List Str} {hi : (rxs.map Rx.id).Nodup} {hc : columns.Nodup} {t : Table Nat}
    (h : reactionsTable N C T rxs columns hi hc = .ok t) :
    t.frame.index = rxs.map Rx.id ∧ t.frame.columns = columns ∧
    ∀ x ∈ rxs, ∀ c ∈ columns, ∃ s, CellFor N C T x c s ∧ t.cellText x.id c = .ok (.text s) := by
  obtain ⟨cols, hcols, h⟩ := bind_ok h
  cases h
  refine ⟨rfl, rfl, fun x hx c hcm => ?_⟩
  obtain ⟨h1, h2⟩ := columnsOf_spec hcols
  obtain ⟨texts, ht⟩ := (Dict.mem_keys_iff cols c).1 (h1 ▸ hcm)
  have hf := h2 _ (Dict.mem_of_get? ht)
  -- the place of the reaction
  obtain ⟨n, hn, rfl⟩ := List.getElem_of_mem hx
  have hlen := hf.length_eq
  have hidx : (rxs.map Rx.id).idxOf rxs[n].id = n := by
    have : (rxs.map Rx.id)[n]'(by simpa using hn) = rxs[n].id := by simp
    rw [← this]
    exact hi.idxOf_getElem n _
  refine ⟨texts[n]'(hlen ▸ hn), ?_, ?_⟩
  · exact (List.forall₂_iff_get.1 hf).2 n hn (hlen ▸ hn)
  · change Except.ok (pick (rxs.map Rx.id) cols rxs[n].id c) = _
    rw [pick, ht, hidx]
    simp only [List.getElem?_eq_getElem (hlen ▸ hn : n < texts.length)]

/-- the columns there are -/
def known : List Str := [str!"ID", str!"Reaction", str!"$k$", str!"$\\Delta E_\\mathrm{e}$", str!"Source"]

theorem columnsOf_known : ∀ {columns : List Str} {cols : List (Str × List Str)}, columnsOf N C T rxs columns = .ok cols →
    ∀ c ∈ columns, c ∈ known
  | [], _, _ => fun c hc => by cases hc
  | col :: columns, cols, h => by
    unfold columnsOf at h
    obtain ⟨texts, ht, h⟩ := bind_ok h
    obtain ⟨rest, hr, h⟩ := bind_ok h
    intro c hc
    rcases List.mem_cons.1 hc with rfl | hc
    · by_contra hk
      simp only [known, List.mem_cons, List.not_mem_nil, or_false, not_or] at hk
      unfold column at ht
      rw [if_neg hk.1, if_neg hk.2.1, if_neg hk.2.2.1, if_neg hk.2.2.2.1, if_neg hk.2.2.2.2] at ht
      cases ht
    · exact columnsOf_known hr c hc

theorem OneCell.append {a b : Str} (ha : OneCell a) (hb : OneCell b) : OneCell (a ++ b) :=
  ⟨fun h => (List.mem_append.1 h).elim ha.1 hb.1, fun h => (List.mem_append.1 h).elim ha.2 hb.2⟩

theorem OneCell.subset {a b : Str} (hb : OneCell b) (h : ∀ c ∈ a, c ∈ b) : OneCell a :=
  ⟨fun hm => hb.1 (h _ hm), fun hm => hb.2 (h _ hm)⟩

theorem oneCell_rstrip {s : Str} (h : OneCell s) : OneCell (LatexRate.rstrip s) :=
  h.subset fun _ hc => (List.rdropWhile_prefix _ _).subset hc

theorem oneCell_digits (n : Nat) : OneCell (Nat.toDigits 10 n) := by
  constructor <;>
  · intro h
    have := Nat.isDigit_of_mem_toDigits (by decide) (by decide) h
    exact absurd this (by decide)

theorem oneCell_int (n : Int) : OneCell (showInt n) := by
  unfold showInt
  split
  · exact OneCell.append (a := ['-']) (by unfold OneCell; decide) (oneCell_digits _)
  · exact oneCell_digits _

theorem mem_splitE {s : Str} : ∀ p ∈ splitE s, ∀ c ∈ p, c ∈ s := by
  induction s with
  | nil => simp [splitE]
  | cons x s ih =>
    unfold splitE
    split
    · intro p hp c hc
      rcases List.mem_cons.1 hp with rfl | hp
      · cases hc
      · exact List.mem_cons_of_mem _ (ih p hp c hc)
    · split
      · simp
      · rename_i q ps e
        rw [e] at ih
        intro p hp c hc
        rcases List.mem_cons.1 hp with rfl | hp
        · rcases List.mem_cons.1 hc with rfl | hc
          · exact List.mem_cons_self
          · exact List.mem_cons_of_mem _ (ih q List.mem_cons_self c hc)
        · exact List.mem_cons_of_mem _ (ih p (List.mem_cons_of_mem _ hp) c hc)

instance (s : Str) : Decidable (OneCell s) := by unfold OneCell; infer_instance

theorem rate_oneCell (hN : ∀ x, OneCell (N.sci x) ∧ OneCell (N.round2 x)) {d : Bool} {k : Kin F} {s : Str}
    (h : texifyRate N d k = .ok s) : OneCell s := by
  unfold texifyRate at h
  obtain ⟨a, ha, h⟩ := bind_ok h
  cases h
  refine (OneCell.append ?_ ?_).append ?_
  · unfold texA at ha
    cases hk : k.a with
    | none => rw [hk] at ha; cases ha
    | some x =>
      rw [hk] at ha
      simp only at ha
      split at ha
      · rename_i p e hs
        obtain ⟨n, -, ha⟩ := bind_ok ha
        have hp : OneCell (LatexRate.rstrip p) := oneCell_rstrip ((hN x).1.subset fun c hc =>
          mem_splitE p (by rw [hs]; exact List.mem_cons_self) c hc)
        cases ha
        split
        · exact ((hp.append (by decide)).append (oneCell_int n)).append (by decide)
        · exact hp
      · cases ha
  · unfold texB
    have := oneCell_rstrip (hN k.b).2
    split
    · decide
    · simp only
      split
      · exact (OneCell.append (by decide) this).append (by decide)
      · split
        · exact (OneCell.append (by decide) this).append (by decide)
        · exact (OneCell.append (by decide) this).append (by decide)
  · unfold texC
    have := oneCell_rstrip (hN (N.abs k.c)).2
    have hs : OneCell (if N.val k.c > 0 then str!"-" else []) := by
      split <;> decide
    split
    · decide
    · simp only
      split
      · split
        · exact (((OneCell.append (by decide) hs).append (by decide)).append this).append (by decide)
        · exact ((OneCell.append (by decide) hs).append this).append (by decide)
      · split
        · exact (((OneCell.append (by decide) hs).append (by decide)).append this).append (by decide)
        · exact ((OneCell.append (by decide) hs).append this).append (by decide)

/-- C90: reading the LaTeX text of the table of reactions finds a row for every enabled reaction, in their order, with its
data under the columns asked for. Numbers are formatted without separators and line breaks; the LaTeX forms and the sources
of the reactions must not have any. -/
theorem reactions_table_read {columns : List Str} {hi : (rxs.map Rx.id).Nodup} {hc : columns.Nodup} {t : Table Nat}
    (h : reactionsTable N C T rxs columns hi hc = .ok t) (hne : columns ≠ [])
    (hN : ∀ x, OneCell (N.sci x) ∧ OneCell (N.round2 x)) (hl : ∀ x ∈ rxs, ∀ s, x.getLatex C T = .ok s → OneCell s)
    (hd : ∀ x ∈ rxs, ∀ s, (x.attr str!"doi").optText C = some s → OneCell s) :
    ∃ s, t.toStr = .ok s ∧ headOf (linesOf s) = some (columns.map fun c =>
        str!"\\multicolumn{1}{l}{\\textbf{" ++ c ++ str!"}}") ∧
      List.Forall₂ (fun x row => List.Forall₂ (fun c cell => ∃ w, CellFor N C T x c w ∧ cell = trim w) columns row)
        rxs (bodyOf true (linesOf s)) := by
  obtain ⟨h1, h2, h3⟩ := reactions_table h
  have hcell : ∀ x ∈ rxs, ∀ c s, CellFor N C T x c s → OneCell s := by
    intro x hx c s hs
    cases hs with
    | id => exact oneCell_digits _
    | reaction e => exact (OneCell.append (by decide) (hl x hx _ e)).append (by decide)
    | rate _ _ _ _ e => exact (OneCell.append (by decide) (rate_oneCell hN e)).append (by decide)
    | loss e =>
      unfold lossCell
      split
      · exact oneCell_rstrip (hN _).2
      · decide
    | source =>
      cases e : (x.attr str!"doi").optText C with
      | none => decide
      | some s => exact hd x hx s e
  have hk : ∀ c ∈ columns, c ∈ known := by
    obtain ⟨cols, hcols, -⟩ := bind_ok h
    exact columnsOf_known hcols
  have hknown : ∀ c ∈ known, OneCell c := by decide
  obtain ⟨hT, hnotes, hcap, hlab, hsp, hfs⟩ : t.tableType = str!"longtable" ∧ t.notes = [] ∧ t.caption = [] ∧ t.label = [] ∧
      t.spacing = str!"1.5" ∧ t.fontsize = str!"tiny" := by
    obtain ⟨cols, hcols, h⟩ := bind_ok h
    cases h
    exact ⟨rfl, rfl, rfl, rfl, rfl, rfl⟩
  -- the text of a cell
  have hg : ∀ i c, ∃ s, ∀ x ∈ rxs, x.id = i → c ∈ columns → CellFor N C T x c s ∧ t.cellText i c = .ok (.text s) := by
    intro i c
    by_cases hx : ∃ x ∈ rxs, x.id = i ∧ c ∈ columns
    · obtain ⟨x, hx, rfl, hcm⟩ := hx
      obtain ⟨s, hs, he⟩ := h3 x hx c hcm
      refine ⟨s, fun y hy e _ => ?_⟩
      have : y = x := List.inj_on_of_nodup_map hi hy hx e
      subst this
      exact ⟨hs, he⟩
    · exact ⟨[], fun x hm e hcm => absurd ⟨x, hm, e, hcm⟩ hx⟩
  choose g hg using hg
  obtain ⟨s, hs, hr⟩ := table_read (t := t) (long := true) (g := g) hT (tab := str!"    ") (by decide)
    ⟨by rw [hcap]; decide, by rw [hnotes]; simp, by rw [hlab]; decide, by rw [hsp]; decide,
      fun c hm => hknown c (hk c (h2 ▸ hm))⟩ (by rw [hfs]; decide) (by rw [h2]; exact hne) (by
        intro i hm c hcm
        rw [h1] at hm
        rw [h2] at hcm
        obtain ⟨x, hx, rfl⟩ := List.mem_map.1 hm
        obtain ⟨e1, e2⟩ := hg x.id c x hx rfl hcm
        exact ⟨e2, hcell x hx c _ e1⟩)
  refine ⟨s, hs, ?_, ?_⟩
  · rw [hr.head, h2]
    rfl
  · rw [hr.body, h1, h2, List.map_map]
    refine List.forall₂_map_right_iff.2 (List.forall₂_same.2 fun x hx => ?_)
    refine List.forall₂_map_right_iff.2 (List.forall₂_same.2 fun c hcm => ?_)
    exact ⟨_, (hg x.id c x hx rfl hcm).1, rfl⟩

/-- C90: an enabled reaction without Arrhenius parameters, or an unknown column: there is no table. -/
theorem reactions_table_refused {columns : List Str} (hi : (rxs.map Rx.id).Nodup) (hc : columns.Nodup)
    (h : (∃ c ∈ columns, c ∉ known) ∨ str!"$k$" ∈ columns ∧ ∃ x ∈ rxs, x.getArrhA C true = .ok none) :
    ∃ e, reactionsTable N C T rxs columns hi hc = .error e := by
  cases ht : reactionsTable N C T rxs columns hi hc with
  | error e => exact ⟨e, rfl⟩
  | ok t =>
    exfalso
    rcases h with ⟨c, hm, hk⟩ | ⟨hm, x, hx, ha⟩
    · obtain ⟨cols, hcols, -⟩ := bind_ok ht
      exact hk (columnsOf_known hcols c hm)
    · obtain ⟨s, hs, -⟩ := (reactions_table ht).2.2 x hx _ hm
      cases hs with
      | rate h1 => rw [ha] at h1; cases h1

end Verif.Plaschem.Tex
