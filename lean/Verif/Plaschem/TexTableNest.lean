/-
C90: the braces of a LaTeX table.
-/
import Verif.Plaschem.TexTableProps

namespace Verif.Plaschem.Tex

/-! ### Specification -/

/-- Reading a text with `d` braces open: how many are open after it. A backslash takes the character after it (`esc`: the
character before was such a backslash); a brace that was not opened cannot be closed. -/
def nest (esc : Bool) (d : Nat) : Str → Option Nat
  | [] => if esc then none else some d
  | c :: s =>
    if esc then nest false d s
    else if c = '\\' then nest true d s
    else if c = '{' then nest false (d + 1) s
    else if c = '}' then (if d = 0 then none else nest false (d - 1) s)
    else nest false d s

/-- In this text every brace is closed. -/
def Balanced (s : Str) : Prop := nest false 0 s = some 0

/-! ### Lemmas -/

theorem nest_append {b : Str} : ∀ {a : Str} {esc : Bool} {d e : Nat}, nest esc d a = some e →
    nest esc d (a ++ b) = nest false e b
  | [], esc, d, e, h => by
    cases esc with
    | true => cases h
    | false => cases h; rfl
  | c :: s, esc, d, e, h => by
    rw [List.cons_append, nest]
    rw [nest] at h
    split
    · rename_i h1; rw [if_pos h1] at h; exact nest_append h
    rename_i h1; rw [if_neg h1] at h
    split
    · rename_i h2; rw [if_pos h2] at h; exact nest_append h
    rename_i h2; rw [if_neg h2] at h
    split
    · rename_i h3; rw [if_pos h3] at h; exact nest_append h
    rename_i h3; rw [if_neg h3] at h
    split
    · rename_i h4
      rw [if_pos h4] at h
      split
      · rename_i h5; rw [if_pos h5] at h; cases h
      · rename_i h5; rw [if_neg h5] at h; exact nest_append h
    · rename_i h4; rw [if_neg h4] at h; exact nest_append h

theorem nest_more (k : Nat) : ∀ {s : Str} {esc : Bool} {d e : Nat}, nest esc d s = some e →
    nest esc (d + k) s = some (e + k)
  | [], esc, d, e, h => by
    cases esc with
    | true => cases h
    | false => cases h; rfl
  | c :: s, esc, d, e, h => by
    unfold nest at h ⊢
    split
    · rename_i h1; rw [if_pos h1] at h; exact nest_more k h
    rename_i h1; rw [if_neg h1] at h
    split
    · rename_i h2; rw [if_pos h2] at h; exact nest_more k h
    rename_i h2; rw [if_neg h2] at h
    split
    · rename_i h3
      rw [if_pos h3] at h
      have := nest_more k h
      rwa [Nat.add_right_comm] at this
    rename_i h3; rw [if_neg h3] at h
    split
    · rename_i h4
      rw [if_pos h4] at h
      split at h
      · cases h
      · rename_i h5
        rw [if_neg (by omega)]
        have := nest_more k h
        rwa [show d - 1 + k = d + k - 1 by omega] at this
    · rename_i h4; rw [if_neg h4] at h; exact nest_more k h

theorem Balanced.at {s : Str} (h : Balanced s) (d : Nat) : nest false d s = some d := by
  have := nest_more d h
  rwa [Nat.zero_add] at this

theorem Balanced.append {a b : Str} (ha : Balanced a) (hb : Balanced b) : Balanced (a ++ b) := by
  unfold Balanced
  rw [nest_append ha]
  exact hb

theorem Balanced.nil : Balanced [] := rfl

theorem Balanced.intercalate {sep : Str} (hs : Balanced sep) : ∀ {ls : List Str}, (∀ l ∈ ls, Balanced l) →
    Balanced (sep.intercalate ls)
  | [], _ => by simpa [List.intercalate] using Balanced.nil
  | [l], h => by rw [intercalate_single]; exact h l List.mem_cons_self
  | l :: m :: ls, h => by
    rw [intercalate_cons_cons]
    exact ((h l List.mem_cons_self).append hs).append
      (Balanced.intercalate hs fun y hy => h y (List.mem_cons_of_mem _ hy))

theorem balanced_plain {s : Str} (h : ∀ c ∈ s, c ≠ '\\' ∧ c ≠ '{' ∧ c ≠ '}') : Balanced s := by
  induction s with
  | nil => rfl
  | cons c s ih =>
    obtain ⟨h1, h2, h3⟩ := h c List.mem_cons_self
    unfold Balanced nest
    rw [if_neg (by decide), if_neg h1, if_neg h2, if_neg h3]
    exact ih fun c hc => h c (List.mem_cons_of_mem _ hc)

/-- the braces open after some lines -/
def through : Nat → List Str → Option Nat
  | d, [] => some d
  | d, l :: ls => (nest false d l).bind fun e => through e ls

theorem through_append : ∀ (a b : List Str) (d : Nat), through d (a ++ b) = (through d a).bind fun e => through e b
  | [], b, d => rfl
  | l :: a, b, d => by
    rw [List.cons_append, through, through]
    cases nest false d l with
    | none => rfl
    | some e => exact through_append a b e

theorem through_lines : ∀ {ls : List Str} {d e : Nat}, through d ls = some e → nest false d (['\n'].intercalate ls) = some e
  | [], d, e, h => by simpa [List.intercalate, through, nest] using h
  | [l], d, e, h => by
    rw [intercalate_single]
    unfold through at h
    cases hl : nest false d l with
    | none => rw [hl] at h; cases h
    | some k => rw [hl] at h; exact h
  | l :: m :: ls, d, e, h => by
    unfold through at h
    cases hl : nest false d l with
    | none => rw [hl] at h; cases h
    | some k =>
      rw [hl] at h
      rw [intercalate_cons_cons, List.append_assoc, nest_append hl]
      exact through_lines (ls := m :: ls) h

theorem through_balanced {ls : List Str} (h : ∀ l ∈ ls, Balanced l) (d : Nat) : through d ls = some d := by
  induction ls with
  | nil => rfl
  | cons l ls ih =>
    rw [through, (h l List.mem_cons_self).at d]
    exact ih fun x hx => h x (List.mem_cons_of_mem _ hx)

theorem through_to {A ls : List Str} {l : Str} {d e : Nat} (hA : ∀ l ∈ A, Balanced l) (hl : nest false d l = some e) :
    through d (A ++ l :: ls) = through e ls := by
  rw [through_append, through_balanced hA, Option.bind_some, through, hl]
  rfl

variable {ι : Type} [DecidableEq ι] {t : Table ι}

/-- the texts of a table, each with its braces closed -/
structure Braced (t : Table ι) : Prop where
  caption : Balanced t.caption
  notes : ∀ n ∈ t.notes, Balanced n.1 ∧ Balanced n.2
  label : Balanced t.label
  spacing : Balanced t.spacing
  fontsize : t.fontsize ∈ sizes
  columns : ∀ c ∈ t.frame.columns, Balanced c

theorem nest_tab {tab : Str} (ht : ∀ c ∈ tab, c = ' ') (d : Nat) (s : Str) : nest false d (tab ++ s) = nest false d s :=
  nest_append ((balanced_plain fun c hc => by rw [ht c hc]; decide).at d)

/-- a text between two pieces -/
theorem nest_between {a b s : Str} (hs : Balanced s) {d e f : Nat} (ha : nest false d a = some e)
    (hb : nest false e b = some f) : nest false d (a ++ s ++ b) = some f := by
  rw [nest_append ((nest_append ha).trans (hs.at e)), hb]

theorem balanced_row {cs : List Str} (h : ∀ c ∈ cs, Balanced c) : Balanced (rowLine cs) :=
  (Balanced.intercalate (by rfl) h).append (by rfl)

theorem balanced_caption (h : Braced t) : ∀ l ∈ t.captionLines, Balanced l := by
  intro l hl
  unfold Table.captionLines at hl
  rcases List.mem_cons.1 hl with rfl | hl
  · exact h.caption.append (by rfl)
  · obtain ⟨n, hn, rfl⟩ := List.mem_map.1 hl
    obtain ⟨h1, h2⟩ := h.notes n hn
    refine Balanced.append (Balanced.append ?_ h2) (by rfl)
    exact nest_between h1 (e := 1) (by rfl) (by rfl)

theorem sizes_balanced : ∀ f ∈ sizes, nest false 0 ('\\' :: f) = some 0 := by decide

theorem balanced_letters (n : Nat) : Balanced (List.replicate n 'l') :=
  balanced_plain fun c hc => by
    rw [List.eq_of_mem_replicate hc]
    decide

theorem balanced_nat (n : Nat) : Balanced (showNat n) := by
  refine balanced_plain fun c hc => ?_
  have := Nat.isDigit_of_mem_toDigits (by decide) (by decide) hc
  refine ⟨?_, ?_, ?_⟩ <;> rintro rfl <;> exact absurd this (by decide)

/-- C90: if the braces of all texts in a table are balanced, those of its text are. -/
theorem table_balanced (hT : t.tableType = str!"table" ∨ t.tableType = str!"longtable") {tab : Str}
    (ht : ∀ c ∈ tab, c = ' ') (hb : Braced t) {g : ι → Str → Str}
    (hg : ∀ i ∈ t.frame.index, ∀ c ∈ t.frame.columns, t.cellText i c = .ok (.text (g i c)) ∧ Balanced (g i c)) :
    ∃ s, t.toStr tab = .ok s ∧ Balanced s := by
  have hbody := bodyLines_ok fun i hi c hc => (hg i hi c hc).1
  have ht2 : ∀ c ∈ tab ++ tab, c = ' ' := fun c h => (List.mem_append.1 h).elim (ht c) (ht c)
  have htab : ∀ {s : Str}, Balanced s → Balanced (tab ++ s) := fun h => (nest_tab ht 0 _).trans h
  have htab2 : ∀ {s : Str}, Balanced s → Balanced (tab ++ tab ++ s) := fun h => (nest_tab ht2 0 _).trans h
  have hrow : ∀ i ∈ t.frame.index, Balanced (rowLine (t.frame.columns.map (g i))) := by
    intro i hi
    refine balanced_row fun c hm => ?_
    obtain ⟨c, hc, rfl⟩ := List.mem_map.1 hm
    exact (hg i hi c hc).2
  have hcap := balanced_caption hb
  have hcapb : ∀ l ∈ t.captionLines.map (fun l => tab ++ tab ++ l), Balanced l := by
    intro l hl
    obtain ⟨k, hk, rfl⟩ := List.mem_map.1 hl
    exact htab2 (hcap k hk)
  have hbet : ∀ {a s b : Str} (e : Nat), Balanced s → nest false 0 a = some e → nest false e b = some 0 →
      Balanced (tab ++ a ++ s ++ b) := by
    intro a s b e hs ha hb
    rw [List.append_assoc, List.append_assoc]
    refine htab ?_
    rw [← List.append_assoc]
    exact nest_between hs ha hb
  rcases hT with hT | hT
  · have hh : t.headerLine = .ok (rowLine (t.frame.columns.map fun c => str!"\\textbf{" ++ c ++ str!"}")) := by
      rw [Table.headerLine, if_pos hT]
      rfl
    have hhb : Balanced (rowLine (t.frame.columns.map fun c => str!"\\textbf{" ++ c ++ str!"}")) := by
      refine balanced_row fun c hm => ?_
      obtain ⟨c, hc, rfl⟩ := List.mem_map.1 hm
      exact nest_between (hb.columns c hc) (e := 1) (by rfl) (by rfl)
    refine ⟨['\n'].intercalate ([str!"\\begin{table}[!htb]", tab ++ str!"\\centering"] ++ (tab ++ str!"\\caption{") ::
      (t.captionLines.map (fun l => tab ++ tab ++ l) ++ (tab ++ str!"}") ::
      ([tab ++ str!"\\label{" ++ t.label ++ str!"}", str!"\\begingroup",
        str!"\\renewcommand{\\arraystretch}{" ++ t.spacing ++ str!"}"] ++ (tab ++ str!"\\resizebox{\\textwidth}{!}{%") ::
      (([tab ++ str!"\\begin{tabular}{" ++ List.replicate t.frame.columns.length 'l' ++ str!"}",
        tab ++ tab ++ rowLine (t.frame.columns.map fun c => str!"\\textbf{" ++ c ++ str!"}")] ++
        sepLines.map (fun l => tab ++ tab ++ l) ++
        (t.frame.index.map fun i => rowLine (t.frame.columns.map (g i))).map (fun l => tab ++ tab ++ l) ++
        sepLines.map (fun l => tab ++ tab ++ l) ++ [tab ++ str!"\\end{tabular}"]) ++ (tab ++ str!"}") ::
      [tab ++ str!"\\endgroup", str!"\\end{table}"])))), ?_, through_lines ?_⟩
    · rw [Table.toStr, if_pos hT, Table.tableLines, hh, hbody]
      simp only [pure, Except.pure, bind, Except.bind, List.append_assoc, List.cons_append, List.nil_append]
    · have hsep : ∀ l ∈ sepLines.map (fun l => tab ++ tab ++ l), Balanced l := by
        simp only [sepLines, List.map_cons, List.map_nil, List.forall_mem_cons, List.not_mem_nil, false_implies,
          implies_true, and_true]
        exact ⟨htab2 (by rfl), htab2 (by rfl), htab2 (by rfl)⟩
      have a1 : ∀ l ∈ [str!"\\begin{table}[!htb]", tab ++ str!"\\centering"], Balanced l := by
        simp only [List.forall_mem_cons, List.not_mem_nil, false_implies, implies_true, and_true]
        exact ⟨by rfl, htab (by rfl)⟩
      have a2 : ∀ l ∈ [tab ++ str!"\\label{" ++ t.label ++ str!"}", str!"\\begingroup",
          str!"\\renewcommand{\\arraystretch}{" ++ t.spacing ++ str!"}"], Balanced l := by
        simp only [List.forall_mem_cons, List.not_mem_nil, false_implies, implies_true, and_true]
        exact ⟨hbet 1 hb.label (by rfl) (by rfl), by rfl, nest_between hb.spacing (e := 1) (by rfl) (by rfl)⟩
      have a4 : ∀ l ∈ [tab ++ str!"\\endgroup", str!"\\end{table}"], Balanced l := by
        simp only [List.forall_mem_cons, List.not_mem_nil, false_implies, implies_true, and_true]
        exact ⟨htab (by rfl), by rfl⟩
      rw [through_to a1 ((nest_tab ht 0 _).trans (by rfl : _ = some 1)),
        through_to hcapb ((nest_tab ht 1 _).trans (by rfl : _ = some 0)),
        through_to a2 ((nest_tab ht 0 _).trans (by rfl : _ = some 1)),
        through_to ?_ ((nest_tab ht 1 _).trans (by rfl : _ = some 0)), through_balanced a4]
      intro l hl
      simp only [List.mem_append, List.mem_cons, List.not_mem_nil, or_false] at hl
      rcases hl with ((((rfl | rfl) | hl) | hl) | hl) | rfl
      · exact hbet 1 (balanced_letters _) (by rfl) (by rfl)
      · exact htab2 hhb
      · exact hsep l hl
      · rw [List.map_map] at hl
        obtain ⟨i, hi, rfl⟩ := List.mem_map.1 hl
        exact htab2 (hrow i hi)
      · exact hsep l hl
      · exact htab (by rfl)
  · have hnT : t.tableType ≠ str!"table" := by rw [hT]; decide
    have hh : t.headerLine =
        .ok (rowLine (t.frame.columns.map fun c => str!"\\multicolumn{1}{l}{\\textbf{" ++ c ++ str!"}}")) := by
      rw [Table.headerLine, if_neg hnT, if_pos hT]
      rfl
    have hhb : Balanced (rowLine (t.frame.columns.map fun c => str!"\\multicolumn{1}{l}{\\textbf{" ++ c ++ str!"}}")) := by
      refine balanced_row fun c hm => ?_
      obtain ⟨c, hc, rfl⟩ := List.mem_map.1 hm
      exact nest_between (hb.columns c hc) (e := 2) (by rfl) (by rfl)
    obtain ⟨L, hL, e⟩ : ∃ L, (∀ l ∈ L, Balanced l) ∧ t.toStr tab = .ok (['\n'].intercalate (['\\' :: t.fontsize,
        str!"\\begin{longtable}{" ++ List.replicate t.frame.columns.length 'l' ++ str!"}"] ++ (tab ++ str!"\\caption{") ::
        (t.captionLines.map (fun l => tab ++ tab ++ l) ++ (tab ++ str!"}") :: L))) := by
      refine ⟨[tab ++ str!"\\label{" ++ t.label ++ str!"} \\\\",
        tab ++ rowLine (t.frame.columns.map fun c => str!"\\multicolumn{1}{l}{\\textbf{" ++ c ++ str!"}}")] ++
        sepLines.map (tab ++ ·) ++ [tab ++ str!"\\endfirsthead", [],
          tab ++ str!"\\multicolumn{" ++ showNat t.frame.columns.length ++
            str!"}{c}{{\\tablename\\ \\thetable{} (\\textit{Continued})}} \\\\",
          tab ++ rowLine (t.frame.columns.map fun c => str!"\\multicolumn{1}{l}{\\textbf{" ++ c ++ str!"}}")] ++
        sepLines.map (tab ++ ·) ++ [tab ++ str!"\\endhead", []] ++ sepLines.map (tab ++ ·) ++
        [tab ++ str!"\\multicolumn{" ++ showNat t.frame.columns.length ++
          str!"}{r}{\\textit{Continued on next page}} \\\\", tab ++ str!"\\endfoot", []] ++ sepLines.map (tab ++ ·) ++
        [tab ++ str!"\\endlastfoot", []] ++
        (t.frame.index.map fun i => rowLine (t.frame.columns.map (g i))).map (tab ++ ·) ++
        [str!"\\end{longtable}", str!"\\normalsize"], ?_, ?_⟩
      · simp only [sepLines, List.map_cons, List.map_nil, List.forall_mem_append, List.forall_mem_cons, List.forall_mem_map,
          List.not_mem_nil, false_implies, implies_true, and_true]
        and_intros
        all_goals first
          | exact htab hhb
          | exact hbet 1 hb.label (by rfl) (by rfl)
          | exact hbet 1 (balanced_nat _) (by rfl) (by decide +kernel)
          | exact fun i hi => htab (hrow i hi)
          | rfl
          | exact htab (by rfl)
      · rw [Table.toStr, if_neg hnT, if_pos hT, Table.longLines, hh, hbody]
        simp only [pure, Except.pure, bind, Except.bind, List.append_assoc, List.cons_append, List.nil_append]
    refine ⟨_, e, through_lines ?_⟩
    have a1 : ∀ l ∈ ['\\' :: t.fontsize,
        str!"\\begin{longtable}{" ++ List.replicate t.frame.columns.length 'l' ++ str!"}"], Balanced l := by
      simp only [List.forall_mem_cons, List.not_mem_nil, false_implies, implies_true, and_true]
      exact ⟨sizes_balanced _ hb.fontsize, nest_between (balanced_letters _) (e := 1) (by rfl) (by rfl)⟩
    rw [through_to a1 ((nest_tab ht 0 _).trans (by rfl : _ = some 1)),
      through_to hcapb ((nest_tab ht 1 _).trans (by rfl : _ = some 0)), through_balanced hL]

end Verif.Plaschem.Tex
