/-
Comparing logged runs: `ResultsParser._parse_run_identifiers`, `_fetch_results_dir` and `compare`
(pygmo_fwork/results.py:29-58, 96-137, 559-614). Property C79.
-/
import Verif.Plaschem.Stoich
import Verif.Fwork.MorrisRuns
import Mathlib.Data.List.Dedup
import Mathlib.Data.Real.Basic
import Mathlib.Tactic.FieldSimp
import Mathlib.Tactic.Ring

namespace Verif.Fwork.Compare
open Verif.Plaschem
open Verif.Fwork.MorrisRuns (lower)

/-- how a run is referred to: a string or a collection of strings -/
inductive Run
  | id (s : Str)
  | coll (l : List Str)

inductive CErr
  | index | attribute | notFound
  deriving DecidableEq, Repr

/-- results.py:114 the dictionary of keyword arguments -/
structure Ids where
  runId : Str
  backend : Option Str := none
  resultsDir : Option Str := none
  fileName : Option Str := none
  deriving DecidableEq

/-- config.py:15-18 with the comparison of results.py:123, 131 -/
def isBackend (s : Str) : Bool := [str!"pygmol", str!"pygkin"].contains (lower s)

/-- results.py:114-137 `_parse_run_identifiers`; `isDir` is `os.path.isdir` at the time of the call -/
def parseIds (isDir : Str → Bool) (run : Run) : Except CErr Ids :=
  match (match run with
    | .id s => [s]
    | .coll l => l) with
  | [] => .error .index
  | [i] => .ok { runId := i }
  | [i, a] =>
    if isBackend a then .ok { runId := i, backend := some a }
    else if isDir a then .ok { runId := i, resultsDir := some a }
    else .ok { runId := i, fileName := some a }
  | [i, a, f] =>
    if isBackend a then .ok { runId := i, backend := some a, fileName := some f }
    else .ok { runId := i, resultsDir := some a, fileName := some f }
  | _ => .error .attribute

/-- results.py:42-58 `_fetch_results_dir` with `Config.get_results_dir` (config.py:57-72): the directories of
the backends are the values of `cfg` -/
def fetchDir (cfg : Str → Str) (nominal : Str) (ids : Ids) : Except CErr Str :=
  match ids.backend, ids.resultsDir with
  | none, some d => .ok d
  | some b, none => if isBackend b then .ok (cfg (lower b)) else .error .attribute
  | none, none => .ok nominal
  | some _, some _ => .error .attribute

/-- the last row of a logged solution -/
abbrev Row := Dict Str ℝ

/-- results.py:141-166 `fetch_solution` and the last row of the result; `read dir run_id file` is what is found
in the file system (`Log.fetch`) -/
def fetchLast (cfg : Str → Str) (nominal : Str) (read : Str → Str → Str → Option Row) (ids : Ids) :
    Except CErr Row :=
  match fetchDir cfg nominal ids with
  | .error e => .error e
  | .ok d => match read d ids.runId (ids.fileName.getD str!"solution.csv") with
    | none => .error .notFound
    | some r => .ok r

/-- `os.path.split(p)[-1]` -/
def tailOf (p : Str) : Str := (p.reverse.takeWhile (· ≠ '/')).reverse

/-- `os.path.join(a, b)` for a string `a` that does not end with a slash and is not empty -/
def joinStr (a b : Str) : Str := if b.head? = some '/' then b else a ++ str!"/" ++ b

/-- results.py:588-599 the name of a row. (The nominal directory is a `Path` or a string.) -/
def rowName (nominal : Str) (ids : Ids) : Str :=
  let parent := (ids.backend.or (ids.resultsDir.map tailOf)).getD (tailOf nominal)
  let name := joinStr (str!"..." ++ parent) ids.runId
  if name.length > 40 then str!"..." ++ name.drop (name.length - 40) else name

/-- the comparison of one run -/
def compareOne (isDir : Str → Bool) (cfg : Str → Str) (nominal : Str) (read : Str → Str → Str → Option Row)
    (run : Run) : Except CErr (Str × Row) :=
  match parseIds isDir run with
  | .error e => .error e
  | .ok ids => match fetchLast cfg nominal read ids with
    | .error e => .error e
    | .ok r => .ok (rowName nominal ids, r)

/-- `(v - v0) / v0 * 100`; not a number if a value is missing, not finite if `v0` is zero -/
noncomputable def relative (v0 v : Option ℝ) : Option ℝ :=
  match v0, v with
  | some a, some b => if a = 0 then none else some ((b - a) / a * 100)
  | _, _ => none

/-- the values of a table with the rows of different runs: columns are the union -/
def columns (rows : List Row) : List Str := (rows.flatMap Dict.keys).dedup

/-- results.py:583-614 `compare`: names of the rows, and the value by row and column (`none`: `nan` or
infinite) -/
noncomputable def compare (isDir : Str → Bool) (cfg : Str → Str) (nominal : Str)
    (read : Str → Str → Str → Option Row) (runs : List Run) (rel : Bool) :
    Except CErr (List Str × List (Dict Str (Option ℝ))) :=
  match runs.mapM (compareOne isDir cfg nominal read) with
  | .error e => .error e
  | .ok rows =>
    let cols := columns (rows.map Prod.snd)
    match rel, rows with
    | true, [] => .error .index
    | true, r0 :: _ =>
      .ok (rows.map Prod.fst, rows.map (fun r => cols.map (fun c => (c, relative (r0.2.get? c) (r.2.get? c)))))
    | false, _ => .ok (rows.map Prod.fst, rows.map (fun r => cols.map (fun c => (c, r.2.get? c))))

/-! ### C79 -/

/-- **C79.** The documented ways to refer to a run: the meaning of each. A name of a backend, in any case, is
always taken as one. -/
theorem parse_forms (isDir : Str → Bool) (i a f : Str) :
    parseIds isDir (.id i) = .ok { runId := i } ∧
    parseIds isDir (.coll [i]) = .ok { runId := i } ∧
    (isBackend a = true → parseIds isDir (.coll [i, a]) = .ok { runId := i, backend := some a } ∧
      parseIds isDir (.coll [i, a, f]) = .ok { runId := i, backend := some a, fileName := some f }) ∧
    (isBackend a = false → isDir a = true →
      parseIds isDir (.coll [i, a]) = .ok { runId := i, resultsDir := some a }) ∧
    (isBackend a = false → isDir a = false →
      parseIds isDir (.coll [i, a]) = .ok { runId := i, fileName := some a }) ∧
    (isBackend a = false →
      parseIds isDir (.coll [i, a, f]) = .ok { runId := i, resultsDir := some a, fileName := some f }) := by
  refine ⟨rfl, rfl, fun h => ?_, fun h h' => ?_, fun h h' => ?_, fun h => ?_⟩ <;> simp [parseIds, h]
  · simp [h']
  · simp [h']

/-- the directory and the file that a run refers to -/
inductive Refers (isDir : Str → Bool) (cfg : Str → Str) (nominal : Str) : Run → Str → Str → Str → Prop
  | id (i) : Refers isDir cfg nominal (.id i) nominal i str!"solution.csv"
  | one (i) : Refers isDir cfg nominal (.coll [i]) nominal i str!"solution.csv"
  | backend (i a) (h : isBackend a = true) :
      Refers isDir cfg nominal (.coll [i, a]) (cfg (lower a)) i str!"solution.csv"
  | backendFile (i a f) (h : isBackend a = true) :
      Refers isDir cfg nominal (.coll [i, a, f]) (cfg (lower a)) i f
  | dir (i a) (h : isBackend a = false) (hd : isDir a = true) :
      Refers isDir cfg nominal (.coll [i, a]) a i str!"solution.csv"
  | file (i a) (h : isBackend a = false) (hd : isDir a = false) :
      Refers isDir cfg nominal (.coll [i, a]) nominal i a
  | dirFile (i a f) (h : isBackend a = false) : Refers isDir cfg nominal (.coll [i, a, f]) a i f

theorem compareOne_ok {isDir : Str → Bool} {cfg : Str → Str} {nominal : Str}
    {read : Str → Str → Str → Option Row} {run : Run} {r : Row} :
    (∃ n, compareOne isDir cfg nominal read run = .ok (n, r)) ↔
      ∃ d i f, Refers isDir cfg nominal run d i f ∧ read d i f = some r := by
  have key : ∀ ids, parseIds isDir run = .ok ids → ∀ d, fetchDir cfg nominal ids = .ok d →
      Refers isDir cfg nominal run d ids.runId (ids.fileName.getD str!"solution.csv") →
      ((∃ n, compareOne isDir cfg nominal read run = .ok (n, r)) ↔
        ∃ d i f, Refers isDir cfg nominal run d i f ∧ read d i f = some r) := by
    intro ids hids d hd href
    unfold compareOne
    rw [hids]
    simp only
    unfold fetchLast
    rw [hd]
    simp only
    have huniq : ∀ d' i' f', Refers isDir cfg nominal run d' i' f' →
        d' = d ∧ i' = ids.runId ∧ f' = ids.fileName.getD str!"solution.csv" := by
      intro d' i' f' h'
      generalize ids.runId = x at *
      generalize ids.fileName.getD str!"solution.csv" = y at *
      clear hd hids
      cases href <;> cases h' <;> first
        | exact ⟨rfl, rfl, rfl⟩
        | (rename_i h1 h2; rw [h1] at h2; cases h2)
        | (rename_i h1 h2 h3; first | (rw [h1] at h2; cases h2) | (rw [h1] at h3; cases h3) | (rw [h2] at h3; cases h3))
        | (rename_i h1 h2 h3 h4; first | (rw [h2] at h4; cases h4) | (rw [h1] at h3; cases h3))
    constructor
    · rintro ⟨n, h⟩
      split at h
      · cases h
      · rename_i r' hr
        split at hr
        · cases hr
        · rename_i r'' hrr
          cases hr; cases h
          exact ⟨d, _, _, href, hrr⟩
    · rintro ⟨d', i', f', h', hr⟩
      obtain ⟨rfl, rfl, rfl⟩ := huniq _ _ _ h'
      rw [hr]
      exact ⟨_, rfl⟩
  match run with
  | .id i => exact key _ rfl _ rfl (.id i)
  | .coll [] =>
    constructor
    · rintro ⟨n, h⟩; cases h
    · rintro ⟨d, i, f, h, -⟩; cases h
  | .coll [i] => exact key _ rfl _ rfl (.one i)
  | .coll [i, a] =>
    cases hb : isBackend a with
    | true =>
      exact key { runId := i, backend := some a } (by simp [parseIds, hb]) (cfg (lower a))
        (by simp [fetchDir, hb]) (.backend i a hb)
    | false =>
      cases hd : isDir a with
      | true =>
        exact key { runId := i, resultsDir := some a } (by simp [parseIds, hb, hd]) a
          (by simp [fetchDir]) (.dir i a hb hd)
      | false =>
        exact key { runId := i, fileName := some a } (by simp [parseIds, hb, hd]) nominal
          (by simp [fetchDir]) (.file i a hb hd)
  | .coll [i, a, f] =>
    cases hb : isBackend a with
    | true =>
      exact key { runId := i, backend := some a, fileName := some f } (by simp [parseIds, hb])
        (cfg (lower a)) (by simp [fetchDir, hb]) (.backendFile i a f hb)
    | false =>
      exact key { runId := i, resultsDir := some a, fileName := some f } (by simp [parseIds, hb])
        a (by simp [fetchDir]) (.dirFile i a f hb)
  | .coll (_ :: _ :: _ :: _ :: _) =>
    constructor
    · rintro ⟨n, h⟩; cases h
    · rintro ⟨d, i, f, h, -⟩; cases h

theorem mapM_ok {α β ε : Type} {f : α → Except ε β} {l : List α} {r : List β} :
    l.mapM f = .ok r ↔ List.Forall₂ (fun a b => f a = .ok b) l r := by
  induction l generalizing r with
  | nil => simp [pure, Except.pure, eq_comm]
  | cons a l ih =>
    rw [List.mapM_cons]
    cases ha : f a with
    | error e =>
      simp only [bind, Except.bind]
      constructor
      · intro h; cases h
      · intro h; cases h with
        | cons h1 h2 => rw [ha] at h1; cases h1
    | ok b =>
      simp only [bind, Except.bind]
      cases hl : l.mapM f with
      | error e =>
        constructor
        · intro h; cases h
        · intro h; cases h with
          | cons h1 h2 => rw [ih.2 h2] at hl; cases hl
      | ok bs =>
        constructor
        · intro h
          simp only [pure, Except.pure] at h
          cases h; exact .cons ha (ih.1 hl)
        · intro h; cases h with
          | cons h1 h2 =>
            rw [ha] at h1; cases h1
            rw [ih.2 h2] at hl; cases hl
            rfl

theorem refers_unique {isDir : Str → Bool} {cfg : Str → Str} {nominal : Str} {run : Run}
    {d i f d' i' f' : Str} (h : Refers isDir cfg nominal run d i f) (h' : Refers isDir cfg nominal run d' i' f') :
    d' = d ∧ i' = i ∧ f' = f := by
  cases h <;> cases h' <;> first
    | exact ⟨rfl, rfl, rfl⟩
    | (rename_i h1 h2; rw [h1] at h2; cases h2)
    | (rename_i h1 h2 h3; first | (rw [h1] at h2; cases h2) | (rw [h1] at h3; cases h3) | (rw [h2] at h3; cases h3))
    | (rename_i h1 h2 h3 h4; first | (rw [h2] at h4; cases h4) | (rw [h1] at h3; cases h3))

theorem get?_graph {β : Type} (l : List Str) (g : Str → β) {c : Str} (h : c ∈ l) :
    Dict.get? (l.map (fun c => (c, g c))) c = some (g c) := by
  induction l with
  | nil => cases h
  | cons a l ih =>
    rw [List.map_cons, Dict.get?_cons]
    by_cases hac : a = c
    · subst hac; simp
    · rw [if_neg hac]
      exact ih (by simpa [Ne.symm hac] using h)

theorem mem_columns {rows : List Row} {r : Row} (hr : r ∈ rows) {c : Str} {v : ℝ} (h : r.get? c = some v) :
    c ∈ columns rows := by
  unfold columns
  rw [List.mem_dedup, List.mem_flatMap]
  exact ⟨r, hr, (Dict.mem_keys_iff r c).2 ⟨v, h⟩⟩

/-- **C79.** A comparison succeeds exactly if each run refers to a solution that is there (and, for relative
values, there is a run), whatever the order and number of runs. It then has one row per run, in the order
given; a value is that of the last row of the solution the run refers to, or its relative difference in percent
to that of the first run. -/
theorem compare_exact {isDir : Str → Bool} {cfg : Str → Str} {nominal : Str}
    {read : Str → Str → Str → Option Row} {runs : List Run} {rel : Bool} :
    ((∃ T, compare isDir cfg nominal read runs rel = .ok T) ↔ (rel = true → runs ≠ []) ∧
      ∀ run ∈ runs, ∃ d i f r, Refers isDir cfg nominal run d i f ∧ read d i f = some r) ∧
    ∀ names vals, compare isDir cfg nominal read runs rel = .ok (names, vals) →
      names.length = runs.length ∧ vals.length = runs.length ∧
      ∀ (k : Nat) (run : Run), runs[k]? = some run → ∃ d i f r col, Refers isDir cfg nominal run d i f ∧
        read d i f = some r ∧ vals[k]? = some col ∧ ∀ c v, r.get? c = some v →
          (rel = false → col.get? c = some (some v)) ∧
          (rel = true → ∀ run0 d0 i0 f0 r0 v0, runs[0]? = some run0 → Refers isDir cfg nominal run0 d0 i0 f0 →
            read d0 i0 f0 = some r0 → r0.get? c = some v0 → v0 ≠ 0 →
            ∃ x, col.get? c = some (some x) ∧ v = v0 * (1 + x / 100)) := by
  have hone := fun run r => compareOne_ok (isDir := isDir) (cfg := cfg) (nominal := nominal) (read := read)
    (run := run) (r := r)
  constructor
  · constructor
    · rintro ⟨T, h⟩
      unfold compare at h
      split at h
      · cases h
      rename_i rows hrows
      have hF := mapM_ok.1 hrows
      refine ⟨?_, fun run hrun => ?_⟩
      · rintro rfl rfl
        cases hF
        simp at h
      · obtain ⟨b, hb⟩ : ∃ b, compareOne isDir cfg nominal read run = .ok b := by
          clear h hrows
          induction hF with
          | nil => cases hrun
          | cons h1 _ ih =>
            rcases List.mem_cons.1 hrun with rfl | h'
            · exact ⟨_, h1⟩
            · exact ih h'
        obtain ⟨d, i, f, h1, h2⟩ := (hone run b.2).1 ⟨b.1, hb⟩
        exact ⟨d, i, f, _, h1, h2⟩
    · rintro ⟨hne, hall⟩
      obtain ⟨rows, hF⟩ : ∃ rows, List.Forall₂ (fun a b => compareOne isDir cfg nominal read a = .ok b) runs rows := by
        clear hne
        induction runs with
        | nil => exact ⟨[], .nil⟩
        | cons a l ih =>
          obtain ⟨rows, hr⟩ := ih (fun run hm => hall run (by simp [hm]))
          obtain ⟨d, i, f, r, h1, h2⟩ := hall a (by simp)
          obtain ⟨n, hn⟩ := (hone a r).2 ⟨d, i, f, h1, h2⟩
          exact ⟨(n, r) :: rows, .cons hn hr⟩
      unfold compare
      rw [mapM_ok.2 hF]
      cases rel with
      | false => exact ⟨_, rfl⟩
      | true =>
        cases hF with
        | nil => exact absurd rfl (hne rfl)
        | cons _ _ => exact ⟨_, rfl⟩
  · intro names vals h
    unfold compare at h
    split at h
    · cases h
    rename_i rows hrows
    have hF := mapM_ok.1 hrows
    have hlen := hF.length_eq
    have hnth : ∀ (k : Nat) (run : Run), runs[k]? = some run → ∃ b, rows[k]? = some b ∧
        compareOne isDir cfg nominal read run = .ok b := by
      intro k run hk
      obtain ⟨hk', rfl⟩ := List.getElem?_eq_some_iff.1 hk
      refine ⟨rows[k]'(hlen ▸ hk'), List.getElem?_eq_getElem _, ?_⟩
      exact (List.forall₂_iff_get.1 hF).2 k hk' (hlen ▸ hk')
    cases rel with
    | false =>
      simp only [Except.ok.injEq, Prod.mk.injEq] at h
      obtain ⟨rfl, rfl⟩ := h
      refine ⟨by simp [hlen], by simp [hlen], fun k run hk => ?_⟩
      obtain ⟨b, hb, hc⟩ := hnth k run hk
      obtain ⟨d, i, f, h1, h2⟩ := (hone run b.2).1 ⟨b.1, hc⟩
      refine ⟨d, i, f, b.2, _, h1, h2, by rw [List.getElem?_map, hb]; rfl, fun c v hv =>
        ⟨fun _ => ?_, fun h => by cases h⟩⟩
      rw [get?_graph _ (fun c => Dict.get? b.2 c)
        (mem_columns (List.mem_map_of_mem (List.mem_of_getElem? hb)) hv), hv]
    | true =>
      cases rows with
      | nil => simp at h
      | cons r0 rest =>
        simp only [Except.ok.injEq, Prod.mk.injEq] at h
        obtain ⟨rfl, rfl⟩ := h
        refine ⟨by simp [hlen], by simp [hlen], fun k run hk => ?_⟩
        obtain ⟨b, hb, hc⟩ := hnth k run hk
        obtain ⟨d, i, f, h1, h2⟩ := (hone run b.2).1 ⟨b.1, hc⟩
        refine ⟨d, i, f, b.2, _, h1, h2, by rw [List.getElem?_map, hb]; rfl, fun c v hv =>
          ⟨fun h => (by cases h), fun _ run0 d0 i0 f0 r0' v0 hk0 href0 hread0 hv0 hne => ?_⟩⟩
        obtain ⟨b0, hb0, hc0⟩ := hnth 0 run0 hk0
        have hb0' : r0 = b0 := by simpa using hb0
        subst hb0'
        obtain ⟨d1, i1, f1, h3, h4⟩ := (hone run0 r0.2).1 ⟨r0.1, hc0⟩
        obtain ⟨rfl, rfl, rfl⟩ := refers_unique h3 href0
        rw [h4] at hread0
        cases hread0
        refine ⟨(v - v0) / v0 * 100, ?_, by field_simp; ring⟩
        rw [get?_graph _ (fun c => relative (Dict.get? r0.2 c) (Dict.get? b.2 c))
          (mem_columns (List.mem_map_of_mem (List.mem_of_getElem? hb)) hv), hv, hv0]
        simp only [relative, if_neg hne]

/-- **C79.** The row of the first run is zero in a relative comparison, where its values are not zero. -/
theorem relative_first {v0 : ℝ} (h : v0 ≠ 0) : relative (some v0) (some v0) = some 0 := by
  simp [relative, h]

/-- `p` is what comes after the last slash of `d` -/
def LastPart (d p : Str) : Prop := '/' ∉ p ∧ (d = p ∨ ∃ q, d = q ++ '/' :: p)

/-- the folder and the run that a row is named after -/
inductive Called (isDir : Str → Bool) (nominal : Str) : Run → Str → Str → Prop
  | id (i p) (h : LastPart nominal p) : Called isDir nominal (.id i) p i
  | one (i p) (h : LastPart nominal p) : Called isDir nominal (.coll [i]) p i
  | backend (i a) (l) (h : isBackend a = true) : Called isDir nominal (.coll (i :: a :: l)) a i
  | dir (i a l p) (h : isBackend a = false) (hd : isDir a = true ∨ l ≠ []) (hp : LastPart a p) :
      Called isDir nominal (.coll (i :: a :: l)) p i
  | file (i a p) (h : isBackend a = false) (hd : isDir a = false) (hp : LastPart nominal p) :
      Called isDir nominal (.coll [i, a]) p i

theorem lastPart_tailOf (d : Str) : LastPart d (tailOf d) := by
  unfold tailOf
  have key := List.takeWhile_append_dropWhile (p := fun c : Char => decide (c ≠ '/')) (l := d.reverse)
  refine ⟨?_, ?_⟩
  · rw [List.mem_reverse]
    intro h
    have := List.all_takeWhile (p := fun c : Char => decide (c ≠ '/')) (l := d.reverse)
    rw [List.all_eq_true] at this
    exact absurd (this _ h) (by decide)
  · have hd : d = (d.reverse.dropWhile fun c => decide (c ≠ '/')).reverse ++
        (d.reverse.takeWhile fun c => decide (c ≠ '/')).reverse := by
      rw [← List.reverse_append, key, List.reverse_reverse]
    cases e : d.reverse.dropWhile fun c => decide (c ≠ '/') with
    | nil =>
      rw [e] at hd
      exact .inl hd
    | cons c l =>
      have hc : c = '/' := by
        have := List.head?_dropWhile_not (fun c : Char => decide (c ≠ '/')) d.reverse
        rw [e] at this
        simpa using this
      rw [e, hc] at hd
      exact .inr ⟨l.reverse, by simpa using hd⟩

/-- **C79.** Rows are named after the folder (or the backend as it was written) and the run; of long names the last forty
characters are kept. -/
theorem row_names {isDir : Str → Bool} {cfg : Str → Str} {nominal : Str} {read : Str → Str → Str → Option Row}
    {runs : List Run} {rel : Bool} {names : List Str} {vals : List (Dict Str (Option ℝ))}
    (h : compare isDir cfg nominal read runs rel = .ok (names, vals)) (hrel : ∀ run ∈ runs, ∀ p i,
      Called isDir nominal run p i → i.head? ≠ some '/') :
    List.Forall₂ (fun run n => ∃ p i full, Called isDir nominal run p i ∧ full = str!"..." ++ p ++ str!"/" ++ i ∧
      (full.length ≤ 40 → n = full) ∧ (40 < full.length → ∃ q t, full = q ++ t ∧ t.length = 40 ∧ n = str!"..." ++ t))
      runs names := by
  have hname : ∃ rows, List.Forall₂ (fun a b => compareOne isDir cfg nominal read a = .ok b) runs rows ∧
      names = rows.map Prod.fst := by
    unfold compare at h
    split at h
    · cases h
    rename_i rows hrows
    refine ⟨rows, mapM_ok.1 hrows, ?_⟩
    cases rel with
    | false => simp only [Except.ok.injEq, Prod.mk.injEq] at h; exact h.1.symm
    | true =>
      cases rows with
      | nil => simp at h
      | cons r0 rest => simp only [Except.ok.injEq, Prod.mk.injEq] at h; exact h.1.symm
  obtain ⟨rows, hF, rfl⟩ := hname
  clear h
  have one : ∀ run b, compareOne isDir cfg nominal read run = .ok b → (∀ p i, Called isDir nominal run p i →
      i.head? ≠ some '/') → ∃ p i full, Called isDir nominal run p i ∧ full = str!"..." ++ p ++ str!"/" ++ i ∧
      (full.length ≤ 40 → b.1 = full) ∧
      (40 < full.length → ∃ q t, full = q ++ t ∧ t.length = 40 ∧ b.1 = str!"..." ++ t) := by
    intro run b hb hi
    have key : ∀ ids p, parseIds isDir run = .ok ids →
        (ids.backend.or (ids.resultsDir.map tailOf)).getD (tailOf nominal) = p → Called isDir nominal run p ids.runId →
        ∃ p i full, Called isDir nominal run p i ∧ full = str!"..." ++ p ++ str!"/" ++ i ∧
        (full.length ≤ 40 → b.1 = full) ∧
        (40 < full.length → ∃ q t, full = q ++ t ∧ t.length = 40 ∧ b.1 = str!"..." ++ t) := by
      intro ids p hids hp hc
      have hb1 : b.1 = rowName nominal ids := by
        unfold compareOne at hb
        rw [hids] at hb
        simp only at hb
        split at hb
        · cases hb
        · cases hb; rfl
      refine ⟨p, ids.runId, _, hc, rfl, ?_, ?_⟩
      · intro hl
        rw [hb1, rowName, hp, joinStr, if_neg (hi _ _ hc)]
        rw [if_neg (by omega)]
      · intro hl
        rw [hb1, rowName, hp, joinStr, if_neg (hi _ _ hc)]
        rw [if_pos hl]
        exact ⟨_, _, (List.take_append_drop _ _).symm, by rw [List.length_drop]; omega, rfl⟩
    match run with
    | .id i => exact key _ _ rfl rfl (.id i _ (lastPart_tailOf _))
    | .coll [] => cases hb
    | .coll [i] => exact key _ _ rfl rfl (.one i _ (lastPart_tailOf _))
    | .coll [i, a] =>
      cases hba : isBackend a with
      | true => exact key { runId := i, backend := some a } _ (by simp [parseIds, hba]) rfl (.backend i a [] hba)
      | false =>
        cases hd : isDir a with
        | true =>
          exact key { runId := i, resultsDir := some a } _ (by simp [parseIds, hba, hd]) rfl
            (.dir i a [] _ hba (.inl hd) (lastPart_tailOf _))
        | false =>
          exact key { runId := i, fileName := some a } _ (by simp [parseIds, hba, hd]) rfl
            (.file i a _ hba hd (lastPart_tailOf _))
    | .coll [i, a, f] =>
      cases hba : isBackend a with
      | true =>
        exact key { runId := i, backend := some a, fileName := some f } _ (by simp [parseIds, hba]) rfl
          (.backend i a [f] hba)
      | false =>
        exact key { runId := i, resultsDir := some a, fileName := some f } _ (by simp [parseIds, hba]) rfl
          (.dir i a [f] _ hba (.inr (by simp)) (lastPart_tailOf _))
    | .coll (_ :: _ :: _ :: _ :: _) => cases hb
  clear rel vals
  induction hF with
  | nil => exact .nil
  | cons hab _ ih =>
    exact .cons (one _ _ hab (hrel _ (by simp))) (ih fun run hr => hrel run (List.mem_cons_of_mem _ hr))

/-- **C79, negative part.** Names of rows are not always those of the runs: two runs with different (long) names
get the same row name. -/
theorem row_names_collide : ∃ (nominal : Str) (a b : Str), a ≠ b ∧
    rowName nominal { runId := a } = rowName nominal { runId := b } := by
  refine ⟨str!"results", str!"A" ++ List.replicate 40 'x', str!"B" ++ List.replicate 40 'x', by decide, ?_⟩
  decide +kernel

/-- **C79, negative part.** A file called like a backend cannot be referred to by two parts. -/
theorem backend_shadows (isDir : Str → Bool) (i : Str) :
    parseIds isDir (.coll [i, str!"PyGMol"]) = .ok { runId := i, backend := some str!"PyGMol" } := by
  have : isBackend str!"PyGMol" = true := by decide +kernel
  simp [parseIds, this]

/-- two runs are compared -/
example : ∃ names vals, compare (fun _ => false) (fun b => str!"/ws/" ++ b) str!"/ws/pygmol"
    (fun d i f => if d = str!"/ws/pygmol" ∧ f = str!"solution.csv" then
      (if i = str!"a" then some [(str!"Te", 2)] else if i = str!"b" then some [(str!"Te", 3)] else none) else none)
    [.id str!"a", .coll [str!"b", str!"PYGMOL"]] true = .ok (names, vals) := by
  obtain ⟨⟨n, v⟩, h⟩ := (compare_exact (isDir := fun _ => false) (cfg := fun b => str!"/ws/" ++ b)
    (nominal := str!"/ws/pygmol") (read := fun d i f => if d = str!"/ws/pygmol" ∧ f = str!"solution.csv" then
      (if i = str!"a" then some [(str!"Te", 2)] else if i = str!"b" then some [(str!"Te", 3)] else none) else none)
    (runs := [.id str!"a", .coll [str!"b", str!"PYGMOL"]]) (rel := true)).1.2 ⟨by simp, by
      intro run hrun
      simp only [List.mem_cons, List.not_mem_nil, or_false] at hrun
      rcases hrun with rfl | rfl
      · exact ⟨_, _, _, [(str!"Te", 2)], .id _, by simp⟩
      · exact ⟨_, _, _, [(str!"Te", 3)], .backend _ _ (by decide +kernel), by
          have : lower str!"PYGMOL" = str!"pygmol" := by decide +kernel
          rw [this]; simp⟩⟩
  exact ⟨n, v, h⟩

/-- the name of a row -/
example : rowName str!"/ws/pygmol" { runId := str!"a" } = str!"...pygmol/a" ∧
    Called (fun _ => false) str!"/ws/pygmol" (.id str!"a") str!"pygmol" str!"a" :=
  ⟨by decide +kernel, .id _ _ (by
    have := lastPart_tailOf str!"/ws/pygmol"
    rwa [show tailOf str!"/ws/pygmol" = str!"pygmol" by decide +kernel] at this)⟩

end Verif.Fwork.Compare
