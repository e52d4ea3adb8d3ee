/-
C93: the reduction with its files does what `Reduce` does, and what is on the disk.
-/
import Verif.Fwork.ReduceDisk
import Verif.Fwork.ReduceProps

namespace Verif.Fwork.ReduceDisk
open Verif.Plaschem Verif.Plaschem.Net Verif.Fwork.Reduce
open Verif.Fwork.Log (Path FS Node fileName locate fetch Plain put_same put_ne isDir_iff fetch_plain locate_plain)

variable {Sol R M : Type} [LinearOrder R] [Zero R]

/-! ### specification -/

/-- the reduction without files; an interrupted run is a failed run -/
def Env.abs (E : Env Sol R M) : Cfg Sol R :=
  { E.cfg with backend := fun i c => if (E.cut i).isSome then .failed else E.cfg.backend i c }

omit [LinearOrder R] [Zero R] in
theorem _root_.Verif.Fwork.Reduce.NeverNan.abs {E : Env Sol R M} {chem : State} (h : NeverNan E.cfg chem) : NeverNan E.abs chem := by
  have key : ∀ {i c s}, E.abs.backend i c = .solved s → E.cfg.backend i c = .solved s := by
    intro i c s hs
    unfold Env.abs at hs
    simp only at hs
    split at hs
    · cases hs
    · exact hs
  exact fun base hb i c sol hs => h base (key hb) i c sol (key hs)

/-- the directory of a run holds the compressed solution, the attributes of the chemistry and two more logs, nothing else -/
structure Kept (fs : FS (Doc Sol R M)) (t : Path) (sol : Sol) (file : Attrs) : Prop where
  dir : fs t = some .dir
  solution : fs (t ++ [str!"solution.csv"]) = some (.file (some (.solution sol true)))
  attrs : fs (t ++ [str!"chemistry_attributes.yaml"]) = some (.file (some (.attrs file)))
  params : fs (t ++ [str!"model_attributes.yaml"]) = some (.file (some .other))
  solver : fs (t ++ [str!"solver_log.yaml"]) = some (.file (some .other))
  only : ∀ n, fs (t ++ [n]) ≠ none → n ∈ [str!"solution.csv", str!"chemistry_attributes.yaml",
    str!"model_attributes.yaml", str!"solver_log.yaml"]

/-- the meta data and every run of the history are on the disk -/
structure Safe (E : Env Sol R M) (fs : FS (Doc Sol R M)) (h : List (Row Sol R)) : Prop where
  dir : fs E.dir = some .dir
  info : fs (E.dir ++ [str!"meta.yaml"]) = some (.file (some (.info E.info)))
  runs : ∀ (i : ℕ) row, h[i]? = some row → ∀ st file sol, row.run = some (st, file, sol) →
    Kept fs (E.dir ++ [runName i row.species]) sol file

/-- the table of the history -/
def table (E : Env Sol R M) (fs : FS (Doc Sol R M)) : Option (Node (Doc Sol R M)) :=
  fs (E.dir ++ [str!"reduction_history.csv"])

/-- what holds between two calls -/
structure OnDisk (E : Env Sol R M) (fs : FS (Doc Sol R M)) (s : Red Sol R) : Prop where
  safe : Safe E fs s.history
  logged : table E fs = if s.history = [] then none else some (.file (some (.history (lines s.history))))
  shape : ∀ (i : ℕ) row, s.history[i]? = some row → ((row.species = none ↔ i = 0) ∧
    ∀ sp, row.species = some sp → '/' ∉ sp)
  plain : ∀ n ∈ s.left, '/' ∉ n
  fresh : ∀ i sp, s.history.length ≤ i → i ≠ 0 → ∀ p, E.dir ++ [runName i (some sp)] <+: p → fs p = none
  first : s.history = [] → ∀ p, E.dir ++ [runName 0 none] <+: p → fs p = none

/-! ### names -/

theorem pad2_inj {i j : ℕ} (h : pad2 i = pad2 j) : i = j := by
  have key : ∀ i, Nat.ofDigitChars 10 (pad2 i) 0 = i := by
    intro i
    unfold pad2
    rw [Nat.ofDigitChars_append, Nat.ofDigitChars_replicate_zero, Nat.mul_zero, Nat.ofDigitChars_ten_toDigits]
  rw [← key i, ← key j, h]

theorem pad2_digit {i : ℕ} {c : Char} (h : c ∈ pad2 i) : c.isDigit = true := by
  unfold pad2 at h
  rcases List.mem_append.1 h with h | h
  · rw [List.eq_of_mem_replicate h]; rfl
  · exact Nat.isDigit_of_mem_toDigits (by omega) (by omega) h

theorem pad2_ne_nil (i : ℕ) : pad2 i ≠ [] := by
  unfold pad2
  intro h
  have := congrArg List.length h
  rw [List.length_append, List.length_replicate] at this
  simp only [List.length_nil] at this
  omega

private theorem prefix_inj {i j : ℕ} {a b : Str} (h : pad2 i ++ '_' :: a = pad2 j ++ '_' :: b) : i = j := by
  have key : ∀ i (l : Str), (pad2 i ++ '_' :: l).takeWhile (fun c => c ≠ '_') = pad2 i := by
    intro i l
    rw [List.takeWhile_append_of_pos (fun c hc => by
      have := pad2_digit hc
      simp only [ne_eq, decide_not, Bool.not_eq_eq_eq_not, Bool.not_true, decide_eq_false_iff_not]
      rintro rfl
      exact absurd this (by decide))]
    simp
  have := congrArg (List.takeWhile fun c => decide (c ≠ '_')) h
  rw [key, key] at this
  exact pad2_inj this

/-- the index of a run name -/
def indexOf (i : ℕ) : Option Str → ℕ
  | none => 0
  | some _ => i

theorem runName_inj {i j : ℕ} {a b : Option Str} (h : runName i a = runName j b) : indexOf i a = indexOf j b := by
  have key : ∀ i a, ∃ l, runName i a = pad2 (indexOf i a) ++ '_' :: l := by
    intro i a
    cases a with
    | none => exact ⟨_, rfl⟩
    | some sp => exact ⟨str!"disabled_" ++ sp, by simp [runName, indexOf]⟩
  obtain ⟨l, hl⟩ := key i a
  obtain ⟨l', hl'⟩ := key j b
  rw [hl, hl'] at h
  exact prefix_inj h

theorem runName_head (i : ℕ) (a : Option Str) : ∃ c, (runName i a).head? = some c ∧ c.isDigit = true := by
  have : ∃ j l, runName i a = pad2 j ++ l := by
    cases a with
    | none => exact ⟨0, _, rfl⟩
    | some sp => exact ⟨i, str!"_disabled_" ++ sp, by simp [runName]⟩
  obtain ⟨j, l, h⟩ := this
  obtain ⟨c, m, hp⟩ := List.exists_cons_of_ne_nil (pad2_ne_nil j)
  exact ⟨c, by rw [h, hp]; rfl, pad2_digit (by rw [hp]; exact List.mem_cons_self ..)⟩

theorem runName_ne_meta (i : ℕ) (a : Option Str) : runName i a ≠ metaName := by
  obtain ⟨c, h, hd⟩ := runName_head i a
  intro he
  rw [he] at h
  cases h
  exact absurd hd (by decide)

theorem runName_ne_history (i : ℕ) (a : Option Str) : runName i a ≠ historyName := by
  obtain ⟨c, h, hd⟩ := runName_head i a
  intro he
  rw [he] at h
  cases h
  exact absurd hd (by decide)

theorem runName_plain (i : ℕ) {a : Option Str} (h : ∀ sp, a = some sp → '/' ∉ sp) : Plain (runName i a) := by
  obtain ⟨c, hh, hd⟩ := runName_head i a
  refine ⟨?_, ?_, ?_, ?_⟩
  · intro he; rw [he] at hh; cases hh
  · have hp : ∀ j, '/' ∉ pad2 j := fun j hm => absurd (pad2_digit hm) (by decide)
    cases a with
    | none =>
      unfold runName
      rw [List.mem_append, not_or]
      exact ⟨hp 0, by decide⟩
    | some sp =>
      unfold runName
      rw [List.mem_append, List.mem_append, not_or, not_or]
      exact ⟨⟨hp i, by decide⟩, h sp rfl⟩
  · intro he; rw [he] at hh; cases hh; exact absurd hd (by decide)
  · intro he; rw [he] at hh; cases hh; exact absurd hd (by decide)

/-! ### frames -/

omit [LinearOrder R] [Zero R] in
theorem apply_ne (fs : FS (Doc Sol R M)) (o : Op (Doc Sol R M)) {q : Path} (h : q ≠ o.path) : o.apply fs q = fs q := by
  cases o <;> exact put_ne _ _ h

omit [LinearOrder R] [Zero R] in
theorem after_frame (fs : FS (Doc Sol R M)) (ops : List (Op (Doc Sol R M))) {q : Path} (h : ∀ o ∈ ops, q ≠ o.path) :
    after fs ops q = fs q := by
  induction ops generalizing fs with
  | nil => rfl
  | cons o ops ih =>
    change after (o.apply fs) ops q = fs q
    rw [ih _ fun o' h' => h o' (List.mem_cons_of_mem _ h'), apply_ne _ _ (h o (List.mem_cons_self ..))]

omit [LinearOrder R] [Zero R] in
theorem after_append (fs : FS (Doc Sol R M)) (a b : List (Op (Doc Sol R M))) : after fs (a ++ b) = after (after fs a) b :=
  List.foldl_append

/-- all operations are below the path -/
def Within (t : Path) (ops : List (Op (Doc Sol R M))) : Prop := ∀ o ∈ ops, t <+: o.path

omit [LinearOrder R] [Zero R] in
theorem Within.frame {t : Path} {ops : List (Op (Doc Sol R M))} (h : Within t ops) (fs : FS (Doc Sol R M)) {q : Path}
    (hq : ¬ t <+: q) : after fs ops q = fs q :=
  after_frame fs ops fun o ho he => hq (he ▸ h o ho)

omit [LinearOrder R] [Zero R] in
theorem Within.take {t : Path} {ops : List (Op (Doc Sol R M))} (h : Within t ops) (k : ℕ) : Within t (ops.take k) :=
  fun o ho => h o (List.mem_of_mem_take ho)

theorem child_prefix {d : Path} {a b : Str} {l : Path} (h : d ++ [a] <+: d ++ b :: l) : a = b := by
  rw [show d ++ b :: l = d ++ (b :: l) from rfl, List.prefix_append_right_inj] at h
  exact (List.cons_prefix_cons.1 h).1

/-! ### one run of the model -/

omit [LinearOrder R] [Zero R] in
theorem within_tables (t : Path) (sol : Sol) : Within t (tables t sol : List (Op (Doc Sol R M))) := by
  intro o ho
  simp only [tables, write, List.mem_cons, List.mem_append, List.not_mem_nil, or_false] at ho
  rcases ho with rfl | ((rfl | rfl) | (rfl | rfl)) | (rfl | rfl) <;> simp [Op.path]

omit [LinearOrder R] [Zero R] in
theorem within_logs (t : Path) (sol : Sol) (file : Attrs) : Within t (logs t sol file : List (Op (Doc Sol R M))) := by
  intro o ho
  simp only [logs, write, List.mem_cons, List.mem_append, List.not_mem_nil, or_false] at ho
  rcases ho with ((((rfl | rfl) | (rfl | rfl)) | (rfl | rfl)) | (rfl | rfl)) | (rfl | rfl) <;> simp [Op.path]

omit [LinearOrder R] [Zero R] in
theorem kept (fs : FS (Doc Sol R M)) (t : Path) (sol : Sol) (file : Attrs) (h : ∀ p, t <+: p → fs p = none) :
    Kept (after fs (tables t sol ++ logs t sol file)) t sol file := by
  have hne : ∀ n : Str, t ≠ t ++ [n] := fun n he => by
    have := congrArg List.length he; simp at this
  have hval : ∀ n : Str, after fs (tables t sol ++ logs t sol file) (t ++ [n]) =
      if n = fileName 2 then none else if n = fileName 1 then none
      else if n = fileName 0 then some (.file (some (.solution sol true)))
      else if n = fileName 5 then some (.file (some .other))
      else if n = fileName 4 then some (.file (some .other))
      else if n = fileName 3 then some (.file (some (.attrs file))) else none := by
    intro n
    simp only [after, tables, logs, write, List.cons_append, List.nil_append, List.foldl_cons,
      List.foldl_nil, Op.apply, FS.put, List.append_cancel_left_eq, List.cons.injEq, and_true]
    rw [h (t ++ [n]) (List.prefix_append ..)]
    have hn : ¬ t ++ [n] = t := fun he => hne n he.symm
    by_cases h2 : n = fileName 2
    · simp only [if_pos h2]
    by_cases h1 : n = fileName 1
    · simp only [if_neg h2, if_pos h1]
    by_cases h0 : n = fileName 0
    · simp only [if_neg h2, if_neg h1, if_pos h0]
    by_cases h5 : n = fileName 5
    · simp only [if_neg h2, if_neg h1, if_neg h0, if_pos h5]
    by_cases h4 : n = fileName 4
    · simp only [if_neg h2, if_neg h1, if_neg h0, if_neg h5, if_pos h4]
    by_cases h3 : n = fileName 3
    · simp only [if_neg h2, if_neg h1, if_neg h0, if_neg h5, if_neg h4, if_pos h3]
    simp only [if_neg h2, if_neg h1, if_neg h0, if_neg h5, if_neg h4, if_neg h3, if_neg hn]
  refine ⟨?_, ?_, ?_, ?_, ?_, ?_⟩
  · rw [after_append, after_frame _ _ (q := t), tables]
    · change after (fs.put t (some .dir)) _ t = _
      rw [after_frame, put_same]
      intro o ho
      simp only [write, List.mem_cons, List.mem_append, List.not_mem_nil, or_false] at ho
      rcases ho with ((rfl | rfl) | (rfl | rfl)) | (rfl | rfl) <;> exact hne _
    · intro o ho
      simp only [logs, write, List.mem_cons, List.mem_append, List.not_mem_nil, or_false] at ho
      rcases ho with ((((rfl | rfl) | (rfl | rfl)) | (rfl | rfl)) | (rfl | rfl)) | (rfl | rfl) <;> exact hne _
  · exact hval (fileName 0)
  · exact hval (fileName 3)
  · exact hval (fileName 4)
  · exact hval (fileName 5)
  · intro n hn
    rw [hval] at hn
    by_cases h2 : n = fileName 2
    · rw [if_pos h2] at hn; exact absurd rfl hn
    rw [if_neg h2] at hn
    by_cases h1 : n = fileName 1
    · rw [if_pos h1] at hn; exact absurd rfl hn
    rw [if_neg h1] at hn
    by_cases h0 : n = fileName 0
    · rw [h0]; decide
    rw [if_neg h0] at hn
    by_cases h5 : n = fileName 5
    · rw [h5]; decide
    rw [if_neg h5] at hn
    by_cases h4 : n = fileName 4
    · rw [h4]; decide
    rw [if_neg h4] at hn
    by_cases h3 : n = fileName 3
    · rw [h3]; decide
    rw [if_neg h3] at hn
    exact absurd rfl hn

/-- a run into a new directory does what `Reduce.runModel` does, and keeps its files -/
theorem runModel_spec (E : Env Sol R M) (fs : FS (Doc Sol R M)) (i : ℕ) (chem : State) {name : Str} (hn : Plain name)
    (hd : fs E.dir = some .dir) (hnew : ∀ p, E.dir ++ [name] <+: p → fs p = none) :
    ∃ ops r, runModel E fs i chem name = (ops, r) ∧ Within (E.dir ++ [name]) ops ∧
      match Reduce.runModel E.abs i chem with
      | .failed => r = .failed
      | .error e => r = .error (.red e)
      | .solved sol file => r = .solved sol file ∧ Kept (after fs ops) (E.dir ++ [name]) sol file := by
  have hw : ∃ ops r, runWhole E fs i chem name = (ops, r) ∧ Within (E.dir ++ [name]) ops ∧
      match Reduce.runModel E.cfg i chem with
      | .failed => r = .failed
      | .error e => r = .error (.red e)
      | .solved sol file => r = .solved sol file ∧ Kept (after fs ops) (E.dir ++ [name]) sol file := by
    unfold runWhole Reduce.runModel
    rw [if_pos (isDir_iff.2 hd), locate_plain hn (isDir_iff.2 hd)]
    cases hb : E.cfg.backend i chem with
    | failed => exact ⟨_, _, rfl, ⟨fun o ho => absurd ho List.not_mem_nil, rfl⟩⟩
    | raised => exact ⟨_, _, rfl, ⟨fun o ho => absurd ho List.not_mem_nil, rfl⟩⟩
    | solved sol =>
      simp only [hnew _ (List.prefix_refl _)]
      cases E.cfg.net.dump E.cfg.path E.cfg.hash chem with
      | error e => exact ⟨_, _, rfl, within_tables _ _, rfl⟩
      | ok file =>
        refine ⟨_, _, rfl, ?_, rfl, kept fs _ _ _ hnew⟩
        intro o ho
        rcases List.mem_append.1 ho with ho | ho
        · exact within_tables _ _ o ho
        · exact within_logs _ _ _ o ho
  obtain ⟨ops, r, h1, h2, h3⟩ := hw
  unfold runModel
  cases hc : E.cut i with
  | none =>
    refine ⟨ops, r, h1, h2, ?_⟩
    have : Reduce.runModel E.abs i chem = Reduce.runModel E.cfg i chem := by
      unfold Reduce.runModel Env.abs
      simp only [hc]
      rfl
    rw [this]
    exact h3
  | some k =>
    refine ⟨_, _, rfl, ?_, ?_⟩
    · rw [h1]; exact h2.take k
    · have : Reduce.runModel E.abs i chem = .failed := by
        unfold Reduce.runModel Env.abs
        simp only [hc]
        rfl
      rw [this]

/-! ### what other operations leave alone -/

omit [LinearOrder R] [Zero R] in
theorem Kept.frame {fs fs' : FS (Doc Sol R M)} {t : Path} {sol : Sol} {file : Attrs} (h : Kept fs t sol file)
    (he : ∀ p, t <+: p → fs' p = fs p) : Kept fs' t sol file := by
  have h1 : ∀ n : Str, fs' (t ++ [n]) = fs (t ++ [n]) := fun n => he _ (List.prefix_append ..)
  exact ⟨by rw [he _ (List.prefix_refl _)]; exact h.dir, by rw [h1]; exact h.solution, by rw [h1]; exact h.attrs,
    by rw [h1]; exact h.params, by rw [h1]; exact h.solver, fun n hn => h.only n (by rwa [h1] at hn)⟩

omit [LinearOrder R] [Zero R] in
theorem Safe.frame {E : Env Sol R M} {fs fs' : FS (Doc Sol R M)} {hist : List (Row Sol R)} (h : Safe E fs hist)
    (h0 : fs' E.dir = fs E.dir) (h1 : fs' (E.dir ++ [metaName]) = fs (E.dir ++ [metaName]))
    (h2 : ∀ (i : ℕ) row, hist[i]? = some row → ∀ p, E.dir ++ [runName i row.species] <+: p → fs' p = fs p) :
    Safe E fs' hist :=
  ⟨h0.trans h.dir, h1.trans h.info, fun i row hr st file sol hs => (h.runs i row hr st file sol hs).frame (h2 i row hr)⟩

theorem not_prefix_self (d : Path) (a : Str) : ¬ d ++ [a] <+: d := by
  intro h
  have := h.length_le
  simp at this

theorem apart {d p : Path} {a b : Str} (h : a ≠ b) (hp : d ++ [b] <+: p) : ¬ d ++ [a] <+: p := by
  intro ha
  obtain ⟨l, rfl⟩ := hp
  rw [List.append_assoc, List.singleton_append] at ha
  exact h (child_prefix ha)

omit [LinearOrder R] [Zero R] in
theorem Safe.within {E : Env Sol R M} {fs : FS (Doc Sol R M)} {hist : List (Row Sol R)} (h : Safe E fs hist) {name : Str}
    {ops : List (Op (Doc Sol R M))} (hw : Within (E.dir ++ [name]) ops) (hm : name ≠ metaName)
    (hr : ∀ (i : ℕ) row, hist[i]? = some row → runName i row.species ≠ name) : Safe E (after fs ops) hist := by
  refine h.frame (hw.frame fs (not_prefix_self _ _)) (hw.frame fs (apart hm (List.prefix_refl _))) ?_
  intro i row hi p hp
  exact hw.frame fs (apart (hr i row hi).symm hp)

omit [LinearOrder R] [Zero R] in
theorem within_history (E : Env Sol R M) (h : List (Row Sol R)) : Within (E.dir ++ [historyName]) (logHistory E h) := by
  intro o ho
  simp only [logHistory, write, List.mem_cons, List.not_mem_nil, or_false] at ho
  rcases ho with rfl | rfl <;> exact List.prefix_refl _

/-! ### restoring -/

omit [Zero R] in
theorem restoreName_spec (cfg : Cfg Sol R) (bt : Bool) (h : List (Row Sol R)) :
    match restoreFile cfg bt h with
    | none => restoreName cfg bt h = none
    | some file => ∃ (i : ℕ) (row : Row Sol R) (st : State) (sol : Sol), h[i]? = some row ∧ row.run = some (st, file, sol) ∧
        restoreName cfg bt h = some (runName i row.species) := by
  induction h using List.reverseRecOn with
  | nil => rfl
  | append_singleton h row ih =>
    unfold restoreFile restoreName at ih ⊢
    rw [List.zipIdx_append, List.filter_append, List.filter_append, List.filterMap_append, List.filterMap_append]
    have hz : [row].zipIdx (0 + h.length) = [(row, h.length)] := by simp
    rw [hz]
    have hskip : (([row].filter (restorable cfg bt)).filterMap Row.run = []) →
        (([(row, h.length)].filter fun p => restorable cfg bt p.1).filterMap fun p => rowName p.2 p.1) = [] := by
      intro he
      by_cases hr : restorable cfg bt row = true
      · rw [List.filter_cons_of_pos hr] at he
        rw [List.filter_cons_of_pos (by simpa using hr)]
        cases hrun : row.run with
        | none => simp [rowName, hrun]
        | some x => simp [hrun] at he
      · rw [List.filter_cons_of_neg (by simpa using hr)]
        rfl
    by_cases he : ([row].filter (restorable cfg bt)).filterMap Row.run = []
    · rw [he, hskip he, List.append_nil, List.append_nil]
      split at ih
      · exact ih
      · rename_i file hn
        obtain ⟨i, r, st, sol, h1, h2, h3⟩ := ih
        refine ⟨i, r, st, sol, ?_, h2, h3⟩
        rw [List.getElem?_append_left]
        · exact h1
        · exact (List.getElem?_eq_some_iff.1 h1).1
    · have hr : restorable cfg bt row = true := by
        by_contra hc
        exact he (by rw [List.filter_cons_of_neg hc]; rfl)
      rw [List.filter_cons_of_pos hr, List.filter_nil] at he ⊢
      rw [List.filter_cons_of_pos (by simpa using hr), List.filter_nil]
      cases hrun : row.run with
      | none => simp [hrun] at he
      | some x =>
        obtain ⟨st, file, sol⟩ := x
        simp only [List.filterMap_cons, hrun, List.filterMap_nil, rowName, Option.isSome_some, if_true,
          List.getLast?_append, List.getLast?_singleton, Option.or_some, Option.map_some]
        refine ⟨h.length, row, st, sol, ?_, hrun, rfl⟩
        rw [List.getElem?_append_right (Nat.le_refl _)]
        simp

/-- the file that is read is the one written by the run -/
theorem restore_spec {E : Env Sol R M} {fs : FS (Doc Sol R M)} {hist : List (Row Sol R)} (h : Safe E fs hist) {i : ℕ}
    {row : Row Sol R} (hi : hist[i]? = some row) (hp : ∀ sp, row.species = some sp → '/' ∉ sp) {st : State} {file : Attrs}
    {sol : Sol} (hr : row.run = some (st, file, sol)) (cur : State) :
    restore E fs (runName i row.species) cur = lift (Reduce.restore E.abs file cur) := by
  have hk := h.runs i row hi st file sol hr
  unfold restore
  rw [fetch_plain (runName_plain i hp), if_pos ⟨isDir_iff.2 h.dir, isDir_iff.2 hk.dir⟩,
    show fs (E.dir ++ [runName i row.species] ++ [fileName 3]) = _ from hk.attrs]
  rfl

/-! ### one call -/

omit [LinearOrder R] [Zero R] in
/-- the name of the next run is new -/
theorem OnDisk.ne {E : Env Sol R M} {fs : FS (Doc Sol R M)} {s : Red Sol R} (h : OnDisk E fs s) (hne : s.history ≠ [])
    (sp : Str) (i : ℕ) (row : Row Sol R) (hi : s.history[i]? = some row) :
    runName i row.species ≠ runName s.history.length (some sp) := by
  intro he
  have h1 := runName_inj he
  have h2 := (List.getElem?_eq_some_iff.1 hi).1
  have h3 : 0 < s.history.length := by omega
  cases hs : row.species with
  | none => rw [hs] at h1; simp only [indexOf] at h1; omega
  | some x => rw [hs] at h1; simp only [indexOf] at h1; omega

theorem attempt_spec {E : Env Sol R M} {fs : FS (Doc Sol R M)} {s : Red Sol R} (h : OnDisk E fs s) (hne : s.history ≠ [])
    {sp : Str} (hsp : sp ∈ s.left) {i : ℕ} {row : Row Sol R} (hi : s.history[i]? = some row) {st : State} {file : Attrs}
    {sol : Sol} (hr : row.run = some (st, file, sol)) :
    ∃ ops, attempt E fs s.history.length (runName i row.species) s.chem sp =
        (ops, lift (Reduce.attempt E.abs s.history.length file s.chem sp)) ∧
      Within (E.dir ++ [runName s.history.length (some sp)]) ops ∧
      ∀ c sol f, Reduce.attempt E.abs s.history.length file s.chem sp = .ok (c, some (sol, f)) →
        Kept (after fs ops) (E.dir ++ [runName s.history.length (some sp)]) sol f := by
  have hlen : s.history.length ≠ 0 := by simpa using hne
  unfold attempt Reduce.attempt
  have hnet : E.abs.net.disable s.chem [.name sp] [] = E.cfg.net.disable s.chem [.name sp] [] := rfl
  rw [hnet]
  rcases hd : E.cfg.net.disable s.chem [.name sp] [] with ⟨c, o⟩
  cases o with
  | some e =>
    cases e <;> exact ⟨[], rfl, fun o ho => absurd ho List.not_mem_nil, fun _ _ _ h => by cases h⟩
  | none =>
    simp only
    obtain ⟨ops, r, h1, h2, h3⟩ := runModel_spec E fs s.history.length c
      (runName_plain s.history.length (a := some sp) (fun x hx => by cases hx; exact h.plain sp hsp)) h.safe.dir
      (fun p hp => h.fresh _ sp (Nat.le_refl _) hlen p hp)
    rw [h1]
    cases hm : Reduce.runModel E.abs s.history.length c with
    | failed =>
      rw [hm] at h3
      subst h3
      have hs := restore_spec (h.safe.within h2 (runName_ne_meta _ _) (h.ne hne sp)) hi (h.shape i row hi).2 hr c
      refine ⟨ops, ?_, h2, ?_⟩
      · simp only [hs]
        cases Reduce.restore E.abs file c <;> rfl
      · intro c' sol' f' he
        cases hx : Reduce.restore E.abs file c <;> rw [hx] at he <;> cases he
    | error e =>
      rw [hm] at h3
      subst h3
      exact ⟨ops, rfl, h2, fun _ _ _ he => by cases he⟩
    | solved sol' file' =>
      rw [hm] at h3
      obtain ⟨rfl, hk⟩ := h3
      refine ⟨ops, rfl, h2, ?_⟩
      intro c' s' f' he
      cases he
      exact hk

omit [Zero R] in
theorem record_row {cfg : Cfg Sol R} {s s' : Red Sol R} {sp : Str} {bt : Bool} {file : Attrs} {c : State} {sol : Sol}
    {f : Attrs} (h : Reduce.record cfg s sp bt file c sol f = .ok s') :
    ∃ row, s'.history = s.history ++ [row] ∧ row.species = some sp ∧ row.run = some (c, f, sol) := by
  unfold Reduce.record at h
  simp only at h
  split at h
  · cases h
  split at h
  · cases h
  split at h
  · split at h
    · split at h
      · split at h
        · cases h
        · cases h
          exact ⟨_, rfl, rfl, rfl⟩
      · cases h
        exact ⟨_, rfl, rfl, rfl⟩
    · cases h
  · cases h

theorem record_spec {E : Env Sol R M} {fs : FS (Doc Sol R M)} {s : Red Sol R} {sp : Str} {bt : Bool} {name : Str}
    {file : Attrs} {c : State} (hr : restore E fs name c = lift (Reduce.restore E.abs file c)) (sol : Sol) (f : Attrs) :
    record E fs s sp bt name c sol f = lift (Reduce.record E.abs s sp bt file c sol f) := by
  unfold record Reduce.record
  rw [hr]
  have e1 : E.abs.net = E.cfg.net := rfl
  have e2 : E.abs.err = E.cfg.err := rfl
  have e3 : tooLarge E.abs = tooLarge E.cfg := rfl
  simp only [e1, e2, e3]
  split
  · rfl
  split
  · rfl
  cases s.solBase with
  | none => rfl
  | some base =>
    cases s.solLast with
    | none => rfl
    | some last =>
      simp only
      cases E.cfg.err base sol with
      | none => rfl
      | some eb =>
        cases E.cfg.err last sol with
        | none => rfl
        | some el =>
          simp only
          cases (bt && tooLarge E.cfg eb) with
          | false => rfl
          | true => cases Reduce.restore E.abs file c <;> rfl

/-- **C93.** One removal, with its files: the result is that of the reduction without files. Before the table is written, only
the directory of the new run is touched; if the call returns, the run and the table are on the disk. -/
theorem removeOne_spec {E : Env Sol R M} (hsame : E.same E.info E.info = true) {fs : FS (Doc Sol R M)} {s : Red Sol R}
    (h : OnDisk E fs s) (sp : Str) (bt : Bool) :
    ∃ ops, removeOne E fs s sp bt = (ops, lift (Reduce.removeOne E.abs s sp bt)) ∧
      match Reduce.removeOne E.abs s sp bt with
      | .error _ => Within (E.dir ++ [runName s.history.length (some sp)]) ops
      | .ok s' => ∃ a, ops = a ++ logHistory E s'.history ∧
          Within (E.dir ++ [runName s.history.length (some sp)]) a ∧ Safe E (after fs a) s'.history ∧
          OnDisk E (after fs ops) s' := by
  have hno : Within (E.dir ++ [runName s.history.length (some sp)]) ([] : List (Op (Doc Sol R M))) :=
    fun o ho => absurd ho List.not_mem_nil
  -- what follows from the new row
  have hok : ∀ (s' : Red Sol R) (row : Row Sol R) (a : List (Op (Doc Sol R M))), s.history ≠ [] → sp ∈ s.left →
      s'.history = s.history ++ [row] → row.species = some sp → s'.left ⊆ s.left →
      Within (E.dir ++ [runName s.history.length (some sp)]) a →
      (∀ st file sol, row.run = some (st, file, sol) →
        Kept (after fs a) (E.dir ++ [runName s.history.length (some sp)]) sol file) →
      Safe E (after fs a) s'.history ∧ OnDisk E (after fs (a ++ logHistory E s'.history)) s' := by
    intro s' row a hne hsp hh hrs hl hw hk
    have hsafe : Safe E (after fs a) s'.history := by
      have h0 := h.safe.within hw (runName_ne_meta _ _) (h.ne hne sp)
      refine ⟨h0.dir, h0.info, ?_⟩
      intro i r hi st file sol hr
      rw [hh] at hi
      rcases Nat.lt_or_ge i s.history.length with hlt | hge
      · rw [List.getElem?_append_left hlt] at hi
        exact h0.runs i r hi st file sol hr
      · rw [List.getElem?_append_right hge] at hi
        rcases Nat.eq_or_lt_of_le hge with he | hlt
        · subst he
          simp only [Nat.sub_self, List.getElem?_cons_zero, Option.some.injEq] at hi
          subst hi
          rw [hrs]
          exact hk st file sol hr
        · have h1 : 0 < i - s.history.length := by omega
          rw [List.getElem?_eq_none (by rw [List.length_singleton]; exact h1)] at hi
          cases hi
    have hwh := within_history E s'.history
    have hshape : ∀ (i : ℕ) r, s'.history[i]? = some r → ((r.species = none ↔ i = 0) ∧
        ∀ x, r.species = some x → '/' ∉ x) := by
      intro i r hi
      rw [hh] at hi
      rcases Nat.lt_or_ge i s.history.length with hlt | hge
      · rw [List.getElem?_append_left hlt] at hi
        exact h.shape i r hi
      · rw [List.getElem?_append_right hge] at hi
        rcases Nat.eq_or_lt_of_le hge with he | hlt
        · subst he
          simp only [Nat.sub_self, List.getElem?_cons_zero, Option.some.injEq] at hi
          subst hi
          rw [hrs]
          refine ⟨⟨fun h => (by cases h), fun h0 => absurd (List.length_eq_zero_iff.1 h0) hne⟩, ?_⟩
          intro x hx
          cases hx
          exact h.plain _ hsp
        · have h1 : 0 < i - s.history.length := by omega
          rw [List.getElem?_eq_none (by rw [List.length_singleton]; exact h1)] at hi
          cases hi
    refine ⟨hsafe, ?_, ?_, hshape, fun n hn => h.plain n (hl hn), ?_, ?_⟩
    · rw [after_append]
      exact hsafe.within hwh (by decide) fun i r _ => runName_ne_history _ _
    · rw [after_append, if_neg (by rw [hh]; simp)]
      unfold table logHistory write after
      simp only [List.foldl_cons, List.foldl_nil, Op.apply]
      exact put_same ..
    · intro i x hi hi0 p hp
      rw [hh, List.length_append, List.length_singleton] at hi
      rw [after_append, hwh.frame _ (apart (runName_ne_history _ _).symm hp), hw.frame _ (apart ?_ hp)]
      · exact h.fresh i x (by omega) hi0 p hp
      · intro he
        have := runName_inj he
        simp only [indexOf] at this
        omega
    · intro h0
      rw [hh] at h0
      simp at h0
  unfold removeOne Reduce.removeOne
  by_cases h1 : s.history = []
  · rw [if_pos h1, if_pos h1]; exact ⟨[], rfl, hno⟩
  rw [if_neg h1, if_neg h1]
  by_cases h2 : sp ∉ s.left
  · rw [if_pos h2, if_pos h2]; exact ⟨[], rfl, hno⟩
  rw [if_neg h2, if_neg h2]
  by_cases h3 : sp ∈ s.attempted
  · rw [if_pos h3, if_pos h3]; exact ⟨[], rfl, hno⟩
  rw [if_neg h3, if_neg h3, show fs (E.dir ++ [metaName]) = _ from h.safe.info]
  simp only
  rw [if_neg (by simp [hsame])]
  by_cases h4 : (insert sp s.attempted).card ≠ s.history.length
  · rw [if_pos h4, if_pos h4]; exact ⟨[], rfl, hno⟩
  rw [if_neg h4, if_neg h4]
  have hrn := restoreName_spec E.abs bt s.history
  have hrn' : restoreName E.cfg bt s.history = restoreName E.abs bt s.history := rfl
  rw [hrn']
  cases hf : restoreFile E.abs bt s.history with
  | none =>
    rw [hf] at hrn
    rw [show restoreName E.abs bt s.history = none from hrn]
    exact ⟨[], rfl, hno⟩
  | some file =>
    rw [hf] at hrn
    obtain ⟨i, row, st, sol, hi, hr, hname⟩ := hrn
    rw [hname]
    obtain ⟨ops, ha, hw, hk⟩ := attempt_spec h h1 (not_not.1 h2) hi hr
    simp only [ha]
    cases hat : Reduce.attempt E.abs s.history.length file s.chem sp with
    | error e => exact ⟨ops, rfl, hw⟩
    | ok x =>
      obtain ⟨c, o⟩ := x
      cases o with
      | none =>
        refine ⟨_, rfl, ops, rfl, hw, ?_⟩
        exact hok _ _ ops h1 (not_not.1 h2) rfl rfl (Finset.Subset.refl _) hw (fun _ _ _ he => by cases he)
      | some y =>
        obtain ⟨sol', f⟩ := y
        simp only [lift]
        rw [record_spec (restore_spec (h.safe.within hw (runName_ne_meta _ _) (h.ne h1 sp)) hi (h.shape i row hi).2 hr c)]
        cases hrec : Reduce.record E.abs s sp bt file c sol' f with
        | error e => exact ⟨_, rfl, hw⟩
        | ok s' =>
          obtain ⟨row', e1, e2, e3⟩ := record_row hrec
          refine ⟨_, rfl, ops, rfl, hw, ?_⟩
          refine hok s' row' ops h1 (not_not.1 h2) e1 e2 ?_ hw ?_
          · have : Reduce.removeOne E.abs s sp bt = .ok s' := by
              unfold Reduce.removeOne
              rw [if_neg h1, if_neg h2, if_neg h3, if_neg h4, hf]
              simp only [hat, hrec]
            exact removeOne_left this
          · intro st' file' sol'' he
            rw [e3] at he
            cases he
            exact hk c sol' f hat

/-- **C93.** The base case, with its files. -/
theorem runBase_spec {E : Env Sol R M} {fs : FS (Doc Sol R M)} {s : Red Sol R} (h : OnDisk E fs s) :
    ∃ ops, runBase E fs s = (ops, lift (Reduce.runBase E.abs s)) ∧
      match Reduce.runBase E.abs s with
      | .error _ => s.history ≠ [] ∧ ops = [] ∨ s.history = [] ∧ Within (E.dir ++ [runName 0 none]) ops
      | .ok s' => s.history = [] ∧ ∃ a, ops = a ++ logHistory E s'.history ∧
          Within (E.dir ++ [runName 0 none]) a ∧ Safe E (after fs a) s'.history ∧ OnDisk E (after fs ops) s' := by
  have hno : Within (E.dir ++ [runName 0 none]) ([] : List (Op (Doc Sol R M))) :=
    fun o ho => absurd ho List.not_mem_nil
  unfold runBase Reduce.runBase
  by_cases h1 : s.history ≠ []
  · rw [if_pos h1, if_pos h1]; exact ⟨[], rfl, .inl ⟨h1, rfl⟩⟩
  rw [if_neg h1, if_neg h1]
  rw [not_not] at h1
  by_cases h2 : s.attempted ≠ ∅ ∨ s.solBase.isSome ∨ s.solLast.isSome
  · rw [if_pos h2, if_pos h2]; exact ⟨[], rfl, .inr ⟨h1, hno⟩⟩
  rw [if_neg h2, if_neg h2]
  obtain ⟨ops, r, e1, hw, e3⟩ := runModel_spec E fs 0 s.chem
    (runName_plain 0 (a := none) (fun x hx => by cases hx)) h.safe.dir (h.first h1)
  rw [e1]
  cases hm : Reduce.runModel E.abs 0 s.chem with
  | failed => rw [hm] at e3; subst e3; exact ⟨_, rfl, .inr ⟨h1, hw⟩⟩
  | error e => rw [hm] at e3; subst e3; exact ⟨_, rfl, .inr ⟨h1, hw⟩⟩
  | solved sol file =>
    rw [hm] at e3
    obtain ⟨rfl, hk⟩ := e3
    have h0 := h.safe.within hw (runName_ne_meta _ _) (fun i row hi => by rw [h1] at hi; simp at hi)
    have hrow : ∀ (x : Row Sol R) (i : ℕ) (row : Row Sol R), [x][i]? = some row → i = 0 ∧ row = x := by
      intro x i row hi
      cases i with
      | zero => simp only [List.getElem?_cons_zero, Option.some.injEq] at hi; exact ⟨rfl, hi.symm⟩
      | succ i => simp at hi
    refine ⟨_, rfl, h1, ops, rfl, hw, ?_, ?_⟩
    · refine ⟨h0.dir, h0.info, ?_⟩
      intro i row hi st f sol' hr
      obtain ⟨rfl, rfl⟩ := hrow _ _ _ hi
      cases hr
      exact hk
    · have hwh := fun x : List (Row Sol R) => within_history E x
      refine ⟨?_, ?_, ?_, h.plain, ?_, ?_⟩
      · rw [after_append]
        refine Safe.within ⟨h0.dir, h0.info, ?_⟩ (hwh _) (by decide) fun i r _ => runName_ne_history _ _
        intro i row hi st f sol' hr
        obtain ⟨rfl, rfl⟩ := hrow _ _ _ hi
        cases hr
        exact hk
      · rw [after_append, if_neg (by simp)]
        unfold table logHistory write after
        simp only [List.foldl_cons, List.foldl_nil, Op.apply]
        exact put_same ..
      · intro i row hi
        obtain ⟨rfl, rfl⟩ := hrow _ _ _ hi
        exact ⟨⟨fun _ => rfl, fun _ => rfl⟩, fun sp he => by cases he⟩
      · intro i x hi hi0 p hp
        rw [after_append, (hwh _).frame _ (apart (runName_ne_history _ _).symm hp), hw.frame _ (apart ?_ hp)]
        · exact h.fresh i x (by rw [h1]; exact Nat.zero_le _) hi0 p hp
        · intro he
          have := runName_inj he
          simp only [indexOf] at this
          omega
      · intro he
        simp at he

/-! ### the constructor -/

/-- **C93.** The constructor on a reduction run id that is not in use. -/
theorem init_spec {E : Env Sol R M} {fs : FS (Doc Sol R M)} (hwf : fs.WF) (hp : fs.isDir E.parent = true)
    (hnew : fs E.dir = none) (hnames : ∀ x ∈ E.cfg.net.species, '/' ∉ x.name) (chem : State) :
    ∃ ops, init E fs chem = (ops, lift (initRed E.abs chem)) ∧ Within E.dir ops ∧
      ∀ s, initRed E.abs chem = .ok s → OnDisk E (after fs ops) s := by
  have hops : makeDir E fs = (.mkdir E.dir :: write (E.dir ++ [metaName]) (.info E.info), .ok ()) := by
    unfold makeDir
    rw [if_pos hp, hnew]
  refine ⟨.mkdir E.dir :: write (E.dir ++ [metaName]) (.info E.info), ?_, ?_, ?_⟩
  · unfold init
    rw [hops]
    rfl
  · intro o ho
    simp only [write, List.mem_cons, List.not_mem_nil, or_false] at ho
    rcases ho with rfl | rfl | rfl
    · exact List.prefix_refl _
    · exact List.prefix_append ..
    · exact List.prefix_append ..
  · intro s hs
    obtain ⟨-, -, -, hh, hl⟩ := initRed_ok hs
    have hbelow : ∀ p, E.dir <+: p → fs p = none := by
      intro p hpp
      by_contra hc
      by_cases he : E.dir = p
      · rw [← he] at hc; exact hc hnew
      · have := hwf.above hpp he hc
        rw [isDir_iff, hnew] at this
        cases this
    have hval : ∀ n : Str, n ≠ metaName → ∀ p, E.dir ++ [n] <+: p →
        after fs (.mkdir E.dir :: write (E.dir ++ [metaName]) (.info E.info)) p = none := by
      intro n hn p hpp
      rw [after_frame]
      · exact hbelow p ((List.prefix_append ..).trans hpp)
      · intro o ho
        simp only [write, List.mem_cons, List.not_mem_nil, or_false] at ho
        rcases ho with rfl | rfl | rfl
        · intro he; rw [he] at hpp; exact not_prefix_self _ _ hpp
        · intro he; rw [he] at hpp; exact hn (child_prefix hpp)
        · intro he; rw [he] at hpp; exact hn (child_prefix hpp)
    refine ⟨⟨?_, ?_, ?_⟩, ?_, ?_, ?_, ?_, ?_⟩
    · change after ((fs.put E.dir (some .dir)).put _ _) _ E.dir = _
      rw [after_frame, put_ne, put_same]
      · intro he; have := congrArg List.length he; simp at this
      · intro o ho
        simp only [List.mem_cons, List.not_mem_nil, or_false] at ho
        subst ho
        intro he; have := congrArg List.length he; simp [Op.path] at this
    · exact put_same ..
    · intro i row hi; rw [hh] at hi; simp at hi
    · rw [hh, if_pos rfl]
      exact hval historyName (by decide) _ (List.prefix_refl _)
    · intro i row hi; rw [hh] at hi; simp at hi
    · intro n hn
      obtain ⟨-, x, hx, rfl, -⟩ := (hl n).1 hn
      exact hnames x hx
    · intro i sp _ _ p hpp
      exact hval _ (runName_ne_meta _ _) p hpp
    · intro _ p hpp
      exact hval _ (runName_ne_meta _ _) p hpp

end Verif.Fwork.ReduceDisk
