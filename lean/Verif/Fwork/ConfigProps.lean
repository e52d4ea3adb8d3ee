/-
Properties of the directories of the workspace: C105.
-/
import Verif.Fwork.Config
import Mathlib.Logic.Function.Iterate
import Mathlib.Logic.Function.Basic

namespace Verif.Fwork.Config
open Verif.Plaschem
open Verif.Fwork.Log (Path FS Node comps put_same put_ne isDir_iff isDir_congr isDir_put_ne isDir_put_dir fileName fetch
  Plain Exec Steps Step log_exact fetch_wf)

variable {δ : Type}

/-! ### specification -/

/-- no file is in the way of the directory `p` -/
def Free (fs : FS δ) (p : Path) : Prop := ∀ r, r <+: p → ∀ c, fs r ≠ some (.file c)

/-- `p` and everything above are directories -/
def Made (fs : FS δ) (p : Path) : Prop := ∀ r, r <+: p → fs.isDir r = true

/-- `p` and what is missing above are made, nothing else is changed -/
noncomputable def withDirs (fs : FS δ) (p : Path) : FS δ :=
  open Classical in fun r => if r <+: p then some .dir else fs r

/-- any number of processes that make directories, and others -/
structure Procs (ι δ : Type) where
  fs : FS δ
  pc : ι → Pc

/-- One operation, of the process `i` or of somebody else: who may do anything except for removing directories that the
processes are to make, and putting files at their places. -/
inductive PStep {ι : Type} [DecidableEq ι] (tgt : ι → Path) : Procs ι δ → Option ι → Procs ι δ → Prop
  | act (s : Procs ι δ) (i : ι) :
      PStep tgt s (some i) ⟨(act s.fs (s.pc i)).1, Function.update s.pc i (act s.fs (s.pc i)).2⟩
  | other (s : Procs ι δ) (fs' : FS δ) (h : ∀ i r, r <+: tgt i → s.fs.isDir r = true → fs'.isDir r = true)
      (hf : ∀ i, Free fs' (tgt i)) : PStep tgt s none ⟨fs', s.pc⟩

inductive PSteps {ι : Type} [DecidableEq ι] (tgt : ι → Path) : Procs ι δ → List (Option ι) → Procs ι δ → Prop
  | nil (s) : PSteps tgt s [] s
  | snoc {s s' s'' ls l} (h : PSteps tgt s ls s') (hl : PStep tgt s' l s'') : PSteps tgt s (ls ++ [l]) s''

/-- the place of a query in the workspace -/
def Query.place : Query → List Str
  | .results b => [str!"results", MorrisRuns.lower b]
  | .stage => [str!"globalkin_stage"]
  | .morris => [str!"results", str!"morris_sensitivity"]
  | .reduction => [str!"results", str!"reduction"]

/-- what a query requires apart from the workspace: a known backend, in any case; the binary for the staging directory -/
def Query.Allowed (cfg : Str → Option Val) (cwd : Path) (fs : FS δ) : Query → Prop
  | .results b => MorrisRuns.lower b = str!"pygmol" ∨ MorrisRuns.lower b = str!"pygkin"
  | .stage => ∃ s bin c, cfg (str!"globalkin_bin") = some (.text s) ∧ toPath cwd (.text s) = .ok bin ∧
      fs bin = some (.file c)
  | _ => True

/-- the directory `w` is the workspace -/
def Workspace (cfg : Str → Option Val) (cwd w : Path) : Prop :=
  ∃ s, cfg (str!"workspace") = some (.text s) ∧ toPath cwd (.text s) = .ok w

/-! ### paths -/

theorem prefix_iff_take {r p : Path} : r <+: p ↔ ∃ k ≤ p.length, r = p.take k := by
  constructor
  · intro h
    exact ⟨r.length, h.length_le, List.prefix_iff_eq_take.1 h⟩
  · rintro ⟨k, -, rfl⟩
    exact List.take_prefix _ _

theorem free_take {fs : FS δ} {p : Path} (h : Free fs p) (k : Nat) (c) : fs (p.take k) ≠ some (.file c) :=
  h _ (List.take_prefix _ _) c

theorem enter_ok {fs : FS δ} {cs : List Str} : ∀ {cur}, enter fs cur cs = .ok () →
    ∀ j ≤ cs.length, fs (cur ++ cs.take j) = some .dir := by
  induction cs with
  | nil =>
    intro cur h j hj
    unfold enter at h
    split at h
    · cases h
    · cases h
    · rename_i hd; simpa using hd
  | cons c cs ih =>
    intro cur h j hj
    unfold enter at h
    split at h
    · cases h
    · cases h
    · rename_i hd
      cases j with
      | zero => simpa using hd
      | succ j => simpa using ih h j (by simpa using hj)

theorem enter_noEntry {fs : FS δ} {cs : List Str} : ∀ {cur}, enter fs cur cs = .error .noEntry →
    ∃ j ≤ cs.length, fs (cur ++ cs.take j) = none ∧ ∀ i < j, fs (cur ++ cs.take i) = some .dir := by
  induction cs with
  | nil =>
    intro cur h
    unfold enter at h
    split at h
    · rename_i hd; exact ⟨0, le_rfl, by simpa using hd, fun i hi => absurd hi (Nat.not_lt_zero _)⟩
    · cases h
    · cases h
  | cons c cs ih =>
    intro cur h
    unfold enter at h
    split at h
    · rename_i hd; exact ⟨0, Nat.zero_le _, by simpa using hd, fun i hi => absurd hi (Nat.not_lt_zero _)⟩
    · cases h
    · rename_i hd
      obtain ⟨j, hj, h1, h2⟩ := ih h
      refine ⟨j + 1, by simpa using hj, by simpa using h1, fun i hi => ?_⟩
      cases i with
      | zero => simpa using hd
      | succ i => simpa using h2 i (by omega)

theorem enter_notDir {fs : FS δ} {cs : List Str} : ∀ {cur}, enter fs cur cs = .error .notDir →
    ∃ j ≤ cs.length, ∃ c, fs (cur ++ cs.take j) = some (.file c) := by
  induction cs with
  | nil =>
    intro cur h
    unfold enter at h
    split at h
    · cases h
    · rename_i c hd; exact ⟨0, le_rfl, c, by simpa using hd⟩
    · cases h
  | cons c cs ih =>
    intro cur h
    unfold enter at h
    split at h
    · cases h
    · rename_i c hd; exact ⟨0, Nat.zero_le _, c, by simpa using hd⟩
    · obtain ⟨j, hj, c', h1⟩ := ih h
      exact ⟨j + 1, by simpa using hj, c', by simpa using h1⟩

theorem enter_exists {fs : FS δ} {cs : List Str} : ∀ {cur}, enter fs cur cs ≠ .error .exists := by
  induction cs with
  | nil => intro cur h; unfold enter at h; split at h <;> cases h
  | cons c cs ih =>
    intro cur h
    unfold enter at h
    split at h
    · cases h
    · cases h
    · exact ih h

theorem take_pred_dropLast {p : Path} {k : Nat} (hk : k ≤ p.length) : (p.take k).dropLast = p.take (k - 1) := by
  rw [List.dropLast_eq_take, List.take_take, List.length_take]
  congr 1
  omega

/-- what `os.mkdir` does where no file is in the way -/
theorem osMkdir_cases {fs : FS δ} {p : Path} (hf : Free fs p) (h0 : fs.isDir [] = true) {k : Nat} (hk : k ≤ p.length) :
    (0 < k ∧ fs (p.take k) = none ∧ (∀ j < k, fs.isDir (p.take j) = true) ∧
      osMkdir fs (p.take k) = .ok (fs.put (p.take k) (some .dir))) ∨
    (0 < k ∧ (¬ ∀ j < k, fs.isDir (p.take j) = true) ∧ osMkdir fs (p.take k) = .error .noEntry) ∨
    ((∀ j ≤ k, fs.isDir (p.take j) = true) ∧ osMkdir fs (p.take k) = .error .exists) := by
  rcases Nat.eq_zero_or_pos k with rfl | hpos
  · right; right
    refine ⟨fun j hj => ?_, by simp [osMkdir]⟩
    obtain rfl : j = 0 := by omega
    simpa using h0
  have hne : p.take k ≠ [] := by
    intro h
    have := congrArg List.length h
    rw [List.length_take, List.length_nil] at this
    omega
  unfold osMkdir
  rw [if_neg hne, take_pred_dropLast hk]
  have hlen : (p.take (k - 1)).length = k - 1 := by rw [List.length_take]; omega
  have htt : ∀ j ≤ k - 1, (p.take (k - 1)).take j = p.take j := fun j hj => by
    rw [List.take_take, min_eq_left hj]
  cases he : enter fs [] (p.take (k - 1)) with
  | ok u =>
    have hall : ∀ j < k, fs.isDir (p.take j) = true := fun j hj => by
      have := enter_ok he j (by omega)
      rw [List.nil_append, htt j (by omega)] at this
      exact isDir_iff.2 this
    dsimp only
    cases hx : fs (p.take k) with
    | none => exact .inl ⟨hpos, rfl, hall, by simp⟩
    | some n =>
      refine .inr (.inr ⟨fun j hj => ?_, by simp⟩)
      rcases Nat.lt_or_eq_of_le hj with h | rfl
      · exact hall j h
      · cases n with
        | dir => exact isDir_iff.2 hx
        | file c => exact absurd hx (free_take hf _ c)
  | error e =>
    dsimp only
    cases e with
    | noEntry =>
      refine .inr (.inl ⟨hpos, fun hall => ?_, rfl⟩)
      obtain ⟨j, hj, h1, -⟩ := enter_noEntry he
      rw [hlen] at hj
      rw [List.nil_append, htt j hj] at h1
      have := isDir_iff.1 (hall j (by omega))
      rw [h1] at this; cases this
    | notDir =>
      obtain ⟨j, hj, c, h1⟩ := enter_notDir he
      rw [hlen] at hj
      rw [List.nil_append, htt j hj] at h1
      exact absurd h1 (free_take hf _ c)
    | «exists» => exact absurd he enter_exists

/-! ### one process -/

/-- the paths from length `k` on -/
def pending (p : Path) (k : Nat) : List Path := (List.range' k (p.length + 1 - k)).map (fun j => p.take j)

theorem pending_succ {p : Path} {k : Nat} (hk : k ≤ p.length) : pending p k = p.take k :: pending p (k + 1) := by
  unfold pending
  obtain ⟨m, hm⟩ : ∃ m, p.length + 1 - k = m + 1 := ⟨p.length - k, by omega⟩
  have hm' : p.length + 1 - (k + 1) = m := by omega
  rw [hm, hm', List.range'_succ, List.map_cons]

theorem pending_end (p : Path) : pending p (p.length + 1) = [] := by
  simp [pending]

/-- invariant of a process that makes `p` -/
def Inv (fs : FS δ) (p : Path) : Pc → Prop
  | .make q par later => ∃ k ≤ p.length, q = p.take k ∧ later = pending p (k + 1) ∧
      (par = false → ∀ j < k, fs.isDir (p.take j) = true)
  | .check q later => ∃ k ≤ p.length, q = p.take k ∧ later = pending p (k + 1) ∧ ∀ j ≤ k, fs.isDir (p.take j) = true
  | .done => Made fs p
  | .raised => False

/-- a bound for the operations that are left -/
def Pc.left (n : Nat) : Pc → Nat
  | .make q true _ => q.length + 2 * n + 2
  | .make q false _ => 2 * (n - q.length) + 2
  | .check q _ => 2 * (n - q.length) + 1
  | _ => 0

theorem inv_mono {fs fs' : FS δ} {p : Path} (h : ∀ r, r <+: p → fs.isDir r = true → fs'.isDir r = true) {pc : Pc}
    (hi : Inv fs p pc) : Inv fs' p pc := by
  cases pc with
  | make q par later =>
    obtain ⟨k, hk, h1, h2, h3⟩ := hi
    exact ⟨k, hk, h1, h2, fun hp j hj => h _ (List.take_prefix _ _) (h3 hp j hj)⟩
  | check q later =>
    obtain ⟨k, hk, h1, h2, h3⟩ := hi
    exact ⟨k, hk, h1, h2, fun j hj => h _ (List.take_prefix _ _) (h3 j hj)⟩
  | done => exact fun r hr => h r hr (hi r hr)
  | raised => exact hi

theorem inv_next {fs : FS δ} {p : Path} {k : Nat} (hk : k ≤ p.length) (h : ∀ j ≤ k, fs.isDir (p.take j) = true) :
    Inv fs p (.next (pending p (k + 1))) ∧ (Pc.next (pending p (k + 1))).left p.length ≤ 2 * (p.length - k) := by
  rcases Nat.lt_or_eq_of_le hk with hlt | rfl
  · rw [pending_succ hlt]
    refine ⟨⟨k + 1, hlt, rfl, rfl, fun _ j hj => h j (by omega)⟩, ?_⟩
    simp only [Pc.next, Pc.left, List.length_take]
    omega
  · rw [pending_end]
    refine ⟨fun r hr => ?_, by simp [Pc.next, Pc.left]⟩
    obtain ⟨j, hj, rfl⟩ := prefix_iff_take.1 hr
    exact h j hj

theorem act_inv {fs : FS δ} {p : Path} (hf : Free fs p) (h0 : fs.isDir [] = true) {pc : Pc} (hi : Inv fs p pc) :
    Inv (act fs pc).1 p (act fs pc).2 ∧ ((act fs pc).2.left p.length < pc.left p.length ∨ pc = .done) ∧
    ((act fs pc).1 = fs ∨ ∃ r, r <+: p ∧ r ≠ [] ∧ fs r = none ∧ fs.isDir r.dropLast = true ∧
      (act fs pc).1 = fs.put r (some .dir)) := by
  cases pc with
  | make q par later =>
    obtain ⟨k, hk, rfl, rfl, h3⟩ := hi
    have hl : (p.take k).length = k := by rw [List.length_take]; omega
    have hM : 2 * (p.length - k) + 2 ≤ (Pc.make (p.take k) par (pending p (k + 1))).left p.length := by
      cases par <;> simp only [Pc.left, hl] <;> omega
    rcases osMkdir_cases hf h0 hk with ⟨h4, h5, h6, h7⟩ | ⟨h4, h5, h6⟩ | ⟨h4, h5⟩
    · have hall : ∀ j ≤ k, (fs.put (p.take k) (some .dir)).isDir (p.take j) = true := fun j hj => by
        rcases eq_or_ne (p.take j) (p.take k) with he | he
        · rw [he]; exact isDir_put_dir _ _
        · rw [isDir_put_ne _ _ he]
          refine h6 j (Nat.lt_of_le_of_ne hj fun hh => he (by rw [hh]))
      obtain ⟨h8, h9⟩ := inv_next hk hall
      simp only [act, h7]
      refine ⟨h8, .inl (by omega), .inr ⟨_, List.take_prefix _ _, ?_, h5, ?_, rfl⟩⟩
      · intro h
        have := congrArg List.length h
        rw [hl] at this
        simp at this
        omega
      · rw [take_pred_dropLast hk]; exact h6 _ (by omega)
    · cases par with
      | false => exact absurd (h3 rfl) h5
      | true =>
        have hne : p.take k ≠ [] := fun h => by
          have := congrArg List.length h
          rw [hl] at this
          simp at this
          omega
        simp only [act, h6]
        rw [if_pos ⟨trivial, hne⟩, take_pred_dropLast hk]
        refine ⟨⟨k - 1, by omega, rfl, ?_, fun h => by cases h⟩, .inl ?_, .inl rfl⟩
        · rw [show k - 1 + 1 = k by omega, pending_succ hk]
        · simp only [Pc.left, List.length_take]
          omega
    · simp only [act, h5]
      refine ⟨⟨k, hk, rfl, rfl, h4⟩, .inl ?_, by simp⟩
      simp only [Pc.left, hl] at hM ⊢
      omega
  | check q later =>
    obtain ⟨k, hk, rfl, rfl, h3⟩ := hi
    have hl : (p.take k).length = k := by rw [List.length_take]; omega
    obtain ⟨h8, h9⟩ := inv_next hk h3
    simp only [act]
    rw [if_pos (h3 k le_rfl)]
    refine ⟨h8, .inl (Nat.lt_of_le_of_lt h9 ?_), .inl rfl⟩
    simp only [Pc.left, hl]
    omega
  | done => exact ⟨hi, .inr rfl, .inl rfl⟩
  | raised => exact hi.elim

/-! ### many processes -/

structure PInv {ι : Type} (tgt : ι → Path) (s : Procs ι δ) : Prop where
  root : s.fs.isDir [] = true
  free : ∀ i, Free s.fs (tgt i)
  inv : ∀ i, Inv s.fs (tgt i) (s.pc i)

theorem put_dir_mono {fs : FS δ} {r : Path} {q : Path} (h : fs.isDir q = true) :
    (fs.put r (some .dir)).isDir q = true := by
  rcases eq_or_ne q r with rfl | hne
  · exact isDir_put_dir _ _
  · rw [isDir_put_ne _ _ hne]; exact h

theorem put_dir_free {fs : FS δ} {r p : Path} (h : Free fs p) : Free (fs.put r (some .dir)) p := by
  intro q hq c hc
  rcases eq_or_ne q r with rfl | hne
  · rw [put_same] at hc; cases hc
  · rw [put_ne _ _ hne] at hc; exact h q hq c hc

theorem pinv_step {ι : Type} [DecidableEq ι] {tgt : ι → Path} {s s' : Procs ι δ} {l : Option ι} (h : PInv tgt s)
    (hne : Nonempty ι) (hs : PStep tgt s l s') : PInv tgt s' := by
  cases hs with
  | act i =>
    obtain ⟨h1, -, h3⟩ := act_inv (h.free i) h.root (h.inv i)
    have hmono : ∀ q, s.fs.isDir q = true → (act s.fs (s.pc i)).1.isDir q = true := by
      intro q hq
      rcases h3 with he | ⟨r, -, -, -, -, he⟩
      · rw [he]; exact hq
      · rw [he]; exact put_dir_mono hq
    refine ⟨hmono _ h.root, fun j => ?_, fun j => ?_⟩
    · rcases h3 with he | ⟨r, -, -, -, -, he⟩
      · dsimp only; rw [he]; exact h.free j
      · dsimp only; rw [he]; exact put_dir_free (h.free j)
    · dsimp only
      rcases eq_or_ne j i with rfl | hji
      · rw [Function.update_self]; exact h1
      · rw [Function.update_of_ne hji]
        exact inv_mono (fun q _ hq => hmono q hq) (h.inv j)
  | other fs' hd hf =>
    exact ⟨hd hne.some [] List.nil_prefix h.root, hf, fun i => inv_mono (hd i) (h.inv i)⟩

theorem pinv_steps {ι : Type} [DecidableEq ι] {tgt : ι → Path} {s s' : Procs ι δ} {ls : List (Option ι)} (h : PInv tgt s)
    (hne : Nonempty ι) (hs : PSteps tgt s ls s') : PInv tgt s' := by
  induction hs with
  | nil => exact h
  | snoc _ hl ih => exact pinv_step ih hne hl

theorem start_inv {ι : Type} {tgt : ι → Path} {fs : FS δ} (h0 : fs.isDir [] = true) (hf : ∀ i, Free fs (tgt i)) :
    PInv tgt (⟨fs, fun i => .make (tgt i) true []⟩ : Procs ι δ) :=
  ⟨h0, hf, fun i => ⟨(tgt i).length, le_rfl, by simp, by rw [pending_end], fun h => by cases h⟩⟩

theorem left_bound {ι : Type} [DecidableEq ι] {tgt : ι → Path} {s s' : Procs ι δ} {ls : List (Option ι)} (h : PInv tgt s)
    (hne : Nonempty ι) (hs : PSteps tgt s ls s') (i : ι) :
    s'.pc i = .done ∨ (s'.pc i).left (tgt i).length + ls.count (some i) ≤ (s.pc i).left (tgt i).length := by
  induction hs with
  | nil => exact .inr (by simp)
  | @snoc s' s'' ls l hs hl ih =>
    have hinv := pinv_steps h hne hs
    cases hl with
    | other fs' hd hf =>
      rw [List.count_append]
      simpa using ih
    | act j =>
      rcases eq_or_ne j i with rfl | hji
      · dsimp only
        rw [Function.update_self]
        obtain ⟨-, h2, -⟩ := act_inv (hinv.free j) hinv.root (hinv.inv j)
        rcases ih with h3 | h3
        · rw [h3]; exact .inl rfl
        · rcases h2 with h2 | h2
          · right
            rw [List.count_append]
            simp only [List.count_singleton_self]
            omega
          · rw [h2]; exact .inl rfl
      · dsimp only
        rw [Function.update_of_ne (Ne.symm hji), List.count_append]
        rcases ih with h3 | h3
        · exact .inl h3
        · right
          have : List.count (some i) [some j] = 0 := by
            rw [List.count_eq_zero]; simp [Ne.symm hji]
          omega

/-- **C105.** Any number of processes ask for directories at the same time, also for the same one, with others in between
who keep these directories and put no files in the way. In every schedule nobody gets an error; everybody who has returned
finds the directory, and everybody returns after at most `3 n + 3` operations of their own (for a path of `n` components). -/
theorem mkdirs_concurrent {ι : Type} [DecidableEq ι] {tgt : ι → Path} {fs : FS δ} (h0 : fs.isDir [] = true)
    (hf : ∀ i, Free fs (tgt i)) {ls : List (Option ι)} {s : Procs ι δ}
    (hs : PSteps tgt ⟨fs, fun i => .make (tgt i) true []⟩ ls s) (i : ι) :
    s.pc i ≠ .raised ∧ (s.pc i = .done → Made s.fs (tgt i)) ∧
      (3 * (tgt i).length + 3 ≤ ls.count (some i) → s.pc i = .done) := by
  have hinv := (pinv_steps (start_inv h0 hf) ⟨i⟩ hs).inv i
  refine ⟨fun h => ?_, fun h => ?_, fun h => ?_⟩
  · rw [h] at hinv; exact hinv
  · rw [h] at hinv; exact hinv
  · rcases left_bound (start_inv h0 hf) ⟨i⟩ hs i with h1 | h1
    · exact h1
    · simp only [Pc.left] at h1
      omega

/-- **C105.** At every moment, if nobody else is there: all that has happened is that some of the missing directories are
there; every file and directory is as it was, and what exists is in a directory. -/
theorem mkdirs_any_moment {ι : Type} [DecidableEq ι] {tgt : ι → Path} {fs : FS δ} (hwf : fs.WF)
    (hf : ∀ i, Free fs (tgt i)) {ls : List (Option ι)} {s : Procs ι δ} (hown : none ∉ ls)
    (hs : PSteps tgt ⟨fs, fun i => .make (tgt i) true []⟩ ls s) :
    s.fs.WF ∧ ∀ q, s.fs q = fs q ∨ (fs q = none ∧ s.fs q = some .dir ∧ ∃ i, q <+: tgt i) := by
  generalize hs0 : (⟨fs, fun i => .make (tgt i) true []⟩ : Procs ι δ) = s0 at hs
  induction hs with
  | nil => subst hs0; exact ⟨hwf, fun q => .inl rfl⟩
  | @snoc s' s'' ls l hs hl ih =>
    subst hs0
    obtain ⟨hw, hq⟩ := ih (fun h => hown (List.mem_append_left _ h))
    cases hl with
    | other => exact absurd (List.mem_append_right _ (List.mem_singleton.2 rfl)) hown
    | act i =>
      have hinv := pinv_steps (start_inv hwf.root hf) ⟨i⟩ hs
      obtain ⟨-, -, h3⟩ := act_inv (hinv.free i) hinv.root (hinv.inv i)
      dsimp only
      rcases h3 with he | ⟨r, h1, h2, h3, h4, he⟩
      · rw [he]; exact ⟨hw, hq⟩
      · rw [he]
        constructor
        · have := Log.wf_put_some (n := .dir) hw (c := r.getLast h2) h4 (by
            rw [List.dropLast_append_getLast h2]
            exact .inl rfl)
          rwa [List.dropLast_append_getLast h2] at this
        · intro q
          rcases eq_or_ne q r with rfl | hne
          · right
            rw [put_same]
            refine ⟨?_, rfl, i, h1⟩
            rcases hq q with h | ⟨h, -⟩
            · rw [← h]; exact h3
            · exact h
          · rw [put_ne _ _ hne]; exact hq q

/-! ### one process alone -/

theorem iterate_steps (fs : FS δ) (p : Path) (m : Nat) :
    PSteps (fun _ : Unit => p) ⟨fs, fun _ => .make p true []⟩ (List.replicate m (some ()))
      ⟨((fun s => act s.1 s.2)^[m] (fs, .make p true [])).1, fun _ => ((fun s => act s.1 s.2)^[m] (fs, .make p true [])).2⟩ := by
  induction m with
  | zero => exact .nil _
  | succ m ih =>
    rw [List.replicate_succ', Function.iterate_succ_apply']
    have := PStep.act (tgt := fun _ : Unit => p) ⟨((fun s => act s.1 s.2)^[m] (fs, .make p true [])).1,
      fun _ => ((fun s => act s.1 s.2)^[m] (fs, .make p true [])).2⟩ ()
    have hu : ∀ (f : Unit → Pc) y, Function.update f () y = fun _ => y := fun f y => funext fun u => by cases u; simp
    rw [hu] at this
    exact .snoc ih this

theorem withDirs_in (fs : FS δ) {p q : Path} (h : q <+: p) : withDirs fs p q = some .dir := by
  unfold withDirs; exact if_pos h

theorem withDirs_out (fs : FS δ) {p q : Path} (h : ¬ q <+: p) : withDirs fs p q = fs q := by
  unfold withDirs; exact if_neg h

/-- **C105.** Alone, the call returns exactly if no file is in the way; then the directory and its parents are there and
nothing else has changed. Otherwise an exception is raised and nothing has changed. -/
theorem mkdirs_eq {fs : FS δ} (hwf : fs.WF) (p : Path) :
    (Free fs p → mkdirs fs p = (withDirs fs p, .done)) ∧ (¬ Free fs p → mkdirs fs p = (fs, .raised)) := by
  constructor
  · intro hf
    have hs := iterate_steps fs p (3 * p.length + 3)
    obtain ⟨-, h2, h3⟩ := mkdirs_concurrent hwf.root (fun _ => hf) hs ()
    have hd := h3 (by simp)
    have hm := h2 hd
    have := (mkdirs_any_moment hwf (fun _ => hf) (by simp) hs).2
    refine Prod.ext (funext fun q => ?_) hd
    have hq := this q
    dsimp only
    by_cases hp : q <+: p
    · rw [withDirs_in _ hp]; exact isDir_iff.1 (hm q hp)
    · rw [withDirs_out _ hp]
      rcases hq with h | ⟨-, -, -, h⟩
      · exact h
      · exact absurd h hp
  · intro hf
    have hf' : ∃ r, r <+: p ∧ ∃ c, fs r = some (.file c) := by
      unfold Free at hf
      push_neg at hf
      exact hf
    obtain ⟨r, hr, c, hc⟩ := hf'
    have hpd : fs.isDir p = false := by
      by_contra h
      have h := isDir_iff.1 (by simpa using h : fs.isDir p = true)
      rcases eq_or_ne r p with rfl | hne
      · rw [h] at hc; cases hc
      · have := isDir_iff.1 (hwf.above hr hne (by rw [h]; simp))
        rw [this] at hc; cases hc
    have hpne : p ≠ [] := by
      rintro rfl
      rw [hwf.root] at hpd; cases hpd
    have h1 : act fs (.make p true []) = (fs, .check p []) := by
      have hos : osMkdir fs p = .error .notDir ∨ osMkdir fs p = .error .exists := by
        unfold osMkdir
        rw [if_neg hpne]
        rcases eq_or_ne r p with rfl | hne
        · cases he : enter fs [] r.dropLast with
          | ok u => simp [hc]
          | error e =>
            cases e with
            | notDir => exact .inl rfl
            | «exists» => exact .inr rfl
            | noEntry =>
              obtain ⟨j, hj, h1, -⟩ := enter_noEntry he
              have hpre : [] ++ r.dropLast.take j <+: r :=
                (List.take_prefix _ _).trans (List.dropLast_prefix r)
              rcases eq_or_ne ([] ++ r.dropLast.take j) r with h2 | h2
              · rw [h2, hc] at h1; cases h1
              · have := isDir_iff.1 (hwf.above hpre h2 (by rw [hc]; simp))
                rw [this] at h1; cases h1
        · have hrp : r <+: p.dropLast := by
            rw [← List.dropLast_append_getLast hpne] at hr
            rcases List.prefix_concat_iff.1 hr with h | h
            · rw [List.dropLast_append_getLast hpne] at h; exact absurd h hne
            · exact h
          obtain ⟨k, hk, hrk⟩ := prefix_iff_take.1 hrp
          cases he : enter fs [] p.dropLast with
          | ok u =>
            have := enter_ok he k hk
            rw [List.nil_append, ← hrk, hc] at this; cases this
          | error e =>
            cases e with
            | notDir => exact .inl rfl
            | «exists» => exact .inr rfl
            | noEntry =>
              obtain ⟨j, hj, h1, h2⟩ := enter_noEntry he
              simp only [List.nil_append] at h1 h2
              rcases Nat.lt_or_ge k j with hkj | hkj
              · have := h2 k hkj
                rw [← hrk, hc] at this; cases this
              · have hpre : p.dropLast.take j <+: r := by
                  rw [hrk]
                  exact List.take_prefix_take_left hkj
                rcases eq_or_ne (p.dropLast.take j) r with h3 | h3
                · rw [h3, hc] at h1; cases h1
                · have := isDir_iff.1 (hwf.above hpre h3 (by rw [hc]; simp))
                  rw [this] at h1; cases h1
      rcases hos with h | h <;> simp [act, h]
    have h2 : act fs (.check p []) = (fs, .raised) := by simp [act, hpd]
    have h3 : ∀ m, (fun s : FS δ × Pc => act s.1 s.2)^[m] (fs, .raised) = (fs, .raised) := by
      intro m
      induction m with
      | zero => rfl
      | succ m ih => rw [Function.iterate_succ_apply]; exact ih
    unfold mkdirs
    rw [show 3 * p.length + 3 = (3 * p.length + 1) + 1 + 1 by omega, Function.iterate_succ_apply,
      Function.iterate_succ_apply]
    simp only [h1, h2]
    exact h3 _

theorem withDirs_idem {fs : FS δ} {p : Path} (h : Made fs p) : withDirs fs p = fs := by
  funext q
  by_cases hq : q <+: p
  · rw [withDirs_in _ hq]; exact (isDir_iff.1 (h q hq)).symm
  · rw [withDirs_out _ hq]

theorem withDirs_wf {fs : FS δ} (hwf : fs.WF) {p : Path} : (withDirs fs p).WF := by
  refine ⟨isDir_iff.2 (withDirs_in _ List.nil_prefix), fun q c h => isDir_iff.2 ?_⟩
  by_cases hq : q <+: p
  · rw [withDirs_in _ hq]
  · rw [withDirs_out _ hq]
    rw [withDirs_out _ (fun hh => hq ((List.prefix_append _ _).trans hh))] at h
    exact isDir_iff.1 (hwf.parent _ _ h)

theorem withDirs_file {fs : FS δ} {p : Path} (hf : Free fs p) (q : Path) (c) :
    withDirs fs p q = some (.file c) ↔ fs q = some (.file c) := by
  by_cases hq : q <+: p
  · rw [withDirs_in _ hq]
    exact ⟨(fun h => nomatch h), fun h => absurd h (hf q hq c)⟩
  · rw [withDirs_out _ hq]

theorem withDirs_free {fs : FS δ} {p : Path} (hf : Free fs p) (q : Path) : Free (withDirs fs p) q ↔ Free fs q := by
  unfold Free
  simp only [ne_eq, withDirs_file hf]

/-! ### queries -/

theorem target_ok {cfg : Str → Option Val} {cwd : Path} {fs : FS δ} {q : Query} {p : Path} :
    target cfg cwd fs q = .ok p ↔ q.Allowed cfg cwd fs ∧ ∃ w, Workspace cfg cwd w ∧ p = w ++ q.place := by
  have hroot : ∀ r, root cfg cwd = .ok r ↔ ∃ w, Workspace cfg cwd w ∧ r = w ++ [str!"results"] := by
    intro r
    unfold root getItem Workspace
    cases h : cfg (str!"workspace") with
    | none => simp
    | some v => cases v <;> simp [toPath, eq_comm]
  have hr2 : ∀ l : Str, ∀ p, (match root cfg cwd with
      | .error e => .error e
      | .ok r => .ok (r ++ [l]) : Except Err Path) = .ok p ↔
      ∃ w, Workspace cfg cwd w ∧ p = w ++ [str!"results", l] := by
    intro l p
    cases h : root cfg cwd with
    | error e =>
      simp only [reduceCtorEq, false_iff]
      rintro ⟨w, hw, -⟩
      have := (hroot (w ++ [str!"results"])).2 ⟨w, hw, rfl⟩
      rw [h] at this; cases this
    | ok r =>
      obtain ⟨w, hw, rfl⟩ := (hroot r).1 h
      simp only [Except.ok.injEq]
      constructor
      · rintro rfl; exact ⟨w, hw, by simp⟩
      · rintro ⟨w', hw', rfl⟩
        have := (hroot (w' ++ [str!"results"])).2 ⟨w', hw', rfl⟩
        rw [h, Except.ok.injEq] at this
        rw [this]
        simp
  cases q with
  | results b =>
    unfold target
    simp only [Query.Allowed, Query.place]
    by_cases hb : [str!"pygmol", str!"pygkin"].contains (MorrisRuns.lower b) = true
    · rw [if_pos hb]
      refine (hr2 _ _).trans ?_
      have : MorrisRuns.lower b = str!"pygmol" ∨ MorrisRuns.lower b = str!"pygkin" := by simpa using hb
      simp [this]
    · rw [if_neg hb]
      have : ¬ (MorrisRuns.lower b = str!"pygmol" ∨ MorrisRuns.lower b = str!"pygkin") := by simpa using hb
      simp [this]
  | morris => unfold target; refine (hr2 _ _).trans ?_; simp [Query.Allowed, Query.place]
  | reduction => unfold target; refine (hr2 _ _).trans ?_; simp [Query.Allowed, Query.place]
  | stage =>
    unfold target getItem
    simp only [Query.Allowed, Query.place, Workspace]
    cases h : cfg (str!"globalkin_bin") with
    | none => simp
    | some v =>
      cases v with
      | other => simp [toPath]
      | text s =>
        simp only [toPath]
        split
        · rename_i c hc
          cases h' : cfg (str!"workspace") with
          | none => simp
          | some v =>
            cases v with
            | other => simp
            | text s' =>
              simp only [Except.ok.injEq, Option.some.injEq, Val.text.injEq]
              constructor
              · rintro rfl
                exact ⟨⟨s, _, c, rfl, rfl, hc⟩, _, ⟨s', rfl, rfl⟩, rfl⟩
              · rintro ⟨-, w, ⟨s'', rfl, rfl⟩, rfl⟩
                rfl
        · rename_i hc
          simp only [reduceCtorEq, false_iff]
          rintro ⟨⟨s', bin, c, h1, h2, h3⟩, -⟩
          cases h1
          cases h2
          exact hc _ h3

theorem getItem_error {cfg : Str → Option Val} {k : Str} {e : Err} (h : getItem cfg k = .error e) : e = .config := by
  unfold getItem at h
  cases hk : cfg k with
  | none => rw [hk] at h; cases h; rfl
  | some v => rw [hk] at h; cases h

theorem toPath_error {cwd : Path} {v : Val} {e : Err} (h : toPath cwd v = .error e) : e = .type := by
  cases v with
  | text s => cases h
  | other => cases h; rfl

theorem root_error {cfg : Str → Option Val} {cwd : Path} {e : Err} (h : root cfg cwd = .error e) :
    e = .config ∨ e = .type := by
  unfold root at h
  split at h
  · rename_i he; cases h; exact .inl (getItem_error he)
  · split at h
    · rename_i he; cases h; exact .inr (toPath_error he)
    · cases h

theorem target_error {cfg : Str → Option Val} {cwd : Path} {fs : FS δ} {q : Query} {e : Err}
    (h : target cfg cwd fs q = .error e) :
    e = .config ∨ e = .type ∨ (e = .attribute ∧ ∃ b, q = .results b ∧ ¬ q.Allowed cfg cwd fs) := by
  have hr : ∀ l : Str, (match root cfg cwd with
      | .error e => .error e
      | .ok r => .ok (r ++ [l]) : Except Err Path) = .error e → e = .config ∨ e = .type := by
    intro l h
    split at h
    · rename_i he; cases h; exact root_error he
    · cases h
  cases q with
  | results b =>
    unfold target at h
    simp only at h
    by_cases hb : [str!"pygmol", str!"pygkin"].contains (MorrisRuns.lower b) = true
    · rw [if_pos hb] at h
      rcases hr _ h with h | h
      · exact .inl h
      · exact .inr (.inl h)
    · rw [if_neg hb] at h
      cases h
      have : ¬ (MorrisRuns.lower b = str!"pygmol" ∨ MorrisRuns.lower b = str!"pygkin") := by simpa using hb
      exact .inr (.inr ⟨rfl, b, rfl, this⟩)
  | morris =>
    rcases hr _ h with h | h
    · exact .inl h
    · exact .inr (.inl h)
  | reduction =>
    rcases hr _ h with h | h
    · exact .inl h
    · exact .inr (.inl h)
  | stage =>
    unfold target at h
    dsimp only at h
    split at h
    · rename_i he; cases h; exact .inl (getItem_error he)
    · split at h
      · rename_i he; cases h; exact .inr (.inl (toPath_error he))
      · split at h
        · split at h
          · rename_i he; cases h; exact .inl (getItem_error he)
          · split at h
            · rename_i he; cases h; exact .inr (.inl (toPath_error he))
            · cases h
        · cases h; exact .inl rfl

/-- **C105.** When a query returns a directory, which, and what has been done: it returns exactly if the workspace is
configured, the query is allowed and no file is in the way. The directory has its place in the workspace, is there with
everything above it, and nothing else has changed. -/
theorem query_ok {cfg : Str → Option Val} {cwd : Path} {fs : FS δ} (hwf : fs.WF) {q : Query} {p : Path} :
    ((query cfg cwd fs q).2 = .ok p ↔
      q.Allowed cfg cwd fs ∧ (∃ w, Workspace cfg cwd w ∧ p = w ++ q.place) ∧ Free fs p) ∧
    ((query cfg cwd fs q).2 = .ok p → (query cfg cwd fs q).1 = withDirs fs p) := by
  unfold query
  cases ht : target cfg cwd fs q with
  | error e =>
    refine ⟨⟨(fun h => nomatch h), ?_⟩, (fun h => nomatch h)⟩
    rintro ⟨h1, h2, -⟩
    rw [target_ok.2 ⟨h1, h2⟩] at ht; cases ht
  | ok p' =>
    dsimp only
    have hpp : ∀ p, (q.Allowed cfg cwd fs ∧ ∃ w, Workspace cfg cwd w ∧ p = w ++ q.place) ↔ p = p' := by
      intro p
      rw [← target_ok, ht]
      simp [eq_comm]
    rw [← and_assoc, hpp]
    by_cases hf : Free fs p'
    · rw [(mkdirs_eq hwf p').1 hf]
      simp only [Except.ok.injEq]
      constructor
      · constructor
        · rintro rfl; exact ⟨rfl, hf⟩
        · rintro ⟨rfl, -⟩; rfl
      · rintro rfl; rfl
    · rw [(mkdirs_eq hwf p').2 hf]
      simp only [reduceCtorEq, false_iff, false_imp_iff, and_true]
      rintro ⟨rfl, h⟩
      exact hf h

/-- **C105.** A query that raises has changed nothing. -/
theorem query_error {cfg : Str → Option Val} {cwd : Path} {fs : FS δ} (hwf : fs.WF) {q : Query} {e : Err}
    (h : (query cfg cwd fs q).2 = .error e) : (query cfg cwd fs q).1 = fs := by
  unfold query at h ⊢
  cases ht : target cfg cwd fs q with
  | error e => rfl
  | ok p' =>
    rw [ht] at h
    dsimp only at h ⊢
    by_cases hf : Free fs p'
    · rw [(mkdirs_eq hwf p').1 hf] at h; cases h
    · rw [(mkdirs_eq hwf p').2 hf]

/-- **C105.** Which error: for an unknown backend an attribute error, whatever else is wrong; for a file in the way the error
of the system; for a missing key, or a binary that is not there, a configuration error; for a value that is not a string a
TypeError. -/
theorem query_errors {cfg : Str → Option Val} {cwd : Path} {fs : FS δ} (hwf : fs.WF) {q : Query} :
    ((query cfg cwd fs q).2 = .error .attribute ↔ ∃ b, q = .results b ∧ ¬ q.Allowed cfg cwd fs) ∧
    ((query cfg cwd fs q).2 = .error .os ↔
      q.Allowed cfg cwd fs ∧ ∃ w, Workspace cfg cwd w ∧ ¬ Free fs (w ++ q.place)) ∧
    ((∀ b, q = .results b → q.Allowed cfg cwd fs) → q ≠ .stage →
      ((query cfg cwd fs q).2 = .error .config ↔ cfg (str!"workspace") = none)) ∧
    (q = .stage → ((query cfg cwd fs q).2 = .error .config ↔ cfg (str!"globalkin_bin") = none ∨
      (∃ s bin, cfg (str!"globalkin_bin") = some (.text s) ∧ toPath cwd (.text s) = .ok bin ∧ ∀ c, fs bin ≠ some (.file c)) ∨
      (q.Allowed cfg cwd fs ∧ cfg (str!"workspace") = none))) ∧
    ((query cfg cwd fs q).2 ≠ .error .yaml) := by
  have hos : (query cfg cwd fs q).2 = .error .os ↔
      q.Allowed cfg cwd fs ∧ ∃ w, Workspace cfg cwd w ∧ ¬ Free fs (w ++ q.place) := by
    unfold query
    cases ht : target cfg cwd fs q with
    | error e =>
      have : e ≠ .os := by
        rcases target_error ht with rfl | rfl | ⟨rfl, -⟩ <;> decide
      simp only [Except.error.injEq, this, false_iff]
      rintro ⟨h1, w, h2, -⟩
      rw [target_ok.2 ⟨h1, w, h2, rfl⟩] at ht; cases ht
    | ok p' =>
      obtain ⟨h1, w, h2, rfl⟩ := target_ok.1 ht
      dsimp only
      by_cases hf : Free fs (w ++ q.place)
      · rw [(mkdirs_eq hwf _).1 hf]
        simp only [reduceCtorEq, false_iff]
        rintro ⟨-, w', h3, h4⟩
        have := target_ok.2 ⟨h1, w', h3, rfl⟩
        rw [ht, Except.ok.injEq] at this
        exact h4 (this ▸ hf)
      · rw [(mkdirs_eq hwf _).2 hf]
        simp only [true_iff]
        exact ⟨h1, w, h2, hf⟩
  have hrest : ∀ e, e ≠ .os → ((query cfg cwd fs q).2 = .error e ↔ target cfg cwd fs q = .error e) := by
    intro e he
    unfold query
    cases ht : target cfg cwd fs q with
    | error e' => rfl
    | ok p' =>
      dsimp only
      by_cases hf : Free fs p'
      · rw [(mkdirs_eq hwf _).1 hf]
      · rw [(mkdirs_eq hwf _).2 hf]; simp [Ne.symm he]
  refine ⟨?_, hos, ?_, ?_, ?_⟩
  · rw [hrest _ (by decide)]
    constructor
    · intro h
      rcases target_error h with h | h | ⟨-, h⟩
      · cases h
      · cases h
      · exact h
    · rintro ⟨b, rfl, hb⟩
      unfold target
      simp only
      rw [if_neg (by simpa [Query.Allowed] using hb)]
  · intro hall hst
    rw [hrest _ (by decide)]
    unfold target root getItem
    cases q with
    | results b =>
      have hb : [str!"pygmol", str!"pygkin"].contains (MorrisRuns.lower b) = true := by
        simpa [Query.Allowed] using hall b rfl
      simp only
      rw [if_pos hb]
      cases cfg (str!"workspace") with
      | none => simp
      | some v => cases v <;> simp [toPath]
    | stage => exact absurd rfl hst
    | morris =>
      cases cfg (str!"workspace") with
      | none => simp
      | some v => cases v <;> simp [toPath]
    | reduction =>
      cases cfg (str!"workspace") with
      | none => simp
      | some v => cases v <;> simp [toPath]
  · rintro rfl
    rw [hrest _ (by decide)]
    unfold target getItem
    simp only [Query.Allowed]
    cases h : cfg (str!"globalkin_bin") with
    | none => simp
    | some v =>
      cases v with
      | other => simp [toPath]
      | text s =>
        simp only [toPath]
        split
        · rename_i c hc
          cases h' : cfg (str!"workspace") with
          | none =>
            simp only [true_iff]
            exact .inr (.inr ⟨⟨s, _, c, rfl, rfl, hc⟩, trivial⟩)
          | some v =>
            have hno : ¬ ∃ s' bin, some (Val.text s) = some (Val.text s') ∧
                (Except.ok ((if s'.head? = some '/' then [] else cwd) ++ (comps s').filter (· ≠ str!".")) : Except Err Path) =
                  .ok bin ∧ ∀ c, fs bin ≠ some (.file c) := by
              rintro ⟨s', bin, h1, h2, h3⟩
              cases h1
              cases h2
              exact h3 c hc
            cases v <;> simp_all
        · rename_i hc
          simp only [true_iff]
          exact .inr (.inl ⟨s, _, rfl, rfl, fun c h => hc c h⟩)
  · rw [Ne, hrest _ (by decide)]
    intro h
    rcases target_error h with h | h | ⟨h, -⟩ <;> cases h

theorem query_wf {cfg : Str → Option Val} {cwd : Path} {fs : FS δ} (hwf : fs.WF) (q : Query) :
    (query cfg cwd fs q).1.WF := by
  cases h : (query cfg cwd fs q).2 with
  | ok p => rw [(query_ok hwf).2 h]; exact withDirs_wf hwf
  | error e => rw [query_error hwf h]; exact hwf

theorem result_congr {cfg : Str → Option Val} {cwd : Path} {fs fs' : FS δ} (hwf : fs.WF) (hwf' : fs'.WF)
    (h : ∀ r c, fs' r = some (.file c) ↔ fs r = some (.file c)) (q : Query) :
    (query cfg cwd fs' q).2 = (query cfg cwd fs q).2 := by
  have ht : target cfg cwd fs' q = target cfg cwd fs q := by
    cases q with
    | stage =>
      unfold target
      dsimp only
      cases getItem cfg (str!"globalkin_bin") with
      | error e => rfl
      | ok v =>
        dsimp only
        cases toPath cwd v with
        | error e => rfl
        | ok bin =>
          dsimp only
          cases hb : fs bin with
          | none =>
            cases hb' : fs' bin with
            | none => rfl
            | some n =>
              cases n with
              | dir => rfl
              | file c => rw [(h bin c).1 hb'] at hb; cases hb
          | some n =>
            cases n with
            | file c => rw [(h bin c).2 hb]
            | dir =>
              cases hb' : fs' bin with
              | none => rfl
              | some n =>
                cases n with
                | dir => rfl
                | file c => rw [(h bin c).1 hb'] at hb; cases hb
    | _ => rfl
  unfold query
  rw [ht]
  cases target cfg cwd fs q with
  | error e => rfl
  | ok p =>
    have hf : Free fs' p ↔ Free fs p := by
      unfold Free; simp only [ne_eq, h]
    dsimp only
    by_cases hp : Free fs p
    · rw [(mkdirs_eq hwf p).1 hp, (mkdirs_eq hwf' p).1 (hf.2 hp)]
    · rw [(mkdirs_eq hwf p).2 hp, (mkdirs_eq hwf' p).2 (fun hh => hp (hf.1 hh))]

theorem query_files {cfg : Str → Option Val} {cwd : Path} {fs : FS δ} (hwf : fs.WF) (q : Query) (r : Path) (c) :
    (query cfg cwd fs q).1 r = some (.file c) ↔ fs r = some (.file c) := by
  cases h : (query cfg cwd fs q).2 with
  | ok p => rw [(query_ok hwf).2 h]; exact withDirs_file ((query_ok hwf).1.1 h).2.2 r c
  | error e => rw [query_error hwf h]

/-- **C105.** What queries answer does not depend on the queries before, and what is there after any number of queries is
what each of them makes by itself: the order and repetitions do not matter. -/
theorem queries_effect {cfg : Str → Option Val} {cwd : Path} {fs : FS δ} (hwf : fs.WF) (qs : List Query) :
    (∀ q, (query cfg cwd (queries cfg cwd fs qs) q).2 = (query cfg cwd fs q).2) ∧
    (∀ r, (∃ q ∈ qs, ∃ p, (query cfg cwd fs q).2 = .ok p ∧ r <+: p) → queries cfg cwd fs qs r = some .dir) ∧
    (∀ r, (¬ ∃ q ∈ qs, ∃ p, (query cfg cwd fs q).2 = .ok p ∧ r <+: p) → queries cfg cwd fs qs r = fs r) ∧
    (queries cfg cwd fs qs).WF := by
  induction qs generalizing fs with
  | nil => exact ⟨fun q => rfl, fun r ⟨q, hq, _⟩ => (by cases hq), fun r _ => rfl, hwf⟩
  | cons q0 qs ih =>
    have hwf' := query_wf (cfg := cfg) (cwd := cwd) hwf q0
    have hres : ∀ q, (query cfg cwd (query cfg cwd fs q0).1 q).2 = (query cfg cwd fs q).2 :=
      result_congr hwf hwf' (query_files hwf q0)
    obtain ⟨h1, h2, h3, h4⟩ := ih hwf'
    simp only [hres] at h1 h2 h3
    refine ⟨h1, fun r hr => ?_, fun r hr => ?_, h4⟩
    · by_cases hq : ∃ q ∈ qs, ∃ p, (query cfg cwd fs q).2 = .ok p ∧ r <+: p
      · exact h2 r hq
      · refine (h3 r hq).trans ?_
        obtain ⟨q, hm, p, hp, hrp⟩ := hr
        rcases List.mem_cons.1 hm with rfl | hm
        · rw [(query_ok hwf).2 hp]; exact withDirs_in _ hrp
        · exact absurd ⟨q, hm, p, hp, hrp⟩ hq
    · have hq : ¬ ∃ q ∈ qs, ∃ p, (query cfg cwd fs q).2 = .ok p ∧ r <+: p := fun ⟨q, hm, hp⟩ =>
        hr ⟨q, List.mem_cons_of_mem _ hm, hp⟩
      refine (h3 r hq).trans ?_
      cases h : (query cfg cwd fs q0).2 with
      | ok p =>
        rw [(query_ok hwf).2 h]
        exact withDirs_out _ fun hrp => hr ⟨q0, List.mem_cons_self, p, h, hrp⟩
      | error e => rw [query_error hwf h]

/-- **C105.** Different queries are about different directories, none inside another; queries for a backend that differ in
case only are about the same. -/
theorem query_apart {cfg : Str → Option Val} {cwd : Path} {fs : FS δ} (hwf : fs.WF) {q q' : Query} {p p' : Path}
    (h : (query cfg cwd fs q).2 = .ok p) (h' : (query cfg cwd fs q').2 = .ok p') :
    (p <+: p' ↔ q = q' ∨ ∃ b b', q = .results b ∧ q' = .results b' ∧ MorrisRuns.lower b = MorrisRuns.lower b') ∧
    (p <+: p' → p = p') := by
  obtain ⟨ha, ⟨w, ⟨s, hs, hw⟩, rfl⟩, -⟩ := (query_ok hwf).1.1 h
  obtain ⟨ha', ⟨w', ⟨s', hs', hw'⟩, rfl⟩, -⟩ := (query_ok hwf).1.1 h'
  rw [hs] at hs'
  cases hs'
  rw [hw] at hw'
  cases hw'
  simp only [List.prefix_append_right_inj, List.append_cancel_left_eq]
  cases q <;> cases q' <;> simp_all [Query.place, Query.Allowed]
  · rcases ha with ha | ha <;> rw [ha] <;> decide
  · rcases ha with ha | ha <;> rw [ha] <;> decide
  · rcases ha' with ha | ha <;> rw [ha] <;> decide
  · rcases ha' with ha | ha <;> rw [ha] <;> decide

/-- **C105.** A run that is logged into the directory of its backend is found by everybody who asks for this backend, in any
case of letters; directories of other queries are as they were. -/
theorem logged_found {cfg : Str → Option Val} {cwd : Path} {fs fs' : FS δ} (hwf : fs.WF) {b : Str} {R : Path}
    (hq : (query cfg cwd fs (.results b)).2 = .ok R) {id : Str} (hid : Plain id) {ow : Bool} {docs : Fin 6 → δ}
    (hx : Exec (query cfg cwd fs (.results b)).1 R id ow docs fs') :
    (∀ b', MorrisRuns.lower b' = MorrisRuns.lower b → query cfg cwd fs' (.results b') = (fs', .ok R)) ∧
    (∀ i, fetch fs' R id (fileName i) = some (some (docs i))) ∧
    (∀ q p, (query cfg cwd fs q).2 = .ok p → q.place ≠ (Query.results b).place → ∀ r, p <+: r → r ≠ p →
      fs' r = fs r) := by
  have hwf1 := query_wf (cfg := cfg) (cwd := cwd) hwf (.results b)
  obtain ⟨t, -, ht, h3, h4, h5, h6, h7, hwf', h8⟩ := log_exact hwf1 hx
  obtain rfl := ht hid
  obtain ⟨hal, ⟨w, hw, hp⟩, hfree⟩ := (query_ok hwf).1.1 hq
  have hRdir : Made fs' R := by
    intro r hr
    rcases eq_or_ne r (R ++ [id]) with rfl | hne
    · exact h4
    · exact hwf'.above (hr.trans (List.prefix_append _ _)) hne (by rw [isDir_iff.1 h4]; simp)
  refine ⟨fun b' hb' => ?_, h8, fun q p hqp hne r hr hrp => ?_⟩
  · have hok : (query cfg cwd fs' (.results b')).2 = .ok R := by
      refine (query_ok hwf').1.2 ⟨?_, ⟨w, hw, ?_⟩, fun r hr c hc => ?_⟩
      · simp only [Query.Allowed] at hal ⊢
        rw [hb']; exact hal
      · rw [hp]; simp only [Query.place, hb']
      · rw [isDir_iff.1 (hRdir r hr)] at hc; cases hc
    refine Prod.ext ?_ hok
    rw [(query_ok hwf').2 hok, withDirs_idem hRdir]
  · have hap : ¬ R <+: p ∧ ¬ p <+: R := by
      constructor
      · intro hh
        have := (query_apart hwf hq hqp).2 hh
        obtain ⟨-, ⟨w', ⟨s', hs', hw'⟩, hpp⟩, -⟩ := (query_ok hwf).1.1 hqp
        obtain ⟨s, hs, hws⟩ := hw
        rw [hs] at hs'
        cases hs'
        rw [hws] at hw'
        cases hw'
        rw [hp, hpp] at this
        exact hne (List.append_cancel_left this).symm
      · intro hh
        have := (query_apart hwf hqp hq).2 hh
        obtain ⟨-, ⟨w', ⟨s', hs', hw'⟩, hpp⟩, -⟩ := (query_ok hwf).1.1 hqp
        obtain ⟨s, hs, hws⟩ := hw
        rw [hs] at hs'
        cases hs'
        rw [hws] at hw'
        cases hw'
        rw [hp, hpp] at this
        exact hne (List.append_cancel_left this)
    have hrR : ¬ r <+: R := fun hh => hap.2 (hr.trans hh)
    have hRr : ¬ R <+: r := fun hh => by
      rcases List.prefix_or_prefix_of_prefix hr hh with h | h
      · exact hap.2 h
      · exact hap.1 h
    rw [h7 r (fun hh => hRr ((List.prefix_append _ _).trans hh)), (query_ok hwf).2 hq, withDirs_out _ hrR]

/-- **C105.** Names of log files: there is one exactly for the six logs, different logs have different names, and these are
the files of a logged run. -/
theorem logName_spec :
    (∀ l, (logName l).isSome ↔ l ∈ [str!"solution", str!"rates", str!"wall_fluxes", str!"model_attributes",
      str!"chemistry_attributes", str!"solver_log"]) ∧
    (∀ l l' n, logName l = some n → logName l' = some n → l = l') ∧
    (∀ n, (∃ l, logName l = some n) ↔ ∃ i, n = fileName i) ∧
    (∀ l n, logName l = some n → n = l ++ str!".csv" ∨ n = l ++ str!".yaml") := by
  have hmem : ∀ l n, logName l = some n → l ∈ [str!"solution", str!"rates", str!"wall_fluxes", str!"model_attributes",
      str!"chemistry_attributes", str!"solver_log"] := by
    intro l n h
    unfold logName at h
    split at h
    · rename_i h1; simp only [List.mem_cons, List.not_mem_nil, or_false] at h1 ⊢; tauto
    · split at h
      · rename_i h1; simp only [List.mem_cons, List.not_mem_nil, or_false] at h1 ⊢; tauto
      · cases h
  refine ⟨fun l => ⟨fun h => ?_, fun h => ?_⟩, fun l l' n h h' => ?_, fun n => ⟨?_, ?_⟩, fun l n h => ?_⟩
  · obtain ⟨n, hn⟩ := Option.isSome_iff_exists.1 h
    exact hmem l n hn
  · revert l; decide +kernel
  · have h1 := hmem _ _ h
    have h2 := hmem _ _ h'
    rw [← h'] at h
    clear h'
    have : ∀ l ∈ [str!"solution", str!"rates", str!"wall_fluxes", str!"model_attributes",
      str!"chemistry_attributes", str!"solver_log"], ∀ l' ∈ [str!"solution", str!"rates", str!"wall_fluxes",
      str!"model_attributes", str!"chemistry_attributes", str!"solver_log"], logName l = logName l' → l = l' := by
      decide +kernel
    exact this l h1 l' h2 h
  · rintro ⟨l, h⟩
    have h1 := hmem _ _ h
    have : ∀ l ∈ [str!"solution", str!"rates", str!"wall_fluxes", str!"model_attributes",
      str!"chemistry_attributes", str!"solver_log"], ∃ i, logName l = some (fileName i) := by decide +kernel
    obtain ⟨i, hi⟩ := this l h1
    rw [h] at hi
    cases hi
    exact ⟨i, rfl⟩
  · rintro ⟨i, rfl⟩
    have : ∀ i, ∃ l ∈ [str!"solution", str!"rates", str!"wall_fluxes", str!"model_attributes",
      str!"chemistry_attributes", str!"solver_log"], logName l = some (fileName i) := by decide +kernel
    obtain ⟨l, -, hl⟩ := this i
    exact ⟨l, hl⟩
  · unfold logName at h
    split at h
    · cases h; exact .inl rfl
    · split at h
      · cases h; exact .inr rfl
      · cases h

/-- **C105.** A configuration is loaded exactly from a file with a dictionary. The other files give a configuration error,
except for text that is not YAML (contrary to the documentation). -/
theorem load_spec (f : Option Content) :
    ((∃ d, load f = .ok d) ↔ ∃ d, f = some (.dict d)) ∧ (∀ d, load f = .ok d → f = some (.dict d)) ∧
    (load f = .error .config ↔ f = none ∨ f = some .noDict) ∧ (load f = .error .yaml ↔ f = some .malformed) := by
  cases f with
  | none => simp [load]
  | some c => cases c <;> simp [load]

theorem splitSlash_append {c : Str} (h : '/' ∉ c) (s : Str) : Log.splitSlash (c ++ '/' :: s) = c :: Log.splitSlash s := by
  induction c with
  | nil => simp [Log.splitSlash]
  | cons x c ih =>
    have hx : x ≠ '/' := fun hh => h (by simp [hh])
    rw [List.cons_append, Log.splitSlash, if_neg hx, ih (fun hh => h (List.mem_cons_of_mem _ hh))]

/-- **C105.** What the values of the configuration mean: `/a/b` is this path, `a/b` is below the working directory. -/
theorem toPath_spec (cwd : Path) (cs : List Str) (h : ∀ c ∈ cs, Plain c) :
    (cs ≠ [] → toPath cwd (.text (cs.flatMap ('/' :: ·))) = .ok cs) ∧
    (∀ c, Plain c → toPath cwd (.text (c ++ cs.flatMap ('/' :: ·))) = .ok (cwd ++ c :: cs)) := by
  have hs : ∀ c, Plain c → ∀ cs : List Str, (∀ c ∈ cs, Plain c) →
      Log.splitSlash (c ++ cs.flatMap ('/' :: ·)) = c :: cs := by
    intro c hc cs
    induction cs generalizing c with
    | nil => intro _; simpa using Log.splitSlash_plain hc.noSlash
    | cons d cs ih =>
      intro hcs
      rw [List.flatMap_cons, List.cons_append, splitSlash_append hc.noSlash,
        ih d (hcs d List.mem_cons_self) (fun c hc => hcs c (List.mem_cons_of_mem _ hc))]
  have hfil : ∀ cs : List Str, (∀ c ∈ cs, Plain c) →
      (cs.filter (fun p => p ≠ [])).filter (· ≠ str!".") = cs := by
    intro cs hcs
    rw [List.filter_filter, List.filter_eq_self]
    intro c hc
    simp [(hcs c hc).nonempty, (hcs c hc).notDot]
  constructor
  · intro hne
    cases cs with
    | nil => exact absurd rfl hne
    | cons c cs =>
      unfold toPath
      dsimp only
      rw [if_pos (by simp)]
      have : comps ((c :: cs).flatMap ('/' :: ·)) = (c :: cs).filter (fun p => p ≠ []) := by
        unfold comps
        rw [List.flatMap_cons, List.cons_append, Log.splitSlash, if_pos rfl, hs c (h c List.mem_cons_self) cs
          (fun c hc => h c (List.mem_cons_of_mem _ hc))]
        simp
      rw [this, hfil _ h]
      rfl
  · intro c hc
    unfold toPath
    dsimp only
    have hhead : (c ++ cs.flatMap ('/' :: ·)).head? ≠ some '/' := by
      intro hh
      cases c with
      | nil => exact hc.nonempty rfl
      | cons x c =>
        simp only [List.cons_append, List.head?_cons, Option.some.injEq] at hh
        exact hc.noSlash (by simp [hh])
    rw [if_neg hhead]
    unfold comps
    rw [hs c hc cs h, hfil (c :: cs) (fun d hd => by
      rcases List.mem_cons.1 hd with rfl | hd
      · exact hc
      · exact h d hd)]

/-! ### a case that meets the hypotheses -/

namespace Demo

/-- a home directory with a binary -/
def fs : FS Nat := fun p =>
  if p = [] ∨ p = [str!"home"] then some .dir
  else if p = [str!"home", str!"gk"] then some (.file (some 0))
  else none

theorem fs_wf : fs.WF := by
  refine ⟨by decide +kernel, fun p c h => ?_⟩
  unfold fs at h
  split at h
  · rename_i h1
    rcases h1 with h1 | h1
    · simp at h1
    · obtain ⟨rfl, -⟩ : p = [] ∧ c = str!"home" := List.append_inj' (t₂ := [str!"home"]) (s₂ := []) h1 rfl |>.imp id (by simp)
      decide +kernel
  · split at h
    · rename_i h1
      obtain ⟨rfl, -⟩ : p = [str!"home"] ∧ [c] = [str!"gk"] :=
        List.append_inj' (t₂ := [str!"gk"]) (s₂ := [str!"home"]) h1 rfl
      decide +kernel
    · exact absurd rfl h

def cfg : Str → Option Val := fun k =>
  if k = str!"workspace" then some (.text (str!"ws/")) else if k = str!"globalkin_bin" then some (.text (str!"/home/./gk"))
  else none

/-- the directory of a backend -/
example : (query cfg [str!"home"] fs (.results (str!"PyGMol"))).2.toOption =
    some [str!"home", str!"ws", str!"results", str!"pygmol"] := by decide +kernel

example : (query cfg [str!"home"] fs .stage).2.toOption = some [str!"home", str!"ws", str!"globalkin_stage"] := by
  decide +kernel

/-- the workspace is a file -/
example : (query cfg [str!"home"] (fs.put [str!"home", str!"ws"] (some (.file none))) .morris).2.toOption = none := by
  decide +kernel

example : Free fs [str!"home", str!"ws", str!"results", str!"pygmol"] := by
  intro r hr c hc
  obtain ⟨k, hk, rfl⟩ := prefix_iff_take.1 hr
  have : ∀ k : Fin 5, fs ([str!"home", str!"ws", str!"results", str!"pygmol"].take k) = some (.file c) → False := by
    intro k
    match k with
    | 0 | 1 | 2 | 3 | 4 => intro h; cases h
  exact this ⟨k, by simp at hk; omega⟩ hc

/-- a run is logged into a directory that has just been made -/
example : Plain (str!"run1") ∧ ∃ s, Log.start (query cfg [str!"home"] fs (.results (str!"PyGMol"))).1
    [str!"home", str!"ws", str!"results", str!"pygmol"] (str!"run1") false (fun i => i.1) = .ok s := by
  refine ⟨⟨by decide, by decide, by decide, by decide⟩, ?_⟩
  have : (Log.start (query cfg [str!"home"] fs (.results (str!"PyGMol"))).1
    [str!"home", str!"ws", str!"results", str!"pygmol"] (str!"run1") false (fun i => i.1)).toOption.isSome = true := by
    decide +kernel
  cases h : Log.start (query cfg [str!"home"] fs (.results (str!"PyGMol"))).1
    [str!"home", str!"ws", str!"results", str!"pygmol"] (str!"run1") false (fun i => i.1) with
  | error e => rw [h] at this; cases this
  | ok s => exact ⟨s, rfl⟩

/-- two processes make the same directory; one is overtaken -/
example : ∃ s, PSteps (fun _ : Bool => [str!"a"]) (⟨fs, fun _ => .make [str!"a"] true []⟩ : Procs Bool Nat)
    [some true, none, some false] s ∧ s.pc true = .done ∧ ∃ later, s.pc false = .check [str!"a"] later := by
  refine ⟨_, .snoc (.snoc (.snoc (.nil _) (.act _ true)) (.other _ _ (fun _ _ _ h => h) ?_)) (.act _ false), rfl, _, rfl⟩
  intro i r hr c hc
  obtain ⟨k, hk, rfl⟩ := prefix_iff_take.1 hr
  match k, hk with
  | 0, _ => cases hc
  | 1, _ => cases hc

end Demo

end Verif.Fwork.Config
