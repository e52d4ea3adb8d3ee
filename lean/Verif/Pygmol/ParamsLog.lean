/-
Properties C54 and C99: exactly which parameters are accepted, and that logged parameters can be used again.
-/
import Verif.Pygmol.Params
import Mathlib.Data.List.Perm.Basic
import Mathlib.Data.List.Perm.Subperm

namespace Verif.Pygmol
open Verif.Plaschem (Str Dict)
open Verif.Plaschem

/-! ### Specification -/

/-- what is stored for a parameter -/
def Params.value (P : Params) : Nom → Got
  | .radius => .number P.radius
  | .length => .number P.length
  | .pressure => .number P.pressure
  | .tempGas => .number P.tempGas
  | .tEnd => .number P.tEnd
  | .power => .numbers P.power
  | .tPower => .numbers P.time
  | .feeds => .feeds P.feeds

/-- the parameters make sense -/
structure Params.Valid (P : Params) : Prop where
  radius : 0 < P.radius
  length : 0 < P.length
  pressure : 0 < P.pressure
  tempGas : 0 < P.tempGas
  tEnd : 0 < P.tEnd
  feeds : ∀ f ∈ P.feeds, 0 < f.2
  power : ∀ x ∈ P.power, 0 ≤ x
  same : P.power.length = P.time.length
  two : 2 ≤ P.time.length
  first : ∃ a, P.time.head? = some a ∧ a ≤ 0
  last : ∃ b, P.time.getLast? = some b ∧ 1.1 * P.tEnd ≤ b

/-- each parameter is passed under one of its names only -/
def OneName (passed : List (Str × Val)) : Prop :=
  passed.Pairwise fun a b => ∀ n, a.1 ∈ names n → b.1 ∉ names n

/-- the passed values are those of `P` -/
structure Describes (passed : List (Str × Val)) (P : Params) : Prop where
  known : ∀ e ∈ passed, ∃ n, e.1 ∈ names n
  all : ∀ n, ∃ e ∈ passed, e.1 ∈ names n ∧ Shows e.2 (P.value n) ∧ (n = .tPower → ∃ l, e.2 = .list l)

/-! ### Proofs -/

theorem Params.ext_value {P Q : Params} (h : ∀ n, P.value n = Q.value n) : P = Q := by
  obtain ⟨r, z, p, tg, te, f, pw, t⟩ := P
  obtain ⟨r', z', p', tg', te', f', pw', t'⟩ := Q
  have h1 := h .radius; have h2 := h .length; have h3 := h .pressure; have h4 := h .tempGas
  have h5 := h .tEnd; have h6 := h .feeds; have h7 := h .power; have h8 := h .tPower
  simp only [Params.value, Got.number.injEq, Got.numbers.injEq, Got.feeds.injEq] at h1 h2 h3 h4 h5 h6 h7 h8
  subst h1 h2 h3 h4 h5 h6 h7 h8
  rfl

theorem getItem_value {P : Params} {n : Nom} {k : Str} (h : k ∈ names n) : P.getItem k = .ok (P.value n) := by
  unfold Params.getItem
  rw [(nomOf_iff k n).2 h]
  cases n <;> rfl

theorem assertNumber_of {s : Sign} {x : ℝ} (h : s.Holds x) : assertNumber s (.num x) = .ok x := by
  cases s with
  | positive => exact if_neg (not_le.2 h)
  | nonNegative => exact if_neg (not_lt.2 h)
  | any => rfl

theorem numbers_of {s : Sign} {xs : List ℝ} (h : ∀ x ∈ xs, s.Holds x) : numbers s (xs.map .num) = .ok xs := by
  induction xs with
  | nil => rfl
  | cons x xs ih =>
    simp only [List.map_cons, numbers]
    rw [assertNumber_of (h x (by simp)), ih fun y hy => h y (List.mem_cons_of_mem _ hy)]

theorem feedsOf_of {l : List (Str × ℝ)} (h : ∀ p ∈ l, 0 < p.2) :
    feedsOf (l.map fun p => (.str p.1, .num p.2)) = .ok l := by
  induction l with
  | nil => rfl
  | cons p l ih =>
    simp only [List.map_cons, feedsOf]
    rw [assertNumber_of (s := .positive) (h p (by simp)), ih fun y hy => h y (List.mem_cons_of_mem _ hy)]

/-- parameter `n` set to its value in `P` -/
private def upd (P : Params) (p : Partial) : Nom → Partial
  | .radius => { p with radius := some P.radius }
  | .length => { p with length := some P.length }
  | .pressure => { p with pressure := some P.pressure }
  | .tempGas => { p with tempGas := some P.tempGas }
  | .tEnd => { p with tEnd := some P.tEnd }
  | .power => { p with power := some P.power }
  | .tPower => { p with time := some P.time }
  | .feeds => { p with feeds := some P.feeds }

private structure Agrees (P : Params) (p : Partial) : Prop where
  power : ∀ l, p.power = some l → l = P.power
  time : ∀ l, p.time = some l → l = P.time

private theorem agrees_upd {P : Params} {p : Partial} (h : Agrees P p) (n : Nom) : Agrees P (upd P p n) := by
  cases n <;> first
    | exact ⟨h.power, h.time⟩
    | exact ⟨fun l hl => (Option.some.inj hl).symm, h.time⟩
    | exact ⟨h.power, fun l hl => (Option.some.inj hl).symm⟩

private theorem setParam_of {P : Params} (hv : P.Valid) {p : Partial} (ha : Agrees P p) {n : Nom} {v : Val}
    (hs : Shows v (P.value n)) (ht : n = .tPower → ∃ l, v = .list l) : setParam p n v = .ok (upd P p n) := by
  have num : ∀ {x : ℝ}, 0 < x → number (.atom (.num x)) = .ok x := fun hx => assertNumber_of (s := .positive) hx
  cases n with
  | radius => cases hs; simp only [setParam]; rw [num hv.radius]; rfl
  | length => cases hs; simp only [setParam]; rw [num hv.length]; rfl
  | pressure => cases hs; simp only [setParam]; rw [num hv.pressure]; rfl
  | tempGas => cases hs; simp only [setParam]; rw [num hv.tempGas]; rfl
  | tEnd => cases hs; simp only [setParam]; rw [num hv.tEnd]; rfl
  | feeds =>
    cases hs
    simp only [setParam]
    rw [feedsOf_of hv.feeds]
    rfl
  | power =>
    have key : setPower p (P.power.map .num) = .ok { p with power := some P.power } := by
      unfold setPower
      rw [if_neg (by rw [List.length_map, hv.same]; exact not_lt.2 hv.two), numbers_of (s := .nonNegative) hv.power]
      simp only
      split
      · rename_i ts hts
        rw [if_neg]
        rw [ha.time ts hts, List.length_map, hv.same]
        exact fun h => h rfl
      · rfl
    simp only [Params.value] at hs
    cases hs with
    | list => simp only [setParam, collection]; exact key
    | keys d l hd =>
      simp only [setParam, collection]
      rw [hd]
      exact key
  | tPower =>
    obtain ⟨l, rfl⟩ := ht rfl
    simp only [Params.value] at hs
    cases hs with
    | list =>
      change setTime p (P.time.map .num) = _
      unfold setTime
      rw [if_neg (by rw [List.length_map]; exact not_lt.2 hv.two), numbers_of (s := .any) fun _ _ => trivial]
      simp only
      split
      · rename_i ts hts
        rw [if_neg]
        · rfl
        · rw [ha.power ts hts, List.length_map, hv.same]
          exact fun h => h rfl
      · rfl

private theorem setAll_of {P : Params} (hv : P.Valid) {l : List (Str × Val)} {p : Partial} (ha : Agrees P p)
    (hl : ∀ e ∈ l, ∃ n, e.1 ∈ names n ∧ Shows e.2 (P.value n) ∧ (n = .tPower → ∃ l, e.2 = .list l)) :
    ∃ q, setAll p l = .ok q ∧ ∀ n, (p.item n = some (P.value n) ∨ ∃ e ∈ l, e.1 ∈ names n) →
      q.item n = some (P.value n) := by
  induction l generalizing p with
  | nil => exact ⟨p, rfl, fun n hn => hn.resolve_right fun ⟨e, he, _⟩ => by cases he⟩
  | cons e l ih =>
    obtain ⟨k, v⟩ := e
    obtain ⟨m, hm, hs, ht⟩ := hl (k, v) (by simp)
    obtain ⟨q, hq, hi⟩ := ih (agrees_upd ha m) fun e he => hl e (List.mem_cons_of_mem _ he)
    refine ⟨q, ?_, fun n hn => hi n ?_⟩
    · simp only [setAll]
      rw [(nomOf_iff k m).2 hm]
      simp only
      rw [setParam_of hv ha hs ht]
      exact hq
    · have hset : (upd P p m).item m = some (P.value m) := by cases m <;> rfl
      have hkeep : ∀ n, n ≠ m → (upd P p m).item n = p.item n := by
        intro n hn
        cases n <;> cases m <;> first | rfl | exact absurd rfl hn
      by_cases hnm : n = m
      · subst hnm; exact .inl hset
      · rcases hn with hn | ⟨e, he, hen⟩
        · exact .inl (by rw [hkeep n hnm]; exact hn)
        · rcases List.mem_cons.1 he with rfl | he
          · have := (nomOf_iff k n).2 hen
            rw [(nomOf_iff k m).2 hm] at this
            exact absurd (Option.some.inj this).symm hnm
          · exact .inr ⟨e, he, hen⟩

private theorem one_of_names {k : Str} {n m : Nom} (h : k ∈ names n) (h' : k ∈ names m) : n = m := by
  have := (nomOf_iff k n).2 h
  rw [(nomOf_iff k m).2 h'] at this
  exact (Option.some.inj this).symm

private theorem one_entry {passed : List (Str × Val)} (ho : OneName passed) {e e' : Str × Val} (h : e ∈ passed)
    (h' : e' ∈ passed) {n : Nom} (hn : e.1 ∈ names n) (hn' : e'.1 ∈ names n) : e = e' := by
  by_contra hne
  have : Std.Symm fun a b : Str × Val => ∀ n, a.1 ∈ names n → b.1 ∉ names n := ⟨fun a b hab n hb ha => hab n ha hb⟩
  exact ho.forall h h' hne n hn hn'

/-- **C54.** Exactly the right parameters are accepted: if each parameter is passed under one of its names, the constructor
returns `P` exactly if all names are known, each parameter is passed, the values are those of `P`, and they make sense. -/
theorem accepted_iff {passed : List (Str × Val)} (ho : OneName passed) {P : Params} :
    initParams passed = .ok P ↔ Describes passed P ∧ P.Valid := by
  constructor
  · intro h
    obtain ⟨h1, h2, h3, h4, h5, h6, h7, h8, h9, a, b, ha, hb, hla, hlb⟩ := accepted_params h
    obtain ⟨d1, -, d3⟩ := lookup_defined h
    refine ⟨⟨d3, fun n => ?_⟩, h1, h2, h3, h4, h5, h6, h7, h8, h9, ⟨a, ha, hla⟩, b, hb, hlb⟩
    obtain ⟨g, hg, e, he, hen, hsh⟩ := d1 n
    have : P.value n = g := by
      have := hg e.1 hen
      rw [getItem_value hen] at this
      exact Except.ok.inj this
    refine ⟨e, he, hen, this ▸ hsh, fun hn => ?_⟩
    subst hn
    obtain ⟨-, -, p, _, _, hs, -⟩ := initParams_inv h
    obtain ⟨l₁, l₂, rfl⟩ := List.append_of_mem he
    obtain ⟨m, -, hr⟩ := setAll_append hs
    obtain ⟨k, v⟩ := e
    obtain ⟨n', q, hk', hq, -⟩ := setAll_cons hr
    rw [(nomOf_iff k .tPower).2 hen] at hk'
    cases hk'
    cases v with
    | list l => exact ⟨l, rfl⟩
    | atom a => cases hq
    | dict d => cases hq
  · rintro ⟨hd, hv⟩
    obtain ⟨q, hq, hi⟩ := setAll_of hv (p := {}) ⟨fun l h => (by cases h), fun l h => (by cases h)⟩ (l := passed)
      (fun e he => by
        obtain ⟨n, hn⟩ := hd.known e he
        obtain ⟨e', he', hn', hs, ht⟩ := hd.all n
        obtain rfl := one_entry ho he he' hn hn'
        exact ⟨n, hn, hs, ht⟩)
    have hitem : ∀ n, q.item n = some (P.value n) := fun n => hi n (.inr (by
      obtain ⟨e, he, hn, -⟩ := hd.all n
      exact ⟨e, he, hn⟩))
    unfold initParams
    rw [if_neg, if_neg, hq]
    · obtain ⟨a, ha, hla⟩ := hv.first
      obtain ⟨b, hb, hlb⟩ := hv.last
      have h1 := hitem .radius; have h2 := hitem .length; have h3 := hitem .pressure; have h4 := hitem .tempGas
      have h5 := hitem .tEnd; have h6 := hitem .feeds; have h7 := hitem .power; have h8 := hitem .tPower
      simp only [Partial.item, Params.value, Option.map_eq_some_iff, Got.number.injEq, Got.numbers.injEq,
        Got.feeds.injEq, exists_eq_right] at h1 h2 h3 h4 h5 h6 h7 h8
      simp only [h1, h2, h3, h4, h5, h6, h7, h8, ha, hb]
      rw [if_neg (not_lt.2 hla), if_neg (not_lt.2 hlb)]
    · rintro ⟨n, hn⟩
      obtain ⟨e, he, hen, -⟩ := hd.all n
      exact hn e.1 (List.mem_map_of_mem he) ((nomOf_iff _ _).2 hen)
    · rintro ⟨k, hk, hn⟩
      obtain ⟨e, he, rfl⟩ := List.mem_map.1 hk
      obtain ⟨n, hen⟩ := hd.known e he
      rw [(nomOf_iff _ _).2 hen] at hn
      cases hn

/-- **C54.** The order of the parameters does not matter. -/
theorem order_of_params {passed passed' : List (Str × Val)} (hp : passed.Perm passed') (ho : OneName passed) {P : Params} :
    initParams passed = .ok P ↔ initParams passed' = .ok P := by
  have ho' : OneName passed' := (hp.pairwise_iff fun {a b} hab n hb ha => hab n ha hb).1 ho
  rw [accepted_iff ho, accepted_iff ho']
  have key : ∀ {l l' : List (Str × Val)}, l.Perm l' → Describes l P → Describes l' P := fun hll d =>
    ⟨fun e he => d.known e (hll.mem_iff.2 he), fun n => by
      obtain ⟨e, he, h⟩ := d.all n
      exact ⟨e, hll.mem_iff.1 he, h⟩⟩
  exact and_congr_left fun _ => ⟨key hp, key hp.symm⟩

/-! ### C99: parameters that were logged -/

/-- how python shows a value -/
def Got.val : Got → Val
  | .number x => .atom (.num x)
  | .numbers l => .list (l.map .num)
  | .feeds l => .dict (l.map fun p => (.str p.1, .num p.2))

/-- the nominal key, model_parameters.py:162-171 -/
def Nom.key : Nom → Str
  | .radius => str!"radius"
  | .length => str!"length"
  | .pressure => str!"pressure"
  | .power => str!"power"
  | .tPower => str!"t_power"
  | .tempGas => str!"temp_gas"
  | .feeds => str!"feeds"
  | .tEnd => str!"t_end"

/-- `dict(params)` (global_model.py:270, morris.py:401, 402, 427; `keys` model_parameters.py:301-302, `__getitem__` 274-286): the
nominal keys `ks`, each with what `__getitem__` returns -/
def Params.asDict (P : Params) (ks : List Nom) : Except PErr (List (Str × Val)) :=
  ks.mapM fun n => (P.getItem n.key).map fun g => (n.key, g.val)

/-- the keys of `self.parameters` (model_parameters.py:247-268) in order of insertion; a key that is set again stays in place -/
def keysOf (passed : List (Str × Val)) : List Nom :=
  passed.foldl (fun ks e =>
    match nomOf e.1 with
    | some n => if n ∈ ks then ks else ks ++ [n]
    | none => ks) []

/-- `dict(ModelParameters(passed))`: what is logged (global_model.py:270, model.py:70), stored with the trajectories of a Morris run
(morris.py:427) and compared (morris.py:401-402) -/
noncomputable def cleaned (passed : List (Str × Val)) : Except PErr (List (Str × Val)) :=
  match initParams passed with
  | .error e => .error e
  | .ok P => P.asDict (keysOf passed)

/-- `==` of python values; dictionaries without regard to the order of keys, which are unique -/
def Val.Eq : Val → Val → Prop
  | .atom a, .atom b => a = b
  | .list a, .list b => a = b
  | .dict a, .dict b => a.length = b.length ∧ ∀ e ∈ a, e ∈ b
  | _, _ => False

/-- `==` of two dictionaries of parameters -/
def sameDict (a b : List (Str × Val)) : Prop := a.length = b.length ∧ ∀ e ∈ a, ∃ e' ∈ b, e.1 = e'.1 ∧ e.2.Eq e'.2

/-- morris.py:400-404, part of `_assert_coherence`: the parameters `mine` are accepted beside the dictionary loaded from
model_parameters.yaml -/
def Coherent (loaded mine : List (Str × Val)) : Prop :=
  ∃ d d', cleaned loaded = .ok d ∧ cleaned mine = .ok d' ∧ sameDict d d'

/-! ### Specification of C99 -/

/-- the same values; the feeds may be in another order -/
structure Params.Same (P Q : Params) : Prop where
  values : ∀ n, n ≠ .feeds → P.value n = Q.value n
  feeds : P.feeds.Perm Q.feeds

/-- writing a dictionary to yaml and loading it: entries, and those of the dictionary of feeds, may come in another order -/
inductive Reordered : Val → Val → Prop
  | atom (a : Atom) : Reordered (.atom a) (.atom a)
  | list (l : List Atom) : Reordered (.list l) (.list l)
  | dict {d d' : List (Atom × Atom)} (h : d.Perm d') : Reordered (.dict d) (.dict d')

def Loaded (d d' : List (Str × Val)) : Prop :=
  ∃ m, List.Forall₂ (fun a b : Str × Val => a.1 = b.1 ∧ Reordered a.2 b.2) d m ∧ m.Perm d'

/-! ### Proofs of C99 -/

theorem key_mem (n : Nom) : n.key ∈ names n := by cases n <;> simp [Nom.key, names]

theorem shows_val (g : Got) : Shows g.val g := by
  cases g with
  | number x => exact .number x
  | numbers l => exact .list l
  | feeds l => exact .feeds l

theorem asDict_eq (P : Params) (ks : List Nom) : P.asDict ks = .ok (ks.map fun n => (n.key, (P.value n).val)) := by
  unfold Params.asDict
  induction ks with
  | nil => rfl
  | cons n ks ih =>
    rw [List.mapM_cons, ih, getItem_value (key_mem n)]
    rfl

private def addKey (ks : List Nom) (e : Str × Val) : List Nom :=
  match nomOf e.1 with
  | some n => if n ∈ ks then ks else ks ++ [n]
  | none => ks

private theorem foldl_keys (l : List (Str × Val)) (ks : List Nom) (hk : ks.Nodup) :
    (l.foldl addKey ks).Nodup ∧ ∀ n, n ∈ l.foldl addKey ks ↔ n ∈ ks ∨ ∃ e ∈ l, e.1 ∈ names n := by
  induction l generalizing ks with
  | nil => exact ⟨hk, fun n => by simp⟩
  | cons e l ih =>
    have hk' : (addKey ks e).Nodup ∧ ∀ n, n ∈ addKey ks e ↔ n ∈ ks ∨ e.1 ∈ names n := by
      unfold addKey
      cases hn : nomOf e.1 with
      | none =>
        refine ⟨hk, fun n => ⟨.inl, fun h => h.resolve_right fun hc => ?_⟩⟩
        rw [(nomOf_iff _ _).2 hc] at hn
        cases hn
      | some m =>
        have hm := (nomOf_iff _ _).1 hn
        simp only
        have hone : ∀ n, e.1 ∈ names n → n = m := fun n h => one_of_names h hm
        by_cases hmk : m ∈ ks
        · rw [if_pos hmk]
          exact ⟨hk, fun n => ⟨.inl, fun h => h.elim id fun hc => hone n hc ▸ hmk⟩⟩
        · rw [if_neg hmk]
          refine ⟨List.nodup_append.2 ⟨hk, List.nodup_singleton m, ?_⟩, fun n => ?_⟩
          · intro a ha b hb hab
            rw [List.mem_singleton.1 hb] at hab
            exact hmk (hab ▸ ha)
          · rw [List.mem_append, List.mem_singleton]
            exact or_congr_right ⟨fun h => h ▸ hm, hone n⟩
    obtain ⟨h1, h2⟩ := ih (addKey ks e) hk'.1
    refine ⟨h1, fun n => ?_⟩
    rw [List.foldl_cons, h2, hk'.2]
    simp [or_assoc]

theorem keysOf_spec {passed : List (Str × Val)} {P : Params} (h : initParams passed = .ok P) :
    (keysOf passed).Nodup ∧ ∀ n, n ∈ keysOf passed := by
  obtain ⟨h1, h2⟩ := foldl_keys passed [] List.nodup_nil
  refine ⟨h1, fun n => (h2 n).2 (.inr ?_)⟩
  obtain ⟨_, _, e, he, hen, -⟩ := (lookup_defined h).1 n
  exact ⟨e, he, hen⟩

private theorem length_of_all {ks : List Nom} (h : ks.Nodup) (ha : ∀ n, n ∈ ks) {ks' : List Nom} (h' : ks'.Nodup)
    (ha' : ∀ n, n ∈ ks') : ks.length = ks'.length :=
  ((List.perm_ext_iff_of_nodup h h').2 fun n => ⟨fun _ => ha' n, fun _ => ha n⟩).length_eq

private theorem valid_of {passed : List (Str × Val)} {P : Params} (h : initParams passed = .ok P) : P.Valid := by
  obtain ⟨h1, h2, h3, h4, h5, h6, h7, h8, h9, a, b, ha, hb, hla, hlb⟩ := accepted_params h
  exact ⟨h1, h2, h3, h4, h5, h6, h7, h8, h9, ⟨a, ha, hla⟩, b, hb, hlb⟩

theorem cleaned_eq {passed : List (Str × Val)} {P : Params} (h : initParams passed = .ok P) :
    cleaned passed = .ok ((keysOf passed).map fun n => (n.key, (P.value n).val)) := by
  unfold cleaned
  rw [h]
  exact asDict_eq P _

private theorem key_inj {a b : Nom} (h : a.key = b.key) : a = b :=
  one_of_names (key_mem a) (h ▸ key_mem b)

private theorem num_inj : Function.Injective Atom.num := fun _ _ h => Atom.num.inj h

private theorem val_same {g g' : Got} (h : g.val.Eq g'.val) :
    (∃ l l', g = .feeds l ∧ g' = .feeds l' ∧ l.length = l'.length ∧ ∀ e ∈ l, e ∈ l') ∨ g = g' := by
  cases g with
  | number x =>
    cases g' with
    | number y => exact .inr (by rw [Atom.num.inj h])
    | numbers l => exact h.elim
    | feeds l => exact h.elim
  | numbers l =>
    cases g' with
    | number y => exact h.elim
    | numbers l' => exact .inr (by rw [List.map_injective_iff.2 num_inj h])
    | feeds l => exact h.elim
  | feeds l =>
    cases g' with
    | number y => exact h.elim
    | numbers l' => exact h.elim
    | feeds l' =>
      refine .inl ⟨l, l', rfl, rfl, by simpa using h.1, fun e he => ?_⟩
      obtain ⟨e', he', h2⟩ := List.mem_map.1 (h.2 _ (List.mem_map.2 ⟨e, he, rfl⟩))
      obtain ⟨a, b⟩ := e
      obtain ⟨a', b'⟩ := e'
      simp only [Prod.mk.injEq, Atom.str.injEq, Atom.num.injEq] at h2
      obtain ⟨rfl, rfl⟩ := h2
      exact he'

private theorem eq_refl (v : Val) : v.Eq v := by
  cases v with
  | atom a => rfl
  | list l => rfl
  | dict d => exact ⟨rfl, fun _ h => h⟩

/-- **C99.** The check of a further trajectory of a Morris run: parameters are accepted beside the stored ones exactly if all values
are the same, whatever names and order they are passed in. -/
theorem coherent_iff {a b : List (Str × Val)} {P Q : Params} (ha : initParams a = .ok P) (hb : initParams b = .ok Q)
    (hP : (P.feeds.map Prod.fst).Nodup) : Coherent a b ↔ P.Same Q := by
  obtain ⟨na, fa⟩ := keysOf_spec ha
  obtain ⟨nb, fb⟩ := keysOf_spec hb
  unfold Coherent
  rw [cleaned_eq ha, cleaned_eq hb]
  constructor
  · rintro ⟨d, d', h1, h2, -, h⟩
    cases h1
    cases h2
    have key : ∀ n, (P.value n).val.Eq (Q.value n).val := by
      intro n
      obtain ⟨e', he', h1, h2⟩ := h _ (List.mem_map.2 ⟨n, fa n, rfl⟩)
      obtain ⟨m, -, rfl⟩ := List.mem_map.1 he'
      obtain rfl := key_inj h1
      exact h2
    refine ⟨fun n hn => (val_same (key n)).resolve_left ?_, ?_⟩
    · rintro ⟨l, l', h1, -⟩
      cases n <;> first | exact hn rfl | cases h1
    · rcases val_same (key .feeds) with ⟨l, l', h1, h2, h3, h4⟩ | h1
      · cases h1; cases h2
        exact (List.subperm_of_subset (List.Nodup.of_map _ hP) h4).perm_of_length_le h3.ge
      · cases h1' : P.value .feeds with
        | number x => cases h1'
        | numbers x => cases h1'
        | feeds l =>
          rw [h1'] at h1
          cases h1'
          rw [Got.feeds.inj h1]
  · intro h
    refine ⟨_, _, rfl, rfl, by rw [List.length_map, List.length_map]; exact length_of_all na fa nb fb, fun e he => ?_⟩
    obtain ⟨n, -, rfl⟩ := List.mem_map.1 he
    refine ⟨_, List.mem_map.2 ⟨n, fb n, rfl⟩, rfl, ?_⟩
    by_cases hn : n = .feeds
    · subst hn
      have := h.feeds.map fun p : Str × ℝ => (Atom.str p.1, Atom.num p.2)
      exact ⟨this.length_eq, fun e he => this.mem_iff.1 he⟩
    · simp only
      rw [h.values n hn]
      exact eq_refl _

private theorem reordered_value {P : Params} {n : Nom} {v : Val} (h : Reordered (P.value n).val v) :
    (n ≠ .feeds ∧ v = (P.value n).val) ∨ (n = .feeds ∧ ∃ l, v = (Got.feeds l).val ∧ P.feeds.Perm l) := by
  cases n with
  | feeds =>
    refine .inr ⟨rfl, ?_⟩
    simp only [Params.value, Got.val] at h
    cases h with
    | dict hp =>
      obtain ⟨l, rfl, hl⟩ := Eq.mpr (congrFun (congrFun (List.eq_map_comp_perm fun p : Str × ℝ => (Atom.str p.1, Atom.num p.2)) _) _)
        hp.symm
      exact ⟨l, rfl, hl.symm⟩
  | _ => exact .inl ⟨by simp, by cases h; rfl⟩

/-- **C99.** What is stored can be used again: for all parameters that were accepted, under whichever names, the stored dictionary
is accepted after loading it in any order, with the same values. -/
theorem stored_params {passed : List (Str × Val)} {P : Params} (h : initParams passed = .ok P) :
    ∃ d, cleaned passed = .ok d ∧ ∀ d', Loaded d d' → ∃ Q, initParams d' = .ok Q ∧ P.Same Q := by
  obtain ⟨hn, hall⟩ := keysOf_spec h
  have hv := valid_of h
  refine ⟨_, cleaned_eq h, ?_⟩
  rintro d' ⟨m, hm, hp⟩
  have hmem : ∀ e ∈ m, ∃ n, e.1 = n.key ∧ Reordered (P.value n).val e.2 := by
    intro e he
    obtain ⟨i, hi, rfl⟩ := List.getElem_of_mem he
    have := hm.get (i := i) (by rw [hm.length_eq]; exact hi) hi
    simp only [List.get_eq_getElem, List.getElem_map] at this
    exact ⟨_, this.1.symm, this.2⟩
  have hhas : ∀ n, ∃ e ∈ m, e.1 = n.key ∧ Reordered (P.value n).val e.2 := by
    intro n
    obtain ⟨i, hi, hin⟩ := List.getElem_of_mem (hall n)
    have hi' : i < m.length := by rw [← hm.length_eq, List.length_map]; exact hi
    have := hm.get (i := i) (by rw [List.length_map]; exact hi) hi'
    simp only [List.get_eq_getElem, List.getElem_map, hin] at this
    exact ⟨_, List.getElem_mem hi', this.1.symm, this.2⟩
  have hom : OneName m := by
    have hk : m.map Prod.fst = (keysOf passed).map Nom.key := by
      refine List.ext_getElem (by rw [List.length_map, List.length_map, ← hm.length_eq, List.length_map]) fun i h1 h2 => ?_
      rw [List.length_map] at h1 h2
      have := hm.get (i := i) (by rw [List.length_map]; exact h2) h1
      simp only [List.get_eq_getElem, List.getElem_map] at this
      rw [List.getElem_map, List.getElem_map, ← this.1]
    have hnd : (m.map Prod.fst).Nodup := by
      rw [hk]
      exact hn.map_on fun a _ b _ hab => key_inj hab
    unfold OneName
    refine (List.pairwise_map.1 hnd).imp_of_mem fun {a b} ha hb hab n h1 h2 => hab ?_
    obtain ⟨n1, e1, -⟩ := hmem a ha
    obtain ⟨n2, e2, -⟩ := hmem b hb
    rw [e1] at h1
    rw [e2] at h2
    rw [e1, e2, one_of_names (key_mem n1) h1, one_of_names (key_mem n2) h2]
  obtain ⟨e, he, hek, her⟩ := hhas .feeds
  obtain ⟨hc, -⟩ | ⟨-, l, hl, hperm⟩ := reordered_value her
  · exact absurd rfl hc
  have hval : ∀ n, n ≠ .feeds → P.value n = ({ P with feeds := l } : Params).value n := by
    intro n hne
    cases n <;> first | rfl | exact absurd rfl hne
  refine ⟨{ P with feeds := l }, (order_of_params hp hom).1 ((accepted_iff hom).2 ⟨⟨fun e he => ?_, fun n => ?_⟩, ?_⟩), hval, hperm⟩
  · obtain ⟨n, hn, -⟩ := hmem e he
    exact ⟨n, hn ▸ key_mem n⟩
  · by_cases hne : n = .feeds
    · subst hne
      exact ⟨e, he, hek ▸ key_mem _, hl ▸ shows_val _, fun hc => by cases hc⟩
    · obtain ⟨e, he, hek, her⟩ := hhas n
      obtain ⟨-, hv'⟩ | ⟨hc, -⟩ := reordered_value her
      · refine ⟨e, he, hek ▸ key_mem _, ?_, fun hc => ?_⟩
        · rw [hv', ← hval n hne]
          exact shows_val _
        · subst hc
          exact ⟨_, hv'⟩
      · exact absurd hc hne
  · exact ⟨hv.radius, hv.length, hv.pressure, hv.tempGas, hv.tEnd, fun f hf => hv.feeds f (hperm.mem_iff.2 hf), hv.power, hv.same,
      hv.two, hv.first, hv.last⟩

/-- **C99.** So a Morris run accepts further trajectories with the parameters it was begun with, and only with those. -/
theorem further_trajectory {first mine : List (Str × Val)} {P Q : Params} (h : initParams first = .ok P) (hm : initParams mine = .ok Q)
    (hP : (P.feeds.map Prod.fst).Nodup) {d d' : List (Str × Val)} (hd : cleaned first = .ok d) (hd' : Loaded d d') :
    Coherent d' mine ↔ P.Same Q := by
  obtain ⟨d₀, h₀, hall⟩ := stored_params h
  cases h₀.symm.trans hd
  obtain ⟨R, hR, hs⟩ := hall d' hd'
  rw [coherent_iff hR hm ((hs.feeds.map Prod.fst).nodup_iff.1 hP)]
  exact ⟨fun k => ⟨fun n hn => (hs.values n hn).trans (k.values n hn), hs.feeds.trans k.feeds⟩,
    fun k => ⟨fun n hn => (hs.values n hn).symm.trans (k.values n hn), hs.feeds.symm.trans k.feeds⟩⟩

/-! ### Cases -/

namespace Demo

theorem passed_one : OneName (passed []) := by
  unfold OneName passed
  simp only [List.append_nil, List.pairwise_cons, List.mem_cons, List.not_mem_nil, or_false, forall_eq_or_imp, forall_eq,
    List.Pairwise.nil, and_true, false_imp_iff, implies_true]
  refine ⟨⟨?_, ?_, ?_, ?_, ?_, ?_, ?_⟩, ⟨?_, ?_, ?_, ?_, ?_, ?_⟩, ⟨?_, ?_, ?_, ?_, ?_⟩, ⟨?_, ?_, ?_, ?_⟩, ⟨?_, ?_, ?_⟩, ⟨?_, ?_⟩, ?_⟩ <;>
    (intro n; cases n <;> simp [names])

example : Describes (passed []) params ∧ params.Valid := (accepted_iff passed_one).1 accepted

/-- `accepted_iff` excludes: the same with a pulse that ends at `t_end` -/
example : ¬ ({ params with time := [0, 1] } : Params).Valid := fun h => by
  obtain ⟨b, hb, hl⟩ := h.last
  simp only [params, List.getLast?_cons_cons, List.getLast?_singleton, Option.some.injEq] at hb hl
  subst hb
  norm_num at hl

/-- the parameters in another order -/
theorem reversed : initParams (passed []).reverse = .ok params :=
  (order_of_params (List.reverse_perm _).symm passed_one).1 accepted

example : ∃ d, cleaned (passed []) = .ok d ∧ ∀ d', Loaded d d' → Coherent d' (passed []).reverse := by
  obtain ⟨d, hd, _⟩ := stored_params accepted
  refine ⟨d, hd, fun d' h => (further_trajectory accepted reversed (by simp [params]) hd h).2 ⟨fun _ _ => rfl, .refl _⟩⟩

/-- other parameters are refused -/
example {d d' : List (Str × Val)} (hd : cleaned (passed []) = .ok d) (h : Loaded d d') :
    ¬ Coherent d' (passed [(str!"R", .atom (.num 5))]) := by
  rw [further_trajectory accepted two_names_accepted (by simp [params]) hd h]
  intro hs
  have := hs.values .radius (by simp)
  norm_num [Params.value, params] at this

end Demo

end Verif.Pygmol
