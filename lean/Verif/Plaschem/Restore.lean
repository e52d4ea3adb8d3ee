/-
Property C22, continued: histories that also load dumped states. The invariants of reachable states survive loading, so
everything that rests on them holds after restoring a chemistry as well.
-/
import Verif.Plaschem.DumpProps

namespace Verif.Plaschem
open Net

theorem Sound.same {net : Net} {a b : State} (h : Sound net a) (hs : SameState net b a) : Sound net b := by
  have hpi : net.positiveIons b = net.positiveIons a := by
    unfold positiveIons getSpecies
    congr 1
    apply List.filter_congr
    intro s hm
    simp [speciesMask, hs.enSp s hm]
  have hkeys : b.adRet.keys = a.adRet.keys := by
    have := hs.ret
    generalize b.adRet = l at this
    generalize a.adRet = m at this
    induction this with
    | nil => rfl
    | cons h _ ih => simp only [Dict.keys, List.map_cons] at ih ⊢; rw [h.1, ih]
  refine ⟨h.wf, ⟨netOk_of h.wf ?_ ?_ ⟨?_, ?_⟩, ?_, ?_, ?_⟩, h.nom, ?_, ?_, ?_, ?_⟩
  · intro hq
    obtain ⟨s, h1, h2, h3⟩ := h.inv.ok.electron hq
    exact ⟨s, h1, by rw [hs.enSp s h1]; exact h2, h3⟩
  · rw [hpi]; exact h.inv.ok.ion
  · intro r hr her i ho
    obtain ⟨p, hp, rfl⟩ := ho
    show b.enSp p.id = true
    rw [hs.enSp p (h.wf.closed r hr p hp)]
    exact (h.inv.ok.present r hr (by rw [← hs.enR r hr]; exact her) p hp).2
  · intro s hm he
    obtain ⟨r, hr, her, hsr⟩ := h.inv.ok.used s hm (by rw [← hs.enSp s hm]; exact he)
    exact ⟨r, hr, by show b.enR r.id = true; rw [hs.enR r hr]; exact her, s, hsr, rfl⟩
  · intro hq s hm hn; rw [hs.protSp s hm]; exact h.inv.elec hq s hm hn
  · intro hq s hl
    have hm : s ∈ net.species := (mem_positiveIons.1 (by rw [hl]; simp : s ∈ net.positiveIons b)).1
    rw [hpi] at hl
    have := h.inv.last hq s hl
    unfold State.Protected at this ⊢
    rw [hs.protSp s hm, hs.adhocSp s hm]; exact this
  · intro hq s hm h1 h2; rw [hs.protSp s hm]; exact h.inv.lastAll hq s hm h1 h2
  · intro e he p hp
    have := hs.ret
    obtain ⟨i, hi, rfl⟩ := List.getElem_of_mem he
    have hl := this.length_eq
    have h2 := List.forall₂_iff_get.1 this |>.2 i hi (by omega)
    exact h.ad _ (List.get_mem a.adRet ⟨i, by omega⟩) p (h2.2.mem_iff.1 hp)
  · rw [hs.stick]; exact h.stick
  · rw [hkeys]; exact h.ret
  · rw [hs.arrh]; exact h.arrh

theorem Sound.consistency {net : Net} {st : State} (h : Sound net st) (hcl : net.RetClosed) :
    net.assertConsistency st = .ok () :=
  assertConsistency_iff.2 ⟨h.inv.ok, retOk_of h.nom hcl h.ad⟩

/-- the three outcomes of `disable` in a sound state -/
theorem Sound.disable_cases {net : Net} {st : State} (h : Sound net st) (hcl : net.RetClosed)
    (species : List SpIdent) (reactions : List Nat) :
    (∃ e, e ≠ .disable ∧ net.disable st species reactions = (st, some e) ∧
      (net.resolveSpecies species = .error e ∨ net.resolveReactions reactions = .error e)) ∨
    net.disable st species reactions = (st, some .disable) ∨
    (∃ sids st', net.resolveSpecies species = .ok sids ∧ Cascade net st st' sids reactions ∧ Sound net st' ∧
      net.disable st species reactions = (st', none)) := by
  rcases _root_.Verif.Plaschem.Net.disable_cases h.inv species reactions with
    ⟨e, h1, -, -, hd, hr⟩ | ⟨sids, -, -, hd, -⟩ | ⟨sids, st', hs, hr, hrec, hd⟩
  · exact .inl ⟨e, h1, hd, hr⟩
  · exact .inr (.inl hd)
  · have c := cascade_of_ok h.wf hrec
    have snd : Sound net st' := ⟨h.wf, inv_of_cascade h.wf h.inv c, h.nom, by rw [c.ret]; exact h.ad,
      by rw [c.stick]; exact h.stick, by rw [c.ret]; exact h.ret, by rw [c.arrh]; exact h.arrh⟩
    refine .inr (.inr ⟨sids, st', hs, c, snd, ?_⟩)
    rw [hd, snd.consistency hcl]

theorem Sound.reset {net : Net} {st : State} (h : Sound net st) : Sound net (reset st) :=
  ⟨h.wf, inv_reset h.wf h.inv, h.nom, h.ad, h.stick, h.ret, h.arrh⟩

/-- a successful load of a dumped state restores it -/
theorem Sound.load_same {net : Net} {st : State} (h : Sound net st) (hcl : net.RetClosed)
    {path : Option Str} {hash : Str → Option Str} {file : Attrs} (hd : net.dump path hash st = .ok file)
    {cur st' : State} {checkHash : Bool} (hl : net.load path hash cur file checkHash = (st', none)) :
    SameState net st' st := by
  by_cases henab : ∀ e ∈ st.adRet, ∀ p ∈ e.2, EnabledName net st p.1
  · obtain ⟨s, h1, h2⟩ := load_dump_sound h hcl henab hd cur checkHash
    rw [hl] at h1
    obtain rfl : st' = s := congrArg Prod.fst h1
    exact h2
  · push Not at henab
    have := (load_dump_fails_sound h.wf henab hd cur checkHash).1
    rw [hl] at this
    exact absurd rfl this

end Verif.Plaschem
