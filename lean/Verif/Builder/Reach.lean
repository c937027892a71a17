import Verif.Builder.FillDone

/-! Reachable builders: every history of public operations, failing ones included. -/
set_option linter.unusedSectionVars false

namespace Kwant.Builder
open Kwant Kwant.Assoc
variable {S G V Fn : Type} [DecidableEq S] [AddCommGroup G] [DecidableEq G]

/-- Apply a function to every value of an association list. -/
def mapSnd {κ α β : Type} (f : α → β) (l : List (κ × α)) : List (κ × β) := l.map fun p => (p.1, f p.2)

/-- `value_map.get(value, value)` on the value of an edge (builder.py l.1424-1427). -/
def Stored.mapFn (φ : Fn → Fn) : Stored V Fn → Stored V Fn
  | .const v => .const v
  | .func f => .func (φ f)
  | .other => .other

/-- One row of `substituted()` (builder.py l.1424-1427). -/
def mapRow (φo : Val V Fn → Val V Fn) (φe : Fn → Fn) (r : Row S V Fn) : Row S V Fn :=
  ⟨φo r.onsite, mapSnd (Stored.mapFn φe) r.edges⟩

/-- The contents of `substituted()` (builder.py l.1378-1429): functions are replaced one by one.
`φo` acts on the values of sites, `φe` on the functions stored on hoppings; constants and `Other` stay. -/
def mapVals (φo : Val V Fn → Val V Fn) (φe : Fn → Fn) (H : HMap S V Fn) : HMap S V Fn :=
  mapSnd (mapRow φo φe) H

/-- States of a builder with symmetry `sym` after an arbitrary history of operations.  A failing operation
contributes the state it leaves behind.  The template of a `fill` may be any well-formed builder with a
lawful symmetry (`Reachable.wf`: every reachable builder is one). -/
inductive Reachable : Symmetry S G → HMap S V Fn → Prop where
  | empty {sym} (hl : sym.Lawful) : Reachable sym []
  | setSite {sym H} (s v) : Reachable sym H → Reachable sym (setSite sym H s v)
  | setHop {sym H} (a b v) : Reachable sym H → Reachable sym (setHop sym H a b v).1
  | delSite {sym H} (s) : Reachable sym H → Reachable sym (delSite sym H s).1
  | delHop {sym H} (a b) : Reachable sym H → Reachable sym (delHop sym H a b).1
  | eradicate {sym H} : Reachable sym H → Reachable sym (eradicateDangling sym H).1
  | update {sym sym' H T} : Reachable sym H → Reachable sym' T → SameSym sym sym' →
      Reachable sym (update sym H T).1
  | reversed {sym H} : Reachable sym H → Reachable sym.reversed H
  | substituted {sym H} (φo φe) : Reachable sym H → Reachable sym (mapVals φo φe H)
  | fill {sym H GT} [AddCommGroup GT] [DecidableEq GT] {symT : Symmetry S GT} {T : HMap S V Fn}
      {shape nv maxSites ord fuel start H' r} : Reachable sym H → symT.Lawful → WF symT T → SubSym sym symT →
      (∀ n l, (ord n l).Perm l) →
      fill sym symT T shape nv maxSites true ord fuel H start = some (H', r) → Reachable sym H'

variable {sym : Symmetry S G} {H : HMap S V Fn}

theorem get_map {κ α β : Type} [DecidableEq κ] (f : α → β) (l : List (κ × α)) (k : κ) :
    get (mapSnd f l) k = (get l k).map f := by
  induction l with
  | nil => rfl
  | cons p l ih =>
    obtain ⟨k', v⟩ := p
    have : mapSnd f ((k', v) :: l) = (k', f v) :: mapSnd f l := rfl
    simp only [this, Assoc.get, ih]
    by_cases h : k' = k <;> simp [h]

theorem keys_map {κ α β : Type} [DecidableEq κ] (f : α → β) (l : List (κ × α)) :
    keys (mapSnd f l) = keys l := by
  simp [keys, mapSnd, Function.comp_def]

theorem mapVals_wf (φo : Val V Fn → Val V Fn) (φe : Fn → Fn) (h : WF sym H) : WF sym (mapVals φo φe H) := by
  have hk : keys (mapVals φo φe H) = keys H := by rw [mapVals, keys_map]
  have hE : ∀ a b, E (mapVals φo φe H) a b = (E H a b).map (Stored.mapFn φe) := by
    intro a b
    simp only [E, mapVals, get_map]
    cases get H a with
    | none => rfl
    | some r => simp [get_map, mapRow]
  have hg : ∀ st : Stored V Fn, st.mapFn φe = .other ↔ st = .other := by
    intro st; cases st <;> simp [Stored.mapFn]
  refine ⟨⟨by rw [hk]; exact h.keys, ?_⟩, by rw [hk]; exact h.fd, ?_⟩
  · intro a row hr
    rw [mapVals, get_map] at hr
    cases hga : get H a with
    | none => simp [hga] at hr
    | some r =>
      simp only [hga, Option.map_some, Option.some.injEq] at hr
      subst hr
      simp only [mapRow, keys_map]
      exact h.rows a r hga
  · intro a b st he
    rw [hE] at he
    obtain ⟨st0, he0, rfl⟩ := Option.map_eq_some_iff.mp he
    obtain ⟨h1, st', h2, h3⟩ := h.pair a b st0 he0
    refine ⟨h1, st'.mapFn φe, by rw [hE, h2]; rfl, ?_⟩
    rw [hg, Ne, hg]; exact h3

theorem reversed_wf (h : WF sym H) : WF sym.reversed H := by
  refine ⟨h.toNF, ?_, ?_⟩
  · intro a ha; simp [Symmetry.reversed, h.fd a ha]
  · intro a b st he
    have : rev sym.reversed a b = rev sym a b := by simp only [rev, Symmetry.reversed_toFd2]
    rw [this]; exact h.pair a b st he

/-- Every reachable builder is well-formed. -/
theorem Reachable.wf (h : Reachable sym H) : sym.Lawful ∧ WF sym H := by
  induction h with
  | empty hl => exact ⟨hl, WF.empty⟩
  | setSite s v _ ih => exact ⟨ih.1, setSite_wf ih.2 ih.1 s v⟩
  | setHop a b v _ ih => exact ⟨ih.1, setHop_wf ih.2 ih.1 a b v⟩
  | delSite s _ ih => exact ⟨ih.1, delSite_wf ih.2 ih.1 s⟩
  | delHop a b _ ih => exact ⟨ih.1, delHop_wf ih.2 ih.1 a b⟩
  | eradicate _ ih => exact ⟨ih.1, eradicate_wf ih.2 ih.1⟩
  | update _ _ hs ih ih' =>
    obtain ⟨H', e, w, _⟩ := update_effect (hc := id) ih.2 ih.1 ih'.2 ih'.1 hs (fun _ => rfl)
    exact ⟨ih.1, by rw [e]; exact w⟩
  | reversed _ ih => exact ⟨ih.1.reversed, reversed_wf ih.2⟩
  | substituted φo φe _ ih => exact ⟨ih.1, mapVals_wf φo φe ih.2⟩
  | @fill sym H GT _ _ symT T shape nv maxSites ord fuel start H' r _ hlT wT sub hord hf ih =>
    refine ⟨ih.1, ?_⟩
    cases r with
    | ok added => exact (fill_ok ih.1 hlT wT ih.2 sub hord hf).1.wf ih.1 hlT wT ih.2 sub
    | error e =>
      rcases fill_error ih.1 hlT wT ih.2 sub hord hf with ⟨_, rfl, _⟩ | ⟨_, rfl, _⟩
      · exact ih.2
      · exact WF.empty

theorem Reachable.lawful (h : Reachable sym H) : sym.Lawful := h.wf.1

end Kwant.Builder
