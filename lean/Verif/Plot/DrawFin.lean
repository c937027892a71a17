import Verif.Plot.DrawProps

/-!
# C167, C168: what is drawn of finalized systems with leads
-/

set_option linter.unusedSectionVars false

namespace Kwant.Draw
open Kwant Kwant.Assoc Kwant.Builder Kwant.Final Kwant.Graph

section
variable {S V Fn N A X P : Type} [LinearOrder S] [DecidableEq N] [AddCommGroup P]
variable {H : HMap S V Fn} {leads : List (Option (Built S V Fn P))} {n : ℕ} {pos : S → P}
variable {C : Calls S V Fn N A X} {sys : Sys S V Fn N} {fleads : List (Option (Fin' S V Fn N P))}

theorem finRep_of (h : Reachable (noSymmetry S) H) {junk : ℕ → ℤ} (hf : finalizeFinite C junk H = .ok sys) :
    FinRep C H sys := by
  obtain ⟨hl, hw⟩ := h.wf
  obtain ⟨sys', h1, R⟩ := finalizeFinite_rep (C := C) hw hl junk
  rw [hf] at h1
  cases h1
  exact R

theorem base_sitesF (h : Reachable (noSymmetry S) H) (R : FinRep C H sys) (s0 : S) :
    Shows pos (HasSite (noSymmetry S) H)
      ((List.range sys.graph.numNodes).map fun i => pos (sys.sites[i]?.getD s0)) := by
  obtain ⟨hl, hw⟩ := h.wf
  refine ⟨sys.sites, ?_, ?_, ?_⟩
  · have e := range_map_getD sys.sites s0 (le_refl _)
    rw [List.take_length] at e
    have hn : sys.graph.numNodes = sys.sites.length := by rw [R.nn, R.sites]
    rw [hn]
    conv_rhs => rw [← e]
    rw [List.map_map]
    rfl
  · rw [R.sites]
    exact pySorted_nodup hw.keys
  · intro a
    rw [R.sites, mem_pySorted, hasSite_iff]
    rfl

theorem base_hopsF (h : Reachable (noSymmetry S) H) (R : FinRep C H sys) (s0 : S) :
    (∀ o ∈ llHoppings sys.graph, o.1 < sys.sites.length ∧ o.2 < sys.sites.length) ∧
    ShowsPairs pos (HasHop (noSymmetry S) H)
      ((llHoppings sys.graph).map fun o => (pos (sys.sites[o.1]?.getD s0), pos (sys.sites[o.2]?.getD s0))) := by
  obtain ⟨hl, hw⟩ := h.wf
  have hn : sys.graph.numNodes = sys.sites.length := by rw [R.nn, R.sites]
  have l4 : sys.sites.Nodup := by
    rw [R.sites]
    exact pySorted_nodup hw.keys
  have hx : ∀ i : ℕ, i < sys.sites.length → sys.sites[i]? = some (sys.sites[i]?.getD s0) := by
    intro i hi
    rw [List.getElem?_eq_getElem hi]
    rfl
  have inj : ∀ (i j : ℕ) (a : S), sys.sites[i]? = some a → sys.sites[j]? = some a → i = j := by
    intro i j a hi hj
    obtain ⟨p1, p2⟩ := List.getElem?_eq_some_iff.mp hi
    obtain ⟨q1, q2⟩ := List.getElem?_eq_some_iff.mp hj
    exact (List.Nodup.getElem_inj_iff l4).mp (p2.trans q2.symm)
  have hE : ∀ a b, (E H a b).isSome = true ↔ HasHop (noSymmetry S) H a b := by
    intro a b
    rw [hasHop_iff hw hl]
    constructor
    · intro he
      obtain ⟨st, hst⟩ := Option.isSome_iff_exists.mp he
      exact ⟨(hw.pair a b st hst).1, he⟩
    · exact fun he => he.2
  obtain ⟨n1, n2⟩ := ll_mem (g := sys.graph) (m := sys.sites.length) hn
    (R := fun i k => ∃ a b, sys.sites[i]? = some a ∧ sys.sites[k]? = some b ∧ HasHop (noSymmetry S) H a b) (by
      intro i hi
      obtain ⟨js, j1, j2, j3⟩ := R.out i _ (hx i hi)
      refine ⟨js, j1, j2, ?_⟩
      intro j
      rw [j3]
      constructor
      · rintro ⟨k, b, e1, e2, e3⟩
        exact ⟨k, e1, _, b, hx i hi, e2, (hE _ _).mp e3⟩
      · rintro ⟨k, e1, a, b, e0, e2, e3⟩
        rw [hx i hi] at e0
        cases e0
        exact ⟨k, b, e1, e2, (hE _ _).mpr e3⟩)
  have lt2 : ∀ i j : ℕ, (i, j) ∈ llHoppings sys.graph → i < sys.sites.length ∧ j < sys.sites.length := by
    intro i j hij
    obtain ⟨e1, _, a, b, _, e2, _⟩ := (n2 i j).mp hij
    exact ⟨e1, (List.getElem?_eq_some_iff.mp e2).1⟩
  have mem : ∀ a b, (a, b) ∈ (llHoppings sys.graph).map (fun o => (sys.sites[o.1]?.getD s0, sys.sites[o.2]?.getD s0)) ↔
      ∃ i j : ℕ, i < j ∧ sys.sites[i]? = some a ∧ sys.sites[j]? = some b ∧ HasHop (noSymmetry S) H a b := by
    intro a b
    rw [List.mem_map]
    constructor
    · rintro ⟨⟨i, j⟩, hm, e⟩
      obtain ⟨e1, e2, a', b', e3, e4, e5⟩ := (n2 i j).mp hm
      simp only [e3, e4, Option.getD_some, Prod.mk.injEq] at e
      obtain ⟨rfl, rfl⟩ := e
      exact ⟨i, j, e2, e3, e4, e5⟩
    · rintro ⟨i, j, e2, e3, e4, e6⟩
      exact ⟨(i, j), (n2 i j).mpr ⟨(List.getElem?_eq_some_iff.mp e3).1, e2, a, b, e3, e4, e6⟩, by simp [e3, e4]⟩
  refine ⟨fun o ho => lt2 o.1 o.2 ho,
    (llHoppings sys.graph).map (fun o => (sys.sites[o.1]?.getD s0, sys.sites[o.2]?.getD s0)), ?_, ?_, ?_, ?_⟩
  · rw [List.map_map]
    rfl
  · apply List.Nodup.map_on _ n1
    rintro ⟨i, j⟩ hij ⟨i', j'⟩ hij' e
    obtain ⟨a1, a2⟩ := lt2 i j hij
    obtain ⟨b1, b2⟩ := lt2 i' j' hij'
    obtain ⟨e1, e2⟩ := Prod.mk.inj e
    have f1 := hx i' b1
    have f2 := hx j' b2
    simp only at e1 e2
    rw [← e1] at f1
    rw [← e2] at f2
    rw [inj _ _ _ (hx i a1) f1, inj _ _ _ (hx j a2) f2]
  · intro a b h1 h2
    obtain ⟨i, j, e1, e2, e3, _⟩ := (mem a b).mp h1
    obtain ⟨i', j', f1, f2, f3, _⟩ := (mem b a).mp h2
    have := inj _ _ _ e2 f3
    have := inj _ _ _ e3 f2
    omega
  · intro a b
    constructor
    · rintro (hm | hm)
      · obtain ⟨i, j, _, _, _, hh⟩ := (mem _ _).mp hm
        exact hh
      · obtain ⟨i, j, _, _, _, hh⟩ := (mem _ _).mp hm
        exact hop_symm h hh
    · intro hh
      have number : ∀ a b, HasHop (noSymmetry S) H a b → ∃ i : ℕ, sys.sites[i]? = some a := by
        intro a b hab
        obtain ⟨st, hst⟩ := Option.isSome_iff_exists.mp ((hE a b).mpr hab)
        have : a ∈ sys.sites := by
          rw [R.sites, mem_pySorted]
          exact E_some_mem hst
        exact List.mem_iff_getElem?.mp this
      obtain ⟨i, hi⟩ := number a b hh
      obtain ⟨j, hj⟩ := number b a (hop_symm h hh)
      have hne : i ≠ j := by
        rintro rfl
        rw [hi] at hj
        cases hj
        exact hop_ne h hh rfl
      rcases lt_or_gt_of_ne hne with hij | hij
      · exact Or.inl ((mem a b).mpr ⟨i, j, hij, hi, hj, hh⟩)
      · exact Or.inr ((mem b a).mpr ⟨j, i, hij, hj, hi, hop_symm h hh⟩)

/-- The site meant by a number in the system or in one of its leads. -/
def siteOf (sys : Sys S V Fn N) (fleads : List (Option (Fin' S V Fn N P))) (s0 : S) (lead : Option ℕ) (i : ℕ) : S :=
  match lead with
  | none => sys.sites[i]?.getD s0
  | some k =>
    match fleads[k]? with
    | some (some b) => b.sys.sites[i]?.getD s0
    | _ => s0

theorem rawF_ok_none (s0 : S) {i : ℕ} (hi : i < sys.sites.length) :
    rawF pos sys fleads none i = some (pos (siteOf sys fleads s0 none i)) := by
  simp [rawF, siteOf, List.getElem?_eq_getElem hi]

theorem rawF_ok_some (s0 : S) {i k : ℕ} {f : Fin' S V Fn N P} (hk : fleads[k]? = some (some f))
    (hi : i < f.sys.sites.length) :
    rawF pos sys fleads (some k) i = some (pos (siteOf sys fleads s0 (some k) i)) := by
  simp [rawF, siteOf, hk, List.getElem?_eq_getElem hi]

/-- A lead of the finalized system. -/
theorem lead_of (hfl : List.Forall₂ (IsFinalized C sys) fleads leads) {k : ℕ} {l : Option (Fin' S V Fn N P)}
    (hk : fleads[k]? = some l) : ∃ b, leads[k]? = some b ∧ IsFinalized C sys l b := by
  have hlen := hfl.length_eq
  obtain ⟨h1, h2⟩ := List.getElem?_eq_some_iff.mp hk
  have := List.Forall₂.get hfl h1 (by omega)
  refine ⟨leads[k]'(by omega), List.getElem?_eq_getElem _, ?_⟩
  simp only [List.get_eq_getElem] at this
  rw [h2] at this
  exact this

/-- C167 for finalized systems: the same picture; leads that are not builder leads are not shown. -/
theorem C167_finalized (h : Reachable (noSymmetry S) H) (hs : ∃ s, HasSite (noSymmetry S) H s)
    {junk : ℕ → ℤ} (hf : finalizeFinite C junk H = .ok sys) (hfl : List.Forall₂ (IsFinalized C sys) fleads leads)
    (hg : ∀ b, some b ∈ leads → GoodLead pos b ∧ OrdInv b.sym) :
    ∃ ps, posF pos sys fleads (sitesF sys fleads n).1 = .ok ps ∧
      SitePicture pos H leads n (sitesF sys fleads n).2 ps := by
  have R := finRep_of h hf
  have hn : sys.graph.numNodes = sys.sites.length := by rw [R.nn, R.sites]
  obtain ⟨s0, hs0⟩ := hs
  have hlen := hfl.length_eq
  have hpos : 0 < sys.graph.numNodes := by
    rw [R.nn]
    rw [hasSite_iff] at hs0
    have : (noSymmetry S).toFd s0 ∈ pySorted (keys H) := mem_pySorted.mpr hs0
    exact List.length_pos_of_mem this
  have hne : (List.range sys.graph.numNodes).map (fun i => (i, (none : Option ℕ), 0)) ≠ [] := by
    intro e
    have : sys.graph.numNodes = 0 := by simpa using e
    omega
  have hin : ∀ (k : ℕ) (f : Fin' S V Fn N P), fleads[k]? = some (some f) → f.cell ≤ f.sys.sites.length := by
    intro k f hk
    obtain ⟨b, hb, hfin⟩ := lead_of hfl hk
    cases b with
    | none => exact hfin.elim
    | some b =>
      obtain ⟨_, _, ⟨junk', order, hr⟩, _⟩ := hfin
      obtain ⟨⟨g1, _⟩, g3⟩ := hg b (List.mem_of_getElem? hb)
      obtain ⟨m, _, l2, _⟩ := C46_layout g1 g3 hr
      omega
  obtain ⟨ps, h1, h2, h3, h4, h5⟩ := picture (n := n) (objs := leadSitesF)
    (base := List.range sys.graph.numNodes) (leads := fleads)
    (raw := fun it : Item ℕ => rawF pos sys fleads it.2.1 it.1) (tab := fleads.map (vecDomF sys))
    (fun it => pos (siteOf sys fleads s0 it.2.1 it.1)) (collect_ne hne)
    (by
      intro i hi
      exact rawF_ok_none s0 (by rw [← hn]; simpa using hi))
    (by
      intro k l hk i hi _ _
      cases l with
      | none => cases hi
      | some f =>
        apply rawF_ok_some s0 hk
        have := hin k f hk
        simp only [leadSitesF] at hi
        split at hi
        · cases hi
        · have : i < f.cell := by simpa using hi
          omega)
    (by simp)
  refine ⟨ps, h1, (List.range sys.graph.numNodes).length, ?_, h3, ?_⟩
  · rw [h2]
    exact base_sitesF h R s0
  · refine parts (conv := fun k i => siteOf sys fleads s0 (some k) i) (f := pos) (objs := leadSitesF)
      (fun b => b.sym.act) (fun b => b.vec) (h4.trans hlen) hlen (by simp [hlen]) h5 ?_ ?_ ?_
    · intro k l e1 e2
      obtain ⟨b, hb, hfin⟩ := lead_of hfl e2
      rw [e1] at hb
      cases hb
      cases l with
      | none => rfl
      | some f => exact hfin.elim
    · intro k l b e1 e2 e3
      obtain ⟨b', hb, hfin⟩ := lead_of hfl e2
      rw [e1] at hb
      cases hb
      cases l with
      | none => rfl
      | some f =>
        obtain ⟨_, _, _, hi⟩ := hfin
        rw [e3] at hi
        have : f.interface = [] := List.forall₂_nil_right_iff.mp hi
        simp [leadSitesF, this]
    · intro k l b i r vd e1 e2 e3 e4
      obtain ⟨b', hb, hfin⟩ := lead_of hfl e2
      rw [e1] at hb
      cases hb
      obtain ⟨⟨g1, g2⟩, g3⟩ := hg b (List.mem_of_getElem? e1)
      cases l with
      | none => exact hfin.elim
      | some f =>
        obtain ⟨y1, y2, ⟨junk', order, hr⟩, hi⟩ := hfin
        rw [e3] at hi
        cases hfi : f.interface with
        | nil => rw [hfi] at hi; cases hi
        | cons j0 jr =>
          rw [hfi] at hi
          obtain ⟨hj, _⟩ := List.forall₂_cons.mp hi
          refine ⟨?_, g2, ?_⟩
          · rw [List.getElem?_map, e2] at e4
            simp only [Option.map_some, Option.some.injEq, vecDomF, hfi, hj] at e4
            rw [← e4, y1, y2]
          · have ec : (leadSitesF (some f)).map (fun i => siteOf sys fleads s0 (some k) i) =
                (List.range f.cell).map fun i => f.sys.sites[i]?.getD s0 := by
              simp only [leadSitesF, hfi, reduceCtorEq, if_false]
              apply List.map_congr_left
              intro i _
              simp [siteOf, e2]
            rw [ec]
            exact siteShow g1.wf.1 (siteList_fin g1 g3 hr s0) _ _

/-- C168 for finalized systems. -/
theorem C168_finalized [Nonempty S] (h : Reachable (noSymmetry S) H)
    {junk : ℕ → ℤ} (hf : finalizeFinite C junk H = .ok sys) (hfl : List.Forall₂ (IsFinalized C sys) fleads leads)
    (hg : ∀ b, some b ∈ leads → GoodLead pos b ∧ OrdInv b.sym) :
    ∃ ps, hopPosF pos sys fleads (hoppingsF sys fleads n).1 = .ok ps ∧
      HopPicture pos H leads n (hoppingsF sys fleads n).2 ps := by
  have R := finRep_of h hf
  obtain ⟨s0⟩ := ‹Nonempty S›
  have hlen := hfl.length_eq
  obtain ⟨b1, b2⟩ := base_hopsF (pos := pos) h R s0
  have hin : ∀ (k : ℕ) (f : Fin' S V Fn N P), fleads[k]? = some (some f) →
      ∀ o ∈ llHoppings f.sys.graph, o.1 < f.sys.sites.length ∧ o.2 < f.sys.sites.length := by
    intro k f hk
    obtain ⟨b, hb, hfin⟩ := lead_of hfl hk
    cases b with
    | none => exact hfin.elim
    | some b =>
      obtain ⟨_, _, ⟨junk', order, hr⟩, _⟩ := hfin
      obtain ⟨⟨g1, _⟩, g3⟩ := hg b (List.mem_of_getElem? hb)
      exact (hopList_fin g1 g3 hr s0).1
  obtain ⟨ps, h1, h2, h3, h4, h5⟩ := pictureE (n := n) (objs := leadHopsF)
    (base := llHoppings sys.graph) (leads := fleads)
    (raw := fun it : Item (ℕ × ℕ) =>
      match rawF pos sys fleads it.2.1 it.1.1, rawF pos sys fleads it.2.1 it.1.2 with
      | some p, some q => some (p, q)
      | _, _ => none) (tab := (fleads.map (vecDomF sys)).map twice)
    (fun it => (pos (siteOf sys fleads s0 it.2.1 it.1.1), pos (siteOf sys fleads s0 it.2.1 it.1.2)))
    (by
      intro o ho
      obtain ⟨o1, o2⟩ := b1 o ho
      simp only
      rw [rawF_ok_none s0 o1, rawF_ok_none s0 o2])
    (by
      intro k l hk o ho _ _
      cases l with
      | none => cases ho
      | some f =>
        simp only [leadHopsF] at ho
        split at ho
        · cases ho
        · obtain ⟨o1, o2⟩ := hin k f hk o ho
          simp only
          rw [rawF_ok_some s0 hk o1, rawF_ok_some s0 hk o2])
    (by simp)
  refine ⟨ps, ?_, (llHoppings sys.graph).length, ?_, h3, ?_⟩
  · unfold hopPosF
    rcases h1 with ⟨h1, rfl⟩ | ⟨h1, h1'⟩
    · exact if_pos h1
    · exact (if_neg h1).trans h1'
  · rw [h2]
    exact b2
  · refine parts (n := n) (tab := (fleads.map (vecDomF sys)).map twice)
      (conv := fun (k : ℕ) (o : ℕ × ℕ) => (siteOf sys fleads s0 (some k) o.1, siteOf sys fleads s0 (some k) o.2))
      (f := fun o : S × S => (pos o.1, pos o.2)) (objs := leadHopsF)
      (fun b => htr b.sym) (fun b => (b.vec, b.vec)) (h4.trans hlen) hlen (by simp [hlen]) h5 ?_ ?_ ?_
    · intro k l e1 e2
      obtain ⟨b, hb, hfin⟩ := lead_of hfl e2
      rw [e1] at hb
      cases hb
      cases l with
      | none => rfl
      | some f => exact hfin.elim
    · intro k l b e1 e2 e3
      obtain ⟨b', hb, hfin⟩ := lead_of hfl e2
      rw [e1] at hb
      cases hb
      cases l with
      | none => rfl
      | some f =>
        obtain ⟨_, _, _, hi⟩ := hfin
        rw [e3] at hi
        have : f.interface = [] := List.forall₂_nil_right_iff.mp hi
        simp [leadHopsF, this]
    · intro k l b i r vd e1 e2 e3 e4
      obtain ⟨b', hb, hfin⟩ := lead_of hfl e2
      rw [e1] at hb
      cases hb
      obtain ⟨⟨g1, g2⟩, g3⟩ := hg b (List.mem_of_getElem? e1)
      cases l with
      | none => exact hfin.elim
      | some f =>
        obtain ⟨y1, y2, ⟨junk', order, hr⟩, hi⟩ := hfin
        rw [e3] at hi
        cases hfi : f.interface with
        | nil => rw [hfi] at hi; cases hi
        | cons j0 jr =>
          rw [hfi] at hi
          obtain ⟨hj, _⟩ := List.forall₂_cons.mp hi
          refine ⟨?_, ?_, ?_⟩
          · rw [List.getElem?_map, List.getElem?_map, e2] at e4
            simp only [Option.map_some, Option.some.injEq, vecDomF, hfi, hj] at e4
            rw [← e4, y1, y2]
            rfl
          · intro g x
            simp [htr, g2]
          · have ec : (leadHopsF (some f)).map
                (fun o => (siteOf sys fleads s0 (some k) o.1, siteOf sys fleads s0 (some k) o.2)) =
                (llHoppings f.sys.graph).map fun o => (f.sys.sites[o.1]?.getD s0, f.sys.sites[o.2]?.getD s0) := by
              simp only [leadHopsF, hfi, reduceCtorEq, if_false]
              apply List.map_congr_left
              intro i _
              simp [siteOf, e2]
            rw [ec]
            exact hopShow g1.wf.1 (hopList_fin g1 g3 hr s0).2 _ _

end

/-! ## Example -/

/-- The translations of a chain. -/
def stepSym : Symmetry ℤ ℤ where
  act := fun g s => s + g
  which := fun s => s

theorem stepSym_lawful : stepSym.Lawful where
  act_zero := fun s => by simp [stepSym]
  act_add := fun g h s => by simp [stepSym]; ring
  which_act := fun g s => by simp [stepSym]; ring
  torsion := fun g hg => by omega

/-- Two sites. -/
def pair : HMap ℤ ℤ ℕ :=
  (setHop (noSymmetry ℤ) (setSite (noSymmetry ℤ) (setSite (noSymmetry ℤ) [] 3 (.const 7)) 4 (.const 7)) 3 4 (.const 1)).1

/-- A lead to the right. -/
def line : HMap ℤ ℤ ℕ := (setHop stepSym (setSite stepSym [] 0 (.const 1)) 0 1 (.const 3)).1

/-- The lead is attached to site 4. -/
def exLead : Built ℤ ℤ ℕ ℤ := ⟨stepSym, line, [4], 1⟩

/-- C167, C168: the hypotheses are satisfied by two sites with a lead, of which two cells are drawn. -/
theorem C167_example : Reachable (noSymmetry ℤ) pair ∧ (∃ s, HasSite (noSymmetry ℤ) pair s) ∧
    GoodLead id exLead ∧ OrdInv exLead.sym ∧
    posB id [some exLead] (sitesB pair [some exLead] 2).1 = .ok [3, 4, 5, 6] ∧
    (sitesB pair [some exLead] 2).2 = [(2, 4)] ∧
    hopPosB id [some exLead] (hoppingsB pair [some exLead] 2).1 = .ok [(3, 4), (4, 5), (5, 6)] := by
  refine ⟨.setHop _ _ _ (.setSite _ _ (.setSite _ _ (.empty (noSymmetry_lawful _)))), ⟨3, by decide⟩,
    ⟨.setHop _ _ _ (.setSite _ _ (.empty stepSym_lawful)), ?_⟩, ?_, by decide, by decide, by decide⟩
  · intro g s
    simp [exLead, stepSym]
  · intro g a b hab
    simpa [exLead, stepSym] using hab

section
variable {N A X : Type} [DecidableEq N]

theorem line_near : NearestOnly stepSym line := by
  intro a b h
  have e : line = [(0, ⟨.const 1, [(1, .const 3), (-1, .other)]⟩)] := rfl
  rw [e] at h
  unfold E at h
  by_cases ha : a = 0
  · subst ha
    by_cases h1 : b = 1
    · exact Or.inr (Or.inr h1)
    · by_cases h2 : b = -1
      · exact Or.inr (Or.inl h2)
      · exfalso
        simp [Assoc.get, Ne.symm h1, Ne.symm h2] at h
  · exfalso
    simp [Assoc.get, Ne.symm ha] at h

/-- C167, C168: the hypotheses for finalized systems are satisfied, with a second lead that is not a builder
lead. -/
theorem C167_example_finalized (C : Calls ℤ ℤ ℕ N A X) (junk junk' : ℕ → ℤ) :
    ∃ sys f, finalizeFinite C junk pair = .ok sys ∧
      List.Forall₂ (IsFinalized C sys) [some f, none] [some exLead, none] := by
  obtain ⟨h1, ⟨s, hs⟩, ⟨h2, h3⟩, h4, _⟩ := C167_example
  obtain ⟨sys, e1, e2, e3, e4, e5⟩ := C40_sites (C := C) h1 junk
  obtain ⟨hl, hw⟩ := h2.wf
  obtain ⟨⟨lsys, cell⟩, hr⟩ := (C92_succeeds_iff (C := C) h2 h4 junk' none).1.mpr
    ⟨trivial, (nearest_iff hl hw).mp line_near⟩
  have h4' : (4 : ℤ) ∈ sys.sites := (e3 4).mpr (by decide)
  obtain ⟨i, hi⟩ := List.mem_iff_getElem?.mp h4'
  refine ⟨sys, ⟨stepSym, lsys, cell, [i], 1⟩, e1, .cons ?_ (.cons trivial .nil)⟩
  exact ⟨rfl, rfl, ⟨junk', none, hr⟩, .cons hi .nil⟩
end

/-- C167 fails for builders with other leads: the positions are not computed although only sites of the
system are to be drawn. -/
theorem C167_counterexample : Reachable (noSymmetry ℤ) pair ∧
    sitesB (P := ℤ) pair [none] 2 = ([(3, none, 0), (4, none, 0)], [(2, 2)]) ∧
    posB (id : ℤ → ℤ) ([none] : List (Option (Built ℤ ℤ ℕ ℤ))) (sitesB (P := ℤ) pair [none] 2).1 = .error .attribute := by
  refine ⟨.setHop _ _ _ (.setSite _ _ (.setSite _ _ (.empty (noSymmetry_lawful _)))), by decide, ?_⟩
  exact C167_no_builder (by simp) ⟨3, by decide⟩

end Kwant.Draw
