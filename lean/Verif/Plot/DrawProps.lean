import Verif.Plot.DrawMain

/-!
# C167, C168: what is drawn of systems with leads (theorems)
-/

set_option linter.unusedSectionVars false

namespace Kwant.Draw
open Kwant Kwant.Assoc Kwant.Builder Kwant.Final Kwant.Graph

section
variable {S V Fn N A X P : Type} [LinearOrder S] [DecidableEq N] [AddCommGroup P]
variable {H : HMap S V Fn} {leads : List (Option (Built S V Fn P))} {n : ℕ} {pos : S → P}

/-- The contents of a builder lead are those of a builder, and translations move positions by the period of
the symmetry. -/
def GoodLead (pos : S → P) (b : Built S V Fn P) : Prop :=
  Reachable b.sym b.H ∧ ∀ g s, pos (b.sym.act g s) = pos s + g • b.vec

/-- The finalized form `f` of a lead `b` attached to a system with finalized form `sys`. -/
def IsFinalized (C : Calls S V Fn N A X) (sys : Sys S V Fn N) :
    Option (Fin' S V Fn N P) → Option (Built S V Fn P) → Prop
  | none, none => True
  | some f, some b => f.sym = b.sym ∧ f.vec = b.vec ∧
      (∃ junk order, finalizeInfinite C b.sym junk b.H order = .ok (f.sys, f.cell)) ∧
      List.Forall₂ (fun i s => sys.sites[i]? = some s) f.interface b.interface
  | _, _ => False

/-! ## Builders -/

/-- The entries of `vecs_doms` of a builder. -/
def vecDomB' : Option (Built S V Fn P) → P × ℤ
  | none => (0, 0)
  | some b =>
    match b.interface with
    | [] => (0, 0)
    | s :: _ => (b.vec, b.sym.which s + 1)

theorem vecDomB_ok (hb : ∀ l ∈ leads, l ≠ none) : leads.mapM vecDomB = .ok (leads.map vecDomB') := by
  apply mapM_ok
  intro l hl
  cases l with
  | none => exact absurd rfl (hb none hl)
  | some b =>
    simp only [vecDomB, vecDomB']
    cases b.interface <;> rfl

theorem base_sites (h : Reachable (noSymmetry S) H) :
    Shows pos (HasSite (noSymmetry S) H) ((sites H).map pos) := by
  obtain ⟨hl, hw⟩ := h.wf
  refine ⟨_, rfl, hw.keys, ?_⟩
  intro a
  rw [hasSite_iff]
  rfl

theorem base_hops (h : Reachable (noSymmetry S) H) :
    ShowsPairs pos (HasHop (noSymmetry S) H) ((hoppings H).map fun p => (pos p.1, pos p.2)) := by
  obtain ⟨_, _, h3, h4, h5, _⟩ := C27_enumeration (hc := (id : V → V)) h
  have triv : ∀ p x y, HopEquiv (noSymmetry S) p.1 p.2 x y ↔ p = (x, y) := by
    rintro ⟨p, q⟩ x y
    constructor
    · rintro ⟨g, h1, h2⟩
      rw [h1, h2]
      rfl
    · intro e
      cases e
      exact ⟨0, rfl, rfl⟩
  refine ⟨_, rfl, h3, ?_, ?_⟩
  · intro a b h1 h2
    have hh := h4 _ h1
    have := ((h5 a b).mp hh).unique ⟨h1, Or.inl ((triv _ _ _).mpr rfl)⟩ ⟨h2, Or.inr ((triv _ _ _).mpr rfl)⟩
    exact hop_ne h hh (congrArg Prod.fst this)
  · intro a b
    rw [h5]
    constructor
    · rintro (hm | hm)
      · exact (h5 a b).mp (h4 _ hm)
      · exact (h5 a b).mp (hop_symm h (h4 _ hm))
    · rintro ⟨p, ⟨hp, hp' | hp'⟩, _⟩
      · rw [triv] at hp'
        subst hp'
        exact Or.inl hp
      · rw [triv] at hp'
        subst hp'
        exact Or.inr hp

theorem collect_ne {α Λ : Type} {objs : Λ → List α} {ls : List Λ} {nr : ℕ} {acc : List (Item α)} (h : acc ≠ []) :
    (collect n objs ls nr acc).1 ≠ [] := by
  obtain ⟨⟨rest, h1⟩, _⟩ := collect_spec (n := n) (objs := objs) ls nr acc
  rw [h1]
  simp [h]

/-- C167 for builders: the positions computed for a system with builder leads are those of the sites of the
system, followed, for every lead, by those of the sites of the lead in the `n` cells that follow its interface, each
site once; the slices say which positions belong to which lead. -/
theorem C167_builder (h : Reachable (noSymmetry S) H) (hs : ∃ s, HasSite (noSymmetry S) H s)
    (hb : ∀ l ∈ leads, l ≠ none) (hg : ∀ b, some b ∈ leads → GoodLead pos b) :
    ∃ ps, posB pos leads (sitesB H leads n).1 = .ok ps ∧ SitePicture pos H leads n (sitesB H leads n).2 ps := by
  have hne : (sites H).map (fun s => (s, (none : Option ℕ), 0)) ≠ [] := by
    obtain ⟨s, hs⟩ := hs
    rw [hasSite_iff] at hs
    intro e
    have : sites H = [] := by simpa using e
    unfold sites at this
    rw [this] at hs
    cases hs
  have hne' : (sitesB H leads n).1 ≠ [] := collect_ne hne
  obtain ⟨ps, h1, h2, h3, h4, h5⟩ := picture (n := n) (objs := leadSitesB) (base := sites H) (leads := leads)
    (raw := fun it : Item S => some (pos it.1)) (tab := leads.map vecDomB') (fun it => pos it.1) hne'
    (fun _ _ => rfl) (fun _ _ _ _ _ _ _ => rfl) (by simp)
  refine ⟨ps, ?_, (sites H).length, ?_, h3, ?_⟩
  · unfold posB
    rw [if_neg hne', vecDomB_ok hb]
    exact h1
  · rw [h2]
    exact base_sites h
  · refine parts (conv := fun _ o => o) (f := pos) (fun b => b.sym.act) (fun b => b.vec) h4 rfl (by simp) h5 ?_ ?_ ?_
    · intro k l e1 e2
      rw [e1] at e2
      cases e2
      rfl
    · intro k l b e1 e2 e3
      rw [e1] at e2
      cases e2
      simp [leadSitesB, e3]
    · intro k l b i r vd e1 e2 e3 e4
      rw [e1] at e2
      cases e2
      obtain ⟨g1, g2⟩ := hg b (List.mem_of_getElem? e1)
      refine ⟨?_, g2, ?_⟩
      · rw [List.getElem?_map, e1] at e4
        simp only [Option.map_some, Option.some.injEq, vecDomB', e3] at e4
        exact e4.symm
      · simp only [leadSitesB, e3, reduceCtorEq, if_false, List.map_id']
        exact siteShow g1.wf.1 (siteList_builder g1) _ _

/-- C168 for builders: the same for the hoppings; the hoppings of a lead are those within the `n` cells and
from them to the interface, each in one direction. -/
theorem C168_builder (h : Reachable (noSymmetry S) H)
    (hb : ∀ l ∈ leads, l ≠ none) (hg : ∀ b, some b ∈ leads → GoodLead pos b) :
    ∃ ps, hopPosB pos leads (hoppingsB H leads n).1 = .ok ps ∧ HopPicture pos H leads n (hoppingsB H leads n).2 ps := by
  obtain ⟨ps, h1, h2, h3, h4, h5⟩ := pictureE (n := n) (objs := leadHopsB) (base := hoppings H) (leads := leads)
    (raw := fun it : Item (S × S) => some (pos it.1.1, pos it.1.2)) (tab := (leads.map vecDomB').map twice)
    (fun it => (pos it.1.1, pos it.1.2)) (fun _ _ => rfl) (fun _ _ _ _ _ _ _ => rfl) (by simp)
  refine ⟨ps, ?_, (hoppings H).length, ?_, h3, ?_⟩
  · unfold hopPosB
    rcases h1 with ⟨h1, rfl⟩ | ⟨h1, h1'⟩
    · exact if_pos h1
    · refine (if_neg h1).trans ?_
      rw [vecDomB_ok hb]
      exact h1'
  · rw [h2]
    exact base_hops h
  · refine parts (conv := fun _ o => o) (f := fun o : S × S => (pos o.1, pos o.2)) (fun b => htr b.sym)
      (fun b => (b.vec, b.vec)) h4 rfl (by simp) h5 ?_ ?_ ?_
    · intro k l e1 e2
      rw [e1] at e2
      cases e2
      rfl
    · intro k l b e1 e2 e3
      rw [e1] at e2
      cases e2
      simp [leadHopsB, e3]
    · intro k l b i r vd e1 e2 e3 e4
      rw [e1] at e2
      cases e2
      obtain ⟨g1, g2⟩ := hg b (List.mem_of_getElem? e1)
      refine ⟨?_, ?_, ?_⟩
      · rw [List.getElem?_map, List.getElem?_map, e1] at e4
        simp only [Option.map_some, Option.some.injEq, vecDomB', e3] at e4
        exact e4.symm
      · intro g x
        simp [htr, g2]
      · simp only [leadHopsB, e3, reduceCtorEq, if_false, List.map_id']
        exact hopShow g1.wf.1 (hopList_builder g1) _ _

/-- The positions of a system that has a lead without attribute `builder` cannot be computed before
finalization. -/
theorem C167_no_builder (hl : none ∈ leads) (hs : ∃ s, HasSite (noSymmetry S) H s) :
    posB pos leads (sitesB H leads n).1 = .error .attribute := by
  have hne : (sites H).map (fun s => (s, (none : Option ℕ), 0)) ≠ [] := by
    obtain ⟨s, hs⟩ := hs
    rw [hasSite_iff] at hs
    intro e
    have : sites H = [] := by simpa using e
    unfold sites at this
    rw [this] at hs
    cases hs
  have hne' : (sitesB H leads n).1 ≠ [] := collect_ne hne
  have hm : leads.mapM vecDomB = .error PErr.attribute := by
    clear hne hne' hs
    induction leads with
    | nil => cases hl
    | cons l ls ih =>
      rw [List.mapM_cons]
      cases l with
      | none => rfl
      | some b =>
        have e : vecDomB (some b) = .ok (vecDomB' (some b)) := by
          simp only [vecDomB, vecDomB']
          cases b.interface <;> rfl
        rw [e]
        have : none ∈ ls := by simpa using hl
        rw [ih this]
        rfl
  unfold posB
  rw [if_neg hne', hm]

/-! ## Finalized systems -/

theorem range_map_getD (l : List S) (s0 : S) {c : ℕ} (hc : c ≤ l.length) :
    (List.range c).map (fun i => l[i]?.getD s0) = l.take c := by
  apply List.ext_getElem?
  intro i
  by_cases hi : i < c
  · rw [List.getElem?_map, List.getElem?_range hi, List.getElem?_take_of_lt hi,
      List.getElem?_eq_getElem (by omega)]
    simp only [Option.map_some]
    rw [List.getElem?_eq_getElem (by omega)]
    rfl
  · rw [List.getElem?_eq_none (by simpa using hi), List.getElem?_eq_none]
    simp
    omega

theorem mem_take {l : List S} {c : ℕ} {a : S} : a ∈ l.take c ↔ ∃ i, i < c ∧ l[i]? = some a := by
  rw [List.mem_iff_getElem?]
  constructor
  · rintro ⟨i, hi⟩
    have hi' : i < c := by
      have := (List.getElem?_eq_some_iff.mp hi).1
      simp at this
      omega
    exact ⟨i, hi', by rwa [List.getElem?_take_of_lt hi'] at hi⟩
  · rintro ⟨i, hi, h⟩
    exact ⟨i, by rwa [List.getElem?_take_of_lt hi]⟩

variable {C : Calls S V Fn N A X} {sym : Symmetry S ℤ} {L : HMap S V Fn} {lsys : Sys S V Fn N} {cell : ℕ}

theorem siteList_fin (h : Reachable sym L) (ho : OrdInv sym) {junk : ℕ → ℤ} {order : Option (List S)}
    (hr : finalizeInfinite C sym junk L order = .ok (lsys, cell)) (s0 : S) :
    SiteList sym L ((List.range cell).map fun i => lsys.sites[i]?.getD s0) := by
  obtain ⟨hl, hw⟩ := h.wf
  obtain ⟨m, _, l2, _, l4, l5, _⟩ := C46_layout h ho hr
  rw [range_map_getD _ _ (by omega)]
  refine ⟨l4.sublist (List.take_sublist _ _), ?_, ?_⟩
  · intro x hx
    exact ((l5 x).mp (mem_take.mp hx)).1
  · intro a
    rw [mem_take, l5, hl.which_act, hasSite_iff, hasSite_iff, hl.toFd_act]
    simp

/-- The pairs of `ll_hoppings`. -/
theorem ll_mem {g : CGraph} {m : ℕ} (hn : g.numNodes = m) {R : ℕ → ℕ → Prop}
    (hout : ∀ i : ℕ, i < m → ∃ js : List ℤ, g.outNeighbors i = .ok js ∧ js.Nodup ∧
      ∀ j : ℤ, j ∈ js ↔ ∃ k : ℕ, j = k ∧ R i k) :
    (llHoppings g).Nodup ∧ ∀ i j, (i, j) ∈ llHoppings g ↔ i < m ∧ i < j ∧ R i j := by
  unfold llHoppings
  rw [hn]
  constructor
  · rw [List.nodup_flatMap]
    constructor
    · intro i hi
      obtain ⟨js, h1, h2, h3⟩ := hout i (by simpa using hi)
      rw [h1]
      simp only
      apply List.Nodup.map_on
      · intro x hx y hy he
        have e1 : (i : ℤ) < x := by simpa using (List.mem_filter.mp hx).2
        have e2 : (i : ℤ) < y := by simpa using (List.mem_filter.mp hy).2
        have e3 := congrArg Prod.snd he
        simp only at e3
        omega
      · exact h2.filter _
    · refine List.Pairwise.imp_of_mem ?_ (List.nodup_range (n := m))
      intro a b ha hb hab y hy hy'
      apply hab
      have one : ∀ a : ℕ, y ∈ (match g.outNeighbors a with
          | .error _ => []
          | .ok js => (js.filter fun j => decide ((a : ℤ) < j)).map fun j : ℤ => (a, j.toNat)) → y.1 = a := by
        intro a hy
        cases e : g.outNeighbors a with
        | error => rw [e] at hy; cases hy
        | ok js =>
          rw [e] at hy
          simp only at hy
          obtain ⟨j, _, rfl⟩ := List.mem_map.mp hy
          rfl
      rw [← one a hy, ← one b hy']
  · intro i j
    rw [List.mem_flatMap]
    constructor
    · rintro ⟨i', hi', hm⟩
      have hi'' : i' < m := by simpa using hi'
      obtain ⟨js, h1, h2, h3⟩ := hout i' hi''
      rw [h1] at hm
      simp only at hm
      obtain ⟨z, hz, e⟩ := List.mem_map.mp hm
      obtain ⟨z1, z2⟩ := List.mem_filter.mp hz
      obtain ⟨k, rfl, hk⟩ := (h3 z).mp z1
      have e1 := congrArg Prod.fst e
      have e2 := congrArg Prod.snd e
      simp only [Int.toNat_natCast] at e1 e2
      subst e1 e2
      refine ⟨hi'', by simpa using z2, hk⟩
    · rintro ⟨hi, hij, hR⟩
      obtain ⟨js, h1, h2, h3⟩ := hout i hi
      refine ⟨i, by simpa using hi, ?_⟩
      rw [h1]
      simp only
      refine List.mem_map.mpr ⟨(j : ℤ), List.mem_filter.mpr ⟨(h3 _).mpr ⟨j, rfl, hR⟩, by simpa using hij⟩, by simp⟩

theorem hopList_fin (h : Reachable sym L) (ho : OrdInv sym) {junk : ℕ → ℤ} {order : Option (List S)}
    (hr : finalizeInfinite C sym junk L order = .ok (lsys, cell)) (s0 : S) :
    (∀ o ∈ llHoppings lsys.graph, o.1 < lsys.sites.length ∧ o.2 < lsys.sites.length) ∧
    HopList sym L ((llHoppings lsys.graph).map fun o => (lsys.sites[o.1]?.getD s0, lsys.sites[o.2]?.getD s0)) := by
  obtain ⟨hl, hw⟩ := h.wf
  obtain ⟨m, l1, l2, l3, l4, l5, l6, l7, _⟩ := C46_layout h ho hr
  obtain ⟨_, hnear⟩ := (C92_succeeds_iff (C := C) h ho junk order).1.mp ⟨_, hr⟩
  obtain ⟨_, _, hcell, R⟩ := rep_of_ok h ho hr
  subst hcell
  have hx : ∀ i : ℕ, i < lsys.sites.length → lsys.sites[i]? = some (lsys.sites[i]?.getD s0) := by
    intro i hi
    rw [List.getElem?_eq_getElem hi]
    rfl
  have inj : ∀ (i j : ℕ) (a : S), lsys.sites[i]? = some a → lsys.sites[j]? = some a → i = j := by
    intro i j a hi hj
    obtain ⟨p1, p2⟩ := List.getElem?_eq_some_iff.mp hi
    obtain ⟨q1, q2⟩ := List.getElem?_eq_some_iff.mp hj
    exact (List.Nodup.getElem_inj_iff l4).mp (p2.trans q2.symm)
  have hE : ∀ (i j : ℕ) (a b : S), lsys.sites[i]? = some a → lsys.sites[j]? = some b → i ≠ j →
      (InfEdge sym L (cellSites sym L).length i j a b ↔
        (i < (cellSites sym L).length ∨ j < (cellSites sym L).length) ∧ HasHop sym L a b) := by
    intro i j a b hi hj hij
    unfold InfEdge
    rw [hasHop_iff hw hl]
    have : a ≠ b := by
      rintro rfl
      exact hij (inj i j a hi hj)
    simp [this]
  obtain ⟨n1, n2⟩ := ll_mem (g := lsys.graph) (m := lsys.sites.length) (by rw [l3, l2])
    (R := fun i k => ∃ a b, lsys.sites[i]? = some a ∧ lsys.sites[k]? = some b ∧
      InfEdge sym L (cellSites sym L).length i k a b) (by
      intro i hi
      obtain ⟨js, j1, j2, j3⟩ := R.out i _ (hx i hi)
      refine ⟨js, j1, j2, ?_⟩
      intro j
      rw [j3]
      constructor
      · rintro ⟨k, b, e1, e2, e3⟩
        exact ⟨k, e1, _, b, hx i hi, e2, e3⟩
      · rintro ⟨k, e1, a, b, e0, e2, e3⟩
        rw [hx i hi] at e0
        cases e0
        exact ⟨k, b, e1, e2, e3⟩)
  have lt2 : ∀ i j : ℕ, (i, j) ∈ llHoppings lsys.graph → i < lsys.sites.length ∧ j < lsys.sites.length := by
    intro i j hij
    obtain ⟨e1, _, a, b, _, e2, _⟩ := (n2 i j).mp hij
    exact ⟨e1, (List.getElem?_eq_some_iff.mp e2).1⟩
  -- the pairs of sites in the list
  have mem : ∀ a b, (a, b) ∈ (llHoppings lsys.graph).map (fun o => (lsys.sites[o.1]?.getD s0, lsys.sites[o.2]?.getD s0)) ↔
      ∃ i j : ℕ, i < j ∧ lsys.sites[i]? = some a ∧ lsys.sites[j]? = some b ∧ i < (cellSites sym L).length ∧
        HasHop sym L a b := by
    intro a b
    rw [List.mem_map]
    constructor
    · rintro ⟨⟨i, j⟩, hm, e⟩
      obtain ⟨e1, e2, a', b', e3, e4, e5⟩ := (n2 i j).mp hm
      simp only [e3, e4, Option.getD_some, Prod.mk.injEq] at e
      obtain ⟨rfl, rfl⟩ := e
      rw [hE i j _ _ e3 e4 (by omega)] at e5
      exact ⟨i, j, e2, e3, e4, by omega, e5.2⟩
    · rintro ⟨i, j, e2, e3, e4, e5, e6⟩
      refine ⟨(i, j), (n2 i j).mpr ⟨(List.getElem?_eq_some_iff.mp e3).1, e2, a, b, e3, e4, ?_⟩, by simp [e3, e4]⟩
      rw [hE i j _ _ e3 e4 (by omega)]
      exact ⟨Or.inl e5, e6⟩
  have level : ∀ (i : ℕ) (a : S), lsys.sites[i]? = some a → (i < (cellSites sym L).length ↔ sym.which a = 0) ∧
      (sym.which a = 0 ∨ sym.which a = -1) := by
    intro i a hi
    rw [R.sites] at hi
    exact which_cases hl hw hi
  refine ⟨fun o ho => lt2 o.1 o.2 ho, ?_, ?_, ?_, ?_⟩
  · apply List.Nodup.map_on _ n1
    rintro ⟨i, j⟩ hij ⟨i', j'⟩ hij' e
    obtain ⟨a1, a2⟩ := lt2 i j hij
    obtain ⟨b1, b2⟩ := lt2 i' j' hij'
    obtain ⟨e1, e2⟩ := Prod.mk.inj e
    have f1 := hx i' b1
    have f2 := hx j' b2
    simp only at e1 e2
    rw [← e1] at f1
    rw [← e2] at f2
    rw [inj _ _ _ (hx i a1) f1, inj _ _ _ (hx j a2) f2]
  · rintro ⟨a, b⟩ hab
    obtain ⟨i, j, e1, e2, e3, e4, e5⟩ := (mem a b).mp hab
    have f1 := (level i a e2).1.mp e4
    have f2 := (level j b e3).2
    simp only [hlev]
    omega
  · intro a b h1 h2
    obtain ⟨i, j, e1, e2, e3, _⟩ := (mem a b).mp h1
    obtain ⟨i', j', f1, f2, f3, _⟩ := (mem b a).mp h2
    have := inj _ _ _ e2 f3
    have := inj _ _ _ e3 f2
    omega
  · intro a b
    constructor
    · have one : ∀ a b, htr sym (-hlev sym (a, b)) (a, b) ∈ (llHoppings lsys.graph).map
          (fun o => (lsys.sites[o.1]?.getD s0, lsys.sites[o.2]?.getD s0)) → HasHop sym L a b := by
        intro a b hm
        obtain ⟨i, j, e1, e2, e3, e4, e5⟩ := (mem _ _).mp hm
        exact (hop_act h _ a b).mp e5
      rintro (hm | hm)
      · exact one _ _ hm
      · exact hop_symm h (one _ _ hm)
    · intro hh
      rw [hlev_swap sym a b]
      rw [← hop_act h (-hlev sym (a, b))] at hh
      have lv : hlev sym (htr sym (-hlev sym (a, b)) (a, b)) = 0 := by
        rw [htr_lev hl]
        omega
      have e0 : htr sym (-hlev sym (a, b)) (a, b) = (sym.act (-hlev sym (a, b)) a, sym.act (-hlev sym (a, b)) b) := rfl
      have e0' : htr sym (-hlev sym (a, b)) (b, a) = (sym.act (-hlev sym (a, b)) b, sym.act (-hlev sym (a, b)) a) := rfl
      rw [e0] at lv ⊢
      rw [e0']
      generalize sym.act (-hlev sym (a, b)) a = x at *
      generalize sym.act (-hlev sym (a, b)) b = y at *
      -- both ends are numbered
      have number : ∀ x y, HasHop sym L x y → hlev sym (x, y) = 0 → ∃ i : ℕ, lsys.sites[i]? = some x := by
        intro x y hxy hlv
        have hn1 := hnear x y hxy
        rw [abs_le] at hn1
        simp only [hlev] at hlv
        by_cases hx0 : sym.which x = 0
        · have hsx : HasSite sym L x := by
            obtain ⟨_, hE'⟩ := (hasHop_iff hw hl).mp hxy
            obtain ⟨st, hst⟩ := Option.isSome_iff_exists.mp hE'
            rw [hasSite_iff]
            exact E_some_mem hst
          obtain ⟨i, _, hi⟩ := (l5 x).mpr ⟨hx0, hsx⟩
          exact ⟨i, hi⟩
        · have hx1 : sym.which x = -1 := by omega
          have hy0 : sym.which y = 0 := by omega
          have h1 : HasHop sym L (sym.act 1 x) (sym.act 1 y) := (hop_act h 1 x y).mpr hxy
          have hsx : HasSite sym L (sym.act 1 x) := by
            obtain ⟨_, hE'⟩ := (hasHop_iff hw hl).mp h1
            obtain ⟨st, hst⟩ := Option.isSome_iff_exists.mp hE'
            rw [hasSite_iff]
            exact E_some_mem hst
          have w0 : sym.which (sym.act 1 x) = 0 := by rw [hl.which_act]; omega
          obtain ⟨i, hi, hi'⟩ := (l5 _).mpr ⟨w0, hsx⟩
          have him := (l6 i _ hi hi').mpr ⟨_, h1, by rw [hl.which_act]; omega⟩
          have := l7 i _ him hi'
          rw [hl.act_neg_act] at this
          exact ⟨_, this⟩
      obtain ⟨i, hi⟩ := number x y hh lv
      obtain ⟨j, hj⟩ := number y x (hop_symm h hh) (by rw [hlev_swap]; exact lv)
      have hne : i ≠ j := by
        rintro rfl
        rw [hi] at hj
        cases hj
        exact hop_ne h hh rfl
      have lx := level i x hi
      have ly := level j y hj
      simp only [hlev] at lv
      rcases lt_or_gt_of_ne hne with hij | hij
      · left
        refine (mem x y).mpr ⟨i, j, hij, hi, hj, ?_, hh⟩
        by_contra hcon
        have : sym.which x ≠ 0 := fun e => hcon (lx.1.mpr e)
        have : sym.which y ≠ 0 := fun e => by
          have := ly.1.mpr e
          omega
        omega
      · right
        refine (mem y x).mpr ⟨j, i, hij, hj, hi, ?_, hop_symm h hh⟩
        by_contra hcon
        have : sym.which y ≠ 0 := fun e => hcon (ly.1.mpr e)
        have : sym.which x ≠ 0 := fun e => by
          have := lx.1.mpr e
          omega
        omega


end
end Kwant.Draw
