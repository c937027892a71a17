import Verif.Builder.FillProps
import Verif.Builder.AttachModel
import Mathlib.Data.List.MinMax
import Mathlib.Order.Bounds.Basic

/-!
# C35, C36: `attach_lead`
-/
set_option linter.unusedSectionVars false

namespace Kwant
variable {S : Type}

theorem Symmetry.Lawful.subgroup1 {sym : Symmetry S ℤ} (hl : sym.Lawful) {n : ℤ} (hn : 0 < n) :
    (sym.subgroup1 n).Lawful where
  act_zero := fun s => by simp [Symmetry.subgroup1, hl.act_zero]
  act_add := fun g h s => by simp [Symmetry.subgroup1, hl.act_add, mul_add]
  which_act := fun g s => by
    simp only [Symmetry.subgroup1, hl.which_act]
    rw [Int.mul_add_ediv_left _ _ hn.ne']
  torsion := fun g hg => by omega

namespace Builder
open Kwant Kwant.Assoc
variable {V Fn F : Type} [DecidableEq S] [DecidableEq F] {hc : V → V}
variable {sym : Symmetry S ℤ} {H H' L L' : HMap S V Fn} {nv : Val V Fn} {fam : S → F}
variable {ord : ℕ → List S → List S} {ordS : List S → List S} {fuel addCells : ℕ} {origin : Option S}

theorem subSym_subgroup1 (sym : Symmetry S ℤ) (n : ℤ) : SubSym (sym.subgroup1 n) sym :=
  fun g => ⟨n * g, fun _ => rfl⟩

/-! ## C36: the automatic increase of the period -/

theorem which_le_hopRange {h : S × S} (hh : h ∈ hoppings L) : (sym.which h.2).natAbs ≤ hopRange sym L := by
  unfold hopRange
  generalize hoppings L = l at hh ⊢
  induction l with
  | nil => simp at hh
  | cons x l ih =>
    rcases List.mem_cons.mp hh with rfl | h
    · simp
    · exact le_trans (ih h) (by simp)

/-- The range of every hopping of the lead is bounded by `hopRange`. -/
theorem hop_range (hL : Reachable sym L) {x y : S} (hxy : HasHop sym L x y) :
    (sym.which y - sym.which x).natAbs ≤ hopRange sym L := by
  obtain ⟨hl, w⟩ := hL.wf
  rw [hasHop_iff w hl] at hxy
  obtain ⟨st, he⟩ := Option.isSome_iff_exists.mp hxy.2
  have key : ∀ a b st, E L a b = some st → st ≠ .other → (sym.which b).natAbs ≤ hopRange sym L := by
    intro a b st he hst
    exact which_le_hopRange (h := (a, b)) ((mem_hoppings w.toNF).mpr ⟨st, he, hst⟩)
  have hw : sym.which (sym.toFd2 x y).2 = sym.which y - sym.which x := by
    rw [toFd2_eq, hl.which_act]; ring
  obtain ⟨_, st', h1, h2⟩ := w.pair _ _ _ he
  by_cases hst : st = .other
  · have := key _ _ _ h1 (h2.mp hst)
    rw [rev_toFd2 hl] at this
    have hw' : sym.which (sym.toFd2 y x).2 = sym.which x - sym.which y := by
      rw [toFd2_eq, hl.which_act]; ring
    rw [hw'] at this
    omega
  · have := key _ _ _ he hst
    rwa [hw] at this

/-- C36 (partial): the lead with increased period has only hoppings between neighbouring cells; its sites
are sites of the original lead with the same values, and hoppings between its sites are those of the original
lead.  Its sites are exactly those that are connected to a site of the fundamental domain of the original
lead by hoppings.  Missing: all sites of the original lead should be sites of the new one, which is false in
general (`C36_counterexample`); it is true if every image of every site is connected
(`C36_extend_connected_partial`). -/
theorem C36_extend_partial {sym' : Symmetry S ℤ} (hL : Reachable sym L) (hord : ∀ n l, (ord n l).Perm l)
    (hok : extendLead sym L nv ord fuel = some (.ok (sym', L'))) :
    Reachable sym' L' ∧
    (∀ x y, HasHop sym' L' x y → (sym'.which y - sym'.which x).natAbs ≤ 1) ∧
    (∀ x, HasSite sym' L' x → HasSite sym L x ∧ getSite sym' L' x = getSite sym L x) ∧
    (∀ x y v, HasSite sym' L' x → HasSite sym' L' y →
      (getHop sym' hc L' x y = .ok v ↔ getHop sym hc L x y = .ok v)) ∧
    (∀ x, HasSite sym L x → sym.which x = 0 → HasSite sym' L' x) ∧
    (∀ x y, HasSite sym' L' x → HasHop sym L x y → HasSite sym' L' y) := by
  obtain ⟨hl, w⟩ := hL.wf
  unfold extendLead at hok
  by_cases hr : 1 < hopRange sym L
  · rw [if_pos hr] at hok
    set n : ℤ := (hopRange sym L : ℤ) with hn
    have hn0 : 0 < n := by omega
    cases hf : fill (sym.subgroup1 n) sym L (fun _ => some true) nv none true ord fuel [] (sites L) with
    | none => simp [hf] at hok
    | some r =>
      obtain ⟨L1, r⟩ := r
      cases r with
      | error e => simp [hf] at hok
      | ok all =>
        simp only [hf] at hok
        obtain ⟨rfl, rfl⟩ := Prod.mk.inj (Except.ok.inj (Option.some.inj hok))
        have hl' := hl.subgroup1 hn0
        obtain ⟨h1, h2, _, h3, h4, h5, h6, h7, h8⟩ := C34_fill (hc := hc) (Reachable.empty hl') hL
          (subSym_subgroup1 sym n) hord hf
        have hempty : ∀ x, ¬ HasSite (sym.subgroup1 n) ([] : HMap S V Fn) x := by
          intro x; simp [hasSite_iff]
        have h4' : ∀ x, HasSite (sym.subgroup1 n) L1 x ↔ (sym.subgroup1 n).toFd x ∈ all := by
          intro x; rw [h4]; simp [hempty x]
        have hhop : ∀ x y v, HasSite (sym.subgroup1 n) L1 x → HasSite (sym.subgroup1 n) L1 y →
            (getHop (sym.subgroup1 n) hc L1 x y = .ok v ↔ getHop sym hc L x y = .ok v) :=
          fun x y v hx hy => h8 x y v hx hy (fun h => hempty _ h.1)
        refine ⟨h1, ?_, ?_, hhop, ?_, ?_⟩
        · intro x y hxy
          obtain ⟨_, hx, hy⟩ := (C20_wellformed h1).2.2.2.1 x y hxy
          obtain ⟨v, hv⟩ := ((C23_get_iff_contains (hc := hc) h1 x y).1).mpr hxy
          have hxyL : HasHop sym L x y :=
            ((C23_get_iff_contains (hc := hc) hL x y).1).mp ⟨v, (hhop x y v hx hy).mp hv⟩
          have hrg := hop_range hL hxyL
          simp only [Symmetry.subgroup1]
          have hb : |sym.which y - sym.which x| ≤ n := by rw [Int.abs_eq_natAbs]; omega
          rw [abs_le] at hb
          have e1 : sym.which y / n ≤ sym.which x / n + 1 := by
            have : sym.which x / n + 1 = (sym.which x + n * 1) / n := by
              rw [Int.add_mul_ediv_left _ _ hn0.ne']
            rw [this]
            exact Int.ediv_le_ediv hn0 (by omega)
          have e2 : sym.which x / n ≤ sym.which y / n + 1 := by
            have : sym.which y / n + 1 = (sym.which y + n * 1) / n := by
              rw [Int.add_mul_ediv_left _ _ hn0.ne']
            rw [this]
            exact Int.ediv_le_ediv hn0 (by omega)
          omega
        · intro x hx
          exact h6 x ((h4' x).mp hx)
        · intro x hx h0
          rw [h4', h3]
          refine FillReach.start x ?_ hx ?_ rfl
          · have := hasSite_iff.mp hx
            rw [hl.toFd_of_which h0] at this
            exact this
          · simp [containsSite]
        · intro x y hx hxy
          rw [h4', h3] at hx ⊢
          have hx' := FillReach.step ((sym.subgroup1 n).toFd x) ((sym.subgroup1 n).act (-(sym.subgroup1 n).which x) y)
            (shape := fun _ => some true) (symT := sym) (T := L) hx ?_ (by simp [containsSite]) rfl
          · rwa [hl'.toFd_act] at hx'
          · exact ((C20_wellformed hL).2.2.2.2.2.1 _ x y).mp hxy
  · rw [if_neg hr] at hok
    obtain ⟨rfl, rfl⟩ := Prod.mk.inj (Except.ok.inj (Option.some.inj hok))
    refine ⟨hL, ?_, fun x hx => ⟨hx, rfl⟩, fun _ _ _ _ _ => Iff.rfl, fun x hx _ => hx, ?_⟩
    · intro x y hxy
      have := hop_range hL hxy
      omega
    · intro x y _ hxy
      exact ((C20_wellformed hL).2.2.2.1 x y hxy).2.2

/-- C36 for leads in which every site is connected to a site in the fundamental domain. -/
theorem C36_extend_connected_partial {sym' : Symmetry S ℤ} (hL : Reachable sym L) (hord : ∀ n l, (ord n l).Perm l)
    (hconn : ∀ x, HasSite sym L x → ∃ z, HasSite sym L z ∧ sym.which z = 0 ∧
      Relation.ReflTransGen (fun a b => HasHop sym L a b) z x)
    (hok : extendLead sym L nv ord fuel = some (.ok (sym', L'))) (x y : S) (v : Val V Fn) :
    (HasSite sym' L' x ↔ HasSite sym L x) ∧ (getSite sym' L' x = .ok v ↔ getSite sym L x = .ok v) ∧
    (getHop sym' hc L' x y = .ok v ↔ getHop sym hc L x y = .ok v) := by
  obtain ⟨h1, _, h3, h4, h5, h6⟩ := C36_extend_partial (hc := hc) hL hord hok
  have hs : ∀ x, HasSite sym' L' x ↔ HasSite sym L x := by
    intro x
    refine ⟨fun h => (h3 x h).1, fun h => ?_⟩
    obtain ⟨z, hz, hz0, hrt⟩ := hconn x h
    clear h
    induction hrt with
    | refl => exact h5 z hz hz0
    | tail _ hab ih => exact h6 _ _ ih hab
  refine ⟨hs x, ?_, ?_⟩
  · by_cases hx : HasSite sym' L' x
    · rw [(h3 x hx).2]
    · have hx' := fun h => hx ((hs x).mpr h)
      constructor
      · intro h; exact absurd (((C23_get_iff_contains (hc := hc) h1 x x).2.1).mp ⟨v, h⟩) hx
      · intro h; exact absurd (((C23_get_iff_contains (hc := hc) hL x x).2.1).mp ⟨v, h⟩) hx'
  · by_cases hx : HasSite sym' L' x ∧ HasSite sym' L' y
    · exact h4 x y v hx.1 hx.2
    · constructor
      · intro h
        have hh := ((C23_get_iff_contains (hc := hc) h1 x y).1).mp ⟨v, h⟩
        exact absurd ((C20_wellformed h1).2.2.2.1 x y hh).2 hx
      · intro h
        have hh := ((C23_get_iff_contains (hc := hc) hL x y).1).mp ⟨v, h⟩
        have := ((C20_wellformed hL).2.2.2.1 x y hh).2
        exact absurd ⟨(hs x).mpr this.1, (hs y).mpr this.2⟩ hx

/-- A lead with hoppings between next nearest neighbours only. -/
def nnnLead : HMap (ℤ × ℕ) ℤ ℕ :=
  (setHop chainSym (setSite chainSym [] (0, 0) (.const 1)) (0, 0) (2, 0) (.const 3)).1

/-- C36 fails: in a lead with hoppings between next nearest neighbours only, every second site is lost when
the period is increased. -/
theorem C36_counterexample : Reachable chainSym nnnLead ∧
    ∃ sym' L', extendLead chainSym nnnLead (.const 0) (fun _ l => l) 10 = some (.ok (sym', L')) ∧
      HasSite chainSym nnnLead (1, 0) ∧ ¬ HasSite sym' L' (1, 0) := by
  refine ⟨?_, chainSym.subgroup1 2, _, rfl, by decide, by decide⟩
  exact .setHop _ _ _ (.setSite _ _ (.empty chainSym_lawful))

/-! ## C35: attaching -/

theorem delSites_effect {l : List S} {H H' : HMap S V Fn} (h : Reachable (noSymmetry S) H)
    (hok : delSites (noSymmetry S) l H = (H', none)) :
    Reachable (noSymmetry S) H' ∧
    (∀ x, HasSite (noSymmetry S) H' x ↔ HasSite (noSymmetry S) H x ∧ x ∉ l) ∧
    (∀ x, x ∉ l → getSite (noSymmetry S) H' x = getSite (noSymmetry S) H x) ∧
    (∀ x y v, x ∉ l → y ∉ l → (getHop (noSymmetry S) hc H' x y = .ok v ↔ getHop (noSymmetry S) hc H x y = .ok v)) := by
  induction l generalizing H with
  | nil =>
    obtain ⟨rfl, _⟩ := Prod.mk.inj hok
    exact ⟨h, by simp, by simp, by simp⟩
  | cons s l ih =>
    unfold delSites Res.seq at hok
    cases hd : delSite (noSymmetry S) H s with
    | mk H1 e =>
      cases e with
      | some e => simp [hd] at hok
      | none =>
        simp only [hd] at hok
        have h1 : Reachable (noSymmetry S) H1 := by
          have := Reachable.delSite s h
          rwa [hd] at this
        obtain ⟨a1, a2, _, a4⟩ := C25_delSite (hc := hc) h s H1 hd
        have ho : ∀ x, (noSymmetry S).SameOrbit s x ↔ s = x :=
          fun x => sameOrbit_iff h.lawful
        simp only [ho] at a1 a2 a4
        obtain ⟨b1, b2, b3, b4⟩ := ih h1 hok
        refine ⟨b1, ?_, ?_, ?_⟩
        · intro x
          rw [b2, a1]
          simp only [List.mem_cons, not_or]
          constructor
          · rintro ⟨⟨h1, h2⟩, h3⟩; exact ⟨h1, Ne.symm h2, h3⟩
          · rintro ⟨h1, h2, h3⟩; exact ⟨⟨h1, Ne.symm h2⟩, h3⟩
        · intro x hx
          simp only [List.mem_cons, not_or] at hx
          rw [b3 x hx.2, a2 x (Ne.symm hx.1)]
        · intro x y v hx hy
          simp only [List.mem_cons, not_or] at hx hy
          rw [b4 x y v hx.2 hy.2, a4 x y v (Ne.symm hx.1) (Ne.symm hy.1)]

/-- The domains of the lead in which the system has a site of the lead (up to `origin`). -/
def Doms (sym : Symmetry S ℤ) (L H : HMap S V Fn) (origin : Option S) : Set ℤ :=
  {d | (∃ s, HasSite (noSymmetry S) H s ∧ HasSite sym L s ∧ sym.which s = d) ∧ ∀ o, origin = some o → d ≤ sym.which o}

theorem mem_allDoms (hfam : ∀ g s, fam (sym.act g s) = fam s) (d : ℤ) :
    d ∈ allDoms fam sym L H origin ↔ d ∈ Doms sym L H origin := by
  have hsite : ∀ s, HasSite (noSymmetry S) H s ↔ s ∈ keys H := fun s => hasSite_iff
  have key : d ∈ ((keys H).filterMap fun s =>
      if fam s ∈ (keys L).map fam then
        if sym.act (-sym.which s) s ∈ keys L then some (sym.which s) else none
      else none) ↔ ∃ s, HasSite (noSymmetry S) H s ∧ HasSite sym L s ∧ sym.which s = d := by
    rw [List.mem_filterMap]
    constructor
    · rintro ⟨s, hs, he⟩
      split at he
      · split at he
        · rename_i h2
          exact ⟨s, (hsite s).mpr hs, hasSite_iff.mpr h2, Option.some.inj he⟩
        · cases he
      · cases he
    · rintro ⟨s, h1, h2, h3⟩
      rw [hasSite_iff] at h2
      refine ⟨s, (hsite s).mp h1, ?_⟩
      have h4 : fam s ∈ (keys L).map fam := List.mem_map.mpr ⟨_, h2, hfam _ _⟩
      rw [if_pos h4]
      have h5 : sym.act (-sym.which s) s ∈ keys L := h2
      rw [if_pos h5, h3]
  unfold allDoms Doms
  cases origin with
  | none => simp only [key, Set.mem_setOf_eq]; simp
  | some o =>
    simp only [List.mem_filter, key, Set.mem_setOf_eq, decide_eq_true_eq]
    constructor
    · rintro ⟨h1, h2⟩; exact ⟨h1, fun o' e => by obtain rfl := Option.some.inj e; exact h2⟩
    · rintro ⟨h1, h2⟩; exact ⟨h1, h2 o rfl⟩

/-- The interface that the lead needs: the sites of the lead in domain `maxDom` with a hopping to the next
domain. -/
theorem mem_leadInterface (hL : Reachable sym L) (maxDom : ℤ) (s : S) :
    s ∈ leadInterface sym L maxDom ↔
      sym.which s = maxDom ∧ ∃ y, sym.which y = maxDom + 1 ∧ HasHop sym L s y := by
  have hl := hL.lawful
  have hc20 := C20_wellformed hL
  unfold leadInterface
  rw [List.mem_dedup, List.mem_flatMap]
  constructor
  · rintro ⟨t, ht, hs⟩
    have hfd : sym.which t = 0 := by
      have := hc20.1 t ht; simpa [Symmetry.inFd] using this
    have htL : HasSite sym L t := by rw [hasSite_iff, hl.toFd_of_which hfd]; exact ht
    obtain ⟨l, hn, _, hmem, _⟩ := (C28_neighbors hL t).1 htL
    simp only [hn, List.mem_filter, List.mem_map, decide_eq_true_eq] at hs
    obtain ⟨⟨n, hnl, rfl⟩, hw⟩ := hs
    refine ⟨hw, sym.act (maxDom + 1) t, by rw [hl.which_act, hfd, add_zero], ?_⟩
    have := (hc20.2.2.2.2.2.1 (maxDom + 1) t n).mp ((hmem n).mp hnl)
    exact (hc20.2.2.1 _ _).mp this
  · rintro ⟨hw, y, hy, hsy⟩
    have hys : HasSite sym L y := (hc20.2.2.2.1 s y hsy).2.2
    have htoy : sym.toFd y = sym.act (-(maxDom + 1)) y := by rw [← hy]; rfl
    refine ⟨sym.toFd y, hasSite_iff.mp hys, ?_⟩
    have hyL : HasSite sym L (sym.toFd y) := by
      rw [hasSite_iff, htoy, hl.toFd_act]; exact hasSite_iff.mp hys
    obtain ⟨l, hn, _, hmem, _⟩ := (C28_neighbors hL (sym.toFd y)).1 hyL
    simp only [hn, List.mem_filter, List.mem_map, decide_eq_true_eq]
    refine ⟨⟨sym.act (-(maxDom + 1)) s, ?_, hl.act_act_neg _ _⟩, hw⟩
    rw [hmem, htoy]
    exact (hc20.2.2.2.2.2.1 _ y s).mp ((hc20.2.2.1 _ _).mp hsy)

/-- The outcome that a user expects of `attach_lead`: nothing is removed from the system, the returned sites
are exactly the new ones, they are lead sites in the domains between `minDom` and `maxDom` with values and
hoppings of the lead, everything before `maxDom + 1` that is connected to them is present, and every interface
site is present. -/
def AttachGood (hc : V → V) (sym : Symmetry S ℤ) (L H H' : HMap S V Fn) (added interface : List S)
    (minDom maxDom : ℤ) : Prop :=
        added.Nodup ∧
        (∀ x, HasSite (noSymmetry S) H' x ↔ HasSite (noSymmetry S) H x ∨ x ∈ added) ∧
        (∀ x, HasSite (noSymmetry S) H x →
          x ∉ added ∧ getSite (noSymmetry S) H' x = getSite (noSymmetry S) H x) ∧
        (∀ x y v, HasSite (noSymmetry S) H x → HasSite (noSymmetry S) H y →
          (getHop (noSymmetry S) hc H' x y = .ok v ↔ getHop (noSymmetry S) hc H x y = .ok v)) ∧
        (∀ x ∈ added, HasSite sym L x ∧ getSite (noSymmetry S) H' x = getSite sym L x ∧
          minDom ≤ sym.which x ∧ sym.which x ≤ maxDom) ∧
        (∀ x y v, x ∈ added ∨ y ∈ added → HasSite (noSymmetry S) H' x → HasSite (noSymmetry S) H' y →
          (getHop (noSymmetry S) hc H' x y = .ok v ↔ getHop sym hc L x y = .ok v)) ∧
        (∀ x y, x ∈ added → HasHop sym L x y → sym.which y ≤ maxDom → HasSite (noSymmetry S) H' y) ∧
        (∀ s ∈ interface, HasSite (noSymmetry S) H' s)

/-- C35 (partial, `attach_lead` without the automatic increase of the period, see C36): after a successful
call, with `mx`/`minDom` the last/first domain of the lead (not after `origin`) in which the system has a
site and `maxDom = mx + add_cells`:
the interface consists exactly of the lead sites of domain `maxDom` with hoppings to the next domain; and
*provided that the system had no site of the lead in domain `maxDom + 1`* the outcome is `AttachGood`.  Missing: without the proviso (which is automatic if no
`origin` is given, `C35_attach`) the conclusion is false, see `C35_counterexample`. -/
theorem C35_attach_partial {added interface : List S} (h : Reachable (noSymmetry S) H) (hL : Reachable sym L)
    (hfam : ∀ g s, fam (sym.act g s) = fam s)
    (hord : ∀ n l, (ord n l).Perm l) (hordS : ∀ l, (ordS l).Perm l)
    (hok : attachCore fam sym L nv ord ordS fuel origin addCells H = some (H', .ok (added, interface))) :
    ∃ mx minDom maxDom : ℤ, IsGreatest (Doms sym L H origin) mx ∧ IsLeast (Doms sym L H origin) minDom ∧
      maxDom = mx + addCells ∧
      (∀ s, s ∈ interface ↔ sym.which s = maxDom ∧ ∃ y, sym.which y = maxDom + 1 ∧ HasHop sym L s y) ∧
      interface.Nodup ∧ Reachable (noSymmetry S) H' ∧
      ((∀ s, HasSite (noSymmetry S) H s → HasSite sym L s → sym.which s ≠ maxDom + 1) →
        AttachGood hc sym L H H' added interface minDom maxDom) := by
  have hl := hL.lawful
  have hl0 := h.lawful
  unfold attachCore at hok
  split at hok
  · cases hok
  split at hok
  · cases hok
  split at hok
  swap
  · cases hok
  rename_i mx minDom hmx hmn
  rw [List.max?_eq_some_iff] at hmx
  rw [List.min?_eq_some_iff] at hmn
  simp only [mem_allDoms hfam] at hmx hmn
  refine ⟨mx, minDom, mx + addCells, ⟨hmx.1, fun d hd => hmx.2 d hd⟩, ⟨hmn.1, fun d hd => hmn.2 d hd⟩, rfl, ?_⟩
  generalize hmaxDom : mx + (addCells : ℤ) = maxDom at *
  have hle : minDom ≤ maxDom := by
    have := hmn.2 _ hmx.1
    omega
  dsimp only at hok
  generalize hstart : ordS ((keys L).map (sym.act (maxDom + 1))) = start at *
  have hms : ∀ x, x ∈ start ↔ HasSite sym L x ∧ sym.which x = maxDom + 1 := by
    intro x
    rw [← hstart, (hordS _).mem_iff, List.mem_map]
    constructor
    · rintro ⟨t, ht, rfl⟩
      have hfd : sym.which t = 0 := by
        have := (C20_wellformed hL).1 t ht; simpa [Symmetry.inFd] using this
      refine ⟨?_, by rw [hl.which_act, hfd, add_zero]⟩
      rw [hasSite_iff, hl.toFd_act, hl.toFd_of_which hfd]; exact ht
    · rintro ⟨h1, h2⟩
      refine ⟨sym.toFd x, hasSite_iff.mp h1, ?_⟩
      rw [← h2]; exact hl.act_act_neg _ _
  cases hf : fill (noSymmetry S) sym L (leadShape sym minDom maxDom) nv none true ord fuel H start with
  | none => simp [hf] at hok
  | some r =>
    obtain ⟨H1, r⟩ := r
    cases r with
    | error e => simp [hf] at hok
    | ok all =>
      simp only [hf] at hok
      cases hd : delSites (noSymmetry S) start H1 with
      | mk H2 e =>
        cases e with
        | some e => simp [hd] at hok
        | none =>
          simp only [hd] at hok
          obtain ⟨rfl, h2⟩ := Prod.mk.inj (Option.some.inj hok)
          obtain ⟨rfl, rfl⟩ := Prod.mk.inj (Except.ok.inj h2)
          obtain ⟨f1, f2, _, f3, f4, f5, f6, f7, f8⟩ := C34_fill (hc := hc) h hL
            (subSym_noSymmetry sym hl) hord hf
          obtain ⟨d1, d2, d3, d4⟩ := delSites_effect (hc := hc) f1 hd
          have hid : ∀ x : S, (noSymmetry S).toFd x = x := fun _ => rfl
          simp only [hid] at f4 f5 f6
          refine ⟨mem_leadInterface hL maxDom, List.nodup_dedup _, d1, ?_⟩
          intro hfree
          have hnew : ∀ x, HasSite (noSymmetry S) H x → x ∉ start := by
            intro x hx hxs
            rw [hms] at hxs
            exact hfree x hx hxs.1 hxs.2
          have hshape : ∀ x, FillReach (noSymmetry S) sym L (leadShape sym minDom maxDom) H start x →
              minDom ≤ sym.which x ∧ sym.which x ≤ maxDom + 1 := by
            intro x hx
            have key : leadShape sym minDom maxDom x = some true := by
              cases hx with
              | start s _ _ _ h4 => exact h4
              | step a y _ _ _ h4 => exact h4
            unfold leadShape at key
            split at key
            · cases key
            · have := Option.some.inj key
              exact ⟨by omega, of_decide_eq_true this⟩
          have hadd : ∀ x, x ∈ all.filter (fun s => decide (s ∉ start)) ↔ x ∈ all ∧ x ∉ start := by
            intro x; simp
          -- closure
          have hclos : ∀ x y, x ∈ all → HasHop sym L x y → minDom ≤ sym.which y → sym.which y ≤ maxDom →
              HasSite (noSymmetry S) H2 y := by
            intro x y hx hxy hmin hmaxy
            rw [d2, f4]
            refine ⟨?_, fun hs => by have := ((hms y).mp hs).2; omega⟩
            by_cases hy : HasSite (noSymmetry S) H y
            · exact .inl hy
            · right
              rw [f3] at hx ⊢
              refine FillReach.step x y hx hxy (by simpa [HasSite] using hy) ?_
              show leadShape sym minDom maxDom y = some true
              unfold leadShape
              rw [if_neg (by omega)]
              simp; omega
          have hmin : ∀ x y, x ∈ all → HasHop sym L x y → sym.which y ≤ maxDom → HasSite (noSymmetry S) H2 y := by
            intro x y hx hxy hmaxy
            by_cases hy : HasSite (noSymmetry S) H y
            · rw [d2, f4]
              exact ⟨.inl hy, hnew y hy⟩
            · refine hclos x y hx hxy ?_ hmaxy
              rcases C34_shape h hL (subSym_noSymmetry sym hl) hord hf x y hx hxy with h1 | h1
              · exact absurd h1 hy
              · by_contra hlt
                apply h1
                show leadShape sym minDom maxDom y = none
                unfold leadShape
                rw [if_pos (by omega)]
          refine ⟨f2.filter _, ?_, ?_, ?_, ?_, ?_, ?_, ?_⟩
          · intro x
            rw [d2, f4, hadd]
            constructor
            · rintro ⟨h1 | h1, h2⟩
              · exact .inl h1
              · exact .inr ⟨h1, h2⟩
            · rintro (h1 | ⟨h1, h2⟩)
              · exact ⟨.inl h1, hnew x h1⟩
              · exact ⟨.inr h1, h2⟩
          · intro x hx
            refine ⟨fun hxa => (f5 x hx).1 ((hadd x).mp hxa).1, ?_⟩
            rw [d3 x (hnew x hx), (f5 x hx).2]
          · intro x y v hx hy
            rw [d4 x y v (hnew x hx) (hnew y hy), f7 x y v hx hy]
          · intro x hx
            obtain ⟨hx1, hx2⟩ := (hadd x).mp hx
            obtain ⟨g1, g2⟩ := f6 x hx1
            obtain ⟨g3, g4⟩ := hshape x ((f3 x).mp hx1)
            refine ⟨g1, by rw [d3 x hx2, g2], g3, ?_⟩
            by_contra hgt
            exact hx2 ((hms x).mpr ⟨g1, by omega⟩)
          · intro x y v hor hx hy
            rw [d2] at hx hy
            rw [d4 x y v hx.2 hy.2]
            refine f8 x y v hx.1 hy.1 ?_
            rintro ⟨hx0, hy0⟩
            rcases hor with hh | hh
            · exact (f5 x hx0).1 ((hadd x).mp hh).1
            · exact (f5 y hy0).1 ((hadd y).mp hh).1
          · intro x y hx
            exact hmin x y ((hadd x).mp hx).1
          · intro s hs
            rw [mem_leadInterface hL] at hs
            obtain ⟨hw, y, hy, hsy⟩ := hs
            have hyL : HasSite sym L y := ((C20_wellformed hL).2.2.2.1 s y hsy).2.2
            refine hmin y s ?_ (((C20_wellformed hL).2.2.1 s y).mp hsy) (by omega)
            rw [f3]
            refine FillReach.start y ((hms y).mpr ⟨hyL, hy⟩) hyL ?_ ?_
            · by_contra hc'
              have : HasSite (noSymmetry S) H y := by simpa [HasSite] using hc'
              exact hfree y this hyL hy
            · show leadShape sym minDom maxDom y = some true
              unfold leadShape
              rw [if_neg (by omega)]
              simp; omega

/-- C35: without `origin` the proviso of `C35_attach_partial` holds. -/
theorem C35_attach_free {mx maxDom : ℤ} (hmx : IsGreatest (Doms sym L H none) mx)
    (hmax : maxDom = mx + (addCells : ℤ)) (s : S) (hs : HasSite (noSymmetry S) H s) (hsL : HasSite sym L s) :
    sym.which s ≠ maxDom + 1 := by
  have : sym.which s ≤ mx := hmx.2 ⟨⟨s, hs, hsL, rfl⟩, by simp⟩
  omega

/-- C35, without `origin`: a successful `attach_lead` has the expected outcome, with respect to the lead with
the possibly increased period, see C36. -/
theorem C35_attach {added interface : List S} (h : Reachable (noSymmetry S) H) (hL : Reachable sym L)
    (hfam : ∀ g s, fam (sym.act g s) = fam s)
    (hord : ∀ n l, (ord n l).Perm l) (hordS : ∀ l, (ordS l).Perm l)
    (hok : attachLead fam sym L nv ord ordS fuel none addCells H = some (H', .ok (added, interface))) :
    ∃ sym' L', extendLead sym L nv ord fuel = some (.ok (sym', L')) ∧
    ∃ mx minDom maxDom : ℤ, IsGreatest (Doms sym' L' H none) mx ∧ IsLeast (Doms sym' L' H none) minDom ∧
      maxDom = mx + addCells ∧
      (∀ s, s ∈ interface ↔ sym'.which s = maxDom ∧ ∃ y, sym'.which y = maxDom + 1 ∧ HasHop sym' L' s y) ∧
      interface.Nodup ∧ Reachable (noSymmetry S) H' ∧
      AttachGood hc sym' L' H H' added interface minDom maxDom := by
  unfold attachLead at hok
  cases he : extendLead sym L nv ord fuel with
  | none => simp [he] at hok
  | some r =>
    cases r with
    | error e => simp [he] at hok
    | ok r =>
      obtain ⟨sym', L'⟩ := r
      simp only [he] at hok
      have hfam' : ∀ g s, fam (sym'.act g s) = fam s := by
        unfold extendLead at he
        split at he
        · split at he
          · cases he
          · cases he
          · obtain ⟨rfl, _⟩ := Prod.mk.inj (Except.ok.inj (Option.some.inj he))
            intro g s
            exact hfam _ _
        · obtain ⟨rfl, _⟩ := Prod.mk.inj (Except.ok.inj (Option.some.inj he))
          exact hfam
      obtain ⟨mx, mn, md, h1, h2, h3, h4, h5, h6, h7⟩ := C35_attach_partial (hc := hc) h
        (C36_extend_partial (hc := hc) hL hord he).1 hfam' hord hordS hok
      exact ⟨sym', L', rfl, mx, mn, md, h1, h2, h3, h4, h5, h6, h7 fun s hs hsL =>
        C35_attach_free h1 h3 s hs hsL⟩

/-- A finite chain of five sites. -/
def chainSystem : HMap (ℤ × ℕ) ℤ ℕ :=
  let set := fun H i => setSite (noSymmetry (ℤ × ℕ)) H (i, 0) (.const 7)
  set (set (set (set (set [] 0) 1) 2) 3) 4

/-- The chain as a lead. -/
def chainLead : HMap (ℤ × ℕ) ℤ ℕ :=
  (setHop chainSym (setSite chainSym [] (0, 0) (.const 1)) (0, 0) (1, 0) (.const 3)).1

/-- C35 fails with `origin`: sites of the system in the domain after the last one considered are deleted.
Here the lead is attached to a chain of sites `0..4` with the origin at site `1`: site `2` disappears. -/
theorem C35_counterexample : Reachable (noSymmetry (ℤ × ℕ)) chainSystem ∧ Reachable chainSym chainLead ∧
    HasSite (noSymmetry (ℤ × ℕ)) chainSystem (2, 0) ∧
    ∃ H' r, attachLead (fun _ => ()) chainSym chainLead (.const 0) (fun _ l => l) id 10 (some (1, 0)) 0 chainSystem
      = some (H', .ok r) ∧ ¬ HasSite (noSymmetry (ℤ × ℕ)) H' (2, 0) := by
  refine ⟨?_, ?_, by decide, _, (_, _), rfl, by decide⟩
  · unfold chainSystem
    exact .setSite _ _ (.setSite _ _ (.setSite _ _ (.setSite _ _ (.setSite _ _ (.empty (noSymmetry_lawful _))))))
  · exact .setHop _ _ _ (.setSite _ _ (.empty chainSym_lawful))

/-- The hypotheses of `C35_attach_partial` can be met: a lead attached at the right end with two more cells. -/
example : ∃ H', attachLead (fun _ => ()) chainSym chainLead (.const 0) (fun _ l => l) id 10 none 2 chainSystem
      = some (H', .ok ([(6, 0), (5, 0)], [(6, 0)])) ∧ sites H' = [(0, 0), (1, 0), (2, 0), (3, 0), (4, 0), (6, 0), (5, 0)] := by
  refine ⟨_, rfl, by decide⟩
example : ∃ sym' L', extendLead chainSym (setHop chainSym chainLead (0, 0) (2, 0) (.const 5)).1 (.const 0)
    (fun _ l => l) 10 = some (.ok (sym', L')) ∧ sites L' = [(0, 0), (1, 0)] := by
  refine ⟨_, _, rfl, by decide⟩

end Builder
end Kwant
