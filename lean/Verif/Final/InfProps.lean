import Mathlib.Data.Sigma.Order
import Mathlib.Order.PiLex
import Mathlib.Algebra.Order.Group.PiLex
import Verif.Symmetry.Props
import Verif.Final.InfRep
import Verif.Final.FiniteProps

/-! # C46, C47, C92: finalized infinite systems -/
set_option linter.unusedSectionVars false

namespace Kwant.Final
open Kwant Kwant.Assoc Kwant.Builder Kwant.Graph

variable {S V Fn N A X : Type} [LinearOrder S] [DecidableEq N]
variable {hc : V → V} {C : Calls S V Fn N A X} {H : HMap S V Fn} {sym : Symmetry S ℤ}

/-- `a` is a site of the fundamental cell with a hopping to the next cell. -/
def OnInterface (sym : Symmetry S ℤ) (H : HMap S V Fn) (a : S) : Prop :=
  sym.which a = 0 ∧ ∃ b, HasHop sym H a b ∧ sym.which b = 1

/-- No hopping reaches further than to the neighbouring cells. -/
def NearestCells (sym : Symmetry S ℤ) (H : HMap S V Fn) : Prop :=
  ∀ a b, HasHop sym H a b → |sym.which b - sym.which a| ≤ 1

/-- An `interface_order` is acceptable if it is sorted and some translation maps it to the sites of the cell
that have a hopping to the next one. -/
def OrderOK (sym : Symmetry S ℤ) (H : HMap S V Fn) : Option (List S) → Prop
  | none => True
  | some ord => ord.Pairwise (· < ·) ∧ ∃ g : ℤ, ∀ a, (∃ s ∈ ord, sym.act g s = a) ↔ OnInterface sym H a

section
variable (hl : sym.Lawful) (hw : Builder.WF sym H)
include hl hw

theorem hasHop_fd {a b : S} (ha : sym.which a = 0) : HasHop sym H a b ↔ (E H a b).isSome = true := by
  rw [hasHop_iff hw hl, toFd2_of_fd hl ha]
  constructor
  · exact fun h => h.2
  · intro h
    obtain ⟨st, hst⟩ := Option.isSome_iff_exists.mp h
    exact ⟨(hw.pair a b st hst).1, h⟩

theorem E_fd {a b : S} (h : (E H a b).isSome = true) : sym.which a = 0 := by
  obtain ⟨st, hst⟩ := Option.isSome_iff_exists.mp h
  exact hw.fd a (E_some_mem hst)

theorem mem_with_iff (a : S) : a ∈ sitesWith sym H ↔ OnInterface sym H a := by
  rw [mem_sitesWith hw.toNF]
  constructor
  · rintro ⟨b, h1, h2⟩
    have ha := E_fd hl hw h1
    exact ⟨ha, b, (hasHop_fd hl hw ha).mpr h1, h2⟩
  · rintro ⟨ha, b, h1, h2⟩
    exact ⟨b, (hasHop_fd hl hw ha).mp h1, h2⟩

theorem nearest_iff : NearestOnly sym H ↔ NearestCells sym H := by
  constructor
  · intro h a b hab
    have h1 := ((hasHop_iff hw hl).mp hab).2
    have h2 := h _ _ h1
    simp only [Symmetry.toFd2, Symmetry.actHop, hl.which_act] at h2
    rw [abs_le]
    omega
  · intro h a b hab
    have ha := E_fd hl hw hab
    have := h a b ((hasHop_fd hl hw ha).mpr hab)
    rw [ha, abs_le] at this
    omega

theorem good_iff (ho : OrdInv sym) (order : Option (List S)) :
    GoodOrder sym (sitesWith sym H) order ↔ OrderOK sym H order := by
  have hnd : (sitesWith sym H).Nodup :=
    (List.nodup_append.mp ((with_perm sym H).nodup_iff.mpr hw.keys)).1
  have hmono : ∀ (g : ℤ) (a b : S), sym.act g a ≤ sym.act g b ↔ a ≤ b := by
    intro g a b
    refine ⟨fun h => ?_, ho g a b⟩
    have := ho (-g) _ _ h
    rwa [hl.act_add, hl.act_add, neg_add_cancel, hl.act_zero, hl.act_zero] at this
  cases order with
  | none => exact Iff.rfl
  | some ord =>
    simp only [GoodOrder, OrderOK]
    constructor
    · rintro ⟨hp, hs⟩
      have hnd' : ord.Nodup := (hp.nodup_iff.mp hnd).of_map
      rw [List.pairwise_map] at hs
      refine ⟨?_, 1 + shiftOf sym ord, ?_⟩
      · exact (hs.and hnd').imp fun h => lt_of_le_of_ne ((hmono _ _ _).mp h.1) h.2
      · intro a
        rw [← mem_with_iff hl hw, hp.mem_iff, List.mem_map]
    · rintro ⟨hs, g, hg⟩
      have hnd' : ord.Nodup := hs.imp fun h => ne_of_lt h
      have hgs : ∀ s ∈ ord, sym.which s = -g := by
        intro s hs
        have := ((hg _).mp ⟨s, hs, rfl⟩).1
        rw [hl.which_act] at this
        omega
      have hmap : ord.map (sym.act (1 + shiftOf sym ord)) = ord.map (sym.act g) := by
        cases ord with
        | nil => rfl
        | cons s l =>
          have : 1 + shiftOf sym (s :: l) = g := by
            have := hgs s (by simp)
            simp only [shiftOf]; omega
          rw [this]
      refine ⟨?_, ?_⟩
      · rw [hmap]
        refine (List.perm_ext_iff_of_nodup hnd (List.Nodup.map (fun a b h => act_inj hl h) hnd')).mpr ?_
        intro a
        rw [mem_with_iff hl hw, ← hg, List.mem_map]
      · rw [List.pairwise_map]
        exact hs.imp fun h => (hmono _ _ _).mpr h.le
end

/-- C92, C46: when finalization of an infinite system succeeds; otherwise it raises `ValueError`. -/
theorem C92_succeeds_iff (h : Reachable sym H) (ho : OrdInv sym) (junk : ℕ → ℤ) (order : Option (List S)) :
    ((∃ r, finalizeInfinite C sym junk H order = .ok r) ↔ OrderOK sym H order ∧ NearestCells sym H) ∧
    (∀ e, finalizeInfinite C sym junk H order = .error e → e = .value) := by
  obtain ⟨hl, hw⟩ := h.wf
  rw [← good_iff hl hw ho, ← nearest_iff hl hw]
  by_cases hx : GoodOrder sym (sitesWith sym H) order ∧ NearestOnly sym H
  · obtain ⟨sys, h1, _⟩ := finalizeInfinite_rep (C := C) hl hw ho junk order hx.1 hx.2
    exact ⟨⟨fun _ => hx, fun _ => ⟨_, h1⟩⟩, fun e he => by rw [h1] at he; cases he⟩
  · have h1 := finalizeInfinite_fail (C := C) hl hw ho junk order hx
    refine ⟨⟨?_, fun h => absurd h hx⟩, fun e he => ?_⟩
    · rintro ⟨r, hr⟩
      rw [h1] at hr; cases hr
    rw [h1] at he; cases he; rfl

theorem rep_of_ok (h : Reachable sym H) (ho : OrdInv sym) {junk : ℕ → ℤ} {order : Option (List S)} {sys : Sys S V Fn N}
    {cell : ℕ} (hr : finalizeInfinite C sym junk H order = .ok (sys, cell)) :
    sym.Lawful ∧ Builder.WF sym H ∧ cell = (cellSites sym H).length ∧ InfRep C sym H sys (cellSites sym H).length := by
  obtain ⟨hl, hw⟩ := h.wf
  obtain ⟨h1, h2⟩ := (C92_succeeds_iff h ho junk order).1.mp ⟨_, hr⟩
  obtain ⟨sys', h3, R⟩ := finalizeInfinite_rep (C := C) hl hw ho junk order ((good_iff hl hw ho order).mpr h1)
    ((nearest_iff hl hw).mpr h2)
  rw [hr] at h3; cases h3
  exact ⟨hl, hw, rfl, R⟩

/-- C46: layout of a finalized infinite system.  The first `cell` sites are exactly the sites of the builder;
the first `n` of them are exactly those with a hopping to the next cell, both parts are sorted, and after the
cell come the images in the previous cell of the first `n` sites, in the same order. `id_by_site` is inverse to `sites`. -/
theorem C46_layout (h : Reachable sym H) (ho : OrdInv sym) {junk : ℕ → ℤ} {order : Option (List S)} {sys : Sys S V Fn N}
    {cell : ℕ} (hr : finalizeInfinite C sym junk H order = .ok (sys, cell)) :
    ∃ n, n ≤ cell ∧ sys.sites.length = cell + n ∧ sys.graph.numNodes = cell + n ∧ sys.sites.Nodup ∧
      (∀ a, (∃ i, i < cell ∧ sys.sites[i]? = some a) ↔ sym.which a = 0 ∧ HasSite sym H a) ∧
      (∀ i a, i < cell → sys.sites[i]? = some a → (i < n ↔ ∃ b, HasHop sym H a b ∧ sym.which b = 1)) ∧
      (∀ i a, i < n → sys.sites[i]? = some a → sys.sites[cell + i]? = some (sym.act (-1) a)) ∧
      (∀ i j a b, i < j → j < cell → (j < n ∨ n ≤ i) → sys.sites[i]? = some a → sys.sites[j]? = some b → a < b) ∧
      (∀ a i, Assoc.get sys.idBySite a = some i ↔ sys.sites[i]? = some a) := by
  obtain ⟨hl, hw, rfl, R⟩ := rep_of_ok h ho hr
  have hlen : (cellSites sym H).length = (sitesWith sym H).length + (sitesWithout sym H).length := (cell_length sym H).symm
  have hsl : (sitesOf sym H).length = (cellSites sym H).length + (sitesWith sym H).length := by
    simp [sitesOf, pySorted_length]
  have hnd := sites_nodup hl hw
  have hnodup := (with_perm sym H).nodup_iff.mpr hw.keys
  have hw1 : (sitesWith sym H).Nodup := (List.nodup_append.mp hnodup).1
  have hw2 : (sitesWithout sym H).Nodup := (List.nodup_append.mp hnodup).2.1
  have get1 : ∀ i, i < (sitesWith sym H).length → (sitesOf sym H)[i]? = (pySorted (sitesWith sym H))[i]? := by
    intro i hi
    have hi' : i < (pySorted (sitesWith sym H)).length := by rw [pySorted_length]; exact hi
    unfold sitesOf cellSites
    rw [List.append_assoc, List.getElem?_append_left hi']
  have get2 : ∀ i, (sitesWith sym H).length ≤ i → i < (cellSites sym H).length →
      (sitesOf sym H)[i]? = (pySorted (sitesWithout sym H))[i - (sitesWith sym H).length]? := by
    intro i hi hi2
    unfold sitesOf
    rw [List.getElem?_append_left hi2]
    unfold cellSites
    rw [List.getElem?_append_right (by rw [pySorted_length]; exact hi), pySorted_length]
  refine ⟨(sitesWith sym H).length, by omega, by rw [R.sites, hsl], by rw [R.nn, hsl], by rw [R.sites]; exact hnd,
    ?_, ?_, ?_, ?_, ?_⟩
  · intro a
    rw [R.sites]
    constructor
    · rintro ⟨i, hi, ha⟩
      have hk := sites_lt hl hw ha hi
      have h0 := hw.fd a hk
      exact ⟨h0, hasSite_iff.mpr (by rw [hl.toFd_of_which h0]; exact hk)⟩
    · rintro ⟨h0, hs⟩
      have := hasSite_iff.mp hs
      rw [hl.toFd_of_which h0] at this
      exact exists_lt hl hw this
  · intro i a hi ha
    rw [R.sites] at ha
    have h0 := hw.fd a (sites_lt hl hw ha hi)
    have hm := mem_with_iff hl hw a
    have : (∃ b, HasHop sym H a b ∧ sym.which b = 1) ↔ a ∈ sitesWith sym H := by
      rw [hm]; exact ⟨fun h => ⟨h0, h⟩, fun h => h.2⟩
    rw [this]
    constructor
    · intro hin
      rw [get1 i hin] at ha
      exact mem_pySorted.mp (List.mem_of_getElem? ha)
    · intro hmem
      by_contra hin
      rw [get2 i (by omega) hi] at ha
      have := mem_pySorted.mp (List.mem_of_getElem? ha)
      exact ((mem_sitesWithout hw.toNF).mp this).2 hmem
  · intro i a hi ha
    rw [R.sites] at ha ⊢
    rw [get1 i hi] at ha
    unfold sitesOf
    rw [List.getElem?_append_right (by omega), Nat.add_sub_cancel_left, List.getElem?_map, ha]
    rfl
  · intro i j a b hij hj hor ha hb
    rw [R.sites] at ha hb
    rcases hor with hor | hor
    · rw [get1 i (by omega)] at ha
      rw [get1 j hor] at hb
      obtain ⟨h1, rfl⟩ := List.getElem?_eq_some_iff.mp ha
      obtain ⟨h2, rfl⟩ := List.getElem?_eq_some_iff.mp hb
      exact List.pairwise_iff_getElem.mp (pySorted_lt hw1) i j h1 h2 hij
    · rw [get2 i hor (by omega)] at ha
      rw [get2 j (by omega) hj] at hb
      obtain ⟨h1, rfl⟩ := List.getElem?_eq_some_iff.mp ha
      obtain ⟨h2, rfl⟩ := List.getElem?_eq_some_iff.mp hb
      exact List.pairwise_iff_getElem.mp (pySorted_lt hw2) _ _ h1 h2 (by omega)
  · intro a i
    rw [R.ids, R.sites]
    exact get_idTable hnd a i

/-- C47: the graph and the Hamiltonian of a finalized infinite system.  `hamiltonian(i, j)` is the builder's value
of the hopping whenever one of the ends is in the cell; there is nothing between sites of the previous cell; the
value of a site of the previous cell is that of the builder (which is the one of its image in the cell). -/
theorem C47_hamiltonian (h : Reachable sym H) (ho : OrdInv sym) {junk : ℕ → ℤ} {order : Option (List S)}
    {sys : Sys S V Fn N} {cell : ℕ} (hr : finalizeInfinite C sym junk H order = .ok (sys, cell))
    (i j : ℕ) (a b : S) (ha : sys.sites[i]? = some a) (hb : sys.sites[j]? = some b) :
    (∃ v, getSite sym H a = .ok v ∧ ∀ args params, args = [] ∨ params = [] →
      infHamiltonian hc C sym sys cell i i args params = siteValue sym C v a args params) ∧
    (∃ r, sys.graph.hasEdge i j = .ok r ∧ (r = true ↔ (i < cell ∨ j < cell) ∧ HasHop sym H a b)) ∧
    (∃ js : List ℤ, sys.graph.outNeighbors i = .ok js ∧ js.Nodup ∧
      ((j : ℤ) ∈ js ↔ (i < cell ∨ j < cell) ∧ HasHop sym H a b)) ∧
    (i ≠ j → i < cell ∨ j < cell → HasHop sym H a b →
      ∃ v, getHop sym hc H a b = .ok v ∧ ∀ args params, args = [] ∨ params = [] →
        infHamiltonian hc C sym sys cell i j args params = hopValue sym hc C v a b args params) ∧
    (i ≠ j → ¬ ((i < cell ∨ j < cell) ∧ HasHop sym H a b) → ∀ args params, args = [] ∨ params = [] →
      infHamiltonian hc C sym sys cell i j args params = .error (.graph .edgeDoesNotExist)) := by
  obtain ⟨hl, hw, rfl, R⟩ := rep_of_ok h ho hr
  have hnd := sites_nodup hl hw
  have hab : i ≠ j → a ≠ b := by
    rintro hij rfl
    rw [R.sites] at ha hb
    have hi := (List.getElem?_eq_some_iff.mp ha).1
    exact hij ((List.getElem?_inj hi hnd).mp (ha.trans hb.symm))
  have hhas : ∀ (i j : ℕ) (a b : S), InfEdge sym H (cellSites sym H).length i j a b ↔
      (i < (cellSites sym H).length ∨ j < (cellSites sym H).length) ∧ HasHop sym H a b := by
    intro i j a b
    unfold InfEdge
    rw [hasHop_iff hw hl]
    constructor
    · rintro ⟨h1, h2⟩
      refine ⟨h1, ?_, h2⟩
      rintro rfl
      obtain ⟨st, hst⟩ := Option.isSome_iff_exists.mp h2
      exact (hw.pair _ _ st hst).1 rfl
    · rintro ⟨h1, _, h2⟩; exact ⟨h1, h2⟩
  refine ⟨?_, ?_, ?_, ?_, ?_⟩
  · by_cases hi : i < (cellSites sym H).length
    · obtain ⟨v, hv, hon⟩ := R.onsite i a hi ha
      have h0 : sym.which a = 0 := hw.fd a (by rw [R.sites] at ha; exact sites_lt hl hw ha hi)
      refine ⟨v, by rw [getSite_eq, hl.toFd_of_which h0, hv], fun args params hx => ?_⟩
      unfold infHamiltonian
      rw [if_neg (by omega)]
      exact ham_site ha hon args params hx
    · rw [R.sites] at ha
      obtain ⟨h1, h2, h3, h4⟩ := sites_ge hl hw ha (by omega)
      rw [← R.sites] at ha h3
      obtain ⟨v, hv, hon⟩ := R.onsite _ _ h4 h3
      have hfd : sym.toFd a = sym.act 1 a := by unfold Symmetry.toFd; rw [h1]; rfl
      refine ⟨v, by rw [getSite_eq, hfd, hv], fun args params hx => ?_⟩
      unfold infHamiltonian
      rw [if_pos ⟨rfl, by omega⟩, ham_site h3 hon args params hx]
      cases v with
      | const w => rfl
      | func f => simp only [siteValue, hl.toFd_act]
      | herm f => simp only [siteValue, hl.toFd_act]
  · obtain ⟨r, h1, h2⟩ := R.has i j a b ha hb
    exact ⟨r, h1, h2.trans (hhas i j a b)⟩
  · obtain ⟨js, e1, e2, e3⟩ := R.out i a ha
    refine ⟨js, e1, e2, (e3 j).trans ?_⟩
    rw [← hhas]
    constructor
    · rintro ⟨k, b', hk, hb', he⟩
      have : j = k := by exact_mod_cast hk
      subst this
      rw [hb] at hb'; cases hb'; exact he
    · intro he; exact ⟨j, b, rfl, hb, he⟩
  · intro hij hor hh
    have he := (hhas i j a b).mpr ⟨hor, hh⟩
    have he' : InfEdge sym H (cellSites sym H).length j i b a := ⟨hor.symm, by rw [← E_toFd2_swap hl hw]; exact he.2⟩
    obtain ⟨st, hst, h1⟩ := R.hop i j a b ha hb he
    obtain ⟨st', hst', h2⟩ := R.hop j i b a hb ha he'
    have hrev : E H (rev sym (sym.toFd2 a b).1 (sym.toFd2 a b).2).1 (rev sym (sym.toFd2 a b).1 (sym.toFd2 a b).2).2 = some st' := by
      rw [rev_toFd2 hl]; exact hst'
    have hcomb := edgeVal_combine (hc := hc) hst hrev
    have hsome : (edgeVal hc sym H (sym.toFd2 a b).1 (sym.toFd2 a b).2).isSome = true := by rw [edgeVal_isSome hw, hst]; rfl
    obtain ⟨v, hv⟩ := Option.isSome_iff_exists.mp hsome
    refine ⟨v, by rw [getHop_eq hw hl (hab hij), hv], fun args params hx => ?_⟩
    unfold infHamiltonian
    rw [if_neg (by omega)]
    exact ham_hop hij ha hb h1 h2 (by rw [← hcomb, hv]) args params hx
  · intro hij hh args params hx
    unfold infHamiltonian
    rw [if_neg (by omega)]
    exact ham_missing hij (R.noHop i j a b ha hb (fun he => hh ((hhas i j a b).mp he))) args params hx

/-- C47: the Hamiltonian of an infinite system is Hermitian off the diagonal. -/
theorem C47_hermitian (h : Reachable sym H) (ho : OrdInv sym) {junk : ℕ → ℤ} {order : Option (List S)}
    {sys : Sys S V Fn N} {cell : ℕ} (hr : finalizeInfinite C sym junk H order = .ok (sys, cell))
    (hinv : ∀ v, hc (hc v) = v) (i j : ℕ) (hij : i ≠ j) (hi : i < sys.sites.length) (hj : j < sys.sites.length)
    (args : List A) (params : List (N × A)) (hx : args = [] ∨ params = []) :
    infHamiltonian hc C sym sys cell j i args params =
      (infHamiltonian hc C sym sys cell i j args params).map hc := by
  obtain ⟨_, _, _, a3, a4⟩ := C47_hamiltonian (hc := hc) h ho hr i j _ _ (List.getElem?_eq_getElem hi) (List.getElem?_eq_getElem hj)
  obtain ⟨_, _, _, b3, b4⟩ := C47_hamiltonian (hc := hc) h ho hr j i _ _ (List.getElem?_eq_getElem hj) (List.getElem?_eq_getElem hi)
  have hsw : HasHop sym H sys.sites[i] sys.sites[j] ↔ HasHop sym H sys.sites[j] sys.sites[i] := by
    obtain ⟨hl, hw⟩ := h.wf
    rw [hasHop_iff hw hl, hasHop_iff hw hl, E_toFd2_swap hl hw]
    exact and_congr_left' ⟨Ne.symm, Ne.symm⟩
  by_cases hh : (i < cell ∨ j < cell) ∧ HasHop sym H sys.sites[i] sys.sites[j]
  · obtain ⟨v, hv, hv'⟩ := a3 hij hh.1 hh.2
    have hherm := C23_hermitian h hinv sys.sites[i] sys.sites[j] v hv
    obtain ⟨w, hw, hw'⟩ := b3 (Ne.symm hij) hh.1.symm (hsw.mp hh.2)
    rw [hherm] at hw
    cases hw
    rw [hv' args params hx, hw' args params hx, hopValue_conj hinv]
  · rw [a4 hij hh args params hx, b4 (Ne.symm hij) (fun hx => hh ⟨hx.1.symm, hsw.mpr hx.2⟩) args params hx]
    rfl

/-! ### Translational symmetries keep the order of sites -/

section
variable {F : Type} [LinearOrder F] (t : TransSym F)

/-- Sites are ordered like the tuples `(family, tag)` (builder.py l.37-101: `Site` is a tuple). -/
noncomputable instance LSite.linearOrder : LinearOrder (LSite t) :=
  LinearOrder.lift' (fun s : LSite t => (toLex ⟨s.family, toLex s.tag⟩ : Σₗ f : F, Πₗ _ : Fin (t.fam f).dim, ℤ))
    (fun a b h => by
      obtain ⟨f, x⟩ := a
      obtain ⟨f', x'⟩ := b
      have h' := toLex.injective h
      obtain ⟨rfl, h2⟩ := Sigma.mk.inj h'
      have := toLex.injective (eq_of_heq h2)
      subst this; rfl)

/-- A symmetry with one period as a symmetry with group `ℤ`. -/
def line (hk : t.k = 1) : Symmetry (LSite t) ℤ where
  act := fun g s => t.act (fun _ => g) s
  which := fun s => t.which s ⟨0, by omega⟩

theorem line_lawful (hk : t.k = 1) : (line t hk).Lawful where
  act_zero := fun s => (TransSym.C10_lawful t).act_zero s
  act_add := fun g h s => (TransSym.C10_lawful t).act_add (fun _ => g) (fun _ => h) s
  which_act := fun g s => congrFun ((TransSym.C10_lawful t).which_act (fun _ => g) s) _
  torsion := fun g hg => by omega

theorem LSite.le_def (a b : LSite t) : a ≤ b ↔
    (toLex ⟨a.family, toLex a.tag⟩ : Σₗ f : F, Πₗ _ : Fin (t.fam f).dim, ℤ) ≤ toLex ⟨b.family, toLex b.tag⟩ := Iff.rfl

/-- The hypothesis of the theorems on infinite systems holds for translational symmetries. -/
theorem line_ordInv (hk : t.k = 1) : OrdInv (line t hk) := by
  intro g a b h
  rw [LSite.le_def, Sigma.Lex.le_def] at h ⊢
  obtain ⟨f, x⟩ := a
  obtain ⟨f', x'⟩ := b
  rcases h with h | ⟨h1, h2⟩
  · exact Or.inl h
  · have h1' : f = f' := h1
    subst h1'
    refine Or.inr ⟨rfl, ?_⟩
    simp only [line, TransSym.act]
    exact add_le_add_left h2 _
end

/-! ### A concrete case -/
namespace Example

/-- A chain: sites are integers, the period is 2. -/
def chain : Symmetry ℤ ℤ := ⟨fun g s => s + 2 * g, fun s => s / 2⟩

theorem chain_lawful : chain.Lawful where
  act_zero := fun s => by simp [chain]
  act_add := fun g h s => by simp only [chain]; ring
  which_act := fun g s => by simp only [chain]; omega
  torsion := fun g h => by omega

theorem chain_ordInv : OrdInv chain := fun g a b h => by simp only [chain]; omega

/-- Sites 0 and 1, hoppings (0, 1) = 5 and (1, 2) = the function 7. -/
def exC : HMap ℤ ℤ ℕ :=
  let H1 := setSite chain [] 1 (.const 10)
  let H2 := setSite chain H1 0 (.func 3)
  let H3 := (setHop chain H2 0 1 (.const 5)).1
  (setHop chain H3 1 2 (.func 7)).1

theorem exC_reachable : Reachable chain exC := by
  unfold exC
  exact .setHop _ _ _ (.setHop _ _ _ (.setSite _ _ (.setSite _ _ (.empty chain_lawful))))

theorem exC_eq : exC = [(1, ⟨.const 10, [(0, .other), (2, .func 7)]⟩), (0, ⟨.func 3, [(1, .const 5), (-1, .other)]⟩)] := rfl

theorem exC_nearest : NearestCells chain exC := by
  obtain ⟨hl, hw⟩ := exC_reachable.wf
  rw [← nearest_iff hl hw]
  intro a b h
  rw [exC_eq] at h
  simp only [E, Assoc.get] at h
  simp only [chain]
  split at h
  · simp only [Option.bind_some, Assoc.get] at h
    split at h
    · omega
    · split at h
      · omega
      · simp at h
  · split at h
    · simp only [Option.bind_some, Assoc.get] at h
      split at h
      · omega
      · split at h
        · omega
        · simp at h
    · simp at h

/-- The chain can be finalized (without an `interface_order`), so the theorems apply. -/
example (C : Calls ℤ ℤ ℕ ℕ ℕ ℕ) (junk : ℕ → ℤ) : ∃ r, finalizeInfinite C chain junk exC none = .ok r :=
  (C92_succeeds_iff exC_reachable chain_ordInv junk none).1.mpr ⟨trivial, exC_nearest⟩

example : HasHop chain exC 1 2 ∧ HasHop chain exC (-1) 0 ∧ ¬ HasHop chain exC 0 3 ∧ OnInterface chain exC 1 ∧
    ¬ OnInterface chain exC 2 :=
  ⟨by decide, by decide, by decide, ⟨by decide, 2, by decide, by decide⟩, fun h => absurd h.1 (by decide)⟩

end Example
end Kwant.Final
