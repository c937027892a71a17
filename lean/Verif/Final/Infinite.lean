import Verif.Final.Finite

/-! Helper lemmas: finalized infinite systems -/
set_option linter.unusedSectionVars false

namespace Kwant.Final
open Kwant Kwant.Assoc Kwant.Builder Kwant.Graph

variable {S V Fn N A X : Type} [LinearOrder S] [DecidableEq N]
variable {hc : V → V} {C : Calls S V Fn N A X} {H : HMap S V Fn} {sym : Symmetry S ℤ}

/-- Translations keep the order of sites (true for lattices: tags of the same family are translated by the
same vector, and different families are ordered by the families; see `transSym_ordInv`). -/
def OrdInv {G : Type} (sym : Symmetry S G) : Prop := ∀ g a b, a ≤ b → sym.act g a ≤ sym.act g b

theorem act_inj {G : Type} [AddCommGroup G] [DecidableEq G] {sym : Symmetry S G} (hl : sym.Lawful) {g : G} {a b : S}
    (h : sym.act g a = sym.act g b) : a = b := by
  have := congrArg (sym.act (-g)) h
  rwa [hl.act_add, hl.act_add, neg_add_cancel, hl.act_zero, hl.act_zero] at this

theorem mem_sitesWith (hn : NF H) {a : S} : a ∈ sitesWith sym H ↔ ∃ b, (E H a b).isSome = true ∧ sym.which b = 1 := by
  unfold sitesWith
  rw [List.mem_map]
  constructor
  · rintro ⟨⟨a', row⟩, hp, rfl⟩
    obtain ⟨hp1, hp2⟩ := List.mem_filter.mp hp
    obtain ⟨b, hb, hb1⟩ := List.any_eq_true.mp hp2
    exact ⟨b, (mem_edges_iff (get_of_mem hn.keys hp1)).mp hb, by simpa using hb1⟩
  · rintro ⟨b, hb, hb1⟩
    obtain ⟨st, hst⟩ := Option.isSome_iff_exists.mp hb
    obtain ⟨row, hr⟩ := get_of_mem_keys (E_some_mem hst)
    refine ⟨(a, row), List.mem_filter.mpr ⟨mem_of_get hr, ?_⟩, rfl⟩
    exact List.any_eq_true.mpr ⟨b, (mem_edges_iff hr).mpr hb, by simpa using hb1⟩

theorem filter_map_perm {α β : Type} (f : α → β) (p : α → Bool) (l : List α) :
    ((l.filter p).map f ++ (l.filter fun a => !p a).map f).Perm (l.map f) := by
  rw [← List.map_append]
  exact (List.filter_append_perm p l).map f

theorem with_perm (sym : Symmetry S ℤ) (H : HMap S V Fn) : (sitesWith sym H ++ sitesWithout sym H).Perm (keys H) :=
  filter_map_perm _ _ _

theorem mem_sitesWithout (hn : NF H) {a : S} : a ∈ sitesWithout sym H ↔ a ∈ keys H ∧ a ∉ sitesWith sym H := by
  have hp := with_perm sym H
  have hnd : (sitesWith sym H ++ sitesWithout sym H).Nodup := hp.nodup_iff.mpr hn.keys
  rw [← hp.mem_iff, List.mem_append]
  constructor
  · intro h
    exact ⟨Or.inr h, fun h' => (List.nodup_append.mp hnd).2.2 a h' a h rfl⟩
  · rintro ⟨h | h, h'⟩
    · exact absurd h h'
    · exact h

theorem orderLoop_spec (hl : sym.Lawful) (shift : ℤ) (ord set : List S) :
    (∀ r, orderLoop sym shift ord set = .ok r →
      r.1 = ord.map (sym.act (1 + shift)) ∧ r.2.1 = ord.map (sym.act shift) ∧
      set.Perm (ord.map (sym.act (1 + shift)) ++ r.2.2)) ∧
    (∀ e, orderLoop sym shift ord set = .error e → e = .value ∧
      ¬ ∃ left, set.Perm (ord.map (sym.act (1 + shift)) ++ left)) := by
  induction ord generalizing set with
  | nil =>
    constructor
    · intro r h; cases h; simp
    · intro e h; cases h
  | cons s rest ih =>
    have hact : sym.act 1 (sym.act shift s) = sym.act (1 + shift) s := hl.act_add _ _ _
    simp only [orderLoop, hact]
    by_cases hm : sym.act (1 + shift) s ∈ set
    · rw [if_pos hm]
      obtain ⟨ih1, ih2⟩ := ih (set.erase (sym.act (1 + shift) s))
      cases hr : orderLoop sym shift rest (set.erase (sym.act (1 + shift) s)) with
      | error e =>
        simp only
        obtain ⟨e1, e2⟩ := ih2 e hr
        constructor
        · intro r h; cases h
        · intro e' h
          cases h
          refine ⟨e1, fun ⟨left, hp⟩ => e2 ⟨left, ?_⟩⟩
          have := hp.erase (sym.act (1 + shift) s)
          simpa using this
      | ok r =>
        obtain ⟨ls, is, left⟩ := r
        simp only
        obtain ⟨q1, q2, q3⟩ := ih1 _ hr
        constructor
        · intro r h
          cases h
          simp only at q1 q2 q3
          refine ⟨by simp [q1], by simp [q2], ?_⟩
          refine (List.perm_cons_erase hm).trans ?_
          simpa using q3
        · intro e h; cases h
    · rw [if_neg hm]
      constructor
      · intro r h; cases h
      · intro e h
        cases h
        refine ⟨rfl, fun ⟨left, hp⟩ => hm (hp.mem_iff.mpr (by simp))⟩

/-- When `interface_order` is acceptable: it lists, sorted, the sites with neighbours in the next cell, all
shifted to the cell of its first site. -/
def GoodOrder (sym : Symmetry S ℤ) (withs : List S) : Option (List S) → Prop
  | none => True
  | some ord => withs.Perm (ord.map (sym.act (1 + shiftOf sym ord))) ∧
      (ord.map (sym.act (shiftOf sym ord))).Pairwise (· ≤ ·)

theorem interfaceOf_spec (hl : sym.Lawful) (withs : List S) (order : Option (List S)) :
    (∀ r, interfaceOf sym withs order = .ok r → GoodOrder sym withs order ∧ r.1.Perm withs ∧
      r.2.Perm (withs.map (sym.act (-1))) ∧ r.2.Pairwise (· ≤ ·)) ∧
    (∀ e, interfaceOf sym withs order = .error e → e = .value ∧ ¬ GoodOrder sym withs order) := by
  cases order with
  | none =>
    constructor
    · intro r h
      simp only [interfaceOf] at h
      cases h
      exact ⟨trivial, List.Perm.refl _, pySorted_perm _, pySorted_le _⟩
    · intro e h; simp only [interfaceOf] at h; cases h
  | some ord =>
    unfold interfaceOf
    obtain ⟨o1, o2⟩ := orderLoop_spec hl (shiftOf sym ord) ord withs
    simp only
    cases hr : orderLoop sym (shiftOf sym ord) ord withs with
    | error e =>
      simp only
      constructor
      · intro r h; cases h
      · intro e' h
        cases h
        obtain ⟨q1, q2⟩ := o2 _ hr
        exact ⟨q1, fun hg => q2 ⟨[], by simpa using hg.1⟩⟩
    | ok r =>
      obtain ⟨ls, is, left⟩ := r
      obtain ⟨q1, q2, q3⟩ := o1 _ hr
      simp only at q1 q2 q3 ⊢
      subst q1 q2
      by_cases hleft : left = []
      · subst hleft
        rw [List.append_nil] at q3
        simp only [ne_eq, not_true_eq_false, if_false]
        by_cases hs : ord.map (sym.act (shiftOf sym ord)) = pySorted (ord.map (sym.act (shiftOf sym ord)))
        · rw [if_neg (by simpa using hs)]
          constructor
          · intro r h
            cases h
            have hsorted : (ord.map (sym.act (shiftOf sym ord))).Pairwise (· ≤ ·) := by
              rw [hs]; exact pySorted_le _
            refine ⟨⟨q3, hsorted⟩, q3.symm, ?_, hsorted⟩
            have := q3.map (sym.act (-1))
            rw [List.map_map] at this
            refine List.Perm.symm (this.trans (List.Perm.of_eq ?_))
            refine List.map_congr_left fun s _ => ?_
            simp only [Function.comp_apply, hl.act_add]
            congr 1; ring
          · intro e h; cases h
        · rw [if_pos (by simpa using hs)]
          constructor
          · intro r h; cases h
          · intro e h
            cases h
            exact ⟨rfl, fun hg => hs (pySorted_of_sorted hg.2).symm⟩
      · rw [if_pos (by simpa using hleft)]
        constructor
        · intro r h; cases h
        · intro e h
          cases h
          refine ⟨rfl, fun hg => hleft ?_⟩
          have h1 := q3.length_eq
          have h2 := hg.1.length_eq
          simp only [List.length_append, List.length_map] at h1 h2
          exact List.length_eq_zero_iff.mp (by omega)

/-! ### The sites -/

theorem pySorted_congr {l l' : List S} (h : l.Perm l') : pySorted l = pySorted l' :=
  (((pySorted_perm l).trans h).trans (pySorted_perm l').symm).eq_of_pairwise
    (fun _ _ _ _ h1 h2 => le_antisymm h1 h2) (pySorted_le l) (pySorted_le l')

/-- The sites of the cell. -/
def cellSites (sym : Symmetry S ℤ) (H : HMap S V Fn) : List S :=
  pySorted (sitesWith sym H) ++ pySorted (sitesWithout sym H)

/-- All sites of the finalized system. -/
def sitesOf (sym : Symmetry S ℤ) (H : HMap S V Fn) : List S :=
  cellSites sym H ++ (pySorted (sitesWith sym H)).map (sym.act (-1))

theorem cellSites_perm (sym : Symmetry S ℤ) (H : HMap S V Fn) : (cellSites sym H).Perm (keys H) :=
  ((pySorted_perm _).append (pySorted_perm _)).trans (with_perm sym H)

theorem cell_length (sym : Symmetry S ℤ) (H : HMap S V Fn) :
    (sitesWith sym H).length + (sitesWithout sym H).length = (cellSites sym H).length := by
  simp [cellSites, pySorted_length]

theorem interface_eq (hl : sym.Lawful) (ho : OrdInv sym) {order : Option (List S)} {r : List S × List S}
    (h : interfaceOf sym (sitesWith sym H) order = .ok r) :
    pySorted r.1 ++ pySorted (sitesWithout sym H) ++ r.2 = sitesOf sym H := by
  obtain ⟨_, h1, h2, h3⟩ := (interfaceOf_spec hl (sitesWith sym H) order).1 r h
  unfold sitesOf cellSites
  rw [pySorted_congr h1]
  congr 1
  refine (h2.trans ((pySorted_perm (sitesWith sym H)).map _).symm).eq_of_pairwise
    (fun _ _ _ _ h1 h2 => le_antisymm h1 h2) h3 ?_
  rw [List.pairwise_map]
  exact (pySorted_le _).imp fun h => ho _ _ _ h

section
variable (hl : sym.Lawful) (hw : Builder.WF sym H)
include hl hw

theorem sites_lt {i : ℕ} {a : S} (h : (sitesOf sym H)[i]? = some a) (hi : i < (cellSites sym H).length) : a ∈ keys H := by
  unfold sitesOf at h
  rw [List.getElem?_append_left hi] at h
  exact (cellSites_perm sym H).mem_iff.mp (List.mem_of_getElem? h)

theorem sites_ge {i : ℕ} {a : S} (h : (sitesOf sym H)[i]? = some a) (hi : (cellSites sym H).length ≤ i) :
    sym.which a = -1 ∧ sym.act 1 a ∈ sitesWith sym H ∧
    (sitesOf sym H)[i - (cellSites sym H).length]? = some (sym.act 1 a) ∧
    i - (cellSites sym H).length < (cellSites sym H).length := by
  unfold sitesOf at h
  rw [List.getElem?_append_right hi, List.getElem?_map] at h
  obtain ⟨b, hb, rfl⟩ := Option.map_eq_some_iff.mp h
  have hmem : b ∈ sitesWith sym H := mem_pySorted.mp (List.mem_of_getElem? hb)
  have hkey : b ∈ keys H := (with_perm sym H).mem_iff.mp (List.mem_append.mpr (Or.inl hmem))
  have hlt := (List.getElem?_eq_some_iff.mp hb).1
  have hlt2 : i - (cellSites sym H).length < (cellSites sym H).length := by
    refine lt_of_lt_of_le hlt ?_
    simp [cellSites]
  have hback : sym.act 1 (sym.act (-1) b) = b := by rw [hl.act_add]; simp [hl.act_zero]
  refine ⟨by rw [hl.which_act, hw.fd b hkey]; rfl, by rw [hback]; exact hmem, ?_, hlt2⟩
  rw [hback]
  unfold sitesOf
  rw [List.getElem?_append_left hlt2]
  unfold cellSites at hb ⊢
  rw [List.getElem?_append_left (by simpa [cellSites] using hlt)]
  exact hb

theorem exists_lt {a : S} (h : a ∈ keys H) : ∃ i, i < (cellSites sym H).length ∧ (sitesOf sym H)[i]? = some a := by
  obtain ⟨i, hi⟩ := List.mem_iff_getElem?.mp ((cellSites_perm sym H).mem_iff.mpr h)
  have hlt := (List.getElem?_eq_some_iff.mp hi).1
  exact ⟨i, hlt, by unfold sitesOf; rw [List.getElem?_append_left hlt]; exact hi⟩

theorem exists_ge {a : S} (h : a ∈ sitesWith sym H) :
    ∃ i, (cellSites sym H).length ≤ i ∧ (sitesOf sym H)[i]? = some (sym.act (-1) a) := by
  obtain ⟨i, hi⟩ := List.mem_iff_getElem?.mp (mem_pySorted.mpr h)
  refine ⟨(cellSites sym H).length + i, by omega, ?_⟩
  unfold sitesOf
  rw [List.getElem?_append_right (by omega)]
  simp [hi]

theorem sites_nodup : (sitesOf sym H).Nodup := by
  have hcn : (cellSites sym H).Nodup := (cellSites_perm sym H).nodup_iff.mpr hw.keys
  refine List.nodup_append.mpr ⟨hcn, ?_, ?_⟩
  · refine List.Nodup.map (fun a b h => act_inj hl h) ?_
    exact (List.nodup_append.mp hcn).1
  · intro a ha b hb hab
    subst hab
    obtain ⟨c, hc, rfl⟩ := List.mem_map.mp hb
    have h1 := hw.fd _ ((cellSites_perm sym H).mem_iff.mp ha)
    have hkey : c ∈ keys H := (with_perm sym H).mem_iff.mp (List.mem_append.mpr (Or.inl (mem_pySorted.mp hc)))
    rw [hl.which_act, hw.fd c hkey] at h1
    omega

theorem which_cases {i : ℕ} {a : S} (h : (sitesOf sym H)[i]? = some a) :
    (i < (cellSites sym H).length ↔ sym.which a = 0) ∧ (sym.which a = 0 ∨ sym.which a = -1) := by
  by_cases hi : i < (cellSites sym H).length
  · have := hw.fd a (sites_lt hl hw h hi)
    simp [hi, this]
  · have := (sites_ge hl hw h (by omega)).1
    exact ⟨⟨fun h => absurd h hi, fun h => by omega⟩, Or.inr this⟩

/-- The four cases of a neighbour of a site of the cell. -/
theorem cellHead_spec {i : ℕ} {a b : S} (hE : (E H a b).isSome = true) :
    (sym.which b = 0 → ∃ j, j < (cellSites sym H).length ∧ (sitesOf sym H)[j]? = some b ∧
      cellHead sym (idTable (sitesOf sym H)) (cellSites sym H).length i b = .ok [((i : ℤ), (j : ℤ))]) ∧
    (sym.which b = -1 → ∃ j, (cellSites sym H).length ≤ j ∧ (sitesOf sym H)[j]? = some b ∧
      cellHead sym (idTable (sitesOf sym H)) (cellSites sym H).length i b = .ok [((j : ℤ), (i : ℤ)), ((i : ℤ), (j : ℤ))]) ∧
    (sym.which b = 1 → cellHead sym (idTable (sitesOf sym H)) (cellSites sym H).length i b = .ok []) ∧
    (sym.which b ≠ 0 → sym.which b ≠ -1 → sym.which b ≠ 1 →
      cellHead sym (idTable (sitesOf sym H)) (cellSites sym H).length i b = .error .value) := by
  have hnd := sites_nodup hl hw
  obtain ⟨st, hst⟩ := Option.isSome_iff_exists.mp hE
  have hnone : sym.which b ≠ 0 → sym.which b ≠ -1 → Assoc.get (idTable (sitesOf sym H)) b = none := by
    intro h1 h2
    rw [get_idTable_none hnd]
    intro hb
    obtain ⟨j, hj⟩ := List.mem_iff_getElem?.mp hb
    rcases (which_cases hl hw hj).2 with h | h
    · exact h1 h
    · exact h2 h
  refine ⟨fun hb => ?_, fun hb => ?_, fun hb => ?_, fun h1 h2 h3 => ?_⟩
  · obtain ⟨j, hj, hj'⟩ := exists_lt hl hw ((hw.mem_iff_fd hl hst).mpr hb)
    refine ⟨j, hj, hj', ?_⟩
    simp only [cellHead, (get_idTable hnd b j).mpr hj']
    rw [if_neg (by omega)]
  · obtain ⟨_, st', hst', _⟩ := hw.pair a b st hst
    have hrev : rev sym a b = (sym.act 1 b, sym.act 1 a) := by
      simp [rev, Symmetry.toFd2, Symmetry.actHop, hb]
    rw [hrev] at hst'
    have hwith : sym.act 1 b ∈ sitesWith sym H := by
      rw [mem_sitesWith hw.toNF]
      refine ⟨sym.act 1 a, by rw [hst']; rfl, ?_⟩
      rw [hl.which_act, hw.which_zero hst]; rfl
    obtain ⟨j, hj, hj'⟩ := exists_ge hl hw hwith
    have hback : sym.act (-1) (sym.act 1 b) = b := by rw [hl.act_add]; simp [hl.act_zero]
    rw [hback] at hj'
    refine ⟨j, hj, hj', ?_⟩
    simp only [cellHead, (get_idTable hnd b j).mpr hj']
    rw [if_pos hj]
  · simp only [cellHead, hnone (by omega) (by omega)]
    rw [if_neg (by simpa using hb)]
  · simp only [cellHead, hnone h1 h2]
    rw [if_pos h3]
end

end Kwant.Final
