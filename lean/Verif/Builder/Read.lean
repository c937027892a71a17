import Verif.Builder.DelSite

/-! Reading values back (well-formed contents), and `update`. -/
set_option linter.unusedSectionVars false

namespace Kwant.Builder
open Kwant Kwant.Assoc
variable {S G V Fn : Type} [DecidableEq S] [AddCommGroup G] [DecidableEq G]
variable {sym : Symmetry S G} {hc : V → V}

/-- The hoppings `(x, y)` and `(a, b)` are related by a symmetry. -/
def HopEquiv (sym : Symmetry S G) (a b x y : S) : Prop := ∃ g, x = sym.act g a ∧ y = sym.act g b

theorem edgeVal_write {H H' : HMap S V Fn} (hl : sym.Lawful) {a b : S} (hab : a ≠ b)
    (ha : sym.which a = 0) (v : Val V Fn)
    (hE : ∀ x y, E H' x y = if (x, y) = (a, b) then some v.fwd
      else if (x, y) = rev sym a b then some v.bwd else E H x y) {p q : S} (hp : sym.which p = 0) :
    edgeVal hc sym H' p q = if (p, q) = (a, b) then some v
      else if (p, q) = rev sym a b then some (v.conj hc) else edgeVal hc sym H p q := by
  have hrr := rev_rev hl ha b
  have hne := rev_ne hl hab
  have hrr' := rev_rev hl hp q
  by_cases h1 : (p, q) = (a, b)
  · obtain ⟨rfl, rfl⟩ := Prod.mk.inj h1
    simp only [edgeVal, hE, if_true, if_neg hne]
    cases v <;> simp [Val.fwd, Val.bwd]
  · rw [if_neg h1]
    by_cases h2 : (p, q) = rev sym a b
    · have e1 : p = (rev sym a b).1 := by rw [← h2]
      have e2 : q = (rev sym a b).2 := by rw [← h2]
      rw [if_pos h2]
      have h3 : rev sym p q = (a, b) := by rw [e1, e2, hrr]
      simp only [edgeVal, hE, h3, if_neg h1, if_pos h2, if_true]
      cases v <;> simp [Val.fwd, Val.bwd, Val.conj]
    · rw [if_neg h2]
      have e1 : rev sym p q ≠ (a, b) := by
        intro hh; apply h2; rw [← hrr', hh]
      have e2 : rev sym p q ≠ rev sym a b := by
        intro hh; apply h1; rw [← hrr', hh, hrr]
      simp only [edgeVal, hE, if_neg h1, if_neg h2, if_neg e1, if_neg e2]

/-- Reading hoppings after writing one. -/
theorem setHop_getHop {H : HMap S V Fn} (h : WF sym H) (hl : sym.Lawful) {a b : S} {v : Val V Fn}
    {H' : HMap S V Fn} (hs : setHop sym H a b v = (H', none)) :
    (a ≠ b ∧ sym.toFd a ∈ keys H ∧ sym.toFd b ∈ keys H) ∧ WF sym H' ∧ keys H' = keys H ∧ O H' = O H ∧
    (∀ x y, HopEquiv sym a b x y → getHop sym hc H' x y = .ok v) ∧
    (∀ x y, HopEquiv sym a b y x → getHop sym hc H' x y = .ok (v.conj hc)) ∧
    (∀ x y, ¬ HopEquiv sym a b x y → ¬ HopEquiv sym a b y x →
      getHop sym hc H' x y = getHop sym hc H x y ∧ containsHop sym H' x y = containsHop sym H x y) := by
  have hok : a ≠ b ∧ sym.toFd a ∈ keys H ∧ sym.toFd b ∈ keys H := by
    by_contra hh
    obtain ⟨e, he, _⟩ := setHop_fail h hl (x := a) (y := b) (by tauto) v
    rw [hs] at he; simp at he
  obtain ⟨H2, e, n, k, o, hE⟩ := setHop_effect h hl hok.1 hok.2.1 hok.2.2 v
  rw [hs] at e
  obtain rfl : H' = H2 := (Prod.mk.inj e).1
  have hw : WF sym H' := by
    have := setHop_wf h hl a b v; rw [hs] at this; exact this
  have hne := toFd2_ne hl hok.1
  have hfd := toFd2_fst_fd hl a b
  have hE' : ∀ x y, E H' x y = if (x, y) = ((sym.toFd2 a b).1, (sym.toFd2 a b).2) then some v.fwd
      else if (x, y) = rev sym (sym.toFd2 a b).1 (sym.toFd2 a b).2 then some v.bwd else E H x y := by
    intro x y; rw [hE, rev_toFd2 hl]
  have hread : ∀ x y, edgeVal hc sym H' (sym.toFd2 x y).1 (sym.toFd2 x y).2 =
      if sym.toFd2 x y = sym.toFd2 a b then some v
      else if sym.toFd2 x y = sym.toFd2 b a then some (v.conj hc)
      else edgeVal hc sym H (sym.toFd2 x y).1 (sym.toFd2 x y).2 := by
    intro x y
    have := edgeVal_write (hc := hc) hl hne hfd v hE' (p := (sym.toFd2 x y).1) (q := (sym.toFd2 x y).2)
      (toFd2_fst_fd hl x y)
    rw [this, rev_toFd2 hl]
  have hxy : ∀ x y, HopEquiv sym a b x y → x ≠ y := by
    rintro x y ⟨g, rfl, rfl⟩ e
    exact hok.1 (hl.act_inj.mp e)
  refine ⟨hok, hw, k, o, ?_, ?_, ?_⟩
  · intro x y hq
    rw [getHop_eq hw hl (hxy x y hq), hread, if_pos ((toFd2_eq_iff hl x y a b).mpr hq)]
  · intro x y hq
    have hq2 := (toFd2_eq_iff hl x y b a).mpr (by obtain ⟨g, e1, e2⟩ := hq; exact ⟨g, e2, e1⟩)
    have hn2 : ¬ sym.toFd2 x y = sym.toFd2 a b := by
      intro e
      have := rev_ne hl hne
      rw [rev_toFd2 hl, ← hq2, e] at this
      exact this rfl
    rw [getHop_eq hw hl (hxy y x hq).symm, hread, if_neg hn2, if_pos hq2]
  · intro x y h1 h2
    have g1 : ¬ sym.toFd2 x y = sym.toFd2 a b := fun e => h1 ((toFd2_eq_iff hl x y a b).mp e)
    have g2 : ¬ sym.toFd2 x y = sym.toFd2 b a := by
      intro e
      obtain ⟨g, e1, e2⟩ := (toFd2_eq_iff hl x y b a).mp e
      exact h2 ⟨g, e2, e1⟩
    constructor
    · by_cases hxy : x = y
      · simp [getHop, hxy]
      · rw [getHop_eq hw hl hxy, getHop_eq h hl hxy, hread, if_neg g1, if_neg g2]
        simp only [hopErr, missing, k]
    · rw [containsHop_eq, containsHop_eq, hE, if_neg g1, if_neg g2]

/-! ### `hoppings` -/

theorem toVal?_isSome {st : Stored V Fn} : st.toVal?.isSome = true ↔ st ≠ .other := by
  cases st <;> simp [Stored.toVal?]

theorem mem_hoppingValuePairs {H : HMap S V Fn} (hn : NF H) {a b : S} {v : Val V Fn} :
    ((a, b), v) ∈ hoppingValuePairs H ↔ ∃ st, E H a b = some st ∧ st.toVal? = some v := by
  unfold hoppingValuePairs
  simp only [List.mem_flatMap, List.mem_filterMap, Option.map_eq_some_iff, Prod.mk.injEq, Prod.exists]
  constructor
  · rintro ⟨a', row, h1, b', st, h2, v', h3, ⟨rfl, rfl⟩, rfl⟩
    have hg := get_of_mem hn.keys h1
    exact ⟨st, by simp [E, hg, get_of_mem (hn.rows _ _ hg) h2], h3⟩
  · rintro ⟨st, h1, h2⟩
    obtain ⟨row, hg⟩ := get_of_mem_keys (E_some_mem h1)
    simp only [E, hg, Option.bind_some] at h1
    exact ⟨a, row, mem_of_get hg, b, st, mem_of_get h1, v, h2, ⟨rfl, rfl⟩, rfl⟩

theorem hoppings_eq (H : HMap S V Fn) : hoppings H = (hoppingValuePairs H).map Prod.fst := by
  unfold hoppings hoppingValuePairs
  rw [List.map_flatMap]
  congr 1
  funext p
  rw [List.map_filterMap]
  congr 1
  funext e
  cases e.2.toVal? <;> rfl

theorem mem_hoppings {H : HMap S V Fn} (hn : NF H) {a b : S} :
    (a, b) ∈ hoppings H ↔ ∃ st, E H a b = some st ∧ st ≠ .other := by
  rw [hoppings_eq]
  simp only [List.mem_map]
  constructor
  · rintro ⟨⟨⟨x, y⟩, v⟩, h1, h2⟩
    obtain ⟨rfl, rfl⟩ := Prod.mk.inj h2
    obtain ⟨st, h3, h4⟩ := (mem_hoppingValuePairs hn).mp h1
    exact ⟨st, h3, toVal?_isSome.mp (by rw [h4]; rfl)⟩
  · rintro ⟨st, h1, h2⟩
    obtain ⟨v, hv⟩ := Option.isSome_iff_exists.mp (toVal?_isSome.mpr h2)
    exact ⟨((a, b), v), (mem_hoppingValuePairs hn).mpr ⟨st, h1, hv⟩, rfl⟩

theorem nodup_hoppings {H : HMap S V Fn} (hn : NF H) : (hoppings H).Nodup := by
  unfold hoppings
  rw [List.nodup_flatMap]
  constructor
  · rintro ⟨a, row⟩ hm
    have hg := get_of_mem hn.keys hm
    have hr := hn.rows _ _ hg
    simp only
    generalize row.edges = l at hr
    induction l with
    | nil => simp
    | cons p l ih =>
      obtain ⟨b, st⟩ := p
      simp only [keys_cons, List.nodup_cons] at hr
      rw [List.filterMap_cons]
      cases st.toVal? with
      | none => exact ih hr.2
      | some v =>
        simp only [Option.map_some, List.nodup_cons]
        refine ⟨?_, ih hr.2⟩
        intro hmem
        simp only [List.mem_filterMap, Option.map_eq_some_iff, Prod.mk.injEq, true_and, Prod.exists] at hmem
        obtain ⟨b', st', h1, _, _, rfl⟩ := hmem
        exact hr.1 (List.mem_map.mpr ⟨_, h1, rfl⟩)
  · have hk := hn.keys
    unfold keys at hk
    rw [List.Nodup, List.pairwise_map] at hk
    refine hk.imp ?_
    rintro ⟨a, row⟩ ⟨a', row'⟩ hne
    simp only [Function.onFun, List.disjoint_left, List.mem_filterMap, Option.map_eq_some_iff, Prod.exists]
    rintro ⟨x, y⟩ ⟨_, _, _, _, _, h1⟩ ⟨_, _, _, _, _, h2⟩
    have h1 := (Prod.mk.inj h1).1
    have h2 := (Prod.mk.inj h2).1
    exact hne (h1.trans h2.symm)

/-- Hermiticity of the stored values. -/
theorem edgeVal_rev {H : HMap S V Fn} (h : WF sym H) (hl : sym.Lawful) (hinv : ∀ v, hc (hc v) = v)
    {a b : S} {v : Val V Fn} (hv : edgeVal hc sym H a b = some v) :
    edgeVal hc sym H (rev sym a b).1 (rev sym a b).2 = some (v.conj hc) := by
  have hsome : (E H a b).isSome = true := by rw [← edgeVal_isSome (hc := hc) h, hv]; rfl
  obtain ⟨st, he⟩ := Option.isSome_iff_exists.mp hsome
  obtain ⟨hne, st', hr, hx⟩ := h.pair a b st he
  have hrr := rev_rev hl (h.which_zero he) b
  unfold edgeVal at hv ⊢
  rw [he] at hv
  rw [hr, hrr]
  simp only [he]
  cases st with
  | const w =>
    obtain rfl : st' = .other := by
      by_contra hh; have := hx.mpr hh; simp at this
    simp at hv
    simp [← hv, Val.conj]
  | func f =>
    obtain rfl : st' = .other := by
      by_contra hh; have := hx.mpr hh; simp at this
    simp at hv
    simp [← hv, Val.conj]
  | other =>
    have hh : st' ≠ .other := hx.mp rfl
    simp only [hr] at hv
    cases st' with
    | const w => simp at hv; simp [← hv, Val.conj, hinv]
    | func f => simp at hv; simp [← hv, Val.conj]
    | other => exact absurd rfl hh

end Kwant.Builder
