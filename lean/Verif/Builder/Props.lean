import Verif.Builder.Reach
import Mathlib.Data.List.Count

/-!
# C20-C30: the builder

Statements are about the public operations and the public observations `containsSite`, `containsHop`,
`getSite`, `getHop`, `sites`, `hoppings`, `degree`, `neighbors` in every reachable state
(`Reachable`: any history of operations, failing ones included).
-/
set_option linter.unusedSectionVars false

namespace Kwant.Builder
open Kwant Kwant.Assoc
variable {S G V Fn : Type} [DecidableEq S] [AddCommGroup G] [DecidableEq G]
variable {sym : Symmetry S G} {hc : V → V} {H : HMap S V Fn}

/-- `site in builder`, as a proposition. -/
abbrev HasSite (sym : Symmetry S G) (H : HMap S V Fn) (s : S) : Prop := containsSite sym H s = true
/-- `(a, b) in builder`, as a proposition. -/
abbrev HasHop (sym : Symmetry S G) (H : HMap S V Fn) (a b : S) : Prop := containsHop sym H a b = .ok true

theorem hasSite_iff {s : S} : HasSite sym H s ↔ sym.toFd s ∈ keys H := by
  simp [HasSite, containsSite]

theorem hasHop_iff (h : WF sym H) (hl : sym.Lawful) {x y : S} :
    HasHop sym H x y ↔ x ≠ y ∧ (E H (sym.toFd2 x y).1 (sym.toFd2 x y).2).isSome = true := by
  rw [HasHop, containsHop_eq]
  by_cases hxy : x = y <;> simp [hxy]

theorem sameOrbit_iff (hl : sym.Lawful) {s x : S} : sym.SameOrbit s x ↔ sym.toFd s = sym.toFd x :=
  (C11_toFd hl s).2.2.2.1 x

/-! ## C20, C23: the invariant -/

/-- C20: in every reachable state the stored sites are in the fundamental domain and distinct; a hopping
is present iff its reverse is; both its ends are present; loops are rejected; images are present together;
`hoppings()` reports exactly one direction of each hopping. -/
theorem C20_wellformed (h : Reachable sym H) :
    (∀ s ∈ sites H, sym.inFd s = true) ∧ (sites H).Nodup ∧
    (∀ x y, HasHop sym H x y ↔ HasHop sym H y x) ∧
    (∀ x y, HasHop sym H x y → x ≠ y ∧ HasSite sym H x ∧ HasSite sym H y) ∧
    (∀ x, containsHop sym H x x = .error .value) ∧
    (∀ g x y, HasHop sym H x y ↔ HasHop sym H (sym.act g x) (sym.act g y)) ∧
    (∀ x y, HasHop sym H x y → sym.inFd x = true → sym.inFd y = true →
      ((x, y) ∈ hoppings H ↔ (y, x) ∉ hoppings H)) := by
  obtain ⟨hl, w⟩ := h.wf
  have hsymm : ∀ x y, HasHop sym H x y → HasHop sym H y x := by
    intro x y hx
    rw [hasHop_iff w hl] at hx ⊢
    obtain ⟨st, he⟩ := Option.isSome_iff_exists.mp hx.2
    obtain ⟨_, st', h1, _⟩ := w.pair _ _ _ he
    rw [rev_toFd2 hl] at h1
    exact ⟨Ne.symm hx.1, by rw [h1]; rfl⟩
  refine ⟨fun s hs => by simp [Symmetry.inFd, w.fd s hs], w.keys, fun x y => ⟨hsymm x y, hsymm y x⟩, ?_,
    by simp [containsHop], ?_, ?_⟩
  · intro x y hx
    have hy := hsymm x y hx
    rw [hasHop_iff w hl] at hx hy
    refine ⟨hx.1, ?_, ?_⟩
    · obtain ⟨st, he⟩ := Option.isSome_iff_exists.mp hx.2
      exact hasSite_iff.mpr (E_some_mem he)
    · obtain ⟨st, he⟩ := Option.isSome_iff_exists.mp hy.2
      exact hasSite_iff.mpr (E_some_mem he)
  · intro g x y
    rw [hasHop_iff w hl, hasHop_iff w hl, hl.toFd2_act, Ne, Ne, hl.act_inj]
  · intro x y hx hfx hfy
    rw [hasHop_iff w hl] at hx
    have hfx' : sym.which x = 0 := by simpa [Symmetry.inFd] using hfx
    rw [toFd2_of_fd hl hfx'] at hx
    obtain ⟨st, he⟩ := Option.isSome_iff_exists.mp hx.2
    obtain ⟨_, st', h1, h2⟩ := w.pair x y st he
    rw [rev_of_inFd hl hfy] at h1
    simp only [mem_hoppings w.toNF]
    simp only at h1 he
    constructor
    · rintro ⟨t, ht, hno⟩ ⟨t', ht', hno'⟩
      rw [he] at ht; rw [h1] at ht'
      obtain rfl := Option.some.inj ht
      obtain rfl := Option.some.inj ht'
      exact hno (h2.mpr hno')
    · intro hno
      refine ⟨st, he, ?_⟩
      intro ho
      exact hno ⟨st', h1, h2.mp ho⟩

/-- C23: in every reachable state the value of the reversed hopping is the Hermitian conjugate. -/
theorem C23_hermitian (h : Reachable sym H) (hinv : ∀ v, hc (hc v) = v) (x y : S) (v : Val V Fn)
    (hv : getHop sym hc H x y = .ok v) : getHop sym hc H y x = .ok (v.conj hc) :=
  getHop_conj h.wf.2 h.lawful hinv hv

/-- A value is returned exactly for the hoppings that are contained (and likewise for sites); asking for
anything else raises `KeyError` (`ValueError` for a loop), never an internal error. -/
theorem C23_get_iff_contains (h : Reachable sym H) (x y : S) :
    ((∃ v, getHop sym hc H x y = .ok v) ↔ HasHop sym H x y) ∧
    ((∃ v, getSite sym H x = .ok v) ↔ HasSite sym H x) ∧
    (∀ e, getHop sym hc H x y = .error e → e ≠ .assertion ∧ e ≠ .fuel) := by
  obtain ⟨hl, w⟩ := h.wf
  refine ⟨(containsHop_iff w hl).symm, ?_, ?_⟩
  · rw [hasSite_iff, ← O_isSome, getSite_eq]
    cases O H (sym.toFd x) <;> simp
  · intro e he
    by_cases hxy : x = y
    · simp only [getHop, hxy, if_true, Except.error.injEq] at he; subst he; simp
    · rw [getHop_eq w hl hxy] at he
      cases hv : edgeVal hc sym H (sym.toFd2 x y).1 (sym.toFd2 x y).2 with
      | some v => simp [hv] at he
      | none =>
        simp only [hv, Except.error.injEq] at he
        subst he
        unfold hopErr missing
        split <;> (try split) <;> simp

/-! ## C21, C22: read your writes -/

/-- C21: after `builder[s] = v` every image of `s` has the value `v`, every other site and every hopping
keeps its value (and containment). -/
theorem C21_setSite (h : Reachable sym H) (s : S) (v : Val V Fn) :
    (∀ x, sym.SameOrbit s x → getSite sym (setSite sym H s v) x = .ok v) ∧
    (∀ x, ¬ sym.SameOrbit s x → getSite sym (setSite sym H s v) x = getSite sym H x) ∧
    (∀ x y, containsHop sym (setSite sym H s v) x y = containsHop sym H x y) ∧
    (∀ x y w, getHop sym hc (setSite sym H s v) x y = .ok w ↔ getHop sym hc H x y = .ok w) := by
  obtain ⟨hl, w⟩ := h.wf
  obtain ⟨a1, a2, a3, a4⟩ := setSite_effect (sym := sym) w.toNF s v
  have w' := setSite_wf w hl s v
  refine ⟨?_, ?_, ?_, ?_⟩
  · intro x hx
    rw [getSite_eq, a3, if_pos ((sameOrbit_iff hl).mp hx)]
  · intro x hx
    rw [getSite_eq, getSite_eq, a3, if_neg (fun e => hx ((sameOrbit_iff hl).mpr e))]
  · intro x y; rw [containsHop_eq, containsHop_eq, a4]
  · intro x y u
    rw [getHop_ok_iff w' hl, getHop_ok_iff w hl]
    simp only [edgeVal, a4]

/-- C22: if `builder[a, b] = v` succeeds, every image of `(a, b)` has the value `v`, every image of
`(b, a)` has the Hermitian conjugate, and no other hopping and no site changes. -/
theorem C22_setHop (h : Reachable sym H) (a b : S) (v : Val V Fn) (H' : HMap S V Fn)
    (hs : setHop sym H a b v = (H', none)) :
    (∀ g, getHop sym hc H' (sym.act g a) (sym.act g b) = .ok v) ∧
    (∀ g, getHop sym hc H' (sym.act g b) (sym.act g a) = .ok (v.conj hc)) ∧
    (∀ x y, (∀ g, (x, y) ≠ (sym.act g a, sym.act g b)) → (∀ g, (x, y) ≠ (sym.act g b, sym.act g a)) →
      getHop sym hc H' x y = getHop sym hc H x y ∧ containsHop sym H' x y = containsHop sym H x y) ∧
    (∀ x, getSite sym H' x = getSite sym H x) ∧ sites H' = sites H := by
  obtain ⟨hl, w⟩ := h.wf
  obtain ⟨_, _, k, o, g1, g2, g3⟩ := setHop_getHop (hc := hc) w hl hs
  refine ⟨fun g => g1 _ _ ⟨g, rfl, rfl⟩, fun g => g2 _ _ ⟨g, rfl, rfl⟩, ?_, ?_, k⟩
  · intro x y h1 h2
    apply g3
    · rintro ⟨g, rfl, rfl⟩; exact h1 g rfl
    · rintro ⟨g, rfl, rfl⟩; exact h2 g rfl
  · intro x; rw [getSite_eq, getSite_eq, o]

/-! ## C24: failing operations -/

/-- C24: assigning a hopping succeeds iff it is not a loop and both sites are present; otherwise the
builder is unchanged and the error is `ValueError` for a loop and else `KeyError` of an absent end. -/
theorem C24_setHop (h : Reachable sym H) (a b : S) (v : Val V Fn) :
    ((setHop sym H a b v).2 = none ↔ a ≠ b ∧ HasSite sym H a ∧ HasSite sym H b) ∧
    (∀ e, (setHop sym H a b v).2 = some e → (setHop sym H a b v).1 = H ∧
      (a = b → e = .value) ∧
      (a ≠ b → ∃ s, e = .keySite s ∧ ¬ HasSite sym H s ∧ (sym.SameOrbit a s ∨ sym.SameOrbit b s))) := by
  obtain ⟨hl, w⟩ := h.wf
  simp only [hasSite_iff]
  by_cases hok : a ≠ b ∧ sym.toFd a ∈ keys H ∧ sym.toFd b ∈ keys H
  · obtain ⟨H', e, _⟩ := setHop_effect w hl hok.1 hok.2.1 hok.2.2 v
    rw [e]
    exact ⟨by simpa using hok, by simp⟩
  · obtain ⟨e, he, e1, e2⟩ := setHop_fail w hl (x := a) (y := b) (by tauto) v
    rw [he]
    refine ⟨by simpa using hok, ?_⟩
    rintro _ ⟨⟩
    refine ⟨rfl, e1, fun hne => ?_⟩
    obtain ⟨s, hs1, hs2, hs3⟩ := e2 hne
    refine ⟨s, hs1, hs3, ?_⟩
    rcases hs2 with hs2 | hs2
    · exact .inl ((sameOrbit_iff hl).mpr hs2.symm)
    · exact .inr ((sameOrbit_iff hl).mpr hs2.symm)

/-- C24: deleting an absent hopping (or a loop) or an absent site fails and changes nothing; deleting a
present one succeeds. -/
theorem C24_del (h : Reachable sym H) (a b : S) :
    ((delHop sym H a b).2 = none ↔ HasHop sym H a b) ∧
    (∀ e, (delHop sym H a b).2 = some e → (delHop sym H a b).1 = H) ∧
    ((delSite sym H a).2 = none ↔ HasSite sym H a) ∧
    (∀ e, (delSite sym H a).2 = some e → (delSite sym H a).1 = H ∧ e = .keySite (sym.toFd a)) := by
  obtain ⟨hl, w⟩ := h.wf
  have h1 : ((delHop sym H a b).2 = none ↔ HasHop sym H a b) ∧
      (∀ e, (delHop sym H a b).2 = some e → (delHop sym H a b).1 = H) := by
    rw [hasHop_iff w hl]
    by_cases hok : a ≠ b ∧ (E H (sym.toFd2 a b).1 (sym.toFd2 a b).2).isSome = true
    · obtain ⟨H', e, _⟩ := delHop_effect w hl hok.1 hok.2
      rw [e]; exact ⟨by simpa using hok, by simp⟩
    · obtain ⟨e, he, _⟩ := delHop_fail (sym := sym) (H := H) (x := a) (y := b) (by
        by_cases hxy : a = b
        · exact .inl hxy
        · right
          cases hE : E H (sym.toFd2 a b).1 (sym.toFd2 a b).2 with
          | none => rfl
          | some st => exact absurd ⟨hxy, by rw [hE]; rfl⟩ hok)
      rw [he]; exact ⟨by simpa using hok, by simp⟩
  refine ⟨h1.1, h1.2, ?_⟩
  rw [hasSite_iff]
  by_cases hs : sym.toFd a ∈ keys H
  · obtain ⟨H', e, _⟩ := delSite_effect w hl hs
    rw [e]; exact ⟨by simpa using hs, by simp⟩
  · rw [delSite_fail hs]; exact ⟨by simpa using hs, by simp⟩

/-! ## C25, C26: deletion -/

/-- C25: after `del builder[s]` the orbit of `s` and exactly the hoppings touching it are gone; everything
else has the same value. -/
theorem C25_delSite (h : Reachable sym H) (s : S) (H' : HMap S V Fn)
    (hs : delSite sym H s = (H', none)) :
    (∀ x, HasSite sym H' x ↔ HasSite sym H x ∧ ¬ sym.SameOrbit s x) ∧
    (∀ x, ¬ sym.SameOrbit s x → getSite sym H' x = getSite sym H x) ∧
    (∀ x y, HasHop sym H' x y ↔ HasHop sym H x y ∧ ¬ sym.SameOrbit s x ∧ ¬ sym.SameOrbit s y) ∧
    (∀ x y v, ¬ sym.SameOrbit s x → ¬ sym.SameOrbit s y →
      (getHop sym hc H' x y = .ok v ↔ getHop sym hc H x y = .ok v)) := by
  obtain ⟨hl, w⟩ := h.wf
  have hk : sym.toFd s ∈ keys H := by
    by_contra hh; rw [delSite_fail hh] at hs; simp at hs
  obtain ⟨H2, e, n, k, o, hE⟩ := delSite_effect w hl hk
  rw [hs] at e
  obtain rfl : H' = H2 := (Prod.mk.inj e).1
  have w' : WF sym H' := (Restrict.remove w hl n k o hE).wf w hl
  simp only [sameOrbit_iff hl]
  have hto : ∀ x y, sym.toFd (sym.toFd2 x y).2 = sym.toFd y := by
    intro x y; simp only [toFd2_eq, hl.toFd_act]
  have hE' : ∀ x y, E H' (sym.toFd2 x y).1 (sym.toFd2 x y).2 =
      if sym.toFd x = sym.toFd s ∨ sym.toFd y = sym.toFd s then none
      else E H (sym.toFd2 x y).1 (sym.toFd2 x y).2 := by
    intro x y
    rw [hE, hto]; rfl
  refine ⟨?_, ?_, ?_, ?_⟩
  · intro x
    rw [hasSite_iff, hasSite_iff, k, w.keys.mem_erase_iff]
    constructor
    · rintro ⟨h1, h2⟩; exact ⟨h2, Ne.symm h1⟩
    · rintro ⟨h1, h2⟩; exact ⟨Ne.symm h2, h1⟩
  · intro x hx
    rw [getSite_eq, getSite_eq, o, if_neg hx]
  · intro x y
    rw [hasHop_iff w' hl, hasHop_iff w hl, hE']
    by_cases hc : sym.toFd x = sym.toFd s ∨ sym.toFd y = sym.toFd s
    · rw [if_pos hc]
      constructor
      · intro h; simp at h
      · rintro ⟨_, h1, h2⟩
        rcases hc with hc | hc
        · exact absurd hc.symm h1
        · exact absurd hc.symm h2
    · rw [if_neg hc]
      push Not at hc
      constructor
      · intro h; exact ⟨h, Ne.symm hc.1, Ne.symm hc.2⟩
      · intro h; exact h.1
  · intro x y v hx hy
    rw [getHop_ok_iff w' hl, getHop_ok_iff w hl]
    have e1 := hE' x y
    rw [if_neg (by rintro (h | h); exacts [hx h.symm, hy h.symm])] at e1
    have e2 := hE' y x
    rw [if_neg (by rintro (h | h); exacts [hy h.symm, hx h.symm])] at e2
    simp only [edgeVal, rev_toFd2 hl, e1, e2]

/-- C26: after `del builder[a, b]` exactly the images of `(a, b)` and `(b, a)` are gone; all sites and all
other hoppings keep their values. -/
theorem C26_delHop (h : Reachable sym H) (a b : S) (H' : HMap S V Fn)
    (hs : delHop sym H a b = (H', none)) :
    (∀ x y, HasHop sym H' x y ↔ HasHop sym H x y ∧ ¬ HopEquiv sym a b x y ∧ ¬ HopEquiv sym a b y x) ∧
    (∀ x y, ¬ HopEquiv sym a b x y → ¬ HopEquiv sym a b y x →
      getHop sym hc H' x y = getHop sym hc H x y) ∧
    (∀ x, getSite sym H' x = getSite sym H x) ∧ sites H' = sites H := by
  obtain ⟨hl, w⟩ := h.wf
  have hk : a ≠ b ∧ (E H (sym.toFd2 a b).1 (sym.toFd2 a b).2).isSome = true := by
    by_contra hh
    obtain ⟨e, he, _⟩ := delHop_fail (sym := sym) (H := H) (x := a) (y := b) (by
        by_cases hxy : a = b
        · exact .inl hxy
        · right
          cases hE : E H (sym.toFd2 a b).1 (sym.toFd2 a b).2 with
          | none => rfl
          | some st => exact absurd ⟨hxy, by rw [hE]; rfl⟩ hh)
    rw [hs] at he; simp at he
  obtain ⟨H2, e, n, k, o, hE⟩ := delHop_effect w hl hk.1 hk.2
  have w' : WF sym H' := by have := delHop_wf w hl a b; rw [hs] at this; exact this
  rw [hs] at e
  obtain rfl : H' = H2 := (Prod.mk.inj e).1
  have hq1 : ∀ x y, sym.toFd2 x y = sym.toFd2 a b ↔ HopEquiv sym a b x y := fun x y => toFd2_eq_iff hl x y a b
  have hq2 : ∀ x y, sym.toFd2 x y = sym.toFd2 b a ↔ HopEquiv sym a b y x := by
    intro x y
    rw [toFd2_eq_iff hl]
    constructor <;> rintro ⟨g, e1, e2⟩ <;> exact ⟨g, e2, e1⟩
  refine ⟨?_, ?_, ?_, k⟩
  · intro x y
    rw [hasHop_iff w' hl, hasHop_iff w hl, hE, ← hq1 x y, ← hq2 x y]
    by_cases h1 : sym.toFd2 x y = sym.toFd2 a b
    · simp [h1]
    · by_cases h2 : sym.toFd2 x y = sym.toFd2 b a
      · simp [h2]
      · simp [h1, h2]
  · intro x y h1 h2
    rw [← hq1] at h1
    have h2' := h2
    rw [← hq2] at h2
    by_cases hxy : x = y
    · simp [getHop, hxy]
    · rw [getHop_eq w' hl hxy, getHop_eq w hl hxy]
      have e1 : E H' (sym.toFd2 x y).1 (sym.toFd2 x y).2 = E H (sym.toFd2 x y).1 (sym.toFd2 x y).2 := by
        rw [hE, if_neg h1, if_neg h2]
      have h3 : ¬ sym.toFd2 y x = sym.toFd2 a b := by rw [hq1]; exact h2'
      have h4 : ¬ sym.toFd2 y x = sym.toFd2 b a := by rw [hq2]; rw [hq1] at h1; exact h1
      have e2 : E H' (sym.toFd2 y x).1 (sym.toFd2 y x).2 = E H (sym.toFd2 y x).1 (sym.toFd2 y x).2 := by
        rw [hE, if_neg h3, if_neg h4]
      simp only [edgeVal, rev_toFd2 hl, e1, e2, hopErr, missing, k]
  · intro x; rw [getSite_eq, getSite_eq, o]

/-! ## C27, C28: enumeration -/

/-- C27: `sites()` enumerates every contained orbit exactly once; `hoppings()` enumerates every contained
hopping (up to symmetry and direction) exactly once and nothing else; `site_value_pairs` and
`hopping_value_pairs` give the values. -/
theorem C27_enumeration (h : Reachable sym H) :
    (sites H).Nodup ∧ (∀ s, HasSite sym H s ↔ ∃! t, t ∈ sites H ∧ sym.SameOrbit t s) ∧
    (hoppings H).Nodup ∧ (∀ p ∈ hoppings H, HasHop sym H p.1 p.2) ∧
    (∀ x y, HasHop sym H x y ↔
      ∃! p, p ∈ hoppings H ∧ (HopEquiv sym p.1 p.2 x y ∨ HopEquiv sym p.1 p.2 y x)) ∧
    (siteValuePairs H).map Prod.fst = sites H ∧
    (∀ s v, (s, v) ∈ siteValuePairs H → getSite sym H s = .ok v) ∧
    (hoppingValuePairs H).map Prod.fst = hoppings H ∧
    (∀ x y v, ((x, y), v) ∈ hoppingValuePairs H → getHop sym hc H x y = .ok v) := by
  obtain ⟨hl, w⟩ := h.wf
  have hhop : ∀ p ∈ hoppings H, HasHop sym H p.1 p.2 := by
    rintro ⟨a, b⟩ hp
    rw [HasHop, containsHop_iff_hoppings w hl]
    exact ⟨a, b, hp, .inl ⟨0, (hl.act_zero a).symm, (hl.act_zero b).symm⟩⟩
  refine ⟨w.keys, ?_, nodup_hoppings w.toNF, hhop, ?_, by simp [siteValuePairs, sites, keys, Function.comp_def],
    ?_, (hoppings_eq H).symm, ?_⟩
  · intro s
    rw [hasSite_iff]
    constructor
    · intro hs
      refine ⟨sym.toFd s, ⟨hs, (sameOrbit_iff hl).mpr (hl.toFd_of_which (hl.which_toFd s))⟩, ?_⟩
      rintro t ⟨ht, ho⟩
      rw [sameOrbit_iff hl, hl.toFd_of_which (w.fd t ht)] at ho
      exact ho
    · rintro ⟨t, ⟨ht, ho⟩, _⟩
      rw [sameOrbit_iff hl, hl.toFd_of_which (w.fd t ht)] at ho
      rw [← ho]; exact ht
  · intro x y
    rw [HasHop, containsHop_iff_hoppings w hl]
    constructor
    · rintro ⟨a, b, hm, hq⟩
      refine ⟨(a, b), ⟨hm, hq⟩, ?_⟩
      rintro ⟨a', b'⟩ ⟨hm', hq'⟩
      obtain ⟨st, he, hst⟩ := (mem_hoppings w.toNF).mp hm
      obtain ⟨st', he', hst'⟩ := (mem_hoppings w.toNF).mp hm'
      have ha := w.which_zero he
      have ha' := w.which_zero he'
      -- both pairs are representatives of (x, y) or of (y, x)
      have key : ∀ {a b : S}, sym.which a = 0 → ∀ {x y}, HopEquiv sym a b x y → sym.toFd2 x y = (a, b) := by
        intro a b ha x y hq
        rw [(toFd2_eq_iff hl x y a b).mpr hq, toFd2_of_fd hl ha]
      have contra : ∀ {a b a' b' : S} {st st'}, E H a b = some st → st ≠ .other → E H a' b' = some st' →
          st' ≠ .other → ∀ {x y}, sym.toFd2 x y = (a, b) → sym.toFd2 y x = (a', b') → False := by
        intro a b a' b' st st' he hst he' hst' x y e1 e2
        obtain ⟨_, st2, h1, h2⟩ := w.pair a b st he
        have : rev sym a b = (a', b') := by
          rw [← e2, ← rev_toFd2 hl x y, e1]
        rw [this] at h1
        simp only at h1
        rw [he'] at h1
        obtain rfl := Option.some.inj h1
        exact hst (h2.mpr hst')
      rcases hq with hq | hq <;> rcases hq' with hq' | hq'
      · rw [← key ha' hq', ← key ha hq]
      · exact (contra he hst he' hst' (key ha hq) (key ha' hq')).elim
      · exact (contra he hst he' hst' (key ha hq) (key ha' hq')).elim
      · rw [← key ha' hq', ← key ha hq]
    · rintro ⟨⟨a, b⟩, ⟨hm, hq⟩, _⟩
      exact ⟨a, b, hm, hq⟩
  · intro s v hv
    rw [siteValuePairs_mem w.toNF] at hv
    have : s ∈ keys H := O_isSome.mp (by rw [hv]; rfl)
    rw [getSite_eq, hl.toFd_of_which (w.fd s this), hv]
  · intro x y v hv
    obtain ⟨st, he, hst⟩ := (mem_hoppingValuePairs w.toNF).mp hv
    rw [getHop_ok_iff w hl, toFd2_of_fd hl (w.which_zero he)]
    refine ⟨(w.pair x y st he).1, ?_⟩
    simp only [edgeVal, he]
    cases st <;> simp_all [Stored.toVal?]

/-- C28: `neighbors(s)` lists exactly the sites `n` with `(s, n)` in the builder, each once, for every
image `s`; `degree(s)` is their number; both raise `KeyError` for an absent site. -/
theorem C28_neighbors (h : Reachable sym H) (s : S) :
    (HasSite sym H s → ∃ l, neighbors sym H s = .ok l ∧ l.Nodup ∧ (∀ n, n ∈ l ↔ HasHop sym H s n) ∧
      degree sym H s = .ok l.length) ∧
    (¬ HasSite sym H s → neighbors sym H s = .error (.keySite (sym.toFd s)) ∧
      degree sym H s = .error (.keySite (sym.toFd s))) := by
  obtain ⟨hl, w⟩ := h.wf
  rw [hasSite_iff]
  constructor
  · intro hs
    obtain ⟨row, hg⟩ := get_of_mem_keys hs
    have hg' : get H (sym.act (-sym.which s) s) = some row := hg
    refine ⟨(keys row.edges).map (sym.act (sym.which s)), ?_, ?_, ?_, ?_⟩
    · simp [neighbors, outNeighbors, hg']
    · exact (w.rows _ _ hg).map (fun a b e => hl.act_inj.mp e)
    · intro n
      rw [hasHop_iff w hl]
      simp only [List.mem_map, mem_edges_iff hg]
      constructor
      · rintro ⟨m, hm, rfl⟩
        have e2 : (sym.toFd2 s (sym.act (sym.which s) m)).2 = m := by
          simp only [toFd2_eq, hl.act_neg_act]
        refine ⟨?_, by rw [e2]; exact hm⟩
        intro e
        obtain ⟨st, he⟩ := Option.isSome_iff_exists.mp hm
        apply (w.pair _ _ _ he).1
        have h2 := congrArg (sym.act (-sym.which s)) e
        rwa [hl.act_neg_act] at h2
      · rintro ⟨_, hsome⟩
        exact ⟨(sym.toFd2 s n).2, hsome, by simp only [toFd2_eq, hl.act_act_neg]⟩
    · simp [degree, outDegree, hg, keys]
  · intro hs
    have hg := get_eq_none.mpr hs
    have hg' : get H (sym.act (-sym.which s) s) = none := hg
    exact ⟨by simp [neighbors, outNeighbors, hg', Symmetry.toFd], by simp [degree, outDegree, hg]⟩

/-! ## C29: eradicate_dangling -/

/-- The 2-core, in terms of containment: `s` belongs to a set of sites each of which has hoppings to two
different members of the set. -/
def InCore (sym : Symmetry S G) (H : HMap S V Fn) (s : S) : Prop :=
  ∃ K : S → Prop, K s ∧ ∀ x, K x → ∃ n1 n2, n1 ≠ n2 ∧ HasHop sym H x n1 ∧ HasHop sym H x n2 ∧ K n1 ∧ K n2

/-- C29: `eradicate_dangling()` always finishes without error; afterwards every site has at least two
hoppings; the surviving sites are exactly those of the 2-core (the largest subset with that property);
values of what survives are unchanged, and hoppings between survivors survive. -/
theorem C29_eradicate (h : Reachable sym H) :
    ∃ H', eradicateDangling sym H = (H', none) ∧
      (∀ s, HasSite sym H' s → ∃ d, degree sym H' s = .ok d ∧ 2 ≤ d) ∧
      (∀ s, HasSite sym H' s ↔ InCore sym H s) ∧
      (∀ s, HasSite sym H' s → getSite sym H' s = getSite sym H s) ∧
      (∀ x y v, getHop sym hc H' x y = .ok v ↔
        getHop sym hc H x y = .ok v ∧ HasSite sym H' x ∧ HasSite sym H' y) := by
  obtain ⟨hl, w⟩ := h.wf
  obtain ⟨H', e, r, hd, hK⟩ := eradicate_ok w hl
  have w' := r.wf w hl
  have hto : ∀ x y, sym.toFd (sym.toFd2 x y).2 = sym.toFd y := by
    intro x y; simp only [toFd2_eq, hl.toFd_act]
  have hE' : ∀ x y, E H' (sym.toFd2 x y).1 (sym.toFd2 x y).2 =
      if sym.toFd x ∈ keys H' ∧ sym.toFd y ∈ keys H' then E H (sym.toFd2 x y).1 (sym.toFd2 x y).2
      else none := by
    intro x y
    simp only [r.edge, hto]; rfl
  have hdeg : ∀ s, HasSite sym H' s → ∃ d, degree sym H' s = .ok d ∧ 2 ≤ d := by
    intro s hs
    rw [hasSite_iff] at hs
    obtain ⟨row, hg⟩ := get_of_mem_keys hs
    refine ⟨row.edges.length, by simp [degree, outDegree, hg], ?_⟩
    by_contra hlt
    exact hd _ ⟨row, hg, by omega⟩
  refine ⟨H', e, hdeg, ?_, ?_, ?_⟩
  · intro s
    constructor
    · intro hs
      refine ⟨HasSite sym H', hs, ?_⟩
      intro x hx
      obtain ⟨d, hd1, hd2⟩ := hdeg x hx
      rw [hasSite_iff] at hx
      obtain ⟨⟨v, edges⟩, hg⟩ := get_of_mem_keys hx
      have : 2 ≤ edges.length := by
        simp only [degree, outDegree, hg, Except.ok.injEq] at hd1; omega
      match edges, this with
      | p :: q :: rest, _ =>
        obtain ⟨m1, st1⟩ := p
        obtain ⟨m2, st2⟩ := q
        have hnd := w'.rows _ _ hg
        simp only [keys_cons, List.nodup_cons, List.mem_cons, not_or] at hnd
        have hne : m1 ≠ m2 := hnd.1.1
        have e1 : E H' (sym.toFd x) m1 = some st1 := by simp [E, hg, Assoc.get]
        have e2 : E H' (sym.toFd x) m2 = some st2 := by simp [E, hg, Assoc.get, hne]
        have hhas : ∀ m st, E H' (sym.toFd x) m = some st →
            HasHop sym H x (sym.act (sym.which x) m) ∧ HasSite sym H' (sym.act (sym.which x) m) := by
          intro m st he
          have e3 : (sym.toFd2 x (sym.act (sym.which x) m)).2 = m := by
            simp only [toFd2_eq, hl.act_neg_act]
          have hm := w'.toFd_mem hl he
          refine ⟨?_, by rw [hasSite_iff, hl.toFd_act]; exact hm⟩
          rw [hasHop_iff w hl, e3]
          rw [r.edge, if_pos ⟨hx, hm⟩] at he
          refine ⟨?_, by
            change (E H (sym.toFd x) m).isSome = true
            rw [he]; rfl⟩
          intro e4
          apply (w.pair _ _ _ he).1
          have h2 := congrArg (sym.act (-sym.which x)) e4
          rwa [hl.act_neg_act] at h2
        refine ⟨_, _, ?_, (hhas m1 st1 e1).1, (hhas m2 st2 e2).1, (hhas m1 st1 e1).2, (hhas m2 st2 e2).2⟩
        exact fun e => hne (hl.act_inj.mp e)
    · rintro ⟨K, hs, hcl⟩
      rw [hasSite_iff]
      refine hK (fun z => ∃ x, K x ∧ z = sym.toFd x) ⟨?_, ?_⟩ _ ⟨s, hs, rfl⟩
      · rintro z ⟨x, hx, rfl⟩
        obtain ⟨n1, n2, _, h1, _⟩ := hcl x hx
        rw [hasHop_iff w hl] at h1
        obtain ⟨st, he⟩ := Option.isSome_iff_exists.mp h1.2
        exact E_some_mem he
      · rintro z ⟨x, hx, rfl⟩
        obtain ⟨n1, n2, hne, h1, h2, k1, k2⟩ := hcl x hx
        rw [hasHop_iff w hl] at h1 h2
        refine ⟨(sym.toFd2 x n1).2, (sym.toFd2 x n2).2, ?_, h1.2, h2.2, ?_, ?_⟩
        · simp only [toFd2_eq]
          exact fun e => hne (hl.act_inj.mp e)
        · exact ⟨n1, k1, hto x n1⟩
        · exact ⟨n2, k2, hto x n2⟩
  · intro s hs
    rw [hasSite_iff] at hs
    rw [getSite_eq, getSite_eq, r.onsite, if_pos hs]
  · intro x y v
    rw [getHop_ok_iff w' hl, getHop_ok_iff w hl, hasSite_iff, hasSite_iff]
    have e1 := hE' x y
    have e2 := hE' y x
    by_cases hm : sym.toFd x ∈ keys H' ∧ sym.toFd y ∈ keys H'
    · rw [if_pos hm] at e1
      rw [if_pos hm.symm] at e2
      simp only [edgeVal, rev_toFd2 hl, e1, e2, hm, and_true]
    · rw [if_neg hm] at e1
      simp only [edgeVal, e1, hm, and_false]
      simp

/-! ## C30: update -/

/-- C30: `a.update(b)` for equal symmetries never fails; sites and hoppings of `b` get the values they have
in `b`, all others keep those of `a`; the result contains exactly the union. -/
theorem C30_update {sym' : Symmetry S G} {T : HMap S V Fn} (h : Reachable sym H) (ht : Reachable sym' T)
    (hs : SameSym sym sym') (hinv : ∀ v, hc (hc v) = v) :
    ∃ H', update sym H T = (H', none) ∧
      (∀ x, HasSite sym H' x ↔ HasSite sym H x ∨ HasSite sym' T x) ∧
      (∀ x, HasSite sym' T x → getSite sym H' x = getSite sym' T x) ∧
      (∀ x, ¬ HasSite sym' T x → getSite sym H' x = getSite sym H x) ∧
      (∀ x y, HasHop sym H' x y ↔ HasHop sym H x y ∨ HasHop sym' T x y) ∧
      (∀ x y, HasHop sym' T x y → getHop sym hc H' x y = getHop sym' hc T x y) ∧
      (∀ x y, ¬ HasHop sym' T x y → HasHop sym H x y → getHop sym hc H' x y = getHop sym hc H x y) := by
  obtain ⟨H', e, _, h1, h2, h3, h4, h5, h6⟩ :=
    update_effect (hc := hc) h.wf.2 h.lawful ht.wf.2 ht.lawful hs hinv
  refine ⟨H', e, ?_, h2, ?_, h4, h5, h6⟩
  · intro x; simp [HasSite, h1 x]
  · intro x hx; exact h3 x (by simpa [HasSite] using hx)

/-- C30, leads: the leads of the other builder are appended; with unequal symmetries nothing changes and
`ValueError` is raised. -/
theorem C30_leads {L : Type} {sym' : Symmetry S G} (b o : BState S V Fn L) (h : Reachable sym b.H)
    (ht : Reachable sym' o.H) (hs : SameSym sym sym') :
    updateFull sym true b o = (⟨(update sym b.H o.H).1, b.leads ++ o.leads⟩, none) ∧
    updateFull sym false b o = (b, some .value) := by
  obtain ⟨H', e, _⟩ := C30_update (hc := id) h ht hs (fun _ => rfl)
  simp [updateFull, e]

/-! ## Non-vacuity -/

/-- A chain with one-dimensional translational symmetry: sites `(cell, orbital)`. -/
def chainSym : Symmetry (ℤ × ℕ) ℤ := ⟨fun g s => (s.1 + g, s.2), fun s => s.1⟩

theorem chainSym_lawful : chainSym.Lawful where
  act_zero := fun s => by simp [chainSym]
  act_add := fun g h s => by simp [chainSym, add_comm, add_left_comm]
  which_act := fun g s => by simp [chainSym, add_comm]
  torsion := fun g hg => by omega

/-- A builder history: two orbitals per cell, a hopping between cells (given away from the fundamental
domain), a hopping of a site to its own image, and one onsite overwritten. -/
def exampleH : HMap (ℤ × ℕ) ℤ ℕ :=
  let H1 := setSite chainSym [] (5, 0) (.const 1)
  let H2 := setSite chainSym H1 (-3, 1) (.const 2)
  let H3 := (setHop chainSym H2 (7, 0) (8, 1) (.func 4)).1
  let H4 := (setHop chainSym H3 (2, 0) (1, 0) (.const 3)).1
  setSite chainSym H4 (0, 1) (.func 9)

theorem exampleH_reachable : Reachable chainSym exampleH := by
  unfold exampleH
  exact .setSite _ _ (.setHop _ _ _ (.setHop _ _ _ (.setSite _ _ (.setSite _ _ (.empty chainSym_lawful)))))

example : sites exampleH = [(0, 0), (0, 1)] ∧ hoppings exampleH = [((0, 0), (1, 1)), ((0, 0), (-1, 0))] := by
  decide
example : getHop chainSym (fun v : ℤ => -v) exampleH (5, 1) (4, 0) = .ok (.herm 4) := by decide
example : getHop chainSym (fun v : ℤ => -v) exampleH (5, 0) (6, 0) = .ok (.const (-3)) := by decide
example : (delSite chainSym exampleH (3, 0)).2 = none := by decide
example : (delHop chainSym exampleH (3, 0) (4, 0)).2 = none := by decide
example : (setHop chainSym exampleH (3, 0) (4, 2) (.const 0)).2 = some (.keySite (1, 2)) := by decide
example : sites (eradicateDangling chainSym exampleH).1 = [(0, 0)] := by decide
example : SameSym chainSym chainSym.reversed where
  le := fun g => ⟨-g, fun s => by simp [chainSym, Symmetry.reversed]⟩
  ge := fun g => ⟨-g, fun s => by simp [chainSym, Symmetry.reversed]⟩
/-- The property C29 distinguishes: the dangling orbital is not in the core, the chain is. -/
example : InCore chainSym exampleH (0, 0) := by
  refine ⟨fun s => s.2 = 0, rfl, ?_⟩
  rintro ⟨c, o⟩ rfl
  have hr := exampleH_reachable
  have hact : ∀ g x y, HasHop chainSym exampleH x y → HasHop chainSym exampleH (chainSym.act g x) (chainSym.act g y) :=
    fun g x y => ((C20_wellformed hr).2.2.2.2.2.1 g x y).mp
  refine ⟨(c + 1, 0), (c - 1, 0), by simp; omega, ?_, ?_, rfl, rfl⟩
  · have := hact c (0, 0) (1, 0) (by decide)
    simpa [chainSym, add_comm] using this
  · have := hact c (0, 0) (-1, 0) (by decide)
    simpa [chainSym, add_comm, sub_eq_add_neg] using this

end Kwant.Builder
