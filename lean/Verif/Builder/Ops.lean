import Verif.Builder.Lemmas

/-! Effect of each elementary builder operation on the abstract contents, and preservation of `WF`. -/
set_option linter.unusedSectionVars false

namespace Kwant.Builder
open Kwant Kwant.Assoc
variable {S G V Fn : Type} [DecidableEq S] [AddCommGroup G] [DecidableEq G]
variable {sym : Symmetry S G} {hc : V → V}

/-! ### `_set_site` -/

theorem setSite_effect {H : HMap S V Fn} (hn : NF H) (s : S) (v : Val V Fn) :
    NF (setSite sym H s v) ∧
    (∀ x, x ∈ keys (setSite sym H s v) ↔ x = sym.toFd s ∨ x ∈ keys H) ∧
    (∀ x, O (setSite sym H s v) x = if sym.toFd s = x then some v else O H x) ∧
    (∀ x y, E (setSite sym H s v) x y = E H x y) := by
  unfold setSite
  cases hg : get H (sym.toFd s) with
  | none =>
    simp only
    refine ⟨hn.put_row (by simp), fun x => mem_keys_put, ?_, ?_⟩
    · intro x; simp only [O, get_put]
      by_cases hx : sym.toFd s = x <;> simp [hx]
    · intro x y; simp only [E, get_put]
      by_cases hx : sym.toFd s = x
      · subst hx; simp [hg]
      · simp [hx]
  | some r =>
    simp only
    refine ⟨hn.put_row (hn.rows _ r hg), fun x => mem_keys_put, ?_, ?_⟩
    · intro x; simp only [O, get_put]
      by_cases hx : sym.toFd s = x <;> simp [hx]
    · intro x y; simp only [E, get_put]
      by_cases hx : sym.toFd s = x
      · subst hx; simp [hg]
      · simp [hx]

theorem setSite_keys {H : HMap S V Fn} (s : S) (v : Val V Fn) :
    keys (setSite sym H s v) = if sym.toFd s ∈ keys H then keys H else keys H ++ [sym.toFd s] := by
  unfold setSite
  cases hg : get H (sym.toFd s) <;> simp only [keys_put]

theorem setSite_wf {H : HMap S V Fn} (h : WF sym H) (hl : sym.Lawful) (s : S) (v : Val V Fn) :
    WF sym (setSite sym H s v) := by
  obtain ⟨h1, h2, h3, h4⟩ := setSite_effect (sym := sym) h.toNF s v
  refine ⟨h1, ?_, ?_⟩
  · intro a ha
    rcases (h2 a).mp ha with rfl | ha
    · exact hl.which_toFd s
    · exact h.fd a ha
  · intro a b st he
    rw [h4] at he
    obtain ⟨h5, st', h6, h7⟩ := h.pair a b st he
    exact ⟨h5, st', by rw [h4]; exact h6, h7⟩

/-! ### `_set_hopping` -/

theorem fwd_bwd (v : Val V Fn) : v.fwd = .other ↔ v.bwd ≠ .other := by
  cases v <;> simp [Val.fwd, Val.bwd]

/-- Writing a hopping and its reverse consistently keeps well-formedness. -/
theorem WF.write {H H' : HMap S V Fn} (h : WF sym H) (hl : sym.Lawful) {a b : S} (hab : a ≠ b)
    (ha : sym.which a = 0) {st1 st2 : Stored V Fn} (h12 : st1 = .other ↔ st2 ≠ .other)
    (hn : NF H') (hk : keys H' = keys H)
    (hE : ∀ x y, E H' x y = if (x, y) = (a, b) then some st1
      else if (x, y) = rev sym a b then some st2 else E H x y) : WF sym H' := by
  refine ⟨hn, by rw [hk]; exact h.fd, ?_⟩
  intro x y st he
  have hrr := rev_rev hl ha b
  have hne := rev_ne hl hab
  rw [hE] at he
  by_cases h1 : (x, y) = (a, b)
  · simp only [h1, if_true, Option.some.injEq] at he
    subst he
    obtain ⟨rfl, rfl⟩ := Prod.mk.inj h1
    refine ⟨hab, st2, ?_, h12⟩
    rw [hE]; simp [hne]
  · simp only [h1, if_false] at he
    by_cases h2 : (x, y) = rev sym a b
    · simp only [h2, if_true, Option.some.injEq] at he
      subst he
      have hx : x = (rev sym a b).1 := by rw [← h2]
      have hy : y = (rev sym a b).2 := by rw [← h2]
      refine ⟨by rw [hx, hy]; exact rev_fst_ne_snd hl hab, st1, ?_, ?_⟩
      · rw [hx, hy, hE, hrr]; simp
      · have := not_congr h12; simp only [not_not] at this
        exact this.symm
    · simp only [h2, if_false] at he
      obtain ⟨h5, st', h6, h7⟩ := h.pair x y st he
      refine ⟨h5, st', ?_, h7⟩
      rw [hE]
      have hxw : sym.which x = 0 := h.which_zero he
      have e1 : ((rev sym x y).1, (rev sym x y).2) ≠ (a, b) := by
        intro hh
        apply h2
        rw [← rev_rev hl hxw y]
        obtain ⟨e1, e2⟩ := Prod.mk.inj hh
        rw [e1, e2]
      have e2 : ((rev sym x y).1, (rev sym x y).2) ≠ rev sym a b := by
        intro hh
        apply h1
        rw [← rev_rev hl hxw y, ← hrr]
        have h3 : (rev sym x y).1 = (rev sym a b).1 := congrArg Prod.fst hh
        have h4 : (rev sym x y).2 = (rev sym a b).2 := congrArg Prod.snd hh
        rw [h3, h4]
      simp only [e1, e2, if_false, h6]

theorem setHopPrep_ok {H : HMap S V Fn} (h : WF sym H) (hl : sym.Lawful) {a b : S}
    (ha : sym.which a = 0) (hak : a ∈ keys H) (hbk : sym.toFd b ∈ keys H) :
    setHopPrep sym H a b = .ok (rev sym a b) := by
  unfold setHopPrep
  by_cases hb : sym.inFd b = true
  · have hb' : sym.which b = 0 := by simpa [Symmetry.inFd] using hb
    rw [hl.toFd_of_which hb'] at hbk
    simp [hb, hak, hbk, rev_of_inFd hl hb]
  · have h1 := rev_inFd hl (b := b) ha
    simp only [rev] at h1
    have h2 : (sym.toFd2 b a).1 ∈ keys H := hbk
    simp [hb, h1, h2, rev]

theorem setHop_effect {H : HMap S V Fn} (h : WF sym H) (hl : sym.Lawful) {x y : S} (hxy : x ≠ y)
    (hx : sym.toFd x ∈ keys H) (hy : sym.toFd y ∈ keys H) (v : Val V Fn) :
    ∃ H', setHop sym H x y v = (H', none) ∧ NF H' ∧ keys H' = keys H ∧ O H' = O H ∧
      ∀ p q, E H' p q = if (p, q) = sym.toFd2 x y then some v.fwd
        else if (p, q) = sym.toFd2 y x then some v.bwd else E H p q := by
  have ha := toFd2_fst_fd hl x y
  have hne := toFd2_ne hl hxy
  have hrev := rev_toFd2 hl x y
  have hbk : sym.toFd (sym.toFd2 x y).2 ∈ keys H := by
    simp only [toFd2_eq, hl.toFd_act]; exact hy
  have hprep := setHopPrep_ok h hl ha hx hbk
  obtain ⟨H1, e1, n1, k1, o1, E1⟩ := setEdge_ok (st := v.fwd) (b := (sym.toFd2 x y).2)
    (a := (sym.toFd2 x y).1) hx h.toNF
  obtain ⟨H2, e2, n2, k2, o2, E2⟩ := setEdge_ok (st := v.bwd) (b := (sym.toFd2 y x).2)
    (a := (sym.toFd2 y x).1) (H := H1) (by rw [k1]; exact hy) n1
  refine ⟨H2, ?_, n2, by rw [k2, k1], by rw [o2, o1], ?_⟩
  · simp only [setHop, hxy, if_false, hprep, e1, Res.seq, hrev, e2]
  · intro p q
    rw [E2, E1]
    have hn2 := rev_ne hl hne
    rw [hrev] at hn2
    by_cases h1 : (p, q) = sym.toFd2 x y
    · have h3 : ¬ ((sym.toFd2 y x).1 = p ∧ (sym.toFd2 y x).2 = q) := by
        rintro ⟨e, e'⟩
        apply hn2
        rw [← h1, ← e, ← e']
      have h4 : (sym.toFd2 x y).1 = p ∧ (sym.toFd2 x y).2 = q := by rw [← h1]; simp
      simp only [h3, if_false, h4, h1, if_true, and_self]
    · have h4 : ¬ ((sym.toFd2 x y).1 = p ∧ (sym.toFd2 x y).2 = q) := by
        rintro ⟨e, e'⟩; apply h1; rw [← e, ← e']
      by_cases h2 : (p, q) = sym.toFd2 y x
      · have h3 : (sym.toFd2 y x).1 = p ∧ (sym.toFd2 y x).2 = q := by rw [← h2]; simp
        rw [if_neg h1, if_pos h3, if_pos h2]
      · have h3 : ¬ ((sym.toFd2 y x).1 = p ∧ (sym.toFd2 y x).2 = q) := by
          rintro ⟨e, e'⟩; apply h2; rw [← e, ← e']
        simp only [h3, h4, h1, h2, if_false]

/-- `_set_hopping` fails exactly for loops and absent sites, and then changes nothing. -/
theorem setHop_fail {H : HMap S V Fn} (h : WF sym H) (hl : sym.Lawful) {x y : S}
    (hbad : x = y ∨ sym.toFd x ∉ keys H ∨ sym.toFd y ∉ keys H) (v : Val V Fn) :
    ∃ e, setHop sym H x y v = (H, some e) ∧ (x = y → e = .value) ∧
      (x ≠ y → ∃ s, e = .keySite s ∧ (sym.toFd s = sym.toFd x ∨ sym.toFd s = sym.toFd y) ∧
        sym.toFd s ∉ keys H) := by
  unfold setHop
  by_cases hxy : x = y
  · exact ⟨.value, by simp [hxy], fun _ => rfl, fun hne => absurd hxy hne⟩
  · simp only [hxy, if_false]
    have ha := toFd2_fst_fd hl x y
    have hto : sym.toFd (sym.toFd2 x y).2 = sym.toFd y := by simp only [toFd2_eq, hl.toFd_act]
    have hto1 : sym.toFd (sym.toFd2 x y).1 = sym.toFd x := by simp only [toFd2_eq, hl.toFd_act]
    have hmem1 : ((sym.toFd2 x y).1 ∈ keys H) = (sym.toFd x ∈ keys H) := rfl
    have hr2 := rev_inFd hl (b := (sym.toFd2 x y).2) ha
    simp only [rev] at hr2
    have hbad : sym.toFd x ∉ keys H ∨ sym.toFd y ∉ keys H := by
      rcases hbad with h | h | h
      · exact absurd h hxy
      · exact .inl h
      · exact .inr h
    unfold setHopPrep
    by_cases hb : sym.inFd (sym.toFd2 x y).2 = true
    · have hb' : sym.which (sym.toFd2 x y).2 = 0 := by simpa [Symmetry.inFd] using hb
      have hb'' : (sym.toFd2 x y).2 = sym.toFd y := by rw [← hto, hl.toFd_of_which hb']
      simp only [hb, if_true]
      by_cases hx : (sym.toFd2 x y).1 ∈ keys H
      · have hx2 : sym.toFd x ∈ keys H := hx
        have hy2 : sym.toFd y ∉ keys H := by
          rcases hbad with h | h
          · exact absurd hx2 h
          · exact h
        have hy3 : (sym.toFd2 x y).2 ∉ keys H := by rw [hb'']; exact hy2
        simp only [hx, not_true, if_false, hy3, not_false_eq_true, if_true]
        refine ⟨_, rfl, fun h => absurd h (by simp), fun _ => ⟨_, rfl, .inr hto, ?_⟩⟩
        rw [hto]; exact hy2
      · simp only [hx, not_false_eq_true, if_true]
        refine ⟨_, rfl, fun h => absurd h (by simp), fun _ => ⟨_, rfl, .inl hto1, ?_⟩⟩
        rw [hto1]; exact hx
    · simp only [hb, hr2]
      by_cases hy : (sym.toFd2 (sym.toFd2 x y).2 (sym.toFd2 x y).1).1 ∈ keys H
      · have hy2 : sym.toFd y ∈ keys H := by rw [← hto]; exact hy
        have hx2 : sym.toFd x ∉ keys H := by
          rcases hbad with h | h
          · exact h
          · exact absurd hy2 h
        have hx3 : (sym.toFd2 x y).1 ∉ keys H := hx2
        simp only [Bool.false_eq_true, if_false, hy, not_true, Res.seq, setEdge_missing hx3]
        refine ⟨_, rfl, fun h => absurd h (by simp), fun _ => ⟨_, rfl, .inl hto1, ?_⟩⟩
        rw [hto1]; exact hx2
      · simp only [Bool.false_eq_true, if_false, hy, not_false_eq_true, if_true]
        refine ⟨_, rfl, fun h => absurd h (by simp), fun _ => ⟨_, rfl, .inr hto, ?_⟩⟩
        exact hy

theorem setHop_wf {H : HMap S V Fn} (h : WF sym H) (hl : sym.Lawful) (x y : S) (v : Val V Fn) :
    WF sym (setHop sym H x y v).1 := by
  by_cases hok : x ≠ y ∧ sym.toFd x ∈ keys H ∧ sym.toFd y ∈ keys H
  · obtain ⟨H', e, n, k, o, hE⟩ := setHop_effect h hl hok.1 hok.2.1 hok.2.2 v
    rw [e]
    refine h.write hl (toFd2_ne hl hok.1) (toFd2_fst_fd hl x y) (fwd_bwd v) n k ?_
    intro p q
    rw [hE, rev_toFd2 hl]
  · obtain ⟨e, he, _⟩ := setHop_fail h hl (x := x) (y := y) (by tauto) v
    rw [he]; exact h

/-! ### `_del_hopping` -/

/-- Removing a hopping in both directions keeps well-formedness. -/
theorem WF.erase {H H' : HMap S V Fn} (h : WF sym H) (hl : sym.Lawful) {a b : S}
    (ha : sym.which a = 0)
    (hn : NF H') (hk : keys H' = keys H)
    (hE : ∀ x y, E H' x y = if (x, y) = (a, b) then none
      else if (x, y) = rev sym a b then none else E H x y) : WF sym H' := by
  refine ⟨hn, by rw [hk]; exact h.fd, ?_⟩
  intro x y st he
  have hrr := rev_rev hl ha b
  rw [hE] at he
  by_cases h1 : (x, y) = (a, b)
  · simp [h1] at he
  · simp only [h1, if_false] at he
    by_cases h2 : (x, y) = rev sym a b
    · simp [h2] at he
    · simp only [h2, if_false] at he
      obtain ⟨h5, st', h6, h7⟩ := h.pair x y st he
      refine ⟨h5, st', ?_, h7⟩
      rw [hE]
      have hxw : sym.which x = 0 := h.which_zero he
      have e1 : ((rev sym x y).1, (rev sym x y).2) ≠ (a, b) := by
        intro hh
        apply h2
        rw [← rev_rev hl hxw y]
        obtain ⟨e1, e2⟩ := Prod.mk.inj hh
        rw [e1, e2]
      have e2 : ((rev sym x y).1, (rev sym x y).2) ≠ rev sym a b := by
        intro hh
        apply h1
        rw [← rev_rev hl hxw y, ← hrr]
        have h3 : (rev sym x y).1 = (rev sym a b).1 := congrArg Prod.fst hh
        have h4 : (rev sym x y).2 = (rev sym a b).2 := congrArg Prod.snd hh
        rw [h3, h4]
      simp only [e1, e2, if_false, h6]

theorem delHop_effect {H : HMap S V Fn} (h : WF sym H) (hl : sym.Lawful) {x y : S} (hxy : x ≠ y)
    (he : (E H (sym.toFd2 x y).1 (sym.toFd2 x y).2).isSome = true) :
    ∃ H', delHop sym H x y = (H', none) ∧ NF H' ∧ keys H' = keys H ∧ O H' = O H ∧
      ∀ p q, E H' p q = if (p, q) = sym.toFd2 x y then none
        else if (p, q) = sym.toFd2 y x then none else E H p q := by
  have ha := toFd2_fst_fd hl x y
  have hne := toFd2_ne hl hxy
  have hrev := rev_toFd2 hl x y
  obtain ⟨st, he⟩ := Option.isSome_iff_exists.mp he
  obtain ⟨_, st', he', _⟩ := h.pair _ _ _ he
  rw [hrev] at he'
  obtain ⟨H1, e1, n1, k1, o1, E1⟩ := delEdge_ok he h.toNF
  have hn2 := rev_ne hl hne
  rw [hrev] at hn2
  have he1 : E H1 (sym.toFd2 y x).1 (sym.toFd2 y x).2 = some st' := by
    rw [E1, he']
    have : ¬ ((sym.toFd2 x y).1 = (sym.toFd2 y x).1 ∧ (sym.toFd2 x y).2 = (sym.toFd2 y x).2) := by
      rintro ⟨e, e'⟩; exact hn2 (Prod.ext e.symm e'.symm)
    simp [this]
  obtain ⟨H2, e2, n2, k2, o2, E2⟩ := delEdge_ok he1 n1
  refine ⟨H2, ?_, n2, by rw [k2, k1], by rw [o2, o1], ?_⟩
  · simp only [delHop, hxy, if_false, e1, Res.seq]
    by_cases hb : sym.inFd (sym.toFd2 x y).2 = true
    · have := rev_of_inFd hl (a := (sym.toFd2 x y).1) hb
      rw [hrev] at this
      simp only [hb, if_true]
      rw [this] at e2
      exact e2
    · have h1 := rev_inFd hl (b := (sym.toFd2 x y).2) ha
      rw [hrev] at h1
      simp only [rev] at hrev
      simp only [hb, hrev, h1]
      exact e2
  · intro p q
    rw [E2, E1]
    by_cases h1 : (p, q) = sym.toFd2 x y
    · have h4 : (sym.toFd2 x y).1 = p ∧ (sym.toFd2 x y).2 = q := by rw [← h1]; simp
      simp [h4, h1]
    · have h4 : ¬ ((sym.toFd2 x y).1 = p ∧ (sym.toFd2 x y).2 = q) := by
        rintro ⟨e, e'⟩; apply h1; rw [← e, ← e']
      by_cases h2 : (p, q) = sym.toFd2 y x
      · have h3 : (sym.toFd2 y x).1 = p ∧ (sym.toFd2 y x).2 = q := by rw [← h2]; simp
        simp [h3, h2]
      · have h3 : ¬ ((sym.toFd2 y x).1 = p ∧ (sym.toFd2 y x).2 = q) := by
          rintro ⟨e, e'⟩; apply h2; rw [← e, ← e']
        simp only [h3, h4, h1, h2, if_false]

theorem delHop_fail {H : HMap S V Fn} {x y : S}
    (hbad : x = y ∨ E H (sym.toFd2 x y).1 (sym.toFd2 x y).2 = none) :
    ∃ e, delHop sym H x y = (H, some e) ∧ (x = y → e = .value) ∧
      (x ≠ y → e = hopErr H (sym.toFd2 x y).1 (sym.toFd2 x y).2) := by
  unfold delHop
  by_cases hxy : x = y
  · exact ⟨.value, by simp [hxy], fun _ => rfl, fun h => absurd hxy h⟩
  · have he := hbad.resolve_left hxy
    exact ⟨hopErr H (sym.toFd2 x y).1 (sym.toFd2 x y).2,
      by simp [hxy, delEdge_missing he, Res.seq, hopErr], fun h => absurd h hxy, fun _ => rfl⟩

theorem delHop_wf {H : HMap S V Fn} (h : WF sym H) (hl : sym.Lawful) (x y : S) :
    WF sym (delHop sym H x y).1 := by
  by_cases hok : x ≠ y ∧ (E H (sym.toFd2 x y).1 (sym.toFd2 x y).2).isSome = true
  · obtain ⟨H', e, n, k, o, hE⟩ := delHop_effect h hl hok.1 hok.2
    rw [e]
    refine h.erase hl (a := (sym.toFd2 x y).1) (b := (sym.toFd2 x y).2) (toFd2_fst_fd hl x y) n k ?_
    intro p q
    rw [hE, rev_toFd2 hl]
  · obtain ⟨e, he, _⟩ := delHop_fail (sym := sym) (H := H) (x := x) (y := y) (by
      by_cases hxy : x = y
      · exact .inl hxy
      · right
        cases hE : E H (sym.toFd2 x y).1 (sym.toFd2 x y).2 with
        | none => rfl
        | some st => exact absurd ⟨hxy, by rw [hE]; rfl⟩ hok)
    rw [he]; exact h

end Kwant.Builder
