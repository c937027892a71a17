import Verif.Builder.Read

/-! `Builder.update`. -/
set_option linter.unusedSectionVars false

namespace Kwant.Builder
open Kwant Kwant.Assoc
variable {S G V Fn : Type} [DecidableEq S] [AddCommGroup G] [DecidableEq G]
variable {sym sym' : Symmetry S G} {hc : V → V}

/-- Both symmetries contain each other (`has_subgroup` in both directions, builder.py l.1359-1362). -/
structure SameSym (sym sym' : Symmetry S G) : Prop where
  le : ∀ g, ∃ g', ∀ s, sym.act g s = sym'.act g' s
  ge : ∀ g', ∃ g, ∀ s, sym'.act g' s = sym.act g s

theorem SameSym.symm (h : SameSym sym sym') : SameSym sym' sym := ⟨h.ge, h.le⟩

theorem SameSym.hopEquiv (h : SameSym sym sym') {a b x y : S} :
    HopEquiv sym a b x y ↔ HopEquiv sym' a b x y := by
  constructor
  · rintro ⟨g, rfl, rfl⟩
    obtain ⟨g', hg⟩ := h.le g
    exact ⟨g', hg a, hg b⟩
  · rintro ⟨g, rfl, rfl⟩
    obtain ⟨g', hg⟩ := h.ge g
    exact ⟨g', hg a, hg b⟩

theorem SameSym.toFd (h : SameSym sym sym') (hl' : sym'.Lawful) (x : S) :
    sym'.toFd (sym.toFd x) = sym'.toFd x := by
  obtain ⟨g', hg⟩ := h.le (-sym.which x)
  have : sym.toFd x = sym'.act g' x := hg x
  rw [this, hl'.toFd_act]

/-- Values of equivalent hoppings agree. -/
theorem getHop_equiv {H : HMap S V Fn} (h : WF sym H) (hl : sym.Lawful) {a b x y : S}
    (hq : HopEquiv sym a b x y) (v : Val V Fn) : getHop sym hc H x y = .ok v ↔ getHop sym hc H a b = .ok v := by
  obtain ⟨g, rfl, rfl⟩ := hq
  by_cases hab : a = b
  · simp [getHop, hab]
  · rw [getHop_eq h hl hab, getHop_eq h hl (by rwa [Ne, hl.act_inj]), hl.toFd2_act]

theorem getHop_ok_iff {H : HMap S V Fn} (h : WF sym H) (hl : sym.Lawful) {x y : S} {v : Val V Fn} :
    getHop sym hc H x y = .ok v ↔
      x ≠ y ∧ edgeVal hc sym H (sym.toFd2 x y).1 (sym.toFd2 x y).2 = some v := by
  by_cases hxy : x = y
  · simp [getHop, hxy]
  · rw [getHop_eq h hl hxy]
    cases edgeVal hc sym H (sym.toFd2 x y).1 (sym.toFd2 x y).2 <;> simp [hxy]

/-- Hermiticity: the value of the reversed hopping is the Hermitian conjugate. -/
theorem getHop_conj {H : HMap S V Fn} (h : WF sym H) (hl : sym.Lawful) (hinv : ∀ v, hc (hc v) = v)
    {x y : S} {v : Val V Fn} (hv : getHop sym hc H x y = .ok v) :
    getHop sym hc H y x = .ok (v.conj hc) := by
  rw [getHop_ok_iff h hl] at hv ⊢
  refine ⟨Ne.symm hv.1, ?_⟩
  have := edgeVal_rev h hl hinv hv.2
  rwa [rev_toFd2 hl] at this

theorem containsHop_iff {H : HMap S V Fn} (h : WF sym H) (hl : sym.Lawful) {x y : S} :
    containsHop sym H x y = .ok true ↔ ∃ v, getHop sym hc H x y = .ok v := by
  rw [containsHop_eq]
  by_cases hxy : x = y
  · simp [hxy, getHop]
  · rw [if_neg hxy]
    simp only [getHop_ok_iff h hl, Ne, hxy, not_false_eq_true, true_and]
    rw [← Option.isSome_iff_exists, edgeVal_isSome h]
    simp

/-- A hopping is contained iff an equivalent of it, or of its reverse, is listed by `hoppings()`. -/
theorem containsHop_iff_hoppings {H : HMap S V Fn} (h : WF sym H) (hl : sym.Lawful) {x y : S} :
    containsHop sym H x y = .ok true ↔
      ∃ a b, (a, b) ∈ hoppings H ∧ (HopEquiv sym a b x y ∨ HopEquiv sym a b y x) := by
  rw [containsHop_eq]
  by_cases hxy : x = y
  · subst hxy
    simp only [if_true]
    constructor
    · intro h; cases h
    · rintro ⟨a, b, hm, hq⟩
      obtain ⟨st, he, _⟩ := (mem_hoppings h.toNF).mp hm
      obtain ⟨hne, _⟩ := h.pair a b st he
      exfalso
      rcases hq with ⟨g, e1, e2⟩ | ⟨g, e1, e2⟩ <;> exact hne (hl.act_inj.mp (e1.symm.trans e2))
  · rw [if_neg hxy]
    simp only [Except.ok.injEq]
    constructor
    · intro hs
      obtain ⟨st, he⟩ := Option.isSome_iff_exists.mp hs
      by_cases ho : st = .other
      · obtain ⟨_, st', h1, h2⟩ := h.pair _ _ _ he
        rw [rev_toFd2 hl] at h1
        refine ⟨_, _, (mem_hoppings h.toNF).mpr ⟨st', h1, h2.mp ho⟩, .inr ?_⟩
        rw [HopEquiv, ← toFd2_eq_iff hl]
        exact (hl.toFd2_act _ y x).symm
      · refine ⟨_, _, (mem_hoppings h.toNF).mpr ⟨st, he, ho⟩, .inl ?_⟩
        rw [HopEquiv, ← toFd2_eq_iff hl]
        exact (hl.toFd2_act _ x y).symm
    · rintro ⟨a, b, hm, hq⟩
      obtain ⟨st, he, _⟩ := (mem_hoppings h.toNF).mp hm
      have ha := h.which_zero he
      rcases hq with hq | hq
      · rw [(toFd2_eq_iff hl x y a b).mpr hq, toFd2_of_fd hl ha, he]; rfl
      · obtain ⟨_, st', h1, _⟩ := h.pair _ _ _ he
        have : sym.toFd2 x y = sym.toFd2 b a := by
          rw [toFd2_eq_iff hl]; obtain ⟨g, e1, e2⟩ := hq; exact ⟨g, e2, e1⟩
        rw [this]
        have h1' : E H (sym.toFd2 b a).1 (sym.toFd2 b a).2 = some st' := h1
        rw [h1']; rfl

/-! ### The two loops -/

theorem updateSites_effect (hl : sym.Lawful) : ∀ (ps : List (S × Val V Fn)) (H : HMap S V Fn), WF sym H →
    WF sym (updateSites sym H ps) ∧
    (∀ x, x ∈ keys (updateSites sym H ps) ↔ x ∈ keys H ∨ ∃ p ∈ ps, sym.toFd p.1 = x) ∧
    (∀ x y, E (updateSites sym H ps) x y = E H x y) ∧
    (∀ x, (∀ p ∈ ps, sym.toFd p.1 ≠ x) → O (updateSites sym H ps) x = O H x) ∧
    (∀ x v, (∃ p ∈ ps, sym.toFd p.1 = x) → (∀ p ∈ ps, sym.toFd p.1 = x → p.2 = v) →
      O (updateSites sym H ps) x = some v) := by
  intro ps
  induction ps with
  | nil => intro H h; simp [updateSites, h]
  | cons p ps ih =>
    intro H h
    obtain ⟨s, w⟩ := p
    obtain ⟨a1, a2, a3, a4⟩ := setSite_effect (sym := sym) h.toNF s w
    have hw := setSite_wf h hl s w
    obtain ⟨b1, b2, b3, b4, b5⟩ := ih (setSite sym H s w) hw
    have hfold : updateSites sym H ((s, w) :: ps) = updateSites sym (setSite sym H s w) ps := rfl
    rw [hfold]
    refine ⟨b1, ?_, ?_, ?_, ?_⟩
    · intro x
      rw [b2, a2]
      simp only [List.mem_cons, exists_eq_or_imp]
      constructor
      · rintro ((rfl | h) | h)
        · exact .inr (.inl rfl)
        · exact .inl h
        · exact .inr (.inr h)
      · rintro (h | rfl | h)
        · exact .inl (.inr h)
        · exact .inl (.inl rfl)
        · exact .inr h
    · intro x y; rw [b3, a4]
    · intro x hx
      rw [b4 x (fun p hp => hx p (by simp [hp])), a3, if_neg (hx (s, w) (by simp))]
    · intro x v _ hv
      by_cases hlater : ∃ p ∈ ps, sym.toFd p.1 = x
      · exact b5 x v hlater (fun p hp => hv p (by simp [hp]))
      · push Not at hlater
        rename_i hex
        obtain ⟨p, hp, e⟩ := hex
        simp only [List.mem_cons] at hp
        rcases hp with rfl | hp
        · rw [b4 x hlater, a3, if_pos e]
          exact congrArg some (hv _ (by simp) e)
        · exact absurd e (hlater p hp)

/-- Writing values that all come from a hermitian, symmetric assignment `F` of values to hoppings. -/
theorem updateHops_effect (hl : sym.Lawful) (F : S → S → Val V Fn → Prop)
    (hF1 : ∀ a b x y v, HopEquiv sym a b x y → F a b v → F x y v)
    (hF2 : ∀ a b v, F a b v → F b a (v.conj hc)) :
    ∀ (ps : List ((S × S) × Val V Fn)) (H : HMap S V Fn), WF sym H →
    (∀ p ∈ ps, p.1.1 ≠ p.1.2 ∧ sym.toFd p.1.1 ∈ keys H ∧ sym.toFd p.1.2 ∈ keys H ∧ F p.1.1 p.1.2 p.2) →
    ∃ H', updateHops sym ps H = (H', none) ∧ WF sym H' ∧ keys H' = keys H ∧ O H' = O H ∧
      (∀ x y, (∃ p ∈ ps, HopEquiv sym p.1.1 p.1.2 x y ∨ HopEquiv sym p.1.1 p.1.2 y x) →
        ∃ v, getHop sym hc H' x y = .ok v ∧ F x y v) ∧
      (∀ x y, (∀ p ∈ ps, ¬ HopEquiv sym p.1.1 p.1.2 x y ∧ ¬ HopEquiv sym p.1.1 p.1.2 y x) →
        getHop sym hc H' x y = getHop sym hc H x y) := by
  intro ps
  induction ps with
  | nil => intro H h _; exact ⟨H, rfl, h, rfl, rfl, by simp, by simp⟩
  | cons p ps ih =>
    intro H h hps
    obtain ⟨⟨a, b⟩, w⟩ := p
    obtain ⟨hab, hka, hkb, hFw⟩ := hps _ (List.mem_cons_self)
    obtain ⟨H1, e1, _⟩ := setHop_effect h hl hab hka hkb w
    obtain ⟨_, w1, k1, o1, g1, g2, g3⟩ := setHop_getHop (hc := hc) h hl e1
    obtain ⟨H', e', w', k', o', s1, s2⟩ := ih H1 w1 (by
      intro p hp; rw [k1]; exact hps p (by simp [hp]))
    refine ⟨H', by simp [updateHops, e1, Res.seq, e'], w', by rw [k', k1], by rw [o', o1], ?_, ?_⟩
    · intro x y hex
      by_cases hlater : ∃ p ∈ ps, HopEquiv sym p.1.1 p.1.2 x y ∨ HopEquiv sym p.1.1 p.1.2 y x
      · exact s1 x y hlater
      · push Not at hlater
        obtain ⟨p, hp, hq⟩ := hex
        simp only [List.mem_cons] at hp
        rcases hp with rfl | hp
        · rw [s2 x y hlater]
          rcases hq with hq | hq
          · exact ⟨w, g1 x y hq, hF1 _ _ _ _ _ hq hFw⟩
          · refine ⟨_, g2 x y hq, hF1 _ _ _ _ _ ?_ (hF2 _ _ _ hFw)⟩
            obtain ⟨g, e1, e2⟩ := hq
            exact ⟨g, e2, e1⟩
        · have := hlater p hp
          tauto
    · intro x y hno
      rw [s2 x y (fun p hp => hno p (by simp [hp]))]
      have := hno _ (List.mem_cons_self)
      exact (g3 x y this.1 this.2).1

theorem siteValuePairs_mem {H : HMap S V Fn} (hn : NF H) {s : S} {v : Val V Fn} :
    (s, v) ∈ siteValuePairs H ↔ O H s = some v := by
  unfold siteValuePairs O
  simp only [List.mem_map, Prod.mk.injEq, Option.map_eq_some_iff, Prod.exists]
  constructor
  · rintro ⟨a, row, h1, rfl, rfl⟩; exact ⟨row, get_of_mem hn.keys h1, rfl⟩
  · rintro ⟨row, h1, h2⟩; exact ⟨s, row, mem_of_get h1, rfl, h2⟩

/-- `update`: every site and hopping of `other` gets the value it has in `other`; everything else is as in
`H`.  Never fails. -/
theorem update_effect {H T : HMap S V Fn} (h : WF sym H) (hl : sym.Lawful) (ht : WF sym' T)
    (hl' : sym'.Lawful) (hs : SameSym sym sym') (hinv : ∀ v, hc (hc v) = v) :
    ∃ H', update sym H T = (H', none) ∧ WF sym H' ∧
      (∀ x, containsSite sym H' x = (containsSite sym H x || containsSite sym' T x)) ∧
      (∀ x, containsSite sym' T x = true → getSite sym H' x = getSite sym' T x) ∧
      (∀ x, containsSite sym' T x = false → getSite sym H' x = getSite sym H x) ∧
      (∀ x y, containsHop sym H' x y = .ok true ↔
        (containsHop sym H x y = .ok true ∨ containsHop sym' T x y = .ok true)) ∧
      (∀ x y, containsHop sym' T x y = .ok true → getHop sym hc H' x y = getHop sym' hc T x y) ∧
      (∀ x y, containsHop sym' T x y ≠ .ok true → containsHop sym H x y = .ok true →
        getHop sym hc H' x y = getHop sym hc H x y) := by
  obtain ⟨u1, u2, u3, u4, u5⟩ := updateSites_effect hl (siteValuePairs T) H h
  -- sites of `T`
  have hsite : ∀ x : S, (∃ p ∈ siteValuePairs T, sym.toFd p.1 = sym.toFd x) ↔ sym'.toFd x ∈ keys T := by
    intro x
    constructor
    · rintro ⟨⟨s, v⟩, hp, e⟩
      rw [siteValuePairs_mem ht.toNF] at hp
      have hsk : s ∈ keys T := O_isSome.mp (by rw [hp]; rfl)
      have := congrArg sym'.toFd e
      rw [hs.toFd hl', hs.toFd hl'] at this
      rw [← this, hl'.toFd_of_which (ht.fd s hsk)]; exact hsk
    · intro hx
      obtain ⟨v, hv⟩ := Option.isSome_iff_exists.mp (O_isSome.mpr hx)
      refine ⟨(sym'.toFd x, v), (siteValuePairs_mem ht.toNF).mpr hv, ?_⟩
      exact hs.symm.toFd hl x
  let F : S → S → Val V Fn → Prop := fun x y v => getHop sym' hc T x y = .ok v
  obtain ⟨H', e', w', k', o', s1, s2⟩ := updateHops_effect (hc := hc) hl F
    (fun a b x y v hq hv => (getHop_equiv ht hl' (hs.hopEquiv.mp hq) v).mpr hv)
    (fun a b v hv => getHop_conj ht hl' hinv hv)
    (hoppingValuePairs T) (updateSites sym H (siteValuePairs T)) u1 (by
      rintro ⟨⟨a, b⟩, v⟩ hp
      obtain ⟨st, he, hv⟩ := (mem_hoppingValuePairs ht.toNF).mp hp
      obtain ⟨hne, _⟩ := ht.pair a b st he
      have hwa := ht.which_zero he
      refine ⟨hne, ?_, ?_, ?_⟩
      · rw [u2, hsite]; right; rw [hl'.toFd_of_which hwa]; exact E_some_mem he
      · rw [u2, hsite]; right; exact ht.toFd_mem hl' he
      · change getHop sym' hc T a b = .ok v
        rw [getHop_ok_iff ht hl']
        refine ⟨hne, ?_⟩
        rw [toFd2_of_fd hl' hwa]
        simp only [edgeVal, he]
        cases st <;> simp_all [Stored.toVal?])
  have hhop : ∀ x y, (∃ p ∈ hoppingValuePairs T, HopEquiv sym p.1.1 p.1.2 x y ∨ HopEquiv sym p.1.1 p.1.2 y x)
      ↔ containsHop sym' T x y = .ok true := by
    intro x y
    rw [containsHop_iff_hoppings ht hl', hoppings_eq]
    constructor
    · rintro ⟨p, hp, hq⟩
      exact ⟨p.1.1, p.1.2, List.mem_map.mpr ⟨p, hp, rfl⟩, by
        rcases hq with hq | hq
        · exact .inl (hs.hopEquiv.mp hq)
        · exact .inr (hs.hopEquiv.mp hq)⟩
    · rintro ⟨a, b, hm, hq⟩
      obtain ⟨p, hp, e⟩ := List.mem_map.mp hm
      refine ⟨p, hp, ?_⟩
      rw [e]
      rcases hq with hq | hq
      · exact .inl (hs.hopEquiv.mpr hq)
      · exact .inr (hs.hopEquiv.mpr hq)
  have hgetT : ∀ x y, containsHop sym' T x y = .ok true → getHop sym hc H' x y = getHop sym' hc T x y := by
    intro x y hc'
    obtain ⟨v, h1, h2⟩ := s1 x y ((hhop x y).mpr hc')
    rw [h1]; exact h2.symm
  have hsame : ∀ x y, getHop sym hc (updateSites sym H (siteValuePairs T)) x y = getHop sym hc H x y ∨
      (∀ v, getHop sym hc (updateSites sym H (siteValuePairs T)) x y ≠ .ok v) ∧
      (∀ v, getHop sym hc H x y ≠ .ok v) := by
    intro x y
    by_cases hxy : x = y
    · left; simp [getHop, hxy]
    · rw [getHop_eq u1 hl hxy, getHop_eq h hl hxy]
      have : edgeVal hc sym (updateSites sym H (siteValuePairs T)) (sym.toFd2 x y).1 (sym.toFd2 x y).2 =
          edgeVal hc sym H (sym.toFd2 x y).1 (sym.toFd2 x y).2 := by
        simp only [edgeVal, u3]
      rw [this]
      cases edgeVal hc sym H (sym.toFd2 x y).1 (sym.toFd2 x y).2 with
      | none => right; simp
      | some v => left; rfl
  have hgetH : ∀ x y, containsHop sym' T x y ≠ .ok true →
      getHop sym hc H' x y = getHop sym hc (updateSites sym H (siteValuePairs T)) x y := by
    intro x y hc'
    apply s2
    intro p hp
    have : ¬ ∃ p ∈ hoppingValuePairs T, HopEquiv sym p.1.1 p.1.2 x y ∨ HopEquiv sym p.1.1 p.1.2 y x := by
      rw [hhop]; exact hc'
    push Not at this
    exact this p hp
  refine ⟨H', ?_, w', ?_, ?_, ?_, ?_, hgetT, ?_⟩
  · simp [update, e']
  · intro x
    rw [Bool.eq_iff_iff]
    simp only [containsSite, Bool.or_eq_true, decide_eq_true_iff, k', u2, hsite]
  · intro x hx
    simp only [containsSite, decide_eq_true_iff] at hx
    obtain ⟨v, hv⟩ := Option.isSome_iff_exists.mp (O_isSome.mpr hx)
    rw [getSite_eq, getSite_eq, o', hv, u5 (sym.toFd x) v ((hsite x).mpr hx)]
    rintro ⟨s, w⟩ hp e
    rw [siteValuePairs_mem ht.toNF] at hp
    have hsk : s ∈ keys T := O_isSome.mp (by rw [hp]; rfl)
    have := congrArg sym'.toFd e
    rw [hs.toFd hl', hs.toFd hl', hl'.toFd_of_which (ht.fd s hsk)] at this
    rw [this, hv] at hp
    exact (Option.some.inj hp).symm
  · intro x hx
    simp only [containsSite, decide_eq_false_iff_not] at hx
    rw [getSite_eq, getSite_eq, o', u4]
    intro p hp e
    exact hx ((hsite x).mp ⟨p, hp, e⟩)
  · intro x y
    rw [containsHop_iff (hc := hc) w' hl, containsHop_iff (hc := hc) h hl]
    by_cases hT : containsHop sym' T x y = .ok true
    · simp only [hT, or_true, iff_true, hgetT x y hT]
      exact (containsHop_iff ht hl').mp hT
    · simp only [hT, or_false, hgetH x y hT]
      rcases hsame x y with e | ⟨e1, e2⟩
      · rw [e]
      · constructor
        · rintro ⟨v, hv⟩; exact absurd hv (e1 v)
        · rintro ⟨v, hv⟩; exact absurd hv (e2 v)
  · intro x y hT hH
    rw [hgetH x y hT]
    rcases hsame x y with e | ⟨e1, e2⟩
    · exact e
    · obtain ⟨v, hv⟩ := (containsHop_iff (hc := hc) h hl).mp hH
      exact absurd hv (e2 v)

end Kwant.Builder
