import Verif.Gauge.Peierls

/-! What `add_peierls_phase` does to the contents of a builder. -/

set_option linter.unusedSectionVars false

namespace Kwant.Peierls
open Kwant Kwant.Assoc Kwant.Builder Kwant.Final

variable {S G V Fn N A X K : Type} [DecidableEq S] [DecidableEq N] [AddCommGroup G] [DecidableEq G]
variable {E : Env S V N A X K} {sym : Symmetry S G} {hc : V → V}

/-- The function that replaces the value of a hopping. -/
def newFn : Val V Fn → PFn Fn
  | .const _ => .constHop
  | .func f => .wrap f
  | .herm f => .wrap f

/-- All functions on hoppings can be given the additional parameter. -/
def AllWrap (E : Env S V N A X K) (sig : Fn → Option (List N)) (phi : N) (ps : List ((S × S) × Val V Fn)) : Prop :=
  ∀ p ∈ ps, ∀ f, p.2 = .func f → wrapSig E sig phi f ≠ none

/-- The dictionary `const_hoppings`. -/
def constsOf (ps : List ((S × S) × Val V Fn)) (consts : List ((S × S) × V)) : List ((S × S) × V) :=
  ps.foldl (fun d p => match p.2 with | .const c => put d p.1 c | _ => d) consts

theorem hopLoop_eq {sig : Fn → Option (List N)} {phi : N} : ∀ (ps : List ((S × S) × Val V Fn)) (consts : List ((S × S) × V))
    (H H' : HMap S V (PFn Fn)), (∀ p ∈ ps, ∀ f, p.2 ≠ .herm f) →
    updateHops sym (ps.map fun p => (p.1, .func (newFn p.2))) H = (H', none) →
    (AllWrap E sig phi ps → hopLoop E sym sig phi ps consts H = .ok (constsOf ps consts, H')) ∧
    (¬ AllWrap E sig phi ps → hopLoop E sym sig phi ps consts H = .error .value) := by
  intro ps
  induction ps with
  | nil =>
    intro consts H H' _ h
    simp only [List.map_nil, updateHops, Prod.mk.injEq, and_true] at h
    subst h
    exact ⟨fun _ => rfl, fun h => absurd (fun p hp => absurd hp (List.not_mem_nil)) h⟩
  | cons p ps ih =>
    intro consts H H' hh h
    obtain ⟨hop, v⟩ := p
    simp only [List.map_cons, updateHops] at h
    obtain ⟨H1, e1, h1⟩ : ∃ H1, setHop sym H hop.1 hop.2 (.func (newFn v)) = (H1, none) ∧
        updateHops sym (ps.map fun p => (p.1, .func (newFn p.2))) H1 = (H', none) := by
      unfold Res.seq at h
      cases hs : setHop sym H hop.1 hop.2 (.func (newFn v)) with
      | mk H1 o =>
        rw [hs] at h
        cases o with
        | none => exact ⟨H1, rfl, h⟩
        | some e => cases h
    have hh' : ∀ p ∈ ps, ∀ f, p.2 ≠ .herm f := fun p hp => hh p (by simp [hp])
    have hiff : AllWrap E sig phi ((hop, v) :: ps) ↔ (∀ f, v = .func f → wrapSig E sig phi f ≠ none) ∧ AllWrap E sig phi ps := by
      simp [AllWrap]
    cases v with
    | const c =>
      simp only [newFn] at e1
      obtain ⟨a, b⟩ := ih (put consts hop c) H1 H' hh' h1
      rw [hiff]
      simp only [hopLoop, e1, reduceCtorEq, false_implies, implies_true, true_and]
      exact ⟨a, b⟩
    | func f =>
      simp only [newFn] at e1
      obtain ⟨a, b⟩ := ih consts H1 H' hh' h1
      rw [hiff]
      simp only [Val.func.injEq, forall_eq']
      cases hw : wrapSig E sig phi f with
      | none => simp [hopLoop, hw]
      | some ns =>
        simp only [hopLoop, hw, e1, ne_eq, reduceCtorEq, not_false_eq_true, true_and]
        exact ⟨a, b⟩
    | herm f => exact absurd rfl (hh _ List.mem_cons_self f)

theorem constsOf_get (ps : List ((S × S) × Val V Fn)) (hn : (ps.map Prod.fst).Nodup) (consts : List ((S × S) × V)) (h : S × S) (c : V)
    (hm : (h, .const c) ∈ ps) : Assoc.get (constsOf ps consts) h = some c := by
  have keep : ∀ (ps : List ((S × S) × Val V Fn)) (consts : List ((S × S) × V)), h ∉ ps.map Prod.fst →
      Assoc.get (constsOf ps consts) h = Assoc.get consts h := by
    intro ps
    induction ps with
    | nil => intro consts _; rfl
    | cons p ps ih =>
      intro consts hx
      obtain ⟨h', v⟩ := p
      simp only [List.map_cons, List.mem_cons, not_or] at hx
      cases v with
      | const d =>
        change Assoc.get (constsOf ps (put consts h' d)) h = _
        rw [ih _ hx.2, get_put, if_neg (Ne.symm hx.1)]
      | func f => exact ih _ hx.2
      | herm f => exact ih _ hx.2
  induction ps generalizing consts with
  | nil => cases hm
  | cons p ps ih =>
    rw [List.map_cons, List.nodup_cons] at hn
    rcases List.mem_cons.mp hm with rfl | hm'
    · change Assoc.get (constsOf ps (put consts h c)) h = _
      rw [keep ps _ hn.1, get_put, if_pos rfl]
    · obtain ⟨h', v⟩ := p
      cases v with
      | const d => exact ih hn.2 _ hm'
      | func f => exact ih hn.2 _ hm'
      | herm f => exact ih hn.2 _ hm'

theorem pairs_not_herm (H : HMap S V Fn) (p : (S × S) × Val V Fn) (hp : p ∈ hoppingValuePairs H) (f : Fn) : p.2 ≠ .herm f := by
  unfold hoppingValuePairs at hp
  simp only [List.mem_flatMap, List.mem_filterMap, Option.map_eq_some_iff] at hp
  obtain ⟨q, _, e, _, v, hv, rfl⟩ := hp
  obtain ⟨b, st⟩ := e
  cases st <;> simp [Stored.toVal?] at hv <;> subst hv <;> simp

/-- What is known about the new builder `H'` with its constants. -/
structure Phased (sym : Symmetry S G) (hc : V → V) (H : HMap S V Fn) (consts : List ((S × S) × V)) (H' : HMap S V (PFn Fn)) : Prop where
  reach : Reachable sym H'
  site : ∀ x v, getSite sym H x = .ok v → getSite sym H' x = .ok (plainVal v)
  siteIff : ∀ x, containsSite sym H' x = containsSite sym H x
  fwd : ∀ a b v, ((a, b), v) ∈ hoppingValuePairs H → getHop sym hc H' a b = .ok (.func (newFn v))
  const : ∀ a b c, ((a, b), Val.const c) ∈ hoppingValuePairs H → Assoc.get consts (a, b) = some c
  hopIff : ∀ x y, containsHop sym H' x y = .ok true ↔ containsHop sym H x y = .ok true

theorem updateSites_reach {sym : Symmetry S G} {F : Type} : ∀ (ps : List (S × Val V F)) (H : HMap S V F), Reachable sym H →
    Reachable sym (updateSites sym H ps) := by
  intro ps
  induction ps with
  | nil => intro H h; exact h
  | cons p ps ih => intro H h; exact ih _ (.setSite p.1 p.2 h)

theorem updateHops_reach {sym : Symmetry S G} {F : Type} : ∀ (ps : List ((S × S) × Val V F)) (H : HMap S V F), Reachable sym H →
    Reachable sym (updateHops sym ps H).1 := by
  intro ps
  induction ps with
  | nil => intro H h; exact h
  | cons p ps ih =>
    intro H h
    have h1 := Reachable.setHop p.1.1 p.1.2 p.2 h
    obtain ⟨⟨a, b⟩, v⟩ := p
    simp only [updateHops]
    unfold Res.seq
    cases hs : setHop sym H a b v with
    | mk H1 o =>
      rw [hs] at h1
      cases o with
      | none => exact ih _ h1
      | some e => exact h1

theorem fwd_det {H : HMap S V Fn} (hw : WF sym H) (hl : sym.Lawful) {a b c d : S} {v w : Val V Fn}
    (h1 : ((a, b), v) ∈ hoppingValuePairs H) (h2 : ((c, d), w) ∈ hoppingValuePairs H) :
    (HopEquiv sym c d a b → (a, b) = (c, d)) ∧ ¬ HopEquiv sym c d b a := by
  obtain ⟨s, e1, t1⟩ := (mem_hoppingValuePairs hw.toNF).mp h1
  obtain ⟨t, e2, t2⟩ := (mem_hoppingValuePairs hw.toNF).mp h2
  have ha := hw.which_zero e1
  have hc' := hw.which_zero e2
  constructor
  · intro hq
    have := (toFd2_eq_iff hl a b c d).mpr hq
    rwa [toFd2_of_fd hl ha, toFd2_of_fd hl hc'] at this
  · intro hq
    obtain ⟨hne, st', e3, hx⟩ := hw.pair c d t e2
    have h3 := (toFd2_eq_iff hl b a c d).mpr hq
    rw [toFd2_of_fd hl hc'] at h3
    have h4 : rev sym c d = (a, b) := by
      have := rev_toFd2 (sym := sym) hl b a
      rw [h3] at this
      rw [this, toFd2_of_fd hl ha]
    rw [h4] at e3
    simp only at e3
    rw [e1] at e3
    cases e3
    have ht : t ≠ .other := by rintro rfl; simp [Stored.toVal?] at t2
    have hs : s ≠ .other := by rintro rfl; simp [Stored.toVal?] at t1
    exact ht (hx.mpr hs)

/-- `_add_peierls_phase` succeeds exactly if the name of the parameter is acceptable for all functions on hoppings; then the new
builder has the same sites and hoppings, the values of sites are copied, and the value of each hopping is replaced by a function. -/
theorem addPhase_effect (hc : V → V) {H : HMap S V Fn} (h : Reachable sym H) (sig : Fn → Option (List N)) (phi : N) :
    ((constSig E phi = none ∨ ¬ AllWrap E sig phi (hoppingValuePairs H)) → addPhase E sym sig phi H = .error .value) ∧
    (constSig E phi ≠ none → AllWrap E sig phi (hoppingValuePairs H) →
      ∃ consts H', addPhase E sym sig phi H = .ok (consts, H') ∧ Phased sym hc H consts H') := by
  obtain ⟨hl, hw⟩ := h.wf
  let ps : List (S × Val V (PFn Fn)) := (siteValuePairs H).map fun p => (p.1, plainVal p.2)
  let hs : List ((S × S) × Val V (PFn Fn)) := (hoppingValuePairs H).map fun p => (p.1, .func (newFn p.2))
  have hr0 : Reachable sym (updateSites sym ([] : HMap S V (PFn Fn)) ps) := updateSites_reach _ _ (.empty hl)
  obtain ⟨u1, u2, u3, u4, u5⟩ := updateSites_effect hl ps ([] : HMap S V (PFn Fn)) WF.empty
  have hsite : ∀ x, (∃ p ∈ ps, sym.toFd p.1 = x) ↔ x ∈ keys H := by
    intro x
    constructor
    · rintro ⟨p, hp, rfl⟩
      obtain ⟨q, hq, rfl⟩ := List.mem_map.mp hp
      have hO := (siteValuePairs_mem hw.toNF).mp hq
      have hk : q.1 ∈ keys H := O_isSome.mp (by rw [hO]; rfl)
      simp only
      rw [hl.toFd_of_which (hw.fd _ hk)]
      exact hk
    · intro hx
      obtain ⟨v, hv⟩ := Option.isSome_iff_exists.mp (O_isSome.mpr hx)
      exact ⟨(x, plainVal v), List.mem_map.mpr ⟨(x, v), (siteValuePairs_mem hw.toNF).mpr hv, rfl⟩, hl.toFd_of_which (hw.fd x hx)⟩
  let F : S → S → Val V (PFn Fn) → Prop := fun x y v' => ∃ a b v, ((a, b), v) ∈ hoppingValuePairs H ∧
    ((HopEquiv sym a b x y ∧ v' = .func (newFn v)) ∨ (HopEquiv sym a b y x ∧ v' = .herm (newFn v)))
  have htrans : ∀ {a b x y z w : S}, HopEquiv sym a b x y → HopEquiv sym x y z w → HopEquiv sym a b z w := by
    rintro a b x y z w ⟨g, rfl, rfl⟩ ⟨g', rfl, rfl⟩
    exact ⟨g' + g, hl.act_add _ _ _, hl.act_add _ _ _⟩
  obtain ⟨H', e', w', k', o', s1, s2⟩ := updateHops_effect (hc := hc) hl F
    (by
      rintro a b x y v hq ⟨c, d, w, hm, h1 | h1⟩
      · exact ⟨c, d, w, hm, .inl ⟨htrans h1.1 hq, h1.2⟩⟩
      · refine ⟨c, d, w, hm, .inr ⟨htrans h1.1 ?_, h1.2⟩⟩
        obtain ⟨g, e1, e2⟩ := hq
        exact ⟨g, e2, e1⟩)
    (by
      rintro a b v ⟨c, d, w, hm, ⟨h1, rfl⟩ | ⟨h1, rfl⟩⟩
      · exact ⟨c, d, w, hm, .inr ⟨h1, rfl⟩⟩
      · exact ⟨c, d, w, hm, .inl ⟨h1, rfl⟩⟩)
    hs (updateSites sym [] ps) u1 (by
      intro p hp
      obtain ⟨⟨⟨a, b⟩, v⟩, hq, rfl⟩ := List.mem_map.mp hp
      obtain ⟨st, he, hv⟩ := (mem_hoppingValuePairs hw.toNF).mp hq
      refine ⟨(hw.pair a b st he).1, ?_, ?_, ⟨a, b, v, hq, .inl ⟨⟨0, (hl.act_zero _).symm, (hl.act_zero _).symm⟩, rfl⟩⟩⟩
      · rw [u2]
        right
        rw [hsite]
        simp only
        rw [hl.toFd_of_which (hw.which_zero he)]
        exact E_some_mem he
      · rw [u2]
        right
        rw [hsite]
        exact hw.toFd_mem hl he)
  have hloop := hopLoop_eq (E := E) (sig := sig) (phi := phi) (hoppingValuePairs H) [] _ H' (pairs_not_herm H) e'
  have hreach : Reachable sym H' := by
    have := updateHops_reach hs _ hr0
    rw [e'] at this
    exact this
  have hself : ∀ a b v, ((a, b), v) ∈ hoppingValuePairs H → getHop sym hc H' a b = .ok (.func (newFn v)) := by
    intro a b v hm
    obtain ⟨v', g1, c, d, w, hm', hor⟩ := s1 a b ⟨((a, b), .func (newFn v)), List.mem_map.mpr ⟨_, hm, rfl⟩,
      .inl ⟨0, (hl.act_zero _).symm, (hl.act_zero _).symm⟩⟩
    obtain ⟨d1, d2⟩ := fwd_det hw hl hm hm'
    rcases hor with ⟨hq, rfl⟩ | ⟨hq, _⟩
    · cases d1 hq
      obtain ⟨s, q1, q2⟩ := (mem_hoppingValuePairs hw.toNF).mp hm
      obtain ⟨t, q3, q4⟩ := (mem_hoppingValuePairs hw.toNF).mp hm'
      rw [q1] at q3
      cases q3
      rw [q2] at q4
      cases q4
      exact g1
    · exact absurd hq d2
  constructor
  · intro hx
    unfold addPhase
    cases hcs : constSig E phi with
    | none => rfl
    | some ns =>
      rcases hx with hx | hx
      · rw [hcs] at hx; cases hx
      · exact hloop.2 hx
  · intro h1 h2
    refine ⟨constsOf (hoppingValuePairs H) [], H', ?_, hreach, ?_, ?_, hself, ?_, ?_⟩
    · unfold addPhase
      cases hcs : constSig E phi with
      | none => exact absurd hcs h1
      | some ns => exact hloop.1 h2
    · intro x v hv
      rw [getSite_eq] at hv ⊢
      cases hO : O H (sym.toFd x) with
      | none => rw [hO] at hv; cases hv
      | some v0 =>
        rw [hO] at hv
        cases hv
        have hk : sym.toFd x ∈ keys H := O_isSome.mp (by rw [hO]; rfl)
        rw [o', u5 (sym.toFd x) (plainVal v) ((hsite _).mpr hk)]
        intro p hp e
        obtain ⟨q, hq, rfl⟩ := List.mem_map.mp hp
        have hO' := (siteValuePairs_mem hw.toNF).mp hq
        have hk' : q.1 ∈ keys H := O_isSome.mp (by rw [hO']; rfl)
        simp only at e
        rw [hl.toFd_of_which (hw.fd _ hk')] at e
        rw [e, hO] at hO'
        cases hO'
        rfl
    · intro x
      rw [Bool.eq_iff_iff]
      simp only [containsSite, decide_eq_true_iff, k', u2, hsite, keys_nil, List.not_mem_nil, false_or]
    · intro a b c hm
      refine constsOf_get _ ?_ [] (a, b) c hm
      rw [← hoppings_eq]
      exact nodup_hoppings hw.toNF
    · intro x y
      have hiff : (∃ p ∈ hs, HopEquiv sym p.1.1 p.1.2 x y ∨ HopEquiv sym p.1.1 p.1.2 y x) ↔ containsHop sym H x y = .ok true := by
        rw [containsHop_iff_hoppings hw hl, hoppings_eq]
        constructor
        · rintro ⟨p, hp, hq⟩
          obtain ⟨q, hq', rfl⟩ := List.mem_map.mp hp
          exact ⟨q.1.1, q.1.2, List.mem_map.mpr ⟨q, hq', rfl⟩, hq⟩
        · rintro ⟨a, b, hm, hq⟩
          obtain ⟨q, hq', e⟩ := List.mem_map.mp hm
          exact ⟨(q.1, .func (newFn q.2)), List.mem_map.mpr ⟨q, hq', rfl⟩, by simp only; rw [e]; exact hq⟩
      rw [← hiff, containsHop_iff (hc := hc) w' hl]
      constructor
      · rintro ⟨v, hv⟩
        by_contra hno
        push Not at hno
        rw [s2 x y hno] at hv
        obtain ⟨hne, hv⟩ := (getHop_ok_iff u1 hl).mp hv
        have h0 : ∀ p q : S, Builder.E ([] : HMap S V (PFn Fn)) p q = none := fun p q => rfl
        simp [edgeVal, u3, h0] at hv
      · intro hex
        obtain ⟨v, hv, _⟩ := s1 x y hex
        exact ⟨v, hv⟩

end Kwant.Peierls
