import Verif.Wrap.Loop

/-! # C66: statement and proof -/
set_option linter.unusedSectionVars false

namespace Kwant.Wrap
open Kwant Kwant.Builder Kwant.Assoc

variable {S A V GR : Type} [DecidableEq S] [AddCommGroup GR] [DecidableEq GR]
  [AddCommGroup V] [Module ℂ V] [StarAddMonoid V] [StarModule ℂ V]
variable {k m : ℕ}
variable {num : A → ℝ} {momenta : List String} {env : String → A}
variable {symO : Symmetry S (Fin k → ℤ)} {symW : Symmetry S (Fin m → ℤ)} {symR : Symmetry S GR}
  {emb : Fin m → Fin k}

local notation "KK" => wrapHop symO symW symR emb
local notation "ctr" => contrib num momenta env symO symW symR emb

/-! ## Sums with one term -/

theorem sum_single {α : Type} (f : α → V) : ∀ (l : List α), l.Nodup → ∀ p ∈ l, (∀ q ∈ l, q ≠ p → f q = 0) →
    (l.map f).sum = f p := by
  intro l
  induction l with
  | nil => intro _ p hp; simp at hp
  | cons a l ih =>
    intro hn p hp hz
    rw [List.nodup_cons] at hn
    rw [List.map_cons, List.sum_cons]
    rw [List.mem_cons] at hp
    rcases hp with rfl | hp
    · have : (l.map f).sum = 0 := by
        apply List.sum_eq_zero
        intro x hx
        obtain ⟨q, hq, rfl⟩ := List.mem_map.mp hx
        exact hz q (by simp [hq]) (by rintro rfl; exact hn.1 hq)
      rw [this, add_zero]
    · rw [ih hn.2 p hp (fun q hq => hz q (by simp [hq])), hz a (by simp) (by rintro rfl; exact hn.1 hp), zero_add]

theorem finsum_list {α β : Type} (f : α → β → V) : ∀ (l : List α), (∀ p ∈ l, (Function.support (f p)).Finite) →
    (Function.support fun w => (l.map fun p => f p w).sum).Finite ∧
    ∑ᶠ w, (l.map fun p => f p w).sum = (l.map fun p => ∑ᶠ w, f p w).sum := by
  intro l
  induction l with
  | nil => intro _; simp
  | cons a l ih =>
    intro h
    obtain ⟨h1, h2⟩ := ih (fun p hp => h p (by simp [hp]))
    simp only [List.map_cons, List.sum_cons]
    refine ⟨((h a (by simp)).union h1).subset (Function.support_add _ _), ?_⟩
    rw [finsum_add_distrib (h a (by simp)) h1, h2]

open Classical in
/-- `z` at the point `d` if `C` holds, else zero. -/
noncomputable def pt {β : Type} (d : β) (C : Prop) (z : V) (w : β) : V := if w = d ∧ C then z else 0
open Classical in
/-- `z` if `C` holds. -/
noncomputable def ind (C : Prop) (z : V) : V := if C then z else 0

theorem pt_pos {β : Type} {d : β} {C : Prop} {z : V} {w : β} (h : w = d ∧ C) : pt d C z w = z := if_pos h
theorem pt_neg {β : Type} {d : β} {C : Prop} {z : V} {w : β} (h : ¬ (w = d ∧ C)) : pt d C z w = 0 := if_neg h

theorem finsum_point {β : Type} (d : β) (C : Prop) (z : V) :
    (Function.support (pt d C z)).Finite ∧ ∑ᶠ w, pt d C z w = ind C z := by
  have hs : ∀ w, w ≠ d → pt d C z w = 0 := fun w hw => pt_neg (fun h => hw h.1)
  constructor
  · apply (Set.finite_singleton d).subset
    intro w hw
    by_contra hne
    exact hw (hs w hne)
  · rw [finsum_eq_single _ d hs]
    by_cases h : C
    · rw [pt_pos ⟨rfl, h⟩, ind, if_pos h]
    · rw [pt_neg (fun h' => h h'.2), ind, if_neg h]

/-! ## The per-translation identity -/

section
variable {H : HMap S V (PFn S A V)} (sp : Split symO symW symR emb) (hr : Reachable symO H)
  (hinvH : ∀ x y v, getHop symO star H x y = .ok v → InvVal symO v)
include sp hr hinvH

/-- For every wrapped translation `w`, the term `exp(ik·w) H[a, w·b]` is the sum of the contributions of the
entries of `hopping_value_pairs` that are folded with that translation. -/
theorem term_eq {a b : S} (ha : InW symO emb a) (hb : InW symO emb b) (w : Fin m → ℤ) :
    bloch num momenta env w • hopHam symO H env a (symW.act w b) =
      ((hoppingValuePairs H).map fun p =>
        pt (bDom symO emb p.1.2) (Hit symO symW symR emb p a b) (pv num momenta env symO emb p) w +
        pt (-bDom symO emb p.1.2) (Hit symO symW symR emb p b a) (star (pv num momenta env symO emb p)) w).sum := by
  obtain ⟨hl, wf⟩ := hr.wf
  obtain ⟨_, _, hnd, _, huniq, _, _, hfst, hval⟩ := C27_enumeration (hc := star) hr
  have hx : ∀ p ∈ hoppingValuePairs H, InW symO emb p.1.1 := by
    rintro ⟨⟨x, y⟩, v⟩ hp
    obtain ⟨st, he, _⟩ := (mem_hoppingValuePairs wf.toNF).mp hp
    have := wf.which_zero he
    funext i; simp [bDom, this]
  have hxy : ∀ p ∈ hoppingValuePairs H, p.1.1 ≠ p.1.2 := by
    rintro ⟨⟨x, y⟩, v⟩ hp
    obtain ⟨st, he, _⟩ := (mem_hoppingValuePairs wf.toNF).mp hp
    exact (wf.pair x y st he).1
  have hmem : ∀ p ∈ hoppingValuePairs H, p.1 ∈ hoppings H := by
    intro p hp; rw [← hfst]; exact List.mem_map.mpr ⟨p, hp, rfl⟩
  have c1 : ∀ p ∈ hoppingValuePairs H, (w = bDom symO emb p.1.2 ∧ Hit symO symW symR emb p a b) ↔
      HopEquiv symO p.1.1 p.1.2 a (symW.act w b) := fun p hp => (sp.fold_iff (hx p hp) ha hb w).symm
  have c2 : ∀ p ∈ hoppingValuePairs H, (w = -bDom symO emb p.1.2 ∧ Hit symO symW symR emb p b a) ↔
      HopEquiv symO p.1.1 p.1.2 (symW.act w b) a := fun p hp => (sp.fold_rev_iff (hx p hp) ha hb w).symm
  have hL : (hoppingValuePairs H).Nodup := by
    have : ((hoppingValuePairs H).map Prod.fst).Nodup := by rw [hfst]; exact hnd
    exact List.Nodup.of_map _ this
  have hboth : ∀ p ∈ hoppingValuePairs H, HopEquiv symO p.1.1 p.1.2 a (symW.act w b) →
      HopEquiv symO p.1.1 p.1.2 (symW.act w b) a → False := by
    intro p hp h1 h2
    have e1 := (toFd2_eq_iff hl a (symW.act w b) p.1.1 p.1.2).mpr h1
    have e2 := (toFd2_eq_iff hl (symW.act w b) a p.1.1 p.1.2).mpr h2
    have hne : a ≠ symW.act w b := by
      rintro e
      obtain ⟨g, f1, f2⟩ := h1
      rw [← e, f1] at f2
      exact hxy p hp (hl.act_inj.mp f2)
    have := rev_ne hl (toFd2_ne hl hne)
    rw [rev_toFd2 hl, e2, ← e1] at this
    exact this rfl
  have hkey : ∀ p ∈ hoppingValuePairs H, ∀ q ∈ hoppingValuePairs H, p.1 = q.1 → p = q := by
    rintro ⟨p1, p2⟩ hp ⟨q1, q2⟩ hq e
    dsimp only at e
    subst e
    have h1 := hval _ _ _ hp
    have h2 := hval _ _ _ hq
    rw [h1] at h2
    rw [Except.ok.inj h2]
  unfold hopHam
  cases hg : getHop symO star H a (symW.act w b) with
  | error e =>
    have hno : ¬ HasHop symO H a (symW.act w b) := by
      rw [HasHop, containsHop_iff (hc := star) wf hl, hg]; rintro ⟨v, hv⟩; cases hv
    simp only [smul_zero]
    symm
    apply List.sum_eq_zero
    intro x hx'
    obtain ⟨p, hp, rfl⟩ := List.mem_map.mp hx'
    rw [pt_neg, pt_neg, add_zero]
    · rw [c2 p hp]; intro h'
      exact hno ((containsHop_iff_hoppings wf hl).mpr ⟨_, _, hmem p hp, .inr h'⟩)
    · rw [c1 p hp]; intro h'
      exact hno ((containsHop_iff_hoppings wf hl).mpr ⟨_, _, hmem p hp, .inl h'⟩)
  | ok v =>
    have hyes : HasHop symO H a (symW.act w b) := by
      rw [HasHop, containsHop_iff (hc := star) wf hl]; exact ⟨v, hg⟩
    obtain ⟨q, ⟨hq1, hq2⟩, huq⟩ := (huniq _ _).mp hyes
    rw [← hfst] at hq1
    obtain ⟨p, hp, rfl⟩ := List.mem_map.mp hq1
    rw [sum_single _ _ hL p hp]
    · have hvp := hval p.1.1 p.1.2 p.2 hp
      have hinvp := hinvH _ _ _ hvp
      rcases hq2 with hq2 | hq2
      · rw [pt_pos ((c1 p hp).mpr hq2), pt_neg (fun h' => hboth p hp hq2 ((c2 p hp).mp h')), add_zero]
        have hv : v = p.2 := by
          have := (getHop_equiv (hc := star) wf hl hq2 v).mp hg
          rw [hvp] at this
          exact (Except.ok.inj this).symm
        subst hv
        unfold pv
        rw [← ((c1 p hp).mpr hq2).1]
        obtain ⟨g, e1, e2⟩ := hq2
        congr 1
        have := hinvp.eval (env := env) g [p.1.1, p.1.2]
        simp only [List.map_cons, List.map_nil, ← e1, ← e2] at this
        exact this
      · rw [pt_pos ((c2 p hp).mpr hq2), pt_neg (fun h' => hboth p hp ((c1 p hp).mp h') hq2), zero_add]
        have hv : v = p.2.conj star := by
          have h1 := getHop_conj wf hl (fun v : V => star_star v) hg
          have h2 := (getHop_equiv (hc := star) wf hl hq2 _).mp h1
          rw [hvp] at h2
          rw [Except.ok.inj h2, conj_conj]
        subst hv
        unfold pv
        rw [star_smul, star_bloch, ← ((c2 p hp).mpr hq2).1]
        obtain ⟨g, e1, e2⟩ := hq2
        congr 1
        simp only
        rw [evalVal_conj]
        have := hinvp.eval (env := env) g [p.1.1, p.1.2]
        simp only [List.map_cons, List.map_nil, ← e1, ← e2] at this
        rw [this]
    · intro p' hp' hne
      have hpq : ∀ h' : HopEquiv symO p'.1.1 p'.1.2 a (symW.act w b) ∨
          HopEquiv symO p'.1.1 p'.1.2 (symW.act w b) a, False := by
        intro h'
        exact hne (hkey p' hp' p hp (huq p'.1 ⟨hmem p' hp', h'⟩))
      rw [pt_neg, pt_neg, add_zero]
      · rw [c2 p' hp']; exact fun h' => hpq (.inr h')
      · rw [c1 p' hp']; exact fun h' => hpq (.inl h')

/-- The Bloch sum of the hoppings is the sum of the contributions of all entries. -/
theorem bloch_sum {a b : S} (ha : InW symO emb a) (hb : InW symO emb b) :
    (Function.support fun w : Fin m → ℤ => bloch num momenta env w • hopHam symO H env a (symW.act w b)).Finite ∧
    ∑ᶠ w : Fin m → ℤ, bloch num momenta env w • hopHam symO H env a (symW.act w b) =
      ((hoppingValuePairs H).map fun p => ctr p a b).sum := by
  classical
  simp only [term_eq sp hr hinvH ha hb]
  have q1 := fun p : Entry S A V => finsum_point (bDom symO emb p.1.2) (Hit symO symW symR emb p a b)
    (pv num momenta env symO emb p)
  have q2 := fun p : Entry S A V => finsum_point (-bDom symO emb p.1.2) (Hit symO symW symR emb p b a)
    (star (pv num momenta env symO emb p))
  have hfin : ∀ p ∈ hoppingValuePairs H, (Function.support fun w : Fin m → ℤ =>
      pt (bDom symO emb p.1.2) (Hit symO symW symR emb p a b) (pv num momenta env symO emb p) w +
        pt (-bDom symO emb p.1.2) (Hit symO symW symR emb p b a) (star (pv num momenta env symO emb p)) w).Finite := fun p _ =>
    ((q1 p).1.union (q2 p).1).subset (Function.support_add _ _)
  obtain ⟨h1, h2⟩ := finsum_list _ _ hfin
  refine ⟨h1, ?_⟩
  rw [h2]
  congr 1
  apply List.map_congr_left
  intro p hp
  rw [finsum_add_distrib (q1 p).1 (q2 p).1, (q1 p).2, (q2 p).2]
  rfl

end

/-! ## The dictionary of sites -/

theorem put_new {κ α : Type} [DecidableEq κ] (d : List (κ × α)) (x : κ) (v : α) (h : x ∉ keys d) :
    put d x v = d ++ [(x, v)] := by
  induction d with
  | nil => rfl
  | cons p d ih =>
    obtain ⟨k', v'⟩ := p
    simp only [keys_cons, List.mem_cons, not_or] at h
    simp only [put, if_neg (Ne.symm h.1), ih h.2, List.cons_append]

theorem foldl_put {α β κ : Type} [DecidableEq κ] (f : α → κ) (g : α → β) : ∀ (l : List α) (d : List (κ × β)),
    (l.map f).Nodup → (∀ x ∈ l, f x ∉ keys d) →
    l.foldl (fun d p => put d (f p) (g p)) d = d ++ l.map fun p => (f p, g p) := by
  intro l
  induction l with
  | nil => intro d _ _; simp
  | cons a l ih =>
    intro d hn hd
    rw [List.map_cons, List.nodup_cons] at hn
    rw [List.foldl_cons, put_new d _ _ (hd a (by simp)), ih _ hn.2]
    · simp
    · intro x hx
      simp only [keys, List.map_append, List.map_cons, List.map_nil, List.mem_append, List.mem_singleton, not_or]
      refine ⟨hd x (by simp [hx]), ?_⟩
      intro e
      exact hn.1 (e ▸ List.mem_map.mpr ⟨x, hx, rfl⟩)

section
variable {H : HMap S V (PFn S A V)} (sp : Split symO symW symR emb) (hr : Reachable symO H)
include sp hr

theorem toFdR_inj {s t : S} (hs : s ∈ keys H) (ht : t ∈ keys H) (e : symR.toFd s = symR.toFd t) : s = t := by
  obtain ⟨hl, wf⟩ := hr.wf
  have h2 : symR.SameOrbit s t := (sameOrbit_iff sp.lR).mpr e
  obtain ⟨r, rfl⟩ := h2
  obtain ⟨g, _, e'⟩ := sp.actR r
  rw [e'] at ht ⊢
  have h3 := wf.fd _ ht
  rw [hl.which_act, wf.fd _ hs, add_zero] at h3
  rw [h3, hl.act_zero]

theorem initSites_eq : initSites momenta symR H = (siteValuePairs H).map fun p => (symR.toFd p.1, [bindSiteVal momenta p.2]) := by
  obtain ⟨hl, wf⟩ := hr.wf
  unfold initSites
  rw [foldl_put (fun p : S × Val V (PFn S A V) => symR.toFd p.1) (fun p => [bindSiteVal momenta p.2])]
  · rfl
  · have : (siteValuePairs H).map (fun p => symR.toFd p.1) = (keys H).map symR.toFd := by
      simp [siteValuePairs, keys, Function.comp_def]
    rw [this]
    exact List.Nodup.map_on (fun x hx y hy e => toFdR_inj sp hr hx hy e) wf.keys
  · simp

theorem initSites_nodup : (keys (initSites momenta symR H)).Nodup := by
  obtain ⟨hl, wf⟩ := hr.wf
  rw [initSites_eq sp hr]
  have : keys ((siteValuePairs H).map fun p => (symR.toFd p.1, [bindSiteVal momenta p.2])) =
      (keys H).map symR.toFd := by
    simp [siteValuePairs, keys, Function.comp_def]
  rw [this]
  exact List.Nodup.map_on (fun x hx y hy e => toFdR_inj sp hr hx hy e) wf.keys

/-- Contained sites of the result. -/
theorem mem_init_iff (s : S) : symR.toFd s ∈ keys (initSites momenta symR H) ↔ HasSite symO H s ∧ InW symO emb s := by
  obtain ⟨hl, wf⟩ := hr.wf
  rw [hasSite_iff]
  have : keys (initSites momenta symR H) = (keys H).map symR.toFd := by
    rw [initSites_eq sp hr]; simp [siteValuePairs, keys, Function.comp_def]
  rw [this, List.mem_map]
  constructor
  · rintro ⟨t, ht, e⟩
    obtain ⟨r, rfl⟩ := (sameOrbit_iff sp.lR).mpr e
    obtain ⟨g, _, e'⟩ := sp.actR r
    constructor
    · rw [e', hl.toFd_act, hl.toFd_of_which (wf.fd t ht)]; exact ht
    · rw [InW, sp.bDom_actR]; funext i; simp [bDom, wf.fd t ht]
  · rintro ⟨h1, h2⟩
    refine ⟨symO.toFd s, h1, ?_⟩
    obtain ⟨r, hr'⟩ := sp.Ract (-symO.which s) (fun i => by
      have := congrFun h2 i; simp only [bDom, Pi.zero_apply] at this; simp [this])
    show symR.toFd (symO.act (-symO.which s) s) = symR.toFd s
    rw [hr', sp.lR.toFd_act]

theorem get_init {a : S} {v : Val V (PFn S A V)} (ha : InW symO emb a) (hv : getSite symO H a = .ok v) :
    get (initSites momenta symR H) (symR.toFd a) = some [bindSiteVal momenta v] := by
  obtain ⟨hl, wf⟩ := hr.wf
  apply get_of_mem (initSites_nodup sp hr)
  rw [initSites_eq sp hr, List.mem_map]
  refine ⟨(symO.toFd a, v), ?_, ?_⟩
  · rw [siteValuePairs_mem wf.toNF]
    rw [getSite_eq] at hv
    cases hO : O H (symO.toFd a) with
    | none => rw [hO] at hv; cases hv
    | some v' => rw [hO] at hv; rw [Except.ok.inj hv]
  · obtain ⟨r, hr'⟩ := sp.Ract (-symO.which a) (fun i => by
      have := congrFun ha i; simp only [bDom, Pi.zero_apply] at this; simp [this])
    show (symR.toFd (symO.act (-symO.which a) a), _) = _
    rw [hr', sp.lR.toFd_act]

end

/-! ## The theorem -/

/-- All value functions of the builder are compatible with its symmetry: they do not depend on which image of
their sites they are called with. -/
def Periodic (symO : Symmetry S (Fin k → ℤ)) (H : HMap S V (PFn S A V)) : Prop :=
  (∀ x v, getSite symO H x = .ok v → InvVal symO v) ∧
  (∀ x y v, getHop symO star H x y = .ok v → InvVal symO v)

set_option maxHeartbeats 1000000 in
/-- C66: `wraparound` succeeds for every builder whose value functions respect its symmetry; the returned
builder contains exactly the sites of the original one that lie in the fundamental domain of the wrapped
directions; and for all parameters and momenta, the matrix element between two of its sites `a`, `b` is the
(finite) Bloch sum `∑_w exp(i k·w) H[a, w·b]` over the wrapped translations `w`.  (`keep` any or none.) -/
theorem C66_bloch [Nonempty A] {H : HMap S V (PFn S A V)} (sp : Split symO symW symR emb) (hr : Reachable symO H)
    (hper : Periodic symO H) (hm : 0 < m) (hlen : momenta.length = m)
    (le : Val V (PFn S A V) → Val V (PFn S A V) → Bool) :
    ∃ H', wraparound num momenta symO symW symR emb le H = .ok H' ∧ WF symR H' ∧
      (∀ s, HasSite symR H' s ↔ HasSite symO H s ∧ ∀ i, symO.which s (emb i) = 0) ∧
      (∀ env a b, HasSite symR H' a → HasSite symR H' b →
        (Function.support fun w : Fin m → ℤ =>
          bloch num momenta env w • ham symO H env a (symW.act w b)).Finite ∧
        ham symR H' env a b = ∑ᶠ w : Fin m → ℤ, bloch num momenta env w • ham symO H env a (symW.act w b)) ∧
      (∀ env a b, (∀ s, HasSite symO H s → star (ham symO H env s s) = ham symO H env s s) →
        HasSite symR H' a → HasSite symR H' b → ham symR H' env b a = star (ham symR H' env a b)) := by
  obtain ⟨hl, wf⟩ := hr.wf
  have hml : 0 < momenta.length := by omega
  have hps : ∀ p ∈ hoppingValuePairs H, InvVal symO p.2 ∧ symR.toFd p.1.1 ∈ keys (initSites momenta symR H) ∧
      symR.toFd (symW.act (-bDom symO emb p.1.2) p.1.2) ∈ keys (initSites momenta symR H) := by
    rintro ⟨⟨x, y⟩, v⟩ hp
    have hv := (C27_enumeration (hc := star) hr).2.2.2.2.2.2.2.2 x y v hp
    obtain ⟨st, he, _⟩ := (mem_hoppingValuePairs wf.toNF).mp hp
    refine ⟨hper.2 _ _ _ hv, ?_, ?_⟩
    · rw [mem_init_iff sp hr, hasSite_iff]
      refine ⟨by rw [hl.toFd_of_which (wf.which_zero he)]; exact E_some_mem he, ?_⟩
      funext i; simp [bDom, wf.which_zero he]
    · rw [mem_init_iff sp hr, hasSite_iff]
      constructor
      · rw [sp.actW, hl.toFd_act]; exact wf.toFd_mem hl he
      · rw [InW, sp.bDom_actW, neg_add_cancel]
  have hokval : ∀ v0 : Val V (PFn S A V), InvVal symO v0 → OkVal momenta symR (bindSiteVal momenta v0) := fun v0 h =>
    ⟨shaped_bindSiteVal v0, inv_bindSiteVal sp h⟩
  have ginit : ∀ env, Good num momenta env symO symW symR emb (initSites momenta symR H) []
      (initSites momenta symR H, []) := by
    intro env
    refine ⟨fun _ => Iff.rfl, initSites_nodup sp hr, ?_, ?_, by simp, by simp, by simp, by simp, by simp, by simp⟩
    · intro a vals0 h; exact ⟨vals0, h, by simp⟩
    · intro a vals hg v hv
      have hmem := mem_of_get hg
      rw [initSites_eq sp hr, List.mem_map] at hmem
      obtain ⟨⟨s, v0⟩, hs, e⟩ := hmem
      obtain ⟨_, rfl⟩ := Prod.mk.inj e
      simp only [List.mem_singleton] at hv
      subst hv
      exact hokval _ (hper.1 s v0 ((C27_enumeration (hc := star) hr).2.2.2.2.2.2.1 s v0 hs))
  have gall : ∀ env, ∃ st', hopLoop num momenta symO symW symR emb (hoppingValuePairs H)
      (initSites momenta symR H, []) = .ok st' ∧
      Good num momenta env symO symW symR emb (initSites momenta symR H) (hoppingValuePairs H) st' := by
    intro env
    obtain ⟨st', e, g⟩ := good_loop sp hml (hoppingValuePairs H) [] _ (ginit env) hps
    exact ⟨st', e, by simpa using g⟩
  obtain ⟨env0⟩ : Nonempty (String → A) := inferInstance
  obtain ⟨st, hloop, g0⟩ := gall env0
  have g : ∀ env, Good num momenta env symO symW symR emb (initSites momenta symR H) (hoppingValuePairs H) st := by
    intro env
    obtain ⟨st', e, g⟩ := gall env
    rw [hloop] at e
    rw [Except.ok.inj e]; exact g
  -- writing the sites
  set siteList := st.1.map fun p => (p.1, mkVal momenta le p.2) with hsl
  set hopList := st.2.map fun p => (p.1, mkVal momenta le p.2) with hhl
  obtain ⟨u1, u2, u3, u4, u5⟩ := updateSites_effect sp.lR siteList [] WF.empty
  have hfdkeys : ∀ a ∈ keys st.1, symR.toFd a = a := by
    intro a ha
    rw [g0.skeys] at ha
    have : keys (initSites momenta symR H) = (keys H).map symR.toFd := by
      rw [initSites_eq sp hr]; simp [siteValuePairs, keys, Function.comp_def]
    rw [this, List.mem_map] at ha
    obtain ⟨t, _, rfl⟩ := ha
    exact sp.lR.toFd_of_which (sp.lR.which_toFd t)
  have hsk : ∀ x, x ∈ keys (updateSites symR [] siteList) ↔ x ∈ keys (initSites momenta symR H) := by
    intro x
    rw [u2, ← g0.skeys]
    simp only [keys_nil, List.not_mem_nil, false_or]
    constructor
    · rintro ⟨p, hp, e⟩
      obtain ⟨q, hq, rfl⟩ := List.mem_map.mp hp
      have hqk : q.1 ∈ keys st.1 := List.mem_map.mpr ⟨q, hq, rfl⟩
      rw [hfdkeys _ hqk] at e
      rw [← e]; exact hqk
    · intro hx
      obtain ⟨vals, hv⟩ := get_of_mem_keys hx
      exact ⟨_, List.mem_map.mpr ⟨(x, vals), mem_of_get hv, rfl⟩, hfdkeys x hx⟩
  have hO : ∀ x vals, get st.1 x = some vals → O (updateSites symR [] siteList) x = some (mkVal momenta le vals) := by
    intro x vals hv
    have hx := mem_keys_of_get hv
    apply u5
    · exact ⟨_, List.mem_map.mpr ⟨(x, vals), mem_of_get hv, rfl⟩, hfdkeys x hx⟩
    · intro p hp e
      obtain ⟨q, hq, rfl⟩ := List.mem_map.mp hp
      have hqk : q.1 ∈ keys st.1 := List.mem_map.mpr ⟨q, hq, rfl⟩
      rw [hfdkeys _ hqk] at e
      have : get st.1 q.1 = some q.2 := get_of_mem g0.snodup hq
      rw [e, hv] at this
      rw [Option.some.inj this]
  -- writing the hoppings
  let F : S → S → Val V (PFn S A V) → Prop := fun x y v =>
    ∃ p ∈ hopList, (v = p.2 ∧ HopEquiv symR p.1.1 p.1.2 x y) ∨ (v = p.2.conj star ∧ HopEquiv symR p.1.1 p.1.2 y x)
  have htrans : ∀ {a b x y x' y' : S}, HopEquiv symR x y x' y' → HopEquiv symR a b x y → HopEquiv symR a b x' y' := by
    rintro a b x y x' y' ⟨g, rfl, rfl⟩ ⟨g', rfl, rfl⟩
    exact ⟨g + g', by rw [sp.lR.act_add], by rw [sp.lR.act_add]⟩
  obtain ⟨H', e', w', k', o', s1, s2⟩ := updateHops_effect (hc := star) sp.lR F
    (by
      rintro a b x y v hq ⟨p, hp, h | h⟩
      · exact ⟨p, hp, .inl ⟨h.1, htrans hq h.2⟩⟩
      · refine ⟨p, hp, .inr ⟨h.1, htrans ?_ h.2⟩⟩
        obtain ⟨g, e1, e2⟩ := hq
        exact ⟨g, e2, e1⟩)
    (by
      rintro a b v ⟨p, hp, h | h⟩
      · exact ⟨p, hp, .inr ⟨by rw [h.1], h.2⟩⟩
      · exact ⟨p, hp, .inl ⟨by rw [h.1, conj_conj], h.2⟩⟩)
    hopList (updateSites symR [] siteList) u1 (by
      intro p hp
      obtain ⟨q, hq, rfl⟩ := List.mem_map.mp hp
      obtain ⟨c1, c2, _, c4, c5⟩ := g0.canon q.1 (List.mem_map.mpr ⟨q, hq, rfl⟩)
      refine ⟨c2, ?_, ?_, ?_⟩
      · rw [hsk, sp.lR.toFd_of_which c1]; exact c4
      · rw [hsk]; exact c5
      · exact ⟨_, hp, .inl ⟨rfl, 0, (sp.lR.act_zero _).symm, (sp.lR.act_zero _).symm⟩⟩)
  have hwrap : wraparound num momenta symO symW symR emb le H = .ok H' := by
    unfold wraparound
    rw [hloop]
    simp only [← hsl, ← hhl, e']
  have hsite : ∀ s, HasSite symR H' s ↔ HasSite symO H s ∧ InW symO emb s := by
    intro s
    rw [hasSite_iff, k', hsk, mem_init_iff sp hr]
  have hInW : ∀ s, InW symO emb s ↔ ∀ i, symO.which s (emb i) = 0 := fun s => funext_iff
  -- hoppings of the result
  have hhop : ∀ env a b, a ≠ b → hopHam symR H' env a b = ((hoppingValuePairs H).map fun p =>
      contrib num momenta env symO symW symR emb p a b).sum := by
    intro env a b hab
    by_cases hex : ∃ p ∈ hopList, HopEquiv symR p.1.1 p.1.2 a b ∨ HopEquiv symR p.1.1 p.1.2 b a
    · obtain ⟨v, hv, p, hp, hF⟩ := s1 a b hex
      obtain ⟨q, hq, rfl⟩ := List.mem_map.mp hp
      have hgq : get st.2 q.1 = some q.2 := get_of_mem g0.hnodup hq
      have hok := (g env).hok q.1 q.2 hgq
      have hval : evalVal env (mkVal momenta le q.2) [q.1.1, q.1.2] = ((hoppingValuePairs H).map fun p =>
          contrib num momenta env symO symW symR emb p q.1.1 q.1.2).sum := by
        rw [evalVal_mkVal hml le _ (fun v hv => (hok v hv).shaped), (g env).hops q.1 q.2 hgq]
      have hinv := inv_mkVal (momenta := momenta) le q.2 (fun v hv => (hok v hv).inv)
      unfold hopHam
      rw [hv]
      simp only
      rcases hF with ⟨rfl, hq'⟩ | ⟨rfl, hq'⟩
      · rw [contrib_equiv sp _ hq', ← hval]
        obtain ⟨r, rfl, rfl⟩ := hq'
        exact hinv.eval r [q.1.1, q.1.2]
      · rw [evalVal_conj, sum_contrib_swap _ b a, contrib_equiv sp _ hq', ← hval]
        obtain ⟨r, rfl, rfl⟩ := hq'
        exact congrArg star (hinv.eval r [q.1.1, q.1.2])
    · push Not at hex
      have h1 := s2 a b hex
      have h2 : ∀ v, getHop symR star H' a b ≠ .ok v := by
        intro v
        rw [h1]
        intro h3
        have := (containsHop_iff (hc := star) u1 sp.lR).mpr ⟨v, h3⟩
        rw [containsHop_eq, if_neg hab, u3] at this
        simp [E] at this
      have h4 : hopHam symR H' env a b = 0 := by
        unfold hopHam
        cases hg : getHop symR star H' a b with
        | ok v => exact absurd hg (h2 v)
        | error e => rfl
      rw [h4]
      symm
      apply List.sum_eq_zero
      intro x hx
      obtain ⟨p, hp, rfl⟩ := List.mem_map.mp hx
      have hnohit : ∀ x y, (x = a ∧ y = b) ∨ (x = b ∧ y = a) → ¬ Hit symO symW symR emb p x y := by
        intro x y hxy hh
        have hne : x ≠ y := by
          rcases hxy with ⟨rfl, rfl⟩ | ⟨rfl, rfl⟩
          · exact hab
          · exact Ne.symm hab
        have hdiag : (KK p.1.1 p.1.2).1 ≠ (KK p.1.1 p.1.2).2 := by
          obtain ⟨r, e1, e2⟩ := hh
          intro e; apply hne; rw [e1, e2, e]
        have hin : ∀ q ∈ keys st.2, ∃ p ∈ hopList, p.1 = q := by
          intro q hq
          obtain ⟨vals, hv⟩ := get_of_mem_keys hq
          exact ⟨_, List.mem_map.mpr ⟨(q, vals), mem_of_get hv, rfl⟩, rfl⟩
        have hsw : HopEquiv symR (symR.toFd2 (KK p.1.1 p.1.2).2 (KK p.1.1 p.1.2).1).1
            (symR.toFd2 (KK p.1.1 p.1.2).2 (KK p.1.1 p.1.2).1).2 y x := by
          obtain ⟨r, e1, e2⟩ := hh
          refine ⟨r + symR.which (KK p.1.1 p.1.2).2, ?_, ?_⟩
          · rw [e2]; simp only [toFd2_eq, sp.lR.act_add]; congr 1; abel
          · rw [e1]; simp only [toFd2_eq, sp.lR.act_add]; congr 1; abel
        rcases g0.cover p hp hdiag with c | c
        · obtain ⟨q, hq, e⟩ := hin _ c
          have hh' : HopEquiv symR q.1.1 q.1.2 x y := by rw [e]; exact hh
          rcases hxy with ⟨rfl, rfl⟩ | ⟨rfl, rfl⟩
          · exact (hex q hq).1 hh'
          · exact (hex q hq).2 hh'
        · obtain ⟨q, hq, e⟩ := hin _ c
          have hh' : HopEquiv symR q.1.1 q.1.2 y x := by rw [e]; exact hsw
          rcases hxy with ⟨rfl, rfl⟩ | ⟨rfl, rfl⟩
          · exact (hex q hq).2 hh'
          · exact (hex q hq).1 hh'
      rw [contrib, if_neg (hnohit a b (.inl ⟨rfl, rfl⟩)), if_neg (hnohit b a (.inr ⟨rfl, rfl⟩)), add_zero]
  -- sites of the result
  have hsham : ∀ env a, HasSite symR H' a → siteHam symR H' env a = siteHam symO H env a +
      ((hoppingValuePairs H).map fun p => contrib num momenta env symO symW symR emb p a a).sum := by
    intro env a ha
    obtain ⟨h1, h2⟩ := (hsite a).mp ha
    obtain ⟨v, hv⟩ := (C23_get_iff_contains (hc := star) hr a a).2.1.mpr h1
    have hgi := get_init (momenta := momenta) sp hr h2 hv
    obtain ⟨vals, e1, e2⟩ := (g env).sites a _ hgi
    have hok := (g env).sok _ vals e1
    unfold siteHam
    rw [hv, getSite_eq, o', hO _ _ e1]
    simp only
    rw [evalVal_mkVal hml le _ (fun v hv => (hok v hv).shaped), e2]
    simp [evalVal_bindSiteVal hml]
  -- everything as one sum
  have hall : ∀ env a b, HasSite symR H' a → HasSite symR H' b → ham symR H' env a b =
      (if a = b then siteHam symO H env a else 0) + ((hoppingValuePairs H).map fun p =>
        contrib num momenta env symO symW symR emb p a b).sum := by
    intro env a b ha hb
    unfold ham
    by_cases hab : a = b
    · subst hab; simp only [if_true, hsham env a ha]
    · simp only [if_neg hab, hhop env a b hab, zero_add]
  refine ⟨H', hwrap, w', ?_, ?_, ?_⟩
  · intro s; rw [hsite, hInW]
  · intro env a b ha hb
    have hwa := ((hsite a).mp ha).2
    have hwb := ((hsite b).mp hb).2
    obtain ⟨f1, f2⟩ := bloch_sum (num := num) (momenta := momenta) (env := env) sp hr hper.2 hwa hwb
    have hsplit : ∀ w : Fin m → ℤ, bloch num momenta env w • ham symO H env a (symW.act w b) =
        pt 0 (a = b) (siteHam symO H env a) w +
          bloch num momenta env w • hopHam symO H env a (symW.act w b) := by
      intro w
      unfold ham
      by_cases hab : a = symW.act w b
      · have hw0 : w = 0 := by
          have := congrArg (bDom symO emb) hab
          rw [sp.bDom_actW, hwa, hwb, add_zero] at this
          exact this.symm
        subst hw0
        rw [sp.actW_zero] at hab ⊢
        subst hab
        have : hopHam symO H env a a = 0 := by simp [hopHam, getHop]
        rw [if_pos rfl, pt_pos ⟨rfl, rfl⟩, this]; simp [bloch_zero]
      · have hn : ¬ (w = 0 ∧ a = b) := by
          rintro ⟨rfl, rfl⟩; exact hab (sp.actW_zero a).symm
        rw [if_neg hab, pt_neg hn, zero_add]
    have q1 := finsum_point (0 : Fin m → ℤ) (a = b) (siteHam symO H env a)
    constructor
    · simp only [hsplit]
      exact (q1.1.union f1).subset (Function.support_add _ _)
    · rw [hall env a b ha hb]
      simp only [hsplit]
      rw [finsum_add_distrib q1.1 f1, f2, q1.2]
      congr 1
      by_cases hab : a = b
      · rw [if_pos hab, ind, if_pos hab]
      · rw [if_neg hab, ind, if_neg hab]
  · intro env a b hherm ha hb
    rw [hall env a b ha hb, hall env b a hb ha, sum_contrib_swap _ a b, star_add]
    congr 1
    by_cases hab : a = b
    · subst hab
      have := hherm a ((hsite a).mp ha).1
      simp only [ham, if_true] at this ⊢
      exact this.symm
    · rw [if_neg hab, if_neg (Ne.symm hab), star_zero]

/-! ## The hypotheses are met -/

/-- The relation between the symmetries holds for translational symmetries: `tr` are the translations of the
sites, `per` the periods of the original symmetry, of which `emb` are wrapped and `embR` kept
(wraparound.py l.195-205: `TranslationalSymmetry(periods.pop(keep))`, `TranslationalSymmetry(*periods)`). -/
theorem split_of_periods {T : Type} [AddCommGroup T] {r : ℕ} (tr : T → S → S) (per : Fin k → T)
    (symR : Symmetry S (Fin r → ℤ)) (embR : Fin r → Fin k) (hb : Function.Bijective (Sum.elim emb embR))
    (lO : symO.Lawful) (lR : symR.Lawful)
    (hO : ∀ g s, symO.act g s = tr (∑ j, g j • per j) s)
    (hW : ∀ w s, symW.act w s = tr (∑ i, w i • per (emb i)) s)
    (hR : ∀ x s, symR.act x s = tr (∑ i, x i • per (embR i)) s) : Split symO symW symR emb := by
  have inj : Function.Injective emb := fun i j h => by
    have := @hb.1 (Sum.inl i) (Sum.inl j) h
    exact Sum.inl.inj this
  have injR : Function.Injective embR := fun i j h => by
    have := @hb.1 (Sum.inr i) (Sum.inr j) h
    exact Sum.inr.inj this
  have hdis : ∀ i j, emb i ≠ embR j := fun i j h => by
    have := @hb.1 (Sum.inl i) (Sum.inr j) h
    cases this
  have hsum : ∀ g : Fin k → ℤ, ∑ j, g j • per j = (∑ i, g (emb i) • per (emb i)) + ∑ i, g (embR i) • per (embR i) := by
    intro g
    rw [← (Equiv.ofBijective _ hb).sum_comp, Fintype.sum_sum_type]
    rfl
  refine ⟨lO, lR, inj, ?_, ?_, ?_⟩
  · intro w s
    rw [hW, hO, hsum]
    congr 1
    have h1 : ∀ i, ext emb w (emb i) = w i := ext_apply inj w
    have h2 : ∀ i, ext emb w (embR i) = 0 := fun i =>
      Function.extend_apply' _ _ _ (by rintro ⟨j, h⟩; exact hdis j i h)
    simp [h1, h2]
  · intro x
    refine ⟨ext embR x, fun i => Function.extend_apply' _ _ _ (by rintro ⟨j, h⟩; exact hdis i j h.symm), ?_⟩
    intro s
    rw [hR, hO, hsum]
    congr 1
    have h1 : ∀ i, ext embR x (embR i) = x i := ext_apply injR x
    have h2 : ∀ i, ext embR x (emb i) = 0 := fun i =>
      Function.extend_apply' _ _ _ (by rintro ⟨j, h⟩; exact hdis i j h.symm)
    simp [h1, h2]
  · intro g hg
    refine ⟨fun i => g (embR i), fun s => ?_⟩
    rw [hR, hO, hsum]
    simp [hg]

/-- `keep=i`: the wrapped directions are all others. -/
theorem keep_some {n : ℕ} (i : Fin (n + 1)) :
    Function.Bijective (Sum.elim i.succAbove (fun _ : Fin 1 => i)) := by
  constructor
  · rintro (a | a) (b | b) h
    · exact congrArg _ (Fin.succAbove_right_injective h)
    · exact absurd h (Fin.succAbove_ne i a)
    · exact absurd h.symm (Fin.succAbove_ne i b)
    · exact congrArg _ (Subsingleton.elim a b)
  · intro j
    rcases eq_or_ne j i with rfl | h
    · exact ⟨.inr 0, rfl⟩
    · obtain ⟨a, rfl⟩ := Fin.exists_succAbove_eq h
      exact ⟨.inl a, rfl⟩

/-- `keep=None`: all directions are wrapped. -/
theorem keep_none : Function.Bijective (Sum.elim (id : Fin k → Fin k) (Fin.elim0 : Fin 0 → Fin k)) := by
  constructor
  · rintro (a | a) (b | b) h
    · exact congrArg _ h
    · exact b.elim0
    · exact a.elim0
    · exact a.elim0
  · intro j; exact ⟨.inl j, rfl⟩

/-- Value functions that are stored on sites and hoppings and respect the symmetry. -/
theorem periodic_of_stored {H : HMap S V (PFn S A V)} (hr : Reachable symO H)
    (h1 : ∀ p ∈ H, InvVal symO p.2.onsite)
    (h2 : ∀ p ∈ H, ∀ e ∈ p.2.edges, ∀ f, e.2 = .func f → InvVal symO (.func f)) : Periodic symO H := by
  obtain ⟨hl, wf⟩ := hr.wf
  constructor
  · intro x v hv
    rw [getSite_eq] at hv
    unfold O at hv
    cases hg : get H (symO.toFd x) with
    | none => rw [hg] at hv; cases hv
    | some row =>
      rw [hg] at hv
      obtain rfl := Except.ok.inj hv
      exact h1 _ (mem_of_get hg)
  · intro x y v hv
    have hE : ∀ a b f, E H a b = some (.func f) → InvVal symO (.func f) := by
      intro a b f he
      unfold E at he
      cases hg : get H a with
      | none => rw [hg] at he; cases he
      | some row =>
        rw [hg] at he
        exact h2 _ (mem_of_get hg) _ (mem_of_get he) f rfl
    obtain ⟨hne, hv⟩ := (getHop_ok_iff wf hl).mp hv
    unfold edgeVal at hv
    split at hv
    · cases hv
    · obtain rfl := Option.some.inj hv
      intro g ss args; rfl
    · rename_i f he
      obtain rfl := Option.some.inj hv
      exact hE _ _ _ he
    · split at hv
      · obtain rfl := Option.some.inj hv
        intro g ss args; rfl
      · rename_i f he
        obtain rfl := Option.some.inj hv
        exact (hE _ _ _ he).conj
      · cases hv

/-- Disagreement: for a builder without any symmetry to wrap (`NoSymmetry`, so no momenta) the slices
`args[:-0]` are empty and every value function is called without its parameters. -/
theorem C66_no_momenta (f : PFn S A V) (env : String → A) (a : S) :
    evalVal env (bindSiteVal [] (.func f)) [a] = f.call [a] [] := by
  simp [evalVal, bindSiteVal, callVal, bindSite, sliceTo]

end Kwant.Wrap
