import Mathlib.Data.Complex.Basic
import Verif.Gauge.PeierlsLead

/-! C183: the parameters of a system with Peierls phases; a concrete case. -/

set_option linter.unusedSectionVars false

namespace Kwant.Peierls
open Kwant Kwant.Assoc Kwant.Builder Kwant.Final

variable {S V Fn N A X K D : Type} [LinearOrder S] [DecidableEq N]
variable {E : Env S V N A X K} {hc : V → V} {C : Calls S V Fn N A X}

theorem isSiteFn_iff {H : HMap S V Fn} {consts : List ((S × S) × V)} {H' : HMap S V (PFn Fn)} (h : Reachable (noSymmetry S) H)
    (P : Phased (noSymmetry S) hc H consts H') (f' : PFn Fn) : IsSiteFn H' f' ↔ ∃ f, f' = .plain f ∧ IsSiteFn H f := by
  have hback : ∀ a v', getSite (noSymmetry S) H' a = .ok v' → ∃ v, getSite (noSymmetry S) H a = .ok v ∧ v' = plainVal v := by
    intro a v' hv
    have hs : HasSite (noSymmetry S) H a := by
      unfold HasSite
      rw [← P.siteIff]
      exact ((C23_get_iff_contains (hc := hc) P.reach a a).2.1).mp ⟨_, hv⟩
    obtain ⟨v, hv0⟩ := ((C23_get_iff_contains (hc := hc) h a a).2.1).mpr hs
    refine ⟨v, hv0, ?_⟩
    have := P.site a v hv0
    rw [hv] at this
    exact Except.ok.inj this
  constructor
  · rintro ⟨a, ha | ha⟩
    · obtain ⟨v, hv, e⟩ := hback a _ ha
      cases v with
      | const c => cases e
      | func f => cases e; exact ⟨f, rfl, a, .inl hv⟩
      | herm f => cases e
    · obtain ⟨v, hv, e⟩ := hback a _ ha
      cases v with
      | const c => cases e
      | func f => cases e
      | herm f => cases e; exact ⟨f, rfl, a, .inr hv⟩
  · rintro ⟨f, rfl, a, ha | ha⟩
    · exact ⟨a, .inl (P.site a _ ha)⟩
    · exact ⟨a, .inr (P.site a _ ha)⟩

theorem isHopFn_iff {H : HMap S V Fn} {consts : List ((S × S) × V)} {H' : HMap S V (PFn Fn)} (h : Reachable (noSymmetry S) H)
    (P : Phased (noSymmetry S) id H consts H') (f' : PFn Fn) :
    IsHopFn H' f' ↔ ∃ a b v, ((a, b), v) ∈ hoppingValuePairs H ∧ f' = newFn v := by
  obtain ⟨hl, hw⟩ := h.wf
  constructor
  · rintro ⟨a, b, hf⟩
    have hh : HasHop (noSymmetry S) H a b := by
      have := ((C23_get_iff_contains (hc := id) P.reach a b).1).mp ⟨_, hf⟩
      exact (P.hopIff a b).mp this
    have hm : ∀ x y, (x, y) ∈ hoppings H → ∃ v, ((x, y), v) ∈ hoppingValuePairs H := by
      intro x y hm
      rw [hoppings_eq] at hm
      obtain ⟨⟨q, v⟩, hq, e⟩ := List.mem_map.mp hm
      cases e
      exact ⟨v, hq⟩
    rcases stored_or h hh with hs | hs
    · obtain ⟨v, hv⟩ := hm a b hs
      have := P.fwd a b v hv
      rw [hf] at this
      cases this
      exact ⟨a, b, v, hv, rfl⟩
    · obtain ⟨v, hv⟩ := hm b a hs
      have := C23_hermitian P.reach (fun _ => rfl) _ _ _ (P.fwd b a v hv)
      rw [hf] at this
      cases this
  · rintro ⟨a, b, v, hm, rfl⟩
    exact ⟨a, b, P.fwd a b v hm⟩

/-- **C183.** The parameters of the system with phases are those of the original one, and `phi` (if there are any hoppings). -/
theorem C183_parameters {H : HMap S V Fn} (h : Reachable (noSymmetry S) H) (junk : ℕ → ℤ) (phi : N)
    {disc : Disc D} {leads : List (ALead S V Fn D)} {B : PBuilder S V Fn D}
    (hB : addPeierls E (noSymmetry S) C.sig phi H disc leads = .ok B) :
    ∃ sys sys', finalizeFinite C junk H = .ok sys ∧ finalizeFinite (calls E C phi B.consts) junk B.H = .ok sys' ∧
      (sys'.parameters = none ↔ sys.parameters = none) ∧
      ∀ ps ps', sys.parameters = some ps → sys'.parameters = some ps' → ∀ n, n ∈ ps' ↔ n ∈ ps ∨ (n = phi ∧ hoppings H ≠ []) := by
  have hok : addPhase E (noSymmetry S) C.sig phi H = .ok (B.consts, B.H) := by
    unfold addPeierls at hB
    split at hB
    · cases hB
    · split at hB
      · cases hB
      · split at hB
        · cases hB
        · next c H' ha => cases hB; exact ha
  obtain ⟨h1, h2, P⟩ := addPhase_phased (id : V → V) h hok
  obtain ⟨hl, hw⟩ := h.wf
  obtain ⟨sys, g1, g2, g3⟩ := C91_parameters (C := C) h junk
  obtain ⟨sys', g1', g2', g3'⟩ := C91_parameters (C := calls E C phi B.consts) P.reach junk
  have hsig : ∀ f, IsHopFn H f → ∃ ns, C.sig f = some ns ∧ (calls E C phi B.consts).sig (.wrap f) = some ([E.site0, E.site1] ++ ns.drop 2 ++ [phi]) := by
    rintro f ⟨a, b, hf⟩
    obtain ⟨_, he⟩ := (getHop_ok_iff hw hl).mp hf
    have hst : Builder.E H a b = some (.func f) := by
      simp only [edgeVal] at he
      split at he
      · cases he
      · cases he
      · next h1 => cases he; exact h1
      · split at he <;> cases he
    obtain ⟨ns', hns⟩ := Option.ne_none_iff_exists'.mp (h2 ((a, b), .func f) ((mem_hoppingValuePairs hw.toNF).mpr ⟨_, hst, rfl⟩) f rfl)
    obtain ⟨ns, e1, e2⟩ := wrapSig_some hns
    exact ⟨ns, e1, by rw [← e2]; exact hns⟩
  have hof : ∀ a b f, ((a, b), Val.func f) ∈ hoppingValuePairs H → IsHopFn H f := by
    intro a b f hm
    obtain ⟨st, he, hst⟩ := (mem_hoppingValuePairs hw.toNF).mp hm
    refine ⟨a, b, ?_⟩
    rw [getHop_ok_iff hw hl, toFd2_of_fd hl (hw.which_zero he)]
    refine ⟨(hw.pair a b st he).1, ?_⟩
    simp only [edgeVal, he]
    cases st <;> simp_all [Stored.toVal?]
  have hto : ∀ f, IsHopFn H f → ∃ a b, ((a, b), Val.func f) ∈ hoppingValuePairs H := by
    rintro f ⟨a, b, hf⟩
    obtain ⟨_, he⟩ := (getHop_ok_iff hw hl).mp hf
    have hst : Builder.E H a b = some (.func f) := by
      simp only [edgeVal] at he
      split at he
      · cases he
      · cases he
      · next h1 => cases he; exact h1
      · split at he <;> cases he
    exact ⟨a, b, (mem_hoppingValuePairs hw.toNF).mpr ⟨_, hst, rfl⟩⟩
  refine ⟨sys, sys', g1, g1', ?_, ?_⟩
  · rw [g2, g2']
    constructor
    · rintro ⟨f', hf' | hf', hs⟩
      · obtain ⟨f, rfl, hf⟩ := (isSiteFn_iff h P f').mp hf'
        exact ⟨f, .inl hf, hs⟩
      · obtain ⟨a, b, v, hm, rfl⟩ := (isHopFn_iff h P f').mp hf'
        cases v with
        | const c =>
          have : constSig E phi = none := hs
          exact absurd this h1
        | func f =>
          obtain ⟨ns, _, e⟩ := hsig f (hof a b f hm)
          have hs' : (calls E C phi B.consts).sig (.wrap f) = none := hs
          rw [e] at hs'
          cases hs'
        | herm f => exact absurd rfl (pairs_not_herm H _ hm f)
    · rintro ⟨f, hf | hf, hs⟩
      · exact ⟨.plain f, .inl ((isSiteFn_iff h P _).mpr ⟨f, rfl, hf⟩), hs⟩
      · obtain ⟨ns, e, _⟩ := hsig f hf
        rw [hs] at e
        cases e
  · intro ps ps' hps hps' n
    rw [g3 ps hps n, g3' ps' hps' n]
    constructor
    · rintro (⟨f', ns, hf', hs, hn⟩ | ⟨f', ns', hf', hs, hn⟩)
      · obtain ⟨f, rfl, hf⟩ := (isSiteFn_iff h P f').mp hf'
        exact .inl (.inl ⟨f, ns, hf, hs, hn⟩)
      · obtain ⟨a, b, v, hm, rfl⟩ := (isHopFn_iff h P f').mp hf'
        have hne : hoppings H ≠ [] := by
          rw [hoppings_eq]
          intro hx
          have := List.mem_map_of_mem (f := Prod.fst) hm
          rw [hx] at this
          cases this
        cases v with
        | const c =>
          have hs' : constSig E phi = some ns' := hs
          rw [constSig_some h1] at hs'
          cases hs'
          simp only [List.drop_succ_cons, List.drop_zero, List.mem_singleton] at hn
          exact .inr ⟨hn, hne⟩
        | func f =>
          obtain ⟨ns, e1, e2⟩ := hsig f (hof a b f hm)
          have hs' : (calls E C phi B.consts).sig (.wrap f) = some ns' := hs
          rw [e2] at hs'
          cases hs'
          have hd : List.drop 2 ([E.site0, E.site1] ++ ns.drop 2 ++ [phi]) = ns.drop 2 ++ [phi] := rfl
          rw [hd, List.mem_append, List.mem_singleton] at hn
          rcases hn with hn | hn
          · exact .inl (.inr ⟨f, ns, hof a b f hm, e1, hn⟩)
          · exact .inr ⟨hn, hne⟩
        | herm f => exact absurd rfl (pairs_not_herm H _ hm f)
    · rintro ((⟨f, ns, hf, hs, hn⟩ | ⟨f, ns, hf, hs, hn⟩) | ⟨rfl, hne⟩)
      · exact .inl ⟨.plain f, ns, (isSiteFn_iff h P _).mpr ⟨f, rfl, hf⟩, hs, hn⟩
      · right
        obtain ⟨ns0, e1, e2⟩ := hsig f hf
        rw [hs] at e1
        cases e1
        obtain ⟨a, b, hm⟩ := hto f hf
        refine ⟨.wrap f, _, (isHopFn_iff h P _).mpr ⟨a, b, _, hm, rfl⟩, e2, ?_⟩
        have hd : List.drop 2 ([E.site0, E.site1] ++ ns.drop 2 ++ [phi]) = ns.drop 2 ++ [phi] := rfl
        rw [hd]
        exact List.mem_append_left _ hn
      · right
        obtain ⟨⟨a, b⟩, hab⟩ := List.exists_mem_of_ne_nil _ hne
        rw [hoppings_eq] at hab
        obtain ⟨⟨q, v⟩, hm, e⟩ := List.mem_map.mp hab
        cases e
        cases v with
        | const c =>
          exact ⟨.constHop, _, (isHopFn_iff h P _).mpr ⟨a, b, _, hm, rfl⟩, constSig_some h1, by simp⟩
        | func f =>
          obtain ⟨ns, e1, e2⟩ := hsig f (hof a b f hm)
          refine ⟨.wrap f, _, (isHopFn_iff h P _).mpr ⟨a, b, _, hm, rfl⟩, e2, ?_⟩
          have hd : List.drop 2 ([E.site0, E.site1] ++ ns.drop 2 ++ [n]) = ns.drop 2 ++ [n] := rfl
          rw [hd]
          simp
        | herm f => exact absurd rfl (pairs_not_herm H _ hm f)

/-! ### A concrete case, and what happens to particle-hole symmetry -/
namespace Example

/-- Two sites, and a hopping `I` from site 0 to site 1 (a constant). -/
noncomputable def exH : HMap ℕ ℂ ℕ :=
  (setHop (noSymmetry ℕ) (setSite (noSymmetry ℕ) (setSite (noSymmetry ℕ) [] 0 (.const 0)) 1 (.const 0)) 0 1 (.const Complex.I)).1

theorem exH_reachable : Reachable (noSymmetry ℕ) exH :=
  .setHop _ _ _ (.setSite _ _ (.setSite _ _ (.empty (noSymmetry_lawful ℕ))))

/-- Names are numbers: `_site0` = 0, `_site1` = 1.  There is one phase, `I` from smaller to larger sites. -/
noncomputable def exE : Env ℕ ℂ ℕ Unit Unit ℂ where
  site0 := 0
  site1 := 1
  valid := fun _ => true
  leadName := fun p i => p + i + 1
  app := fun _ a b => .ok (if a < b then Complex.I else if b < a then -Complex.I else 1)
  mul := fun v k => v * k
  unpackErr := ()
  keyErr := ()

/-- No value functions are used. -/
def exC : Calls ℕ ℂ ℕ ℕ Unit Unit where
  sig := fun _ => some []
  call := fun _ _ _ => .error ()
  hermOnsite := fun _ _ _ => .error ()

theorem exH_getHop : getHop (noSymmetry ℕ) star exH 0 1 = .ok (.const Complex.I) := rfl

theorem ex_nameOK : NameOK exE (noSymmetry ℕ) star exC.sig 2 exH :=
  ⟨rfl, by decide, by decide, by decide, fun x y f _ => ⟨[], rfl, by simp⟩⟩

theorem ex_good : GoodPhase exE (noSymmetry ℕ) star () (fun a b => if a < b then Complex.I else if b < a then -Complex.I else 1) where
  app := fun a b => rfl
  herm := fun a b => by
    rcases lt_trichotomy a b with h | h | h
    · simp [h, not_lt_of_gt h]
    · simp [h]
    · simp [h, not_lt_of_gt h]
  symm := fun g a b => rfl

/-- Specification: the Hamiltonian has a particle-hole symmetry that acts as complex conjugation. -/
def ConjPH {Fn : Type} (C : Calls ℕ ℂ Fn ℕ Unit Unit) (sys : Sys ℕ ℂ Fn ℕ) (params : List (ℕ × Unit)) : Prop :=
  ∀ i j v, i < sys.sites.length → j < sys.sites.length →
    sys.hamiltonian (noSymmetry ℕ) star C i j [] params = .ok v → star v = -v

theorem ex_sites (sys : Sys ℕ ℂ ℕ ℕ) (junk : ℕ → ℤ) (h : finalizeFinite exC junk exH = .ok sys) : sys.sites = [0, 1] := by
  obtain ⟨sys', h1, h2, h3, _⟩ := C40_sites (C := exC) exH_reachable junk
  rw [h] at h1
  cases h1
  refine sorted_ext h2 (by simp) fun s => ?_
  rw [h3]
  unfold HasSite containsSite
  rw [decide_eq_true_iff]
  change s ∈ [0, 1] ↔ _
  rfl

/-- **C183, what is not kept.** Particle-hole symmetry is copied to the new system, but a scalar phase may break it: here the original
Hamiltonian satisfies it, the one with (hermitian) phases does not. -/
theorem C183_counterexample (junk : ℕ → ℤ) :
    ∃ B sys sys', addPeierls (D := Unit) exE (noSymmetry ℕ) exC.sig 2 exH ⟨none, none, some (), none⟩ [] = .ok B ∧
      B.disc.particleHole = some () ∧
      finalizeFinite exC junk exH = .ok sys ∧ finalizeFinite (calls exE exC 2 B.consts) junk B.H = .ok sys' ∧
      ConjPH exC sys [(2, ())] ∧ ¬ ConjPH (calls exE exC 2 B.consts) sys' [(2, ())] := by
  obtain ⟨s1, s2⟩ := C183_succeeds (D := Unit) (E := exE) star exH_reachable exC.sig 2 ⟨none, none, some (), none⟩ []
    (fun l hl => absurd hl (by simp))
  obtain ⟨B, hB⟩ := s1.mpr ⟨ex_nameOK, fun k l hk => by simp at hk⟩
  obtain ⟨sys, sys', f1, f2, f3, f4⟩ := C183_finite (C := exC) (hc := star) exH_reachable star_star junk 2 hB
  refine ⟨B, sys, sys', hB, (s2 B hB).2.2.1, f1, f2, ?_, ?_⟩
  · obtain ⟨sys_, g1, g2⟩ := C41_hamiltonian (C := exC) (hc := star) exH_reachable junk
    rw [f1] at g1
    cases g1
    have hs := ex_sites sys junk f1
    have on : ∀ a, a = 0 ∨ a = 1 → getSite (noSymmetry ℕ) exH a = .ok (.const 0) := by rintro a (rfl | rfl) <;> rfl
    have h01 : HasHop (noSymmetry ℕ) exH 0 1 := ((C23_get_iff_contains (hc := star) exH_reachable 0 1).1).mp ⟨_, exH_getHop⟩
    have hg10 := C23_hermitian exH_reachable star_star _ _ _ exH_getHop
    have h10 : HasHop (noSymmetry ℕ) exH 1 0 := ((C23_get_iff_contains (hc := star) exH_reachable 1 0).1).mp ⟨_, hg10⟩
    intro i j v hi hj hv
    rw [hs] at hi hj
    simp only [List.length_cons, List.length_nil, Nat.zero_add, Nat.reduceAdd] at hi hj
    have onz : ∀ k a, sys.sites[k]? = some a → (a = 0 ∨ a = 1) → sys.hamiltonian (noSymmetry ℕ) star exC k k [] [(2, ())] = .ok 0 := by
      intro k a hk ha
      obtain ⟨⟨w, w1, w2⟩, _⟩ := g2 k k a a hk hk
      rw [on a ha] at w1
      cases w1
      rw [w2 [] _ (.inl rfl)]
      rfl
    have e0 : sys.sites[0]? = some 0 := by rw [hs]; rfl
    have e1 : sys.sites[1]? = some 1 := by rw [hs]; rfl
    obtain ⟨_, _, _, k3, _⟩ := g2 0 1 0 1 e0 e1
    obtain ⟨_, _, _, r3, _⟩ := g2 1 0 1 0 e1 e0
    obtain ⟨w, w1, w2⟩ := k3 (by decide) h01
    rw [exH_getHop] at w1
    cases w1
    obtain ⟨z, z1, z2⟩ := r3 (by decide) h10
    rw [hg10] at z1
    cases z1
    have cases_i : i = 0 ∨ i = 1 := by omega
    have cases_j : j = 0 ∨ j = 1 := by omega
    rcases cases_i with rfl | rfl <;> rcases cases_j with rfl | rfl
    · rw [onz 0 0 e0 (.inl rfl)] at hv; cases hv; simp
    · rw [w2 [] _ (.inl rfl)] at hv
      simp only [hopValue] at hv
      cases hv
      simp
    · rw [z2 [] _ (.inl rfl)] at hv
      simp only [hopValue, Val.conj] at hv
      cases hv
      simp
    · rw [onz 1 1 e1 (.inr rfl)] at hv; cases hv; simp
  · intro hc
    have hs := ex_sites sys junk f1
    have e0 : sys.sites[0]? = some 0 := by rw [hs]; rfl
    have e1 : sys.sites[1]? = some 1 := by rw [hs]; rfl
    have key := (f4 [(2, ())] () (by simp [Assoc.get]) 0 1 0 1 e0 e1).2.2 star _ ex_good (fun w k => by
      simp only [exE, star_mul']) (by decide)
    obtain ⟨sys_, g1, g2⟩ := C41_hamiltonian (C := exC) (hc := star) exH_reachable junk
    rw [f1] at g1
    cases g1
    have h01 : HasHop (noSymmetry ℕ) exH 0 1 := ((C23_get_iff_contains (hc := star) exH_reachable 0 1).1).mp ⟨_, exH_getHop⟩
    obtain ⟨_, _, _, k3, _⟩ := g2 0 1 0 1 e0 e1
    obtain ⟨w, w1, w2⟩ := k3 (by decide) h01
    rw [exH_getHop] at w1
    cases w1
    rw [w2 [] _ (.inl rfl)] at key
    have hv : sys'.hamiltonian (noSymmetry ℕ) star (calls exE exC 2 B.consts) 0 1 [] [(2, ())] = .ok (-1) := by
      rw [key]
      simp [hopValue, Except.map, exE]
    have := hc 0 1 (-1) (by rw [f3, hs]; decide) (by rw [f3, hs]; decide) hv
    norm_num at this

end Example
end Kwant.Peierls
