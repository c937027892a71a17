import Verif.Final.FiniteProps
import Verif.Final.InfProps
import Verif.System.SubProps

/-! `hamiltonian_submatrix` of finalized builders: from the builder to the matrix. -/
set_option linter.unusedSectionVars false

namespace Kwant.System
open Kwant Kwant.Assoc Kwant.Builder Kwant.Final

variable {S Fn N A X K : Type} [LinearOrder S] [DecidableEq N]
variable [AddCommMonoid K] [StarAddMonoid K] [DecidableEq K]

/-- `self.graph.out_neighbors(i)` (_system.pyx l.71, l.174). -/
def outN (c : Graph.CGraph) (i : ℕ) : List ℕ :=
  match c.outNeighbors i with
  | .ok js => js.map Int.toNat
  | .error _ => []

/-- A finalized builder, with `args` and `params` given, as the low-level system that `hamiltonian_submatrix` works
with (values are matrices; `ham` is its method `hamiltonian`). -/
def lowLevel (sys : Sys S (Mat K) Fn N) (ham : ℕ → ℕ → Except (HErr X) (Mat K)) : LSys K (HErr X) where
  n := sys.graph.numNodes
  nbrs := outN sys.graph
  ham := ham

variable {C : Calls S (Mat K) Fn N A X}

/-- The low-level system of a finalized finite builder is simple and Hermitian. -/
theorem finite_lawful {H : HMap S (Mat K) Fn} (h : Reachable (noSymmetry S) H) (junk : ℕ → ℤ) {sys : Sys S (Mat K) Fn N}
    (hs : finalizeFinite C junk H = .ok sys) (args : List A) (params : List (N × A)) :
    (lowLevel sys fun i j => sys.hamiltonian (noSymmetry S) Mat.dagger C i j args params).Simple ∧
    (lowLevel sys fun i j => sys.hamiltonian (noSymmetry S) Mat.dagger C i j args params).Herm ∧
    (lowLevel sys fun i j => sys.hamiltonian (noSymmetry S) Mat.dagger C i j args params).n = sys.sites.length ∧
    ∀ (i j : ℕ) (a b : S), sys.sites[i]? = some a → sys.sites[j]? = some b →
      (j ∈ outN sys.graph i ↔ HasHop (noSymmetry S) H a b) := by
  obtain ⟨hl, hw⟩ := h.wf
  obtain ⟨sys', h1, R⟩ := finalizeFinite_rep (C := C) hw hl junk
  rw [hs] at h1; cases h1
  obtain ⟨sys', h1, h42⟩ := C42_hermitian (C := C) (hc := Mat.dagger) h junk dagger_dagger
  rw [hs] at h1; cases h1
  have hnn : sys.graph.numNodes = sys.sites.length := by rw [R.nn, R.sites]
  have hout : ∀ (i : ℕ) (a : S), sys.sites[i]? = some a → (outN sys.graph i).Nodup ∧
      ∀ j, j ∈ outN sys.graph i ↔ ∃ b, sys.sites[j]? = some b ∧ (E H a b).isSome = true := by
    intro i a ha
    obtain ⟨js, g1, g2, g3⟩ := R.out i a ha
    unfold outN
    rw [g1]
    simp only
    have hpos : ∀ z ∈ js, 0 ≤ z := by
      intro z hz
      obtain ⟨k, b, rfl, _⟩ := (g3 z).mp hz
      omega
    constructor
    · refine (List.nodup_map_iff_inj_on g2).mpr ?_
      intro x hx y hy hxy
      have := hpos x hx; have := hpos y hy; omega
    · intro j
      rw [List.mem_map]
      constructor
      · rintro ⟨z, hz, rfl⟩
        obtain ⟨k, b, rfl, g4, g5⟩ := (g3 z).mp hz
        exact ⟨b, by simpa using g4, g5⟩
      · rintro ⟨b, g4, g5⟩
        exact ⟨(j : ℤ), (g3 _).mpr ⟨j, b, rfl, g4, g5⟩, by simp⟩
  have hsite : ∀ (i : ℕ) (hi : i < sys.sites.length), sys.sites[i]? = some sys.sites[i] := fun i hi => List.getElem?_eq_getElem hi
  have hnodup : sys.sites.Nodup := by rw [R.sites]; exact pySorted_nodup hw.keys
  refine ⟨⟨?_, ?_, ?_⟩, ?_, hnn, ?_⟩
  · intro i hi
    simp only [lowLevel, hnn] at hi ⊢
    exact (hout i _ (hsite i hi)).1
  · intro i hi j hj
    simp only [lowLevel, hnn] at hi hj ⊢
    obtain ⟨b, hb, _⟩ := ((hout i _ (hsite i hi)).2 j).mp hj
    exact (List.getElem?_eq_some_iff.mp hb).1
  · intro i hi hj
    simp only [lowLevel, hnn] at hi hj
    obtain ⟨b, hb, he⟩ := ((hout i _ (hsite i hi)).2 i).mp hj
    rw [hsite i hi] at hb
    obtain ⟨st, hst⟩ := Option.isSome_iff_exists.mp he
    exact (hw.pair _ _ st hst).1 (Option.some.inj hb)
  · intro i j hi hj
    simp only [lowLevel, hnn] at hi hj ⊢
    have ha := hsite i hi
    obtain ⟨b, hb, he⟩ := ((hout i _ ha).2 j).mp hj
    have hj' := (List.getElem?_eq_some_iff.mp hb).1
    obtain ⟨st, hst⟩ := Option.isSome_iff_exists.mp he
    have hrev : (E H b sys.sites[i]).isSome = true := by
      have h1 : HasHop (noSymmetry S) H sys.sites[i] b := (hasHop_iff hw hl).mpr ⟨(hw.pair _ _ st hst).1, by rw [noSym_toFd2]; exact he⟩
      obtain ⟨v, hv⟩ := (C23_get_iff_contains (hc := Mat.dagger) h _ _).1.mpr h1
      have h2 := (C23_get_iff_contains (hc := Mat.dagger) h _ _).1.mp ⟨_, C23_hermitian h dagger_dagger _ _ v hv⟩
      have := ((hasHop_iff hw hl).mp h2).2
      rwa [noSym_toFd2] at this
    refine ⟨((hout j b hb).2 i).mpr ⟨_, ha, hrev⟩, ?_⟩
    have hij : j ≠ i := by
      rintro rfl
      rw [ha] at hb
      exact (hw.pair _ _ st hst).1 (Option.some.inj hb)
    exact h42 j i hij hj' hi args params
  · intro i j a b ha hb
    rw [(hout i a ha).2 j, hasHop_iff hw hl, noSym_toFd2]
    constructor
    · rintro ⟨b', hb', he⟩
      rw [hb] at hb'; cases hb'
      obtain ⟨st, hst⟩ := Option.isSome_iff_exists.mp he
      exact ⟨(hw.pair _ _ st hst).1, he⟩
    · rintro ⟨_, he⟩
      exact ⟨b, hb, he⟩

/-- C44, C45 for finalized builders: whenever the full matrix of a finalized finite builder is computed, the block of
the sites `a`, `b` holds the value of the builder's hopping (evaluated as in `C41_hamiltonian`) and vanishes without
hopping; the diagonal blocks hold the values of the sites. -/
theorem C44_builder {H : HMap S (Mat K) Fn} (h : Reachable (noSymmetry S) H) (junk : ℕ → ℤ) {sys : Sys S (Mat K) Fn N}
    (hs : finalizeFinite C junk H = .ok sys) (args : List A) (params : List (N × A)) (hx : args = [] ∨ params = [])
    {R R' : ℕ} {M : ℕ → ℕ → K} {tn fn : List ℕ}
    (hM : submatrixDense (lowLevel sys fun i j => sys.hamiltonian (noSymmetry S) Mat.dagger C i j args params) none none =
      .ok (((R, R'), M), tn, fn)) :
    R = R' ∧ tn = fn ∧ R = tn.sum ∧ tn.length = sys.sites.length ∧
    ∀ (p q : ℕ) (a b : S) (i j : ℕ), sys.sites[p]? = some a → sys.sites[q]? = some b → i < tn.getD p 0 → j < tn.getD q 0 →
      (a = b → ∃ v m, getSite (noSymmetry S) H a = .ok v ∧ siteValue (noSymmetry S) C v a args params = .ok m ∧
        m.rows = tn.getD p 0 ∧ M ((tn.take p).sum + i) ((tn.take q).sum + j) = m.val i j) ∧
      (HasHop (noSymmetry S) H a b → ∃ v m, getHop (noSymmetry S) Mat.dagger H a b = .ok v ∧
        hopValue (noSymmetry S) Mat.dagger C v a b args params = .ok m ∧
        M ((tn.take p).sum + i) ((tn.take q).sum + j) = m.val i j) ∧
      (a ≠ b → ¬ HasHop (noSymmetry S) H a b → M ((tn.take p).sum + i) ((tn.take q).sum + j) = 0) := by
  obtain ⟨g1, g2, g3, g4⟩ := finite_lawful h junk hs args params
  obtain ⟨hl, hw⟩ := h.wf
  obtain ⟨sys', h1, R0⟩ := finalizeFinite_rep (C := C) hw hl junk
  rw [hs] at h1; cases h1
  obtain ⟨sys', h1, h41⟩ := C41_hamiltonian (C := C) (hc := Mat.dagger) h junk
  rw [hs] at h1; cases h1
  have hnodup : sys.sites.Nodup := by rw [R0.sites]; exact pySorted_nodup hw.keys
  generalize hL : (lowLevel sys fun i j => sys.hamiltonian (noSymmetry S) Mat.dagger C i j args params) = L at *
  have hT : (sitesOr L none).Nodup := by
    simp only [sitesOr, Option.getD_none]
    exact List.Nodup.map (fun a b h => by simpa using h) List.nodup_range
  obtain ⟨k1, k2, k3, k4, k5⟩ := C44_dense L g1 none none hT (fun _ _ => g2) hM
  have hRR := (C45_hermitian L g1 hM).1
  have htf : tn = fn := by
    refine List.ext_getElem? fun k => ?_
    by_cases hk : k < L.n
    · have hsite : (sitesOr L none)[k]? = some (k : ℤ) := (sitesOr_none L k k).mpr ⟨hk, rfl⟩
      obtain ⟨_, _, m, e1, e2⟩ := k1.2 k k hsite
      obtain ⟨_, _, m', e3, e4⟩ := k2.2 k k hsite
      rw [e1] at e3; cases e3
      rw [e2, e4]
    · have l1 : tn.length = L.n := by rw [k1.1]; simp [sitesOr]
      have l2 : fn.length = L.n := by rw [k2.1]; simp [sitesOr]
      rw [List.getElem?_eq_none (by omega), List.getElem?_eq_none (by omega)]
  have hlen : tn.length = sys.sites.length := by rw [k1.1, ← g3]; simp [sitesOr]
  refine ⟨hRR, htf, k3, hlen, ?_⟩
  intro p q a b i j ha hb hi hj
  have hp : p < L.n := by rw [g3]; exact (List.getElem?_eq_some_iff.mp ha).1
  have hq : q < L.n := by rw [g3]; exact (List.getElem?_eq_some_iff.mp hb).1
  have hsp : (sitesOr L none)[p]? = some (p : ℤ) := (sitesOr_none L p p).mpr ⟨hp, rfl⟩
  have hsq : (sitesOr L none)[q]? = some (q : ℤ) := (sitesOr_none L q q).mpr ⟨hq, rfl⟩
  have hval := k5 p q p q i j hsp hsq hi (htf ▸ hj)
  rw [← htf] at hval
  simp only [Int.toNat_natCast] at hval
  have hpq : p = q ↔ a = b := by
    constructor
    · rintro rfl; rw [ha] at hb; exact Option.some.inj hb
    · rintro rfl
      exact (List.getElem?_inj (List.getElem?_eq_some_iff.mp ha).1 hnodup).mp (ha.trans hb.symm)
  have hham : ∀ i j, L.ham i j = sys.hamiltonian (noSymmetry S) Mat.dagger C i j args params := by
    intro i j; rw [← hL]; rfl
  have hnbr : ∀ i, L.nbrs i = outN sys.graph i := by intro i; rw [← hL]; rfl
  have hop_symm : HasHop (noSymmetry S) H a b → HasHop (noSymmetry S) H b a := by
    intro h1
    obtain ⟨v, hv⟩ := (C23_get_iff_contains (hc := Mat.dagger) h _ _).1.mpr h1
    exact (C23_get_iff_contains (hc := Mat.dagger) h _ _).1.mp ⟨_, C23_hermitian h dagger_dagger _ _ v hv⟩
  have hop_symm' : HasHop (noSymmetry S) H b a → HasHop (noSymmetry S) H a b := by
    intro h1
    obtain ⟨v, hv⟩ := (C23_get_iff_contains (hc := Mat.dagger) h _ _).1.mpr h1
    exact (C23_get_iff_contains (hc := Mat.dagger) h _ _).1.mp ⟨_, C23_hermitian h dagger_dagger _ _ v hv⟩
  unfold LSys.elem at hval
  simp only [hnbr, g4 q p b a hb ha] at hval
  refine ⟨?_, ?_, ?_⟩
  · intro hab
    have := hpq.mpr hab
    subst this
    obtain ⟨v, hv, hv'⟩ := (h41 p p a a ha ha).1
    obtain ⟨_, _, m, e1, e2⟩ := k1.2 p p hsp
    simp only [Int.toNat_natCast] at e1
    rw [if_pos (Or.inl rfl), e1] at hval
    rw [hham, hv' args params hx] at e1
    exact ⟨v, m, hv, e1, (getD_of_get e2).symm, hval⟩
  · intro hh
    have hne : p ≠ q := by
      intro e
      have := hpq.mp e
      exact ((hasHop_iff hw hl).mp hh).1 this
    obtain ⟨_, _, _, a3, _⟩ := h41 p q a b ha hb
    obtain ⟨v, hv, hv'⟩ := a3 hne hh
    rw [if_pos (Or.inr (hop_symm hh))] at hval
    -- the hopping was evaluated: one of the directions is in the conditions for success
    have hsucc := (C44_success L g1 none none hT).mp ⟨_, hM⟩
    have hmem : ∀ k, k < L.n → (k : ℤ) ∈ sitesOr L none := fun k hk => List.mem_of_getElem? ((sitesOr_none L k k).mpr ⟨hk, rfl⟩)
    have hpn : p ∈ L.nbrs q := by rw [hnbr, g4 q p b a hb ha]; exact hop_symm hh
    have hqn : q ∈ L.nbrs p := by rw [hnbr, g4 p q a b ha hb]; exact hh
    have hok : ∃ m, L.ham p q = .ok m := by
      rcases Nat.lt_or_ge p q with hlt | hge
      · obtain ⟨m, _, _, e1, _⟩ := hsucc.2.2 p (hmem p hp) q (by simpa using hqn) (hmem q hq) (fun _ _ => by omega)
        simp only [Int.toNat_natCast] at e1
        have := (g2 p q hp hqn).2
        rw [e1] at this
        exact ⟨m.dagger, this⟩
      · obtain ⟨m, _, _, e1, _⟩ := hsucc.2.2 q (hmem q hq) p (by simpa using hpn) (hmem p hp) (fun _ _ => by omega)
        simp only [Int.toNat_natCast] at e1
        exact ⟨m, e1⟩
    obtain ⟨m, hm⟩ := hok
    rw [hm] at hval
    rw [hham, hv' args params hx] at hm
    exact ⟨v, m, hv, hm, hval⟩
  · intro hab hh
    rw [if_neg] at hval
    · exact hval
    · rintro (e | e)
      · exact hab (hpq.mp e)
      · exact hh (hop_symm' e)

/-- The same for the Hamiltonian of a unit cell with its neighbor cell: simple and Hermitian. -/
theorem infinite_lawful {sym : Symmetry S ℤ} {H : HMap S (Mat K) Fn} (h : Reachable sym H) (ho : OrdInv sym) {junk : ℕ → ℤ}
    {order : Option (List S)} {sys : Sys S (Mat K) Fn N} {cell : ℕ} (hr : finalizeInfinite C sym junk H order = .ok (sys, cell))
    (args : List A) (params : List (N × A)) (hx : args = [] ∨ params = []) :
    (lowLevel sys fun i j => infHamiltonian Mat.dagger C sym sys cell i j args params).Simple ∧
    (lowLevel sys fun i j => infHamiltonian Mat.dagger C sym sys cell i j args params).Herm ∧
    (lowLevel sys fun i j => infHamiltonian Mat.dagger C sym sys cell i j args params).n = sys.sites.length := by
  obtain ⟨n, _, l2, l3, hnodup, _⟩ := C46_layout h ho hr
  obtain ⟨hl, hw⟩ := h.wf
  have hnn : sys.graph.numNodes = sys.sites.length := by rw [l3, l2]
  have hsite : ∀ (i : ℕ) (hi : i < sys.sites.length), sys.sites[i]? = some sys.sites[i] := fun i hi => List.getElem?_eq_getElem hi
  have hrng : ∀ i : ℕ, i < sys.sites.length → ∀ js, sys.graph.outNeighbors i = .ok js →
      ∀ z ∈ js, ∃ k : ℕ, z = k ∧ k < sys.sites.length := by
    intro i hi js hjs z hz
    obtain ⟨hl', hw', rfl, R⟩ := rep_of_ok h ho hr
    obtain ⟨js', e1, e2, e3⟩ := R.out i _ (hsite i hi)
    rw [hjs] at e1; cases e1
    obtain ⟨k, b, e4, e5, _⟩ := (e3 z).mp hz
    exact ⟨k, e4, (List.getElem?_eq_some_iff.mp e5).1⟩
  have hout : ∀ (i j : ℕ) (hi : i < sys.sites.length) (hj : j < sys.sites.length), (outN sys.graph i).Nodup ∧
      (j ∈ outN sys.graph i ↔ (i < cell ∨ j < cell) ∧ HasHop sym H sys.sites[i] sys.sites[j]) := by
    intro i j hi hj
    obtain ⟨js, g1, g2, g3⟩ := (C47_hamiltonian (hc := Mat.dagger) h ho hr i j _ _ (hsite i hi) (hsite j hj)).2.2.1
    have hr' := hrng i hi js g1
    unfold outN
    rw [g1, ← g3]
    simp only
    constructor
    · refine (List.nodup_map_iff_inj_on g2).mpr ?_
      intro x hx y hy hxy
      obtain ⟨k, rfl, _⟩ := hr' x hx
      obtain ⟨k', rfl, _⟩ := hr' y hy
      simpa using hxy
    · rw [List.mem_map]
      constructor
      · rintro ⟨z, hz, e⟩
        obtain ⟨k, rfl, _⟩ := hr' z hz
        simp only [Int.toNat_natCast] at e
        rw [← e]; exact hz
      · intro hz
        exact ⟨j, hz, by simp⟩
  have hr2 : ∀ i, i < sys.sites.length → ∀ j ∈ outN sys.graph i, j < sys.sites.length := by
    intro i hi j hj
    obtain ⟨js, g1, g2, g3⟩ := (C47_hamiltonian (hc := Mat.dagger) h ho hr i i _ _ (hsite i hi) (hsite i hi)).2.2.1
    unfold outN at hj
    rw [g1] at hj
    obtain ⟨z, hz, rfl⟩ := List.mem_map.mp hj
    obtain ⟨k, rfl, hk⟩ := hrng i hi js g1 z hz
    simpa using hk
  have hsw : ∀ a b, HasHop sym H a b → HasHop sym H b a := by
    intro a b hab
    obtain ⟨v, hv⟩ := (C23_get_iff_contains (hc := Mat.dagger) h _ _).1.mpr hab
    exact (C23_get_iff_contains (hc := Mat.dagger) h _ _).1.mp ⟨_, C23_hermitian h dagger_dagger _ _ v hv⟩
  have hirr : ∀ i, i < sys.sites.length → i ∉ outN sys.graph i := by
    intro i hi hm
    have := ((hout i i hi hi).2.mp hm).2
    exact ((hasHop_iff hw hl).mp this).1 rfl
  refine ⟨⟨?_, ?_, ?_⟩, ?_, hnn⟩
  · intro i hi
    simp only [lowLevel, hnn] at hi ⊢
    exact (hout i i hi hi).1
  · intro i hi j hj
    simp only [lowLevel, hnn] at hi hj ⊢
    exact hr2 i hi j hj
  · intro i hi hj
    simp only [lowLevel, hnn] at hi hj
    exact hirr i hi hj
  · intro i j hi hj
    simp only [lowLevel, hnn] at hi hj ⊢
    have hj' := hr2 i hi j hj
    obtain ⟨e1, e2⟩ := (hout i j hi hj').2.mp hj
    refine ⟨(hout j i hj' hi).2.mpr ⟨e1.symm, hsw _ _ e2⟩, ?_⟩
    have hij : j ≠ i := by rintro rfl; exact hirr _ hi hj
    exact C47_hermitian h ho hr dagger_dagger j i hij hj' hi args params hx

end Kwant.System
