import Verif.Scatt.Phys

/-!
C188: symmetries that relate two systems with leads, or a system to itself.  This file has the specification.
-/

set_option linter.unusedSectionVars false

namespace Kwant.Scatt
open Finset Complex Filter
open Matrix hiding mulVec
open Kwant.Leads hiding Modes
open Kwant.Solver hiding transmission LErr mulVec

/-- Complex conjugation for antiunitary symmetries, otherwise nothing. -/
noncomputable def kap (c : Bool) : ℂ →+* ℂ := if c then starRingEnd ℂ else RingHom.id ℂ

/-- The sign that a symmetry gives the Hamiltonian. -/
def eta (g : Bool) : ℝ := if g then -1 else 1

/-- The Hamiltonian of a lead of the second system, on the same orbitals. -/
structure LeadHam (n m : ℕ) where
  ham : Matrix (Fin n) (Fin n) ℂ
  hop : Matrix (Fin n) (Fin m) ℂ
  projectors : Option (Projectors n)
  sy : Symm n

/-- A system on the same orbitals, with leads at the same sites, but with another Hamiltonian. -/
def Open.withHam (T : Open) (H : ℕ → ℕ → ℂ) (L : (l : Fin T.N) → LeadHam (T.lead l).n (T.lead l).m) : Open :=
  ⟨⟨T.ham.rows, T.ham.cols, H⟩, T.norb, T.N, fun l => ⟨(T.lead l).n, (T.lead l).m, (L l).ham, (L l).hop, (T.lead l).interface, (L l).projectors, (L l).sy⟩⟩

/-- What `H` and the leads `L` are for the system itself. -/
def Open.data (T : Open) (l : Fin T.N) : LeadHam (T.lead l).n (T.lead l).m := ⟨(T.lead l).ham, (T.lead l).hop, (T.lead l).projectors, (T.lead l).sy⟩

theorem Open.withHam_self (T : Open) : T.withHam T.ham.val T.data = T := rfl

/-- The map `u K` (without complex conjugation `K` unless `conj`) takes the Hamiltonian of `T` to the Hamiltonian `H`, `L` on the same orbitals, with a minus sign if `neg`.
In the region it is `u`, in the cells of lead `l` it is `R l`, and on the orbitals of the region to which lead `l` is attached it is `Rm l`. -/
structure SymMap (conj neg : Bool) (T : Open) (H : ℕ → ℕ → ℂ) (L : (l : Fin T.N) → LeadHam (T.lead l).n (T.lead l).m) (u : ℕ → ℕ → ℂ)
    (R : (l : Fin T.N) → Matrix (Fin (T.lead l).n) (Fin (T.lead l).n) ℂ) (Rm : (l : Fin T.N) → Matrix (Fin (T.lead l).m) (Fin (T.lead l).m) ℂ) : Prop where
  unitary : ∀ l, (R l)ᴴ * R l = 1
  unitaryM : ∀ l, (Rm l)ᴴ * Rm l = 1
  region : ∀ α < T.ham.rows, ∀ β < T.ham.rows, ∑ γ ∈ range T.ham.rows, u α γ * kap conj (T.ham.val γ β) = eta neg * ∑ γ ∈ range T.ham.rows, H α γ * u γ β
  cell : ∀ l, R l * (T.lead l).ham.map (kap conj) = (eta neg : ℂ) • ((L l).ham * R l)
  hop : ∀ l, R l * (padHop (T.lead l).hop).map (kap conj) = (eta neg : ℂ) • (padHop (L l).hop * R l)
  attach : ∀ l, R l * (T.lead l).hop.map (kap conj) = (eta neg : ℂ) • ((L l).hop * Rm l)
  /-- `u` does not mix the orbitals of the interface with others, and is `Rm` on them. -/
  into : ∀ l, ∀ α < T.ham.rows, ∀ q : Fin (T.lead l).m, u α ((T.iface l).getD q 0) = ∑ p : Fin (T.lead l).m, if (T.iface l)[(p : ℕ)]? = some α then Rm l p q else 0
  onto : ∀ l, ∀ p : Fin (T.lead l).m, ∀ β < T.ham.rows, u ((T.iface l).getD p 0) β = ∑ q : Fin (T.lead l).m, if (T.iface l)[(q : ℕ)]? = some β then Rm l p q else 0

theorem kap_true (z : ℂ) : kap true z = star z := rfl
theorem kap_false (z : ℂ) : kap false z = z := rfl

theorem kap_kap (c : Bool) (z : ℂ) : kap c (kap c z) = z := by
  cases c
  · rfl
  · exact star_star z

theorem kap_star (c : Bool) (z : ℂ) : kap c (star z) = star (kap c z) := by
  cases c <;> rfl

theorem kap_real (c : Bool) (x : ℝ) : kap c (x : ℂ) = x := by
  cases c
  · rfl
  · exact conj_ofReal x

theorem kap_normSq (c : Bool) (z : ℂ) : normSq (kap c z) = normSq z := by
  cases c
  · rfl
  · exact normSq_conj z

theorem kap_continuous (c : Bool) : Continuous (kap c) := by
  cases c
  · exact continuous_id
  · exact continuous_conj

theorem eta_sq (g : Bool) : (eta g : ℂ) * eta g = 1 := by
  cases g <;> simp [eta]

theorem kap_mulVec {a b : Type} [Fintype b] (c : Bool) (A : Matrix a b ℂ) (x : b → ℂ) : (fun i => kap c ((A *ᵥ x) i)) = A.map (kap c) *ᵥ fun i => kap c (x i) := by
  ext i
  rw [Matrix.mulVec, dotProduct, map_sum]
  refine Finset.sum_congr rfl fun j _ => ?_
  rw [map_mul]
  rfl

theorem map_kap_conjTranspose {a b : Type} (c : Bool) (A : Matrix a b ℂ) : (A.map (kap c))ᴴ = Aᴴ.map (kap c) := by
  ext i j
  exact (kap_star c _).symm

theorem map_kap_kap {a b : Type} (c : Bool) (A : Matrix a b ℂ) : (A.map (kap c)).map (kap c) = A := by
  ext i j
  exact kap_kap c _

end Kwant.Scatt
