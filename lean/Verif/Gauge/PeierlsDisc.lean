import Mathlib.LinearAlgebra.Matrix.ConjTranspose
import Verif.Gauge.PeierlsParams

/-! C184: which discrete symmetries survive `add_peierls_phase`. -/

set_option linter.unusedSectionVars false

namespace Kwant.Peierls
open Kwant Kwant.Assoc Kwant.Builder Kwant.Final Matrix

variable {S Fn N A X D : Type} [LinearOrder S] [DecidableEq N] {m : ℕ}

/-- All matrix elements of a finalized system satisfy a relation that may depend on the two sites. -/
def AllElems {V Fn : Type} (hc : V → V) (C : Calls S V Fn N A X) (sys : Sys S V Fn N) (params : List (N × A)) (R : S → S → V → Prop) : Prop :=
  ∀ (i j : ℕ) (a b : S) (v : V), sys.sites[i]? = some a → sys.sites[j]? = some b →
    sys.hamiltonian (noSymmetry S) hc C i j [] params = .ok v → R a b v

/-- Specification: `H` anticommutes with the chiral symmetry with blocks `U`: `U H U† = -H`. -/
def Chiral (U : S → Matrix (Fin m) (Fin m) ℂ) (a b : S) (v : Matrix (Fin m) (Fin m) ℂ) : Prop := U a * v * (U b)ᴴ = -v

/-- Specification: `H` commutes with the conservation law with blocks `Q`. -/
def Conserves (Q : S → Matrix (Fin m) (Fin m) ℂ) (a b : S) (v : Matrix (Fin m) (Fin m) ℂ) : Prop := Q a * v = v * Q b

/-- **C184 (partial).** Chiral symmetry and conservation law, which are copied to the new system, still hold for its Hamiltonian, for every
(hermitian) phase.  Missing: particle-hole symmetry is also copied but may be broken (`C183_counterexample`). -/
theorem C184_discrete_partial {E : Env S (Matrix (Fin m) (Fin m) ℂ) N A X ℂ} {C : Calls S (Matrix (Fin m) (Fin m) ℂ) Fn N A X}
    {H : HMap S (Matrix (Fin m) (Fin m) ℂ) Fn} (h : Reachable (noSymmetry S) H) (junk : ℕ → ℤ) (phi : N)
    (hmul : ∀ v k, E.mul v k = k • v)
    {disc : Disc D} {leads : List (ALead S (Matrix (Fin m) (Fin m) ℂ) Fn D)} {B : PBuilder S (Matrix (Fin m) (Fin m) ℂ) Fn D}
    (hB : addPeierls E (noSymmetry S) C.sig phi H disc leads = .ok B)
    {params : List (N × A)} {p : A} (hp : Assoc.get params phi = some p) {u : S → S → ℂ} (hg : GoodPhase E (noSymmetry S) star p u) :
    ∃ sys sys', finalizeFinite C junk H = .ok sys ∧ finalizeFinite (calls E C phi B.consts) junk B.H = .ok sys' ∧
      (∀ U, AllElems conjTranspose C sys params (Chiral U) → AllElems conjTranspose (calls E C phi B.consts) sys' params (Chiral U)) ∧
      (∀ Q, AllElems conjTranspose C sys params (Conserves Q) → AllElems conjTranspose (calls E C phi B.consts) sys' params (Conserves Q)) := by
  obtain ⟨sys, sys', f1, f2, f3, f4⟩ := C183_finite (C := C) (hc := conjTranspose) h conjTranspose_conjTranspose junk phi hB
  have key : ∀ R : S → S → Matrix (Fin m) (Fin m) ℂ → Prop, (∀ a b v (k : ℂ), R a b v → R a b (k • v)) →
      AllElems conjTranspose C sys params R → AllElems conjTranspose (calls E C phi B.consts) sys' params R := by
    intro R hR hA i j a b v hi hj hv
    rw [f3] at hi hj
    obtain ⟨k1, _, k3⟩ := f4 params p hp i j a b hi hj
    by_cases hij : i = j
    · subst hij
      rw [k1] at hv
      exact hA i i a b v hi hj hv
    · rw [k3 star u hg (fun w k => by rw [hmul, hmul, conjTranspose_smul]) hij] at hv
      cases hx : sys.hamiltonian (noSymmetry S) conjTranspose C i j [] params with
      | error e => rw [hx] at hv; cases hv
      | ok w =>
        rw [hx] at hv
        cases hv
        simp only [hmul]
        exact hR a b w _ (hA i j a b w hi hj hx)
  refine ⟨sys, sys', f1, f2, fun U => key _ ?_, fun Q => key _ ?_⟩
  · intro a b v k hv
    unfold Chiral at hv ⊢
    rw [Matrix.mul_smul, Matrix.smul_mul, hv, smul_neg]
  · intro a b v k hv
    unfold Conserves at hv ⊢
    rw [Matrix.mul_smul, Matrix.smul_mul, hv]

end Kwant.Peierls
