import Verif.Solver.Kept
import Mathlib.Data.Complex.BigOperators
import Mathlib.LinearAlgebra.Matrix.ConjTranspose
import Mathlib.LinearAlgebra.Matrix.NonsingularInverse
import Mathlib.LinearAlgebra.Matrix.Trace

/-!
C96: transmissions from the Green's function.
-/

set_option linter.unusedSectionVars false

namespace Kwant.Solver
open Finset Kwant.System Complex

/-! ### Model of `GreensFunction` (common.py l.912-1002) -/

/-- A `GreensFunction`: `data`, the self-energies `lead_info`, the lead lists.  `nChan lead` stands for the number of eigenvalues of
`Γ` above a threshold (l.967-976), which is not modelled. -/
structure GF where
  data : ℕ → ℕ → ℂ
  sigma : List (Mat ℂ)
  outLeads : List ℕ
  inLeads : List ℕ
  nChan : ℕ → ℕ

/-- `sizes = [i.shape[0] for i in lead_info]` (common.py l.941) -/
def GF.sizes (g : GF) (l : ℕ) : ℕ := ((g.sigma[l]?).map Mat.rows).getD 0

/-- `self.lead_info[lead]` -/
def GF.info (g : GF) (l : ℕ) : Except SErr (Mat ℂ) :=
  match g.sigma[l]? with
  | some s => .ok s
  | none => .error .index

/-- `1j * (sigma - sigma.conj().T)` -/
def gammaM (s : Mat ℂ) : Mat ℂ := ⟨s.rows, s.cols, fun p q => I * (s.val p q - (starRingEnd ℂ) (s.val q p))⟩

/-- `np.dot` -/
def dotM (a b : Mat ℂ) : Mat ℂ := ⟨a.rows, b.cols, fun p q => ∑ k ∈ range a.cols, a.val p k * b.val k q⟩

/-- `.conj().T` -/
def daggerM (a : Mat ℂ) : Mat ℂ := ⟨a.cols, a.rows, fun p q => (starRingEnd ℂ) (a.val q p)⟩

/-- `np.trace` of a square matrix. -/
def traceM (a : Mat ℂ) : ℂ := ∑ p ∈ range a.rows, a.val p p

/-- `submatrix` (common.py l.685-687) -/
def GF.submatrix (g : GF) (o i : ℕ) : Except SErr (Mat ℂ) :=
  match leadSlice g.sizes g.outLeads o with
  | .error e => .error e
  | .ok r =>
    match leadSlice g.sizes g.inLeads i with
    | .error e => .error e
    | .ok c => .ok ⟨r.2 - r.1, c.2 - c.1, fun p q => g.data (r.1 + p) (c.1 + q)⟩

/-- `_a_ttdagger_a_inv` (common.py l.959-967) -/
def GF.attda (g : GF) (o i : ℕ) : Except SErr (Mat ℂ) :=
  match g.submatrix o i with
  | .error e => .error e
  | .ok gf =>
    match g.info o with
    | .error e => .error e
    | .ok so =>
      match g.info i with
      | .error e => .error e
      | .ok si => .ok (dotM (dotM (dotM (gammaM so) gf) (gammaM si)) (daggerM gf))

/-- `_transmission` (common.py l.969-993) -/
def GF.trans (g : GF) (o i : ℕ) : Except SErr ℝ :=
  match g.attda o i with
  | .error e => .error e
  | .ok m =>
    if o = i then
      match g.info i with
      | .error e => .error e
      | .ok s =>
        match g.submatrix o i with
        | .error e => .error e
        | .ok gf => .ok ((traceM m).re + (2 * (traceM (dotM (gammaM s) gf)).im + g.nChan i))
    else .ok (traceM m).re

/-! ### Algebra -/

section
variable {N C : Type} [Fintype N] [Fintype C] [DecidableEq N] [DecidableEq C]

open Matrix in
/-- The anti-Hermitian part of the Green's function between the leads. -/
theorem green_anti {M : Matrix N N ℂ} {P X : Matrix N C ℂ} {γ : Matrix C C ℂ} (hM : M - Mᴴ = I • (P * γ * Pᴴ)) (hX : M * X = P) :
    (Pᴴ * X)ᴴ - Pᴴ * X = I • ((Pᴴ * X)ᴴ * γ * (Pᴴ * X)) := by
  have h1 : Xᴴ * M * X = (Pᴴ * X)ᴴ := by rw [Matrix.mul_assoc, hX, conjTranspose_mul, conjTranspose_conjTranspose]
  have h2 : Xᴴ * Mᴴ * X = Pᴴ * X := by rw [← conjTranspose_mul, hX]
  have h3 : Xᴴ * (M - Mᴴ) * X = (Pᴴ * X)ᴴ - Pᴴ * X := by rw [Matrix.mul_sub, Matrix.sub_mul, h1, h2]
  rw [← h3, hM, Matrix.mul_smul, Matrix.smul_mul, conjTranspose_mul, conjTranspose_conjTranspose]
  simp only [Matrix.mul_assoc]

open Matrix in
/-- The same with the factors in the other order, multiplied by `γ`. -/
theorem green_anti' {g γ : Matrix C C ℂ} (h : gᴴ - g = I • (gᴴ * γ * g)) : γ * (gᴴ - g) = I • (γ * (g * γ * gᴴ)) := by
  have key : (1 + I • (γ * gᴴ)) * (1 - I • (γ * g)) = 1 := by
    have e : (1 + I • (γ * gᴴ)) * (1 - I • (γ * g)) = 1 + I • (γ * (gᴴ - g)) - (I * I) • (γ * (gᴴ * γ * g)) := by
      simp only [Matrix.mul_sub, Matrix.add_mul, Matrix.mul_one, Matrix.one_mul, Matrix.smul_mul, Matrix.mul_smul, smul_smul,
        Matrix.mul_assoc, smul_sub, smul_add]
      abel
    rw [e, h, Matrix.mul_smul, smul_smul]
    abel
  have key' := mul_eq_one_comm.mp key
  have e : (1 - I • (γ * g)) * (1 + I • (γ * gᴴ)) = 1 + I • (γ * (gᴴ - g)) - (I * I) • (γ * (g * γ * gᴴ)) := by
    simp only [Matrix.mul_sub, Matrix.sub_mul, Matrix.mul_add, Matrix.mul_one, Matrix.one_mul, Matrix.smul_mul, Matrix.mul_smul, smul_smul,
      Matrix.mul_assoc, smul_sub, smul_add]
    abel
  rw [e] at key'
  have h0 : I • (γ * (gᴴ - g)) = (I * I) • (γ * (g * γ * gᴴ)) := by
    have := congrArg (fun Z => Z - 1 + (I * I) • (γ * (g * γ * gᴴ))) key'
    rw [show (1 : Matrix C C ℂ) + I • (γ * (gᴴ - g)) - (I * I) • (γ * (g * γ * gᴴ)) - 1 + (I * I) • (γ * (g * γ * gᴴ)) = I • (γ * (gᴴ - g)) by abel] at this
    rw [this]; abel
  have h1 := congrArg (fun Z => (-I) • Z) h0
  simp only [smul_smul] at h1
  rw [show -I * I = 1 by rw [neg_mul, I_mul_I, neg_neg], one_smul, show -I * (I * I) = I by rw [I_mul_I]; ring] at h1
  exact h1

end

/-! ### Sums over leads -/

section
variable (L : ℕ) (len : ℕ → ℕ) (gam : ℕ → ℕ → ℕ → ℂ) (g : ℕ → ℕ → ℕ → ℕ → ℂ)

/-- `Tr Γ_o g Γ_i g†` -/
def tau (o i : ℕ) : ℂ := ∑ p ∈ range (len o), ∑ s ∈ range (len i),
  (∑ r ∈ range (len i), (∑ q ∈ range (len o), gam o p q * g o q i r) * gam i r s) * (starRingEnd ℂ) (g o p i s)

/-- `Tr Γ g` -/
def zed (l : ℕ) : ℂ := ∑ p ∈ range (len l), ∑ q ∈ range (len l), gam l p q * g l q l p

/-- Interface orbitals of all leads. -/
abbrev Iface := (l : Fin L) × Fin (len l)

/-- The block-diagonal matrix of the `Γ`. -/
def bigGam : Matrix (Iface L len) (Iface L len) ℂ := fun c d => if c.1 = d.1 then gam c.1 c.2 d.2 else 0

/-- The Green's function between all interface orbitals. -/
def bigG : Matrix (Iface L len) (Iface L len) ℂ := fun c d => g c.1 c.2 d.1 d.2

variable {L len gam g}

theorem sum_iface (f : ℕ → ℕ → ℂ) : ∑ c : Iface L len, f c.1 c.2 = ∑ l ∈ range L, ∑ p ∈ range (len l), f l p := by
  rw [Fintype.sum_sigma, Finset.sum_range]
  refine Finset.sum_congr rfl fun l _ => ?_
  rw [Finset.sum_range]

theorem sum_iface_single (f : ℕ → ℕ → ℂ) (l : Fin L) :
    ∑ c : Iface L len, (if l = c.1 then f c.1 c.2 else 0) = ∑ p ∈ range (len l), f l p := by
  rw [Fintype.sum_sigma, Finset.sum_eq_single l]
  · rw [Finset.sum_range]; simp
  · intro b _ hb; refine Finset.sum_eq_zero fun _ _ => ?_; rw [if_neg (Ne.symm hb)]
  · intro h; exact absurd (Finset.mem_univ _) h

theorem neg_I_anti (z : ℂ) : -I * ((starRingEnd ℂ) z - z) = ((-2 * z.im : ℝ) : ℂ) := by
  apply Complex.ext <;> simp <;> ring

theorem zed_conj (hg : ∀ l p q, (starRingEnd ℂ) (gam l p q) = gam l q p) (l : ℕ) :
    ∑ p ∈ range (len l), ∑ q ∈ range (len l), gam l p q * (starRingEnd ℂ) (g l p l q) = (starRingEnd ℂ) (zed len gam g l) := by
  unfold zed
  rw [map_sum, Finset.sum_comm]
  refine Finset.sum_congr rfl fun p _ => ?_
  rw [map_sum]
  refine Finset.sum_congr rfl fun q _ => ?_
  rw [map_mul, hg]

open Matrix in
/-- Sum over the outgoing leads. -/
theorem tau_cols (hg : ∀ l p q, (starRingEnd ℂ) (gam l p q) = gam l q p)
    (h : (bigG L len g)ᴴ - bigG L len g = I • ((bigG L len g)ᴴ * bigGam L len gam * bigG L len g)) {i : ℕ} (hi : i < L) :
    ∑ o ∈ range L, tau len gam g o i = ((-2 * (zed len gam g i).im : ℝ) : ℂ) := by
  have hel : ∀ r s, r < len i → s < len i →
      ∑ o ∈ range L, ∑ p ∈ range (len o), ∑ q ∈ range (len o), (starRingEnd ℂ) (g o p i s) * gam o p q * g o q i r =
      -I * ((starRingEnd ℂ) (g i r i s) - g i s i r) := by
    intro r s hr hs
    have e := congrFun (congrFun h ⟨⟨i, hi⟩, ⟨s, hs⟩⟩) ⟨⟨i, hi⟩, ⟨r, hr⟩⟩
    rw [Matrix.sub_apply, Matrix.smul_apply, Matrix.mul_apply, conjTranspose_apply] at e
    have e2 : ∑ j : Iface L len, ((bigG L len g)ᴴ * bigGam L len gam) ⟨⟨i, hi⟩, ⟨s, hs⟩⟩ j * bigG L len g j ⟨⟨i, hi⟩, ⟨r, hr⟩⟩ =
        ∑ o ∈ range L, ∑ q ∈ range (len o), ∑ p ∈ range (len o), (starRingEnd ℂ) (g o p i s) * gam o p q * g o q i r := by
      rw [← sum_iface (fun o q => ∑ p ∈ range (len o), (starRingEnd ℂ) (g o p i s) * gam o p q * g o q i r)]
      refine Finset.sum_congr rfl fun c _ => ?_
      rw [Matrix.mul_apply, ← Finset.sum_mul]
      congr 1
      rw [← sum_iface_single (fun o p => (starRingEnd ℂ) (g o p i s) * gam o p c.2) c.1]
      refine Finset.sum_congr rfl fun d _ => ?_
      rw [conjTranspose_apply]
      unfold bigG bigGam
      by_cases hcd : c.1 = d.1
      · rw [if_pos hcd, if_pos hcd.symm]; rfl
      · rw [if_neg hcd, if_neg (Ne.symm hcd), mul_zero]
    rw [e2, smul_eq_mul] at e
    have e3 : ∑ o ∈ range L, ∑ p ∈ range (len o), ∑ q ∈ range (len o), (starRingEnd ℂ) (g o p i s) * gam o p q * g o q i r =
        ∑ o ∈ range L, ∑ q ∈ range (len o), ∑ p ∈ range (len o), (starRingEnd ℂ) (g o p i s) * gam o p q * g o q i r :=
      Finset.sum_congr rfl fun o _ => Finset.sum_comm
    rw [e3]
    have e4 : (starRingEnd ℂ) (g i r i s) - g i s i r = I * ∑ o ∈ range L, ∑ q ∈ range (len o), ∑ p ∈ range (len o), (starRingEnd ℂ) (g o p i s) * gam o p q * g o q i r := e
    rw [e4, ← mul_assoc, neg_mul, I_mul_I, neg_neg, one_mul]
  have e1 : ∑ o ∈ range L, tau len gam g o i = ∑ r ∈ range (len i), ∑ s ∈ range (len i), gam i r s *
      ∑ o ∈ range L, ∑ p ∈ range (len o), ∑ q ∈ range (len o), (starRingEnd ℂ) (g o p i s) * gam o p q * g o q i r := by
    simp only [Finset.mul_sum]
    have : ∀ o, tau len gam g o i = ∑ r ∈ range (len i), ∑ s ∈ range (len i), ∑ p ∈ range (len o), ∑ q ∈ range (len o),
        gam i r s * ((starRingEnd ℂ) (g o p i s) * gam o p q * g o q i r) := by
      intro o
      unfold tau
      simp only [Finset.sum_mul]
      rw [Finset.sum_comm, Finset.sum_comm (s := range (len i)) (t := range (len i))]
      refine Finset.sum_congr rfl fun s _ => ?_
      rw [Finset.sum_comm]
      refine Finset.sum_congr rfl fun r _ => ?_
      refine Finset.sum_congr rfl fun p _ => ?_
      refine Finset.sum_congr rfl fun q _ => ?_
      ring
    simp only [this]
    rw [Finset.sum_comm]
    refine Finset.sum_congr rfl fun r _ => ?_
    rw [Finset.sum_comm]
  rw [e1, ← neg_I_anti, ← zed_conj hg]
  unfold zed
  rw [← Finset.sum_sub_distrib, Finset.mul_sum]
  refine Finset.sum_congr rfl fun r hr => ?_
  rw [← Finset.sum_sub_distrib, Finset.mul_sum]
  refine Finset.sum_congr rfl fun s hs => ?_
  rw [hel r s (Finset.mem_range.mp hr) (Finset.mem_range.mp hs)]
  ring

open Matrix in
/-- Sum over the incoming leads. -/
theorem tau_rows (hg : ∀ l p q, (starRingEnd ℂ) (gam l p q) = gam l q p)
    (h : (bigG L len g)ᴴ - bigG L len g = I • ((bigG L len g)ᴴ * bigGam L len gam * bigG L len g)) {o : ℕ} (ho : o < L) :
    ∑ i ∈ range L, tau len gam g o i = ((-2 * (zed len gam g o).im : ℝ) : ℂ) := by
  have h' := green_anti' h
  have hel : ∀ p, p < len o → ∑ q ∈ range (len o), gam o p q * ((starRingEnd ℂ) (g o p o q) - g o q o p) =
      I * ∑ i ∈ range L, ∑ s ∈ range (len i), (∑ r ∈ range (len i), (∑ q ∈ range (len o), gam o p q * g o q i r) * gam i r s) * (starRingEnd ℂ) (g o p i s) := by
    intro p hp
    have e := congrFun (congrFun h' ⟨⟨o, ho⟩, ⟨p, hp⟩⟩) ⟨⟨o, ho⟩, ⟨p, hp⟩⟩
    have hgam : ∀ F : Iface L len → ℂ, ∀ f : ℕ → ℕ → ℂ, (∀ c, F c = f c.1 c.2) →
        ∑ c : Iface L len, bigGam L len gam ⟨⟨o, ho⟩, ⟨p, hp⟩⟩ c * F c = ∑ q ∈ range (len o), gam o p q * f o q := by
      intro F f hf
      have := sum_iface_single (L := L) (len := len) (fun l q => gam o p q * f l q) ⟨o, ho⟩
      rw [← this]
      refine Finset.sum_congr rfl fun c _ => ?_
      rw [hf]
      unfold bigGam
      split
      · rfl
      · rw [zero_mul]
    rw [Matrix.mul_apply, Matrix.smul_apply, ← Matrix.mul_assoc, ← Matrix.mul_assoc] at e
    rw [hgam (fun j => ((bigG L len g)ᴴ - bigG L len g) j ⟨⟨o, ho⟩, ⟨p, hp⟩⟩) (fun l q => (starRingEnd ℂ) (g o p l q) - g l q o p) (fun c => rfl), smul_eq_mul] at e
    rw [e]
    congr 1
    rw [Matrix.mul_apply, ← sum_iface (fun i s => (∑ r ∈ range (len i), (∑ q ∈ range (len o), gam o p q * g o q i r) * gam i r s) * (starRingEnd ℂ) (g o p i s))]
    refine Finset.sum_congr rfl fun c _ => ?_
    rw [conjTranspose_apply]
    congr 1
    rw [Matrix.mul_apply, ← sum_iface_single (fun i r => (∑ q ∈ range (len o), gam o p q * g o q i r) * gam i r c.2) c.1]
    refine Finset.sum_congr rfl fun d _ => ?_
    rw [Matrix.mul_apply, hgam (fun j => bigG L len g j d) (fun l q => g l q d.1 d.2) (fun c => rfl)]
    unfold bigGam
    by_cases hcd : c.1 = d.1
    · rw [if_pos hcd, if_pos hcd.symm]
    · rw [if_neg hcd, if_neg (Ne.symm hcd), mul_zero]
  have e1 : ∑ i ∈ range L, tau len gam g o i = ∑ p ∈ range (len o), ∑ i ∈ range L, ∑ s ∈ range (len i),
      (∑ r ∈ range (len i), (∑ q ∈ range (len o), gam o p q * g o q i r) * gam i r s) * (starRingEnd ℂ) (g o p i s) := by
    unfold tau
    rw [Finset.sum_comm]
  rw [e1, ← neg_I_anti, ← zed_conj hg]
  unfold zed
  rw [← Finset.sum_sub_distrib, Finset.mul_sum]
  refine Finset.sum_congr rfl fun p hp => ?_
  rw [← Finset.sum_sub_distrib]
  have e2 := hel p (Finset.mem_range.mp hp)
  have e3 : ∑ q ∈ range (len o), (gam o p q * (starRingEnd ℂ) (g o p o q) - gam o p q * g o q o p) =
      ∑ q ∈ range (len o), gam o p q * ((starRingEnd ℂ) (g o p o q) - g o q o p) :=
    Finset.sum_congr rfl fun q _ => by rw [mul_sub]
  rw [e3, e2, ← mul_assoc, neg_mul, I_mul_I, neg_neg, one_mul]

end

/-! ### The theorem -/

theorem real_shapes {norb inLeads : List ℕ} {st st' : LState ℂ} {n : ℕ} {leads : List (Lead ℂ)}
    (h : leadLoop (leadStepReal norb inLeads) st n leads = .ok st')
    (hif : ∀ l ∈ leads, ∀ i ∈ l.interface, i < norb.length) :
    ∀ l ∈ leads, l.sigma.rows = (orbs norb l.interface).length ∧ l.sigma.cols = (orbs norb l.interface).length := by
  induction leads generalizing st n with
  | nil => intro l hl; simp at hl
  | cons l ls ih =>
    simp only [leadLoop] at h
    split at h
    · cases h
    · next st1 h1 =>
      intro l' hl'
      rcases List.mem_cons.mp hl' with rfl | hl'
      · unfold leadStepReal at h1
        split at h1
        · cases h1
        · next c hc =>
          have := ifaceOrbs_eq (hif l' (by simp)) hc
          subst this
          split at h1
          · cases h1
          · next hs => exact not_not.mp hs
      · exact ih h (fun l' hl' => hif l' (List.mem_cons_of_mem _ hl')) l' hl'

theorem greens_facts {sys : SSys ℂ} {E : ℂ} {ls : LinearSys ℂ} {kv o i : List ℕ} (hok : SysOk sys)
    (h : greensSetup sys E none none true = .ok (ls, kv, o, i)) :
    o = List.range sys.leads.length ∧ i = List.range sys.leads.length ∧
    (∀ l ∈ sys.leads, l.sigma.rows = (orbs sys.norb l.interface).length ∧ l.sigma.cols = (orbs sys.norb l.interface).length) ∧
    ∀ α < sys.ham.rows, ∀ β < sys.ham.rows, (hamMinusE sys.ham E).val α β = (starRingEnd ℂ) ((hamMinusE sys.ham E).val β α) := by
  unfold greensSetup at h
  split at h
  · cases h
  · next o' i' hl =>
    obtain ⟨h1, _⟩ := (C94_lists _ _ _ _).mp hl
    split at h
    · cases h
    · next ls' hm =>
      split at h
      · cases h
      · cases h
        unfold makeLinearSys at hm
        split at hm
        · cases hm
        · split at hm
          · cases hm
          · next hh =>
            split at hm
            · cases hm
            · next st hst =>
              simp only [if_true] at hst
              refine ⟨congrArg Prod.fst h1, congrArg Prod.snd h1, real_shapes hst hok.iface, fun α hα β hβ => ?_⟩
              simp only [Bool.true_and, Bool.not_eq_true, Bool.not_eq_false', isHermitian, List.all_eq_true, List.mem_range, decide_eq_true_eq] at hh
              exact hh α hα β (by have : (hamMinusE sys.ham E).cols = sys.ham.rows := hok.square; omega)

open Matrix in
/-- **C96.** For a Hermitian Hamiltonian with all leads requested, the transmissions calculated from an exact solution exist, and sum
up to the number of channels of a lead over all outgoing and over all incoming leads. -/
theorem C96_conservation {sys : SSys ℂ} {E : ℂ} {ls : LinearSys ℂ} {kv o i : List ℕ} (hok : SysOk sys)
    (h : greensSetup sys E none none true = .ok (ls, kv, o, i)) {X : ℕ → ℕ → ℂ} (hX : Solves ls X) {gf : GF}
    (hdata : ∀ p c r, kv[p]? = some r → gf.data p c = X r c) (hsig : gf.sigma = sys.leads.map Lead.sigma)
    (ho : gf.outLeads = o) (hi : gf.inLeads = i) :
    ∃ T : ℕ → ℕ → ℝ, (∀ a < sys.leads.length, ∀ b < sys.leads.length, gf.trans a b = .ok (T a b)) ∧
      (∀ a < sys.leads.length, ∑ b ∈ range sys.leads.length, T a b = gf.nChan a) ∧
      (∀ b < sys.leads.length, ∑ a ∈ range sys.leads.length, T a b = gf.nChan b) := by
  obtain ⟨f1, f2, f3, f4⟩ := greens_facts hok h
  obtain ⟨g1, _, _, _, g5⟩ := C95_greens hok h
  have hsol := (g5 X).mp hX
  rw [f1] at g1
  rw [f1] at ho
  rw [f2] at hi hsol
  set L := sys.leads.length with hL
  -- the data in terms of leads
  let len : ℕ → ℕ := fun l => (leadOrbs sys l).length
  let off : ℕ → ℕ := fun l => (((List.range L).take l).map len).sum
  let orb : ℕ → ℕ → ℕ := fun l p => (leadOrbs sys l).getD p 0
  let gam : ℕ → ℕ → ℕ → ℂ := fun l p q => ((sys.leads[l]?).map fun lead => (gammaM lead.sigma).val p q).getD 0
  let g : ℕ → ℕ → ℕ → ℕ → ℂ := fun a p b q => X (orb a p) (off b + q)
  have horb : ∀ l, l < L → ∀ p < len l, ((List.range L).flatMap (leadOrbs sys))[off l + p]? = some (orb l p) := by
    intro l hl p hp
    refine flatMap_get (List.range L) (leadOrbs sys) l l p _ (by simp [hl]) ?_
    simp only [orb, List.getD_eq_getElem?_getD, List.getElem?_eq_getElem hp, Option.getD_some]
  have hlo : ∀ l : Fin L, leadOrbs sys l = orbs sys.norb sys.leads[l].interface := by
    intro l; unfold leadOrbs; rw [List.getElem?_eq_getElem l.2]; rfl
  have horblt : ∀ l, l < L → ∀ p < len l, orb l p < sys.ham.rows := by
    intro l hl p hp
    have hm : orb l p ∈ leadOrbs sys l := by
      simp only [orb, List.getD_eq_getElem?_getD, List.getElem?_eq_getElem hp, Option.getD_some]
      exact List.getElem_mem _
    rw [hlo ⟨l, hl⟩] at hm
    have := orbs_lt (hok.iface sys.leads[l] (List.getElem_mem _)) _ hm
    have := hok.size
    omega
  have hgam : ∀ l p q, (starRingEnd ℂ) (gam l p q) = gam l q p := by
    intro l p q
    simp only [gam]
    cases sys.leads[l]? with
    | none => simp
    | some lead =>
      simp only [Option.map_some, Option.getD_some, gammaM, map_mul, conj_I, map_sub, conj_conj]
      ring
  -- the anti-Hermitian part of the Green's function
  have hanti : (bigG L len g)ᴴ - bigG L len g = I • ((bigG L len g)ᴴ * bigGam L len gam * bigG L len g) := by
    let M : Matrix (Fin sys.ham.rows) (Fin sys.ham.rows) ℂ := fun α β => invGreen sys E α β
    let P : Matrix (Fin sys.ham.rows) (Iface L len) ℂ := fun α c => if (α : ℕ) = orb c.1 c.2 then 1 else 0
    let Xm : Matrix (Fin sys.ham.rows) (Iface L len) ℂ := fun α c => X α (off c.1 + c.2)
    have hMX : M * Xm = P := by
      funext α c
      rw [Matrix.mul_apply]
      have := hsol (off c.1 + c.2) (orb c.1 c.2) (horb c.1 c.1.2 c.2 c.2.2) α α.2
      rw [Finset.sum_range] at this
      exact this
    have hPX : Pᴴ * Xm = bigG L len g := by
      funext c d
      rw [Matrix.mul_apply, Finset.sum_eq_single (⟨orb c.1 c.2, horblt c.1 c.1.2 c.2 c.2.2⟩ : Fin sys.ham.rows)]
      · rw [conjTranspose_apply]
        simp [P, Xm, bigG, g]
      · intro b _ hb
        rw [conjTranspose_apply]
        have : ¬ ((b : ℕ) = orb c.1 c.2) := fun hx => hb (Fin.ext hx)
        simp [P, this]
      · intro hx; exact absurd (Finset.mem_univ _) hx
    have hM : M - Mᴴ = I • (P * bigGam L len gam * Pᴴ) := by
      funext α β
      rw [Matrix.sub_apply, conjTranspose_apply, Matrix.smul_apply, Matrix.mul_apply]
      have hs : ∀ α β : Fin sys.ham.rows, M α β = -((hamMinusE sys.ham E).val α β) - ∑ l : Fin L, sigmaAt sys.norb sys.leads[l] α β := by
        intro α β
        simp only [M, invGreen, hamMinusE]
        ring
      have e1 : ∀ c : Iface L len, (P * bigGam L len gam) α c = ∑ p ∈ range (len c.1), (if (α : ℕ) = orb c.1 p then gam c.1 p c.2 else 0) := by
        intro c
        rw [Matrix.mul_apply, ← sum_iface_single (fun l p => if (α : ℕ) = orb l p then gam l p c.2 else 0) c.1]
        refine Finset.sum_congr rfl fun d _ => ?_
        simp only [P, bigGam]
        by_cases hcd : c.1 = d.1
        · rw [if_pos hcd.symm, if_pos hcd, ite_mul, one_mul, zero_mul]
        · rw [if_neg (Ne.symm hcd), if_neg hcd, mul_zero]
      have e2 : ∑ c : Iface L len, (P * bigGam L len gam) α c * Pᴴ c β =
          ∑ l : Fin L, ∑ q ∈ range (len l), ∑ p ∈ range (len l), if (α : ℕ) = orb l p ∧ (β : ℕ) = orb l q then gam l p q else 0 := by
        have := sum_iface (L := L) (len := len) (fun l q => ∑ p ∈ range (len l), if (α : ℕ) = orb l p ∧ (β : ℕ) = orb l q then gam l p q else 0)
        rw [Finset.sum_range (n := L)] at this
        rw [← this]
        refine Finset.sum_congr rfl fun c _ => ?_
        rw [e1, conjTranspose_apply]
        simp only [P]
        by_cases hc : (β : ℕ) = orb c.1 c.2
        · rw [if_pos hc, star_one, mul_one]
          exact Finset.sum_congr rfl fun p _ => by simp [hc]
        · rw [if_neg hc, star_zero, mul_zero]
          exact (Finset.sum_eq_zero fun p _ => by simp [hc]).symm
      have hsA : ∀ (l : Fin L) (α β : ℕ), sigmaAt sys.norb sys.leads[l] α β =
          ∑ p ∈ range (len l), ∑ q ∈ range (len l), if α = orb l p ∧ β = orb l q then sys.leads[l].sigma.val p q else 0 := by
        intro l α β
        unfold sigmaAt
        rw [← hlo l]
        refine Finset.sum_congr rfl fun p hp => Finset.sum_congr rfl fun q hq => ?_
        have hp' : p < (leadOrbs sys l).length := Finset.mem_range.mp hp
        have hq' : q < (leadOrbs sys l).length := Finset.mem_range.mp hq
        simp only [orb, List.getD_eq_getElem?_getD, List.getElem?_eq_getElem hp', List.getElem?_eq_getElem hq', Option.getD_some, Option.some.injEq]
        simp only [eq_comm]
      rw [e2, hs α β, hs β α]
      simp only [star_sub, star_neg, star_sum]
      rw [show star ((hamMinusE sys.ham E).val β α) = (hamMinusE sys.ham E).val α β from (f4 α α.2 β β.2).symm]
      rw [show ∀ a b c : ℂ, -a - b - (-a - c) = c - b from fun a b c => by ring, ← Finset.sum_sub_distrib, smul_eq_mul, Finset.mul_sum]
      refine Finset.sum_congr rfl fun l _ => ?_
      rw [hsA, hsA, Finset.sum_comm (s := range (len l)) (t := range (len l)) (f := fun q p => if (α : ℕ) = orb l p ∧ (β : ℕ) = orb l q then gam l p q else 0)]
      rw [star_sum, Finset.sum_comm (s := range (len l)) (t := range (len l)) (f := fun p q => if (α : ℕ) = orb l p ∧ (β : ℕ) = orb l q then sys.leads[l].sigma.val p q else 0)]
      simp only [star_sum, Finset.mul_sum]
      rw [← Finset.sum_sub_distrib, Finset.sum_comm]
      refine Finset.sum_congr rfl fun q _ => ?_
      rw [← Finset.sum_sub_distrib]
      refine Finset.sum_congr rfl fun p _ => ?_
      have hga : gam l p q = I * (sys.leads[l].sigma.val p q - (starRingEnd ℂ) (sys.leads[l].sigma.val q p)) := by
        have : sys.leads[(l : ℕ)]? = some sys.leads[l] := List.getElem?_eq_getElem l.2
        simp only [gam, this, Option.map_some, Option.getD_some, gammaM]
      by_cases hc : (α : ℕ) = orb l p ∧ (β : ℕ) = orb l q
      · rw [if_pos hc, if_pos hc, if_pos hc.symm, hga, ← mul_assoc, I_mul_I]
        simp only [starRingEnd_apply]
        ring
      · rw [if_neg hc, if_neg hc, if_neg (fun hx => hc hx.symm)]
        simp
    have := green_anti hM hMX
    rw [hPX] at this
    exact this
  -- the program
  have hsizes : ∀ l, l < L → gf.sizes l = len l := by
    intro l hl
    have := (f3 sys.leads[l] (List.getElem_mem _)).1
    unfold GF.sizes
    rw [hsig, List.getElem?_map, List.getElem?_eq_getElem hl]
    show sys.leads[l].sigma.rows = (leadOrbs sys l).length
    rw [this, hlo ⟨l, hl⟩]; rfl
  have hbefore : ∀ l, l < L → before gf.sizes (List.range L) l = off l := by
    intro l hl
    unfold before
    show _ = (((List.range L).take l).map len).sum
    congr 1
    refine List.map_congr_left fun k hk => hsizes k ?_
    have := List.mem_of_mem_take hk
    exact List.mem_range.mp this
  have hslice : ∀ l, l < L → leadSlice gf.sizes (List.range L) l = .ok (off l, off l + len l) := by
    intro l hl
    rw [C55_slice gf.sizes List.nodup_range l l (by simp [hl]), hbefore l hl, hsizes l hl]
  have hsub : ∀ a, a < L → ∀ b, b < L → gf.submatrix a b = .ok ⟨len a, len b, fun p q => gf.data (off a + p) (off b + q)⟩ := by
    intro a ha b hb
    unfold GF.submatrix
    rw [ho, hi, hslice a ha, hslice b hb]
    simp only [Nat.add_sub_cancel_left]
  have hinfo : ∀ a (ha : a < L), gf.info a = .ok sys.leads[a].sigma := by
    intro a ha
    unfold GF.info
    rw [hsig, List.getElem?_map, List.getElem?_eq_getElem ha]
    rfl
  have hd : ∀ a, a < L → ∀ p < len a, ∀ c, gf.data (off a + p) c = X (orb a p) c := by
    intro a ha p hp c
    exact hdata _ _ _ (by rw [g1]; exact horb a ha p hp)
  have hgamv : ∀ a (ha : a < L) p q, (gammaM sys.leads[a].sigma).val p q = gam a p q := by
    intro a ha p q
    simp only [gam, List.getElem?_eq_getElem ha, Option.map_some, Option.getD_some]
  have hshape : ∀ a (ha : a < L), sys.leads[a].sigma.rows = len a ∧ sys.leads[a].sigma.cols = len a := by
    intro a ha
    have := f3 sys.leads[a] (List.getElem_mem _)
    have e : leadOrbs sys a = orbs sys.norb sys.leads[a].interface := hlo ⟨a, ha⟩
    simp only [len]
    rw [e]
    exact this
  refine ⟨fun a b => (tau len gam g a b).re + if a = b then 2 * (zed len gam g b).im + gf.nChan b else 0, ?_, ?_, ?_⟩
  · intro a ha b hb
    have e1 : ∃ m, gf.attda a b = .ok m ∧ traceM m = tau len gam g a b := by
      unfold GF.attda
      rw [hsub a ha b hb, hinfo a ha, hinfo b hb]
      refine ⟨_, rfl, ?_⟩
      unfold traceM tau dotM daggerM
      simp only
      have ea : (gammaM sys.leads[a].sigma).rows = len a := (hshape a ha).1
      have ea' : (gammaM sys.leads[a].sigma).cols = len a := (hshape a ha).2
      have eb : (gammaM sys.leads[b].sigma).cols = len b := (hshape b hb).2
      rw [ea, ea', eb]
      refine Finset.sum_congr rfl fun p hp => ?_
      refine Finset.sum_congr rfl fun s _ => ?_
      rw [hd a ha p (Finset.mem_range.mp hp)]
      congr 1
      refine Finset.sum_congr rfl fun r _ => ?_
      rw [hgamv b hb]
      congr 1
      refine Finset.sum_congr rfl fun q hq => ?_
      rw [hgamv a ha, hd a ha q (Finset.mem_range.mp hq)]
    obtain ⟨m, hm, htr⟩ := e1
    unfold GF.trans
    rw [hm]
    simp only
    by_cases hab : a = b
    · subst hab
      rw [if_pos rfl, hinfo a ha, hsub a ha a ha]
      simp only [if_true]
      rw [htr]
      have : traceM (dotM (gammaM sys.leads[a].sigma) ⟨len a, len a, fun p q => gf.data (off a + p) (off a + q)⟩) = zed len gam g a := by
        unfold traceM zed dotM
        simp only
        have ea : (gammaM sys.leads[a].sigma).rows = len a := (hshape a ha).1
        have ea' : (gammaM sys.leads[a].sigma).cols = len a := (hshape a ha).2
        rw [ea, ea']
        refine Finset.sum_congr rfl fun p hp => ?_
        refine Finset.sum_congr rfl fun q hq => ?_
        rw [hgamv a ha, hd a ha q (Finset.mem_range.mp hq)]
      rw [this]
    · rw [if_neg hab, if_neg hab, htr, add_zero]
  · intro a ha
    rw [Finset.sum_add_distrib, ← Complex.re_sum, tau_rows hgam hanti ha, Complex.ofReal_re, Finset.sum_ite_eq, if_pos (Finset.mem_range.mpr ha)]
    ring
  · intro b hb
    rw [Finset.sum_add_distrib, ← Complex.re_sum, tau_cols hgam hanti hb, Complex.ofReal_re, Finset.sum_ite_eq', if_pos (Finset.mem_range.mpr hb)]
    ring

/-- One site with one lead whose self-energy is `-i`. -/
def greenSys : SSys ℂ := ⟨⟨1, 1, fun _ _ => 0⟩, [1], [⟨false, ⟨1, 1, fun _ _ => -I⟩, ⟨⟨0, 0, fun _ _ => 0⟩, ⟨0, 0, fun _ _ => 0⟩, 0, ⟨1, 0, fun _ _ => 0⟩⟩, [0]⟩]⟩

/-- The hypotheses of `C96_conservation` can be met. -/
theorem green_example : SysOk greenSys ∧ ∃ ls o i, greensSetup greenSys 0 none none true = .ok (ls, [0], o, i) ∧ Solves ls (fun _ _ => -I) := by
  refine ⟨⟨rfl, rfl, ?_, ?_⟩, ?_⟩
  · intro l hl
    simp only [greenSys, List.mem_cons, List.not_mem_nil, or_false] at hl
    subst hl; simp [greenSys]
  · intro l hl hm
    simp only [greenSys, List.mem_cons, List.not_mem_nil, or_false] at hl
    subst hl
    exact absurd rfl hm.2
  · have hh : isHermitian (hamMinusE greenSys.ham 0) = true := by
      simp [isHermitian, hamMinusE, greenSys]
    have hc : ifaceOrbs [1] [0] = .ok [0] := by simp [ifaceOrbs, offsets, cumsum]
    refine ⟨⟨addSigma (hamMinusE greenSys.ham 0) [0] ⟨1, 1, fun _ _ => -I⟩, [⟨1, 1, fun α k => if [0][k]? = some α then -1 else 0⟩], [some [0]], 1⟩, [0], [0], ?_, ?_⟩
    · have hl : leadLists greenSys.leads.length none none = .ok ([0], [0]) := by rfl
      have hm : makeLinearSys greenSys [0] 0 true true = .ok ⟨addSigma (hamMinusE greenSys.ham 0) [0] ⟨1, 1, fun _ _ => -I⟩, [⟨1, 1, fun α k => if [0][k]? = some α then -1 else 0⟩], [some [0]], 1⟩ := by
        unfold makeLinearSys
        rw [hh]
        simp only [greenSys, leadLoop]
        simp [resize, addSigma, hamMinusE, leadStepReal, hc]
      unfold greensSetup
      rw [hl]
      simp only [hm]
      rfl
    · intro c hc' ρ hρ
      have h0 : c = 0 := by simpa using hc'
      have h1 : ρ = 0 := by simpa [addSigma, hamMinusE, greenSys] using hρ
      subst h0; subst h1
      simp [mulVec, addSigma, hamMinusE, greenSys, rhsCol]

end Kwant.Solver
