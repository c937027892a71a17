import Verif.Leads.ProperMain
import Verif.Leads.ModesProps

/-!
Tools for the modes of leads with discrete symmetries: replacing some of the modes by other ones (`make_proper_modes`, kwant/physics/leads.py l.797-871) and
counting the modes with given momentum and velocity.
-/

set_option linter.unusedSectionVars false

namespace Kwant.Leads
open Matrix Complex

variable {n r : ℕ}

/-- `ψ` is a Bloch wave function that is an eigenvector, with eigenvalue `v`, of the velocity operator restricted to the Bloch wave functions at the same momentum. -/
def VelState (h hop : Matrix (Fin n) (Fin n) ℂ) (μ : ℂ) (v : ℝ) (ψ : Fin n → ℂ) : Prop :=
  IsBloch h hop μ ψ ∧ ∀ φ, IsBloch h hop μ φ → star φ ⬝ᵥ (velMu hop μ *ᵥ ψ) = v * (star φ ⬝ᵥ ψ)

section basic
variable {h hop : Matrix (Fin n) (Fin n) ℂ} {u v : Matrix (Fin n) (Fin r) ℂ}

theorem Link.add {μ : ℂ} (hμ : μ ≠ 0) {x y : Fin r ⊕ Fin r → ℂ} {ψ φ : Fin n → ℂ} (hl : Link h hop u v μ x ψ) (hl' : Link h hop u v μ y φ) :
    Link h hop u v μ (x + y) (ψ + φ) := by
  have := Link.sub hμ hl (Link.smul hμ hl' (-1))
  simpa using this

theorem Link.zero' {μ : ℂ} (hμ : μ ≠ 0) : Link h hop u v μ 0 0 := by
  constructor
  · rw [mulVec_zero, mulVec_zero, smul_zero]
    ext i
    rcases i with i | i <;> rfl
  · rw [isBloch_iff h hop hμ]
    simp

theorem dot_velMu (μ : ℂ) (x y : Fin n → ℂ) : star (star x ⬝ᵥ (velMu hop μ *ᵥ y)) = star y ⬝ᵥ (velMu hop μ *ᵥ x) := by
  rw [star_dotProduct, star_star, star_mulVec, velMu_herm, ← dotProduct_mulVec]

theorem mulVec_eq_sum {R : Type} {N : ℕ} (a : Matrix R (Fin N) ℂ) (c : Fin N → ℂ) : a *ᵥ c = ∑ j, c j • a.col j := by
  ext x
  simp [mulVec, dotProduct, mul_comm]

theorem dot_mulVec {N : ℕ} (φ : Fin n → ℂ) (a : Matrix (Fin n) (Fin N) ℂ) (c : Fin N → ℂ) : star φ ⬝ᵥ (a *ᵥ c) = ∑ j, c j * (star φ ⬝ᵥ a.col j) := by
  rw [mulVec_eq_sum, dotProduct_sum]
  simp only [dotProduct_smul, smul_eq_mul]

variable {N : ℕ} {lam : Fin N → ℂ} {psi : Matrix (Fin r ⊕ Fin r) (Fin N) ℂ} {full : Matrix (Fin n) (Fin N) ℂ} {vel : Fin N → ℝ}

/-- Combinations of modes with the same momentum. -/
theorem Good.comb (hg : Good h hop u v lam psi full vel) {μ : ℂ} (hμ : μ ≠ 0) {c : Fin N → ℂ} (hc : ∀ i, lam i ≠ μ → c i = 0) :
    Link h hop u v μ (psi *ᵥ c) (full *ᵥ c) := by
  rw [mulVec_eq_sum, mulVec_eq_sum]
  have : ∀ s : Finset (Fin N), Link h hop u v μ (∑ j ∈ s, c j • psi.col j) (∑ j ∈ s, c j • full.col j) := by
    intro s
    induction s using Finset.induction_on with
    | empty => exact Link.zero' hμ
    | insert a s ha ih =>
      rw [Finset.sum_insert ha, Finset.sum_insert ha]
      refine Link.add hμ ?_ ih
      by_cases h0 : lam a = μ
      · rw [← h0]
        exact Link.smul (by rw [h0]; exact hμ) (hg.link a) _
      · rw [hc a h0, zero_smul, zero_smul]
        exact Link.zero' hμ
  exact this _

/-- The expansion coefficients of a Bloch wave function. -/
theorem Good.coeff (hg : Good h hop u v lam psi full vel) {μ : ℂ} {c : Fin N → ℂ} (hc : ∀ i, lam i ≠ μ → c i = 0) (j : Fin N) (hj : lam j = μ) :
    star (full.col j) ⬝ᵥ (full *ᵥ c) = c j := by
  rw [dot_mulVec, Finset.sum_eq_single j]
  · rw [hg.orth j j rfl, if_pos rfl, mul_one]
  · intro i _ hij
    by_cases h0 : lam i = μ
    · rw [hg.orth j i (by rw [hj, h0]), if_neg (Ne.symm hij), mul_zero]
    · rw [hc i h0, zero_mul]
  · intro h0
    exact absurd (Finset.mem_univ _) h0

theorem Good.coeffVel (hg : Good h hop u v lam psi full vel) {μ : ℂ} {c : Fin N → ℂ} (hc : ∀ i, lam i ≠ μ → c i = 0) (j : Fin N) (hj : lam j = μ) :
    star (full.col j) ⬝ᵥ (velMu hop μ *ᵥ (full *ᵥ c)) = vel j * c j := by
  have h1 : velMu hop μ *ᵥ (full *ᵥ c) = (velMu hop μ * full) *ᵥ c := by rw [mulVec_mulVec]
  have h2 : ∀ i, (velMu hop μ * full).col i = velMu hop μ *ᵥ full.col i := fun i => rfl
  rw [h1, dot_mulVec, Finset.sum_eq_single j]
  · rw [h2, ← hj, hg.diag j j rfl, if_pos rfl, mul_comm]
  · intro i _ hij
    by_cases h0 : lam i = μ
    · have := hg.diag j i (by rw [hj, h0])
      rw [h2, ← hj, this, if_neg (Ne.symm hij), mul_zero]
    · rw [hc i h0, zero_mul]
  · intro h0
    exact absurd (Finset.mem_univ _) h0

theorem Good.velState (hg : Good h hop u v lam psi full vel) (hu : ∀ i, ‖lam i‖ = 1) (j : Fin N) : VelState h hop (lam j) (vel j) (full.col j) := by
  refine ⟨(hg.link j).2, fun φ hφ => ?_⟩
  obtain ⟨c, hc, hx⟩ := hg.complete (lam j) φ (hu j) hφ
  have h1 := hg.coeffVel hc j rfl
  have h2 := hg.coeff hc j rfl
  rw [← hx] at h1 h2
  have h3 := congrArg star h1
  rw [dot_velMu] at h3
  rw [h3, star_mul', ← h2, star_dotProduct, star_star]
  simp

/-- The eigenvectors of the velocity are combinations of modes with this velocity. -/
theorem Good.expand (hg : Good h hop u v lam psi full vel) {μ : ℂ} (hμ : ‖μ‖ = 1) {w : ℝ} {ψ : Fin n → ℂ} (hψ : VelState h hop μ w ψ) :
    ∃ c : Fin N → ℂ, (∀ i, c i = if lam i = μ then star (full.col i) ⬝ᵥ ψ else 0) ∧ (∀ i, ¬(lam i = μ ∧ vel i = w) → c i = 0) ∧ ψ = full *ᵥ c := by
  obtain ⟨c, hc, hx⟩ := hg.complete μ ψ hμ hψ.1
  have hco : ∀ i, lam i = μ → star (full.col i) ⬝ᵥ ψ = c i := fun i hi => by
    have := hg.coeff hc i hi
    rwa [← hx] at this
  refine ⟨c, ?_, ?_, hx⟩
  · intro i
    split
    · rename_i hi
      exact (hco i hi).symm
    · rename_i hi
      exact hc i hi
  · intro i hi
    by_cases h1 : lam i = μ
    · have h2 : vel i ≠ w := fun h2 => hi ⟨h1, h2⟩
      have h3 := hg.coeffVel hc i h1
      rw [← hx] at h3
      have hb : IsBloch h hop μ (full.col i) := by rw [← h1]; exact (hg.link i).2
      have h4 := hψ.2 _ hb
      rw [h3, hco i h1] at h4
      have h5 : ((vel i : ℂ) - w) * c i = 0 := by rw [sub_mul, h4, sub_self]
      exact (mul_eq_zero.mp h5).resolve_left (sub_ne_zero.mpr (by exact_mod_cast h2))
    · exact hc i h1

/-- Assignment to columns and to coefficients. -/
theorem updCols_mulVec {R : Type} {k : ℕ} {tgt : Fin k → Fin N} (hinj : Function.Injective tgt) (A : Matrix R (Fin N) ℂ) (B : Matrix R (Fin k) ℂ) (a : Fin N → ℂ)
    (b : Fin k → ℂ) : updCols tgt A B *ᵥ upd tgt a b = A *ᵥ upd tgt a 0 + B *ᵥ b := by
  have h1 : upd tgt a b = upd tgt a 0 + upd tgt 0 b := by
    ext j
    by_cases hj : ∃ i, tgt i = j
    · obtain ⟨i, rfl⟩ := hj
      rw [Pi.add_apply, upd_sel hinj, upd_sel hinj, upd_sel hinj]
      simp
    · push Not at hj
      rw [Pi.add_apply, upd_not _ _ hj, upd_not _ _ hj, upd_not _ _ hj]
      simp
  rw [h1, mulVec_add, mulVec_upd hinj]
  congr 1
  · rw [mulVec_eq_sum, mulVec_eq_sum]
    refine Finset.sum_congr rfl fun j _ => ?_
    by_cases hj : ∃ i, tgt i = j
    · obtain ⟨i, rfl⟩ := hj
      rw [upd_sel hinj, Pi.zero_apply, zero_smul, zero_smul]
    · push Not at hj
      congr 1
      ext x
      exact updCols_not _ _ x hj
  · congr 1
    ext x i
    exact updCols_sel hinj _ _ x i

theorem updCols_col_sel {R : Type} {k : ℕ} {tgt : Fin k → Fin N} (hinj : Function.Injective tgt) (A : Matrix R (Fin N) ℂ) (B : Matrix R (Fin k) ℂ) (a : Fin k) :
    (updCols tgt A B).col (tgt a) = B.col a := by
  ext x
  exact updCols_sel hinj _ _ x a

theorem updCols_col_not {R : Type} {k : ℕ} {tgt : Fin k → Fin N} (A : Matrix R (Fin N) ℂ) (B : Matrix R (Fin k) ℂ) {j : Fin N} (hj : ∀ i, tgt i ≠ j) :
    (updCols tgt A B).col j = A.col j := by
  ext x
  exact updCols_not _ _ x hj

/-- Some of the modes are replaced by other ones. -/
theorem Good.replace (hg : Good h hop u v lam psi full vel) (hu : ∀ i, ‖lam i‖ = 1) {k : ℕ} {tgt : Fin k → Fin N} (hinj : Function.Injective tgt)
    {out : Matrix (Fin n) (Fin k) ℂ} (hv : ∀ a, VelState h hop (lam (tgt a)) (vel (tgt a)) (out.col a))
    (ho : ∀ a b, lam (tgt a) = lam (tgt b) → star (out.col a) ⬝ᵥ out.col b = if a = b then 1 else 0)
    (hr : ∀ a j, lam j = lam (tgt a) → vel j = vel (tgt a) → ∃ b, tgt b = j) :
    ∃ Q : Matrix (Fin k) (Fin k) ℂ, (∀ a b, Q a b = if lam (tgt a) = lam (tgt b) then star (full.col (tgt a)) ⬝ᵥ out.col b else 0) ∧
      out = full.submatrix id tgt * Q ∧ Good h hop u v lam (updCols tgt psi (psi.submatrix id tgt * Q)) (updCols tgt full out) vel := by
  set Q : Matrix (Fin k) (Fin k) ℂ := of fun a b => if lam (tgt a) = lam (tgt b) then star (full.col (tgt a)) ⬝ᵥ out.col b else 0 with hQ
  have hex : ∀ b, (∀ i, ¬(lam i = lam (tgt b) ∧ vel i = vel (tgt b)) → upd tgt 0 (Q.col b) i = 0) ∧ out.col b = full *ᵥ upd tgt 0 (Q.col b) ∧
      ∀ i, lam i = lam (tgt b) → (∀ a, tgt a ≠ i) → star (full.col i) ⬝ᵥ out.col b = 0 := by
    intro b
    obtain ⟨c, h1, h2, h3⟩ := hg.expand (hu _) (hv b)
    have h4 : upd tgt 0 (c ∘ tgt) = c := upd_comp hinj fun j hj => h2 j fun h5 => by
      obtain ⟨a, ha⟩ := hr b j h5.1 h5.2
      exact hj a ha
    have h5 : c ∘ tgt = Q.col b := by
      ext a
      rw [Function.comp_apply, h1]
      rfl
    rw [h5] at h4
    rw [h4]
    refine ⟨h2, h3, ?_⟩
    intro i hi hia
    have h6 := h1 i
    rw [if_pos hi] at h6
    rw [← h6]
    exact h2 i fun h7 => by
      obtain ⟨a, ha⟩ := hr b i h7.1 h7.2
      exact hia a ha
  have hout : out = full.submatrix id tgt * Q := by
    ext x b
    have := congrFun (hex b).2.1 x
    rw [mulVec_upd hinj] at this
    exact this
  have hsup : ∀ a b, lam (tgt a) ≠ lam (tgt b) → Q a b = 0 := by
    intro a b hab
    rw [hQ, of_apply, if_neg hab]
  have hun : Qᴴ * Q = 1 := by
    ext a b
    rw [Matrix.mul_apply, one_apply]
    by_cases hab : lam (tgt a) = lam (tgt b)
    · have h1 := ho a b hab
      have h2 : out.col b = full *ᵥ upd tgt 0 (Q.col b) := (hex b).2.1
      rw [← h1]
      rw [mulVec_upd hinj] at h2
      conv_rhs => rw [h2, dot_mulVec]
      refine Finset.sum_congr rfl fun l _ => ?_
      rw [conjTranspose_apply, mul_comm]
      have h3 : Q.col b l = Q l b := rfl
      rw [h3]
      by_cases hl : lam (tgt l) = lam (tgt b)
      · congr 1
        have : Q l a = star (full.col (tgt l)) ⬝ᵥ out.col a := by
          rw [hQ, of_apply, if_pos (hl.trans hab.symm)]
        rw [this, star_dotProduct, star_star]
        rfl
      · rw [hsup l b hl, zero_mul, zero_mul]
    · rw [if_neg (fun h0 => hab (by rw [h0]))]
      refine Finset.sum_eq_zero fun l _ => ?_
      by_cases hl : lam (tgt l) = lam (tgt b)
      · rw [conjTranspose_apply, hsup l a (fun h0 => hab (h0.symm.trans hl)), star_zero, zero_mul]
      · rw [hsup l b hl, mul_zero]
  have hun' : Q * Qᴴ = 1 := mul_eq_one_comm.mp hun
  refine ⟨Q, fun a b => rfl, hout, ?_, ?_, ?_, ?_⟩
  · intro i
    by_cases hi : ∃ a, tgt a = i
    · obtain ⟨a, rfl⟩ := hi
      rw [updCols_col_sel hinj, updCols_col_sel hinj, (hex a).2.1]
      have : (psi.submatrix id tgt * Q).col a = psi *ᵥ upd tgt 0 (Q.col a) := by
        rw [mulVec_upd hinj]
        rfl
      rw [this]
      exact hg.comb (unit_ne (hu _)) fun i hi => (hex a).1 i fun h0 => hi h0.1
    · push Not at hi
      rw [updCols_col_not _ _ hi, updCols_col_not _ _ hi]
      exact hg.link i
  · intro i j hij
    by_cases hi : ∃ a, tgt a = i
    · obtain ⟨a, rfl⟩ := hi
      by_cases hj : ∃ b, tgt b = j
      · obtain ⟨b, rfl⟩ := hj
        rw [updCols_col_sel hinj, updCols_col_sel hinj, ho a b hij]
        simp only [hinj.eq_iff]
      · push Not at hj
        rw [updCols_col_sel hinj, updCols_col_not _ _ hj, if_neg (hj a)]
        have := (hex a).2.2 j hij.symm hj
        have h2 := congrArg star this
        rw [star_dotProduct, star_star, star_zero] at h2
        exact h2
    · push Not at hi
      by_cases hj : ∃ b, tgt b = j
      · obtain ⟨b, rfl⟩ := hj
        rw [updCols_col_sel hinj, updCols_col_not _ _ hi, if_neg (hi b).symm]
        exact (hex b).2.2 i hij hi
      · push Not at hj
        rw [updCols_col_not _ _ hi, updCols_col_not _ _ hj]
        exact hg.orth i j hij
  · intro i j hij
    by_cases hi : ∃ a, tgt a = i
    · obtain ⟨a, rfl⟩ := hi
      by_cases hj : ∃ b, tgt b = j
      · obtain ⟨b, rfl⟩ := hj
        rw [updCols_col_sel hinj, updCols_col_sel hinj, hij, (hv b).2 _ (by rw [← hij]; exact (hv a).1), ho a b hij]
        by_cases hab : a = b
        · subst hab; simp
        · rw [if_neg hab, if_neg (fun h0 => hab (hinj h0)), mul_zero]
      · push Not at hj
        rw [updCols_col_sel hinj, updCols_col_not _ _ hj, if_neg (hj a)]
        have h1 := (hv a).2 (full.col j) (by rw [hij]; exact (hg.link j).2)
        rw [(hex a).2.2 j hij.symm hj, mul_zero] at h1
        have h2 := congrArg star h1
        rw [dot_velMu, star_zero] at h2
        exact h2
    · push Not at hi
      by_cases hj : ∃ b, tgt b = j
      · obtain ⟨b, rfl⟩ := hj
        rw [updCols_col_sel hinj, updCols_col_not _ _ hi, if_neg (hi b).symm, hij, (hv b).2 _ (by rw [← hij]; exact (hg.link i).2), (hex b).2.2 i hij hi, mul_zero]
      · push Not at hj
        rw [updCols_col_not _ _ hi, updCols_col_not _ _ hj]
        exact hg.diag i j hij
  · intro μ ψ hμ hψ
    obtain ⟨c, hc, hx⟩ := hg.complete μ ψ hμ hψ
    refine ⟨upd tgt c (Qᴴ *ᵥ (c ∘ tgt)), ?_, ?_⟩
    · intro i hi
      by_cases hi2 : ∃ a, tgt a = i
      · obtain ⟨a, rfl⟩ := hi2
        rw [upd_sel hinj, mulVec, dotProduct]
        refine Finset.sum_eq_zero fun l _ => ?_
        by_cases hl : lam (tgt l) = μ
        · rw [conjTranspose_apply, hsup l a (fun h0 => hi (h0.symm.trans hl)), star_zero, zero_mul]
        · rw [Function.comp_apply, hc _ hl, mul_zero]
      · push Not at hi2
        rw [upd_not _ _ hi2]
        exact hc i hi
    · rw [updCols_mulVec hinj, hout, mulVec_mulVec, Matrix.mul_assoc, hun', Matrix.mul_one, hx, ← mulVec_upd hinj, ← mulVec_add]
      congr 1
      ext j
      by_cases hj : ∃ i, tgt i = j
      · obtain ⟨i, rfl⟩ := hj
        rw [Pi.add_apply, upd_sel hinj, upd_sel hinj]
        simp
      · push Not at hj
        rw [Pi.add_apply, upd_not _ _ hj, upd_not _ _ hj]
        simp

open Classical in
/-- An orthonormal family of wave functions with given momentum and velocity is not larger than the number of modes with this momentum and velocity. -/
theorem Good.card_le (hg : Good h hop u v lam psi full vel) {μ : ℂ} (hμ : ‖μ‖ = 1) {w : ℝ} {ι : Type} [Fintype ι] {φ : ι → Fin n → ℂ}
    (hφ : ∀ a, VelState h hop μ w (φ a)) (ho : ∀ a b, star (φ a) ⬝ᵥ φ b = if a = b then 1 else 0) :
    Fintype.card ι ≤ (Finset.univ.filter fun i => lam i = μ ∧ vel i = w).card := by
  choose c h1 h2 h3 using fun a => hg.expand hμ (hφ a)
  set C : Matrix {i // lam i = μ ∧ vel i = w} ι ℂ := of fun i a => c a i.1 with hC
  have key : Cᴴ * C = 1 := by
    ext a b
    rw [Matrix.mul_apply, one_apply, ← ho a b]
    conv_rhs => rw [h3 b, dot_mulVec]
    have hz : ∑ j, c b j * (star (φ a) ⬝ᵥ full.col j) = ∑ j ∈ Finset.univ.filter (fun i => lam i = μ ∧ vel i = w), c b j * (star (φ a) ⬝ᵥ full.col j) := by
      symm
      refine Finset.sum_subset (Finset.subset_univ _) fun j _ hj => ?_
      rw [h2 b j (fun h0 => hj (Finset.mem_filter.mpr ⟨Finset.mem_univ _, h0⟩)), zero_mul]
    rw [hz, ← Finset.sum_subtype_eq_sum_filter]
    refine Finset.sum_bij (fun i _ => i) ?_ ?_ ?_ ?_
    · intro i _
      simp
    · intro i _ j _ hij
      exact hij
    · intro i _
      exact ⟨i, Finset.mem_univ _, rfl⟩
    · intro i _
      rw [conjTranspose_apply, hC, of_apply, of_apply, mul_comm, h1 a, if_pos i.2.1, star_dotProduct, star_star]
  have hinj : Function.Injective C.mulVecLin := by
    rw [← LinearMap.ker_eq_bot, LinearMap.ker_eq_bot']
    intro x hx
    have : Cᴴ *ᵥ (C *ᵥ x) = x := by rw [mulVec_mulVec, key, one_mulVec]
    rw [← this]
    have h0 : C *ᵥ x = 0 := hx
    rw [h0, mulVec_zero]
  have := LinearMap.finrank_le_finrank_of_injective hinj
  rw [Module.finrank_fintype_fun_eq_card, Module.finrank_fintype_fun_eq_card, Fintype.card_subtype] at this
  exact this

/-- The sign of the velocities under the symmetry. -/
def sgn (c fl : Bool) : ℝ := if fl ≠ c then -1 else 1

theorem VelState.map {U : Matrix (Fin n) (Fin n) ℂ} {c fl : Bool} (hr : Related U c fl h hop h hop) {μ : ℂ} (hμ : ‖μ‖ = 1) {w : ℝ} {ψ : Fin n → ℂ}
    (hψ : VelState h hop μ w ψ) : VelState h hop (cj c μ) (sgn c fl * w) (U *ᵥ (cj c ∘ ψ)) := by
  have hμ0 := unit_ne hμ
  have hμ' : cj c μ ≠ 0 := (map_ne_zero _).mpr hμ0
  refine ⟨hr.bloch hμ0 hψ.1, ?_⟩
  intro φ hφ
  have hs := hr.symm.bloch hμ' hφ
  rw [cj_cj] at hs
  set χ := Uᴴ.map (cj c) *ᵥ (cj c ∘ φ) with hχ
  have hφ' : φ = U *ᵥ (cj c ∘ χ) := by
    rw [hχ]
    have h1 : cj c ∘ (Uᴴ.map (cj c) *ᵥ (cj c ∘ φ)) = Uᴴ *ᵥ φ := by
      rw [cj_mulVec]
      ext i
      simp [cj_cj]
    rw [h1, mulVec_mulVec, hr.right, one_mulVec]
  rw [hr.vel, hφ', dotProduct_smul, dot_cj hr.left, dot_cj hr.left, hψ.2 χ hs, map_mul, cj_ofReal, smul_eq_mul, ← mul_assoc]
  congr 1
  rw [sgn]
  split <;> simp

theorem norm_cj (c : Bool) (z : ℂ) : ‖cj c z‖ = ‖z‖ := by
  cases c
  · simp [cj]
  · simp [cj]

theorem sgn_sgn (c fl : Bool) (w : ℝ) : sgn c fl * (sgn c fl * w) = w := by
  cases c <;> cases fl <;> simp [sgn]

open Classical in
/-- Symmetric momenta and velocities are equally frequent. -/
theorem Good.card_eq (hg : Good h hop u v lam psi full vel) (hu : ∀ i, ‖lam i‖ = 1) {U : Matrix (Fin n) (Fin n) ℂ} {c fl : Bool} (hr : Related U c fl h hop h hop)
    (μ : ℂ) (w : ℝ) : (Finset.univ.filter fun i => lam i = μ ∧ vel i = w).card = (Finset.univ.filter fun i => lam i = cj c μ ∧ vel i = sgn c fl * w).card := by
  have key : ∀ (μ : ℂ) (w : ℝ), (Finset.univ.filter fun i => lam i = μ ∧ vel i = w).card ≤ (Finset.univ.filter fun i => lam i = cj c μ ∧ vel i = sgn c fl * w).card := by
    intro μ w
    by_cases h0 : (Finset.univ.filter fun i => lam i = μ ∧ vel i = w) = ∅
    · rw [h0, Finset.card_empty]
      exact Nat.zero_le _
    · obtain ⟨i, hi⟩ := Finset.nonempty_iff_ne_empty.mpr h0
      have hμ : ‖μ‖ = 1 := by rw [← (Finset.mem_filter.mp hi).2.1]; exact hu i
      have := hg.card_le (μ := cj c μ) (by rw [norm_cj, hμ]) (w := sgn c fl * w) (ι := {i // lam i = μ ∧ vel i = w}) (φ := fun a => U *ᵥ (cj c ∘ full.col a.1))
        (fun a => by
          have h1 := hg.velState hu a.1
          rw [a.2.1, a.2.2] at h1
          exact h1.map hr hμ)
        (fun a b => by
          rw [dot_cj hr.left, hg.orth a.1 b.1 (by rw [a.2.1, b.2.1])]
          simp only [Subtype.ext_iff]
          split <;> simp)
      rw [Fintype.card_subtype] at this
      exact this
  refine le_antisymm (key μ w) ?_
  have := key (cj c μ) (sgn c fl * w)
  rw [cj_cj, sgn_sgn] at this
  exact this

end basic

section independent
variable {h hop : Matrix (Fin n) (Fin n) ℂ} {L : Linsys n} {u : Matrix (Fin n) (Fin L.r) ℂ} {N : ℕ} {lam : Fin N → ℂ} {psi : Matrix (Fin L.r ⊕ Fin L.r) (Fin N) ℂ}
  {full : Matrix (Fin n) (Fin N) ℂ} {vel : Fin N → ℝ}

/-- There is no current between different modes. -/
theorem Good.current (hh : h.IsHermitian) (hf : Faithful h hop L u) (hu : ∀ i, ‖lam i‖ = 1) (hg : Good h hop u L.v lam psi full vel) :
    current psi.toRows₁ psi.toRows₂ = diagonal fun i => (vel i : ℂ) := by
  have hp : L.Pencil (fromRows psi.toRows₁ psi.toRows₂) (1 : Matrix (Fin N) (Fin N) ℂ) (diagonal lam) := by
    rw [pencil_iff_cols]
    refine ⟨_, rfl, ?_⟩
    rw [fromRows_toRows, Matrix.mul_one, ← Matrix.mul_assoc]
    ext x i
    have := congrFun ((solution_iff_getD L _ _).mp ((link_iff hf (unit_ne (hu i)) _ _).mp (hg.link i)).1) x
    rw [Matrix.mul_diagonal]
    refine Eq.trans this ?_
    rw [Pi.smul_apply, smul_eq_mul, mul_comm]
    rfl
  have hcons := current_conserved hh hf hp
  rw [conjTranspose_one, Matrix.one_mul, Matrix.mul_one, diagonal_conjTranspose] at hcons
  ext i j
  by_cases hij : lam i = lam j
  · have key := velOpMat_eq (k := 2) (hu i) hf.fact (psi := psi.submatrix id ![i, j]) (full := full.submatrix id ![i, j])
      (by
        intro a
        fin_cases a
        · exact hg.link i
        · rw [hij]; exact hg.link j)
    have k01 := congrFun (congrFun key 0) 1
    have hcur : Kwant.Leads.current psi.toRows₁ psi.toRows₂ i j = velOpMat (psi.submatrix id ![i, j]) 0 1 := rfl
    rw [hcur, k01, diagonal_apply]
    refine Eq.trans ?_ (hg.diag i j hij)
    rw [Matrix.mul_assoc]
    rfl
  · rw [diagonal_apply, if_neg (fun h0 => hij (by rw [h0]))]
    have h1 := congrFun (congrFun hcons i) j
    rw [Matrix.mul_diagonal, Matrix.diagonal_mul, Pi.star_apply, star_def] at h1
    have h2 : (starRingEnd ℂ) (lam i) = (lam i)⁻¹ := by
      have := congrArg (starRingEnd ℂ) (conj_inv_unit (hu i))
      rw [Complex.conj_conj] at this
      exact this.symm
    rw [h2] at h1
    have h3 : (lam i - lam j) * Kwant.Leads.current psi.toRows₁ psi.toRows₂ i j = 0 := by
      have h4 : lam i * Kwant.Leads.current psi.toRows₁ psi.toRows₂ i j = Kwant.Leads.current psi.toRows₁ psi.toRows₂ i j * lam j := by
        conv_lhs => rw [h1]
        rw [mul_assoc, mul_inv_cancel_left₀ (unit_ne (hu i))]
      rw [sub_mul, h4, mul_comm, sub_self]
    exact (mul_eq_zero.mp h3).resolve_left (sub_ne_zero.mpr hij)

/-- Modes that move in the same direction have linearly independent wave functions in the unit cell. -/
theorem Good.indep (hh : h.IsHermitian) (hf : Faithful h hop L u) (hu : ∀ i, ‖lam i‖ = 1) (hg : Good h hop u L.v lam psi full vel) {k : ℕ} {sel : Fin k → Fin N}
    (hinj : Function.Injective sel) (hd : (∀ a, vel (sel a) < 0) ∨ ∀ a, 0 < vel (sel a)) (c : Fin k → ℂ) (hc : full.submatrix id sel *ᵥ c = 0) : c = 0 := by
  have hcur := Good.current hh hf hu hg
  set d := upd sel 0 c with hd'
  have h0 : full *ᵥ d = 0 := by rw [hd', mulVec_upd hinj, hc]
  have h1 : psi.toRows₁ *ᵥ d = 0 := by
    have : psi.toRows₁ = L.vᴴ * full := by
      ext x i
      exact congrFun (hg.link i).1 (.inl x)
    rw [this, ← mulVec_mulVec, h0, mulVec_zero]
  have h2 : star d ⬝ᵥ (Kwant.Leads.current psi.toRows₁ psi.toRows₂ *ᵥ d) = 0 := by
    rw [Kwant.Leads.current, add_mulVec, dotProduct_add, smul_mulVec, ← mulVec_mulVec, h1, mulVec_zero, smul_zero, dotProduct_zero, zero_add, conjTranspose_smul, smul_mulVec,
      conjTranspose_mul, conjTranspose_conjTranspose, ← mulVec_mulVec, dotProduct_smul, dotProduct_mulVec, ← star_mulVec, h1]
    simp
  rw [hcur] at h2
  have h3 : star d ⬝ᵥ (diagonal (fun i => (vel i : ℂ)) *ᵥ d) = ((∑ j, vel j * ‖d j‖ ^ 2 : ℝ) : ℂ) := by
    rw [dotProduct]
    push_cast
    refine Finset.sum_congr rfl fun j _ => ?_
    rw [mulVec_diagonal, Pi.star_apply, star_def, mul_left_comm]
    congr 1
    rw [Complex.conj_mul']
  rw [h3] at h2
  have h4 : ∑ j, vel j * ‖d j‖ ^ 2 = 0 := by exact_mod_cast h2
  have hz : ∀ j, vel j * ‖d j‖ ^ 2 = 0 := by
    have hnot : ∀ j, (∀ a, sel a ≠ j) → d j = 0 := fun j hj => by rw [hd', upd_not _ _ hj]; rfl
    rcases hd with hd | hd
    · have h5 : ∀ j ∈ Finset.univ, vel j * ‖d j‖ ^ 2 ≤ 0 := by
        intro j _
        by_cases hj : ∃ a, sel a = j
        · obtain ⟨a, rfl⟩ := hj
          exact mul_nonpos_of_nonpos_of_nonneg (hd a).le (by positivity)
        · push Not at hj
          rw [hnot j hj]; simp
      intro j
      exact (Finset.sum_eq_zero_iff_of_nonpos h5).mp h4 j (Finset.mem_univ _)
    · have h5 : ∀ j ∈ Finset.univ, 0 ≤ vel j * ‖d j‖ ^ 2 := by
        intro j _
        by_cases hj : ∃ a, sel a = j
        · obtain ⟨a, rfl⟩ := hj
          exact mul_nonneg (hd a).le (by positivity)
        · push Not at hj
          rw [hnot j hj]; simp
      intro j
      exact (Finset.sum_eq_zero_iff_of_nonneg h5).mp h4 j (Finset.mem_univ _)
  ext a
  have h6 := hz (sel a)
  have h7 : vel (sel a) ≠ 0 := by
    rcases hd with hd | hd
    · exact (hd a).ne
    · exact (hd a).ne'
  have h8 := (mul_eq_zero.mp h6).resolve_left h7
  rw [hd', upd_sel hinj] at h8
  simpa using h8

end independent

/-- Sorted families with the same values, counted with multiplicity, are equal. -/
theorem eq_of_sorted {α : Type} [LinearOrder α] {m : ℕ} {a b : Fin m → α} (ha : Monotone a) (hb : Monotone b)
    (hc : ∀ x, (Finset.univ.filter fun i => a i = x).card = (Finset.univ.filter fun i => b i = x).card) : a = b := by
  have h1 : Multiset.map a Finset.univ.val = Multiset.map b Finset.univ.val := by
    ext x
    rw [Multiset.count_map, Multiset.count_map]
    have := hc x
    simp only [Finset.card, Finset.filter_val] at this
    simp only [eq_comm (a := x)]
    exact this
  have h2 : (List.ofFn a).Perm (List.ofFn b) := by
    rw [List.ofFn_eq_map, List.ofFn_eq_map, ← Multiset.coe_eq_coe]
    exact h1
  have h3 := h2.eq_of_sortedLE (List.sortedLE_ofFn_iff.mpr ha) (List.sortedLE_ofFn_iff.mpr hb)
  exact List.ofFn_injective h3

end Kwant.Leads
