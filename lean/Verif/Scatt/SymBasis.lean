import Verif.Scatt.Onsager

/-!
C189: the scattering matrix in a basis of modes that are partners under a symmetry.
-/

set_option linter.unusedSectionVars false

namespace Kwant.Scatt
open Finset Complex Filter
open Matrix hiding mulVec
open Kwant.Leads hiding Modes
open Kwant.Solver hiding transmission LErr mulVec

variable {T : Open} {E : ℝ} {B : LeadBasis T}

/-! ### Specification -/

/-- The image of mode `i` under the symmetry `R K` (without complex conjugation `K` unless `conj`) is `z` times mode `j`. -/
def ModeImage {n m : ℕ} (M : LeadModes n m) (conj : Bool) (R : Matrix (Fin n) (Fin n) ℂ) (i j : Fin M.p ⊕ Fin M.p) (z : ℂ) : Prop :=
  (R *ᵥ fun x => kap conj (M.wf x i)) = z • M.wf.col j ∧ cexp (-(I * M.mom j)) = kap conj (cexp (-(I * M.mom i)))

/-! ### Proofs -/

/-- C189: in every wave, the outgoing amplitudes are the scattering matrix times the incoming ones. -/
theorem C189_out_of_in (hT : T.Ok) (hB : BasisOk E B) {S : FullS} (h : IsSmatrix E B S) {ψ : ℕ → ℂ} {Ψ : (l : Fin T.N) → ℕ → Fin (T.lead l).n → ℂ} (hw : InfWave T E ψ Ψ)
    {a : (l : Fin T.N) → Fin (B.M l).p ⊕ Fin (B.M l).p → ℂ} (hA : ∀ l, Asymp (B.M l) (B.sg l) (a l) (Ψ l)) (l : Fin T.N) (i : Fin (B.M l).p) :
    a l (.inr i) = ∑ k : Fin T.N, ∑ b : Fin (B.M k).p, S l i k b * a k (.inl b) := by
  have h7 : ∀ (x : Fin T.N) (b : Fin (B.M x).p), ∑ y : Fin T.N, ∑ j : Fin (B.M y).p, star (S y j x b) * a y (.inr j) = a x (.inl b) := by
    intro x b
    obtain ⟨ψ', Ψ', hw'⟩ := h x b b.2
    have h7 := conservation hT hB hw'.1 hw hw'.2 hA
    simp only [Sum.elim_inl, Sum.elim_inr] at h7
    have e1 : ∀ y : Fin T.N, ∀ i : Fin (B.M y).p, star (if y = x ∧ (i : ℕ) = b then (1 : ℂ) else 0) = if y = x ∧ (i : ℕ) = b then 1 else 0 := by
      intro y i
      by_cases hx : y = x ∧ (i : ℕ) = b
      · rw [if_pos hx, star_one]
      · rw [if_neg hx, star_zero]
    simp only [e1] at h7
    rw [sum_delta (p := fun x => (B.M x).p) x b fun y i => a y (.inl i)] at h7
    exact h7
  have hun := (C116_unitary hT hB h).1
  have hnum : ∀ x : Fin T.N, B.num x = (B.M x).p := fun x => dif_pos x.2
  have hun2 : ∀ (y : Fin T.N) (j : Fin (B.M y).p), ∑ x : Fin T.N, ∑ b : Fin (B.M x).p, S l i x b * star (S y j x b) = if y = l ∧ (j : ℕ) = i then 1 else 0 := by
    intro y j
    have h8 := hun l l.2 i (by rw [hnum]; exact i.2) y y.2 j (by rw [hnum]; exact j.2)
    rw [Finset.sum_range] at h8
    simp only [hnum] at h8
    simp only [Finset.sum_range] at h8
    rw [h8]
    by_cases hy : y = l ∧ (j : ℕ) = i
    · rw [if_pos hy, if_pos ⟨by rw [hy.1], hy.2.symm⟩]
    · rw [if_neg hy, if_neg (fun h => hy ⟨(Fin.ext h.1).symm, h.2.symm⟩)]
  simp only [← h7, Finset.mul_sum]
  rw [← sum_delta (p := fun x => (B.M x).p) l i fun y j => a y (.inr j)]
  simp only [← hun2, Finset.sum_mul]
  have e3 : ∀ x : Fin T.N, ∑ b : Fin (B.M x).p, ∑ y : Fin T.N, ∑ j : Fin (B.M y).p, S l i x b * (star (S y j x b) * a y (.inr j)) =
      ∑ y : Fin T.N, ∑ j : Fin (B.M y).p, ∑ b : Fin (B.M x).p, S l i x b * star (S y j x b) * a y (.inr j) := by
    intro x
    rw [Finset.sum_comm]
    refine Finset.sum_congr rfl fun y _ => ?_
    rw [Finset.sum_comm]
    exact Finset.sum_congr rfl fun j _ => Finset.sum_congr rfl fun b _ => by ring
  rw [Finset.sum_congr rfl fun x _ => e3 x, Finset.sum_comm]
  refine (Finset.sum_congr rfl fun y _ => ?_)
  rw [Finset.sum_comm]

variable {c g : Bool} {u : ℕ → ℕ → ℂ} {R : (l : Fin T.N) → Matrix (Fin (T.lead l).n) (Fin (T.lead l).n) ℂ} {Rm : (l : Fin T.N) → Matrix (Fin (T.lead l).m) (Fin (T.lead l).m) ℂ}

/-- The matrix with one element in each column. -/
def monomial {N : Type} [DecidableEq N] (f : N → N) (z : N → ℂ) : Matrix N N ℂ := of fun j i => if j = f i then z i else 0

/-- The image of a wave, if the images of the modes are modes. -/
theorem asymp_partner (hB : BasisOk E B) (l : Fin T.N) {f : Fin (B.M l).p ⊕ Fin (B.M l).p → Fin (B.M l).p ⊕ Fin (B.M l).p} {z : Fin (B.M l).p ⊕ Fin (B.M l).p → ℂ}
    (hf : ∀ i, ModeImage (B.M l) c (R l) i (f i) (z i)) {a : Fin (B.M l).p ⊕ Fin (B.M l).p → ℂ} {Ψ : ℕ → Fin (T.lead l).n → ℂ} (hA : Asymp (B.M l) (B.sg l) a Ψ) :
    Asymp (B.M l) (B.sg l) (fun j => ∑ i, if j = f i then B.sg l (f i) * B.sg l i * z i * kap c (a i) else 0) (fun j => CellMap.img c (R l) (Ψ j)) := by
  have h1 := asymp_img (M' := B.M l) (sg' := B.sg l) (c := c) hA (R l) (D := monomial f z) (by
    intro i
    have h2 := (hf i).1
    change CellMap.img c (R l) ((B.M l).wf.col i) = z i • (B.M l).wf.col (f i) at h2
    rw [h2, Finset.sum_eq_single (f i)]
    · simp only [monomial, of_apply, if_true]
    · intro j _ hj
      simp only [monomial, of_apply, if_neg hj, zero_smul]
    · intro h; exact absurd (Finset.mem_univ _) h) (by
    intro j i hji
    simp only [monomial, of_apply] at hji
    have h3 : j = f i := by_contra fun h => hji (if_neg h)
    rw [h3]
    exact (hf i).2) (fun j => (sg_kap (c := c) hB l j).2)
  refine (congrArg (fun a => Asymp (B.M l) (B.sg l) a _) ?_).mp h1
  funext j
  refine Finset.sum_congr rfl fun i _ => ?_
  simp only [monomial, of_apply]
  by_cases hj : j = f i
  · rw [if_pos hj, if_pos hj, (sg_kap (c := c) hB l i).1, hj]
    ring
  · rw [if_neg hj, if_neg hj]
    ring

/-- C189: the scattering matrix, if a symmetry maps incoming modes to outgoing ones.  `π` gives the partners of the incoming modes, `ρ` those of the outgoing ones. -/
theorem C189_reversed (hS : SymMap c g T T.ham.val T.data u R Rm) (hT : T.Ok) (hE : eta g * E = E) (hB : BasisOk E B) {S : FullS} (h : IsSmatrix E B S)
    {π ρ : (l : Fin T.N) → Fin (B.M l).p → Fin (B.M l).p} {τ υ : (l : Fin T.N) → Fin (B.M l).p → ℂ}
    (hi : ∀ l i, ModeImage (B.M l) c (R l) (.inl i) (.inr (π l i)) (τ l i)) (ho : ∀ l i, ModeImage (B.M l) c (R l) (.inr i) (.inl (ρ l i)) (υ l i)) (hρ : ∀ l, Function.Injective (ρ l))
    (l k : Fin T.N) (a : Fin (B.M k).p) (b : Fin (B.M l).p) :
    star (S l (π l b) k (ρ k a)) * (B.sg l (.inr (π l b)) * B.sg l (.inl b) * τ l b) = B.sg k (.inl (ρ k a)) * B.sg k (.inr a) * υ k a * kap c (S k a l b) := by
  obtain ⟨ψ', Ψ', hw'⟩ := h k (ρ k a) (ρ k a).2
  obtain ⟨ψ, Ψ, hw⟩ := h l b b.2
  have hww := hS.wave hT hw.1
  rw [hE] at hww
  have hP : ∀ (x : Fin T.N) i, ModeImage (B.M x) c (R x) i (Sum.elim (fun i => .inr (π x i)) (fun i => .inl (ρ x i)) i) (Sum.elim (τ x) (υ x) i) := by
    intro x i
    rcases i with i | i
    · exact hi x i
    · exact ho x i
  have h7 := conservation hT hB hw'.1 hww hw'.2 (fun x => asymp_partner hB x (hP x) (hw.2 x))
  simp only [Fintype.sum_sum_type, Sum.elim_inl, Sum.elim_inr, reduceCtorEq, if_false, Finset.sum_const_zero, add_zero, zero_add, Sum.inl.injEq, Sum.inr.injEq] at h7
  have e1 : ∀ y : Fin T.N, ∀ i : Fin (B.M y).p, star (if y = k ∧ (i : ℕ) = (ρ k a) then (1 : ℂ) else 0) = if y = k ∧ (i : ℕ) = (ρ k a) then 1 else 0 := by
    intro y i
    by_cases hx : y = k ∧ (i : ℕ) = (ρ k a)
    · rw [if_pos hx, star_one]
    · rw [if_neg hx, star_zero]
  simp only [e1] at h7
  rw [sum_delta (p := fun x => (B.M x).p) k (ρ k a) fun y i => ∑ x, if i = ρ y x then B.sg y (.inl (ρ y x)) * B.sg y (.inr x) * υ y x * kap c (S y x l b) else 0] at h7
  rw [Finset.sum_eq_single a (fun x _ hx => if_neg fun h => hx (hρ k h).symm) (fun h => absurd (Finset.mem_univ _) h), if_pos rfl] at h7
  rw [← h7]
  have e2 : ∀ x : Fin T.N, ∑ i : Fin (B.M x).p, star (S x i k (ρ k a)) * (∑ y, if i = π x y then B.sg x (.inr (π x y)) * B.sg x (.inl y) * τ x y * kap c (if x = l ∧ (y : ℕ) = b then 1 else 0) else 0) =
      ∑ y : Fin (B.M x).p, (if x = l ∧ (y : ℕ) = b then 1 else 0) * (star (S x (π x y) k (ρ k a)) * (B.sg x (.inr (π x y)) * B.sg x (.inl y) * τ x y)) := by
    intro x
    simp only [Finset.mul_sum]
    rw [Finset.sum_comm]
    refine Finset.sum_congr rfl fun y _ => ?_
    rw [Finset.sum_eq_single (π x y)]
    · rw [if_pos rfl]
      by_cases hx : x = l ∧ (y : ℕ) = b
      · rw [if_pos hx, map_one]; ring
      · rw [if_neg hx, map_zero]; ring
    · intro i _ hi
      rw [if_neg hi, mul_zero]
    · intro h; exact absurd (Finset.mem_univ _) h
  rw [Finset.sum_congr rfl fun x _ => e2 x, sum_delta (p := fun x => (B.M x).p) l b fun x y => star (S x (π x y) k (ρ k a)) * (B.sg x (.inr (π x y)) * B.sg x (.inl y) * τ x y)]

/-- C189: the scattering matrix, if a symmetry maps incoming modes to incoming ones. -/
theorem C189_preserved (hS : SymMap c g T T.ham.val T.data u R Rm) (hT : T.Ok) (hE : eta g * E = E) (hB : BasisOk E B) {S : FullS} (h : IsSmatrix E B S)
    {π ρ : (l : Fin T.N) → Fin (B.M l).p → Fin (B.M l).p} {τ υ : (l : Fin T.N) → Fin (B.M l).p → ℂ}
    (hi : ∀ l i, ModeImage (B.M l) c (R l) (.inl i) (.inl (π l i)) (τ l i)) (ho : ∀ l i, ModeImage (B.M l) c (R l) (.inr i) (.inr (ρ l i)) (υ l i)) (hρ : ∀ l, Function.Injective (ρ l))
    (l k : Fin T.N) (a : Fin (B.M k).p) (b : Fin (B.M l).p) :
    S k (ρ k a) l (π l b) * (B.sg l (.inl (π l b)) * B.sg l (.inl b) * τ l b) = B.sg k (.inr (ρ k a)) * B.sg k (.inr a) * υ k a * kap c (S k a l b) := by
  obtain ⟨ψ, Ψ, hw⟩ := h l b b.2
  have hww := hS.wave hT hw.1
  rw [hE] at hww
  have hP : ∀ (x : Fin T.N) i, ModeImage (B.M x) c (R x) i (Sum.elim (fun i => .inl (π x i)) (fun i => .inr (ρ x i)) i) (Sum.elim (τ x) (υ x) i) := by
    intro x i
    rcases i with i | i
    · exact hi x i
    · exact ho x i
  have h7 := C189_out_of_in hT hB h hww (fun x => asymp_partner hB x (hP x) (hw.2 x)) k (ρ k a)
  simp only [Fintype.sum_sum_type, Sum.elim_inl, Sum.elim_inr, reduceCtorEq, if_false, Finset.sum_const_zero, add_zero, zero_add, Sum.inl.injEq, Sum.inr.injEq] at h7
  rw [Finset.sum_eq_single a (fun x _ hx => if_neg fun h => hx (hρ k h).symm) (fun h => absurd (Finset.mem_univ _) h), if_pos rfl] at h7
  rw [h7]
  have e2 : ∀ x : Fin T.N, ∑ i : Fin (B.M x).p, S k (ρ k a) x i * (∑ y, if i = π x y then B.sg x (.inl (π x y)) * B.sg x (.inl y) * τ x y * kap c (if x = l ∧ (y : ℕ) = b then 1 else 0) else 0) =
      ∑ y : Fin (B.M x).p, (if x = l ∧ (y : ℕ) = b then 1 else 0) * (S k (ρ k a) x (π x y) * (B.sg x (.inl (π x y)) * B.sg x (.inl y) * τ x y)) := by
    intro x
    simp only [Finset.mul_sum]
    rw [Finset.sum_comm]
    refine Finset.sum_congr rfl fun y _ => ?_
    rw [Finset.sum_eq_single (π x y)]
    · rw [if_pos rfl]
      by_cases hx : x = l ∧ (y : ℕ) = b
      · rw [if_pos hx, map_one]; ring
      · rw [if_neg hx, map_zero]; ring
    · intro i _ hi
      rw [if_neg hi, mul_zero]
    · intro h; exact absurd (Finset.mem_univ _) h
  rw [Finset.sum_congr rfl fun x _ => e2 x, sum_delta (p := fun x => (B.M x).p) l b fun x y => S k (ρ k a) x (π x y) * (B.sg x (.inl (π x y)) * B.sg x (.inl y) * τ x y)]

theorem img_img {n : ℕ} {R : Matrix (Fin n) (Fin n) ℂ} {σ : ℂ} (hsq : R * R.map (kap c) = σ • 1) (x : Fin n → ℂ) : CellMap.img c R (CellMap.img c R x) = σ • x := by
  unfold CellMap.img
  rw [kap_mulVec, Matrix.mulVec_mulVec, hsq, Matrix.smul_mulVec, Matrix.one_mulVec]
  congr 1
  ext i
  exact kap_kap c _

theorem image_back {n m : ℕ} {M : LeadModes n m} {R : Matrix (Fin n) (Fin n) ℂ} {σ : ℂ} (hsq : R * R.map (kap c) = σ • 1) {i j} (h : ModeImage M c R i j 1) : ModeImage M c R j i σ := by
  constructor
  · have h1 : CellMap.img c R (M.wf.col i) = M.wf.col j := by
      have := h.1
      rw [one_smul] at this
      exact this
    change CellMap.img c R (M.wf.col j) = _
    rw [← h1, img_img hsq]
  · rw [h.2, kap_kap]

/-- C189: if the outgoing modes are the time-reversed incoming modes (C156), the scattering matrix is symmetric for `T² = 1` and antisymmetric for `T² = -1`. -/
theorem C189_time_reversal (hS : SymMap true false T T.ham.val T.data u R Rm) (hT : T.Ok) (hB : BasisOk E B) (hsg : ∀ l i, B.sg l i = 1) {S : FullS} (h : IsSmatrix E B S) {σ : ℝ}
    (hsq : ∀ l, R l * (R l).map star = (σ : ℂ) • 1) (hp : ∀ l i, ModeImage (B.M l) true (R l) (.inl i) (.inr i) 1) (l k : Fin T.N) (a : Fin (B.M l).p) (b : Fin (B.M k).p) :
    S l a k b = σ * S k b l a := by
  have h1 := C189_reversed hS hT (by simp [eta]) hB h (π := fun _ i => i) (ρ := fun _ i => i) (τ := fun _ _ => 1) (υ := fun _ _ => σ) hp
    (fun l i => image_back (c := true) (hsq l) (hp l i)) (fun l => Function.injective_id) l k b a
  simp only [hsg, one_mul, mul_one, kap_true] at h1
  have h2 := congrArg star h1
  rw [star_star, star_mul', star_star] at h2
  rw [h2]
  congr 1
  exact conj_ofReal σ

/-- C189: if the outgoing modes are the chiral partners of the incoming modes (C157), the scattering matrix at zero energy is Hermitian (for `C² = 1`). -/
theorem C189_chiral (hS : SymMap false true T T.ham.val T.data u R Rm) (hT : T.Ok) {B : LeadBasis T} (hB : BasisOk 0 B) (hsg : ∀ l i, B.sg l i = 1) {S : FullS} (h : IsSmatrix 0 B S)
    (hsq : ∀ l, R l * R l = 1) (hp : ∀ l i, ModeImage (B.M l) false (R l) (.inl i) (.inr i) 1) (l k : Fin T.N) (a : Fin (B.M l).p) (b : Fin (B.M k).p) :
    star (S l a k b) = S k b l a := by
  have hsq' : ∀ l, R l * (R l).map (kap false) = (1 : ℂ) • 1 := fun l => by
    rw [one_smul]
    exact hsq l
  have h1 := C189_reversed hS hT (by simp) hB h (π := fun _ i => i) (ρ := fun _ i => i) (τ := fun _ _ => 1) (υ := fun _ _ => 1) hp
    (fun l i => image_back (hsq' l) (hp l i)) (fun l => Function.injective_id) l k b a
  simp only [hsg, one_mul, mul_one, kap_false] at h1
  exact h1

/-- C189: if particle-hole symmetry maps each mode to a mode (`π` for the incoming ones, `ρ` for the outgoing ones), with signs `τ`, `υ` (C158), the elements of the scattering matrix at
zero energy are complex conjugates of each other. -/
theorem C189_particle_hole (hS : SymMap true true T T.ham.val T.data u R Rm) (hT : T.Ok) {B : LeadBasis T} (hB : BasisOk 0 B) (hsg : ∀ l i, B.sg l i = 1) {S : FullS} (h : IsSmatrix 0 B S)
    {π ρ : (l : Fin T.N) → Fin (B.M l).p → Fin (B.M l).p} {τ υ : (l : Fin T.N) → Fin (B.M l).p → ℝ}
    (hi : ∀ l i, ModeImage (B.M l) true (R l) (.inl i) (.inl (π l i)) (τ l i)) (ho : ∀ l i, ModeImage (B.M l) true (R l) (.inr i) (.inr (ρ l i)) (υ l i)) (hρ : ∀ l, Function.Injective (ρ l))
    (hτ : ∀ l i, τ l i = 1 ∨ τ l i = -1) (l k : Fin T.N) (a : Fin (B.M l).p) (b : Fin (B.M k).p) : S l (ρ l a) k (π k b) = υ l a * τ k b * star (S l a k b) := by
  have h1 := C189_preserved hS hT (by simp) hB h hi ho hρ k l a b
  simp only [hsg, one_mul, kap_true] at h1
  have h2 : (τ k b : ℂ) * τ k b = 1 := by
    rcases hτ k b with h | h <;> rw [h] <;> simp
  linear_combination (τ k b : ℂ) * h1 - S l (ρ l a) k (π k b) * h2

/-- C189: if all modes are their own particle-hole partners (`P² = 1`, momenta 0 and π), the scattering matrix at zero energy is real. -/
theorem C189_majorana (hS : SymMap true true T T.ham.val T.data u R Rm) (hT : T.Ok) {B : LeadBasis T} (hB : BasisOk 0 B) (hsg : ∀ l i, B.sg l i = 1) {S : FullS} (h : IsSmatrix 0 B S)
    (hp : ∀ l i, ModeImage (B.M l) true (R l) i i 1) (l k : Fin T.N) (a : Fin (B.M l).p) (b : Fin (B.M k).p) : star (S l a k b) = S l a k b := by
  have h1 := C189_particle_hole hS hT hB hsg h (π := fun _ i => i) (ρ := fun _ i => i) (τ := fun _ _ => 1) (υ := fun _ _ => 1) (fun l i => by simpa using hp l (.inl i))
    (fun l i => by simpa using hp l (.inr i)) (fun l => Function.injective_id) (fun _ _ => .inl rfl) l k a b
  rw [ofReal_one, one_mul, one_mul] at h1
  exact h1.symm

end Kwant.Scatt
