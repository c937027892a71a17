import Verif.Scatt.SymWave
import Verif.Scatt.Regular

/-!
C188: what a symmetry does to the scattering matrix and to the transmissions.
-/

set_option linter.unusedSectionVars false

namespace Kwant.Scatt
open Finset Complex Filter
open Matrix hiding mulVec
open Kwant.Leads hiding Modes
open Kwant.Solver hiding transmission LErr mulVec

/-- The block of the scattering matrix that leads from lead `k` to lead `l`, with `p` outgoing and `q` incoming modes. -/
def blk (p q : ℕ) (S : FullS) (l k : ℕ) : Matrix (Fin p) (Fin q) ℂ := of fun a b => S l a k b

theorem frob_trace {p q : ℕ} (M : Matrix (Fin p) (Fin q) ℂ) : ((∑ a, ∑ b, normSq (M a b) : ℝ) : ℂ) = trace (M * Mᴴ) := by
  simp only [trace, diag_apply, mul_apply, conjTranspose_apply, ofReal_sum]
  refine Finset.sum_congr rfl fun a _ => Finset.sum_congr rfl fun b _ => ?_
  rw [star_def, mul_comm, normSq_eq_conj_mul_self]

theorem frob_unitary {p q p' q' : ℕ} {U : Matrix (Fin p') (Fin p) ℂ} {M : Matrix (Fin p) (Fin q) ℂ} {V : Matrix (Fin q) (Fin q') ℂ} (hU : Uᴴ * U = 1) (hV : V * Vᴴ = 1) :
    ∑ a, ∑ b, normSq ((U * M * V) a b) = ∑ a, ∑ b, normSq (M a b) := by
  have h1 : (((∑ a, ∑ b, normSq ((U * M * V) a b) : ℝ)) : ℂ) = ((∑ a, ∑ b, normSq (M a b) : ℝ) : ℂ) := by
    rw [frob_trace, frob_trace, conjTranspose_mul, conjTranspose_mul]
    have h2 : U * M * V * (Vᴴ * (Mᴴ * Uᴴ)) = U * (M * Mᴴ * Uᴴ) := by
      have h3 : U * M * V * (Vᴴ * (Mᴴ * Uᴴ)) = U * M * (V * Vᴴ) * (Mᴴ * Uᴴ) := by simp only [Matrix.mul_assoc]
      rw [h3, hV, Matrix.mul_one]
      simp only [Matrix.mul_assoc]
    rw [h2, trace_mul_comm, Matrix.mul_assoc, hU, Matrix.mul_one]
  exact_mod_cast h1

theorem frob_kap {p q : ℕ} (c : Bool) (M : Matrix (Fin p) (Fin q) ℂ) : ∑ a, ∑ b, normSq ((M.map (kap c)) a b) = ∑ a, ∑ b, normSq (M a b) :=
  Finset.sum_congr rfl fun a _ => Finset.sum_congr rfl fun b _ => kap_normSq c _

theorem frob_conjTranspose {p q : ℕ} (M : Matrix (Fin p) (Fin q) ℂ) : ∑ b, ∑ a, normSq (Mᴴ b a) = ∑ a, ∑ b, normSq (M a b) := by
  rw [Finset.sum_comm]
  refine Finset.sum_congr rfl fun a _ => Finset.sum_congr rfl fun b _ => ?_
  rw [conjTranspose_apply, star_def, normSq_conj]

theorem trans_blk {T : Open} (B : LeadBasis T) (S : FullS) (l k : Fin T.N) : trans B.num S l k = ∑ a, ∑ b, normSq (blk (B.M l).p (B.M k).p S l k a b) := by
  have hnum : ∀ l : Fin T.N, B.num l = (B.M l).p := fun l => dif_pos l.2
  unfold Solver.trans
  rw [hnum, hnum, Finset.sum_range]
  refine Finset.sum_congr rfl fun a _ => ?_
  rw [Finset.sum_range]
  rfl

variable {T : Open} {E : ℝ} {c g : Bool} {H : ℕ → ℕ → ℂ} {L : (l : Fin T.N) → LeadHam (T.lead l).n (T.lead l).m} {u : ℕ → ℕ → ℂ}
  {R : (l : Fin T.N) → Matrix (Fin (T.lead l).n) (Fin (T.lead l).n) ℂ} {Rm : (l : Fin T.N) → Matrix (Fin (T.lead l).m) (Fin (T.lead l).m) ℂ}
  {B : LeadBasis T} {B' : LeadBasis (T.withHam H L)}

/-- The modes of the second system, as modes of the leads of the first one. -/
abbrev mod' (B' : LeadBasis (T.withHam H L)) (l : Fin T.N) : LeadModes (T.lead l).n (T.lead l).m := B'.M l

/-- The amplitudes of the image of a wave depend by a unitary matrix on the amplitudes of the wave. -/
theorem amp_map (hS : SymMap c g T H L u R Rm) (hB : BasisOk E B) (hB' : BasisOk (eta g * E) B') (l : Fin T.N) :
    ∃ A : Matrix (Fin (mod' B' l).p ⊕ Fin (mod' B' l).p) (Fin (B.M l).p ⊕ Fin (B.M l).p) ℂ, Aᴴ * A = 1 ∧ A * Aᴴ = 1 ∧ (∀ j i, A j i ≠ 0 → (mod' B' l).vel j = eps c g * (B.M l).vel i) ∧
      (B.M l).p = (mod' B' l).p ∧
      ∀ a Ψ, Asymp (B.M l) (B.sg l) a Ψ → Asymp (mod' B' l) (B'.sg l) (A *ᵥ fun i => kap c (a i)) (fun j => CellMap.img c (R l) (Ψ j)) := by
  obtain ⟨D, h1, h2, h3, h4, h5⟩ := mode_map (hS.cellMap l E) (hB.spec l) (hB'.spec l)
  have hs := fun i => sg_kap (c := c) hB l i
  have hs' : ∀ j, B'.sg l j * B'.sg l j = 1 := fun j => (sg_kap (c := c) hB' l j).2
  have hst : ∀ i, star (B.sg l i) = B.sg l i := fun i => (sg_kap (c := true) hB l i).1
  have hst' : ∀ j, star (B'.sg l j) = B'.sg l j := fun j => (sg_kap (c := true) hB' l j).1
  let A : Matrix (Fin (mod' B' l).p ⊕ Fin (mod' B' l).p) (Fin (B.M l).p ⊕ Fin (B.M l).p) ℂ := of fun j i => B'.sg l j * D j i * kap c (B.sg l i)
  have hA1 : Aᴴ * A = 1 := by
    ext i i'
    have h6 := congrFun (congrFun h3 i) i'
    rw [mul_apply, one_apply] at h6 ⊢
    simp only [conjTranspose_apply, A, of_apply, (hs _).1, star_mul, hst, hst'] at h6 ⊢
    have h7 : ∀ j, B.sg l i * (star (D j i) * B'.sg l j) * (B'.sg l j * D j i' * B.sg l i') = B.sg l i * B.sg l i' * (star (D j i) * D j i') := by
      intro j
      linear_combination (B.sg l i * B.sg l i' * (star (D j i) * D j i')) * hs' j
    rw [Finset.sum_congr rfl fun j _ => h7 j, ← Finset.mul_sum, h6]
    by_cases hi : i = i'
    · subst hi
      rw [if_pos rfl, mul_one, (hs i).2]
    · rw [if_neg hi, mul_zero]
  have hA2 : A * Aᴴ = 1 := (mul_eq_one_comm_of_card_eq _ _ ℂ h5).mp hA1
  refine ⟨A, hA1, hA2, ?_, ?_, ?_⟩
  · intro j i hji
    refine (h2 j i fun h0 => hji ?_).2
    simp only [A, of_apply]
    rw [h0]
    simp
  · simp only [Fintype.card_sum, Fintype.card_fin] at h5
    have : (mod' B' l).p = (B'.M l).p := rfl
    omega
  · intro a Ψ ha
    exact asymp_img ha (R l) h1 (fun j i hz => (h2 j i hz).1) hs'

/-- If the velocities are reversed, incoming and outgoing modes are exchanged. -/
theorem amp_flip (hS : SymMap c g T H L u R Rm) (hB : BasisOk E B) (hB' : BasisOk (eta g * E) B') (hf : c ≠ g) (l : Fin T.N) :
    ∃ U V : Matrix (Fin (mod' B' l).p) (Fin (B.M l).p) ℂ, Uᴴ * U = 1 ∧ U * Uᴴ = 1 ∧ Vᴴ * V = 1 ∧ V * Vᴴ = 1 ∧ (B.M l).p = (mod' B' l).p ∧
      ∀ a Ψ, Asymp (B.M l) (B.sg l) a Ψ → Asymp (mod' B' l) (B'.sg l) (Sum.elim (V *ᵥ fun i => kap c (a (.inr i))) (U *ᵥ fun i => kap c (a (.inl i)))) (fun j => CellMap.img c (R l) (Ψ j)) := by
  obtain ⟨A, h1, h2, h3, h4, h5⟩ := amp_map hS hB hB' l
  have he : eps c g = -1 := by
    cases c <;> cases g <;> simp_all [eps, eta]
  have z11 : A.toBlocks₁₁ = 0 := by
    ext i j
    by_contra hz
    have h6 := h3 (.inl i) (.inl j) hz
    have h7 := hB.incoming l j
    have h8 : (mod' B' l).vel (.inl i) < 0 := hB'.incoming l i
    rw [h6, he] at h8
    linarith
  have z22 : A.toBlocks₂₂ = 0 := by
    ext i j
    by_contra hz
    have h6 := h3 (.inr i) (.inr j) hz
    have h7 := hB.outgoing l j
    have h8 : 0 < (mod' B' l).vel (.inr i) := hB'.outgoing l i
    rw [h6, he] at h8
    linarith
  have hA : A = fromBlocks 0 A.toBlocks₁₂ A.toBlocks₂₁ 0 := by
    conv_lhs => rw [← fromBlocks_toBlocks A, z11, z22]
  generalize A.toBlocks₁₂ = V at hA
  generalize A.toBlocks₂₁ = U at hA
  subst hA
  rw [fromBlocks_conjTranspose, fromBlocks_multiply, ← fromBlocks_one, fromBlocks_inj] at h1 h2
  simp only [conjTranspose_zero, Matrix.mul_zero, Matrix.zero_mul, add_zero, zero_add, true_and] at h1 h2
  refine ⟨U, V, h1.1, h2.2, h1.2, h2.1, h4, ?_⟩
  intro a Ψ ha
  have h6 := h5 a Ψ ha
  rw [fromBlocks_mulVec] at h6
  simp only [Matrix.zero_mulVec, add_zero, zero_add] at h6
  exact h6

/-- If the velocities are preserved, incoming modes are mapped to incoming ones. -/
theorem amp_noflip (hS : SymMap c g T H L u R Rm) (hB : BasisOk E B) (hB' : BasisOk (eta g * E) B') (hf : c = g) (l : Fin T.N) :
    ∃ U V : Matrix (Fin (mod' B' l).p) (Fin (B.M l).p) ℂ, Uᴴ * U = 1 ∧ U * Uᴴ = 1 ∧ Vᴴ * V = 1 ∧ V * Vᴴ = 1 ∧ (B.M l).p = (mod' B' l).p ∧
      ∀ a Ψ, Asymp (B.M l) (B.sg l) a Ψ → Asymp (mod' B' l) (B'.sg l) (Sum.elim (V *ᵥ fun i => kap c (a (.inl i))) (U *ᵥ fun i => kap c (a (.inr i)))) (fun j => CellMap.img c (R l) (Ψ j)) := by
  obtain ⟨A, h1, h2, h3, h4, h5⟩ := amp_map hS hB hB' l
  have he : eps c g = 1 := by
    cases c <;> cases g <;> simp_all [eps, eta]
  have z12 : A.toBlocks₁₂ = 0 := by
    ext i j
    by_contra hz
    have h6 := h3 (.inl i) (.inr j) hz
    have h7 := hB.outgoing l j
    have h8 : (mod' B' l).vel (.inl i) < 0 := hB'.incoming l i
    rw [h6, he] at h8
    linarith
  have z21 : A.toBlocks₂₁ = 0 := by
    ext i j
    by_contra hz
    have h6 := h3 (.inr i) (.inl j) hz
    have h7 := hB.incoming l j
    have h8 : 0 < (mod' B' l).vel (.inr i) := hB'.outgoing l i
    rw [h6, he] at h8
    linarith
  have hA : A = fromBlocks A.toBlocks₁₁ 0 0 A.toBlocks₂₂ := by
    conv_lhs => rw [← fromBlocks_toBlocks A, z12, z21]
  generalize A.toBlocks₁₁ = V at hA
  generalize A.toBlocks₂₂ = U at hA
  subst hA
  rw [fromBlocks_conjTranspose, fromBlocks_multiply, ← fromBlocks_one, fromBlocks_inj] at h1 h2
  simp only [conjTranspose_zero, Matrix.mul_zero, Matrix.zero_mul, add_zero, zero_add, true_and] at h1 h2
  refine ⟨U, V, h1.2, h2.2, h1.1, h2.1, h4, ?_⟩
  intro a Ψ ha
  have h6 := h5 a Ψ ha
  rw [fromBlocks_mulVec] at h6
  simp only [Matrix.zero_mulVec, add_zero, zero_add] at h6
  exact h6

/-- C188: a symmetry preserves the number of modes. -/
theorem C188_modes (hS : SymMap c g T H L u R Rm) (hB : BasisOk E B) (hB' : BasisOk (eta g * E) B') (l : Fin T.N) : B'.num l = B.num l := by
  obtain ⟨A, _, _, _, h4, _⟩ := amp_map hS hB hB' l
  have e1 : B.num l = (B.M l).p := dif_pos l.2
  have e2 : B'.num l = (mod' B' l).p := dif_pos l.2
  rw [e1, e2, h4]

/-- A sum with the amplitudes of the incoming wave. -/
theorem sum_delta {N : ℕ} {p : Fin N → ℕ} (k : Fin N) (b : Fin (p k)) (f : (l : Fin N) → Fin (p l) → ℂ) :
    ∑ l, ∑ j : Fin (p l), (if l = k ∧ (j : ℕ) = b then 1 else 0) * f l j = f k b := by
  rw [Finset.sum_eq_single k, Finset.sum_eq_single b]
  · rw [if_pos ⟨rfl, rfl⟩, one_mul]
  · intro j _ hj
    rw [if_neg (fun h => hj (Fin.ext h.2)), zero_mul]
  · intro h; exact absurd (Finset.mem_univ b) h
  · intro l _ hl
    refine Finset.sum_eq_zero fun j _ => ?_
    rw [if_neg (fun h => hl h.1), zero_mul]
  · intro h; exact absurd (Finset.mem_univ k) h

/-- C188: a symmetry that reverses the velocities (time reversal, chiral symmetry) relates each block of the scattering matrix to the block of the opposite direction. -/
theorem C188_smatrix_reversed (hS : SymMap c g T H L u R Rm) (hT : T.Ok) (hT' : (T.withHam H L).Ok) (hB : BasisOk E B) (hB' : BasisOk (eta g * E) B') (hf : c ≠ g) {S S' : FullS}
    (h : IsSmatrix E B S) (h' : IsSmatrix (eta g * E) B' S') : ∃ U V : (l : Fin T.N) → Matrix (Fin (mod' B' l).p) (Fin (B.M l).p) ℂ,
      (∀ l, (U l)ᴴ * U l = 1 ∧ U l * (U l)ᴴ = 1 ∧ (V l)ᴴ * V l = 1 ∧ V l * (V l)ᴴ = 1) ∧
      ∀ l k : Fin T.N, blk (mod' B' l).p (mod' B' k).p S' l k = U l * ((blk (B.M k).p (B.M l).p S k l).map (kap c))ᴴ * (V k)ᴴ := by
  choose U V h1 h2 h3 h4 h5 h6 using fun l => amp_flip hS hB hB' hf l
  refine ⟨U, V, fun l => ⟨h1 l, h2 l, h3 l, h4 l⟩, fun l k => ?_⟩
  have key : (blk (mod' B' l).p (mod' B' k).p S' l k)ᴴ * U l = V k * (blk (B.M k).p (B.M l).p S k l).map (kap c) := by
    ext b b'
    obtain ⟨ψ', Ψ', hw'⟩ := h' k b b.2
    obtain ⟨ψ, Ψ, hw⟩ := h l b' b'.2
    have h7 := conservation hT' hB' hw'.1 (hS.wave hT hw.1) hw'.2 (fun x => h6 x _ _ (hw.2 x))
    simp only [Sum.elim_inl, Sum.elim_inr] at h7
    change (∑ x : Fin T.N, ∑ i : Fin (mod' B' x).p, star (S' x i k b) * (U x *ᵥ fun i => kap c (if x = l ∧ (i : ℕ) = b' then 1 else 0)) i) =
      ∑ x : Fin T.N, ∑ i : Fin (mod' B' x).p, star (if x = k ∧ (i : ℕ) = b then (1 : ℂ) else 0) * (V x *ᵥ fun i => kap c (S x i l b')) i at h7
    have e1 : ∀ x : Fin T.N, ∀ i : Fin (mod' B' x).p, star (if x = k ∧ (i : ℕ) = b then (1 : ℂ) else 0) = if x = k ∧ (i : ℕ) = b then 1 else 0 := by
      intro x i
      by_cases hx : x = k ∧ (i : ℕ) = b
      · rw [if_pos hx, star_one]
      · rw [if_neg hx, star_zero]
    simp only [e1] at h7
    rw [sum_delta (p := fun x => (mod' B' x).p) k b fun x i => (V x *ᵥ fun i => kap c (S x i l b')) i] at h7
    have e2 : ∀ x : Fin T.N, ∑ i : Fin (mod' B' x).p, star (S' x i k b) * (U x *ᵥ fun i => kap c (if x = l ∧ (i : ℕ) = b' then 1 else 0)) i =
        ∑ i' : Fin (B.M x).p, (if x = l ∧ (i' : ℕ) = b' then 1 else 0) * ∑ i : Fin (mod' B' x).p, star (S' x i k b) * U x i i' := by
      intro x
      simp only [Matrix.mulVec, dotProduct, Finset.mul_sum]
      rw [Finset.sum_comm]
      refine Finset.sum_congr rfl fun i' _ => Finset.sum_congr rfl fun i _ => ?_
      by_cases hx : x = l ∧ (i' : ℕ) = b'
      · rw [if_pos hx, map_one]; ring
      · rw [if_neg hx, map_zero]; ring
    rw [Finset.sum_congr rfl fun x _ => e2 x, sum_delta (p := fun x => (B.M x).p) l b' fun x i' => ∑ i : Fin (mod' B' x).p, star (S' x i k b) * U x i i'] at h7
    exact h7
  have h8 := congrArg (fun X => X * (U l)ᴴ) key
  simp only [Matrix.mul_assoc] at h8
  rw [h2 l, Matrix.mul_one] at h8
  have h9 := congrArg conjTranspose h8
  rw [conjTranspose_conjTranspose, conjTranspose_mul, conjTranspose_mul, conjTranspose_conjTranspose] at h9
  exact h9

/-- C188: a symmetry that preserves the velocities (a unitary symmetry, particle-hole symmetry) relates each block of the scattering matrix to the same block. -/
theorem C188_smatrix_preserved (hS : SymMap c g T H L u R Rm) (hT : T.Ok) (hT' : (T.withHam H L).Ok) (hB : BasisOk E B) (hB' : BasisOk (eta g * E) B') (hf : c = g) {S S' : FullS}
    (h : IsSmatrix E B S) (h' : IsSmatrix (eta g * E) B' S') : ∃ U V : (l : Fin T.N) → Matrix (Fin (mod' B' l).p) (Fin (B.M l).p) ℂ,
      (∀ l, (U l)ᴴ * U l = 1 ∧ U l * (U l)ᴴ = 1 ∧ (V l)ᴴ * V l = 1 ∧ V l * (V l)ᴴ = 1) ∧
      ∀ l k : Fin T.N, blk (mod' B' l).p (mod' B' k).p S' l k = U l * (blk (B.M l).p (B.M k).p S l k).map (kap c) * (V k)ᴴ := by
  choose U V h1 h2 h3 h4 h5 h6 using fun l => amp_noflip hS hB hB' hf l
  refine ⟨U, V, fun l => ⟨h1 l, h2 l, h3 l, h4 l⟩, fun l k => ?_⟩
  have key : U l * (blk (B.M l).p (B.M k).p S l k).map (kap c) = blk (mod' B' l).p (mod' B' k).p S' l k * V k := by
    ext a b'
    obtain ⟨ψ, Ψ, hw⟩ := h k b' b'.2
    -- the relation for each incoming mode of the second system
    have h7 : ∀ (x : Fin T.N) (b : Fin (mod' B' x).p), ∑ y : Fin T.N, ∑ i : Fin (mod' B' y).p, star (S' y i x b) * (U y *ᵥ fun i => kap c (S y i k b')) i =
        if x = k then ∑ i : Fin (B.M x).p, V x b i * (if (i : ℕ) = b' then 1 else 0) else 0 := by
      intro x b
      obtain ⟨ψ', Ψ', hw'⟩ := h' x b b.2
      have h7 := conservation hT' hB' hw'.1 (hS.wave hT hw.1) hw'.2 (fun x => h6 x _ _ (hw.2 x))
      simp only [Sum.elim_inl, Sum.elim_inr] at h7
      change (∑ y : Fin T.N, ∑ i : Fin (mod' B' y).p, star (S' y i x b) * (U y *ᵥ fun i => kap c (S y i k b')) i) =
        ∑ y : Fin T.N, ∑ i : Fin (mod' B' y).p, star (if y = x ∧ (i : ℕ) = b then (1 : ℂ) else 0) * (V y *ᵥ fun i => kap c (if y = k ∧ (i : ℕ) = b' then 1 else 0)) i at h7
      have e1 : ∀ y : Fin T.N, ∀ i : Fin (mod' B' y).p, star (if y = x ∧ (i : ℕ) = b then (1 : ℂ) else 0) = if y = x ∧ (i : ℕ) = b then 1 else 0 := by
        intro y i
        by_cases hx : y = x ∧ (i : ℕ) = b
        · rw [if_pos hx, star_one]
        · rw [if_neg hx, star_zero]
      simp only [e1] at h7
      rw [sum_delta (p := fun x => (mod' B' x).p) x b fun y i => (V y *ᵥ fun i => kap c (if y = k ∧ (i : ℕ) = b' then 1 else 0)) i] at h7
      rw [h7]
      simp only [Matrix.mulVec, dotProduct]
      by_cases hx : x = k
      · rw [if_pos hx]
        refine Finset.sum_congr rfl fun i _ => ?_
        by_cases hi : (i : ℕ) = b'
        · rw [if_pos ⟨hx, hi⟩, if_pos hi, map_one]
        · rw [if_neg (fun h => hi h.2), if_neg hi, map_zero]
      · rw [if_neg hx]
        refine Finset.sum_eq_zero fun i _ => ?_
        rw [if_neg (fun h => hx h.1), map_zero, mul_zero]
    -- invert the unitary matrix
    have hun := (C116_unitary hT' hB' h').1
    have hnum : ∀ x : Fin T.N, B'.num x = (mod' B' x).p := fun x => dif_pos x.2
    have hun2 : ∀ (y : Fin T.N) (i : Fin (mod' B' y).p), ∑ x : Fin T.N, ∑ b : Fin (mod' B' x).p, S' l a x b * star (S' y i x b) = if y = l ∧ (i : ℕ) = a then 1 else 0 := by
      intro y i
      have h8 := hun l l.2 a (by rw [hnum]; exact a.2) y y.2 i (by rw [hnum]; exact i.2)
      change ∑ x ∈ range T.N, _ = _ at h8
      rw [Finset.sum_range] at h8
      simp only [hnum] at h8
      simp only [Finset.sum_range] at h8
      rw [h8]
      by_cases hy : y = l ∧ (i : ℕ) = a
      · rw [if_pos hy, if_pos ⟨by rw [hy.1], hy.2.symm⟩]
      · rw [if_neg hy, if_neg (fun h => hy ⟨(Fin.ext h.1).symm, h.2.symm⟩)]
    have h9 : ∑ x : Fin T.N, ∑ b : Fin (mod' B' x).p, S' l a x b * (∑ y : Fin T.N, ∑ i : Fin (mod' B' y).p, star (S' y i x b) * (U y *ᵥ fun i => kap c (S y i k b')) i) =
        (U l *ᵥ fun i => kap c (S l i k b')) a := by
      rw [← sum_delta (p := fun x => (mod' B' x).p) l a fun y i => (U y *ᵥ fun i => kap c (S y i k b')) i]
      simp only [← hun2, Finset.mul_sum, Finset.sum_mul]
      have e3 : ∀ x : Fin T.N, ∑ b : Fin (mod' B' x).p, ∑ y : Fin T.N, ∑ i : Fin (mod' B' y).p, S' l a x b * (star (S' y i x b) * (U y *ᵥ fun i => kap c (S y i k b')) i) =
          ∑ y : Fin T.N, ∑ i : Fin (mod' B' y).p, ∑ b : Fin (mod' B' x).p, S' l a x b * star (S' y i x b) * (U y *ᵥ fun i => kap c (S y i k b')) i := by
        intro x
        rw [Finset.sum_comm]
        refine Finset.sum_congr rfl fun y _ => ?_
        rw [Finset.sum_comm]
        exact Finset.sum_congr rfl fun i _ => Finset.sum_congr rfl fun b _ => by ring
      rw [Finset.sum_congr rfl fun x _ => e3 x, Finset.sum_comm]
      refine Finset.sum_congr rfl fun y _ => ?_
      rw [Finset.sum_comm]
    simp only [h7] at h9
    rw [Finset.sum_eq_single k] at h9
    · simp only [if_true] at h9
      rw [mul_apply, mul_apply]
      refine Eq.trans h9.symm ?_
      refine Finset.sum_congr rfl fun b _ => ?_
      rw [Finset.sum_eq_single b']
      · rw [if_pos rfl, mul_one]
        rfl
      · intro i _ hi
        rw [if_neg (fun h => hi (Fin.ext h)), mul_zero]
      · intro h; exact absurd (Finset.mem_univ b') h
    · intro x _ hx
      refine Finset.sum_eq_zero fun b _ => ?_
      rw [if_neg hx, mul_zero]
    · intro h; exact absurd (Finset.mem_univ k) h
  have h8 := congrArg (fun X => X * (V k)ᴴ) key
  rw [Matrix.mul_assoc (blk _ _ _ _ _), h4 k, Matrix.mul_one] at h8
  exact h8.symm

/-- C188: with time reversal or chiral symmetry, the transmission from `k` to `l` in the second system is the transmission from `l` to `k` in the first one. -/
theorem C188_reversed (hS : SymMap c g T H L u R Rm) (hT : T.Ok) (hT' : (T.withHam H L).Ok) (hB : BasisOk E B) (hB' : BasisOk (eta g * E) B') (hf : c ≠ g) {S S' : FullS}
    (h : IsSmatrix E B S) (h' : IsSmatrix (eta g * E) B' S') (l k : Fin T.N) : trans B'.num S' l k = trans B.num S k l := by
  obtain ⟨U, V, hu, hUV⟩ := C188_smatrix_reversed hS hT hT' hB hB' hf h h'
  have h1 := trans_blk B' S' l k
  have h2 := trans_blk B S k l
  rw [h2, ← frob_kap c, ← frob_conjTranspose, ← frob_unitary (hu l).1 (V := (V k)ᴴ) (by rw [conjTranspose_conjTranspose]; exact (hu k).2.2.1), ← hUV l k]
  exact h1

/-- C188: with a unitary or a particle-hole symmetry, the transmissions of the two systems agree. -/
theorem C188_preserved (hS : SymMap c g T H L u R Rm) (hT : T.Ok) (hT' : (T.withHam H L).Ok) (hB : BasisOk E B) (hB' : BasisOk (eta g * E) B') (hf : c = g) {S S' : FullS}
    (h : IsSmatrix E B S) (h' : IsSmatrix (eta g * E) B' S') (l k : Fin T.N) : trans B'.num S' l k = trans B.num S l k := by
  obtain ⟨U, V, hu, hUV⟩ := C188_smatrix_preserved hS hT hT' hB hB' hf h h'
  have h1 := trans_blk B' S' l k
  have h2 := trans_blk B S l k
  rw [h2, ← frob_kap c, ← frob_unitary (hu l).1 (V := (V k)ᴴ) (by rw [conjTranspose_conjTranspose]; exact (hu k).2.2.1), ← hUV l k]
  exact h1

end Kwant.Scatt
