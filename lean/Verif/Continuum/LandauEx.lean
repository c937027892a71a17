import Verif.Continuum.LandauMain

/-! C138, C139: concrete cases, and what the signs of the field and of the third momentum do. -/

set_option linter.unusedSectionVars false

namespace Kwant.Continuum
open Matrix

variable {m : ℕ}

/-- C139.  For a negative field, in a system with one orbital: what is built is the complex conjugate of the Hamiltonian for that field, so that it has the right energies.
For every one-orbital Hamiltonian, no matter what it does in the normal direction. -/
theorem landau_negative_one_orbital_partial (kpar : Axis → ℂ) (hk : ∀ c, star (kpar c) = kpar c) (xpar : Pos) (ax : Axis) (gs B : ℝ) (ham : Fin 1 → Fin 1 → List LTerm)
    (hh : LandauHermitian ham) (d : List (LKey × (Pos → Pos → Matrix (Fin 1) (Fin 1) ℂ))) (hd : d.Perm (landauDict kpar ax B ham)) (N : ℕ)
    (M : ℤ × ℕ → ℤ × ℕ → Matrix (Fin 1) (Fin 1) ℂ) (hM : ∀ s s', s.2 < N → s'.2 < N → (landauSystem B xpar ax gs d).element s s' = some (M s s'))
    (ψ : Pos → ℕ → Fin 1 → ℂ) (hψ : ∀ y k, N ≤ k → ψ y k = 0) (z : ℤ) (n : ℕ) (hn : n < N) (hB : B < 0) :
    ∑ᶠ z' : ℤ, ∑ n' : Fin N, (M (z, n) (z', n')).map star *ᵥ ψ (zpos xpar ax gs z') n' =
      fun _ => ((ham 0 0).map fun t => landauOp kpar ax B (stepOf (rest t) fun _ => gs) t (fun y k => ψ y k 0) (zpos xpar ax gs z) n).sum := by
  have := landau_sum kpar ax B ham rest kword xpar gs N z n ψ hψ (fun z' n' => (M (z, n) (z', n')).map star) ?_
  · rw [this]
    funext i
    simp only [landauOp_split, Finset.univ_unique, Finset.sum_singleton, Fin.default_eq_zero, Fin.isValue]
    rw [Subsingleton.elim i 0]
  · intro z' n' i j
    have h1 := landau_hermitian kpar hk xpar ax gs B ham hh d hd N M hM (fun _ _ _ => 0) (fun _ _ _ => rfl) (z', n') (z, n) n'.2 hn
    rw [Subsingleton.elim i 0, Subsingleton.elim j 0, Matrix.map_apply, h1, Matrix.conjTranspose_apply, star_star]
    rw [element_value kpar hk xpar ax gs B ham hh d hd _ _ _ (hM (z', n') (z, n) n'.2 hn)]
    unfold gVal kSeen
    simp only [hB, if_true]

/-- `k_z`. -/
def exKz : Fin 1 → Fin 1 → List LTerm := fun _ _ => [[.other (.mom 2 1)]]

theorem exKz_hermitian : LandauHermitian exKz := by
  intro i j
  exact ⟨exKz i j, .refl _, .cons ⟨rfl, .refl _⟩ .nil⟩

/-- C138, counterexample.  The system for the Hamiltonian `k_z` is the discretization of `-k_z`. -/
theorem landau_kz_sign (kpar : Axis → ℂ) (hk : ∀ c, star (kpar c) = kpar c) (xpar : Pos) (gs B : ℝ) (hB : 0 ≤ B)
    (d : List (LKey × (Pos → Pos → Matrix (Fin 1) (Fin 1) ℂ))) (hd : d.Perm (landauDict kpar 2 B exKz)) (N : ℕ)
    (M : ℤ × ℕ → ℤ × ℕ → Matrix (Fin 1) (Fin 1) ℂ) (hM : ∀ s s', s.2 < N → s'.2 < N → (landauSystem B xpar 2 gs d).element s s' = some (M s s'))
    (ψ : Pos → ℕ → Fin 1 → ℂ) (hψ : ∀ y k, N ≤ k → ψ y k = 0) (z : ℤ) (n : ℕ) (hn : n < N) :
    ∑ᶠ z' : ℤ, ∑ n' : Fin N, M (z, n) (z', n') *ᵥ ψ (zpos xpar 2 gs z') n' = fun _ => - kDisc 2 gs (fun y => ψ y n 0) (zpos xpar 2 gs z) := by
  rw [landau_operator_transposed kpar hk xpar 2 gs B exKz exKz_hermitian d hd N M hM ψ hψ z n hn hB]
  funext i
  simp [exKz, landauOp, transL, kword, rest, transTerm, discOp, degree, stepOf]

/-- `sigma_x k_x + sigma_y k_y`, a Dirac Hamiltonian. -/
noncomputable def exDirac : Fin 2 → Fin 2 → List LTerm :=
  ![![[], [[.k .k0 1], [.k .k1 1, .other (.fn fun _ => -Complex.I)]]],
    ![[[.k .k0 1], [.k .k1 1, .other (.fn fun _ => Complex.I)]], []]]

theorem exDirac_hermitian : LandauHermitian exDirac := by
  intro i j
  fin_cases i <;> fin_cases j
  · exact ⟨[], .refl _, .nil⟩
  · refine ⟨exDirac 1 0, .refl _, ?_⟩
    refine .cons ⟨rfl, .refl _⟩ (.cons ⟨rfl, ?_⟩ .nil)
    simp only [rest, adjL, List.reverse_cons, List.reverse_nil, List.nil_append, List.cons_append, List.map_cons, List.map_nil]
    simp only [star_neg, Complex.star_def, Complex.conj_I, neg_neg]
    exact .refl _
  · refine ⟨exDirac 0 1, .refl _, ?_⟩
    refine .cons ⟨rfl, .refl _⟩ (.cons ⟨rfl, ?_⟩ .nil)
    simp only [rest, adjL, List.reverse_cons, List.reverse_nil, List.nil_append, List.cons_append, List.map_cons, List.map_nil]
    simp only [Complex.star_def, Complex.conj_I]
    exact .refl _
  · exact ⟨[], .refl _, .nil⟩

/-- C139.  If no summand has more than one momentum of the plane, the sign of the field has no effect at all: for a negative field one gets the Hamiltonian for the field `|B|`. -/
theorem landau_linear_sign (kpar : Axis → ℂ) (hk : ∀ c, star (kpar c) = kpar c) (xpar : Pos) (ax : Axis) (gs B : ℝ) (ham : Fin m → Fin m → List LTerm)
    (hh : LandauHermitian ham) (hlin : ∀ i j, ∀ t ∈ ham i j, (kword t).length ≤ 1)
    (d d' : List (LKey × (Pos → Pos → Matrix (Fin m) (Fin m) ℂ))) (hd : d.Perm (landauDict kpar ax B ham)) (hd' : d'.Perm (landauDict kpar ax |B| ham)) (s s' : ℤ × ℕ) :
    (landauSystem B xpar ax gs d).element s s' = (landauSystem |B| xpar ax gs d').element s s' := by
  have hdeg : ∀ i j, ∀ t ∈ ham i j, (kword t).length ≤ 6 := fun i j t ht => (hlin i j t ht).trans (by norm_num)
  obtain ⟨X, hX⟩ := Option.isSome_iff_exists.mp (landau_evaluates kpar xpar ax gs B ham d hd hdeg s s')
  obtain ⟨Y, hY⟩ := Option.isSome_iff_exists.mp (landau_evaluates kpar xpar ax gs |B| ham d' hd' hdeg s s')
  rw [hX, hY, element_value kpar hk xpar ax gs B ham hh d hd _ _ _ hX, element_value kpar hk xpar ax gs |B| ham hh d' hd' _ _ _ hY]
  congr 1
  funext i j
  unfold gVal
  congr 1
  apply List.map_congr_left
  intro t ht
  congr 1
  unfold kSeen
  rw [if_neg (not_lt.mpr (abs_nonneg B))]
  split
  · next hB =>
    rw [← kE_star B hB, kE_adj]
    have := hlin i j t ht
    rcases hw : kword t with _ | ⟨q, _ | _⟩
    · rfl
    · rfl
    · rw [hw] at this; simp at this
  · next hB => rw [abs_of_nonneg (not_lt.mp hB)]

/-- C139, counterexample.  For the Dirac Hamiltonian and a negative field the right Hamiltonian has no element between level 0 of the first and level 1 of the second orbital... -/
theorem dirac_right (kpar : Axis → ℂ) (B : ℝ) (hB : B < 0) (x : Pos) :
    ((exDirac 0 1).map fun t => landauOp kpar 2 B (stepOf (rest t) fun _ => 1) t (fun _ => Pi.single 1 1) x 0).sum = 0 := by
  have h0 : raiseOp (Pi.single 1 (1 : ℂ)) 0 = 0 := rfl
  have h1 : lowerOp (Pi.single 1 (1 : ℂ)) 0 = 1 := by simp [lowerOp]
  simp [exDirac, landauOp, kOp, discOp, hB, lowerOp, raiseOp]
  ring_nf
  simp

/-- ... but the system has: it is that for the field `|B|`. -/
theorem dirac_built (B : ℝ) (hB : B < 0) (d) (hd : d.Perm (landauDict 0 2 B exDirac)) (M) (h : (landauSystem B 0 2 1 d).element (0, 0) (0, 1) = some M) :
    M 0 1 = 2 * (√(|B| / 2) : ℝ) := by
  have hk : ∀ c, star ((0 : Axis → ℂ) c) = (0 : Axis → ℂ) c := by simp
  rw [element_value 0 hk 0 2 1 B exDirac exDirac_hermitian d hd _ _ _ h]
  unfold gVal kSeen
  simp only [hB, if_true]
  simp [exDirac, kword, rest, kE, kwordOp, kOp, hB, lowerOp, raiseOp]
  have hz : ∀ w, unscaled [2] w [0] = 0 := by intro w; funext c; simp only [unscaled, offAt, List.zip_cons_cons, List.zip_nil_right, List.find?_cons, List.find?_nil]; split <;> simp
  simp only [termVal, hz, word, List.flatMap_nil, List.flatMap_cons, atomsOf, List.append_nil, kern, if_true]
  linear_combination (-(√|B| : ℂ) / (√2 : ℝ)) * Complex.I_mul_I

/-- A system with a field, three dimensions and a potential: `k_x**2 + k_y**2 + k_z**2 + V(z) + k_x*k_y + k_y*k_x`. -/
noncomputable def exLandau : Fin 1 → Fin 1 → List LTerm := fun _ _ =>
  [[.k .k0 2], [.k .k1 2], [.other (.mom 2 2)], [.other (.fn fun x => (x 2 : ℂ) ^ 2)], [.k .k0 1, .k .k1 1], [.k .k1 1, .k .k0 1]]

theorem exLandau_hermitian : LandauHermitian exLandau := by
  intro i j
  refine ⟨[[.k .k0 2], [.k .k1 2], [.other (.mom 2 2)], [.other (.fn fun x => (x 2 : ℂ) ^ 2)], [.k .k1 1, .k .k0 1], [.k .k0 1, .k .k1 1]], ?_, ?_⟩
  · exact .cons _ (.cons _ (.cons _ (.cons _ (.swap _ _ _))))
  · refine .cons ⟨rfl, .refl _⟩ (.cons ⟨rfl, .refl _⟩ (.cons ⟨rfl, .refl _⟩ (.cons ⟨rfl, ?_⟩ (.cons ⟨rfl, .refl _⟩ (.cons ⟨rfl, .refl _⟩ .nil)))))
    simp only [rest, adjL, List.reverse_cons, List.reverse_nil, List.nil_append, List.map_cons, List.map_nil]
    simp only [star_pow, Complex.star_def, Complex.conj_ofReal]
    exact .refl _

theorem exLandau_symmetric : ∀ i j, ∀ t ∈ exLandau i j, SameOp (transTerm 2 (rest t)) (rest t) := by
  intro i j t ht
  simp only [exLandau, List.mem_cons, List.not_mem_nil, or_false] at ht
  have h1 : ∀ r : Term, SameOp (.fn (fun _ => (-1) ^ 0) :: r) r := fun r => by simp only [pow_zero]; exact .fnOne r
  have h2 : ∀ r : Term, SameOp (.fn (fun _ => (-1) ^ 2) :: r) r := fun r => by simp only [even_two, Even.neg_pow, one_pow]; exact .fnOne r
  rcases ht with rfl | rfl | rfl | rfl | rfl | rfl
  · exact h1 _
  · exact h1 _
  · exact h2 _
  · exact h1 _
  · exact h1 _
  · exact h1 _

theorem exLandau_degree : ∀ i j, ∀ t ∈ exLandau i j, (kword t).length ≤ 6 := by
  intro i j t ht
  simp only [exLandau, List.mem_cons, List.not_mem_nil, or_false] at ht
  rcases ht with rfl | rfl | rfl | rfl | rfl | rfl <;> simp [kword]

/-- The theorems apply to this Hamiltonian: its matrix elements exist, and give the Hamiltonian with 7 Landau levels. -/
example (d) (hd : d.Perm (landauDict 0 2 3 exLandau)) : ∃ M : ℤ × ℕ → ℤ × ℕ → Matrix (Fin 1) (Fin 1) ℂ,
    (∀ s s', (landauSystem 3 0 2 (1 / 7) d).element s s' = some (M s s')) ∧ (∀ s s', M s' s = (M s s')ᴴ) ∧
    ∀ (ψ : Pos → ℕ → Fin 1 → ℂ), (∀ y k, 7 ≤ k → ψ y k = 0) → ∀ (z : ℤ) (n : ℕ), n < 7 →
      ∑ᶠ z' : ℤ, ∑ n' : Fin 7, M (z, n) (z', n') *ᵥ ψ (zpos 0 2 (1 / 7) z') n' =
        fun i => ∑ j, ((exLandau i j).map fun t => landauOp 0 2 3 (stepOf (rest t) fun _ => 1 / 7) t (fun y k => ψ y k j) (zpos 0 2 (1 / 7) z) n).sum := by
  have hk : ∀ c, star ((0 : Axis → ℂ) c) = (0 : Axis → ℂ) c := by simp
  have he := fun s s' => landau_evaluates 0 0 2 (1 / 7) 3 exLandau d hd exLandau_degree s s'
  choose M hM using fun s s' => Option.isSome_iff_exists.mp (he s s')
  refine ⟨M, hM, fun s s' => ?_, fun ψ hψ z n hn => ?_⟩
  · exact landau_hermitian 0 hk 0 2 (1 / 7) 3 exLandau exLandau_hermitian d hd (max s.2 s'.2 + 1) M (fun s s' _ _ => hM s s') (fun _ _ _ => 0) (fun _ _ _ => rfl) s s'
      (by omega) (by omega)
  · exact landau_operator_partial 0 hk 0 2 (1 / 7) 3 exLandau exLandau_hermitian d hd 7 M (fun s s' _ _ => hM s s') ψ hψ z n hn (by norm_num) exLandau_symmetric

/-! ### The momenta and the field parameter -/

/-- C140.  `momenta`: exactly the pairs of indices 0, 1, 2 and the pairs of names are accepted, everything else is refused with `ValueError`. -/
theorem momenta_accepted (arg : MomentaArg) (ks : List Axis) :
    normalizeMomenta arg = .ok ks ↔ (arg = .default ∧ ks = [0, 1]) ∨
      (∃ a b : Axis, ks = [a, b] ∧ arg = .ints [a.val, b.val]) ∨
      (∃ a b : Axis, ks = [a, b] ∧ arg = .strs [["k_x", "k_y", "k_z"].get a, ["k_x", "k_y", "k_z"].get b]) := by
  constructor
  · intro h
    cases arg with
    | default => simp only [normalizeMomenta, Except.ok.injEq] at h; exact .inl ⟨rfl, h.symm⟩
    | ints l =>
      right; left
      simp only [normalizeMomenta] at h
      split at h
      · simp at h
      · next hl =>
        rw [not_not] at hl
        obtain ⟨a, b, rfl⟩ := List.length_eq_two.mp hl
        split at h
        · next hall =>
          simp only [List.all_cons, List.all_nil, Bool.and_true, Bool.and_eq_true, decide_eq_true_eq] at hall
          obtain ⟨⟨ha, ha'⟩, hb, hb'⟩ := hall
          simp only [List.map_cons, List.map_nil, Except.ok.injEq] at h
          refine ⟨_, _, h.symm, ?_⟩
          simp only [Fin.val_ofNat, MomentaArg.ints.injEq, List.cons.injEq, and_true]
          constructor <;> omega
        · simp at h
    | strs l =>
      right; right
      simp only [normalizeMomenta] at h
      split at h
      · simp at h
      · next hl =>
        rw [not_not] at hl
        obtain ⟨a, b, rfl⟩ := List.length_eq_two.mp hl
        split at h
        · next hall =>
          simp only [List.all_cons, List.all_nil, Bool.and_true, Bool.and_eq_true, List.contains_iff_mem, List.mem_cons, List.not_mem_nil, or_false] at hall
          simp only [List.map_cons, List.map_nil, Except.ok.injEq] at h
          refine ⟨_, _, h.symm, ?_⟩
          obtain ⟨h1, h2⟩ := hall
          rcases h1 with rfl | rfl | rfl <;> rcases h2 with rfl | rfl | rfl <;> rfl
        · simp at h
    | mixed n => simp [normalizeMomenta] at h
  · rintro (⟨rfl, rfl⟩ | ⟨a, b, rfl, rfl⟩ | ⟨a, b, rfl, rfl⟩)
    · rfl
    · fin_cases a <;> fin_cases b <;> rfl
    · fin_cases a <;> fin_cases b <;> rfl

/-- C140.  The normal coordinate is never one of the two momenta, and for two different momenta it is the third one. -/
theorem normal_is_third (a b : Axis) : ∃ c, findNormal [a, b] = some c ∧ c ≠ a ∧ c ≠ b ∧ (a ≠ b → ∀ c', c' ≠ a → c' ≠ b → c' = c) := by
  revert a b; decide

/-- C140, counterexample.  Two equal momenta are not refused. -/
example : normalizeMomenta (.strs ["k_x", "k_x"]) = .ok [0, 0] := by rfl

/-- C140.  The value functions of parts without the field parameter set it themselves, unless the name of another parameter contains the letter `B`: then the name `B` is not bound. -/
theorem field_unbound (args : List String) : bBound args = false ↔ "B" ∉ args ∧ ∃ s ∈ args, 'B' ∈ s.toList := by
  unfold bBound
  have h : ∀ l : List String, 'B' ∈ (", ".intercalate l).toList ↔ ∃ s ∈ l, 'B' ∈ s.toList := by
    intro l
    rw [String.toList_intercalate]
    induction l with
    | nil => simp
    | cons a l ih =>
      cases l with
      | nil => simp
      | cons b l =>
        simp only [List.map_cons] at ih ⊢
        rw [List.intercalate_cons_cons, List.mem_append, List.mem_append, ih]
        simp
  rw [Bool.or_eq_false_iff]
  simp only [Bool.not_eq_false', List.contains_iff_mem, h]
  simp

/-- C140, counterexample: `k_x**2 + k_y**2 + muB*k_z**2`.  The hopping in the normal direction has the only parameter `muB`. -/
example : bBound ["muB"] = false := by rfl

end Kwant.Continuum
