import Verif.Continuum.Errors

/-! Concrete cases for the theorems about `discretize`: `k_x A(x) k_x + V(x)`, and a Rashba Hamiltonian. -/

set_option linter.unusedSectionVars false

namespace Kwant.Continuum
open Matrix

/-- `k_x * A(x) * k_x + V(x)` with `A = 1 + x**2`, `V = x`. -/
noncomputable def exKAK : Expr := [[.mom 0 1, .fn fun x => 1 + (x 0 : ℂ) ^ 2, .mom 0 1], [.fn fun x => (x 0 : ℂ)]]

theorem exKAK_hermitian : FormallyHermitian (m := 1) fun _ _ => exKAK := by
  intro i j
  refine ⟨exKAK, List.Perm.refl _, ?_⟩
  have h1 : adjTerm [.mom 0 1, .fn fun x => 1 + (x 0 : ℂ) ^ 2, .mom 0 1] = [.mom 0 1, .fn fun x => 1 + (x 0 : ℂ) ^ 2, .mom 0 1] := by
    simp [adjTerm]
  have h2 : adjTerm [.fn fun x => (x 0 : ℂ)] = [.fn fun x => (x 0 : ℂ)] := by simp [adjTerm]
  simp only [exKAK, List.map_cons, List.map_nil, h1, h2]
  exact .cons (.refl _) (.cons (.refl _) .nil)

theorem exKAK_smooth : ∀ t ∈ exKAK, SmoothTerm t := by
  intro t ht g hg
  have hx : ContDiff ℝ (⊤ : ℕ∞) fun x : Pos => (x 0 : ℂ) := Complex.ofRealCLM.contDiff.comp (contDiff_apply ℝ ℝ (0 : Axis))
  simp only [exKAK, List.mem_cons, List.not_mem_nil, or_false] at ht
  rcases ht with rfl | rfl
  · simp only [List.mem_cons, List.not_mem_nil, or_false, reduceCtorEq, Factor.fn.injEq, false_or] at hg
    subst hg
    exact contDiff_const.add (hx.pow 2)
  · simp only [List.mem_cons, List.not_mem_nil, or_false, Factor.fn.injEq] at hg
    subst hg
    exact hx

/-- The momenta along x and y, with spin-orbit coupling: `[[k_x**2 + k_y**2, k_y + I*k_x], [k_y - I*k_x, k_x**2 + k_y**2]]`; and `k_x*k_y` which is Hermitian because momenta commute. -/
noncomputable def exRashba : Fin 2 → Fin 2 → Expr :=
  ![![[[.mom 0 2], [.mom 1 2], [.mom 0 1, .mom 1 1]], [[.mom 1 1], [.fn fun _ => Complex.I, .mom 0 1]]],
    ![[[.mom 1 1], [.fn fun _ => -1, .fn fun _ => Complex.I, .mom 0 1]], [[.mom 0 2], [.mom 1 2]]]]

theorem exRashba_hermitian : FormallyHermitian exRashba := by
  have hI : SameOp [.fn fun _ => -1, .fn fun _ => Complex.I, .mom 0 1] [.mom 0 1, .fn fun _ => -Complex.I] := by
    have h := (SameOp.fnMul (fun _ => -1) (fun _ => Complex.I) [.mom 0 1])
    simp only [neg_mul, one_mul] at h
    exact h.trans (.constSwap _ _ _ _)
  have hI' : SameOp [.fn fun _ => Complex.I, .mom 0 1] [.mom 0 1, .fn fun _ => -Complex.I, .fn fun _ => -1] := by
    have h := (SameOp.fnMul (fun _ => -Complex.I) (fun _ => -1) [])
    simp only [neg_mul, mul_neg, mul_one, neg_neg] at h
    exact (SameOp.constSwap _ _ _ _).trans (.cons _ h.symm)
  intro i j
  fin_cases i <;> fin_cases j
  · refine ⟨exRashba 0 0, .refl _, ?_⟩
    simp only [exRashba, Fin.isValue, Fin.zero_eta, cons_val_zero, cons_val_one, List.map_cons, List.map_nil, adjTerm, List.reverse_cons, List.reverse_nil,
      List.nil_append, List.cons_append, List.singleton_append]
    exact .cons (.refl _) (.cons (.refl _) (.cons (.momSwap _ _ _ _ _) .nil))
  · refine ⟨exRashba 1 0, .refl _, ?_⟩
    simp only [exRashba, Fin.isValue, Fin.zero_eta, Fin.mk_one, cons_val_zero, cons_val_one, List.map_cons, List.map_nil, adjTerm, List.reverse_cons, List.reverse_nil,
      List.nil_append, List.cons_append, List.singleton_append]
    refine .cons (.refl _) (.cons ?_ .nil)
    simpa using hI
  · refine ⟨exRashba 0 1, .refl _, ?_⟩
    simp only [exRashba, Fin.isValue, Fin.zero_eta, Fin.mk_one, cons_val_zero, cons_val_one, List.map_cons, List.map_nil, adjTerm, List.reverse_cons, List.reverse_nil,
      List.nil_append, List.cons_append, List.singleton_append]
    refine .cons (.refl _) (.cons ?_ .nil)
    simpa using hI'
  · refine ⟨exRashba 1 1, .refl _, ?_⟩
    simp only [exRashba, Fin.isValue, Fin.mk_one, cons_val_one, List.map_cons, List.map_nil, adjTerm, List.reverse_cons, List.reverse_nil,
      List.nil_append]
    exact .cons (.refl _) (.cons (.refl _) .nil)

/-- The template for this Hamiltonian on a square grid exists. -/
example : ∃ T, buildDiscretized 0 (keepWanted (allHoppings 0 [0, 1] exRashba)) [0, 1] (some (.scalar 2)) none = .ok T ∧ T.spacing = (fun _ => 2) ∧ T.offset = 0 := by
  refine (build_scalar 0 (keepWanted (allHoppings 0 [0, 1] exRashba)) [0, 1] (by simp) (by simp) ?_ (some 2)).1
  obtain ⟨p, hp, he⟩ := (kept_hoppings 0 [0, 1] (by simp) exRashba).2.1
  exact he ▸ List.mem_map_of_mem hp

/-- ... and it is Hermitian. -/
example (T) (hT : buildDiscretized 0 (keepWanted (allHoppings 0 [0, 1] exRashba)) [0, 1] (some (.scalar 2)) none = .ok T) (s s') :
    T.element s' s = (T.element s s')ᴴ :=
  build_hermitian 0 (by simp) 0 [0, 1] (by simp) exRashba exRashba_hermitian _ _ T hT s s'

/-- The continuum limit of `k_x A(x) k_x + V(x)` for the wave function 1. -/
example (x : Pos) : Filter.Tendsto (fun n : ℕ => ((discretizeExpression 0 [0] exKAK).map fun p => p.2 (fun _ => 1 / ((n : ℝ) + 1)) x * 1).sum) Filter.atTop
    (nhds (exKAK.map fun t => contOp 0 [0] t (fun _ => 1) x).sum) := by
  refine continuum_limit Filter.atTop 0 [0] (by simp) exKAK exKAK_smooth (fun _ => 1) contDiff_const (fun (n : ℕ) _ => 1 / ((n : ℝ) + 1)) ?_ x
  intro c _
  rw [tendsto_nhdsWithin_iff]
  refine ⟨tendsto_one_div_add_atTop_nhds_zero_nat, Filter.Eventually.of_forall fun n => ?_⟩
  simp only [Set.mem_compl_iff, Set.mem_singleton_iff]
  positivity

/-- The familiar formula: the hopping of `k_x A(x) k_x` to the next grid point is `-A(x + a/2) / a**2`, for every function `A`. -/
theorem kAk_hopping (kpar : Axis → ℂ) (A : Pos → ℂ) (p) (hp : p ∈ discretizeExpression kpar [0] [[.mom 0 1, .fn A, .mom 0 1]]) (hk : p.1 = [1]) (a x : Pos)
    (ha : a 0 ≠ 0) : p.2 a x = -A (x + Pi.single 0 (a 0 / 2)) / (a 0) ^ 2 := by
  obtain ⟨h1, -, h3⟩ := expression_spec kpar [0] (by simp) [[.mom 0 1, .fn A, .mom 0 1]]
  have h := h3 a x [1] rfl
  rw [← hk, value_unique _ (fun v : Coeff => v a x) h1 p hp, hk] at h
  rw [h]
  have hw : word kpar [0] [.mom 0 1, .fn A, .mom 0 1] = [.D 0, .M A, .D 0] := by simp [word, atomsOf]
  have hf : fac [.D 0, .M A, .D 0] 0 = 2 := by simp [fac, cnt]
  have hs : facSpacing [.D 0, .M A, .D 0] a 0 = a 0 / 2 := by unfold facSpacing; rw [hf]; norm_num
  have hu : unscaled [0] [.D 0, .M A, .D 0] [1] = Pi.single 0 2 := by
    funext c
    unfold unscaled offAt
    by_cases hc : c = 0
    · subst hc; simp [hf]
    · have hc' : ¬ (0 : Axis) = c := fun e => hc e.symm
      simp [hc, hc']
  simp only [List.map_cons, List.map_nil, List.sum_cons, List.sum_nil, add_zero, termVal]
  rw [hw, hu]
  simp only [kern, hs]
  have e1 : (Pi.single 0 2 - Pi.single 0 1 - Pi.single 0 1 : Axis → ℤ) = 0 := by
    rw [← Pi.single_sub, ← Pi.single_sub]; simp
  have e2 : ¬ (Pi.single 0 2 - Pi.single 0 1 + Pi.single 0 1 : Axis → ℤ) = 0 := by
    intro h; have := congrFun h 0; simp at this
  have e3 : ¬ (Pi.single 0 2 + Pi.single 0 1 - Pi.single 0 1 : Axis → ℤ) = 0 := by
    intro h; have := congrFun h 0; simp at this
  have e4 : ¬ (Pi.single 0 2 + Pi.single 0 1 + Pi.single 0 1 : Axis → ℤ) = 0 := by
    intro h; have := congrFun h 0; simp at this
  rw [if_pos e1, if_neg e2, if_neg e3, if_neg e4]
  have h0 : (a 0 : ℂ) ≠ 0 := by exact_mod_cast ha
  push_cast
  simp only [sub_zero, sub_self, mul_zero, mul_one]
  have hI : ∀ z : ℂ, -Complex.I * z * (A (x + Pi.single 0 (a 0 / 2)) * (-Complex.I * z)) = -(A (x + Pi.single 0 (a 0 / 2))) * z ^ 2 := by
    intro z
    have : -Complex.I * z * (A (x + Pi.single 0 (a 0 / 2)) * (-Complex.I * z)) = (Complex.I * Complex.I) * A (x + Pi.single 0 (a 0 / 2)) * z ^ 2 := by ring
    rw [this, Complex.I_mul_I]; ring
  rw [hI]
  field_simp

end Kwant.Continuum
