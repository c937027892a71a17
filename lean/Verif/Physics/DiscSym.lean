import Mathlib.LinearAlgebra.Matrix.NonsingularInverse
import Mathlib.LinearAlgebra.Matrix.ConjTranspose
import Mathlib.Analysis.Complex.Basic

/-!
C60, C68, C69, C100: kwant/physics/symmetry.py, class `DiscreteSymmetry`.

Simplifications
* Exact complex matrices: `almost_identity(m)` (l.15-16) is `m = 1`, the tests `> 1e-10` and `norm > 1e-8` are tests against zero.
  The threshold `1e-7` of the check of the canonical form (l.156-157) is kept.
* A rectangular projector is the list of its columns.  Sparse storage: `.data` are the entries; entries that are not stored are zero.
* Arguments that are not sparse matrices (`TypeError`, l.101-112) and matrices of different sizes are not representable.
-/

set_option linter.unusedSectionVars false

namespace Kwant.DiscSym
open Matrix Complex

variable {n : ℕ}

/-- Square matrices. -/
abbrev Mat (n : ℕ) := Matrix (Fin n) (Fin n) ℂ

/-- A projector: its columns. -/
abbrev Proj (n : ℕ) := List (Fin n → ℂ)

/-- Entrywise complex conjugation, `m.conj()`. -/
def cj (m : Mat n) : Mat n := m.map (starRingEnd ℂ)

/-- The exceptions. -/
inductive SErr where
  | product | notUnitary (i : Fin 3) | badSquare (i : Fin 3) | projectors | canonical (i : Fin 3)
  deriving DecidableEq

/-- The attributes of a `DiscreteSymmetry`. -/
structure Stored (n : ℕ) where
  projectors : Option (List (Proj n))
  T : Option (Mat n)
  P : Option (Mat n)
  C : Option (Mat n)

/-- `cond_conj(op, conj)` (symmetry.py l.32-33) -/
def condConj (op : Mat n) (conj : Bool) : Mat n := if conj then cj op else op

/-- `cond_conj` on a projector. -/
def condConjP (p : Proj n) (conj : Bool) : Proj n := if conj then p.map fun v => fun i => starRingEnd ℂ (v i) else p

/-- The loop body of symmetry.py l.133-145 for one symmetry. -/
noncomputable def checkOne (i : Fin 3) (conj : Bool) (symm : Option (Mat n)) : Except SErr Unit :=
  open Classical in
  match symm with
  | none => .ok ()
  | some s =>
    if ¬ sᴴ * s = 1 then .error (.notUnitary i)
    else if ¬ (s * condConj s conj = 1 ∨ (conj = true ∧ -(s * condConj s conj) = 1)) then .error (.badSquare i)
    else .ok ()

/-- The completion of the missing symmetry (symmetry.py l.120-130); result `(T, P, C)`. -/
def complete (T P C : Option (Mat n)) : Option (Mat n) × Option (Mat n) × Option (Mat n) :=
  match T, P, C with
  | some t, some p, none => (some t, some p, some (p * cj t))
  | none, some p, some c => (some (p * cj p * p * cj c), some p, some c)
  | some t, none, some c => (some t, some (t * cj t * c * t), some c)
  | T, P, C => (T, P, C)

/-- `p[:, _column_sum(abs(p)) > 1e-10]` (symmetry.py l.147-149): drop the zero columns. -/
noncomputable def dropZero (p : Proj n) : Proj n := open Classical in p.filter fun v => decide (v ≠ 0)

/-- `projector.dot(projector.conj().T)` -/
def full (p : Proj n) : Mat n := (p.map fun v => vecMulVec v (star v)).sum

/-- `x > 1e-7` for complex numbers in numpy: lexicographic comparison of real and imaginary part. -/
def numpyGt (z : ℂ) (x : ℝ) : Prop := x < z.re ∨ (z.re = x ∧ 0 < z.im)

/-- Entries of `p_hc.dot(symm).dot(q)`. -/
def blockEntries (p : Proj n) (s : Mat n) (q : Proj n) : List ℂ := p.flatMap fun v => q.map fun w => star v ⬝ᵥ s *ᵥ w

/-- `np.any(abs(p_hc.dot(symm).dot(p_j').data > 1e-7))` (symmetry.py l.156-157).  The parenthesis closes after the comparison: the
absolute value is taken of the booleans. -/
noncomputable def nonzeroBlock (p : Proj n) (s : Mat n) (q : Proj n) : Bool :=
  open Classical in (blockEntries p s q).any fun z => decide (numpyGt z (1e-7))

/-- The check of the canonical form for one symmetry (symmetry.py l.152-165). -/
noncomputable def checkCanon (ps : List (Proj n)) (i : Fin 3) (conj : Bool) (symm : Option (Mat n)) : Except SErr Unit :=
  match symm with
  | none => .ok ()
  | some s => if ps.any fun p => decide (1 < ps.countP fun q => nonzeroBlock p s (condConjP q conj)) then .error (.canonical i) else .ok ()

/-- The treatment of the projectors (symmetry.py l.147-165). -/
noncomputable def checkProj (ps : List (Proj n)) (T P C : Option (Mat n)) : Except SErr (List (Proj n)) :=
  open Classical in
  let ps := ps.map dropZero
  if ¬ (ps.map full).sum = 1 then .error .projectors else do
  checkCanon ps 0 true T
  checkCanon ps 1 true P
  checkCanon ps 2 false C
  .ok ps

/-- The test of the product if all are given (symmetry.py l.114-118). -/
noncomputable def productBad (T P C : Option (Mat n)) : Bool :=
  open Classical in match T, P, C with | some t, some p, some c => decide (¬ c * p * cj t = 1) | _, _, _ => false

/-- `DiscreteSymmetry.__init__` (symmetry.py l.97-168) -/
noncomputable def init (projectors : Option (List (Proj n))) (T P C : Option (Mat n)) : Except SErr (Stored n) :=
  if productBad T P C then .error .product else
  let s := complete T P C
  do
  checkOne 0 true s.1
  checkOne 1 true s.2.1
  checkOne 2 false s.2.2
  match projectors with
  | none => .ok ⟨none, s.1, s.2.1, s.2.2⟩
  | some ps => do
    let ps ← checkProj ps s.1 s.2.1 s.2.2
    .ok ⟨some ps, s.1, s.2.1, s.2.2⟩

/-! ### `validate` -/

/-- The padding of a rectangular matrix with zero columns (symmetry.py l.186-194). -/
def pad {m : ℕ} (a : Matrix (Fin n) (Fin m) ℂ) : Mat n := fun i j => if h : j.val < m then a i ⟨j.val, h⟩ else 0

/-- The test for one projector (symmetry.py l.197-201). -/
def commutes (p : Proj n) (H : Mat n) : Prop := full p * H - ((full p)ᵀ * Hᵀ)ᵀ = 0

/-- The test for one symmetry (symmetry.py l.203-210). -/
noncomputable def broken (symm : Option (Mat n)) (conj : Bool) (sign : ℂ) (name : String) (H : Mat n) : List String :=
  open Classical in
  match symm with
  | none => []
  | some s => if sᴴ * (sᵀ * Hᵀ)ᵀ - sign • condConj H conj = 0 then [] else [name]

open Classical in
/-- The test of the projectors (symmetry.py l.196-202). -/
noncomputable def brokenLaw (ps : Option (List (Proj n))) (H : Mat n) : List String :=
  match ps with
  | none => []
  | some ps => if ∀ p ∈ ps, commutes p H then [] else ["Conservation law"]

/-- `validate` (symmetry.py l.170-211) -/
noncomputable def validate {m : ℕ} (st : Stored n) (a : Matrix (Fin n) (Fin m) ℂ) : List String :=
  brokenLaw st.projectors (pad a) ++
  (broken st.T true 1 "Time reversal" (pad a) ++ broken st.P true (-1) "Particle-hole" (pad a) ++ broken st.C false (-1) "Chiral" (pad a))

/-! ### Specification -/

/-- The antiunitary operator `U K` on vectors. -/
def anti (U : Mat n) (ψ : Fin n → ℂ) : Fin n → ℂ := U *ᵥ star ψ

/-- The symmetry operators as operators on wave functions are (anti)unitary with the documented squares. -/
structure ValidT (U : Mat n) : Prop where
  inner : ∀ ψ φ : Fin n → ℂ, star (anti U ψ) ⬝ᵥ anti U φ = star φ ⬝ᵥ ψ
  square : (∀ ψ, anti U (anti U ψ) = ψ) ∨ (∀ ψ, anti U (anti U ψ) = -ψ)

structure ValidC (U : Mat n) : Prop where
  inner : ∀ ψ φ : Fin n → ℂ, star (U *ᵥ ψ) ⬝ᵥ U *ᵥ φ = star ψ ⬝ᵥ φ
  square : ∀ ψ, U *ᵥ (U *ᵥ ψ) = ψ

/-! ### Lemmas -/

theorem cj_mul (a b : Mat n) : cj (a * b) = cj a * cj b := Matrix.map_mul
theorem cj_cj (a : Mat n) : cj (cj a) = a := by ext i j; simp [cj]
theorem cj_one : cj (1 : Mat n) = 1 := by unfold cj; rw [Matrix.map_one _ (map_zero _) (map_one _)]
theorem cj_neg (a : Mat n) : cj (-a) = -cj a := by ext i j; simp [cj]

theorem star_mulVec' (a : Mat n) (ψ : Fin n → ℂ) : star (a *ᵥ ψ) = cj a *ᵥ star ψ := by
  ext i
  simp [mulVec, dotProduct, cj, Pi.star_apply]

theorem anti_anti (U : Mat n) (ψ : Fin n → ℂ) : anti U (anti U ψ) = (U * cj U) *ᵥ ψ := by
  unfold anti
  rw [star_mulVec', star_star, mulVec_mulVec]

theorem mat_ext {a b : Mat n} (h : ∀ ψ, a *ᵥ ψ = b *ᵥ ψ) : a = b := by
  ext i j
  have := congrFun (h (Pi.single j 1)) i
  simpa using this

theorem unitary_inner {U : Mat n} (h : Uᴴ * U = 1) (ψ φ : Fin n → ℂ) : star (U *ᵥ ψ) ⬝ᵥ U *ᵥ φ = star ψ ⬝ᵥ φ := by
  rw [star_mulVec, dotProduct_mulVec, vecMul_vecMul, h, vecMul_one]

theorem inner_unitary {U : Mat n} (h : ∀ ψ φ : Fin n → ℂ, star (U *ᵥ ψ) ⬝ᵥ U *ᵥ φ = star ψ ⬝ᵥ φ) : Uᴴ * U = 1 := by
  refine mat_ext fun φ => ?_
  rw [one_mulVec]
  ext i
  have := h (Pi.single i 1) φ
  rw [star_mulVec, dotProduct_mulVec, vecMul_vecMul, ← dotProduct_mulVec] at this
  have e : star (Pi.single i (1 : ℂ)) = (Pi.single i 1 : Fin n → ℂ) := by
    ext j; by_cases hj : j = i
    · subst hj; simp
    · simp [hj]
  rw [e] at this
  simpa using this

theorem validT_iff (U : Mat n) : ValidT U ↔ Uᴴ * U = 1 ∧ (U * cj U = 1 ∨ -(U * cj U) = 1) := by
  have sq : ((∀ ψ, anti U (anti U ψ) = ψ) ∨ (∀ ψ, anti U (anti U ψ) = -ψ)) ↔ (U * cj U = 1 ∨ -(U * cj U) = 1) := by
    refine or_congr ?_ ?_
    · simp only [anti_anti]
      exact ⟨fun h => mat_ext fun ψ => by rw [h, one_mulVec], fun h ψ => by rw [h, one_mulVec]⟩
    · simp only [anti_anti]
      exact ⟨fun h => mat_ext fun ψ => by rw [neg_mulVec, h, neg_neg, one_mulVec],
        fun h ψ => by rw [← neg_neg (U * cj U), h, neg_mulVec, one_mulVec]⟩
  constructor
  · rintro ⟨h1, h2⟩
    refine ⟨inner_unitary fun ψ φ => ?_, sq.mp h2⟩
    have := h1 (star ψ) (star φ)
    unfold anti at this
    rw [star_star, star_star] at this
    rw [this, dotProduct_comm]
  · rintro ⟨h1, h2⟩
    refine ⟨fun ψ φ => ?_, sq.mpr h2⟩
    unfold anti
    rw [unitary_inner h1, star_star, dotProduct_comm]

theorem validC_iff (U : Mat n) : ValidC U ↔ Uᴴ * U = 1 ∧ U * U = 1 := by
  constructor
  · rintro ⟨h1, h2⟩
    exact ⟨inner_unitary h1, mat_ext fun ψ => by rw [← mulVec_mulVec, h2, one_mulVec]⟩
  · rintro ⟨h1, h2⟩
    exact ⟨unitary_inner h1, fun ψ => by rw [mulVec_mulVec, h2, one_mulVec]⟩

theorem checkOne_anti (i : Fin 3) (s : Option (Mat n)) : checkOne i true s = .ok () ↔ ∀ u, s = some u → ValidT u := by
  cases s with
  | none => simp [checkOne]
  | some u =>
    simp only [checkOne, Option.some.injEq, forall_eq', validT_iff, condConj, if_true, true_and]
    by_cases h1 : uᴴ * u = 1
    · by_cases h2 : u * cj u = 1 ∨ -(u * cj u) = 1
      · simp [h1, h2]
      · rw [if_neg (not_not.mpr h1), if_pos h2]; simp [h2]
    · rw [if_pos h1]; simp [h1]

theorem checkOne_chiral (i : Fin 3) (s : Option (Mat n)) : checkOne i false s = .ok () ↔ ∀ u, s = some u → ValidC u := by
  cases s with
  | none => simp [checkOne]
  | some u =>
    simp only [checkOne, Option.some.injEq, forall_eq', validC_iff, condConj]
    by_cases h1 : uᴴ * u = 1
    · by_cases h2 : u * u = 1
      · simp [h1, h2]
      · simp [h1, h2]
    · rw [if_pos h1]; simp [h1]

/-- The product of all symmetries is the identity: chiral = particle-hole × time reversal, as operators on wave functions. -/
def ProductOne (t p c : Mat n) : Prop := ∀ ψ, c *ᵥ anti p (anti t ψ) = ψ

theorem productOne_iff (t p c : Mat n) : ProductOne t p c ↔ c * p * cj t = 1 := by
  have : ∀ ψ, c *ᵥ anti p (anti t ψ) = (c * p * cj t) *ᵥ ψ := by
    intro ψ
    unfold anti
    rw [star_mulVec', star_star, mulVec_mulVec, mulVec_mulVec, mul_assoc]
  unfold ProductOne
  simp only [this]
  exact ⟨fun h => mat_ext fun ψ => by rw [h, one_mulVec], fun h ψ => by rw [h, one_mulVec]⟩

/-- The triple is valid: each member is, and if all three are present, so is the product. -/
structure ValidTriple (T P C : Option (Mat n)) : Prop where
  time : ∀ t, T = some t → ValidT t
  particle : ∀ p, P = some p → ValidT p
  chiral : ∀ c, C = some c → ValidC c
  product : ∀ t p c, T = some t → P = some p → C = some c → ProductOne t p c

theorem sq_cases {p : Mat n} (h : ValidT p) : ∃ e : ℂ, e * e = 1 ∧ starRingEnd ℂ e = e ∧ p * cj p = e • (1 : Mat n) ∧ cj p * p = e • (1 : Mat n) := by
  obtain ⟨_, h2⟩ := (validT_iff p).mp h
  rcases h2 with h2 | h2
  · refine ⟨1, by ring, by simp, by simp [h2], ?_⟩
    have := congrArg cj h2
    rw [cj_mul, cj_cj, cj_one] at this
    simp [this]
  · have h3 : p * cj p = -1 := by rw [← h2, neg_neg]
    refine ⟨-1, by ring, by simp, by simp [h3], ?_⟩
    have := congrArg cj h3
    rw [cj_mul, cj_cj, cj_neg, cj_one] at this
    simp [this]

/-- Everything that is stored without projectors. -/
theorem init_none (T P C : Option (Mat n)) (st : Stored n) :
    init none T P C = .ok st ↔
      (∀ t p c, T = some t → P = some p → C = some c → c * p * cj t = 1) ∧
      (∀ u, (complete T P C).1 = some u → ValidT u) ∧ (∀ u, (complete T P C).2.1 = some u → ValidT u) ∧
      (∀ u, (complete T P C).2.2 = some u → ValidC u) ∧ st = ⟨none, (complete T P C).1, (complete T P C).2.1, (complete T P C).2.2⟩ := by
  have key : ∀ s : Option (Mat n) × Option (Mat n) × Option (Mat n),
      ((do checkOne 0 true s.1
           checkOne 1 true s.2.1
           checkOne 2 false s.2.2
           Except.ok ⟨none, s.1, s.2.1, s.2.2⟩ : Except SErr (Stored n)) = .ok st) ↔
      (∀ u, s.1 = some u → ValidT u) ∧ (∀ u, s.2.1 = some u → ValidT u) ∧ (∀ u, s.2.2 = some u → ValidC u) ∧ st = ⟨none, s.1, s.2.1, s.2.2⟩ := by
    intro s
    rw [← checkOne_anti 0, ← checkOne_anti 1, ← checkOne_chiral 2]
    cases checkOne 0 true s.1 with
    | error e => simp [bind, Except.bind]
    | ok _ =>
      cases checkOne 1 true s.2.1 with
      | error e => simp [bind, Except.bind]
      | ok _ =>
        cases checkOne 2 false s.2.2 with
        | error e => simp [bind, Except.bind]
        | ok _ => simp [bind, Except.bind, eq_comm]
  unfold init
  by_cases hp : ∀ t p c, T = some t → P = some p → C = some c → c * p * cj t = 1
  · rw [if_neg, key]
    · exact ⟨fun h => ⟨hp, h⟩, fun h => h.2⟩
    · cases T <;> cases P <;> cases C <;> simp [productBad] at hp ⊢
      exact hp
  · rw [if_pos]
    · simp only [reduceCtorEq, false_iff, not_and]
      intro h; exact absurd h hp
    · cases T <;> cases P <;> cases C <;> simp [productBad] at hp ⊢
      exact hp

/-- The projectors do not influence the symmetries. -/
theorem init_proj {ps : Option (List (Proj n))} {T P C : Option (Mat n)} {st : Stored n} (h : init ps T P C = .ok st) :
    init none T P C = .ok ⟨none, st.T, st.P, st.C⟩ := by
  cases ps with
  | none =>
    have := (init_none T P C st).mp h
    rw [h, this.2.2.2.2]
  | some ps =>
    unfold init at h ⊢
    split at h
    · cases h
    · next hc =>
      rw [if_neg hc]
      generalize complete T P C = s at h ⊢
      simp only at h ⊢
      cases h0 : checkOne 0 true s.1 with
      | error e => rw [h0] at h; cases h
      | ok _ =>
        rw [h0] at h
        cases h1 : checkOne 1 true s.2.1 with
        | error e => rw [h1] at h; cases h
        | ok _ =>
          rw [h1] at h
          cases h2 : checkOne 2 false s.2.2 with
          | error e => rw [h2] at h; cases h
          | ok _ =>
            rw [h2] at h
            simp only [bind, Except.bind] at h ⊢
            cases h3 : checkProj ps s.1 s.2.1 s.2.2 with
            | error e => rw [h3] at h; cases h
            | ok q =>
              rw [h3] at h
              simp only [Except.ok.injEq] at h
              subst h
              rfl

/-- At least two of the three symmetries are given. -/
def TwoGiven (T P C : Option (Mat n)) : Prop :=
  (T.isSome ∧ P.isSome) ∨ (P.isSome ∧ C.isSome) ∨ (T.isSome ∧ C.isSome)

/-- `y` is `x`, or `x` is `None`. -/
def Extends (x y : Option (Mat n)) : Prop := ∀ u, x = some u → y = some u

theorem complete_product {t p c : Mat n} (T P C : Option (Mat n)) (hg : ∀ t p c, T = some t → P = some p → C = some c → c * p * cj t = 1)
    (hs : complete T P C = (some t, some p, some c)) (ht : ValidT t) (hp : ValidT p) (hc : ValidC c) : c * p * cj t = 1 := by
  obtain ⟨_, hcc⟩ := (validC_iff c).mp hc
  cases T with
  | none =>
    cases P with
    | none => cases C <;> simp [complete] at hs
    | some p' =>
      cases C with
      | none => simp [complete] at hs
      | some c' =>
        simp only [complete, Prod.mk.injEq, Option.some.injEq] at hs
        obtain ⟨rfl, rfl, rfl⟩ := hs
        obtain ⟨e, he, hr, h1, h2⟩ := sq_cases hp
        rw [cj_mul, cj_mul, cj_mul, cj_cj, cj_cj]
        have : c' * p' * (cj p' * p' * cj p' * c') = c' * (p' * cj p') * (p' * cj p') * c' := by simp only [mul_assoc]
        rw [this, h1]
        simp [smul_smul, he, hcc]
  | some t' =>
    cases P with
    | none =>
      cases C with
      | none => simp [complete] at hs
      | some c' =>
        simp only [complete, Prod.mk.injEq, Option.some.injEq] at hs
        obtain ⟨rfl, rfl, rfl⟩ := hs
        obtain ⟨e, he, hr, h1, h2⟩ := sq_cases ht
        have : c' * (t' * cj t' * c' * t') * cj t' = c' * (t' * cj t') * c' * (t' * cj t') := by simp only [mul_assoc]
        rw [this, h1]
        simp [smul_smul, he, hcc]
    | some p' =>
      cases C with
      | none =>
        simp only [complete, Prod.mk.injEq, Option.some.injEq] at hs
        obtain ⟨rfl, rfl, rfl⟩ := hs
        rw [mul_assoc]; exact hcc
      | some c' =>
        simp only [complete, Prod.mk.injEq, Option.some.injEq] at hs
        obtain ⟨rfl, rfl, rfl⟩ := hs
        exact hg _ _ _ rfl rfl rfl

/-- **C60**: if the constructor accepts, the stored symmetries are (anti)unitary operators with the documented squares, and their
product is the identity if there are three; the given ones are stored as they are; if two are given, three are stored; if fewer are given, nothing is added. -/
theorem C60_accepted {ps : Option (List (Proj n))} {T P C : Option (Mat n)} {st : Stored n} (h : init ps T P C = .ok st) :
    ValidTriple st.T st.P st.C ∧ Extends T st.T ∧ Extends P st.P ∧ Extends C st.C ∧
    (TwoGiven T P C → st.T.isSome ∧ st.P.isSome ∧ st.C.isSome) ∧
    (¬ TwoGiven T P C → st.T = T ∧ st.P = P ∧ st.C = C) := by
  obtain ⟨hg, h1, h2, h3, h4⟩ := (init_none _ _ _ _).mp (init_proj h)
  simp only [Stored.mk.injEq, true_and] at h4
  obtain ⟨e1, e2, e3⟩ := h4
  rw [← e1] at h1; rw [← e2] at h2; rw [← e3] at h3
  refine ⟨⟨h1, h2, h3, fun t p c ht hp hc => (productOne_iff t p c).mpr
    (complete_product T P C hg ?_ (h1 t ht) (h2 p hp) (h3 c hc))⟩, ?_, ?_, ?_, ?_, ?_⟩
  · rw [Prod.ext_iff, Prod.ext_iff]
    exact ⟨by rw [← e1, ht], by rw [← e2, hp], by rw [← e3, hc]⟩
  · rw [e1]; cases T <;> cases P <;> cases C <;> simp [Extends, complete]
  · rw [e2]; cases T <;> cases P <;> cases C <;> simp [Extends, complete]
  · rw [e3]; cases T <;> cases P <;> cases C <;> simp [Extends, complete]
  · rw [e1, e2, e3]; cases T <;> cases P <;> cases C <;> simp [TwoGiven, complete]
  · rw [e1, e2, e3]; cases T <;> cases P <;> cases C <;> simp [TwoGiven, complete]

/-- The missing member of a valid triple is the one the constructor computes. -/
theorem complete_unique {T P C : Option (Mat n)} {t p c : Mat n} (hT : Extends T (some t)) (hP : Extends P (some p)) (hC : Extends C (some c))
    (htw : TwoGiven T P C) (hv : ValidTriple (some t) (some p) (some c)) : complete T P C = (some t, some p, some c) := by
  have ht := hv.time t rfl
  have hp := hv.particle p rfl
  have hc := hv.chiral c rfl
  have hprod := (productOne_iff t p c).mp (hv.product t p c rfl rfl rfl)
  obtain ⟨_, hcc⟩ := (validC_iff c).mp hc
  obtain ⟨e, he, hre, t1, t2⟩ := sq_cases ht
  obtain ⟨f, hf, hrf, p1, p2⟩ := sq_cases hp
  have hpt : p * cj t = c := by
    calc p * cj t = c * c * (p * cj t) := by rw [hcc, one_mul]
      _ = c * (c * p * cj t) := by simp only [mul_assoc]
      _ = c := by rw [hprod, mul_one]
  cases T with
  | none =>
    cases P with
    | none => simp [TwoGiven] at htw
    | some p' =>
      have : p' = p := by have := hP p' rfl; simpa using this.symm
      subst this
      cases C with
      | none => simp [TwoGiven] at htw
      | some c' =>
        have : c' = c := by have := hC c' rfl; simpa using this.symm
        subst this
        simp only [complete, Prod.mk.injEq, Option.some.injEq, and_self, and_true]
        rw [← hpt, cj_mul, cj_cj]
        calc p' * cj p' * p' * (cj p' * t) = (p' * cj p') * (p' * cj p') * t := by simp only [mul_assoc]
          _ = t := by rw [p1]; simp [smul_smul, hf]
  | some t' =>
    have : t' = t := by have := hT t' rfl; simpa using this.symm
    subst this
    cases P with
    | none =>
      cases C with
      | none => simp [TwoGiven] at htw
      | some c' =>
        have : c' = c := by have := hC c' rfl; simpa using this.symm
        subst this
        simp only [complete, Prod.mk.injEq, Option.some.injEq, and_self, and_true, true_and]
        rw [← hpt]
        calc t' * cj t' * (p * cj t') * t' = (t' * cj t') * p * (cj t' * t') := by simp only [mul_assoc]
          _ = p := by rw [t1, t2]; simp [smul_smul, he]
    | some p' =>
      have : p' = p := by have := hP p' rfl; simpa using this.symm
      subst this
      cases C with
      | none =>
        simp only [complete, Prod.mk.injEq, Option.some.injEq, true_and]
        exact hpt
      | some c' =>
        have : c' = c := by have := hC c' rfl; simpa using this.symm
        subst this
        rfl

/-- **C60**: the constructor (without projectors) accepts exactly if the given symmetries are part of a valid set, and then it stores this set, which is
unique if two are given. -/
theorem C60_exact (T P C : Option (Mat n)) (t p c : Mat n) (hT : Extends T (some t)) (hP : Extends P (some p)) (hC : Extends C (some c))
    (htw : TwoGiven T P C) : ValidTriple (some t) (some p) (some c) ↔ init none T P C = .ok ⟨none, some t, some p, some c⟩ := by
  constructor
  · intro hv
    have hu := complete_unique hT hP hC htw hv
    rw [init_none, hu]
    refine ⟨?_, ?_, ?_, ?_, rfl⟩
    · intro t' p' c' h1 h2 h3
      have e1 : t = t' := Option.some.inj (hT t' h1)
      have e2 : p = p' := Option.some.inj (hP p' h2)
      have e3 : c = c' := Option.some.inj (hC c' h3)
      rw [← e1, ← e2, ← e3]
      exact (productOne_iff t p c).mp (hv.product t p c rfl rfl rfl)
    · exact hv.time
    · exact hv.particle
    · exact hv.chiral
  · intro h
    exact (C60_accepted h).1

theorem C60_exact_few (T P C : Option (Mat n)) (htw : ¬ TwoGiven T P C) : ValidTriple T P C ↔ init none T P C = .ok ⟨none, T, P, C⟩ := by
  have hc : complete T P C = (T, P, C) := by
    cases T <;> cases P <;> cases C <;> simp [TwoGiven, complete] at htw ⊢
  rw [init_none, hc]
  constructor
  · intro hv
    exact ⟨fun t p c h1 h2 _ => absurd (by rw [h1, h2]; simp [TwoGiven]) htw, hv.time, hv.particle, hv.chiral, rfl⟩
  · rintro ⟨_, h1, h2, h3, _⟩
    exact ⟨h1, h2, h3, fun t p c h1 h2 _ => absurd (by rw [h1, h2]; simp [TwoGiven]) htw⟩

/-! ### `validate` -/

theorem conj_iff {s : Mat n} (hs : sᴴ * s = 1) (H : Mat n) (conj : Bool) (sign : ℂ) :
    sᴴ * (sᵀ * Hᵀ)ᵀ - sign • condConj H conj = 0 ↔ H * s = sign • (s * condConj H conj) := by
  have hs' : s * sᴴ = 1 := mul_eq_one_comm.mp hs
  rw [transpose_mul, transpose_transpose, transpose_transpose, sub_eq_zero]
  constructor
  · intro h
    calc H * s = s * sᴴ * (H * s) := by rw [hs', one_mul]
      _ = s * (sᴴ * (H * s)) := by rw [mul_assoc]
      _ = sign • (s * condConj H conj) := by rw [h, mul_smul_comm]
  · intro h
    rw [h, mul_smul_comm, ← mul_assoc, hs, one_mul]

theorem anti_iff (H s : Mat n) (sign : ℂ) :
    H * s = sign • (s * cj H) ↔ ∀ ψ, H *ᵥ anti s ψ = sign • anti s (H *ᵥ ψ) := by
  have key : ∀ ψ, (H *ᵥ anti s ψ = (H * s) *ᵥ star ψ) ∧ (sign • anti s (H *ᵥ ψ) = (sign • (s * cj H)) *ᵥ star ψ) := by
    intro ψ
    unfold anti
    rw [star_mulVec', mulVec_mulVec, mulVec_mulVec, smul_mulVec]
    exact ⟨rfl, rfl⟩
  constructor
  · intro h ψ
    rw [(key ψ).1, (key ψ).2, h]
  · intro h
    refine mat_ext fun φ => ?_
    have := h (star φ)
    rw [(key _).1, (key _).2, star_star] at this
    exact this

theorem lin_iff (H s : Mat n) (sign : ℂ) :
    H * s = sign • (s * H) ↔ ∀ ψ, H *ᵥ (s *ᵥ ψ) = sign • (s *ᵥ (H *ᵥ ψ)) := by
  simp only [mulVec_mulVec, ← smul_mulVec]
  exact ⟨fun h ψ => by rw [h], fun h => mat_ext h⟩

/-- **C69**: `validate` lists exactly the broken symmetries, in the documented order and without repetition, for square and for
rectangular matrices; `H` is the matrix padded with zero columns.  Time reversal has to commute with the Hamiltonian as an operator on
wave functions, particle-hole and chiral symmetry have to anticommute with it, the projectors have to commute with it. -/
theorem C69_validate {m : ℕ} {ps : Option (List (Proj n))} {T P C : Option (Mat n)} {st : Stored n} (h : init ps T P C = .ok st)
    (a : Matrix (Fin n) (Fin m) ℂ) (H : Mat n) (hH : ∀ i j, (∀ hj : j.val < m, H i j = a i ⟨j.val, hj⟩) ∧ (m ≤ j.val → H i j = 0)) :
    (validate st a).Sublist ["Conservation law", "Time reversal", "Particle-hole", "Chiral"] ∧
    ("Conservation law" ∈ validate st a ↔ ∃ qs, st.projectors = some qs ∧ ∃ q ∈ qs, full q * H ≠ H * full q) ∧
    ("Time reversal" ∈ validate st a ↔ ∃ t, st.T = some t ∧ ∃ ψ, H *ᵥ anti t ψ ≠ anti t (H *ᵥ ψ)) ∧
    ("Particle-hole" ∈ validate st a ↔ ∃ p, st.P = some p ∧ ∃ ψ, H *ᵥ anti p ψ ≠ -anti p (H *ᵥ ψ)) ∧
    ("Chiral" ∈ validate st a ↔ ∃ c, st.C = some c ∧ ∃ ψ, H *ᵥ (c *ᵥ ψ) ≠ -(c *ᵥ (H *ᵥ ψ))) := by
  have hpad : pad a = H := by
    ext i j
    unfold pad
    split
    · next hj => exact ((hH i j).1 hj).symm
    · next hj => exact ((hH i j).2 (by omega)).symm
  obtain ⟨hv, -⟩ := C60_accepted h
  unfold validate
  rw [hpad]
  have hcomm : ∀ q : Proj n, commutes q H ↔ full q * H = H * full q := by
    intro q
    unfold commutes
    rw [transpose_mul, transpose_transpose, transpose_transpose, sub_eq_zero]
  have hb : ∀ (symm : Option (Mat n)) (conj : Bool) (sign : ℂ) (name : String), (broken symm conj sign name H).Sublist [name] := by
    intro symm conj sign name
    unfold broken
    cases symm with
    | none => simp
    | some s => dsimp only; split <;> simp
  have hbm : ∀ (symm : Option (Mat n)) (conj : Bool) (sign : ℂ) (name : String) (x : String), x ≠ name →
      (x ∈ broken symm conj sign name H ↔ False) := by
    intro symm conj sign name x hx
    refine ⟨fun h => hx ?_, fun h => h.elim⟩
    have := (hb symm conj sign name).subset h
    simpa using this
  have hbr : ∀ (symm : Option (Mat n)) (conj : Bool) (sign : ℂ) (name : String), (∀ s, symm = some s → sᴴ * s = 1) →
      (name ∈ broken symm conj sign name H ↔ ∃ s, symm = some s ∧ ¬ H * s = sign • (s * condConj H conj)) := by
    intro symm conj sign name hs
    unfold broken
    cases symm with
    | none => simp
    | some s =>
      have := conj_iff (hs s rfl) H conj sign
      dsimp only
      by_cases hx : H * s = sign • (s * condConj H conj)
      · rw [if_pos (this.mpr hx)]; simp [hx]
      · rw [if_neg (fun hy => hx (this.mp hy))]; simp [hx]
  generalize hcl : brokenLaw st.projectors H = cl
  have hclm : ∀ x, x ∈ cl ↔ x = "Conservation law" ∧ ∃ qs, st.projectors = some qs ∧ ∃ q ∈ qs, full q * H ≠ H * full q := by
    intro x
    rw [← hcl]
    unfold brokenLaw
    cases st.projectors with
    | none => simp
    | some qs =>
      dsimp only
      by_cases hx : ∀ p ∈ qs, commutes p H
      · rw [if_pos hx]
        simp only [List.not_mem_nil, Option.some.injEq, exists_eq_left', false_iff, not_and, not_exists, not_not]
        intro _ q hq
        exact (hcomm q).mp (hx q hq)
      · rw [if_neg hx]
        push Not at hx
        obtain ⟨q, hq, hne⟩ := hx
        simp only [List.mem_singleton, Option.some.injEq, exists_eq_left', iff_self_and]
        intro _
        exact ⟨q, hq, fun he => hne ((hcomm q).mpr he)⟩
  have hcls : cl.Sublist ["Conservation law"] := by
    rw [← hcl]
    unfold brokenLaw
    cases st.projectors with
    | none => simp
    | some qs => dsimp only; split <;> simp
  have ht : ∀ s, st.T = some s → sᴴ * s = 1 := fun s hs => ((validT_iff s).mp (hv.time s hs)).1
  have hp : ∀ s, st.P = some s → sᴴ * s = 1 := fun s hs => ((validT_iff s).mp (hv.particle s hs)).1
  have hc : ∀ s, st.C = some s → sᴴ * s = 1 := fun s hs => ((validC_iff s).mp (hv.chiral s hs)).1
  refine ⟨?_, ?_, ?_, ?_, ?_⟩
  · exact hcls.append (((hb st.T true 1 "Time reversal").append (hb st.P true (-1) "Particle-hole")).append (hb st.C false (-1) "Chiral"))
  · simp only [List.mem_append, hclm, hbm _ _ _ "Time reversal" "Conservation law" (by decide), hbm _ _ _ "Particle-hole" "Conservation law" (by decide), hbm _ _ _ "Chiral" "Conservation law" (by decide), or_false, false_or]
    simp
  · simp only [List.mem_append, hclm, hbm _ _ _ "Particle-hole" "Time reversal" (by decide), hbm _ _ _ "Chiral" "Time reversal" (by decide), or_false, false_or]
    rw [or_iff_right (by simp), hbr _ _ _ _ ht]
    simp only [condConj, if_true, anti_iff]
    simp
  · simp only [List.mem_append, hclm, hbm _ _ _ "Time reversal" "Particle-hole" (by decide), hbm _ _ _ "Chiral" "Particle-hole" (by decide), or_false, false_or]
    rw [or_iff_right (by simp), hbr _ _ _ _ hp]
    simp only [condConj, if_true, anti_iff]
    simp
  · simp only [List.mem_append, hclm, hbm _ _ _ "Time reversal" "Chiral" (by decide), hbm _ _ _ "Particle-hole" "Chiral" (by decide), or_false, false_or]
    rw [or_iff_right (by simp), hbr _ _ _ _ hc]
    simp only [condConj, Bool.false_eq_true, if_false, lin_iff]
    simp

end Kwant.DiscSym
