import Verif.Continuum.LandauLadder
import Verif.Continuum.Herm

/-! Lemmas: the dict of the parts; the momenta of the plane as operators; Hermiticity. -/

set_option linter.unusedSectionVars false

namespace Kwant.Continuum
open Matrix

variable {m : ℕ}

/-! ### Momenta of the plane -/

/-- The coefficient of the raising operator. -/
noncomputable def kCoef (B : ℝ) : KM → ℂ
  | .k0 => (√(|B| / 2) : ℝ)
  | .k1 => (if B < 0 then -1 else 1) * -(Complex.I * (√(|B| / 2) : ℝ))

theorem kOp_eq (B : ℝ) (q : KM) (φ : ℕ → ℂ) : kOp B q φ = kCoef B q • raiseOp φ + star (kCoef B q) • lowerOp φ := by
  funext n
  cases q with
  | k0 =>
    simp only [kOp, kCoef, Pi.add_apply, Pi.smul_apply, smul_eq_mul, Complex.star_def, Complex.conj_ofReal]; ring
  | k1 =>
    have hs : star (if B < 0 then -1 else 1 : ℂ) = if B < 0 then -1 else 1 := by split <;> simp
    simp only [kOp, kCoef, Pi.add_apply, Pi.smul_apply, smul_eq_mul, star_mul', star_neg, hs]
    simp only [Complex.star_def, Complex.conj_ofReal, Complex.conj_I]; ring

theorem kOp_add (B : ℝ) (q : KM) (φ χ : ℕ → ℂ) : kOp B q (φ + χ) = kOp B q φ + kOp B q χ := by
  simp only [kOp_eq, raiseOp_add, lowerOp_add, smul_add]; abel

theorem kOp_smul (B : ℝ) (q : KM) (c : ℂ) (φ : ℕ → ℂ) : kOp B q (c • φ) = c • kOp B q φ := by
  simp only [kOp_eq, raiseOp_smul, lowerOp_smul, smul_add, smul_smul]
  rw [mul_comm c, mul_comm c]

theorem kwordOp_add (B : ℝ) (w : List KM) (φ χ : ℕ → ℂ) : kwordOp B w (φ + χ) = kwordOp B w φ + kwordOp B w χ := by
  induction w with
  | nil => rfl
  | cons q w ih =>
    change kOp B q (kwordOp B w (φ + χ)) = kOp B q (kwordOp B w φ) + kOp B q (kwordOp B w χ)
    rw [ih, kOp_add]

theorem kwordOp_smul (B : ℝ) (w : List KM) (c : ℂ) (φ : ℕ → ℂ) : kwordOp B w (c • φ) = c • kwordOp B w φ := by
  induction w with
  | nil => rfl
  | cons q w ih =>
    change kOp B q (kwordOp B w (c • φ)) = c • kOp B q (kwordOp B w φ)
    rw [ih, kOp_smul]

/-- The matrix element of a product of momenta between two levels. -/
noncomputable def kE (B : ℝ) (w : List KM) (n n' : ℕ) : ℂ := kwordOp B w (Pi.single n' 1) n

theorem kwordOp_sum (B : ℝ) (w : List KM) (φ : ℕ → ℂ) (N : ℕ) (h : ∀ k, N ≤ k → φ k = 0) (n : ℕ) :
    kwordOp B w φ n = ∑ n' : Fin N, kE B w n n' * φ n' := by
  have hφ : φ = ∑ n' : Fin N, φ n' • (Pi.single (n' : ℕ) (1 : ℂ) : ℕ → ℂ) := by
    funext k
    rw [Finset.sum_apply]
    by_cases hk : k < N
    · rw [Finset.sum_eq_single ⟨k, hk⟩]
      · simp
      · intro b _ hb
        have : k ≠ (b : ℕ) := fun e => hb (Fin.ext e.symm)
        simp [Pi.single_eq_of_ne this]
      · simp
    · rw [h k (by omega), Finset.sum_eq_zero]
      intro b _
      have : k ≠ (b : ℕ) := by have := b.2; omega
      simp [Pi.single_eq_of_ne this]
  have hlin : ∀ s : Finset (Fin N), kwordOp B w (∑ n' ∈ s, φ n' • (Pi.single (n' : ℕ) (1 : ℂ) : ℕ → ℂ)) = ∑ n' ∈ s, φ n' • kwordOp B w (Pi.single (n' : ℕ) 1) := by
    classical
    intro s
    induction s using Finset.induction_on with
    | empty =>
      rw [Finset.sum_empty, Finset.sum_empty]
      have := kwordOp_smul B w 0 (0 : ℕ → ℂ)
      simpa using this
    | insert a s ha ih => rw [Finset.sum_insert ha, Finset.sum_insert ha, kwordOp_add, kwordOp_smul, ih]
  conv_lhs => rw [hφ]
  rw [hlin, Finset.sum_apply]
  apply Finset.sum_congr rfl
  intro n' _
  simp only [Pi.smul_apply, smul_eq_mul, kE]; ring

theorem raise_single (n : ℕ) : raiseOp (Pi.single n 1) = ((√((n : ℝ) + 1) : ℝ) : ℂ) • (Pi.single (n + 1) (1 : ℂ) : ℕ → ℂ) := by
  funext k
  cases k with
  | zero => simp [raiseOp]
  | succ k =>
    simp only [raiseOp, Pi.smul_apply, smul_eq_mul]
    by_cases h : k = n
    · subst h; simp
    · rw [Pi.single_eq_of_ne h, Pi.single_eq_of_ne (by omega)]; simp

theorem lower_single_zero : lowerOp (Pi.single 0 1) = 0 := by
  funext k; simp [lowerOp]

theorem lower_single (n : ℕ) : lowerOp (Pi.single (n + 1) 1) = ((√((n : ℝ) + 1) : ℝ) : ℂ) • (Pi.single n (1 : ℂ) : ℕ → ℂ) := by
  funext k
  simp only [lowerOp, Pi.smul_apply, smul_eq_mul]
  by_cases h : k = n
  · subst h; simp
  · rw [Pi.single_eq_of_ne h, Pi.single_eq_of_ne (by omega)]; simp

/-- Products of the momenta are Hermitian up to the order of the factors. -/
theorem kE_adj (B : ℝ) (w : List KM) (n n' : ℕ) : star (kE B w n n') = kE B w.reverse n' n := by
  induction w generalizing n with
  | nil =>
    simp only [kE, kwordOp, List.foldr_nil, List.reverse_nil]
    by_cases h : n = n'
    · subst h; simp
    · rw [Pi.single_eq_of_ne h, Pi.single_eq_of_ne (Ne.symm h)]; simp
  | cons q w ih =>
    have hl : kE B (q :: w) n n' = kCoef B q * raiseOp (fun k => kE B w k n') n + star (kCoef B q) * lowerOp (fun k => kE B w k n') n := by
      change kOp B q (kwordOp B w (Pi.single n' 1)) n = _
      rw [kOp_eq]; rfl
    have hr : kE B (q :: w).reverse n' n = kCoef B q * kwordOp B w.reverse (raiseOp (Pi.single n 1)) n' +
        star (kCoef B q) * kwordOp B w.reverse (lowerOp (Pi.single n 1)) n' := by
      rw [List.reverse_cons]
      unfold kE kwordOp
      rw [List.foldr_append]
      change kwordOp B w.reverse (kOp B q (Pi.single n 1)) n' = _
      rw [kOp_eq, kwordOp_add, kwordOp_smul, kwordOp_smul]; rfl
    have hsq : ∀ r : ℝ, star ((r : ℝ) : ℂ) = r := fun r => Complex.conj_ofReal r
    rw [hl, hr, raise_single, kwordOp_smul, star_add, star_mul', star_mul', star_star]
    simp only [Pi.smul_apply, smul_eq_mul]
    have e1 : star (lowerOp (fun k => kE B w k n') n) = ((√((n : ℝ) + 1) : ℝ) : ℂ) * kwordOp B w.reverse (Pi.single (n + 1) 1) n' := by
      simp only [lowerOp, star_mul', hsq, ih]; rfl
    rw [e1]
    cases n with
    | zero =>
      rw [lower_single_zero]
      have hz : kwordOp B w.reverse 0 = 0 := by simpa using kwordOp_smul B w.reverse 0 (0 : ℕ → ℂ)
      rw [hz]; simp [raiseOp]
    | succ n =>
      rw [lower_single, kwordOp_smul]
      simp only [raiseOp, star_mul', hsq, ih, Pi.smul_apply, smul_eq_mul]
      change star (kCoef B q) * (_ * kE B w.reverse n' n) + _ = _ + star (kCoef B q) * (_ * kE B w.reverse n' n)
      ring

/-- Complex conjugation reverses the field. -/
theorem kE_star (B : ℝ) (hB : B < 0) (w : List KM) (n n' : ℕ) : star (kE B w n n') = kE |B| w n n' := by
  have hc : ∀ q, star (kCoef B q) = kCoef |B| q := by
    intro q
    cases q with
    | k0 => simp only [kCoef, abs_abs]; exact Complex.conj_ofReal _
    | k1 =>
      simp only [kCoef, abs_abs, if_pos hB, if_neg (not_lt.mpr (abs_nonneg B))]
      simp only [star_mul', star_neg, star_one, Complex.star_def, Complex.conj_I, Complex.conj_ofReal]; ring
  induction w generalizing n with
  | nil =>
    simp only [kE, kwordOp, List.foldr_nil]
    by_cases h : n = n'
    · subst h; simp
    · rw [Pi.single_eq_of_ne h]; simp
  | cons q w ih =>
    have hl : ∀ B, kE B (q :: w) n n' = kCoef B q * raiseOp (fun k => kE B w k n') n + star (kCoef B q) * lowerOp (fun k => kE B w k n') n := by
      intro B
      change kOp B q (kwordOp B w (Pi.single n' 1)) n = _
      rw [kOp_eq]; rfl
    have hsq : ∀ r : ℝ, star ((r : ℝ) : ℂ) = r := fun r => Complex.conj_ofReal r
    rw [hl, hl, star_add, star_mul', star_mul', hc]
    congr 2
    · cases n with
      | zero => simp [raiseOp]
      | succ n => simp only [raiseOp, star_mul', hsq, ih]
    · simp only [lowerOp, star_mul', hsq, ih]

/-! ### The substitution -/

/-- What the code makes of a word for either sign of the field. -/
noncomputable def seen (B : ℝ) (w : List Ladder) : List Ladder := if B < 0 then w.map Ladder.swap else w

theorem ladOp_add (l : Ladder) (φ χ : ℕ → ℂ) : ladOp l (φ + χ) = ladOp l φ + ladOp l χ := by
  cases l
  · exact raiseOp_add φ χ
  · exact lowerOp_add φ χ

theorem ladOp_smul (l : Ladder) (c : ℂ) (φ : ℕ → ℂ) : ladOp l (c • φ) = c • ladOp l φ := by
  cases l
  · exact raiseOp_smul c φ
  · exact lowerOp_smul c φ

theorem ladOp_zero (l : Ladder) : ladOp l 0 = 0 := by
  cases l
  · exact raiseOp_zero
  · exact lowerOp_zero

theorem expand_op (B : ℝ) (w : List KM) (φ : ℕ → ℂ) :
    ((expandK B w).map fun p => p.2 • ladderOp (seen B p.1) φ).sum = kwordOp B w φ := by
  induction w with
  | nil => simp [expandK, seen, ladderOp, kwordOp]
  | cons q w ih =>
    change _ = kOp B q (kwordOp B w φ)
    rw [← ih]
    have hlin : ∀ (l : Ladder) (c : ℂ) (L : List (List Ladder × ℂ)),
        (L.map fun r => (c * r.2) • ladderOp (seen B (l :: r.1)) φ).sum =
          c • ladOp (if B < 0 then l.swap else l) ((L.map fun r => r.2 • ladderOp (seen B r.1) φ).sum) := by
      intro l c L
      induction L with
      | nil => simp [ladOp_zero]
      | cons r L ihL =>
        simp only [List.map_cons, List.sum_cons, ihL, ladOp_add, ladOp_smul, smul_add, smul_smul]
        congr 2
        unfold seen
        split <;> rfl
    have hmap : ∀ (l : Ladder) (c : ℂ), (((expandK B w).map fun r => ((l :: r.1, c * r.2) : List Ladder × ℂ)).map fun p => p.2 • ladderOp (seen B p.1) φ).sum =
        c • ladOp (if B < 0 then l.swap else l) (((expandK B w).map fun r => r.2 • ladderOp (seen B r.1) φ).sum) := by
      intro l c
      rw [List.map_map]
      exact hlin l c _
    generalize ((expandK B w).map fun r => r.2 • ladderOp (seen B r.1) φ).sum = χ at *
    cases q with
    | k0 =>
      simp only [expandK, ladderSubs, List.flatMap_cons, List.flatMap_nil, List.append_nil, List.map_append, List.sum_append, hmap, kOp_eq, kCoef]
      by_cases hB : B < 0
      · simp only [hB, if_true, Ladder.swap, ladOp, landauS, Complex.star_def, Complex.conj_ofReal]; abel
      · simp only [hB, if_false, ladOp, landauS, Complex.star_def, Complex.conj_ofReal]
    | k1 =>
      simp only [expandK, ladderSubs, List.flatMap_cons, List.flatMap_nil, List.append_nil, List.map_append, List.sum_append, hmap, kOp_eq, kCoef]
      by_cases hB : B < 0
      · simp only [hB, if_true, Ladder.swap, ladOp, landauS, Complex.star_def, map_mul, map_neg, map_one, Complex.conj_I, Complex.conj_ofReal]
        simp
      · simp only [hB, if_false, ladOp, landauS, Complex.star_def, map_mul, map_neg, map_one, Complex.conj_I, Complex.conj_ofReal]
        simp only [one_mul, neg_mul, neg_neg]; abel

/-- **C136**: what `to_landau_basis` makes of the commutator `k_0 k_1 - k_1 k_0`, with `a` and `a†` exchanged for a negative field (as the
evaluation of the terms does), is the operator `-i B`; and each of the momenta is replaced by an operator that is the sum of its summands. -/
theorem landau_substituted (B : ℝ) (φ : ℕ → ℂ) :
    (((expandK B [.k0, .k1]).map fun p => p.2 • (p.1.map fun l => if B < 0 then l.swap else l).foldr ladOp φ).sum -
      ((expandK B [.k1, .k0]).map fun p => p.2 • (p.1.map fun l => if B < 0 then l.swap else l).foldr ladOp φ).sum = (-(Complex.I * B)) • φ) ∧
    ∀ q, ((ladderSubs B q).map fun p => p.2 • ladOp (if B < 0 then p.1.swap else p.1) φ).sum = kOp B q φ := by
  have hs : ∀ w : List Ladder, (w.map fun l => if B < 0 then l.swap else l) = seen B w := fun w => by
    unfold seen
    split
    · rfl
    · exact List.map_id' w
  constructor
  · have := landau_commutator B φ
    simp only [hs]
    exact (congrArg₂ (· - ·) (expand_op B [.k0, .k1] φ) (expand_op B [.k1, .k0] φ)).trans this
  · intro q
    have h := expand_op B [q] φ
    simp only [expandK, List.map_cons, List.map_nil, mul_one] at h
    rw [show kOp B q φ = kwordOp B [q] φ from rfl, ← h]
    clear h
    induction ladderSubs B q with
    | nil => rfl
    | cons p L ih =>
      rw [List.map_cons, List.sum_cons, ih, List.flatMap_cons, List.map_append, List.sum_append]
      simp [ladderOp, ← hs]

/-! ### The dict -/

theorem sum_summands {M : Type*} [AddCommMonoid M] (B : ℝ) (ham : Fin m → Fin m → List LTerm) (f : (Fin m × Fin m) × LTerm × (List Ladder × ℂ) → M) :
    ((landauSummands B ham).map f).sum = ∑ i, ∑ j, ((ham i j).map fun t => ((expandK B (kword t)).map fun p => f ((i, j), t, p)).sum).sum := by
  unfold landauSummands
  rw [← sum_pairs (fun ij => ((ham ij.1 ij.2).map fun t => ((expandK B (kword t)).map fun p => f (ij, t, p)).sum).sum)]
  generalize ((List.finRange m).flatMap fun i => (List.finRange m).map fun j => (i, j)) = L
  induction L with
  | nil => rfl
  | cons ij L ih =>
    rw [List.flatMap_cons, List.map_append, List.sum_append, ih, List.map_cons, List.sum_cons]
    congr 1
    induction ham ij.1 ij.2 with
    | nil => rfl
    | cons t T ihT => rw [List.flatMap_cons, List.map_append, List.sum_append, ihT, List.map_cons, List.sum_cons, List.map_map]; rfl

theorem mem_summands (B : ℝ) (ham : Fin m → Fin m → List LTerm) (e) : e ∈ landauSummands B ham ↔ e.2.1 ∈ ham e.1.1 e.1.2 ∧ e.2.2 ∈ expandK B (kword e.2.1) := by
  unfold landauSummands
  simp only [List.mem_flatMap, List.mem_map]
  constructor
  · rintro ⟨ij, -, t, ht, p, hp, rfl⟩; exact ⟨ht, hp⟩
  · rintro ⟨h1, h2⟩
    exact ⟨e.1, by simp, e.2.1, h1, e.2.2, h2, rfl⟩

/-- What the dict contains. -/
theorem dict_spec (kpar : Axis → ℂ) (ax : Axis) (B : ℝ) (ham : Fin m → Fin m → List LTerm) :
    ((landauDict kpar ax B ham).map Prod.fst).Nodup ∧
    (∀ k, k ∈ (landauDict kpar ax B ham).map Prod.fst ↔ ∃ e ∈ landauSummands B ham,
      k.2 = e.2.2.1 ∧ k.1 ∈ (extractHoppings [ax] (expand (word kpar [ax] (rest e.2.1)))).map Prod.fst) ∧
    (∀ (a x : Pos) (i j : Fin m) (k : List ℤ) (g : List Ladder → ℂ), k.length = 1 →
      ((landauDict kpar ax B ham).map fun p => if p.1.1 = k then g p.1.2 * p.2 a x i j else 0).sum =
        ((ham i j).map fun t => termVal kpar [ax] (rest t) a x k * ((expandK B (kword t)).map fun p => p.2 * g p.1).sum).sum) := by
  obtain ⟨h1, h2, h3⟩ := foldl_merge (M := ℂ) (landauSummands B ham)
    (fun e => (extractHoppings [ax] (discretizeSummand kpar [ax] (rest e.2.1))).map fun p => ((p.1, e.2.2.1), p.2))
    (fun e v => atEntry e.1.1 e.1.2 fun h x => e.2.2.2 * v h x) ([] : List (LKey × (Pos → Pos → Matrix (Fin m) (Fin m) ℂ))) (by simp)
  simp only [discretizeSummand_eq] at h1 h2 h3
  unfold landauDict
  simp only [discretizeSummand_eq]
  refine ⟨h1, ?_, ?_⟩
  · intro k
    rw [h2]
    simp only [List.map_nil, List.not_mem_nil, false_or, List.map_map, List.mem_map, Function.comp]
    constructor
    · rintro ⟨e, he, p, hp, rfl⟩; exact ⟨e, he, rfl, p, hp, rfl⟩
    · rintro ⟨e, he, h1, p, hp, h2⟩; exact ⟨e, he, p, hp, Prod.ext h2 h1.symm⟩
  · intro a x i j k g hk
    have := h3 (fun k' => { toFun := fun v => if k'.1 = k then g k'.2 * v a x i j else 0, map_zero' := by simp, map_add' := by intro v v'; split <;> simp [mul_add] })
    simp only [AddMonoidHom.coe_mk, ZeroHom.coe_mk, List.map_nil, List.sum_nil, zero_add] at this
    rw [this, sum_summands, Finset.sum_eq_single i, Finset.sum_eq_single j]
    · congr 1
      apply List.map_congr_left
      intro t _
      rw [← List.sum_map_mul_left]
      congr 1
      apply List.map_congr_left
      intro p _
      rw [List.map_map]
      have ht := (extract_spec [ax] (by simp) _ (word_cnt_zero kpar [ax] (rest t))).2.2 a x k hk
      unfold termVal
      rw [← ht, ← List.sum_map_mul_right]
      congr 1
      apply List.map_congr_left
      intro q _
      simp only [Function.comp, atEntry, and_self, if_true]
      split
      · ring
      · simp
    · intro j' _ hj
      have hj' : ¬ j = j' := fun e => hj e.symm
      simp [atEntry, hj', Function.comp_def]
    · simp
    · intro i' _ hi
      have hi' : ¬ i = i' := fun e => hi e.symm
      simp [atEntry, hi', Function.comp_def]
    · simp

theorem dict_key_len (kpar : Axis → ℂ) (ax : Axis) (B : ℝ) (ham : Fin m → Fin m → List LTerm) (k : LKey) (hk : k ∈ (landauDict kpar ax B ham).map Prod.fst) :
    k.1.length = 1 := by
  obtain ⟨e, -, -, h⟩ := ((dict_spec kpar ax B ham).2.1 k).mp hk
  obtain ⟨o, ho, -⟩ := ((extract_spec [ax] (by simp) _ (word_cnt_zero kpar [ax] (rest e.2.1))).1 k.1).mp h
  rw [ho]; rfl

theorem dict_key_neg (kpar : Axis → ℂ) (ax : Axis) (B : ℝ) (ham : Fin m → Fin m → List LTerm) (k : LKey) (hk : k ∈ (landauDict kpar ax B ham).map Prod.fst) :
    (negKey k.1, k.2) ∈ (landauDict kpar ax B ham).map Prod.fst := by
  obtain ⟨e, he, h1, h⟩ := ((dict_spec kpar ax B ham).2.1 k).mp hk
  refine ((dict_spec kpar ax B ham).2.1 _).mpr ⟨e, he, h1, ?_⟩
  have hs := (extract_spec [ax] (by simp) _ (word_cnt_zero kpar [ax] (rest e.2.1))).1
  obtain ⟨o, ho, hb⟩ := (hs k.1).mp h
  refine (hs _).mpr ⟨fun c => -o c, by simp [ho, negKey], ?_⟩
  intro c hc
  have := hb c hc
  simpa using this

/-! ### Hermiticity -/

theorem kword_append (s t : LTerm) : kword (s ++ t) = kword s ++ kword t := by
  induction s with
  | nil => rfl
  | cons f s ih => cases f <;> simp [kword, ih]

theorem rest_append (s t : LTerm) : rest (s ++ t) = rest s ++ rest t := by
  induction s with
  | nil => rfl
  | cons f s ih => cases f <;> simp [rest, ih]

theorem kword_adj (t : LTerm) : kword (adjL t) = (kword t).reverse := by
  induction t with
  | nil => rfl
  | cons f t ih =>
    have e : adjL (f :: t) = adjL t ++ adjL [f] := by simp [adjL]
    rw [e, kword_append, ih]
    cases f with
    | k q e => simp [adjL, kword]
    | other f => cases f <;> simp [adjL, kword]

theorem rest_adj (t : LTerm) : rest (adjL t) = adjTerm (rest t) := by
  induction t with
  | nil => rfl
  | cons f t ih =>
    have e : adjL (f :: t) = adjL t ++ adjL [f] := by simp [adjL]
    rw [e, rest_append, ih]
    cases f with
    | k q e => simp [adjL, rest]
    | other f => cases f <;> simp [adjL, rest, adjTerm]

/-- The level that the code starts from and the level that it ends at. -/
noncomputable def kSeen (B : ℝ) (w : List KM) (n n' : ℕ) : ℂ := if B < 0 then kE B w n' n else kE B w n n'

theorem kSeen_adj (B : ℝ) (w : List KM) (n n' : ℕ) : star (kSeen B w n n') = kSeen B w.reverse n' n := by
  unfold kSeen; split <;> exact kE_adj _ _ _ _

/-- The value between two sites. -/
noncomputable def gVal (kpar : Axis → ℂ) (ax : Axis) (B : ℝ) (ham : Fin m → Fin m → List LTerm) (a x : Pos) (k : List ℤ) (n n' : ℕ) : Matrix (Fin m) (Fin m) ℂ :=
  fun i j => ((ham i j).map fun t => termVal kpar [ax] (rest t) a x k * kSeen B (kword t) n n').sum

theorem gVal_adj (kpar : Axis → ℂ) (hk : ∀ c, star (kpar c) = kpar c) (ax : Axis) (B : ℝ) (ham : Fin m → Fin m → List LTerm) (hh : LandauHermitian ham)
    (a x : Pos) (k : List ℤ) (hl : k.length = 1) (n n' : ℕ) :
    gVal kpar ax B ham a (gridAt [ax] k a x) (negKey k) n' n = (gVal kpar ax B ham a x k n n')ᴴ := by
  ext j i
  rw [Matrix.conjTranspose_apply]
  unfold gVal
  obtain ⟨l, hperm, hl2⟩ := hh i j
  rw [(hperm.map _).sum_eq]
  have : (l.map fun t => termVal kpar [ax] (rest t) a (gridAt [ax] k a x) (negKey k) * kSeen B (kword t) n' n) =
      ((ham i j).map adjL).map fun t => termVal kpar [ax] (rest t) a (gridAt [ax] k a x) (negKey k) * kSeen B (kword t) n' n := by
    clear hperm
    generalize (ham i j).map adjL = l' at hl2
    induction hl2 with
    | nil => rfl
    | cons h _ ih => rw [List.map_cons, List.map_cons, ih, termVal_congr kpar [ax] h.2, h.1]
  rw [this, List.map_map, ← starRingEnd_apply, map_list_sum, List.map_map]
  congr 1
  apply List.map_congr_left
  intro t _
  simp only [Function.comp, starRingEnd_apply, star_mul', kSeen_adj, kword_adj, rest_adj]
  rw [termVal_adj kpar hk [ax] (by simp) (rest t) a x k hl]

end Kwant.Continuum
