import Verif.Leads.SymBlock

/-!
C114: the theorems about `modes`.
-/

set_option linter.unusedSectionVars false

namespace Kwant.Leads
open Matrix Complex Filter

variable {n : ℕ}

/-! ### Hypotheses -/

/-- No discrete symmetry maps a block to itself. -/
def NoInner (P : Projectors n) (sy : Symm n) : Prop := ∀ b, symTr P sy b b = none ∧ symPh P sy b b = none ∧ symChiral P sy b b = none

/-- A Hermitian lead at an energy that is not at a band edge and at which there is no flat band, with conservation laws and discrete symmetries; the numerical routines
fulfil their contracts, and their tolerances are small enough for this lead. -/
structure LeadOk (e : ModesNum) (P : Projectors n) (sy : Symm n) (h hop : Matrix (Fin n) (Fin n) ℂ) : Prop where
  proj : P.Ok h hop
  symm : SymmOk P sy h hop
  /-- The symmetries that map a block to itself (`NoInner`: there are none) do not prevent `make_proper_modes` from working. -/
  inner : ∀ b, Benign (e.num (P.dim b)).mode (innerSymm P sy b) (P.blk h b b) (P.blk hop b b)
  herm : h.IsHermitian
  edge : NoBandEdge h hop
  flat : NoFlatBand h hop
  infinite : ∀ s0, e.stab = some (s0, true) → NoInfinite h hop
  num : ∀ b, (e.num (P.dim b)).Ok (P.blk hop b b)
  cut : ∀ b, CutExact (e.num (P.dim b)).lin (P.blk hop b b)
  sep : ∀ b L, setupLinsys (e.num (P.dim b)).lin (P.blk h b b) (P.blk hop b b) e.stab = .ok L → WellSeparated (e.num (P.dim b)) L

theorem NoInner.eq {P : Projectors n} {sy : Symm n} (hn : NoInner P sy) (b : Fin P.nb) : innerSymm P sy b = ⟨none, none, none⟩ := by
  obtain ⟨h1, h2, h3⟩ := hn b
  rw [innerSymm, h1, h2, h3]

theorem NoInner.benign {P : Projectors n} {sy : Symm n} (hn : NoInner P sy) (e : ModesNum) (h hop : Matrix (Fin n) (Fin n) ℂ) (b : Fin P.nb) :
    Benign (e.num (P.dim b)).mode (innerSymm P sy b) (P.blk h b b) (P.blk hop b b) := by
  rw [hn.eq b]
  exact Benign.none _ _ _

/-! ### The blocks -/

variable {e : ModesNum} {P : Projectors n} {sy : Symm n} {h hop : Matrix (Fin n) (Fin n) ℂ}

theorem block_herm (hh : h.IsHermitian) (b : Fin P.nb) : (P.blk h b b).IsHermitian := by
  rw [IsHermitian, ← Projectors.blk_conjTranspose, hh.eq]

theorem proj_inj (hP : P.Ok h hop) (b : Fin P.nb) {ψ : Fin (P.dim b) → ℂ} (h0 : P.proj b *ᵥ ψ = 0) : ψ = 0 := by
  have := congrArg ((P.proj b)ᴴ *ᵥ ·) h0
  simp only [mulVec_mulVec, hP.orthonormal, one_mulVec, mulVec_zero] at this
  exact this

theorem block_edge (hP : P.Ok h hop) (he : NoBandEdge h hop) (b : Fin P.nb) : NoBandEdge (P.blk h b b) (P.blk hop b b) := by
  intro k ψ hψ hφ
  refine proj_inj hP b (he k _ (isBloch_proj hP (Complex.exp_ne_zero _) b hψ) ?_)
  intro φ h1
  rw [velK_eq, velMu_proj hP, dotProduct_mulVec]
  have h2 := hφ _ (isBloch_block hP (Complex.exp_ne_zero _) h1 b)
  rw [star_mulVec, conjTranspose_conjTranspose] at h2
  exact h2

theorem block_flat (hP : P.Ok h hop) (hf : NoFlatBand h hop) (b : Fin P.nb) : NoFlatBand (P.blk h b b) (P.blk hop b b) := by
  obtain ⟨μ, h0, h1⟩ := hf
  exact ⟨μ, h0, fun ψ hψ => proj_inj hP b (h1 _ (isBloch_proj hP h0 b hψ))⟩

theorem block_infinite (hP : P.Ok h hop) (hi : NoInfinite h hop) (b : Fin P.nb) : NoInfinite (P.blk h b b) (P.blk hop b b) := by
  intro ψ φ h1 h2
  refine proj_inj hP b (hi _ (P.proj b *ᵥ φ) ?_ ?_)
  · rw [mulVec_mulVec, Projectors.mul_proj hP.complete hP.hop, ← mulVec_mulVec, h1, mulVec_zero]
  · rw [mulVec_mulVec, mulVec_mulVec, Projectors.mul_proj hP.complete hP.hop, Projectors.mul_proj hP.complete hP.cell, ← mulVec_mulVec, ← mulVec_mulVec, h2]

theorem LeadOk.blocks (ho : LeadOk e P sy h hop) : BlocksOk e P sy h hop := by
  intro b m hm
  exact C113_block_sym _ (ho.num b) (block_herm ho.herm b) (ho.cut b) (block_edge ho.proj ho.edge b) (block_flat ho.proj ho.flat b)
    (fun s0 hs0 => block_infinite ho.proj (ho.infinite s0 hs0) b) (ho.sep b) _ (inner_related ho.proj ho.symm b) (ho.inner b) hm

/-! ### The lead -/

theorem padRows_cut {m r : ℕ} (hm : m ≤ n) {v : Matrix (Fin n) (Fin r) ℂ} (hv : ∀ x : Fin n, m ≤ x.val → ∀ i, v x i = 0) : padRows (v.submatrix (Fin.castLE hm) id) = v := by
  ext x i
  change (if h : x.val < m then v.submatrix (Fin.castLE hm) id ⟨x.val, h⟩ i else 0) = _
  split
  · rfl
  · exact (hv x (by omega) i).symm

/-- The rows that `modes` cuts away are zero. -/
theorem rows_zero {m r : ℕ} {hhop : Matrix (Fin n) (Fin m) ℂ} {u v : Matrix (Fin n) (Fin r) ℂ} (hf : padHop hhop = u * vᴴ) (hu : ∀ x, u *ᵥ x = 0 → x = 0) :
    ∀ x : Fin n, m ≤ x.val → ∀ i, v x i = 0 := by
  intro x hx i
  have h1 : u *ᵥ (fun i => star (v x i)) = 0 := by
    ext y
    have : (u *ᵥ fun i => star (v x i)) y = (u * vᴴ) y x := rfl
    rw [this, ← hf]
    change (if h : x.val < m then _ else _) = _
    rw [dif_neg (by omega)]
    rfl
  have := congrFun (hu _ h1) i
  rw [Pi.zero_apply, star_eq_zero] at this
  exact this

theorem sigma_lt {nb : ℕ} {p : Fin nb → ℕ} {i j : Fin (∑ b, p b)} (hij : i < j) :
    (finSigmaFinEquiv.symm i).1 < (finSigmaFinEquiv.symm j).1 ∨ ∃ h : (finSigmaFinEquiv.symm i).1 = (finSigmaFinEquiv.symm j).1,
      (finSigmaFinEquiv.symm i).2.val < (finSigmaFinEquiv.symm j).2.val := by
  generalize hc : finSigmaFinEquiv.symm i = c
  generalize hd : finSigmaFinEquiv.symm j = d
  have hi : i = finSigmaFinEquiv c := by rw [← hc, Equiv.apply_symm_apply]
  have hj : j = finSigmaFinEquiv d := by rw [← hd, Equiv.apply_symm_apply]
  obtain ⟨b, c⟩ := c
  obtain ⟨b', d⟩ := d
  dsimp only
  have e1 : i.val = ∑ x : Fin b.val, p (Fin.castLE b.2.le x) + c.val := by rw [hi, finSigmaFinEquiv_apply]
  have e2 : j.val = ∑ x : Fin b'.val, p (Fin.castLE b'.2.le x) + d.val := by rw [hj, finSigmaFinEquiv_apply]
  have hlt : i.val < j.val := hij
  rcases lt_trichotomy b b' with h | h | h
  · exact .inl h
  · subst h
    refine .inr ⟨rfl, ?_⟩
    rw [e1, e2] at hlt
    omega
  · exfalso
    have hle : ∑ x : Fin b'.val, p (Fin.castLE b'.2.le x) + p b' ≤ ∑ x : Fin b.val, p (Fin.castLE b.2.le x) := by
      have f1 : ∀ (k : ℕ) (hk : k ≤ nb), ∑ x : Fin k, p (Fin.castLE hk x) = ∑ x ∈ Finset.range k, if hx : x < nb then p ⟨x, hx⟩ else 0 := by
        intro k hk
        rw [Finset.sum_range]
        refine Finset.sum_congr rfl fun x _ => ?_
        rw [dif_pos (by omega)]
        rfl
      rw [f1 _ b'.2.le, f1 _ b.2.le]
      have : p b' = if hx : b'.val < nb then p ⟨b'.val, hx⟩ else 0 := by rw [dif_pos b'.2]
      rw [this, ← Finset.sum_range_succ]
      refine Finset.sum_le_sum_of_subset ?_
      intro x hx
      rw [Finset.mem_range] at hx ⊢
      have : b'.val < b.val := h
      omega
    have := c.2
    have hd2 := d.2
    rw [e1, e2] at hlt
    omega

/-- The modes that `modes` puts together. -/
theorem lead_spec {m : ℕ} (hm : m ≤ n) {hhop : Matrix (Fin n) (Fin m) ℂ} (hP : P.Ok h (padHop hhop)) {bm : (b : Fin P.nb) → BM (P.dim b)}
    (hb : ∀ b, (∃ s, (bm b).Spec (P.blk h b b) (P.blk (padHop hhop) b b) s ∧ (sy.ph = none → sy.chiral = none → ∀ i, s i = 1)) ∧ (bm b).Directed ∧
      (sy = ⟨none, none, none⟩ → (∀ a b, a ≠ b → ¬(SameBlock P h a b ∧ SameBlock P (padHop hhop) a b)) → (bm b).Sorted)) :
    ModesSpec P sy h hhop (leadOf hm ((List.finRange P.nb).map fun b => (bm b).p) (joinModes P bm)) := by
  have h1 : ∀ b, ∃ s, (bm b).Spec (P.blk h b b) (P.blk (padHop hhop) b b) s ∧ (sy.ph = none → sy.chiral = none → ∀ i, s i = 1) := fun b => (hb b).1
  choose s hs1 hs2 using h1
  obtain ⟨hj, hd1, hd2⟩ := join_spec hP hs1 fun b => (hb b).2.1
  obtain ⟨u, hf, hu, _⟩ := hj.solves
  have hrow := padRows_cut hm (rows_zero hf hu)
  refine ⟨⟨groupHalves s, ?_, ?_⟩, ?_, hd1, hd2, ?_⟩
  · have := hj
    unfold BM.Spec at this
    rw [← hrow] at this
    exact this
  · intro g1 g2 i
    rcases i with i | i
    · exact hs2 _ g1 g2 _
    · exact hs2 _ g1 g2 _
  · have := hj.number
    simp only [Fintype.card_sum, Fintype.card_fin] at this
    change (joinModes P bm).p + (joinModes P bm).q = (joinModes P bm).r
    omega
  · intro nm hnm
    cases hnm
    have hrange : ∀ (b : Fin P.nb) (x : Fin (P.dim b) → ℂ), (P.proj b * (P.proj b)ᴴ) *ᵥ (P.proj b *ᵥ x) = P.proj b *ᵥ x := by
      intro b x
      rw [mulVec_mulVec, Matrix.mul_assoc, hP.orthonormal, Matrix.mul_one]
    refine ⟨fun i => (finSigmaFinEquiv.symm i).1, ?_, ?_, ?_, ?_, ?_⟩
    · intro i j hij
      rcases hij.lt_or_eq with h2 | h2
      · rcases sigma_lt h2 with h3 | ⟨h3, _⟩
        · exact h3.le
        · exact h3.le
      · rw [h2]
    · refine List.map_congr_left fun b _ => ?_
      change (bm b).p = (Finset.univ.filter fun i : Fin (∑ b, (bm b).p) => (finSigmaFinEquiv.symm i).1 = b).card
      rw [← Fintype.card_subtype]
      have e1 : {i : Fin (∑ b, (bm b).p) // (finSigmaFinEquiv.symm i).1 = b} ≃ {c : Σ b, Fin (bm b).p // c.1 = b} :=
        finSigmaFinEquiv.symm.subtypeEquiv fun i => Iff.rfl
      rw [Fintype.card_congr e1, Fintype.card_congr (Equiv.sigmaSubtype b)]
      simp
    · intro i
      exact hrange (finSigmaFinEquiv.symm i).1 ((bm (finSigmaFinEquiv.symm i).1).wf.col (.inl (finSigmaFinEquiv.symm i).2))
    · intro i
      exact hrange (finSigmaFinEquiv.symm i).1 ((bm (finSigmaFinEquiv.symm i).1).wf.col (.inr (finSigmaFinEquiv.symm i).2))
    · intro g1 g2 i j hij hblk
      have hsort : ∀ (c d : Σ b, Fin (bm b).p), c.1 = d.1 → c.2.val < d.2.val →
          ((bm c.1).mom (.inl c.2) < (bm d.1).mom (.inl d.2) ∨ ((bm c.1).mom (.inl c.2) = (bm d.1).mom (.inl d.2) ∧ (bm c.1).vel (.inl c.2) ≤ (bm d.1).vel (.inl d.2))) ∧
          ((bm d.1).mom (.inr d.2) < (bm c.1).mom (.inr c.2) ∨ ((bm c.1).mom (.inr c.2) = (bm d.1).mom (.inr d.2) ∧ (bm c.1).vel (.inr c.2) ≤ (bm d.1).vel (.inr d.2))) := by
        rintro ⟨b, c⟩ ⟨b', d⟩ h1 h2
        dsimp only at h1
        subst h1
        obtain ⟨s1, s2⟩ := (hb b).2.2 g1 g2
        exact ⟨s1 c d h2, s2 c d h2⟩
      refine hsort (finSigmaFinEquiv.symm i) (finSigmaFinEquiv.symm j) hblk ?_
      rcases sigma_lt hij with h3 | ⟨_, h3⟩
      · exact absurd hblk (ne_of_lt h3)
      · exact h3

/-- The lead without hopping: there are no modes. -/
theorem empty_spec {m : ℕ} {hhop : Matrix (Fin n) (Fin m) ℂ} (h0 : hhop = 0) (hf : NoFlatBand h (padHop hhop)) : ModesSpec P sy h hhop (emptyModes n m) := by
  have hpad : (padHop hhop : Matrix (Fin n) (Fin n) ℂ) = 0 := by
    rw [h0]
    ext i j
    change (if h : j.val < m then _ else _) = _
    split <;> rfl
  rw [hpad] at hf
  have hemp : IsEmpty (Fin (emptyModes n m).p ⊕ Fin (emptyModes n m).p) := ⟨fun x => Sum.elim Fin.elim0 Fin.elim0 x⟩
  refine ⟨⟨fun _ => 1, ⟨?_, fun i => hemp.elim i, fun i => hemp.elim i, fun i => hemp.elim i, fun i => hemp.elim i, fun i => hemp.elim i, ?_, fun i => hemp.elim i, ?_, ?_, ?_⟩,
    fun _ _ _ => rfl⟩, rfl, fun i => Fin.elim0 i, fun i => Fin.elim0 i, ?_⟩
  · simp only [Fintype.card_sum, Fintype.card_fin]
    rfl
  · intro k ψ hψ
    obtain ⟨μ, hμ, h1⟩ := hf
    refine ⟨fun _ => 0, fun _ _ => rfl, ?_⟩
    have h2 : IsBloch h 0 μ ψ := by
      rw [hpad, isBloch_iff _ _ (Complex.exp_ne_zero _)] at hψ
      rw [isBloch_iff _ _ hμ]
      simpa using hψ
    rw [h1 ψ h2]
    ext x
    rw [mulVec, dotProduct]
    simp
  · refine ⟨0, ?_, fun x _ => funext fun i => Fin.elim0 i, fun i => hemp.elim i, 0, 0, fun a => Fin.elim0 a, ?_, ?_, ?_⟩
    · rw [hpad, Matrix.zero_mul]
    · exact Matrix.ext fun i => Fin.elim0 i
    · exact Matrix.ext fun i => Fin.elim0 i
    · exact Matrix.ext fun _ j => Fin.elim0 j
  · exact Matrix.ext fun i j => (by rcases i with i | i; exact hemp.elim i; exact Fin.elim0 i)
  · exact fun c _ _ => funext fun i => Fin.elim0 i
  · intro nm hnm
    cases hnm

/-- **C114**: the modes of a lead. -/
theorem C114_modes {projectors : Option (Projectors n)} {m : ℕ} {hhop : Matrix (Fin n) (Fin m) ℂ} (ho : LeadOk e (projectors.getD (Projectors.default n)) sy h (padHop hhop))
    {M : LeadModes n m} (hM : modes e projectors sy h hhop = .ok M) : ModesSpec (projectors.getD (Projectors.default n)) sy h hhop M := by
  rw [modes] at hM
  split at hM
  · rename_i h0
    cases hM
    exact empty_spec h0 ho.flat
  · split at hM
    · rename_i hm
      generalize projectors.getD (Projectors.default n) = P at *
      dsimp only at hM
      split at hM
      · cases hM
      rename_i st hst
      split at hM
      · rename_i hs
        cases hM
        obtain ⟨h1, _, _⟩ := runModes_spec ho.proj ho.symm ho.blocks (pairs P.nb) (fun b m hm => by cases hm) hst
        exact lead_spec hm ho.proj fun b => h1 b _ (Option.some_get (hs b)).symm
      · cases hM
    · cases hM

/-! ### Errors -/

theorem pairs_pairwise (nb : ℕ) : (pairs nb).Pairwise fun x y => x.1 < y.1 ∨ (x.1 = y.1 ∧ x.2 < y.2) := by
  rw [pairs, List.pairwise_flatMap]
  constructor
  · intro i _
    rw [List.pairwise_map]
    refine List.Pairwise.imp ?_ (List.Pairwise.filter _ (List.pairwise_lt_finRange nb))
    intro a b hab
    exact .inr ⟨rfl, hab⟩
  · refine List.Pairwise.imp ?_ (List.pairwise_lt_finRange nb)
    intro a b hab x hx y hy
    simp only [List.mem_map] at hx hy
    obtain ⟨_, _, rfl⟩ := hx
    obtain ⟨_, _, rfl⟩ := hy
    exact .inl hab

theorem runModes_error (ho : LeadOk e P sy h hop) (l : List (Fin P.nb × Fin P.nb)) (hl : l.Pairwise fun x y => x.1 < y.1 ∨ (x.1 = y.1 ∧ x.2 < y.2)) (hle : ∀ x ∈ l, x.1 ≤ x.2)
    {st : BState P} (hst : Inv P sy h hop st) (hfull : ∀ x ∈ l, (x.1, x.1) ∈ l ∨ (st x.1).isSome) {x : LErr} (hx : runModes e P sy h hop l st = .error x) :
    ∃ b, computeBlockModes (e.num (P.dim b)) (innerSymm P sy b) (e.junk b) (P.blk h b b) (P.blk hop b b) e.stab = .error x := by
  induction l generalizing st with
  | nil => cases hx
  | cons a l ih =>
    obtain ⟨i, j⟩ := a
    rw [runModes] at hx
    split at hx
    · rename_i y hy
      cases hx
      rw [modesStep] at hy
      by_cases hij : i = j
      · rw [if_pos hij] at hy
        split at hy
        · cases hy
        · split at hy
          · rename_i z hz
            cases hy
            exact ⟨i, hz⟩
          · rename_i m hm
            obtain ⟨M, h1, _⟩ := halves_spec (ho.blocks i m hm)
            rw [h1] at hy
            cases hy
      · rw [if_neg hij] at hy
        split at hy
        · cases hy
        · split at hy
          · cases hy
          · split at hy
            · cases hy
            · split at hy
              · rename_i hi
                exfalso
                rcases hfull (i, j) List.mem_cons_self with h1 | h1
                · rcases List.mem_cons.mp h1 with h2 | h2
                  · exact hij (Prod.mk.inj h2).2
                  · have h3 := (List.pairwise_cons.mp hl).1 _ h2
                    have h4 := hle (i, j) List.mem_cons_self
                    rcases h3 with h3 | ⟨_, h3⟩
                    · exact absurd h3 (lt_irrefl _)
                    · exact absurd h3 (not_lt.mpr h4)
                · rw [hi] at h1
                  cases h1
              · cases hy
    · rename_i st1 h1
      obtain ⟨a1, a2, a3⟩ := modesStep_spec ho.proj ho.symm ho.blocks hst h1
      refine ih (List.pairwise_cons.mp hl).2 (fun x hx => hle x (List.mem_cons_of_mem _ hx)) a1 ?_ hx
      intro y hy
      rcases hfull y (List.mem_cons_of_mem _ hy) with h2 | h2
      · rcases List.mem_cons.mp h2 with h3 | h3
        · right
          obtain ⟨h4, h5⟩ := Prod.mk.inj h3
          rw [h4]
          exact a3 (h4.symm.trans h5)
        · exact .inl h3
      · exact .inr (a2 _ h2)

/-- C114: the only errors are those of the calculation of the modes of a block (see C113), and of a hopping of the wrong size. -/
theorem C114_error {projectors : Option (Projectors n)} {m : ℕ} {hhop : Matrix (Fin n) (Fin m) ℂ} (ho : LeadOk e (projectors.getD (Projectors.default n)) sy h (padHop hhop)) {x : LErr}
    (hx : modes e projectors sy h hhop = .error x) : (n < m ∧ x = .valueError) ∨
      ∃ b, computeBlockModes (e.num ((projectors.getD (Projectors.default n)).dim b)) (innerSymm (projectors.getD (Projectors.default n)) sy b) (e.junk b) ((projectors.getD (Projectors.default n)).blk h b b)
        ((projectors.getD (Projectors.default n)).blk (padHop hhop) b b) e.stab = .error x := by
  rw [modes] at hx
  split at hx
  · cases hx
  · split at hx
    · right
      generalize projectors.getD (Projectors.default n) = P at *
      dsimp only at hx
      split at hx
      · rename_i y hy
        cases hx
        refine runModes_error ho (pairs P.nb) (pairs_pairwise _) (fun x hx => (mem_pairs x.1 x.2).mp hx) (fun b m hm => by cases hm) ?_ hy
        intro x _
        exact .inl ((mem_pairs _ _).mpr le_rfl)
      · rename_i st hst
        exfalso
        split at hx
        · cases hx
        · rename_i hs
          obtain ⟨_, _, h3⟩ := runModes_spec ho.proj ho.symm ho.blocks (pairs P.nb) (fun b m hm => by cases hm) hst
          exact hs fun b => h3 b ((mem_pairs _ _).mpr le_rfl)
    · rename_i hm
      cases hx
      exact .inl ⟨not_le.mp hm, rfl⟩

end Kwant.Leads
