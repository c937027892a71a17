import Verif.Leads.Velocity

/-!
C109, second part: from one cluster to all modes.
-/

set_option linter.unusedSectionVars false

namespace Kwant.Leads
open Matrix Complex

variable {n r : ℕ}

section good
variable {h hop : Matrix (Fin n) (Fin n) ℂ} {u v : Matrix (Fin n) (Fin r) ℂ}

/-- What the loop over the clusters achieves. -/
structure Good (h hop : Matrix (Fin n) (Fin n) ℂ) (u v : Matrix (Fin n) (Fin r) ℂ) {N : ℕ} (lam : Fin N → ℂ) (psi : Matrix (Fin r ⊕ Fin r) (Fin N) ℂ)
    (full : Matrix (Fin n) (Fin N) ℂ) (vel : Fin N → ℝ) : Prop where
  link : ∀ i, Link h hop u v (lam i) (psi.col i) (full.col i)
  orth : ∀ i j, lam i = lam j → star (full.col i) ⬝ᵥ full.col j = if i = j then 1 else 0
  diag : ∀ i j, lam i = lam j → star (full.col i) ⬝ᵥ (velMu hop (lam i) *ᵥ full.col j) = if i = j then (vel i : ℂ) else 0
  complete : ∀ (μ : ℂ) ψ, ‖μ‖ = 1 → IsBloch h hop μ ψ → ∃ c : Fin N → ℂ, (∀ i, lam i ≠ μ → c i = 0) ∧ ψ = full *ᵥ c

theorem Link.smul {μ : ℂ} (hμ : μ ≠ 0) {x : Fin r ⊕ Fin r → ℂ} {ψ : Fin n → ℂ} (hl : Link h hop u v μ x ψ) (a : ℂ) : Link h hop u v μ (a • x) (a • ψ) := by
  constructor
  · rw [hl.1, mulVec_smul, mulVec_smul, smul_comm]
    ext i
    rcases i with i | i <;> rfl
  · have := (isBloch_iff h hop hμ _).mp hl.2
    rw [isBloch_iff h hop hμ, mulVec_smul, mulVec_smul, mulVec_smul, smul_comm μ, smul_comm μ⁻¹, ← smul_add, ← smul_add, this, smul_zero]

theorem Link.sub {μ : ℂ} (hμ : μ ≠ 0) {x y : Fin r ⊕ Fin r → ℂ} {ψ φ : Fin n → ℂ} (hl : Link h hop u v μ x ψ) (hl' : Link h hop u v μ y φ) :
    Link h hop u v μ (x - y) (ψ - φ) := by
  constructor
  · rw [hl.1, hl'.1, mulVec_sub, mulVec_sub, smul_sub]
    ext i
    rcases i with i | i <;> rfl
  · have h1 := (isBloch_iff h hop hμ _).mp hl.2
    have h2 := (isBloch_iff h hop hμ _).mp hl'.2
    rw [isBloch_iff h hop hμ, mulVec_sub, mulVec_sub, mulVec_sub, smul_sub, smul_sub, ← sub_eq_zero.mpr (h1.trans h2.symm)]
    abel

theorem mulVec_upd {R : Type} {N k : ℕ} {sel : Fin k → Fin N} (hs : Function.Injective sel) (a : Matrix R (Fin N) ℂ) (d : Fin k → ℂ) :
    a *ᵥ upd sel 0 d = a.submatrix id sel *ᵥ d := by
  ext x
  rw [mulVec, dotProduct, mulVec, dotProduct]
  have : ∑ j, a x j * upd sel 0 d j = ∑ j ∈ Finset.univ.map ⟨sel, hs⟩, a x j * upd sel 0 d j := by
    symm
    refine Finset.sum_subset (Finset.subset_univ _) fun j _ hj => ?_
    rw [upd_not, Pi.zero_apply, mul_zero]
    intro i hi
    exact hj (Finset.mem_map.mpr ⟨i, Finset.mem_univ _, hi⟩)
  rw [this, Finset.sum_map]
  refine Finset.sum_congr rfl fun i _ => ?_
  simp only [Function.Embedding.coeFn_mk, upd_sel hs, submatrix_apply, id_eq]

theorem upd_comp {N k : ℕ} {sel : Fin k → Fin N} (hs : Function.Injective sel) {c : Fin N → ℂ} (hc : ∀ j, (∀ i, sel i ≠ j) → c j = 0) :
    upd sel 0 (c ∘ sel) = c := by
  ext j
  by_cases hj : ∃ i, sel i = j
  · obtain ⟨i, rfl⟩ := hj
    rw [upd_sel hs]
    rfl
  · push Not at hj
    rw [upd_not _ _ hj, hc j hj]
    rfl

theorem flatten_unique {α : Type} {cs : List (List α)} (hn : cs.flatten.Nodup) {c c' : List α} (hc : c ∈ cs) (hc' : c' ∈ cs) {i : α} (hi : i ∈ c)
    (hi' : i ∈ c') : c = c' := by
  induction cs with
  | nil => exact absurd hc List.not_mem_nil
  | cons d ds ih =>
    rw [List.flatten_cons, List.nodup_append] at hn
    obtain ⟨_, h2, h3⟩ := hn
    rcases List.mem_cons.mp hc with h4 | h4
    · rcases List.mem_cons.mp hc' with h5 | h5
      · rw [h4, h5]
      · rw [h4] at hi
        exact absurd rfl (h3 i hi i (List.mem_flatten.mpr ⟨c', h5, hi'⟩))
    · rcases List.mem_cons.mp hc' with h5 | h5
      · rw [h5] at hi'
        exact absurd rfl (h3 i hi' i (List.mem_flatten.mpr ⟨c, h4, hi⟩))
      · exact ih h2 h4 h5

end good

section faithful
variable {h hop : Matrix (Fin n) (Fin n) ℂ} {L : Linsys n} {u : Matrix (Fin n) (Fin L.r) ℂ}

theorem unit_ne {μ : ℂ} (hμ : ‖μ‖ = 1) : μ ≠ 0 := by
  intro h0
  rw [h0, norm_zero] at hμ
  exact zero_ne_one hμ

theorem Link.zero (hf : Faithful h hop L u) {μ : ℂ} (hμ : μ ≠ 0) {ψ : Fin n → ℂ} (hl : Link h hop u L.v μ 0 ψ) : ψ = 0 := by
  have h1 : L.vᴴ *ᵥ ψ = 0 := by
    ext i
    exact (congrFun hl.1 (.inl i)).symm
  have h2 : uᴴ *ᵥ ψ = 0 := by
    ext i
    have := (congrFun hl.1 (.inr i)).symm
    exact (mul_eq_zero.mp this).resolve_left (inv_ne_zero hμ)
  have h3 := (isBloch_iff h hop hμ _).mp hl.2
  rw [hf.fact, conjTranspose_mul, conjTranspose_conjTranspose, ← mulVec_mulVec, h1, ← mulVec_mulVec, h2, mulVec_zero, mulVec_zero, smul_zero, smul_zero,
    add_zero, add_zero] at h3
  have := hf.unique (K := Fin 1) (of fun i _ => ψ i) ?_ ?_ ?_
  · ext i
    exact congrFun (congrFun this i) 0
  · ext i j
    exact congrFun h1 i
  · ext i j
    exact congrFun h2 i
  · ext i j
    exact congrFun h3 i

theorem Link.eq (hf : Faithful h hop L u) {μ : ℂ} (hμ : μ ≠ 0) {x : Fin L.r ⊕ Fin L.r → ℂ} {ψ φ : Fin n → ℂ} (hl : Link h hop u L.v μ x ψ)
    (hl' : Link h hop u L.v μ x φ) : ψ = φ := by
  have := Link.sub hμ hl hl'
  rw [sub_self] at this
  exact sub_eq_zero.mp (Link.zero hf hμ this)

theorem link_iff (hf : Faithful h hop L u) {μ : ℂ} (hμ : μ ≠ 0) (x : Fin L.r ⊕ Fin L.r → ℂ) (ψ : Fin n → ℂ) :
    Link h hop u L.v μ x ψ ↔ L.Solution μ x ∧ L.extract1 μ x = ψ := by
  constructor
  · intro hl
    -- a solution exists with these halves
    have hs : L.Solution μ x := by
      rw [solution_iff]
      have hsplit : (of fun j _ => x j : Matrix (Fin L.r ⊕ Fin L.r) (Fin 1) ℂ) =
          fromRows (of fun j _ => x (Sum.inl j)) (of fun j _ => x (Sum.inr j)) := by
        ext i j
        rcases i with i | i <;> rfl
      have h3 := (isBloch_iff h hop hμ _).mp hl.2
      rw [hf.fact, conjTranspose_mul, conjTranspose_conjTranspose, ← mulVec_mulVec, ← mulVec_mulVec] at h3
      have hx1 : (fun j => x (Sum.inl j)) = L.vᴴ *ᵥ ψ := by
        ext i; exact congrFun hl.1 (.inl i)
      have hx2 : (fun j => x (Sum.inr j)) = μ⁻¹ • (uᴴ *ᵥ ψ) := by
        ext i; exact congrFun hl.1 (.inr i)
      rw [hsplit, hf.pencil]
      refine ⟨of fun i _ => ψ i, ?_, ?_, ?_⟩
      · rw [Matrix.mul_one]
        ext i j
        exact congrFun hx1 i
      · ext i j
        rw [Matrix.mul_diagonal]
        have := congrFun hx2 i
        simp only [of_apply]
        rw [this, Pi.smul_apply, smul_eq_mul, mul_comm, mul_inv_cancel_left₀ hμ]
        rfl
      · rw [Matrix.mul_one]
        ext i j
        have e1 : (L.v * (of fun j _ => x (Sum.inr j) : Matrix (Fin L.r) (Fin 1) ℂ)) i j = (L.v *ᵥ (μ⁻¹ • (uᴴ *ᵥ ψ))) i := by
          rw [← hx2]; rfl
        have e2 : (u * ((of fun j _ => x (Sum.inl j) : Matrix (Fin L.r) (Fin 1) ℂ) * (diagonal fun _ : Fin 1 => μ))) i j = μ * (u *ᵥ (L.vᴴ *ᵥ ψ)) i := by
          rw [← hx1, Matrix.mul_apply]
          simp only [Matrix.mul_diagonal, of_apply, mulVec, dotProduct, Finset.mul_sum]
          refine Finset.sum_congr rfl fun a _ => ?_
          ring
        have e3 : (h * (of fun i _ => ψ i : Matrix (Fin n) (Fin 1) ℂ)) i j = (h *ᵥ ψ) i := rfl
        rw [Matrix.add_apply, Matrix.add_apply, e1, e2, e3]
        have h4 := congrFun h3 i
        rw [mulVec_smul]
        simp only [Pi.add_apply, Pi.smul_apply, smul_eq_mul, Pi.zero_apply, Matrix.zero_apply] at h4 ⊢
        rw [← h4]
        ring
    refine ⟨hs, ?_⟩
    obtain ⟨φ, g1, g2, g3⟩ := (hf.solution hμ x).mp hs
    rw [g3]
    exact Link.eq hf hμ ⟨g2, g1⟩ hl
  · rintro ⟨h1, h2⟩
    obtain ⟨φ, g1, g2, g3⟩ := (hf.solution hμ x).mp h1
    rw [← h2, g3]
    exact ⟨g2, g1⟩

/-- After the loop. -/
theorem loop_good (e : ModeNum n) (he : e.Ok) (hf : Faithful h hop L u) {N : ℕ} [NeZero N] {lam : Fin N → ℂ}
    {psi : Matrix (Fin L.r ⊕ Fin L.r) (Fin N) ℂ} (hi : PropInput L lam psi) (hs : Separated e lam) {junk : Fin N → ℝ} {m : Modes n L.r N}
    (hm : runClusters e ⟨none, none, none⟩ (clusters e lam) ⟨psi, L.extract psi lam, lam, junk, fun _ => 0⟩ = .ok m) :
    Good h hop u L.v lam m.psi m.full m.vel ∧ m.lam = lam ∧ m.trim = fun _ => 0 := by
  have hN : N ≠ 0 := NeZero.ne N
  obtain ⟨hn, hall⟩ := clusters_perm e lam (rawB_ne he.eps hs)
  obtain ⟨hc1, hc2⟩ := clusters_exact he hs hi.unit
  obtain ⟨hr1, _⟩ := runClusters_spec e _ _ _ _ hn hm
  have hne : ∀ i, lam i ≠ 0 := fun i => unit_ne (hi.unit i)
  have hlink0 : ∀ i, Link h hop u L.v (lam i) (psi.col i) ((L.extract psi lam).col i) := by
    intro i
    rw [link_iff hf (hne i)]
    refine ⟨hi.solution i, ?_⟩
    ext x
    exact (hf.columns psi lam x i).symm
  have hinj : ∀ c ∈ clusters e lam, Function.Injective c.get := by
    intro c hc
    exact List.nodup_iff_injective_get.mp ((List.nodup_flatten.mp hn).1 c hc)
  -- linear combinations within one eigenvalue
  have hcomb : ∀ c ∈ clusters e lam, ∀ μ, (∀ a, lam (c.get a) = μ) → μ ≠ 0 → ∀ d : Fin c.length → ℂ,
      Link h hop u L.v μ (psi *ᵥ upd c.get 0 d) (L.extract psi lam *ᵥ upd c.get 0 d) := by
    intro c hc μ hμ hμ0 d
    rw [mulVec_upd (hinj c hc), mulVec_upd (hinj c hc)]
    have := Link.mul (h := h) (hop := hop) (u := u) (v := L.v) (psi := psi.submatrix id c.get) (full := (L.extract psi lam).submatrix id c.get) (μ := μ) hμ0
      (fun a => by rw [← hμ a]; exact hlink0 (c.get a)) (of fun a (_ : Fin 1) => d a) 0
    exact this
  have hstep : ∀ c ∈ clusters e lam, ∀ μ, ‖μ‖ = 1 → (∀ a, lam (c.get a) = μ) → ClusterGood h hop u L.v μ (m.take c.get) ∧ (m.take c.get).lam = lam ∘ c.get ∧
      (m.take c.get).trim = (fun _ => 0) ∧ ∃ R : Matrix (Fin c.length) (Fin c.length) ℂ, (L.extract psi lam).submatrix id c.get = m.full.submatrix id c.get * R := by
    intro c hc μ hμ1 hμ
    have hμ0 := unit_ne hμ1
    have hci : ∀ d, (L.extract psi lam).submatrix id c.get *ᵥ d = 0 → d = 0 := by
      intro d hd
      have hl := hcomb c hc μ hμ hμ0 d
      have hd' : L.extract psi lam *ᵥ upd c.get 0 d = 0 := by
        rw [mulVec_upd (hinj c hc)]
        exact hd
      rw [hd'] at hl
      have hx : psi *ᵥ upd c.get 0 d = 0 := by
        rw [hl.1, mulVec_zero, mulVec_zero, smul_zero]
        ext a
        rcases a with a | a <;> rfl
      have hsupp : ∀ i, lam i ≠ μ → upd c.get 0 d i = 0 := by
        intro i hne
        refine upd_not _ _ fun a ha => hne ?_
        rw [← ha, hμ a]
      have h0 := hi.indep μ _ hsupp hx
      ext a
      have := congrFun h0 (c.get a)
      rw [upd_sel (hinj c hc)] at this
      exact this
    obtain ⟨g1, g2, g3, _, g4⟩ := clusterStep_none e he hμ1 hf.fact (m := Modes.take ⟨psi, L.extract psi lam, lam, junk, fun _ => 0⟩ c.get) (m' := m.take c.get)
      (fun a => by rw [← hμ a]; exact hlink0 (c.get a)) hci (hr1 c hc)
    exact ⟨g1, g2, g3, g4⟩
  have hlam : ∀ c ∈ clusters e lam, ∀ i ∈ c, ∀ a, lam (c.get a) = lam i := fun c hc i hi a => hc1 c hc _ (List.get_mem c a) _ hi
  refine ⟨⟨?_, ?_, ?_, ?_⟩, ?_, ?_⟩
  · intro i
    obtain ⟨c, hc, hic⟩ := List.mem_flatten.mp (hall i)
    obtain ⟨g, _⟩ := hstep c hc (lam i) (hi.unit i) (hlam c hc i hic)
    obtain ⟨a, rfl⟩ := List.get_of_mem hic
    exact g.link a
  · intro i j hij
    obtain ⟨c, hc, hic, hjc⟩ := hc2 i j hij
    obtain ⟨g, _⟩ := hstep c hc (lam i) (hi.unit i) (hlam c hc i hic)
    obtain ⟨a, rfl⟩ := List.get_of_mem hic
    obtain ⟨b, rfl⟩ := List.get_of_mem hjc
    have := congrFun (congrFun g.orth a) b
    rw [one_apply] at this
    simp only [(hinj c hc).eq_iff]
    rw [← this]
    rfl
  · intro i j hij
    obtain ⟨c, hc, hic, hjc⟩ := hc2 i j hij
    obtain ⟨g, _⟩ := hstep c hc (lam i) (hi.unit i) (hlam c hc i hic)
    obtain ⟨a, rfl⟩ := List.get_of_mem hic
    obtain ⟨b, rfl⟩ := List.get_of_mem hjc
    have := congrFun (congrFun g.diag a) b
    rw [diagonal_apply] at this
    simp only [(hinj c hc).eq_iff]
    rw [Matrix.mul_assoc] at this
    exact this
  · intro μ ψ hμ hψ
    have hμ0 := unit_ne hμ
    have hl : Link h hop u L.v μ (Sum.elim (L.vᴴ *ᵥ ψ) (μ⁻¹ • (uᴴ *ᵥ ψ))) ψ := ⟨rfl, hψ⟩
    obtain ⟨c0, hc0, hx⟩ := hi.complete μ _ hμ ((link_iff hf hμ0 _ _).mp hl).1
    by_cases hex : ∃ i, lam i = μ
    · obtain ⟨i, rfl⟩ := hex
      obtain ⟨c, hc, hic⟩ := List.mem_flatten.mp (hall i)
      obtain ⟨_, _, _, R, hR⟩ := hstep c hc (lam i) hμ (hlam c hc i hic)
      have hsup : upd c.get 0 (c0 ∘ c.get) = c0 := by
        refine upd_comp (hinj c hc) fun j hj => hc0 j fun hne => ?_
        obtain ⟨c', hc', hjc, hic'⟩ := hc2 j i hne
        have hcc : c' = c := flatten_unique hn hc' hc hic' hic
        subst hcc
        obtain ⟨a, ha⟩ := List.get_of_mem hjc
        exact hj a ha
      have hl2 := hcomb c hc (lam i) (hlam c hc i hic) hμ0 (c0 ∘ c.get)
      rw [hsup, ← hx] at hl2
      have hψ2 := Link.eq hf hμ0 hl hl2
      refine ⟨upd c.get 0 (R *ᵥ (c0 ∘ c.get)), ?_, ?_⟩
      · intro j hj
        refine upd_not _ _ fun a ha => hj ?_
        rw [← ha, hlam c hc i hic]
      · rw [mulVec_upd (hinj c hc), mulVec_mulVec, ← hR, ← mulVec_upd (hinj c hc), hsup]
        exact hψ2
    · push Not at hex
      have h0 : c0 = 0 := by
        ext j
        exact hc0 j (hex j)
      rw [h0, mulVec_zero] at hx
      rw [hx] at hl
      refine ⟨0, fun _ _ => rfl, ?_⟩
      rw [mulVec_zero]
      exact Link.zero hf hμ0 hl
  · ext i
    obtain ⟨c, hc, hic⟩ := List.mem_flatten.mp (hall i)
    obtain ⟨_, g, _⟩ := hstep c hc (lam i) (hi.unit i) (hlam c hc i hic)
    obtain ⟨a, rfl⟩ := List.get_of_mem hic
    exact congrFun g a
  · ext i
    obtain ⟨c, hc, hic⟩ := List.mem_flatten.mp (hall i)
    obtain ⟨_, _, g, _⟩ := hstep c hc (lam i) (hi.unit i) (hlam c hc i hic)
    obtain ⟨a, rfl⟩ := List.get_of_mem hic
    exact congrFun g a

end faithful

end Kwant.Leads
