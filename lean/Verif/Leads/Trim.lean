import Verif.Leads.VelGroups

/-!
C158: the modes of a lead with particle-hole symmetry at the momenta `0` and `π` (`make_proper_modes`, kwant/physics/leads.py l.731-794).
-/

set_option linter.unusedSectionVars false

namespace Kwant.Leads
open Matrix Complex

variable {n : ℕ}

/-! ### Conditions -/

/-- The modes that are not at momentum `0` or `π` are far enough from these. -/
def TrimSep (e : ModeNum n) {N : ℕ} (lam : Fin N → ℂ) : Prop := ∀ i, lam i = 1 ∨ lam i = -1 ∨ |(lam i).re| ≤ 1 - e.eps

/-- Different velocities at momentum `0`, or at momentum `π`, differ by more than `δ`. -/
def SpeedGap (δ : ℝ) (h hop : Matrix (Fin n) (Fin n) ℂ) : Prop :=
  ∀ μ v w, (μ = 1 ∨ μ = -1) → (∃ ψ, ψ ≠ 0 ∧ VelState h hop μ v ψ) → (∃ ψ, ψ ≠ 0 ∧ VelState h hop μ w ψ) → |v - w| ≤ δ → v = w

/-! ### Velocity states -/

section vs
variable {h hop : Matrix (Fin n) (Fin n) ℂ} {μ : ℂ} {v w : ℝ}

theorem VelState.add (hμ : μ ≠ 0) {ψ φ : Fin n → ℂ} (h1 : VelState h hop μ v ψ) (h2 : VelState h hop μ v φ) : VelState h hop μ v (ψ + φ) := by
  constructor
  · have e1 := (isBloch_iff h hop hμ _).mp h1.1
    have e2 := (isBloch_iff h hop hμ _).mp h2.1
    rw [isBloch_iff h hop hμ]
    simp only [mulVec_add, smul_add] at e1 e2 ⊢
    rw [← add_zero (0 : Fin n → ℂ)]
    nth_rw 1 [← e1]
    rw [← e2]
    abel
  · intro χ hχ
    rw [mulVec_add, dotProduct_add, dotProduct_add, h1.2 χ hχ, h2.2 χ hχ, mul_add]

theorem VelState.zero (hμ : μ ≠ 0) : VelState h hop μ v 0 := by
  constructor
  · rw [isBloch_iff h hop hμ]
    simp
  · intro χ _
    simp

theorem VelState.mulVec (hμ : μ ≠ 0) {k : ℕ} {W : Matrix (Fin n) (Fin k) ℂ} (hW : ∀ b, VelState h hop μ v (W.col b)) (d : Fin k → ℂ) : VelState h hop μ v (W *ᵥ d) := by
  rw [mulVec_eq_sum]
  exact Finset.sum_induction _ (VelState h hop μ v) (fun _ _ => VelState.add hμ) (VelState.zero hμ) fun b _ => (hW b).smul hμ _

/-- States with different velocities are orthogonal. -/
theorem VelState.orth {ψ φ : Fin n → ℂ} (h1 : VelState h hop μ v ψ) (h2 : VelState h hop μ w φ) (hvw : v ≠ w) : star φ ⬝ᵥ ψ = 0 := by
  have e1 := h1.2 φ h2.1
  have e2 := h2.2 ψ h1.1
  have e3 := congrArg star e2
  rw [dot_velMu, star_mul', e1] at e3
  have e4 : star (star ψ ⬝ᵥ φ) = star φ ⬝ᵥ ψ := by
    rw [star_dotProduct, star_star]
  rw [e4, star_def, Complex.conj_ofReal] at e3
  have e5 : ((v : ℂ) - w) * (star φ ⬝ᵥ ψ) = 0 := by rw [sub_mul, e3, sub_self]
  exact (mul_eq_zero.mp e5).resolve_left (sub_ne_zero.mpr (by exact_mod_cast hvw))

end vs

/-! ### One cluster -/

/-- What is known about the modes of a cluster at momentum `0` or `π`. -/
structure TrimFacts (ph : Matrix (Fin n) (Fin n) ℂ) {k : ℕ} (full : Matrix (Fin n) (Fin k) ℂ) (vel : Fin k → ℝ) (trim : Fin k → ℕ) : Prop where
  plus : ph * conjM ph = 1 → ∀ i, ph *ᵥ star (full.col i) = full.col i
  inj : ph * conjM ph = -1 → ∀ i j, vel i = vel j → trim i = trim j → i = j
  even : ph * conjM ph = -1 → ∀ i, trim i % 2 = 0 → ∃ j, vel j = vel i ∧ trim j = trim i + 1 ∧ full.col j = ph *ᵥ star (full.col i)
  odd : ph * conjM ph = -1 → ∀ i, trim i % 2 = 1 → ∃ j, vel j = vel i ∧ trim i = trim j + 1 ∧ full.col i = ph *ᵥ star (full.col j)

section cluster
variable {h hop : Matrix (Fin n) (Fin n) ℂ} {L : Linsys n} {u : Matrix (Fin n) (Fin L.r) ℂ} {N : ℕ} {lam : Fin N → ℂ} {ph : Matrix (Fin n) (Fin n) ℂ}

/-- A group of modes with the same momentum and velocity -/
theorem IsCluster.group_orth {m : Modes n L.r N} (hg : Good h hop u L.v lam m.psi m.full m.vel) {c : List (Fin N)} (hc : IsCluster lam m.vel c) {g : List (Fin c.length)}
    (hgn : g.Nodup) : ((m.full.submatrix id c.get).submatrix id g.get)ᴴ * (m.full.submatrix id c.get).submatrix id g.get = 1 := by
  ext a b
  have h1 := hg.orth (c.get (g.get a)) (c.get (g.get b)) (hc.same _ _)
  rw [Matrix.one_apply]
  have h2 : (c.get (g.get a) = c.get (g.get b)) ↔ a = b := by
    rw [hc.inj.eq_iff, (List.nodup_iff_injective_get.mp hgn).eq_iff]
  simp only [h2] at h1
  rw [← h1]
  rfl

theorem real_trim {μ : ℂ} (hμ : μ = 1 ∨ μ = -1) : cj true μ = μ := by
  rcases hμ with rfl | rfl
  · exact map_one _
  · rw [map_neg, map_one]

/-- The space of a group is closed under `P`. -/
theorem IsCluster.group_closed {m : Modes n L.r N} (hg : Good h hop u L.v lam m.psi m.full m.vel) (hu : ∀ i, ‖lam i‖ = 1) (hr : Related ph true true h hop h hop)
    {c : List (Fin N)} (hc : IsCluster lam m.vel c) {g : List (Fin c.length)} (hgn : g.Nodup) (hg0 : g ≠ []) (hgs : ∀ i ∈ g, ∀ j ∈ g, m.vel (c.get i) = m.vel (c.get j))
    (hga : ∀ i ∈ g, ∀ j, m.vel (c.get j) = m.vel (c.get i) → j ∈ g) (hμ : ∀ i, lam (c.get i) = 1 ∨ lam (c.get i) = -1) (d : Fin g.length → ℂ) :
    ∃ d', ph *ᵥ star ((m.full.submatrix id c.get).submatrix id g.get *ᵥ d) = (m.full.submatrix id c.get).submatrix id g.get *ᵥ d' := by
  obtain ⟨i0, hi0⟩ := List.exists_mem_of_ne_nil g hg0
  have hvs : VelState h hop (lam (c.get i0)) (m.vel (c.get i0)) ((m.full.submatrix id c.get).submatrix id g.get *ᵥ d) := by
    refine VelState.mulVec (unit_ne (hu _)) (fun b => ?_) d
    have h1 := hg.velState hu (c.get (g.get b))
    rw [hgs _ (List.get_mem g b) _ hi0, hc.same (g.get b) i0] at h1
    exact h1
  have hvs' := hvs.map hr (hu _)
  rw [real_trim (hμ i0)] at hvs'
  have e1 : sgn true true * m.vel (c.get i0) = m.vel (c.get i0) := by rw [sgn]; simp
  rw [e1] at hvs'
  obtain ⟨x, _, hx, hx'⟩ := hg.expand (hu _) hvs'
  refine ⟨fun b => x (c.get (g.get b)), ?_⟩
  have hinj : Function.Injective (c.get ∘ g.get) := hc.inj.comp (List.nodup_iff_injective_get.mp hgn)
  have e2 : x = upd (c.get ∘ g.get) 0 fun b => x (c.get (g.get b)) := by
    ext j
    by_cases hj : ∃ b, (c.get ∘ g.get) b = j
    · obtain ⟨b, rfl⟩ := hj
      rw [upd_sel hinj]
      rfl
    · push Not at hj
      rw [upd_not _ _ hj, Pi.zero_apply]
      refine hx j fun h2 => ?_
      obtain ⟨a, rfl⟩ := hc.all i0 j h2.1
      obtain ⟨b, hb⟩ := List.get_of_mem (hga i0 hi0 a h2.2)
      exact hj b (congrArg c.get hb)
  have e3 : ph *ᵥ star ((m.full.submatrix id c.get).submatrix id g.get *ᵥ d) = m.full *ᵥ x := hx'
  rw [e3]
  nth_rw 1 [e2]
  rw [mulVec_upd hinj]
  rfl

/-- `trimStep` for a cluster at momentum `0` or `π`: no other error than that for an odd number of modes. -/
theorem IsCluster.trim_ok {e : ModeNum n} (he : e.Ok) (hep : e.PhsOk) {m : Modes n L.r N} (hg : Good h hop u L.v lam m.psi m.full m.vel) (hu : ∀ i, ‖lam i‖ = 1)
    (hr : Related ph true true h hop h hop) (hsq : ph * conjM ph = 1 ∨ ph * conjM ph = -1) (hgap : SpeedGap e.velEps h hop) {c : List (Fin N)} (hc0 : c ≠ [])
    (hc : IsCluster lam m.vel c) (hμ : ∀ i, lam (c.get i) = 1 ∨ lam (c.get i) = -1) :
    ∃ s, phsGroups e ph (m.take c.get).full (velGroups e (m.take c.get).vel) ((m.take c.get).full, (m.take c.get).trim) = .ok s := by
  have hsep : ∀ i j, |(m.vel ∘ c.get) i - (m.vel ∘ c.get) j| ≤ e.velEps → (m.vel ∘ c.get) i = (m.vel ∘ c.get) j := by
    intro i j hij
    refine hgap (lam (c.get i)) _ _ (hμ i) ⟨_, hg.ne_zero _, hg.velState hu (c.get i)⟩ ⟨_, hg.ne_zero (c.get j), ?_⟩ hij
    rw [hc.same i j]
    exact hg.velState hu (c.get j)
  obtain ⟨v1, v2, v3, v4⟩ := velGroups_exact e he.velEps (List.length_pos_of_ne_nil hc0) hc.mono hsep
  refine phsGroups_ok e ph _ _ _ fun gr hgr => ?_
  have hgn : gr.Nodup := (List.nodup_flatten.mp v1).1 gr hgr
  obtain ⟨w1, w2⟩ := v3 gr hgr
  have hcl := hc.group_closed hg hu hr hgn w1 w2 (v4 gr hgr) hμ
  have hor := hc.group_orth hg hgn
  match hm : phsSymmetrization e ph ((m.take c.get).full.submatrix id gr.get) with
  | .ok o => exact ⟨o, rfl⟩
  | .error x =>
    exfalso
    have hm' : phsSymmetrization e ph ((m.full.submatrix id c.get).submatrix id gr.get) = .error x := hm
    rw [C154_error hep hr.left (List.length_pos_of_ne_nil w1) hor] at hm'
    refine hm'.2 ⟨hcl, ?_⟩
    rcases hsq with hsq | hsq
    · left
      rw [hsq, Matrix.one_mul]
    · right
      rw [hsq, Matrix.neg_mul, Matrix.one_mul]

/-- `trimStep` for a cluster at momentum `0` or `π`: the invariant is kept. -/
theorem IsCluster.trim {e : ModeNum n} (he : e.Ok) (hep : e.PhsOk) {m : Modes n L.r N} (hg : Good h hop u L.v lam m.psi m.full m.vel) (hu : ∀ i, ‖lam i‖ = 1)
    (hr : Related ph true true h hop h hop) (hgap : SpeedGap e.velEps h hop) {c : List (Fin N)} (hc0 : c ≠ [])
    (hc : IsCluster lam m.vel c) (hμ : ∀ i, lam (c.get i) = 1 ∨ lam (c.get i) = -1) {s : Matrix (Fin n) (Fin c.length) ℂ × (Fin c.length → ℕ)}
    (hs : phsGroups e ph (m.take c.get).full (velGroups e (m.take c.get).vel) ((m.take c.get).full, (m.take c.get).trim) = .ok s) :
    Good h hop u L.v lam (updCols c.get m.psi (m.psi.submatrix id c.get * (s.1ᴴ * m.full.submatrix id c.get)ᴴ)) (updCols c.get m.full s.1) m.vel ∧
      TrimFacts ph s.1 (m.vel ∘ c.get) s.2 := by
  have hsep : ∀ i j, |(m.vel ∘ c.get) i - (m.vel ∘ c.get) j| ≤ e.velEps → (m.vel ∘ c.get) i = (m.vel ∘ c.get) j := by
    intro i j hij
    refine hgap (lam (c.get i)) _ _ (hμ i) ⟨_, hg.ne_zero _, hg.velState hu (c.get i)⟩ ⟨_, hg.ne_zero (c.get j), ?_⟩ hij
    rw [hc.same i j]
    exact hg.velState hu (c.get j)
  obtain ⟨v1, v2, v3, v4⟩ := velGroups_exact e he.velEps (List.length_pos_of_ne_nil hc0) hc.mono hsep
  obtain ⟨p1, _⟩ := phsGroups_spec e ph _ _ _ _ v1 hs
  have hspec : ∀ gr ∈ velGroups e (m.vel ∘ c.get), PhsSpec ph ((m.full.submatrix id c.get).submatrix id gr.get) (s.1.submatrix id gr.get) (s.2 ∘ gr.get) := by
    intro gr hgr
    exact (C154_symmetric hep hr.left (hc.group_orth hg ((List.nodup_flatten.mp v1).1 gr hgr)) (p1 gr hgr)).1
  have hloc : ∀ a : Fin c.length, ∃ gr ∈ velGroups e (m.vel ∘ c.get), ∃ b : Fin gr.length, gr.get b = a := by
    intro a
    obtain ⟨gr, hgr, ha⟩ := List.mem_flatten.mp (v2 a)
    obtain ⟨b, hb⟩ := List.get_of_mem ha
    exact ⟨gr, hgr, b, hb⟩
  have hv : ∀ a, VelState h hop (lam (c.get a)) (m.vel (c.get a)) (s.1.col a) := by
    intro a
    obtain ⟨gr, hgr, b, rfl⟩ := hloc a
    obtain ⟨d, hd⟩ := ((hspec gr hgr).space ((s.1.submatrix id gr.get).col b)).mp ⟨Pi.single b 1, by rw [mulVec_single_one]⟩
    have e1 : s.1.col (gr.get b) = (m.full.submatrix id c.get).submatrix id gr.get *ᵥ d := hd
    rw [e1]
    refine VelState.mulVec (unit_ne (hu _)) (fun b' => ?_) d
    have h1 := hg.velState hu (c.get (gr.get b'))
    have h2 : m.vel (c.get (gr.get b')) = m.vel (c.get (gr.get b)) := (v3 gr hgr).2 _ (List.get_mem _ _) _ (List.get_mem _ _)
    rw [h2, hc.same (gr.get b') (gr.get b)] at h1
    exact h1
  have hort : ∀ a b, lam (c.get a) = lam (c.get b) → star (s.1.col a) ⬝ᵥ s.1.col b = if a = b then 1 else 0 := by
    intro a b hab
    by_cases hvab : m.vel (c.get b) = m.vel (c.get a)
    · obtain ⟨gr, hgr, i, rfl⟩ := hloc a
      obtain ⟨j, rfl⟩ := List.get_of_mem (v4 gr hgr _ (List.get_mem gr i) b hvab)
      have h1 := congrFun (congrFun (hspec gr hgr).orthonormal i) j
      rw [Matrix.one_apply] at h1
      simp only [(List.nodup_iff_injective_get.mp ((List.nodup_flatten.mp v1).1 gr hgr)).eq_iff]
      rw [← h1]
      rfl
    · have h1 := hv b
      rw [← hab] at h1
      rw [VelState.orth h1 (hv a) hvab, if_neg]
      rintro rfl
      exact hvab rfl
  constructor
  · obtain ⟨Q, q1, _, q3⟩ := hg.replace hu hc.inj hv hort (fun a j e1 _ => hc.all a j e1)
    have hQ : Q = (s.1ᴴ * m.full.submatrix id c.get)ᴴ := by
      rw [conjTranspose_mul, conjTranspose_conjTranspose]
      ext a b
      rw [q1, if_pos (hc.same _ _)]
      rfl
    rw [← hQ]
    exact q3
  · have hsub : ∀ (gr : List (Fin c.length)) (x : Fin gr.length), (s.1.submatrix id gr.get).col x = s.1.col (gr.get x) := fun _ _ => rfl
    refine ⟨?_, ?_, ?_, ?_⟩
    · intro hP a
      obtain ⟨gr, hgr, i, rfl⟩ := hloc a
      have := ((hspec gr hgr).plus (by rw [hP, Matrix.one_mul])).1 i
      rw [hsub] at this
      exact this
    · intro hP a b hab hs2
      obtain ⟨gr, hgr, i, rfl⟩ := hloc a
      obtain ⟨j, rfl⟩ := List.get_of_mem (v4 gr hgr _ (List.get_mem gr i) b hab.symm)
      have := ((hspec gr hgr).minus (by rw [hP, Matrix.neg_mul, Matrix.one_mul])).2.2
      have e1 : s.2 (gr.get i) = i.val := this i
      have e2 : s.2 (gr.get j) = j.val := this j
      rw [e1, e2] at hs2
      rw [Fin.ext hs2]
    · intro hP a ha
      obtain ⟨gr, hgr, i, rfl⟩ := hloc a
      obtain ⟨k1, k2, k3⟩ := (hspec gr hgr).minus (by rw [hP, Matrix.neg_mul, Matrix.one_mul])
      have e1 : ∀ j, s.2 (gr.get j) = j.val := k3
      rw [e1] at ha
      have hlt : 2 * (i.val / 2) + 1 < gr.length := by
        have := i.2
        obtain ⟨y, hy⟩ := k1
        omega
      refine ⟨gr.get ⟨2 * (i.val / 2) + 1, hlt⟩, (v3 gr hgr).2 _ (List.get_mem _ _) _ (List.get_mem _ _), ?_, ?_⟩
      · rw [e1, e1]
        show 2 * (i.val / 2) + 1 = i.val + 1
        omega
      · have := k2 (i.val / 2) hlt
        rw [hsub, hsub] at this
        rw [this]
        have hi : (⟨2 * (i.val / 2), by omega⟩ : Fin gr.length) = i := Fin.ext (show 2 * (i.val / 2) = i.val by omega)
        rw [hi]
    · intro hP a ha
      obtain ⟨gr, hgr, i, rfl⟩ := hloc a
      obtain ⟨k1, k2, k3⟩ := (hspec gr hgr).minus (by rw [hP, Matrix.neg_mul, Matrix.one_mul])
      have e1 : ∀ j, s.2 (gr.get j) = j.val := k3
      rw [e1] at ha
      have hlt : 2 * (i.val / 2) + 1 < gr.length := by
        have := i.2
        omega
      refine ⟨gr.get ⟨2 * (i.val / 2), by omega⟩, (v3 gr hgr).2 _ (List.get_mem _ _) _ (List.get_mem _ _), ?_, ?_⟩
      · rw [e1, e1]
        show i.val = 2 * (i.val / 2) + 1
        omega
      · have := k2 (i.val / 2) hlt
        rw [hsub, hsub] at this
        rw [← this]
        have hi : (⟨2 * (i.val / 2) + 1, hlt⟩ : Fin gr.length) = i := Fin.ext (show 2 * (i.val / 2) + 1 = i.val by omega)
        rw [hi]

end cluster

end Kwant.Leads
