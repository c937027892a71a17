import Verif.Leads.Trim

/-!
C158: the propagating modes of a lead with particle-hole symmetry (`make_proper_modes`, kwant/physics/leads.py l.731-794, 824-862).
-/

set_option linter.unusedSectionVars false

namespace Kwant.Leads
open Matrix Complex

variable {n : ℕ}

/-! ### Specification -/

/-- At each momentum other than `0` and `π`, all modes that move in the same direction are equally fast. -/
def OneSpeedAway (h hop : Matrix (Fin n) (Fin n) ℂ) : Prop :=
  ∀ μ v w, ‖μ‖ = 1 → μ ≠ 1 → μ ≠ -1 → (∃ ψ, ψ ≠ 0 ∧ VelState h hop μ v ψ) → (∃ ψ, ψ ≠ 0 ∧ VelState h hop μ w ψ) → 0 < v * w → v = w

/-- There is no mode at momentum `π`, or all modes are at the momenta `0` and `π`. -/
def PiAlone (h hop : Matrix (Fin n) (Fin n) ℂ) : Prop :=
  (∀ ψ, IsBloch h hop (-1) ψ → ψ = 0) ∨ ∀ μ ψ, ‖μ‖ = 1 → IsBloch h hop μ ψ → ψ ≠ 0 → μ = 1 ∨ μ = -1

/-- The mode `j` is the particle-hole partner of the mode `i`. -/
structure PhPartner (ph : Matrix (Fin n) (Fin n) ℂ) {r N : ℕ} (o : Proper n r N) (i j : Fin N) : Prop where
  wave : o.waveFunctions.col j = ph *ᵥ star (o.waveFunctions.col i)
  velocity : o.velocities j = o.velocities i

/-- What is promised if `P ψ = ph ψ*` is a symmetry. -/
structure ParticleHole (ph : Matrix (Fin n) (Fin n) ℂ) {r N : ℕ} (o : Proper n r N) : Prop where
  /-- The incoming modes with negative momenta are the partners of those with positive momenta, in the opposite order. -/
  incoming : ∀ i : Fin (N / 2), 0 < o.momenta (firstHalf N i) →
    PhPartner ph o (firstHalf N i) (firstHalf N i.rev) ∧ o.momenta (firstHalf N i.rev) = -o.momenta (firstHalf N i)
  incoming' : ∀ i : Fin (N / 2), -Real.pi < o.momenta (firstHalf N i) → o.momenta (firstHalf N i) < 0 → 0 < o.momenta (firstHalf N i.rev)
  /-- The same for outgoing modes. -/
  outgoing : ∀ i : Fin (N / 2), 0 < o.momenta (secondHalf N i) →
    PhPartner ph o (secondHalf N i) (secondHalf N i.rev) ∧ o.momenta (secondHalf N i.rev) = -o.momenta (secondHalf N i)
  outgoing' : ∀ i : Fin (N / 2), -Real.pi < o.momenta (secondHalf N i) → o.momenta (secondHalf N i) < 0 → 0 < o.momenta (secondHalf N i.rev)
  /-- If `P^2 = 1`, the modes at the momenta `0` and `-π` are their own partners. -/
  plus : ph * conjM ph = 1 → ∀ i, o.momenta i = 0 ∨ o.momenta i = -Real.pi → PhPartner ph o i i
  /-- If `P^2 = -1`, they come in pairs. -/
  minus : ph * conjM ph = -1 → ∀ i, o.momenta i = 0 ∨ o.momenta i = -Real.pi →
    (∃ j, j.val = i.val + 1 ∧ o.momenta j = o.momenta i ∧ PhPartner ph o i j) ∨ ∃ j, i.val = j.val + 1 ∧ o.momenta j = o.momenta i ∧ PhPartner ph o j i

/-! ### The loop over the momenta -/

section loop
variable {h hop : Matrix (Fin n) (Fin n) ℂ} {L : Linsys n} {u : Matrix (Fin n) (Fin L.r) ℂ} {N : ℕ} {lam : Fin N → ℂ} {ph : Matrix (Fin n) (Fin n) ℂ}

open Classical in
theorem trimStep_trim {e : ModeNum n} (he1 : e.eps ≤ 1) (he : 0 < e.eps) {r k : ℕ} {m : Modes n r k} {μ : ℂ} (hl : ∀ i, m.lam i = μ) (hk : 0 < k) (hμ : μ = 1 ∨ μ = -1) :
    trimStep e (some ph) m = if k % 2 = 1 then .error .assertionError else
      match phsGroups e ph m.full (velGroups e m.vel) (m.full, m.trim) with
      | .error x => .error x
      | .ok o => .ok { psi := m.psi * (o.1ᴴ * m.full)ᴴ, full := o.1, lam := m.lam, vel := m.vel, trim := o.2 } := by
  have h1 : ∀ i, |(|(m.lam i).re| - 1)| < e.eps := by
    intro i
    rw [hl]
    rcases hμ with rfl | rfl <;> simpa using he
  rw [trimStep, if_pos h1]
  by_cases h2 : k % 2 = 1
  · rw [if_pos h2, if_pos h2]
  · rw [if_neg h2, if_neg h2]
    have h3 : (if ∀ i, |(m.lam i).re - 1| < e.eps then (1 : ℂ) else -1) = μ := by
      rcases hμ with rfl | rfl
      · rw [if_pos]
        intro i
        rw [hl]
        simpa using he
      · rw [if_neg]
        intro h4
        have := h4 ⟨0, hk⟩
        rw [hl] at this
        norm_num at this
        linarith
    have h4 : (fun _ : Fin k => μ) = m.lam := funext fun i => (hl i).symm
    dsimp only
    rw [h3, h4]
    rfl

theorem trimStep_other {e : ModeNum n} {r k : ℕ} {m : Modes n r k} (hk : 0 < k) (hl : ∀ i, |(m.lam i).re| ≤ 1 - e.eps) : trimStep e (some ph) m = .ok m := by
  rw [trimStep, if_neg]
  intro h1
  have h2 := h1 ⟨0, hk⟩
  have h3 := hl ⟨0, hk⟩
  rw [abs_lt] at h2
  linarith [h2.1]

/-- One cluster -/
theorem IsCluster.trim_step {e : ModeNum n} (he : e.Ok) (hep : e.PhsOk) (he1 : e.eps ≤ 1) {m : Modes n L.r N} (hl : m.lam = lam) (hg : Good h hop u L.v lam m.psi m.full m.vel)
    (hu : ∀ i, ‖lam i‖ = 1) (hts : TrimSep e lam)
    (hr : Related ph true true h hop h hop) (hgap : SpeedGap e.velEps h hop) {c : List (Fin N)} (hc0 : c ≠ [])
    (hc : IsCluster lam m.vel c) {o : Modes n L.r c.length} (ho : trimStep e (some ph) (m.take c.get) = .ok o) :
    (m.put c.get o).lam = lam ∧ (m.put c.get o).vel = m.vel ∧ o.vel = m.vel ∘ c.get ∧
      Good h hop u L.v lam (m.put c.get o).psi (m.put c.get o).full m.vel ∧
      ((∀ i, lam (c.get i) = 1 ∨ lam (c.get i) = -1) → TrimFacts ph o.full o.vel o.trim) := by
  have hk := List.length_pos_of_ne_nil hc0
  by_cases hμ : ∀ i, lam (c.get i) = 1 ∨ lam (c.get i) = -1
  · rw [trimStep_trim he1 he.eps (μ := lam (c.get ⟨0, hk⟩)) (fun i => by
      show m.lam (c.get i) = _
      rw [hl]
      exact hc.same _ _) hk (hμ _)] at ho
    split at ho
    · cases ho
    split at ho
    · cases ho
    rename_i s hs
    cases ho
    obtain ⟨g1, g2⟩ := hc.trim he hep hg hu hr hgap hc0 hμ hs
    refine ⟨?_, ?_, rfl, g1, fun _ => g2⟩
    · dsimp only [Modes.put, Modes.take]
      rw [upd_self, hl]
    · dsimp only [Modes.put, Modes.take]
      rw [upd_self]
  · push Not at hμ
    obtain ⟨i, hi1, hi2⟩ := hμ
    have hre : ∀ j, |((m.take c.get).lam j).re| ≤ 1 - e.eps := by
      intro j
      show |(m.lam (c.get j)).re| ≤ _
      rw [hl, hc.same j i]
      exact ((hts (c.get i)).resolve_left hi1).resolve_left hi2
    rw [trimStep_other hk hre] at ho
    cases ho
    have hput : m.put c.get (m.take c.get) = m := by
      dsimp only [Modes.put, Modes.take]
      rw [upd_self, upd_self, upd_self]
      congr
      · ext x j
        exact congrFun (upd_self c.get (fun j => m.psi x j)) j
      · ext x j
        exact congrFun (upd_self c.get (fun j => m.full x j)) j
    rw [hput]
    refine ⟨hl, rfl, rfl, hg, fun h1 => ?_⟩
    rcases h1 i with h2 | h2
    · exact absurd h2 hi1
    · exact absurd h2 hi2

theorem trim_loop {e : ModeNum n} (he : e.Ok) (hep : e.PhsOk) (he1 : e.eps ≤ 1) (hu : ∀ i, ‖lam i‖ = 1) (hts : TrimSep e lam)
    (hr : Related ph true true h hop h hop) (hgap : SpeedGap e.velEps h hop) :
    ∀ (cs : List (List (Fin N))) (m m' : Modes n L.r N), cs.flatten.Nodup → m.lam = lam → Good h hop u L.v lam m.psi m.full m.vel →
    (∀ c ∈ cs, c ≠ [] ∧ IsCluster lam m.vel c) → runSteps (trimStep e (some ph)) cs m = .ok m' →
    m'.lam = lam ∧ m'.vel = m.vel ∧ Good h hop u L.v lam m'.psi m'.full m'.vel ∧
      ∀ c ∈ cs, (∀ i, lam (c.get i) = 1 ∨ lam (c.get i) = -1) → TrimFacts ph (m'.take c.get).full (m'.take c.get).vel (m'.take c.get).trim
  | [], m, m', _, hl, hg, _, h => by
    cases h
    exact ⟨hl, rfl, hg, fun c hc => absurd hc List.not_mem_nil⟩
  | c :: cs, m, m', hn, hl, hg, hcl, h => by
    rw [runSteps] at h
    split at h
    · cases h
    rename_i o ho
    rw [List.flatten_cons, List.nodup_append] at hn
    obtain ⟨hn1, hn2, hn3⟩ := hn
    obtain ⟨hc0, hc⟩ := hcl c List.mem_cons_self
    obtain ⟨e1, e2, e3, e4, e5⟩ := hc.trim_step he hep he1 hl hg hu hts hr hgap hc0 ho
    obtain ⟨g0, g1, g2, g3⟩ := trim_loop he hep he1 hu hts hr hgap cs _ m' hn2 e1 (by rw [e2]; exact e4)
      (fun c' hc' => by rw [e2]; exact hcl c' (List.mem_cons_of_mem _ hc')) h
    refine ⟨g0, by rw [g1, e2], g2, fun c' hc' => ?_⟩
    rcases List.mem_cons.mp hc' with rfl | hc'
    · obtain ⟨_, k2⟩ := runSteps_spec _ cs _ m' hn2 h
      have hk : m'.take c'.get = (m.put c'.get o).take c'.get := k2 c'.get fun i hi => hn3 _ (List.get_mem c' i) _ hi rfl
      rw [hk, take_put (List.nodup_iff_injective_get.mp hn1)]
      exact e5
    · exact g3 c' hc'

theorem clusters_ne_nil (e : ModeNum n) (he : e.Ok) (hs : Separated e lam) : ∀ c ∈ clusters e lam, c ≠ [] := by
  rcases Nat.eq_zero_or_pos N with h0 | h0
  · subst h0
    have : clusters e lam = [] := by
      rw [clusters, boundaries]
      simp [intervals]
    rw [this]
    intro c hc
    exact absurd hc List.not_mem_nil
  · have : NeZero N := ⟨h0.ne'⟩
    obtain ⟨b0, _, _, _, ivs, h1, _, h3⟩ := clusters_struct e lam (rawB_ne he.eps hs)
    intro c hc
    rw [h1, List.mem_map] at hc
    obtain ⟨iv, hiv, rfl⟩ := hc
    obtain ⟨_, q2, _⟩ := h3 iv hiv
    intro h4
    have := congrArg List.length h4
    simp at this
    omega

end loop

end Kwant.Leads
