import Verif.Leads.Steps

/-!
C157: the propagating modes of a lead with chiral symmetry (`make_proper_modes`, kwant/physics/leads.py l.787-795).
-/

set_option linter.unusedSectionVars false

namespace Kwant.Leads
open Matrix Complex

variable {n : ℕ}

/-! ### Specification -/

/-- What is promised if `C` is a chiral symmetry: the outgoing modes are the chiral partners of the incoming modes at the same momentum. -/
def ChiralPartners (C : Matrix (Fin n) (Fin n) ℂ) {r N : ℕ} (o : Proper n r N) : Prop :=
  ∃ f : Equiv.Perm (Fin (N / 2)), ∀ i, o.waveFunctions.col (secondHalf N (f i)) = C *ᵥ o.waveFunctions.col (firstHalf N i) ∧
    o.velocities (secondHalf N (f i)) = -o.velocities (firstHalf N i) ∧ o.momenta (secondHalf N (f i)) = o.momenta (firstHalf N i)

/-! ### One cluster -/

section cluster
variable {h hop : Matrix (Fin n) (Fin n) ℂ} {L : Linsys n} {u : Matrix (Fin n) (Fin L.r) ℂ} {N : ℕ} {lam : Fin N → ℂ} {psi : Matrix (Fin L.r ⊕ Fin L.r) (Fin N) ℂ}
  {full : Matrix (Fin n) (Fin N) ℂ} {vel : Fin N → ℝ} {ch : Matrix (Fin n) (Fin n) ℂ}

/-- All modes at one momentum, sorted by velocity. -/
structure IsCluster (lam : Fin N → ℂ) (vel : Fin N → ℝ) (c : List (Fin N)) : Prop where
  inj : Function.Injective c.get
  same : ∀ i j, lam (c.get i) = lam (c.get j)
  all : ∀ i j, lam j = lam (c.get i) → ∃ a, c.get a = j
  mono : Monotone (vel ∘ c.get)

/-- The velocities in a cluster are opposite. -/
theorem IsCluster.rev (hg : Good h hop u L.v lam psi full vel) (hu : ∀ i, ‖lam i‖ = 1) (hr : Related ch false true h hop h hop) {c : List (Fin N)}
    (hc : IsCluster lam vel c) (i : Fin c.length) : vel (c.get i.rev) = -vel (c.get i) := by
  classical
  have hcard : ∀ x, (Finset.univ.filter fun a => (vel ∘ c.get) a = x).card = (Finset.univ.filter fun j => lam j = lam (c.get i) ∧ vel j = x).card := by
    intro x
    refine Finset.card_bij (fun a _ => c.get a) ?_ ?_ ?_
    · intro a ha
      rw [Finset.mem_filter] at ha ⊢
      exact ⟨Finset.mem_univ _, hc.same a i, ha.2⟩
    · intro a _ b _ hab
      exact hc.inj hab
    · intro j hj
      rw [Finset.mem_filter] at hj
      obtain ⟨a, rfl⟩ := hc.all i j hj.2.1
      exact ⟨a, by rw [Finset.mem_filter]; exact ⟨Finset.mem_univ _, hj.2.2⟩, rfl⟩
  have h1 : ∀ x, (Finset.univ.filter fun a => (vel ∘ c.get) a = x).card = (Finset.univ.filter fun a : Fin c.length => -(vel ∘ c.get) a.rev = x).card := by
    intro x
    have h2 := hg.card_eq hu hr (lam (c.get i)) x
    have e1 : sgn false true * x = -x := by rw [sgn]; simp
    have e2 : cj false (lam (c.get i)) = lam (c.get i) := rfl
    rw [e1, e2, ← hcard, ← hcard] at h2
    rw [h2]
    refine Finset.card_bij (fun a _ => a.rev) ?_ ?_ ?_
    · intro a ha
      rw [Finset.mem_filter] at ha ⊢
      exact ⟨Finset.mem_univ _, by rw [Fin.rev_rev, ha.2, neg_neg]⟩
    · intro a _ b _ hab
      exact Fin.rev_injective hab
    · intro a ha
      rw [Finset.mem_filter] at ha
      refine ⟨a.rev, ?_, Fin.rev_rev a⟩
      rw [Finset.mem_filter]
      exact ⟨Finset.mem_univ _, by rw [← ha.2, neg_neg]⟩
  have hmono : Monotone fun a : Fin c.length => -(vel ∘ c.get) a.rev := fun a b hab => neg_le_neg (hc.mono (Fin.rev_le_rev.mpr hab))
  have := congrFun (eq_of_sorted hc.mono hmono h1) i
  have h3 : vel (c.get i) = -vel (c.get i.rev) := this
  rw [h3, neg_neg]

theorem IsCluster.even (hg : Good h hop u L.v lam psi full vel) (hu : ∀ i, ‖lam i‖ = 1) (hr : Related ch false true h hop h hop) {c : List (Fin N)}
    (hc : IsCluster lam vel c) (h0 : ∀ i, vel (c.get i) ≠ 0) : c.length % 2 = 0 := by
  by_contra h1
  have hk : c.length / 2 < c.length := by omega
  have h2 := hc.rev hg hu hr ⟨c.length / 2, hk⟩
  have h3 : (⟨c.length / 2, hk⟩ : Fin c.length).rev = ⟨c.length / 2, hk⟩ := by
    ext
    simp only [Fin.val_rev]
    omega
  rw [h3] at h2
  exact h0 ⟨c.length / 2, hk⟩ (by linarith)

theorem IsCluster.neg (hg : Good h hop u L.v lam psi full vel) (hu : ∀ i, ‖lam i‖ = 1) (hr : Related ch false true h hop h hop) {c : List (Fin N)}
    (hc : IsCluster lam vel c) (h0 : ∀ i, vel (c.get i) ≠ 0) (i : Fin c.length) (hi : 2 * i.val < c.length) : vel (c.get i) < 0 := by
  have h1 : i ≤ i.rev := by
    rw [Fin.le_def, Fin.val_rev]
    omega
  have h2 : vel (c.get i) ≤ vel (c.get i.rev) := hc.mono h1
  rw [hc.rev hg hu hr] at h2
  exact lt_of_le_of_ne (by linarith) (h0 i)

theorem IsCluster.pos (hg : Good h hop u L.v lam psi full vel) (hu : ∀ i, ‖lam i‖ = 1) (hr : Related ch false true h hop h hop) {c : List (Fin N)}
    (hc : IsCluster lam vel c) (h0 : ∀ i, vel (c.get i) ≠ 0) (i : Fin c.length) (hi : ¬2 * i.val < c.length) : 0 < vel (c.get i) := by
  have h1 := hc.neg hg hu hr h0 i.rev (by rw [Fin.val_rev]; omega)
  rw [hc.rev hg hu hr] at h1
  linarith

theorem IsCluster.halves (hg : Good h hop u L.v lam psi full vel) (hu : ∀ i, ‖lam i‖ = 1) (hr : Related ch false true h hop h hop) {c : List (Fin N)}
    (hc : IsCluster lam vel c) (h0 : ∀ i, vel (c.get i) ≠ 0) (h1 : OneSpeed h hop) (i : Fin (c.length / 2)) :
    vel (c.get (firstHalf _ i)) < 0 ∧ vel (c.get (secondHalf _ i)) = -vel (c.get (firstHalf _ i)) := by
  have he := hc.even hg hu hr h0
  have hn := hc.neg hg hu hr h0 (firstHalf _ i) (by simp only [firstHalf, Fin.val_castLE]; omega)
  have hp := hc.pos hg hu hr h0 (secondHalf _ i) (by simp only [secondHalf]; omega)
  refine ⟨hn, ?_⟩
  have h2 := hc.rev hg hu hr (firstHalf _ i)
  rw [← h2]
  refine hg.oneSpeed hu h1 (hc.same _ _) ?_
  rw [h2]
  exact mul_pos hp (by linarith)

/-- One cluster keeps the invariant. -/
theorem IsCluster.step {m : Modes n L.r N} (hg : Good h hop u L.v lam m.psi m.full m.vel) (hu : ∀ i, ‖lam i‖ = 1) (hr : Related ch false true h hop h hop) {c : List (Fin N)}
    (hc : IsCluster lam m.vel c) (h0 : ∀ i, m.vel (c.get i) ≠ 0) (h1 : OneSpeed h hop) {o : Modes n L.r c.length}
    (ho : chiralStep (some ch) none (m.take c.get) = .ok o) :
    (m.put c.get o).lam = m.lam ∧ (m.put c.get o).vel = m.vel ∧ (m.put c.get o).trim = m.trim ∧
    Good h hop u L.v lam (m.put c.get o).psi (m.put c.get o).full m.vel ∧
    ∀ i, (m.put c.get o).full.col (c.get (secondHalf _ i)) = ch *ᵥ (m.put c.get o).full.col (c.get (firstHalf _ i)) := by
  have he := hc.even hg hu hr h0
  rw [chiralStep, if_neg (by omega)] at ho
  cases ho
  dsimp only [Modes.put, Modes.take]
  have hs2 : Function.Injective (secondHalf c.length) := secondHalf_inj _
  have htgt : Function.Injective (c.get ∘ secondHalf c.length) := hc.inj.comp hs2
  refine ⟨upd_self _ _, upd_self _ _, upd_self _ _, ?_, ?_⟩
  · rw [updCols_updCols hc.inj hs2, updCols_updCols hc.inj hs2]
    have hcol : ∀ a, (ch * (m.full.submatrix id c.get).submatrix id (firstHalf c.length)).col a = ch *ᵥ (cj false ∘ m.full.col (c.get (firstHalf _ a))) := fun a => rfl
    have hv : ∀ a, VelState h hop (lam ((c.get ∘ secondHalf c.length) a)) (m.vel ((c.get ∘ secondHalf c.length) a))
        ((ch * (m.full.submatrix id c.get).submatrix id (firstHalf c.length)).col a) := by
      intro a
      obtain ⟨_, e2⟩ := hc.halves hg hu hr h0 h1 a
      have := (hg.velState hu (c.get (firstHalf _ a))).map hr (hu _)
      rw [hcol]
      have e1 : sgn false true * m.vel (c.get (firstHalf _ a)) = m.vel (c.get (secondHalf _ a)) := by rw [e2, sgn]; simp
      have e3 : cj false (lam (c.get (firstHalf _ a))) = lam (c.get (secondHalf _ a)) := hc.same _ _
      rw [e1, e3] at this
      exact this
    have hort : ∀ a b, lam ((c.get ∘ secondHalf c.length) a) = lam ((c.get ∘ secondHalf c.length) b) →
        star ((ch * (m.full.submatrix id c.get).submatrix id (firstHalf c.length)).col a) ⬝ᵥ (ch * (m.full.submatrix id c.get).submatrix id (firstHalf c.length)).col b =
          if a = b then 1 else 0 := by
      intro a b _
      rw [hcol, hcol]
      have e3 : ∀ x : Fin n → ℂ, cj false ∘ x = x := fun x => rfl
      rw [e3, e3, star_mulVec, ← dotProduct_mulVec, mulVec_mulVec, hr.left, one_mulVec, hg.orth _ _ (hc.same _ _)]
      simp only [hc.inj.eq_iff, (firstHalf_inj c.length).eq_iff]
    have hres : ∀ a j, lam j = lam ((c.get ∘ secondHalf c.length) a) → m.vel j = m.vel ((c.get ∘ secondHalf c.length) a) → ∃ b, (c.get ∘ secondHalf c.length) b = j := by
      intro a j e1 e2
      obtain ⟨b, rfl⟩ := hc.all _ j e1
      have hb : ¬2 * b.val < c.length := by
        intro h2
        have h3 := hc.neg hg hu hr h0 b h2
        obtain ⟨h4, h5⟩ := hc.halves hg hu hr h0 h1 a
        have h6 : m.vel (c.get b) = m.vel (c.get (secondHalf c.length a)) := e2
        linarith
      obtain ⟨x, rfl⟩ := secondHalf_surj he hb
      exact ⟨x, rfl⟩
    obtain ⟨Q, q1, _, q3⟩ := hg.replace hu htgt hv hort hres
    have hQ : Q = ((m.full.submatrix id c.get).submatrix id (secondHalf c.length))ᴴ * (ch * (m.full.submatrix id c.get).submatrix id (firstHalf c.length)) := by
      ext a b
      have h2 : lam ((c.get ∘ secondHalf c.length) a) = lam ((c.get ∘ secondHalf c.length) b) := hc.same _ _
      rw [q1, if_pos h2]
      rfl
    rw [← hQ]
    exact q3
  · intro i
    have e1 : ∀ j, (updCols c.get m.full (updCols (secondHalf c.length) (m.full.submatrix id c.get) (ch * (m.full.submatrix id c.get).submatrix id (firstHalf c.length)))).col (c.get j) =
        (updCols (secondHalf c.length) (m.full.submatrix id c.get) (ch * (m.full.submatrix id c.get).submatrix id (firstHalf c.length))).col j :=
      fun j => updCols_col_sel hc.inj _ _ j
    rw [e1, e1, updCols_col_sel hs2, updCols_col_not]
    · rfl
    · intro j h2
      have := congrArg Fin.val h2
      simp only [firstHalf, secondHalf, Fin.val_castLE] at this
      have := i.2
      omega

/-- The step changes only wave functions. -/
theorem chiralStep_keep {r k : ℕ} {m m' : Modes n r k} (ho : chiralStep (some ch) none m = .ok m') : m'.lam = m.lam ∧ m'.vel = m.vel ∧ m'.trim = m.trim := by
  rw [chiralStep] at ho
  split at ho
  · cases ho
  · cases ho
    exact ⟨rfl, rfl, rfl⟩

theorem chiral_keep {r N : ℕ} : ∀ (cs : List (List (Fin N))) (m m' : Modes n r N), runSteps (chiralStep (some ch) none) cs m = .ok m' →
    m'.lam = m.lam ∧ m'.vel = m.vel ∧ m'.trim = m.trim
  | [], m, m', h => by
    cases h
    exact ⟨rfl, rfl, rfl⟩
  | c :: cs, m, m', h => by
    rw [runSteps] at h
    split at h
    · cases h
    rename_i o ho
    obtain ⟨k1, k2, k3⟩ := chiralStep_keep ho
    obtain ⟨h1, h2, h3⟩ := chiral_keep cs _ _ h
    rw [h1, h2, h3]
    dsimp only [Modes.put, Modes.take] at k1 k2 k3 ⊢
    rw [k1, k2, k3, upd_self, upd_self, upd_self]
    exact ⟨rfl, rfl, rfl⟩

/-- The loop over all clusters -/
theorem chiral_loop (hu : ∀ i, ‖lam i‖ = 1) (hr : Related ch false true h hop h hop) (h1 : OneSpeed h hop) :
    ∀ (cs : List (List (Fin N))) (m m' : Modes n L.r N), cs.flatten.Nodup → Good h hop u L.v lam m.psi m.full m.vel → (∀ i, m.vel i ≠ 0) → (∀ c ∈ cs, IsCluster lam m.vel c) →
    runSteps (chiralStep (some ch) none) cs m = .ok m' → Good h hop u L.v lam m'.psi m'.full m'.vel ∧
      ∀ c ∈ cs, ∀ i, m'.full.col (c.get (secondHalf _ i)) = ch *ᵥ m'.full.col (c.get (firstHalf _ i))
  | [], m, m', _, hg, _, _, h => by
    cases h
    exact ⟨hg, fun c hc => absurd hc List.not_mem_nil⟩
  | c :: cs, m, m', hn, hg, h0, hcl, h => by
    rw [runSteps] at h
    split at h
    · cases h
    rename_i o ho
    rw [List.flatten_cons, List.nodup_append] at hn
    obtain ⟨hn1, hn2, hn3⟩ := hn
    have hc := hcl c List.mem_cons_self
    obtain ⟨_, e2, _, e4, e5⟩ := hc.step hg hu hr (fun i => h0 _) h1 ho
    obtain ⟨g1, g2⟩ := chiral_loop hu hr h1 cs _ m' hn2 (by rw [e2]; exact e4) (by rw [e2]; exact h0) (fun c' hc' => by rw [e2]; exact hcl c' (List.mem_cons_of_mem _ hc')) h
    refine ⟨g1, fun c' hc' => ?_⟩
    rcases List.mem_cons.mp hc' with rfl | hc'
    · intro i
      obtain ⟨_, k2⟩ := runSteps_spec _ cs _ m' hn2 h
      have hk : m'.take c'.get = (m.put c'.get o).take c'.get := k2 c'.get fun i hi => hn3 _ (List.get_mem c' i) _ hi rfl
      have hcol : ∀ j, m'.full.col (c'.get j) = (m.put c'.get o).full.col (c'.get j) := by
        intro j
        ext x
        exact congrFun (congrFun (congrArg Modes.full hk) x) j
      rw [hcol, hcol]
      exact e5 i
    · exact g2 c' hc'

end cluster

/-! ### Main theorems -/

section main
variable {h hop : Matrix (Fin n) (Fin n) ℂ} {L : Linsys n} {u : Matrix (Fin n) (Fin L.r) ℂ}

/-- The loop with chiral symmetry -/
theorem clusterStep_chiral (e : ModeNum n) (ch : Matrix (Fin n) (Fin n) ℂ) {r k : ℕ} (m m' : Modes n r k) :
    clusterStep e ⟨none, none, some ch⟩ m = .ok m' ↔ ∃ m1, diagStep e m = .ok m1 ∧ chiralStep (some ch) none m1 = .ok m' := by
  constructor
  · intro h0
    exact ⟨_, rfl, h0⟩
  · rintro ⟨m1, h1, h2⟩
    cases h1
    exact h2

/-- Everything that is known after the loop without symmetries. -/
theorem diag_clusters (e : ModeNum n) (he : e.Ok) (hf : Faithful h hop L u) {N : ℕ}
    {lam : Fin N → ℂ} {psi : Matrix (Fin L.r ⊕ Fin L.r) (Fin N) ℂ} (hi : PropInput L lam psi) (hs : Separated e lam) {junk : Fin N → ℝ}
    {m : Modes n L.r N} (hm : runSteps (diagStep e) (clusters e lam) ⟨psi, L.extract psi lam, lam, junk, fun _ => 0⟩ = .ok m) :
    ∀ c ∈ clusters e lam, IsCluster lam m.vel c := by
  obtain ⟨_, _, _, g4⟩ := diag_loop e he hf hi hs hm
  rcases Nat.eq_zero_or_pos N with h0 | h0
  · subst h0
    intro c hc
    exact ⟨fun i => (c.get i).elim0, fun i => (c.get i).elim0, fun i => (c.get i).elim0, g4 c hc⟩
  · have : NeZero N := ⟨h0.ne'⟩
    obtain ⟨hn, _⟩ := clusters_perm e lam (rawB_ne he.eps hs)
    obtain ⟨k1, k2⟩ := clusters_exact he hs hi.unit
    intro c hc
    have hcn : c.Nodup := (List.nodup_flatten.mp hn).1 c hc
    refine ⟨List.nodup_iff_injective_get.mp hcn, fun i j => k1 c hc _ (List.get_mem c i) _ (List.get_mem c j), ?_, g4 c hc⟩
    intro i j hij
    obtain ⟨c', hc', hj, hi'⟩ := k2 j (c.get i) hij
    have hcc : c' = c := by
      by_contra hne
      have hd := (List.nodup_flatten.mp hn).2
      obtain ⟨p, hp, hp'⟩ := List.getElem_of_mem hc'
      obtain ⟨q, hq, hq'⟩ := List.getElem_of_mem hc
      rw [List.pairwise_iff_getElem] at hd
      rcases Nat.lt_trichotomy p q with h3 | h3 | h3
      · have := hd p q hp hq h3
        rw [hp', hq'] at this
        exact this hi' (List.get_mem c i)
      · subst h3
        exact hne (hp'.symm.trans hq')
      · have := hd q p hq hp h3
        rw [hp', hq'] at this
        exact this (List.get_mem c i) hi'
    subst hcc
    obtain ⟨a, ha⟩ := List.get_of_mem hj
    exact ⟨a, ha⟩

theorem clusters_split (e : ModeNum n) (he : e.Ok) {N : ℕ} {lam : Fin N → ℂ} (hs : Separated e lam) : (clusters e lam).flatten.Nodup ∧ ∀ i, i ∈ (clusters e lam).flatten := by
  rcases Nat.eq_zero_or_pos N with h0 | h0
  · subst h0
    refine ⟨?_, fun i => i.elim0⟩
    rw [List.nodup_iff_injective_get]
    exact fun i => ((clusters e lam).flatten.get i).elim0
  · have : NeZero N := ⟨h0.ne'⟩
    exact clusters_perm e lam (rawB_ne he.eps hs)

/-- C157: with chiral symmetry (and no other symmetry) the modes are proper modes, and the outgoing modes are the chiral partners of the incoming modes,
if at every momentum there is only one speed. -/
theorem C157_modes_partial (en : Numerics n) (hen : en.Ok hop) {stab : Option (Option Bool × Bool)}
    (hL : setupLinsys en h hop stab = .ok L) (hc : CutExact en hop) (hst : ∀ s0, stab = some (s0, true) → NoInfinite h hop)
    (e : ModeNum n) (he : e.Ok) {N : ℕ} {lam : Fin N → ℂ} {psi : Matrix (Fin L.r ⊕ Fin L.r) (Fin N) ℂ} (hi : PropInput L lam psi) (hs : Separated e lam)
    {ch : Matrix (Fin n) (Fin n) ℂ} (hr : Related ch false true h hop h hop) (h1 : OneSpeed h hop)
    (junk : Fin N → ℝ) {o : Proper n L.r N} (ho : makeProperModes e ⟨none, none, some ch⟩ junk lam psi L.extract = .ok o) : ProperSpec h hop L o ∧ ChiralPartners ch o := by
  obtain ⟨u, hf⟩ := setup_faithful en hen hL hc hst
  obtain ⟨hn, hall⟩ := clusters_split e he hs
  rw [makeProperModes, runClusters_eq] at ho
  split at ho
  · cases ho
  rename_i m hm
  rw [runSteps_comp (diagStep e) (chiralStep (some ch) none) _ (fun m m' => clusterStep_chiral e ch m m') hn hall] at hm
  obtain ⟨m1, hm1, hm2⟩ := hm
  split at ho
  · rename_i hv
    obtain ⟨g1, g2, g3, _⟩ := diag_loop e he hf hi hs hm1
    have hcl := diag_clusters e he hf hi hs hm1
    obtain ⟨k1, k2, k3⟩ := chiral_keep _ _ _ hm2
    have h0 : ∀ i, m1.vel i ≠ 0 := by
      intro i h0
      have hv' := hv
      rw [velCheck, decide_eq_true_eq, k2] at hv'
      refine hv'.1 i ?_
      rw [h0, abs_zero]
      exact he.velEps
    obtain ⟨q1, q2⟩ := chiral_loop hi.unit hr h1 _ _ _ hn g1 h0 hcl hm2
    rw [k1, g2] at ho
    dsimp only at ho
    generalize hσ : Tuple.sort (sortKey m.vel (fun i => -(lam i).arg) m.trim) = σ at ho
    have hsrt := q1.sorted e he hi.unit hv m.trim hσ.symm
    have hpar : partners e ⟨none, none, some ch⟩ ((fun i => -(lam i).arg) ∘ σ) (m.full.submatrix id σ, m.psi.submatrix id σ) =
        (m.full.submatrix id σ, m.psi.submatrix id σ) := rfl
    rw [hpar] at ho
    have ho' := Except.ok.inj ho
    constructor
    · rw [← ho']
      exact finish hf e he hi.unit hv (mom := fun i => -(lam i).arg) rfl hσ.symm hsrt.good
    · have hex : ∀ i : Fin (N / 2), ∃ j : Fin (N / 2), m.full.col (σ (secondHalf N j)) = ch *ᵥ m.full.col (σ (firstHalf N i)) ∧
          m.vel (σ (secondHalf N j)) = -m.vel (σ (firstHalf N i)) ∧ lam (σ (secondHalf N j)) = lam (σ (firstHalf N i)) := by
        intro i
        have hneg : m.vel (σ (firstHalf N i)) < 0 := hsrt.first i
        obtain ⟨c, hc', hic⟩ := List.mem_flatten.mp (hall (σ (firstHalf N i)))
        obtain ⟨a, ha⟩ := List.get_of_mem hic
        have hcc := hcl c hc'
        have heven := hcc.even g1 hi.unit hr (fun i => h0 _)
        rw [← ha] at hneg ⊢
        have ha2 : 2 * a.val < c.length := by
          by_contra h3
          have := hcc.pos g1 hi.unit hr (fun i => h0 _) a h3
          rw [k2] at hneg
          linarith
        obtain ⟨b, rfl⟩ := firstHalf_surj heven ha2
        obtain ⟨_, e2⟩ := hcc.halves g1 hi.unit hr (fun i => h0 _) h1 b
        have hvel : m.vel (c.get (secondHalf _ b)) = -m.vel (c.get (firstHalf _ b)) := by rw [k2, e2]
        obtain ⟨j, hj⟩ := secondHalf_surj hsrt.even (j := σ.symm (c.get (secondHalf _ b))) (by
          rw [← hsrt.half]
          show ¬m.vel (σ (σ.symm (c.get (secondHalf _ b)))) < 0
          rw [Equiv.apply_symm_apply, hvel]
          linarith)
        refine ⟨j, ?_⟩
        rw [hj, Equiv.apply_symm_apply]
        exact ⟨q2 c hc' b, hvel, hcc.same _ _⟩
      choose f hf1 hf2 hf3 using hex
      have hinj : Function.Injective f := by
        intro i i' hii
        have e1 : lam (σ (firstHalf N i)) = lam (σ (firstHalf N i')) := by rw [← hf3, ← hf3, hii]
        have e2 : m.full.col (σ (firstHalf N i)) = m.full.col (σ (firstHalf N i')) := by
          have := (hf1 i).symm.trans ((congrArg (fun j => m.full.col (σ (secondHalf N j))) hii).trans (hf1 i'))
          have h4 := congrArg (fun x => chᴴ *ᵥ x) this
          simp only [mulVec_mulVec, hr.left, one_mulVec] at h4
          exact h4
        have e3 := q1.orth _ _ e1
        have e4 := q1.orth (σ (firstHalf N i)) (σ (firstHalf N i)) rfl
        rw [if_pos rfl] at e4
        rw [← e2, e4] at e3
        by_contra hne
        rw [if_neg fun h5 => hne (firstHalf_inj N (σ.injective h5))] at e3
        exact one_ne_zero e3
      refine ⟨Equiv.ofBijective f (Finite.injective_iff_bijective.mp hinj), fun i => ?_⟩
      show o.waveFunctions.col (secondHalf N (f i)) = ch *ᵥ o.waveFunctions.col (firstHalf N i) ∧
        o.velocities (secondHalf N (f i)) = -o.velocities (firstHalf N i) ∧ o.momenta (secondHalf N (f i)) = o.momenta (firstHalf N i)
      rw [← ho']
      refine ⟨?_, hf2 i, ?_⟩
      · dsimp only
        rw [div_col, div_col, mulVec_smul]
        have e1 : (m.full.submatrix id σ).col (secondHalf N (f i)) = ch *ᵥ (m.full.submatrix id σ).col (firstHalf N i) := hf1 i
        have e2 : (m.vel ∘ σ) (secondHalf N (f i)) = -(m.vel ∘ σ) (firstHalf N i) := hf2 i
        rw [e1, e2, abs_neg]
      · show -(lam (σ (secondHalf N (f i)))).arg = -(lam (σ (firstHalf N i))).arg
        rw [hf3]
  · cases ho

/-- C157: chiral symmetry does not cause errors. -/
theorem C157_error (en : Numerics n) (hen : en.Ok hop) {stab : Option (Option Bool × Bool)}
    (hL : setupLinsys en h hop stab = .ok L) (hc : CutExact en hop) (hst : ∀ s0, stab = some (s0, true) → NoInfinite h hop)
    (e : ModeNum n) (he : e.Ok) {N : ℕ} {lam : Fin N → ℂ} {psi : Matrix (Fin L.r ⊕ Fin L.r) (Fin N) ℂ} (hi : PropInput L lam psi) (hs : Separated e lam)
    {ch : Matrix (Fin n) (Fin n) ℂ} (hr : Related ch false true h hop h hop) (junk : Fin N → ℝ) :
    (∃ o, makeProperModes e ⟨none, none, some ch⟩ junk lam psi L.extract = .ok o) ↔ ∃ o, makeProperModes e ⟨none, none, none⟩ junk lam psi L.extract = .ok o := by
  obtain ⟨u, hf⟩ := setup_faithful en hen hL hc hst
  obtain ⟨hn, hall⟩ := clusters_split e he hs
  obtain ⟨m1, hm1⟩ := runSteps_ok (diagStep e) (clusters e lam) (⟨psi, L.extract psi lam, lam, junk, fun _ => 0⟩ : Modes n L.r N) hn fun c _ => ⟨_, rfl⟩
  obtain ⟨g1, g2, g3, _⟩ := diag_loop e he hf hi hs hm1
  have hcl := diag_clusters e he hf hi hs hm1
  have hno : (∃ o, makeProperModes e ⟨none, none, none⟩ junk lam psi L.extract = .ok o) ↔ velCheck e m1.vel = true := by
    rw [makeProperModes, runClusters_eq]
    have : runSteps (clusterStep e ⟨none, none, none⟩) (clusters e lam) (⟨psi, L.extract psi lam, lam, junk, fun _ => 0⟩ : Modes n L.r N) = .ok m1 := hm1
    rw [this]
    dsimp only
    split
    · rename_i h0
      exact ⟨fun _ => h0, fun _ => ⟨_, rfl⟩⟩
    · rename_i h0
      constructor
      · rintro ⟨_, h2⟩
        cases h2
      · intro h2
        exact absurd h2 h0
  rw [hno]
  constructor
  · rintro ⟨o, ho⟩
    rw [makeProperModes, runClusters_eq] at ho
    split at ho
    · cases ho
    rename_i m hm
    rw [runSteps_comp (diagStep e) (chiralStep (some ch) none) _ (fun m m' => clusterStep_chiral e ch m m') hn hall] at hm
    obtain ⟨m1', hm1', hm2⟩ := hm
    rw [hm1] at hm1'
    cases hm1'
    obtain ⟨_, k2, _⟩ := chiral_keep _ _ _ hm2
    split at ho
    · rename_i hv
      rw [← k2]
      exact hv
    · cases ho
  · intro hv
    have h0 : ∀ i, m1.vel i ≠ 0 := by
      intro i h0
      rw [velCheck, decide_eq_true_eq] at hv
      refine hv.1 i ?_
      rw [h0, abs_zero]
      exact he.velEps
    obtain ⟨m2, hm2⟩ := runSteps_ok (chiralStep (some ch) none) (clusters e lam) m1 hn fun c hc' => by
      have := (hcl c hc').even g1 hi.unit hr fun i => h0 _
      rw [chiralStep, if_neg (by omega)]
      exact ⟨_, rfl⟩
    have hm : runSteps (clusterStep e ⟨none, none, some ch⟩) (clusters e lam) (⟨psi, L.extract psi lam, lam, junk, fun _ => 0⟩ : Modes n L.r N) = .ok m2 :=
      (runSteps_comp (diagStep e) (chiralStep (some ch) none) _ (fun m m' => clusterStep_chiral e ch m m') hn hall _ _).mpr ⟨m1, hm1, hm2⟩
    obtain ⟨_, k2, _⟩ := chiral_keep _ _ _ hm2
    rw [makeProperModes, runClusters_eq, hm]
    dsimp only
    rw [k2, if_pos hv]
    exact ⟨_, rfl⟩

end main

end Kwant.Leads
