import Verif.Leads.TimeRev

/-!
The loop over clusters in `make_proper_modes` can be split in consecutive loops, one for every step in its body.
-/

set_option linter.unusedSectionVars false

namespace Kwant.Leads
open Matrix Complex

variable {n r : ℕ}

/-- A step that is performed for one cluster -/
abbrev Step (n r : ℕ) := ∀ {k : ℕ}, Modes n r k → Except LErr (Modes n r k)

/-- The loop over the clusters (l.655-804), with an arbitrary body -/
noncomputable def runSteps (f : Step n r) {N : ℕ} : List (List (Fin N)) → Modes n r N → Except LErr (Modes n r N)
  | [], m => .ok m
  | c :: cs, m =>
    match f (m.take c.get) with
    | .error x => .error x
    | .ok o => runSteps f cs (m.put c.get o)

theorem runClusters_eq (e : ModeNum n) (sy : Symm n) {N : ℕ} : ∀ (cs : List (List (Fin N))) (m : Modes n r N), runClusters e sy cs m = runSteps (clusterStep e sy) cs m
  | [], m => rfl
  | c :: cs, m => by
    rw [runClusters, runSteps]
    split
    · rename_i x hx
      rw [hx]
    · rename_i o ho
      rw [ho, runClusters_eq]

theorem runSteps_spec (f : Step n r) {N : ℕ} : ∀ (cs : List (List (Fin N))) (m m' : Modes n r N), cs.flatten.Nodup →
    runSteps f cs m = .ok m' → (∀ c ∈ cs, f (m.take c.get) = .ok (m'.take c.get)) ∧
      ∀ {k : ℕ} (sel : Fin k → Fin N), (∀ i, sel i ∉ cs.flatten) → m'.take sel = m.take sel
  | [], m, m', _, h => by
    cases h
    exact ⟨fun c hc => absurd hc List.not_mem_nil, fun _ _ => rfl⟩
  | c :: cs, m, m', hn, h => by
    rw [List.flatten_cons, List.nodup_append] at hn
    obtain ⟨hn1, hn2, hn3⟩ := hn
    have hinj : Function.Injective c.get := List.nodup_iff_injective_get.mp hn1
    rw [runSteps] at h
    split at h
    · cases h
    rename_i o ho
    obtain ⟨i1, i2⟩ := runSteps_spec f cs _ m' hn2 h
    have hdis : ∀ c' ∈ cs, ∀ i j, c.get i ≠ c'.get j := fun c' hc' i j =>
      hn3 _ (List.get_mem c i) _ (List.mem_flatten.mpr ⟨c', hc', List.get_mem c' j⟩)
    constructor
    · intro c' hc'
      rcases List.mem_cons.mp hc' with rfl | hc'
      · rw [ho]
        congr 1
        rw [i2 c'.get fun i hi => hn3 _ (List.get_mem c' i) _ hi rfl, take_put hinj]
      · rw [← i1 c' hc', take_put_disjoint (hdis c' hc')]
    · intro k sel hsel
      rw [i2 sel fun i hi => hsel i (by rw [List.flatten_cons, List.mem_append]; exact .inr hi), take_put_disjoint]
      intro i j hij
      exact hsel j (by rw [List.flatten_cons, List.mem_append, ← hij]; exact .inl (List.get_mem c i))

/-- The loop succeeds if the step succeeds for every cluster. -/
theorem runSteps_ok (f : Step n r) {N : ℕ} : ∀ (cs : List (List (Fin N))) (m : Modes n r N), cs.flatten.Nodup → (∀ c ∈ cs, ∃ o, f (m.take c.get) = .ok o) →
    ∃ m', runSteps f cs m = .ok m'
  | [], m, _, _ => ⟨m, rfl⟩
  | c :: cs, m, hn, h => by
    rw [List.flatten_cons, List.nodup_append] at hn
    obtain ⟨hn1, hn2, hn3⟩ := hn
    obtain ⟨o, ho⟩ := h c List.mem_cons_self
    rw [runSteps, ho]
    refine runSteps_ok f cs _ hn2 fun c' hc' => ?_
    rw [take_put_disjoint fun i j => hn3 _ (List.get_mem c i) _ (List.mem_flatten.mpr ⟨c', hc', List.get_mem c' j⟩)]
    exact h c' (List.mem_cons_of_mem _ hc')

theorem runSteps_error (f : Step n r) {N : ℕ} {x : LErr} : ∀ (cs : List (List (Fin N))) (m : Modes n r N), cs.flatten.Nodup → runSteps f cs m = .error x →
    ∃ c ∈ cs, f (m.take c.get) = .error x
  | [], m, _, h => by cases h
  | c :: cs, m, hn, h => by
    rw [List.flatten_cons, List.nodup_append] at hn
    obtain ⟨hn1, hn2, hn3⟩ := hn
    rw [runSteps] at h
    split at h
    · rename_i y hy
      cases h
      exact ⟨c, List.mem_cons_self, hy⟩
    · rename_i o ho
      obtain ⟨c', hc', h'⟩ := runSteps_error f cs _ hn2 h
      rw [take_put_disjoint fun i j => hn3 _ (List.get_mem c i) _ (List.mem_flatten.mpr ⟨c', hc', List.get_mem c' j⟩)] at h'
      exact ⟨c', List.mem_cons_of_mem _ hc', h'⟩

/-- Two states that agree on all clusters are equal. -/
theorem modes_ext {N : ℕ} {cs : List (List (Fin N))} (hall : ∀ i, i ∈ cs.flatten) {m m' : Modes n r N} (h : ∀ c ∈ cs, m.take c.get = m'.take c.get) : m = m' := by
  have key : ∀ i, (∀ x, m.psi x i = m'.psi x i) ∧ (∀ x, m.full x i = m'.full x i) ∧ m.lam i = m'.lam i ∧ m.vel i = m'.vel i ∧ m.trim i = m'.trim i := by
    intro i
    obtain ⟨c, hc, hic⟩ := List.mem_flatten.mp (hall i)
    obtain ⟨a, rfl⟩ := List.get_of_mem hic
    have := h c hc
    simp only [Modes.take, Modes.mk.injEq] at this
    obtain ⟨h1, h2, h3, h4, h5⟩ := this
    exact ⟨fun x => congrFun (congrFun h1 x) a, fun x => congrFun (congrFun h2 x) a, congrFun h3 a, congrFun h4 a, congrFun h5 a⟩
  obtain ⟨p, f, l, v, t⟩ := m
  obtain ⟨p', f', l', v', t'⟩ := m'
  simp only [Modes.mk.injEq]
  refine ⟨?_, ?_, funext fun i => (key i).2.2.1, funext fun i => (key i).2.2.2.1, funext fun i => (key i).2.2.2.2⟩
  · ext x i; exact (key i).1 x
  · ext x i; exact (key i).2.1 x

/-- A loop with two steps is the loop with the first step followed by the loop with the second step. -/
theorem runSteps_comp (f g h : Step n r) (hh : ∀ {k : ℕ} (m m' : Modes n r k), h m = .ok m' ↔ ∃ m1, f m = .ok m1 ∧ g m1 = .ok m') {N : ℕ} {cs : List (List (Fin N))}
    (hn : cs.flatten.Nodup) (hall : ∀ i, i ∈ cs.flatten) (m m' : Modes n r N) :
    runSteps h cs m = .ok m' ↔ ∃ m1, runSteps f cs m = .ok m1 ∧ runSteps g cs m1 = .ok m' := by
  constructor
  · intro hm
    obtain ⟨h1, _⟩ := runSteps_spec h cs m m' hn hm
    obtain ⟨m1, hm1⟩ := runSteps_ok f cs m hn fun c hc => by
      obtain ⟨o, ho, _⟩ := (hh _ _).mp (h1 c hc)
      exact ⟨o, ho⟩
    obtain ⟨h2, _⟩ := runSteps_spec f cs m m1 hn hm1
    have h3 : ∀ c ∈ cs, g (m1.take c.get) = .ok (m'.take c.get) := by
      intro c hc
      obtain ⟨o, ho, ho'⟩ := (hh _ _).mp (h1 c hc)
      rw [h2 c hc] at ho
      cases ho
      exact ho'
    obtain ⟨m2, hm2⟩ := runSteps_ok g cs m1 hn fun c hc => ⟨_, h3 c hc⟩
    obtain ⟨h4, _⟩ := runSteps_spec g cs m1 m2 hn hm2
    refine ⟨m1, hm1, ?_⟩
    rw [hm2]
    congr 1
    refine modes_ext hall fun c hc => ?_
    have := (h4 c hc).symm.trans (h3 c hc)
    exact Except.ok.inj this
  · rintro ⟨m1, hm1, hm'⟩
    obtain ⟨h1, _⟩ := runSteps_spec f cs m m1 hn hm1
    obtain ⟨h2, _⟩ := runSteps_spec g cs m1 m' hn hm'
    have h3 : ∀ c ∈ cs, h (m.take c.get) = .ok (m'.take c.get) := fun c hc => (hh _ _).mpr ⟨_, h1 c hc, h2 c hc⟩
    obtain ⟨m2, hm2⟩ := runSteps_ok h cs m hn fun c hc => ⟨_, h3 c hc⟩
    obtain ⟨h4, _⟩ := runSteps_spec h cs m m2 hn hm2
    rw [hm2]
    congr 1
    refine modes_ext hall fun c hc => ?_
    have := (h4 c hc).symm.trans (h3 c hc)
    exact Except.ok.inj this

/-- Orthogonalization and diagonalization of the velocity operator -/
noncomputable def diagStep (e : ModeNum n) : Step n r := fun m => .ok (rotStep e (orthStep e m))

theorem clusterStep_diag (e : ModeNum n) {k : ℕ} (m : Modes n r k) : clusterStep e ⟨none, none, none⟩ m = diagStep e m := rfl

/-- The velocities of a cluster are sorted. -/
theorem diagStep_mono (e : ModeNum n) (he : e.Ok) {k : ℕ} {m m' : Modes n r k} (h : diagStep e m = .ok m') : Monotone m'.vel := by
  cases h
  refine (he.eigh _ ?_).2.2
  rw [velOpMat, conjTranspose_add, conjTranspose_conjTranspose, add_comm]

/-- What is known after the loop without symmetries. -/
theorem diag_loop {h hop : Matrix (Fin n) (Fin n) ℂ} {L : Linsys n} {u : Matrix (Fin n) (Fin L.r) ℂ} (e : ModeNum n) (he : e.Ok) (hf : Faithful h hop L u) {N : ℕ}
    {lam : Fin N → ℂ} {psi : Matrix (Fin L.r ⊕ Fin L.r) (Fin N) ℂ} (hi : PropInput L lam psi) (hs : Separated e lam) {junk : Fin N → ℝ}
    {m : Modes n L.r N} (hm : runSteps (diagStep e) (clusters e lam) ⟨psi, L.extract psi lam, lam, junk, fun _ => 0⟩ = .ok m) :
    Good h hop u L.v lam m.psi m.full m.vel ∧ m.lam = lam ∧ (m.trim = fun _ => 0) ∧ ∀ c ∈ clusters e lam, Monotone (m.vel ∘ c.get) := by
  have hm' : runClusters e ⟨none, none, none⟩ (clusters e lam) ⟨psi, L.extract psi lam, lam, junk, fun _ => 0⟩ = .ok m := by
    rw [runClusters_eq]
    exact hm
  obtain ⟨g1, g2, g3⟩ := loop_good' e he hf hi hs hm'
  refine ⟨g1, g2, g3, ?_⟩
  rcases Nat.eq_zero_or_pos N with h0 | h0
  · subst h0
    intro c hc i
    exact (c.get i).elim0
  · have : NeZero N := ⟨h0.ne'⟩
    obtain ⟨hn, hall⟩ := clusters_perm e lam (rawB_ne he.eps hs)
    obtain ⟨h1, _⟩ := runSteps_spec _ _ _ _ hn hm
    intro c hc
    exact diagStep_mono e he (h1 c hc)

/-! ### Assignments -/

theorem upd_self {α : Type} {N k : ℕ} (sel : Fin k → Fin N) (a : Fin N → α) : upd sel a (a ∘ sel) = a := by
  ext j
  by_cases hj : ∃ i, sel i = j
  · rw [upd, dif_pos hj]
    exact congrArg a hj.choose_spec
  · push Not at hj
    exact upd_not _ _ hj

theorem updCols_updCols {R : Type} {N k l : ℕ} {sel : Fin k → Fin N} (hs : Function.Injective sel) {s2 : Fin l → Fin k} (hs2 : Function.Injective s2) (a : Matrix R (Fin N) ℂ)
    (b : Matrix R (Fin l) ℂ) : updCols sel a (updCols s2 (a.submatrix id sel) b) = updCols (sel ∘ s2) a b := by
  ext x j
  by_cases hj : ∃ i, sel i = j
  · obtain ⟨i, rfl⟩ := hj
    rw [updCols_sel hs]
    by_cases hi : ∃ l, s2 l = i
    · obtain ⟨l, rfl⟩ := hi
      rw [updCols_sel hs2]
      exact (updCols_sel (hs.comp hs2) a b x l).symm
    · push Not at hi
      rw [updCols_not _ _ _ hi, updCols_not]
      · rfl
      · intro l hl
        exact hi l (hs hl)
  · push Not at hj
    rw [updCols_not _ _ _ hj, updCols_not]
    intro l
    exact hj (s2 l)

end Kwant.Leads
