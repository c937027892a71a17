import Verif.Solver.Mumps

/-!
# C169: histories of a solver context
-/

set_option linter.unusedSectionVars false

namespace Kwant.Mumps
section
variable {M Col Par : Type} {L : Lib M Col Par}

theorem call2_neg {p : Par} {I : Inst M Col} (h : (call2 L p I).infog < 0) : (call2 L p I).fac = none := by
  unfold call2 at h ⊢
  split
  · rename_i a0 a h1 h2
    simp only [h1, h2] at h
    simp only
    rw [if_neg (by omega)]
  · rfl

theorem call2_pos {p : Par} {I : Inst M Col} (h : ¬ (call2 L p I).infog < 0) :
    ∃ a, I.mat = some a ∧ (call2 L p I).fac = some a ∧ ∀ c, L.mul a (L.sol a c) = c := by
  unfold call2 at h ⊢
  split
  · rename_i a0 a h1 h2
    simp only [h1, h2] at h
    refine ⟨a, h2, ?_, L.law a0 a I.memory p (by omega)⟩
    simp only
    rw [if_pos (by omega)]
  · rename_i hx
    split at h
    · rename_i h1 h2
      exact absurd h2 (hx _ _ h1)
    · simp at h

theorem call2_same (p : Par) (I : Inst M Col) :
    (call2 L p I).mat = I.mat ∧ (call2 L p I).sparse = I.sparse ∧ (call2 L p I).memory = I.memory := by
  unfold call2
  split <;> simp

/-- What the loop of `factor` does. -/
theorem retry_spec {p : Par} : ∀ (fuel : ℕ) (I I' : Inst M Col) (r : Option Err), retry L p fuel I = some (I', r) →
    1 ≤ I.memory → I.memory < 2 ^ 31 →
    I'.mat = I.mat ∧ I'.sparse = I.sparse ∧ 1 ≤ I'.memory ∧ I'.memory < 2 ^ 31 ∧
    (r = none → ∃ a, I.mat = some a ∧ I'.fac = some a ∧ ∀ c, L.mul a (L.sol a c) = c) ∧
    (∀ e, r = some e → I'.fac = none ∧ (e = .overflow ∨ ∃ k, e = .mumps k ∧ k < 0 ∧ k ≠ -8 ∧ k ≠ -9)) := by
  intro fuel
  induction fuel with
  | zero => intro I I' r h; cases h
  | succ fuel ih =>
    intro I I' r h hm hm'
    obtain ⟨s1, s2, s3⟩ := call2_same (L := L) p I
    unfold retry at h
    simp only at h
    split at h
    · rename_i hneg
      split at h
      · split at h
        · cases h
          refine ⟨s1, s2, by omega, by omega, by simp, ?_⟩
          intro e he
          cases he
          exact ⟨call2_neg hneg, Or.inl rfl⟩
        · obtain ⟨t1, t2, t3, t4, t5, t6⟩ := ih _ _ _ h (by simp only; omega) (by simp only; omega)
          simp only at t1 t2 t5
          refine ⟨t1.trans s1, t2.trans s2, t3, t4, ?_, t6⟩
          intro hr
          obtain ⟨a, a1, a2⟩ := t5 hr
          exact ⟨a, s1 ▸ a1, a2⟩
      · cases h
        refine ⟨s1, s2, by omega, by omega, by simp, ?_⟩
        intro e he
        cases he
        refine ⟨call2_neg hneg, Or.inr ⟨_, rfl, hneg, ?_⟩⟩
        omega
    · rename_i hneg
      cases h
      refine ⟨s1, s2, by omega, by omega, fun _ => call2_pos hneg, by simp⟩

/-- The loop of `factor` ends. -/
theorem retry_ends {p : Par} : ∀ (fuel : ℕ) (I : Inst M Col), 1 ≤ I.memory → I.memory < 2 ^ 31 →
    2 ^ 31 ≤ I.memory * 2 ^ fuel → ∃ r, retry L p fuel I = some r := by
  intro fuel
  induction fuel with
  | zero =>
    intro I h1 h2 h3
    simp only [pow_zero, mul_one] at h3
    omega
  | succ fuel ih =>
    intro I h1 h2 h3
    obtain ⟨_, _, s3⟩ := call2_same (L := L) p I
    unfold retry
    simp only
    split
    · split
      · split
        · exact ⟨_, rfl⟩
        · apply ih
          · simp only; omega
          · simp only; omega
          · simp only
            rw [s3]
            have : I.memory * 2 * 2 ^ fuel = I.memory * 2 ^ (fuel + 1) := by ring
            rw [this]
            exact h3
      · exact ⟨_, rfl⟩
    · exact ⟨_, rfl⟩

/-- What is always true of a context. -/
def Base (L : Lib M Col Par) (h : List (Op M Col Par × Out Col)) (c : Ctx M Col) : Prop :=
  (c.inst = none ∧ c.dtype = none ∧ c.factored = false) ∨
  ∃ I, c.inst = some I ∧ c.dtype = some .z ∧ 1 ≤ I.memory ∧ I.memory < 2 ^ 31 ∧
    (∀ a, I.fac = some a → ∀ col, L.mul a (L.sol a col) = col) ∧ (I.sparse = true → HasSparse h)

/-- The state agrees with the history. -/
def Agrees (L : Lib M Col Par) (cur : Option M) (c : Ctx M Col) : Prop :=
  match cur with
  | none => c.factored = false
  | some a => c.factored = true ∧ c.n = L.size a ∧ ∃ I, c.inst = some I ∧ I.fac = some a

theorem HasSparse.mono {h : List (Op M Col Par × Out Col)} {x} (hs : HasSparse h) : HasSparse (h ++ [x]) := by
  obtain ⟨b, o, hb⟩ := hs
  exact ⟨b, o, by simp [hb]⟩

theorem Base.mono {h : List (Op M Col Par × Out Col)} {c : Ctx M Col} {x} (hb : Base L h c) : Base L (h ++ [x]) c := by
  rcases hb with hb | ⟨I, b1, b2, b3, b4, b5, b6⟩
  · exact Or.inl hb
  · exact Or.inr ⟨I, b1, b2, b3, b4, b5, fun hs => (b6 hs).mono⟩

theorem call1_same (o : ℕ) (I : Inst M Col) :
    (call1 L o I).mat = I.mat ∧ (call1 L o I).sparse = I.sparse ∧ (call1 L o I).memory = I.memory ∧
    (call1 L o I).fac = none := by
  unfold call1
  split <;> simp_all

/-- An analysis is refused, or begins and leaves nothing factored. -/
theorem analyze_spec {h : List (Op M Col Par × Out Col)} {c : Ctx M Col} (hb : Base L h c) (a : M) (ord : Option ℕ) :
    ((analyze L c a ord).1 = c ∧ ((analyze L c a ord).2 = some .value ∨ (analyze L c a ord).2 = some .attribute)) ∨
    (Base L h (analyze L c a ord).1 ∧ (analyze L c a ord).1.factored = false ∧ (analyze L c a ord).1.n = L.size a ∧
      (∃ I, (analyze L c a ord).1.inst = some I ∧ I.mat = some a) ∧
      ((analyze L c a ord).2 = none ∨ ∃ k, (analyze L c a ord).2 = some (.mumps k))) := by
  have go : ∀ (o : ℕ) (I : Inst M Col), L.dtype a = .z → 1 ≤ I.memory → I.memory < 2 ^ 31 →
      (I.sparse = true → HasSparse h) →
      let I' := call1 L o { I with mat := some a }
      let r : Ctx M Col × Option Err :=
        (⟨some I', some (L.dtype a), L.size a, false⟩, if I'.infog < 0 then some (.mumps I'.infog) else none)
      Base L h r.1 ∧ r.1.factored = false ∧ r.1.n = L.size a ∧ (∃ I, r.1.inst = some I ∧ I.mat = some a) ∧
        (r.2 = none ∨ ∃ k, r.2 = some (.mumps k)) := by
    intro o I hz h1 h2 h3
    obtain ⟨c1, c2, c3, c4⟩ := call1_same (L := L) o { I with mat := some a }
    refine ⟨Or.inr ⟨_, rfl, by simp [hz], by rw [c3]; exact h1, by rw [c3]; exact h2, ?_, by rw [c2]; exact h3⟩,
      rfl, rfl, ⟨_, rfl, c1⟩, ?_⟩
    · intro a' ha'
      rw [c4] at ha'
      cases ha'
    · simp only
      split
      · exact Or.inr ⟨_, rfl⟩
      · exact Or.inl rfl
  unfold analyze
  split
  · exact Or.inl ⟨rfl, Or.inl rfl⟩
  · cases ord with
    | none => exact Or.inl ⟨rfl, Or.inl rfl⟩
    | some o =>
      simp only
      split
      · split
        · rename_i hz
          right
          exact go o newInst hz (by simp [newInst]) (by simp [newInst]) (by simp [newInst])
        · exact Or.inl ⟨rfl, Or.inr rfl⟩
      · rename_i hd
        rcases hb with ⟨b1, b2, _⟩ | ⟨I, b1, b2, b3, b4, b5, b6⟩
        · rw [b2] at hd
          simp at hd
        · rw [b1]
          right
          have hz : L.dtype a = .z := by
            rw [b2] at hd
            simpa using Eq.symm (not_not.mp hd)
          exact go o I hz b3 b4 b6

/-- The second part of `factor`. -/
theorem factorize_spec {fuel : ℕ} {h : List (Op M Col Par × Out Col)} {c c' : Ctx M Col} {p : Par} {r : Option Err}
    {a : M} {I : Inst M Col} (hI : c.inst = some I) (hm : I.mat = some a) (hb : Base L h c) (hn : c.n = L.size a)
    (hf : factorize L fuel p c = some (c', r)) :
    Base L h c' ∧ c'.n = L.size a ∧ (r = none → Agrees L (some a) c') ∧
    (∀ e, r = some e → c'.factored = c.factored ∧ (e = .overflow ∨ ∃ k, e = .mumps k)) := by
  rcases hb with ⟨b1, _⟩ | ⟨I0, b1, b2, b3, b4, b5, b6⟩
  · rw [hI] at b1
    cases b1
  rw [hI] at b1
  cases b1
  unfold factorize at hf
  rw [hI] at hf
  simp only at hf
  split at hf
  · cases hf
  · rename_i I' e hr
    cases hf
    obtain ⟨s1, s2, s3, s4, _, s6⟩ := retry_spec fuel _ _ _ hr b3 b4
    obtain ⟨f1, f2⟩ := s6 _ rfl
    refine ⟨Or.inr ⟨I', rfl, b2, s3, s4, ?_, fun hs => b6 (s2 ▸ hs)⟩, hn, by simp, ?_⟩
    · intro a' ha'
      rw [f1] at ha'
      cases ha'
    · intro e' he
      cases he
      refine ⟨rfl, ?_⟩
      rcases f2 with f2 | ⟨k, f2, _⟩
      · exact Or.inl f2
      · exact Or.inr ⟨k, f2⟩
  · rename_i I' hr
    cases hf
    obtain ⟨s1, s2, s3, s4, s5, _⟩ := retry_spec fuel _ _ _ hr b3 b4
    obtain ⟨a', e1, e2, e3⟩ := s5 rfl
    rw [hm] at e1
    cases e1
    refine ⟨Or.inr ⟨I', rfl, b2, s3, s4, ?_, fun hs => b6 (s2 ▸ hs)⟩, hn, ?_, by simp⟩
    · intro x hx
      rw [e2] at hx
      cases hx
      exact e3
    · intro _
      exact ⟨rfl, hn, I', rfl, e2⟩

/-- `factor` is refused, succeeds, or fails; only with `reuse_analysis` may the context count as factored after a
failure. -/
theorem factor_spec {fuel : ℕ} {h : List (Op M Col Par × Out Col)} {c c' : Ctx M Col} {p : Par} {r : Option Err}
    {a : M} {ord : Option ℕ} {reuse : Bool} (hb : Base L h c) (hf : factor L fuel c a ord p reuse = some (c', r)) :
    (c' = c ∧ (r = some .value ∨ r = some .attribute)) ∨
    (Base L h c' ∧ (r = none → Agrees L (some a) c') ∧
      ∀ e, r = some e → (reuse = false → c'.factored = false) ∧ (e = .overflow ∨ ∃ k, e = .mumps k)) := by
  have fresh : (match analyze L c a ord with
      | (c', some e) => some (c', some e)
      | (c', none) => factorize L fuel p c') = some (c', r) →
      (c' = c ∧ (r = some .value ∨ r = some .attribute)) ∨
      (Base L h c' ∧ (r = none → Agrees L (some a) c') ∧
        ∀ e, r = some e → (reuse = false → c'.factored = false) ∧ (e = .overflow ∨ ∃ k, e = .mumps k)) := by
    intro hf
    have hs := analyze_spec hb a ord
    rcases hx : analyze L c a ord with ⟨c1, r1⟩
    rw [hx] at hs hf
    simp only at hs hf
    cases r1 with
    | some e =>
      cases hf
      rcases hs with ⟨h1, h2⟩ | ⟨h1, h2, h3, h4, h5⟩
      · exact Or.inl ⟨h1, h2⟩
      · refine Or.inr ⟨h1, by simp, ?_⟩
        intro e' he
        cases he
        rcases h5 with h5 | ⟨k, h5⟩
        · cases h5
        · cases h5
          exact ⟨fun _ => h2, Or.inr ⟨k, rfl⟩⟩
    | none =>
      simp only at hf
      rcases hs with ⟨h1, h2 | h2⟩ | ⟨h1, h2, h3, ⟨I, h4, h4'⟩, h5⟩
      · cases h2
      · cases h2
      · obtain ⟨f1, _, f3, f4⟩ := factorize_spec h4 h4' h1 h3 hf
        refine Or.inr ⟨f1, f3, ?_⟩
        intro e he
        obtain ⟨g1, g2⟩ := f4 e he
        exact ⟨fun _ => g1.trans h2, g2⟩
  unfold factor at hf
  split at hf
  · cases hf
    exact Or.inl ⟨rfl, Or.inl rfl⟩
  · simp only at hf
    split at hf
    · rename_i hreuse
      split at hf
      · exact fresh hf
      · rename_i I hI
        split at hf
        · cases hf
          exact Or.inl ⟨rfl, Or.inl rfl⟩
        · rcases hb with ⟨b1, _⟩ | ⟨I0, b1, b2, b3, b4, b5, b6⟩
          · rw [hI] at b1
            cases b1
          rw [hI] at b1
          cases b1
          have hb' : Base L h { c with inst := some { I with mat := some a }, n := L.size a } :=
            Or.inr ⟨_, rfl, b2, b3, b4, b5, b6⟩
          obtain ⟨f1, _, f3, f4⟩ := factorize_spec (a := a) rfl rfl hb' rfl hf
          refine Or.inr ⟨f1, f3, ?_⟩
          intro e he
          obtain ⟨g1, g2⟩ := f4 e he
          exact ⟨fun hx => absurd (hx.symm.trans hreuse) (by simp), g2⟩
    · exact fresh hf

/-- A solution changes neither what is factored nor the size. -/
theorem solve_spec {h : List (Op M Col Par × Out Col)} {c : Ctx M Col} (hb : Base L h c) (b : Rhs Col) (sp : Bool) :
    Base L (h ++ [(.solve b sp, (solve L c b sp).2)]) (solve L c b sp).1 ∧
    (solve L c b sp).1.factored = c.factored ∧ (solve L c b sp).1.n = c.n ∧
    ∀ I a, c.inst = some I → I.fac = some a → ∃ I', (solve L c b sp).1.inst = some I' ∧ I'.fac = some a := by
  rcases hb with ⟨b1, b2, b3⟩ | ⟨I, b1, b2, b3, b4, b5, b6⟩
  · have e : solve L c b sp = (c, .error .runtime) := by
      unfold solve
      rw [if_pos b3]
    rw [e]
    refine ⟨Or.inl ⟨b1, b2, b3⟩, rfl, rfl, ?_⟩
    intro I a hI
    rw [b1] at hI
    cases hI
  · have c3 : ∀ (cols : List Col) (J : Inst M Col), (call3 L cols J).1.fac = J.fac ∧
        (call3 L cols J).1.sparse = J.sparse ∧ (call3 L cols J).1.memory = J.memory := by
      intro cols J
      unfold call3
      split <;> simp_all
    have hmono : ∀ x, Base L (h ++ [x]) c := fun x =>
      Base.mono (Or.inr ⟨I, b1, b2, b3, b4, b5, b6⟩)
    unfold solve
    split
    · exact ⟨hmono _, rfl, rfl, fun I a h1 h2 => ⟨I, h1, h2⟩⟩
    · rw [b1]
      simp only
      split
      · exact ⟨hmono _, rfl, rfl, fun I a h1 h2 => ⟨_, b1, by cases h1; exact h2⟩⟩
      · split
        · rename_i hsp
          subst hsp
          have hs : ∀ o, HasSparse (h ++ [(Op.solve (Par := Par) b true, o)]) := fun o => ⟨b, o, by simp⟩
          split
          · exact ⟨Or.inr ⟨_, rfl, b2, b3, b4, b5, fun _ => hs _⟩, rfl, rfl,
              fun I a h1 h2 => ⟨_, rfl, by cases h1; exact h2⟩⟩
          · obtain ⟨t1, t2, t3⟩ := c3 b.cols { I with rhs := b.cols, sparse := true }
            refine ⟨Or.inr ⟨_, rfl, b2, by rw [t3]; exact b3, by rw [t3]; exact b4, by rw [t1]; exact b5,
              fun _ => hs _⟩, rfl, rfl, fun I' a h1 h2 => ⟨_, rfl, ?_⟩⟩
            cases h1
            rw [t1]
            exact h2
        · split
          · exact ⟨hmono _, rfl, rfl, fun I a h1 h2 => ⟨_, b1, by cases h1; exact h2⟩⟩
          · obtain ⟨t1, t2, t3⟩ := c3 b.cols I
            refine ⟨Or.inr ⟨_, rfl, b2, by rw [t3]; exact b3, by rw [t3]; exact b4, by rw [t1]; exact b5,
              fun hs => (b6 (t2 ▸ hs)).mono⟩, rfl, rfl, fun I' a h1 h2 => ⟨_, rfl, ?_⟩⟩
            cases h1
            rw [t1]
            exact h2

theorem reaches_base {fuel : ℕ} {c : Ctx M Col} {h : List (Op M Col Par × Out Col)} (hr : Reaches L fuel c h) :
    Base L h c := by
  induction hr with
  | new => exact Or.inl ⟨rfl, rfl, rfl⟩
  | @call c h c' o op hr hs ih =>
    cases op with
    | analyze a ord =>
      cases hs
      rcases analyze_spec ih a ord with ⟨h1, _⟩ | ⟨h1, _⟩
      · rw [h1]
        exact ih.mono
      · exact h1.mono
    | factor a ord p reuse =>
      simp only [step] at hs
      obtain ⟨⟨c1, r1⟩, hf, e⟩ := Option.map_eq_some_iff.mp hs
      cases e
      rcases factor_spec ih hf with ⟨h1, _⟩ | ⟨h1, _⟩
      · rw [h1]
        exact ih.mono
      · exact h1.mono
    | solve b sp =>
      simp only [step, Option.some.injEq] at hs
      have := (solve_spec ih b sp).1
      rw [hs] at this
      exact this

theorem current_snoc (h : List (Op M Col Par × Out Col)) (x) : current (h ++ [x]) = current1 (current h) x := by
  simp [current]

theorem reaches_agrees {fuel : ℕ} {c : Ctx M Col} {h : List (Op M Col Par × Out Col)} (hr : Reaches L fuel c h)
    (hn : NoReuseFailure h) : Agrees L (current h) c := by
  induction hr with
  | new => exact rfl
  | @call c h c' o op hr hs ih =>
    have hb := reaches_base hr
    have ih := ih fun a ord p o hm => hn a ord p o (by simp [hm])
    rw [current_snoc]
    cases op with
    | analyze a ord =>
      cases hs
      simp only [current1]
      rcases analyze_spec hb a ord with ⟨h1, h2⟩ | ⟨h1, h2, _, _, h5⟩
      · have : Refused (Col := Col) (toOut (analyze L c a ord).2) := by
          rcases h2 with h2 | h2 <;> rw [h2] <;> trivial
        rw [if_pos this, h1]
        exact ih
      · have : ¬ Refused (Col := Col) (toOut (analyze L c a ord).2) := by
          rcases h5 with h5 | ⟨k, h5⟩ <;> rw [h5] <;> simp [toOut, Refused]
        rw [if_neg this]
        exact h2
    | factor a ord p reuse =>
      simp only [step] at hs
      obtain ⟨⟨c1, r1⟩, hf, e⟩ := Option.map_eq_some_iff.mp hs
      cases e
      rcases factor_spec hb hf with ⟨h1, h2⟩ | ⟨h1, h2, h3⟩
      · rw [h1]
        rcases h2 with h2 | h2 <;> rw [h2] <;> simpa [toOut, current1, Refused] using ih
      · cases r1 with
        | none => exact h2 rfl
        | some e =>
          obtain ⟨g1, g2⟩ := h3 e rfl
          have hnr : ¬ Refused (Col := Col) (.error e) := by
            rcases g2 with rfl | ⟨k, rfl⟩ <;> simp [Refused]
          simp only [toOut, current1]
          rw [if_neg hnr]
          cases hre : reuse with
          | false => exact g1 hre
          | true =>
            exfalso
            apply hnr
            have := hn a ord p (.error e) (by rw [← hre]; simp [toOut]) e rfl
            exact this
    | solve b sp =>
      simp only [step, Option.some.injEq] at hs
      obtain ⟨_, s2, s3, s4⟩ := solve_spec hb b sp
      rw [hs] at s2 s3 s4
      simp only [current1]
      unfold Agrees at ih ⊢
      cases hc : current h with
      | none =>
        rw [hc] at ih
        exact s2.trans ih
      | some a =>
        rw [hc] at ih
        obtain ⟨i1, i2, I, i3, i4⟩ := ih
        exact ⟨s2.trans i1, s3.trans i2, s4 I a i3 i4⟩

/-- C169 (partial): after any history of `analyze`, `factor` and `solve`, in which no factorization with
`reuse_analysis=True` failed inside MUMPS, `solve` raises `RuntimeError` if there is no valid
factorization, `ValueError` if the right hand side has the wrong size, and otherwise returns the solution of the linear system with the
matrix of the last factorization; excluded are right hand sides that are matrices with one row and one column, and dense right hand
sides after a sparse one. -/
theorem C169_solve_partial {fuel : ℕ} {c : Ctx M Col} {h : List (Op M Col Par × Out Col)} (hr : Reaches L fuel c h)
    (hn : NoReuseFailure h) (b : Rhs Col) (sp : Bool) (hb : b.vector = true ∨ b.rows ≠ 1 ∨ b.cols.length ≠ 1)
    (hs : sp = false → ¬ HasSparse h) : Right L h b (solve L c b sp).2 := by
  have ha := reaches_agrees hr hn
  have hbase := reaches_base hr
  have hok : okArray b = true := by
    unfold okArray
    rcases hb with hb | hb | hb <;> simp [hb]
  unfold Right
  unfold Agrees at ha
  cases hc : current h with
  | none =>
    rw [hc] at ha
    simp only
    unfold solve
    rw [if_pos ha]
  | some a =>
    rw [hc] at ha
    obtain ⟨i1, i2, I, i3, i4⟩ := ha
    rcases hbase with ⟨b1, _⟩ | ⟨I0, b1, b2, b3, b4, b5, b6⟩
    · rw [i3] at b1
      cases b1
    rw [i3] at b1
    cases b1
    have law := b5 a i4
    have hl : (L.mul a) ∘ (L.sol a) = id := by
      funext x
      exact law x
    simp only
    by_cases hrows : b.rows ≠ L.size a
    · rw [if_pos hrows]
      unfold solve
      rw [if_neg (by simp [i1]), i3, i2]
      simp only
      rw [if_pos hrows]
    · rw [if_neg hrows]
      refine ⟨b.cols.map (L.sol a), ?_, ?_⟩
      · unfold solve
        rw [if_neg (by simp [i1]), i3, i2]
        simp only
        rw [if_neg hrows]
        simp only [hok, reduceCtorEq, if_false, Bool.true_eq_false]
        cases sp with
        | true => simp [call3, i4]
        | false =>
          have hsp : I.sparse = false := by
            cases hI : I.sparse with
            | false => rfl
            | true => exact absurd (b6 hI) (hs rfl)
          simp [call3, i4, hsp]
      · rw [List.map_map, hl, List.map_id]

/-- C170: every call ends, whatever MUMPS answers: `factor` makes at most 31 attempts. -/
theorem C170_ends {fuel : ℕ} (hfuel : 31 ≤ fuel) {c : Ctx M Col} {h : List (Op M Col Par × Out Col)}
    (hr : Reaches L fuel c h) (op : Op M Col Par) : ∃ c' o, step L fuel c op = some (c', o) := by
  have hb := reaches_base hr
  have hpow : ∀ m : ℤ, 1 ≤ m → 2 ^ 31 ≤ m * 2 ^ fuel := by
    intro m hm
    have h1 : (2 : ℤ) ^ 31 ≤ 2 ^ fuel := pow_le_pow_right₀ (by norm_num) hfuel
    nlinarith
  have fz : ∀ (p : Par) (c1 : Ctx M Col), Base L h c1 → ∃ r, factorize L fuel p c1 = some r := by
    intro p c1 hb1
    unfold factorize
    rcases hb1 with ⟨b1, _⟩ | ⟨I, b1, _, b3, b4, _⟩
    · rw [b1]
      exact ⟨_, rfl⟩
    · rw [b1]
      obtain ⟨⟨I', r⟩, hI⟩ := retry_ends (L := L) (p := p) fuel I b3 b4 (hpow _ b3)
      simp only [hI]
      cases r <;> exact ⟨_, rfl⟩
  cases op with
  | analyze a ord => exact ⟨_, _, rfl⟩
  | solve b sp => exact ⟨_, _, rfl⟩
  | factor a ord p reuse =>
    have fresh : ∃ r, (match analyze L c a ord with
        | (c', some e) => some (c', some e)
        | (c', none) => factorize L fuel p c') = some r := by
      have hs := analyze_spec hb a ord
      rcases hx : analyze L c a ord with ⟨c1, r1⟩
      rw [hx] at hs
      cases r1 with
      | some e => exact ⟨_, rfl⟩
      | none =>
        simp only at hs ⊢
        apply fz
        rcases hs with ⟨rfl, _⟩ | ⟨h1, _⟩
        · exact hb
        · exact h1
    have key : ∃ r, factor L fuel c a ord p reuse = some r := by
      unfold factor
      split
      · exact ⟨_, rfl⟩
      · simp only
        split
        · split
          · exact fresh
          · rename_i I hI
            split
            · exact ⟨_, rfl⟩
            · apply fz
              rcases hb with ⟨b1, _⟩ | ⟨I0, b1, b2, b3, b4, b5, b6⟩
              · rw [hI] at b1
                cases b1
              · rw [hI] at b1
                cases b1
                exact Or.inr ⟨_, rfl, b2, b3, b4, b5, b6⟩
        · exact fresh
    obtain ⟨r, hr⟩ := key
    exact ⟨r.1, toOut r.2, by simp [step, hr]⟩

/-- C170: a factorization that reuses the analysis succeeds with the new matrix, is refused, or raises an exception that
does not ask for more memory. -/
theorem C170_result {fuel : ℕ} {c c' : Ctx M Col} {h : List (Op M Col Par × Out Col)} (hr : Reaches L fuel c h)
    {a : M} {ord : Option ℕ} {p : Par} {o : Out Col} (hi : c.inst ≠ none)
    (hstep : step L fuel c (.factor a ord p true) = some (c', o)) :
    (o = .ok [] ∧ ∃ I, c'.inst = some I ∧ I.fac = some a) ∨ (o = .error .value ∧ c' = c) ∨ o = .error .overflow ∨
    ∃ k, o = .error (.mumps k) ∧ k < 0 ∧ k ≠ -8 ∧ k ≠ -9 := by
  rcases reaches_base hr with ⟨b1, _⟩ | ⟨I, b1, b2, b3, b4, b5, b6⟩
  · exact absurd b1 hi
  simp only [step] at hstep
  obtain ⟨⟨c1, r1⟩, hf, e⟩ := Option.map_eq_some_iff.mp hstep
  obtain ⟨e1, e2⟩ := Prod.mk.inj e
  simp only at e1 e2
  subst e1
  rw [← e2]
  clear hstep e e2
  unfold factor at hf
  split at hf
  · cases hf
    exact Or.inr (Or.inl ⟨rfl, rfl⟩)
  · simp only [b1, if_true] at hf
    split at hf
    · cases hf
      exact Or.inr (Or.inl ⟨rfl, rfl⟩)
    · unfold factorize at hf
      simp only at hf
      split at hf
      · cases hf
      · rename_i I' e hr
        cases hf
        obtain ⟨_, _, _, _, _, s6⟩ := retry_spec fuel _ _ _ hr b3 b4
        rcases (s6 e rfl).2 with rfl | ⟨k, rfl, hk⟩
        · exact Or.inr (Or.inr (Or.inl rfl))
        · exact Or.inr (Or.inr (Or.inr ⟨k, rfl, hk⟩))
      · rename_i I' hr
        cases hf
        obtain ⟨_, _, _, _, s5, _⟩ := retry_spec fuel _ _ _ hr b3 b4
        obtain ⟨a', e1, e2, _⟩ := s5 rfl
        cases e1
        exact Or.inl ⟨rfl, I', rfl, e2⟩

end

/-! ## Examples -/

/-- Multiples of the identity by 1, -1 and other (refused) numbers; MUMPS needs `icntl[14] ≥ 50`. -/
def toy : Lib (ℕ × ℤ) (List ℤ) Unit where
  size := Prod.fst
  square := fun _ => true
  dtype := fun _ => .z
  mul := fun a c => c.map (a.2 * ·)
  anaErr := fun _ _ => 0
  facErr := fun _ a m _ => if a.2 * a.2 ≠ 1 then -10 else if m < 50 then -9 else 0
  sol := fun a c => c.map (a.2 * ·)
  law := by
    intro a0 a m p h c
    have ha : a.2 * a.2 = 1 := by
      by_contra h0
      simp [h0] at h
    rw [List.map_map]
    conv_rhs => rw [← List.map_id c]
    apply List.map_congr_left
    intro x _
    simp only [Function.comp, id]
    rw [← mul_assoc, ha, one_mul]

/-- The contexts after some calls. -/
def calls (fuel : ℕ) : Ctx (ℕ × ℤ) (List ℤ) → List (Op (ℕ × ℤ) (List ℤ) Unit) →
    Option (Ctx (ℕ × ℤ) (List ℤ) × List (Op (ℕ × ℤ) (List ℤ) Unit × Out (List ℤ)))
  | c, [] => some (c, [])
  | c, op :: ops =>
    match step toy fuel c op with
    | none => none
    | some (c', o) => (calls fuel c' ops).map fun r => (r.1, (op, o) :: r.2)

theorem calls_reaches {fuel : ℕ} {ops} {c c' : Ctx (ℕ × ℤ) (List ℤ)} {h0 h} (h1 : Reaches toy fuel c h0)
    (h2 : calls fuel c ops = some (c', h)) : Reaches toy fuel c' (h0 ++ h) := by
  induction ops generalizing c h0 h with
  | nil =>
    cases h2
    simpa using h1
  | cons op ops ih =>
    unfold calls at h2
    split at h2
    · cases h2
    · rename_i c1 o hs
      obtain ⟨⟨c2, h'⟩, e1, e2⟩ := Option.map_eq_some_iff.mp h2
      cases e2
      have := ih (.call h1 hs) e1
      simpa using this

/-- A right hand side with one column. -/
def col (v : List ℤ) : Rhs (List ℤ) := ⟨v.length, [v], false⟩

/-- C169, C170: a context that was used for two matrices, after MUMPS asked for more memory. -/
theorem C169_example : ∃ c h, Reaches toy 31 c h ∧ NoReuseFailure h ∧ ¬ HasSparse h ∧ current h = some (2, -1) ∧
    (solve toy c (col [1, 2]) false).2 = .ok [[-1, -2]] := by
  have hc : ∃ c h, calls 31 newCtx [.factor (3, 1) (some 7) () false, .solve (col [1, 1, 1]) false,
      .factor (2, -1) (some 7) () true] = some (c, h) ∧
      h = [(.factor (3, 1) (some 7) () false, .ok []), (.solve (col [1, 1, 1]) false, .ok [[1, 1, 1]]),
        (.factor (2, -1) (some 7) () true, .ok [])] ∧
      (solve toy c (col [1, 2]) false).2 = .ok [[-1, -2]] := ⟨_, _, rfl, rfl, rfl⟩
  obtain ⟨c, h, h1, h2, h3⟩ := hc
  refine ⟨c, h, by simpa using calls_reaches .new h1, ?_, ?_, ?_, h3⟩
  · subst h2
    intro a ord p o hm e he
    simp at hm
    rw [hm.2] at he
    cases he
  · subst h2
    rintro ⟨b, o, hm⟩
    simp at hm
  · subst h2
    rfl

/-- C169 fails: a dense right hand side after a sparse one gives the solution for the sparse one. -/
theorem C169_counterexample_sparse : ∃ c h, Reaches toy 31 c h ∧ NoReuseFailure h ∧ current h = some (2, -1) ∧
    (solve toy c (col [3, 4]) false).2 = .ok [[-1, -2]] ∧ ¬ Right toy h (col [3, 4]) (solve toy c (col [3, 4]) false).2 := by
  have hc : ∃ c h, calls 31 newCtx [.factor (2, -1) (some 7) () false, .solve (col [1, 2]) true] = some (c, h) ∧
      h = [(.factor (2, -1) (some 7) () false, .ok []), (.solve (col [1, 2]) true, .ok [[-1, -2]])] ∧
      (solve toy c (col [3, 4]) false).2 = .ok [[-1, -2]] := ⟨_, _, rfl, rfl, rfl⟩
  obtain ⟨c, h, h1, h2, h3⟩ := hc
  refine ⟨c, h, by simpa using calls_reaches .new h1, ?_, ?_, h3, ?_⟩
  · subst h2
    intro a ord p o hm e he
    simp at hm
  · subst h2
    rfl
  · rw [h3]
    subst h2
    rintro ⟨xs, e, he⟩
    cases e
    revert he
    decide

/-- C169 fails: after a failed factorization with `reuse_analysis=True` the context counts as factored, and `solve` returns
the right hand side. -/
theorem C169_counterexample_reuse : ∃ c h, Reaches toy 31 c h ∧ ¬ HasSparse h ∧
    (∃ h0, h = h0 ++ [(.factor (2, 0) (some 7) () true, .error (.mumps (-10)))]) ∧
    (solve toy c (col [3, 4]) false).2 = .ok [[3, 4]] ∧ ¬ Right toy h (col [3, 4]) (solve toy c (col [3, 4]) false).2 := by
  have hc : ∃ c h, calls 31 newCtx [.factor (2, -1) (some 7) () false, .factor (2, 0) (some 7) () true] = some (c, h) ∧
      h = [(.factor (2, -1) (some 7) () false, .ok []), (.factor (2, 0) (some 7) () true, .error (.mumps (-10)))] ∧
      (solve toy c (col [3, 4]) false).2 = .ok [[3, 4]] := ⟨_, _, rfl, rfl, rfl⟩
  obtain ⟨c, h, h1, h2, h3⟩ := hc
  refine ⟨c, h, by simpa using calls_reaches .new h1, ?_,
    ⟨[(.factor (2, -1) (some 7) () false, .ok [])], h2⟩, h3, ?_⟩
  · subst h2
    rintro ⟨b, o, hm⟩
    simp at hm
  · rw [h3]
    subst h2
    intro hr
    cases hr

/-- C169 fails: a right hand side with one row and one column is refused. -/
theorem C169_counterexample_one : ∃ c h, Reaches toy 31 c h ∧ NoReuseFailure h ∧ ¬ HasSparse h ∧ current h = some (1, -1) ∧
    (solve toy c (col [3]) false).2 = .error .value ∧ ¬ Right toy h (col [3]) (solve toy c (col [3]) false).2 := by
  have hc : ∃ c h, calls 31 newCtx [.factor (1, -1) (some 7) () false] = some (c, h) ∧
      h = [(.factor (1, -1) (some 7) () false, .ok [])] ∧
      (solve toy c (col [3]) false).2 = .error .value := ⟨_, _, rfl, rfl, rfl⟩
  obtain ⟨c, h, h1, h2, h3⟩ := hc
  refine ⟨c, h, by simpa using calls_reaches .new h1, ?_, ?_, ?_, h3, ?_⟩
  · subst h2
    intro a ord p o hm e he
    simp at hm
  · subst h2
    rintro ⟨b, o, hm⟩
    simp at hm
  · subst h2
    rfl
  · rw [h3]
    subst h2
    rintro ⟨xs, e, he⟩
    cases e

end Kwant.Mumps
