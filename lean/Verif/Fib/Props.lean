import Verif.Fib.Ops
import Verif.Fib.Spec

/-! C141, C142: the Fibonacci heap is a priority queue, for all histories. -/

set_option linter.unusedSectionVars false

namespace Kwant.Fib

/-- The heap holds exactly the queue `q`. -/
def Holds (N : ℕ) (h : Heap) (q : ℕ → Option ℝ) : Prop :=
  ∃ kids, HeapOk h kids N ∧ (∀ x, (∃ p, x ∈ kids p) ↔ q x ≠ none) ∧ ∀ x v, q x = some v → (h.mem x).val = v

theorem exec_spec (F N : ℕ) (hF : N < F) {h q} (hq : Holds N h q) {op} (hv : Valid N q op) :
    (exec F h op = .error .overflow ∧ op = .removeMin ∧ 200 < N) ∨ ∃ h' out, exec F h op = .ok (h', out) ∧ Holds N h' (after q op out) ∧
      (op = .removeMin → ∃ x v, out = some x ∧ q x = some v ∧ ∀ y w, q y = some w → v ≤ w) := by
  obtain ⟨kids, ok, hmem, hval⟩ := hq
  cases op with
  | insert x v =>
    right
    obtain ⟨hx, hn⟩ := hv
    have hfree : ∀ p, x ∉ kids p := fun p hp => (hmem x).mp ⟨p, hp⟩ hn
    obtain ⟨h', kids', e, ok', v', m'⟩ := insert_ok F N hF _ kids (setVal_ok N h kids ok x hfree v) x hfree hx
    refine ⟨h', none, by simp only [exec, e]; rfl, ⟨kids', ok', fun y => ?_, fun y w hy => ?_⟩, by simp⟩
    · rw [m', hmem]
      simp only [after]
      by_cases hyx : y = x
      · subst hyx; simp
      · simp [Function.update_of_ne hyx, hyx]
    · rw [v', (setVal_fields h.mem x v y).1]
      simp only [after] at hy
      by_cases hyx : y = x
      · subst hyx; simpa using hy
      · rw [Function.update_of_ne hyx] at hy ⊢
        exact hval y w hy
  | decrease x v =>
    right
    obtain ⟨w, hw, hvw⟩ := hv
    obtain ⟨h', kids', e, ok', v', m'⟩ := decrease_ok F N hF h kids ok x ((hmem x).mpr (by rw [hw]; simp)) v (by rw [hval x w hw]; exact hvw)
    refine ⟨h', none, by simp only [exec, e]; rfl, ⟨kids', ok', fun y => ?_, fun y w' hy => ?_⟩, by simp⟩
    · rw [m', hmem]
      simp only [after]
      by_cases hyx : y = x
      · subst hyx; simp [hw]
      · simp [Function.update_of_ne hyx]
    · rw [v']
      simp only [after] at hy
      by_cases hyx : y = x
      · subst hyx; simpa using hy
      · rw [Function.update_of_ne hyx] at hy
        rw [if_neg hyx]
        exact hval y w' hy
  | removeMin =>
    obtain ⟨x, hx⟩ := hv
    rcases removeMin_ok F N hF h kids ok x ((hmem x).mpr hx) with ⟨e, hN⟩ | ⟨h', kids', out, e, ok', v', ho, hmin, m', -⟩
    · left; exact ⟨by simp only [exec, e]; rfl, rfl, hN⟩
    · right
      refine ⟨h', some out, by simp only [exec, e]; rfl, ⟨kids', ok', fun y => ?_, fun y w hy => ?_⟩, fun _ => ?_⟩
      · rw [m', hmem]
        simp only [after]
        by_cases hyx : y = out
        · subst hyx; simp
        · simp [Function.update_of_ne hyx, hyx]
      · rw [v']
        simp only [after] at hy
        by_cases hyx : y = out
        · subst hyx; simp at hy
        · rw [Function.update_of_ne hyx] at hy
          exact hval y w hy
      · obtain ⟨v, hv⟩ := Option.ne_none_iff_exists'.mp ((hmem out).mp ho)
        refine ⟨out, v, rfl, hv, fun y w hy => ?_⟩
        rw [← hval out v hv, ← hval y w hy]
        exact hmin y ((hmem y).mpr (by rw [hy]; simp))

theorem reachable_holds {F N : ℕ} (hF : N < F) {h q} (hr : Reachable F N h q) : Holds N h q := by
  induction hr with
  | init => exact ⟨fun _ => [], init_ok N, by simp, by simp⟩
  | step _ hv he ih =>
    rcases exec_spec F N hF ih hv with ⟨e, -⟩ | ⟨h', out, e, hh, -⟩
    · rw [he] at e; simp at e
    · rw [he] at e
      simp only [Except.ok.injEq, Prod.mk.injEq] at e
      obtain ⟨rfl, rfl⟩ := e
      exact hh

/-- C141.  After every history of valid operations on `N` nodes: no operation follows a NULL pointer or loops for ever, and for up to 200 nodes none accesses `roots_by_rank` outside of its bounds,
so that the operation succeeds. -/
theorem fib_no_fault_partial {F N : ℕ} (hF : N < F) {h q} (hr : Reachable F N h q) {op} (hv : Valid N q op) :
    (∀ e, exec F h op = .error e → e = .overflow ∧ op = .removeMin ∧ 200 < N) ∧ (N ≤ 200 → ∃ r, exec F h op = .ok r) := by
  rcases exec_spec F N hF (reachable_holds hF hr) hv with ⟨e, ho, hN⟩ | ⟨h', out, e, -⟩
  · refine ⟨fun e' he' => ?_, fun h => by omega⟩
    rw [e, Except.error.injEq] at he'
    exact ⟨he'.symm, ho, hN⟩
  · exact ⟨fun e' he' => (by rw [e] at he'; simp at he'), fun _ => ⟨_, e⟩⟩

/-- C142.  After every history of valid operations `remove_min` returns a node of the queue with the smallest value, and `heap.min_node` is NULL if and only if the queue is empty. -/
theorem fib_min {F N : ℕ} (hF : N < F) {h q} (hr : Reachable F N h q) :
    (h.min = none ↔ ∀ x, q x = none) ∧ ∀ h' x, removeMin F h = .ok (h', x) → ∃ v, q x = some v ∧ (h'.mem x).val = v ∧ ∀ y w, q y = some w → v ≤ w := by
  have hh := reachable_holds hF hr
  obtain ⟨kids, ok, hmem, hval⟩ := id hh
  have hemp : h.min = none ↔ ∀ x, q x = none := by
    rcases ok.min with ⟨h1, h2⟩ | ⟨mn, h1, h2, -⟩
    · refine ⟨fun _ x => ?_, fun _ => h1⟩
      by_contra hx
      obtain ⟨r, hr, -⟩ := ok.forest.root x ((hmem x).mpr hx)
      rw [h2] at hr; simp at hr
    · refine ⟨fun h3 => by rw [h2] at h3; simp at h3, fun h3 => absurd (h3 mn) ((hmem mn).mp ⟨none, h1⟩)⟩
  refine ⟨hemp, fun h' x e => ?_⟩
  have hne : ∃ x, q x ≠ none := by
    by_contra hno
    simp only [not_exists, not_not] at hno
    rw [removeMin, hemp.mpr hno] at e
    simp at e
  obtain ⟨x0, hx0⟩ := hne
  rcases removeMin_ok F N hF h kids ok x0 ((hmem x0).mpr hx0) with ⟨e', -⟩ | ⟨h'', kids', out, e', ok', v', ho, hmin, m', -⟩
  · rw [e'] at e; simp at e
  · rw [e'] at e
    simp only [Except.ok.injEq, Prod.mk.injEq] at e
    obtain ⟨rfl, rfl⟩ := e
    obtain ⟨v, hv⟩ := Option.ne_none_iff_exists'.mp ((hmem out).mp ho)
    refine ⟨v, hv, by rw [v', hval out v hv], fun y w hy => ?_⟩
    rw [← hval out v hv, ← hval y w hy]
    exact hmin y ((hmem y).mpr (by rw [hy]; simp))

/-- Not empty: three nodes are inserted, one is decreased, and the smallest comes out. -/
example : ∃ h x, Reachable 10 3 h (after (after (after (after (fun _ => none) (.insert 0 5) none) (.insert 1 3) none) (.insert 2 4) none) (.decrease 0 1) none) ∧
    (∃ h', removeMin 10 h = .ok (h', x)) ∧ x = 0 := by
  have mk : ∀ {h q op}, Reachable 10 3 h q → Valid 3 q op → op ≠ .removeMin → ∃ h', Reachable 10 3 h' (after q op none) := by
    intro h q op hr hv hne
    obtain ⟨⟨h', out⟩, e⟩ := (fib_no_fault_partial (by norm_num) hr hv).2 (by norm_num)
    refine ⟨h', ?_⟩
    have := hr.step hv e
    cases op <;> first | exact this | exact absurd rfl hne
  obtain ⟨h1, r1⟩ := mk (op := .insert 0 5) .init ⟨by norm_num, rfl⟩ (by simp)
  obtain ⟨h2, r2⟩ := mk (op := .insert 1 3) r1 ⟨by norm_num, by simp [after]⟩ (by simp)
  obtain ⟨h3, r3⟩ := mk (op := .insert 2 4) r2 ⟨by norm_num, by simp [after]⟩ (by simp)
  obtain ⟨h4, r4⟩ := mk (op := .decrease 0 1) r3 ⟨5, by simp [after], by norm_num⟩ (by simp)
  obtain ⟨⟨h5, out⟩, e⟩ := (fib_no_fault_partial (op := .removeMin) (by norm_num) r4 ⟨0, by simp [after]⟩).2 (by norm_num)
  simp only [exec] at e
  cases hrm : removeMin 10 h4 with
  | error er => rw [hrm] at e; simp [Except.map] at e
  | ok r =>
    obtain ⟨h', x⟩ := r
    refine ⟨h4, x, r4, ⟨h', hrm⟩, ?_⟩
    obtain ⟨v, hv, -, hmin⟩ := (fib_min (by norm_num) r4).2 h' x hrm
    have h0 := hmin 0 1 (by simp [after])
    by_contra hx
    simp only [after, Function.update_of_ne hx] at hv
    by_cases hx2 : x = 2
    · subst hx2
      simp at hv
      linarith
    · rw [Function.update_of_ne hx2] at hv
      by_cases hx1 : x = 1
      · subst hx1
        simp at hv
        linarith
      · rw [Function.update_of_ne hx1] at hv
        rw [Function.update_of_ne hx] at hv
        simp at hv

end Kwant.Fib
