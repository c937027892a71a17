import Verif.Kpm.Model
import Mathlib.Tactic.Linarith
import Mathlib.Tactic.Ring
import Mathlib.Tactic.Abel

/-! Proofs about the moments of `SpectralDensity`: the loops. -/

set_option linter.unusedSectionVars false

namespace Kwant.Kpm
section
variable {V W : Type} [AddCommGroup V] [Module ℂ V] [AddCommGroup W]

/-- The vectors `T_n(h) v` by the recursion. -/
def cheb (h : V → V) (v : V) : ℕ → V
  | 0 => v
  | 1 => h v
  | n + 2 => (2 : ℂ) • h (cheb h v (n + 1)) - cheb h v n

theorem forRange_self {σ : Type} (lo : ℕ) (body : σ → ℕ → σ) (s : σ) : forRange lo lo body s = s := by
  simp [forRange]

theorem forRange_succ {σ : Type} (lo k : ℕ) (body : σ → ℕ → σ) (s : σ) :
    forRange lo (lo + (k + 1)) body s = body (forRange lo (lo + k) body s) (lo + k) := by
  unfold forRange
  rw [Nat.add_sub_cancel_left, Nat.add_sub_cancel_left, List.range'_concat, List.foldl_append]
  simp

theorem step_cheb (h : V → V) (v : V) (s : Iter V W) (n : ℕ) (h1 : s.alpha = cheb h v n) (h2 : s.next = cheb h v (n + 1)) :
    (s.step h).alpha = cheb h v (n + 1) ∧ (s.step h).next = cheb h v (n + 2) ∧ (s.step h).mom = s.mom := by
  refine ⟨h2, ?_, rfl⟩
  show (2 : ℂ) • h s.next - s.alpha = _
  rw [h1, h2]; rfl

/-- The first `k` moments of the list are right. -/
def MomOk (mu : ℕ → W) (N k : ℕ) (m : List W) : Prop := m.length = N ∧ ∀ j < k, j < N → m[j]? = some (mu j)

theorem MomOk.set {mu : ℕ → W} {N k : ℕ} {m : List W} (hm : MomOk mu N k m) (x : W) (hx : x = mu k) : MomOk mu N (k + 1) (m.set k x) := by
  refine ⟨by rw [List.length_set]; exact hm.1, fun j hj hN => ?_⟩
  rw [List.getElem?_set]
  by_cases hk : k = j
  · subst hk; rw [if_pos rfl, if_pos (by rw [hm.1]; exact hN), hx]
  · rw [if_neg hk]; exact hm.2 j (by omega) hN

theorem MomOk.getD {mu : ℕ → W} {N k : ℕ} {m : List W} (hm : MomOk mu N k m) (j : ℕ) (hj : j < k) (hN : j < N) : m.getD j 0 = mu j := by
  rw [List.getD_eq_getElem?_getD, hm.2 j hj hN]; rfl

theorem MomOk.mono {mu : ℕ → W} {N k k' : ℕ} {m : List W} (hm : MomOk mu N k m) (h : k' ≤ k) : MomOk mu N k' m :=
  ⟨hm.1, fun j hj hN => hm.2 j (by omega) hN⟩

/-- Doubling identities for the product `dot`. -/
def Doubling (dot : V → V → W) (h : V → V) (v : V) : Prop :=
  (∀ n, (2 : ℕ) • dot (cheb h v n) (cheb h v n) - dot v v = dot v (cheb h v (2 * n))) ∧
  ∀ n, (2 : ℕ) • dot (cheb h v (n + 1)) (cheb h v n) - dot v (h v) = dot v (cheb h v (2 * n + 1))

theorem dosLoop (h : V → V) (dot : V → V → W) (v : V) (hd : Doubling dot h v) (N lo : ℕ) (s : Iter V W)
    (h1 : s.alpha = cheb h v lo) (h2 : s.next = cheb h v (lo + 1))
    (hm : MomOk (fun j => dot v (cheb h v j)) N (2 * (lo + 1)) s.mom) (k : ℕ) (hk : 2 * (lo + 1 + k) ≤ N) :
    let s' := forRange (lo + 1) (lo + 1 + k) (dosBody h dot) s
    s'.alpha = cheb h v (lo + k) ∧ s'.next = cheb h v (lo + k + 1) ∧ MomOk (fun j => dot v (cheb h v j)) N (2 * (lo + 1 + k)) s'.mom := by
  induction k with
  | zero => simp only [Nat.add_zero]; rw [forRange_self]; exact ⟨h1, h2, hm⟩
  | succ k ih =>
    obtain ⟨i1, i2, i3⟩ := ih (by omega)
    simp only
    rw [forRange_succ]
    generalize forRange (lo + 1) (lo + 1 + k) (dosBody h dot) s = t at i1 i2 i3
    obtain ⟨e1, e2, e3⟩ := step_cheb h v t (lo + k) i1 i2
    unfold dosBody
    refine ⟨e1, e2, ?_⟩
    simp only
    rw [e1, e2, e3]
    have a1 : MomOk (fun j => dot v (cheb h v j)) N (2 * (lo + 1 + k) + 1)
        (t.mom.set (2 * (lo + 1 + k)) ((2 : ℕ) • dot (cheb h v (lo + k + 1)) (cheb h v (lo + k + 1)) - t.mom.getD 0 0)) := by
      refine i3.set _ ?_
      rw [i3.getD 0 (by omega) (by omega)]
      have := hd.1 (lo + k + 1)
      rw [show 2 * (lo + 1 + k) = 2 * (lo + k + 1) by ring]
      exact this
    have a2 := a1.set ((2 : ℕ) • dot (cheb h v (lo + k + 2)) (cheb h v (lo + k + 1))
        - (t.mom.set (2 * (lo + 1 + k)) ((2 : ℕ) • dot (cheb h v (lo + k + 1)) (cheb h v (lo + k + 1)) - t.mom.getD 0 0)).getD 1 0) (by
      rw [a1.getD 1 (by omega) (by omega)]
      have := hd.2 (lo + k + 1)
      rw [show 2 * (lo + 1 + k) + 1 = 2 * (lo + k + 1) + 1 by ring]
      exact this)
    have : 2 * (lo + 1 + (k + 1)) = 2 * (lo + 1 + k) + 1 + 1 := by ring
    rw [this]
    exact a2

theorem opLoop (h : V → V) (f : V → V → W) (v : V) (N lo : ℕ) (s : Iter V W)
    (h1 : s.alpha = cheb h v lo) (h2 : s.next = cheb h v (lo + 1))
    (hm : MomOk (fun j => f v (cheb h v j)) N (lo + 2) s.mom) (k : ℕ) (hk : lo + 2 + k ≤ N) :
    let s' := forRange (lo + 2) (lo + 2 + k) (opBody h f v) s
    s'.alpha = cheb h v (lo + k) ∧ s'.next = cheb h v (lo + k + 1) ∧ MomOk (fun j => f v (cheb h v j)) N (lo + 2 + k) s'.mom := by
  induction k with
  | zero => simp only [Nat.add_zero]; rw [forRange_self]; exact ⟨h1, h2, hm⟩
  | succ k ih =>
    obtain ⟨i1, i2, i3⟩ := ih (by omega)
    simp only
    rw [forRange_succ]
    generalize forRange (lo + 2) (lo + 2 + k) (opBody h f v) s = t at i1 i2 i3
    obtain ⟨e1, e2, e3⟩ := step_cheb h v t (lo + k) i1 i2
    unfold opBody
    refine ⟨e1, e2, ?_⟩
    simp only
    rw [e2, e3]
    exact i3.set _ (by rw [show lo + 2 + k = lo + k + 2 by ring])

/-- What `_last_two_alphas` holds after `N` moments. -/
def LastOk (k : OpKind V W) (h : V → V) (v : V) (N : ℕ) (p : V × V) : Prop :=
  match k with
  | .dos _ => p = (cheb h v (N / 2 - 1), cheb h v (N / 2))
  | .op _ => p = (cheb h v (N - 2), cheb h v (N - 1))

/-- The doubling identities are needed without operator only. -/
def KindOk (k : OpKind V W) (h : V → V) (v : V) : Prop :=
  match k with
  | .dos dot => Doubling dot h v
  | .op _ => True

theorem iterate_ok (h : V → V) (k : OpKind V W) (v : V) (hk : KindOk k h v) (N0 N : ℕ) (h0 : 2 ≤ N0) (hN : N0 ≤ N) (s : Iter V W)
    (hl : LastOk k h v N0 (s.alpha, s.next)) (hm : MomOk (fun j => k.val v (cheb h v j)) N N0 s.mom) :
    let s' := iterate h k v N0 N s
    LastOk k h v N (s'.alpha, s'.next) ∧ MomOk (fun j => k.val v (cheb h v j)) N N s'.mom := by
  cases k with
  | dos dot =>
    simp only [LastOk, Prod.mk.injEq] at hl
    obtain ⟨h1, h2⟩ := hl
    have e0 : N0 / 2 = (N0 / 2 - 1) + 1 := by omega
    have eN : N / 2 = (N0 / 2 - 1) + 1 + (N / 2 - N0 / 2) := by omega
    have L := dosLoop h dot v hk N (N0 / 2 - 1) s h1 (by rw [← e0]; exact h2) (hm.mono (by omega)) (N / 2 - N0 / 2) (by omega)
    simp only at L
    unfold iterate
    simp only
    rw [← e0] at L
    have eN' : N0 / 2 + (N / 2 - N0 / 2) = N / 2 := by omega
    rw [eN'] at L
    generalize forRange (N0 / 2) (N / 2) (dosBody h dot) s = t at L ⊢
    obtain ⟨i1, i2, i3⟩ := L
    have j1 : t.alpha = cheb h v (N / 2 - 1) := by rw [i1]; congr 1; omega
    have j2 : t.next = cheb h v (N / 2) := by rw [i2]; congr 1; omega
    by_cases hodd : N % 2 = 1
    · rw [if_pos hodd]
      refine ⟨by simp only [LastOk]; rw [j1, j2], ?_⟩
      have e : N - 1 = 2 * (N / 2) := by omega
      have := i3.set ((2 : ℕ) • dot t.next t.next - t.mom.getD 0 0) (by
        rw [i3.getD 0 (by omega) (by omega), j2]; exact hk.1 (N / 2))
      rw [e]
      have e' : N = 2 * (N / 2) + 1 := by omega
      show MomOk _ N N _
      have h3 : MomOk (fun j => dot v (cheb h v j)) N N (t.mom.set (2 * (N / 2)) ((2 : ℕ) • dot t.next t.next - t.mom.getD 0 0)) := by
        refine ⟨this.1, fun j hj hN => this.2 j (by omega) hN⟩
      exact h3
    · rw [if_neg hodd]
      refine ⟨by simp only [LastOk]; rw [j1, j2], ?_⟩
      refine ⟨i3.1, fun j hj hN => i3.2 j (by omega) hN⟩
  | op f =>
    simp only [LastOk, Prod.mk.injEq] at hl
    obtain ⟨h1, h2⟩ := hl
    have e0 : N0 = (N0 - 2) + 2 := by omega
    have L := opLoop h f v N (N0 - 2) s h1 (by rw [h2]; congr 1; omega) (hm.mono (by omega)) (N - N0) (by omega)
    simp only at L
    rw [← e0, Nat.add_sub_cancel' hN] at L
    unfold iterate
    simp only
    generalize forRange N0 N (opBody h f v) s = t at L ⊢
    obtain ⟨i1, i2, i3⟩ := L
    refine ⟨?_, i3⟩
    simp only [LastOk, Prod.mk.injEq]
    refine ⟨by rw [i1]; congr 1; omega, by rw [i2]; congr 1; omega⟩

/-! ### The loop over the vectors -/

/-- The list of moments that belongs to the vector `v`. -/
def momList (k : OpKind V W) (h : V → V) (v : V) (N : ℕ) : List W := (List.range N).map fun j => k.val v (cheb h v j)

theorem MomOk.eq {mu : ℕ → W} {N : ℕ} {m : List W} (hm : MomOk mu N N m) : m = (List.range N).map mu := by
  apply List.ext_getElem?
  intro j
  by_cases hj : j < N
  · rw [hm.2 j hj hj, List.getElem?_map, List.getElem?_range hj]; rfl
  · rw [List.getElem?_eq_none (by rw [hm.1]; omega), List.getElem?_eq_none (by rw [List.length_map, List.length_range]; omega)]

theorem momOk_append (mu : ℕ → W) (N0 N : ℕ) (hN : N0 ≤ N) : MomOk mu N N0 ((List.range N0).map mu ++ List.replicate (N - N0) 0) := by
  refine ⟨by simp; omega, fun j hj _ => ?_⟩
  rw [List.getElem?_append_left (by simpa using hj), List.getElem?_map, List.getElem?_range hj]; rfl

/-- The initial values. -/
theorem momOk_init (k : OpKind V W) (h : V → V) (v : V) (N : ℕ) (hN : 2 ≤ N) :
    MomOk (fun j => k.val v (cheb h v j)) N 2 (((List.replicate N 0).set 0 (k.val v v)).set 1 (k.val v (h v))) := by
  have m0 : MomOk (fun j => k.val v (cheb h v j)) N 0 (List.replicate N 0) := ⟨by simp, fun j hj => by omega⟩
  exact (m0.set (k.val v v) rfl).set (k.val v (h v)) rfl

/-- The rescaled Hamiltonian of the object. -/
noncomputable def SD.h (s : SD V W) : V → V := rescaled s.ham s.a s.b

theorem calc_new (s : SD V W) (v : V) (hk : KindOk s.kind s.h v) (r N : ℕ) (hN : 2 ≤ N) :
    ∃ it, s.calc v r 2 N true = .ok it ∧ LastOk s.kind s.h v N (it.alpha, it.next) ∧ it.mom = momList s.kind s.h v N := by
  unfold SD.calc
  simp only [if_true]
  rw [if_neg (by omega)]
  refine ⟨_, rfl, ?_⟩
  have := iterate_ok s.h s.kind v hk 2 N (le_refl 2) hN
    ⟨v, s.h v, ((List.replicate N 0).set 0 (s.kind.val v v)).set 1 (s.kind.val v (s.h v))⟩
    (by cases hh : s.kind <;> simp [LastOk, cheb]) (momOk_init s.kind s.h v N hN)
  exact ⟨this.1, this.2.eq⟩

theorem calc_more (s : SD V W) (v : V) (hk : KindOk s.kind s.h v) (r N0 N : ℕ) (hn : s.numMoments = N0) (h2 : 2 ≤ N0) (hN : N0 ≤ N)
    (hm : s.moments[r]? = some (momList s.kind s.h v N0)) (p : V × V) (hp : s.last[r]? = some p) (hl : LastOk s.kind s.h v N0 p) :
    ∃ it, s.calc v r N0 N false = .ok it ∧ LastOk s.kind s.h v N (it.alpha, it.next) ∧ it.mom = momList s.kind s.h v N := by
  subst hn
  unfold SD.calc
  simp only [Bool.false_eq_true, if_false]
  refine ⟨_, rfl, ?_⟩
  have := iterate_ok s.h s.kind v hk s.numMoments N h2 hN
    ⟨(s.last.getD r (0, 0)).1, (s.last.getD r (0, 0)).2, s.moments.getD r [] ++ List.replicate (N - s.numMoments) 0⟩
    (by rw [List.getD_eq_getElem?_getD, hp]; exact hl)
    (by
      simp only
      rw [List.getD_eq_getElem?_getD, hm]
      exact momOk_append _ _ _ hN)
  exact ⟨this.1, this.2.eq⟩

end
end Kwant.Kpm
