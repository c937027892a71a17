import Verif.Kpm.Integral
import Mathlib.Analysis.SpecialFunctions.Trigonometric.InverseDeriv
import Mathlib.Analysis.SpecialFunctions.ExpDeriv

/-!
Model of kpm.py: `Correlator`, `fermi_distribution`.

Simplifications
* Exact arithmetic.  The operators are functions of vectors (what `_normalize_operator` returns) that do not raise.
* The generator `_op_factory` reads the vectors of the factory of the first spectral density: before each use its elements are those that this
  factory provides at that time.  (The factory saves its vectors, reading them again changes nothing but `_last_idx`, which it does not use.)
* Shapes: NumPy would broadcast an axis of length one; here all differences are exceptions.  Both spectral densities have at least two moments.
* `simpson` is a parameter.
-/

set_option linter.unusedSectionVars false

namespace Kwant.Kpm
open Polynomial Finset
open Matrix hiding map_apply

variable {d : ℕ}

/-- `fake_op` (kpm.py l.570) -/
def fakeOp : OpKind (Vec d) (Vec d) := .op fun _ ket => ket

/-- `_op_factory` (kpm.py l.697-706). -/
def linked (op1 : Vec d → Vec d) (f : Factory (Vec d)) (i : ℕ) : Option (Vec d) :=
  match (f.get i).2 with
  | .ok v => some (op1 v)
  | .error _ => none

/-- `Correlator` (kpm.py l.493-760).  `mm` are the matrices of all vectors before the mean is taken; `factor r k` is `_integral_factor` at
energy `k` for the mean (`none`) or vector `r`, `nE` its length. -/
structure Cor (d : ℕ) where
  op1 : Vec d → Vec d
  op2 : Vec d → Vec d
  kernel : Kernel ℝ
  a : ℝ
  b : ℝ
  R : SD (Vec d) (Vec d)
  L : SD (Vec d) (Vec d)
  numMoments : ℕ
  numVectors : ℕ
  psi : List (List (Vec d))
  omega : List (List (Vec d))
  mm : List (List (List ℂ))
  factor : Option ℕ → ℕ → ℂ
  nE : ℕ

/-- `_update_psi` (kpm.py l.708-718) -/
def updatePsi (op2 : Vec d → Vec d) (R : SD (Vec d) (Vec d)) : List (List (Vec d)) :=
  (List.range R.numVectors).map fun r => (List.range R.numMoments).map fun n => op2 ((R.moments.getD r []).getD n 0)

/-- The mean over the vectors or one vector of `moments_matrix` (kpm.py l.693-695). -/
noncomputable def matrixOf (mm : List (List (List ℂ))) (r : Option ℕ) (m n : ℕ) : ℂ :=
  match r with
  | none => (mm.length : ℂ)⁻¹ * (mm.map fun x => (x.getD m []).getD n 0).sum
  | some r => ((mm.getD r []).getD m []).getD n 0

/-- `moments_matrix[m, n]` -/
noncomputable def Cor.matrix (c : Cor d) (r : Option ℕ) (m n : ℕ) : ℂ := matrixOf c.mm r m n

/-- `e_plus[n]` (kpm.py l.747-754). -/
noncomputable def ePlus (e : ℝ) (n : ℕ) : ℂ := ((e : ℂ) - Complex.I * √(1 - e ^ 2) * n) * Complex.exp (Complex.I * Real.arccos e * n)

/-- `t_n[n]` (kpm.py l.751) -/
noncomputable def tRe (e : ℝ) (n : ℕ) : ℂ := ((Complex.exp (Complex.I * Real.arccos e * n)).re : ℂ)

/-- `big_gamma[i, j]` (kpm.py l.756-757) -/
noncomputable def bigGamma (e : ℝ) (i j : ℕ) : ℂ := ePlus e j * tRe e i + star (ePlus e i * tRe e j)

/-- `g_kernel[m]` (kpm.py l.737-738) -/
noncomputable def gKernel (kernel : Kernel ℝ) (N m : ℕ) : ℝ := if m = 0 then kernel N (fun _ => 1) m / 2 else kernel N (fun _ => 1) m

/-- `_integral_factor(e)` (kpm.py l.739, l.745-758): `np.tensordot(mu_kernel, big_gamma.T)`. -/
noncomputable def integralFactor (kernel : Kernel ℝ) (N : ℕ) (mm : List (List (List ℂ))) (r : Option ℕ) (e : ℝ) : ℂ :=
  ∑ m ∈ range N, ∑ n ∈ range N, ((gKernel kernel N m * gKernel kernel N n : ℝ) : ℂ) * matrixOf mm r m n * bigGamma e n m

/-- Whether `omega.conjugate() @ psi` is defined. -/
def shapesOk (omega psi : List (List (Vec d))) : Bool := decide (omega.length = psi.length)

/-- Whether all matrices are `N` by `N`. -/
def squares (N : ℕ) (mm : List (List (List ℂ))) : Bool := mm.all fun x => decide (x.length = N) && x.all fun row => decide (row.length = N)

/-- `_calculate_moments_matrix` and `_build_integral_factor` (kpm.py l.685-695, l.720-760). -/
noncomputable def Cor.finish (c : Cor d) : Cor d × Option KErr :=
  if shapesOk c.omega c.psi then
    let c1 := { c with mm := List.zipWith (fun o p => o.map fun x => p.map fun y => vdot x y) c.omega c.psi }
    if squares c.numMoments c1.mm then
      ({ c1 with
          factor := fun r k => integralFactor c.kernel c.numMoments c1.mm r ((c.R.energy k - c.b) / c.a)
          nE := 2 * c.R.numMoments }, none)
    else (c1, some .value)
  else (c, some .value)

/-- `Correlator.__init__` (kpm.py l.557-606). -/
noncomputable def Cor.init (ham : Vec d → Vec d) (op1 op2 : Vec d → Vec d) (kernel : Kernel ℝ) (eps lmin lmax : ℝ) (numMoments : Option ℤ) (er : Option ℝ)
    (source : ℕ → Option (Vec d)) (len : Option ℕ) (numVectors : Option ℤ) (accumulate : Bool) : Except KErr (Cor d) :=
  match SD.init ham fakeOp eps lmin lmax numMoments er source len numVectors true with
  | .error e => .error e
  | .ok R =>
    let a' := R.a * (1 - eps / 2)
    match SD.init ham fakeOp eps (R.b - a') (R.b + a') (some (R.numMoments : ℤ)) none (linked op1 R.factory) none (some (R.numVectors : ℤ)) accumulate with
    | .error e => .error e
    | .ok L =>
      match (Cor.mk op1 op2 kernel R.a R.b R L R.numMoments R.numVectors (updatePsi op2 R) L.moments [] (fun _ _ => 0) 0).finish with
      | (c, none) => .ok c
      | (_, some e) => .error e

/-- The generator sees the vectors that the first factory provides now. -/
def relink (L : SD (Vec d) (Vec d)) (source : ℕ → Option (Vec d)) : SD (Vec d) (Vec d) := { L with factory := { L.factory with source := source } }

/-- `Correlator.add_moments` (kpm.py l.636-661). -/
noncomputable def Cor.addMoments (c : Cor d) (n : Option ℤ) (er : Option ℝ) : Cor d × Option KErr :=
  match c.R.addMoments n er with
  | (R, some e) => ({ c with R := R }, some e)
  | (R, none) =>
    let c1 := { c with R := R, numMoments := R.numMoments, psi := updatePsi c.op2 R }
    match (relink c.L (linked c.op1 R.factory)).addMoments n er with
    | (L, some e) => ({ c1 with L := L }, some e)
    | (L, none) => { c1 with L := L, omega := L.moments }.finish

/-- `Correlator.add_vectors` (kpm.py l.663-683). -/
noncomputable def Cor.addVectors (c : Cor d) (n : Option ℤ) : Cor d × Option KErr :=
  match c.R.addVectors n with
  | (R, some e) => ({ c with R := R }, some e)
  | (R, none) =>
    let c1 := { c with R := R, psi := updatePsi c.op2 R }
    match (relink c.L (linked c.op1 R.factory)).addVectors n with
    | (L, some e) => ({ c1 with L := L }, some e)
    | (L, none) => { c1 with L := L, numVectors := L.numVectors, omega := L.moments }.finish

/-- `fermi_distribution` (kpm.py l.990-1009) for one energy. -/
noncomputable def fermi (energy mu temperature : ℝ) : Except KErr ℝ :=
  if temperature < 0 then .error .value
  else if temperature = 0 then .ok (if energy - mu < 0 then 1 else 0)
  else .ok (1 / (1 + Real.exp ((energy - mu) / temperature)))

/-- `Correlator.__call__` (kpm.py l.608-630); `simpson y x n` is the integral of the values `y 0, ..., y (n - 1)` at `x 0, ..., x (n - 1)`. -/
noncomputable def Cor.call (simpson : (ℕ → ℂ) → (ℕ → ℝ) → ℕ → ℂ) (c : Cor d) (r : Option ℕ) (mu temperature : ℝ) : Except KErr ℂ :=
  if temperature < 0 then .error .value
  else if c.nE ≠ 2 * c.R.numMoments then .error .value
  else
    let e := fun k => (c.R.energy k - c.b) / c.a
    let dist := fun k => match fermi (c.R.energy k) mu temperature with | .ok x => x | .error _ => 0
    .ok (((2 * 4 ^ 2 / (2 * c.a) ^ 2 : ℝ) : ℂ) * simpson (fun k => ((dist k / (1 - e k ^ 2) ^ 2 : ℝ) : ℂ) * c.factor r k) e (2 * c.R.numMoments))

/-- One call. -/
noncomputable def Cor.step (c : Cor d) : Call → Cor d × Option KErr
  | .addMoments n er => c.addMoments n er
  | .addVectors n => c.addVectors n

/-- A history of calls, whatever their outcome. -/
noncomputable def Cor.steps (c : Cor d) : List Call → Cor d
  | [] => c
  | x :: xs => (c.step x).1.steps xs

/-! ### Invariant -/

/-- The two spectral densities and all that is derived from them agree: `N` moments of `nv` vectors. -/
structure Sync (H : Matrix (Fin d) (Fin d) ℂ) (src : ℕ → Vec d) (source : ℕ → Option (Vec d)) (len : Option ℕ) (acc : Bool) (N nv : ℕ) (c : Cor d) : Prop where
  r : Good ⟨fun v => H.mulVec v, fakeOp, c.a, c.b, true, len, src, source⟩ N nv c.R
  l : ∃ s, Good ⟨fun v => H.mulVec v, fakeOp, c.a, c.b, acc, none, fun i => c.op1 (src i), s⟩ N nv c.L
  num : c.numMoments = N
  vec : c.numVectors = nv
  mat : c.mm = (List.range nv).map fun r => (List.range N).map fun m => (List.range N).map fun n =>
    vdot ((chebT H c.a c.b m).mulVec (c.op1 (src r))) (c.op2 ((chebT H c.a c.b n).mulVec (src r)))
  fac : c.factor = fun r k => integralFactor c.kernel N c.mm r ((c.R.energy k - c.b) / c.a)
  nE : c.nE = 2 * N

theorem fakeOk (h : Vec d → Vec d) (v : Vec d) : KindOk fakeOp h v := trivial

theorem good_moments {H : Matrix (Fin d) (Fin d) ℂ} {a b : ℝ} {acc : Bool} {len : Option ℕ} {src : ℕ → Vec d} {source : ℕ → Option (Vec d)} {N nv : ℕ}
    {s : SD (Vec d) (Vec d)} (G : Good ⟨fun v => H.mulVec v, fakeOp, a, b, acc, len, src, source⟩ N nv s) :
    s.moments = (List.range nv).map fun r => (List.range N).map fun n => (chebT H a b n).mulVec (src r) := by
  rw [G.moments]
  refine List.map_congr_left fun r _ => List.map_congr_left fun n _ => ?_
  rw [← cheb_eq]; rfl

theorem linked_eq {S : Sys (Vec d) (Vec d)} {f : Factory (Vec d)} {nv : ℕ} (F : FInv S f nv) (ha : S.acc = true) (op1 : Vec d → Vec d) (i : ℕ) (hi : i < nv) :
    linked op1 f i = some (op1 (S.src i)) := by
  obtain ⟨f', h, _, _⟩ := F.get_old ha i hi
  unfold linked
  rw [h]

theorem relink_good {S : Sys (Vec d) (Vec d)} {N nv : ℕ} {L : SD (Vec d) (Vec d)} (G : Good S N nv L) (s : ℕ → Option (Vec d)) (hs : ∀ i < nv, s i = some (S.src i)) :
    Good { S with source := s } N nv (relink L s) := by
  have I := G.inv
  have F := G.fac
  refine ⟨⟨I.ham, I.kind, I.a, I.b, I.hnv, I.len, I.lenLast, I.mom, I.lst, I.rest, I.restLast⟩,
    ⟨F.acc, F.max, rfl, fun i hi => hs i (by have := I.hnv; simp only [relink] at hi; omega), F.pos, F.le, F.cap, F.saved, F.last⟩, G.num, G.two⟩

/-- `finish` with spectral densities that agree. -/
theorem finish_sync (H : Matrix (Fin d) (Fin d) ℂ) (src : ℕ → Vec d) (source sL : ℕ → Option (Vec d)) (len : Option ℕ) (acc : Bool) (N nv : ℕ) (c : Cor d)
    (r : Good ⟨fun v => H.mulVec v, fakeOp, c.a, c.b, true, len, src, source⟩ N nv c.R)
    (l : Good ⟨fun v => H.mulVec v, fakeOp, c.a, c.b, acc, none, fun i => c.op1 (src i), sL⟩ N nv c.L)
    (num : c.numMoments = N) (vec : c.numVectors = nv) (psi : c.psi = updatePsi c.op2 c.R) (omega : c.omega = c.L.moments) :
    ∃ c', c.finish = (c', none) ∧ Sync H src source len acc N nv c' ∧ c'.a = c.a ∧ c'.b = c.b ∧ c'.op1 = c.op1 ∧ c'.op2 = c.op2 ∧ c'.kernel = c.kernel := by
  have hpsi : c.psi = (List.range nv).map fun r => (List.range N).map fun n => c.op2 ((chebT H c.a c.b n).mulVec (src r)) := by
    rw [psi]
    unfold updatePsi
    rw [r.numVectors, r.num, good_moments r]
    refine List.map_congr_left fun i hi => List.map_congr_left fun n hn => ?_
    rw [List.mem_range] at hi hn
    congr 1
    rw [List.getD_eq_getElem?_getD, List.getD_eq_getElem?_getD, List.getElem?_map, List.getElem?_range hi]
    simp only [Option.map_some, Option.getD_some]
    rw [List.getElem?_map, List.getElem?_range hn]; rfl
  have homega : c.omega = (List.range nv).map fun r => (List.range N).map fun m => (chebT H c.a c.b m).mulVec (c.op1 (src r)) := by
    rw [omega, good_moments l]
  have hmm : List.zipWith (fun o p => o.map fun x => p.map fun y => vdot x y) c.omega c.psi
      = (List.range nv).map fun r => (List.range N).map fun m => (List.range N).map fun n =>
        vdot ((chebT H c.a c.b m).mulVec (c.op1 (src r))) (c.op2 ((chebT H c.a c.b n).mulVec (src r))) := by
    rw [homega, hpsi, List.zipWith_map_left, List.zipWith_map_right, List.zipWith_self]
    refine List.map_congr_left fun i _ => ?_
    rw [List.map_map]
    refine List.map_congr_left fun m _ => ?_
    simp only [Function.comp_apply]
    rw [List.map_map]; rfl
  unfold Cor.finish
  have h1 : shapesOk c.omega c.psi = true := by
    unfold shapesOk; rw [homega, hpsi]; simp
  rw [if_pos h1]
  simp only [hmm]
  have h2 : squares c.numMoments ((List.range nv).map fun r => (List.range N).map fun m => (List.range N).map fun n =>
        vdot ((chebT H c.a c.b m).mulVec (c.op1 (src r))) (c.op2 ((chebT H c.a c.b n).mulVec (src r)))) = true := by
    unfold squares
    rw [num]
    simp
  rw [if_pos h2]
  exact ⟨_, rfl, ⟨r, ⟨sL, l⟩, num, vec, rfl, by simp only [num], by simp only [r.num]⟩, rfl, rfl, rfl, rfl, rfl⟩

/-- `add_vectors`: refused with the object unchanged, or everything agrees afterwards. -/
theorem addVectors_sync {H : Matrix (Fin d) (Fin d) ℂ} {src : ℕ → Vec d} {source : ℕ → Option (Vec d)} {len : Option ℕ} {acc : Bool} {N nv : ℕ} {c : Cor d}
    (S : Sync H src source len acc N nv c) (hav : Avail len source src) (n : Option ℤ) :
    ((∃ e, c.addVectors n = (c, some e)) ∧ ¬ ∃ k : ℕ, n = some (k : ℤ) ∧ 0 < k ∧ ∀ m, len = some m → nv + k ≤ m) ∨
    ∃ (k : ℕ) (c' : Cor d), n = some (k : ℤ) ∧ 0 < k ∧ c.addVectors n = (c', none) ∧ Sync H src source len acc N (nv + k) c' ∧
      c'.a = c.a ∧ c'.b = c.b ∧ c'.op1 = c.op1 ∧ c'.op2 = c.op2 ∧ c'.kernel = c.kernel := by
  unfold Cor.addVectors
  rcases addVectors_good (fun v => fakeOk _ v) S.r n (Avail.enough hav _ _) with ⟨e, he, hne⟩ | ⟨k, R, hn, hk, he, GR⟩
  · rw [he]; exact Or.inl ⟨⟨e, rfl⟩, hne⟩
  · rw [he]
    simp only
    right
    obtain ⟨sL, gL⟩ := S.l
    have hl : ∀ i < nv + k, linked c.op1 R.factory i = some (c.op1 (src i)) := fun i hi => linked_eq GR.fac rfl c.op1 i hi
    have G1 := relink_good gL (linked c.op1 R.factory) fun i hi => hl i (by omega)
    rcases addVectors_good (fun v => fakeOk _ v) G1 n (by
      intro k' hk' _ i hi
      have : k' = k := by rw [hn] at hk'; injection hk' with h; omega
      subst this
      exact hl i hi) with ⟨e, he', hne⟩ | ⟨k', L, hn', _, he', gL'⟩
    · exact absurd ⟨k, hn, hk, fun m hm => by cases hm⟩ hne
    · have : k' = k := by rw [hn] at hn'; injection hn' with h; omega
      subst this
      rw [he']
      simp only
      obtain ⟨c', e', S', q⟩ := finish_sync H src source (linked c.op1 R.factory) len acc N (nv + k')
        { c with R := R, psi := updatePsi c.op2 R, L := L, numVectors := L.numVectors, omega := L.moments } GR gL' S.num gL'.numVectors rfl rfl
      exact ⟨k', c', hn, hk, e', S', q⟩

/-- A request that a consistent object with the same scale and number of moments granted is granted by one that accumulates vectors, with the same
number of moments. -/
theorem addMoments_count {S S' : Sys (Vec d) (Vec d)} (hk : ∀ v, KindOk S'.kind S'.h v) {N nv nv' : ℕ} {s s' t : SD (Vec d) (Vec d)} (G : Good S N nv s)
    (G' : Good S' N nv' s') (hab : S'.a = S.a) (ha : S'.acc = true) (n : Option ℤ) (er : Option ℝ) (h : s.addMoments n er = (t, none)) :
    ∃ t', s'.addMoments n er = (t', none) ∧ t'.numMoments = t.numMoments := by
  have h1 : s'.a = s.a := by rw [G'.inv.a, G.inv.a, hab]
  have h2 : s'.numMoments = s.numMoments := by rw [G'.num, G.num]
  unfold SD.addMoments at h ⊢
  rw [h1, h2]
  by_cases c1 : n.isSome = er.isSome
  · rw [if_pos c1] at h; cases h
  rw [if_neg c1] at h ⊢
  by_cases c2 : er.getD 0 ≠ 0 ∧ er.getD 0 ≤ 0
  · rw [if_pos c2] at h; cases h
  rw [if_neg c2] at h ⊢
  by_cases c3 : er.getD 0 ≠ 0 ∧ s.a * 1.6 / s.numMoments < er.getD 0
  · rw [if_pos c3] at h; cases h
  rw [if_neg c3] at h ⊢
  cases hx : (if er.getD 0 ≠ 0 then some (momentsFor s.a (er.getD 0)) else n) with
  | none => rw [hx] at h; cases h
  | some x =>
    rw [hx] at h
    simp only at h ⊢
    by_cases c4 : x ≤ 0
    · rw [if_pos c4] at h; cases h
    rw [if_neg c4] at h ⊢
    have ht : t.numMoments = s.numMoments + x.toNat := by
      cases hu : s.update (s.numMoments + x.toNat) s.numVectors with
      | mk s1 o =>
        rw [hu] at h
        cases o with
        | none => simp only at h; injection h with h; rw [← h]
        | some e => simp only at h; injection h with _ h; cases h
    have hu : ∃ t', s'.update (s.numMoments + x.toNat) s'.numVectors = (t', none) := by
      unfold SD.update
      rw [if_neg (lt_irrefl _)]
      simp only [if_true, Nat.sub_self, List.replicate_zero, List.append_nil]
      rw [if_neg (by omega), if_neg (by rw [G'.fac.acc, ha]; decide), if_neg (by omega), if_neg (by simp)]
      have I := G'.inv
      obtain ⟨u, e', _⟩ := loop_more S' hk ha nv' s'.numMoments (s.numMoments + x.toNat) (by rw [G'.num]; exact G'.two) (by omega) nv' 0 s' (by omega)
        ⟨I.ham, I.kind, I.a, I.b, I.hnv, I.len, I.lenLast, fun i hi => by omega, fun _ i hi => by omega,
          fun i _ hi _ => by rw [G'.num]; exact I.mom i hi, fun ha i _ hi _ => by rw [G'.num]; exact I.lst ha i hi⟩ G'.fac rfl
      rw [Nat.sub_zero, G'.numVectors]
      exact ⟨u, e'⟩
    obtain ⟨t', ht'⟩ := hu
    rw [ht']
    exact ⟨_, rfl, ht.symm⟩

/-- `add_moments` with accumulated vectors: refused with the object unchanged, or everything agrees afterwards. -/
theorem addMoments_sync {H : Matrix (Fin d) (Fin d) ℂ} {src : ℕ → Vec d} {source : ℕ → Option (Vec d)} {len : Option ℕ} {N nv : ℕ} {c : Cor d}
    (S : Sync H src source len true N nv c) (n : Option ℤ) (er : Option ℝ) :
    ((∃ e, c.addMoments n er = (c, some e)) ∧ ¬ (er = none ∧ ∃ k : ℕ, n = some (k : ℤ) ∧ 0 < k)) ∨
    ∃ (k : ℕ) (c' : Cor d), 0 < k ∧ (n = some (k : ℤ) ∧ er = none ∨ n = none ∧ er.isSome = true) ∧ c.addMoments n er = (c', none) ∧ Sync H src source len true (N + k) nv c' ∧
      c'.a = c.a ∧ c'.b = c.b ∧ c'.op1 = c.op1 ∧ c'.op2 = c.op2 ∧ c'.kernel = c.kernel := by
  unfold Cor.addMoments
  obtain ⟨sL, gL⟩ := S.l
  rcases addMoments_good (fun v => fakeOk _ v) S.r n er with ⟨e, he, hne⟩ | ⟨k, R, hk, hn, he, GR, _⟩
  · rw [he]; exact Or.inl ⟨⟨e, rfl⟩, fun h => hne ⟨rfl, h⟩⟩
  · rw [he]
    simp only
    right
    have hl : ∀ i < nv, linked c.op1 R.factory i = some (c.op1 (src i)) := fun i hi => linked_eq GR.fac rfl c.op1 i hi
    have G1 := relink_good gL (linked c.op1 R.factory) hl
    have hsame : ∃ L, (relink c.L (linked c.op1 R.factory)).addMoments n er = (L, none) ∧
        Good ⟨fun v => H.mulVec v, fakeOp, c.a, c.b, true, none, fun i => c.op1 (src i), linked c.op1 R.factory⟩ (N + k) nv L := by
      have hcount := addMoments_count (fun v => fakeOk _ v) S.r G1 rfl rfl n er he
      obtain ⟨L, hL⟩ := hcount
      rcases addMoments_good (fun v => fakeOk _ v) G1 n er with ⟨e, he', _⟩ | ⟨k', L', _, _, he', gL', _⟩
      · rw [he'] at hL; cases hL.1
      · rw [he'] at hL
        obtain ⟨h1, h2⟩ := hL
        injection h1 with h1 _
        subst h1
        have : k' = k := by
          have e1 := gL'.num
          have e2 := GR.num
          omega
        subst this
        exact ⟨L', he', gL'⟩
    obtain ⟨L, hL, gL'⟩ := hsame
    rw [hL]
    simp only
    obtain ⟨c', e', S', q⟩ := finish_sync H src source (linked c.op1 R.factory) len true (N + k) nv
      { c with R := R, numMoments := R.numMoments, psi := updatePsi c.op2 R, L := L, omega := L.moments } GR gL' GR.num S.vec rfl rfl
    exact ⟨k, c', hk, hn, e', S', q⟩

end Kwant.Kpm
