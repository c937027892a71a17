import Verif.Oper.Theorems

/-!
C57 (currents and sources), C58 (`bind`), counterexamples for C56 and C57.
-/

set_option linter.unusedSectionVars false

namespace Kwant.Oper
open Kwant Kwant.System Finset

section
variable {R P E F : Type} [CommRing R] [StarRing R] [DecidableEq R] [CLike R] [DecidableEq F]

/-! ### C57 -/

/-- C57: the value of a current on the hopping `(a, b)` is `∑_{αβ} φ*_α Q_{αβ} ψ_β` with
`Q = i (H_ab)† M_a` between the orbitals of `b` and `a`, `- i M_a H_ab` between those of `a` and `b`. -/
theorem C57_current_partial {norb : ℕ → ℕ} {op : Op R P E} (hk : op.kind = .current) (hreg : Regular norb op) (hu : Unbound op)
    {junk : ℕ → R} {p : Option P} {bra : List R} {ket : Option (List R)} {v : List R} (h : callVec junk op bra ket p = .ok v) :
    v.length = op.wh.length ∧ ∀ w a b : ℕ, op.wh[w]? = some (a, b) → ∃ M H, OnsiteIs op p a M ∧ op.ham a b p = .ok H ∧
      v[w]? = some (matEl (firstOrb norb op.nSites) (fun i => bra.getD i 0) (currentQ norb a b M.val H.val)
        (fun i => (ket.getD bra).getD i 0)) := by
  obtain ⟨⟨Q, hQ⟩, hall⟩ := operator_call hreg hu h
  rw [hall Q hQ]
  refine ⟨by simp, fun w a b hw => ?_⟩
  obtain ⟨M, H, h1, h2, h3⟩ := hQ w a b hw
  have hlt := (List.getElem?_eq_some_iff.mp hw).1
  refine ⟨M, H, h1, h2 (by simp [hk]), ?_⟩
  rw [List.getElem?_map, List.getElem?_range hlt, Option.map_some, h3, hk]
  rfl

/-- C57: the value of a source on site `a` is `∑_{αβ} φ*_α Q_{αβ} ψ_β` with `Q = i [(H_a)† M_a - M_a H_a]` on the site. -/
theorem C57_source_partial {norb : ℕ → ℕ} {op : Op R P E} (hk : op.kind = .source) (hreg : Regular norb op) (hu : Unbound op)
    {junk : ℕ → R} {p : Option P} {bra : List R} {ket : Option (List R)} {v : List R} (h : callVec junk op bra ket p = .ok v) :
    v.length = op.wh.length ∧ ∀ w a b : ℕ, op.wh[w]? = some (a, b) → ∃ M H, OnsiteIs op p a M ∧ op.ham a b p = .ok H ∧
      v[w]? = some (matEl (firstOrb norb op.nSites) (fun i => bra.getD i 0) (sourceQ norb a M.val H.val)
        (fun i => (ket.getD bra).getD i 0)) := by
  obtain ⟨⟨Q, hQ⟩, hall⟩ := operator_call hreg hu h
  rw [hall Q hQ]
  refine ⟨by simp, fun w a b hw => ?_⟩
  obtain ⟨M, H, h1, h2, h3⟩ := hQ w a b hw
  have hlt := (List.getElem?_eq_some_iff.mp hw).1
  refine ⟨M, H, h1, h2 (by simp [hk]), ?_⟩
  rw [List.getElem?_map, List.getElem?_range hlt, Option.map_some, h3, hk]
  rfl

/-- `H ψ` on site `a`, contribution of site `b`. -/
def hopPsi (norb : ℕ → ℕ) (b : ℕ) (H : ℕ → ℕ → R) (ψ : ℕ → R) (i : ℕ) : R := ∑ j ∈ range (norb b), H i j * ψ (firstOrb norb b + j)

/-- `⟨x| M |y⟩` on one site. -/
def braket (n : ℕ) (x : ℕ → R) (M : ℕ → ℕ → R) (y : ℕ → R) : R := ∑ i ∈ range n, ∑ k ∈ range n, star (x i) * M i k * y k

theorem current_as_braket {norb : ℕ → ℕ} {a b n : ℕ} (ha : a < n) (hb : b < n) (M H : ℕ → ℕ → R) (ψ : ℕ → R) :
    matEl (firstOrb norb n) ψ (currentQ norb a b M H) ψ =
      CLike.I * (braket (norb a) (hopPsi norb b H ψ) M (fun k => ψ (firstOrb norb a + k))
        - braket (norb a) (fun k => ψ (firstOrb norb a + k)) M (hopPsi norb b H ψ)) := by
  unfold currentQ
  rw [matEl_sub, matEl_embed hb ha, matEl_embed ha hb, ← mul_sub]
  congr 2
  · unfold braket daggerMul hopPsi
    simp only [star_sum, star_mul, Finset.mul_sum, Finset.sum_mul]
    calc _ = ∑ i ∈ range (norb b), ∑ j ∈ range (norb a), ∑ k ∈ range (norb a),
          star (ψ (firstOrb norb b + i)) * (star (H j i) * M j k) * ψ (firstOrb norb a + k) :=
          Finset.sum_congr rfl fun i _ => Finset.sum_comm
      _ = ∑ j ∈ range (norb a), ∑ i ∈ range (norb b), ∑ k ∈ range (norb a),
          star (ψ (firstOrb norb b + i)) * (star (H j i) * M j k) * ψ (firstOrb norb a + k) := Finset.sum_comm
      _ = ∑ j ∈ range (norb a), ∑ k ∈ range (norb a), ∑ i ∈ range (norb b),
          star (ψ (firstOrb norb b + i)) * (star (H j i) * M j k) * ψ (firstOrb norb a + k) :=
          Finset.sum_congr rfl fun i _ => Finset.sum_comm
      _ = _ := Finset.sum_congr rfl fun j _ => Finset.sum_congr rfl fun k _ => Finset.sum_congr rfl fun i _ => by ring
  · unfold braket matMul hopPsi
    simp only [Finset.mul_sum, Finset.sum_mul]
    refine Finset.sum_congr rfl fun i _ => ?_
    rw [Finset.sum_comm]
    refine Finset.sum_congr rfl fun j _ => Finset.sum_congr rfl fun k _ => ?_
    ring

theorem source_as_current (norb : ℕ → ℕ) (a : ℕ) (M H : ℕ → ℕ → R) : sourceQ norb a M H = currentQ norb a a M H := by
  funext α β
  unfold sourceQ currentQ embed
  split
  · ring
  · simp

theorem braket_add_left (n : ℕ) (x x' : ℕ → R) (M : ℕ → ℕ → R) (y : ℕ → R) :
    braket n (fun i => x i + x' i) M y = braket n x M y + braket n x' M y := by
  unfold braket
  simp only [star_add, ← Finset.sum_add_distrib]
  refine Finset.sum_congr rfl fun i _ => Finset.sum_congr rfl fun k _ => ?_
  ring

theorem braket_add_right (n : ℕ) (x : ℕ → R) (M : ℕ → ℕ → R) (y y' : ℕ → R) :
    braket n x M (fun i => y i + y' i) = braket n x M y + braket n x M y' := by
  unfold braket
  simp only [← Finset.sum_add_distrib]
  refine Finset.sum_congr rfl fun i _ => Finset.sum_congr rfl fun k _ => ?_
  ring

theorem currents_sum {norb : ℕ → ℕ} {a n : ℕ} (ha : a < n) (M : ℕ → ℕ → R) (H : ℕ → ℕ → ℕ → R) (ψ : ℕ → R) (nb : List ℕ)
    (hn : ∀ b ∈ nb, b < n) :
    (nb.map fun b => matEl (firstOrb norb n) ψ (currentQ norb a b M (H b)) ψ).sum =
      CLike.I * (braket (norb a) (fun i => (nb.map fun b => hopPsi norb b (H b) ψ i).sum) M (fun k => ψ (firstOrb norb a + k))
        - braket (norb a) (fun k => ψ (firstOrb norb a + k)) M (fun i => (nb.map fun b => hopPsi norb b (H b) ψ i).sum)) := by
  induction nb with
  | nil => simp [braket]
  | cons b nb ih =>
    simp only [List.map_cons, List.sum_cons]
    rw [ih (fun b hb => hn b (List.mem_cons_of_mem _ hb)), current_as_braket ha (hn b (by simp)), braket_add_left, braket_add_right]
    ring

theorem braket_congr (n : ℕ) {x x' : ℕ → R} (M : ℕ → ℕ → R) {y y' : ℕ → R} (hx : ∀ i < n, x i = x' i) (hy : ∀ i < n, y i = y' i) :
    braket n x M y = braket n x' M y' := by
  unfold braket
  refine Finset.sum_congr rfl fun i hi => Finset.sum_congr rfl fun k hk => ?_
  rw [hx i (Finset.mem_range.mp hi), hy k (Finset.mem_range.mp hk)]

/-- C57: continuity.  Let `ψ` satisfy the Schrödinger equation at the orbitals of site `a`: the Hamiltonian blocks of the
hoppings `(a, b)`, `b` in `nb`, and the onsite block add up to `energy * ψ_a`, with a real energy.  Then the currents on
these hoppings and the source on `a` add up to zero. -/
theorem C57_continuity_partial {norb : ℕ → ℕ} {cur src : Op R P E} {junk : ℕ → R} {p : Option P} {a : ℕ} {nb : List ℕ}
    (hc : cur.kind = .current) (hs : src.kind = .source) (hcw : cur.wh = nb.map fun b => (a, b)) (hsw : src.wh = [(a, a)])
    (hcr : Regular norb cur) (hsr : Regular norb src) (hcu : Unbound cur) (hsu : Unbound src)
    (hon : cur.onsite = src.onsite) (hham : cur.ham = src.ham) (hn : cur.nSites = src.nSites)
    {ψ v u : List R} (hv : callVec junk cur ψ none p = .ok v) (hu : callVec junk src ψ none p = .ok u)
    {energy : R} (he : star energy = energy) (H : ℕ → Mat R) (hH : ∀ b ∈ a :: nb, cur.ham a b p = .ok (H b))
    (hpsi : ∀ i < norb a, ((a :: nb).map fun b => hopPsi norb b (H b).val (fun i => ψ.getD i 0) i).sum =
      energy * ψ.getD (firstOrb norb a + i) 0) :
    v.sum + u.sum = 0 := by
  obtain ⟨l1, c1⟩ := C57_current_partial hc hcr hcu hv
  obtain ⟨l2, c2⟩ := C57_source_partial hs hsr hsu hu
  have ha : a < cur.nSites := by rw [hn]; exact (hsr.sites (a, a) (by rw [hsw]; simp)).1
  have hb : ∀ b ∈ nb, b < cur.nSites := fun b hb => (hcr.sites (a, b) (by rw [hcw]; exact List.mem_map.mpr ⟨b, hb, rfl⟩)).2
  obtain ⟨M, H', hM, hH', hu0⟩ := c2 0 a a (by rw [hsw]; rfl)
  have e0 : H' = H a := by
    have := hH a (by simp)
    rw [hham, hH'] at this; cases this; rfl
  subst e0
  rw [hsw] at l2
  have hu1 : u = [matEl (firstOrb norb cur.nSites) (fun i => ψ.getD i 0) (currentQ norb a a M.val (H a).val) (fun i => ψ.getD i 0)] := by
    cases u with
    | nil => simp at l2
    | cons x u =>
      cases u with
      | cons y u => simp at l2
      | nil =>
        simp only [List.getElem?_cons_zero, Option.some.injEq, Option.getD_none] at hu0
        rw [hu0, source_as_current, hn]
  have hM' : OnsiteIs cur p a M := by unfold OnsiteIs at hM ⊢; rw [hon]; exact hM
  have hv1 : v = nb.map fun b => matEl (firstOrb norb cur.nSites) (fun i => ψ.getD i 0) (currentQ norb a b M.val (H b).val)
      (fun i => ψ.getD i 0) := by
    apply List.ext_getElem?
    intro w
    rw [hcw, List.length_map] at l1
    by_cases hw : w < nb.length
    · obtain ⟨M2, H2, hM2, hH2, e⟩ := c1 w a nb[w] (by rw [hcw, List.getElem?_map, List.getElem?_eq_getElem hw]; rfl)
      have := hM'.unique hM2
      subst this
      have e2 : H2 = H nb[w] := by
        have := hH nb[w] (by simp)
        rw [hH2] at this; cases this; rfl
      subst e2
      rw [e, List.getElem?_map, List.getElem?_eq_getElem hw]
      rfl
    · rw [List.getElem?_eq_none (by omega), List.getElem?_eq_none (by simp; omega)]
  have hsum := currents_sum (R := R) ha M.val (fun b => (H b).val) (fun i => ψ.getD i 0) (a :: nb) (norb := norb)
    (by intro b hb'; rcases List.mem_cons.mp hb' with rfl | h; exact ha; exact hb b h)
  have hcomm : v.sum + u.sum = ((a :: nb).map fun b => matEl (firstOrb norb cur.nSites) (fun i => ψ.getD i 0)
      (currentQ norb a b M.val (H b).val) (fun i => ψ.getD i 0)).sum := by
    rw [hu1, hv1, List.map_cons, List.sum_cons, List.sum_cons, List.sum_nil, add_zero, add_comm]
  rw [hcomm, hsum]
  rw [braket_congr (norb a) M.val (x' := fun i => energy * ψ.getD (firstOrb norb a + i) 0) hpsi (fun _ _ => rfl),
    braket_congr (norb a) M.val (y' := fun i => energy * ψ.getD (firstOrb norb a + i) 0) (fun _ _ => rfl) hpsi]
  unfold braket
  rw [← Finset.sum_sub_distrib]
  rw [Finset.sum_eq_zero, mul_zero]
  intro i _
  rw [← Finset.sum_sub_distrib]
  refine Finset.sum_eq_zero fun k _ => ?_
  rw [star_mul, he]; ring

/-- C57: antisymmetry.  For a scalar onsite (probability current) and a Hermitian hopping, the current on `(b, a)` is
minus the current on `(a, b)`, for every `bra` and `ket`. -/
theorem C57_antisymmetric {norb : ℕ → ℕ} {a b n : ℕ} (ha : a < n) (hb : b < n) (c : R) (H : ℕ → ℕ → R) (bra ket : ℕ → R) :
    matEl (firstOrb norb n) bra (currentQ norb b a (fun i j => if i = j then c else 0) (fun i j => star (H j i))) ket =
      - matEl (firstOrb norb n) bra (currentQ norb a b (fun i j => if i = j then c else 0) H) ket := by
  have d1 : ∀ (m : ℕ) (H : ℕ → ℕ → R) (i k : ℕ), k < m → daggerMul m H (fun i j => if i = j then c else 0) i k = star (H k i) * c := by
    intro m H i k hk
    unfold daggerMul
    rw [Finset.sum_eq_single k]
    · simp
    · intro j _ hj; simp [hj]
    · intro hx; exact absurd (Finset.mem_range.mpr hk) hx
  have d2 : ∀ (m : ℕ) (H : ℕ → ℕ → R) (j i : ℕ), j < m → matMul m (fun i j => if i = j then c else 0) H j i = c * H j i := by
    intro m H j i hj
    unfold matMul
    rw [Finset.sum_eq_single j]
    · simp
    · intro k _ hk; simp [Ne.symm hk]
    · intro hx; exact absurd (Finset.mem_range.mpr hj) hx
  unfold currentQ
  rw [matEl_sub, matEl_sub, matEl_embed ha hb, matEl_embed hb ha, matEl_embed ha hb, matEl_embed hb ha]
  have e1 : ∑ i ∈ range (norb a), ∑ j ∈ range (norb b), star (bra (firstOrb norb a + i)) *
      daggerMul (norb b) (fun i j => star (H j i)) (fun i j => if i = j then c else 0) i j * ket (firstOrb norb b + j) =
      ∑ i ∈ range (norb a), ∑ j ∈ range (norb b), star (bra (firstOrb norb a + i)) *
      matMul (norb a) (fun i j => if i = j then c else 0) H i j * ket (firstOrb norb b + j) := by
    refine Finset.sum_congr rfl fun i hi => Finset.sum_congr rfl fun j hj => ?_
    rw [d1 _ _ _ _ (Finset.mem_range.mp hj), d2 _ _ _ _ (Finset.mem_range.mp hi), star_star]; ring
  have e2 : ∑ i ∈ range (norb b), ∑ j ∈ range (norb a), star (bra (firstOrb norb b + i)) *
      matMul (norb b) (fun i j => if i = j then c else 0) (fun i j => star (H j i)) i j * ket (firstOrb norb a + j) =
      ∑ i ∈ range (norb b), ∑ j ∈ range (norb a), star (bra (firstOrb norb b + i)) *
      daggerMul (norb a) H (fun i j => if i = j then c else 0) i j * ket (firstOrb norb a + j) := by
    refine Finset.sum_congr rfl fun i hi => Finset.sum_congr rfl fun j hj => ?_
    rw [d1 _ _ _ _ (Finset.mem_range.mp hj), d2 _ _ _ _ (Finset.mem_range.mp hi)]; ring
  rw [e1, e2]; ring

/-! ### C58 -/

/-- C58: a bound operator gives what the operator gives with these parameters; parameters cannot be given twice. -/
theorem C58_bind {junk : ℕ → R} {op q : Op R P E} {p : Option P} (hu : Unbound op) (h : bind junk op p = .ok q) :
    (∀ bra ket, callVec junk q bra ket none = callVec junk op bra ket p) ∧
    (∀ ket, act junk q ket none = act junk op ket p) ∧
    (∀ bra ket p', q.bound = true → callVec junk q bra ket (some p') = .error .value ∧ act junk q bra (some p') = .error .value) ∧
    (q.bound = true ↔ (∃ f, op.onsite = .func f) ∨ op.kind ≠ .density) := by
  unfold bind at h
  cases hb : bindOnsite junk op p with
  | error e => simp [hb] at h
  | ok bo =>
    cases hh : bindHam junk op p with
    | error e => simp [hb, hh] at h
    | ok bh =>
      simp only [hb, hh] at h
      cases h
      have hon : onsitePtr junk { op with boundOnsite := bo, boundHam := bh } none = onsitePtr junk op p := by
        unfold onsitePtr
        unfold bindOnsite at hb
        cases ho : op.onsite with
        | mat m => rfl
        | func f =>
          simp only [ho] at hb
          simp only [hu.1]
          cases he : evalOnsites junk op f p with
          | error e => rw [he] at hb; cases hb
          | ok B => rw [he] at hb; cases hb; rfl
      have hham : op.kind ≠ .density → hamBlocks junk { op with boundOnsite := bo, boundHam := bh } none = hamBlocks junk op p := by
        intro hk
        unfold hamBlocks
        unfold bindHam at hh
        simp only [hu.2]
        cases hkk : op.kind with
        | density => exact absurd hkk hk
        | current =>
          simp only [hkk] at hh
          cases he : evalHam junk op p with
          | error e => rw [he] at hh; cases hh
          | ok B => rw [he] at hh; cases hh; rfl
        | source =>
          simp only [hkk] at hh
          cases he : evalHam junk op p with
          | error e => rw [he] at hh; cases hh
          | ok B => rw [he] at hh; cases hh; rfl
      have hprep : prepare junk { op with boundOnsite := bo, boundHam := bh } none = prepare junk op p := by
        unfold prepare
        rw [hon]
        cases onsitePtr junk op p with
        | error e => rfl
        | ok M =>
          cases hk : op.kind with
          | density => rfl
          | current => have e := hham (by simp [hk]); simp only [hk] at e ⊢; rw [e]
          | source => have e := hham (by simp [hk]); simp only [hk] at e ⊢; rw [e]
      have hb0 : op.bound = false := by simp [Op.bound, hu.1, hu.2]
      refine ⟨fun bra ket => ?_, fun ket => ?_, fun bra ket p' hb' => ?_, ?_⟩
      · unfold callVec
        rw [hprep, hb0]
        simp only [Option.isSome_none, Bool.and_false, Bool.false_and]
        rfl
      · unfold act
        rw [hprep, hb0]
        simp only [Option.isSome_none, Bool.and_false, Bool.false_and]
        rfl
      · constructor
        · unfold callVec; rw [hb']; rfl
        · unfold act; rw [hb']; rfl
      · unfold Op.bound
        simp only [Bool.or_eq_true]
        unfold bindOnsite at hb
        unfold bindHam at hh
        constructor
        · rintro (h | h)
          · left
            cases ho : op.onsite with
            | mat m => simp only [ho] at hb; cases hb; cases h
            | func f => exact ⟨f, rfl⟩
          · right
            intro hk
            simp only [hk] at hh; cases hh; cases h
        · rintro (⟨f, hf⟩ | hk)
          · left
            simp only [hf] at hb
            cases he : evalOnsites junk op f p with
            | error e => rw [he] at hb; cases hb
            | ok B => rw [he] at hb; cases hb; rfl
          · right
            cases hkk : op.kind with
            | density => exact absurd hkk hk
            | current =>
              simp only [hkk] at hh
              cases he : evalHam junk op p with
              | error e => rw [he] at hh; cases hh
              | ok B => rw [he] at hh; cases hh; rfl
            | source =>
              simp only [hkk] at hh
              cases he : evalHam junk op p with
              | error e => rw [he] at hh; cases hh
              | ok B => rw [he] at hh; cases hh; rfl

/-- C58: if binding fails, so does every call with these parameters. -/
theorem C58_bind_fails {junk : ℕ → R} {op : Op R P E} {p : Option P} (hu : Unbound op) {e : OErr E} (h : bind junk op p = .error e)
    (bra : List R) (ket : Option (List R)) :
    (∃ e', callVec junk op bra ket p = .error e') ∧
    (bra.length = totNorbs op.ranges op.nSites → (ket.getD bra).length = totNorbs op.ranges op.nSites →
      callVec junk op bra ket p = .error e) := by
  have hprep : prepare junk op p = .error e := by
    unfold bind at h
    unfold prepare onsitePtr hamBlocks
    unfold bindOnsite at h
    unfold bindHam at h
    rw [hu.1, hu.2]
    cases ho : op.onsite with
    | mat m =>
      simp only [ho] at h ⊢
      cases hk : op.kind with
      | density => simp [hk] at h
      | current =>
        simp only [hk] at h
        cases he : evalHam junk op p with
        | error e' => rw [he] at h; cases h; rfl
        | ok B => rw [he] at h; cases h
      | source =>
        simp only [hk] at h
        cases he : evalHam junk op p with
        | error e' => rw [he] at h; cases h; rfl
        | ok B => rw [he] at h; cases h
    | func f =>
      simp only [ho] at h ⊢
      cases hev : evalOnsites junk op f p with
      | error e' => rw [hev] at h; cases h; rfl
      | ok M =>
        rw [hev] at h
        simp only [Except.map] at h ⊢
        cases hk : op.kind with
        | density => simp [hk] at h
        | current =>
          simp only [hk] at h
          cases he : evalHam junk op p with
          | error e' => rw [he] at h; cases h; rfl
          | ok B => rw [he] at h; cases h
        | source =>
          simp only [hk] at h
          cases he : evalHam junk op p with
          | error e' => rw [he] at h; cases h; rfl
          | ok B => rw [he] at h; cases h
  have hb0 : op.bound = false := by simp [Op.bound, hu.1, hu.2]
  unfold callVec
  rw [hprep, hb0]
  simp only [Bool.false_and, Bool.false_eq_true, if_false]
  constructor
  · split
    · exact ⟨_, rfl⟩
    · split
      · exact ⟨_, rfl⟩
      · exact ⟨_, rfl⟩
  · intro h1 h2
    rw [if_neg (by simpa using h1), if_neg (by simpa using h2)]

end
end Kwant.Oper
