import Verif.Qsymm.ToBuilder
import Mathlib.LinearAlgebra.LinearIndependent.Lemmas
import Mathlib.FieldTheory.Minpoly.Basic
import Mathlib.Analysis.SpecialFunctions.Trigonometric.Basic
import Mathlib.LinearAlgebra.Dual.Lemmas

/-!
# C152: from a model to a builder and back
-/
set_option linter.unusedSectionVars false

namespace Kwant.Qsymm
open Complex

variable {D : ℕ}

/-! ## Specification -/

/-- The coefficient is affine in its symbols: for example a number, or a symbol. -/
def Coeff.Affine (c : Coeff) : Prop :=
  ∃ (A : ℂ) (B : String → ℂ), ∀ x, c.f x = A + ∑ q ∈ c.names.toFinset, x q * B q

/-- All parameters are real. -/
def RealValues (x : Values) : Prop := ∀ q, (starRingEnd ℂ) (x q) = x q

/-! ## Values -/

theorem affine_extend {c : Coeff} (h : c.Affine) : ∃ (A : ℂ) (B : String → ℂ), ∀ S : Finset String, c.names.toFinset ⊆ S →
    ∀ x, c.f x = A + ∑ q ∈ S, x q * B q := by
  obtain ⟨A, B, hB⟩ := h
  refine ⟨A, fun q => if q ∈ c.names.toFinset then B q else 0, fun S hS x => ?_⟩
  rw [hB]
  congr 1
  rw [← Finset.sum_subset hS]
  · apply Finset.sum_congr rfl
    intro q hq
    beta_reduce
    rw [if_pos hq]
  · intro q _ hq
    beta_reduce
    rw [if_neg hq, mul_zero]

theorem locVal_affine (S : Finset String) : ∀ {l : Local}, (∀ t ∈ l, t.1.Affine ∧ t.1.names.toFinset ⊆ S) →
    ∃ (A : Mat) (B : String → Mat), ∀ x i j, locVal l x i j = A i j + ∑ q ∈ S, x q * B q i j := by
  intro l
  induction l with
  | nil =>
    intro _
    refine ⟨0, 0, fun x i j => ?_⟩
    simp [locVal]
  | cons t l ih =>
    intro h
    obtain ⟨A, B, hAB⟩ := ih (fun t ht => h t (by simp [ht]))
    obtain ⟨ht1, ht2⟩ := h t (by simp)
    obtain ⟨A', B', hAB'⟩ := affine_extend ht1
    refine ⟨fun i j => A' * t.2 i j + A i j, fun q i j => B' q * t.2 i j + B q i j, fun x i j => ?_⟩
    have h0 : locVal (t :: l) x i j = t.1.f x * t.2 i j + locVal l x i j := by simp [locVal]
    rw [h0, hAB, hAB' S ht2]
    simp only [mul_add, Finset.sum_add_distrib, add_mul, Finset.sum_mul]
    have : ∀ q, x q * (B' q * t.2 i j) = x q * B' q * t.2 i j := fun q => by ring
    simp only [this]
    ring

theorem affine_ok {c : Coeff} (h : c.Affine) : c.Ok := by
  obtain ⟨A, B, hB⟩ := h
  intro x y hxy
  rw [hB, hB]
  congr 1
  apply Finset.sum_congr rfl
  intro q hq
  rw [hxy q (List.mem_toFinset.mp hq)]

theorem lambdify_affine {l : Local} (h : ∀ t ∈ l, t.1.Affine) : (Local.lambdify l).Affine (fun _ => none) := by
  have hn : l.names.Nodup := List.nodup_dedup _
  obtain ⟨A, B, hAB⟩ := locVal_affine l.names.toFinset (l := l) (by
    intro t ht
    refine ⟨h t ht, ?_⟩
    intro q hq
    rw [List.mem_toFinset] at hq ⊢
    unfold Local.names
    rw [List.mem_dedup, List.mem_flatMap]
    exact ⟨t, ht, hq⟩)
  have hev := fun x i j => lambdify_eval (l := l) (fun t ht => affine_ok (h t ht)) x i j
  refine ⟨hn, A, B, fun x _ i j => ?_⟩
  have h1 := hev x i j
  unfold Local.lambdify Val.eval at h1
  simp only at h1
  beta_reduce
  rw [h1, hAB]
  congr 1
  rw [List.filter_eq_self.mpr (by simp), List.sum_toFinset _ hn]

/-! ## Hermitian models -/

/-- Plane waves. -/
noncomputable def wave (r : Fin D → ℝ) : Multiplicative (Fin D → ℝ) →* ℂ where
  toFun k := Complex.exp (I * ((k.toAdd ⬝ᵥ r : ℝ) : ℂ))
  map_one' := by simp
  map_mul' k l := by
    rw [← Complex.exp_add, toAdd_mul, add_dotProduct]
    push_cast
    rw [mul_add]

theorem wave_injective : Function.Injective (wave (D := D)) := by
  intro r s h
  by_contra hne
  have hd : r - s ≠ 0 := sub_ne_zero.mpr hne
  have hpos : 0 < (r - s) ⬝ᵥ (r - s) := by
    have h0 : 0 ≤ (r - s) ⬝ᵥ (r - s) := by
      unfold dotProduct
      exact Finset.sum_nonneg fun i _ => mul_self_nonneg _
    refine lt_of_le_of_ne h0 (fun h => hd ?_)
    unfold dotProduct at h
    have h' := (Finset.sum_eq_zero_iff_of_nonneg (fun i _ => mul_self_nonneg ((r - s) i))).mp h.symm
    funext i
    exact mul_self_eq_zero.mp (h' i (Finset.mem_univ i))
  set t := Real.pi / ((r - s) ⬝ᵥ (r - s)) with ht
  have hk := DFunLike.congr_fun h (Multiplicative.ofAdd (t • (r - s)))
  have hk : Complex.exp (I * (((t • (r - s)) ⬝ᵥ r : ℝ) : ℂ)) = Complex.exp (I * (((t • (r - s)) ⬝ᵥ s : ℝ) : ℂ)) := hk
  have h1 : (t • (r - s)) ⬝ᵥ r = (t • (r - s)) ⬝ᵥ s + Real.pi := by
    have : (t • (r - s)) ⬝ᵥ r - (t • (r - s)) ⬝ᵥ s = Real.pi := by
      rw [← dotProduct_sub, smul_dotProduct, smul_eq_mul, ht, div_mul_cancel₀ _ (ne_of_gt hpos)]
    linarith
  rw [h1] at hk
  push_cast at hk
  rw [mul_add, Complex.exp_add, mul_comm I (Real.pi : ℂ), Complex.exp_pi_mul_I] at hk
  have hz := Complex.exp_ne_zero (I * (((t • (r - s)) ⬝ᵥ s : ℝ) : ℂ))
  apply hz
  linear_combination (-1/2 : ℂ) * hk

open Classical in
/-- The displacements of a model, and their negatives. -/
noncomputable def shifts (m : List (Entry D)) : Finset (Fin D → ℝ) := (m.flatMap fun e => [e.r, -e.r]).toFinset

theorem mem_shifts {m : List (Entry D)} {e : Entry D} (he : e ∈ m) : e.r ∈ shifts m ∧ -e.r ∈ shifts m := by
  unfold shifts
  simp only [List.mem_toFinset, List.mem_flatMap]
  exact ⟨⟨e, he, by simp⟩, ⟨e, he, by simp⟩⟩

theorem neg_shifts {m : List (Entry D)} {r : Fin D → ℝ} (h : r ∈ shifts m) : -r ∈ shifts m := by
  unfold shifts at h
  simp only [List.mem_toFinset, List.mem_flatMap, List.mem_cons, List.not_mem_nil, or_false] at h
  obtain ⟨e, he, rfl | rfl⟩ := h
  · exact (mem_shifts he).2
  · rw [neg_neg]; exact (mem_shifts he).1

theorem component_outside {m : List (Entry D)} {r : Fin D → ℝ} (h : r ∉ shifts m) (x : Values) (i j : ℕ) : component m x r i j = 0 := by
  unfold component
  apply List.sum_eq_zero
  intro z hz
  obtain ⟨e, he, rfl⟩ := List.mem_map.mp hz
  rw [if_neg]
  intro hr
  exact h (hr ▸ (mem_shifts he).1)

theorem evalEntries_eq (m : List (Entry D)) (S : Finset (Fin D → ℝ)) (hS : ∀ e ∈ m, e.r ∈ S) (k : Fin D → ℝ) (x : Values) (i j : ℕ) :
    evalEntries m k x i j = ∑ r ∈ S, Complex.exp (I * ((k ⬝ᵥ r : ℝ) : ℂ)) * component m x r i j := by
  classical
  induction m with
  | nil => simp [evalEntries, component]
  | cons e m ih =>
    have h1 : evalEntries (e :: m) k x i j = Complex.exp (I * ((k ⬝ᵥ e.r : ℝ) : ℂ)) * e.coeff.f x * e.mat i j + evalEntries m k x i j := by
      simp [evalEntries]
    have h2 : ∀ r, component (e :: m) x r i j = (if e.r = r then e.coeff.f x * e.mat i j else 0) + component m x r i j := by
      intro r; simp [component]
    rw [h1, ih (fun e he => hS e (by simp [he]))]
    simp only [h2, mul_add, Finset.sum_add_distrib]
    congr 1
    rw [Finset.sum_eq_single e.r]
    · rw [if_pos rfl, mul_assoc]
    · intro r _ hr; rw [if_neg (fun h => hr h.symm), mul_zero]
    · intro h; exact absurd (hS e (by simp)) h

/-- A model has conjugate terms for opposite displacements exactly if its Hamiltonian is Hermitian at every momentum. -/
theorem C152_hermitian (m : List (Entry D)) (x : Values) :
    HermitianModel m x ↔ ∀ k i j, evalEntries m k x j i = (starRingEnd ℂ) (evalEntries m k x i j) := by
  classical
  have hS : ∀ e ∈ m, e.r ∈ shifts m := fun e he => (mem_shifts he).1
  have hconj : ∀ k i j, (starRingEnd ℂ) (evalEntries m k x i j) =
      ∑ r ∈ shifts m, Complex.exp (I * ((k ⬝ᵥ r : ℝ) : ℂ)) * (starRingEnd ℂ) (component m x (-r) i j) := by
    intro k i j
    rw [evalEntries_eq m _ hS, map_sum]
    symm
    refine Finset.sum_bij' (fun r _ => -r) (fun r _ => -r) (fun r h => neg_shifts h) (fun r h => neg_shifts h)
      (fun r _ => neg_neg r) (fun r _ => neg_neg r) ?_
    intro r _
    rw [map_mul, ← Complex.exp_conj, map_mul, conj_I, conj_ofReal, dotProduct_neg]
    push_cast
    rw [neg_mul_neg]
  constructor
  · intro h k i j
    rw [hconj, evalEntries_eq m _ hS]
    apply Finset.sum_congr rfl
    intro r _
    rw [← h (-r) i j, neg_neg]
  · intro h
    have key : ∀ r i j, component m x r j i = (starRingEnd ℂ) (component m x (-r) i j) := by
      intro r i j
      by_cases hr : r ∈ shifts m
      · have hli := (linearIndependent_monoidHom (Multiplicative (Fin D → ℝ)) ℂ).comp _ (wave_injective (D := D))
        rw [linearIndependent_iff'] at hli
        have := hli (shifts m) (fun r => component m x r j i - (starRingEnd ℂ) (component m x (-r) i j)) (by
          funext k
          have hk := h k.toAdd i j
          rw [hconj, evalEntries_eq m _ hS, ← sub_eq_zero, ← Finset.sum_sub_distrib] at hk
          rw [Finset.sum_apply, Pi.zero_apply, ← hk]
          apply Finset.sum_congr rfl
          intro r _
          have hw : (wave r) k = Complex.exp (I * ((k.toAdd ⬝ᵥ r : ℝ) : ℂ)) := rfl
          simp only [Pi.smul_apply, Function.comp_apply, hw, smul_eq_mul]
          ring) r hr
        exact sub_eq_zero.mp this
      · have hr' : -r ∉ shifts m := fun h => hr (by have := neg_shifts h; rwa [neg_neg] at this)
        rw [component_outside hr, component_outside hr', map_zero]
    intro r i j
    have := key (-r) i j
    rwa [neg_neg] at this

/-! ## The round trip -/

theorem finsum_list {α ι : Type} (g : α → ι → ℂ) (hg : ∀ a, (Function.support (g a)).Finite) : ∀ (l : List α),
    ∑ᶠ R, (l.map fun a => g a R).sum = (l.map fun a => ∑ᶠ R, g a R).sum ∧ (Function.support fun R => (l.map fun a => g a R).sum).Finite := by
  intro l
  induction l with
  | nil => constructor
           · simp
           · simp
  | cons a l ih =>
    simp only [List.map_cons, List.sum_cons]
    constructor
    · rw [finsum_add_distrib (hg a) ih.2, ih.1]
    · exact ((hg a).union ih.2).subset (Function.support_add _ _)

theorem order_start {p : Input D} (s : Syst D D) (hs : s.sites = List.range p.n) (hn : s.norbs = fun a => some (p.norbs a)) {a : ℕ}
    (ha : a < p.n) : s.start a = p.start a := by
  unfold Syst.start Input.start
  rw [hs, hn]
  have : (List.range p.n).takeWhile (· ≠ a) = List.range a := by
    obtain ⟨d, hd⟩ : ∃ d, p.n = a + (1 + d) := ⟨p.n - a - 1, by omega⟩
    rw [hd, List.range_add, List.takeWhile_append_of_pos]
    · rw [show 1 + d = d + 1 by omega, List.range_succ_eq_map]
      simp
    · intro b hb
      rw [List.mem_range] at hb
      simp only [decide_eq_true_eq, ne_eq]
      omega
  rw [this]
  rfl

theorem builder_sites {p : Input D} {s : Syst D D} (hs : modelToBuilder p = some s) :
    s.sites = p.order ∧ s.norbs = (fun a => some (p.norbs a)) ∧ s.pos = p.coord ∧ s.periods = p.lat := by
  unfold modelToBuilder at hs
  obtain ⟨st, _, rfl⟩ := Option.map_eq_some_iff.mp hs
  exact ⟨rfl, rfl, rfl, rfl⟩

theorem setHop_mem {hops : List ((ℕ × (Fin D → ℤ) × ℕ) × Val)} {key : ℕ × (Fin D → ℤ) × ℕ} {v : Val} {h}
    (hh : h ∈ setHop hops key v) : h ∈ hops ∨ h = (key, v) := by
  unfold setHop at hh
  rcases List.mem_append.mp hh with hh | hh
  · exact .inl (List.mem_filter.mp hh).1
  · exact .inr (List.mem_singleton.mp hh)

theorem fold_mem : ∀ (L : List (Kind D × Local)) (hops : List ((ℕ × (Fin D → ℤ) × ℕ) × Val)) (h),
    h ∈ L.foldl (fun hops e => setHop hops (hopKey e.1) e.2.lambdify) hops → h ∈ hops ∨ ∃ e ∈ L, h = (hopKey e.1, e.2.lambdify) := by
  intro L
  induction L with
  | nil => intro hops h hh; exact .inl hh
  | cons e L ih =>
    intro hops h hh
    rw [List.foldl_cons] at hh
    rcases ih _ _ hh with hh | ⟨f, hf, hfe⟩
    · rcases setHop_mem hh with hh | hh
      · exact .inl hh
      · exact .inr ⟨e, by simp, hh⟩
    · exact .inr ⟨f, by simp [hf], hfe⟩

theorem fill_keys {n : ℕ} : ∀ (l : List ℕ) (d : List (ℕ × Local)), (∀ a ∈ l, a < n) → (∀ e ∈ d, e.1 < n) →
    ∀ e ∈ l.foldl (fun d a => if a ∈ d.map Prod.fst then d else d ++ [(a, [(⟨[], fun _ => 1⟩, 0)])]) d, e.1 < n := by
  intro l
  induction l with
  | nil => intro d _ hd; exact hd
  | cons b l ih =>
    intro d hl hd
    rw [List.foldl_cons]
    apply ih _ (fun a ha => hl a (by simp [ha]))
    split_ifs
    · exact hd
    · intro e he
      rcases List.mem_append.mp he with he | he
      · exact hd e he
      · rw [List.mem_singleton] at he
        rw [he]; exact hl b (by simp)

theorem builder_ok {p : Input D} (hp : p.Ok) {s : Syst D D} (hs : modelToBuilder p = some s) (haff : ∀ e ∈ p.model, e.coeff.Affine) :
    s.Ok ∧ (∀ o ∈ s.onsites, o.2.Affine fun _ => none) ∧ ∀ h ∈ s.hops, h.2.Affine fun _ => none := by
  have hmem : ∀ a, a < p.n → a ∈ p.order := fun a ha => hp.order.mem_iff.mpr (List.mem_range.mpr ha)
  unfold modelToBuilder at hs
  obtain ⟨st, hst, rfl⟩ := Option.map_eq_some_iff.mp hs
  unfold dictionaries at hst
  obtain ⟨hok, -, -⟩ := terms_fold hp p.model (fun _ h => h) _ _ (dict_empty p) hst
  have hone : Coeff.Affine ⟨[], fun _ => 1⟩ := ⟨1, 0, fun x => by simp⟩
  have hco1 : ∀ e ∈ st.1, ∀ t ∈ e.2, t.1.Affine := by
    intro e he t ht
    obtain ⟨f, hf, hft⟩ := hok.coeffs1 e he t ht
    rw [← hft]; exact haff f hf
  have hco2 : ∀ e ∈ st.2, ∀ t ∈ e.2, t.1.Affine := by
    intro e he t ht
    obtain ⟨f, hf, hft⟩ := hok.coeffs2 e he t ht
    rw [← hft]; exact haff f hf
  refine ⟨⟨?_, ?_, ?_⟩, ?_, ?_⟩
  · exact hp.order.nodup_iff.mpr List.nodup_range
  · intro o ho
    obtain ⟨e, he, rfl⟩ := List.mem_map.mp ho
    exact hmem _ (fill_keys (List.range p.n) st.1 (fun a ha => List.mem_range.mp ha)
      (fun e he => hok.keys1 _ (List.mem_map.mpr ⟨e, he, rfl⟩)) e he)
  · intro h hh
    rcases fold_mem _ _ _ hh with hh | ⟨e, he, rfl⟩
    · cases hh
    · have hk := hok.keys2 _ (List.mem_map.mpr ⟨e, he, rfl⟩)
      exact ⟨hmem _ hk.1, hmem _ hk.2.1⟩
  · intro o ho
    obtain ⟨e, he, rfl⟩ := List.mem_map.mp ho
    exact lambdify_affine ((fill_spec hone (fun _ => 0) (List.range p.n) st.1 hco1).1 e he)
  · intro h hh
    rcases fold_mem _ _ _ hh with hh | ⟨e, he, rfl⟩
    · cases hh
    · exact lambdify_affine (hco2 e he)

/-- C152: the Hamiltonian of the builder, converted back to a model, is the Hamiltonian of the original model, with the orbitals
of the atoms in the order of the sites of the builder. -/
theorem C152_roundtrip {p : Input D} (hp : p.Ok) (haff : ∀ e ∈ p.model, e.coeff.Affine) {s : Syst D D} (hs : modelToBuilder p = some s)
    {x : Values} (hx : RealValues x) (hH : ∀ k i j, evalEntries p.model k x j i = (starRingEnd ℂ) (evalEntries p.model k x i j)) :
    ∃ m, builderToModel s 1 true (fun _ => none) = some m ∧ ∀ k, ∀ a < p.n, ∀ b < p.n, ∀ i < p.norbs a, ∀ j < p.norbs b,
      evalModel m k x (s.start a + i) (s.start b + j) = evalEntries p.model k x (p.start a + i) (p.start b + j) := by
  classical
  have hH := (C152_hermitian p.model x).mpr hH
  obtain ⟨hok, ho, hh⟩ := builder_ok hp hs haff
  obtain ⟨e1, e2, e3, e4⟩ := builder_sites hs
  have hsome : (builderToModel s 1 true (fun _ => none)).isSome := by
    rw [C151_succeeds]
    intro a _
    rw [e2]; rfl
  obtain ⟨m, hm⟩ := Option.isSome_iff_exists.mp hsome
  refine ⟨m, hm, fun k a ha b hb i hi j hj => ?_⟩
  have hmem : ∀ a, a < p.n → a ∈ s.sites := fun a ha => by rw [e1]; exact hp.order.mem_iff.mpr (List.mem_range.mpr ha)
  have hd : ∀ R, displacement s 1 true (a, R, b) = p.disp a R b := by
    intro R
    unfold displacement
    rw [if_pos rfl, Matrix.one_mulVec]
    unfold Syst.sitePos Input.disp
    rw [e3, e4]
  rw [C151_elements hok hm ho hh (x := x) (fun q => hx q) k (hmem a ha) (hmem b hb) (by rw [e2]; exact hi) (by rw [e2]; exact hj)]
  have hgood := (C152_succeeds p).mp (Option.isSome_iff_exists.mpr ⟨s, hs⟩)
  let g : Entry D → (Fin D → ℤ) → ℂ := fun e R => if e.r = p.disp a R b then
    Complex.exp (I * ((k ⬝ᵥ e.r : ℝ) : ℂ)) * (e.coeff.f x * e.mat (p.start a + i) (p.start b + j)) else 0
  have hsub : ∀ e, (Function.support (g e)).Subsingleton := by
    intro e R hR S hS
    simp only [Function.mem_support, g] at hR hS
    have h1 : e.r = p.disp a R b := by by_contra h; rw [if_neg h] at hR; exact hR rfl
    have h2 : e.r = p.disp a S b := by by_contra h; rw [if_neg h] at hS; exact hS rfl
    exact disp_inj hp.lat (h1.symm.trans h2)
  have hterm : ∀ R, Complex.exp (I * ((k ⬝ᵥ displacement s 1 true (a, R, b) : ℝ) : ℂ)) * amplitude s x a b R i j =
      (p.model.map fun e => g e R).sum := by
    intro R
    rw [C152_amplitude hp hs hH ha hb R hi hj, hd]
    unfold component
    rw [← List.sum_map_mul_left]
    congr 1
    apply List.map_congr_left
    intro e _
    simp only [g]
    split_ifs with h
    · rw [h]
    · rw [mul_zero]
  simp only [hterm]
  rw [(finsum_list g (fun e => (hsub e).finite) p.model).1]
  unfold evalEntries
  congr 1
  apply List.map_congr_left
  intro e he
  have hval : ∀ R, e.r = p.disp a R b → ∑ᶠ R, g e R =
      Complex.exp (I * ((k ⬝ᵥ e.r : ℝ) : ℂ)) * e.coeff.f x * e.mat (p.start a + i) (p.start b + j) := by
    intro R hR
    rw [finsum_eq_single _ R]
    · simp only [g]; rw [if_pos hR, mul_assoc]
    · intro S hS
      simp only [g]
      rw [if_neg]
      intro h
      exact hS (disp_inj hp.lat (h.symm.trans hR))
  rcases hgood e he a ha b hb with h0 | ⟨hr, hab⟩ | ⟨_, R, hR⟩
  · have hz : e.mat (p.start a + i) (p.start b + j) = 0 := by
      have := congrFun (congrFun h0 i) j
      unfold Input.hop block at this
      have hc : i < (p.range a).2 ∧ j < (p.range b).2 := ⟨hi, hj⟩
      rw [if_pos hc] at this
      exact this
    simp [g, hz]
  · apply hval 0
    rw [hr]
    rcases hab with rfl | hab
    · rw [disp_zero]
    · simp [Input.disp, hab]
  · exact hval R hR.symm

/-- C152: if the sublattices are in the order of the atoms, the Hamiltonian is exactly the same. -/
theorem C152_same {p : Input D} (hp : p.Ok) (haff : ∀ e ∈ p.model, e.coeff.Affine) {s : Syst D D} (hs : modelToBuilder p = some s)
    (hord : p.order = List.range p.n)
    {x : Values} (hx : RealValues x) (hH : ∀ k i j, evalEntries p.model k x j i = (starRingEnd ℂ) (evalEntries p.model k x i j)) :
    ∃ m, builderToModel s 1 true (fun _ => none) = some m ∧ ∀ k, ∀ i < p.start p.n, ∀ j < p.start p.n,
      evalModel m k x i j = evalEntries p.model k x i j := by
  obtain ⟨m, hm, h⟩ := C152_roundtrip hp haff hs hx hH
  obtain ⟨e1, e2, _, _⟩ := builder_sites hs
  refine ⟨m, hm, fun k i hi j hj => ?_⟩
  have hdec : ∀ n i, i < p.start n → ∃ a < n, ∃ c < p.norbs a, i = p.start a + c := by
    intro n
    induction n with
    | zero => intro i hi; simp [Input.start] at hi
    | succ n ih =>
      intro i hi
      have hs : p.start (n + 1) = p.start n + p.norbs n := by simp [Input.start, List.range_succ]
      rw [hs] at hi
      by_cases hlt : i < p.start n
      · obtain ⟨a, ha, c, hc, hi⟩ := ih i hlt
        exact ⟨a, by omega, c, hc, hi⟩
      · exact ⟨n, by omega, i - p.start n, by omega, by omega⟩
  obtain ⟨a, ha, c, hc, rfl⟩ := hdec _ _ hi
  obtain ⟨b, hb, d, hd, rfl⟩ := hdec _ _ hj
  have := h k a ha b hb c hc d hd
  rwa [order_start s (e1.trans hord) e2 ha, order_start s (e1.trans hord) e2 hb] at this

end Kwant.Qsymm
