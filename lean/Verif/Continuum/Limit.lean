import Verif.Continuum.Thm
import Mathlib.Analysis.Calculus.LineDeriv.Basic
import Mathlib.Analysis.Calculus.MeanValue
import Mathlib.Analysis.Calculus.FDeriv.Symmetric
import Mathlib.Analysis.Calculus.ContDiff.Operations
import Mathlib.Analysis.Complex.Basic

/-! C133: the continuum limit of the discretized Hamiltonian. -/

set_option linter.unusedSectionVars false

namespace Kwant.Continuum
open Filter Topology
open scoped ContDiff

/-- The momentum operator `k_c = -i d/dc`. -/
noncomputable def kCont (c : Axis) (ψ : Pos → ℂ) : Pos → ℂ := fun x => -Complex.I * lineDeriv ℝ ψ x (Pi.single c 1)

/-- A summand of the Hamiltonian as a differential operator. -/
noncomputable def contOp (kpar : Axis → ℂ) (coords : List Axis) : Term → (Pos → ℂ) → Pos → ℂ
  | [], ψ => ψ
  | .mom c e :: t, ψ => if c ∈ coords then (kCont c)^[e.toNat] (contOp kpar coords t ψ) else fun x => kpar c ^ e * contOp kpar coords t ψ x
  | .fn g :: t, ψ => fun x => g x * contOp kpar coords t ψ x

/-- All the functions in the summand are smooth. -/
def SmoothTerm (t : Term) : Prop := ∀ g, Factor.fn g ∈ t → ContDiff ℝ ∞ g

/-! ### Convergence of functions together with derivatives -/

section conv
variable {ι : Type*} (l : Filter ι)

/-- Continuous (locally uniform) convergence. -/
def CC (F : ι → Pos → ℂ) (f : Pos → ℂ) : Prop := ∀ x, Tendsto (fun p : ι × Pos => F p.1 p.2) (l ×ˢ 𝓝 x) (𝓝 (f x))

/-- Partial derivative. -/
noncomputable def dd (c : Axis) (f : Pos → ℂ) : Pos → ℂ := fun x => lineDeriv ℝ f x (Pi.single c 1)

/-- Convergence with derivatives up to order `m`. -/
def Conv : ℕ → (ι → Pos → ℂ) → (Pos → ℂ) → Prop
  | 0, F, f => CC l F f
  | m + 1, F, f => CC l F f ∧ ∀ c, ∃ G : ι → Pos → ℂ, (∀ i x, HasLineDerivAt ℝ (F i) (G i x) x (Pi.single c 1)) ∧ Conv m G (dd c f)

variable {l}

theorem Conv.cc {m : ℕ} {F : ι → Pos → ℂ} {f : Pos → ℂ} (h : Conv l m F f) : CC l F f := by
  cases m with
  | zero => exact h
  | succ m => exact h.1

theorem Conv.down {m : ℕ} {F : ι → Pos → ℂ} {f : Pos → ℂ} (h : Conv l (m + 1) F f) : Conv l m F f := by
  induction m generalizing F f with
  | zero => exact h.1
  | succ m ih =>
    refine ⟨h.1, fun c => ?_⟩
    obtain ⟨G, hG, hc⟩ := h.2 c
    exact ⟨G, hG, ih hc⟩

theorem dd_smooth {f : Pos → ℂ} (hf : ContDiff ℝ ∞ f) (c : Axis) : ContDiff ℝ ∞ (dd c f) := by
  have : dd c f = fun x => fderiv ℝ f x (Pi.single c 1) := by
    funext x
    exact (hf.differentiable (by simp) x).lineDeriv_eq_fderiv
  rw [this]
  exact hf.fderiv_right (m := ∞) (by simp) |>.clm_apply contDiff_const

theorem dd_has {f : Pos → ℂ} (hf : ContDiff ℝ ∞ f) (c : Axis) (x : Pos) : HasLineDerivAt ℝ f (dd c f x) x (Pi.single c 1) :=
  (hf.differentiable (by simp) x).lineDifferentiableAt.hasLineDerivAt

theorem dd_comm {f : Pos → ℂ} (hf : ContDiff ℝ ∞ f) (c c' : Axis) : dd c (dd c' f) = dd c' (dd c f) := by
  have e : ∀ d, dd d f = fun x => fderiv ℝ f x (Pi.single d 1) := fun d => by
    funext x; exact (hf.differentiable (by simp) x).lineDeriv_eq_fderiv
  have hd : Differentiable ℝ (fderiv ℝ f) := (hf.fderiv_right (m := ∞) (by simp)).differentiable (by simp)
  have e2 : ∀ d d' x, dd d (dd d' f) x = fderiv ℝ (fderiv ℝ f) x (Pi.single d 1) (Pi.single d' 1) := by
    intro d d' x
    show lineDeriv ℝ (dd d' f) x (Pi.single d 1) = _
    rw [((dd_smooth hf d').differentiable (by simp) x).lineDeriv_eq_fderiv, e d']
    rw [fderiv_clm_apply (hd x) (differentiableAt_const _)]
    simp
  funext x
  rw [e2, e2]
  have hs : IsSymmSndFDerivAt ℝ f x := hf.contDiffAt.isSymmSndFDerivAt (by rw [minSmoothness_of_isRCLikeNormedField]; exact WithTop.coe_le_coe.mpr (le_top : (2 : ℕ∞) ≤ ⊤))
  exact hs.eq _ _

theorem Conv.const {f : Pos → ℂ} (hf : ContDiff ℝ ∞ f) (m : ℕ) : Conv l m (fun _ => f) f := by
  induction m generalizing f with
  | zero => intro x; exact (hf.continuous.tendsto x).comp tendsto_snd
  | succ m ih =>
    refine ⟨fun x => (hf.continuous.tendsto x).comp tendsto_snd, fun c => ⟨fun _ => dd c f, fun _ x => dd_has hf c x, ih (dd_smooth hf c)⟩⟩

theorem dd_add {f g : Pos → ℂ} (hf : ContDiff ℝ ∞ f) (hg : ContDiff ℝ ∞ g) (c : Axis) : dd c (fun x => f x + g x) = fun x => dd c f x + dd c g x := by
  funext x
  have h1 := dd_has hf c x
  have h2 := dd_has hg c x
  unfold HasLineDerivAt at h1 h2
  have h3 : HasLineDerivAt ℝ (fun x => f x + g x) (dd c f x + dd c g x) x (Pi.single c 1) := by
    unfold HasLineDerivAt; exact h1.add h2
  exact h3.lineDeriv

theorem hasLine_mul {f g : Pos → ℂ} {f' g' : ℂ} {x v : Pos} (h1 : HasLineDerivAt ℝ f f' x v) (h2 : HasLineDerivAt ℝ g g' x v) :
    HasLineDerivAt ℝ (fun x => f x * g x) (f' * g x + f x * g') x v := by
  unfold HasLineDerivAt at *
  have := h1.fun_mul h2
  simpa using this

theorem dd_mul {f g : Pos → ℂ} (hf : ContDiff ℝ ∞ f) (hg : ContDiff ℝ ∞ g) (c : Axis) :
    dd c (fun x => f x * g x) = fun x => dd c f x * g x + f x * dd c g x := by
  funext x
  exact (hasLine_mul (dd_has hf c x) (dd_has hg c x)).lineDeriv

theorem Conv.add {m : ℕ} {F G : ι → Pos → ℂ} {f g : Pos → ℂ} (hf : ContDiff ℝ ∞ f) (hg : ContDiff ℝ ∞ g) (h : Conv l m F f) (h' : Conv l m G g) :
    Conv l m (fun i x => F i x + G i x) (fun x => f x + g x) := by
  induction m generalizing F G f g with
  | zero => exact fun x => (h x).add (h' x)
  | succ m ih =>
    refine ⟨fun x => (h.1 x).add (h'.1 x), fun c => ?_⟩
    obtain ⟨F', hF, hc⟩ := h.2 c
    obtain ⟨G', hG, hc'⟩ := h'.2 c
    refine ⟨fun i x => F' i x + G' i x, fun i x => ?_, ?_⟩
    · have := hF i x; have := hG i x
      unfold HasLineDerivAt at *
      exact HasDerivAt.add (hF i x) (hG i x)
    · rw [dd_add hf hg]
      exact ih (dd_smooth hf c) (dd_smooth hg c) hc hc'

theorem Conv.mul {m : ℕ} {F G : ι → Pos → ℂ} {f g : Pos → ℂ} (hf : ContDiff ℝ ∞ f) (hg : ContDiff ℝ ∞ g) (h : Conv l m F f) (h' : Conv l m G g) :
    Conv l m (fun i x => F i x * G i x) (fun x => f x * g x) := by
  induction m generalizing F G f g with
  | zero => exact fun x => (h x).mul (h' x)
  | succ m ih =>
    refine ⟨fun x => (h.1 x).mul (h'.1 x), fun c => ?_⟩
    obtain ⟨F', hF, hc⟩ := h.2 c
    obtain ⟨G', hG, hc'⟩ := h'.2 c
    refine ⟨fun i x => F' i x * G i x + F i x * G' i x, fun i x => hasLine_mul (hF i x) (hG i x), ?_⟩
    rw [dd_mul hf hg]
    exact Conv.add ((dd_smooth hf c).mul hg) (hf.mul (dd_smooth hg c)) (ih (dd_smooth hf c) hg hc h'.down) (ih hf (dd_smooth hg c) h.down hc')

/-- The central difference quotient. -/
noncomputable def quot (c : Axis) (s : ℝ) (f : Pos → ℂ) : Pos → ℂ := fun x => (f (x + Pi.single c s) - f (x - Pi.single c s)) / (2 * s)

theorem norm_single (c : Axis) (s : ℝ) : ‖(Pi.single c s : Pos)‖ = |s| := by
  rw [Pi.norm_single, Real.norm_eq_abs]

theorem mean_value {F G : Pos → ℂ} {c : Axis} (hG : ∀ x, HasLineDerivAt ℝ F (G x) x (Pi.single c 1)) (y : Pos) (s : ℝ) (L : ℂ) (ε : ℝ)
    (hb : ∀ t : ℝ, |t| ≤ |s| → ‖G (y + Pi.single c t) - L‖ ≤ ε) (hs : s ≠ 0) : ‖quot c s F y - L‖ ≤ ε := by
  have hline : ∀ t : ℝ, HasDerivAt (fun t : ℝ => F (y + Pi.single c t) - t • L) (G (y + Pi.single c t) - L) t := by
    intro t
    have h := hG (y + Pi.single c t)
    unfold HasLineDerivAt at h
    have h2 : HasDerivAt (fun u : ℝ => F (y + Pi.single c t + (u - t) • Pi.single c 1)) (G (y + Pi.single c t)) t := by
      have hsub : HasDerivAt (fun u : ℝ => u - t) 1 t := (hasDerivAt_id t).sub_const t
      have := HasDerivAt.scomp_of_eq t h hsub (by simp)
      simpa [Function.comp_def] using this
    have h3 : (fun u : ℝ => F (y + Pi.single c t + (u - t) • Pi.single c 1)) = fun u => F (y + Pi.single c u) := by
      funext u
      congr 1
      rw [add_assoc, ← Pi.single_smul, ← Pi.single_add]
      simp
    rw [h3] at h2
    have h4 : HasDerivAt (fun t : ℝ => t • L) L t := by
      have := (hasDerivAt_id t).smul_const L
      simpa using this
    exact h2.sub h4
  have hconv : Convex ℝ (Set.Icc (-|s|) |s|) := convex_Icc _ _
  have hmem : ∀ t, t ∈ Set.Icc (-|s|) |s| ↔ |t| ≤ |s| := fun t => by rw [Set.mem_Icc, abs_le]
  have := hconv.norm_image_sub_le_of_norm_hasDerivWithin_le (f := fun t : ℝ => F (y + Pi.single c t) - t • L)
    (f' := fun t => G (y + Pi.single c t) - L) (C := ε) (x := -s) (y := s)
    (fun t _ => (hline t).hasDerivWithinAt) (fun t ht => hb t ((hmem t).mp ht)) ((hmem _).mpr (by simp)) ((hmem _).mpr le_rfl)
  have e1 : quot c s F y - L = ((F (y + Pi.single c s) - s • L) - (F (y + Pi.single c (-s)) - (-s) • L)) / (2 * s) := by
    unfold quot
    have h2 : (s : ℂ) ≠ 0 := by exact_mod_cast hs
    rw [show (Pi.single c (-s) : Pos) = -Pi.single c s from Pi.single_neg _ _, ← sub_eq_add_neg]
    simp only [Complex.real_smul]
    push_cast
    field_simp
    ring
  rw [e1, norm_div]
  have e2 : ‖(2 * (s : ℂ))‖ = 2 * |s| := by simp
  rw [e2, div_le_iff₀ (by positivity)]
  refine this.trans ?_
  rw [show s - -s = 2 * s by ring, Real.norm_eq_abs, abs_mul, abs_two]

theorem quot_hasLine {F G : Pos → ℂ} {c' : Axis} (hG : ∀ x, HasLineDerivAt ℝ F (G x) x (Pi.single c' 1)) (c : Axis) (s : ℝ) (x : Pos) :
    HasLineDerivAt ℝ (quot c s F) (quot c s G x) x (Pi.single c' 1) := by
  have h1 := hG (x + Pi.single c s)
  have h2 := hG (x - Pi.single c s)
  unfold HasLineDerivAt at *
  have := (h1.fun_sub h2).div_const (2 * (s : ℂ))
  have e : (fun t : ℝ => quot c s F (x + t • (Pi.single c' 1 : Pos))) =
      fun t : ℝ => (F (x + Pi.single c s + t • Pi.single c' 1) - F (x - Pi.single c s + t • Pi.single c' 1)) / (2 * (s : ℂ)) := by
    funext t
    unfold quot
    rw [show x + t • (Pi.single c' 1 : Pos) + Pi.single c s = x + Pi.single c s + t • Pi.single c' 1 by abel,
      show x + t • (Pi.single c' 1 : Pos) - Pi.single c s = x - Pi.single c s + t • Pi.single c' 1 by abel]
  rw [e]
  exact this

theorem dist_single (c : Axis) (y : Pos) (t : ℝ) : dist (y + Pi.single c t) y = |t| := by
  rw [dist_eq_norm, show y + Pi.single c t - y = Pi.single c t by abel, norm_single]

theorem dist_single_le (c : Axis) (y x : Pos) (t : ℝ) : dist (y + Pi.single c t) x ≤ |t| + dist y x := by
  rw [← dist_single c y t]; exact dist_triangle _ _ _

theorem Conv.quot {m : ℕ} {F : ι → Pos → ℂ} {f : Pos → ℂ} (hf : ContDiff ℝ ∞ f) (c : Axis) (s : ι → ℝ) (hs : Tendsto s l (𝓝[≠] 0))
    (h : Conv l (m + 1) F f) : Conv l m (fun i => quot c (s i) (F i)) (dd c f) := by
  have hcc : ∀ {F : ι → Pos → ℂ} {f : Pos → ℂ}, Conv l 1 F f → CC l (fun i => Continuum.quot c (s i) (F i)) (dd c f) := by
    intro F f h x
    obtain ⟨G, hG, hc⟩ := h.2 c
    rw [Metric.tendsto_nhds]
    intro ε hε
    have h1 := (Metric.tendsto_nhds.mp (hc x)) (ε / 2) (half_pos hε)
    rw [Filter.eventually_prod_iff] at h1
    obtain ⟨pa, hpa, pb, hpb, hpp⟩ := h1
    obtain ⟨δ, hδ, hball⟩ := Metric.eventually_nhds_iff.mp hpb
    have hs0 : ∀ᶠ i in l, s i ≠ 0 := hs.eventually self_mem_nhdsWithin
    have hsδ : ∀ᶠ i in l, |s i| < δ / 2 := by
      have : Tendsto s l (𝓝 0) := hs.mono_right nhdsWithin_le_nhds
      have := (Metric.tendsto_nhds.mp this) (δ / 2) (half_pos hδ)
      simpa [Real.dist_eq] using this
    have hy : ∀ᶠ y in 𝓝 x, dist y x < δ / 2 := Metric.eventually_nhds_iff.mpr ⟨δ / 2, half_pos hδ, fun _ h => h⟩
    filter_upwards [(hpa.and (hs0.and hsδ)).prod_mk hy] with p hp
    obtain ⟨⟨hp1, hp2, hp3⟩, hp4⟩ := hp
    rw [dist_eq_norm]
    refine lt_of_le_of_lt (mean_value (hG p.1) p.2 (s p.1) _ (ε / 2) ?_ hp2) (half_lt_self hε)
    intro t ht
    have hd : dist (p.2 + Pi.single c t) x < δ := lt_of_le_of_lt (dist_single_le c p.2 x t) (by linarith)
    have := hpp hp1 (hball hd)
    rw [dist_eq_norm] at this
    exact this.le
  induction m generalizing F f with
  | zero => exact hcc h
  | succ m ih =>
    have h1 : Conv l 1 F f := by
      have : ∀ n, Conv l (n + 1) F f → Conv l 1 F f := by
        intro n
        induction n with
        | zero => exact id
        | succ n ih => exact fun h => ih h.down
      exact this _ h
    refine ⟨hcc h1, fun c' => ?_⟩
    obtain ⟨G, hG, hc⟩ := h.2 c'
    refine ⟨fun i => Continuum.quot c (s i) (G i), fun i x => quot_hasLine (hG i) c (s i) x, ?_⟩
    rw [dd_comm hf c' c]
    exact ih (dd_smooth hf c') hc

/-! ### Words -/

/-- A word as a differential operator. -/
noncomputable def contWord : List Atom → (Pos → ℂ) → Pos → ℂ
  | [], ψ => ψ
  | .D c :: w, ψ => kCont c (contWord w ψ)
  | .M g :: w, ψ => fun x => g x * contWord w ψ x

theorem contWord_smooth (w : List Atom) (hw : ∀ g, Atom.M g ∈ w → ContDiff ℝ ∞ g) (ψ : Pos → ℂ) (hψ : ContDiff ℝ ∞ ψ) : ContDiff ℝ ∞ (contWord w ψ) := by
  induction w with
  | nil => exact hψ
  | cons a w ih =>
    have h := ih fun g hg => hw g (List.mem_cons_of_mem _ hg)
    cases a with
    | D c => exact contDiff_const.mul (dd_smooth h c)
    | M g => exact (hw g (by simp)).mul h

theorem word_conv (s : ι → Pos) (w : List Atom) (hs : ∀ c, cnt c w ≠ 0 → Tendsto (fun i => s i c) l (𝓝[≠] 0))
    (hw : ∀ g, Atom.M g ∈ w → ContDiff ℝ ∞ g) (ψ : Pos → ℂ) (hψ : ContDiff ℝ ∞ ψ) (m : ℕ) :
    Conv l m (fun i => wordOp (s i) w ψ) (contWord w ψ) := by
  induction w generalizing m with
  | nil => exact Conv.const hψ m
  | cons a w ih =>
    have hw' : ∀ g, Atom.M g ∈ w → ContDiff ℝ ∞ g := fun g hg => hw g (List.mem_cons_of_mem _ hg)
    have hsm := contWord_smooth w hw' ψ hψ
    have h := fun m => ih (fun c hc => hs c (by cases a <;> simp only [cnt] <;> omega)) hw' m
    cases a with
    | D c =>
      have hq := Conv.quot hsm c (fun i => s i c) (hs c (by simp [cnt])) (h (m + 1))
      exact Conv.mul (f := fun _ => -Complex.I) contDiff_const (dd_smooth hsm c) (Conv.const contDiff_const m) hq
    | M g => exact Conv.mul (hw g (by simp)) hsm (Conv.const (hw g (by simp)) m) (h m)

end conv

theorem contWord_replicate (c : Axis) (n : ℕ) (w : List Atom) (ψ : Pos → ℂ) :
    contWord (List.replicate n (.D c) ++ w) ψ = (kCont c)^[n] (contWord w ψ) := by
  induction n with
  | zero => rfl
  | succ n ih => rw [List.replicate_succ, List.cons_append, Function.iterate_succ_apply', ← ih]; rfl

theorem contWord_word (kpar : Axis → ℂ) (coords : List Axis) (t : Term) (ψ : Pos → ℂ) :
    contWord (word kpar coords t) ψ = contOp kpar coords t ψ := by
  unfold word
  induction t with
  | nil => rfl
  | cons f t ih =>
    rw [List.flatMap_cons]
    cases f with
    | mom c e =>
      simp only [atomsOf, contOp]
      split
      · rw [contWord_replicate, ih]
      · simp only [List.singleton_append, contWord, ih]
    | fn g => simp only [atomsOf, contOp, List.singleton_append, contWord, ih]

theorem word_smooth (kpar : Axis → ℂ) (coords : List Axis) (t : Term) (ht : SmoothTerm t) (g : Pos → ℂ) (hg : Atom.M g ∈ word kpar coords t) :
    ContDiff ℝ ∞ g := by
  unfold word at hg
  obtain ⟨f, hf, hgf⟩ := List.mem_flatMap.mp hg
  cases f with
  | mom c e =>
    simp only [atomsOf] at hgf
    split at hgf
    · have := List.eq_of_mem_replicate hgf; cases this
    · simp only [List.mem_singleton, Atom.M.injEq] at hgf; subst hgf; exact contDiff_const
  | fn g' =>
    simp only [atomsOf, List.mem_singleton, Atom.M.injEq] at hgf
    subst hgf; exact ht _ hf

/-- C133.  The continuum limit.  For a Hamiltonian with smooth functions of the position and a smooth wave function, acting with the hoppings on the wave function converges to
the differential operator (`k_c = -i d/dc`) acting on it, at every point, when the grid spacings of the discretized coordinates tend to zero in any way. -/
theorem continuum_limit {ι : Type*} (l : Filter ι) (kpar : Axis → ℂ) (coords : List Axis) (hnd : coords.Nodup) (e : Expr) (he : ∀ t ∈ e, SmoothTerm t)
    (ψ : Pos → ℂ) (hψ : ContDiff ℝ ∞ ψ) (a : ι → Pos) (ha : ∀ c ∈ coords, Tendsto (fun i => a i c) l (𝓝[≠] 0)) (x : Pos) :
    Tendsto (fun i => ((discretizeExpression kpar coords e).map fun p => p.2 (a i) x * ψ (gridAt coords p.1 (a i) x)).sum) l
      (𝓝 (e.map fun t => contOp kpar coords t ψ x).sum) := by
  simp only [(expression_spec kpar coords hnd e).2.1]
  have key : ∀ t ∈ e, Tendsto (fun i => discOp kpar coords (stepOf t (a i)) t ψ x) l (𝓝 (contOp kpar coords t ψ x)) := by
    intro t ht
    have hstep : ∀ c, cnt c (word kpar coords t) ≠ 0 → Tendsto (fun i => stepOf t (a i) c) l (𝓝[≠] 0) := by
      intro c hc
      rw [cnt_word] at hc
      have hcm : c ∈ coords := by by_contra h; rw [if_neg h] at hc; exact hc rfl
      have h1 := ha c hcm
      unfold stepOf
      by_cases hev : Even (degree c t)
      · simp only [hev, if_true]
        rw [tendsto_nhdsWithin_iff] at h1 ⊢
        refine ⟨by simpa using h1.1.div_const 2, ?_⟩
        filter_upwards [h1.2] with i hi
        simpa using hi
      · simp only [hev, if_false]; exact h1
    have h := word_conv (l := l) (fun i => stepOf t (a i)) (word kpar coords t) hstep (word_smooth kpar coords t (he t ht)) ψ hψ 0
    have hx := h x
    rw [contWord_word] at hx
    simp only [wordOp_word] at hx
    have hp : Tendsto (fun i : ι => (i, x)) l (l ×ˢ 𝓝 x) := tendsto_id.prodMk tendsto_const_nhds
    exact hx.comp hp
  clear he
  induction e with
  | nil => simp only [List.map_nil, List.sum_nil]; exact tendsto_const_nhds
  | cons t e ih =>
    simp only [List.map_cons, List.sum_cons]
    exact (key t (by simp)).add (ih fun t ht => key t (List.mem_cons_of_mem _ ht))

end Kwant.Continuum
