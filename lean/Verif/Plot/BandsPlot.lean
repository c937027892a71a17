import Verif.Plot.Spectrum
import Verif.Physics.Bands

/-!
C175: `kwant.plotter.bands` (plotter.py l.1852-1934): it does not use `kwant.physics.Bands` but expands its contents and calls `spectrum`.
Simplifications: as in `Verif.Plot.Spectrum` and `Verif.Physics.Bands`.
-/

set_option linter.unusedSectionVars false

namespace Kwant.BandsPlot
open Matrix Complex Kwant.Bands

variable {N M : ℕ}

/-- `np.linspace(a, b, n)`; a single point is `a`. -/
noncomputable def linspace (a b : ℝ) (n : ℕ) : List ℝ := (List.range n).map fun i : ℕ => if n = 1 then a else a + i * ((b - a) / (n - 1))

/-- The argument `momenta`: a number of points or the momenta themselves. -/
inductive Momenta where
  | num (n : ℕ)
  | list (l : List ℝ)

/-- l.1913-1915 -/
noncomputable def momenta : Momenta → List ℝ
  | .num n => linspace (-Real.pi) Real.pi n
  | .list l => l

/-- `hop` (l.1922-1925) -/
def padded (hop : Matrix (Fin N) (Fin M) ℂ) : Matrix (Fin N) (Fin N) ℂ := of fun i j => if h : j.val < M then hop i ⟨j.val, h⟩ else 0

/-- `h_k` (l.1927-1931) -/
noncomputable def hk (ham : Matrix (Fin N) (Fin N) ℂ) (hop : Matrix (Fin N) (Fin M) ℂ) (k : ℝ) : Matrix (Fin N) (Fin N) ℂ :=
  let mat := Complex.exp (-I * k) • padded hop
  mat + (matᴴ + ham)

inductive PErr | notHermitian | noPoint | sizes
  deriving DecidableEq

open Classical in
/-- `bands` (l.1905-1934): the curves that are drawn (the same with both engines, see C174). -/
noncomputable def bands (eigvalsh : Matrix (Fin N) (Fin N) ℂ → Fin N → ℝ) (ham : Matrix (Fin N) (Fin N) ℂ) (hop : Matrix (Fin N) (Fin M) ℂ)
    (mom : Momenta) : Except PErr (List (List (Option ℝ × Option ℝ))) :=
  if ham = hamᴴ then
    match Spectrum.generate (fun f : String → Option ℝ => hk ham hop ((f "k").getD 0)) (fun h => List.ofFn (eigvalsh h)) [] none ⟨"k", momenta mom⟩ none with
    | .ok s => .ok (Spectrum.plotMpl1 ⟨"k", momenta mom⟩ s)
    | .error .stop => .error .noPoint
    | .error .value => .error .sizes
  else .error .notHermitian

theorem hk_eq {ham : Matrix (Fin N) (Fin N) ℂ} {hop : Matrix (Fin N) (Fin M) ℂ} {b : Bands N} (hb : init ham hop = .ok b) (k : ℝ) : hk ham hop k = h0 b k := by
  unfold init at hb
  split at hb
  · cases hb
    unfold hk h0 mat padded
    simp only
    rw [phase_eq, show -(I * (k : ℂ)) = -I * k by ring, add_assoc]
  · cases hb

/-- C175: `bands` draws, for each orbital of the unit cell, one curve over the given momenta (an equidistant grid from -pi to pi if only their number is given);
at each momentum the curves have the energies of the Bloch waves of the infinite system, in ascending order and with their multiplicities, the same that
`kwant.physics.Bands` returns.  It raises an exception exactly if the cell Hamiltonian is not Hermitian or there is no momentum. -/
theorem C175_bands {eigh : Matrix (Fin N) (Fin N) ℂ → (Fin N → ℝ) × Matrix (Fin N) (Fin N) ℂ} {eigvalsh : Matrix (Fin N) (Fin N) ℂ → Fin N → ℝ}
    (he : EighOk eigh) (hv : EigvalshOk eigvalsh) {ham : Matrix (Fin N) (Fin N) ℂ} {hop : Matrix (Fin N) (Fin M) ℂ} (hM : M ≤ N) (mom : Momenta) :
    (¬ ham.IsHermitian → bands eigvalsh ham hop mom = .error .notHermitian) ∧
    (ham.IsHermitian → momenta mom = [] → bands eigvalsh ham hop mom = .error .noPoint) ∧
    (ham.IsHermitian → momenta mom ≠ [] → ∃ curves, bands eigvalsh ham hop mom = .ok curves ∧ curves.length = N ∧
      ∀ (i : ℕ) (hi : i < (momenta mom).length), ∃ e : Fin N → ℝ, Monotone e ∧
        (∀ (n : Fin N), ∃ c, curves[n.val]? = some c ∧ c.length = (momenta mom).length ∧ c[i]? = some (some (momenta mom)[i], some (e n))) ∧
        (∀ E, IsBandEnergy ham hop hM (momenta mom)[i] E ↔ ∃ n, e n = E) ∧
        (hk ham hop (momenta mom)[i]).charpoly = (∏ n, (Polynomial.X - Polynomial.C (e n : ℂ))) ∧
        ∀ b (g : Garbage N), init ham hop = .ok b → ∃ out, call eigh eigvalsh g b (momenta mom)[i] 0 false = .ok out ∧ out.energies = e) := by
  refine ⟨fun h => ?_, fun h hm => ?_, fun h hm => ?_⟩
  · unfold bands
    rw [if_neg (fun e => h e.symm)]
  · unfold bands
    rw [if_pos h.symm, hm]
    simp [Spectrum.generate, Spectrum.points]
  · set hamf := fun f : String → Option ℝ => hk ham hop ((f "k").getD 0) with hhamf
    set eig := fun h : Matrix (Fin N) (Fin N) ℂ => List.ofFn (eigvalsh h) with heig
    have hsucc : ∃ s, Spectrum.generate hamf eig [] none ⟨"k", momenta mom⟩ none = .ok s := by
      rw [Spectrum.C174_succeeds]
      constructor
      · obtain ⟨k, hk⟩ := List.exists_mem_of_ne_nil _ hm
        exact ⟨[("k", k)], by simp [Spectrum.points, hk], by simp [Spectrum.energies]⟩
      · intro p _ p' _ e e' h1 h2
        simp only [Spectrum.energies, Bool.false_eq_true, if_false, Option.some.injEq] at h1 h2
        rw [← h1, ← h2]
        simp [heig]
    obtain ⟨s, hs⟩ := hsucc
    obtain ⟨-, c2, c3, -⟩ := Spectrum.C174_curves hs
    have hn : s.n = N := by
      obtain ⟨k, hk⟩ := List.exists_mem_of_ne_nil _ hm
      have := c3 [("k", k)] (by simp [Spectrum.points, hk]) _ (by simp [Spectrum.energies]; rfl)
      rw [← this]
      simp [heig]
    have hb : ∃ b, init ham hop = .ok b := (C65_energies he hv hM).1.mpr h
    obtain ⟨b, hb⟩ := hb
    refine ⟨_, ?_, c2.trans hn, ?_⟩
    · unfold bands
      rw [if_pos h.symm]
      simp only [← hhamf, ← heig]
      rw [hs]
    · intro i hi
      obtain ⟨out, o1, o2, o3, o4, -⟩ := ((C65_energies he hv hM).2 b hb (fun _ _ => 0) (momenta mom)[i] 0 false).2 (by omega)
      have oe : out.energies = eigvalsh (hk ham hop (momenta mom)[i]) := by
        rw [hk_eq hb]
        unfold call at o1
        simp only [lt_irrefl, Bool.false_eq_true, or_self, if_false] at o1
        rw [if_neg (by omega)] at o1
        cases o1
        rfl
      refine ⟨out.energies, o2, ?_, o3, ?_, ?_⟩
      · intro n
        obtain ⟨h1, h2, _, _, h5⟩ := Spectrum.generate_spec hs
        have hp : (Spectrum.points (⟨"k", momenta mom⟩ : Spectrum.Axis String ℝ) none)[i]? = some [("k", (momenta mom)[i])] := by
          simp [Spectrum.points, hi]
        have e5 := h5 i n.val _ hp (by rw [hn]; exact n.isLt)
        have hat : s.at i 0 n.val = (s.data[i * s.n + n.val]?).join := by
          unfold Spectrum.Arr.at
          rw [h2]
          simp [Spectrum.ycount]
        simp only at h1
        refine ⟨(List.range s.nx).map fun i : ℕ => ((momenta mom)[i]?, s.at i 0 n.val), by simp [Spectrum.plotMpl1, hn], by simp [h1], ?_⟩
        rw [List.getElem?_map, List.getElem?_range (by rw [h1]; exact hi), Option.map_some, hat, e5]
        simp [Spectrum.energies, hi, heig, hhamf, Spectrum.lookup, oe]
      · rw [hk_eq hb]
        exact o4
      · intro b' g hb'
        rw [hb] at hb'
        cases hb'
        refine ⟨⟨eigvalsh (h0 b (momenta mom)[i]), none, none, none⟩, ?_, ?_⟩
        · simp [call]
        · rw [oe, hk_eq hb]

/-- C175: the default momenta: from -pi to pi in equal steps. -/
theorem C175_momenta {n : ℕ} (hn : 2 ≤ n) : (momenta (.num n)).length = n ∧ (momenta (.num n))[0]? = some (-Real.pi) ∧
    (momenta (.num n))[n - 1]? = some Real.pi ∧
    ∃ d, 0 < d ∧ ∀ (i : ℕ) (h : i < (momenta (.num n)).length), (momenta (.num n))[i] = -Real.pi + i * d := by
  have hn1 : n ≠ 1 := by omega
  have hc : (0 : ℝ) < (n : ℝ) - 1 := by
    have : (2 : ℝ) ≤ n := by exact_mod_cast hn
    linarith
  refine ⟨by simp [momenta, linspace], ?_, ?_, (Real.pi - -Real.pi) / (n - 1), ?_, ?_⟩
  · simp [momenta, linspace, List.getElem?_range (show 0 < n by omega), hn1]
  · have e : ((n - 1 : ℕ) : ℝ) = n - 1 := by
      rw [Nat.cast_sub (by omega)]
      simp
    simp only [momenta, linspace, List.getElem?_map, List.getElem?_range (show n - 1 < n by omega), Option.map_some, if_neg hn1, e]
    rw [mul_div_cancel₀ _ (ne_of_gt hc)]
    congr 1
    ring
  · apply div_pos _ hc
    linarith [Real.pi_pos]
  · intro i h
    simp [momenta, linspace, hn1]

end Kwant.BandsPlot
