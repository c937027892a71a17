import Verif.Wrap.Bloch
import Mathlib.Tactic.FinCases
import Mathlib.Tactic.Ring

/-! # C66: a case that meets the hypotheses -/

namespace Kwant.Wrap
open Kwant Kwant.Builder Kwant.Assoc

namespace Example
/-- The square lattice with two orbitals per cell. -/
abbrev Site := ℤ × ℤ × ℕ
/-- Translations by two periods. -/
def symO : Symmetry Site (Fin 2 → ℤ) := ⟨fun g s => (s.1 + g 0, s.2.1 + g 1, s.2.2), fun s => ![s.1, s.2.1]⟩
/-- The kept period (`keep=0`), with a fundamental domain of its own. -/
def symR : Symmetry Site (Fin 1 → ℤ) := ⟨fun g s => (s.1 + g 0, s.2.1, s.2.2), fun s => ![s.1 - s.2.1]⟩
/-- The wrapped period. -/
def symW : Symmetry Site (Fin 1 → ℤ) := ⟨fun g s => (s.1, s.2.1 + g 0, s.2.2), fun s => ![s.2.1]⟩

theorem lO : symO.Lawful where
  act_zero := fun s => by simp [symO]
  act_add := fun g h s => by simp [symO]; constructor <;> ring
  which_act := fun g s => by
    funext i; fin_cases i <;> simp [symO] <;> ring
  torsion := fun g hg => by
    funext i; have := congrFun hg i; simp at this ⊢; omega

theorem lR : symR.Lawful where
  act_zero := fun s => by simp [symR]
  act_add := fun g h s => by simp [symR]; ring
  which_act := fun g s => by
    funext i; fin_cases i; simp [symR]; ring
  torsion := fun g hg => by
    funext i; have := congrFun hg i; simp at this ⊢; omega

theorem split : Split symO symW symR (Fin.succAbove (0 : Fin 2)) := by
  refine split_of_periods (T := ℤ × ℤ) (fun t s => (s.1 + t.1, s.2.1 + t.2, s.2.2)) ![(1, 0), (0, 1)] symR
    (fun _ => 0) (keep_some 0) lO lR ?_ ?_ ?_
  · intro g s; simp [symO, Fin.sum_univ_two]
  · intro g s; simp [symW, Fin.succAbove]
  · intro g s; simp [symR]

/-- A function with a parameter that does not look at its sites. -/
def f : PFn Site ℝ ℂ := ⟨["t"], fun _ args => match args with | [t] => t * Complex.I | _ => 0⟩

/-- Onsite terms, a hopping along the wrapped direction, a skew one with a function, and a vertical pair that
is folded onto the same wrapped hopping. -/
noncomputable def H : HMap Site ℂ (PFn Site ℝ ℂ) :=
  let H1 := setSite symO [] (3, 2, 0) (.const 1)
  let H2 := setSite symO H1 (0, 0, 1) (.func f)
  let H3 := (setHop symO H2 (0, 0, 0) (0, 1, 0) (.const 2)).1
  let H4 := (setHop symO H3 (0, 0, 0) (1, 1, 1) (.func f)).1
  (setHop symO H4 (1, 0, 1) (0, 0, 0) (.const 5)).1

theorem reach : Reachable symO H :=
  .setHop _ _ _ (.setHop _ _ _ (.setHop _ _ _ (.setSite _ _ (.setSite _ _ (.empty lO)))))

theorem H_eq : H = [((0, 0, 0), ⟨.const 1, [((0, 1, 0), .const 2), ((0, -1, 0), .other), ((1, 1, 1), .func f), ((1, 0, 1), .other)]⟩),
    ((0, 0, 1), ⟨.func f, [((-1, -1, 0), .other), ((-1, 0, 0), .const 5)]⟩)] := rfl

theorem f_inv : InvVal symO (.func f : Val ℂ (PFn Site ℝ ℂ)) := fun _ _ _ => rfl

theorem periodic : Periodic symO H := by
  apply periodic_of_stored reach
  · rw [H_eq]
    simp only [List.mem_cons, List.not_mem_nil, or_false, forall_eq_or_imp, forall_eq]
    exact ⟨fun _ _ _ => rfl, f_inv⟩
  · rw [H_eq]
    simp only [List.mem_cons, List.not_mem_nil, or_false, forall_eq_or_imp, forall_eq]
    refine ⟨⟨?_, ?_, ?_, ?_⟩, ?_, ?_⟩ <;> intro g hg <;> simp only [reduceCtorEq, Stored.func.injEq] at hg
    subst hg; exact f_inv

/-- The theorem applies, with `keep=0`. -/
example : ∃ H', wraparound (fun x : ℝ => x) ["k_y"] symO symW symR (Fin.succAbove (0 : Fin 2)) (fun _ _ => true) H = .ok H' ∧
    HasSite symR H' (7, 0, 1) ∧ ¬ HasSite symR H' (7, 1, 1) := by
  obtain ⟨H', e, _, h, _⟩ := C66_bloch (num := fun x : ℝ => x) (momenta := ["k_y"]) split reach periodic
    (by norm_num) rfl (fun _ _ => true)
  refine ⟨H', e, (h _).mpr ⟨by decide, ?_⟩, fun h' => ?_⟩
  · intro i; fin_cases i; rfl
  · have := ((h _).mp h').2 0
    exact absurd this (by decide)

end Example

end Kwant.Wrap
