import Verif.Continuum.Model
import Mathlib.Tactic.Abel
import Mathlib.Data.List.Nodup

/-! Lemmas about the dicts of the model. -/

set_option linter.unusedSectionVars false

namespace Kwant.Continuum

section dict
variable {K V M : Type*} [DecidableEq K] [AddCommMonoid V] [AddCommMonoid M]

theorem keys_map_upd (d : List (K × V)) (k : K) (v : V) :
    (d.map fun p => if p.1 = k then (p.1, p.2 + v) else p).map Prod.fst = d.map Prod.fst := by
  rw [List.map_map]; apply List.map_congr_left; intro p _; simp only [Function.comp]; split <;> rfl

theorem mem_keys_addTo (d : List (K × V)) (k : K) (v : V) (k' : K) :
    k' ∈ (addTo d k v).map Prod.fst ↔ k' ∈ d.map Prod.fst ∨ k' = k := by
  unfold addTo
  split
  · next h => rw [keys_map_upd]; constructor
              · exact Or.inl
              · rintro (h' | rfl) <;> assumption
  · simp

theorem nodup_addTo (d : List (K × V)) (k : K) (v : V) (h : (d.map Prod.fst).Nodup) : ((addTo d k v).map Prod.fst).Nodup := by
  unfold addTo
  split
  · rwa [keys_map_upd]
  · next hk =>
    rw [List.map_append, List.nodup_append]
    refine ⟨h, by simp, ?_⟩
    intro a ha b hb; simp only [List.map_cons, List.map_nil, List.mem_singleton] at hb
    subst hb; rintro rfl; exact hk ha

theorem sum_upd (d : List (K × V)) (k : K) (v : V) (F : K → V →+ M) (h : (d.map Prod.fst).Nodup) (hk : k ∈ d.map Prod.fst) :
    ((d.map fun p => if p.1 = k then (p.1, p.2 + v) else p).map fun p => F p.1 p.2).sum = (d.map fun p => F p.1 p.2).sum + F k v := by
  induction d with
  | nil => simp at hk
  | cons p d ih =>
    simp only [List.map_cons, List.nodup_cons, List.mem_cons] at h hk ⊢
    by_cases hp : p.1 = k
    · have hz : (d.map fun p => if p.1 = k then (p.1, p.2 + v) else p) = d := by
        conv_rhs => rw [← List.map_id d]
        apply List.map_congr_left
        intro q hq
        have : q.1 ≠ k := by
          rintro rfl; exact h.1 (hp ▸ List.mem_map_of_mem hq)
        simp [this]
      rw [if_pos hp]; simp only [List.sum_cons, map_add]
      rw [hz, hp]; abel
    · rw [if_neg hp]; simp only [List.sum_cons]
      rw [ih h.2 (hk.resolve_left (fun e => hp e.symm)), add_assoc]

theorem sum_addTo (d : List (K × V)) (k : K) (v : V) (F : K → V →+ M) (h : (d.map Prod.fst).Nodup) :
    ((addTo d k v).map fun p => F p.1 p.2).sum = (d.map fun p => F p.1 p.2).sum + F k v := by
  unfold addTo
  split
  · next hk => exact sum_upd d k v F h hk
  · simp

variable {ι : Type*} {W : Type*} [AddCommMonoid W]

theorem foldl_addTo (l : List ι) (key : ι → K) (val : ι → V) (d : List (K × V)) (h : (d.map Prod.fst).Nodup) :
    ((l.foldl (fun d e => addTo d (key e) (val e)) d).map Prod.fst).Nodup ∧
    (∀ k, k ∈ (l.foldl (fun d e => addTo d (key e) (val e)) d).map Prod.fst ↔ k ∈ d.map Prod.fst ∨ k ∈ l.map key) ∧
    (∀ F : K → V →+ M, ((l.foldl (fun d e => addTo d (key e) (val e)) d).map fun p => F p.1 p.2).sum =
      (d.map fun p => F p.1 p.2).sum + (l.map fun e => F (key e) (val e)).sum) := by
  induction l generalizing d with
  | nil => simp [h]
  | cons e l ih =>
    obtain ⟨h1, h2, h3⟩ := ih (addTo d (key e) (val e)) (nodup_addTo d _ _ h)
    refine ⟨h1, ?_, ?_⟩
    · intro k
      rw [List.foldl_cons, h2, mem_keys_addTo]
      simp only [List.map_cons, List.mem_cons]; tauto
    · intro F
      rw [List.foldl_cons, h3, sum_addTo d _ _ F h]
      simp only [List.map_cons, List.sum_cons]; rw [add_assoc]

/-- Several dicts merged one after the other, after a change of their values. -/
theorem foldl_merge (l : List ι) (D : ι → List (K × W)) (T : ι → W → V) (d : List (K × V)) (h : (d.map Prod.fst).Nodup) :
    ((l.foldl (fun d t => (D t).foldl (fun d p => addTo d p.1 (T t p.2)) d) d).map Prod.fst).Nodup ∧
    (∀ k, k ∈ (l.foldl (fun d t => (D t).foldl (fun d p => addTo d p.1 (T t p.2)) d) d).map Prod.fst ↔
      k ∈ d.map Prod.fst ∨ ∃ t ∈ l, k ∈ (D t).map Prod.fst) ∧
    (∀ F : K → V →+ M, ((l.foldl (fun d t => (D t).foldl (fun d p => addTo d p.1 (T t p.2)) d) d).map fun p => F p.1 p.2).sum =
      (d.map fun p => F p.1 p.2).sum + (l.map fun t => ((D t).map fun p => F p.1 (T t p.2)).sum).sum) := by
  induction l generalizing d with
  | nil => simp [h]
  | cons t l ih =>
    obtain ⟨a1, a2, a3⟩ := foldl_addTo (M := M) (D t) Prod.fst (fun p => T t p.2) d h
    obtain ⟨h1, h2, h3⟩ := ih _ a1
    refine ⟨h1, ?_, ?_⟩
    · intro k
      rw [List.foldl_cons, h2, a2]
      simp only [List.mem_cons, exists_eq_or_imp]; tauto
    · intro F
      rw [List.foldl_cons, h3, a3]
      simp only [List.map_cons, List.sum_cons]; rw [add_assoc]

end dict

end Kwant.Continuum
