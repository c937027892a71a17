import Verif.Gauge.CompositePhases

/-!
# C150: which systems with leads are accepted
-/
set_option linter.unusedSectionVars false

namespace Kwant.Gauge
open Kwant.Dijkstra Complex

/-! ## Specification -/

/-- The hoppings of the extended scattering region whose phase is fixed by lead `p`: the last lead in whose patch one of
the two sites is. -/
def fixedBy (s : CSyst) (p : ℕ) : Set (ℕ × ℕ) := {e | e ∈ s.extended ∧ max (s.patch e.1) (s.patch e.2) = p}

/-- The hoppings whose phase is fixed by a lead. -/
def fixedLinks (s : CSyst) : Set (ℕ × ℕ) := {e | e ∈ s.extended ∧ (s.patch e.1 ≠ -1 ∨ s.patch e.2 ≠ -1)}

/-- The gauges of the leads can be combined: phases that are trivial up to a gauge transformation in each lead are trivial
up to one gauge transformation in all leads together, so there are no closed loops through several leads. -/
def Consistent (s : CSyst) : Prop :=
  ∀ (M : Type) [CommGroup M] (f : ℕ → ℕ → M), (∀ i j, f j i = (f i j)⁻¹) →
    (∀ p < s.leads.length, ∃ φ : ℕ → M, ∀ i j, (i, j) ∈ fixedBy s p → f i j = (φ i)⁻¹ * φ j) →
    ∃ φ : ℕ → M, ∀ i j, (i, j) ∈ fixedLinks s → f i j = (φ i)⁻¹ * φ j

/-- The site is at a hopping fixed by lead `p`. -/
def AtPatch (s : CSyst) (p x : ℕ) : Prop := ∃ y, (x, y) ∈ fixedBy s p

/-- The hoppings fixed by a lead are connected. -/
def PatchesConnected (s : CSyst) : Prop :=
  ∀ p < s.leads.length, ∀ x y, AtPatch s p x → AtPatch s p y → Conn (fixedBy s p) x y

/-- No site is at hoppings of three different leads. -/
def NoTriple (s : CSyst) : Prop :=
  ∀ p q r x, AtPatch s p x → AtPatch s q x → AtPatch s r x → p = q ∨ p = r ∨ q = r

/-! ## Proofs -/

section
variable {s : CSyst}

theorem fixed_patch {i j : ℕ} : (i, j) ∈ fixedLinks s ↔ (i, j) ∈ patchLinks s.entries s.patch := by
  simp only [fixedLinks, patchLinks, Set.mem_setOf_eq, gt_iff]
  rfl

theorem fixedBy_label {i j p : ℕ} : (i, j) ∈ fixedBy s p ↔ (i, j) ∈ patchLinks s.entries s.patch ∧ label s i j = p := by
  simp only [fixedBy, patchLinks, label]
  constructor
  · rintro ⟨h1, h2⟩
    refine ⟨⟨h1, ?_⟩, ?_⟩
    · simp only at h2 ⊢; omega
    · simp only at h2; omega
  · rintro ⟨⟨h1, h2⟩, h3⟩
    refine ⟨h1, ?_⟩
    simp only at h2 ⊢
    omega

theorem atPatch_touch {p x : ℕ} : AtPatch s p x ↔ Touch s p x := by
  constructor
  · rintro ⟨y, h⟩; exact ⟨y, fixedBy_label.mp h⟩
  · rintro ⟨y, h⟩; exact ⟨y, fixedBy_label.mpr h⟩

theorem fixedBy_symm (hs : CompositeOk s) {p : ℕ} : ∀ e ∈ fixedBy s p, e.swap ∈ fixedBy s p := by
  rintro ⟨i, j⟩ ⟨h1, h2⟩
  exact ⟨(extended_links hs).symm _ h1, by rw [max_comm]; exact h2⟩

/-- C150, soundness: if the patches of different leads are not adjacent, the gauges of the leads of a system that is accepted
can be combined. -/
theorem C150_sound_partial (hs : CompositeOk s) (hsep : Separate s) (hck : checkComposite s = true) : Consistent s := by
  intro M _ f _ h
  obtain ⟨φ, hφ⟩ := patches_gradient hs hsep hck f (fun p hp => by
    obtain ⟨φ, hφ⟩ := h p hp
    exact ⟨φ, fun i j hij hl => hφ i j (fixedBy_label.mpr ⟨hij, hl⟩)⟩)
  exact ⟨φ, fun i j hij => hφ i j (fixed_patch.mp hij)⟩

/-- The sites of a reduced interface are at a hopping of the patch. -/
theorem reduced_at (hs : CompositeOk s) (hsep : Separate s) {p x : ℕ} (hp : p < s.leads.length)
    (hx : x ∈ reducedInterface s.links (s.lead p)) : AtPatch s p x := by
  have h1 := patch_interface hs hsep hp hx
  have h2 : ∃ y, (x, y) ∈ s.extended ∧ s.patch y = p := by
    unfold reducedInterface at hx
    split_ifs at hx with h
    · exact interface_link hs hp hx
    · rcases List.mem_append.mp hx with hx | hx
      · exact interface_link hs hp (List.mem_of_mem_filter hx)
      · obtain ⟨e, he, rfl⟩ := List.mem_map.mp hx
        simp only [List.mem_filter, decide_eq_true_eq] at he
        exact ⟨e.1, (extended_links hs).symm _ ((mem_extended hs).mpr (.inl he.1)), patch_eq_padding hs hp he.2.1⟩
  obtain ⟨y, h3, h4⟩ := h2
  exact ⟨y, h3, by simp only [h1, h4]; omega⟩

/-- Potentials of the leads have a common potential up to constants. -/
theorem common (hs : CompositeOk s) (hconn : PatchesConnected s) (hco : Consistent s) {M : Type}
    [CommGroup M] (Φ : ℕ → ℕ → M) :
    ∃ (φ : ℕ → M) (c : ℕ → M), ∀ p < s.leads.length, ∀ x, AtPatch s p x → φ x = Φ p x * c p := by
  classical
  let f : ℕ → ℕ → M := fun i j => if (i, j) ∈ fixedLinks s then (Φ (label s i j) i)⁻¹ * Φ (label s i j) j else 1
  have hlab : ∀ i j, label s j i = label s i j := by intro i j; unfold label; rw [max_comm]
  have hsym : ∀ i j, (i, j) ∈ fixedLinks s → (j, i) ∈ fixedLinks s := by
    rintro i j ⟨h1, h2⟩
    exact ⟨(extended_links hs).symm _ h1, h2.symm⟩
  have hf : ∀ i j, f j i = (f i j)⁻¹ := by
    intro i j
    simp only [f]
    by_cases h : (i, j) ∈ fixedLinks s
    · rw [if_pos h, if_pos (hsym i j h), hlab, mul_inv, inv_inv, mul_comm]
    · have h' : (j, i) ∉ fixedLinks s := fun h' => h (hsym j i h')
      rw [if_neg h, if_neg h', inv_one]
  have hfix : ∀ p i j, (i, j) ∈ fixedBy s p → f i j = (Φ p i)⁻¹ * Φ p j := by
    intro p i j hij
    obtain ⟨h1, h2⟩ := fixedBy_label.mp hij
    simp only [f]
    rw [if_pos (fixed_patch.mpr h1), h2]
  obtain ⟨φ, hφ⟩ := hco M f hf fun p _ => ⟨Φ p, fun i j => hfix p i j⟩
  have hex : ∀ p, ∃ c : M, p < s.leads.length → ∀ x, AtPatch s p x → φ x = Φ p x * c := by
    intro p
    by_cases h : p < s.leads.length ∧ ∃ x, AtPatch s p x
    · obtain ⟨hp, x0, hx0⟩ := h
      refine ⟨(Φ p x0)⁻¹ * φ x0, fun _ x hx => ?_⟩
      have hc := hconn p hp x0 x hx0 hx
      clear hx
      induction hc with
      | refl => rw [mul_inv_cancel_left]
      | @tail y z _ he ih =>
        have e1 := hφ y z (fixed_patch.mpr (fixedBy_label.mp he).1)
        rw [hfix p y z he] at e1
        have e2 : φ z = φ y * ((φ y)⁻¹ * φ z) := by rw [mul_inv_cancel_left]
        rw [e2, ← e1, ih, mul_comm (Φ p y), mul_assoc, mul_inv_cancel_left, mul_comm]
    · exact ⟨1, fun hp x hx => absurd ⟨hp, x, hx⟩ h⟩
  choose c hc using hex
  exact ⟨φ, c, fun p hp x hx => hc p hp x hx⟩

theorem forest_mono {S T : Set (ℕ × ℕ)} (h : S ⊆ T) (hT : Forest T) : Forest S := by
  intro M _ f hf
  obtain ⟨φ, hφ⟩ := hT M f hf
  exact ⟨φ, fun i j hij => hφ i j (h hij)⟩

/-- A forest: the number of links and components is the number of nodes. -/
theorem count_of_forest (k : ℕ) : ∀ l : List (ℕ × ℕ), l.Nodup → (∀ e ∈ l, e.1 < e.2 ∧ e.2 < k) → Forest (both l) →
    l.length + (smallest k l).card = k := by
  classical
  intro l
  induction l with
  | nil => intro _ _ _; rw [smallest_nil]; simp
  | cons e l ih =>
    obtain ⟨a, b⟩ := e
    intro hn hl hF
    rw [List.nodup_cons] at hn
    obtain ⟨hab, hbk⟩ := hl (a, b) (by simp)
    simp only at hab hbk
    have hsub : both l ⊆ both ((a, b) :: l) := by
      rintro f (hf | hf)
      · exact .inl (List.mem_cons_of_mem _ hf)
      · exact .inr (List.mem_cons_of_mem _ hf)
    have h1 := ih hn.2 (fun e he => hl e (by simp [he])) (forest_mono hsub hF)
    have hnab : (a, b) ∉ both l := by
      rintro (h | h)
      · exact hn.1 h
      · have := (hl _ (List.mem_cons_of_mem _ h)).1
        simp only [Prod.fst_swap, Prod.snd_swap] at this
        omega
    have hnc : ¬ Conn (both l) a b := by
      intro hc
      let f : ℕ → ℕ → Multiplicative ℤ := fun i j =>
        if i = a ∧ j = b then Multiplicative.ofAdd 1 else if i = b ∧ j = a then (Multiplicative.ofAdd 1)⁻¹ else 1
      have hf : ∀ i j, f j i = (f i j)⁻¹ := by
        intro i j
        simp only [f]
        by_cases h : i = a ∧ j = b
        · have h' : ¬ (j = a ∧ i = b) := by omega
          rw [if_pos h, if_neg h', if_pos h.symm]
        · by_cases h' : i = b ∧ j = a
          · rw [if_neg h, if_pos h', if_pos h'.symm, inv_inv]
          · have h2 : ¬ (j = a ∧ i = b) := by omega
            have h3 : ¬ (j = b ∧ i = a) := by omega
            rw [if_neg h, if_neg h', if_neg h2, if_neg h3, inv_one]
      obtain ⟨φ, hφ⟩ := hF _ f hf
      have hconst : ∀ x, Conn (both l) a x → φ x = φ a := by
        intro x hx
        induction hx with
        | refl => rfl
        | @tail y z _ he ih =>
          have e1 := hφ y z (hsub he)
          have h2 : ¬ (y = a ∧ z = b) := fun h => hnab (by rw [← h.1, ← h.2]; exact he)
          have h3 : ¬ (y = b ∧ z = a) := fun h => hnab (by rw [← h.1, ← h.2]; exact both_symm l _ he)
          simp only [f] at e1
          rw [if_neg h2, if_neg h3, ih] at e1
          exact (eq_of_inv_mul_eq_one e1.symm).symm
      have e1 := hφ a b (.inl (by simp))
      simp only [f, and_self, if_true] at e1
      rw [hconst b hc, inv_mul_cancel] at e1
      exact absurd (congrArg Multiplicative.toAdd e1) (by simp)
    -- the smallest nodes of the components of the ends
    have hmin : ∀ x, ∃ m, Conn (both l) x m ∧ ∀ y < m, ¬ Conn (both l) x y := by
      intro x
      have hx : ∃ m, Conn (both l) x m := ⟨x, .refl⟩
      exact ⟨Nat.find hx, Nat.find_spec hx, fun y hy => Nat.find_min hx hy⟩
    obtain ⟨A, hA1, hA2⟩ := hmin a
    obtain ⟨B, hB1, hB2⟩ := hmin b
    have hsy : ∀ {x y}, Conn (both l) x y → Conn (both l) y x := fun h => conn_symm (both_symm l) h
    have hAa : A ≤ a := by by_contra h; exact hA2 a (by omega) .refl
    have hBb : B ≤ b := by by_contra h; exact hB2 b (by omega) .refl
    have hAB : A ≠ B := by rintro rfl; exact hnc (hA1.trans (hsy hB1))
    have hmA : A ∈ smallest k l := by
      simp only [smallest, Finset.mem_filter, Finset.mem_range]
      exact ⟨by omega, fun j hj h => hA2 j hj (hA1.trans h)⟩
    have hmB : B ∈ smallest k l := by
      simp only [smallest, Finset.mem_filter, Finset.mem_range]
      exact ⟨by omega, fun j hj h => hB2 j hj (hB1.trans h)⟩
    have hcon : Conn (both ((a, b) :: l)) A B :=
      (conn_mono hsub (hsy hA1)).trans (Relation.ReflTransGen.head (show (a, b) ∈ both ((a, b) :: l) from .inl (by simp))
        (conn_mono hsub hB1))
    have hlt : (smallest k ((a, b) :: l)).card < (smallest k l).card := by
      apply Finset.card_lt_card
      rw [Finset.ssubset_iff_of_subset smallest_cons_sub]
      rcases lt_or_gt_of_ne hAB with h | h
      · refine ⟨B, hmB, fun hc => ?_⟩
        simp only [smallest, Finset.mem_filter] at hc
        exact hc.2 A h (conn_symm (both_symm _) hcon)
      · refine ⟨A, hmA, fun hc => ?_⟩
        simp only [smallest, Finset.mem_filter] at hc
        exact hc.2 B h hcon
    have h2 := nodes_le k ((a, b) :: l)
    rw [List.length_cons] at h2 ⊢
    omega

/-- C150, completeness: if the patches are connected and not adjacent, and no site is at the patches of three leads, a system
is accepted if the gauges of its leads can be combined. -/
theorem C150_complete_partial (hs : CompositeOk s) (hsep : Separate s) (hconn : PatchesConnected s) (htri : NoTriple s)
    (hco : Consistent s) : checkComposite s = true := by
  classical
  have hle : ∀ p q, p < s.leads.length → q < s.leads.length → p ≠ q → (shared s p q).length ≤ 1 := by
    intro p q hp hq hpq
    by_contra hc
    obtain ⟨x, y, hxy, hx, hy⟩ : ∃ x y, x ≠ y ∧ x ∈ shared s p q ∧ y ∈ shared s p q := by
      match hsh : shared s p q, hc with
      | [], hc => simp at hc
      | [_], hc => simp at hc
      | x :: y :: l, _ =>
        have hn := shared_nodup s p q
        rw [hsh] at hn
        refine ⟨x, y, ?_, by simp, by simp⟩
        rintro rfl
        simp at hn
    obtain ⟨φ, c, h⟩ := common hs hconn hco (M := Multiplicative ℤ) fun r z =>
      if r = p ∧ z = y then Multiplicative.ofAdd 1 else 1
    rw [mem_shared] at hx hy
    have e1 := h p hp x (reduced_at hs hsep hp hx.1)
    have e2 := h q hq x (reduced_at hs hsep hq hx.2)
    have e3 := h p hp y (reduced_at hs hsep hp hy.1)
    have e4 := h q hq y (reduced_at hs hsep hq hy.2)
    have n1 : ¬ (p = p ∧ x = y) := fun h => hxy h.2
    have n2 : ¬ (q = p ∧ x = y) := fun h => hxy h.2
    have n3 : ¬ (q = p ∧ y = y) := fun h => hpq h.1.symm
    rw [if_neg n1, one_mul] at e1
    rw [if_neg n2, one_mul] at e2
    rw [if_pos ⟨rfl, rfl⟩] at e3
    rw [if_neg n3, one_mul] at e4
    rw [e4, ← e1, e2] at e3
    have := congrArg Multiplicative.toAdd e3
    simp at this
  have hforest : Forest {e | e ∈ leadGraph s} := by
    intro M _ g hg
    obtain ⟨φ, c, h⟩ := common hs hconn hco (M := M) fun p x =>
      if hq : ∃ q, p < q ∧ (p, q) ∈ leadGraph s ∧ x ∈ shared s p q then g p hq.choose else 1
    refine ⟨c, ?_⟩
    have key : ∀ p q, (p, q) ∈ leadGraph s → p < q → g p q = (c p)⁻¹ * c q := by
      intro p q hpq hlt
      obtain ⟨hp, hq, hne, h1⟩ := (mem_leadGraph hs hsep).mp hpq
      simp only at hp hq hne h1
      obtain ⟨x, hx⟩ := List.length_eq_one_iff.mp h1
      have hxs : x ∈ shared s p q := by rw [hx]; simp
      have hxp := reduced_at hs hsep hp (mem_shared.mp hxs).1
      have hxq := reduced_at hs hsep hq (mem_shared.mp hxs).2
      have e1 := h p hp x hxp
      have e2 := h q hq x hxq
      have hex : ∃ q, p < q ∧ (p, q) ∈ leadGraph s ∧ x ∈ shared s p q := ⟨q, hlt, hpq, hxs⟩
      have hch : hex.choose = q := by
        obtain ⟨h2, h3, h4⟩ := hex.choose_spec
        have h5 := reduced_at hs hsep ((mem_leadGraph hs hsep).mp h3).2.1 (mem_shared.mp h4).2
        rcases htri p q _ x hxp hxq h5 with h6 | h6 | h6
        · omega
        · omega
        · exact h6.symm
      have hnex : ¬ ∃ r, q < r ∧ (q, r) ∈ leadGraph s ∧ x ∈ shared s q r := by
        rintro ⟨r, h2, h3, h4⟩
        have h5 := reduced_at hs hsep ((mem_leadGraph hs hsep).mp h3).2.1 (mem_shared.mp h4).2
        rcases htri p q r x hxp hxq h5 with h6 | h6 | h6 <;> omega
      rw [dif_pos hex, hch] at e1
      rw [dif_neg hnex, one_mul] at e2
      rw [← e2, e1, mul_comm (g p q), inv_mul_cancel_left]
    intro p q hpq
    have hpq : (p, q) ∈ leadGraph s := hpq
    rcases lt_or_gt_of_ne ((mem_leadGraph hs hsep).mp hpq).2.2.1 with hlt | hlt
    · exact key p q hpq hlt
    · have := key q p (leadGraph_symm hs hsep hpq) hlt
      rw [hg q p, this, mul_inv, inv_inv, mul_comm]
  unfold checkComposite
  rw [if_neg]
  · obtain ⟨h1, h2, h3⟩ := half_length (l := leadGraph s) ((nodup_leadPairs _).filter _)
      (fun e he => leadGraph_symm hs hsep he) (fun e he => ((mem_leadGraph hs hsep).mp he).2.2.1)
    have h4 : smallest s.leads.length (leadGraph s) = smallest s.leads.length ((leadGraph s).filter fun e => e.1 < e.2) := by
      unfold smallest; rw [h3, h2]
    have h5 := count_of_forest s.leads.length ((leadGraph s).filter fun e => e.1 < e.2)
      (((nodup_leadPairs _).filter _).filter _) (by
        intro e he
        simp only [List.mem_filter, decide_eq_true_eq] at he
        exact ⟨he.2, ((mem_leadGraph hs hsep).mp he.1).2.1⟩) (by rw [h2]; exact hforest)
    rw [beq_iff_eq, numComponents_eq, h4]
    omega
  · rintro ⟨e, he, hgt⟩
    obtain ⟨h1, h2, h3⟩ := mem_leadPairs.mp he
    rw [overlap_eq hs hsep h1 h2] at hgt
    have := hle e.1 e.2 h1 h2 h3
    omega

end

end Kwant.Gauge
