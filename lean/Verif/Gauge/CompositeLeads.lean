import Verif.Gauge.CompositeTree

/-!
# The magnetic gauge of a system with leads: the check of the leads
-/
set_option linter.unusedSectionVars false

namespace Kwant.Gauge
open Kwant.Dijkstra Complex

/-! ## Counting components -/

/-- Links in both directions. -/
def both (l : List (ℕ × ℕ)) : Set (ℕ × ℕ) := {e | e ∈ l ∨ e.swap ∈ l}

theorem both_symm (l : List (ℕ × ℕ)) : ∀ e ∈ both l, e.swap ∈ both l := by
  rintro e (h | h)
  · exact .inr (by simpa using h)
  · exact .inl h

/-- Connections after a link is added. -/
theorem conn_cons {a b : ℕ} {l : List (ℕ × ℕ)} {i j : ℕ} (h : Conn (both ((a, b) :: l)) i j) :
    Conn (both l) i j ∨ (Conn (both l) i a ∧ Conn (both l) b j) ∨ (Conn (both l) i b ∧ Conn (both l) a j) := by
  induction h with
  | refl => exact .inl .refl
  | @tail j k _ he ih =>
    have he' : (j, k) ∈ both l ∨ (j = a ∧ k = b) ∨ (j = b ∧ k = a) := by
      rcases he with h | h
      · rcases List.mem_cons.mp h with h | h
        · exact .inr (.inl (Prod.mk.inj h))
        · exact .inl (.inl h)
      · rcases List.mem_cons.mp h with h | h
        · exact .inr (.inr ⟨(Prod.mk.inj h).2, (Prod.mk.inj h).1⟩)
        · exact .inl (.inr h)
    rcases he' with he' | ⟨rfl, rfl⟩ | ⟨rfl, rfl⟩
    · rcases ih with h | ⟨h1, h2⟩ | ⟨h1, h2⟩
      · exact .inl (h.tail he')
      · exact .inr (.inl ⟨h1, h2.tail he'⟩)
      · exact .inr (.inr ⟨h1, h2.tail he'⟩)
    · rcases ih with h | ⟨h1, h2⟩ | ⟨h1, h2⟩
      · exact .inr (.inl ⟨h, .refl⟩)
      · exact .inr (.inl ⟨h1, .refl⟩)
      · exact .inl h1
    · rcases ih with h | ⟨h1, h2⟩ | ⟨h1, h2⟩
      · exact .inr (.inr ⟨h, .refl⟩)
      · exact .inl h1
      · exact .inr (.inr ⟨h1, .refl⟩)

open Classical in
/-- The smallest nodes of the components. -/
noncomputable def smallest (k : ℕ) (l : List (ℕ × ℕ)) : Finset ℕ :=
  (Finset.range k).filter fun i => ∀ j < i, ¬ Conn (both l) i j

theorem numComponents_eq (k : ℕ) (l : List (ℕ × ℕ)) : numComponents k l = (smallest k l).card := by
  classical
  unfold numComponents smallest
  rw [← List.toFinset_card_of_nodup (List.Nodup.filter _ List.nodup_range)]
  congr 1
  ext i
  simp only [List.mem_toFinset, List.mem_filter, List.mem_range, decide_eq_true_eq, both]
  constructor
  · exact fun h => Finset.mem_filter.mpr ⟨Finset.mem_range.mpr h.1, h.2⟩
  · exact fun h => ⟨Finset.mem_range.mp (Finset.mem_filter.mp h).1, (Finset.mem_filter.mp h).2⟩

theorem smallest_cons_sub {k : ℕ} {e : ℕ × ℕ} {l : List (ℕ × ℕ)} : smallest k (e :: l) ⊆ smallest k l := by
  classical
  intro i hi
  simp only [smallest, Finset.mem_filter] at hi ⊢
  refine ⟨hi.1, fun j hj h => hi.2 j hj (conn_mono ?_ h)⟩
  rintro f (hf | hf)
  · exact .inl (List.mem_cons_of_mem _ hf)
  · exact .inr (List.mem_cons_of_mem _ hf)

/-- Adding a link removes at most one component. -/
theorem smallest_cons {k : ℕ} {a b : ℕ} {l : List (ℕ × ℕ)} : (smallest k l).card ≤ (smallest k ((a, b) :: l)).card + 1 := by
  classical
  -- two different nodes are not removed at once
  have key : ∀ i ∈ smallest k l, ∀ j ∈ smallest k l, i < j → i ∈ smallest k ((a, b) :: l) ∨ j ∈ smallest k ((a, b) :: l) := by
    intro i hi j hj hij
    by_contra hc
    rw [not_or] at hc
    simp only [smallest, Finset.mem_filter, not_and, not_forall, not_not] at hi hj hc
    obtain ⟨i', hi', hci⟩ := hc.1 hi.1
    obtain ⟨j', hj', hcj⟩ := hc.2 hj.1
    have hi2 := hi.2 i' hi'
    have hj2 := hj.2 j' hj'
    have hsym : ∀ {x y}, Conn (both l) x y → Conn (both l) y x := fun h => conn_symm (both_symm l) h
    rcases conn_cons hci with h | ⟨h1, h2⟩ | ⟨h1, h2⟩
    · exact hi2 h
    · rcases conn_cons hcj with h | ⟨h3, h4⟩ | ⟨h3, h4⟩
      · exact hj2 h
      · exact hj.2 i hij (h3.trans (hsym h1))
      · exact hj.2 i' (by omega) (h3.trans h2)
    · rcases conn_cons hcj with h | ⟨h3, h4⟩ | ⟨h3, h4⟩
      · exact hj2 h
      · exact hj.2 i' (by omega) (h3.trans h2)
      · exact hj.2 i hij (h3.trans (hsym h1))
  have h1 : (smallest k l \ smallest k ((a, b) :: l)).card ≤ 1 := by
    rw [Finset.card_le_one]
    intro i hi j hj
    rw [Finset.mem_sdiff] at hi hj
    rcases lt_trichotomy i j with h | h | h
    · rcases key i hi.1 j hj.1 h with h | h
      · exact absurd h hi.2
      · exact absurd h hj.2
    · exact h
    · rcases key j hj.1 i hi.1 h with h | h
      · exact absurd h hj.2
      · exact absurd h hi.2
  have h2 := Finset.card_sdiff_add_card_eq_card (smallest_cons_sub (k := k) (e := (a, b)) (l := l))
  omega

theorem smallest_nil (k : ℕ) : (smallest k []).card = k := by
  classical
  have : smallest k [] = Finset.range k := by
    unfold smallest
    rw [Finset.filter_eq_self]
    intro i _ j hj h
    have : ∀ x, Conn (both []) i x → x = i := by
      intro x h
      induction h with
      | refl => rfl
      | tail _ he _ => rcases he with he | he <;> cases he
    have := this j h
    omega
  rw [this, Finset.card_range]

/-- The number of links and components is at least the number of nodes. -/
theorem nodes_le (k : ℕ) : ∀ l : List (ℕ × ℕ), k ≤ l.length + (smallest k l).card := by
  intro l
  induction l with
  | nil => rw [smallest_nil]; simp
  | cons e l ih =>
    obtain ⟨a, b⟩ := e
    have := smallest_cons (k := k) (a := a) (b := b) (l := l)
    rw [List.length_cons]
    omega

/-- A link between different components does not close a loop. -/
theorem forest_cons {l : List (ℕ × ℕ)} {a b : ℕ} (hF : Forest (both l)) (hnc : ¬ Conn (both l) a b) :
    Forest (both ((a, b) :: l)) := by
  classical
  intro M _ f hf
  obtain ⟨φ, hφ⟩ := hF M f hf
  refine ⟨fun x => if Conn (both l) b x then φ x * (φ b)⁻¹ * φ a * f a b else φ x, ?_⟩
  have hl : ∀ i j, (i, j) ∈ both l → f i j = (if Conn (both l) b i then φ i * (φ b)⁻¹ * φ a * f a b else φ i)⁻¹ *
      (if Conn (both l) b j then φ j * (φ b)⁻¹ * φ a * f a b else φ j) := by
    intro i j hij
    have hiff : Conn (both l) b i ↔ Conn (both l) b j :=
      ⟨fun h => h.tail hij, fun h => h.tail (both_symm l _ hij)⟩
    by_cases hb : Conn (both l) b i
    · rw [if_pos hb, if_pos (hiff.mp hb), hφ i j hij]
      simp only [mul_inv, inv_inv]
      rw [show (φ i)⁻¹ * φ b * (φ a)⁻¹ * (f a b)⁻¹ * (φ j * (φ b)⁻¹ * φ a * f a b) =
        (φ i)⁻¹ * φ j * (φ b * (φ b)⁻¹) * ((φ a)⁻¹ * φ a) * ((f a b)⁻¹ * f a b) by
          simp only [mul_assoc, mul_left_comm, mul_comm]]
      simp
    · rw [if_neg hb, if_neg (fun h => hb (hiff.mpr h))]
      exact hφ i j hij
  have hna : ¬ Conn (both l) b a := fun h => hnc (conn_symm (both_symm l) h)
  have hnew : f a b = (if Conn (both l) b a then φ a * (φ b)⁻¹ * φ a * f a b else φ a)⁻¹ *
      (if Conn (both l) b b then φ b * (φ b)⁻¹ * φ a * f a b else φ b) := by
    rw [if_neg hna, if_pos .refl, mul_inv_cancel, one_mul, inv_mul_cancel_left]
  rintro i j (h | h)
  · rcases List.mem_cons.mp h with h | h
    · obtain ⟨rfl, rfl⟩ := Prod.mk.inj h
      exact hnew
    · exact hl i j (.inl h)
  · rcases List.mem_cons.mp h with h | h
    · obtain ⟨rfl, rfl⟩ := Prod.mk.inj h
      have h3 := congrArg (fun x => x⁻¹) hnew
      simp only [mul_inv_rev (_)⁻¹, inv_inv] at h3
      exact (hf j i).trans h3
    · exact hl i j (.inr h)

/-- If it is equal to the number of nodes, there are no closed loops. -/
theorem forest_of_count (k : ℕ) : ∀ l : List (ℕ × ℕ), l.length + (smallest k l).card = k → Forest (both l) := by
  classical
  intro l
  induction l with
  | nil =>
    intro _ M _ f _
    refine ⟨fun _ => 1, ?_⟩
    rintro i j (h | h) <;> cases h
  | cons e l ih =>
    obtain ⟨a, b⟩ := e
    intro hc
    have h1 := smallest_cons (k := k) (a := a) (b := b) (l := l)
    have h2 := nodes_le k l
    rw [List.length_cons] at hc
    have hlt : (smallest k ((a, b) :: l)).card < (smallest k l).card := by omega
    have hnc : ¬ Conn (both l) a b := by
      intro hab
      have : smallest k l ⊆ smallest k ((a, b) :: l) := by
        intro i hi
        simp only [smallest, Finset.mem_filter] at hi ⊢
        refine ⟨hi.1, fun j hj h => hi.2 j hj ?_⟩
        rcases conn_cons h with h | ⟨h1, h2⟩ | ⟨h1, h2⟩
        · exact h
        · exact h1.trans (hab.trans h2)
        · exact h1.trans ((conn_symm (both_symm l) hab).trans h2)
      have := Finset.card_le_card this
      omega
    exact forest_cons (ih (by omega)) hnc

/-! ## The patches of the leads -/

section
variable {s : CSyst}

/-- The lead that fixes the phase of a link of the patches. -/
def label (s : CSyst) (i j : ℕ) : ℕ := (max (s.patch i) (s.patch j)).toNat

theorem patch_nat (s : CSyst) {i : ℕ} (h : i < s.size) (hp : s.patch i ≠ -1) :
    ∃ p < s.leads.length, s.patch i = (p : ℕ) := by
  have h1 := patch_ge s i
  obtain ⟨p, hp'⟩ := Int.eq_ofNat_of_zero_le (show 0 ≤ s.patch i by omega)
  by_cases hi : i < s.n
  · exact ⟨p, (patch_padding s hi hp').1, hp'⟩
  · obtain ⟨q, hq, h2, h3⟩ := exists_lead s (not_lt.mp hi) h
    exact ⟨q, hq, patch_cell s hq h2 h3⟩

theorem patch_eq_padding (hs : CompositeOk s) {p i : ℕ} (hp : p < s.leads.length) (h : i ∈ (s.lead p).padding) :
    s.patch i = p := by
  have hi := hs.padding_lt p hp i h
  have h1 := patch_of_padding s hi hp h
  have h2 := patch_ge s i
  obtain ⟨q, hq⟩ := Int.eq_ofNat_of_zero_le (show 0 ≤ s.patch i by omega)
  obtain ⟨h3, h4⟩ := patch_padding s hi hq
  by_contra hne
  exact hs.padding_disjoint p hp q h3 (by rintro rfl; exact hne hq) i h h4

/-- Sites of the reduced scattering region next to a patch are in the reduced interface of the lead. -/
theorem interface_of_link (hs : CompositeOk s) {x y p : ℕ} (h : (x, y) ∈ s.extended) (hx : s.patch x = -1)
    (hy : s.patch y = p) : x ∈ reducedInterface s.links (s.lead p) := by
  have hxp : ∀ q < s.leads.length, x ∉ (s.lead q).padding := by
    intro q hq hc
    have := patch_eq_padding hs hq hc
    omega
  unfold reducedInterface
  rcases (mem_extended hs).mp h with h | ⟨q, hq, f, hf, he⟩
  · have hyn : y < s.n := hs.links.lt _ (hs.links.symm _ h)
    obtain ⟨hp, hyp⟩ := patch_padding s hyn hy
    rw [if_neg (by rintro h0; rw [h0] at hyp; cases hyp)]
    refine List.mem_append.mpr (.inr (List.mem_map.mpr ⟨(y, x), ?_, rfl⟩))
    simp only [List.mem_filter, decide_eq_true_eq]
    exact ⟨hs.links.symm _ h, hyp, hxp p hp⟩
  · obtain ⟨e1, e2⟩ := Prod.mk.inj he
    rcases added_cell hs hq hf with ⟨_, h1, h2⟩ | ⟨_, h1, h2⟩
    · rw [← e1] at h1 h2
      have := patch_cell s hq h1 h2
      omega
    · rw [← e2] at h1 h2
      have h3 := patch_cell s hq h1 h2
      obtain rfl : q = p := by omega
      have h4 : x ∈ (s.lead q).interface := by
        by_cases hc : f.1 < (s.lead q).c
        · have h5 := mapEnd_lt hs hq hc
          have h6 := start_succ s hq
          have := patch_cell s hq (i := x) (by omega) (by omega)
          omega
        · rw [e1]
          exact (mapEnd_interface hs hq (not_lt.mp hc) (lead_lt hs hq hf).1).1
      split_ifs
      · exact h4
      · refine List.mem_append.mpr (.inl ?_)
        simp only [List.mem_filter, decide_eq_true_eq]
        exact ⟨h4, hxp q hq⟩

/-- Each interface site is linked to the added cell. -/
theorem interface_link (hs : CompositeOk s) {x p : ℕ} (hp : p < s.leads.length) (h : x ∈ (s.lead p).interface) :
    ∃ y, (x, y) ∈ s.extended ∧ s.patch y = p := by
  obtain ⟨k, hk, rfl⟩ := List.mem_iff_getElem.mp h
  obtain ⟨i, hi⟩ := hs.interface_hop p hp k hk
  have hic : i < (s.lead p).c := by
    rcases (hs.lead_links p hp).cell _ hi with h | h
    · exact h
    · simp only at h; omega
  have h1 := mapEnd_lt hs hp hic
  have h2 := start_succ s hp
  refine ⟨mapEnd (s.start p) (s.lead p) i, ?_, patch_cell s hp (by omega) (by omega)⟩
  rw [mem_extended hs]
  refine .inr ⟨p, hp, (_, i), (hs.lead_links p hp).symm _ hi, ?_⟩
  refine Prod.ext ?_ rfl
  show (s.lead p).interface[k] = mapEnd (s.start p) (s.lead p) ((s.lead p).c + k)
  have hc : ¬ (s.lead p).c + k < (s.lead p).c := by omega
  rw [mapEnd, if_neg hc, List.getD_eq_getElem?_getD]
  simp [hk]

/-- If the patches are separate, the reduced interfaces are outside of the patches. -/
theorem patch_interface (hs : CompositeOk s) (hsep : Separate s) {x p : ℕ} (hp : p < s.leads.length)
    (h : x ∈ reducedInterface s.links (s.lead p)) : s.patch x = -1 := by
  by_contra hx
  have key : s.patch x = p → x ∈ (s.lead p).padding ∨ ¬ x < s.n := by
    intro h1
    by_cases hn : x < s.n
    · exact .inl (patch_padding s hn h1).2
    · exact .inr hn
  unfold reducedInterface at h
  have hface : x ∈ (s.lead p).interface → s.patch x = p := by
    intro h
    obtain ⟨y, h1, h2⟩ := interface_link hs hp h
    have := hsep _ h1 hx (by simp only [h2]; omega)
    simp only at this
    rw [this, h2]
  split_ifs at h with h0
  · rcases key (hface h) with h1 | h1
    · rw [h0] at h1; cases h1
    · exact h1 (hs.interface_lt p hp _ h)
  · rcases List.mem_append.mp h with h | h
    · simp only [List.mem_filter, decide_eq_true_eq] at h
      rcases key (hface h.1) with h1 | h1
      · exact h.2 h1
      · exact h1 (hs.interface_lt p hp _ h.1)
    · obtain ⟨e, he, rfl⟩ := List.mem_map.mp h
      simp only [List.mem_filter, decide_eq_true_eq] at he
      have h1 := patch_eq_padding hs hp he.2.1
      have h2 := hsep e ((mem_extended hs).mpr (.inl he.1)) (by omega) hx
      rcases key (by rw [← h2, h1]) with h3 | h3
      · exact he.2.2 h3
      · exact h3 (hs.links.lt _ (hs.links.symm _ he.1))

/-- The sites that two reduced interfaces share. -/
def shared (s : CSyst) (p q : ℕ) : List ℕ :=
  (reducedInterface s.links (s.lead p)).dedup.filter fun x => x ∈ reducedInterface s.links (s.lead q)

theorem overlap_eq (hs : CompositeOk s) (hsep : Separate s) {p q : ℕ} (hp : p < s.leads.length) (hq : q < s.leads.length) :
    overlap s.links (s.lead p) (s.lead q) = (shared s p q).length := by
  unfold overlap shared
  congr 1
  apply List.filter_congr
  intro x hx
  rw [decide_eq_decide]
  constructor
  · rintro (h | h)
    · exact h
    · have h1 := patch_interface hs hsep hp (List.mem_dedup.mp hx)
      have h2 := patch_eq_padding hs hq h
      omega
  · exact .inl

theorem mem_shared {p q x : ℕ} : x ∈ shared s p q ↔ x ∈ reducedInterface s.links (s.lead p) ∧
    x ∈ reducedInterface s.links (s.lead q) := by
  simp [shared]

theorem shared_nodup (s : CSyst) (p q : ℕ) : (shared s p q).Nodup := List.Nodup.filter _ (List.nodup_dedup _)

theorem shared_length (s : CSyst) (p q : ℕ) : (shared s p q).length = (shared s q p).length := by
  apply List.Perm.length_eq
  rw [List.perm_ext_iff_of_nodup (shared_nodup s p q) (shared_nodup s q p)]
  intro x
  rw [mem_shared, mem_shared, and_comm]

theorem mem_leadPairs {k : ℕ} {e : ℕ × ℕ} : e ∈ leadPairs k ↔ e.1 < k ∧ e.2 < k ∧ e.1 ≠ e.2 := by
  unfold leadPairs
  simp only [List.mem_flatMap, List.mem_range, List.mem_map, List.mem_filter, decide_eq_true_eq]
  constructor
  · rintro ⟨i, hi, j, ⟨hj, hij⟩, rfl⟩; exact ⟨hi, hj, hij⟩
  · rintro ⟨h1, h2, h3⟩; exact ⟨e.1, h1, e.2, ⟨h2, h3⟩, rfl⟩

theorem nodup_leadPairs (k : ℕ) : (leadPairs k).Nodup := by
  unfold leadPairs
  rw [List.nodup_flatMap]
  constructor
  · intro i _
    refine List.Nodup.map (fun a b h => (Prod.mk.inj h).2) (List.Nodup.filter _ List.nodup_range)
  · refine List.Pairwise.imp ?_ List.nodup_range
    intro i j hij
    rw [Function.onFun, List.disjoint_left]
    intro e h1 h2
    obtain ⟨a, _, rfl⟩ := List.mem_map.mp h1
    obtain ⟨b, _, h⟩ := List.mem_map.mp h2
    exact hij (Prod.mk.inj h).1.symm

theorem mem_leadGraph (hs : CompositeOk s) (hsep : Separate s) {e : ℕ × ℕ} : e ∈ leadGraph s ↔
    e.1 < s.leads.length ∧ e.2 < s.leads.length ∧ e.1 ≠ e.2 ∧ (shared s e.1 e.2).length = 1 := by
  unfold leadGraph
  simp only [List.mem_filter, mem_leadPairs, decide_eq_true_eq]
  constructor
  · rintro ⟨⟨h1, h2, h3⟩, h4⟩; exact ⟨h1, h2, h3, by rw [← overlap_eq hs hsep h1 h2]; exact h4⟩
  · rintro ⟨h1, h2, h3, h4⟩; exact ⟨⟨h1, h2, h3⟩, by rw [overlap_eq hs hsep h1 h2]; exact h4⟩

theorem leadGraph_symm (hs : CompositeOk s) (hsep : Separate s) {e : ℕ × ℕ} (h : e ∈ leadGraph s) : e.swap ∈ leadGraph s := by
  rw [mem_leadGraph hs hsep] at h ⊢
  obtain ⟨h1, h2, h3, h4⟩ := h
  exact ⟨h2, h1, h3.symm, by rw [shared_length]; exact h4⟩

/-- A symmetric list of links: half of it has the same connections. -/
theorem half_length {l : List (ℕ × ℕ)} (hn : l.Nodup) (hsy : ∀ e ∈ l, e.swap ∈ l) (hir : ∀ e ∈ l, e.1 ≠ e.2) :
    l.length = 2 * (l.filter fun e => e.1 < e.2).length ∧ both (l.filter fun e => e.1 < e.2) = {e | e ∈ l} ∧ both l = {e | e ∈ l} := by
  refine ⟨?_, ?_, ?_⟩
  · have h1 : (l.filter fun e => !decide (e.1 < e.2)).Perm ((l.filter fun e => e.1 < e.2).map Prod.swap) := by
      rw [List.perm_ext_iff_of_nodup (hn.filter _) (List.Nodup.map Prod.swap_injective (hn.filter _))]
      intro e
      simp only [List.mem_filter, List.mem_map, Bool.not_eq_true', decide_eq_false_iff_not, decide_eq_true_eq]
      constructor
      · rintro ⟨h1, h2⟩
        have := hir e h1
        exact ⟨e.swap, ⟨hsy e h1, by simp only [Prod.fst_swap, Prod.snd_swap]; omega⟩, Prod.swap_swap e⟩
      · rintro ⟨f, ⟨h1, h2⟩, rfl⟩
        exact ⟨hsy f h1, by simp only [Prod.fst_swap, Prod.snd_swap]; omega⟩
    have h2 := (List.filter_append_perm (fun e : ℕ × ℕ => decide (e.1 < e.2)) l).length_eq
    have h3 := h1.length_eq
    rw [List.length_append] at h2
    rw [List.length_map] at h3
    omega
  · ext e
    simp only [both, Set.mem_ofPred_eq, List.mem_filter, decide_eq_true_eq]
    constructor
    · rintro (⟨h, _⟩ | ⟨h, _⟩)
      · exact h
      · simpa using hsy _ h
    · intro h
      have := hir e h
      rcases lt_or_ge e.1 e.2 with h' | h'
      · exact .inl ⟨h, h'⟩
      · exact .inr ⟨hsy e h, by simp only [Prod.fst_swap, Prod.snd_swap]; omega⟩
  · ext e
    simp only [both, Set.mem_ofPred_eq]
    exact ⟨fun h => h.elim id fun h => by simpa using hsy _ h, .inl⟩

/-- If the check of the system succeeds, the graph of the leads has no closed loops. -/
theorem leadGraph_forest (hs : CompositeOk s) (hsep : Separate s) (hck : checkComposite s = true) :
    Forest {e | e ∈ leadGraph s} := by
  obtain ⟨h1, h2, h3⟩ := half_length (l := leadGraph s) ((nodup_leadPairs _).filter _)
    (fun e he => leadGraph_symm hs hsep he) (fun e he => ((mem_leadGraph hs hsep).mp he).2.2.1)
  rw [← h2]
  apply forest_of_count s.leads.length
  unfold checkComposite at hck
  split_ifs at hck
  rw [beq_iff_eq, numComponents_eq] at hck
  have h4 : smallest s.leads.length (leadGraph s) = smallest s.leads.length ((leadGraph s).filter fun e => e.1 < e.2) := by
    unfold smallest; rw [h3, h2]
  rw [← h4]
  omega

/-- If the check succeeds, two reduced interfaces share at most one site. -/
theorem shared_le (hs : CompositeOk s) (hsep : Separate s) (hck : checkComposite s = true) {p q : ℕ}
    (hp : p < s.leads.length) (hq : q < s.leads.length) (hpq : p ≠ q) : (shared s p q).length ≤ 1 := by
  unfold checkComposite at hck
  split_ifs at hck with h
  by_contra hc
  exact h ⟨(p, q), mem_leadPairs.mpr ⟨hp, hq, hpq⟩, by
    show overlap s.links (s.lead p) (s.lead q) > 1
    rw [overlap_eq hs hsep hp hq]; omega⟩

/-- The site is at a link of the patch. -/
def Touch (s : CSyst) (p x : ℕ) : Prop := ∃ y, (x, y) ∈ patchLinks s.entries s.patch ∧ label s x y = p

theorem touch_cases (hs : CompositeOk s) (hsep : Separate s) {p x : ℕ} (h : Touch s p x) : p < s.leads.length ∧
    (s.patch x = p ∨ (s.patch x = -1 ∧ x ∈ reducedInterface s.links (s.lead p))) := by
  obtain ⟨y, ⟨hm, hxy⟩, rfl⟩ := h
  have hxl : x < s.size := (extended_links hs).lt _ hm
  have hyl : y < s.size := (extended_links hs).lt _ ((extended_links hs).symm _ hm)
  simp only [gt_iff] at hxy
  unfold label
  by_cases hx : s.patch x = -1
  · have hy : s.patch y ≠ -1 := by rcases hxy with h | h; exacts [absurd hx h, h]
    obtain ⟨p, hp, hpy⟩ := patch_nat s hyl hy
    have : (max (s.patch x) (s.patch y)).toNat = p := by rw [hx, hpy]; omega
    rw [this]
    exact ⟨hp, .inr ⟨hx, interface_of_link hs hm hx hpy⟩⟩
  · obtain ⟨p, hp, hpx⟩ := patch_nat s hxl hx
    have : (max (s.patch x) (s.patch y)).toNat = p := by
      by_cases hy : s.patch y = -1
      · rw [hpx, hy]; omega
      · have := hsep _ hm hx hy
        simp only at this
        rw [← this, hpx]; omega
    rw [this]
    exact ⟨hp, .inl hpx⟩

/-- Two patches share a site only if it is a shared interface site. -/
theorem touch_shared (hs : CompositeOk s) (hsep : Separate s) (hck : checkComposite s = true) {p q x : ℕ}
    (hp : Touch s p x) (hq : Touch s q x) (hpq : p ≠ q) : (p, q) ∈ leadGraph s ∧ shared s p q = [x] := by
  obtain ⟨hpl, h1⟩ := touch_cases hs hsep hp
  obtain ⟨hql, h2⟩ := touch_cases hs hsep hq
  have hx : x ∈ shared s p q := by
    rw [mem_shared]
    rcases h1 with h1 | ⟨h1, h3⟩
    · rcases h2 with h2 | ⟨h2, _⟩ <;> omega
    · rcases h2 with h2 | ⟨_, h4⟩
      · omega
      · exact ⟨h3, h4⟩
  have hle := shared_le hs hsep hck hpl hql hpq
  obtain ⟨y, hy⟩ : ∃ y, shared s p q = [y] := by
    apply List.length_eq_one_iff.mp
    have := List.length_pos_of_mem hx
    omega
  rw [hy] at hx
  obtain rfl : x = y := by simpa using hx
  exact ⟨(mem_leadGraph hs hsep).mpr ⟨hpl, hql, hpq, by rw [hy]; rfl⟩, hy⟩

/-- If the check succeeds, phases that are gradients in each patch are gradients on all patches together. -/
theorem patches_gradient (hs : CompositeOk s) (hsep : Separate s) (hck : checkComposite s = true) {M : Type} [CommGroup M]
    (f : ℕ → ℕ → M)
    (h : ∀ p < s.leads.length, ∃ φ : ℕ → M, ∀ i j, (i, j) ∈ patchLinks s.entries s.patch → label s i j = p →
      f i j = (φ i)⁻¹ * φ j) :
    ∃ φ : ℕ → M, ∀ i j, (i, j) ∈ patchLinks s.entries s.patch → f i j = (φ i)⁻¹ * φ j := by
  classical
  have h' : ∀ p, ∃ φ : ℕ → M, p < s.leads.length → ∀ i j, (i, j) ∈ patchLinks s.entries s.patch → label s i j = p →
      f i j = (φ i)⁻¹ * φ j := by
    intro p
    by_cases hp : p < s.leads.length
    · obtain ⟨φ, hφ⟩ := h p hp
      exact ⟨φ, fun _ => hφ⟩
    · exact ⟨fun _ => 1, fun h => absurd h hp⟩
  choose φ hφ using h'
  let g : ℕ → ℕ → M := fun p q => if (p, q) ∈ leadGraph s then
    φ p ((shared s p q).headD 0) * (φ q ((shared s p q).headD 0))⁻¹ else 1
  have hhead : ∀ p q, (p, q) ∈ leadGraph s → (shared s q p).headD 0 = (shared s p q).headD 0 := by
    intro p q h
    have h1 := ((mem_leadGraph hs hsep).mp h).2.2.2
    have h2 := ((mem_leadGraph hs hsep).mp (leadGraph_symm hs hsep h)).2.2.2
    obtain ⟨x, hx⟩ := List.length_eq_one_iff.mp h1
    obtain ⟨y, hy⟩ := List.length_eq_one_iff.mp h2
    simp only [Prod.fst_swap, Prod.snd_swap] at hx hy
    have h3 : x ∈ shared s p q := by rw [hx]; simp
    have h4 : x ∈ shared s q p := mem_shared.mpr (mem_shared.mp h3).symm
    rw [hy] at h4
    rw [hx, hy]
    simp at h4
    simp [h4]
  have hg : ∀ p q, g q p = (g p q)⁻¹ := by
    intro p q
    simp only [g]
    by_cases h : (p, q) ∈ leadGraph s
    · have h2 : (q, p) ∈ leadGraph s := leadGraph_symm hs hsep h
      rw [if_pos h, if_pos h2, hhead p q h, mul_inv_rev, inv_inv]
    · have h2 : (q, p) ∉ leadGraph s := fun h' => h (leadGraph_symm hs hsep h')
      rw [if_neg h, if_neg h2, inv_one]
  obtain ⟨γ, hγ⟩ := leadGraph_forest hs hsep hck M g hg
  have hcons : ∀ p q x, Touch s p x → Touch s q x → φ p x * γ p = φ q x * γ q := by
    intro p q x hp hq
    by_cases hpq : p = q
    · rw [hpq]
    · obtain ⟨h1, h2⟩ := touch_shared hs hsep hck hp hq hpq
      have h3 := hγ p q h1
      simp only [g, if_pos h1, h2, List.headD_cons] at h3
      have h4 : φ p x = (γ p)⁻¹ * γ q * φ q x := by rw [← h3, inv_mul_cancel_right]
      rw [h4]
      rw [show (γ p)⁻¹ * γ q * φ q x * γ p = φ q x * γ q * ((γ p)⁻¹ * γ p) by simp only [mul_assoc, mul_left_comm, mul_comm]]
      simp
  let ψ : ℕ → M := fun x => if h : ∃ p, Touch s p x then φ h.choose x * γ h.choose else 1
  have hψ : ∀ p x, Touch s p x → ψ x = φ p x * γ p := by
    intro p x hp
    have hex : ∃ p, Touch s p x := ⟨p, hp⟩
    simp only [ψ, dif_pos hex]
    exact hcons _ _ x hex.choose_spec hp
  refine ⟨ψ, ?_⟩
  intro i j hij
  have h1 : Touch s (label s i j) i := ⟨j, hij, rfl⟩
  have h2 : Touch s (label s i j) j := by
    refine ⟨i, patchLinks_symm (extended_links hs) hij, ?_⟩
    unfold label; rw [max_comm]
  rw [hψ _ i h1, hψ _ j h2, hφ _ (touch_cases hs hsep h1).1 i j hij rfl]
  simp only [mul_inv]
  rw [show (φ (label s i j) i)⁻¹ * (γ (label s i j))⁻¹ * (φ (label s i j) j * γ (label s i j)) =
    (φ (label s i j) i)⁻¹ * φ (label s i j) j * ((γ (label s i j))⁻¹ * γ (label s i j)) by
      simp only [mul_assoc, mul_left_comm, mul_comm]]
  simp

end

end Kwant.Gauge
