import Verif.Gauge.CompositeLeads

/-!
# C149: the magnetic gauge of a system with leads
-/
set_option linter.unusedSectionVars false

namespace Kwant.Gauge
open Kwant.Dijkstra Complex

/-! ## The phases -/

section
variable {s : CSyst} {at_ : ℕ → ℕ → ℤ × ℕ}

/-- The phase of a link when `q` are the phases of the links of the patches. -/
noncomputable def mixed (s : CSyst) (q : ℕ → ℕ → ℂ) (ph : Phases) (i j : ℕ) : ℂ :=
  if s.patch i = -1 ∧ s.patch j = -1 then finiteWrapper ph i j else q i j

/-- The phases `q` on the links of the patches: unit numbers, conjugated by reversal, those of the leads. -/
structure LeadPhases (s : CSyst) (at_ : ℕ → ℕ → ℤ × ℕ) (leadPhases : ℕ → ℤ × ℕ → ℤ × ℕ → Option ℂ) (q : ℕ → ℕ → ℂ) : Prop where
  value : ∀ i j, (i, j) ∈ patchLinks s.entries s.patch →
    leadPhases (label s i j) (extCoord s at_ (label s i j) i) (extCoord s at_ (label s i j) j) = some (q i j)
  norm : ∀ i j, (i, j) ∈ patchLinks s.entries s.patch → ‖q i j‖ = 1
  conj : ∀ i j, (i, j) ∈ patchLinks s.entries s.patch → q j i = (starRingEnd ℂ) (q i j)

variable {leadPhases : ℕ → ℤ × ℕ → ℤ × ℕ → Option ℂ} {q : ℕ → ℕ → ℂ} {S : Set (ℕ × ℕ)} {ph : Phases}

theorem step_eq (hsep : Separate s) (hq : LeadPhases s at_ leadPhases q) (h : PInv S ph) (acc : ℂ) {e : ℕ × ℕ}
    (he : e ∈ s.extended) : stepComposite s at_ leadPhases ph acc e = some (acc * mixed s q ph e.1 e.2) := by
  unfold stepComposite mixed
  simp only
  by_cases h0 : s.patch e.1 = -1 ∧ s.patch e.2 = -1
  · rw [if_pos h0, if_pos h0, mul_div_assoc, wrapper_step h]
  · rw [if_neg h0, if_neg h0]
    have hm : (e.1, e.2) ∈ patchLinks s.entries s.patch := by
      refine ⟨he, ?_⟩
      simp only [gt_iff]
      by_contra hc
      rw [not_or, not_not, not_not] at hc
      exact h0 hc
    have hok : s.patch e.1 * s.patch e.2 ≤ 0 ∨ s.patch e.1 = s.patch e.2 := by
      have h1 := patch_ge s e.1
      have h2 := patch_ge s e.2
      by_cases h3 : s.patch e.1 = -1
      · left; rw [h3]
        have : s.patch e.2 ≠ -1 := fun h => h0 ⟨h3, h⟩
        omega
      · by_cases h4 : s.patch e.2 = -1
        · left; rw [h4]; omega
        · right; exact hsep e he h3 h4
    rw [if_pos hok]
    have := hq.value _ _ hm
    unfold label at this
    rw [this]
    rfl

theorem previousC_eq (hsep : Separate s) (hq : LeadPhases s at_ leadPhases q) (h : PInv S ph) (path : List ℕ)
    (hp : ∀ e ∈ path.zip path.tail, e ∈ s.extended) : previousPhaseComposite s at_ leadPhases ph path =
      some ((path.zip path.tail).map fun e => mixed s q ph e.1 e.2).prod := by
  unfold previousPhaseComposite
  have key : ∀ (l : List (ℕ × ℕ)) (c : ℂ), (∀ e ∈ l, e ∈ s.extended) →
      l.foldl (fun acc e => acc.bind fun acc => stepComposite s at_ leadPhases ph acc e) (some c) =
        some (c * (l.map fun e => mixed s q ph e.1 e.2).prod) := by
    intro l
    induction l with
    | nil => intro c _; simp
    | cons e l ih =>
      intro c hl
      rw [List.foldl_cons, Option.bind_some, step_eq hsep hq h c (hl e (by simp)), ih _ fun e he => hl e (by simp [he]),
        List.map_cons, List.prod_cons, mul_assoc]
  rw [key _ _ hp, one_mul]

theorem norm_mixed (hq : LeadPhases s at_ leadPhases q) (h : PInv S ph) {e : ℕ × ℕ} (he : e ∈ s.extended) :
    ‖mixed s q ph e.1 e.2‖ = 1 := by
  unfold mixed
  split_ifs with h0
  · exact norm_wrapper h _ _
  · apply hq.norm
    refine ⟨he, ?_⟩
    simp only [gt_iff]
    by_contra hc
    rw [not_or, not_not, not_not] at hc
    exact h0 hc

theorem norm_prod_mixed (hq : LeadPhases s at_ leadPhases q) (h : PInv S ph) (l : List (ℕ × ℕ))
    (hl : ∀ e ∈ l, e ∈ s.extended) : ‖(l.map fun e => mixed s q ph e.1 e.2).prod‖ = 1 := by
  induction l with
  | nil => simp
  | cons e l ih => simp [norm_mixed hq h (hl e (by simp)), ih fun e he => hl e (by simp [he])]

/-- The fold of `_calculate_phases` from given phases. -/
noncomputable def phasesC {V : Type} (s : CSyst) (at_ : ℕ → ℕ → ℤ × ℕ) (leadPhases : ℕ → ℤ × ℕ → ℤ × ℕ → Option ℂ)
    (pos : ℕ → V) (flux : List V → ℝ) (loops : List (List ℕ)) (ph : Option Phases) : Option Phases :=
  loops.foldl (fun st loop => st.bind fun ph => (previousPhaseComposite s at_ leadPhases ph loop).map fun z =>
    Function.update ph (loop.getLastD 0, loop.headD 0)
      (some (Complex.exp (I * Real.pi * flux (loop.map pos)) / z))) ph

theorem phasesC_spec {V : Type} (hs : CompositeOk s) (hsep : Separate s) (hq : LeadPhases s at_ leadPhases q)
    (pos : ℕ → V) (flux : List V → ℝ) :
    ∀ (loops : List (List ℕ)) (S : Set (ℕ × ℕ)) (ph : Phases), PInv S ph → (∀ e ∈ S, e ∈ s.extended) →
      (∀ e ∈ S, e.swap ∈ S) → (∀ e ∈ patchLinks s.entries s.patch, e ∈ S) → Ordered s.extended S loops →
      ∃ ph', phasesC s at_ leadPhases pos flux loops (some ph) = some ph' ∧ (∃ T, PInv T ph') ∧
        (∀ a b, (a, b) ∈ S → mixed s q ph' a b = mixed s q ph a b) ∧
        ∀ loop ∈ loops, around (mixed s q ph') loop = Complex.exp (I * Real.pi * flux (loop.map pos)) := by
  intro loops
  induction loops with
  | nil =>
    intro S ph h _ _ _ _
    exact ⟨ph, rfl, ⟨S, h⟩, fun _ _ _ => rfl, by simp⟩
  | cons path loops ih =>
    intro S ph h hsub hsy hP ho
    obtain ⟨frm, to_, h1, h2, h3, h4, h5, h6, h7⟩ := ho
    obtain ⟨l, rfl⟩ : ∃ l, path = to_ :: l := by
      cases path with
      | nil => cases h1
      | cons a l => exact ⟨l, by simp at h1; rw [h1]⟩
    have hlast : (to_ :: l).getLast (by simp) = frm := by
      rw [List.getLast?_eq_some_getLast (by simp)] at h2
      exact Option.some.inj h2
    have hlastD : (to_ :: l).getLastD 0 = frm := by
      rw [List.getLastD_eq_getLast?, h2]; rfl
    have hne : frm ≠ to_ := (extended_links hs).irrefl _ h3
    have hzip : ∀ e ∈ (to_ :: l).zip l, e ∈ S := chain_zip l to_ h6
    have hzl : ∀ e ∈ (to_ :: l).zip l, e ∈ s.extended := fun e he => hsub e (hzip e he)
    set z := (((to_ :: l).zip l).map fun e => mixed s q ph e.1 e.2).prod with hz
    have hzn : ‖z‖ = 1 := norm_prod_mixed hq h _ hzl
    set p := Complex.exp (I * Real.pi * flux ((to_ :: l).map pos)) / z with hp
    have hpn : ‖p‖ = 1 := by rw [hp, norm_div, norm_exp_flux, hzn, div_one]
    obtain ⟨u1, u2, u3⟩ := pinv_update h hsy h4 hne hpn
    have hsy' : ∀ e ∈ S ∪ {(frm, to_), (to_, frm)}, e.swap ∈ S ∪ {(frm, to_), (to_, frm)} := by
      rintro e (h | rfl | rfl)
      · exact .inl (hsy e h)
      · exact .inr (.inr rfl)
      · exact .inr (.inl rfl)
    have hsub' : ∀ e ∈ S ∪ {(frm, to_), (to_, frm)}, e ∈ s.extended := by
      rintro e (h | rfl | rfl)
      · exact hsub e h
      · exact h3
      · exact (extended_links hs).symm _ h3
    obtain ⟨ph', i0, i1, i2, i3⟩ := ih _ _ u1 hsub' hsy' (fun e he => .inl (hP e he)) h7
    have hE : phasesC s at_ leadPhases pos flux ((to_ :: l) :: loops) (some ph) =
        phasesC s at_ leadPhases pos flux loops (some (Function.update ph (frm, to_) (some p))) := by
      unfold phasesC
      rw [List.foldl_cons, Option.bind_some, previousC_eq hsep hq h _ hzl, Option.map_some, hlastD]
      rfl
    have hmix : ∀ a b, (a, b) ∈ S → mixed s q (Function.update ph (frm, to_) (some p)) a b = mixed s q ph a b := by
      intro a b hab
      unfold mixed
      rw [u2 a b hab]
    refine ⟨ph', hE.trans i0, i1, fun a b hab => (i2 a b (.inl hab)).trans (hmix a b hab), ?_⟩
    intro loop hloop
    rcases List.mem_cons.mp hloop with rfl | hloop
    · unfold around
      rw [circuit_eq, List.map_append, List.prod_append, hlast]
      simp only [List.map_cons, List.map_nil, List.prod_cons, List.prod_nil, mul_one]
      have hnp : s.patch frm = -1 ∧ s.patch to_ = -1 := by
        by_contra hc
        apply h4
        apply hP
        refine ⟨h3, ?_⟩
        simp only [gt_iff]
        by_contra hc'
        rw [not_or, not_not, not_not] at hc'
        exact hc hc'
      have hlink : mixed s q (Function.update ph (frm, to_) (some p)) frm to_ = p := by
        unfold mixed; rw [if_pos hnp, u3]
      rw [i2 frm to_ (.inr (.inl rfl)), hlink]
      have hsteps : (((to_ :: l).zip l).map fun e => mixed s q ph' e.1 e.2) =
          ((to_ :: l).zip l).map fun e => mixed s q ph e.1 e.2 := by
        apply List.map_congr_left
        rintro ⟨a, b⟩ he
        exact (i2 a b (.inl (hzip _ he))).trans (hmix a b (hzip _ he))
      rw [hsteps, ← hz, hp]
      have hz0 : z ≠ 0 := by intro h0; rw [h0] at hzn; simp at hzn
      field_simp
      rfl
    · exact i3 loop hloop

/-! ## The links of the patches in the leads -/

/-- The links of a patch are hoppings of the lead. -/
theorem patch_hop (hs : CompositeOk s) (hsep : Separate s) (hatt : Attached s at_) {i j : ℕ}
    (h : (i, j) ∈ patchLinks s.entries s.patch) :
    label s i j < s.leads.length ∧ Hop (s.lead (label s i j)).links (s.lead (label s i j)).c
      (extCoord s at_ (label s i j) i) (extCoord s at_ (label s i j) j) := by
  have ht := touch_cases hs hsep (p := label s i j) (x := i) ⟨j, h, rfl⟩
  refine ⟨ht.1, ?_⟩
  have hlab : ∀ p : ℕ, s.patch i = p ∨ s.patch j = p → label s i j = p := by
    intro p hp
    unfold label
    by_cases h1 : s.patch i = -1
    · rcases hp with hp | hp
      · omega
      · rw [h1, hp]; omega
    · by_cases h2 : s.patch j = -1
      · rcases hp with hp | hp
        · rw [h2, hp]; omega
        · omega
      · have := hsep _ h.1 h1 h2
        simp only at this
        rcases hp with hp | hp <;> rw [this] at * <;> rw [hp] <;> omega
  rcases (mem_extended hs).mp h.1 with hl | ⟨q, hq, f, hf, he⟩
  · have hi : i < s.n := hs.links.lt _ hl
    have hj : j < s.n := hs.links.lt _ (hs.links.symm _ hl)
    have hcoord : ∀ p x, x < s.n → extCoord s at_ p x = at_ p x := by
      intro p x hx; rw [extCoord, if_neg (by omega)]
    rw [hcoord _ _ hi, hcoord _ _ hj]
    apply hatt.padding _ ht.1 (i, j) hl
    have hor := h.2
    simp only [gt_iff] at hor
    have hsz := n_le_start s s.leads.length
    rcases hor with h1 | h1
    · obtain ⟨p, hp, hpp⟩ := patch_nat s (i := i) (by unfold CSyst.size; omega) h1
      rw [hlab p (.inl hpp)]
      exact .inl (patch_padding s hi hpp).2
    · obtain ⟨p, hp, hpp⟩ := patch_nat s (i := j) (by unfold CSyst.size; omega) h1
      rw [hlab p (.inr hpp)]
      exact .inr (patch_padding s hj hpp).2
  · obtain ⟨e1, e2⟩ := Prod.mk.inj he
    have hpq : label s i j = q := by
      apply hlab
      rcases added_cell hs hq hf with ⟨_, h1, h2⟩ | ⟨_, h1, h2⟩
      · exact .inl (by rw [e1]; exact patch_cell s hq h1 h2)
      · exact .inr (by rw [e2]; exact patch_cell s hq h1 h2)
    rw [hpq]
    set d := (at_ q ((s.lead q).interface.headD 0)).1 with hd
    have hsucc := start_succ s hq
    have hn := n_le_start s q
    -- coordinates of the ends
    have hc1 : ∀ x < (s.lead q).c, extCoord s at_ q (mapEnd (s.start q) (s.lead q) x) = (d + 1, x) := by
      intro x hx
      rw [mapEnd_lt hs hq hx, extCoord, if_pos ⟨by omega, whichLead_eq s hq (by omega) (by omega)⟩]
      simp [hd]
    have hlen := hs.interface_length q hq
    have hc2 : ∀ k, (s.lead q).c + k < (s.lead q).m → extCoord s at_ q (mapEnd (s.start q) (s.lead q) ((s.lead q).c + k)) = (d, k) := by
      intro k hk
      have h1 := (mapEnd_interface hs hq (Nat.le_add_right _ k) hk).2
      have h2 := hatt.interface q hq k (by omega)
      have hc : ¬ (s.lead q).c + k < (s.lead q).c := by omega
      rw [extCoord, if_neg (by omega), mapEnd, if_neg hc, Nat.add_sub_cancel_left]
      exact h2
    rw [e1, e2]
    obtain ⟨a, b⟩ := f
    have hlt := lead_lt hs hq hf
    simp only at hlt ⊢
    by_cases ha : a < (s.lead q).c
    · rw [hc1 a ha]
      by_cases hb : b < (s.lead q).c
      · rw [hc1 b hb]
        exact .cell _ ha hb hf
      · obtain ⟨k, rfl⟩ := Nat.exists_eq_add_of_le (not_lt.mp hb)
        rw [hc2 k hlt.2]
        have := Hop.down (links := (s.lead q).links) (c := (s.lead q).c) (d + 1) ha hf
        rwa [show d + 1 - 1 = d by ring] at this
    · have hb : b < (s.lead q).c := by
        rcases (hs.lead_links q hq).cell _ hf with h | h
        · exact absurd h ha
        · exact h
      obtain ⟨k, rfl⟩ := Nat.exists_eq_add_of_le (not_lt.mp ha)
      rw [hc1 b hb, hc2 k hlt.1]
      have := Hop.up (links := (s.lead q).links) (c := (s.lead q).c) (d + 1) hb ((hs.lead_links q hq).symm _ hf)
      rwa [show d + 1 - 1 = d by ring] at this

theorem label_swap (s : CSyst) (i j : ℕ) : label s j i = label s i j := by unfold label; rw [max_comm]

end

/-! ## Theorems -/

section
variable (components : List (ℕ × ℕ) → ℕ → ℕ) (mst : (ℕ × ℕ → ℕ) → List (ℕ × ℕ))
variable (pick : List ℕ → (ℕ → ℝ) → ℕ) (choose : List ℕ → ℕ) (argsort : List ℝ → List ℕ) (argmin : List ℝ → ℕ)
variable {s : CSyst} {at_ : ℕ → ℕ → ℤ × ℕ} {V : Type} [AddCommGroup V]

/-- What the gauge of the leads needs (C101): connected unit cells and hoppings between them. -/
def LeadsOk (s : CSyst) : Prop :=
  ∀ p < s.leads.length, checkInfinite (s.lead p).links (s.lead p).c = true ∧ hopLinks (s.lead p).links (s.lead p).c ≠ []

/-- A site of the reduced scattering region next to a patch has a hopping to the reduced scattering region. -/
def HasInterior (s : CSyst) : Prop :=
  ∃ x y z, (x, y) ∈ s.extended ∧ (x, z) ∈ s.extended ∧ s.patch x = -1 ∧ s.patch y = -1 ∧ s.patch z ≠ -1

theorem hasInterior_iff (hs : CompositeOk s) : HasInterior s ↔ interiorLinks s.entries s.patch ≠ [] := by
  have hl := extended_links hs
  constructor
  · rintro ⟨x, y, z, h1, h2, h3, h4, h5⟩ hnil
    obtain ⟨f, hf, he⟩ := List.mem_map.mp h1
    obtain ⟨k, hk, rfl⟩ := entryAt_of_mem hf
    have : k ∈ interiorLinks s.entries s.patch := by
      rw [mem_interior hl]
      refine ⟨hk, ?_, ?_, .inl ?_⟩
      · rw [he, h3]; omega
      · rw [he, h4]; omega
      · rw [he, mem_interfaceSites hl]
        exact ⟨by rw [h3]; omega, z, h2, (gt_iff s z).mpr h5⟩
    rw [hnil] at this
    cases this
  · intro h
    obtain ⟨k, ks, hk⟩ := List.exists_cons_of_ne_nil h
    have hk : k ∈ interiorLinks s.entries s.patch := by rw [hk]; simp
    obtain ⟨hkl, h1, h2, h3⟩ := (mem_interior hl).mp hk
    have hm : (entryAt s.entries k).1 ∈ s.extended := List.mem_map_of_mem (entryAt_mem hkl)
    rw [gt_iff, not_not] at h1 h2
    rcases h3 with h3 | h3
    · obtain ⟨_, z, h4, h5⟩ := (mem_interfaceSites hl).mp h3
      exact ⟨_, _, z, hm, h4, h1, h2, (gt_iff s z).mp h5⟩
    · obtain ⟨_, z, h4, h5⟩ := (mem_interfaceSites hl).mp h3
      exact ⟨_, _, z, hl.symm _ hm, h4, h2, h1, (gt_iff s z).mp h5⟩

/-- The loops, and the links known from the start. -/
theorem composite_loops (hs : CompositeOk s) (hpick : MinPick pick) (hch : Choose choose) (hA : ArgSort argsort)
    (hcc : Components components) (hmst : SpanningTree mst) (hck : checkComposite s = true) (hint : HasInterior s) :
    ∃ (S : Set (ℕ × ℕ)) (loops : List (List ℕ)), loopsInComposite components mst pick choose argsort s = some loops ∧
      Ordered s.extended S loops ∧ (∀ e ∈ S, e ∈ s.extended) ∧ (∀ e ∈ S, e.swap ∈ S) ∧
      (∀ e ∈ patchLinks s.entries s.patch, e ∈ S) ∧
      ∀ (M : Type) [CommGroup M] (f : ℕ → ℕ → M), (∀ i j, f j i = (f i j)⁻¹) →
        (∃ φ : ℕ → M, ∀ i j, (i, j) ∈ patchLinks s.entries s.patch → f i j = (φ i)⁻¹ * φ j) →
        ∃ φ : ℕ → M, ∀ i j, (i, j) ∈ S → f i j = (φ i)⁻¹ * φ j := by
  have hl := extended_links hs
  obtain ⟨tree, sub, S, e1, e2, e3, t1, t2, t3, t4, t5⟩ := tree_spec components mst pick choose hl (entries_nonneg hs)
    (entries_symm hs) hpick hch hcc hmst ((hasInterior_iff hs).mp hint)
  obtain ⟨loops, e4, ho⟩ := findLoops_spec pick argsort hl (entryDist_nonneg (entries_nonneg hs)) hpick hA t1 t2 t3
  refine ⟨S, loops, ?_, ho, t1, t2, t4, t5⟩
  unfold loopsInComposite
  rw [if_neg (by rw [hck]; simp)]
  simp only
  rw [e1, Option.bind_some, e2, Option.bind_some, csr_coo hl.nodup, e3]
  exact e4

/-- The core of the proofs. -/
theorem composite_core (hs : CompositeOk s) (hpick : MinPick pick) (hch : Choose choose) (hA : ArgSort argsort)
    (hm : ArgMin argmin) (hcc : Components components) (hmst : SpanningTree mst) (hsep : Separate s) (hatt : Attached s at_)
    (hlo : LeadsOk s) (hck : checkComposite s = true) (hint : HasInterior s)
    (pos : ℕ → V) (leadPos : ℕ → ℕ → V) (T : ℕ → V) (flux : List V → ℝ) (leadFlux : List (List V → ℝ))
    (hlen : leadFlux.length = s.leads.length) :
    ∃ (S : Set (ℕ × ℕ)) (loops : List (List ℕ)), loopsInComposite components mst pick choose argsort s = some loops ∧
      Ordered s.extended S loops ∧
      (∀ (M : Type) [CommGroup M] (f : ℕ → ℕ → M), (∀ i j, f j i = (f i j)⁻¹) →
        (∃ φ : ℕ → M, ∀ i j, (i, j) ∈ patchLinks s.entries s.patch → f i j = (φ i)⁻¹ * φ j) →
        ∃ φ : ℕ → M, ∀ i j, (i, j) ∈ S → f i j = (φ i)⁻¹ * φ j) ∧
      ∃ (P : ℕ → ℕ → ℂ) (Q : ℕ → ℤ × ℕ → ℤ × ℕ → ℂ),
        peierlsComposite components mst pick choose argsort argmin s at_ pos leadPos T flux leadFlux = some P ∧
        (∀ p < s.leads.length, ∀ a b, Hop (s.lead p).links (s.lead p).c a b →
          leadGauges pick choose argsort argmin s leadPos T (fun p => leadFlux.getD p fun _ => 0) p a b = some (Q p a b)) ∧
        (∀ p < s.leads.length, ∀ A : V → V → ℝ, HasPotential (leadFlux.getD p fun _ => 0) A →
          Periodic (leadFlux.getD p fun _ => 0) (T p) → ∃ Φ : ℤ × ℕ → Circle, ∀ a b, Hop (s.lead p).links (s.lead p).c a b →
            Q p a b = ((Φ a)⁻¹ : Circle) *
              Complex.exp (I * Real.pi * A (leadPos p a.2 + a.1 • T p) (leadPos p b.2 + b.1 • T p)) * (Φ b : ℂ)) ∧
        (∀ i j, (i, j) ∈ s.extended → ‖phaseOf s at_ P Q i j‖ = 1 ∧
          phaseOf s at_ P Q j i = (starRingEnd ℂ) (phaseOf s at_ P Q i j)) ∧
        ∀ loop ∈ loops, around (phaseOf s at_ P Q) loop = Complex.exp (I * Real.pi * flux (loop.map pos)) := by
  classical
  obtain ⟨S, loops, e, ho, t1, t2, t3, t4⟩ :=
    composite_loops components mst pick choose argsort hs hpick hch hA hcc hmst hck hint
  have hlead := fun p (hp : p < s.leads.length) => C101_gauge pick choose argsort argmin (hs.lead_links p hp)
    (hs.lead_nonneg p hp) hpick hch hA hm (hlo p hp).1 (hlo p hp).2 (leadPos p) (T p) (leadFlux.getD p fun _ => 0)
  set LG := leadGauges pick choose argsort argmin s leadPos T (fun p => leadFlux.getD p fun _ => 0) with hLG
  let Q : ℕ → ℤ × ℕ → ℤ × ℕ → ℂ := fun p a b => (LG p a b).getD 1
  -- the phases of a lead
  have hQ : ∀ p < s.leads.length,
      (∀ a b, Hop (s.lead p).links (s.lead p).c a b → LG p a b = some (Q p a b)) ∧
      (∀ a b, Hop (s.lead p).links (s.lead p).c a b → ‖Q p a b‖ = 1 ∧ Q p b a = (starRingEnd ℂ) (Q p a b)) ∧
      ∀ A : V → V → ℝ, HasPotential (leadFlux.getD p fun _ => 0) A →
          Periodic (leadFlux.getD p fun _ => 0) (T p) → ∃ Φ : ℤ × ℕ → Circle, ∀ a b, Hop (s.lead p).links (s.lead p).c a b →
            Q p a b = ((Φ a)⁻¹ : Circle) *
              Complex.exp (I * Real.pi * A (leadPos p a.2 + a.1 • T p) (leadPos p b.2 + b.1 • T p)) * (Φ b : ℂ) := by
    intro p hp
    obtain ⟨ll, h1, R, h2, h3, h4⟩ := hlead p hp
    have hR : ∀ a b, Hop (s.lead p).links (s.lead p).c a b → LG p a b = some (R a b) := by
      intro a b hab
      rw [hLG, leadGauges, h1, Option.bind_some]
      exact h2 a b hab
    have hQR : ∀ a b, Hop (s.lead p).links (s.lead p).c a b → Q p a b = R a b := by
      intro a b hab
      show (LG p a b).getD 1 = _
      rw [hR a b hab]; rfl
    refine ⟨fun a b hab => by rw [hQR a b hab]; exact hR a b hab, ?_, ?_⟩
    · intro a b hab
      rw [hQR a b hab, hQR b a (hop_symm (hs.lead_links p hp) hab)]
      exact h3 a b hab
    · intro A h5 h6
      obtain ⟨Φ, hΦ⟩ := h4 A h5 h6
      exact ⟨Φ, fun a b hab => by rw [hQR a b hab]; exact hΦ a b hab⟩
  let q : ℕ → ℕ → ℂ := fun i j => Q (label s i j) (extCoord s at_ (label s i j) i) (extCoord s at_ (label s i j) j)
  have hq : LeadPhases s at_ LG q := by
    refine ⟨?_, ?_, ?_⟩
    · intro i j hij
      obtain ⟨h1, h2⟩ := patch_hop hs hsep hatt hij
      exact (hQ _ h1).1 _ _ h2
    · intro i j hij
      obtain ⟨h1, h2⟩ := patch_hop hs hsep hatt hij
      exact ((hQ _ h1).2.1 _ _ h2).1
    · intro i j hij
      obtain ⟨h1, h2⟩ := patch_hop hs hsep hatt hij
      show Q (label s j i) _ _ = _
      rw [label_swap]
      exact ((hQ _ h1).2.1 _ _ h2).2
  obtain ⟨ph, p1, ⟨T', p2⟩, p3, p4⟩ := phasesC_spec hs hsep hq pos flux loops S (fun _ => none) (pinv_empty _) t1 t2 t3 ho
  have hphase : phaseOf s at_ (finiteWrapper ph) Q = mixed s q ph := by
    funext i j; rfl
  refine ⟨S, loops, e, ho, t4, finiteWrapper ph, Q, ?_, fun p hp => (hQ p hp).1, fun p hp => (hQ p hp).2.2, ?_, ?_⟩
  · unfold peierlsComposite
    rw [e, Option.bind_some, if_neg, if_neg (by omega)]
    · rw [show calculatePhasesM loops pos (previousPhaseComposite s at_
        (leadGauges pick choose argsort argmin s leadPos T fun p => leadFlux.getD p fun _ => 0)) flux = some ph from p1]
      rfl
    · rintro ⟨p, hp, hnone⟩
      obtain ⟨ll, h1, _⟩ := hlead p hp
      rw [h1] at hnone
      cases hnone
  · intro i j hij
    rw [hphase]
    refine ⟨norm_mixed hq p2 hij, ?_⟩
    unfold mixed
    by_cases h0 : s.patch i = -1 ∧ s.patch j = -1
    · rw [if_pos h0, if_pos h0.symm]
      exact wrapper_swap p2 i j
    · rw [if_neg h0, if_neg (fun h => h0 h.symm)]
      apply hq.conj
      refine ⟨hij, ?_⟩
      simp only [gt_iff]
      by_contra hc
      rw [not_or, not_not, not_not] at hc
      exact h0 hc
  · rw [hphase]; exact p4

/-- C149, gauge equivalence: if the vector potential `A` of the field agrees with that of the field of each lead on the
hoppings of its patch, the phases of the extended scattering region differ from the Peierls phases of `A` only by a gauge
transformation. -/
theorem C149_gauge (hs : CompositeOk s) (hpick : MinPick pick) (hch : Choose choose) (hA : ArgSort argsort)
    (hm : ArgMin argmin) (hcc : Components components) (hmst : SpanningTree mst) (hsep : Separate s) (hatt : Attached s at_)
    (hlo : LeadsOk s) (hck : checkComposite s = true) (hint : HasInterior s)
    (pos : ℕ → V) (leadPos : ℕ → ℕ → V) (T : ℕ → V) (hpos : Positions s at_ pos leadPos T)
    (flux : List V → ℝ) (leadFlux : List (List V → ℝ)) (hlen : leadFlux.length = s.leads.length)
    (A : V → V → ℝ) (hpot : HasPotential flux A)
    (hagree : ∀ p < s.leads.length, ∃ B : V → V → ℝ, HasPotential (leadFlux.getD p fun _ => 0) B ∧
      Periodic (leadFlux.getD p fun _ => 0) (T p) ∧
      ∀ e ∈ s.extended, s.patch e.1 = p ∨ s.patch e.2 = p → B (pos e.1) (pos e.2) = A (pos e.1) (pos e.2)) :
    ∃ (P : ℕ → ℕ → ℂ) (Q : ℕ → ℤ × ℕ → ℤ × ℕ → ℂ),
        peierlsComposite components mst pick choose argsort argmin s at_ pos leadPos T flux leadFlux = some P ∧
        (∀ p < s.leads.length, ∀ a b, Hop (s.lead p).links (s.lead p).c a b →
          leadGauges pick choose argsort argmin s leadPos T (fun p => leadFlux.getD p fun _ => 0) p a b = some (Q p a b)) ∧
        ∃ φ : ℕ → Circle, ∀ i j, (i, j) ∈ s.extended → phaseOf s at_ P Q i j =
          ((φ i)⁻¹ : Circle) * Complex.exp (I * Real.pi * A (pos i) (pos j)) * (φ j : ℂ) := by
  classical
  obtain ⟨S, loops, e, ho, hext, P, Q, h1, h2, h3, h4, h5⟩ := composite_core components mst pick choose argsort argmin hs hpick
    hch hA hm hcc hmst hsep hatt hlo hck hint pos leadPos T flux leadFlux hlen
  refine ⟨P, Q, h1, h2, ?_⟩
  set W := phaseOf s at_ P Q with hW
  have hex : ∀ i j, ∃ c : Circle, (i, j) ∈ s.extended → (c : ℂ) = W i j := by
    intro i j
    by_cases hij : (i, j) ∈ s.extended
    · exact ⟨(⟨W i j, mem_sphere_zero_iff_norm.mpr (h4 i j hij).1⟩ : Circle), fun _ => rfl⟩
    · exact ⟨1, fun h => absurd h hij⟩
  choose Pc hPc using hex
  have hsy := (extended_links hs).symm
  have hPs : ∀ i j, (i, j) ∈ s.extended → Pc j i = (Pc i j)⁻¹ := by
    intro i j hij
    apply Subtype.ext
    rw [Circle.coe_inv_eq_conj, hPc _ _ hij, hPc _ _ (hsy _ hij), (h4 i j hij).2]
  have hAs : ∀ x y, angle (A y x) = (angle (A x y))⁻¹ := by
    intro x y
    rw [hpot.1 x y, angle, angle, mul_neg, Circle.exp_neg]
  let f : ℕ → ℕ → Circle := fun i j => if (i, j) ∈ s.extended then Pc i j * (angle (A (pos i) (pos j)))⁻¹ else 1
  have hf : ∀ i j, f j i = (f i j)⁻¹ := by
    intro i j
    simp only [f]
    by_cases hij : (i, j) ∈ s.extended
    · have hji : (j, i) ∈ s.extended := hsy _ hij
      rw [if_pos hij, if_pos hji, hPs i j hij, hAs, mul_inv]
    · have hji : (j, i) ∉ s.extended := fun h => hij (hsy (j, i) h)
      rw [if_neg hij, if_neg hji, inv_one]
  -- the loops
  have hprod : ∀ loop ∈ loops, ((circuit loop).map fun e => f e.1 e.2).prod = 1 := by
    intro loop hloop
    have hne : loop ≠ [] := ordered_ne loops S ho loop hloop
    have hmem : ∀ e ∈ circuit loop, e ∈ s.extended := by
      have : ∀ (loops : List (List ℕ)) (S : Set (ℕ × ℕ)), (∀ e ∈ S, e ∈ s.extended) → Ordered s.extended S loops →
          ∀ loop ∈ loops, ∀ e ∈ circuit loop, e ∈ s.extended := by
        intro loops
        induction loops with
        | nil => intro _ _ _ loop h; cases h
        | cons path loops ih =>
          intro S hsub ho loop hloop
          obtain ⟨frm, to_, a1, a2, a3, a4, a5, a6, a7⟩ := ho
          rcases List.mem_cons.mp hloop with rfl | hloop
          · obtain ⟨l, rfl⟩ : ∃ l, loop = to_ :: l := by
              cases loop with
              | nil => cases a1
              | cons a l => exact ⟨l, by simp at a1; rw [a1]⟩
            have hlast : (to_ :: l).getLast (by simp) = frm := by
              rw [List.getLast?_eq_some_getLast (by simp)] at a2
              exact Option.some.inj a2
            intro e he
            rw [circuit_eq, List.mem_append, hlast] at he
            rcases he with he | he
            · exact hsub e (chain_zip l to_ a6 e he)
            · obtain rfl : e = (frm, to_) := by simpa using he
              exact a3
          · refine ih _ ?_ a7 loop hloop
            rintro e (h | rfl | rfl)
            · exact hsub e h
            · exact a3
            · exact hsy _ a3
      obtain ⟨S', loops', e', ho', t1', _⟩ :=
        composite_loops components mst pick choose argsort hs hpick hch hA hcc hmst hck hint
      rw [e] at e'
      obtain rfl := Option.some.inj e'
      exact this loops S' t1' ho' loop hloop
    have e1 : ((circuit loop).map fun e => f e.1 e.2).prod =
        ((circuit loop).map fun e => Pc e.1 e.2).prod *
          (angle (((circuit loop).map fun e => A (pos e.1) (pos e.2)).sum))⁻¹ := by
      generalize circuit loop = c at hmem
      induction c with
      | nil => simp [angle]
      | cons e c ih =>
        have h0 : f e.1 e.2 = Pc e.1 e.2 * (angle (A (pos e.1) (pos e.2)))⁻¹ := if_pos (hmem e (by simp))
        simp only [List.map_cons, List.prod_cons, List.sum_cons, ih (fun e he => hmem e (by simp [he])), h0]
        rw [angle, angle, angle, mul_add, Circle.exp_add, mul_inv]
        simp only [mul_assoc, mul_left_comm]
    have e2 : ((circuit (loop.map pos)).map fun e => A e.1 e.2).sum =
        ((circuit loop).map fun e => A (pos e.1) (pos e.2)).sum := by
      have : circuit (loop.map pos) = (circuit loop).map (Prod.map pos pos) := by
        unfold circuit
        rw [← List.map_tail, ← List.map_take, ← List.map_append, List.zip_map]
      rw [this, List.map_map]
      rfl
    have e3 : (((circuit loop).map fun e => Pc e.1 e.2).prod : ℂ) = around W loop := by
      unfold around
      generalize circuit loop = c at hmem
      induction c with
      | nil => simp
      | cons e c ih =>
        have h0 := hPc e.1 e.2 (hmem e (by simp))
        simp [← ih (fun e he => hmem e (by simp [he])), h0]
    have e4 : ((circuit loop).map fun e => Pc e.1 e.2).prod = angle (flux (loop.map pos)) := by
      apply Subtype.ext
      rw [e3, h5 loop hloop, angle_coe]
    rw [e1, e4, hpot.2 _ (by simpa using hne), e2, mul_inv_cancel]
  -- the patches
  have hpatch : ∃ φ : ℕ → Circle, ∀ i j, (i, j) ∈ patchLinks s.entries s.patch → f i j = (φ i)⁻¹ * φ j := by
    apply patches_gradient hs hsep hck
    intro p hp
    obtain ⟨B, b1, b2, b3⟩ := hagree p hp
    obtain ⟨Φ, hΦ⟩ := h3 p hp B b1 b2
    refine ⟨fun i => Φ (extCoord s at_ p i), ?_⟩
    rintro i j hij rfl
    obtain ⟨hlp, hop⟩ := patch_hop hs hsep hatt hij
    have hor : s.patch i = (label s i j : ℕ) ∨ s.patch j = (label s i j : ℕ) := by
      rcases (touch_cases hs hsep (p := label s i j) (x := i) ⟨j, hij, rfl⟩).2 with h | ⟨h, _⟩
      · exact .inl h
      · right
        have h6 := hij.2
        simp only [h] at h6
        have h7 := patch_ge s j
        unfold label
        rw [h]
        rcases h6 with h6 | h6
        · omega
        · omega
    have hval := hΦ _ _ hop
    rw [← hpos _ hlp (i, j) hij.1 hor, ← hpos _ hlp (j, i) (hsy _ hij.1) hor.symm] at hval
    have hb := b3 (i, j) hij.1 hor
    simp only at hb hval
    rw [hb, ← angle_coe] at hval
    have hWQ : W i j = Q (label s i j) (extCoord s at_ (label s i j) i) (extCoord s at_ (label s i j) j) := by
      rw [hW, phaseOf, if_neg]
      · rfl
      · rintro ⟨g1, g2⟩
        have := hij.2
        simp only [gt_iff, g1, g2] at this
        simp at this
    have hPcv : Pc i j = (Φ (extCoord s at_ (label s i j) i))⁻¹ * angle (A (pos i) (pos j)) *
        Φ (extCoord s at_ (label s i j) j) := by
      apply Subtype.ext
      rw [hPc i j hij.1, hWQ, hval]
      rfl
    have hfv : f i j = Pc i j * (angle (A (pos i) (pos j)))⁻¹ := if_pos hij.1
    rw [hfv, hPcv]
    rw [show (Φ (extCoord s at_ (label s i j) i))⁻¹ * angle (A (pos i) (pos j)) * Φ (extCoord s at_ (label s i j) j) *
      (angle (A (pos i) (pos j)))⁻¹ = (Φ (extCoord s at_ (label s i j) i))⁻¹ * Φ (extCoord s at_ (label s i j) j) *
      (angle (A (pos i) (pos j)) * (angle (A (pos i) (pos j)))⁻¹) by simp only [mul_assoc, mul_left_comm, mul_comm]]
    simp
  obtain ⟨φ, hφ⟩ := hext Circle f hf hpatch
  have hall := extend_gradient f hf φ loops S ho hprod hφ
  refine ⟨φ, ?_⟩
  intro i j hij
  have h6 := hall i j hij
  have h7 : f i j = Pc i j * (angle (A (pos i) (pos j)))⁻¹ := if_pos hij
  have h : Pc i j = (φ i)⁻¹ * angle (A (pos i) (pos j)) * φ j := by
    have h' : Pc i j = f i j * angle (A (pos i) (pos j)) := by rw [h7, inv_mul_cancel_right]
    rw [h', h6]
    simp only [mul_assoc, mul_comm]
  rw [← hPc i j hij, h]
  simp [angle_coe]

/-- C149: under the same conditions the product of the phases around *every* closed walk in the extended scattering region
is `exp(i π flux)`, with the flux through that walk. -/
theorem C149_closed (hs : CompositeOk s) (hpick : MinPick pick) (hch : Choose choose) (hA : ArgSort argsort)
    (hm : ArgMin argmin) (hcc : Components components) (hmst : SpanningTree mst) (hsep : Separate s) (hatt : Attached s at_)
    (hlo : LeadsOk s) (hck : checkComposite s = true) (hint : HasInterior s)
    (pos : ℕ → V) (leadPos : ℕ → ℕ → V) (T : ℕ → V) (hpos : Positions s at_ pos leadPos T)
    (flux : List V → ℝ) (leadFlux : List (List V → ℝ)) (hlen : leadFlux.length = s.leads.length)
    (A : V → V → ℝ) (hpot : HasPotential flux A)
    (hagree : ∀ p < s.leads.length, ∃ B : V → V → ℝ, HasPotential (leadFlux.getD p fun _ => 0) B ∧
      Periodic (leadFlux.getD p fun _ => 0) (T p) ∧
      ∀ e ∈ s.extended, s.patch e.1 = p ∨ s.patch e.2 = p → B (pos e.1) (pos e.2) = A (pos e.1) (pos e.2)) :
    ∃ (P : ℕ → ℕ → ℂ) (Q : ℕ → ℤ × ℕ → ℤ × ℕ → ℂ),
        peierlsComposite components mst pick choose argsort argmin s at_ pos leadPos T flux leadFlux = some P ∧
        (∀ p < s.leads.length, ∀ a b, Hop (s.lead p).links (s.lead p).c a b →
          leadGauges pick choose argsort argmin s leadPos T (fun p => leadFlux.getD p fun _ => 0) p a b = some (Q p a b)) ∧
        ∀ walk, walk ≠ [] → (∀ e ∈ circuit walk, e ∈ s.extended) →
          around (phaseOf s at_ P Q) walk = Complex.exp (I * Real.pi * flux (walk.map pos)) := by
  obtain ⟨P, Q, h1, h2, φ, h3⟩ := C149_gauge components mst pick choose argsort argmin hs hpick hch hA hm hcc hmst hsep hatt
    hlo hck hint pos leadPos T hpos flux leadFlux hlen A hpot hagree
  refine ⟨P, Q, h1, h2, ?_⟩
  intro walk hne hw
  have e2 : ((circuit (walk.map pos)).map fun e => A e.1 e.2).sum =
      ((circuit walk).map fun e => A (pos e.1) (pos e.2)).sum := by
    have : circuit (walk.map pos) = (circuit walk).map (Prod.map pos pos) := by
      unfold circuit
      rw [← List.map_tail, ← List.map_take, ← List.map_append, List.zip_map]
    rw [this, List.map_map]
    rfl
  rw [hpot.2 _ (by simpa using hne), e2, ← angle_coe]
  have e3 : around (phaseOf s at_ P Q) walk =
      ((((circuit walk).map fun e => (φ e.1)⁻¹ * φ e.2).prod *
        angle (((circuit walk).map fun e => A (pos e.1) (pos e.2)).sum) : Circle) : ℂ) := by
    unfold around
    generalize circuit walk = c at hw
    induction c with
    | nil => simp [angle]
    | cons e c ih =>
      rw [List.map_cons, List.prod_cons, ih (fun e he => hw e (by simp [he])), h3 e.1 e.2 (hw e (by simp)),
        List.map_cons, List.prod_cons, List.map_cons, List.sum_cons, ← angle_coe]
      rw [show angle (A (pos e.1) (pos e.2) + (c.map fun e => A (pos e.1) (pos e.2)).sum) =
        angle (A (pos e.1) (pos e.2)) * angle (c.map fun e => A (pos e.1) (pos e.2)).sum by
          rw [angle, mul_add, Circle.exp_add]; rfl]
      simp only [Circle.coe_mul]
      ring
  rw [e3, circuit_telescope, one_mul]

/-- C149 for the same constant field in the scattering region and in all leads. -/
theorem C149_constant [Module ℝ V] (hs : CompositeOk s) (hpick : MinPick pick) (hch : Choose choose) (hA : ArgSort argsort)
    (hm : ArgMin argmin) (hcc : Components components) (hmst : SpanningTree mst) (hsep : Separate s) (hatt : Attached s at_)
    (hlo : LeadsOk s) (hck : checkComposite s = true) (hint : HasInterior s)
    (pos : ℕ → V) (leadPos : ℕ → ℕ → V) (T : ℕ → V) (hpos : Positions s at_ pos leadPos T)
    (B : V →ₗ[ℝ] V →ₗ[ℝ] ℝ) (hB : ∀ v, B v v = 0) :
    ∃ (P : ℕ → ℕ → ℂ) (Q : ℕ → ℤ × ℕ → ℤ × ℕ → ℂ),
        peierlsComposite components mst pick choose argsort argmin s at_ pos leadPos T (surfaceIntegralConst B)
          (List.replicate s.leads.length (surfaceIntegralConst B)) = some P ∧
        (∀ p < s.leads.length, ∀ a b, Hop (s.lead p).links (s.lead p).c a b →
          leadGauges pick choose argsort argmin s leadPos T
            (fun p => (List.replicate s.leads.length (surfaceIntegralConst B)).getD p fun _ => 0) p a b = some (Q p a b)) ∧
        ∀ walk, walk ≠ [] → (∀ e ∈ circuit walk, e ∈ s.extended) →
          around (phaseOf s at_ P Q) walk = Complex.exp (I * Real.pi * surfaceIntegralConst B (walk.map pos)) := by
  refine C149_closed components mst pick choose argsort argmin hs hpick hch hA hm hcc hmst hsep hatt hlo hck hint pos leadPos T
    hpos (surfaceIntegralConst B) _ (by simp) _ (const_potential B hB) ?_
  intro p hp
  have : (List.replicate s.leads.length (surfaceIntegralConst B)).getD p (fun _ => 0) = surfaceIntegralConst B := by
    rw [List.getD_eq_getElem?_getD, List.getElem?_replicate, if_pos hp]; rfl
  rw [this]
  exact ⟨_, const_potential B hB, const_periodic B (T p), fun _ _ _ => rfl⟩

/-- C149 for arbitrary fields, also different ones in the leads: the phases are unit numbers, reversing a hopping conjugates
the phase, and the product around every loop that was found is `exp(i π flux)` with the flux of the field of the scattering
region.  Every hopping of the reduced scattering region closes one of the loops, or is one of the links `S` known from the
start (`Ordered`), whose only closed loops are those of the patches. -/
theorem C149_found (hs : CompositeOk s) (hpick : MinPick pick) (hch : Choose choose) (hA : ArgSort argsort)
    (hm : ArgMin argmin) (hcc : Components components) (hmst : SpanningTree mst) (hsep : Separate s) (hatt : Attached s at_)
    (hlo : LeadsOk s) (hck : checkComposite s = true) (hint : HasInterior s)
    (pos : ℕ → V) (leadPos : ℕ → ℕ → V) (T : ℕ → V) (flux : List V → ℝ) (leadFlux : List (List V → ℝ))
    (hlen : leadFlux.length = s.leads.length) :
    ∃ (S : Set (ℕ × ℕ)) (loops : List (List ℕ)), loopsInComposite components mst pick choose argsort s = some loops ∧
      Ordered s.extended S loops ∧
      (∀ (M : Type) [CommGroup M] (f : ℕ → ℕ → M), (∀ i j, f j i = (f i j)⁻¹) →
        (∃ φ : ℕ → M, ∀ i j, (i, j) ∈ s.extended → (s.patch i ≠ -1 ∨ s.patch j ≠ -1) → f i j = (φ i)⁻¹ * φ j) →
        ∃ φ : ℕ → M, ∀ i j, (i, j) ∈ S → f i j = (φ i)⁻¹ * φ j) ∧
      ∃ (P : ℕ → ℕ → ℂ) (Q : ℕ → ℤ × ℕ → ℤ × ℕ → ℂ),
        peierlsComposite components mst pick choose argsort argmin s at_ pos leadPos T flux leadFlux = some P ∧
        (∀ p < s.leads.length, ∀ a b, Hop (s.lead p).links (s.lead p).c a b →
          leadGauges pick choose argsort argmin s leadPos T (fun p => leadFlux.getD p fun _ => 0) p a b = some (Q p a b)) ∧
        (∀ i j, (i, j) ∈ s.extended → ‖phaseOf s at_ P Q i j‖ = 1 ∧
          phaseOf s at_ P Q j i = (starRingEnd ℂ) (phaseOf s at_ P Q i j)) ∧
        ∀ loop ∈ loops, around (phaseOf s at_ P Q) loop = Complex.exp (I * Real.pi * flux (loop.map pos)) := by
  obtain ⟨S, loops, e, ho, hext, P, Q, h1, h2, _, h4, h5⟩ := composite_core components mst pick choose argsort argmin hs hpick
    hch hA hm hcc hmst hsep hatt hlo hck hint pos leadPos T flux leadFlux hlen
  refine ⟨S, loops, e, ho, ?_, P, Q, h1, h2, h4, h5⟩
  intro M _ f hf hφ
  apply hext M f hf
  obtain ⟨φ, hφ⟩ := hφ
  refine ⟨φ, ?_⟩
  intro i j hij
  apply hφ i j hij.1
  have := hij.2
  simpa only [gt_iff] using this

/-- C149, the number of fields: without one field for each lead there is an exception. -/
theorem C149_fields (pos : ℕ → V) (leadPos : ℕ → ℕ → V) (T : ℕ → V) (flux : List V → ℝ) (leadFlux : List (List V → ℝ))
    (h : leadFlux.length ≠ s.leads.length) :
    peierlsComposite components mst pick choose argsort argmin s at_ pos leadPos T flux leadFlux = none := by
  unfold peierlsComposite
  cases loopsInComposite components mst pick choose argsort s with
  | none => rfl
  | some loops =>
    rw [Option.bind_some]
    split_ifs <;> rfl

end

end Kwant.Gauge
