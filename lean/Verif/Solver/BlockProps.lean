import Verif.Solver.BlockModel
import Mathlib.Data.Complex.BigOperators
import Mathlib.Tactic.Linarith

/-!
C53 (deduced transmissions), C54 (conductance matrix), C55 (slices).
-/

set_option linter.unusedSectionVars false
set_option linter.unusedSimpArgs false
set_option linter.unusedTactic false
set_option linter.unreachableTactic false

namespace Kwant.Solver
open Finset

/-! ### Specification -/

/-- Number of rows (columns) before the block of element `k` of a list of leads. -/
def before (sizes : ℕ → ℕ) (leads : List ℕ) (k : ℕ) : ℕ := ((leads.take k).map sizes).sum

/-- The scattering matrix between all `n` leads: `S o a i b` is the amplitude from mode `b` of lead `i` to mode `a` of lead `o`. -/
abbrev FullS := ℕ → ℕ → ℕ → ℕ → ℂ

/-- Transmission from lead `i` to lead `o`. -/
noncomputable def trans (N : ℕ → ℕ) (S : FullS) (o i : ℕ) : ℝ := ∑ a ∈ range (N o), ∑ b ∈ range (N i), Complex.normSq (S o a i b)

/-- `S` is unitary. -/
def Unitary (n : ℕ) (N : ℕ → ℕ) (S : FullS) : Prop :=
  (∀ o < n, ∀ a < N o, ∀ o' < n, ∀ a' < N o', ∑ i ∈ range n, ∑ b ∈ range (N i), S o a i b * star (S o' a' i b) =
    if o = o' ∧ a = a' then 1 else 0) ∧
  (∀ i < n, ∀ b < N i, ∀ i' < n, ∀ b' < N i', ∑ o ∈ range n, ∑ a ∈ range (N o), star (S o a i b) * S o a i' b' =
    if i = i' ∧ b = b' then 1 else 0)

/-- The result holds the part of `S` between the leads it lists, lead after lead. -/
structure PartOf (s : SMat) (S : FullS) : Prop where
  outNodup : s.outLeads.Nodup
  inNodup : s.inLeads.Nodup
  outLt : ∀ l ∈ s.outLeads, l < s.nLeads
  inLt : ∀ l ∈ s.inLeads, l < s.nLeads
  data : ∀ o i a b : ℕ, ∀ ko ki : ℕ, s.outLeads[ko]? = some o → s.inLeads[ki]? = some i → a < s.sizes o → b < s.sizes i →
    s.data (before s.sizes s.outLeads ko + a) (before s.sizes s.inLeads ki + b) = S o a i b

/-! ### Proofs -/

theorem cumsum_get (t : ℕ) (l : List ℕ) (k : ℕ) (hk : k < l.length) : (cumsum t l)[k]? = some (t + (l.take (k + 1)).sum) := by
  induction l generalizing t k with
  | nil => simp at hk
  | cons x l ih =>
    cases k with
    | zero => simp [cumsum]
    | succ k =>
      rw [cumsum, List.getElem?_cons_succ, ih (t + x) k (by simpa using hk)]
      simp [Nat.add_assoc]

theorem offsets_get (l : List ℕ) (k : ℕ) (hk : k ≤ l.length) : (offsets l).getD k 0 = (l.take k).sum := by
  unfold offsets
  cases k with
  | zero => simp
  | succ k => rw [List.getD_cons_succ, List.getD_eq_getElem?_getD, cumsum_get 0 l k (by omega)]; simp

theorem before_succ (sizes : ℕ → ℕ) (leads : List ℕ) (k l : ℕ) (h : leads[k]? = some l) :
    before sizes leads (k + 1) = before sizes leads k + sizes l := by
  unfold before
  rw [List.take_add_one, h, List.map_append, List.sum_append]; simp

theorem before_mono (sizes : ℕ → ℕ) (leads : List ℕ) {j k : ℕ} (h : j ≤ k) : before sizes leads j ≤ before sizes leads k := by
  induction k with
  | zero => have : j = 0 := by omega
            subst this; exact le_refl _
  | succ k ih =>
    rcases Nat.lt_or_ge j (k + 1) with h' | h'
    · refine le_trans (ih (by omega)) ?_
      cases hk : leads[k]? with
      | none =>
        unfold before
        rw [List.take_add_one, hk]; simp
      | some l => rw [before_succ sizes leads k l hk]; omega
    · have : j = k + 1 := by omega
      subst this; exact le_refl _

/-- C55: the slice of a listed lead starts after the blocks of the leads listed before it and has the size of the lead. -/
theorem C55_slice (sizes : ℕ → ℕ) {leads : List ℕ} (hn : leads.Nodup) (k l : ℕ) (h : leads[k]? = some l) :
    leadSlice sizes leads l = .ok (before sizes leads k, before sizes leads k + sizes l) := by
  obtain ⟨hk, rfl⟩ := List.getElem?_eq_some_iff.mp h
  unfold leadSlice
  rw [if_pos (List.getElem_mem _), hn.idxOf_getElem k hk, offsets_get _ _ (by simp; omega), offsets_get _ _ (by simp; omega)]
  rw [← before_succ sizes leads k _ h, ← List.map_take, ← List.map_take]
  rfl

/-- C55: a lead that is not listed has no slice. -/
theorem C55_absent (sizes : ℕ → ℕ) {leads : List ℕ} (l : ℕ) (h : l ∉ leads) : leadSlice sizes leads l = .error .value := by
  unfold leadSlice; rw [if_neg h]

/-- C55: every row belongs to the slice of exactly one listed lead. -/
theorem C55_partition (sizes : ℕ → ℕ) {leads : List ℕ} (hn : leads.Nodup) (r : ℕ) (hr : r < (leads.map sizes).sum) :
    ∃! l, l ∈ leads ∧ ∃ lo hi, leadSlice sizes leads l = .ok (lo, hi) ∧ lo ≤ r ∧ r < hi := by
  have htot : before sizes leads leads.length = (leads.map sizes).sum := by unfold before; rw [List.take_length]
  have hex : ∃ k, r < before sizes leads (k + 1) := by
    refine ⟨leads.length, ?_⟩
    have := before_mono sizes leads (Nat.le_succ leads.length)
    simp only [Nat.succ_eq_add_one] at this
    omega
  classical
  have hk := Nat.find_spec hex
  have hmin : ∀ m, m < Nat.find hex → before sizes leads (m + 1) ≤ r := fun m hm => not_lt.mp (Nat.find_min hex hm)
  generalize Nat.find hex = k at hk hmin
  have hlo : before sizes leads k ≤ r := by
    cases k with
    | zero => simp [before]
    | succ k => exact hmin k (by omega)
  have hlt : k < leads.length := by
    by_contra hx
    have : before sizes leads k = before sizes leads leads.length := by
      unfold before; rw [List.take_of_length_le (by omega), List.take_length]
    omega
  have hkl : leads[k]? = some leads[k] := List.getElem?_eq_getElem hlt
  rw [before_succ sizes leads k _ hkl] at hk
  refine ⟨leads[k], ⟨List.getElem_mem _, _, _, C55_slice sizes hn k _ hkl, hlo, hk⟩, ?_⟩
  rintro l ⟨hl, lo, hi, hs, h1, h2⟩
  obtain ⟨j, hj, rfl⟩ := List.getElem_of_mem hl
  have hjl : leads[j]? = some leads[j] := List.getElem?_eq_getElem hj
  rw [C55_slice sizes hn j _ hjl] at hs
  cases hs
  rw [← before_succ sizes leads j _ hjl] at h2
  rw [← before_succ sizes leads k _ hkl] at hk
  have hjk : j = k := by
    rcases Nat.lt_trichotomy j k with h | h | h
    · have := before_mono sizes leads (show j + 1 ≤ k by omega); omega
    · exact h
    · have := before_mono sizes leads (show k + 1 ≤ j by omega); omega
  subst hjk; rfl

/-- C55: the slices of the symmetry blocks of a lead follow one another inside of the slice of the lead, and have the sizes
of the blocks. -/
theorem C55_blocks (s : SMat) {leads : List ℕ} (hn : leads.Nodup) (k l : ℕ) (h : leads[k]? = some l) {bs : List ℕ}
    (hb : s.blockSizes l = some bs) (b : ℕ) :
    (b < bs.length → blockCoords s leads (.block l b) =
      .ok (before s.sizes leads k + (bs.take b).sum, before s.sizes leads k + (bs.take b).sum + bs.getD b 0)) ∧
    (bs.length ≤ b → blockCoords s leads (.block l b) = .error .index) := by
  obtain ⟨hk, rfl⟩ := List.getElem?_eq_some_iff.mp h
  simp only [blockCoords]
  rw [if_pos (List.getElem_mem _)]
  simp only [hb]
  constructor
  · intro hlt
    rw [if_pos hlt, hn.idxOf_getElem k hk, offsets_get _ _ (by simp; omega), offsets_get _ _ (by omega), offsets_get _ _ (by omega),
      List.take_add_one, List.getElem?_eq_getElem hlt, List.sum_append, ← List.map_take]
    simp [before, List.getD_eq_getElem?_getD, List.getElem?_eq_getElem hlt, Nat.add_assoc]
  · intro hle
    rw [if_neg (by omega)]

theorem sum_Ico_shift (f : ℕ → ℝ) (s n : ℕ) : ∑ x ∈ Ico s (s + n), f x = ∑ a ∈ range n, f (s + a) := by
  rw [Finset.sum_Ico_eq_sum_range]; simp

/-- The transmission calculated directly is the transmission. -/
theorem direct {s : SMat} {S : FullS} (h : PartOf s S) {o i : ℕ} (ho : o ∈ s.outLeads) (hi : i ∈ s.inLeads) :
    transmission' s (.lead o) (.lead i) = .ok (trans s.sizes S o i) := by
  obtain ⟨ko, hko, rfl⟩ := List.getElem_of_mem ho
  obtain ⟨ki, hki, rfl⟩ := List.getElem_of_mem hi
  have eo := List.getElem?_eq_getElem hko
  have ei := List.getElem?_eq_getElem hki
  unfold transmission'
  simp only [blockCoords, C55_slice s.sizes h.outNodup ko _ eo, C55_slice s.sizes h.inNodup ki _ ei]
  rw [sum_Ico_shift]
  congr 1
  unfold trans
  refine Finset.sum_congr rfl fun a ha => ?_
  rw [sum_Ico_shift]
  refine Finset.sum_congr rfl fun b hb => ?_
  rw [h.data _ _ _ _ ko ki eo ei (Finset.mem_range.mp ha) (Finset.mem_range.mp hb)]

/-- C55: the transmission between symmetry blocks is the norm of the corresponding part of `S`. -/
theorem C55_block_transmission {s : SMat} {S : FullS} (h : PartOf s S) {o i bo bi : ℕ} (ho : o ∈ s.outLeads) (hi : i ∈ s.inLeads)
    {bso bsi : List ℕ} (hbo : s.blockSizes o = some bso) (hbi : s.blockSizes i = some bsi) (hso : bso.sum = s.sizes o)
    (hsi : bsi.sum = s.sizes i) (hlo : bo < bso.length) (hli : bi < bsi.length) :
    transmissionSel s (.block o bo) (.block i bi) = .ok (∑ a ∈ range (bso.getD bo 0), ∑ b ∈ range (bsi.getD bi 0),
      Complex.normSq (S o ((bso.take bo).sum + a) i ((bsi.take bi).sum + b))) := by
  obtain ⟨ko, hko, rfl⟩ := List.getElem_of_mem ho
  obtain ⟨ki, hki, rfl⟩ := List.getElem_of_mem hi
  have eo := List.getElem?_eq_getElem hko
  have ei := List.getElem?_eq_getElem hki
  have hle : ∀ (bs : List ℕ) (b : ℕ), b < bs.length → (bs.take b).sum + bs.getD b 0 ≤ bs.sum := by
    intro bs b hb
    have e : bs.sum = (bs.take (b + 1)).sum + (bs.drop (b + 1)).sum := by rw [← List.sum_append, List.take_append_drop]
    rw [List.take_add_one, List.getElem?_eq_getElem hb, List.sum_append] at e
    simp only [Option.toList_some, List.sum_cons, List.sum_nil, Nat.add_zero] at e
    rw [List.getD_eq_getElem?_getD, List.getElem?_eq_getElem hb, Option.getD_some]
    omega
  simp only [transmissionSel]
  unfold transmission'
  rw [(C55_blocks s h.outNodup ko _ eo hbo bo).1 hlo, (C55_blocks s h.inNodup ki _ ei hbi bi).1 hli]
  simp only
  rw [sum_Ico_shift]
  congr 1
  refine Finset.sum_congr rfl fun a ha => ?_
  rw [sum_Ico_shift]
  refine Finset.sum_congr rfl fun b hb => ?_
  have h1 := hle bso bo hlo
  have h2 := hle bsi bi hli
  have ha' := Finset.mem_range.mp ha
  have hb' := Finset.mem_range.mp hb
  rw [Nat.add_assoc, Nat.add_assoc, h.data _ _ _ _ ko ki eo ei (by omega) (by omega)]

theorem sumE_eq (f : ℕ → Except SErr ℝ) (g : ℕ → ℝ) (l : List ℕ) (h : ∀ x ∈ l, f x = .ok (g x)) :
    sumE f l = .ok (l.map g).sum := by
  induction l with
  | nil => rfl
  | cons x l ih =>
    simp only [sumE, h x (by simp), ih (fun y hy => h y (List.mem_cons_of_mem _ hy)), List.map_cons, List.sum_cons]

/-- A list of all leads but one. -/
theorem sum_all_but_one {l : List ℕ} {n x : ℕ} (hn : l.Nodup) (hlt : ∀ y ∈ l, y < n) (hlen : l.length = n - 1) (hx : x < n)
    (hxl : x ∉ l) (g : ℕ → ℝ) : (l.map g).sum = ∑ y ∈ (range n).erase x, g y := by
  rw [← List.sum_toFinset g hn]
  refine Finset.sum_congr ?_ fun _ _ => rfl
  refine Finset.eq_of_subset_of_card_le ?_ ?_
  · intro y hy
    have := List.mem_toFinset.mp hy
    rw [Finset.mem_erase, Finset.mem_range]
    exact ⟨fun e => hxl (e ▸ this), hlt y this⟩
  · rw [List.toFinset_card_of_nodup hn, Finset.card_erase_of_mem (Finset.mem_range.mpr hx), Finset.card_range, hlen]

theorem sum_erase_range (n x : ℕ) (hx : x < n) (g : ℕ → ℝ) : ∑ y ∈ (range n).erase x, g y = (∑ y ∈ range n, g y) - g x := by
  rw [← Finset.add_sum_erase _ _ (Finset.mem_range.mpr hx)]; ring

/-- A unitary scattering matrix conserves current. -/
theorem unitary_rows {n : ℕ} {N : ℕ → ℕ} {S : FullS} (h : Unitary n N S) {o : ℕ} (ho : o < n) :
    ∑ i ∈ range n, trans N S o i = N o := by
  unfold trans
  rw [Finset.sum_comm]
  have : ∀ a ∈ range (N o), ∑ i ∈ range n, ∑ b ∈ range (N i), Complex.normSq (S o a i b) = 1 := by
    intro a ha
    have e := h.1 o ho a (Finset.mem_range.mp ha) o ho a (Finset.mem_range.mp ha)
    rw [if_pos ⟨rfl, rfl⟩] at e
    have e2 : ((∑ i ∈ range n, ∑ b ∈ range (N i), Complex.normSq (S o a i b) : ℝ) : ℂ) = 1 := by
      rw [← e, Complex.ofReal_sum]
      refine Finset.sum_congr rfl fun i _ => ?_
      rw [Complex.ofReal_sum]
      refine Finset.sum_congr rfl fun b _ => ?_
      exact (Complex.mul_conj _).symm
    exact_mod_cast e2
  rw [Finset.sum_congr rfl this]; simp

theorem unitary_cols {n : ℕ} {N : ℕ → ℕ} {S : FullS} (h : Unitary n N S) {i : ℕ} (hi : i < n) :
    ∑ o ∈ range n, trans N S o i = N i := by
  unfold trans
  have e0 : ∀ o ∈ range n, ∑ a ∈ range (N o), ∑ b ∈ range (N i), Complex.normSq (S o a i b) =
      ∑ b ∈ range (N i), ∑ a ∈ range (N o), Complex.normSq (S o a i b) := fun o _ => Finset.sum_comm
  rw [Finset.sum_congr rfl e0, Finset.sum_comm]
  have : ∀ b ∈ range (N i), ∑ o ∈ range n, ∑ a ∈ range (N o), Complex.normSq (S o a i b) = 1 := by
    intro b hb
    have e := h.2 i hi b (Finset.mem_range.mp hb) i hi b (Finset.mem_range.mp hb)
    rw [if_pos ⟨rfl, rfl⟩] at e
    have e2 : ((∑ o ∈ range n, ∑ a ∈ range (N o), Complex.normSq (S o a i b) : ℝ) : ℂ) = 1 := by
      rw [← e, Complex.ofReal_sum]
      refine Finset.sum_congr rfl fun o _ => ?_
      rw [Complex.ofReal_sum]
      refine Finset.sum_congr rfl fun a _ => ?_
      rw [mul_comm]
      exact (Complex.mul_conj _).symm
    exact_mod_cast e2
  rw [Finset.sum_congr rfl this]; simp

/-! ### C53 -/

/-- C53 (part): if at least one of the two leads has been calculated, what `transmission` returns is the transmission. -/
theorem C53_transmission_partial {s : SMat} {S : FullS} (hp : PartOf s S) (hu : s.currentConserving = true → Unitary s.nLeads s.sizes S)
    {o i : ℕ} (ho : o < s.nLeads) (hi : i < s.nLeads) (hpres : o ∈ s.outLeads ∨ i ∈ s.inLeads) {v : ℝ}
    (h : transmission s o i = .ok v) : v = trans s.sizes S o i := by
  unfold transmission at h
  split at h
  · next hb => rw [direct hp hb.1 hb.2] at h; cases h; rfl
  · next hb =>
    split at h
    · cases h
    · next hc =>
      have hU := hu (by simpa using hc)
      split at h
      · next ho' =>
        have hni : i ∉ s.inLeads := fun hx => hb ⟨ho', hx⟩
        split at h
        · next hl =>
          rw [sumE_eq _ (fun c => trans s.sizes S o c) _ (fun c hc => direct hp ho' hc)] at h
          cases h
          rw [sum_all_but_one hp.inNodup hp.inLt hl hi hni, sum_erase_range _ _ hi, unitary_rows hU ho]
          unfold SMat.numProp; ring
        · cases h
      · next ho' =>
        have hi' : i ∈ s.inLeads := by tauto
        rw [if_pos hi'] at h
        split at h
        · next hl =>
          rw [sumE_eq _ (fun c => trans s.sizes S c i) _ (fun c hc => direct hp hc hi')] at h
          cases h
          rw [sum_all_but_one hp.outNodup hp.outLt hl ho ho', sum_erase_range _ _ ho, unitary_cols hU hi]
          unfold SMat.numProp; ring
        · cases h

/-- When a value is returned: both leads calculated, or, with current conservation, one missing and all leads but one
calculated, or both missing and all leads but one calculated on both sides. -/
theorem C53_returns {s : SMat} {S : FullS} (hp : PartOf s S) (o i : ℕ) :
    (∃ v, transmission s o i = .ok v) ↔ (o ∈ s.outLeads ∧ i ∈ s.inLeads) ∨ s.currentConserving = true ∧
      ((o ∈ s.outLeads ∧ i ∉ s.inLeads ∧ s.inLeads.length = s.nLeads - 1) ∨
       (o ∉ s.outLeads ∧ i ∈ s.inLeads ∧ s.outLeads.length = s.nLeads - 1) ∨
       (o ∉ s.outLeads ∧ i ∉ s.inLeads ∧ s.outLeads.length = s.nLeads - 1 ∧ s.inLeads.length = s.nLeads - 1)) := by
  unfold transmission
  by_cases h1 : o ∈ s.outLeads <;> by_cases h2 : i ∈ s.inLeads <;> by_cases h3 : s.currentConserving = true <;>
    by_cases h4 : s.outLeads.length = s.nLeads - 1 <;> by_cases h5 : s.inLeads.length = s.nLeads - 1 <;>
    simp only [h1, h2, h3, h4, h5, and_self, and_true, and_false, false_and, true_and, if_true, if_false, not_true_eq_false,
      not_false_eq_true, or_false, false_or, or_true, or_self, iff_true, iff_false, Bool.true_eq_false] <;> first
    | (rw [direct hp h1 h2]; exact ⟨_, rfl⟩)
    | (rw [sumE_eq _ _ _ (fun c hc => direct hp h1 hc)]; exact ⟨_, rfl⟩)
    | (rw [sumE_eq _ _ _ (fun c hc => direct hp hc h2)]; exact ⟨_, rfl⟩)
    | (simp only [Bool.not_eq_true] at h3; simp [h3]; done)
    | (simp; done)
    | skip
  · have hin : ∀ x ∈ s.outLeads, sumE (fun i => centerTerm s x i) s.inLeads =
        .ok (s.inLeads.map fun i => if x = i then trans s.sizes S x i - s.sizes x else 0).sum := by
      intro x hx
      refine sumE_eq _ _ _ fun y hy => ?_
      unfold centerTerm
      split
      · rw [direct hp hx hy]; rfl
      · rfl
    rw [sumE_eq _ _ _ hin]
    exact ⟨_, rfl⟩

/-- The value returned if neither lead has been calculated. -/
theorem center_value {s : SMat} {S : FullS} (hp : PartOf s S) {o i : ℕ} (ho : o < s.nLeads) (hi : i < s.nLeads)
    (ho' : o ∉ s.outLeads) (hi' : i ∉ s.inLeads) {v : ℝ} (h : transmission s o i = .ok v) :
    v = ∑ x ∈ (range s.nLeads).erase o, if x = i then 0 else trans s.sizes S x x - s.sizes x := by
  unfold transmission at h
  rw [if_neg (c := o ∈ s.outLeads ∧ i ∈ s.inLeads) (fun hx => ho' hx.1), if_neg ho', if_neg hi'] at h
  split at h
  · cases h
  · split at h
    · next hl =>
      have hin : ∀ x ∈ s.outLeads, sumE (fun i => centerTerm s x i) s.inLeads =
          .ok (s.inLeads.map fun i => if x = i then trans s.sizes S x i - s.sizes x else 0).sum := by
        intro x hx
        refine sumE_eq _ _ _ fun y hy => ?_
        unfold centerTerm
        split
        · rw [direct hp hx hy]; rfl
        · rfl
      rw [sumE_eq _ _ _ hin] at h
      cases h
      rw [sum_all_but_one hp.outNodup hp.outLt hl.1 ho ho']
      refine Finset.sum_congr rfl fun x hx => ?_
      rw [sum_all_but_one hp.inNodup hp.inLt hl.2 hi hi']
      have hx' := (Finset.mem_erase.mp hx).2
      split
      · next hxi =>
        subst hxi
        refine Finset.sum_eq_zero fun y hy => ?_
        rw [if_neg (Ne.symm (Finset.mem_erase.mp hy).1)]
      · next hxi =>
        rw [Finset.sum_eq_single x]
        · rw [if_pos rfl]
        · intro y _ hy; rw [if_neg (Ne.symm hy)]
        · intro hy; exact absurd (Finset.mem_erase.mpr ⟨hxi, hx'⟩) hy
    · cases h

/-- C53, remaining case (neither lead has been calculated): the value returned differs from the transmission by the sum of
all calculated transmissions between different leads, and in addition by the number of modes if `o = i`.  So it is right only
if all of these vanish. -/
theorem C53_center_partial {s : SMat} {S : FullS} (hp : PartOf s S) (hu : Unitary s.nLeads s.sizes S) {o i : ℕ}
    (ho : o < s.nLeads) (hi : i < s.nLeads) (ho' : o ∉ s.outLeads) (hi' : i ∉ s.inLeads) {v : ℝ} (h : transmission s o i = .ok v) :
    trans s.sizes S o i - v = (∑ x ∈ (range s.nLeads).erase o, ∑ y ∈ (range s.nLeads).erase i,
      if x = y then 0 else trans s.sizes S x y) + if o = i then (s.sizes i : ℝ) else 0 := by
  rw [center_value hp ho hi ho' hi' h]
  have e1 : trans s.sizes S o i = s.sizes i - ∑ x ∈ (range s.nLeads).erase o, trans s.sizes S x i := by
    rw [sum_erase_range _ _ ho, unitary_cols hu hi]; ring
  have e2 : ∀ x ∈ (range s.nLeads).erase o, trans s.sizes S x i = s.sizes x - ∑ y ∈ (range s.nLeads).erase i, trans s.sizes S x y := by
    intro x hx
    rw [sum_erase_range _ _ hi, unitary_rows hu (Finset.mem_range.mp (Finset.mem_erase.mp hx).2)]; ring
  rw [e1, Finset.sum_congr rfl e2, sub_sub, ← Finset.sum_add_distrib]
  have e3 : ∀ x ∈ (range s.nLeads).erase o,
      ((s.sizes x : ℝ) - ∑ y ∈ (range s.nLeads).erase i, trans s.sizes S x y) + (if x = i then 0 else trans s.sizes S x x - s.sizes x) =
      (if x = i then (s.sizes i : ℝ) else 0) - ∑ y ∈ (range s.nLeads).erase i, if x = y then 0 else trans s.sizes S x y := by
    intro x hx
    have hx' := (Finset.mem_erase.mp hx).2
    by_cases hxi : x = i
    · subst hxi
      rw [if_pos rfl, if_pos rfl]
      have : ∀ y ∈ (range s.nLeads).erase x, (if x = y then (0 : ℝ) else trans s.sizes S x y) = trans s.sizes S x y := by
        intro y hy; rw [if_neg (Ne.symm (Finset.mem_erase.mp hy).1)]
      rw [Finset.sum_congr rfl this]; ring
    · rw [if_neg hxi, if_neg hxi]
      have hm : x ∈ (range s.nLeads).erase i := Finset.mem_erase.mpr ⟨hxi, hx'⟩
      rw [← Finset.add_sum_erase _ _ hm, ← Finset.add_sum_erase _ (fun y => if x = y then (0 : ℝ) else trans s.sizes S x y) hm, if_pos rfl]
      have : ∀ y ∈ ((range s.nLeads).erase i).erase x, (if x = y then (0 : ℝ) else trans s.sizes S x y) = trans s.sizes S x y := by
        intro y hy; rw [if_neg (Ne.symm (Finset.mem_erase.mp hy).1)]
      rw [Finset.sum_congr rfl this]; ring
  rw [Finset.sum_congr rfl e3, Finset.sum_sub_distrib]
  have e4 : ∑ x ∈ (range s.nLeads).erase o, (if x = i then (s.sizes i : ℝ) else 0) = if o = i then 0 else (s.sizes i : ℝ) := by
    rw [Finset.sum_ite_eq']
    by_cases hoi : o = i
    · rw [if_pos hoi, if_neg (by simp [hoi])]
    · rw [if_neg hoi, if_pos (Finset.mem_erase.mpr ⟨fun e => hoi e.symm, Finset.mem_range.mpr hi⟩)]
  rw [e4]
  by_cases hoi : o = i
  · rw [if_pos hoi, if_pos hoi]; ring
  · rw [if_neg hoi, if_neg hoi]; ring

/-- Two leads with one mode each, and perfect transmission between them. -/
def swapS : FullS := fun o _ i _ => if o ≠ i then 1 else 0

/-- Two leads with one mode each, and perfect reflection. -/
def reflS : FullS := fun o _ i _ => if o = i then 1 else 0

theorem swap_unitary : Unitary 2 (fun _ => 1) swapS := by
  constructor <;>
  · intro o ho a ha o' ho' a' ha'
    have h1 : o = 0 ∨ o = 1 := by omega
    have h2 : o' = 0 ∨ o' = 1 := by omega
    have h3 : a = 0 := Nat.lt_one_iff.mp ha
    have h4 : a' = 0 := Nat.lt_one_iff.mp ha'
    rcases h1 with rfl | rfl <;> rcases h2 with rfl | rfl <;> simp [h3, h4, swapS, Finset.sum_range_succ]

theorem refl_unitary : Unitary 2 (fun _ => 1) reflS := by
  constructor <;>
  · intro o ho a ha o' ho' a' ha'
    have h1 : o = 0 ∨ o = 1 := by omega
    have h2 : o' = 0 ∨ o' = 1 := by omega
    have h3 : a = 0 := Nat.lt_one_iff.mp ha
    have h4 : a' = 0 := Nat.lt_one_iff.mp ha'
    rcases h1 with rfl | rfl <;> rcases h2 with rfl | rfl <;> simp [h3, h4, reflS, Finset.sum_range_succ]

/-- A result with one lead on each side, of two leads with one mode each. -/
def single (S : FullS) (o i : ℕ) : SMat :=
  { data := fun _ _ => S o 0 i 0, nLeads := 2, outLeads := [o], inLeads := [i], sizes := fun _ => 1, blockSizes := fun _ => none
    currentConserving := true }

theorem single_part (S : FullS) {o i : ℕ} (ho : o < 2) (hi : i < 2) : PartOf (single S o i) S := by
  refine ⟨by simp [single], by simp [single], by simpa [single] using ho, by simpa [single] using hi, ?_⟩
  intro o' i' a b ko ki h1 h2 ha hb
  have hko : ko = 0 := by
    have := (List.getElem?_eq_some_iff.mp h1).1
    simpa [single] using this
  have hki : ki = 0 := by
    have := (List.getElem?_eq_some_iff.mp h2).1
    simpa [single] using this
  subst hko hki
  simp only [single, List.getElem?_cons_zero, Option.some.injEq] at h1 h2 ha hb
  have ha0 : a = 0 := by omega
  have hb0 : b = 0 := by omega
  subst h1 h2 ha0 hb0
  rfl

/-- C53 is false.  From the block from lead 1 to lead 0 of a perfectly transmitting two-terminal device, `transmission(1, 0)`
is deduced to be 0; it is 1.  From the reflection block of lead 0 of a perfectly reflecting device, `transmission(1, 1)` is
deduced to be 0; it is 1. -/
theorem C53_counterexample :
    (PartOf (single swapS 0 1) swapS ∧ Unitary 2 (fun _ => 1) swapS ∧ transmission (single swapS 0 1) 1 0 = .ok 0 ∧
      trans (fun _ => 1) swapS 1 0 = 1) ∧
    (PartOf (single reflS 0 0) reflS ∧ Unitary 2 (fun _ => 1) reflS ∧ transmission (single reflS 0 0) 1 1 = .ok 0 ∧
      trans (fun _ => 1) reflS 1 1 = 1) := by
  refine ⟨⟨single_part _ (by omega) (by omega), swap_unitary, ?_, ?_⟩, single_part _ (by omega) (by omega), refl_unitary, ?_, ?_⟩
  · have hp := single_part swapS (o := 0) (i := 1) (by omega) (by omega)
    obtain ⟨v, hv⟩ := (C53_returns hp 1 0).mpr (Or.inr ⟨rfl, Or.inr (Or.inr ⟨by simp [single], by simp [single], rfl, rfl⟩)⟩)
    have := center_value hp (o := 1) (i := 0) (by simp [single]) (by simp [single]) (by simp [single]) (by simp [single]) hv
    rw [hv, this]
    congr 1
    refine Finset.sum_eq_zero fun x hx => ?_
    have hx' := Finset.mem_erase.mp hx
    have : x < 2 := Finset.mem_range.mp hx'.2
    rw [if_pos (by omega)]
  · simp [trans, swapS]
  · have hp := single_part reflS (o := 0) (i := 0) (by omega) (by omega)
    obtain ⟨v, hv⟩ := (C53_returns hp 1 1).mpr (Or.inr ⟨rfl, Or.inr (Or.inr ⟨by simp [single], by simp [single], rfl, rfl⟩)⟩)
    have := center_value hp (o := 1) (i := 1) (by simp [single]) (by simp [single]) (by simp [single]) (by simp [single]) hv
    rw [hv, this]
    congr 1
    refine Finset.sum_eq_zero fun x hx => ?_
    have hx' := Finset.mem_erase.mp hx
    have hlt : x < 2 := Finset.mem_range.mp hx'.2
    have hx0 : x = 0 := by omega
    subst hx0
    simp [single, trans, reflS]
  · simp [trans, reflS]

/-! ### C54 -/

theorem rowE_get (f : ℕ → Except SErr ℝ) (l : List ℕ) (r : List ℝ) (h : rowE f l = .ok r) :
    r.length = l.length ∧ ∀ k j : ℕ, l[k]? = some j → ∃ v, f j = .ok v ∧ r[k]? = some v := by
  induction l generalizing r with
  | nil => cases h; exact ⟨rfl, fun k j hk => by simp at hk⟩
  | cons x l ih =>
    simp only [rowE] at h
    split at h
    · cases h
    · next v hv =>
      split at h
      · cases h
      · next w hw =>
        cases h
        obtain ⟨h1, h2⟩ := ih w hw
        refine ⟨by simp [h1], fun k j hk => ?_⟩
        cases k with
        | zero => simp at hk; subst hk; exact ⟨v, hv, rfl⟩
        | succ k => rw [List.getElem?_cons_succ] at hk ⊢; exact h2 k j hk

theorem rowsE_get (f : ℕ → ℕ → Except SErr ℝ) (n : ℕ) (l : List ℕ) (rs : List (List ℝ)) (h : rowsE f n l = .ok rs) :
    ∀ k i : ℕ, l[k]? = some i → ∃ r, rowE (f i) (List.range n) = .ok r ∧ rs[k]? = some r := by
  induction l generalizing rs with
  | nil => intro k i hk; simp at hk
  | cons x l ih =>
    simp only [rowsE] at h
    split at h
    · cases h
    · next v hv =>
      split at h
      · cases h
      · next w hw =>
        cases h
        intro k i hk
        cases k with
        | zero => simp at hk; subst hk; exact ⟨v, hv, rfl⟩
        | succ k => rw [List.getElem?_cons_succ] at hk ⊢; exact ih w hw k i hk

/-- C54: the columns of the conductance matrix sum to zero, and the elements off the diagonal are minus the transmissions. -/
theorem C54_conductance {s : SMat} {C : ℕ → ℕ → ℝ} (h : conductanceMatrix s = .ok C) :
    (∀ j < s.nLeads, ∑ i ∈ range s.nLeads, C i j = 0) ∧
    (∀ i < s.nLeads, ∀ j < s.nLeads, i ≠ j → transmission s i j = .ok (-C i j)) := by
  unfold conductanceMatrix at h
  split at h
  · cases h
  · next rows hr =>
    cases h
    have hel : ∀ i < s.nLeads, ∀ j < s.nLeads, condEl s i j = .ok ((rows.getD i []).getD j 0) := by
      intro i hi j hj
      obtain ⟨r, h1, h2⟩ := rowsE_get _ _ _ _ hr i i (List.getElem?_range hi)
      obtain ⟨v, h3, h4⟩ := (rowE_get _ _ _ h1).2 j j (List.getElem?_range hj)
      rw [h3, List.getD_eq_getElem?_getD (l := rows), h2, Option.getD_some, List.getD_eq_getElem?_getD, h4, Option.getD_some]
    have hdiag : ∀ j < s.nLeads, (rows.getD j []).getD j 0 = 0 := by
      intro j hj
      have := hel j hj j hj
      unfold condEl at this
      rw [if_neg (by simp)] at this
      exact (Except.ok.inj this).symm
    constructor
    · intro j hj
      rw [← Finset.add_sum_erase _ _ (Finset.mem_range.mpr hj)]
      have e : ∀ i ∈ (range s.nLeads).erase j, setDiag s.nLeads (fun i j => (rows.getD i []).getD j 0) i j = (rows.getD i []).getD j 0 := by
        intro i hi
        unfold setDiag
        rw [if_neg (Finset.mem_erase.mp hi).1]
      rw [Finset.sum_congr rfl e]
      unfold setDiag
      rw [if_pos rfl, ← Finset.add_sum_erase _ _ (Finset.mem_range.mpr hj)]
      show -((rows.getD j []).getD j 0 + _) + _ = _
      rw [hdiag j hj]
      ring
    · intro i hi j hj hij
      have := hel i hi j hj
      unfold condEl at this
      rw [if_pos hij] at this
      unfold setDiag
      rw [if_neg hij]
      cases ht : transmission s i j with
      | error e => rw [ht] at this; cases this
      | ok v =>
        rw [ht] at this
        show Except.ok v = Except.ok (-((rows.getD i []).getD j 0))
        rw [← Except.ok.inj this, neg_neg]

theorem rowE_ok (f : ℕ → Except SErr ℝ) (l : List ℕ) (h : ∀ j ∈ l, ∃ v, f j = .ok v) : ∃ r, rowE f l = .ok r := by
  induction l with
  | nil => exact ⟨_, rfl⟩
  | cons x l ih =>
    obtain ⟨v, hv⟩ := h x (by simp)
    obtain ⟨w, hw⟩ := ih fun j hj => h j (List.mem_cons_of_mem _ hj)
    exact ⟨v :: w, by simp only [rowE, hv, hw]⟩

theorem rowsE_ok (f : ℕ → ℕ → Except SErr ℝ) (n : ℕ) (l : List ℕ) (h : ∀ i ∈ l, ∀ j < n, ∃ v, f i j = .ok v) :
    ∃ r, rowsE f n l = .ok r := by
  induction l with
  | nil => exact ⟨_, rfl⟩
  | cons x l ih =>
    obtain ⟨v, hv⟩ := rowE_ok (f x) (List.range n) fun j hj => h x (by simp) j (List.mem_range.mp hj)
    obtain ⟨w, hw⟩ := ih fun i hi => h i (List.mem_cons_of_mem _ hi)
    exact ⟨v :: w, by simp only [rowsE, hv, hw]⟩

/-- C54: with current conservation the rows sum to zero, too, and the diagonal elements are the numbers of modes minus the
reflections, whenever for every pair of different leads one has been calculated; it always succeeds if all leads have been. -/
theorem C54_rows {s : SMat} {S : FullS} (hp : PartOf s S) (hu : Unitary s.nLeads s.sizes S) {C : ℕ → ℕ → ℝ}
    (h : conductanceMatrix s = .ok C)
    (hpres : ∀ i < s.nLeads, ∀ j < s.nLeads, i ≠ j → i ∈ s.outLeads ∨ j ∈ s.inLeads) :
    (∀ i < s.nLeads, ∑ j ∈ range s.nLeads, C i j = 0) ∧
    (∀ i < s.nLeads, C i i = s.sizes i - trans s.sizes S i i) := by
  obtain ⟨h1, h2⟩ := C54_conductance h
  have hoff : ∀ i < s.nLeads, ∀ j < s.nLeads, i ≠ j → C i j = -trans s.sizes S i j := by
    intro i hi j hj hij
    have := C53_transmission_partial hp (fun _ => hu) hi hj (hpres i hi j hj hij) (h2 i hi j hj hij)
    linarith
  have hd : ∀ i < s.nLeads, C i i = s.sizes i - trans s.sizes S i i := by
    intro i hi
    have := h1 i hi
    rw [← Finset.add_sum_erase _ _ (Finset.mem_range.mpr hi)] at this
    have e : ∀ k ∈ (range s.nLeads).erase i, C k i = -trans s.sizes S k i := by
      intro k hk
      have hk' := Finset.mem_erase.mp hk
      exact hoff k (Finset.mem_range.mp hk'.2) i hi hk'.1
    rw [Finset.sum_congr rfl e, Finset.sum_neg_distrib, sum_erase_range _ _ hi, unitary_cols hu hi] at this
    linarith
  refine ⟨fun i hi => ?_, hd⟩
  rw [← Finset.add_sum_erase _ _ (Finset.mem_range.mpr hi), hd i hi]
  have e : ∀ k ∈ (range s.nLeads).erase i, C i k = -trans s.sizes S i k := by
    intro k hk
    have hk' := Finset.mem_erase.mp hk
    exact hoff i hi k (Finset.mem_range.mp hk'.2) (Ne.symm hk'.1)
  rw [Finset.sum_congr rfl e, Finset.sum_neg_distrib, sum_erase_range _ _ hi, unitary_rows hu hi]
  ring

/-- C54: if all leads have been calculated, `conductance_matrix` succeeds. -/
theorem C54_succeeds {s : SMat} {S : FullS} (hp : PartOf s S) (ho : ∀ l < s.nLeads, l ∈ s.outLeads) (hi : ∀ l < s.nLeads, l ∈ s.inLeads) :
    ∃ C, conductanceMatrix s = .ok C := by
  obtain ⟨r, hr⟩ := rowsE_ok (condEl s) s.nLeads (List.range s.nLeads) (by
    intro i hi' j hj
    unfold condEl
    by_cases hij : i = j
    · rw [if_neg (by simpa using hij)]; exact ⟨_, rfl⟩
    · rw [if_pos hij]
      obtain ⟨v, hv⟩ := (C53_returns hp i j).mpr (Or.inl ⟨ho i (List.mem_range.mp hi'), hi j hj⟩)
      rw [hv]; exact ⟨_, rfl⟩)
  unfold conductanceMatrix
  rw [hr]
  exact ⟨_, rfl⟩

end Kwant.Solver
