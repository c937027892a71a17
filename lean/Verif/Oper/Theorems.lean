import Verif.Oper.Props
import Verif.System.SubLemmas
import Mathlib.Data.Complex.Basic

/-!
C56 (`Density`), C57 (`Current`, `Source`), C58 (`bind`): the theorems.
-/

set_option linter.unusedSectionVars false

namespace Kwant.Oper
open Kwant Kwant.System Finset

section
variable {R P E F : Type} [CommRing R] [StarRing R] [DecidableEq R] [CLike R] [DecidableEq F]

theorem take_map_sum (g : ℕ → ℕ) (l : List ℕ) : (l.map g).sum = ∑ i ∈ range l.length, (l.map g).getD i 0 := by
  induction l with
  | nil => simp
  | cons x l ih =>
    rw [List.map_cons, List.sum_cons, List.length_cons, Finset.sum_range_succ']
    simp [List.getD_cons_succ, ih, add_comm]

/-- The hypothesis on the ranges holds for the site ranges of every finalized builder with declared orbital numbers. -/
theorem goodRanges_of_fams (norbs : F → Option ℕ) (fams : List F) (hpos : ∀ f ∈ fams, ∃ n, norbs f = some n ∧ 0 < n)
    (n : ℕ) (hn : n ≤ fams.length) :
    ∃ r, siteRanges norbs fams = some r ∧ GoodRanges r n fun a => ((fams.map fun f => (norbs f).getD 0).getD a 0) := by
  obtain ⟨r, h1, h2, h3⟩ := C43_getOrbs norbs fams hpos
  have hsum : ∀ m, m ≤ fams.length → ((fams.take m).map fun f => (norbs f).getD 0).sum =
      firstOrb (fun a => ((fams.map fun f => (norbs f).getD 0).getD a 0)) m := by
    intro m hm
    induction m with
    | zero => simp [firstOrb]
    | succ m ih =>
      unfold firstOrb at ih ⊢
      rw [Finset.sum_range_succ, ← ih (by omega), List.take_add_one, List.map_append, List.sum_append]
      simp [List.getD_eq_getElem?_getD, List.getElem?_eq_getElem (show m < fams.length by omega)]
  refine ⟨r, h1, ?_, ?_⟩
  · intro a ha
    rw [h2 a (by omega), hsum a (by omega)]
    simp [List.getD_eq_getElem?_getD, List.getElem?_eq_getElem (show a < fams.length by omega)]
  · rw [h3 n hn, hsum n hn]

/-! ### C56 -/

/-- C56: the value of a density on element `w` of `where` is `∑_{αβ} φ*_α Q_{wαβ} ψ_β`, where `Q_w` is the onsite matrix on
the site; in particular nothing is lost by taking the real part when `bra` and `ket` coincide. -/
theorem C56_call_partial {norb : ℕ → ℕ} {op : Op R P E} (hk : op.kind = .density) (hreg : Regular norb op) (hu : Unbound op)
    {junk : ℕ → R} {p : Option P} {bra : List R} {ket : Option (List R)} {v : List R} (h : callVec junk op bra ket p = .ok v) :
    v.length = op.wh.length ∧ ∀ w a b : ℕ, op.wh[w]? = some (a, b) → ∃ M, OnsiteIs op p a M ∧
      v[w]? = some (matEl (firstOrb norb op.nSites) (fun i => bra.getD i 0) (densityQ norb a M.val) (fun i => (ket.getD bra).getD i 0)) := by
  obtain ⟨⟨Q, hQ⟩, hall⟩ := operator_call hreg hu h
  rw [hall Q hQ]
  refine ⟨by simp, fun w a b hw => ?_⟩
  obtain ⟨M, H, h1, _, h3⟩ := hQ w a b hw
  have hlt := (List.getElem?_eq_some_iff.mp hw).1
  refine ⟨M, h1, ?_⟩
  rw [List.getElem?_map, List.getElem?_range hlt, Option.map_some, h3, hk]
  rfl

/-- C56, C57: what `act` returns, contracted with a bra, is the sum of what calling returns. -/
theorem C56_act_call_partial {norb : ℕ → ℕ} {op : Op R P E} (hreg : Regular norb op) (hu : Unbound op) {junk : ℕ → R} {p : Option P}
    {bra ket out v : List R} (h : callVec junk op bra (some ket) p = .ok v) (h' : act junk op ket p = .ok out) :
    out.length = firstOrb norb op.nSites ∧
      ∑ α ∈ range (firstOrb norb op.nSites), star (bra.getD α 0) * out.getD α 0 = v.sum := by
  obtain ⟨⟨Q, hQ⟩, hall⟩ := operator_call hreg hu h
  obtain ⟨_, hact⟩ := operator_act hreg hu h'
  rw [hall Q hQ, hact Q hQ]
  refine ⟨by simp, ?_⟩
  have hs : ∀ (n : ℕ) (f : ℕ → R), ((List.range n).map f).sum = ∑ i ∈ range n, f i := by
    intro n f
    induction n with
    | zero => simp
    | succ n ih => rw [List.range_succ, List.map_append, List.sum_append, ih, Finset.sum_range_succ]; simp
  rw [hs]
  have e : ∀ α ∈ range (firstOrb norb op.nSites), star (bra.getD α 0) *
      ((List.range (firstOrb norb op.nSites)).map fun α => ∑ w ∈ range op.wh.length,
        applyTo (firstOrb norb op.nSites) (Q w) (fun i => ket.getD i 0) α).getD α 0 =
      ∑ w ∈ range op.wh.length, ∑ β ∈ range (firstOrb norb op.nSites), star (bra.getD α 0) * Q w α β * ket.getD β 0 := by
    intro α hα
    rw [List.getD_eq_getElem?_getD (l := List.map _ _), List.getElem?_map, List.getElem?_range (Finset.mem_range.mp hα), Option.map_some,
      Option.getD_some, Finset.mul_sum]
    refine Finset.sum_congr rfl fun w _ => ?_
    unfold applyTo
    rw [Finset.mul_sum]
    refine Finset.sum_congr rfl fun β _ => ?_
    ring
  rw [Finset.sum_congr rfl e, Finset.sum_comm]
  rfl

/-- C56, C57: the sum of the tensors acts. -/
theorem C56_act_partial {norb : ℕ → ℕ} {op : Op R P E} (hreg : Regular norb op) (hu : Unbound op) {junk : ℕ → R} {p : Option P}
    {ket out : List R} (h : act junk op ket p = .ok out) {Q : ℕ → ℕ → ℕ → R} (hQ : IsTensor norb op p Q) :
    out = (List.range (firstOrb norb op.nSites)).map fun α =>
        ∑ w ∈ range op.wh.length, ∑ β ∈ range (firstOrb norb op.nSites), Q w α β * ket.getD β 0 :=
  (operator_act hreg hu h).2 Q hQ

/-- C56, C57: with `sum=True` the sum of the elements is returned. -/
theorem C56_sum (junk : ℕ → R) (op : Op R P E) (bra : List R) (ket : Option (List R)) (p : Option P) :
    call junk op bra ket p = (callVec junk op bra ket p).map fun v => if op.sum then Sum.inr v.sum else Sum.inl v := by
  unfold call
  cases callVec junk op bra ket p <;> rfl

theorem entry_sum (X : ℕ → ℕ → R) (s n α β : ℕ) :
    ((List.range (n * n)).map fun k => if (s + k / n, s + k % n) = (α, β) then X (k / n) (k % n) else 0).sum =
      if (s ≤ α ∧ α < s + n) ∧ (s ≤ β ∧ β < s + n) then X (α - s) (β - s) else 0 := by
  have hs : ∀ (n : ℕ) (f : ℕ → R), ((List.range n).map f).sum = ∑ i ∈ range n, f i := by
    intro n f
    induction n with
    | zero => simp
    | succ n ih => rw [List.range_succ, List.map_append, List.sum_append, ih, Finset.sum_range_succ]; simp
  rw [hs]
  split
  · next h =>
    obtain ⟨⟨h1, h2⟩, h3, h4⟩ := h
    have hd : ((α - s) * n + (β - s)) / n = α - s := by
      rw [Nat.add_comm, Nat.add_mul_div_right _ _ (by omega), Nat.div_eq_of_lt (by omega), Nat.zero_add]
    have hm : ((α - s) * n + (β - s)) % n = β - s := by
      rw [Nat.add_comm, Nat.add_mul_mod_self_right, Nat.mod_eq_of_lt (by omega)]
    rw [Finset.sum_eq_single ((α - s) * n + (β - s))]
    · rw [hd, hm, if_pos]; rw [Prod.mk.injEq]; omega
    · intro k hk hne
      rw [if_neg]
      rw [Prod.mk.injEq]
      rintro ⟨e1, e2⟩
      apply hne
      have := Nat.div_add_mod k n
      rw [show k / n = α - s by omega, show k % n = β - s by omega] at this
      rw [← this, Nat.mul_comm]
    · intro hx
      exfalso; apply hx
      rw [Finset.mem_range]
      have h5 : α - s + 1 ≤ n := by omega
      have h6 := Nat.mul_le_mul_right n h5
      have h7 : (α - s + 1) * n = (α - s) * n + n := by ring
      omega
  · next h =>
    refine Finset.sum_eq_zero fun k hk => ?_
    rw [if_neg]
    rw [Prod.mk.injEq]
    rintro ⟨e1, e2⟩
    have hk' := Finset.mem_range.mp hk
    have hn : 0 < n := by rcases Nat.eq_zero_or_pos n with h0 | h0; · subst h0; simp at hk'
                          · exact h0
    have h1 : k / n < n := Nat.div_lt_of_lt_mul hk'
    have h2 : k % n < n := Nat.mod_lt _ hn
    apply h
    generalize k / n = x at *
    generalize k % n = y at *
    omega

theorem cooLoop_val (data : ℕ → R) (os ss : List (ℕ × ℕ)) (hl : os.length = ss.length) (k α β : ℕ) :
    cooVal (cooLoop data os ss k) α β = ∑ w ∈ range ss.length,
      ((List.range ((ss.getD w (0, 0)).1 * (ss.getD w (0, 0)).2)).map fun n =>
        if ((os.getD w (0, 0)).1 + n / (ss.getD w (0, 0)).2, (os.getD w (0, 0)).2 + n % (ss.getD w (0, 0)).2) = (α, β)
        then data (k + sizes (ss.take w) + n) else 0).sum := by
  induction ss generalizing os k with
  | nil => cases os <;> simp [cooLoop, cooVal]
  | cons s ss ih =>
    cases os with
    | nil => simp at hl
    | cons o os =>
      rw [cooLoop, cooVal_append, ih os (by simpa using hl), List.length_cons, Finset.sum_range_succ', add_comm]
      congr 1
      · refine Finset.sum_congr rfl fun w _ => ?_
        simp only [List.getD_cons_succ, List.take_succ_cons, sizes, List.map_cons, List.sum_cons]
        congr 1
        refine List.map_congr_left fun n _ => ?_
        rw [show k + s.1 * s.2 + (List.map (fun s => s.1 * s.2) (List.take w ss)).sum + n =
          k + (s.1 * s.2 + (List.map (fun s => s.1 * s.2) (List.take w ss)).sum) + n by omega]
      · simp only [List.getD_cons_zero, List.take_zero, sizes, List.map_nil, List.sum_nil, Nat.add_zero, cooVal, List.map_map]
        rfl

theorem sizes_const (n m : ℕ) (wh : List (ℕ × ℕ)) : sizes (wh.map fun _ => (n, m)) = wh.length * (n * m) := by
  induction wh with
  | nil => simp [sizes]
  | cons x l ih => simp only [sizes, List.map_cons, List.sum_cons, List.length_cons] at ih ⊢; rw [ih]; ring

/-- C56: the matrix returned by `tocoo` is the sum of the onsite matrices on their sites.  A single onsite matrix must have
the size of every site (`hmat`; see `C56_tocoo_counterexample`). -/
theorem C56_tocoo_partial {norb : ℕ → ℕ} {op : Op R P E} (hk : op.kind = .density) (hreg : Regular norb op) (hu : Unbound op)
    (hmat : ∀ m, op.onsite = .mat m → ∀ h ∈ op.wh, m.rows = norb h.1 ∧ m.cols = norb h.1)
    {junk : ℕ → R} {p : Option P} {l : List ((ℕ × ℕ) × R)} (h : tocoo junk op p = .ok l) {Q : ℕ → ℕ → ℕ → R}
    (hQ : IsTensor norb op p Q) :
    (∀ e ∈ l, e.1.1 < firstOrb norb op.nSites ∧ e.1.2 < firstOrb norb op.nSites) ∧
    ∀ α β, cooVal l α β = ∑ w ∈ range op.wh.length, Q w α β := by
  unfold tocoo at h
  rw [if_neg (by simp [hu.1])] at h
  cases hb : cooBlocks junk op p with
  | error e => simp [hb] at h
  | ok r =>
    obtain ⟨os, ss, data⟩ := r
    simp only [hb] at h
    split at h
    · cases h
    · next hall =>
      cases h
      rw [hreg.ranges.2] at hall
      refine ⟨?_, ?_⟩
      · intro e he
        by_contra hx
        apply hall
        rw [List.any_eq_true]
        exact ⟨e, he, by simp only [Bool.or_eq_true, decide_eq_true_eq]; omega⟩
      intro α β
      -- description of the blocks
      have blocks : os.length = op.wh.length ∧ ss.length = op.wh.length ∧ ∀ w a b : ℕ, op.wh[w]? = some (a, b) →
          ∃ X, OnsiteIs op p a X ∧ os[w]? = some (firstOrb norb a, firstOrb norb a) ∧ ss[w]? = some (norb a, norb a) ∧
            ∀ n, n < norb a * norb a → data (0 + sizes (ss.take w) + n) = X.val (n / norb a) (n % norb a) := by
        have hdiag := hreg.diag (by simp [hk])
        unfold cooBlocks at hb
        unfold OnsiteIs
        cases hon : op.onsite with
        | mat m =>
          simp only [hon] at hb
          cases hb
          refine ⟨by simp [allOrbs], by simp, fun w a b hw => ⟨m, rfl, ?_, ?_, ?_⟩⟩
          · have hba : b = a := hdiag _ (List.mem_of_getElem? hw)
            subst hba
            exact (allOrbs_get hreg.ranges hreg.sites hw).1
          · obtain ⟨h1, h2⟩ := hmat m hon _ (List.mem_of_getElem? hw)
            rw [List.getElem?_map, hw, Option.map_some, h1, h2]
          · intro n hn
            obtain ⟨h1, h2⟩ := hmat m hon _ (List.mem_of_getElem? hw)
            simp only at h1 h2
            rw [← List.map_take, sizes_const, h1, h2, Nat.zero_add, Nat.add_comm]
            show flat junk m (_ % _) = _
            rw [Nat.add_mul_mod_self_right, Nat.mod_eq_of_lt hn]
            unfold flat
            rw [h1, h2, if_pos hn]
        | func f =>
          simp only [hon, hu.1] at hb
          cases hev : evalOnsites junk op f p with
          | error e => simp [hev] at hb
          | ok B =>
            simp only [hev] at hb
            cases hb
            obtain ⟨c1, c2, c3, _⟩ := C52_blocks hev
            have hlen1 : (allOrbs op.wh op.ranges).1.length = op.wh.length := by simp [allOrbs]
            have hlen2 : (allOrbs op.wh op.ranges).2.length = op.wh.length := by simp [allOrbs]
            refine ⟨by rw [c1, hlen1], by rw [c2, hlen2], fun w a b hw => ?_⟩
            have hba : b = a := hdiag _ (List.mem_of_getElem? hw)
            subst hba
            obtain ⟨q1, q2⟩ := allOrbs_get hreg.ranges hreg.sites hw
            obtain ⟨o, X, ho, _, hX, hv⟩ := c3 w b b _ _ hw q2
            refine ⟨X, (getOnsite_iff.mp hX).1, by rw [c1]; exact q1, by rw [c2]; exact q2, fun n hn => ?_⟩
            have hpos : 0 < norb b := by rcases Nat.eq_zero_or_pos (norb b) with h0 | h0
                                         · rw [h0] at hn; simp at hn
                                         · exact h0
            have := (hv (n / norb b) (Nat.div_lt_of_lt_mul hn) (n % norb b) (Nat.mod_lt _ hpos)).1
            rw [← this]
            have hoo : o = 0 + sizes (B.blockShapes.take w) := by
              unfold evalOnsites BSM.init at hev
              split at hev
              · cases hev
              · simp only at hev
                split at hev
                · cases hev
                · cases hev
                  rw [offsetsLoop_get _ _ _ (by rw [hlen2]; exact (List.getElem?_eq_some_iff.mp hw).1)] at ho
                  cases ho; rfl
            rw [hoo, Nat.add_assoc (0 + _), Nat.mul_comm (n / norb b), Nat.div_add_mod]
      obtain ⟨b1, b2, b3⟩ := blocks
      rw [cooLoop_val data os ss (by omega), b2]
      refine Finset.sum_congr rfl fun w hw => ?_
      have hw' := Finset.mem_range.mp hw
      obtain ⟨X, x1, x2, x3, x4⟩ := b3 w _ _ (List.getElem?_eq_getElem hw')
      obtain ⟨M, H, y1, _, y3⟩ := hQ w _ _ (List.getElem?_eq_getElem hw')
      have := x1.unique y1
      subst this
      rw [y3, hk]
      simp only [List.getD_eq_getElem?_getD, x2, x3, Option.getD_some, blockQ, densityQ, embed]
      rw [← entry_sum]
      congr 1
      refine List.map_congr_left fun n hn => ?_
      rw [x4 n (List.mem_range.mp hn)]

end
end Kwant.Oper
