import Mathlib.Algebra.BigOperators.Group.List.Basic
import Mathlib.Algebra.Order.Group.Nat
import Mathlib.Tactic.Ring
import Mathlib.Data.List.Basic

/-!
C43: `_site_ranges` (builder.py l.703-726), `_bisect` (operator.pyx l.36-45), `_get_orbs` (operator.pyx l.114-125),
`_get_tot_norbs` (operator.pyx l.151-157).

Simplifications: C integers are natural numbers; `norbs` of a family is `none` for `None`.
-/

namespace Kwant.System

variable {F : Type} [DecidableEq F] (norbs : F → Option ℕ)

/-- The loop of `_site_ranges` (builder.py l.715-725) from position `idx` on; `total`: `total_norbs`,
`cur`/`curN`: `current_fam`/`current_norbs`.  The ranges appended from here on are returned. -/
def srLoop : List F → ℕ → ℕ → Option F → ℕ → Option (List (ℕ × ℕ × ℕ))
  | [], idx, total, _, _ => some [(idx, 0, total)]
  | f :: fs, idx, total, cur, curN =>
    match norbs f with
    | none => none
    | some 0 => none
    | some (n + 1) =>
      if cur ≠ some f then
        match srLoop fs (idx + 1) (total + (n + 1)) (some f) (n + 1) with
        | none => none
        | some r => some ((idx, n + 1, total) :: r)
      else srLoop fs (idx + 1) (total + curN) cur curN

/-- `_site_ranges(sites)`, given the families of the sites (builder.py l.703-726). -/
def siteRanges (fams : List F) : Option (List (ℕ × ℕ × ℕ)) := srLoop norbs fams 0 0 none 0

/-- The loop of `_bisect` (operator.pyx l.39-44). -/
def bisectLoop (a : List ℕ) (x lo hi : ℕ) : ℕ :=
  if lo < hi then
    let mid := (lo + hi) / 2
    if x < a.getD mid 0 then bisectLoop a x lo mid else bisectLoop a x (mid + 1) hi
  else lo
termination_by hi - lo

/-- `_bisect` (operator.pyx l.36-45). -/
def bisect (a : List ℕ) (x : ℕ) : ℕ := bisectLoop a x 0 a.length

/-- `_get_orbs` (operator.pyx l.114-125): first orbital and number of orbitals of a site. -/
def getOrbs (r : List (ℕ × ℕ × ℕ)) (site : ℕ) : ℕ × ℕ :=
  let e := r.getD (bisect (r.map Prod.fst) site - 1) (0, 0, 0)
  (e.2.2 + (site - e.1) * e.2.1, e.2.1)

/-- `_get_tot_norbs` (operator.pyx l.151-157); `nSites` is `cell_size` or `graph.num_nodes`. -/
def totNorbs (r : List (ℕ × ℕ × ℕ)) (nSites : ℕ) : ℕ := (getOrbs r nSites).1

/-! ### Proofs -/

theorem bisectLoop_spec (a : List ℕ) (x : ℕ) (hs : a.Pairwise (· < ·)) (lo hi : ℕ) (hlo : lo ≤ hi) (hhi : hi ≤ a.length)
    (h1 : ∀ k, k < lo → a.getD k 0 ≤ x) (h2 : ∀ k, hi ≤ k → k < a.length → x < a.getD k 0) :
    bisectLoop a x lo hi ≤ a.length ∧ (∀ k, k < bisectLoop a x lo hi → a.getD k 0 ≤ x) ∧
      (∀ k, bisectLoop a x lo hi ≤ k → k < a.length → x < a.getD k 0) := by
  have hmono : ∀ i j, i ≤ j → j < a.length → a.getD i 0 ≤ a.getD j 0 := by
    intro i j hij hj
    simp only [List.getD_eq_getElem?_getD, List.getElem?_eq_getElem hj, List.getElem?_eq_getElem (show i < a.length by omega), Option.getD_some]
    rcases Nat.lt_or_eq_of_le hij with h | h
    · exact le_of_lt (List.pairwise_iff_getElem.mp hs i j (by omega) hj h)
    · subst h; exact le_refl _
  rw [bisectLoop]
  split
  · next hlt =>
    simp only
    have hmid : (lo + hi) / 2 < hi := by omega
    have hmid' : lo ≤ (lo + hi) / 2 := by omega
    split
    · next hx =>
      exact bisectLoop_spec a x hs lo _ hmid' (by omega) h1 (fun k hk hk' => lt_of_lt_of_le hx (hmono _ _ hk hk'))
    · next hx =>
      exact bisectLoop_spec a x hs _ hi (by omega) hhi
        (fun k hk => le_trans (hmono k _ (by omega) (by omega)) (not_lt.mp hx)) h2
  · next hlt =>
    have : lo = hi := by omega
    subst this
    exact ⟨hhi, h1, h2⟩
termination_by hi - lo

theorem bisect_spec (a : List ℕ) (x : ℕ) (hs : a.Pairwise (· < ·)) :
    bisect a x ≤ a.length ∧ (∀ k, k < bisect a x → a.getD k 0 ≤ x) ∧
      (∀ k, bisect a x ≤ k → k < a.length → x < a.getD k 0) :=
  bisectLoop_spec a x hs 0 _ (Nat.zero_le _) (le_refl _) (fun k hk => by omega) (fun k h1 h2 => by omega)

/-- The last entry that does not begin after `i`. -/
def lastLE (e0 : ℕ × ℕ × ℕ) : List (ℕ × ℕ × ℕ) → ℕ → ℕ × ℕ × ℕ
  | [], _ => e0
  | e :: r, i => if e.1 ≤ i then lastLE e r i else e0

theorem lastLE_eq (e0 : ℕ × ℕ × ℕ) (r : List (ℕ × ℕ × ℕ)) (hs : (r.map Prod.fst).Pairwise (· < ·)) (i k : ℕ)
    (hk : k ≤ r.length) (h1 : ∀ m, m < k → (r.map Prod.fst).getD m 0 ≤ i)
    (h2 : ∀ m, k ≤ m → m < r.length → i < (r.map Prod.fst).getD m 0) :
    lastLE e0 r i = (e0 :: r).getD k (0, 0, 0) := by
  induction r generalizing e0 k with
  | nil =>
    have : k = 0 := by simpa using hk
    subst this; rfl
  | cons e r ih =>
    simp only [List.map_cons, List.pairwise_cons] at hs
    cases k with
    | zero =>
      have := h2 0 (le_refl _) (by simp)
      simp only [List.map_cons, List.getD_cons_zero] at this
      simp [lastLE, Nat.not_le.mpr this]
    | succ k =>
      have := h1 0 (by omega)
      simp only [List.map_cons, List.getD_cons_zero] at this
      simp only [lastLE, this, if_true, List.getD_cons_succ]
      refine ih e hs.2 k (by simpa using hk) (fun m hm => ?_) (fun m hm hm' => ?_)
      · simpa using h1 (m + 1) (by omega)
      · simpa using h2 (m + 1) (by omega) (by simpa using hm')

/-- The number of orbitals of a family that has one. -/
def nOrb (f : F) : ℕ := (norbs f).getD 0

theorem lastLE_of_gt (e0 : ℕ × ℕ × ℕ) (r : List (ℕ × ℕ × ℕ)) (i : ℕ) (h : ∀ e ∈ r, i < e.1) : lastLE e0 r i = e0 := by
  cases r with
  | nil => rfl
  | cons e r => simp only [lastLE]; rw [if_neg]; have := h e (by simp); omega

/-- What the loop returns after the first site. -/
theorem srLoop_spec (fams : List F) (idx total : ℕ) (c : F) (curN : ℕ) (hc : norbs c = some curN)
    (hpos : ∀ f ∈ fams, ∃ n, norbs f = some n ∧ 0 < n) :
    ∃ r, srLoop norbs fams idx total (some c) curN = some r ∧ (r.map Prod.fst).Pairwise (· < ·) ∧
      (∀ e ∈ r, idx ≤ e.1) ∧
      ∀ i, idx ≤ i → i ≤ idx + fams.length → ∀ e0 : ℕ × ℕ × ℕ,
        e0.1 ≤ idx → e0.2.1 = curN → e0.2.2 + (idx - e0.1) * curN = total →
        (lastLE e0 r i).2.2 + (i - (lastLE e0 r i).1) * (lastLE e0 r i).2.1 =
          total + ((fams.take (i - idx)).map (nOrb norbs)).sum ∧
        (lastLE e0 r i).2.1 = ((fams[i - idx]?).map (nOrb norbs)).getD 0 := by
  induction fams generalizing idx total c curN with
  | nil =>
    refine ⟨[(idx, 0, total)], rfl, by simp, by simp, ?_⟩
    intro i h1 h2 e0 _ _ _
    have : i = idx := by simp at h2; omega
    subst this
    simp [lastLE]
  | cons f fs ih =>
    obtain ⟨n, hn, hn0⟩ := hpos f (by simp)
    obtain ⟨m, rfl⟩ : ∃ m, n = m + 1 := ⟨n - 1, by omega⟩
    have hnf : nOrb norbs f = m + 1 := by simp [nOrb, hn]
    by_cases hcur : c = f
    · subst hcur
      rw [hc] at hn
      have hcN : curN = m + 1 := Option.some.inj hn
      subst hcN
      obtain ⟨r, hr, hs, hge, hsp⟩ := ih (idx + 1) (total + (m + 1)) c (m + 1) hc (fun g hg => hpos g (by simp [hg]))
      refine ⟨r, by simp [srLoop, hc, hr], hs, fun e he => by have := hge e he; omega, ?_⟩
      intro i h1 h2 e0 g1 g2 g3
      rcases Nat.eq_or_lt_of_le h1 with h | h
      · subst h
        rw [lastLE_of_gt e0 r idx (fun e he => by have := hge e he; omega), g2]
        simp [g3, hnf]
      · have hstep : e0.2.2 + (idx + 1 - e0.1) * (m + 1) = total + (m + 1) := by
          rw [show idx + 1 - e0.1 = (idx - e0.1) + 1 by omega, Nat.add_mul]; omega
        obtain ⟨k1, k2⟩ := hsp i (by omega) (by simp at h2; omega) e0 (by omega) g2 hstep
        rw [k1, k2]
        rw [show i - idx = (i - (idx + 1)) + 1 by omega]
        simp only [List.take_succ_cons, List.map_cons, List.sum_cons, hnf, List.getElem?_cons_succ]
        exact ⟨by omega, trivial⟩
    · obtain ⟨r, hr, hs, hge, hsp⟩ := ih (idx + 1) (total + (m + 1)) f (m + 1) hn (fun g hg => hpos g (by simp [hg]))
      refine ⟨(idx, m + 1, total) :: r, by simp [srLoop, hn, hr, hcur], ?_, ?_, ?_⟩
      · simp only [List.map_cons, List.pairwise_cons]
        refine ⟨?_, hs⟩
        intro a ha
        obtain ⟨e, he, rfl⟩ := List.mem_map.mp ha
        have := hge e he; omega
      · intro e he
        rcases List.mem_cons.mp he with rfl | he
        · exact le_refl _
        · have := hge e he; omega
      · intro i h1 h2 e0 g1 g2 g3
        simp only [lastLE, h1, if_true]
        rcases Nat.eq_or_lt_of_le h1 with h | h
        · subst h
          rw [lastLE_of_gt _ r idx (fun e he => by have := hge e he; omega)]
          simp [hnf]
        · obtain ⟨k1, k2⟩ := hsp i (by omega) (by simp at h2; omega) (idx, m + 1, total) (by simp) rfl (by simp)
          rw [k1, k2]
          rw [show i - idx = (i - (idx + 1)) + 1 by omega]
          simp only [List.take_succ_cons, List.map_cons, List.sum_cons, hnf, List.getElem?_cons_succ]
          exact ⟨by omega, trivial⟩

theorem siteRanges_spec (fams : List F) (hpos : ∀ f ∈ fams, ∃ n, norbs f = some n ∧ 0 < n) :
    ∃ e r, siteRanges norbs fams = some (e :: r) ∧ ((e :: r).map Prod.fst).Pairwise (· < ·) ∧ e.1 = 0 ∧
      ∀ i, i ≤ fams.length →
        (lastLE e r i).2.2 + (i - (lastLE e r i).1) * (lastLE e r i).2.1 = ((fams.take i).map (nOrb norbs)).sum ∧
        (lastLE e r i).2.1 = ((fams[i]?).map (nOrb norbs)).getD 0 := by
  cases fams with
  | nil =>
    refine ⟨(0, 0, 0), [], rfl, by simp, rfl, ?_⟩
    intro i hi
    simp [lastLE]
  | cons f fs =>
    obtain ⟨n, hn, hn0⟩ := hpos f (by simp)
    obtain ⟨m, rfl⟩ : ∃ m, n = m + 1 := ⟨n - 1, by omega⟩
    have hnf : nOrb norbs f = m + 1 := by simp [nOrb, hn]
    obtain ⟨r, hr, hs, hge, hsp⟩ := srLoop_spec norbs fs 1 (m + 1) f (m + 1) hn (fun g hg => hpos g (by simp [hg]))
    refine ⟨(0, m + 1, 0), r, by simp [siteRanges, srLoop, hn, hr], ?_, rfl, ?_⟩
    · simp only [List.map_cons, List.pairwise_cons]
      refine ⟨?_, hs⟩
      intro a ha
      obtain ⟨e, he, rfl⟩ := List.mem_map.mp ha
      have := hge e he; omega
    · intro i hi
      rcases Nat.eq_zero_or_pos i with h | h
      · subst h
        rw [lastLE_of_gt _ r 0 (fun e he => by have := hge e he; omega)]
        simp [hnf]
      · obtain ⟨k1, k2⟩ := hsp i h (by simp at hi; omega) (0, m + 1, 0) (by simp) rfl (by simp)
        rw [k1, k2]
        obtain ⟨j, rfl⟩ : ∃ j, i = j + 1 := ⟨i - 1, by omega⟩
        simp [hnf]

theorem getOrbs_eq (e : ℕ × ℕ × ℕ) (r : List (ℕ × ℕ × ℕ)) (hs : ((e :: r).map Prod.fst).Pairwise (· < ·)) (h0 : e.1 = 0)
    (i : ℕ) : getOrbs (e :: r) i =
      ((lastLE e r i).2.2 + (i - (lastLE e r i).1) * (lastLE e r i).2.1, (lastLE e r i).2.1) := by
  obtain ⟨b1, b2, b3⟩ := bisect_spec ((e :: r).map Prod.fst) i hs
  have hpos : 0 < bisect ((e :: r).map Prod.fst) i := by
    by_contra hz
    have := b3 0 (by omega) (by simp)
    simp [h0] at this
  obtain ⟨k, hk⟩ : ∃ k, bisect ((e :: r).map Prod.fst) i = k + 1 := ⟨bisect ((e :: r).map Prod.fst) i - 1, by omega⟩
  rw [hk] at b1 b2 b3
  have hl := lastLE_eq e r (List.pairwise_cons.mp (by simpa using hs : (e.1 :: r.map Prod.fst).Pairwise (· < ·))).2 i k
    (by simpa using b1)
    (fun m hm => by simpa using b2 (m + 1) (by omega)) (fun m hm hm' => by simpa using b3 (m + 1) (by omega) (by simpa using hm'))
  simp only [getOrbs, hk, Nat.add_sub_cancel, hl]

/-- C43: if all families have a positive number of orbitals, the ranges exist, and looking a site up by bisection
gives the total number of orbitals of the sites before it, and its number of orbitals. -/
theorem C43_getOrbs (fams : List F) (hpos : ∀ f ∈ fams, ∃ n, norbs f = some n ∧ 0 < n) :
    ∃ r, siteRanges norbs fams = some r ∧
      (∀ i (hi : i < fams.length), getOrbs r i =
        (((fams.take i).map fun f => (norbs f).getD 0).sum, (norbs fams[i]).getD 0)) ∧
      (∀ n, n ≤ fams.length → totNorbs r n = ((fams.take n).map fun f => (norbs f).getD 0).sum) := by
  obtain ⟨e, r, h1, h2, h3, h4⟩ := siteRanges_spec norbs fams hpos
  refine ⟨e :: r, h1, ?_, ?_⟩
  · intro i hi
    obtain ⟨k1, k2⟩ := h4 i (by omega)
    rw [getOrbs_eq e r h2 h3, k1, k2, List.getElem?_eq_getElem hi]
    rfl
  · intro n hn
    obtain ⟨k1, _⟩ := h4 n hn
    rw [totNorbs, getOrbs_eq e r h2 h3]
    exact k1

theorem srLoop_none (fams : List F) (idx total : ℕ) (cur : Option F) (curN : ℕ)
    (h : ∃ f ∈ fams, norbs f = none ∨ norbs f = some 0) : srLoop norbs fams idx total cur curN = none := by
  induction fams generalizing idx total cur curN with
  | nil => obtain ⟨f, hf, _⟩ := h; cases hf
  | cons g fs ih =>
    simp only [srLoop]
    split
    · rfl
    · rfl
    · next n hn =>
      have : ∃ f ∈ fs, norbs f = none ∨ norbs f = some 0 := by
        obtain ⟨f, hf, hf'⟩ := h
        rcases List.mem_cons.mp hf with rfl | hf
        · rw [hn] at hf'; rcases hf' with h | h <;> cases h
        · exact ⟨f, hf, hf'⟩
      split
      · rw [ih _ _ _ _ this]
      · exact ih _ _ _ _ this

/-- C43: there are no ranges exactly if the number of orbitals of some site is not given (or zero). -/
theorem C43_none (fams : List F) :
    siteRanges norbs fams = none ↔ ∃ f ∈ fams, norbs f = none ∨ norbs f = some 0 := by
  constructor
  · intro h
    by_contra hx
    push Not at hx
    obtain ⟨r, hr, _⟩ := C43_getOrbs norbs fams (fun f hf => by
      obtain ⟨h1, h2⟩ := hx f hf
      cases hn : norbs f with
      | none => exact absurd hn h1
      | some n => exact ⟨n, rfl, Nat.pos_of_ne_zero (by rintro rfl; exact h2 hn)⟩)
    rw [h] at hr; cases hr
  · exact srLoop_none norbs fams 0 0 none 0

/-- A concrete case: families 0, 0, 1 with 2 and 3 orbitals. -/
example : siteRanges (fun f : ℕ => some (f + 2)) [0, 0, 1] = some [(0, 2, 0), (2, 3, 4), (3, 0, 7)] := by decide

end Kwant.System
