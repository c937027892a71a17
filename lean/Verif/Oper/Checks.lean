import Verif.Oper.Counter

/-!
C127: which onsite matrices and Hamiltonian blocks the operators accept.
-/

set_option linter.unusedSectionVars false

namespace Kwant.Oper
open Kwant Kwant.System Finset

section
variable {R P E F : Type} [CommRing R] [StarRing R] [DecidableEq R] [CLike R] [DecidableEq F]

/-- `m` is a square matrix with `n` rows, and Hermitian if that is to be checked. -/
def Acceptable (m : Mat R) (n : ℕ) (herm : Bool) : Prop :=
  m.rows = n ∧ m.cols = n ∧ (herm = true → ∀ i < n, ∀ j < n, m.val i j = star (m.val j i))

theorem isHermConj_iff (a b : Mat R) : isHermConj a b = true ↔ ∀ i < a.rows, ∀ j < a.cols, a.val i j = star (b.val j i) := by
  unfold isHermConj
  simp only [List.all_eq_true, List.mem_range, decide_eq_true_eq]

theorem checkOnsite_acc (m : Mat R) (n : ℕ) (herm : Bool) : checkOnsite (E := E) m n herm = .ok () ↔ Acceptable m n herm := by
  rw [checkOnsite_iff, isHermConj_iff]
  unfold Acceptable
  constructor
  · rintro ⟨rfl, h2, h3⟩
    exact ⟨rfl, h2, fun h i hi j hj => h3 h i hi j (by omega)⟩
  · rintro ⟨rfl, h2, h3⟩
    exact ⟨rfl, h2, fun h i hi j hj => h3 h i hi j (by omega)⟩

theorem checkDict_iff (norbs : F → ℕ) (herm : Bool) (d : List (F × Mat R)) :
    checkDict (E := E) norbs herm d = .ok () ↔ ∀ e ∈ d, Acceptable e.2 (norbs e.1) herm := by
  induction d with
  | nil => simp [checkDict]
  | cons e d ih =>
    obtain ⟨f, m⟩ := e
    unfold checkDict
    cases hc : checkOnsite (E := E) m (norbs f) herm with
    | error x =>
      simp only [List.forall_mem_cons]
      refine ⟨fun h => (by cases h), fun h => ?_⟩
      rw [(checkOnsite_acc (E := E) m (norbs f) herm).mpr h.1] at hc; cases hc
    | ok u =>
      simp only [List.forall_mem_cons]
      rw [ih]
      exact ⟨fun h => ⟨(checkOnsite_acc (E := E) m (norbs f) herm).mp hc, h⟩, fun h => h.2⟩

/-- C127 (dictionary of onsites).  It is accepted if and only if the system has sites and the matrix of every family is square with as many
rows as the family has orbitals (and Hermitian, unless the check is switched off); then the onsite of a site is the matrix of its family. -/
theorem C127_dict (r : List (ℕ × ℕ × ℕ)) (hasSites : Bool) (fam : ℕ → F) (norbs : F → ℕ) (herm : Bool) (d : List (F × Mat R)) :
    ((∃ o, normalizeOnsite (P := P) (E := E) r hasSites fam norbs herm (.dict d) = .ok o) ↔
      hasSites = true ∧ ∀ e ∈ d, Acceptable e.2 (norbs e.1) herm) ∧
    ∀ o, normalizeOnsite (P := P) (E := E) r hasSites fam norbs herm (.dict d) = .ok o → ∃ f, o = .func f ∧
      ∀ i p, (∀ m, Assoc.get d (fam i) = some m → f i p = .ok m) ∧ (Assoc.get d (fam i) = none → f i p = .error .key) := by
  unfold normalizeOnsite
  simp only
  cases hasSites with
  | false => simp
  | true =>
    simp only [Bool.not_true, Bool.false_eq_true, if_false, true_and]
    rw [← checkDict_iff (E := E) norbs herm d]
    cases hc : checkDict (E := E) norbs herm d with
    | error e => simp
    | ok u =>
      refine ⟨⟨fun _ => rfl, fun _ => ⟨_, rfl⟩⟩, fun o ho => ?_⟩
      injection ho with ho
      subst ho
      refine ⟨_, rfl, fun i p => ⟨fun m hm => ?_, fun hm => ?_⟩⟩
      · unfold dictOnsite; rw [hm]
      · unfold dictOnsite; rw [hm]

theorem dedup_single (l : List ℕ) (n : ℕ) : l.dedup = [n] ↔ l ≠ [] ∧ ∀ x ∈ l, x = n := by
  constructor
  · intro h
    refine ⟨by rintro rfl; simp at h, fun x hx => ?_⟩
    have := List.mem_dedup.mpr hx
    rw [h] at this
    simpa using this
  · rintro ⟨hne, hall⟩
    have h1 : ∀ x ∈ l.dedup, x = n := fun x hx => hall x (List.mem_dedup.mp hx)
    have h2 := List.nodup_dedup l
    have h3 : n ∈ l.dedup := by
      obtain ⟨x, hx⟩ := List.exists_mem_of_ne_nil l hne
      rw [← hall x hx]; exact List.mem_dedup.mpr hx
    match hd : l.dedup with
    | [] => rw [hd] at h3; simp at h3
    | [x] => rw [hd] at h1; rw [h1 x (by simp)]
    | x :: y :: t =>
      rw [hd] at h1 h2
      have e1 := h1 x (by simp)
      have e2 := h1 y (by simp)
      rw [e1, e2] at h2
      simp at h2

/-- C127 (single onsite matrix).  It is accepted if and only if it is square (and Hermitian, unless the check is switched off) and is a number, or all
sites of the system have as many orbitals as it has rows.  Then it is the onsite of all sites; a number `c` becomes `c` times an identity matrix. -/
theorem C127_single (r : List (ℕ × ℕ × ℕ)) (hasSites : Bool) (fam : ℕ → F) (norbs : F → ℕ) (herm : Bool) (m : Mat R) :
    ((∃ o, normalizeOnsite (P := P) (E := E) r hasSites fam norbs herm (.single m) = .ok o) ↔
      Acceptable m m.rows herm ∧ (m.rows = 1 ∨ r.dropLast ≠ [] ∧ ∀ e ∈ r.dropLast, e.2.1 = m.rows)) ∧
    ∀ o, normalizeOnsite (P := P) (E := E) r hasSites fam norbs herm (.single m) = .ok o →
      (m.rows ≠ 1 → o = .mat m) ∧ (m.rows = 1 → o = .mat (scalarMat (m.val 0 0) (maxNorbs r))) := by
  unfold normalizeOnsite
  simp only
  rw [← checkOnsite_acc (E := E)]
  cases hc : checkOnsite (E := E) m m.rows herm with
  | error e => simp
  | ok u =>
    simp only [true_and]
    by_cases h1 : m.rows = 1
    · rw [if_pos h1]
      refine ⟨⟨fun _ => Or.inl h1, fun _ => ⟨_, rfl⟩⟩, fun o ho => ?_⟩
      injection ho with ho
      exact ⟨fun h => absurd h1 h, fun _ => ho.symm⟩
    · rw [if_neg h1]
      have hl : (r.dropLast ≠ [] ∧ ∀ e ∈ r.dropLast, e.2.1 = m.rows) ↔ (r.dropLast.map fun e => e.2.1).dedup = [m.rows] := by
        rw [dedup_single, List.forall_mem_map, Ne, Ne, List.map_eq_nil_iff]
      rw [hl]
      simp only [h1, false_or]
      cases hd : (r.dropLast.map fun e => e.2.1).dedup with
      | nil => simp
      | cons n t =>
        cases t with
        | nil =>
          simp only
          by_cases hn : m.rows = n
          · rw [if_neg (by simpa using hn)]
            refine ⟨⟨fun _ => by rw [hn], fun _ => ⟨_, rfl⟩⟩, fun o ho => ?_⟩
            injection ho with ho
            exact ⟨fun _ => ho.symm, fun h => absurd h (by simp)⟩
          · rw [if_pos hn]
            refine ⟨⟨fun h => (by obtain ⟨o, ho⟩ := h; cases ho), fun h => ?_⟩, fun o ho => (by cases ho)⟩
            simp only [List.cons.injEq, and_true] at h
            exact absurd h.symm hn
        | cons y t => simp

/-- C127 (hoppings).  With the check for Hermiticity, a Hamiltonian block of the right shape between different sites is accepted if and only if the
block in the opposite direction can be obtained and is its Hermitian conjugate. -/
theorem C127_hopping (H : Mat R) (ham : ℕ → ℕ → Except E (Mat R)) (a aN b bN : ℕ) (hab : a ≠ b) (hr : H.rows = aN) (hc : H.cols = bN)
    (hs : ∀ Hc, ham b a = .ok Hc → Hc.rows = bN ∧ Hc.cols = aN) :
    checkHam H ham a aN b bN true = .ok () ↔ ∃ Hc, ham b a = .ok Hc ∧ ∀ i < aN, ∀ j < bN, Hc.val j i = star (H.val i j) := by
  unfold checkHam hamShapeBad
  rw [if_neg (by simp [hr]), if_pos rfl, if_neg hab]
  cases hh : ham b a with
  | error e => simp
  | ok Hc =>
    simp only [Except.ok.injEq, exists_eq_left']
    obtain ⟨h1, h2⟩ := hs Hc hh
    rw [← h1, ← h2]
    by_cases hq : isHermConj Hc H = true
    · rw [if_pos hq]
      exact ⟨fun _ i hi j hj => (isHermConj_iff Hc H).mp hq j hj i hi, fun _ => rfl⟩
    · rw [if_neg hq]
      refine ⟨fun h => (by cases h), fun h => absurd ((isHermConj_iff Hc H).mpr fun i hi j hj => h j hj i hi) hq⟩

/-- C127 (onsite blocks). The block of a site is accepted if and only if it is Hermitian. -/
theorem C127_onsite_block (H : Mat R) (ham : ℕ → ℕ → Except E (Mat R)) (a n : ℕ) (hr : H.rows = n) (hc : H.cols = n) :
    checkHam H ham a n a n true = .ok () ↔ ∀ i < n, ∀ j < n, H.val i j = star (H.val j i) := by
  unfold checkHam hamShapeBad
  rw [if_neg (by simp [hr]), if_pos rfl, if_pos rfl]
  simp only
  by_cases hq : isHermConj H H = true
  · rw [if_pos hq]
    exact ⟨fun _ i hi j hj => (isHermConj_iff H H).mp hq i (by omega) j (by omega), fun _ => rfl⟩
  · rw [if_neg hq]
    refine ⟨fun h => (by cases h), fun h => absurd ((isHermConj_iff H H).mpr fun i hi j hj => h i (by omega) j (by omega)) hq⟩

end

/-- A system with two orbitals on each of three sites: the Pauli matrix `sigma_y` is accepted, a 3 by 3 matrix is not. -/
example : (∃ o, normalizeOnsite (R := ℂ) (P := Unit) (E := Unit) (F := Unit) [(0, 2, 0), (3, 0, 6)] true (fun _ => ()) (fun _ => 2) true
      (.single ⟨2, 2, fun i j => if i = j then 0 else if i < j then -Complex.I else Complex.I⟩) = .ok o) ∧
    ¬ ∃ o, normalizeOnsite (R := ℂ) (P := Unit) (E := Unit) (F := Unit) [(0, 2, 0), (3, 0, 6)] true (fun _ => ()) (fun _ => 2) true (.single ⟨3, 3, fun _ _ => 0⟩) = .ok o := by
  rw [(C127_single _ _ _ _ _ _).1, (C127_single _ _ _ _ _ _).1]
  constructor
  · refine ⟨⟨rfl, rfl, fun _ i hi j hj => ?_⟩, Or.inr ⟨by simp, by simp⟩⟩
    by_cases hij : i = j
    · subst hij; simp
    · simp only [if_neg hij, if_neg (Ne.symm hij)]
      rcases lt_or_gt_of_ne hij with h | h
      · rw [if_pos h, if_neg (by omega)]; simp
      · rw [if_neg (by omega), if_pos h]; simp
  · rintro ⟨-, h | ⟨-, h⟩⟩
    · simp at h
    · simp at h

end Kwant.Oper
