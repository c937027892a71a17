import Verif.Qsymm.ToModel
import Mathlib.LinearAlgebra.LinearIndependent.Basic

/-!
# C152: model_to_builder
-/
set_option linter.unusedSectionVars false

namespace Kwant.Qsymm
open Complex

variable {D : ℕ}

/-! ## Specification -/

/-- The coefficient depends only on its symbols. -/
def Coeff.Ok (c : Coeff) : Prop := ∀ x y : Values, (∀ p ∈ c.names, x p = y p) → c.f x = c.f y

/-- Displacement between site `a` in some cell and site `b`, `R` cells further. -/
def Input.disp (p : Input D) (a : ℕ) (R : Fin D → ℤ) (b : ℕ) : Fin D → ℝ := p.coord b + ∑ i, (R i : ℝ) • p.lat i - p.coord a

/-- First orbital of an atom in the matrices of the model. -/
def Input.start (p : Input D) (a : ℕ) : ℕ := ((List.range a).map p.norbs).sum

/-- Well-formed input: the lattice vectors are independent, the order contains every atom once. -/
structure Input.Ok (p : Input D) : Prop where
  lat : LinearIndependent ℝ p.lat
  order : p.order.Perm (List.range p.n)
  coeffs : ∀ e ∈ p.model, e.coeff.Ok

/-- The Hamiltonian is Hermitian: terms of opposite displacements are conjugate. -/
def HermitianModel (m : List (Entry D)) (x : Values) : Prop :=
  ∀ r i j, component m x (-r) j i = (starRingEnd ℂ) (component m x r i j)

/-! ## Local models -/

/-- Value of a local model. -/
noncomputable def locVal (l : Local) (x : Values) (i j : ℕ) : ℂ := (l.map fun t => t.1.f x * t.2 i j).sum

theorem lookup_zip {names : List String} {x : Values} {s : String} (h : s ∈ names) :
    ((names.zip (names.map x)).lookup s).getD 0 = x s := by
  induction names with
  | nil => cases h
  | cons a l ih =>
    rw [List.map_cons, List.zip_cons_cons, List.lookup_cons]
    by_cases hs : s = a
    · subst hs; simp
    · have hb : (s == a) = false := by simpa using hs
      rw [hb]
      exact ih ((List.mem_cons.mp h).resolve_left hs)

theorem lambdify_eval {l : Local} (h : ∀ t ∈ l, t.1.Ok) (x : Values) (i j : ℕ) : (Local.lambdify l).eval x i j = locVal l x i j := by
  unfold Local.lambdify Val.eval locVal
  simp only
  congr 1
  apply List.map_congr_left
  intro t ht
  congr 1
  apply h t ht
  intro p hp
  apply lookup_zip
  unfold Local.names
  rw [List.mem_dedup, List.mem_flatMap]
  exact ⟨t, ht, hp⟩

section
variable {K : Type} [DecidableEq K]

/-- Value of a key of a dictionary. -/
noncomputable def dsum (d : List (K × Local)) (key : K) (x : Values) (i j : ℕ) : ℂ :=
  (d.map fun e => if e.1 = key then locVal e.2 x i j else 0).sum

theorem addTo_keys (d : List (K × Local)) (key : K) (v : Coeff × Mat) :
    (addTo d key v).map Prod.fst = if key ∈ d.map Prod.fst then d.map Prod.fst else d.map Prod.fst ++ [key] := by
  unfold addTo
  split_ifs with h
  · rw [List.map_map]
    apply List.map_congr_left
    intro e _
    simp only [Function.comp_apply]
    split_ifs <;> rfl
  · simp

theorem addTo_nodup {d : List (K × Local)} (hd : (d.map Prod.fst).Nodup) (key : K) (v : Coeff × Mat) :
    ((addTo d key v).map Prod.fst).Nodup := by
  rw [addTo_keys]
  split_ifs with h
  · exact hd
  · rw [List.nodup_append]
    refine ⟨hd, by simp, ?_⟩
    intro a ha b hb
    rw [List.mem_singleton] at hb
    subst hb
    exact fun h' => h (h' ▸ ha)

theorem addTo_coeffs {P : Coeff → Prop} {d : List (K × Local)} (hd : ∀ e ∈ d, ∀ t ∈ e.2, P t.1) (key : K) {v : Coeff × Mat} (hv : P v.1) :
    ∀ e ∈ addTo d key v, ∀ t ∈ e.2, P t.1 := by
  intro e he t ht
  unfold addTo at he
  split_ifs at he
  · obtain ⟨f, hf, rfl⟩ := List.mem_map.mp he
    split_ifs at ht with hk
    · rcases List.mem_append.mp ht with h | h
      · exact hd f hf t h
      · rw [List.mem_singleton] at h; rw [h]; exact hv
    · exact hd f hf t ht
  · rcases List.mem_append.mp he with h | h
    · exact hd e h t ht
    · rw [List.mem_singleton] at h
      subst h
      rw [List.mem_singleton] at ht
      rw [ht]; exact hv

theorem dsum_nodup {d : List (K × Local)} (hd : (d.map Prod.fst).Nodup) {e : K × Local} (he : e ∈ d) (x : Values) (i j : ℕ) :
    dsum d e.1 x i j = locVal e.2 x i j := by
  induction d with
  | nil => cases he
  | cons f d ih =>
    rw [List.map_cons, List.nodup_cons] at hd
    unfold dsum
    rw [List.map_cons, List.sum_cons]
    rcases List.mem_cons.mp he with rfl | h
    · rw [if_pos rfl, List.sum_eq_zero, add_zero]
      intro z hz
      obtain ⟨g, hg, rfl⟩ := List.mem_map.mp hz
      rw [if_neg]
      intro h
      exact hd.1 (List.mem_map.mpr ⟨g, hg, h⟩)
    · rw [if_neg, zero_add]
      · exact ih hd.2 h
      · intro h'
        exact hd.1 (List.mem_map.mpr ⟨e, h, h'.symm⟩)

theorem dsum_missing {d : List (K × Local)} {key : K} (h : key ∉ d.map Prod.fst) (x : Values) (i j : ℕ) : dsum d key x i j = 0 := by
  unfold dsum
  apply List.sum_eq_zero
  intro z hz
  obtain ⟨e, he, rfl⟩ := List.mem_map.mp hz
  rw [if_neg]
  intro h'
  exact h (List.mem_map.mpr ⟨e, he, h'⟩)

theorem dsum_addTo {d : List (K × Local)} (hd : (d.map Prod.fst).Nodup) (key key' : K) (v : Coeff × Mat) (x : Values) (i j : ℕ) :
    dsum (addTo d key v) key' x i j = dsum d key' x i j + if key' = key then v.1.f x * v.2 i j else 0 := by
  unfold addTo
  split_ifs with h h' h'
  · subst h'
    obtain ⟨e, he, hek⟩ := List.mem_map.mp h
    have h1 := dsum_nodup hd he x i j
    rw [hek] at h1
    have hd2 := addTo_nodup hd key' v
    have he2 : (e.1, e.2 ++ [v]) ∈ addTo d key' v := by
      unfold addTo
      rw [if_pos h]
      exact List.mem_map.mpr ⟨e, he, by rw [if_pos hek]⟩
    have h2 := dsum_nodup hd2 he2 x i j
    unfold addTo at h2
    rw [if_pos h] at h2
    simp only [hek] at h2
    rw [h1, h2]
    simp [locVal]
  · rw [add_zero]
    unfold dsum
    rw [List.map_map]
    congr 1
    apply List.map_congr_left
    intro e _
    simp only [Function.comp_apply]
    by_cases hk : e.1 = key
    · have hne : ¬ e.1 = key' := fun h => h' (h.symm.trans hk)
      rw [if_pos hk, if_neg hne, if_neg hne]
    · rw [if_neg hk]
  · subst h'
    unfold dsum
    simp [locVal]
  · have hne : ¬ key = key' := fun h => h' h.symm
    unfold dsum
    simp [hne]

end

/-! ## The dictionaries -/

section
variable {p : Input D}

/-- The step for a pair of atoms. -/
noncomputable def pairStep (p : Input D) (e : Entry D) (st : Dicts D) (ab : ℕ × ℕ) : Option (Dicts D) :=
  open Classical in if e.r = 0 then onsiteStep p e st ab else hoppingStep p e st ab

/-- The pair of atoms is compatible with the term. -/
def GoodPair (p : Input D) (e : Entry D) (a b : ℕ) : Prop :=
  p.hop e a b = 0 ∨ (e.r = 0 ∧ (a = b ∨ p.coord a = p.coord b)) ∨ (e.r ≠ 0 ∧ ∃ R, p.disp a R b = e.r)

theorem latBasis_some {lat : Fin D → Fin D → ℝ} {r : Fin D → ℝ} {R : Fin D → ℤ} (h : latBasis lat r = some R) :
    ∑ i, (R i : ℝ) • lat i = r := by
  unfold latBasis at h
  split_ifs at h with hex
  have := Option.some.inj h
  rw [← this]
  exact hex.choose_spec

theorem latBasis_isSome {lat : Fin D → Fin D → ℝ} {r : Fin D → ℝ} :
    (latBasis lat r).isSome ↔ ∃ R : Fin D → ℤ, ∑ i, (R i : ℝ) • lat i = r := by
  unfold latBasis
  split_ifs with hex
  · simp [hex]
  · simp [hex]

theorem lat_inj (hlat : LinearIndependent ℝ p.lat) {R S : Fin D → ℤ} (h : ∑ i, (R i : ℝ) • p.lat i = ∑ i, (S i : ℝ) • p.lat i) :
    R = S := by
  have h1 : ∑ i, ((R i : ℝ) - S i) • p.lat i = 0 := by
    simp only [sub_smul, Finset.sum_sub_distrib, h, sub_self]
  have h2 := Fintype.linearIndependent_iff.mp hlat _ h1
  funext i
  have := h2 i
  rw [sub_eq_zero] at this
  exact_mod_cast this

theorem disp_zero (p : Input D) (a : ℕ) : p.disp a 0 a = 0 := by simp [Input.disp]

theorem disp_reverse (p : Input D) (a b : ℕ) (R : Fin D → ℤ) : p.disp b (-R) a = -p.disp a R b := by
  simp only [Input.disp, Pi.neg_apply, Int.cast_neg, neg_smul, Finset.sum_neg_distrib]
  abel

theorem disp_inj (hlat : LinearIndependent ℝ p.lat) {a b : ℕ} {R S : Fin D → ℤ} (h : p.disp a R b = p.disp a S b) : R = S := by
  apply lat_inj hlat (p := p)
  have := congrArg (fun v => v + p.coord a - p.coord b) h
  simpa [Input.disp, add_comm] using this

theorem pairStep_isSome (p : Input D) (e : Entry D) (st : Dicts D) (a b : ℕ) : (pairStep p e st (a, b)).isSome ↔ GoodPair p e a b := by
  classical
  unfold pairStep GoodPair
  by_cases hr : e.r = 0
  · rw [if_pos hr]
    unfold onsiteStep
    simp only
    by_cases hab : a = b
    · rw [if_pos hab]; simp [hr, hab]
    · rw [if_neg hab]
      by_cases h0 : p.hop e a b = 0
      · rw [if_pos h0]; simp [h0]
      · rw [if_neg h0]
        by_cases hc : p.coord a ≠ p.coord b
        · rw [if_pos hc]; simp [h0, hr, hab, hc]
        · rw [if_neg hc]; simp [hr, not_not.mp hc]
  · rw [if_neg hr]
    unfold hoppingStep
    simp only
    by_cases h0 : p.hop e a b = 0
    · rw [if_pos h0]; simp [h0]
    · rw [if_neg h0, Option.isSome_map, latBasis_isSome]
      have key : ∀ R : Fin D → ℤ, (∑ i, (R i : ℝ) • p.lat i = e.r + p.coord a - p.coord b) ↔ p.disp a R b = e.r := by
        intro R
        unfold Input.disp
        constructor
        · intro h; rw [h]; abel
        · intro h; rw [← h]; abel
      simp only [key]
      constructor
      · intro h; exact .inr (.inr ⟨hr, h⟩)
      · rintro (h | h | h)
        · exact absurd h h0
        · exact absurd h.1 hr
        · exact h.2

/-- What the keys of the dictionaries are. -/
structure DictOk (p : Input D) (st : Dicts D) : Prop where
  nodup1 : (st.1.map Prod.fst).Nodup
  nodup2 : (st.2.map Prod.fst).Nodup
  keys1 : ∀ a ∈ st.1.map Prod.fst, a < p.n
  keys2 : ∀ k ∈ st.2.map Prod.fst, k.2.1 < p.n ∧ k.2.2 < p.n ∧ (k.2.1 ≠ k.2.2 ∨ k.1 ≠ 0)
  coeffs1 : ∀ e ∈ st.1, ∀ t ∈ e.2, ∃ f ∈ p.model, f.coeff = t.1
  coeffs2 : ∀ e ∈ st.2, ∀ t ∈ e.2, ∃ f ∈ p.model, f.coeff = t.1

open Classical in
/-- Contribution of a pair of atoms to the onsite of an atom. -/
noncomputable def onContr (p : Input D) (x : Values) (e : Entry D) (a i j : ℕ) (ab : ℕ × ℕ) : ℂ :=
  if ab = (a, a) ∧ e.r = 0 then e.coeff.f x * p.hop e a a i j else 0

open Classical in
/-- Contribution of a pair of atoms to a hopping. -/
noncomputable def hopContr (p : Input D) (x : Values) (e : Entry D) (a b : ℕ) (R : Fin D → ℤ) (i j : ℕ) (ab : ℕ × ℕ) : ℂ :=
  if ab = (a, b) ∧ (a ≠ b ∨ R ≠ 0) ∧ e.r = p.disp a R b then e.coeff.f x * p.hop e a b i j else 0

theorem add_keys2 {st : Dicts D} (h : DictOk p st) {a b : ℕ} (ha : a < p.n) (hb : b < p.n) {δ : Fin D → ℤ}
    (hne : a ≠ b ∨ δ ≠ 0) {v : Coeff × Mat} (hv : ∃ f ∈ p.model, f.coeff = v.1) : DictOk p (st.1, addTo st.2 (δ, a, b) v) where
  nodup1 := h.nodup1
  nodup2 := addTo_nodup h.nodup2 _ _
  keys1 := h.keys1
  keys2 := by
    intro k hk
    simp only [addTo_keys] at hk
    split_ifs at hk with hin
    · exact h.keys2 k hk
    · rcases List.mem_append.mp hk with hk | hk
      · exact h.keys2 k hk
      · rw [List.mem_singleton] at hk
        rw [hk]; exact ⟨ha, hb, hne⟩
  coeffs1 := h.coeffs1
  coeffs2 := addTo_coeffs (P := fun c => ∃ f ∈ p.model, f.coeff = c) h.coeffs2 _ hv

theorem pairStep_spec (hp : p.Ok) {e : Entry D} (he : e ∈ p.model) {st st' : Dicts D} (h : DictOk p st) {ab : ℕ × ℕ}
    (ha : ab.1 < p.n) (hb : ab.2 < p.n) (hst : pairStep p e st ab = some st') : DictOk p st' ∧
    (∀ x a i j, dsum st'.1 a x i j = dsum st.1 a x i j + onContr p x e a i j ab) ∧
    (∀ x a b R i j, dsum st'.2 (-R, a, b) x i j = dsum st.2 (-R, a, b) x i j + hopContr p x e a b R i j ab) := by
  classical
  obtain ⟨a0, b0⟩ := ab
  simp only at ha hb
  have hco : ∃ f ∈ p.model, f.coeff = e.coeff := ⟨e, he, rfl⟩
  unfold pairStep at hst
  have zero_case : p.hop e a0 b0 = 0 → (a0 ≠ b0 ∨ e.r ≠ 0) → st' = st → DictOk p st' ∧
    (∀ x a i j, dsum st'.1 a x i j = dsum st.1 a x i j + onContr p x e a i j (a0, b0)) ∧
    (∀ x a b R i j, dsum st'.2 (-R, a, b) x i j = dsum st.2 (-R, a, b) x i j + hopContr p x e a b R i j (a0, b0)) := by
    rintro h0 hne rfl
    refine ⟨h, ?_, ?_⟩
    · intro x a i j
      unfold onContr
      split_ifs with hc
      · obtain ⟨h1, h2⟩ := Prod.mk.inj hc.1
        subst h1; subst h2
        rw [h0]; simp
      · rw [add_zero]
    · intro x a b R i j
      unfold hopContr
      split_ifs with hc
      · obtain ⟨h1, h2⟩ := Prod.mk.inj hc.1
        subst h1; subst h2
        rw [h0]; simp
      · rw [add_zero]
  by_cases hr : e.r = 0
  · rw [if_pos hr] at hst
    unfold onsiteStep at hst
    simp only at hst
    by_cases hab : a0 = b0
    · subst hab
      rw [if_pos rfl] at hst
      obtain rfl := Option.some.inj hst
      refine ⟨⟨addTo_nodup h.nodup1 _ _, h.nodup2, ?_, h.keys2, addTo_coeffs (P := fun c => ∃ f ∈ p.model, f.coeff = c) h.coeffs1 _ hco, h.coeffs2⟩, ?_, ?_⟩
      · intro a hk
        simp only [addTo_keys] at hk
        split_ifs at hk with hin
        · exact h.keys1 a hk
        · rcases List.mem_append.mp hk with hk | hk
          · exact h.keys1 a hk
          · rw [List.mem_singleton] at hk
            rw [hk]; exact ha
      · intro x a i j
        rw [dsum_addTo h.nodup1]
        congr 1
        unfold onContr
        by_cases hc : a = a0
        · subst hc
          rw [if_pos rfl, if_pos ⟨rfl, hr⟩]
        · rw [if_neg hc, if_neg (fun h => hc (Prod.mk.inj h.1).1.symm)]
      · intro x a b R i j
        unfold hopContr
        rw [if_neg, add_zero]
        rintro ⟨h1, h2, h3⟩
        obtain ⟨h4, h5⟩ := Prod.mk.inj h1
        subst h4; subst h5
        rw [hr, ← disp_zero p a0] at h3
        have := disp_inj hp.lat h3
        exact h2.elim (fun h => h rfl) (fun h => h this.symm)
    · rw [if_neg hab] at hst
      by_cases h0 : p.hop e a0 b0 = 0
      · rw [if_pos h0] at hst
        exact zero_case h0 (.inl hab) (Option.some.inj hst).symm
      · rw [if_neg h0] at hst
        by_cases hc : p.coord a0 ≠ p.coord b0
        · rw [if_pos hc] at hst; cases hst
        · rw [if_neg hc] at hst
          obtain rfl := Option.some.inj hst
          have hc := not_not.mp hc
          refine ⟨add_keys2 h ha hb (.inl hab) hco, ?_, ?_⟩
          · intro x a i j
            unfold onContr
            rw [if_neg, add_zero]
            intro h'
            obtain ⟨h4, h5⟩ := Prod.mk.inj h'.1
            exact hab (h4.trans h5.symm)
          · intro x a b R i j
            rw [dsum_addTo h.nodup2]
            congr 1
            unfold hopContr
            by_cases hk : ((-R, a, b) : Kind D) = (-0, a0, b0)
            · obtain ⟨k1, k2⟩ := Prod.mk.inj hk
              obtain ⟨k2, k3⟩ := Prod.mk.inj k2
              have k1 : R = 0 := neg_injective k1
              subst k1; subst k2; subst k3
              have hd : e.r = p.disp a 0 b := by rw [hr]; simp [Input.disp, hc]
              rw [if_pos rfl, if_pos ⟨rfl, .inl hab, hd⟩]
            · rw [if_neg hk, if_neg]
              rintro ⟨h1, _, h3⟩
              obtain ⟨h4, h5⟩ := Prod.mk.inj h1
              subst h4; subst h5
              apply hk
              have : R = 0 := by
                apply disp_inj hp.lat (p := p) (a := a0) (b := b0)
                rw [← h3, hr]
                simp [Input.disp, hc]
              rw [this]
  · rw [if_neg hr] at hst
    unfold hoppingStep at hst
    simp only at hst
    by_cases h0 : p.hop e a0 b0 = 0
    · rw [if_pos h0] at hst
      exact zero_case h0 (.inr hr) (Option.some.inj hst).symm
    · rw [if_neg h0] at hst
      obtain ⟨R0, hR0, rfl⟩ := Option.map_eq_some_iff.mp hst
      have hd : p.disp a0 R0 b0 = e.r := by
        unfold Input.disp
        rw [latBasis_some hR0]
        abel
      have hne : a0 ≠ b0 ∨ R0 ≠ 0 := by
        by_contra hc
        rw [not_or, not_not, not_not] at hc
        obtain ⟨rfl, rfl⟩ := hc
        rw [disp_zero] at hd
        exact hr hd.symm
      refine ⟨add_keys2 h ha hb (hne.imp id (fun h => neg_ne_zero.mpr h)) hco, ?_, ?_⟩
      · intro x a i j
        unfold onContr
        rw [if_neg (fun h => hr h.2), add_zero]
      · intro x a b R i j
        rw [dsum_addTo h.nodup2]
        congr 1
        unfold hopContr
        by_cases hk : ((-R, a, b) : Kind D) = (-R0, a0, b0)
        · obtain ⟨k1, k2⟩ := Prod.mk.inj hk
          obtain ⟨k2, k3⟩ := Prod.mk.inj k2
          have k1 : R = R0 := neg_injective k1
          subst k1; subst k2; subst k3
          rw [if_pos rfl, if_pos ⟨rfl, hne, hd.symm⟩]
        · rw [if_neg hk, if_neg]
          rintro ⟨h1, _, h3⟩
          obtain ⟨h4, h5⟩ := Prod.mk.inj h1
          subst h4; subst h5
          apply hk
          rw [disp_inj hp.lat (h3.symm.trans hd.symm)]

theorem foldl_none {α β : Type} (f : α → β → Option α) (l : List β) :
    l.foldl (fun st b => st.bind fun st => f st b) none = none := by
  induction l with
  | nil => rfl
  | cons a l ih => rw [List.foldl_cons, Option.bind_none, ih]

theorem pairs_fold (hp : p.Ok) {e : Entry D} (he : e ∈ p.model) : ∀ (l : List (ℕ × ℕ)), (∀ ab ∈ l, ab.1 < p.n ∧ ab.2 < p.n) →
    ∀ (st st' : Dicts D), DictOk p st → l.foldl (fun st ab => st.bind fun st => pairStep p e st ab) (some st) = some st' →
    DictOk p st' ∧
    (∀ x a i j, dsum st'.1 a x i j = dsum st.1 a x i j + (l.map (onContr p x e a i j)).sum) ∧
    (∀ x a b R i j, dsum st'.2 (-R, a, b) x i j = dsum st.2 (-R, a, b) x i j + (l.map (hopContr p x e a b R i j)).sum) := by
  intro l
  induction l with
  | nil =>
    intro _ st st' h hst
    obtain rfl : st = st' := by simpa using hst
    exact ⟨h, by simp, by simp⟩
  | cons ab l ih =>
    intro hl st st' h hst
    rw [List.foldl_cons, Option.bind_some] at hst
    cases hs : pairStep p e st ab with
    | none => rw [hs, foldl_none] at hst; cases hst
    | some st1 =>
      rw [hs] at hst
      obtain ⟨h1, h2, h3⟩ := pairStep_spec hp he h (hl ab (by simp)).1 (hl ab (by simp)).2 hs
      obtain ⟨h4, h5, h6⟩ := ih (fun ab hab => hl ab (by simp [hab])) st1 st' h1 hst
      refine ⟨h4, ?_, ?_⟩
      · intro x a i j; rw [h5, h2, List.map_cons, List.sum_cons, add_assoc]
      · intro x a b R i j; rw [h6, h3, List.map_cons, List.sum_cons, add_assoc]

theorem mem_atomPairs {n : ℕ} {ab : ℕ × ℕ} : ab ∈ atomPairs n ↔ ab.1 < n ∧ ab.2 < n := by
  simp only [atomPairs, List.mem_flatMap, List.mem_map, List.mem_range]
  constructor
  · rintro ⟨a, ha, b, hb, rfl⟩; exact ⟨ha, hb⟩
  · rintro ⟨ha, hb⟩; exact ⟨ab.1, ha, ab.2, hb, rfl⟩

theorem nodup_atomPairs (n : ℕ) : (atomPairs n).Nodup := by
  unfold atomPairs
  rw [List.nodup_flatMap]
  constructor
  · intro i _
    exact List.Nodup.map (fun a b h => (Prod.mk.inj h).2) List.nodup_range
  · refine List.Pairwise.imp ?_ List.nodup_range
    intro i j hij
    rw [Function.onFun, List.disjoint_left]
    intro e h1 h2
    obtain ⟨a, _, rfl⟩ := List.mem_map.mp h1
    obtain ⟨b, _, h⟩ := List.mem_map.mp h2
    exact hij (Prod.mk.inj h).1.symm

theorem sum_single {α : Type} [DecidableEq α] {l : List α} (hn : l.Nodup) {a : α} (ha : a ∈ l) {f : α → ℂ} (h : ∀ b, b ≠ a → f b = 0) :
    (l.map f).sum = f a := by
  rw [← List.sum_toFinset _ hn, Finset.sum_eq_single a]
  · intro b _ hb; exact h b hb
  · intro h'; exact absurd (List.mem_toFinset.mpr ha) h'

/-- Contribution of a term to the onsite of an atom, and to a hopping. -/
theorem entry_sums (x : Values) (e : Entry D) {a b : ℕ} (ha : a < p.n) (hb : b < p.n) (R : Fin D → ℤ) (i j : ℕ) :
    ((atomPairs p.n).map (onContr p x e a i j)).sum = onContr p x e a i j (a, a) ∧
    ((atomPairs p.n).map (hopContr p x e a b R i j)).sum = hopContr p x e a b R i j (a, b) := by
  constructor
  · apply sum_single (nodup_atomPairs _) (mem_atomPairs.mpr ⟨ha, ha⟩)
    intro c hc
    unfold onContr
    rw [if_neg (fun h => hc h.1)]
  · apply sum_single (nodup_atomPairs _) (mem_atomPairs.mpr ⟨ha, hb⟩)
    intro c hc
    unfold hopContr
    rw [if_neg (fun h => hc h.1)]

theorem termStep_eq (p : Input D) (st : Dicts D) (e : Entry D) :
    termStep p st e = (atomPairs p.n).foldl (fun st ab => st.bind fun st => pairStep p e st ab) (some st) := rfl

theorem terms_fold (hp : p.Ok) : ∀ (m : List (Entry D)), (∀ e ∈ m, e ∈ p.model) → ∀ (st st' : Dicts D), DictOk p st →
    m.foldl (fun st e => st.bind fun st => termStep p st e) (some st) = some st' → DictOk p st' ∧
    (∀ x a i j, a < p.n → dsum st'.1 a x i j = dsum st.1 a x i j + (m.map fun e => onContr p x e a i j (a, a)).sum) ∧
    (∀ x a b R i j, a < p.n → b < p.n → dsum st'.2 (-R, a, b) x i j =
      dsum st.2 (-R, a, b) x i j + (m.map fun e => hopContr p x e a b R i j (a, b)).sum) := by
  intro m
  induction m with
  | nil =>
    intro _ st st' h hst
    obtain rfl : st = st' := by simpa using hst
    exact ⟨h, by simp, by simp⟩
  | cons e m ih =>
    intro hm st st' h hst
    rw [List.foldl_cons, Option.bind_some] at hst
    cases hs : termStep p st e with
    | none => rw [hs, foldl_none] at hst; cases hst
    | some st1 =>
      rw [hs] at hst
      rw [termStep_eq] at hs
      obtain ⟨h1, h2, h3⟩ := pairs_fold hp (hm e (by simp)) _ (fun ab hab => mem_atomPairs.mp hab) st st1 h hs
      obtain ⟨h4, h5, h6⟩ := ih (fun e he => hm e (by simp [he])) st1 st' h1 hst
      refine ⟨h4, ?_, ?_⟩
      · intro x a i j ha
        rw [h5 x a i j ha, h2, (entry_sums x e ha ha 0 i j).1, List.map_cons, List.sum_cons, add_assoc]
      · intro x a b R i j ha hb
        rw [h6 x a b R i j ha hb, h3, (entry_sums x e ha hb R i j).2, List.map_cons, List.sum_cons, add_assoc]

/-! ## The hoppings of the builder -/

/-- Matrix elements of a list of hoppings. -/
noncomputable def hamp (hops : List ((ℕ × (Fin D → ℤ) × ℕ) × Val)) (x : Values) (K : ℕ × (Fin D → ℤ) × ℕ) (i j : ℕ) : ℂ :=
  (hops.map fun h => (if h.1 = K then h.2.eval x i j else 0) +
    (if h.1 = reverse K then (starRingEnd ℂ) (h.2.eval x j i) else 0)).sum

theorem reverse_reverse (K : ℕ × (Fin D → ℤ) × ℕ) : reverse (reverse K) = K := by
  unfold reverse
  simp

theorem reverse_ne {K : ℕ × (Fin D → ℤ) × ℕ} (h : K.1 ≠ K.2.2 ∨ K.2.1 ≠ 0) : K ≠ reverse K := by
  intro hc
  have h1 : K.1 = K.2.2 := congrArg Prod.fst hc
  have h2 : K.2.1 = -K.2.1 := congrArg (fun t => t.2.1) hc
  rcases h with h | h
  · exact h h1
  · apply h
    funext c
    have := congrFun h2 c
    simp only [Pi.neg_apply] at this
    simp only [Pi.zero_apply]
    omega

theorem hamp_setHop (hops : List ((ℕ × (Fin D → ℤ) × ℕ) × Val)) {key : ℕ × (Fin D → ℤ) × ℕ} (hkey : key ≠ reverse key) (v : Val)
    (x : Values) (K : ℕ × (Fin D → ℤ) × ℕ) (i j : ℕ) : hamp (setHop hops key v) x K i j =
      if K = key then v.eval x i j else if K = reverse key then (starRingEnd ℂ) (v.eval x j i) else hamp hops x K i j := by
  have hz : K = key ∨ K = reverse key → hamp (hops.filter fun h => h.1 ≠ key ∧ h.1 ≠ reverse key) x K i j = 0 := by
    intro hK
    unfold hamp
    apply List.sum_eq_zero
    intro z hz
    obtain ⟨h, hh, rfl⟩ := List.mem_map.mp hz
    simp only [List.mem_filter, decide_eq_true_eq] at hh
    have h1 : h.1 ≠ K := by
      rcases hK with rfl | rfl
      · exact hh.2.1
      · exact hh.2.2
    have h2 : h.1 ≠ reverse K := by
      rcases hK with rfl | rfl
      · exact hh.2.2
      · rw [reverse_reverse]; exact hh.2.1
    rw [if_neg h1, if_neg h2, add_zero]
  have happ : hamp (setHop hops key v) x K i j = hamp (hops.filter fun h => h.1 ≠ key ∧ h.1 ≠ reverse key) x K i j +
      ((if key = K then v.eval x i j else 0) + (if key = reverse K then (starRingEnd ℂ) (v.eval x j i) else 0)) := by
    unfold hamp setHop
    simp
  rw [happ]
  by_cases h1 : K = key
  · subst h1
    rw [hz (.inl rfl), if_pos rfl, if_pos rfl, if_neg hkey, zero_add, add_zero]
  · have h1' : key ≠ K := fun h => h1 h.symm
    rw [if_neg h1, if_neg h1']
    by_cases h2 : K = reverse key
    · have h2' : key = reverse K := by rw [h2, reverse_reverse]
      rw [hz (.inr h2), if_pos h2, if_pos h2', zero_add, zero_add]
    · have h2' : key ≠ reverse K := fun h => h2 (by rw [h, reverse_reverse])
      rw [if_neg h2, if_neg h2', add_zero, add_zero]
      clear happ hz
      induction hops with
      | nil => rfl
      | cons h hops ih =>
        by_cases hh : h.1 ≠ key ∧ h.1 ≠ reverse key
        · rw [List.filter_cons_of_pos (by simpa using hh)]
          unfold hamp at ih ⊢
          rw [List.map_cons, List.sum_cons, List.map_cons, List.sum_cons, ih]
        · rw [List.filter_cons_of_neg (by simpa using hh), ih]
          unfold hamp
          rw [List.map_cons, List.sum_cons]
          have hk : h.1 = key ∨ h.1 = reverse key := by
            by_contra hc
            rw [not_or] at hc
            exact hh hc
          have e1 : h.1 ≠ K := by
            rcases hk with hk | hk
            · rw [hk]; exact h1'
            · rw [hk]; exact fun h => h2 h.symm
          have e2 : h.1 ≠ reverse K := by
            rcases hk with hk | hk
            · rw [hk]; exact h2'
            · rw [hk]
              intro h
              apply h1
              rw [← reverse_reverse K, ← h, reverse_reverse]
          rw [if_neg e1, if_neg e2, add_zero, zero_add]

theorem hamp_fold {W : ℕ × (Fin D → ℤ) × ℕ → ℕ → ℕ → ℂ} (x : Values)
    (hW : ∀ K i j, W (reverse K) j i = (starRingEnd ℂ) (W K i j)) : ∀ (L : List (Kind D × Local)),
    (∀ e ∈ L, hopKey e.1 ≠ reverse (hopKey e.1) ∧ ∀ i j, e.2.lambdify.eval x i j = W (hopKey e.1) i j) →
    ∀ (hops : List ((ℕ × (Fin D → ℤ) × ℕ) × Val)) (K : ℕ × (Fin D → ℤ) × ℕ) (i j : ℕ),
    ((∃ e ∈ L, hopKey e.1 = K ∨ hopKey e.1 = reverse K) ∨ hamp hops x K i j = W K i j) →
    hamp (L.foldl (fun hops e => setHop hops (hopKey e.1) e.2.lambdify) hops) x K i j = W K i j := by
  intro L
  induction L with
  | nil =>
    rintro _ hops K i j (⟨e, he, _⟩ | h)
    · cases he
    · exact h
  | cons e L ih =>
    intro hL hops K i j h
    rw [List.foldl_cons]
    have he := hL e (by simp)
    apply ih (fun e he => hL e (by simp [he]))
    by_cases hin : ∃ f ∈ L, hopKey f.1 = K ∨ hopKey f.1 = reverse K
    · exact .inl hin
    · right
      rw [hamp_setHop hops he.1]
      split_ifs with h1 h2
      · rw [he.2, h1]
      · rw [he.2, ← hW, ← h2]
      · rcases h with ⟨f, hf, hfk⟩ | h
        · rcases List.mem_cons.mp hf with rfl | hf
          · rcases hfk with hfk | hfk
            · exact absurd hfk.symm h1
            · exfalso; apply h2; rw [hfk, reverse_reverse]
          · exact absurd ⟨f, hf, hfk⟩ hin
        · exact h

/-! ## The onsites -/

theorem fill_spec {P : Coeff → Prop} (hP : P ⟨[], fun _ => 1⟩) (x : Values) : ∀ (l : List ℕ) (d : List (ℕ × Local)),
    (∀ e ∈ d, ∀ t ∈ e.2, P t.1) →
    (∀ e ∈ l.foldl (fun d a => if a ∈ d.map Prod.fst then d else d ++ [(a, [(⟨[], fun _ => 1⟩, 0)])]) d, ∀ t ∈ e.2, P t.1) ∧
    ∀ a i j, dsum (l.foldl (fun d a => if a ∈ d.map Prod.fst then d else d ++ [(a, [(⟨[], fun _ => 1⟩, 0)])]) d) a x i j =
      dsum d a x i j := by
  intro l
  induction l with
  | nil => intro d hd; exact ⟨hd, fun _ _ _ => rfl⟩
  | cons b l ih =>
    intro d hd
    rw [List.foldl_cons]
    by_cases hb : b ∈ d.map Prod.fst
    · rw [if_pos hb]; exact ih d hd
    · rw [if_neg hb]
      have hok : ∀ e ∈ d ++ [(b, [((⟨[], fun _ => 1⟩ : Coeff), (0 : Mat))])], ∀ t ∈ e.2, P t.1 := by
        intro e he t ht
        rcases List.mem_append.mp he with he | he
        · exact hd e he t ht
        · rw [List.mem_singleton] at he
          subst he
          rw [List.mem_singleton] at ht
          subst ht
          exact hP
      obtain ⟨h1, h2⟩ := ih _ hok
      refine ⟨h1, fun a i j => ?_⟩
      rw [h2]
      unfold dsum
      simp [locVal]

theorem onsite_sum {d : List (ℕ × Local)} (hd : ∀ e ∈ d, ∀ t ∈ e.2, t.1.Ok) (x : Values) (a b : ℕ) (R : Fin D → ℤ) (i j : ℕ) :
    ((d.map fun e => (e.1, e.2.lambdify)).map fun o => if o.1 = a ∧ a = b ∧ R = 0 then o.2.eval x i j else 0).sum =
      if a = b ∧ R = 0 then dsum d a x i j else 0 := by
  unfold dsum
  split_ifs with h
  · rw [List.map_map]
    congr 1
    apply List.map_congr_left
    intro e he
    simp only [Function.comp_apply]
    by_cases hk : e.1 = a
    · rw [if_pos ⟨hk, h⟩, if_pos hk, lambdify_eval (hd e he)]
    · rw [if_neg (fun h' => hk h'.1), if_neg hk]
  · apply List.sum_eq_zero
    intro z hz
    obtain ⟨o, _, rfl⟩ := List.mem_map.mp hz
    rw [if_neg (fun h' => h h'.2)]

/-! ## The theorems -/

theorem dict_empty (p : Input D) : DictOk p ([], []) where
  nodup1 := by simp
  nodup2 := by simp
  keys1 := by simp
  keys2 := by simp
  coeffs1 := by simp
  coeffs2 := by simp

theorem hopSum (p : Input D) (x : Values) (a b : ℕ) (R : Fin D → ℤ) (i j : ℕ) :
    (p.model.map fun e => hopContr p x e a b R i j (a, b)).sum =
      if (a ≠ b ∨ R ≠ 0) ∧ i < p.norbs a ∧ j < p.norbs b then
        component p.model x (p.disp a R b) (p.start a + i) (p.start b + j) else 0 := by
  classical
  unfold component
  split_ifs with h
  · congr 1
    apply List.map_congr_left
    intro e _
    unfold hopContr
    by_cases hr : e.r = p.disp a R b
    · rw [if_pos ⟨rfl, h.1, hr⟩, if_pos hr]
      unfold Input.hop block
      have hc : i < (p.range a).2 ∧ j < (p.range b).2 := h.2
      rw [if_pos hc]; rfl
    · rw [if_neg (fun h' => hr h'.2.2), if_neg hr]
  · apply List.sum_eq_zero
    intro z hz
    obtain ⟨e, _, rfl⟩ := List.mem_map.mp hz
    unfold hopContr
    split_ifs with h'
    · unfold Input.hop block
      have hc : ¬ (i < (p.range a).2 ∧ j < (p.range b).2) := fun h2 => h ⟨h'.2.1, h2⟩
      rw [if_neg hc, mul_zero]
    · rfl

theorem onSum (p : Input D) (x : Values) {a i j : ℕ} (hi : i < p.norbs a) (hj : j < p.norbs a) :
    (p.model.map fun e => onContr p x e a i j (a, a)).sum = component p.model x 0 (p.start a + i) (p.start a + j) := by
  classical
  unfold component
  congr 1
  apply List.map_congr_left
  intro e _
  unfold onContr
  by_cases hr : e.r = 0
  · rw [if_pos ⟨rfl, hr⟩, if_pos hr]
    unfold Input.hop block
    have hc : i < (p.range a).2 ∧ j < (p.range a).2 := ⟨hi, hj⟩
    rw [if_pos hc]; rfl
  · rw [if_neg (fun h' => hr h'.2), if_neg hr]

/-- C152: the matrix element of the builder between two sites is the Fourier component of the model at their displacement. -/
theorem C152_amplitude (hp : p.Ok) {s : Syst D D} (hs : modelToBuilder p = some s) {x : Values} (hH : HermitianModel p.model x)
    {a b : ℕ} (ha : a < p.n) (hb : b < p.n) (R : Fin D → ℤ) {i j : ℕ} (hi : i < p.norbs a) (hj : j < p.norbs b) :
    amplitude s x a b R i j = component p.model x (p.disp a R b) (p.start a + i) (p.start b + j) := by
  classical
  unfold modelToBuilder at hs
  obtain ⟨st, hst, rfl⟩ := Option.map_eq_some_iff.mp hs
  unfold dictionaries at hst
  obtain ⟨hok, h1, h2⟩ := terms_fold hp p.model (fun _ h => h) _ _ (dict_empty p) hst
  have z1 : ∀ a i j, dsum ([] : List (ℕ × Local)) a x i j = 0 := fun _ _ _ => rfl
  have z2 : ∀ k i j, dsum ([] : List (Kind D × Local)) k x i j = 0 := fun _ _ _ => rfl
  have h1 := h1 x
  have h2 := h2 x
  simp only [z1, z2, zero_add, hopSum] at h1 h2
  have hout : ∀ (a b : ℕ) (R : Fin D → ℤ) i j, ¬ (a < p.n ∧ b < p.n) → dsum st.2 (-R, a, b) x i j = 0 := by
    intro a b R i j h
    apply dsum_missing
    intro hk
    exact h ⟨(hok.keys2 _ hk).1, (hok.keys2 _ hk).2.1⟩
  unfold amplitude
  have hco1 : ∀ e ∈ st.1, ∀ t ∈ e.2, t.1.Ok := by
    intro e he t ht
    obtain ⟨f, hf, hft⟩ := hok.coeffs1 e he t ht
    rw [← hft]; exact hp.coeffs f hf
  have hco2 : ∀ e ∈ st.2, ∀ t ∈ e.2, t.1.Ok := by
    intro e he t ht
    obtain ⟨f, hf, hft⟩ := hok.coeffs2 e he t ht
    rw [← hft]; exact hp.coeffs f hf
  have hone : Coeff.Ok ⟨[], fun _ => 1⟩ := fun _ _ _ => rfl
  have hf1 : ∀ e ∈ fillOnsites p.n st.1, ∀ t ∈ e.2, t.1.Ok := (fill_spec hone x (List.range p.n) st.1 hco1).1
  have hf2 : ∀ a i j, dsum (fillOnsites p.n st.1) a x i j = dsum st.1 a x i j := (fill_spec hone x (List.range p.n) st.1 hco1).2
  simp only
  rw [onsite_sum hf1, hf2]
  have hhop := hamp_fold (D := D) (W := fun K i j => dsum st.2 (-K.2.1, K.1, K.2.2) x i j) x
    (by
      intro K i j
      obtain ⟨a, R, b⟩ := K
      simp only [reverse]
      by_cases hab : a < p.n ∧ b < p.n
      · rw [h2 _ _ _ _ _ hab.2 hab.1, h2 _ _ _ _ _ hab.1 hab.2]
        have hiff : ((b ≠ a ∨ -R ≠ 0) ∧ j < p.norbs b ∧ i < p.norbs a) ↔ ((a ≠ b ∨ R ≠ 0) ∧ i < p.norbs a ∧ j < p.norbs b) := by
          rw [neg_ne_zero, ne_comm (a := b)]; tauto
        by_cases hc : (a ≠ b ∨ R ≠ 0) ∧ i < p.norbs a ∧ j < p.norbs b
        · rw [if_pos hc, if_pos (hiff.mpr hc), disp_reverse, hH]
        · rw [if_neg hc, if_neg (fun h => hc (hiff.mp h)), map_zero]
      · rw [hout _ _ _ _ _ hab, hout _ _ _ _ _ (fun h => hab h.symm), map_zero])
    st.2 (by
      intro e he
      have hk := hok.keys2 _ (List.mem_map.mpr ⟨e, he, rfl⟩)
      refine ⟨reverse_ne ?_, ?_⟩
      · rcases hk.2.2 with h | h
        · exact .inl h
        · exact .inr (neg_ne_zero.mpr h)
      · intro i j
        rw [lambdify_eval (hco2 e he), ← dsum_nodup hok.nodup2 he]
        simp [hopKey])
    [] (a, R, b) i j
    (by
      by_cases hin : ∃ e ∈ st.2, hopKey e.1 = (a, R, b) ∨ hopKey e.1 = reverse (a, R, b)
      · exact .inl hin
      · right
        symm
        apply dsum_missing
        intro hk
        obtain ⟨e, he, hek⟩ := List.mem_map.mp hk
        apply hin
        refine ⟨e, he, .inl ?_⟩
        rw [hek]
        simp [hopKey])
  unfold hamp at hhop
  have hrev : reverse (a, R, b) = (b, -R, a) := rfl
  rw [hrev] at hhop
  simp only at hhop ⊢
  rw [hhop, h2 _ _ _ _ _ ha hb]
  by_cases hab : a = b ∧ R = 0
  · obtain ⟨rfl, rfl⟩ := hab
    have hn : ¬ ((a ≠ a ∨ (0 : Fin D → ℤ) ≠ 0) ∧ i < p.norbs a ∧ j < p.norbs a) := by
      rintro ⟨h | h, _⟩
      · exact h rfl
      · exact h rfl
    rw [if_pos ⟨rfl, rfl⟩, if_neg hn, add_zero, h1 _ _ _ ha, onSum p x hi hj, disp_zero]
  · have hc : (a ≠ b ∨ R ≠ 0) ∧ i < p.norbs a ∧ j < p.norbs b := by
      refine ⟨?_, hi, hj⟩
      by_contra h
      rw [not_or, not_not, not_not] at h
      exact hab h
    rw [if_neg hab, if_pos hc, zero_add]

theorem fold_isSome {α β : Type} {f : α → β → Option α} {P : β → Prop} : ∀ (l : List β), (∀ st, ∀ b ∈ l, (f st b).isSome ↔ P b) →
    ∀ st, (l.foldl (fun st b => st.bind fun st => f st b) (some st)).isSome ↔ ∀ b ∈ l, P b := by
  intro l
  induction l with
  | nil => intro _ st; simp
  | cons b l ih =>
    intro h st
    rw [List.foldl_cons, Option.bind_some, List.forall_mem_cons]
    have hb := h st b (by simp)
    cases hf : f st b with
    | none =>
      rw [foldl_none]
      rw [hf] at hb
      constructor
      · intro h; cases h
      · intro h; exact absurd (hb.mpr h.1) (by simp)
    | some st' =>
      rw [ih (fun st c hc => h st c (by simp [hc]))]
      rw [hf] at hb
      constructor
      · intro h'; exact ⟨hb.mp rfl, h'⟩
      · intro h'; exact h'.2

/-- C152: the conversion succeeds exactly if every block of a term with nonzero displacement connects two sites of the lattice,
and every block without displacement connects an atom to itself, or atoms with the same coordinates. -/
theorem C152_succeeds (p : Input D) : (modelToBuilder p).isSome ↔ ∀ e ∈ p.model, ∀ a < p.n, ∀ b < p.n, GoodPair p e a b := by
  unfold modelToBuilder dictionaries
  rw [Option.isSome_map]
  apply fold_isSome
  intro st e he
  rw [termStep_eq, fold_isSome (P := fun ab => GoodPair p e ab.1 ab.2) _ (fun st ab _ => pairStep_isSome p e st ab.1 ab.2)]
  constructor
  · intro h a ha b hb; exact h (a, b) (mem_atomPairs.mpr ⟨ha, hb⟩)
  · intro h ab hab
    have := mem_atomPairs.mp hab
    exact h _ this.1 _ this.2

end

end Kwant.Qsymm
