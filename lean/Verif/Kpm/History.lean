import Verif.Kpm.Moments

/-! Proofs about `SpectralDensity`: construction and histories of `add_moments` and `add_vectors`. -/

set_option linter.unusedSectionVars false

namespace Kwant.Kpm
section
variable {V W : Type} [AddCommGroup V] [Module ℂ V] [AddCommGroup W]

/-! ### The factory -/

/-- What never changes: the Hamiltonian, the operator, the scale, whether vectors are accumulated, the vectors of the iterable and its length. -/
structure Sys (V W : Type) where
  ham : V → V
  kind : OpKind V W
  a : ℝ
  b : ℝ
  acc : Bool
  max : Option ℕ
  src : ℕ → V
  source : ℕ → Option V

/-- The rescaled Hamiltonian. -/
noncomputable def Sys.h (S : Sys V W) : V → V := rescaled S.ham S.a S.b

/-- The iterable yields `src 0, src 1, ...`, at least as many as it has according to its length. -/
def Avail (max : Option ℕ) (source : ℕ → Option V) (src : ℕ → V) : Prop := ∀ i, (∀ m, max = some m → i < m) → source i = some (src i)

/-- There are enough vectors to increase their number from `nv` as requested, unless the request exceeds the length. -/
def Enough (S : Sys V W) (nv : ℕ) (n : Option ℤ) : Prop :=
  ∀ k : ℕ, n = some (k : ℤ) → (∀ m, S.max = some m → nv + k ≤ m) → ∀ i < nv + k, S.source i = some (S.src i)

theorem Avail.enough {S : Sys V W} (h : Avail S.max S.source S.src) (nv : ℕ) (n : Option ℤ) : Enough S nv n :=
  fun k _ hm i hi => h i fun m h' => lt_of_lt_of_le hi (hm m h')

/-- State of the factory when `r` vectors have been produced. -/
structure FInv (S : Sys V W) (f : Factory V) (r : ℕ) : Prop where
  acc : f.accumulate = S.acc
  max : f.maxVectors = S.max
  source : f.source = S.source
  avail : ∀ i < f.numVectors, S.source i = some (S.src i)
  pos : f.pos = r
  le : r ≤ f.numVectors
  cap : ∀ m, S.max = some m → f.numVectors ≤ m
  saved : S.acc = true → f.saved.length = f.numVectors ∧ ∀ i < f.numVectors, f.saved[i]? = some (if i < r then some (S.src i) else none)
  last : ∀ l, f.lastIdx = some l → l ≤ r

theorem FInv.next {S : Sys V W} {f : Factory V} {r : ℕ} (I : FInv S f r) (hr : r < f.numVectors) : f.next = ({ f with pos := r + 1 }, .ok (S.src r)) := by
  unfold Factory.next
  rw [I.pos, I.source, I.avail r hr]

theorem FInv.get_new {S : Sys V W} {f : Factory V} {r : ℕ} (I : FInv S f r) (hr : r < f.numVectors) :
    ∃ f', f.get r = (f', .ok (S.src r)) ∧ FInv S f' (r + 1) ∧ f'.numVectors = f.numVectors := by
  unfold Factory.get
  have c1 : (f.passed r && !f.accumulate) = false := by
    unfold Factory.passed
    cases hl : f.lastIdx with
    | none => rfl
    | some l => simp [not_lt.mpr (I.last l hl)]
  rw [c1]
  simp only [Bool.false_eq_true, if_false]
  rw [if_neg (by omega)]
  have I1 : FInv S { f with lastIdx := some r } r :=
    ⟨I.acc, I.max, I.source, I.avail, I.pos, I.le, I.cap, I.saved, fun l hl => by simp only [Option.some.injEq] at hl; omega⟩
  have nx := I1.next hr
  cases ha : S.acc with
  | true =>
    rw [if_pos (by rw [I.acc]; exact ha)]
    obtain ⟨sl, sv⟩ := I.saved ha
    have e : f.saved.getD r none = none := by
      rw [List.getD_eq_getElem?_getD, sv r hr, if_neg (lt_irrefl r)]; rfl
    rw [e, nx]
    refine ⟨_, rfl, ⟨I.acc, I.max, I.source, I.avail, rfl, hr, I.cap, fun _ => ⟨by simp only [List.length_set]; exact sl, fun i hi => ?_⟩, ?_⟩, rfl⟩
    · simp only
      rw [List.getElem?_set]
      by_cases hir : r = i
      · subst hir; rw [if_pos rfl, if_pos (by rw [sl]; exact hr), if_pos (Nat.lt_succ_self r)]
      · rw [if_neg hir, sv i hi]
        congr 1
        by_cases h : i < r
        · rw [if_pos h, if_pos (by omega)]
        · rw [if_neg h, if_neg (by omega)]
    · intro l hl
      simp only [Option.some.injEq] at hl; omega
  | false =>
    rw [if_neg (by rw [I.acc, ha]; decide), nx]
    refine ⟨_, rfl, ⟨I.acc, I.max, I.source, I.avail, rfl, hr, I.cap, fun h => absurd (ha.symm.trans h) (by decide), ?_⟩, rfl⟩
    intro l hl
    simp only [Option.some.injEq] at hl; omega

theorem FInv.get_old {S : Sys V W} {f : Factory V} {r : ℕ} (I : FInv S f r) (ha : S.acc = true) (i : ℕ) (hi : i < r) :
    ∃ f', f.get i = (f', .ok (S.src i)) ∧ FInv S f' r ∧ f'.numVectors = f.numVectors := by
  unfold Factory.get
  have c0 : f.accumulate = true := by rw [I.acc]; exact ha
  rw [if_neg (by rw [c0]; simp)]
  rw [if_neg (by have := I.le; omega)]
  simp only
  rw [if_pos c0]
  obtain ⟨sl, sv⟩ := I.saved ha
  have e : f.saved.getD i none = some (S.src i) := by
    rw [List.getD_eq_getElem?_getD, sv i (by have := I.le; omega), if_pos hi]; rfl
  rw [e]
  refine ⟨_, rfl, ⟨I.acc, I.max, I.source, I.avail, I.pos, I.le, I.cap, I.saved, ?_⟩, rfl⟩
  intro l hl
  simp only [Option.some.injEq] at hl; omega

/-- `_VectorFactory.add_vectors` either refuses and changes nothing, or adds the vectors. -/
theorem FInv.addVectors {S : Sys V W} {f : Factory V} (I : FInv S f f.numVectors) (n : Option ℤ) (hav : Enough S f.numVectors n) :
    (∃ e, f.addVectors n = (f, some e) ∧ ¬ ∃ k : ℕ, n = some (k : ℤ) ∧ 0 < k ∧ ∀ m, S.max = some m → f.numVectors + k ≤ m) ∨
    ∃ f' k, n = some ((k : ℕ) : ℤ) ∧ 0 < k ∧ f.addVectors n = (f', none) ∧ f'.numVectors = f.numVectors + k ∧ FInv S f' f.numVectors := by
  unfold Factory.addVectors
  cases n with
  | none => exact Or.inl ⟨_, rfl, by rintro ⟨k, hk, _⟩; cases hk⟩
  | some n =>
    simp only
    by_cases hn : n ≤ 0
    · rw [if_pos hn]; exact Or.inl ⟨_, rfl, by rintro ⟨k, hk, h0, _⟩; injection hk; omega⟩
    rw [if_neg hn]
    by_cases hm : f.tooMany n = true
    · rw [if_pos hm]
      refine Or.inl ⟨_, rfl, ?_⟩
      rintro ⟨k, hk, h0, hmax⟩
      unfold Factory.tooMany at hm
      rw [I.max] at hm
      cases hS : S.max with
      | none => rw [hS] at hm; simp at hm
      | some m =>
        have := hmax m hS
        rw [hS] at hm
        simp only [gt_iff_lt, decide_eq_true_eq] at hm
        injection hk with hk
        omega
    rw [if_neg hm]
    right
    have hn' : ((n.toNat : ℕ) : ℤ) = n := Int.toNat_of_nonneg (by omega)
    have hcap : ∀ m, S.max = some m → f.numVectors + n.toNat ≤ m := by
      intro m hm'
      unfold Factory.tooMany at hm
      rw [I.max, hm'] at hm
      simp only [gt_iff_lt, decide_eq_true_eq, not_lt] at hm
      omega
    refine ⟨_, n.toNat, by rw [hn'], by omega, rfl, rfl, ⟨I.acc, I.max, I.source, hav n.toNat (by rw [hn']) hcap, I.pos, by simp, hcap, ?_, I.last⟩⟩
    · intro ha
      obtain ⟨sl, sv⟩ := I.saved ha
      simp only
      rw [I.acc, if_pos ha]
      refine ⟨by rw [List.length_append, List.length_replicate, sl], fun i hi => ?_⟩
      by_cases h : i < f.numVectors
      · rw [List.getElem?_append_left (by rw [sl]; exact h), sv i h]
      · rw [List.getElem?_append_right (by rw [sl]; omega), List.getElem?_replicate, if_pos (by rw [sl]; omega), if_neg h]

/-! ### The loop -/

/-- State after the vectors before `r` have `N` moments and the others `N'`. -/
structure LInv (S : Sys V W) (nv r N N' : ℕ) (s : SD V W) : Prop where
  ham : s.ham = S.ham
  kind : s.kind = S.kind
  a : s.a = S.a
  b : s.b = S.b
  hnv : s.factory.numVectors = nv
  len : s.moments.length = nv
  lenLast : s.last.length = nv
  mom : ∀ i < r, s.moments[i]? = some (momList S.kind S.h (S.src i) N)
  lst : S.acc = true → ∀ i < r, ∃ p, s.last[i]? = some p ∧ LastOk S.kind S.h (S.src i) N p
  rest : ∀ i, r ≤ i → i < nv → 2 ≤ N' → s.moments[i]? = some (momList S.kind S.h (S.src i) N')
  restLast : S.acc = true → ∀ i, r ≤ i → i < nv → 2 ≤ N' → ∃ p, s.last[i]? = some p ∧ LastOk S.kind S.h (S.src i) N' p

theorem LInv.h_eq {S : Sys V W} {nv r N N' : ℕ} {s : SD V W} (I : LInv S nv r N N' s) : s.h = S.h := by
  unfold SD.h Sys.h; rw [I.ham, I.a, I.b]

theorem LInv.upd {S : Sys V W} {nv r N N' : ℕ} {s : SD V W} (I : LInv S nv r N N' s) (hr : r < nv) (f : Factory V) (hf : f.numVectors = s.factory.numVectors)
    (hacc : f.accumulate = S.acc) (it : Iter V W) (hl : LastOk S.kind S.h (S.src r) N (it.alpha, it.next)) (hm : it.mom = momList S.kind S.h (S.src r) N) :
    LInv S nv (r + 1) N N' { s with
            factory := f
            moments := s.moments.set r it.mom
            last := if f.accumulate then s.last.set r (it.alpha, it.next) else s.last } := by
  refine ⟨I.ham, I.kind, I.a, I.b, by simp only; rw [hf, I.hnv], by simp only [List.length_set]; exact I.len, ?_, ?_, ?_, ?_, ?_⟩
  · simp only; split
    · rw [List.length_set]; exact I.lenLast
    · exact I.lenLast
  · intro i hi
    simp only
    rw [List.getElem?_set]
    by_cases h : r = i
    · subst h; rw [if_pos rfl, if_pos (by rw [I.len]; exact hr), hm]
    · rw [if_neg h]; exact I.mom i (by omega)
  · intro ha i hi
    simp only
    rw [hacc, if_pos ha, List.getElem?_set]
    by_cases h : r = i
    · subst h; rw [if_pos rfl, if_pos (by rw [I.lenLast]; exact hr)]; exact ⟨_, rfl, hl⟩
    · rw [if_neg h]; exact I.lst ha i (by omega)
  · intro i hi hn h2
    simp only
    rw [List.getElem?_set, if_neg (by omega)]
    exact I.rest i (by omega) hn h2
  · intro ha i hi hn h2
    simp only
    rw [hacc, if_pos ha, List.getElem?_set, if_neg (by omega)]
    exact I.restLast ha i (by omega) hn h2

theorem loop_new (S : Sys V W) (hk : ∀ v, KindOk S.kind S.h v) (nv N : ℕ) (hN : 2 ≤ N) (k : ℕ) (r : ℕ) (s : SD V W) (hr : r + k = nv)
    (I : LInv S nv r N 0 s) (F : FInv S s.factory r) :
    ∃ s', s.loop 2 N true (List.range' r k) = (s', none) ∧ LInv S nv nv N 0 s' ∧ FInv S s'.factory nv ∧ s'.numMoments = s.numMoments := by
  induction k generalizing r s with
  | zero => exact ⟨s, rfl, by simp only [Nat.add_zero] at hr; rw [← hr] at I ⊢; exact I, by simp only [Nat.add_zero] at hr; rw [← hr]; exact F, rfl⟩
  | succ k ih =>
    rw [List.range'_succ]
    unfold SD.loop
    obtain ⟨f, hf, F', hfn⟩ := F.get_new (by rw [I.hnv]; omega)
    rw [hf]
    simp only
    have I0 : LInv S nv r N 0 { s with factory := f } :=
      ⟨I.ham, I.kind, I.a, I.b, by simp only; rw [hfn, I.hnv], I.len, I.lenLast, I.mom, I.lst, I.rest, I.restLast⟩
    obtain ⟨it, e, hl, hm⟩ := calc_new { s with factory := f } (S.src r) (by rw [I0.h_eq, I0.kind]; exact hk _) r N hN
    rw [I0.h_eq, I0.kind] at hl hm
    rw [e]
    exact ih (r + 1) _ (by omega) (I.upd (by omega) f hfn F'.acc it hl hm) F'

theorem loop_more (S : Sys V W) (hk : ∀ v, KindOk S.kind S.h v) (ha : S.acc = true) (nv N0 N : ℕ) (h0 : 2 ≤ N0) (hN : N0 ≤ N) (k : ℕ) (r : ℕ) (s : SD V W)
    (hr : r + k = nv) (I : LInv S nv r N N0 s) (F : FInv S s.factory nv) (hn : s.numMoments = N0) :
    ∃ s', s.loop N0 N false (List.range' r k) = (s', none) ∧ LInv S nv nv N N0 s' ∧ FInv S s'.factory nv ∧ s'.numMoments = N0 := by
  induction k generalizing r s with
  | zero => exact ⟨s, rfl, by simp only [Nat.add_zero] at hr; rw [← hr] at I ⊢; exact I, F, hn⟩
  | succ k ih =>
    rw [List.range'_succ]
    unfold SD.loop
    obtain ⟨f, hf, F', hfn⟩ := F.get_old ha r (by omega)
    rw [hf]
    simp only
    have I0 : LInv S nv r N N0 { s with factory := f } :=
      ⟨I.ham, I.kind, I.a, I.b, by simp only; rw [hfn, I.hnv], I.len, I.lenLast, I.mom, I.lst, I.rest, I.restLast⟩
    obtain ⟨p, hp, hlp⟩ := I.restLast ha r (le_refl r) (by omega) h0
    obtain ⟨it, e, hl, hm⟩ := calc_more { s with factory := f } (S.src r) (by rw [I0.h_eq, I0.kind]; exact hk _) r N0 N hn h0 hN
      (by rw [I0.h_eq, I0.kind]; exact I.rest r (le_refl r) (by omega) h0) p hp
      (by rw [I0.h_eq, I0.kind]; exact hlp)
    rw [I0.h_eq, I0.kind] at hl hm
    rw [e]
    exact ih (r + 1) _ (by omega) (I.upd (by omega) f hfn F'.acc it hl hm) F' hn

/-! ### Histories -/

/-- A consistent object with `N` moments of `nv` vectors. -/
structure Good (S : Sys V W) (N nv : ℕ) (s : SD V W) : Prop where
  inv : LInv S nv nv N 0 s
  fac : FInv S s.factory nv
  num : s.numMoments = N
  two : 2 ≤ N

theorem Good.numVectors {S : Sys V W} {N nv : ℕ} {s : SD V W} (G : Good S N nv s) : s.numVectors = nv := G.inv.len

/-- The moments are determined. -/
theorem Good.moments {S : Sys V W} {N nv : ℕ} {s : SD V W} (G : Good S N nv s) :
    s.moments = (List.range nv).map fun r => momList S.kind S.h (S.src r) N := by
  apply List.ext_getElem?
  intro j
  by_cases hj : j < nv
  · rw [G.inv.mom j hj, List.getElem?_map, List.getElem?_range hj]; rfl
  · rw [List.getElem?_eq_none (by rw [G.inv.len]; omega), List.getElem?_eq_none (by rw [List.length_map, List.length_range]; omega)]

theorem update_new (S : Sys V W) (hk : ∀ v, KindOk S.kind S.h v) (N nv n : ℕ) (hN : 2 ≤ N) (hn : 0 < n) (s : SD V W)
    (I : LInv S nv nv N 0 { s with factory := { s.factory with numVectors := nv } }) (F : FInv S s.factory nv) (hnv : s.factory.numVectors = nv + n) (hm : s.numMoments = N) :
    ∃ s', s.update N (nv + n) = (s', none) ∧ Good S N (nv + n) s' := by
  subst hm
  have hlen : s.numVectors = nv := I.len
  unfold SD.update
  rw [hlen, if_neg (by omega)]
  simp only
  rw [if_pos trivial, if_neg (by omega), if_neg (by omega)]
  have e : nv + n - nv = n := by omega
  rw [e]
  obtain ⟨s', e', I', F', m'⟩ := loop_new S hk (nv + n) s.numMoments hN n nv
    { s with moments := s.moments ++ List.replicate n [], last := s.last ++ List.replicate n (0, 0) } rfl
    ⟨I.ham, I.kind, I.a, I.b, hnv, by simp only [List.length_append, List.length_replicate]; rw [show s.moments.length = nv from I.len],
      by simp only [List.length_append, List.length_replicate]; rw [show s.last.length = nv from I.lenLast],
      fun i hi => by
        simp only
        rw [List.getElem?_append_left (by rw [show s.moments.length = nv from I.len]; exact hi)]
        exact I.mom i hi,
      fun ha i hi => by
        simp only
        rw [List.getElem?_append_left (by rw [show s.last.length = nv from I.lenLast]; exact hi)]
        exact I.lst ha i hi,
      fun i _ _ h => by omega, fun _ i _ _ h => by omega⟩ F
  exact ⟨s', e', I', F', m', hN⟩

/-- `add_vectors` refuses without any effect or succeeds. -/
theorem addVectors_good {S : Sys V W} (hk : ∀ v, KindOk S.kind S.h v) {N nv : ℕ} {s : SD V W} (G : Good S N nv s) (n : Option ℤ) (hav : Enough S nv n) :
    (∃ e, s.addVectors n = (s, some e) ∧ ¬ ∃ k : ℕ, n = some (k : ℤ) ∧ 0 < k ∧ ∀ m, S.max = some m → nv + k ≤ m) ∨ ∃ (k : ℕ) (s' : SD V W), n = some (k : ℤ) ∧ 0 < k ∧ s.addVectors n = (s', none) ∧ Good S N (nv + k) s' := by
  unfold SD.addVectors
  obtain rfl := G.num
  have hfn := G.inv.hnv
  rcases FInv.addVectors (f := s.factory) (by rw [hfn]; exact G.fac) n (by rw [hfn]; exact hav) with ⟨e, he, hne⟩ | ⟨f, k, hn, hk0, he, hf, F⟩
  · rw [he]; exact Or.inl ⟨e, rfl, by rw [hfn] at hne; exact hne⟩
  · rw [he]
    right
    simp only
    rw [G.numVectors, hf, hfn, Nat.add_sub_cancel_left]
    obtain ⟨s', e', G'⟩ := update_new S hk s.numMoments nv k G.two hk0 { s with factory := f }
      (by
        have := G.inv
        exact ⟨this.ham, this.kind, this.a, this.b, rfl, this.len, this.lenLast, this.mom, this.lst, this.rest, this.restLast⟩)
      (by rw [hfn] at F; exact F) (by rw [hf, hfn]) rfl
    exact ⟨k, s', hn, hk0, e', G'⟩

/-- `add_moments` refuses without any effect or succeeds. -/
theorem addMoments_good {S : Sys V W} (hk : ∀ v, KindOk S.kind S.h v) {N nv : ℕ} {s : SD V W} (G : Good S N nv s) (n : Option ℤ) (er : Option ℝ) :
    (∃ e, s.addMoments n er = (s, some e) ∧ ¬ (S.acc = true ∧ er = none ∧ ∃ k : ℕ, n = some (k : ℤ) ∧ 0 < k)) ∨
    ∃ (k : ℕ) (s' : SD V W), 0 < k ∧ (n = some (k : ℤ) ∧ er = none ∨ n = none ∧ er.isSome = true) ∧
      s.addMoments n er = (s', none) ∧ Good S (N + k) nv s' ∧ S.acc = true := by
  unfold SD.addMoments
  obtain rfl := G.num
  by_cases c1 : n.isSome = er.isSome
  · rw [if_pos c1]; exact Or.inl ⟨_, rfl, by rintro ⟨_, rfl, k, rfl, _⟩; simp at c1⟩
  rw [if_neg c1]
  by_cases c2 : er.getD 0 ≠ 0 ∧ er.getD 0 ≤ 0
  · rw [if_pos c2]; exact Or.inl ⟨_, rfl, by rintro ⟨_, rfl, k, rfl, _⟩; simp at c2⟩
  rw [if_neg c2]
  by_cases c3 : er.getD 0 ≠ 0 ∧ s.a * 1.6 / s.numMoments < er.getD 0
  · rw [if_pos c3]; exact Or.inl ⟨_, rfl, by rintro ⟨_, rfl, k, rfl, _⟩; simp at c3⟩
  rw [if_neg c3]
  cases hx : (if er.getD 0 ≠ 0 then some (momentsFor s.a (er.getD 0)) else n) with
  | none => exact Or.inl ⟨_, rfl, by rintro ⟨_, rfl, k, rfl, _⟩; simp at hx⟩
  | some x =>
    simp only
    by_cases c4 : x ≤ 0
    · rw [if_pos c4]; exact Or.inl ⟨_, rfl, by rintro ⟨_, rfl, k, rfl, _⟩; simp at hx; omega⟩
    rw [if_neg c4]
    have hx0 : 0 < x.toNat := by omega
    have len0 : s.moments ++ List.replicate 0 [] = s.moments := by simp
    have last0 : s.last ++ List.replicate 0 (0, 0) = s.last := by simp
    unfold SD.update
    rw [G.numVectors, if_neg (lt_irrefl nv)]
    simp only [if_true, Nat.sub_self, List.replicate_zero, List.append_nil]
    rw [if_neg (by omega)]
    by_cases hacc : s.factory.accumulate = false
    · rw [if_pos hacc]
      exact Or.inl ⟨_, rfl, by rintro ⟨h, _⟩; rw [G.fac.acc, h] at hacc; cases hacc⟩
    rw [if_neg hacc, if_neg (by omega), if_neg (by simp)]
    have ha : S.acc = true := by rw [← G.fac.acc]; simpa using hacc
    right
    have I := G.inv
    obtain ⟨s', e', I', F', m'⟩ := loop_more S hk ha nv s.numMoments (s.numMoments + x.toNat) G.two (by omega) nv 0 s (by omega)
      ⟨I.ham, I.kind, I.a, I.b, I.hnv, I.len, I.lenLast, fun i hi => by omega, fun _ i hi => by omega,
        fun i _ hi _ => I.mom i hi, fun ha i _ hi _ => I.lst ha i hi⟩ G.fac G.num
    rw [Nat.sub_zero, e']
    refine ⟨x.toNat, _, hx0, ?_, rfl, ⟨?_, F', rfl, by have := G.two; omega⟩, ha⟩
    · cases n with
      | some n =>
        left
        have her : er = none := by
          cases er with
          | none => rfl
          | some y => simp at c1
        rw [her] at hx
        simp only [Option.getD_none, ne_eq, not_true_eq_false, if_false, Option.some.injEq] at hx
        exact ⟨by rw [hx]; congr 1; omega, her⟩
      | none =>
        right
        refine ⟨rfl, ?_⟩
        cases er with
        | none => simp at c1
        | some y => rfl
    · exact ⟨I'.ham, I'.kind, I'.a, I'.b, I'.hnv, I'.len, I'.lenLast, I'.mom, I'.lst, fun i _ _ h => by omega, fun _ i _ _ h => by omega⟩

/-- The calls a user can make. -/
inductive Call where
  | addMoments (numMoments : Option ℤ) (energyResolution : Option ℝ)
  | addVectors (numVectors : Option ℤ)

/-- One call. -/
noncomputable def SD.call (s : SD V W) : Call → SD V W × Option KErr
  | .addMoments n er => s.addMoments n er
  | .addVectors n => s.addVectors n

/-- A history of calls, whatever their outcome (exceptions are caught by the user). -/
noncomputable def SD.calls (s : SD V W) : List Call → SD V W
  | [] => s
  | c :: cs => (s.call c).1.calls cs

theorem call_good {S : Sys V W} (hk : ∀ v, KindOk S.kind S.h v) {N nv : ℕ} {s : SD V W} (G : Good S N nv s) (hav : Avail S.max S.source S.src) (c : Call) :
    ∃ N' nv', N ≤ N' ∧ nv ≤ nv' ∧ Good S N' nv' (s.call c).1 := by
  cases c with
  | addMoments n er =>
    rcases addMoments_good hk G n er with ⟨e, he, _⟩ | ⟨k, s', _, _, he, G', _⟩
    · exact ⟨N, nv, le_refl _, le_refl _, by show Good S N nv (s.addMoments n er).1; rw [he]; exact G⟩
    · exact ⟨N + k, nv, by omega, le_refl _, by show Good S _ nv (s.addMoments n er).1; rw [he]; exact G'⟩
  | addVectors n =>
    rcases addVectors_good hk G n (hav.enough _ _) with ⟨e, he, _⟩ | ⟨k, s', _, _, he, G'⟩
    · exact ⟨N, nv, le_refl _, le_refl _, by show Good S N nv (s.addVectors n).1; rw [he]; exact G⟩
    · exact ⟨N, nv + k, le_refl _, by omega, by show Good S N _ (s.addVectors n).1; rw [he]; exact G'⟩

theorem calls_good {S : Sys V W} (hk : ∀ v, KindOk S.kind S.h v) {N nv : ℕ} {s : SD V W} (G : Good S N nv s) (hav : Avail S.max S.source S.src) (cs : List Call) :
    ∃ N' nv', N ≤ N' ∧ nv ≤ nv' ∧ Good S N' nv' (s.calls cs) := by
  induction cs generalizing s N nv with
  | nil => exact ⟨N, nv, le_refl _, le_refl _, G⟩
  | cons c cs ih =>
    obtain ⟨N1, n1, h1, h2, G1⟩ := call_good hk G hav c
    obtain ⟨N2, n2, h3, h4, G2⟩ := ih G1
    exact ⟨N2, n2, by omega, by omega, G2⟩

/-- The constructor: if it returns an object, it is consistent. -/
theorem init_good (ham : V → V) (kind : OpKind V W) (eps lmin lmax : ℝ) (nm : Option ℤ) (er : Option ℝ) (source : ℕ → Option V) (len : Option ℕ)
    (nvec : Option ℤ) (acc : Bool) (src : ℕ → V) (s : SD V W)
    (hav : ∀ k : ℕ, nvec.getD (len.getD 0 : ℕ) = (k : ℤ) → (∀ m, len = some m → k ≤ m) → ∀ i < k, source i = some (src i))
    (hk : ∀ a b v, rescale eps lmin lmax = .ok (a, b) → KindOk kind (rescaled ham a b) v)
    (hs : SD.init ham kind eps lmin lmax nm er source len nvec acc = .ok s) :
    ∃ (a b : ℝ) (N nv : ℕ), rescale eps lmin lmax = .ok (a, b) ∧ initMoments a nm er = .ok N ∧ 0 < nv ∧ nvec.getD (len.getD 0 : ℕ) = (nv : ℤ) ∧
      Good ⟨ham, kind, a, b, acc, len, src, source⟩ N nv s := by
  unfold SD.init at hs
  by_cases c1 : nm.getD 0 ≠ 0 ∧ er.getD 0 ≠ 0
  · rw [if_pos c1] at hs; cases hs
  rw [if_neg c1] at hs
  by_cases c2 : eps ≤ 0
  · rw [if_pos c2] at hs; cases hs
  rw [if_neg c2] at hs
  cases hr : rescale eps lmin lmax with
  | error e => rw [hr] at hs; cases hs
  | ok ab =>
    obtain ⟨a, b⟩ := ab
    rw [hr] at hs
    simp only at hs
    cases hm : initMoments a nm er with
    | error e => rw [hm] at hs; cases hs
    | ok N =>
      rw [hm] at hs
      simp only at hs
      cases hf : Factory.init source len nvec acc with
      | error e => rw [hf] at hs; cases hs
      | ok f =>
        rw [hf] at hs
        simp only at hs
        have hN1 : 0 < N := by
          unfold initMoments at hm
          rw [if_neg c1] at hm
          simp only at hm
          generalize (if er.getD 0 ≠ 0 then momentsFor a (er.getD 0) else nm.getD 100) = x at hm
          by_cases hx : x ≤ 0
          · rw [if_pos hx] at hm; cases hm
          · rw [if_neg hx] at hm; injection hm with hm; omega
        -- the factory
        have F0 : FInv (W := W) ⟨ham, kind, a, b, acc, len, src, source⟩ (Factory.mk source 0 len acc [] 0 none none) 0 :=
          ⟨rfl, rfl, rfl, fun i hi => absurd hi (Nat.not_lt_zero i), rfl, le_refl _, fun m _ => Nat.zero_le m, fun _ => ⟨rfl, fun i hi => absurd hi (Nat.not_lt_zero i)⟩, fun l hl => by cases hl⟩
        have key : ∃ k : ℕ, 0 < k ∧ nvec.getD (len.getD 0 : ℕ) = (k : ℤ) ∧ f.numVectors = k ∧
            FInv (W := W) ⟨ham, kind, a, b, acc, len, src, source⟩ f 0 := by
          unfold Factory.init at hf
          cases hq : wanted nvec len with
          | none => rw [hq] at hf; cases hf
          | some q =>
            rw [hq] at hf
            simp only at hf
            have hq' : nvec.getD (len.getD 0 : ℕ) = q := by
              cases nvec with
              | some n => simp [wanted] at hq; simp [hq]
              | none =>
                cases len with
                | none => simp [wanted] at hq
                | some l => simp [wanted] at hq; simp [hq]
            rcases F0.addVectors (some q) (fun k hk hm i hi => hav k (by rw [hq']; injection hk) (by simpa using hm) i (by simpa using hi)) with ⟨e, he, _⟩ | ⟨f', k, hn, hk0, he, hf', F'⟩
            · rw [he] at hf; cases hf
            · rw [he] at hf
              simp only at hf
              injection hf with hf
              subst hf
              refine ⟨k, hk0, ?_, by rw [hf']; simp, F'⟩
              rw [hq']; injection hn
        obtain ⟨k, hk0, hkq, hfk, F⟩ := key
        -- two moments at least
        have hN : 2 ≤ N := by
          by_contra hlt
          have e1 : N = 1 := by omega
          subst e1
          have : ∃ s', (SD.mk ham kind a b f 1 [] []).update 1 f.numVectors = (s', some KErr.index) := by
            have hz : (SD.mk ham kind a b f 1 [] []).numVectors = 0 := rfl
            unfold SD.update
            rw [hz, if_neg (Nat.not_lt_zero _)]
            simp only
            rw [if_pos trivial, if_neg (by omega), ite_self, hfk]
            obtain ⟨k', rfl⟩ : ∃ k', k = k' + 1 := ⟨k - 1, by omega⟩
            rw [Nat.sub_zero, List.range'_succ]
            unfold SD.loop
            obtain ⟨f', hf', _, _⟩ := F.get_new (by rw [hfk]; omega)
            simp only
            rw [hf']
            simp only
            unfold SD.calc
            simp
          obtain ⟨s', hs'⟩ := this
          rw [hs'] at hs
          cases hs
        obtain ⟨s', e', G'⟩ := update_new (W := W) ⟨ham, kind, a, b, acc, len, src, source⟩ (fun v => hk a b v hr) N 0 k hN hk0 (SD.mk ham kind a b f N [] [])
          ⟨rfl, rfl, rfl, rfl, rfl, rfl, rfl, fun i hi => absurd hi (Nat.not_lt_zero i), fun _ i hi => absurd hi (Nat.not_lt_zero i),
            fun i _ hi => absurd hi (Nat.not_lt_zero i), fun _ i _ hi => absurd hi (Nat.not_lt_zero i)⟩ F (by rw [Nat.zero_add]; exact hfk) rfl
        rw [Nat.zero_add] at e' G'
        rw [hfk, e'] at hs
        injection hs with hs
        subst hs
        exact ⟨a, b, N, k, rfl, hm, hk0, hkq, G'⟩

end
end Kwant.Kpm
