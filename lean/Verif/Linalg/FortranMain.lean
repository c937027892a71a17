import Verif.Linalg.FortranProps

/-! C182: arrays prepared for LAPACK and MUMPS. -/

set_option linter.unusedSectionVars false

namespace Kwant.Fortran

variable {V : Type}

/-- The common type has complex numbers exactly if one of the types has, and a precision that is at least that of each of them and is attained. -/
theorem C182_commonType (l : List DType) (c : Char) (h : lapackType (commonType l) = some c) (hn : ∀ d ∈ l, d.isNumber = true) :
    ((commonType l).isComplex = true ↔ ∃ d ∈ l, d.isComplex = true) ∧ (∀ d ∈ l, d.prec ≤ (commonType l).prec) ∧ ∃ d ∈ l, d.prec = (commonType l).prec := by
  set p := l.foldr (fun d p => max d.prec p) 0 with hp
  have hge : ∀ l : List DType, ∀ d ∈ l, d.prec ≤ l.foldr (fun d p => max d.prec p) 0 := by
    intro l
    induction l with
    | nil => simp
    | cons a l ih =>
      intro d hd
      simp only [List.foldr_cons]
      rcases List.mem_cons.mp hd with rfl | hd
      · exact le_max_left _ _
      · exact (ih d hd).trans (le_max_right _ _)
  have hat : ∀ l : List DType, 0 < l.foldr (fun d p => max d.prec p) 0 → ∃ d ∈ l, d.prec = l.foldr (fun d p => max d.prec p) 0 := by
    intro l
    induction l with
    | nil => simp
    | cons a l ih =>
      intro hpos
      simp only [List.foldr_cons] at hpos ⊢
      rcases le_total a.prec (l.foldr (fun d p => max d.prec p) 0) with h | h
      · rw [max_eq_right h] at hpos ⊢
        obtain ⟨d, hd, he⟩ := ih hpos
        exact ⟨d, List.mem_cons_of_mem _ hd, he⟩
      · exact ⟨a, by simp, (max_eq_left h).symm⟩
  have h12 : (p = 1 ∨ p = 2) := by
    unfold commonType at h
    rw [← hp] at h
    rcases hb : l.any DType.isComplex with _ | _ <;> rw [hb] at h
    · match p, h with
      | 0, h => simp [typeOf, lapackType] at h
      | 1, _ => exact Or.inl rfl
      | 2, _ => exact Or.inr rfl
      | n + 3, h => simp [typeOf, lapackType] at h
    · match p, h with
      | 0, h => simp [typeOf, lapackType] at h
      | 1, _ => exact Or.inl rfl
      | 2, _ => exact Or.inr rfl
      | n + 3, h => simp [typeOf, lapackType] at h
  have hprec : (commonType l).prec = p := by
    unfold commonType
    rw [← hp]
    rcases h12 with h | h <;> rw [h] <;> cases l.any DType.isComplex <;> rfl
  have hcx : (commonType l).isComplex = l.any DType.isComplex := by
    unfold commonType
    rw [← hp]
    rcases h12 with h | h <;> rw [h] <;> cases l.any DType.isComplex <;> rfl
  refine ⟨by rw [hcx, List.any_eq_true], fun d hd => by rw [hprec]; exact hge l d hd, ?_⟩
  rw [hprec]
  exact hat l (by omega)

theorem entries {ow : Bool} {m m1 : Mem V} (e : Ext m m1) : ∀ {args : List (Arg V)} {l : List (Option (Arr × Bool))}, (∀ x ∈ args, x.Valid m ∧ x.Proper) →
    List.Forall₂ (Collected ow m m1) args l → (∀ y ∈ l, Entry m1 y) ∧ (l.filterMap fun x => x.map fun y => y.1.dt) = args.filterMap Arg.dtype? ∧
      ((∀ p, some p ∈ l → p.1.ndim = 1 ∨ p.1.ndim = 2) ↔ ∀ x ∈ args, ∀ nd, x.ndim? = some nd → nd = 1 ∨ nd = 2) := by
  intro args l hv h
  induction h with
  | nil => simp
  | @cons x y args l hxy _ ih =>
    obtain ⟨i1, i2, i3⟩ := ih fun x hx => hv x (List.mem_cons_of_mem _ hx)
    obtain ⟨v1, v2⟩ := hv x (by simp)
    have key : (y = Option.none ∧ x.dtype? = Option.none ∧ x.ndim? = Option.none) ∨
        ∃ p : Arr × Bool, y = some p ∧ p.1.buf < m1.next ∧ (p.1.ndim = 1 → p.1.cols = 1) ∧ x.dtype? = some p.1.dt ∧ x.ndim? = some p.1.ndim := by
      cases x with
      | none => exact Or.inl ⟨hxy, rfl, rfl⟩
      | array a => exact Or.inr ⟨_, hxy.1, lt_of_lt_of_le v1 e.1, v2, rfl, rfl⟩
      | shared a => exact Or.inr ⟨_, hxy.1, lt_of_lt_of_le v1 e.1, v2, rfl, rfl⟩
      | plain dt nd r c v =>
        obtain ⟨a, h1, h2, h3, h4, h5, h6, h7, h8, h9⟩ := hxy
        refine Or.inr ⟨_, h1, h8, ?_, by simp [Arg.dtype?, h2], by simp [Arg.ndim?, h3]⟩
        intro hh
        simp only [h3, h5] at hh ⊢
        exact v2 hh
    rcases key with ⟨rfl, k1, k2⟩ | ⟨p, rfl, k1, k2, k3, k4⟩
    · refine ⟨?_, by simp [k1, i2], ?_⟩
      · intro z hz
        rcases List.mem_cons.mp hz with rfl | hz
        · intro p hp; exact absurd hp (by simp)
        · exact i1 z hz
      · constructor
        · intro h x hx
          rcases List.mem_cons.mp hx with rfl | hx
          · simp [k2]
          · exact i3.mp (fun p hp => h p (List.mem_cons_of_mem _ hp)) x hx
        · intro h p hp
          refine i3.mpr (fun x hx => h x (List.mem_cons_of_mem _ hx)) p ?_
          simpa using hp
    · refine ⟨?_, by simp [k3, i2], ?_⟩
      · intro z hz
        rcases List.mem_cons.mp hz with rfl | hz
        · intro q hq
          simp only [Option.some.injEq] at hq
          subst hq
          exact ⟨k1, k2⟩
        · exact i1 z hz
      · simp only [List.mem_cons, Option.some.injEq, forall_eq_or_imp, k4, forall_eq', i3]

theorem forall₂_get? {α β : Type} {R : α → β → Prop} {l : List α} {k : List β} (h : List.Forall₂ R l k) {i : ℕ} {x : α} (hx : l[i]? = some x) :
    ∃ y, k[i]? = some y ∧ R x y := by
  induction h generalizing i with
  | nil => simp at hx
  | cons hab _ ih =>
    cases i with
    | zero =>
      simp only [List.getElem?_cons_zero, Option.some.injEq] at hx ⊢
      subst hx
      exact ⟨_, rfl, hab⟩
    | succ i =>
      simp only [List.getElem?_cons_succ] at hx ⊢
      exact ih hx

/-- The arguments that `prepare` accepts: all of them are numeric vectors or matrices, or `None`, and their common type is one of the four types of LAPACK. -/
theorem C182_accepts (ow : Bool) (m : Mem V) (args : List (Arg V)) (hv : ∀ x ∈ args, x.Valid m ∧ x.Proper) :
    (∃ r, prepare ow m args = .ok r) ↔ (∀ x ∈ args, ∀ dt, x.dtype? = some dt → dt.isNumber = true) ∧ (lapackType (commonType (args.filterMap Arg.dtype?))).isSome = true ∧
      ∀ x ∈ args, ∀ nd, x.ndim? = some nd → nd = 1 ∨ nd = 2 := by
  have hc := collect_ok (ow := ow) args m
  unfold prepare
  cases hq : collect ow m args with
  | error e =>
    rw [hq] at hc
    simp only [reduceCtorEq, exists_false, false_iff] at hc ⊢
    exact fun h => hc h.1
  | ok p =>
    rw [hq] at hc
    have hnum := hc.mp ⟨_, rfl⟩
    obtain ⟨e1, e2, -⟩ := collect_spec (m1 := p.1) (l := p.2) hq
    obtain ⟨-, n2, n3⟩ := entries e1 hv e2
    simp only [n2]
    cases hl : lapackType (commonType (args.filterMap Arg.dtype?)) with
    | none => simp
    | some ch =>
      have ho := convertAll_ok (dtype := commonType (args.filterMap Arg.dtype?)) p.2 p.1
      rw [n3] at ho
      dsimp only
      cases hr : convertAll (commonType (args.filterMap Arg.dtype?)) p.1 p.2 with
      | error e =>
        rw [hr] at ho
        simp only [reduceCtorEq, exists_false, false_iff] at ho ⊢
        exact fun h => ho h.2.2
      | ok q =>
        rw [hr] at ho
        exact ⟨fun _ => ⟨hnum, rfl, ho.mp ⟨_, rfl⟩⟩, fun _ => ⟨_, rfl⟩⟩

/-- C182 (partial: objects that share their memory with the array that numpy makes of them, but are no arrays, are overwritten, see `C182_counterexample`).
There is one result for each argument: `None` for `None`, otherwise a Fortran contiguous array with the shape and the elements of the argument, in the common data type.
Unless `overwrite` is set, the results are in different new buffers, so that whatever is done with them leaves all arrays of the caller as they were before the call.  If
`overwrite` is set, only arrays that share memory with an argument can be changed. -/
theorem C182_partial {ow : Bool} {m m' : Mem V} {args : List (Arg V)} {ch : Char} {res : List (Option Arr)} (hv : ∀ x ∈ args, x.Valid m ∧ x.Proper)
    (h : prepare ow m args = .ok (m', ch, res)) :
    res.length = args.length ∧
    (∀ (k : ℕ) (x : Arg V), args[k]? = some x → (x = .none ∧ res[k]? = some Option.none) ∨
      ∃ a, res[k]? = some (some a) ∧ a.dt = commonType (args.filterMap Arg.dtype?) ∧ lapackType a.dt = some ch ∧ a.fContig ∧
        ∀ dt nd r c v, x.Is m dt nd r c v → a.ndim = nd ∧ a.rows = r ∧ a.cols = c ∧ ∀ i < r, ∀ j < c, m'.read a i j = v i j) ∧
    (ow = false → (∀ x ∈ args, x.isShared = false) → (res.filterMap fun z => z.map Arr.buf).Nodup ∧
      ∀ m'', OnlyResults m' m'' res → ∀ b : Arr, b.buf < m.next → ∀ i j, m''.read b i j = m.read b i j) ∧
    (∀ m'', OnlyResults m' m'' res → ∀ b : Arr, b.buf < m.next → (∀ a, .array a ∈ args ∨ .shared a ∈ args → b.buf ≠ a.buf) → ∀ i j, m''.read b i j = m.read b i j) := by
  unfold prepare at h
  cases hq : collect ow m args with
  | error e => simp [hq] at h
  | ok p =>
    obtain ⟨e1, e2, e3⟩ := collect_spec (m1 := p.1) (l := p.2) hq
    obtain ⟨n1, n2, -⟩ := entries e1 hv e2
    simp only [hq, n2] at h
    cases hl : lapackType (commonType (args.filterMap Arg.dtype?)) with
    | none => simp [hl] at h
    | some c =>
      simp only [hl] at h
      cases hr : convertAll (commonType (args.filterMap Arg.dtype?)) p.1 p.2 with
      | error e => simp [hr] at h
      | ok q =>
        simp only [hr, Except.ok.injEq, Prod.mk.injEq] at h
        obtain ⟨rfl, rfl, rfl⟩ := h
        obtain ⟨f1, f2, f3, f4⟩ := convertAll_spec (m' := q.1) (res := q.2) n1 hr
        have changed : ∀ m'', OnlyResults q.1 m'' q.2 → ∀ b : Arr, b.buf < m.next → b.buf ∉ passBufs p.2 → ∀ i j, m''.read b i j = m.read b i j := by
          intro m'' hm b hb hnp i j
          have : ∀ z, some z ∈ q.2 → z.buf ≠ b.buf := by
            intro z hz he
            rcases f3 z hz with k | k
            · exact hnp (he ▸ k)
            · have := e1.1
              omega
          rw [Mem.read, hm b.buf this]
          rw [f1.2 b.buf (lt_of_lt_of_le hb e1.1), e1.2 b.buf hb]
          rfl
        refine ⟨?_, ?_, ?_, ?_⟩
        · rw [← f2.length_eq, ← e2.length_eq]
        · intro k x hx
          obtain ⟨y, hy, hxy⟩ := forall₂_get? e2 hx
          obtain ⟨z, hz, hyz⟩ := forall₂_get? f2 hy
          have arr : ∀ (a : Arr) (ov : Bool), y = some (a, ov) → ∃ b, z = some b ∧ b.dt = commonType (args.filterMap Arg.dtype?) ∧ b.ndim = a.ndim ∧ b.rows = a.rows ∧
              b.cols = a.cols ∧ b.fContig ∧ ∀ i < a.rows, ∀ j < a.cols, q.1.read b i j = p.1.read a i j := by
            intro a ov hya
            rw [hya] at hyz
            obtain ⟨b, k1, k2, k3, k4, k5, k6, k7, -⟩ := hyz
            exact ⟨b, k1, k2, k3, k4, k5, k6, k7⟩
          have own : ∀ a : Arr, a.buf < m.next → (∃ ov, y = some (a, ov)) → ∃ b, q.2[k]? = some (some b) ∧ b.dt = commonType (args.filterMap Arg.dtype?) ∧
              lapackType b.dt = some c ∧ b.fContig ∧ ∀ (dt : DType) (nd r c : ℕ) (v : ℕ → ℕ → V), (a.dt = dt ∧ a.ndim = nd ∧ a.rows = r ∧ a.cols = c ∧ ∀ i < r, ∀ j < c, m.read a i j = v i j) →
              b.ndim = nd ∧ b.rows = r ∧ b.cols = c ∧ ∀ i < r, ∀ j < c, q.1.read b i j = v i j := by
            rintro a ha ⟨ov, hov⟩
            obtain ⟨b, rfl, k2, k3, k4, k5, k6, k7⟩ := arr a ov hov
            refine ⟨b, hz, k2, by rw [k2]; exact hl, k6, ?_⟩
            rintro dt nd r c v ⟨rfl, rfl, rfl, rfl, hval⟩
            refine ⟨k3, k4, k5, ?_⟩
            intro i hi j hj
            rw [k7 i hi j hj, e1.read ha, hval i hi j hj]
          have hxv := (hv x (List.mem_of_getElem? hx)).1
          cases x with
          | none =>
            have : y = Option.none := hxy
            rw [this] at hyz
            have : z = Option.none := hyz
            exact Or.inl ⟨rfl, by rw [hz, this]⟩
          | array a => exact Or.inr (own a hxv ⟨_, hxy.1⟩)
          | shared a => exact Or.inr (own a hxv ⟨_, hxy.1⟩)
          | plain dt nd r c v =>
            obtain ⟨a, h1, h2, h3, h4, h5, h6, h7, h8, h9⟩ := hxy
            obtain ⟨b, rfl, k2, k3, k4, k5, k6, k7⟩ := arr a true h1
            refine Or.inr ⟨b, hz, k2, by rw [k2]; exact hl, k6, ?_⟩
            rintro dt' nd' r' c' v' ⟨rfl, rfl, rfl, rfl, hval⟩
            refine ⟨k3.trans h3, k4.trans h4, k5.trans h5, ?_⟩
            intro i hi j hj
            rw [k7 i (by omega) j (by omega), h9 i hi j hj, hval i hi j hj]
        · intro ho hs
          obtain ⟨g1, g2⟩ := e3 ho hs
          refine ⟨f4 g1, ?_⟩
          intro m'' hm b hb
          refine changed m'' hm b hb fun hmem => ?_
          have := (g2 _ hmem).1
          omega
        · intro m'' hm b hb hne
          refine changed m'' hm b hb fun hmem => ?_
          simp only [passBufs, List.mem_filterMap] at hmem
          obtain ⟨y, hy, hyb⟩ := hmem
          cases y with
          | none => simp at hyb
          | some pr =>
            simp only [Option.bind_some] at hyb
            split_ifs at hyb
            simp only [Option.some.injEq] at hyb
            obtain ⟨k, hk, hky⟩ := List.getElem_of_mem hy
            have hk' : k < args.length := by rw [e2.length_eq]; exact hk
            obtain ⟨y', hy', hxy⟩ := forall₂_get? e2 (List.getElem?_eq_getElem hk')
            rw [List.getElem?_eq_getElem hk, hky] at hy'
            simp only [Option.some.injEq] at hy'
            subst hy'
            have hmem := List.getElem_mem hk'
            cases hx : args[k] with
            | none =>
              rw [hx] at hxy
              exact absurd hxy (by simp [Collected])
            | array a =>
              rw [hx] at hxy hmem
              have := hxy.1
              simp only [Option.some.injEq] at this
              rw [this] at hyb
              exact hne a (Or.inl hmem) hyb.symm
            | shared a =>
              rw [hx] at hxy hmem
              have := hxy.1
              simp only [Option.some.injEq] at this
              rw [this] at hyb
              exact hne a (Or.inr hmem) hyb.symm
            | plain dt nd r c v =>
              rw [hx] at hxy
              obtain ⟨a, h1, h2, h3, h4, h5, h6, h7, h8, h9⟩ := hxy
              simp only [Option.some.injEq] at h1
              rw [h1] at hyb
              simp only at hyb
              omega

/-! ### Examples and what is missing -/

/-- A vector of three double precision numbers in buffer 0. -/
def vec : Arr := ⟨0, .f64, 1, 3, 1, fun i _ => i⟩

/-- A memory with one buffer. -/
def mem0 : Mem ℤ := ⟨1, fun _ k => k⟩

/-- The full claim of C182 is that nothing of the caller is overwritten unless `overwrite` is set.  It fails for objects that are no arrays but share their memory, such as an
`array.array` of doubles: the result is in the memory of the caller. -/
theorem C182_counterexample : prepare false mem0 [.shared vec] = .ok (mem0, 'd', [some vec]) ∧
    ∃ m'', OnlyResults mem0 m'' [some vec] ∧ m''.read vec 0 0 ≠ mem0.read vec 0 0 := by
  have hc : vec.cContig := by decide
  constructor
  · simp [prepare, collect, asAnyArray, vec, DType.isNumber, commonType, typeOf, DType.isComplex, DType.prec, lapackType, convertAll, convert, Arr.cContig]
  · refine ⟨⟨1, fun b k => if b = 0 then k + 7 else k⟩, ?_, by simp [Mem.read, mem0, vec]⟩
    intro b hb
    have hne : b ≠ 0 := fun h => hb vec (by simp) (by rw [h]; rfl)
    funext k
    simp [hne, mem0]

/-- The hypotheses of `C182_partial` are met by a vector of the caller and a matrix of integers, given as a list, with `overwrite=False`. -/
theorem C182_example : (∀ x ∈ [Arg.array vec, .plain .int 2 2 2 fun i j => (i : ℤ) + j], x.Valid mem0 ∧ x.Proper) ∧
    ∃ r, prepare false mem0 [Arg.array vec, .plain .int 2 2 2 fun i j => (i : ℤ) + j] = .ok r := by
  have hv : ∀ x ∈ [Arg.array vec, .plain .int 2 2 2 fun i j => (i : ℤ) + j], x.Valid mem0 ∧ x.Proper := by
    intro x hx
    simp only [List.mem_cons, List.not_mem_nil, or_false] at hx
    rcases hx with rfl | rfl
    · exact ⟨Nat.zero_lt_one, fun _ => rfl⟩
    · exact ⟨trivial, fun h => absurd h (by decide)⟩
  refine ⟨hv, (C182_accepts false mem0 _ hv).mpr ⟨?_, ?_, ?_⟩⟩
  · intro x hx
    simp only [List.mem_cons, List.not_mem_nil, or_false] at hx
    rcases hx with rfl | rfl <;> simp [Arg.dtype?, vec, DType.isNumber]
  · simp [Arg.dtype?, vec, commonType, typeOf, DType.isComplex, DType.prec, lapackType]
  · intro x hx
    simp only [List.mem_cons, List.not_mem_nil, or_false] at hx
    rcases hx with rfl | rfl <;> simp [Arg.ndim?, vec]

end Kwant.Fortran
