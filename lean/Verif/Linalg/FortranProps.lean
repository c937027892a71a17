import Verif.Linalg.Fortran
import Mathlib.Data.List.Forall2
import Mathlib.Data.List.Nodup

/-! C182: arrays prepared for LAPACK and MUMPS. -/

set_option linter.unusedSectionVars false

namespace Kwant.Fortran

variable {V : Type}

/-- Memory has only grown. -/
def Ext (m m' : Mem V) : Prop := m.next ≤ m'.next ∧ ∀ b < m.next, m'.at' b = m.at' b

theorem Ext.refl (m : Mem V) : Ext m m := ⟨le_rfl, fun _ _ => rfl⟩

theorem Ext.trans {a b c : Mem V} (h : Ext a b) (k : Ext b c) : Ext a c :=
  ⟨h.1.trans k.1, fun x hx => (k.2 x (lt_of_lt_of_le hx h.1)).trans (h.2 x hx)⟩

theorem ext_alloc (m : Mem V) (f : ℕ → V) : Ext m (m.alloc f) :=
  ⟨Nat.le_succ _, fun b hb => by simp [Mem.alloc, hb.ne]⟩

theorem Ext.read {m m' : Mem V} (h : Ext m m') {a : Arr} (ha : a.buf < m.next) (i j : ℕ) : m'.read a i j = m.read a i j := by
  rw [Mem.read, Mem.read, h.2 _ ha]

theorem copyF_spec (m : Mem V) (a : Arr) (dt : DType) :
    Ext m (copyF m a dt).1 ∧ (copyF m a dt).2.buf = m.next ∧ (copyF m a dt).1.next = m.next + 1 ∧ (copyF m a dt).2.dt = dt ∧ (copyF m a dt).2.ndim = a.ndim ∧
    (copyF m a dt).2.rows = a.rows ∧ (copyF m a dt).2.cols = a.cols ∧ (copyF m a dt).2.fContig ∧
    ∀ i < a.rows, ∀ j < a.cols, (copyF m a dt).1.read (copyF m a dt).2 i j = m.read a i j := by
  refine ⟨ext_alloc _ _, rfl, rfl, rfl, rfl, rfl, rfl, ?_, ?_⟩
  · intro i _ j _
    simp [copyF]
  · intro i hi j _
    have h1 : (i + j * a.rows) % a.rows = i := by rw [Nat.add_mul_mod_self_right, Nat.mod_eq_of_lt hi]
    have h2 : (i + j * a.rows) / a.rows = j := by rw [Nat.add_mul_div_right _ _ (by omega), Nat.div_eq_of_lt hi, zero_add]
    simp only [copyF, Mem.read, Mem.alloc, if_true, h1, h2]

theorem copyC_spec (m : Mem V) (a : Arr) (dt : DType) :
    Ext m (copyC m a dt).1 ∧ (copyC m a dt).2.buf = m.next ∧ (copyC m a dt).1.next = m.next + 1 ∧ (copyC m a dt).2.dt = dt ∧ (copyC m a dt).2.ndim = a.ndim ∧
    (copyC m a dt).2.rows = a.rows ∧ (copyC m a dt).2.cols = a.cols ∧ (copyC m a dt).2.cContig ∧
    ∀ i < a.rows, ∀ j < a.cols, (copyC m a dt).1.read (copyC m a dt).2 i j = m.read a i j := by
  refine ⟨ext_alloc _ _, rfl, rfl, rfl, rfl, rfl, rfl, ?_, ?_⟩
  · intro i _ j _
    simp [copyC]
  · intro i _ j hj
    have h1 : (i * a.cols + j) % a.cols = j := by rw [Nat.add_comm, Nat.add_mul_mod_self_right, Nat.mod_eq_of_lt hj]
    have h2 : (i * a.cols + j) / a.cols = i := by
      rw [Nat.add_comm, Nat.add_mul_div_right _ _ (by omega), Nat.div_eq_of_lt hj, zero_add]
    simp only [copyC, Mem.read, Mem.alloc, if_true, h1, h2]

/-- In one dimension the two kinds of contiguity are the same. -/
theorem contig_one {a : Arr} (h : a.cols = 1) : a.cContig ↔ a.fContig := by
  unfold Arr.cContig Arr.fContig
  rw [h]
  constructor
  · intro k i hi j hj
    obtain rfl : j = 0 := by omega
    simpa using k i hi 0 (by omega)
  · intro k i hi j hj
    obtain rfl : j = 0 := by omega
    simpa using k i hi 0 (by omega)

/-- What a conversion returns. -/
structure Conv (dtype : DType) (m : Mem V) (a : Arr) (ov : Bool) (m' : Mem V) (b : Arr) : Prop where
  ext : Ext m m'
  dt : b.dt = dtype
  ndim : b.ndim = a.ndim
  rows : b.rows = a.rows
  cols : b.cols = a.cols
  contig : b.fContig
  vals : ∀ i < a.rows, ∀ j < a.cols, m'.read b i j = m.read a i j
  place : (m.next ≤ b.buf ∧ b.buf < m'.next) ∨ (ov = true ∧ b.buf = a.buf ∧ m' = m)

theorem asFortran_copy {dtype : DType} (m : Mem V) (a : Arr) (ov : Bool) (hd : a.dt = dtype) :
    Conv dtype m a ov (asFortran (copyC m a a.dt).1 (copyC m a a.dt).2).1 (asFortran (copyC m a a.dt).1 (copyC m a a.dt).2).2 := by
  obtain ⟨c1, c2, c3, c4, c5, c6, c7, c8, c9⟩ := copyC_spec m a a.dt
  unfold asFortran
  split_ifs with h
  · refine ⟨c1, c4.trans hd, c5, c6, c7, h, c9, Or.inl ⟨c2.ge, ?_⟩⟩
    show (copyC m a a.dt).2.buf < (copyC m a a.dt).1.next
    omega
  · obtain ⟨f1, f2, f3, f4, f5, f6, f7, f8, f9⟩ := copyF_spec (copyC m a a.dt).1 (copyC m a a.dt).2 (copyC m a a.dt).2.dt
    refine ⟨c1.trans f1, f4.trans (c4.trans hd), f5.trans c5, f6.trans c6, f7.trans c7, f8, ?_, Or.inl ⟨by omega, by omega⟩⟩
    intro i hi j hj
    rw [f9 i (by omega) j (by omega), c9 i hi j hj]

theorem convert_spec {dtype : DType} {m m' : Mem V} {a b : Arr} {ov : Bool} (hp : a.ndim = 1 → a.cols = 1)
    (h : convert dtype m a ov = .ok (m', b)) : Conv dtype m a ov m' b ∧ (a.ndim = 1 ∨ a.ndim = 2) := by
  have cF : Conv dtype m a ov (copyF m a dtype).1 (copyF m a dtype).2 := by
    obtain ⟨c1, c2, c3, c4, c5, c6, c7, c8, c9⟩ := copyF_spec m a dtype
    exact ⟨c1, c4, c5, c6, c7, c8, c9, Or.inl ⟨c2.ge, by omega⟩⟩
  have cC : a.cols = 1 → Conv dtype m a ov (copyC m a dtype).1 (copyC m a dtype).2 := by
    intro hc1
    obtain ⟨c1, c2, c3, c4, c5, c6, c7, c8, c9⟩ := copyC_spec m a dtype
    exact ⟨c1, c4, c5, c6, c7, (contig_one (c7.trans hc1)).mp c8, c9, Or.inl ⟨c2.ge, by omega⟩⟩
  have use : ∀ (r : Mem V × Arr), Conv dtype m a ov r.1 r.2 → Except.ok (ε := AErr) r = .ok (m', b) → Conv dtype m a ov m' b := by
    intro r hr h
    simp only [Except.ok.injEq] at h
    rw [h] at hr
    exact hr
  unfold convert at h
  by_cases h2 : a.ndim = 2
  · rw [if_pos h2] at h
    refine ⟨?_, Or.inr h2⟩
    by_cases hf : a.fContig
    · rw [if_neg (not_not.mpr hf)] at h
      by_cases hd : a.dt = dtype
      · rw [if_neg (not_not.mpr hd)] at h
        cases ov with
        | false => exact use _ (asFortran_copy m a false hd) h
        | true => exact use (m, a) ⟨Ext.refl _, hd, rfl, rfl, rfl, hf, fun _ _ _ _ => rfl, Or.inr ⟨rfl, rfl, rfl⟩⟩ h
      · rw [if_pos hd] at h
        exact use _ cF h
    · rw [if_pos hf] at h
      exact use _ cF h
  · rw [if_neg h2] at h
    by_cases h1 : a.ndim = 1
    · rw [if_pos h1] at h
      refine ⟨?_, Or.inl h1⟩
      have hc1 := hp h1
      by_cases hf : a.cContig
      · rw [if_neg (not_not.mpr hf)] at h
        by_cases hd : a.dt = dtype
        · rw [if_neg (not_not.mpr hd)] at h
          cases ov with
          | false => exact use _ (asFortran_copy m a false hd) h
          | true => exact use (m, a) ⟨Ext.refl _, hd, rfl, rfl, rfl, (contig_one hc1).mp hf, fun _ _ _ _ => rfl, Or.inr ⟨rfl, rfl, rfl⟩⟩ h
        · rw [if_pos hd] at h
          exact use _ (cC hc1) h
      · rw [if_pos hf] at h
        exact use _ (cC hc1) h
    · rw [if_neg h1] at h
      exact absurd h (by simp)

theorem convert_ok (dtype : DType) (m : Mem V) (a : Arr) (ov : Bool) : (∃ r, convert dtype m a ov = .ok r) ↔ a.ndim = 1 ∨ a.ndim = 2 := by
  unfold convert
  split_ifs with h2 hf hd ho h1 <;> simp_all

/-- What the first loop makes of an argument. -/
def Collected (ow : Bool) (m m1 : Mem V) (x : Arg V) (y : Option (Arr × Bool)) : Prop :=
  match x with
  | .none => y = Option.none
  | .array a => y = some (a, ow) ∧ a.dt.isNumber = true
  | .shared a => y = some (a, true) ∧ a.dt.isNumber = true
  | .plain dt nd r c v => ∃ a, y = some (a, true) ∧ a.dt = dt ∧ a.ndim = nd ∧ a.rows = r ∧ a.cols = c ∧ dt.isNumber = true ∧
      m.next ≤ a.buf ∧ a.buf < m1.next ∧ ∀ i < r, ∀ j < c, m1.read a i j = v i j

theorem Collected.mono {ow : Bool} {m n m1 : Mem V} {x : Arg V} {y : Option (Arr × Bool)} (h : m.next ≤ n.next) (k : Collected ow n m1 x y) : Collected ow m m1 x y := by
  cases x with
  | none => exact k
  | array a => exact k
  | shared a => exact k
  | plain dt nd r c v =>
    obtain ⟨a, h1, h2, h3, h4, h5, h6, h7, h8, h9⟩ := k
    exact ⟨a, h1, h2, h3, h4, h5, h6, h.trans h7, h8, h9⟩

/-- The buffers of the arrays that may be passed through. -/
def passBufs (l : List (Option (Arr × Bool))) : List ℕ := l.filterMap fun y => y.bind fun p => if p.2 then some p.1.buf else none

theorem collect_spec {ow : Bool} : ∀ {args : List (Arg V)} {m m1 : Mem V} {l : List (Option (Arr × Bool))}, collect ow m args = .ok (m1, l) →
    Ext m m1 ∧ List.Forall₂ (Collected ow m m1) args l ∧
    (ow = false → (∀ x ∈ args, x.isShared = false) → (passBufs l).Nodup ∧ ∀ b ∈ passBufs l, m.next ≤ b ∧ b < m1.next)
  | [], m, m1, l, h => by
    simp only [collect, Except.ok.injEq, Prod.mk.injEq] at h
    obtain ⟨rfl, rfl⟩ := h
    exact ⟨Ext.refl _, List.Forall₂.nil, fun _ _ => ⟨List.nodup_nil, fun b hb => by simp [passBufs] at hb⟩⟩
  | x :: args, m, m1, l, h => by
    cases x with
    | none =>
      simp only [collect, asAnyArray] at h
      cases hr : collect ow m args with
      | error e => simp [hr] at h
      | ok q =>
        simp only [hr, Except.ok.injEq, Prod.mk.injEq] at h
        obtain ⟨rfl, rfl⟩ := h
        obtain ⟨h1, h2, h3⟩ := collect_spec (m1 := q.1) (l := q.2) hr
        exact ⟨h1, List.Forall₂.cons rfl h2, fun ho hs => h3 ho fun y hy => hs y (List.mem_cons_of_mem _ hy)⟩
    | array a =>
      simp only [collect, asAnyArray] at h
      split_ifs at h with hn
      cases hr : collect ow m args with
      | error e => simp [hr] at h
      | ok q =>
        simp only [hr, Except.ok.injEq, Prod.mk.injEq] at h
        obtain ⟨rfl, rfl⟩ := h
        obtain ⟨h1, h2, h3⟩ := collect_spec (m1 := q.1) (l := q.2) hr
        refine ⟨h1, List.Forall₂.cons ⟨by simp, by simpa using hn⟩ h2, fun ho hs => ?_⟩
        subst ho
        simpa [passBufs] using h3 rfl fun y hy => hs y (List.mem_cons_of_mem _ hy)
    | shared a =>
      simp only [collect, asAnyArray] at h
      split_ifs at h with hn
      cases hr : collect ow m args with
      | error e => simp [hr] at h
      | ok q =>
        simp only [hr, Except.ok.injEq, Prod.mk.injEq] at h
        obtain ⟨rfl, rfl⟩ := h
        obtain ⟨h1, h2, h3⟩ := collect_spec (m1 := q.1) (l := q.2) hr
        refine ⟨h1, List.Forall₂.cons ⟨by simp, by simpa using hn⟩ h2, fun ho hs => ?_⟩
        have := hs (.shared a) (by simp)
        simp [Arg.isShared] at this
    | plain dt nd r c v =>
      simp only [collect, asAnyArray] at h
      split_ifs at h with hn
      set m2 : Mem V := m.alloc fun k => v (k / c) (k % c) with hm2
      have e2 : Ext m m2 := ext_alloc _ _
      cases hr : collect ow m2 args with
      | error e => simp [hr] at h
      | ok q =>
        simp only [hr, Except.ok.injEq, Prod.mk.injEq] at h
        obtain ⟨rfl, rfl⟩ := h
        obtain ⟨h1, h2, h3⟩ := collect_spec (m1 := q.1) (l := q.2) hr
        have hlt : m.next < q.1.next := lt_of_lt_of_le (Nat.lt_succ_self _) h1.1
        refine ⟨e2.trans h1, List.Forall₂.cons ⟨_, by simp; rfl, rfl, rfl, rfl, rfl, by simpa using hn, le_rfl, hlt, ?_⟩
          (h2.imp fun x y k => k.mono e2.1), fun ho hs => ?_⟩
        · intro i hi j hj
          rw [h1.read (show m.next < m2.next from Nat.lt_succ_self _)]
          have a1 : (i * c + j) % c = j := by rw [Nat.add_comm, Nat.add_mul_mod_self_right, Nat.mod_eq_of_lt hj]
          have a2 : (i * c + j) / c = i := by rw [Nat.add_comm, Nat.add_mul_div_right _ _ (by omega), Nat.div_eq_of_lt hj, zero_add]
          simp only [hm2, Mem.read, Mem.alloc, if_true, a1, a2]
        · obtain ⟨k1, k2⟩ := h3 ho fun y hy => hs y (List.mem_cons_of_mem _ hy)
          have hpb : passBufs (some ((⟨m.next, dt, nd, r, c, fun i j => i * c + j⟩ : Arr), true || ow) :: q.2) = m.next :: passBufs q.2 := by simp [passBufs]
          rw [hpb]
          refine ⟨List.nodup_cons.mpr ⟨fun hb => ?_, k1⟩, ?_⟩
          · have := (k2 _ hb).1
            have h5 : m2.next = m.next + 1 := rfl
            omega
          · intro b hb
            rcases List.mem_cons.mp hb with rfl | hb
            · exact ⟨le_rfl, hlt⟩
            · exact ⟨e2.1.trans (k2 b hb).1, (k2 b hb).2⟩

theorem collect_ok {ow : Bool} : ∀ (args : List (Arg V)) (m : Mem V), (∃ r, collect ow m args = .ok r) ↔ ∀ x ∈ args, ∀ dt, x.dtype? = some dt → dt.isNumber = true
  | [], m => by simp [collect]
  | x :: args, m => by
    have ih := fun m => collect_ok (ow := ow) args m
    cases x with
    | none =>
      simp only [collect, asAnyArray]
      have h := ih m
      cases hq : collect ow m args <;> rw [hq] at h <;> simpa [Arg.dtype?] using h
    | array a =>
      simp only [collect, asAnyArray]
      split_ifs with hn
      · simp [Arg.dtype?, hn]
      · have h := ih m
        cases hq : collect ow m args <;> rw [hq] at h <;> simpa [Arg.dtype?, hn] using h
    | shared a =>
      simp only [collect, asAnyArray]
      split_ifs with hn
      · simp [Arg.dtype?, hn]
      · have h := ih m
        cases hq : collect ow m args <;> rw [hq] at h <;> simpa [Arg.dtype?, hn] using h
    | plain dt nd r c v =>
      simp only [collect, asAnyArray]
      split_ifs with hn
      · simp [Arg.dtype?, hn]
      · have h := ih (m.alloc fun k => v (k / c) (k % c))
        cases hq : collect ow (m.alloc fun k => v (k / c) (k % c)) args <;> rw [hq] at h <;> simpa [Arg.dtype?, hn] using h

/-- What the second loop makes of an entry. -/
def Converted (dtype : DType) (m m' : Mem V) (y : Option (Arr × Bool)) (z : Option Arr) : Prop :=
  match y with
  | Option.none => z = Option.none
  | some (a, ov) => ∃ b, z = some b ∧ b.dt = dtype ∧ b.ndim = a.ndim ∧ b.rows = a.rows ∧ b.cols = a.cols ∧ b.fContig ∧
      (∀ i < a.rows, ∀ j < a.cols, m'.read b i j = m.read a i j) ∧ ((m.next ≤ b.buf ∧ b.buf < m'.next) ∨ (ov = true ∧ b.buf = a.buf))

/-- The entries are arrays in use, and vectors have one column. -/
def Entry (m : Mem V) (y : Option (Arr × Bool)) : Prop := ∀ p, y = some p → p.1.buf < m.next ∧ (p.1.ndim = 1 → p.1.cols = 1)

theorem convertAll_spec {dtype : DType} : ∀ {l : List (Option (Arr × Bool))} {m m' : Mem V} {res : List (Option Arr)}, (∀ y ∈ l, Entry m y) →
    convertAll dtype m l = .ok (m', res) →
    Ext m m' ∧ List.Forall₂ (Converted dtype m m') l res ∧ (∀ z, some z ∈ res → z.buf ∈ passBufs l ∨ (m.next ≤ z.buf ∧ z.buf < m'.next)) ∧
    ((passBufs l).Nodup → (res.filterMap fun z => z.map Arr.buf).Nodup)
  | [], m, m', res, _, h => by
    simp only [convertAll, Except.ok.injEq, Prod.mk.injEq] at h
    obtain ⟨rfl, rfl⟩ := h
    exact ⟨Ext.refl _, List.Forall₂.nil, fun z hz => absurd hz (by simp), fun _ => List.nodup_nil⟩
  | Option.none :: l, m, m', res, he, h => by
    simp only [convertAll] at h
    cases hr : convertAll dtype m l with
    | error e => simp [hr] at h
    | ok q =>
      simp only [hr, Except.ok.injEq, Prod.mk.injEq] at h
      obtain ⟨rfl, rfl⟩ := h
      obtain ⟨h1, h2, h3, h4⟩ := convertAll_spec (m' := q.1) (res := q.2) (fun y hy => he y (List.mem_cons_of_mem _ hy)) hr
      refine ⟨h1, List.Forall₂.cons rfl h2, ?_, fun hn => by simpa using h4 hn⟩
      intro z hz
      exact h3 z (by simpa using hz)
  | some (a, ov) :: l, m, m', res, he, h => by
    simp only [convertAll] at h
    cases hc : convert dtype m a ov with
    | error e => simp [hc] at h
    | ok p =>
      simp only [hc] at h
      cases hr : convertAll dtype p.1 l with
      | error e => simp [hr] at h
      | ok q =>
        simp only [hr, Except.ok.injEq, Prod.mk.injEq] at h
        obtain ⟨rfl, rfl⟩ := h
        obtain ⟨ha, hav⟩ := he _ List.mem_cons_self (a, ov) rfl
        obtain ⟨c, -⟩ := convert_spec (m' := p.1) (b := p.2) hav hc
        have he' : ∀ y ∈ l, Entry p.1 y := by
          intro y hy x hx
          obtain ⟨k1, k2⟩ := he y (List.mem_cons_of_mem _ hy) x hx
          exact ⟨lt_of_lt_of_le k1 c.ext.1, k2⟩
        obtain ⟨h1, h2, h3, h4⟩ := convertAll_spec (m' := q.1) (res := q.2) he' hr
        have hpb : p.2.buf < p.1.next := by
          rcases c.place with h | ⟨-, h, h5⟩
          · exact h.2
          · rw [h, h5]; exact ha
        have hb : p.2.buf ∈ passBufs (some (a, ov) :: l) ∨ (m.next ≤ p.2.buf ∧ p.2.buf < q.1.next) := by
          rcases c.place with ⟨h5, h6⟩ | ⟨h5, h6, -⟩
          · exact Or.inr ⟨h5, lt_of_lt_of_le h6 h1.1⟩
          · left; simp [passBufs, h5, h6]
        have hsub : ∀ b ∈ passBufs l, b ∈ passBufs (some (a, ov) :: l) := by
          intro b hb
          simp only [passBufs, List.filterMap_cons] at hb ⊢
          split
          · exact hb
          · exact List.mem_cons_of_mem _ hb
        refine ⟨c.ext.trans h1, List.Forall₂.cons ⟨p.2, rfl, c.dt, c.ndim, c.rows, c.cols, c.contig, ?_, ?_⟩ ?_, ?_, ?_⟩
        · intro i hi j hj
          rw [h1.read hpb, c.vals i hi j hj]
        · rcases c.place with ⟨h5, h6⟩ | ⟨h5, h6, -⟩
          · exact Or.inl ⟨h5, lt_of_lt_of_le h6 h1.1⟩
          · exact Or.inr ⟨h5, h6⟩
        · refine List.forall₂_iff_get.mpr ⟨h2.length_eq, fun i hi hi' => ?_⟩
          have k := h2.get hi hi'
          have hy := he (l.get ⟨i, hi⟩) (List.mem_cons_of_mem _ (List.get_mem _ _))
          revert k hy
          generalize l.get ⟨i, hi⟩ = y
          generalize q.2.get ⟨i, hi'⟩ = z
          intro k hy
          match y, k, hy with
          | Option.none, k, _ => exact k
          | some (a', ov'), k, hy =>
            obtain ⟨b, k1, k2, k3, k4, k5, k6, k7, k8⟩ := k
            refine ⟨b, k1, k2, k3, k4, k5, k6, ?_, ?_⟩
            · intro i hi j hj
              rw [k7 i hi j hj, c.ext.read (hy _ rfl).1]
            · rcases k8 with k8 | k8
              · exact Or.inl ⟨c.ext.1.trans k8.1, k8.2⟩
              · exact Or.inr k8
        · intro z hz
          rcases List.mem_cons.mp hz with hz | hz
          · obtain rfl : z = p.2 := by simpa using hz
            exact hb
          · rcases h3 z hz with k | k
            · exact Or.inl (hsub _ k)
            · exact Or.inr ⟨c.ext.1.trans k.1, k.2⟩
        · intro hn
          have hnl : (passBufs l).Nodup := by
            simp only [passBufs, List.filterMap_cons] at hn ⊢
            split at hn
            · exact hn
            · exact (List.nodup_cons.mp hn).2
          have hlb : ∀ b ∈ passBufs l, b < m.next := by
            intro b hb
            simp only [passBufs, List.mem_filterMap] at hb
            obtain ⟨y, hy, hb⟩ := hb
            cases y with
            | none => simp at hb
            | some x =>
              have := (he _ (List.mem_cons_of_mem _ hy) x rfl).1
              simp only [Option.bind_some] at hb
              split_ifs at hb
              simp only [Option.some.injEq] at hb
              omega
          simp only [List.filterMap_cons, Option.map_some, List.nodup_cons]
          refine ⟨?_, h4 hnl⟩
          intro hm
          simp only [List.mem_filterMap, Option.map_eq_some_iff] at hm
          obtain ⟨y, hy, z, rfl, hz⟩ := hm
          rcases h3 z hy with k | ⟨k, -⟩
          · rw [hz] at k
            rcases c.place with ⟨h5, h6⟩ | ⟨h5, h6, -⟩
            · have := hlb _ k
              omega
            · rw [h6] at k
              simp only [passBufs, List.filterMap_cons, Option.bind_some, h5, if_true, List.nodup_cons] at hn
              exact hn.1 k
          · omega

theorem convertAll_ok {dtype : DType} : ∀ (l : List (Option (Arr × Bool))) (m : Mem V),
    (∃ r, convertAll dtype m l = .ok r) ↔ ∀ p, some p ∈ l → p.1.ndim = 1 ∨ p.1.ndim = 2
  | [], m => by simp [convertAll]
  | Option.none :: l, m => by
    have ih := convertAll_ok (dtype := dtype) l m
    simp only [convertAll]
    cases hq : convertAll dtype m l <;> rw [hq] at ih <;> simpa using ih
  | some (a, ov) :: l, m => by
    have hc := convert_ok dtype m a ov
    simp only [convertAll]
    have hmem : (∀ p : Arr × Bool, some p ∈ some (a, ov) :: l → p.1.ndim = 1 ∨ p.1.ndim = 2) ↔
        (a.ndim = 1 ∨ a.ndim = 2) ∧ ∀ p : Arr × Bool, some p ∈ l → p.1.ndim = 1 ∨ p.1.ndim = 2 := by
      constructor
      · exact fun h => ⟨h (a, ov) List.mem_cons_self, fun x hx => h x (List.mem_cons_of_mem _ hx)⟩
      · rintro ⟨h1, h2⟩ x hx
        rcases List.mem_cons.mp hx with hx | hx
        · simp only [Option.some.injEq] at hx; rw [hx]; exact h1
        · exact h2 x hx
    rw [hmem]
    cases hcv : convert dtype m a ov with
    | error e =>
      rw [hcv] at hc
      simp only [reduceCtorEq, exists_false, false_iff] at hc ⊢
      exact fun h => hc h.1
    | ok p =>
      rw [hcv] at hc
      have hnd : a.ndim = 1 ∨ a.ndim = 2 := hc.mp ⟨_, rfl⟩
      have ih := convertAll_ok (dtype := dtype) l p.1
      cases hq : convertAll dtype p.1 l <;> rw [hq] at ih <;> simpa [hq, hnd] using ih

end Kwant.Fortran
