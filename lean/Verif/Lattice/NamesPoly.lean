import Verif.Lattice.NamesMain

/-! C180: the sublattices of a polyatomic lattice. -/

set_option linter.unusedSectionVars false

namespace Kwant.Fam

variable {F : Type} (P : PyRepr F)

/-! ### Specification -/

/-- The name of sublattice `k`: the number of the sublattice is appended to the name of the lattice, unless there is a sequence of names. -/
def wantedName (name : NameArg) (k : ℕ) : Option Str :=
  match name with
  | .none => some (strNat k)
  | .str s => some (s ++ strNat k)
  | .seq l => l[k]?

/-- The number of orbitals of sublattice `k`. -/
def wantedNorbs (norbs : NorbsArg F) (k : ℕ) : Option (NArg F) :=
  match norbs with
  | .single n => some n
  | .seq l => l[k]?

/-- There is a name for each of `n` sublattices. -/
def EnoughNames (n : ℕ) : NameArg → Prop
  | .seq l => n ≤ l.length
  | _ => True

/-- The names are different. -/
def DistinctNames : NameArg → Prop
  | .seq l => l.Nodup
  | _ => True

/-! ### Proof -/

theorem sublattices_get {rankOk : List (List F) → Bool} {ind : ℕ} {cl : Str} {m : List (List F)} : ∀ {os : List (List F)} {ss : List Str} {ns : List (NArg F)}
    {fs : List (Family F)}, sublattices P rankOk ind cl m os ss ns = .ok fs →
    fs.length = min os.length (min ss.length ns.length) ∧
    ∀ (k : ℕ) (f : Family F), fs[k]? = some f → ∃ o s n, os[k]? = some o ∧ ss[k]? = some s ∧ ns[k]? = some n ∧ monatomic P rankOk ind ⟨cl, m, some o, some s, n⟩ = .ok f
  | [], _, _, fs, h => by
    simp only [sublattices, Except.ok.injEq] at h
    subst h
    simp
  | _ :: _, [], _, fs, h => by
    simp only [sublattices, Except.ok.injEq] at h
    subst h
    simp
  | _ :: _, _ :: _, [], fs, h => by
    simp only [sublattices, Except.ok.injEq] at h
    subst h
    simp
  | o :: os, s :: ss, n :: ns, fs, h => by
    simp only [sublattices] at h
    cases hm : monatomic P rankOk ind ⟨cl, m, some o, some s, n⟩ with
    | error e => simp [hm] at h
    | ok f =>
      simp only [hm] at h
      cases hr : sublattices P rankOk ind cl m os ss ns with
      | error e => simp [hr] at h
      | ok gs =>
        simp only [hr, Except.ok.injEq] at h
        subst h
        obtain ⟨h1, h2⟩ := sublattices_get hr
        refine ⟨by simp only [List.length_cons, h1]; omega, ?_⟩
        intro k g hg
        cases k with
        | zero =>
          simp only [List.getElem?_cons_zero, Option.some.injEq] at hg
          subst hg
          exact ⟨o, s, n, rfl, rfl, rfl, hm⟩
        | succ k =>
          simp only [List.getElem?_cons_succ] at hg ⊢
          exact h2 k g hg

theorem polyatomic_ok {rankOk : List (List F) → Bool} {ind : ℕ} {cl : Str} {m basis : List (List F)} {name : NameArg} {norbs : NorbsArg F} {fs : List (Family F)}
    (h : polyatomic P rankOk ind cl m basis name norbs = .ok fs) :
    ∃ ns, subNorbs basis.length norbs = .ok ns ∧ sublattices P rankOk ind cl m basis (subNames basis.length name) ns = .ok fs := by
  unfold polyatomic at h
  cases hd : checkPrimVecs rankOk m with
  | error e => simp [hd] at h
  | ok d =>
    simp only [hd] at h
    split_ifs at h
    cases hn : subNorbs basis.length norbs with
    | error e => simp [hn] at h
    | ok ns =>
      simp only [hn] at h
      exact ⟨ns, rfl, h⟩

theorem subNorbs_get {n : ℕ} {norbs : NorbsArg F} {ns : List (NArg F)} (h : subNorbs n norbs = .ok ns) :
    ns.length = n ∧ ∀ k x, ns[k]? = some x → wantedNorbs norbs k = some x := by
  cases norbs with
  | single y =>
    simp only [subNorbs, Except.ok.injEq] at h
    subst h
    refine ⟨by simp, ?_⟩
    intro k x hx
    simp only [List.getElem?_replicate] at hx
    split_ifs at hx
    exact hx
  | seq l =>
    simp only [subNorbs] at h
    split_ifs at h with hl
    simp only [Except.ok.injEq] at h
    subst h
    exact ⟨not_not.mp hl, fun k x hx => hx⟩

theorem subNames_get {n : ℕ} {name : NameArg} {k : ℕ} {s : Str} (h : (subNames n name)[k]? = some s) : wantedName name k = some s := by
  cases name with
  | none =>
    simp only [subNames, List.getElem?_map, Option.map_eq_some_iff] at h
    obtain ⟨i, hi, rfl⟩ := h
    obtain ⟨h1, h2⟩ := List.getElem?_eq_some_iff.mp hi
    rw [List.getElem_range] at h2
    subst h2
    rfl
  | str t =>
    simp only [subNames, List.getElem?_map, Option.map_eq_some_iff] at h
    obtain ⟨i, hi, rfl⟩ := h
    obtain ⟨h1, h2⟩ := List.getElem?_eq_some_iff.mp hi
    rw [List.getElem_range] at h2
    subst h2
    rfl
  | seq l => exact h

theorem wantedName_inj {name : NameArg} (hd : DistinctNames name) {i j : ℕ} {s : Str} (hi : wantedName name i = some s) (hj : wantedName name j = some s) : i = j := by
  cases name with
  | none =>
    simp only [wantedName, Option.some.injEq] at hi hj
    exact strNat_inj i j (hi.trans hj.symm)
  | str t =>
    simp only [wantedName, Option.some.injEq] at hi hj
    exact strNat_inj i j (List.append_cancel_left (hi.trans hj.symm))
  | seq l =>
    simp only [wantedName] at hi hj
    obtain ⟨h1, h2⟩ := List.getElem?_eq_some_iff.mp hi
    obtain ⟨h3, h4⟩ := List.getElem?_eq_some_iff.mp hj
    exact (List.Nodup.getElem_inj_iff hd).mp (h2.trans h4.symm)

/-- C180 (partial: a sequence with fewer names than sites in the basis is not refused, see `C180_counterexample`).  If `Polyatomic` returns, and there are enough names,
then there is one sublattice for each site of the basis, with the primitive vectors of the lattice, the position of the site in the basis as offset, the documented name
and the given number of orbitals; and site `tag` of sublattice `k` is at the lattice point `tag` plus basis vector `k`.  If the names are different, which they always are
if the name of the lattice is given, the sublattices are different, so that no site belongs to two of them. -/
theorem C180_partial {rankOk : List (List F) → Bool} {ind : ℕ} {cl : Str} {m basis : List (List F)} {name : NameArg} {norbs : NorbsArg F} {fs : List (Family F)}
    (h : polyatomic P rankOk ind cl m basis name norbs = .ok fs) (hcl : '(' ∉ cl) (hen : EnoughNames basis.length name) :
    fs.length = basis.length ∧
    (∀ (k : ℕ) (f : Family F), fs[k]? = some f → f.primVecs = m ∧ basis[k]? = some f.offset ∧ wantedName name k = some f.name ∧
      (∃ n, wantedNorbs norbs k = some n ∧ n.num P = f.norbs.map fun i => (i : ℚ)) ∧
      ∀ tag j, f.pos P tag j = dotAt P j tag m + ((basis.getD k []).map P.val).getD j 0) ∧
    (DistinctNames name → ∀ (i j : ℕ) (f g : Family F), fs[i]? = some f → fs[j]? = some g → i ≠ j →
      f.eq g = false ∧ ∀ s t : Site F, s.family = f → t.family = g → s.eq t = false) := by
  obtain ⟨ns, h1, h2⟩ := polyatomic_ok P h
  obtain ⟨h3, h4⟩ := sublattices_get P h2
  obtain ⟨h5, h6⟩ := subNorbs_get h1
  have hlen : basis.length ≤ (subNames basis.length name).length := by
    cases name with
    | none => simp [subNames]
    | str s => simp [subNames]
    | seq l => exact hen
  have hall : ∀ (k : ℕ) (f : Family F), fs[k]? = some f → f.primVecs = m ∧ basis[k]? = some f.offset ∧ wantedName name k = some f.name ∧
      (∃ n, wantedNorbs norbs k = some n ∧ n.num P = f.norbs.map fun i => (i : ℚ)) := by
    intro k f hk
    obtain ⟨o, s, n, ho, hs, hn, hm⟩ := h4 k f hk
    obtain ⟨d, -, -, hnn, -, hname, hp, hoff⟩ := monatomic_ok P hm
    refine ⟨hp, by rw [ho, hoff]; rfl, by rw [subNames_get hs, hname]; rfl, n, h6 k n hn, ?_⟩
    simp only [checkNorbs] at hnn
    cases hq : n.num P with
    | none =>
      simp only [hq, Except.ok.injEq] at hnn
      rw [← hnn]; rfl
    | some q =>
      simp only [hq] at hnn
      split_ifs at hnn with hc
      simp only [Except.ok.injEq] at hnn
      rw [← hnn]
      simp only [not_or, not_not, not_le] at hc
      have hpos : 0 < q.num := Rat.num_pos.mpr hc.2
      have : ((q.num.toNat : ℕ) : ℚ) = q := by
        rw [← Int.cast_natCast, Int.toNat_of_nonneg hpos.le]
        exact Rat.coe_int_num_of_den_eq_one hc.1
      simp [this]
  refine ⟨by omega, ?_, ?_⟩
  · intro k f hk
    obtain ⟨a1, a2, a3, a4⟩ := hall k f hk
    refine ⟨a1, a2, a3, a4, ?_⟩
    intro tag j
    have hb : basis.getD k [] = f.offset := by rw [List.getD_eq_getElem?_getD, a2]; rfl
    rw [Family.pos, a1, hb]
  · intro hd i j f g hi hj hij
    have hne : f.eq g = false := by
      rw [Bool.eq_false_iff]
      intro he
      obtain ⟨o, s, n, -, -, -, hm⟩ := h4 i f hi
      obtain ⟨o', s', n', -, -, -, hm'⟩ := h4 j g hj
      obtain ⟨-, -, -, hnm, -⟩ := (eq_iff_args P hm hm' hcl hcl).mp he
      refine hij (wantedName_inj hd (hall i f hi).2.2.1 ?_)
      rw [hnm]
      exact (hall j g hj).2.2.1
    refine ⟨hne, ?_⟩
    rintro s t rfl rfl
    simp [Site.eq, hne]

/-- The arguments of a chain with one site per cell are accepted. -/
theorem mono_small (o : ℤ) (s : Str) : ∃ f, monatomic smallRepr (fun _ => true) 7 ⟨theClass, [[some 1]], some [some o], some s, .int 1⟩ = .ok f := by
  have hp : checkPrimVecs (fun _ => true) ([[some 1]] : List (List (Option ℤ))) = .ok 1 := by simp [checkPrimVecs]
  have hn : checkNorbs smallRepr (NArg.int 1) = .ok (some 1) := by simp [checkNorbs, NArg.num]
  have ho : theOffset smallRepr 1 (some [some o]) = [some o] := rfl
  unfold monatomic
  dsimp only
  rw [hp]
  dsimp only
  rw [ho, if_neg (by simp), hn]
  exact ⟨_, rfl⟩

theorem poly_small (name : NameArg) (s : Str) (l : List Str) (h : subNames 2 name = s :: l) :
    ∃ f fs, sublattices smallRepr (fun _ => true) 7 theClass [[some 1]] [[some 2]] l [.int 1] = .ok fs ∧
      polyatomic smallRepr (fun _ => true) 7 theClass [[some 1]] [[some 0], [some 2]] name (.single (.int 1)) = .ok (f :: fs) := by
  have hp : checkPrimVecs (fun _ => true) ([[some 1]] : List (List (Option ℤ))) = .ok 1 := by simp [checkPrimVecs]
  obtain ⟨f, hf⟩ := mono_small 0 s
  have hfs : ∃ fs, sublattices smallRepr (fun _ => true) 7 theClass [[some 1]] [[some 2]] l [.int 1] = .ok fs := by
    cases l with
    | nil => exact ⟨[], rfl⟩
    | cons t l =>
      obtain ⟨g, hg⟩ := mono_small 2 t
      refine ⟨[g], ?_⟩
      simp only [sublattices, hg]
  obtain ⟨fs, hfs⟩ := hfs
  refine ⟨f, fs, hfs, ?_⟩
  unfold polyatomic
  rw [hp]
  dsimp only
  rw [if_neg (by simp)]
  dsimp only [subNorbs, List.length_cons, List.length_nil, List.replicate]
  rw [h]
  simp only [sublattices, hf, hfs]

/-- The full claim of C180 is that a lattice has as many sublattices as its basis has sites.  It fails: with two sites in the basis and a sequence of one name, one site of
the basis is dropped without an error. -/
theorem C180_counterexample : ∃ fs, polyatomic smallRepr (fun _ => true) 7 theClass [[some 1]] [[some 0], [some 2]] (.seq ["a".toList]) (.single (.int 1)) = .ok fs ∧
    fs.length = 1 := by
  obtain ⟨f, fs, h1, h2⟩ := poly_small (.seq ["a".toList]) "a".toList [] rfl
  refine ⟨_, h2, ?_⟩
  have : fs = [] := by simpa [sublattices] using h1.symm
  simp [this]

/-- The hypotheses of `C180_partial` are met by a chain with two sites per cell. -/
example : ∃ fs, polyatomic smallRepr (fun _ => true) 7 theClass [[some 1]] [[some 0], [some 2]] (.str "ab".toList) (.single (.int 1)) = .ok fs ∧ fs.length = 2 ∧
    EnoughNames 2 (.str "ab".toList) ∧ DistinctNames (.str "ab".toList) := by
  obtain ⟨f, fs, h1, h2⟩ := poly_small (.str "ab".toList) ("ab".toList ++ strNat 0) ["ab".toList ++ strNat 1] rfl
  exact ⟨_, h2, (C180_partial smallRepr h2 theClass_ok trivial).1, trivial, trivial⟩

end Kwant.Fam
