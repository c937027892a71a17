import Verif.Lattice.Names
import Mathlib.Tactic.NormNum
import Mathlib.Data.List.GetD
import Mathlib.Data.List.Nodup

/-!
C179: identity and order of site families and sites.  C180: the sublattices of a polyatomic lattice.
-/

set_option linter.unusedSectionVars false

namespace Kwant.Fam

variable {F : Type} (P : PyRepr F)

/-! ### Specification -/

/-- Two families have the same data: class, primitive vectors, offset, name and number of orbitals.  Numbers are compared as numbers. -/
def SameData (cl cl' : Str) (f g : Family F) : Prop :=
  cl = cl' ∧ f.primVecs.map (List.map P.val) = g.primVecs.map (List.map P.val) ∧ f.offset.map P.val = g.offset.map P.val ∧ f.name = g.name ∧ f.norbs = g.norbs

/-- The arguments contain no negative zero, and `norbs` is an integer or `None`. -/
def Plain (a : Args F) : Prop :=
  (∀ v ∈ a.primVecs, P.negZero ∉ v) ∧ (∀ o, a.offset = some o → P.negZero ∉ o) ∧ (a.norbs = .none ∨ ∃ n, a.norbs = .int n)

/-! ### Successful constructions -/

theorem checkPrimVecs_ok {rankOk : List (List F) → Bool} {m : List (List F)} {d : ℕ} (h : checkPrimVecs rankOk m = .ok d) :
    m ≠ [] ∧ (∀ v ∈ m, v.length = d) ∧ 0 < d ∧ m.length ≤ d ∧ rankOk m = true := by
  cases m with
  | nil => simp [checkPrimVecs] at h
  | cons v vs =>
    simp only [checkPrimVecs] at h
    split_ifs at h with h1 h2 h3
    simp only [Except.ok.injEq] at h
    subst h
    simp only [not_or, not_exists, not_and, not_not] at h1
    refine ⟨by simp, ?_, List.length_pos_of_ne_nil h1.1, by omega, by simpa using h3⟩
    intro w hw
    rcases List.mem_cons.mp hw with rfl | hw
    · rfl
    · exact h1.2 w hw

theorem monatomic_ok {rankOk : List (List F) → Bool} {ind : ℕ} {a : Args F} {f : Family F} (h : monatomic P rankOk ind a = .ok f) :
    ∃ d, checkPrimVecs rankOk a.primVecs = .ok d ∧ (theOffset P d a.offset).length = d ∧ checkNorbs P a.norbs = .ok f.norbs ∧
      f.canonicalRepr = canonical P ind a.cl a.primVecs (theOffset P d a.offset) (a.name.getD []) a.norbs ∧
      f.name = a.name.getD [] ∧ f.primVecs = a.primVecs ∧ f.offset = theOffset P d a.offset := by
  unfold monatomic at h
  cases hd : checkPrimVecs rankOk a.primVecs with
  | error e => simp [hd] at h
  | ok d =>
    simp only [hd] at h
    split_ifs at h with h1
    cases hn : checkNorbs P a.norbs with
    | error e => simp [hn] at h
    | ok n =>
      simp only [hn, Except.ok.injEq] at h
      subst h
      exact ⟨d, rfl, not_not.mp h1, rfl, rfl, rfl, rfl, rfl⟩

/-- The text of a family determines and is determined by the arguments. -/
theorem eq_iff_args {rankOk : List (List F) → Bool} {ind : ℕ} {a b : Args F} {f g : Family F} (hf : monatomic P rankOk ind a = .ok f)
    (hg : monatomic P rankOk ind b = .ok g) (ha : '(' ∉ a.cl) (hb : '(' ∉ b.cl) :
    f.eq g = true ↔ a.cl = b.cl ∧ f.primVecs = g.primVecs ∧ f.offset = g.offset ∧ f.name = g.name ∧ a.norbs = b.norbs := by
  obtain ⟨d, hd, hl, hn, hc, hname, hp, ho⟩ := monatomic_ok P hf
  obtain ⟨d', hd', hl', hn', hc', hname', hp', ho'⟩ := monatomic_ok P hg
  obtain ⟨m1, m2, m3, -⟩ := checkPrimVecs_ok hd
  obtain ⟨k1, k2, k3, -⟩ := checkPrimVecs_ok hd'
  rw [Family.eq, beq_iff_eq, hc, hc', hname, hname', hp, hp', ho, ho']
  constructor
  · intro h
    exact canonical_inj P ind ha hb m1 k1 (fun v hv => List.ne_nil_of_length_pos (by rw [m2 v hv]; exact m3))
      (fun v hv => List.ne_nil_of_length_pos (by rw [k2 v hv]; exact k3)) (List.ne_nil_of_length_pos (by omega)) (List.ne_nil_of_length_pos (by omega)) h
  · rintro ⟨h1, h2, h3, h4, h5⟩
    rw [h1, h2, h3, h4, h5]

theorem map_val_inj : ∀ {v w : List F}, P.negZero ∉ v → P.negZero ∉ w → v.map P.val = w.map P.val → v = w
  | [], [], _, _, _ => rfl
  | [], _ :: _, _, _, h => by simp at h
  | _ :: _, [], _, _, h => by simp at h
  | x :: v, y :: w, hv, hw, h => by
    simp only [List.map_cons, List.cons.injEq] at h
    simp only [List.mem_cons, not_or] at hv hw
    rw [map_val_inj hv.2 hw.2 h.2]
    rcases P.val_inj x y h.1 with h1 | ⟨h1, h2⟩ | ⟨h1, h2⟩
    · rw [h1]
    · exact absurd h2.symm hw.1
    · exact absurd h1.symm hv.1

theorem map_map_val_inj : ∀ {m k : List (List F)}, (∀ v ∈ m, P.negZero ∉ v) → (∀ v ∈ k, P.negZero ∉ v) → m.map (List.map P.val) = k.map (List.map P.val) → m = k
  | [], [], _, _, _ => rfl
  | [], _ :: _, _, _, h => by simp at h
  | _ :: _, [], _, _, h => by simp at h
  | x :: v, y :: w, hv, hw, h => by
    simp only [List.map_cons, List.cons.injEq] at h
    rw [map_val_inj P (hv x (by simp)) (hw y (by simp)) h.1,
      map_map_val_inj (fun z hz => hv z (List.mem_cons_of_mem _ hz)) (fun z hz => hw z (List.mem_cons_of_mem _ hz)) h.2]

theorem zero_ne_negZero_or : P.zero = P.negZero ∨ P.zero ≠ P.negZero := em _

theorem plain_norbs {a b : NArg F} {x : Option ℕ} (ha : a = .none ∨ ∃ n, a = .int n) (hb : b = .none ∨ ∃ n, b = .int n)
    (h1 : checkNorbs P a = .ok x) (h2 : checkNorbs P b = .ok x) : a = b := by
  have hi : ∀ n : ℤ, checkNorbs P (NArg.int n) = .ok x → x = some n.toNat ∧ 0 < n := by
    intro n hn
    simp only [checkNorbs, NArg.num] at hn
    split_ifs at hn with hq
    simp only [Rat.den_intCast, ne_eq, not_true_eq_false, false_or, not_le, Rat.num_intCast, Except.ok.injEq] at hq hn
    exact ⟨hn.symm, by exact_mod_cast hq⟩
  rcases ha with rfl | ⟨n, rfl⟩ <;> rcases hb with rfl | ⟨k, rfl⟩
  · rfl
  · simp only [checkNorbs, NArg.num, Except.ok.injEq] at h1
    have := (hi k h2).1
    rw [← h1] at this
    exact absurd this (by simp)
  · simp only [checkNorbs, NArg.num, Except.ok.injEq] at h2
    have := (hi n h1).1
    rw [← h2] at this
    exact absurd this (by simp)
  · obtain ⟨e1, p1⟩ := hi n h1
    obtain ⟨e2, p2⟩ := hi k h2
    rw [e1] at e2
    simp only [Option.some.injEq] at e2
    rw [show n = k by omega]

/-- C179 (partial: negative zeros and non-integer `norbs` are excluded from the second part, see `C179_counterexample`).  Families compare equal only if they have the
same data, and then they agree in all positions and hashes; families made from the same data are equal, provided that zeros are not negative and `norbs` is an integer
or `None`; and exactly one of `f < g`, `f == g`, `f > g` holds. -/
theorem C179_partial {rankOk : List (List F) → Bool} {ind : ℕ} {a b : Args F} {f g : Family F} (hz : P.zero ≠ P.negZero)
    (hf : monatomic P rankOk ind a = .ok f) (hg : monatomic P rankOk ind b = .ok g) (ha : '(' ∉ a.cl) (hb : '(' ∉ b.cl) :
    (f.eq g = true → SameData P a.cl b.cl f g ∧ (∀ tag j, f.pos P tag j = g.pos P tag j) ∧ ∀ h, f.hash h = g.hash h) ∧
    (Plain P a → Plain P b → SameData P a.cl b.cl f g → f.eq g = true) ∧
    (f.ne g = !f.eq g) ∧ (f.le g = !f.gt g) ∧ (f.ge g = (f.gt g || f.eq g)) ∧
    (f.lt g = true ∧ f.eq g = false ∧ f.gt g = false ∨ f.lt g = false ∧ f.eq g = true ∧ f.gt g = false ∨ f.lt g = false ∧ f.eq g = false ∧ f.gt g = true) ∧
    (f.gt g = g.lt f) := by
  have key := eq_iff_args P hf hg ha hb
  obtain ⟨d, hd, hl, hn, hc, hname, hp, ho⟩ := monatomic_ok P hf
  obtain ⟨d', hd', hl', hn', hc', hname', hp', ho'⟩ := monatomic_ok P hg
  refine ⟨?_, ?_, rfl, ?_, ?_, ?_, ?_⟩
  · intro h
    obtain ⟨h1, h2, h3, h4, h5⟩ := key.mp h
    refine ⟨⟨h1, by rw [h2], by rw [h3], h4, ?_⟩, ?_, ?_⟩
    · rw [h5, hn'] at hn
      exact (Except.ok.inj hn).symm
    · intro tag j
      rw [Family.pos, Family.pos, h2, h3]
    · intro hh
      rw [Family.eq, beq_iff_eq] at h
      rw [Family.hash, Family.hash, h]
  · rintro ⟨pa1, pa2, pa3⟩ ⟨pb1, pb2, pb3⟩ ⟨h1, h2, h3, h4, h5⟩
    have off : ∀ (o : Option (List F)) (d : ℕ), (∀ x, o = some x → P.negZero ∉ x) → P.negZero ∉ theOffset P d o := by
      intro o d h
      cases o with
      | none => intro hm; exact hz (List.eq_of_mem_replicate hm).symm
      | some x => exact h x rfl
    refine key.mpr ⟨h1, ?_, ?_, h4, ?_⟩
    · rw [hp, hp'] at h2 ⊢
      exact map_map_val_inj P pa1 pb1 h2
    · rw [ho, ho'] at h3 ⊢
      exact map_val_inj P (off _ _ pa2) (off _ _ pb2) h3
    · rw [← h5] at hn'
      exact plain_norbs P pa3 pb3 hn hn'
  · simp only [Family.le, Family.gt, Family.ne, Family.eq, Family.lt, bne]
    cases decide (f.canonicalRepr < g.canonicalRepr) <;> cases (f.canonicalRepr == g.canonicalRepr) <;> rfl
  · simp only [Family.ge, Family.gt, Family.ne, Family.eq, Family.lt, bne]
    by_cases h : f.canonicalRepr = g.canonicalRepr
    · simp [h]
    · cases decide (f.canonicalRepr < g.canonicalRepr) <;> simp [h]
  · rcases lt_trichotomy f.canonicalRepr g.canonicalRepr with h | h | h
    · left
      simp [Family.lt, Family.eq, Family.gt, Family.ne, h, h.ne]
    · right; left
      simp [Family.lt, Family.eq, Family.gt, Family.ne, h]
    · right; right
      simp [Family.lt, Family.eq, Family.gt, Family.ne, h.ne', h.le]
  · rcases lt_trichotomy f.canonicalRepr g.canonicalRepr with h | h | h
    · simp [Family.gt, Family.lt, Family.ne, h, h.le]
    · simp [Family.gt, Family.lt, Family.ne, h]
    · simp [Family.gt, Family.lt, Family.ne, h, h.ne', h.le]

/-- Sites are totally ordered, consistently with equality, so that sorting sites by (family, tag) gives a well-defined sequence: `==` is an equivalence that implies equal
positions, `<` is transitive, exactly one of `s < t`, `s == t`, `t < s` holds, and equal sites are interchangeable in comparisons. -/
theorem C179_sites (r s t : Site F) :
    (s.eq s = true) ∧ (s.eq t = t.eq s) ∧ (r.eq s = true → s.eq t = true → r.eq t = true) ∧
    (s.eq t = true ↔ s.family.eq t.family = true ∧ s.tag = t.tag) ∧
    (r.lt s = true → s.lt t = true → r.lt t = true) ∧
    (s.lt t = true ∧ s.eq t = false ∧ t.lt s = false ∨ s.lt t = false ∧ s.eq t = true ∧ t.lt s = false ∨ s.lt t = false ∧ s.eq t = false ∧ t.lt s = true) ∧
    (r.eq s = true → r.lt t = s.lt t ∧ t.lt r = t.lt s) := by
  obtain ⟨⟨rc, _, _, _, _⟩, rt⟩ := r
  obtain ⟨⟨sc, _, _, _, _⟩, st⟩ := s
  obtain ⟨⟨tc, _, _, _, _⟩, tt⟩ := t
  simp only [Site.eq, Site.lt, Family.eq, Family.lt, Bool.and_eq_true, beq_iff_eq]
  refine ⟨by simp, ?_, ?_, ?_, ?_, ?_, ?_⟩
  · rw [Bool.eq_iff_iff]; simp only [Bool.and_eq_true, beq_iff_eq]; constructor <;> rintro ⟨h1, h2⟩ <;> exact ⟨h1.symm, h2.symm⟩
  · rintro ⟨rfl, rfl⟩ ⟨rfl, rfl⟩; simp
  · trivial
  · by_cases h1 : rc = sc
    · subst h1
      by_cases h2 : rc = tc
      · subst h2; simp only [if_true, decide_eq_true_eq]; exact lt_trans
      · simp only [if_true, h2, if_false]; exact fun _ h => h
    · by_cases h2 : sc = tc
      · subst h2; simp only [h1, if_true, if_false]; exact fun h _ => h
      · simp only [h1, h2, if_false, decide_eq_true_eq]
        intro h3 h4
        have h5 := lt_trans h3 h4
        rw [if_neg h5.ne]
        simpa using h5
  · by_cases h1 : sc = tc
    · subst h1
      simp only [if_true, BEq.rfl, Bool.true_and]
      rcases lt_trichotomy st tt with h | h | h
      · left; simp [h, h.ne, h.le]
      · right; left; simp [h]
      · right; right; simp [h, h.ne', h.le]
    · have h1' : ¬ tc = sc := fun h => h1 h.symm
      simp only [h1, h1', if_false]
      rcases lt_trichotomy sc tc with h | h | h
      · left; simp [h, h1, h.le]
      · exact absurd h h1
      · right; right; simp [h, h1, h.le]
  · rintro ⟨rfl, rfl⟩; exact ⟨rfl, rfl⟩

/-! ### A small instance, and what is missing -/

/-- The floats that are integers, and negative zero. -/
def smallRepr : PyRepr (Option ℤ) where
  float x := match x with
    | none => ['-', '0', '.', '0']
    | some n => reprInt n ++ ['.', '0']
  str s := '\'' :: (s ++ ['\''])
  val x := match x with
    | none => 0
    | some n => n
  zero := some 0
  negZero := none
  float_inj := by
    intro x y h
    have hz : ∀ n : ℤ, reprInt n ++ ['.', '0'] ≠ ['-', '0', '.', '0'] := by
      intro n hn
      have h2 : reprInt n = ['-', '0'] := List.append_cancel_right (bs := ['.', '0']) (by simpa using hn)
      cases n with
      | ofNat k =>
        exact absurd (digit_of_strNat (n := k) (c := '-') (by rw [show strNat k = ['-', '0'] from h2]; simp)) (by decide)
      | negSucc k =>
        simp only [reprInt, List.cons.injEq, true_and] at h2
        have := strNat_inj (k + 1) 0 (by rw [h2]; rfl)
        omega
    cases x <;> cases y
    · rfl
    · exact absurd h.symm (hz _)
    · exact absurd h (hz _)
    · rw [reprInt_inj _ _ (List.append_cancel_right h)]
  float_chars := by
    intro x c hc
    cases x with
    | none =>
      simp only [List.mem_cons, List.not_mem_nil, or_false] at hc
      rcases hc with rfl | rfl | rfl | rfl <;> decide
    | some n =>
      simp only [List.mem_append, List.mem_cons, List.not_mem_nil, or_false] at hc
      rcases hc with hc | rfl | rfl
      · rcases mem_reprInt hc with h | rfl
        · refine ⟨?_, ?_, ?_, ?_⟩ <;> rintro rfl <;> exact absurd h (by decide)
        · decide
      · decide
      · decide
  float_head := by
    intro x
    cases x with
    | none => exact ⟨'-', _, rfl, Or.inr rfl⟩
    | some n =>
      cases hn : reprInt n with
      | nil =>
        exfalso
        cases n with
        | ofNat k => exact Nat.toDigits_ne_nil hn
        | negSucc k => simp [reprInt] at hn
      | cons c s => exact ⟨c, s ++ ['.', '0'], by simp [hn], mem_reprInt (n := n) (by rw [hn]; simp)⟩
  float_mark := by
    intro x
    cases x <;> left <;> simp
  str_inj := by
    intro s t h
    simp only [List.cons.injEq, true_and] at h
    exact List.append_cancel_right h
  val_zero := rfl
  val_negZero := rfl
  val_inj := by
    intro x y h
    cases x with
    | none =>
      cases y with
      | none => exact Or.inl rfl
      | some n =>
        right; right
        have : (n : ℚ) = 0 := h.symm
        exact ⟨rfl, by rw [show n = 0 by exact_mod_cast this]⟩
    | some m =>
      cases y with
      | none =>
        right; left
        have : (m : ℚ) = 0 := h
        exact ⟨by rw [show m = 0 by exact_mod_cast this], rfl⟩
      | some n =>
        left
        have : (m : ℚ) = n := h
        rw [show m = n by exact_mod_cast this]

/-- The class of the chains below. -/
def theClass : Str := "kwant.lattice.Monatomic".toList

theorem theClass_ok : '(' ∉ theClass := by decide

/-- A chain with lattice constant 1, for a given offset and number of orbitals. -/
def chainArgs (o : Option (List (Option ℤ))) (n : NArg (Option ℤ)) : Args (Option ℤ) := ⟨theClass, [[some 1]], o, none, n⟩

/-- What the constructor returns for `chainArgs`. -/
def chainFam (o : List (Option ℤ)) (n : NArg (Option ℤ)) (k : ℕ) : Family (Option ℤ) :=
  ⟨canonical smallRepr 7 theClass [[some 1]] o [] n, [], some k, [[some 1]], o⟩

theorem chain_ok (o : Option (List (Option ℤ))) (x : List (Option ℤ)) (n : NArg (Option ℤ)) (k : ℕ) (hx : theOffset smallRepr 1 o = x) (hl : x.length = 1)
    (hn : checkNorbs smallRepr n = .ok (some k)) : monatomic smallRepr (fun _ => true) 7 (chainArgs o n) = .ok (chainFam x n k) := by
  have hp : checkPrimVecs (fun _ => true) (chainArgs o n).primVecs = .ok 1 := by simp [checkPrimVecs, chainArgs]
  have hn' : checkNorbs smallRepr (chainArgs o n).norbs = .ok (some k) := hn
  have hx' : theOffset smallRepr 1 (chainArgs o n).offset = x := hx
  unfold monatomic
  rw [hp]
  dsimp only
  rw [hx', if_neg (not_not.mpr hl), hn']
  rfl

theorem chain_int (o : Option (List (Option ℤ))) (x : List (Option ℤ)) (hx : theOffset smallRepr 1 o = x) (hl : x.length = 1) :
    monatomic smallRepr (fun _ => true) 7 (chainArgs o (.int 1)) = .ok (chainFam x (.int 1) 1) :=
  chain_ok o x _ 1 hx hl (by simp [checkNorbs, NArg.num])

theorem chain_float : monatomic smallRepr (fun _ => true) 7 (chainArgs none (.float (some 1))) = .ok (chainFam [some 0] (.float (some 1)) 1) := by
  have hv : smallRepr.val (some 1) = 1 := by simp [smallRepr]
  exact chain_ok none [some 0] _ 1 rfl rfl (by simp [checkNorbs, NArg.num, hv])

/-- The full claim of C179 is that families with the same data are equal.  It fails: chains with `norbs=1` and `norbs=1.0` have the same data, one orbital included, and
are different families; so are chains with the offsets `0.0` and `-0.0`. -/
theorem C179_counterexample :
    (∃ f g : Family (Option ℤ), monatomic smallRepr (fun _ => true) 7 (chainArgs none (.int 1)) = .ok f ∧
      monatomic smallRepr (fun _ => true) 7 (chainArgs none (.float (some 1))) = .ok g ∧
      SameData smallRepr theClass theClass f g ∧ f.eq g = false) ∧
    (∃ f g : Family (Option ℤ), monatomic smallRepr (fun _ => true) 7 (chainArgs (some [some 0]) (.int 1)) = .ok f ∧
      monatomic smallRepr (fun _ => true) 7 (chainArgs (some [none]) (.int 1)) = .ok g ∧
      SameData smallRepr theClass theClass f g ∧ f.eq g = false) := by
  have hcl : ∀ o n, '(' ∉ (chainArgs o n).cl := fun _ _ => theClass_ok
  have c1 := chain_int none [some 0] rfl rfl
  have c2 := chain_float
  have c3 := chain_int (some [some 0]) [some 0] rfl rfl
  have c4 := chain_int (some [none]) [none] rfl rfl
  refine ⟨⟨_, _, c1, c2, ⟨rfl, rfl, rfl, rfl, rfl⟩, ?_⟩, ⟨_, _, c3, c4, ⟨rfl, rfl, ?_, rfl, rfl⟩, ?_⟩⟩
  · rw [Bool.eq_false_iff]
    intro h
    obtain ⟨-, -, -, -, h5⟩ := (eq_iff_args smallRepr c1 c2 (hcl _ _) (hcl _ _)).mp h
    exact NArg.noConfusion rfl (heq_of_eq h5)
  · simp [chainFam, smallRepr]
  · rw [Bool.eq_false_iff]
    intro h
    obtain ⟨-, -, h3, -, -⟩ := (eq_iff_args smallRepr c3 c4 (hcl _ _) (hcl _ _)).mp h
    exact absurd h3 (by simp [chainFam])

/-- The hypotheses of `C179_partial` are met by two different chains. -/
example : ∃ f g : Family (Option ℤ), monatomic smallRepr (fun _ => true) 7 (chainArgs (some [some 0]) (.int 1)) = .ok f ∧
    monatomic smallRepr (fun _ => true) 7 (chainArgs (some [some 5]) (.int 1)) = .ok g ∧ Plain smallRepr (chainArgs (some [some 0]) (.int 1)) ∧
    Plain smallRepr (chainArgs (some [some 5]) (.int 1)) ∧ smallRepr.zero ≠ smallRepr.negZero ∧ f.eq g = false := by
  have c1 := chain_int (some [some 0]) [some 0] rfl rfl
  have c2 := chain_int (some [some 5]) [some 5] rfl rfl
  refine ⟨_, _, c1, c2, ⟨by simp [chainArgs, smallRepr], by simp [chainArgs, smallRepr], Or.inr ⟨1, rfl⟩⟩,
    ⟨by simp [chainArgs, smallRepr], by simp [chainArgs, smallRepr], Or.inr ⟨1, rfl⟩⟩, by simp [smallRepr], ?_⟩
  have hcl : ∀ o n, '(' ∉ (chainArgs o n).cl := fun _ _ => theClass_ok
  rw [Bool.eq_false_iff]
  intro h
  obtain ⟨-, -, h3, -, -⟩ := (eq_iff_args smallRepr c1 c2 (hcl _ _) (hcl _ _)).mp h
  exact absurd h3 (by simp [chainFam])

end Kwant.Fam
