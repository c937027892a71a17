import Verif.Lattice.NamesModel
import Mathlib.Tactic.Linarith
import Mathlib.Order.Lex

/-! C179, C180: the text of a site family determines the family. -/

set_option linter.unusedSectionVars false

namespace Kwant.Fam

variable {F : Type} (P : PyRepr F)

/-! ### `short_array_repr` -/

theorem splitLines_ne (s : Str) : splitLines s ≠ [] := by
  cases s with
  | nil => simp [splitLines]
  | cons c s =>
    simp only [splitLines]
    split_ifs
    · simp
    · cases h : splitLines s <;> simp

theorem splitLines_append (a s : Str) (h : '\n' ∉ a) : splitLines (a ++ '\n' :: s) = a :: splitLines s := by
  induction a with
  | nil => simp [splitLines]
  | cons c a ih =>
    have hc : c ≠ '\n' := fun hc => h (by simp [hc])
    have h2 : '\n' ∉ a := fun h3 => h (by simp [h3])
    simp [splitLines, hc, ih h2]

theorem splitLines_plain (a : Str) (h : '\n' ∉ a) : splitLines a = [a] := by
  induction a with
  | nil => simp [splitLines]
  | cons c a ih =>
    have hc : c ≠ '\n' := fun hc => h (by simp [hc])
    have h2 : '\n' ∉ a := fun h3 => h (by simp [h3])
    simp [splitLines, hc, ih h2]

theorem splitLines_join (l : List Str) (hl : l ≠ []) (h : ∀ a ∈ l, '\n' ∉ a) : splitLines (join ['\n'] l) = l := by
  induction l with
  | nil => exact absurd rfl hl
  | cons a l ih =>
    cases l with
    | nil => exact splitLines_plain a (h a (by simp))
    | cons b l =>
      have : join ['\n'] (a :: b :: l) = a ++ '\n' :: join ['\n'] (b :: l) := by simp [join]
      rw [this, splitLines_append a _ (h a (by simp)), ih (by simp) fun x hx => h x (List.mem_cons_of_mem _ hx)]

theorem mem_join {sep : Str} {c : Char} : ∀ {l : List Str}, c ∈ join sep l → c ∈ sep ∨ ∃ a ∈ l, c ∈ a
  | [], h => by simp [join] at h
  | [a], h => Or.inr ⟨a, by simp, by simpa [join] using h⟩
  | a :: b :: l, h => by
    simp only [join, List.mem_append] at h
    rcases h with h | h | h
    · exact Or.inr ⟨a, by simp, h⟩
    · exact Or.inl h
    · rcases mem_join h with h | ⟨x, hx, h⟩
      · exact Or.inl h
      · exact Or.inr ⟨x, List.mem_cons_of_mem _ hx, h⟩

theorem newline_row (v : List F) : '\n' ∉ row P v := by
  intro h
  simp only [row, List.mem_cons, List.mem_append, List.mem_singleton] at h
  rcases h with h | h | h
  · exact absurd h (by decide)
  · rcases mem_join h with h | ⟨a, ha, h⟩
    · exact absurd h (by decide)
    · obtain ⟨x, -, rfl⟩ := List.mem_map.mp ha
      exact (P.float_chars x _ h).2.2.2 rfl
  · exact absurd h (by decide)

theorem lstrip_row (v : List F) (s : Str) : lstrip (row P v ++ s) = row P v ++ s := by
  simp [lstrip, row]

theorem lstrip_blank (n : ℕ) (v : List F) (s : Str) : lstrip (List.replicate n ' ' ++ (row P v ++ s)) = row P v ++ s := by
  induction n with
  | zero => simpa using lstrip_row P v s
  | succ n ih =>
    rw [List.replicate_succ]
    show List.dropWhile _ _ = _
    rw [List.cons_append, List.dropWhile_cons_of_pos (by simp)]
    exact ih

theorem newline_rowLines (ind : ℕ) (m : List (List F)) : ∀ pre : Str, '\n' ∉ pre → ∀ a ∈ rowLines P ind pre m, '\n' ∉ a := by
  induction m with
  | nil => intro pre _ a ha; simp [rowLines] at ha
  | cons v m ih =>
    intro pre hpre a ha
    have hr := newline_row P v
    cases m with
    | nil =>
      simp only [rowLines, List.mem_singleton] at ha
      subst ha
      simp [hpre, hr]
    | cons w m =>
      simp only [rowLines, List.mem_cons] at ha
      rcases ha with ha | ha
      · subst ha; simp [hpre, hr]
      · refine ih (List.replicate ind ' ') ?_ a ha
        intro hm
        exact absurd (List.eq_of_mem_replicate hm) (by decide)

/-- The joined lines, once their indentation is stripped. -/
theorem join_lines (ind : ℕ) (m : List (List F)) (hm : m ≠ []) :
    join [' '] ((rowLines P ind (List.replicate ind ' ') m).map lstrip) = join [',', ' '] (m.map (row P)) ++ [']', ')'] := by
  induction m with
  | nil => exact absurd rfl hm
  | cons v m ih =>
    cases m with
    | nil => simp [rowLines, join, lstrip_blank]
    | cons w m =>
      have h1 : rowLines P ind (List.replicate ind ' ') (v :: w :: m)
          = (List.replicate ind ' ' ++ (row P v ++ [','])) :: rowLines P ind (List.replicate ind ' ') (w :: m) := rfl
      have h2 : rowLines P ind (List.replicate ind ' ') (w :: m) ≠ [] := by cases m <;> simp [rowLines]
      rw [h1, List.map_cons, lstrip_blank]
      obtain ⟨y, ys, hy⟩ := List.exists_cons_of_ne_nil (l := (rowLines P ind (List.replicate ind ' ') (w :: m)).map lstrip) (by simpa using h2)
      have h3 := ih (by simp)
      rw [hy] at h3 ⊢
      simp only [join, List.map_cons] at h3 ⊢
      rw [h3]
      simp

/-- `short_array_repr` of a matrix: its rows, in brackets, without line breaks. -/
theorem short_mat (ind : ℕ) (m : List (List F)) (hm : m ≠ []) :
    shortArrayRepr (reprMat P ind m) = '[' :: (join [',', ' '] (m.map (row P)) ++ [']']) := by
  have key : join [' '] ((splitLines (reprMat P ind m)).map lstrip) = "array([".toList ++ (join [',', ' '] (m.map (row P)) ++ [']', ')']) := by
    have hn : rowLines P ind "array([".toList m ≠ [] := by
      cases m with
      | nil => exact absurd rfl hm
      | cons v m => cases m <;> simp [rowLines]
    rw [reprMat, splitLines_join _ hn (newline_rowLines P ind m _ (by decide))]
    cases m with
    | nil => exact absurd rfl hm
    | cons v m =>
      have hl : ∀ s : Str, lstrip ("array([".toList ++ s) = "array([".toList ++ s := by intro s; rfl
      cases m with
      | nil => simp only [rowLines, List.map_cons, List.map_nil, hl, join]
      | cons w m =>
        have h2 : rowLines P ind (List.replicate ind ' ') (w :: m) ≠ [] := by cases m <;> simp [rowLines]
        simp only [rowLines, List.map_cons, hl]
        obtain ⟨y, ys, hy⟩ := List.exists_cons_of_ne_nil (l := (rowLines P ind (List.replicate ind ' ') (w :: m)).map lstrip) (by simpa using h2)
        have h3 := join_lines P ind (w :: m) (by simp)
        rw [hy] at h3 ⊢
        simp only [join, List.map_cons] at h3 ⊢
        rw [h3]
        simp
  rw [shortArrayRepr, key, slice]
  show (List.drop 6 ('a' :: 'r' :: 'r' :: 'a' :: 'y' :: '(' :: '[' :: _)).dropLast = _
  show ('[' :: (join [',', ' '] (m.map (row P)) ++ [']', ')']) : Str).dropLast = _
  rw [show ('[' :: (join [',', ' '] (m.map (row P)) ++ [']', ')']) : Str) = ('[' :: (join [',', ' '] (m.map (row P)) ++ [']'])) ++ [')'] by simp]
  exact List.dropLast_concat

/-- `short_array_repr` of a vector. -/
theorem short_vec (o : List F) : shortArrayRepr (reprVec P o) = row P o := by
  have hn : '\n' ∉ reprVec P o := by
    have := newline_row P o
    simp [reprVec, this]
  rw [shortArrayRepr, splitLines_plain _ hn]
  simp only [List.map_cons, List.map_nil, join]
  show slice (lstrip ('a' :: 'r' :: 'r' :: 'a' :: 'y' :: '(' :: (row P o ++ [')']))) = _
  show (row P o ++ [')']).dropLast = _
  exact List.dropLast_concat

/-! ### Reading the text back -/

/-- The part of a text before the first of some characters is unique. -/
theorem cut (p : Char → Prop) : ∀ {a b s t : Str}, (∀ c ∈ a, p c) → (∀ c ∈ b, p c) → (∀ c ∈ s.head?, ¬ p c) → (∀ c ∈ t.head?, ¬ p c) → a ++ s = b ++ t → a = b ∧ s = t
  | [], [], _, _, _, _, _, _, h => ⟨rfl, h⟩
  | [], x :: b, s, t, _, hb, hs, _, h => by
    exact absurd (hb x (by simp)) (hs x (by rw [show s = x :: (b ++ t) by simpa using h]; simp))
  | x :: a, [], s, t, ha, _, _, ht, h => by
    exact absurd (ha x (by simp)) (ht x (by rw [show t = x :: (a ++ s) by simpa using h.symm]; simp))
  | x :: a, y :: b, s, t, ha, hb, hs, ht, h => by
    simp only [List.cons_append, List.cons.injEq] at h
    obtain ⟨h1, h2⟩ := cut p (fun c hc => ha c (List.mem_cons_of_mem _ hc)) (fun c hc => hb c (List.mem_cons_of_mem _ hc)) hs ht h.2
    exact ⟨by rw [h.1, h1], h2⟩

/-- A bracketed list of readable items is readable. -/
theorem join_inj {α : Type} (f : α → Str)
    (hf : ∀ a b s t, (∀ c ∈ s.head?, c = ',' ∨ c = ']') → (∀ c ∈ t.head?, c = ',' ∨ c = ']') → f a ++ s = f b ++ t → a = b ∧ s = t) :
    ∀ (xs ys : List α) (s t : Str), xs ≠ [] → ys ≠ [] → join [',', ' '] (xs.map f) ++ (']' :: s) = join [',', ' '] (ys.map f) ++ (']' :: t) → xs = ys ∧ s = t := by
  intro xs
  induction xs with
  | nil => intro ys s t h; exact absurd rfl h
  | cons x xs ih =>
    intro ys s t _ hy h
    cases ys with
    | nil => exact absurd rfl hy
    | cons y ys =>
      cases xs with
      | nil =>
        cases ys with
        | nil =>
          simp only [List.map_cons, List.map_nil, join] at h
          obtain ⟨h1, h2⟩ := hf x y _ _ (by simp) (by simp) h
          simp only [List.cons.injEq, true_and] at h2
          exact ⟨by rw [h1], h2⟩
        | cons y2 ys =>
          simp only [List.map_cons, List.map_nil, join, List.append_assoc] at h
          obtain ⟨h1, h2⟩ := hf x y _ _ (by simp) (by simp) h
          simp at h2
      | cons x2 xs =>
        cases ys with
        | nil =>
          simp only [List.map_cons, List.map_nil, join, List.append_assoc] at h
          obtain ⟨h1, h2⟩ := hf x y _ _ (by simp) (by simp) h
          simp at h2
        | cons y2 ys =>
          simp only [List.map_cons, join, List.append_assoc] at h
          obtain ⟨h1, h2⟩ := hf x y _ _ (by simp) (by simp) h
          have h3 := List.append_cancel_left h2
          obtain ⟨h4, h5⟩ := ih (y2 :: ys) s t (by simp) (by simp) (by simpa using h3)
          exact ⟨by rw [h1, h4], h5⟩

theorem float_cut (a b : F) (s t : Str) (hs : ∀ c ∈ s.head?, c = ',' ∨ c = ']') (ht : ∀ c ∈ t.head?, c = ',' ∨ c = ']')
    (h : P.float a ++ s = P.float b ++ t) : a = b ∧ s = t := by
  obtain ⟨h1, h2⟩ := cut (fun c => c ≠ ',' ∧ c ≠ ']') (fun c hc => ⟨(P.float_chars a c hc).1, (P.float_chars a c hc).2.1⟩)
    (fun c hc => ⟨(P.float_chars b c hc).1, (P.float_chars b c hc).2.1⟩)
    (fun c hc => by rcases hs c hc with h | h <;> simp [h]) (fun c hc => by rcases ht c hc with h | h <;> simp [h]) h
  exact ⟨P.float_inj a b h1, h2⟩

theorem row_inj (v w : List F) (hv : v ≠ []) (hw : w ≠ []) (s t : Str) (h : row P v ++ s = row P w ++ t) : v = w ∧ s = t := by
  simp only [row, List.cons_append, List.cons.injEq, true_and, List.append_assoc, List.nil_append] at h
  exact join_inj P.float (float_cut P) v w s t hv hw h

/-- The rows of a matrix, as non-empty lists. -/
theorem rows_inj (m k : List (List F)) (hm : m ≠ []) (hk : k ≠ []) (hmr : ∀ v ∈ m, v ≠ []) (hkr : ∀ v ∈ k, v ≠ []) (s t : Str)
    (h : join [',', ' '] (m.map (row P)) ++ (']' :: s) = join [',', ' '] (k.map (row P)) ++ (']' :: t)) : m = k ∧ s = t := by
  let f : {v : List F // v ≠ []} → Str := fun v => row P v.1
  have lift : ∀ l : List (List F), (hl : ∀ v ∈ l, v ≠ []) → ∃ l' : List {v : List F // v ≠ []}, l'.map Subtype.val = l := by
    intro l
    induction l with
    | nil => intro _; exact ⟨[], rfl⟩
    | cons v l ih =>
      intro hl
      obtain ⟨l', hl'⟩ := ih fun w hw => hl w (List.mem_cons_of_mem _ hw)
      exact ⟨⟨v, hl v (by simp)⟩ :: l', by simp [hl']⟩
  obtain ⟨m', hm'⟩ := lift m hmr
  obtain ⟨k', hk'⟩ := lift k hkr
  have e1 : m.map (row P) = m'.map f := by rw [← hm', List.map_map]; rfl
  have e2 : k.map (row P) = k'.map f := by rw [← hk', List.map_map]; rfl
  rw [e1, e2] at h
  obtain ⟨h1, h2⟩ := join_inj f (fun a b s t _ _ hab => by
      obtain ⟨h3, h4⟩ := row_inj P a.1 b.1 a.2 b.2 s t hab
      exact ⟨Subtype.ext h3, h4⟩) m' k' s t (by rintro rfl; exact hm (by simpa using hm'.symm)) (by rintro rfl; exact hk (by simpa using hk'.symm)) h
  exact ⟨by rw [← hm', ← hk', h1], h2⟩

/-! ### Numbers -/

theorem digit_of_strNat {n : ℕ} {c : Char} (h : c ∈ strNat n) : c.isDigit := Nat.isDigit_of_mem_toDigits (by decide) (by decide) h

theorem digitChar_inj {a b : ℕ} (ha : a < 10) (hb : b < 10) (h : a.digitChar = b.digitChar) : a = b := by
  have key : ∀ i j : Fin 10, i.val.digitChar = j.val.digitChar → i = j := by decide
  exact congrArg Fin.val (key ⟨a, ha⟩ ⟨b, hb⟩ h)

theorem strNat_inj : ∀ a b : ℕ, strNat a = strNat b → a = b := by
  intro a
  induction a using Nat.strong_induction_on with
  | _ a ih =>
    intro b h
    unfold strNat at h
    rw [Nat.toDigits_eq_if (by decide), Nat.toDigits_eq_if (n := b) (by decide)] at h
    split_ifs at h with h1 h2 h2
    · simp only [List.cons.injEq, and_true] at h
      exact digitChar_inj h1 h2 h
    · exfalso
      have := congrArg List.length h
      have hp : 0 < (Nat.toDigits 10 (b / 10)).length := Nat.length_toDigits_pos
      simp at this
    · exfalso
      have := congrArg List.length h
      have hp : 0 < (Nat.toDigits 10 (a / 10)).length := Nat.length_toDigits_pos
      simp at this
    · have h3 := List.append_inj' h rfl
      have h4 := ih (a / 10) (by omega) (b / 10) h3.1
      have h5 : a % 10 = b % 10 := digitChar_inj (Nat.mod_lt _ (by decide)) (Nat.mod_lt _ (by decide)) (by simpa using h3.2)
      omega

theorem comma_norbs (n : NArg F) : ',' ∉ n.repr P := by
  cases n with
  | none => simp [NArg.repr]
  | int n =>
    intro h
    have hd : ∀ k : ℕ, ',' ∉ strNat k := fun k hk => absurd (digit_of_strNat hk) (by decide)
    cases n with
    | ofNat k => exact hd k h
    | negSucc k =>
      simp only [NArg.repr, reprInt, List.mem_cons] at h
      rcases h with h | h
      · exact absurd h (by decide)
      · exact hd _ h
  | float x => exact fun h => (P.float_chars x _ h).1 rfl
  | bool b => cases b <;> simp [NArg.repr]

theorem reprInt_inj (a b : ℤ) (h : reprInt a = reprInt b) : a = b := by
  have hd : ∀ (k l : ℕ), strNat k ≠ '-' :: strNat l := fun k l hk =>
    absurd (digit_of_strNat (n := k) (c := '-') (by rw [hk]; simp)) (by decide)
  cases a with
  | ofNat a =>
    cases b with
    | ofNat b => exact congrArg Int.ofNat (strNat_inj a b h)
    | negSucc b => exact absurd h (hd _ _)
  | negSucc a =>
    cases b with
    | ofNat b => exact absurd h.symm (hd _ _)
    | negSucc b =>
      simp only [reprInt, List.cons.injEq, true_and] at h
      have := strNat_inj _ _ h
      omega

theorem mem_reprInt {n : ℤ} {c : Char} (h : c ∈ reprInt n) : c.isDigit ∨ c = '-' := by
  cases n with
  | ofNat k => exact Or.inl (digit_of_strNat h)
  | negSucc k =>
    simp only [reprInt, List.mem_cons] at h
    rcases h with h | h
    · exact Or.inr h
    · exact Or.inl (digit_of_strNat h)

theorem reprInt_ne_float (n : ℤ) (x : F) : reprInt n ≠ P.float x := by
  intro h
  rcases P.float_mark x with hm | hm <;> rw [← h] at hm <;> rcases mem_reprInt hm with h2 | h2 <;> exact absurd h2 (by decide)

theorem float_ne_word (x : F) (c : Char) (s : Str) (h1 : c.isDigit = false) (h2 : c ≠ '-') : P.float x ≠ c :: s := by
  obtain ⟨d, t, hd, h3⟩ := P.float_head x
  intro h
  rw [hd] at h
  simp only [List.cons.injEq] at h
  rcases h3 with h3 | h3
  · rw [h.1, h1] at h3; exact absurd h3 (by decide)
  · exact h2 (h.1.symm.trans h3)

theorem reprInt_ne_word (n : ℤ) (c : Char) (s : Str) (h1 : c.isDigit = false) (h2 : c ≠ '-') : reprInt n ≠ c :: s := by
  intro h
  rcases mem_reprInt (n := n) (c := c) (by rw [h]; simp) with h3 | h3
  · rw [h1] at h3; exact absurd h3 (by decide)
  · exact h2 h3

/-- `repr(norbs)` determines `norbs`. -/
theorem norbs_inj (a b : NArg F) (h : a.repr P = b.repr P) : a = b := by
  have w1 := reprInt_ne_word
  have w2 := float_ne_word P
  have w3 := reprInt_ne_float P
  cases a with
  | none =>
    cases b with
    | none => rfl
    | int n => exact absurd h.symm (w1 n 'N' _ (by decide) (by decide))
    | float x => exact absurd h.symm (w2 x 'N' _ (by decide) (by decide))
    | bool b => cases b <;> simp [NArg.repr] at h
  | int n =>
    cases b with
    | none => exact absurd h (w1 n 'N' _ (by decide) (by decide))
    | int m => rw [reprInt_inj n m h]
    | float x => exact absurd h (w3 n x)
    | bool b =>
      cases b
      · exact absurd h (w1 n 'F' _ (by decide) (by decide))
      · exact absurd h (w1 n 'T' _ (by decide) (by decide))
  | float x =>
    cases b with
    | none => exact absurd h (w2 x 'N' _ (by decide) (by decide))
    | int m => exact absurd h.symm (w3 m x)
    | float y => rw [P.float_inj x y h]
    | bool b =>
      cases b
      · exact absurd h (w2 x 'F' _ (by decide) (by decide))
      · exact absurd h (w2 x 'T' _ (by decide) (by decide))
  | bool c =>
    cases b with
    | none => cases c <;> simp [NArg.repr] at h
    | int m =>
      cases c
      · exact absurd h.symm (w1 m 'F' _ (by decide) (by decide))
      · exact absurd h.symm (w1 m 'T' _ (by decide) (by decide))
    | float x =>
      cases c
      · exact absurd h.symm (w2 x 'F' _ (by decide) (by decide))
      · exact absurd h.symm (w2 x 'T' _ (by decide) (by decide))
    | bool b => cases b <;> cases c <;> first | rfl | simp [NArg.repr] at h

/-- The part of a text after the last comma is unique. -/
theorem cut_last {a b s t : Str} (hs : ',' ∉ s) (ht : ',' ∉ t) (h : a ++ (',' :: s) = b ++ (',' :: t)) : a = b ∧ s = t := by
  have h2 : s.reverse ++ (',' :: a.reverse) = t.reverse ++ (',' :: b.reverse) := by
    have := congrArg List.reverse h
    simpa using this
  obtain ⟨h3, h4⟩ := cut (fun c => c ≠ ',') (fun c hc he => hs (by rw [← he]; simpa using hc)) (fun c hc he => ht (by rw [← he]; simpa using hc))
    (by simp) (by simp) h2
  refine ⟨?_, List.reverse_injective h3⟩
  simp only [List.cons.injEq, true_and] at h4
  exact List.reverse_injective h4

/-! ### The canonical text -/

/-- The canonical text can be read back. -/
theorem canonical_inj (ind : ℕ) {cl cl' : Str} {m m' : List (List F)} {o o' : List F} {name name' : Str} {n n' : NArg F} (hcl : '(' ∉ cl) (hcl' : '(' ∉ cl')
    (hm : m ≠ []) (hm' : m' ≠ []) (hmr : ∀ v ∈ m, v ≠ []) (hmr' : ∀ v ∈ m', v ≠ []) (ho : o ≠ []) (ho' : o' ≠ [])
    (h : canonical P ind cl m o name n = canonical P ind cl' m' o' name' n') :
    cl = cl' ∧ m = m' ∧ o = o' ∧ name = name' ∧ n = n' := by
  unfold canonical at h
  rw [short_mat P ind m hm, short_mat P ind m' hm', short_vec, short_vec] at h
  obtain ⟨h1, h2⟩ := cut (fun c => c ≠ '(') (fun c hc he => hcl (by rwa [← he])) (fun c hc he => hcl' (by rwa [← he])) (by simp) (by simp) h
  simp only [List.cons_append, List.cons.injEq, true_and, List.append_assoc, List.nil_append] at h2
  obtain ⟨h3, h4⟩ := rows_inj P m m' hm hm' hmr hmr' _ _ h2
  simp only [List.cons.injEq, true_and] at h4
  obtain ⟨h5, h6⟩ := row_inj P o o' ho ho' _ _ h4
  simp only [List.cons.injEq, true_and] at h6
  have c1 : ',' ∉ ' ' :: (n.repr P ++ [')']) := by have := comma_norbs P n; simp [this]
  have c2 : ',' ∉ ' ' :: (n'.repr P ++ [')']) := by have := comma_norbs P n'; simp [this]
  obtain ⟨h7, h8⟩ := cut_last c1 c2 h6
  simp only [List.cons.injEq, true_and] at h8
  exact ⟨h1, h3, h5, P.str_inj _ _ h7, norbs_inj P _ _ (List.append_cancel_right h8)⟩

end Kwant.Fam
