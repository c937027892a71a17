import Verif.Fib.Rep
import Mathlib.Data.Finset.Lattice.Fold

/-! The shape and the order of the trees of the heap. -/

set_option linter.unusedSectionVars false

namespace Kwant.Fib

/-- The lists of children form a forest in heap order, with nodes below `N`; no node has half of the nodes as children. -/
structure Forest (kids : Option ℕ → List ℕ) (val : ℕ → ℝ) (N : ℕ) : Prop where
  lt : ∀ p, ∀ x ∈ kids p, x < N
  own : ∀ x, kids (some x) ≠ [] → ∃ p, x ∈ kids p
  order : ∀ p, ∀ x ∈ kids (some p), val p ≤ val x
  height : ∃ h : ℕ → ℕ, ∀ p, ∀ x ∈ kids (some p), h x < h p
  half : ∀ x, kids (some x) ≠ [] → 2 * (kids (some x)).length < N

/-- A list of different numbers below `N`. -/
theorem length_le_of_nodup {l : List ℕ} {N : ℕ} (h : l.Nodup) (hl : ∀ x ∈ l, x < N) : l.length ≤ N := by
  have := Finset.card_le_card (s := l.toFinset) (t := Finset.range N) (by intro x hx; simp at hx ⊢; exact hl x hx)
  rw [List.toFinset_card_of_nodup h, Finset.card_range] at this
  exact this

/-- Every member is above some root, which is not larger. -/
theorem Forest.root {kids val N} (h : Forest kids val N) (x : ℕ) (hx : ∃ p, x ∈ kids p) : ∃ r ∈ kids none, val r ≤ val x := by
  obtain ⟨ht, hht⟩ := h.height
  -- heights of members are bounded
  have hb : ∃ H, ∀ y, (∃ p, y ∈ kids p) → ht y ≤ H := by
    refine ⟨(Finset.range N).sup ht, fun y ⟨p, hy⟩ => Finset.le_sup (f := ht) (Finset.mem_range.mpr (h.lt p y hy))⟩
  obtain ⟨H, hH⟩ := hb
  have key : ∀ n y, H - ht y ≤ n → (∃ p, y ∈ kids p) → ∃ r ∈ kids none, val r ≤ val y := by
    intro n
    induction n with
    | zero =>
      rintro y hn ⟨p, hp⟩
      cases p with
      | none => exact ⟨y, hp, le_refl _⟩
      | some q =>
        have h1 := hht q y hp
        have h2 := hH q (h.own q (by intro c; rw [c] at hp; simp at hp))
        omega
    | succ n ih =>
      rintro y hn ⟨p, hp⟩
      cases p with
      | none => exact ⟨y, hp, le_refl _⟩
      | some q =>
        have h1 := hht q y hp
        have hq := h.own q (by intro c; rw [c] at hp; simp at hp)
        have h2 := hH q hq
        obtain ⟨r, hr, hr'⟩ := ih q (by omega) hq
        exact ⟨r, hr, hr'.trans (h.order q y hp)⟩
  exact key _ x (le_refl _) hx

/-- A node of the list `p` (there between `a` and `b`) is moved to the end of the roots. -/
def toRoot (kids : Option ℕ → List ℕ) (q : ℕ) (l : List ℕ) (x : ℕ) : Option ℕ → List ℕ :=
  Function.update (Function.update kids (some q) l) none (kids none ++ [x])

/-- A root is moved to the end of the list of the children of `q`. -/
def toChild (kids : Option ℕ → List ℕ) (l : List ℕ) (q x : ℕ) : Option ℕ → List ℕ :=
  Function.update (Function.update kids none l) (some q) (kids (some q) ++ [x])

theorem members_toRoot {kids : Option ℕ → List ℕ} {q a x b} (e : kids (some q) = a ++ x :: b) (y : ℕ) : (∃ p, y ∈ toRoot kids q (a ++ b) x p) ↔ ∃ p, y ∈ kids p := by
  unfold toRoot
  constructor
  · rintro ⟨p, hp⟩
    cases p with
    | none =>
      rw [Function.update_self] at hp
      rcases List.mem_append.mp hp with h | h
      · exact ⟨none, h⟩
      · exact ⟨some q, by rw [e]; simp at h; simp [h]⟩
    | some p =>
      rw [Function.update_of_ne (by simp)] at hp
      by_cases hpq : some p = some q
      · rw [hpq, Function.update_self] at hp
        exact ⟨some q, by rw [e]; simp at hp ⊢; tauto⟩
      · rw [Function.update_of_ne hpq] at hp; exact ⟨_, hp⟩
  · rintro ⟨p, hp⟩
    cases p with
    | none => exact ⟨none, by rw [Function.update_self]; simp [hp]⟩
    | some p =>
      by_cases hpq : some p = some q
      · rw [hpq, e] at hp
        simp only [List.mem_append, List.mem_cons] at hp
        rcases hp with h | rfl | h
        · exact ⟨some q, by rw [Function.update_of_ne (by simp), Function.update_self]; simp [h]⟩
        · exact ⟨none, by rw [Function.update_self]; simp⟩
        · exact ⟨some q, by rw [Function.update_of_ne (by simp), Function.update_self]; simp [h]⟩
      · exact ⟨some p, by rw [Function.update_of_ne (by simp), Function.update_of_ne hpq]; exact hp⟩

theorem members_toChild {kids : Option ℕ → List ℕ} {q a x b} (e : kids none = a ++ x :: b) (y : ℕ) : (∃ p, y ∈ toChild kids (a ++ b) q x p) ↔ ∃ p, y ∈ kids p := by
  unfold toChild
  constructor
  · rintro ⟨p, hp⟩
    by_cases hpq : p = some q
    · rw [hpq, Function.update_self] at hp
      rcases List.mem_append.mp hp with h | h
      · exact ⟨_, h⟩
      · exact ⟨none, by rw [e]; simp at h; simp [h]⟩
    · rw [Function.update_of_ne hpq] at hp
      cases p with
      | none => rw [Function.update_self] at hp; exact ⟨none, by rw [e]; simp at hp ⊢; tauto⟩
      | some p => rw [Function.update_of_ne (by simp)] at hp; exact ⟨_, hp⟩
  · rintro ⟨p, hp⟩
    by_cases hpq : p = some q
    · exact ⟨some q, by rw [Function.update_self, ← hpq]; simp [hp]⟩
    · cases p with
      | none =>
        rw [e] at hp
        simp only [List.mem_append, List.mem_cons] at hp
        rcases hp with h | rfl | h
        · exact ⟨none, by rw [Function.update_of_ne hpq, Function.update_self]; simp [h]⟩
        · exact ⟨some q, by rw [Function.update_self]; simp⟩
        · exact ⟨none, by rw [Function.update_of_ne hpq, Function.update_self]; simp [h]⟩
      | some p => exact ⟨some p, by rw [Function.update_of_ne hpq, Function.update_of_ne (by simp)]; exact hp⟩

/-- Cutting a child off keeps the forest. -/
theorem forest_toRoot {kids val N q a x b} (h : Forest kids val N) (e : kids (some q) = a ++ x :: b) (val' : ℕ → ℝ)
    (hv : ∀ p, ∀ y ∈ kids (some p), y ≠ x → val' p ≤ val' y) (hv' : ∀ p, p ≠ q → x ∈ kids (some p) → val' p ≤ val' x) (hxq : x ∉ a ++ b) : Forest (toRoot kids q (a ++ b) x) val' N := by
  have hs : ∀ p, ∀ y, y ∈ toRoot kids q (a ++ b) x (some p) → y ∈ kids (some p) ∧ (p = q → y ≠ x) := by
    intro p y hy
    unfold toRoot at hy
    rw [Function.update_of_ne (by simp)] at hy
    by_cases hpq : some p = some q
    · rw [hpq, Function.update_self] at hy
      rw [hpq, e]
      refine ⟨by simp at hy ⊢; tauto, fun _ hyx => hxq (hyx ▸ hy)⟩
    · rw [Function.update_of_ne hpq] at hy
      exact ⟨hy, fun c => absurd (congrArg some c) hpq⟩
  refine ⟨?_, ?_, ?_, ?_, ?_⟩
  · intro p y hy
    obtain ⟨p', hp'⟩ := (members_toRoot e y).mp ⟨p, hy⟩
    exact h.lt p' y hp'
  · intro p hp
    rw [members_toRoot e]
    obtain ⟨y, hy⟩ := List.exists_mem_of_ne_nil _ hp
    exact h.own p (List.ne_nil_of_mem (hs p y hy).1)
  · intro p y hy
    obtain ⟨h1, h2⟩ := hs p y hy
    by_cases hyx : y = x
    · subst hyx
      exact hv' p (fun c => h2 c rfl) h1
    · exact hv p y h1 hyx
  · obtain ⟨ht, hht⟩ := h.height
    exact ⟨ht, fun p y hy => hht p y (hs p y hy).1⟩
  · intro p hp
    obtain ⟨y, hy⟩ := List.exists_mem_of_ne_nil _ hp
    have h1 := h.half p (List.ne_nil_of_mem (hs p y hy).1)
    have h2 : (toRoot kids q (a ++ b) x (some p)).length ≤ (kids (some p)).length := by
      unfold toRoot
      rw [Function.update_of_ne (by simp)]
      by_cases hpq : some p = some q
      · rw [hpq, Function.update_self, e]; simp
      · rw [Function.update_of_ne hpq]
    omega

/-- Linking two roots of the same rank keeps the forest. -/
theorem forest_toChild {m : Mem} {kids N q a x b} (h : Forest kids (fun y => (m y).val) N) (r : Rep m kids) (e : kids none = a ++ x :: b) (hq : q ∈ a ++ b) (hv : (m q).val ≤ (m x).val)
    (hrank : (kids (some q)).length = (kids (some x)).length) (o : ℕ) (ho : o < N) (ho' : ∀ p, o ∉ kids p) : Forest (toChild kids (a ++ b) q x) (fun y => (m y).val) N := by
  have hx : x ∈ kids none := by rw [e]; simp
  have hq' : q ∈ kids none := by rw [e]; simp at hq ⊢; tauto
  have hqx : q ≠ x := by
    rintro rfl
    have := r.nodup none
    rw [e] at this
    simp only [List.nodup_append, List.nodup_cons, List.mem_append] at this hq
    rcases hq with hq | hq
    · exact this.2.2 q hq q (by simp) rfl
    · exact this.2.1.1 hq
  have hs : ∀ p, ∀ y, y ∈ toChild kids (a ++ b) q x (some p) → y ∈ kids (some p) ∨ (p = q ∧ y = x) := by
    intro p y hy
    unfold toChild at hy
    by_cases hpq : some p = some q
    · rw [hpq, Function.update_self] at hy
      rcases List.mem_append.mp hy with h | h
      · exact .inl (hpq ▸ h)
      · exact .inr ⟨by simpa using hpq, by simpa using h⟩
    · rw [Function.update_of_ne hpq, Function.update_of_ne (by simp)] at hy
      exact .inl hy
  refine ⟨?_, ?_, ?_, ?_, ?_⟩
  · intro p y hy
    obtain ⟨p', hp'⟩ := (members_toChild e y).mp ⟨p, hy⟩
    exact h.lt p' y hp'
  · intro p hp
    rw [members_toChild e]
    obtain ⟨y, hy⟩ := List.exists_mem_of_ne_nil _ hp
    rcases hs p y hy with h1 | ⟨rfl, -⟩
    · exact h.own p (List.ne_nil_of_mem h1)
    · exact ⟨none, hq'⟩
  · intro p y hy
    rcases hs p y hy with h1 | ⟨rfl, rfl⟩
    · exact h.order p y h1
    · exact hv
  · obtain ⟨ht, hht⟩ := h.height
    refine ⟨Function.update ht q (max (ht q) (ht x + 1)), fun p y hy => ?_⟩
    rcases hs p y hy with h1 | ⟨rfl, rfl⟩
    · have hyq : y ≠ q := by
        rintro rfl
        exact absurd (r.unique h1 hq') (by simp)
      rw [Function.update_of_ne hyq]
      have := hht p y h1
      by_cases hpq : p = q
      · subst hpq; rw [Function.update_self]; omega
      · rw [Function.update_of_ne hpq]; exact this
    · rw [Function.update_of_ne (Ne.symm hqx), Function.update_self]; omega
  · intro p hp
    by_cases hpq : some p = some q
    · have hlen : (toChild kids (a ++ b) q x (some p)).length = (kids (some q)).length + 1 := by
        unfold toChild; rw [hpq, Function.update_self]; simp
      rw [hlen]
      have hnd : (kids (some q) ++ kids (some x) ++ [q, x, o]).Nodup := by
        rw [List.nodup_append]
        refine ⟨?_, ?_, ?_⟩
        · rw [List.nodup_append]
          refine ⟨r.nodup _, r.nodup _, fun y hy z hz => ?_⟩
          rintro rfl
          exact hqx (by simpa using r.unique hy hz)
        · simp only [List.nodup_cons, List.mem_cons, List.not_mem_nil, or_false, not_or, List.nodup_nil, and_true, not_false_eq_true]
          exact ⟨⟨hqx, fun c => ho' none (c ▸ hq')⟩, fun c => ho' none (c ▸ hx)⟩
        · intro y hy z hz
          rintro rfl
          simp only [List.mem_cons, List.not_mem_nil, or_false] at hz
          have hy' : ∃ p, y ∈ kids (some p) := by
            rcases List.mem_append.mp hy with h | h
            exacts [⟨_, h⟩, ⟨_, h⟩]
          obtain ⟨p', hp'⟩ := hy'
          rcases hz with rfl | rfl | rfl
          · exact absurd (r.unique hp' hq') (by simp)
          · exact absurd (r.unique hp' hx) (by simp)
          · exact ho' _ hp'
      have := length_le_of_nodup (N := N) hnd (by
        intro y hy
        simp only [List.mem_append, List.mem_cons, List.not_mem_nil, or_false] at hy
        rcases hy with (hy | hy) | rfl | rfl | rfl
        · exact h.lt _ _ hy
        · exact h.lt _ _ hy
        · exact h.lt _ _ hq'
        · exact h.lt _ _ hx
        · exact ho)
      simp only [List.length_append, List.length_cons, List.length_nil] at this
      omega
    · have he : toChild kids (a ++ b) q x (some p) = kids (some p) := by
        unfold toChild; rw [Function.update_of_ne hpq, Function.update_of_ne (by simp)]
      rw [he] at hp ⊢
      exact h.half p hp

end Kwant.Fib
