import Verif.Plot.Draw

/-! Helper lemmas for the pictures -/

set_option linter.unusedSectionVars false

namespace Kwant.Draw
open Kwant Kwant.Assoc Kwant.Builder Kwant.Final Kwant.Graph

section generic
variable {α L Q X : Type} {n : ℕ} {objs : L → List α}

theorem collect_spec (ls : List L) : ∀ (nr : ℕ) (acc : List (Item α)),
    (∃ rest, (collect n objs ls nr acc).1 = acc ++ rest) ∧
    Chained acc.length (collect n objs ls nr acc).2 (collect n objs ls nr acc).1.length ∧
    (collect n objs ls nr acc).2.length = ls.length ∧
    ∀ (k : ℕ) (s : ℕ × ℕ) (l : L), (collect n objs ls nr acc).2[k]? = some s → ls[k]? = some l →
      slice (collect n objs ls nr acc).1 s = leadItems (objs l) (nr + k) n := by
  induction ls with
  | nil =>
    intro nr acc
    refine ⟨⟨[], by simp [collect]⟩, rfl, rfl, ?_⟩
    intro k s l h
    simp [collect] at h
  | cons l0 ls ih =>
    intro nr acc
    obtain ⟨⟨rest, h1⟩, h2, h3, h4⟩ := ih (nr + 1) (acc ++ leadItems (objs l0) nr n)
    simp only [collect]
    refine ⟨⟨leadItems (objs l0) nr n ++ rest, by rw [h1, List.append_assoc]⟩, ?_, ?_, ?_⟩
    · exact ⟨rfl, by simp, h2⟩
    · simp [h3]
    · intro k s l hs hl
      cases k with
      | zero =>
        simp only [List.getElem?_cons_zero, Option.some.injEq] at hs hl
        subst hs hl
        rw [h1]
        simp [slice]
      | succ k =>
        simp only [List.getElem?_cons_succ] at hs hl
        rw [h4 k s l hs hl]
        congr 1
        omega

theorem leadItems_mem {o : List α} {nr : ℕ} {y : Item α} (h : y ∈ leadItems o nr n) :
    y.1 ∈ o ∧ y.2.1 = some nr ∧ y.2.2 < n := by
  simp only [leadItems, List.mem_flatMap, List.mem_map, List.mem_range] at h
  obtain ⟨s, hs, i, hi, rfl⟩ := h
  exact ⟨hs, rfl, hi⟩

theorem leadItems_last {o : List α} {nr : ℕ} {x : Item α} (h : (leadItems o nr n).getLast? = some x) :
    x.2.2 = n - 1 := by
  rcases List.eq_nil_or_concat o with rfl | ⟨o', a, rfl⟩
  · simp [leadItems] at h
  · cases n with
    | zero =>
      have e : leadItems (o'.concat a) nr 0 = [] := by
        unfold leadItems
        rw [List.flatMap_eq_nil_iff]
        intro x _
        rfl
      rw [e] at h
      cases h
    | succ m =>
      simp [leadItems, List.range_succ] at h
      subst h
      simp

theorem collect_copies (ls : List L) : ∀ (nr : ℕ) (acc : List (Item α)),
    (∀ y ∈ acc, y.2.2 ≤ n - 1) →
    (∀ x, acc.getLast? = some x → ∀ y ∈ acc, y.2.2 ≤ x.2.2) →
    ∀ x, (collect n objs ls nr acc).1.getLast? = some x →
      ∀ y ∈ (collect n objs ls nr acc).1, y.2.2 ≤ x.2.2 := by
  induction ls with
  | nil =>
    intro nr acc _ h2
    exact h2
  | cons l ls ih =>
    intro nr acc h1 h2
    simp only [collect]
    apply ih
    · intro y hy
      rcases List.mem_append.mp hy with h | h
      · exact h1 y h
      · have := (leadItems_mem h).2.2
        omega
    · intro x hx y hy
      cases hli : (leadItems (objs l) nr n).getLast? with
      | none =>
        have e : leadItems (objs l) nr n = [] := List.getLast?_eq_none_iff.mp hli
        rw [e, List.append_nil] at hx hy
        exact h2 x hx y hy
      | some z =>
        have hz := leadItems_last hli
        rw [List.getLast?_append, hli] at hx
        simp at hx
        subst hx
        rw [hz]
        rcases List.mem_append.mp hy with h | h
        · exact h1 y h
        · have := (leadItems_mem h).2.2
          omega

theorem collect_mem (ls : List L) : ∀ (nr : ℕ) (acc : List (Item α)) (y : Item α),
    y ∈ (collect n objs ls nr acc).1 →
    y ∈ acc ∨ ∃ k l, ls[k]? = some l ∧ y ∈ leadItems (objs l) (nr + k) n := by
  induction ls with
  | nil =>
    intro nr acc y h
    exact Or.inl h
  | cons l0 ls ih =>
    intro nr acc y h
    simp only [collect] at h
    rcases ih _ _ y h with h | ⟨k, l, h1, h2⟩
    · rcases List.mem_append.mp h with h | h
      · exact Or.inl h
      · exact Or.inr ⟨0, l0, rfl, by simpa using h⟩
    · refine Or.inr ⟨k + 1, l, by simpa using h1, ?_⟩
      have : nr + 1 + k = nr + (k + 1) := by omega
      rwa [this] at h2

theorem mapM_ok {β : Type} {E : Type} (f : β → Except E Q) (g : β → Q) (l : List β)
    (h : ∀ x ∈ l, f x = .ok (g x)) : l.mapM f = .ok (l.map g) := by
  induction l with
  | nil => rfl
  | cons a l ih =>
    rw [List.mapM_cons, h a (by simp), ih (fun x hx => h x (by simp [hx]))]
    rfl

variable [AddCommGroup Q]

/-- The shift of an item. -/
def shiftBy (tab : List (Q × ℤ)) (it : Item α) : Q :=
  match it.2.1 with
  | none => 0
  | some k => match tab[k]? with
    | none => 0
    | some vd => (vd.2 + (it.2.2 : ℤ)) • vd.1

theorem place_ok {raw : Item α → Option Q} {tab : List (Q × ℤ)} {items : List (Item α)} (g : Item α → Q)
    (hne : items ≠ []) (hcop : ∀ x, items.getLast? = some x → ∀ y ∈ items, y.2.2 ≤ x.2.2)
    (hraw : ∀ y ∈ items, raw y = some (g y))
    (htab : ∀ y ∈ items, ∀ k, y.2.1 = some k → k < tab.length) :
    place raw tab items = .ok (items.map fun y => g y + shiftBy tab y) := by
  unfold place
  cases hl : items.getLast? with
  | none => exact absurd (List.getLast?_eq_none_iff.mp hl) hne
  | some x =>
    simp only
    apply mapM_ok
    intro y hy
    have hc := hcop x hl y hy
    unfold placeOne shiftBy
    rw [hraw y hy]
    have hr : (List.range (x.2.2 + 1))[y.2.2]? = some y.2.2 := by
      rw [List.getElem?_range (by omega)]
    cases h : y.2.1 with
    | none =>
      simp only
      rw [List.getElem?_map, hr]
      simp
    | some k =>
      have hk := htab y hy k h
      simp only [List.getElem?_eq_getElem hk]
      rw [List.getElem?_map, hr]
      rfl

/-- The general form of a picture: for every lead the objects are moved by `tr`. -/
theorem picture {base : List α} {leads : List L} {raw : Item α → Option Q} {tab : List (Q × ℤ)}
    (g : Item α → Q) (hne : (collect n objs leads 0 (base.map fun o => (o, none, 0))).1 ≠ [])
    (hb : ∀ o ∈ base, raw (o, none, 0) = some (g (o, none, 0)))
    (hl : ∀ k l, leads[k]? = some l → ∀ o ∈ objs l, ∀ i, i < n →
      raw (o, some k, i) = some (g (o, some k, i)))
    (ht : tab.length = leads.length) :
    ∃ ps, place raw tab (collect n objs leads 0 (base.map fun o => (o, none, 0))).1 = .ok ps ∧
      ps.take base.length = base.map (fun o => g (o, none, 0)) ∧
      Chained base.length (collect n objs leads 0 (base.map fun o => (o, none, 0))).2 ps.length ∧
      (collect n objs leads 0 (base.map fun o => (o, none, 0))).2.length = leads.length ∧
      ∀ (k : ℕ) (s : ℕ × ℕ) (l : L) (vd : Q × ℤ),
        (collect n objs leads 0 (base.map fun o => (o, none, 0))).2[k]? = some s →
        leads[k]? = some l → tab[k]? = some vd →
        slice ps s = (objs l).flatMap fun o => (List.range n).map fun i : ℕ =>
          g (o, some k, i) + (vd.2 + (i : ℤ)) • vd.1 := by
  obtain ⟨⟨rest, s1⟩, s2, s3, s4⟩ := collect_spec (n := n) (objs := objs) leads 0
    (base.map fun o => (o, none, 0))
  have cop := collect_copies (n := n) (objs := objs) leads 0 (base.map fun o => (o, none, 0))
    (by
      intro y hy
      obtain ⟨o, _, rfl⟩ := List.mem_map.mp hy
      simp)
    (by
      intro x _ y hy
      obtain ⟨o, _, rfl⟩ := List.mem_map.mp hy
      simp)
  have mem := collect_mem (n := n) (objs := objs) leads 0 (base.map fun o => (o, none, 0))
  set items := (collect n objs leads 0 (base.map fun o => (o, none, 0))).1
  have hp := place_ok (raw := raw) (tab := tab) g hne cop
    (by
      intro y hy
      rcases mem y hy with h | ⟨k, l, h1, h2⟩
      · obtain ⟨o, ho, rfl⟩ := List.mem_map.mp h
        exact hb o ho
      · obtain ⟨y1, y2, y3⟩ := y
        obtain ⟨m1, m2, m3⟩ := leadItems_mem h2
        simp only [zero_add] at m1 m2 m3
        subst m2
        exact hl k l h1 y1 m1 y3 m3)
    (by
      intro y hy k hk
      rcases mem y hy with h | ⟨k', l, h1, h2⟩
      · obtain ⟨o, ho, rfl⟩ := List.mem_map.mp h
        cases hk
      · obtain ⟨m1, m2, m3⟩ := leadItems_mem h2
        rw [m2] at hk
        cases hk
        rw [ht]
        have := (List.getElem?_eq_some_iff.mp h1).1
        omega)
  refine ⟨_, hp, ?_, ?_, s3, ?_⟩
  · rw [s1]
    simp [shiftBy, Function.comp_def]
  · simpa using s2
  · intro k s l vd h1 h2 h3
    have e : slice (items.map fun y => g y + shiftBy tab y) s =
        (slice items s).map fun y => g y + shiftBy tab y := by
      simp [slice, List.map_take, List.map_drop]
    rw [e, s4 k s l h1 h2]
    simp only [leadItems, List.map_flatMap, List.map_map, zero_add]
    congr 1
    funext o
    apply List.map_congr_left
    intro i _
    simp [shiftBy, h3]

/-- The same if no position is asked for an empty list. -/
theorem pictureE {base : List α} {leads : List L} {raw : Item α → Option Q} {tab : List (Q × ℤ)}
    (g : Item α → Q)
    (hb : ∀ o ∈ base, raw (o, none, 0) = some (g (o, none, 0)))
    (hl : ∀ k l, leads[k]? = some l → ∀ o ∈ objs l, ∀ i, i < n →
      raw (o, some k, i) = some (g (o, some k, i)))
    (ht : tab.length = leads.length) :
    ∃ ps, ((collect n objs leads 0 (base.map fun o => (o, none, 0))).1 = [] ∧ ps = [] ∨
        (collect n objs leads 0 (base.map fun o => (o, none, 0))).1 ≠ [] ∧
        place raw tab (collect n objs leads 0 (base.map fun o => (o, none, 0))).1 = .ok ps) ∧
      ps.take base.length = base.map (fun o => g (o, none, 0)) ∧
      Chained base.length (collect n objs leads 0 (base.map fun o => (o, none, 0))).2 ps.length ∧
      (collect n objs leads 0 (base.map fun o => (o, none, 0))).2.length = leads.length ∧
      ∀ (k : ℕ) (s : ℕ × ℕ) (l : L) (vd : Q × ℤ),
        (collect n objs leads 0 (base.map fun o => (o, none, 0))).2[k]? = some s →
        leads[k]? = some l → tab[k]? = some vd →
        slice ps s = (objs l).flatMap fun o => (List.range n).map fun i : ℕ =>
          g (o, some k, i) + (vd.2 + (i : ℤ)) • vd.1 := by
  by_cases hne : (collect n objs leads 0 (base.map fun o => (o, none, 0))).1 = []
  · obtain ⟨⟨rest, s1⟩, s2, s3, s4⟩ := collect_spec (n := n) (objs := objs) leads 0
      (base.map fun o => (o, none, 0))
    rw [hne] at s1 s2 s4
    obtain ⟨s11, _⟩ := List.append_eq_nil_iff.mp s1.symm
    have hH : base = [] := by simpa using s11
    refine ⟨[], Or.inl ⟨hne, rfl⟩, ?_, ?_, s3, ?_⟩
    · rw [hH]
      rfl
    · simpa using s2
    · intro k s l vd e1 e2 e3
      have := s4 k s l e1 e2
      have e : slice ([] : List (Item α)) s = [] := by simp [slice]
      rw [e] at this
      have e' : slice ([] : List Q) s = [] := by simp [slice]
      rw [e']
      unfold leadItems at this
      have t := List.flatMap_eq_nil_iff.mp this.symm
      symm
      rw [List.flatMap_eq_nil_iff]
      intro o ho
      have := t o ho
      rw [List.map_eq_nil_iff] at this ⊢
      exact this
  · obtain ⟨ps, h1, h2⟩ := picture (n := n) (objs := objs) g hne hb hl ht
    exact ⟨ps, Or.inr ⟨hne, h1⟩, h2⟩

end generic

section drawn
variable {X : Type} {tr : ℤ → X → X} {lev : X → ℤ}

/-- All copies of the objects. -/
def copies (tr : ℤ → X → X) (xs : List X) (dom : ℤ) (n : ℕ) : List X :=
  xs.flatMap fun x => (List.range n).map fun i : ℕ => tr (dom + 1 + (i : ℤ)) x

theorem mem_copies (tr0 : ∀ x, tr 0 x = x) (tra : ∀ g h x, tr g (tr h x) = tr (g + h) x)
    (trl : ∀ g x, lev (tr g x) = g + lev x) {xs : List X} (h0 : ∀ x ∈ xs, lev x = 0) {dom : ℤ} {n : ℕ}
    (y : X) : y ∈ copies tr xs dom n ↔ tr (-lev y) y ∈ xs ∧ dom < lev y ∧ lev y ≤ dom + n := by
  unfold copies
  simp only [List.mem_flatMap, List.mem_map, List.mem_range]
  constructor
  · rintro ⟨x, hx, i, hi, rfl⟩
    have e := h0 x hx
    rw [trl, e, tra]
    refine ⟨?_, by omega, by omega⟩
    have : -(dom + 1 + (i : ℤ) + 0) + (dom + 1 + i) = 0 := by ring
    rw [this, tr0]
    exact hx
  · rintro ⟨h1, h2, h3⟩
    refine ⟨_, h1, (lev y - dom - 1).toNat, by omega, ?_⟩
    rw [tra]
    have : dom + 1 + ((lev y - dom - 1).toNat : ℤ) + -lev y = 0 := by omega
    rw [this, tr0]

theorem nodup_copies (tr0 : ∀ x, tr 0 x = x) (tra : ∀ g h x, tr g (tr h x) = tr (g + h) x)
    (trl : ∀ g x, lev (tr g x) = g + lev x) {xs : List X} (h0 : ∀ x ∈ xs, lev x = 0)
    (hn : xs.Nodup) (dom : ℤ) (n : ℕ) : (copies tr xs dom n).Nodup := by
  unfold copies
  rw [List.nodup_flatMap]
  constructor
  · intro x hx
    apply List.Nodup.map_on _ (List.nodup_range)
    intro i _ j _ h
    have := congrArg lev h
    rw [trl, trl] at this
    omega
  · refine List.Pairwise.imp_of_mem ?_ hn
    intro a b ha hb hab y hy hy'
    simp only [List.mem_map, List.mem_range] at hy hy'
    obtain ⟨i, _, rfl⟩ := hy
    obtain ⟨j, _, e⟩ := hy'
    have hl := congrArg lev e
    rw [trl, trl, h0 a ha, h0 b hb] at hl
    have hij : j = i := by omega
    subst hij
    apply hab
    have := congrArg (tr (-(dom + 1 + (j : ℤ)))) e
    rw [tra, tra] at this
    have z : -(dom + 1 + (j : ℤ)) + (dom + 1 + (j : ℤ)) = 0 := by ring
    rw [z, tr0, tr0] at this
    exact this.symm

end drawn

end Kwant.Draw
