import Verif.Fib.Model
import Mathlib.Tactic.Linarith
import Mathlib.Data.Finset.Card
import Mathlib.Data.Finset.Range

/-! Doubly linked lists of siblings, as lists. -/

set_option linter.unusedSectionVars false

namespace Kwant.Fib

/-- The memory represents the lists `kids`: those of the children of every node, and of the roots (`none`). -/
structure Rep (m : Mem) (kids : Option ℕ → List ℕ) : Prop where
  nodup : ∀ p, (kids p).Nodup
  link : ∀ p a x b, kids p = a ++ x :: b → (m x).parent = p ∧ (m x).left = a.getLast? ∧ (m x).right = b.head?
  child : ∀ x, (kids (some x) = [] ∧ (m x).children = none) ∨ ∃ c ∈ kids (some x), (m x).children = some c
  rank : ∀ x, (m x).rank = (kids (some x)).length

/-- Nodes that are in no list have no pointers to others of their kind. -/
def Loose (m : Mem) (kids : Option ℕ → List ℕ) (x : ℕ) : Prop := (∀ p, x ∉ kids p) → (m x).parent = none ∧ (m x).left = none ∧ (m x).right = none

theorem Rep.parent {m kids} (h : Rep m kids) {p x} (hx : x ∈ kids p) : (m x).parent = p := by
  obtain ⟨a, b, e⟩ := List.append_of_mem hx
  exact (h.link p a x b e).1

theorem Rep.unique {m kids} (h : Rep m kids) {p q x} (hx : x ∈ kids p) (hx' : x ∈ kids q) : p = q := by
  rw [← h.parent hx, ← h.parent hx']

theorem rightmost_spec {m kids} (h : Rep m kids) (F : ℕ) (p a x b) (e : kids p = a ++ x :: b) (hF : b.length < F) : rightmost F m x = .ok ((x :: b).getLast (by simp)) := by
  induction b generalizing a x F with
  | nil =>
    cases F with
    | zero => simp at hF
    | succ F => simp [rightmost, (h.link p a x [] e).2.2]
  | cons y b ih =>
    cases F with
    | zero => simp at hF
    | succ F =>
      simp only [rightmost, (h.link p a x (y :: b) e).2.2, List.head?_cons, Option.elim_some]
      rw [ih F (a ++ [x]) y (by rw [e]; simp) (by simpa using hF)]
      simp

theorem leftmost_spec {m kids} (h : Rep m kids) (F : ℕ) (p a x b) (e : kids p = a ++ x :: b) (hF : a.length < F) : leftmost F m x = .ok ((a ++ [x]).head (by simp)) := by
  induction a using List.reverseRecOn generalizing x b F with
  | nil =>
    cases F with
    | zero => simp at hF
    | succ F => simp [leftmost, (h.link p [] x b e).2.1]
  | append_singleton a y ih =>
    cases F with
    | zero => simp at hF
    | succ F =>
      simp only [leftmost, (h.link p (a ++ [y]) x b e).2.1, List.getLast?_append, List.getLast?_singleton, Option.some_or, Option.elim_some]
      rw [ih F y (x :: b) (by rw [e]; simp) (by simpa using hF)]
      congr 1
      cases a <;> simp

/-! ### `remove` -/

section
variable {m : Mem} {x : ℕ} (hl : (m x).left ≠ some x) (hr : (m x).right ≠ some x)

theorem removeParent_fields (m : Mem) (x y : ℕ) :
    (removeParent m x y).val = (m y).val ∧ (removeParent m x y).parent = (m y).parent ∧ (removeParent m x y).left = (m y).left ∧ (removeParent m x y).right = (m y).right ∧
    (removeParent m x y).rank = (if (m x).parent = some y then (m y).rank - 1 else (m y).rank) ∧
    (removeParent m x y).children = if (m x).parent = some y then (m x).left.or (m x).right else (m y).children := by
  unfold removeParent
  cases hp : (m x).parent with
  | none => simp
  | some p =>
    simp only [Option.elim_some, Option.some.injEq]
    have e : ∀ z, (setRank m p ((m p).rank - 1) z).left = (m z).left ∧ (setRank m p ((m p).rank - 1) z).right = (m z).right := by
      intro z; unfold setRank; by_cases hz : z = p
      · subst hz; simp
      · simp [Function.update_of_ne hz]
    rw [(e x).1, (e x).2]
    have e2 : ((m x).left.elim ((m x).right.elim none fun r => some r) fun l => some l) = (m x).left.or (m x).right := by
      cases (m x).left <;> cases (m x).right <;> rfl
    rw [e2]
    by_cases hy : y = p
    · subst hy; simp [setChildren, setRank]
    · have : ¬ p = y := fun e => hy e.symm
      simp [setChildren, setRank, Function.update_of_ne hy, this]

include hl hr
theorem remove_fields (y : ℕ) :
    (remove m x y).val = (m y).val ∧ (remove m x y).parent = (if y = x then none else (m y).parent) ∧
    (remove m x y).left = (if y = x then none else if (m x).right = some y then (m x).left else (m y).left) ∧
    (remove m x y).right = (if y = x then none else if (m x).left = some y then (m x).right else (m y).right) ∧
    (remove m x y).rank = (if (m x).parent = some y then (m y).rank - 1 else (m y).rank) ∧
    (remove m x y).children = if (m x).parent = some y then (m x).left.or (m x).right else (m y).children := by
  unfold remove
  have f1 := removeParent_fields m x
  generalize removeParent m x = m1 at f1 ⊢
  -- the left sibling
  have f2 : ∀ z, let m2 := (m1 x).left.elim m1 fun l => setRight m1 l (m1 x).right
      (m2 z).val = (m1 z).val ∧ (m2 z).parent = (m1 z).parent ∧ (m2 z).left = (m1 z).left ∧ (m2 z).right = (if (m1 x).left = some z then (m1 x).right else (m1 z).right) ∧
      (m2 z).rank = (m1 z).rank ∧ (m2 z).children = (m1 z).children := by
    intro z
    cases (m1 x).left with
    | none => simp
    | some l =>
      simp only [Option.elim_some, Option.some.injEq]
      by_cases hz : z = l
      · subst hz; simp [setRight]
      · have : ¬ l = z := fun e => hz e.symm
        simp [setRight, Function.update_of_ne hz, this]
  simp only [] at f2 ⊢
  generalize ((m1 x).left.elim m1 fun l => setRight m1 l (m1 x).right) = m2 at f2 ⊢
  have f3 : ∀ z, let m3 := (m2 x).right.elim m2 fun r => setLeft m2 r (m2 x).left
      (m3 z).val = (m2 z).val ∧ (m3 z).parent = (m2 z).parent ∧ (m3 z).right = (m2 z).right ∧ (m3 z).left = (if (m2 x).right = some z then (m2 x).left else (m2 z).left) ∧
      (m3 z).rank = (m2 z).rank ∧ (m3 z).children = (m2 z).children := by
    intro z
    cases (m2 x).right with
    | none => simp
    | some l =>
      simp only [Option.elim_some, Option.some.injEq]
      by_cases hz : z = l
      · subst hz; simp [setLeft]
      · have : ¬ l = z := fun e => hz e.symm
        simp [setLeft, Function.update_of_ne hz, this]
  simp only [] at f3 ⊢
  generalize ((m2 x).right.elim m2 fun r => setLeft m2 r (m2 x).left) = m3 at f3 ⊢
  obtain ⟨v1, p1, l1, r1, k1, c1⟩ := f1 y
  obtain ⟨v2, p2, l2, r2, k2, c2⟩ := f2 y
  obtain ⟨v3, p3, r3, l3, k3, c3⟩ := f3 y
  have hxr : (m2 x).right = (m x).right := by
    rw [(f2 x).2.2.2.1, (f1 x).2.2.1, if_neg hl, (f1 x).2.2.2.1]
  have hxl : (m2 x).left = (m x).left := by rw [(f2 x).2.2.1, (f1 x).2.2.1]
  rw [(f1 x).2.2.1, (f1 x).2.2.2.1] at r2
  rw [hxr, hxl] at l3
  by_cases hy : y = x
  · subst hy
    simp only [setParent, setRight, setLeft, Function.update_self, if_true]
    refine ⟨by rw [v3, v2, v1], trivial, trivial, trivial, by rw [k3, k2, k1], by rw [c3, c2, c1]⟩
  · simp only [setParent, setRight, setLeft, Function.update_of_ne hy, if_neg hy]
    refine ⟨by rw [v3, v2, v1], by rw [p3, p2, p1], by rw [l3, l2, l1], by rw [r3, r2, r1], by rw [k3, k2, k1], by rw [c3, c2, c1]⟩

end

/-- `remove` takes a node out of its list. -/
theorem remove_rep {m kids} (h : Rep m kids) {p a x b} (e : kids p = a ++ x :: b) :
    Rep (remove m x) (Function.update kids p (a ++ b)) ∧ (∀ y, (remove m x y).val = (m y).val) ∧
    (∀ y, (y ≠ x → Loose m kids y) → Loose (remove m x) (Function.update kids p (a ++ b)) y) := by
  have hnd := h.nodup p
  rw [e] at hnd
  have hxa : x ∉ a := fun hx => by
    rw [List.nodup_append] at hnd; exact hnd.2.2 x hx x (by simp) rfl
  have hxb : x ∉ b := (List.nodup_cons.mp (List.nodup_append.mp hnd).2.1).1
  have hab : ∀ y ∈ a, y ∉ b := fun y ha hb => (List.nodup_append.mp hnd).2.2 y ha y (by simp [hb]) rfl
  obtain ⟨hp, hl, hr⟩ := h.link p a x b e
  have hlx : (m x).left ≠ some x := fun c => hxa (List.mem_of_getLast? (hl ▸ c))
  have hrx : (m x).right ≠ some x := fun c => hxb (List.mem_of_head? (hr ▸ c))
  have F := remove_fields hlx hrx
  rw [hl, hr, hp] at F
  have hmem : ∀ y, a.getLast? = some y → y ∈ kids p := fun y hy => by rw [e]; exact List.mem_append_left _ (List.mem_of_getLast? hy)
  have hmem' : ∀ y, b.head? = some y → y ∈ kids p := fun y hy => by rw [e]; exact List.mem_append_right _ (List.mem_cons_of_mem _ (List.mem_of_head? hy))
  refine ⟨⟨?_, ?_, ?_, ?_⟩, fun y => (F y).1, ?_⟩
  · intro q
    by_cases hq : q = p
    · subst hq; rw [Function.update_self]
      rw [List.nodup_append] at hnd ⊢
      exact ⟨hnd.1, (List.nodup_cons.mp hnd.2.1).2, fun y ha z hb => hnd.2.2 y ha z (by simp [hb])⟩
    · rw [Function.update_of_ne hq]; exact h.nodup q
  · intro q c y d he
    by_cases hq : q = p
    · subst hq
      rw [Function.update_self] at he
      have hy : y ∈ a ++ b := by rw [he]; simp
      have hyx : y ≠ x := by rintro rfl; rcases List.mem_append.mp hy with h | h; exacts [hxa h, hxb h]
      rw [(F y).2.1, (F y).2.2.1, (F y).2.2.2.1, if_neg hyx, if_neg hyx, if_neg hyx]
      rcases List.append_eq_append_iff.mp he with ⟨a', h1, h2⟩ | ⟨c', h1, h2⟩
      · -- y in b
        obtain ⟨g1, g2, g3⟩ := h.link q (a ++ x :: a') y d (by rw [e, h2]; simp)
        have hya : a.getLast? ≠ some y := fun c => hab y (List.mem_of_getLast? c) (by rw [h2]; simp)
        rw [if_neg hya]
        refine ⟨g1, ?_, g3⟩
        rw [h1, h2]
        cases a' with
        | nil => simp
        | cons z a' =>
          have : z ≠ y := by
            rintro rfl
            rw [h2] at hnd
            simp [List.nodup_append] at hnd
          simp only [List.cons_append, List.head?_cons, Option.some.injEq, this, if_false, g2]
          simp [List.getLast?_append, List.getLast?_cons]
      · cases c' with
        | nil =>
          simp only [List.append_nil, List.nil_append] at h1 h2
          obtain ⟨g1, g2, g3⟩ := h.link q (a ++ [x]) y d (by rw [e, ← h2]; simp)
          have hya : a.getLast? ≠ some y := fun c => hab y (List.mem_of_getLast? c) (by rw [← h2]; simp)
          rw [if_neg hya]
          refine ⟨g1, ?_, g3⟩
          rw [← h2, ← h1]; simp
        | cons z c' =>
          simp only [List.cons_append, List.cons.injEq] at h2
          obtain ⟨rfl, h2⟩ := h2
          obtain ⟨g1, g2, g3⟩ := h.link q c y (c' ++ x :: b) (by rw [e, h1]; simp)
          have hyb : b.head? ≠ some y := fun c => hab y (by rw [h1]; simp) (List.mem_of_head? c)
          rw [if_neg hyb]
          refine ⟨g1, g2, ?_⟩
          rw [h1, h2]
          rcases List.eq_nil_or_concat c' with rfl | ⟨c'', z, rfl⟩
          · simp
          · have : z ≠ y := by
              rintro rfl
              rw [h1] at hnd
              simp [List.nodup_append] at hnd
            rw [if_neg, g3]
            · simp [List.head?_append]
            · simp [List.getLast?_append, List.getLast?_cons, this]
    · rw [Function.update_of_ne hq] at he
      have hy : y ∈ kids q := by rw [he]; simp
      have hyp : y ∉ kids p := fun hy' => hq (h.unique hy hy')
      have hyx : y ≠ x := by rintro rfl; exact hyp (by rw [e]; simp)
      obtain ⟨g1, g2, g3⟩ := h.link q c y d he
      rw [(F y).2.1, (F y).2.2.1, (F y).2.2.2.1, if_neg hyx, if_neg hyx, if_neg hyx, if_neg fun c => hyp (hmem' y c), if_neg fun c => hyp (hmem y c)]
      exact ⟨g1, g2, g3⟩
  · intro y
    rw [(F y).2.2.2.2.2]
    by_cases hq : p = some y
    · subst hq
      rw [Function.update_self, if_pos rfl]
      rcases List.eq_nil_or_concat a with rfl | ⟨a', z, rfl⟩
      · cases b with
        | nil => left; simp
        | cons z b => right; exact ⟨z, by simp, by simp⟩
      · right; exact ⟨z, by simp, by simp⟩
    · rw [Function.update_of_ne (Ne.symm hq), if_neg hq]
      exact h.child y
  · intro y
    rw [(F y).2.2.2.2.1]
    by_cases hq : p = some y
    · subst hq
      rw [Function.update_self, if_pos rfl, h.rank, e]
      simp
    · rw [Function.update_of_ne (Ne.symm hq), if_neg hq]
      exact h.rank y
  · intro y hlo hfree
    rw [(F y).2.1, (F y).2.2.1, (F y).2.2.2.1]
    by_cases hyx : y = x
    · simp [hyx]
    · have hy : ∀ q, y ∉ kids q := by
        intro q hq
        have := hfree q
        by_cases hqp : q = p
        · subst hqp
          rw [Function.update_self] at this
          rw [e] at hq
          simp only [List.mem_append, List.mem_cons] at hq this
          tauto
        · rw [Function.update_of_ne hqp] at this; exact this hq
      rw [if_neg hyx, if_neg hyx, if_neg hyx, if_neg fun c => hy p (hmem' y c), if_neg fun c => hy p (hmem y c)]
      exact hlo hyx hy

/-! ### `add_sibling` and `add_child` -/

theorem linkSibling_fields (m : Mem) (node new temp : ℕ) (h1 : temp ≠ new) (h2 : node ≠ new) (y : ℕ) :
    (linkSibling m node new temp y).val = (m y).val ∧ (linkSibling m node new temp y).parent = (if y = new then (m node).parent else (m y).parent) ∧
    (linkSibling m node new temp y).left = (if y = new then some temp else (m y).left) ∧
    (linkSibling m node new temp y).right = (if y = new then none else if y = temp then some new else (m y).right) ∧
    (linkSibling m node new temp y).rank = (if (m node).parent = some y then (m y).rank + 1 else (m y).rank) ∧
    (linkSibling m node new temp y).children = (m y).children := by
  unfold linkSibling
  have g : ∀ z, let m3 := setRight (setLeft (setRight m temp (some new)) new (some temp)) new none
      (m3 z).val = (m z).val ∧ (m3 z).parent = (m z).parent ∧ (m3 z).left = (if z = new then some temp else (m z).left) ∧
      (m3 z).right = (if z = new then none else if z = temp then some new else (m z).right) ∧ (m3 z).rank = (m z).rank ∧ (m3 z).children = (m z).children := by
    intro z
    by_cases hz : z = new
    · subst hz; simp [setRight, setLeft, Function.update_of_ne (Ne.symm h1)]
    · by_cases hz' : z = temp
      · subst hz'; simp [setRight, setLeft, Function.update_of_ne hz, hz]
      · simp [setRight, setLeft, Function.update_of_ne hz, Function.update_of_ne hz', hz, hz']
  simp only [] at g ⊢
  generalize setRight (setLeft (setRight m temp (some new)) new (some temp)) new none = m3 at g ⊢
  have hp : (setParent m3 new (m3 node).parent new).parent = (m node).parent := by simp [setParent, (g node).2.1]
  rw [hp]
  have g' : ∀ z, (setParent m3 new (m3 node).parent z).val = (m z).val ∧ (setParent m3 new (m3 node).parent z).parent = (if z = new then (m node).parent else (m z).parent) ∧
      (setParent m3 new (m3 node).parent z).left = (if z = new then some temp else (m z).left) ∧
      (setParent m3 new (m3 node).parent z).right = (if z = new then none else if z = temp then some new else (m z).right) ∧
      (setParent m3 new (m3 node).parent z).rank = (m z).rank ∧ (setParent m3 new (m3 node).parent z).children = (m z).children := by
    intro z
    obtain ⟨a1, a2, a3, a4, a5, a6⟩ := g z
    by_cases hz : z = new
    · subst hz; simp [setParent, a1, a3, a4, a5, a6, (g node).2.1]
    · simp [setParent, Function.update_of_ne hz, a1, a2, a3, a4, a5, a6, hz]
  generalize setParent m3 new (m3 node).parent = m4 at g' ⊢
  obtain ⟨a1, a2, a3, a4, a5, a6⟩ := g' y
  cases hq : (m node).parent with
  | none => rw [hq] at a2; simp [a1, a2, a3, a4, a5, a6]
  | some p =>
    rw [hq] at a2
    simp only [Option.elim_some, Option.some.injEq]
    by_cases hy : y = p
    · subst hy; simp [setRank, a1, a2, a3, a4, a5, a6]
    · have : ¬ p = y := fun e => hy e.symm
      simp [setRank, Function.update_of_ne hy, a1, a2, a3, a4, a5, a6, this]

/-- `add_sibling` puts a node at the end of a list. -/
theorem addSibling_rep {m kids} (h : Rep m kids) (F : ℕ) {p node new} (hn : node ∈ kids p) (hnew : ∀ q, new ∉ kids q) (hF : (kids p).length ≤ F) :
    ∃ m', addSibling F m node new = .ok m' ∧ Rep m' (Function.update kids p (kids p ++ [new])) ∧ (∀ y, (m' y).val = (m y).val) ∧
      (∀ y, (y ≠ new → Loose m kids y) → Loose m' (Function.update kids p (kids p ++ [new])) y) := by
  obtain ⟨a, b, e⟩ := List.append_of_mem hn
  have hr := rightmost_spec h F p a node b e (by rw [e] at hF; simp at hF; omega)
  set temp := (node :: b).getLast (by simp) with htemp
  refine ⟨linkSibling m node new temp, by simp only [addSibling, hr]; rfl, ?_⟩
  have hkl : ∃ c, kids p = c ++ [temp] := ⟨a ++ (node :: b).dropLast, by rw [e, List.append_assoc, htemp, List.dropLast_append_getLast]⟩
  obtain ⟨c, hc⟩ := hkl
  have htp : temp ∈ kids p := by rw [hc]; simp
  have h1 : temp ≠ new := fun c => hnew p (c ▸ htp)
  have h2 : node ≠ new := fun c => hnew p (c ▸ hn)
  have G := linkSibling_fields m node new temp h1 h2
  rw [h.parent hn] at G
  refine ⟨⟨?_, ?_, ?_, ?_⟩, fun y => (G y).1, ?_⟩
  · intro q
    by_cases hq : q = p
    · subst hq; rw [Function.update_self]
      exact List.nodup_append.mpr ⟨h.nodup q, by simp, fun y hy z hz => by
        simp only [List.mem_singleton] at hz; subst hz; rintro rfl; exact hnew q hy⟩
    · rw [Function.update_of_ne hq]; exact h.nodup q
  · intro q u y v he
    by_cases hq : q = p
    · subst hq
      rw [Function.update_self] at he
      rcases List.eq_nil_or_concat v with rfl | ⟨v', w, rfl⟩
      · obtain ⟨hu, hy⟩ := List.append_inj' he rfl
        simp only [List.cons.injEq, and_true] at hy
        subst hy
        rw [(G new).2.1, (G new).2.2.1, (G new).2.2.2.1, if_pos rfl, if_pos rfl, if_pos rfl, ← hu, hc]
        simp
      · have he' : kids q ++ [new] = (u ++ y :: v') ++ [w] := by rw [he]; simp
        obtain ⟨hu, hw⟩ := List.append_inj' he' rfl
        simp only [List.cons.injEq, and_true] at hw
        subst hw
        have hy : y ∈ kids q := by rw [hu]; simp
        have hyn : y ≠ new := by rintro rfl; exact hnew q hy
        obtain ⟨g1, g2, g3⟩ := h.link q u y v' hu
        rw [(G y).2.1, (G y).2.2.1, (G y).2.2.2.1, if_neg hyn, if_neg hyn, if_neg hyn]
        refine ⟨g1, g2, ?_⟩
        have hnd := h.nodup q
        rcases List.eq_nil_or_concat v' with rfl | ⟨v'', z, rfl⟩
        · have : y = temp := by
            have := hc.symm.trans hu
            exact (by simpa using (List.append_inj' this rfl).2 : temp = y).symm
          simp [this]
        · have hz : temp = z := by
            have : c ++ [temp] = (u ++ y :: v'') ++ [z] := by rw [← hc, hu]; simp
            simpa using (List.append_inj' this rfl).2
          have : y ≠ temp := by
            rw [hz]; rintro rfl
            rw [hu] at hnd
            simp [List.nodup_append] at hnd
          rw [if_neg this, g3]
          simp [List.head?_append]
    · rw [Function.update_of_ne hq] at he
      have hy : y ∈ kids q := by rw [he]; simp
      have hyp : y ∉ kids p := fun hy' => hq (h.unique hy hy')
      have hyn : y ≠ new := by rintro rfl; exact hnew q hy
      have hyt : y ≠ temp := by rintro rfl; exact hyp htp
      rw [(G y).2.1, (G y).2.2.1, (G y).2.2.2.1, if_neg hyn, if_neg hyn, if_neg hyn, if_neg hyt]
      exact h.link q u y v he
  · intro y
    rw [(G y).2.2.2.2.2]
    by_cases hq : p = some y
    · subst hq
      rw [Function.update_self]
      rcases h.child y with ⟨h0, -⟩ | ⟨c, hc, hc'⟩
      · rw [h0] at hn; simp at hn
      · exact .inr ⟨c, by simp [hc], hc'⟩
    · rw [Function.update_of_ne (Ne.symm hq)]; exact h.child y
  · intro y
    rw [(G y).2.2.2.2.1]
    by_cases hq : p = some y
    · subst hq
      rw [Function.update_self, if_pos rfl, h.rank]; simp
    · rw [Function.update_of_ne (Ne.symm hq), if_neg hq]; exact h.rank y
  · intro y hlo hfree
    have hyn : y ≠ new := by rintro rfl; exact hfree p (by simp)
    have hy : ∀ q, y ∉ kids q := by
      intro q hq
      by_cases hqp : q = p
      · subst hqp; exact hfree q (by rw [Function.update_self]; simp [hq])
      · exact hfree q (by rw [Function.update_of_ne hqp]; exact hq)
    have hyt : y ≠ temp := by rintro rfl; exact hy p htp
    rw [(G y).2.1, (G y).2.2.1, (G y).2.2.2.1, if_neg hyn, if_neg hyn, if_neg hyn, if_neg hyt]
    exact hlo hyn hy

/-- A node in no list may point to anything. -/
theorem rep_setParent {m kids} (h : Rep m kids) {new} (hnew : ∀ q, new ∉ kids q) (p : Option ℕ) : Rep (setParent m new p) kids := by
  have g : ∀ y, (setParent m new p y).rank = (m y).rank ∧ (setParent m new p y).children = (m y).children ∧ (y ≠ new → setParent m new p y = m y) := by
    intro y; by_cases hy : y = new
    · subst hy; simp [setParent]
    · simp [setParent, Function.update_of_ne hy]
  refine ⟨h.nodup, fun q a x b e => ?_, fun x => by rw [(g x).2.1]; exact h.child x, fun x => by rw [(g x).1]; exact h.rank x⟩
  rw [(g x).2.2 (by rintro rfl; exact hnew q (by rw [e]; simp))]
  exact h.link q a x b e

/-- `add_child` puts a node at the end of the list of children. -/
theorem addChild_rep {m kids} (h : Rep m kids) (F : ℕ) {node new} (hnew : ∀ q, new ∉ kids q) (hF : (kids (some node)).length ≤ F) :
    ∃ m', addChild F m node new = .ok m' ∧ Rep m' (Function.update kids (some node) (kids (some node) ++ [new])) ∧ (∀ y, (m' y).val = (m y).val) ∧
      (∀ y, (y ≠ new → Loose m kids y) → Loose m' (Function.update kids (some node) (kids (some node) ++ [new])) y) := by
  have h1 := rep_setParent h hnew (some node)
  have hv : ∀ y, (setParent m new (some node) y).val = (m y).val ∧ (y ≠ new → setParent m new (some node) y = m y) := by
    intro y; by_cases hy : y = new
    · subst hy; simp [setParent]
    · simp [setParent, Function.update_of_ne hy]
  unfold addChild
  rcases h1.child node with ⟨h0, hc⟩ | ⟨c, hc, hc'⟩
  · simp only [hc, Option.elim_none]
    refine ⟨_, rfl, ?_⟩
    rw [h0, List.nil_append]
    have G : ∀ y, let m' := setRank (setLeft (setRight (setChildren (setParent m new (some node)) node (some new)) new none) new none) node 1
        (m' y).val = (m y).val ∧ (m' y).parent = (if y = new then some node else (m y).parent) ∧ (m' y).left = (if y = new then none else (m y).left) ∧
        (m' y).right = (if y = new then none else (m y).right) ∧ (m' y).rank = (if y = node then 1 else (m y).rank) ∧
        (m' y).children = if y = node then some new else (m y).children := by
      intro y
      clear hc h0 hv h1
      by_cases h1 : y = node <;> by_cases h2 : y = new
      · subst h1; subst h2; simp [setRank, setLeft, setRight, setChildren, setParent]
      · subst h1; simp [setRank, setLeft, setRight, setChildren, setParent, Function.update_of_ne h2, h2]
      · subst h2; simp [setRank, setLeft, setRight, setChildren, setParent, Function.update_of_ne h1, h1]
      · simp [setRank, setLeft, setRight, setChildren, setParent, Function.update_of_ne h1, Function.update_of_ne h2, h1, h2]
    simp only [] at G
    refine ⟨⟨?_, ?_, ?_, ?_⟩, fun y => (G y).1, ?_⟩
    · intro q
      by_cases hq : q = some node
      · subst hq; rw [Function.update_self]; simp
      · rw [Function.update_of_ne hq]; exact h.nodup q
    · intro q a x b e
      by_cases hq : q = some node
      · subst hq; rw [Function.update_self] at e
        have hlen := congrArg List.length e
        simp only [List.length_append, List.length_cons, List.length_nil] at hlen
        obtain rfl := List.length_eq_zero_iff.mp (show a.length = 0 by omega)
        obtain rfl := List.length_eq_zero_iff.mp (show b.length = 0 by omega)
        simp only [List.nil_append, List.cons.injEq, and_true] at e
        subst e
        rw [(G new).2.1, (G new).2.2.1, (G new).2.2.2.1]
        simp
      · rw [Function.update_of_ne hq] at e
        have hx : x ≠ new := by rintro rfl; exact hnew q (by rw [e]; simp)
        rw [(G x).2.1, (G x).2.2.1, (G x).2.2.2.1, if_neg hx, if_neg hx, if_neg hx]
        exact h.link q a x b e
    · intro x
      rw [(G x).2.2.2.2.2]
      by_cases hx : x = node
      · subst hx; rw [Function.update_self]; right; exact ⟨new, by simp, by simp⟩
      · rw [Function.update_of_ne (by simpa using hx), if_neg hx]; exact h.child x
    · intro x
      rw [(G x).2.2.2.2.1]
      by_cases hx : x = node
      · subst hx; rw [Function.update_self]; simp
      · rw [Function.update_of_ne (by simpa using hx), if_neg hx]; exact h.rank x
    · intro y hlo hfree
      have hyn : y ≠ new := by rintro rfl; exact hfree (some node) (by simp)
      have hy : ∀ q, y ∉ kids q := by
        intro q hq
        by_cases hqp : q = some node
        · subst hqp; rw [h0] at hq; simp at hq
        · exact hfree q (by rw [Function.update_of_ne hqp]; exact hq)
      rw [(G y).2.1, (G y).2.2.1, (G y).2.2.2.1, if_neg hyn, if_neg hyn, if_neg hyn]
      exact hlo hyn hy
  · simp only [hc', Option.elim_some]
    obtain ⟨m', e, r, v, lo⟩ := addSibling_rep h1 F hc hnew hF
    refine ⟨m', e, r, fun y => by rw [v, (hv y).1], fun y hlo => lo y fun hy => ?_⟩
    intro hf
    rw [(hv y).2 hy]
    exact hlo hy hf

end Kwant.Fib
