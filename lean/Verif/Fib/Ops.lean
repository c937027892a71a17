import Verif.Fib.Heap

/-! C141, C142: insert, decrease, remove the minimum. -/

set_option linter.unusedSectionVars false

namespace Kwant.Fib

/-- `remove` of a child and `add_sibling` to the roots. -/
theorem cut_rep {m kids} (r : Rep m kids) (F : ℕ) {q a x b mn} (e : kids (some q) = a ++ x :: b) (hmn : mn ∈ kids none) (hF : (kids none).length ≤ F) :
    ∃ m', addSibling F (remove m x) mn x = .ok m' ∧ Rep m' (toRoot kids q (a ++ b) x) ∧ (∀ y, (m' y).val = (m y).val) ∧
      (∀ y, Loose m kids y → Loose m' (toRoot kids q (a ++ b) x) y) := by
  obtain ⟨r1, v1, l1⟩ := remove_rep r e
  have hnd := r.nodup (some q)
  rw [e] at hnd
  have hx : ∀ p, x ∉ Function.update kids (some q) (a ++ b) p := by
    intro p hp
    by_cases hp0 : p = some q
    · subst hp0
      rw [Function.update_self] at hp
      simp only [List.nodup_append, List.nodup_cons, List.mem_append] at hnd hp
      rcases hp with hp | hp
      · exact hnd.2.2 x hp x (by simp) rfl
      · exact hnd.2.1.1 hp
    · rw [Function.update_of_ne hp0] at hp
      exact hp0 (r.unique hp (by rw [e]; simp))
  have hk : Function.update kids (some q) (a ++ b) none = kids none := by rw [Function.update_of_ne (by simp)]
  obtain ⟨m', e', r2, v2, l2⟩ := addSibling_rep r1 F (p := none) (node := mn) (new := x) (by rw [hk]; exact hmn) hx (by rw [hk]; exact hF)
  rw [hk] at r2 l2
  exact ⟨m', e', r2, fun y => by rw [v2, v1], fun y hy => l2 y fun _ => l1 y fun _ => hy⟩

theorem not_mem_rest {m kids} (r : Rep m kids) {p a x b} (e : kids p = a ++ x :: b) : x ∉ a ++ b := by
  have hnd := r.nodup p
  rw [e] at hnd
  simp only [List.nodup_append, List.nodup_cons, List.mem_append] at hnd ⊢
  rintro (h | h)
  · exact hnd.2.2 x h x (by simp) rfl
  · exact hnd.2.1.1 h

/-- The children of the minimum become roots. -/
theorem moveKids_spec (F N : ℕ) (hFN : N ≤ F) (mn : ℕ) (f : ℕ) : ∀ (m : Mem) (kids : Option ℕ → List ℕ),
    Rep m kids → Forest kids (fun y => (m y).val) N → mn ∈ kids none → (kids (some mn)).length < f →
    ∃ m' kids', moveKids F mn f m (kids (some mn)).head? = .ok m' ∧ Rep m' kids' ∧ Forest kids' (fun y => (m' y).val) N ∧ kids' (some mn) = [] ∧ mn ∈ kids' none ∧
      (∀ y, (m' y).val = (m y).val) ∧ (∀ y, (∃ p, y ∈ kids' p) ↔ ∃ p, y ∈ kids p) ∧ ∀ y, Loose m kids y → Loose m' kids' y := by
  induction f with
  | zero => intro m kids _ _ _ h; omega
  | succ f ih =>
    intro m kids r fo hmn hf
    cases hk : kids (some mn) with
    | nil => exact ⟨m, kids, rfl, r, fo, hk, hmn, fun _ => rfl, fun _ => Iff.rfl, fun _ h => h⟩
    | cons t b =>
      have e : kids (some mn) = [] ++ t :: b := hk
      simp only [moveKids, List.head?_cons, Option.elim_some]
      obtain ⟨m1, e1, r1, v1, l1⟩ := cut_rep r F e hmn ((kids_le r fo none).trans hFN)
      have hright : (m t).right = b.head? := (r.link (some mn) [] t b e).2.2
      have hval : (fun y => (m1 y).val) = fun y => (m y).val := funext v1
      have fo1 : Forest (toRoot kids mn ([] ++ b) t) (fun y => (m1 y).val) N := by
        rw [hval]
        exact forest_toRoot fo e _ (fun p y hy _ => fo.order p y hy) (fun p _ hp => fo.order p t hp) (not_mem_rest r e)
      have hk1 : toRoot kids mn ([] ++ b) t (some mn) = b := by unfold toRoot; rw [Function.update_of_ne (by simp), Function.update_self]; rfl
      obtain ⟨m2, kids2, e2, r2, fo2, k2, mn2, v2, mem2, l2⟩ := ih m1 _ r1 fo1 (by unfold toRoot; rw [Function.update_self]; simp [hmn]) (by rw [hk1]; rw [hk] at hf; simpa using hf)
      rw [hk1] at e2
      refine ⟨m2, kids2, ?_, r2, fo2, k2, mn2, fun y => by rw [v2, v1], fun y => by rw [mem2, members_toRoot e], fun y hy => l2 y (l1 y hy)⟩
      rw [e1, hright]
      exact e2

theorem rep_setChildren_none {m kids} (r : Rep m kids) {x} (hx : kids (some x) = []) : setChildren m x none = m := by
  funext y
  unfold setChildren
  by_cases hy : y = x
  · subst hy
    rw [Function.update_self]
    rcases r.child y with ⟨-, h⟩ | ⟨c, h, -⟩
    · rw [← h]
    · rw [hx] at h; simp at h
  · rw [Function.update_of_ne hy]

/-- The rest of `remove_min`, for a minimum without children. -/
theorem chooseRoot_spec (F N : ℕ) (hFN : N < F) (mn : ℕ) (m : Mem) (kids : Option ℕ → List ℕ) (r : Rep m kids) (lo : ∀ y, Loose m kids y) (fo : Forest kids (fun y => (m y).val) N) (hmn : mn ∈ kids none)
    (hk : kids (some mn) = []) :
    (chooseRoot F m mn = .error .overflow ∧ 200 < N) ∨ ∃ h' kids', chooseRoot F m mn = .ok (h', mn) ∧ HeapOk h' kids' N ∧ (∀ y, (h'.mem y).val = (m y).val) ∧
      (∀ y, (∃ p, y ∈ kids' p) ↔ y ≠ mn ∧ ∃ p, y ∈ kids p) ∧ ∀ x ∈ kids' none, ∀ y ∈ kids' none, (h'.mem x).rank = (h'.mem y).rank → x = y := by
  obtain ⟨a, b, e⟩ := List.append_of_mem hmn
  have hlen : (kids none).length ≤ N := kids_le r fo none
  have hlenab : a.length + b.length + 1 ≤ N := by rw [e] at hlen; simp at hlen; omega
  have hl := leftmost_spec r F none a mn b e (by omega)
  unfold chooseRoot
  rw [hl]
  change (_ ∨ _)
  simp only [Except.bind]
  obtain ⟨r1, v1, l1⟩ := remove_rep r e
  have hmn0 := not_mem_rest r e
  have hmem : ∀ y, (∃ p, y ∈ Function.update kids none (a ++ b) p) ↔ y ≠ mn ∧ ∃ p, y ∈ kids p := by
    intro y
    constructor
    · rintro ⟨p, hp⟩
      by_cases hp0 : p = none
      · subst hp0
        rw [Function.update_self] at hp
        refine ⟨fun c => hmn0 (c ▸ hp), none, ?_⟩
        rw [e]; simp at hp ⊢; tauto
      · rw [Function.update_of_ne hp0] at hp
        refine ⟨?_, p, hp⟩
        rintro rfl
        exact hp0 (r.unique hp hmn)
    · rintro ⟨hy, p, hp⟩
      by_cases hp0 : p = none
      · subst hp0
        refine ⟨none, ?_⟩
        rw [Function.update_self]
        rw [e] at hp; simp at hp ⊢; tauto
      · exact ⟨p, by rw [Function.update_of_ne hp0]; exact hp⟩
  have fo1 : Forest (Function.update kids none (a ++ b)) (fun y => (remove m mn y).val) N := by
    have hs : ∀ p, Function.update kids none (a ++ b) (some p) = kids (some p) := fun p => by rw [Function.update_of_ne (by simp)]
    refine ⟨?_, ?_, ?_, ?_, ?_⟩
    · intro p y hy
      obtain ⟨-, p', hp'⟩ := (hmem y).mp ⟨p, hy⟩
      exact fo.lt p' y hp'
    · intro x hx
      rw [hs] at hx
      exact (hmem x).mpr ⟨by rintro rfl; exact hx hk, fo.own x hx⟩
    · intro p y hy
      rw [hs] at hy
      rw [v1, v1]
      exact fo.order p y hy
    · obtain ⟨ht, hht⟩ := fo.height
      exact ⟨ht, fun p y hy => hht p y (by rw [← hs]; exact hy)⟩
    · intro x hx
      rw [hs] at hx ⊢
      exact fo.half x hx
  have hfin : ∀ t R, a ++ b = t :: R → (finishMin F m mn t = .error .overflow ∧ 200 < N) ∨ ∃ h' kids', finishMin F m mn t = .ok (h', mn) ∧ HeapOk h' kids' N ∧ (∀ y, (h'.mem y).val = (m y).val) ∧
      (∀ y, (∃ p, y ∈ kids' p) ↔ y ≠ mn ∧ ∃ p, y ∈ kids p) ∧ ∀ x ∈ kids' none, ∀ y ∈ kids' none, (h'.mem x).rank = (h'.mem y).rank → x = y := by
    intro t R hR
    have := relink_spec F N hFN.le mn (fo.lt none mn hmn) F (remove m mn) (fun _ => none) t (Function.update kids none (a ++ b)) [] (t :: R) r1 fo1
      (fun p hp => ((hmem mn).mp ⟨p, hp⟩).1 rfl) (by rw [Function.update_self, hR]; rfl) (.inr ⟨rfl, rfl⟩) (by simp) (by simp) (by simp)
      (by have := congrArg List.length hR; simp at this ⊢; omega)
    unfold finishMin
    rw [List.head?_cons] at this
    rcases this with ⟨e1, hN⟩ | ⟨m', mn', kids', e1, r2, fo2, v2, mem2, lo2, a1, a2, a3⟩
    · left; rw [e1]; exact ⟨rfl, hN⟩
    · right
      rw [e1]
      refine ⟨⟨m', some mn'⟩, kids', rfl, ⟨r2, fun y => lo2 y (l1 y fun _ => lo y), fo2, .inr ⟨mn', a1, rfl, a2⟩⟩, fun y => by rw [v2, v1], fun y => by rw [mem2, hmem], a3⟩
  cases a with
  | nil =>
    simp only [List.nil_append, List.head_cons, if_true]
    have hright : (m mn).right = b.head? := (r.link none [] mn b e).2.2
    rw [hright]
    cases b with
    | nil =>
      right
      simp only [List.head?_nil, Option.elim_none]
      refine ⟨⟨m, none⟩, Function.update kids none ([] ++ []), rfl, ?_, fun _ => rfl, hmem, by simp⟩
      have hp := r.parent hmn
      obtain ⟨-, hle, hri⟩ := r.link none [] mn [] e
      have hz : remove m mn = m := by
        funext y
        have hF := remove_fields (m := m) (x := mn) (by rw [hle]; simp) (by rw [hri]; simp) y
        rw [hp, hle, hri] at hF
        by_cases hy : y = mn
        · subst hy
          obtain ⟨f1, f2, f3, f4, f5, f6⟩ := hF
          simp only [if_true, List.getLast?_nil, List.head?_nil, reduceCtorEq, if_false] at f2 f3 f4 f5 f6
          rw [← hp] at f2
          simp only [List.getLast?_nil, List.head?_nil] at hle hri
          rw [← hle] at f3
          rw [← hri] at f4
          cases h1 : remove m y y; cases h2 : m y
          simp_all
        · obtain ⟨f1, f2, f3, f4, f5, f6⟩ := hF
          simp only [if_neg hy, List.getLast?_nil, List.head?_nil, reduceCtorEq, if_false] at f2 f3 f4 f5 f6
          cases h1 : remove m mn y; cases h2 : m y
          simp_all
      rw [hz] at r1 fo1 l1
      exact ⟨r1, fun y => l1 y fun _ => lo y, fo1, .inl ⟨rfl, by rw [Function.update_self]; rfl⟩⟩
    | cons t R =>
      simp only [List.head?_cons, Option.elim_some]
      exact hfin t R rfl
  | cons t a =>
    simp only [List.cons_append, List.head_cons]
    have : t ≠ mn := by rintro rfl; exact hmn0 (by simp)
    simp only [this, if_false]
    exact hfin t (a ++ b) rfl

/-- `remove_min`. -/
theorem removeMin_ok (F N : ℕ) (hFN : N < F) (h : Heap) (kids : Option ℕ → List ℕ) (hh : HeapOk h kids N) (x : ℕ) (hx : ∃ p, x ∈ kids p) :
    (removeMin F h = .error .overflow ∧ 200 < N) ∨ ∃ h' kids' out, removeMin F h = .ok (h', out) ∧ HeapOk h' kids' N ∧ (∀ y, (h'.mem y).val = (h.mem y).val) ∧
      (∃ p, out ∈ kids p) ∧ (∀ y, (∃ p, y ∈ kids p) → (h.mem out).val ≤ (h.mem y).val) ∧ (∀ y, (∃ p, y ∈ kids' p) ↔ y ≠ out ∧ ∃ p, y ∈ kids p) ∧
      ∀ x ∈ kids' none, ∀ y ∈ kids' none, (h'.mem x).rank = (h'.mem y).rank → x = y := by
  rcases hh.min with ⟨-, h0⟩ | ⟨mn, hmn, hm, hmin⟩
  · obtain ⟨r, hr, -⟩ := hh.forest.root x hx
    rw [h0] at hr; simp at hr
  · have hall : ∀ y, (∃ p, y ∈ kids p) → (h.mem mn).val ≤ (h.mem y).val := by
      intro y hy
      obtain ⟨r, hr, hr'⟩ := hh.forest.root y hy
      exact (hmin r hr).trans hr'
    unfold removeMin
    rw [hm, Option.elim_some]
    rcases hh.rep.child mn with ⟨h0, hc⟩ | ⟨c, hc, hc'⟩
    · rw [hc, Option.elim_none]
      rcases chooseRoot_spec F N hFN mn h.mem kids hh.rep hh.loose hh.forest hmn h0 with h1 | ⟨h', kids', e, ok, v, mem, d⟩
      · exact .inl h1
      · exact .inr ⟨h', kids', mn, e, ok, v, ⟨none, hmn⟩, hall, mem, d⟩
    · rw [hc', Option.elim_some]
      obtain ⟨a, b, e⟩ := List.append_of_mem hc
      have hlen := kids_le hh.rep hh.forest (some mn)
      have hl := leftmost_spec hh.rep F (some mn) a c b e (by rw [e] at hlen; simp at hlen; omega)
      rw [hl]
      have hhead : some ((a ++ [c]).head (by simp)) = (kids (some mn)).head? := by
        rw [e]; cases a <;> rfl
      simp only [Except.bind]
      obtain ⟨m', kids', e2, r2, fo2, k2, mn2, v2, mem2, l2⟩ := moveKids_spec F N hFN.le mn F h.mem kids hh.rep hh.forest hmn (by omega)
      rw [hhead, e2]
      simp only [rep_setChildren_none r2 k2]
      rcases chooseRoot_spec F N hFN mn m' kids' r2 (fun y => l2 y (hh.loose y)) fo2 mn2 k2 with h1 | ⟨h', kids'', e, ok, v, mem, d⟩
      · exact .inl h1
      · exact .inr ⟨h', kids'', mn, e, ok, fun y => by rw [v, v2], ⟨none, hmn⟩, hall, fun y => by rw [mem, mem2], d⟩

/-- `insert_node`. -/
theorem insert_ok (F N : ℕ) (hFN : N < F) (h : Heap) (kids : Option ℕ → List ℕ) (hh : HeapOk h kids N) (x : ℕ) (hx : ∀ p, x ∉ kids p) (hxN : x < N) :
    ∃ h' kids', insertNode F h x = .ok h' ∧ HeapOk h' kids' N ∧ (∀ y, (h'.mem y).val = (h.mem y).val) ∧ ∀ y, (∃ p, y ∈ kids' p) ↔ y = x ∨ ∃ p, y ∈ kids p := by
  have hmem : ∀ y, (∃ p, y ∈ Function.update kids none (kids none ++ [x]) p) ↔ y = x ∨ ∃ p, y ∈ kids p := by
    intro y
    constructor
    · rintro ⟨p, hp⟩
      by_cases hp0 : p = none
      · subst hp0; rw [Function.update_self] at hp
        rcases List.mem_append.mp hp with hp | hp
        · exact .inr ⟨none, hp⟩
        · exact .inl (by simpa using hp)
      · rw [Function.update_of_ne hp0] at hp; exact .inr ⟨p, hp⟩
    · rintro (rfl | ⟨p, hp⟩)
      · exact ⟨none, by rw [Function.update_self]; simp⟩
      · by_cases hp0 : p = none
        · subst hp0; exact ⟨none, by rw [Function.update_self]; simp [hp]⟩
        · exact ⟨p, by rw [Function.update_of_ne hp0]; exact hp⟩
  have hs : ∀ p, Function.update kids none (kids none ++ [x]) (some p) = kids (some p) := fun p => by rw [Function.update_of_ne (by simp)]
  have hfo : ∀ val : ℕ → ℝ, (∀ y, val y = (h.mem y).val) → Forest (Function.update kids none (kids none ++ [x])) val N := by
    intro val hv
    refine ⟨?_, ?_, ?_, ?_, ?_⟩
    · intro p y hy
      rcases (hmem y).mp ⟨p, hy⟩ with rfl | ⟨p', hp'⟩
      · exact hxN
      · exact hh.forest.lt p' y hp'
    · intro y hy
      rw [hs] at hy
      exact (hmem y).mpr (.inr (hh.forest.own y hy))
    · intro p y hy
      rw [hs] at hy
      rw [hv, hv]
      exact hh.forest.order p y hy
    · obtain ⟨ht, hht⟩ := hh.forest.height
      exact ⟨ht, fun p y hy => hht p y (by rw [← hs]; exact hy)⟩
    · intro y hy
      rw [hs] at hy ⊢
      exact hh.forest.half y hy
  unfold insertNode
  rcases hh.min with ⟨hm, h0⟩ | ⟨mn, hmn, hm, hmin⟩
  · rw [hm, Option.elim_none]
    refine ⟨_, Function.update kids none (kids none ++ [x]), rfl, ?_, fun _ => rfl, hmem⟩
    obtain ⟨lp, ll, lr⟩ := hh.loose x hx
    refine ⟨⟨?_, ?_, ?_, ?_⟩, ?_, hfo _ fun _ => rfl, ?_⟩
    · intro p
      by_cases hp0 : p = none
      · subst hp0; rw [Function.update_self, h0]; simp
      · rw [Function.update_of_ne hp0]; exact hh.rep.nodup p
    · intro p a y b e
      by_cases hp0 : p = none
      · subst hp0
        rw [Function.update_self, h0, List.nil_append] at e
        have hlen := congrArg List.length e
        simp only [List.length_append, List.length_cons, List.length_nil] at hlen
        obtain rfl := List.length_eq_zero_iff.mp (show a.length = 0 by omega)
        obtain rfl := List.length_eq_zero_iff.mp (show b.length = 0 by omega)
        simp only [List.nil_append, List.cons.injEq, and_true] at e
        subst e
        exact ⟨lp, ll, lr⟩
      · rw [Function.update_of_ne hp0] at e; exact hh.rep.link p a y b e
    · intro y; rw [hs]; exact hh.rep.child y
    · intro y; rw [hs]; exact hh.rep.rank y
    · intro y hy
      exact hh.loose y fun p hp => by
        obtain ⟨p', hp'⟩ := (hmem y).mpr (.inr ⟨p, hp⟩)
        exact hy p' hp'
    · right
      refine ⟨x, by rw [Function.update_self]; simp, rfl, ?_⟩
      rw [Function.update_self, h0]
      intro y hy
      simp at hy
      rw [hy]
  · rw [hm, Option.elim_some]
    obtain ⟨m', e, r, v, l⟩ := addSibling_rep hh.rep F hmn hx ((kids_le hh.rep hh.forest none).trans hFN.le)
    rw [e]
    refine ⟨_, _, rfl, ⟨r, fun y => l y fun _ => hh.loose y, hfo _ v, ?_⟩, v, hmem⟩
    right
    simp only
    rw [Function.update_self]
    by_cases hlt : (m' x).val < (m' mn).val
    · rw [if_pos hlt]
      refine ⟨x, by simp, rfl, fun y hy => ?_⟩
      rcases List.mem_append.mp hy with hy | hy
      · refine hlt.le.trans ?_
        rw [v, v]; exact hmin y hy
      · simp only [List.mem_singleton] at hy; rw [hy]
    · rw [if_neg hlt]
      refine ⟨mn, by simp [hmn], rfl, fun y hy => ?_⟩
      rcases List.mem_append.mp hy with hy | hy
      · rw [v, v]; exact hmin y hy
      · simp only [List.mem_singleton] at hy; rw [hy]; exact not_lt.mp hlt

theorem setVal_fields (m : Mem) (x : ℕ) (v : ℝ) (y : ℕ) : (setVal m x v y).val = Function.update (fun z => (m z).val) x v y ∧ (setVal m x v y).parent = (m y).parent ∧ (setVal m x v y).left = (m y).left ∧
    (setVal m x v y).right = (m y).right ∧ (setVal m x v y).rank = (m y).rank ∧ (setVal m x v y).children = (m y).children := by
  unfold setVal
  by_cases hy : y = x
  · subst hy; simp
  · simp [Function.update_of_ne hy]

theorem rep_setVal {m kids} (r : Rep m kids) (x : ℕ) (v : ℝ) : Rep (setVal m x v) kids := by
  have f := setVal_fields m x v
  refine ⟨r.nodup, fun p a y b e => ?_, fun y => ?_, fun y => ?_⟩
  · rw [(f y).2.1, (f y).2.2.1, (f y).2.2.2.1]; exact r.link p a y b e
  · rw [(f y).2.2.2.2.2]; exact r.child y
  · rw [(f y).2.2.2.2.1]; exact r.rank y

theorem loose_setVal {m kids} (x : ℕ) (v : ℝ) (y : ℕ) (h : Loose m kids y) : Loose (setVal m x v) kids y := by
  have f := setVal_fields m x v y
  intro hy
  rw [f.2.1, f.2.2.1, f.2.2.2.1]; exact h hy

/-- Assigning a value to a node that is not in the heap. -/
theorem setVal_ok (N : ℕ) (h : Heap) (kids : Option ℕ → List ℕ) (hh : HeapOk h kids N) (x : ℕ) (hx : ∀ p, x ∉ kids p) (v : ℝ) : HeapOk ⟨setVal h.mem x v, h.min⟩ kids N := by
  have f := setVal_fields h.mem x v
  have hne : ∀ p, ∀ y ∈ kids p, (setVal h.mem x v y).val = (h.mem y).val := by
    intro p y hy
    rw [(f y).1, Function.update_of_ne]
    rintro rfl
    exact hx p hy
  refine ⟨rep_setVal hh.rep x v, fun y => loose_setVal x v y (hh.loose y), ⟨hh.forest.lt, hh.forest.own, ?_, hh.forest.height, hh.forest.half⟩, ?_⟩
  · intro p y hy
    obtain ⟨q, hq⟩ := hh.forest.own p (List.ne_nil_of_mem hy)
    simp only [hne _ y hy, hne q p hq]
    exact hh.forest.order p y hy
  · rcases hh.min with h0 | ⟨mn, hmn, hm, hmin⟩
    · exact .inl h0
    · exact .inr ⟨mn, hmn, hm, fun y hy => by simp only [hne _ mn hmn, hne _ y hy]; exact hmin y hy⟩

/-- `decrease_val`. -/
theorem decrease_ok (F N : ℕ) (hFN : N < F) (h : Heap) (kids : Option ℕ → List ℕ) (hh : HeapOk h kids N) (x : ℕ) (hx : ∃ p, x ∈ kids p) (v : ℝ) (hv : v ≤ (h.mem x).val) :
    ∃ h' kids', decreaseVal F h x v = .ok h' ∧ HeapOk h' kids' N ∧ (∀ y, (h'.mem y).val = if y = x then v else (h.mem y).val) ∧ ∀ y, (∃ p, y ∈ kids' p) ↔ ∃ p, y ∈ kids p := by
  obtain ⟨p, hp⟩ := hx
  have f := setVal_fields h.mem x v
  have hval : ∀ y, (setVal h.mem x v y).val = if y = x then v else (h.mem y).val := by
    intro y
    rw [(f y).1]
    by_cases hy : y = x
    · subst hy; simp
    · simp [hy]
  have hle : ∀ y, (setVal h.mem x v y).val ≤ (h.mem y).val := by
    intro y; rw [hval]; split
    · next e => rw [e]; exact hv
    · exact le_refl _
  rcases hh.min with ⟨-, h0⟩ | ⟨mn, hmn, hm, hmin⟩
  · obtain ⟨r, hr, -⟩ := hh.forest.root x ⟨p, hp⟩
    rw [h0] at hr; simp at hr
  have r1 := rep_setVal hh.rep x v
  have lo1 := fun y => loose_setVal (kids := kids) x v y (hh.loose y)
  have hpar : (setVal h.mem x v x).parent = p := r1.parent hp
  -- order among the children of other nodes than `x`, and below `x`
  have hord : ∀ q, ∀ y ∈ kids (some q), y ≠ x → (setVal h.mem x v q).val ≤ (setVal h.mem x v y).val := by
    intro q y hy hyx
    rw [hval y, if_neg hyx]
    exact (hle q).trans (hh.forest.order q y hy)
  unfold decreaseVal
  simp only [hpar]
  -- nothing is cut
  have keep : (∀ q, x ∈ kids (some q) → (setVal h.mem x v q).val ≤ (setVal h.mem x v x).val) → ((∃ q, p = some q) → (h.mem mn).val ≤ v) →
      ∃ h' kids', lowerMin ⟨setVal h.mem x v, h.min⟩ x = .ok h' ∧ HeapOk h' kids' N ∧ (∀ y, (h'.mem y).val = if y = x then v else (h.mem y).val) ∧ ∀ y, (∃ p, y ∈ kids' p) ↔ ∃ p, y ∈ kids p := by
    intro hq hroot
    unfold lowerMin
    simp only [hm, Option.elim_some]
    refine ⟨_, kids, rfl, ⟨r1, lo1, ⟨hh.forest.lt, hh.forest.own, ?_, hh.forest.height, hh.forest.half⟩, ?_⟩, hval, fun _ => Iff.rfl⟩
    · intro q y hy
      by_cases hyx : y = x
      · subst hyx; exact hq q hy
      · exact hord q y hy hyx
    · right
      simp only
      by_cases hlt : (setVal h.mem x v x).val < (setVal h.mem x v mn).val
      · rw [if_pos hlt]
        have hxroot : x ∈ kids none := by
          cases p with
          | none => exact hp
          | some q =>
            exfalso
            have h1 := hroot ⟨q, rfl⟩
            have h2 := hle mn
            rw [hval x, if_pos rfl] at hlt
            exact absurd (h2.trans h1) (not_le.mpr hlt)
        refine ⟨x, hxroot, rfl, fun y hy => ?_⟩
        by_cases hyx : y = x
        · rw [hyx]
        · refine (hlt.le.trans (hle mn)).trans ?_
          rw [hval y, if_neg hyx]
          exact hmin y hy
      · rw [if_neg hlt]
        refine ⟨mn, hmn, rfl, fun y hy => ?_⟩
        by_cases hyx : y = x
        · rw [hyx]; exact not_lt.mp hlt
        · rw [hval y, if_neg hyx]
          exact (hle mn).trans (hmin y hy)
  cases p with
  | none =>
    simp only [Option.elim_none]
    refine keep (fun q hq => ?_) (by simp)
    exact absurd (hh.rep.unique hp hq) (by simp)
  | some q =>
    simp only [Option.elim_some]
    by_cases hcut : v ≤ (setVal h.mem x v q).val
    · rw [if_pos hcut]
      obtain ⟨a, b, e⟩ := List.append_of_mem hp
      -- cut
      unfold insertNode
      simp only [hm, Option.elim_some]
      obtain ⟨m', e1, r2, v2, l2⟩ := cut_rep r1 F e hmn ((kids_le hh.rep hh.forest none).trans hFN.le)
      rw [e1]
      have hv2 : ∀ y, (m' y).val = (setVal h.mem x v y).val := v2
      have hfo : Forest (toRoot kids q (a ++ b) x) (fun y => (m' y).val) N := by
        refine forest_toRoot hh.forest e _ (fun p y hy hyx => ?_) (fun p hpq hp' => ?_) (not_mem_rest hh.rep e)
        · simp only [hv2]; exact hord p y hy hyx
        · exact absurd (by simpa using hh.rep.unique hp' hp) hpq
      refine ⟨_, toRoot kids q (a ++ b) x, rfl, ⟨r2, fun y => l2 y (lo1 y), hfo, ?_⟩, fun y => by rw [← hval, ← hv2], members_toRoot e⟩
      right
      have hroots : toRoot kids q (a ++ b) x none = kids none ++ [x] := by unfold toRoot; rw [Function.update_self]
      rw [hroots]
      simp only
      have hrv : ∀ y ∈ kids none, (m' y).val = (h.mem y).val := by
        intro y hy
        rw [hv2, hval, if_neg]
        rintro rfl
        exact absurd (hh.rep.unique hy hp) (by simp)
      by_cases hlt : (m' x).val < (m' mn).val
      · rw [if_pos hlt]
        refine ⟨x, by simp, rfl, fun y hy => ?_⟩
        rcases List.mem_append.mp hy with hy | hy
        · refine hlt.le.trans ?_
          rw [hrv mn hmn, hrv y hy]; exact hmin y hy
        · simp only [List.mem_singleton] at hy; rw [hy]
      · rw [if_neg hlt]
        refine ⟨mn, by simp [hmn], rfl, fun y hy => ?_⟩
        rcases List.mem_append.mp hy with hy | hy
        · rw [hrv mn hmn, hrv y hy]; exact hmin y hy
        · simp only [List.mem_singleton] at hy; rw [hy]; exact not_lt.mp hlt
    · rw [if_neg hcut]
      rw [not_le] at hcut
      refine keep (fun q' hq' => ?_) (fun _ => ?_)
      · have : q' = q := by simpa using hh.rep.unique hq' hp
        subst this
        rw [hval x, if_pos rfl]; exact hcut.le
      · obtain ⟨r, hr, hr'⟩ := hh.forest.root q (hh.forest.own q (List.ne_nil_of_mem hp))
        have h1 := (hmin r hr).trans hr'
        by_cases hqx : q = x
        · subst hqx
          obtain ⟨ht, hht⟩ := hh.forest.height
          exact absurd (hht q q hp) (lt_irrefl _)
        · rw [hval, if_neg hqx] at hcut
          exact h1.trans hcut.le

/-- The empty heap. -/
theorem init_ok (N : ℕ) : HeapOk ⟨initMem, none⟩ (fun _ => []) N := by
  refine ⟨⟨by simp, by simp, by simp [initMem], by simp [initMem]⟩, fun y _ => by simp [initMem], ⟨by simp, by simp, by simp, ⟨fun _ => 0, by simp⟩, by simp⟩, .inl ⟨rfl, rfl⟩⟩

end Kwant.Fib
