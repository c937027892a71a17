import Verif.Fib.Forest

/-! The operations of the heap. -/

set_option linter.unusedSectionVars false

namespace Kwant.Fib

/-- The state of the heap: lists of siblings, order and minimum. -/
structure HeapOk (h : Heap) (kids : Option ℕ → List ℕ) (N : ℕ) : Prop where
  rep : Rep h.mem kids
  loose : ∀ y, Loose h.mem kids y
  forest : Forest kids (fun y => (h.mem y).val) N
  min : (h.min = none ∧ kids none = []) ∨ ∃ mn ∈ kids none, h.min = some mn ∧ ∀ x ∈ kids none, (h.mem mn).val ≤ (h.mem x).val

theorem kids_le {m kids val N} (r : Rep m kids) (h : Forest kids val N) (p : Option ℕ) : (kids p).length ≤ N := length_le_of_nodup (r.nodup p) (h.lt p)

/-! ### Linking -/

/-- `remove` and `add_child` together. -/
theorem relink_rep {m kids} (r : Rep m kids) (F : ℕ) {a x b q} (e : kids none = a ++ x :: b) (hF : (kids (some q)).length ≤ F) :
    ∃ m', addChild F (remove m x) q x = .ok m' ∧ Rep m' (toChild kids (a ++ b) q x) ∧ (∀ y, (m' y).val = (m y).val) ∧
      (∀ y, Loose m kids y → Loose m' (toChild kids (a ++ b) q x) y) := by
  obtain ⟨r1, v1, l1⟩ := remove_rep r e
  have hnd := r.nodup none
  rw [e] at hnd
  have hx : ∀ p, x ∉ Function.update kids none (a ++ b) p := by
    intro p hp
    by_cases hp0 : p = none
    · subst hp0
      rw [Function.update_self] at hp
      simp only [List.nodup_append, List.nodup_cons, List.mem_append] at hnd hp
      rcases hp with hp | hp
      · exact hnd.2.2 x hp x (by simp) rfl
      · exact hnd.2.1.1 hp
    · rw [Function.update_of_ne hp0] at hp
      exact hp0 (r.unique hp (by rw [e]; simp))
  have hk : Function.update kids none (a ++ b) (some q) = kids (some q) := by rw [Function.update_of_ne (by simp)]
  obtain ⟨m', e', r2, v2, l2⟩ := addChild_rep r1 F (node := q) (new := x) hx (by rw [hk]; exact hF)
  rw [hk] at r2 l2
  exact ⟨m', e', r2, fun y => by rw [v2, v1], fun y hy => l2 y fun _ => l1 y fun _ => hy⟩

/-- `link`. -/
theorem link_spec (F N : ℕ) (hFN : N ≤ F) (mn o : ℕ) (ho : o < N) (f : ℕ) : ∀ (m : Mem) (T : ℕ → Option ℕ) (node : ℕ) (kids : Option ℕ → List ℕ) (L R : List ℕ),
    Rep m kids → Forest kids (fun y => (m y).val) N → (∀ p, o ∉ kids p) → kids none = L ++ R → node ∈ L → mn ∈ L → (∀ x ∈ L, (m mn).val ≤ (m x).val) →
    (∀ r y, T r = some y → y ∈ L ∧ y ≠ node ∧ (m y).rank = r) → (∀ y ∈ L, y = node ∨ ∃ r, T r = some y) → L.length ≤ f →
    (link F mn f m T node = .error .overflow ∧ 200 < N) ∨ ∃ m' T' kids' L', link F mn f m T node = .ok (m', T') ∧ Rep m' kids' ∧ Forest kids' (fun y => (m' y).val) N ∧
      (∀ y, (m' y).val = (m y).val) ∧ (∀ y, (∃ p, y ∈ kids' p) ↔ ∃ p, y ∈ kids p) ∧ (∀ y, Loose m kids y → Loose m' kids' y) ∧ kids' none = L' ++ R ∧ L' ⊆ L ∧ mn ∈ L' ∧
      (∀ r y, T' r = some y → y ∈ L' ∧ (m' y).rank = r) ∧ ∀ y ∈ L', ∃ r, T' r = some y := by
  induction f with
  | zero =>
    intro m T node kids L R _ _ _ _ hn _ _ _ _ hf
    rw [List.length_eq_zero_iff.mp (Nat.le_zero.mp hf)] at hn
    simp at hn
  | succ f ih =>
    intro m T node kids L R r fo hof hk hn hmn hmin hT hT' hf
    simp only [link]
    by_cases hov : maxRank ≤ (m node).rank
    · left
      rw [if_pos hov]
      refine ⟨rfl, ?_⟩
      rw [r.rank] at hov
      have := fo.half node (by intro c; rw [c] at hov; simp [maxRank] at hov)
      unfold maxRank at hov
      omega
    rw [if_neg hov]
    cases hTr : T (m node).rank with
    | none =>
      right
      simp only [Option.elim_none]
      refine ⟨m, _, kids, L, rfl, r, fo, fun _ => rfl, fun _ => Iff.rfl, fun _ h => h, hk, fun _ h => h, hmn, ?_, ?_⟩
      · intro k y hy
        by_cases hkr : k = (m node).rank
        · subst hkr; rw [Function.update_self, Option.some.injEq] at hy; subst hy; exact ⟨hn, rfl⟩
        · rw [Function.update_of_ne hkr] at hy; exact ⟨(hT k y hy).1, (hT k y hy).2.2⟩
      · intro y hy
        rcases hT' y hy with rfl | ⟨k, hk'⟩
        · exact ⟨(m y).rank, by rw [Function.update_self]⟩
        · refine ⟨k, ?_⟩
          rw [Function.update_of_ne, hk']
          rintro rfl
          rw [hTr] at hk'; simp at hk'
    | some ln =>
      simp only [Option.elim_some]
      obtain ⟨hln, hne, hrk⟩ := hT _ _ hTr
      have hLnd : L.Nodup := by
        have := r.nodup none
        rw [hk] at this
        exact (List.nodup_append.mp this).1
      -- the common part: `x` becomes a child of `q`
      have main : ∀ q x, q ∈ L → x ∈ L → q ≠ x → x ≠ mn → (m q).val ≤ (m x).val → (m q).rank = (m x).rank → (m q).rank = (m node).rank →
          (∀ y ∈ L, y ≠ q → y ≠ x → ∃ k, k ≠ (m node).rank ∧ T k = some y) → (∀ k y, k ≠ (m node).rank → T k = some y → y ≠ q ∧ y ≠ x) →
          let g := (addChild F (remove m x) q x).bind fun m' => link F mn f m' (Function.update T (m node).rank none) q
          (g = .error .overflow ∧ 200 < N) ∨ ∃ m' T' kids' L', g = .ok (m', T') ∧ Rep m' kids' ∧ Forest kids' (fun y => (m' y).val) N ∧
            (∀ y, (m' y).val = (m y).val) ∧ (∀ y, (∃ p, y ∈ kids' p) ↔ ∃ p, y ∈ kids p) ∧ (∀ y, Loose m kids y → Loose m' kids' y) ∧ kids' none = L' ++ R ∧ L' ⊆ L ∧ mn ∈ L' ∧
            (∀ r y, T' r = some y → y ∈ L' ∧ (m' y).rank = r) ∧ ∀ y ∈ L', ∃ r, T' r = some y := by
        intro q x hq hx hqx hxm hv hr hrq hA hB
        obtain ⟨a, b, hL⟩ := List.append_of_mem hx
        have e : kids none = a ++ x :: (b ++ R) := by rw [hk, hL]; simp
        obtain ⟨m1, e1, r1, v1, l1⟩ := relink_rep r F (q := q) e ((kids_le r fo _).trans hFN)
        have hqab : q ∈ a ++ b := by rw [hL] at hq; simp at hq ⊢; tauto
        have fo1 := forest_toChild fo r e (by simp at hqab ⊢; tauto) hv (by rw [← r.rank, ← r.rank, hr]) o ho hof
        have hval : (fun y => (m1 y).val) = fun y => (m y).val := funext v1
        simp only [e1]
        change _ ∨ _
        have hk1 : toChild kids (a ++ (b ++ R)) q x none = (a ++ b) ++ R := by unfold toChild; rw [Function.update_of_ne (by simp), Function.update_self]; simp
        have hsub : ∀ y ∈ a ++ b, y ∈ L ∧ y ≠ x := by
          intro y hy
          refine ⟨by rw [hL]; simp at hy ⊢; tauto, ?_⟩
          rintro rfl
          rw [hL] at hLnd
          simp only [List.nodup_append, List.nodup_cons, List.mem_append] at hLnd hy
          rcases hy with hy | hy
          · exact hLnd.2.2 y hy y (by simp) rfl
          · exact hLnd.2.1.1 hy
        have hrank1 : ∀ y, y ≠ q → (m1 y).rank = (m y).rank := by
          intro y hy
          rw [r1.rank, r.rank]
          unfold toChild
          rw [Function.update_of_ne (by simpa using hy), Function.update_of_ne (by simp)]
        have hin : ∀ y ∈ L, y ≠ x → y ∈ a ++ b := by
          intro y hy hyx
          rw [hL] at hy; simp at hy ⊢; tauto
        have := ih m1 (Function.update T (m node).rank none) q (toChild kids (a ++ (b ++ R)) q x) (a ++ b) R r1 (by rw [hval]; exact fo1)
          (fun p hp => by obtain ⟨p', hp'⟩ := (members_toChild e o).mp ⟨p, hp⟩; exact hof p' hp') hk1 hqab (hin mn hmn (Ne.symm hxm))
          (fun y hy => by rw [v1, v1]; exact hmin y (hsub y hy).1)
          (fun k y hy => by
            by_cases hkr : k = (m node).rank
            · subst hkr; rw [Function.update_self] at hy; simp at hy
            · rw [Function.update_of_ne hkr] at hy
              obtain ⟨b1, b2⟩ := hB k y hkr hy
              exact ⟨hin y (hT k y hy).1 b2, b1, by rw [hrank1 y b1]; exact (hT k y hy).2.2⟩)
          (fun y hy => by
            by_cases hyq : y = q
            · exact .inl hyq
            · obtain ⟨k, hk1, hk2⟩ := hA y (hsub y hy).1 hyq (hsub y hy).2
              exact .inr ⟨k, by rw [Function.update_of_ne hk1, hk2]⟩)
          (by rw [hL] at hf; simp at hf ⊢; omega)
        rcases this with h | ⟨m', T', kids', L', h1, h2, h3, h4, h5, h6, h7, h8, h9, h10, h11⟩
        · exact .inl h
        · refine .inr ⟨m', T', kids', L', h1, h2, h3, fun y => by rw [h4, v1], fun y => by rw [h5, members_toChild e], fun y hy => h6 y (l1 y hy), h7, ?_, h9, h10, h11⟩
          exact fun y hy => (hsub y (h8 hy)).1
      have hA : ∀ y ∈ L, y ≠ node → y ≠ ln → ∃ k, k ≠ (m node).rank ∧ T k = some y := by
        intro y hy h1 h2
        rcases hT' y hy with rfl | ⟨k, hk'⟩
        · exact absurd rfl h1
        · refine ⟨k, ?_, hk'⟩
          rintro rfl
          rw [hTr, Option.some.injEq] at hk'
          exact h2 hk'.symm
      have hB : ∀ k y, k ≠ (m node).rank → T k = some y → y ≠ node ∧ y ≠ ln := by
        intro k y hkr hy
        refine ⟨(hT k y hy).2.1, ?_⟩
        rintro rfl
        exact hkr ((hT k y hy).2.2.symm.trans hrk)
      by_cases hc : (m node).val < (m ln).val ∨ node = mn
      · rw [if_pos hc]
        refine main node ln hn hln (Ne.symm hne) ?_ ?_ hrk.symm rfl hA hB
        · rintro rfl
          rcases hc with hc | hc
          · exact absurd (hmin node hn) (not_le.mpr hc)
          · exact hne hc.symm
        · rcases hc with hc | rfl
          · exact hc.le
          · exact hmin ln hln
      · rw [if_neg hc]
        rw [not_or, not_lt] at hc
        refine main ln node hln hn hne hc.2 hc.1 hrk hrk (fun y hy h1 h2 => hA y hy h2 h1) (fun k y hk hy => (hB k y hk hy).symm)

/-- The loop that re-links the heap. -/
theorem relink_spec (F N : ℕ) (hFN : N ≤ F) (o : ℕ) (ho : o < N) (f : ℕ) : ∀ (m : Mem) (T : ℕ → Option ℕ) (mn : ℕ) (kids : Option ℕ → List ℕ) (L R : List ℕ),
    Rep m kids → Forest kids (fun y => (m y).val) N → (∀ p, o ∉ kids p) → kids none = L ++ R → (mn ∈ L ∨ (L = [] ∧ R.head? = some mn)) → (∀ x ∈ L, (m mn).val ≤ (m x).val) →
    (∀ r y, T r = some y → y ∈ L ∧ (m y).rank = r) → (∀ y ∈ L, ∃ r, T r = some y) → R.length < f →
    (relink F f m T mn R.head? = .error .overflow ∧ 200 < N) ∨ ∃ m' mn' kids', relink F f m T mn R.head? = .ok (m', mn') ∧ Rep m' kids' ∧ Forest kids' (fun y => (m' y).val) N ∧
      (∀ y, (m' y).val = (m y).val) ∧ (∀ y, (∃ p, y ∈ kids' p) ↔ ∃ p, y ∈ kids p) ∧ (∀ y, Loose m kids y → Loose m' kids' y) ∧ mn' ∈ kids' none ∧
      (∀ x ∈ kids' none, (m' mn').val ≤ (m' x).val) ∧ ∀ x ∈ kids' none, ∀ y ∈ kids' none, (m' x).rank = (m' y).rank → x = y := by
  induction f with
  | zero => intro m T mn kids L R _ _ _ _ _ _ _ _ h; omega
  | succ f ih =>
    intro m T mn kids L R r fo hof hk hmn hmin hT hT' hf
    cases R with
    | nil =>
      right
      simp only [relink, List.head?_nil, Option.elim_none]
      rw [List.append_nil] at hk
      rcases hmn with hmn | ⟨-, hmn⟩
      · refine ⟨m, mn, kids, rfl, r, fo, fun _ => rfl, fun _ => Iff.rfl, fun _ h => h, hk ▸ hmn, hk ▸ hmin, ?_⟩
        rw [hk]
        intro x hx y hy hxy
        obtain ⟨k, h1⟩ := hT' x hx
        obtain ⟨k', h2⟩ := hT' y hy
        have e1 := (hT k x h1).2
        have e2 := (hT k' y h2).2
        have : k = k' := by rw [← e1, ← e2, hxy]
        subst this
        rw [h1] at h2
        simpa using h2
      · simp at hmn
    | cons t R =>
      simp only [relink, List.head?_cons, Option.elim_some]
      have hright : (m t).right = R.head? := (r.link none L t R hk).2.2
      rw [hright]
      set mn' := if (m t).val < (m mn).val then t else mn with hmn'
      have hnd := r.nodup none
      rw [hk] at hnd
      have htL : t ∉ L := fun h => (List.nodup_append.mp hnd).2.2 t h t (by simp) rfl
      have hmnL : mn' ∈ L ++ [t] := by
        rw [hmn']
        split
        · simp
        · rcases hmn with h | ⟨-, h⟩
          · simp [h]
          · simp at h; simp [h]
      have hmin' : ∀ x ∈ L ++ [t], (m mn').val ≤ (m x).val := by
        intro x hx
        rw [hmn']
        rcases List.mem_append.mp hx with hx | hx
        · split
          · next h => exact h.le.trans (hmin x hx)
          · exact hmin x hx
        · simp only [List.mem_singleton] at hx
          subst hx
          split
          · exact le_refl _
          · next h => exact not_lt.mp h
      rcases link_spec F N hFN mn' o ho F m T t kids (L ++ [t]) R r fo hof (by rw [hk]; simp) (by simp) hmnL hmin'
        (fun k y hy => ⟨by simp [(hT k y hy).1], fun c => htL (c ▸ (hT k y hy).1), (hT k y hy).2⟩)
        (fun y hy => by
          rcases List.mem_append.mp hy with h | h
          · exact .inr (hT' y h)
          · exact .inl (by simpa using h))
        ((length_le_of_nodup (N := N) (by
            have : (L ++ [t] ++ R).Nodup := by simpa using hnd
            exact (List.nodup_append.mp this).1) (fun y hy => fo.lt none y (by rw [hk]; simp at hy ⊢; tauto))).trans hFN)
        with ⟨e, hN⟩ | ⟨m1, T1, kids1, L1, e, r1, fo1, v1, mem1, lo1, hk1, hsub, hmn1, hT1, hT1'⟩
      · left
        rw [e]; exact ⟨rfl, hN⟩
      · rw [e]
        rcases ih m1 T1 mn' kids1 L1 R r1 fo1 (fun p hp => by obtain ⟨p', hp'⟩ := (mem1 o).mp ⟨p, hp⟩; exact hof p' hp') hk1 (.inl hmn1)
          (fun x hx => by rw [v1, v1]; exact hmin' x (hsub hx)) hT1 hT1' (by simpa using hf) with ⟨e2, hN⟩ | ⟨m2, mn2, kids2, e2, r2, fo2, v2, mem2, lo2, a1, a2, a3⟩
        · exact .inl ⟨e2, hN⟩
        · exact .inr ⟨m2, mn2, kids2, e2, r2, fo2, fun y => by rw [v2, v1], fun y => by rw [mem2, mem1], fun y hy => lo2 y (lo1 y hy), a1, a2, a3⟩

end Kwant.Fib
