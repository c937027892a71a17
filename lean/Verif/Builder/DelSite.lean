import Verif.Builder.Ops

/-! Deleting sites: `_del_site` and `eradicate_dangling`. -/
set_option linter.unusedSectionVars false

namespace Kwant.Builder
open Kwant Kwant.Assoc
variable {S G V Fn : Type} [DecidableEq S] [AddCommGroup G] [DecidableEq G]
variable {sym : Symmetry S G} {hc : V → V}

/-- `H` is what remains of `H0` after removing some sites together with all their hoppings. -/
structure Restrict (sym : Symmetry S G) (H0 H : HMap S V Fn) : Prop where
  nf : NF H
  sub : (keys H).Sublist (keys H0)
  onsite : ∀ x, O H x = if x ∈ keys H then O H0 x else none
  edge : ∀ x y, E H x y = if x ∈ keys H ∧ sym.toFd y ∈ keys H then E H0 x y else none

theorem Restrict.refl {H : HMap S V Fn} (h : WF sym H) (hl : sym.Lawful) : Restrict sym H H where
  nf := h.toNF
  sub := List.Sublist.refl _
  onsite := by
    intro x
    by_cases hx : x ∈ keys H
    · simp [hx]
    · simp [hx, O_none.mpr hx]
  edge := by
    intro x y
    by_cases hx : x ∈ keys H ∧ sym.toFd y ∈ keys H
    · simp [hx]
    · simp only [hx, if_false]
      cases he : E H x y with
      | none => rfl
      | some st => exact absurd ⟨E_some_mem he, h.toFd_mem hl he⟩ hx

theorem Restrict.trans {H0 H1 H2 : HMap S V Fn} (a : Restrict sym H0 H1) (b : Restrict sym H1 H2) :
    Restrict sym H0 H2 where
  nf := b.nf
  sub := b.sub.trans a.sub
  onsite := by
    intro x
    rw [b.onsite]
    by_cases hx : x ∈ keys H2
    · simp [hx, a.onsite, b.sub.subset hx]
    · simp [hx]
  edge := by
    intro x y
    rw [b.edge]
    by_cases hx : x ∈ keys H2 ∧ sym.toFd y ∈ keys H2
    · rw [if_pos hx, if_pos hx, a.edge, if_pos ⟨b.sub.subset hx.1, b.sub.subset hx.2⟩]
    · rw [if_neg hx, if_neg hx]

theorem Restrict.wf {H0 H : HMap S V Fn} (r : Restrict sym H0 H) (h : WF sym H0) (hl : sym.Lawful) :
    WF sym H := by
  refine ⟨r.nf, fun a ha => h.fd a (r.sub.subset ha), ?_⟩
  intro a b st he
  have hm : a ∈ keys H ∧ sym.toFd b ∈ keys H := by
    by_contra hh; rw [r.edge, if_neg hh] at he; simp at he
  rw [r.edge, if_pos hm] at he
  obtain ⟨h1, st', h2, h3⟩ := h.pair a b st he
  refine ⟨h1, st', ?_, h3⟩
  rw [r.edge, if_pos, h2]
  refine ⟨hm.2, ?_⟩
  have : sym.toFd (rev sym a b).2 = a := by
    simp only [rev, toFd2_eq, hl.toFd_act]
    exact hl.toFd_of_which (h.fd a (r.sub.subset hm.1))
  rw [this]; exact hm.1

/-- Removing one site and all hoppings to it. -/
theorem Restrict.remove {H H' : HMap S V Fn} {a : S} (h : WF sym H) (hl : sym.Lawful) (hn : NF H')
    (hk : keys H' = (keys H).erase a)
    (hO : ∀ x, O H' x = if a = x then none else O H x)
    (hE : ∀ x y, E H' x y = if x = a ∨ sym.toFd y = a then none else E H x y) :
    Restrict sym H H' where
  nf := hn
  sub := by rw [hk]; exact List.erase_sublist
  onsite := by
    intro x
    simp only [hO, hk, h.keys.mem_erase_iff]
    by_cases hx : a = x
    · simp [hx]
    · by_cases hm : x ∈ keys H
      · simp [hx, Ne.symm hx, hm]
      · simp [hx, hm, O_none.mpr hm]
  edge := by
    intro x y
    simp only [hE, hk, h.keys.mem_erase_iff]
    by_cases hx : x = a ∨ sym.toFd y = a
    · rw [if_pos hx, if_neg]
      rintro ⟨⟨h1, _⟩, h2, _⟩
      rcases hx with hx | hx
      · exact h1 hx
      · exact h2 hx
    · rw [if_neg hx]
      push Not at hx
      cases he : E H x y with
      | none => simp
      | some st => simp [hx.1, hx.2, E_some_mem he, h.toFd_mem hl he]

/-! ### `_del_site` -/

theorem del_append_of_not_mem {κ α : Type} [DecidableEq κ] {l l' : List (κ × α)} {k : κ}
    (h : k ∉ keys l) : del (l ++ l') k = l ++ del l' k := by
  induction l with
  | nil => rfl
  | cons p l ih =>
    obtain ⟨k', v⟩ := p
    simp only [keys_cons, List.mem_cons, not_or] at h
    simp [del, Ne.symm h.1, ih h.2]

theorem del_length_le {κ α : Type} [DecidableEq κ] (l : List (κ × α)) (k : κ) :
    (del l k).length ≤ l.length := by
  induction l with
  | nil => simp [del]
  | cons p l ih =>
    obtain ⟨k', v⟩ := p
    simp only [del]
    by_cases hk : k' = k <;> simp [hk]
    exact ih

@[simp] theorem keys_append {κ α : Type} [DecidableEq κ] (l l' : List (κ × α)) :
    keys (l ++ l') = keys l ++ keys l' := by simp [keys]

theorem rev_inj (hl : sym.Lawful) {a n m : S} (ha : sym.which a = 0) (h : rev sym a n = rev sym a m) :
    n = m := by
  have h1 := rev_rev hl ha n
  rw [h, rev_rev hl ha m] at h1
  exact (Prod.mk.inj h1).2.symm

/-- State of the loop of `_del_site` after the reverse edges of the prefix `P` of the live row have been
deleted. -/
structure DelInv (sym : Symmetry S G) (H0 : HMap S V Fn) (a : S) (P Q : List (S × Stored V Fn))
    (H : HMap S V Fn) : Prop where
  nf : NF H
  keys : keys H = Assoc.keys H0
  onsite : O H = O H0
  row : ∃ v, get H a = some ⟨v, P ++ Q⟩
  edge : ∀ x y, E H x y = if ∃ n ∈ Assoc.keys P, (x, y) = rev sym a n then none else E H0 x y

theorem DelInv.edge_a {H0 H : HMap S V Fn} {a : S} {P Q} (i : DelInv sym H0 a P Q H) (n : S) :
    (E H a n).isSome = true ↔ n ∈ Assoc.keys (P ++ Q) := by
  obtain ⟨v, hg⟩ := i.row
  rw [← mem_edges_iff hg]

theorem DelInv.step {H0 H : HMap S V Fn} {a : S} {P Q : List (S × Stored V Fn)} {n st}
    (h : WF sym H0) (hl : sym.Lawful) (i : DelInv sym H0 a P ((n, st) :: Q) H) :
    ∃ H' Q', delSiteStep sym H a n = (H', none) ∧ Q'.length ≤ Q.length ∧
      DelInv sym H0 a (P ++ [(n, st)]) Q' H' := by
  obtain ⟨v, hg⟩ := i.row
  have hak : a ∈ Assoc.keys H0 := by rw [← i.keys]; exact mem_keys_of_get hg
  have ha : sym.which a = 0 := h.fd a hak
  have hnd : (Assoc.keys (P ++ (n, st) :: Q)).Nodup := i.nf.rows a _ hg
  simp only [keys_append, keys_cons] at hnd
  have hnP : n ∉ Assoc.keys P := by
    intro hm
    exact (List.nodup_append.mp hnd).2.2 n hm n (by simp) rfl
  have hsome : (E H a n).isSome = true := by rw [i.edge_a]; simp
  have h0 : E H a n = E H0 a n := by
    rw [i.edge]
    split
    · rename_i hh
      rw [i.edge, if_pos hh] at hsome; simp at hsome
    · rfl
  obtain ⟨st0, hst0⟩ := Option.isSome_iff_exists.mp hsome
  rw [h0] at hst0
  obtain ⟨hne, st', hrev0, _⟩ := h.pair a n st0 hst0
  have hrevH : E H (rev sym a n).1 (rev sym a n).2 = some st' := by
    rw [i.edge, if_neg, hrev0]
    rintro ⟨m, hm, e⟩
    exact hnP (by rw [rev_inj hl ha (show rev sym a n = rev sym a m from e)]; exact hm)
  obtain ⟨H', e', n', k', o', E'⟩ := delEdge_ok hrevH i.nf
  have hstep : delSiteStep sym H a n = (H', none) := by
    unfold delSiteStep
    have hmf : n ∈ Assoc.keys H ↔ sym.which n = 0 := by
      rw [i.keys]; exact h.mem_iff_fd hl hst0
    by_cases hn : n ∈ Assoc.keys H
    · have : sym.inFd n = true := by simp [Symmetry.inFd, hmf.mp hn]
      rw [rev_of_inFd hl this] at e'
      simp [hn, e']
    · have : sym.inFd n = false := by
        simp only [Symmetry.inFd, decide_eq_false_iff_not]
        exact fun h => hn (hmf.mpr h)
      simp only [rev] at e'
      simp [hn, this, e']
  have hedge : ∀ x y, E H' x y =
      if ∃ m ∈ Assoc.keys (P ++ [(n, st)]), (x, y) = rev sym a m then none else E H0 x y := by
    intro x y
    rw [E', i.edge]
    have hmem : ∀ m, m ∈ Assoc.keys (P ++ [(n, st)]) ↔ m ∈ Assoc.keys P ∨ m = n := by
      intro m; simp
    by_cases h1 : (rev sym a n).1 = x ∧ (rev sym a n).2 = y
    · rw [if_pos h1, if_pos]
      exact ⟨n, (hmem n).mpr (.inr rfl), by rw [← h1.1, ← h1.2]⟩
    · rw [if_neg h1]
      by_cases h2 : ∃ m ∈ Assoc.keys P, (x, y) = rev sym a m
      · rw [if_pos h2, if_pos]
        obtain ⟨m, hm, e⟩ := h2
        exact ⟨m, (hmem m).mpr (.inl hm), e⟩
      · rw [if_neg h2, if_neg]
        rintro ⟨m, hm, e⟩
        rcases (hmem m).mp hm with hm | rfl
        · exact h2 ⟨m, hm, e⟩
        · apply h1; rw [← e]; simp
  -- the row of `a`
  have hrow : ∃ Q', get H' a = some ⟨v, (P ++ [(n, st)]) ++ Q'⟩ ∧ Q'.length ≤ Q.length := by
    unfold delEdge at e'
    obtain ⟨r, hr⟩ := get_of_mem_keys (E_some_mem hrevH)
    have hb : (rev sym a n).2 ∈ Assoc.keys r.edges := by rw [mem_edges_iff hr, hrevH]; rfl
    simp only [hr, hb, if_true, Prod.mk.injEq, and_true] at e'
    subst e'
    rw [get_put]
    by_cases hra : (rev sym a n).1 = a
    · have hr2 : r = ⟨v, P ++ (n, st) :: Q⟩ := by
        rw [hra, hg] at hr; exact (Option.some.inj hr).symm
      subst hr2
      have hm1 : (rev sym a n).2 ∉ Assoc.keys P := by
        intro hm
        have hrr := rev_rev hl ha n
        rw [hra] at hrr
        have : E H a n = none := by
          rw [i.edge, if_pos]
          exact ⟨_, hm, hrr.symm⟩
        rw [this] at hsome; simp at hsome
      have hm2 : n ≠ (rev sym a n).2 := by
        intro e
        apply rev_ne hl hne
        exact Prod.ext hra e.symm
      refine ⟨del Q (rev sym a n).2, ?_, del_length_le _ _⟩
      rw [if_pos hra, del_append_of_not_mem hm1]
      simp [del, hm2]
    · refine ⟨Q, ?_, le_refl _⟩
      rw [if_neg hra, hg]; simp
  obtain ⟨Q', hrow, hlen⟩ := hrow
  exact ⟨H', Q', hstep, hlen, ⟨n', by rw [k', i.keys], by rw [o', i.onsite], ⟨v, hrow⟩, hedge⟩⟩

theorem delSiteLoop_ok {H0 : HMap S V Fn} {a : S} (h : WF sym H0) (hl : sym.Lawful) :
    ∀ (fuel : ℕ) (P Q : List (S × Stored V Fn)) (H : HMap S V Fn), DelInv sym H0 a P Q H →
      Q.length < fuel →
      ∃ P' H', delSiteLoop sym a fuel P.length H = (H', none) ∧ DelInv sym H0 a P' [] H' := by
  intro fuel
  induction fuel with
  | zero => intro P Q H _ hf; omega
  | succ fuel ih =>
    intro P Q H i hf
    obtain ⟨v, hg⟩ := i.row
    unfold delSiteLoop
    simp only [hg]
    cases Q with
    | nil => exact ⟨P, H, by simp, i⟩
    | cons q Q =>
      obtain ⟨n, st⟩ := q
      obtain ⟨H', Q', h1, h2, h3⟩ := i.step h hl
      obtain ⟨P'', H'', h4, h5⟩ := ih _ Q' H' h3 (by simp at hf; omega)
      refine ⟨P'', H'', ?_, h5⟩
      simp only [List.getElem?_append_right (le_refl _), Nat.sub_self, List.getElem?_cons_zero, h1, Res.seq]
      simpa using h4

theorem delSite_effect {H : HMap S V Fn} (h : WF sym H) (hl : sym.Lawful) {s : S}
    (hs : sym.toFd s ∈ keys H) :
    ∃ H', delSite sym H s = (H', none) ∧ NF H' ∧ keys H' = (keys H).erase (sym.toFd s) ∧
      (∀ x, O H' x = if sym.toFd s = x then none else O H x) ∧
      (∀ x y, E H' x y = if x = sym.toFd s ∨ sym.toFd y = sym.toFd s then none else E H x y) := by
  obtain ⟨row, hg⟩ := get_of_mem_keys hs
  have i0 : DelInv sym H (sym.toFd s) [] row.edges H := ⟨h.toNF, rfl, rfl, ⟨row.onsite, by simpa using hg⟩,
    by intro x y; simp⟩
  obtain ⟨P, H1, h1, i1⟩ := delSiteLoop_ok h hl _ [] _ _ i0 (Nat.lt_succ_self _)
  obtain ⟨d1, d2, d3, d4⟩ := del_row (a := sym.toFd s) i1.nf
  refine ⟨del H1 (sym.toFd s), ?_, d1, by rw [keys_del, i1.keys], ?_, ?_⟩
  · unfold delSite
    simp only [hg]
    simp only [List.length_nil] at h1
    simp [h1, Res.seq]
  · intro x; rw [d3, i1.onsite]
  · intro x y
    rw [d4]
    by_cases hx : sym.toFd s = x
    · simp [hx]
    · rw [if_neg hx]
      by_cases hy : sym.toFd y = sym.toFd s
      · rw [if_pos (.inr hy), i1.edge]
        split
        · rfl
        · rename_i hno
          cases he : E H x y with
          | none => rfl
          | some st =>
            exfalso
            have hxw : sym.which x = 0 := h.which_zero he
            obtain ⟨hne, st', hr, _⟩ := h.pair x y st he
            have hra : (rev sym x y).1 = sym.toFd s := hy
            -- the reverse edge is still in the row of the site
            have hrr := rev_rev hl hxw y
            rw [hra] at hrr hr
            have hE : (E H1 (sym.toFd s) (rev sym x y).2).isSome = true := by
              rw [i1.edge, if_neg, hr]; rfl
              rintro ⟨m, hm, e⟩
              have ha : sym.which (sym.toFd s) = 0 := hl.which_toFd s
              have hrm := rev_rev hl ha m
              rw [← e, hrr] at hrm
              exact hx (Prod.mk.inj hrm).1.symm
            rw [i1.edge_a] at hE
            simp only [List.append_nil] at hE
            exact hno ⟨_, hE, hrr.symm⟩
      · have : ¬ (x = sym.toFd s ∨ sym.toFd y = sym.toFd s) := by
          rintro (e | e)
          · exact hx e.symm
          · exact hy e
        rw [if_neg this, i1.edge, if_neg]
        rintro ⟨m, hm, e⟩
        apply hy
        have : sym.toFd y = sym.toFd (rev sym (sym.toFd s) m).2 := by rw [← e]
        rw [this]
        simp only [rev, toFd2_eq, hl.toFd_act]
        exact hl.toFd_of_which (hl.which_toFd s)

theorem delSite_fail {H : HMap S V Fn} {s : S} (hs : sym.toFd s ∉ keys H) :
    delSite sym H s = (H, some (.keySite (sym.toFd s))) := by
  simp [delSite, get_eq_none.mpr hs]

theorem delSite_wf {H : HMap S V Fn} (h : WF sym H) (hl : sym.Lawful) (s : S) :
    WF sym (delSite sym H s).1 := by
  by_cases hs : sym.toFd s ∈ keys H
  · obtain ⟨H', e, n, k, o, hE⟩ := delSite_effect h hl hs
    rw [e]
    exact (Restrict.remove h hl n k o hE).wf h hl
  · rw [delSite_fail hs]; exact h

/-! ### `eradicate_dangling` -/

/-- Number of hoppings of a stored site is less than two. -/
def Dangling (H : HMap S V Fn) (x : S) : Prop := ∃ row, get H x = some row ∧ row.edges.length < 2

theorem mem_dangling {H : HMap S V Fn} (hn : NF H) {x : S} : x ∈ dangling H ↔ Dangling H x := by
  unfold dangling Dangling
  simp only [List.mem_map, List.mem_filter, decide_eq_true_iff, Prod.exists, exists_and_right,
    exists_eq_right]
  constructor
  · rintro ⟨row, h1, h2⟩; exact ⟨row, get_of_mem hn.keys h1, h2⟩
  · rintro ⟨row, h1, h2⟩; exact ⟨row, mem_of_get h1, h2⟩

/-- Two distinct heads in a row make its length at least two. -/
theorem not_dangling {H : HMap S V Fn} {x n1 n2 : S} (hne : n1 ≠ n2)
    (h1 : (E H x n1).isSome = true) (h2 : (E H x n2).isSome = true) : ¬ Dangling H x := by
  rintro ⟨row, hg, hlt⟩
  rw [← mem_edges_iff hg] at h1 h2
  match hrow : row.edges, hlt with
  | [], _ => simp [hrow] at h1
  | [(n, _)], _ =>
    simp [hrow] at h1 h2
    exact hne (h1.trans h2.symm)

/-- A set of stored sites each of which has at least two hoppings into the set. -/
structure Closed (sym : Symmetry S G) (H : HMap S V Fn) (K : S → Prop) : Prop where
  mem : ∀ x, K x → x ∈ keys H
  two : ∀ x, K x → ∃ n1 n2, n1 ≠ n2 ∧ (E H x n1).isSome = true ∧ (E H x n2).isSome = true ∧
    K (sym.toFd n1) ∧ K (sym.toFd n2)

theorem Closed.restrict {H0 H : HMap S V Fn} {K : S → Prop} (c : Closed sym H0 K)
    (r : Restrict sym H0 H) (hK : ∀ x, K x → x ∈ keys H) : Closed sym H K := by
  refine ⟨hK, fun x hx => ?_⟩
  obtain ⟨n1, n2, hne, e1, e2, k1, k2⟩ := c.two x hx
  refine ⟨n1, n2, hne, ?_, ?_, k1, k2⟩
  · rw [r.edge, if_pos ⟨hK _ hx, hK _ k1⟩]; exact e1
  · rw [r.edge, if_pos ⟨hK _ hx, hK _ k2⟩]; exact e2

/-- One step of the inner loop: delete a dangling site and the reverse of its only hopping. -/
theorem erad_step {H : HMap S V Fn} {a n : S} {v st} (h : WF sym H) (hl : sym.Lawful)
    (hg : get H a = some ⟨v, [(n, st)]⟩) :
    ∃ H1, delEdge H (eradEdge sym H n a).1 (eradEdge sym H n a).2 = (H1, none) ∧
      eradNext sym H n = sym.toFd n ∧ sym.toFd n ≠ a ∧
      keys (del H1 a) = (keys H).erase a ∧ Restrict sym H (del H1 a) ∧
      (∀ x, x ≠ a → x ≠ sym.toFd n → get (del H1 a) x = get H x) := by
  have hak : a ∈ keys H := mem_keys_of_get hg
  have ha := h.fd a hak
  have hE : ∀ m st', E H a m = some st' → m = n := by
    intro m st' he
    have : m ∈ keys [(n, st)] := by
      have := (mem_edges_iff (b := m) hg).mpr (by rw [he]; rfl)
      exact this
    simpa using this
  have hEn : E H a n = some st := by simp [E, hg, Assoc.get]
  obtain ⟨hne, st', hr, _⟩ := h.pair a n st hEn
  have hmf := h.mem_iff_fd hl hEn
  have hedge : eradEdge sym H n a = rev sym a n := by
    unfold eradEdge
    by_cases hn : n ∈ keys H
    · have : sym.inFd n = true := by simp [Symmetry.inFd, hmf.mp hn]
      rw [rev_of_inFd hl this]; simp [hn]
    · simp [hn, rev]
  have hnext : eradNext sym H n = sym.toFd n := by
    unfold eradNext
    by_cases hn : n ∈ keys H
    · simp [hn, hl.toFd_of_which (hmf.mp hn)]
    · simp [hn]
  have hna : sym.toFd n ≠ a := by
    intro e
    have h1 : (rev sym a n).1 = a := e
    rw [h1] at hr
    have h2 := hE _ _ hr
    exact rev_ne hl hne (Prod.ext h1 h2)
  obtain ⟨H1, e1, n1, k1, o1, E1⟩ := delEdge_ok hr h.toNF
  obtain ⟨d1, d2, d3, d4⟩ := del_row (a := a) n1
  have hk : keys (del H1 a) = (keys H).erase a := by rw [keys_del, k1]
  refine ⟨H1, by rw [hedge]; exact e1, hnext, hna, hk, ?_, ?_⟩
  · refine Restrict.remove h hl d1 hk (fun x => by rw [d3, o1]) ?_
    intro x y
    rw [d4, E1]
    by_cases hx : a = x
    · simp [hx]
    · rw [if_neg hx]
      by_cases hy : sym.toFd y = a
      · rw [if_pos (show x = a ∨ sym.toFd y = a from .inr hy)]
        cases he : E H x y with
        | none => simp
        | some st2 =>
          obtain ⟨_, st3, hr2, _⟩ := h.pair x y st2 he
          have h1 : (rev sym x y).1 = a := hy
          rw [h1] at hr2
          have h2 := hE _ _ hr2
          have h3 := rev_rev hl (h.which_zero he) y
          rw [h1, h2] at h3
          rw [if_pos]
          rw [h3]; simp
      · have h4 : ¬ (x = a ∨ sym.toFd y = a) := by
          rintro (e | e)
          · exact hx e.symm
          · exact hy e
        rw [if_neg h4, if_neg]
        rintro ⟨e2, e3⟩
        apply hy
        rw [← e3]
        simp only [rev, toFd2_eq, hl.toFd_act]
        exact hl.toFd_of_which ha
  · intro x hxa hxn
    rw [get_del n1.keys, if_neg (Ne.symm hxa)]
    unfold delEdge at e1
    obtain ⟨r, hr'⟩ := get_of_mem_keys (E_some_mem hr)
    have hb : (rev sym a n).2 ∈ keys r.edges := by rw [mem_edges_iff hr', hr]; rfl
    simp only [hr', hb, if_true, Prod.mk.injEq, and_true] at e1
    subst e1
    rw [get_put, if_neg]
    exact fun e => hxn e.symm

theorem erad_last {H : HMap S V Fn} {a : S} {v} (h : WF sym H) (hl : sym.Lawful)
    (hg : get H a = some ⟨v, []⟩) : Restrict sym H (del H a) := by
  obtain ⟨d1, d2, d3, d4⟩ := del_row (a := a) h.toNF
  refine Restrict.remove h hl d1 (by rw [keys_del]) d3 ?_
  intro x y
  rw [d4]
  by_cases hx : a = x
  · simp [hx]
  · rw [if_neg hx]
    by_cases hy : sym.toFd y = a
    · rw [if_pos (.inr hy)]
      cases he : E H x y with
      | none => rfl
      | some st =>
        obtain ⟨_, st3, hr2, _⟩ := h.pair x y st he
        have h1 : (rev sym x y).1 = a := hy
        rw [h1] at hr2
        simp [E, hg, Assoc.get] at hr2
    · rw [if_neg]
      rintro (e | e)
      · exact hx e.symm
      · exact hy e

/-- The inner loop terminates normally, keeps every closed set, and leaves no new dangling site. -/
theorem eradLoop_ok (hl : sym.Lawful) : ∀ (fuel : ℕ) (H : HMap S V Fn) (a : S), WF sym H →
    a ∈ keys H → H.length < fuel →
    ∃ H', eradLoop sym fuel H a = (H', none) ∧ Restrict sym H H' ∧
      (∀ x, Dangling H' x → Dangling H x ∧ x ≠ a) ∧
      (∀ K, Closed sym H K → ∀ x, K x → x ∈ keys H') := by
  intro fuel
  induction fuel with
  | zero => intro H a _ _ hf; omega
  | succ fuel ih =>
    intro H a h ha hf
    obtain ⟨⟨v, edges⟩, hg⟩ := get_of_mem_keys ha
    unfold eradLoop
    simp only [hg]
    have hnotK : edges.length < 2 → ∀ K, Closed sym H K → ¬ K a := by
      intro hlt K c hK
      obtain ⟨n1, n2, hne, e1, e2, _⟩ := c.two a hK
      exact not_dangling hne e1 e2 ⟨_, hg, hlt⟩
    match edges, hg, hnotK with
    | [], hg, hnotK =>
      have r := erad_last h hl hg
      refine ⟨del H a, rfl, r, ?_, ?_⟩
      · rintro x ⟨row, hr, hlt⟩
        rw [get_del h.keys] at hr
        by_cases hx : a = x
        · simp [hx] at hr
        · rw [if_neg hx] at hr; exact ⟨⟨row, hr, hlt⟩, Ne.symm hx⟩
      · intro K c x hx
        rw [mem_keys_del h.keys]
        refine ⟨?_, c.mem x hx⟩
        rintro rfl
        exact hnotK (by simp) K c hx
    | [(n, st)], hg, hnotK =>
      obtain ⟨H1, e1, enext, hna, hk, r, hget⟩ := erad_step h hl hg
      have hEn : E H a n = some st := by simp [E, hg, Assoc.get]
      have hnk : sym.toFd n ∈ keys (del H1 a) := by
        rw [hk, h.keys.mem_erase_iff]; exact ⟨hna, h.toFd_mem hl hEn⟩
      have hlen : (del H1 a).length < fuel := by
        have l1 : (del H1 a).length = (keys (del H1 a)).length := by simp [keys]
        have l2 : H.length = (keys H).length := by simp [keys]
        rw [l1, hk, List.length_erase_of_mem ha, ← l2]
        have : 0 < H.length := by rw [l2]; exact List.length_pos_of_mem ha
        omega
      obtain ⟨H', e', r', hd, hK⟩ := ih (del H1 a) (sym.toFd n) (r.wf h hl) hnk hlen
      refine ⟨H', ?_, r.trans r', ?_, ?_⟩
      · simp [e1, Res.seq, enext, e']
      · intro x hx
        obtain ⟨⟨row, hr, hlt⟩, hxn⟩ := hd x hx
        have hxa : x ≠ a := by
          rintro rfl
          have := mem_keys_of_get hr
          rw [hk, h.keys.mem_erase_iff] at this
          exact this.1 rfl
        rw [hget x hxa hxn] at hr
        exact ⟨⟨row, hr, hlt⟩, hxa⟩
      · intro K c x hx
        refine hK K (c.restrict r ?_) x hx
        intro y hy
        rw [hk, h.keys.mem_erase_iff]
        refine ⟨?_, c.mem y hy⟩
        rintro rfl
        exact hnotK (by simp) K c hy
    | p :: q :: rest, hg, hnotK =>
      refine ⟨H, rfl, Restrict.refl h hl, ?_, fun K c x hx => c.mem x hx⟩
      rintro x ⟨row, hr, hlt⟩
      refine ⟨⟨row, hr, hlt⟩, ?_⟩
      rintro rfl
      rw [hg] at hr
      obtain rfl := Option.some.inj hr
      simp at hlt

theorem eradOuter_ok (hl : sym.Lawful) : ∀ (l : List S) (H : HMap S V Fn), WF sym H →
    (∀ x, Dangling H x → x ∈ l) →
    ∃ H', eradOuter sym l H = (H', none) ∧ Restrict sym H H' ∧ (∀ x, ¬ Dangling H' x) ∧
      (∀ K, Closed sym H K → ∀ x, K x → x ∈ keys H') := by
  intro l
  induction l with
  | nil =>
    intro H h hd
    exact ⟨H, rfl, Restrict.refl h hl, fun x hx => by simpa using hd x hx, fun K c x hx => c.mem x hx⟩
  | cons s rest ih =>
    intro H h hd
    unfold eradOuter
    by_cases hs : s ∈ keys H
    · obtain ⟨H1, e1, r1, d1, k1⟩ := eradLoop_ok hl (H.length + 1) H s h hs (Nat.lt_succ_self _)
      obtain ⟨H', e', r', d', k'⟩ := ih H1 (r1.wf h hl) (by
        intro x hx
        obtain ⟨h1, h2⟩ := d1 x hx
        have := hd x h1
        simp only [List.mem_cons] at this
        exact this.resolve_left h2)
      refine ⟨H', by simp [hs, e1, Res.seq, e'], r1.trans r', d', ?_⟩
      intro K c x hx
      exact k' K (c.restrict r1 (k1 K c)) x hx
    · obtain ⟨H', e', r', d', k'⟩ := ih H h (by
        intro x hx
        have := hd x hx
        simp only [List.mem_cons] at this
        refine this.resolve_left ?_
        rintro rfl
        obtain ⟨row, hr, _⟩ := hx
        exact hs (mem_keys_of_get hr))
      exact ⟨H', by simp [hs, e'], r', d', k'⟩

theorem eradicate_ok {H : HMap S V Fn} (h : WF sym H) (hl : sym.Lawful) :
    ∃ H', eradicateDangling sym H = (H', none) ∧ Restrict sym H H' ∧ (∀ x, ¬ Dangling H' x) ∧
      (∀ K, Closed sym H K → ∀ x, K x → x ∈ keys H') :=
  eradOuter_ok hl _ H h fun _ hx => (mem_dangling h.toNF).mpr hx

theorem eradicate_wf {H : HMap S V Fn} (h : WF sym H) (hl : sym.Lawful) :
    WF sym (eradicateDangling sym H).1 := by
  obtain ⟨H', e, r, _⟩ := eradicate_ok h hl
  rw [e]; exact r.wf h hl

end Kwant.Builder
