import Verif.Symmetry.Props
import Verif.Builder.Model

/-! Helper lemmas for the builder model. -/

set_option linter.unusedSectionVars false

namespace Kwant.Builder
open Kwant Kwant.Assoc
variable {S G V Fn : Type} [DecidableEq S] [AddCommGroup G] [DecidableEq G]
variable {sym : Symmetry S G} {hc : V → V}

/-! ### The abstract content of `H` -/

/-- Value of a stored site. -/
def O (H : HMap S V Fn) (a : S) : Option (Val V Fn) := (get H a).map Row.onsite
/-- Value of a stored edge. -/
def E (H : HMap S V Fn) (a b : S) : Option (Stored V Fn) := (get H a).bind fun r => get r.edges b

/-- No duplicate keys in the dictionary nor in any row. -/
structure NF (H : HMap S V Fn) : Prop where
  keys : (keys H).Nodup
  rows : ∀ a row, get H a = some row → (Assoc.keys row.edges).Nodup

theorem E_some_mem {H : HMap S V Fn} {a b st} (h : E H a b = some st) : a ∈ keys H := by
  unfold E at h
  cases hg : get H a with
  | none => simp [hg] at h
  | some r => exact mem_keys_of_get hg

theorem E_none_of_not_mem {H : HMap S V Fn} {a b} (h : a ∉ keys H) : E H a b = none := by
  simp [E, get_eq_none.mpr h]

theorem O_isSome {H : HMap S V Fn} {a} : (O H a).isSome = true ↔ a ∈ keys H := by
  simp [O, get_isSome]

theorem O_none {H : HMap S V Fn} {a} : O H a = none ↔ a ∉ keys H := by
  simp [O, get_eq_none]

theorem mem_edges_iff {H : HMap S V Fn} {a b row} (h : get H a = some row) :
    b ∈ keys row.edges ↔ (E H a b).isSome = true := by
  simp [E, h, get_isSome]

theorem getEdge_eq (H : HMap S V Fn) (a b : S) : getEdge H a b =
    match E H a b with
    | some st => .ok st
    | none => .error (if a ∈ keys H then missing H a b else .keySite a) := by
  unfold getEdge E
  cases hg : get H a with
  | none => simp [get_eq_none.mp hg]
  | some r =>
    simp only [Option.bind_some, mem_keys_of_get hg, if_true]
    cases get r.edges b <;> rfl

theorem getSite_eq (H : HMap S V Fn) (s : S) : getSite sym H s =
    match O H (sym.toFd s) with
    | some v => .ok v
    | none => .error (.keySite (sym.toFd s)) := by
  unfold getSite O
  cases get H (sym.toFd s) <;> rfl

theorem containsHop_eq (H : HMap S V Fn) (x y : S) : containsHop sym H x y =
    if x = y then .error .value else .ok (E H (sym.toFd2 x y).1 (sym.toFd2 x y).2).isSome := by
  unfold containsHop
  by_cases h : x = y
  · simp [h]
  · simp only [h, if_false]
    cases hg : get H (sym.toFd2 x y).1 with
    | none => simp [E, hg]
    | some r =>
      simp only [Except.ok.injEq]
      rw [Bool.eq_iff_iff, decide_eq_true_iff, mem_edges_iff hg]

/-! ### `_set_edge`, `_del_edge` -/

/-- Effect of replacing a row. -/
theorem put_row {H : HMap S V Fn} {a : S} {r r' : Row S V Fn} (hg : get H a = some r)
    (ho : r'.onsite = r.onsite) :
    keys (put H a r') = keys H ∧ O (put H a r') = O H ∧
    ∀ x y, E (put H a r') x y = if a = x then get r'.edges y else E H x y := by
  refine ⟨by simp [keys_put, mem_keys_of_get hg], ?_, ?_⟩
  · funext x
    simp only [O, get_put]
    by_cases hx : a = x
    · subst hx; simp [hg, ho]
    · simp [hx]
  · intro x y
    simp only [E, get_put]
    by_cases hx : a = x <;> simp [hx]

theorem NF.put_row {H : HMap S V Fn} {a : S} {r' : Row S V Fn} (h : NF H)
    (hr : (Assoc.keys r'.edges).Nodup) : NF (put H a r') := by
  refine ⟨nodup_put h.keys, ?_⟩
  intro x row hx
  rw [get_put] at hx
  by_cases hax : a = x
  · simp only [hax, if_true, Option.some.injEq] at hx; subst hx; exact hr
  · simp only [hax, if_false] at hx; exact h.rows x row hx

theorem setEdge_missing {H : HMap S V Fn} {a b st} (h : a ∉ keys H) :
    setEdge H a b st = (H, some (.keySite a)) := by
  simp [setEdge, get_eq_none.mpr h]

theorem setEdge_ok {H : HMap S V Fn} {a b st} (h : a ∈ keys H) (hn : NF H) :
    ∃ H', setEdge H a b st = (H', none) ∧ NF H' ∧ keys H' = keys H ∧ O H' = O H ∧
      ∀ x y, E H' x y = if a = x ∧ b = y then some st else E H x y := by
  obtain ⟨r, hg⟩ := get_of_mem_keys h
  refine ⟨put H a { r with edges := put r.edges b st }, by simp only [setEdge, hg], hn.put_row (nodup_put (hn.rows a r hg)), ?_⟩
  obtain ⟨h1, h2, h3⟩ := put_row (r' := { r with edges := put r.edges b st }) hg rfl
  refine ⟨h1, h2, fun x y => ?_⟩
  rw [h3]
  by_cases hx : a = x
  · subst hx
    simp [get_put, E, hg]
  · simp [hx]

theorem delEdge_ok {H : HMap S V Fn} {a b st} (h : E H a b = some st) (hn : NF H) :
    ∃ H', delEdge H a b = (H', none) ∧ NF H' ∧ keys H' = keys H ∧ O H' = O H ∧
      ∀ x y, E H' x y = if a = x ∧ b = y then none else E H x y := by
  obtain ⟨r, hg⟩ := get_of_mem_keys (E_some_mem h)
  have hb : b ∈ keys r.edges := by rw [mem_edges_iff hg, h]; rfl
  refine ⟨put H a { r with edges := del r.edges b }, by simp only [delEdge, hg, hb, if_true], hn.put_row (nodup_del (hn.rows a r hg)), ?_⟩
  obtain ⟨h1, h2, h3⟩ := put_row (r' := { r with edges := del r.edges b }) hg rfl
  refine ⟨h1, h2, fun x y => ?_⟩
  rw [h3]
  by_cases hx : a = x
  · subst hx
    simp [get_del (hn.rows a r hg), E, hg]
  · simp [hx]

theorem delEdge_missing {H : HMap S V Fn} {a b} (h : E H a b = none) :
    delEdge H a b = (H, some (if a ∈ keys H then missing H a b else .keySite a)) := by
  unfold delEdge
  cases hg : get H a with
  | none => simp [get_eq_none.mp hg]
  | some r =>
    have hb : b ∉ keys r.edges := by rw [mem_edges_iff hg, h]; simp
    simp [hb, mem_keys_of_get hg]

/-- Effect of `del H[a]`. -/
theorem del_row {H : HMap S V Fn} {a : S} (hn : NF H) :
    NF (del H a) ∧ (∀ x, x ∈ keys (del H a) ↔ x ≠ a ∧ x ∈ keys H) ∧
    (∀ x, O (del H a) x = if a = x then none else O H x) ∧
    ∀ x y, E (del H a) x y = if a = x then none else E H x y := by
  refine ⟨⟨nodup_del hn.keys, ?_⟩, fun x => mem_keys_del hn.keys, ?_, ?_⟩
  · intro x row hx
    rw [get_del hn.keys] at hx
    by_cases hax : a = x
    · simp [hax] at hx
    · simp only [hax, if_false] at hx; exact hn.rows x row hx
  · intro x
    simp only [O, get_del hn.keys]
    by_cases hx : a = x <;> simp [hx]
  · intro x y
    simp only [E, get_del hn.keys]
    by_cases hx : a = x <;> simp [hx]

/-! ### Reversing a hopping -/

/-- The representative of the reversed hopping. -/
def rev (sym : Symmetry S G) (a b : S) : S × S := sym.toFd2 b a

theorem toFd2_eq (sym : Symmetry S G) (a b : S) :
    sym.toFd2 a b = (sym.act (-sym.which a) a, sym.act (-sym.which a) b) := rfl

theorem rev_fst_fd (hl : sym.Lawful) (a b : S) : sym.which (rev sym a b).1 = 0 := by
  simp [rev, toFd2_eq, hl.which_act]

theorem toFd2_fst_fd (hl : sym.Lawful) (a b : S) : sym.which (sym.toFd2 a b).1 = 0 := by
  simp [toFd2_eq, hl.which_act]

theorem toFd2_of_fd (hl : sym.Lawful) {a : S} (ha : sym.which a = 0) (b : S) : sym.toFd2 a b = (a, b) := by
  simp [toFd2_eq, ha, hl.act_zero]

theorem rev_toFd2 (hl : sym.Lawful) (x y : S) :
    rev sym (sym.toFd2 x y).1 (sym.toFd2 x y).2 = sym.toFd2 y x := by
  simp only [rev]; exact hl.toFd2_act (-sym.which x) y x

theorem rev_rev (hl : sym.Lawful) {a : S} (ha : sym.which a = 0) (b : S) :
    rev sym (rev sym a b).1 (rev sym a b).2 = (a, b) := by
  simp only [rev]
  rw [show sym.toFd2 (sym.toFd2 b a).2 (sym.toFd2 b a).1 = sym.toFd2 a b from
    hl.toFd2_act (-sym.which b) a b, toFd2_of_fd hl ha]

theorem rev_ne (hl : sym.Lawful) {a b : S} (hab : a ≠ b) : rev sym a b ≠ (a, b) := by
  intro h
  simp only [rev, toFd2_eq, Prod.mk.injEq] at h
  obtain ⟨h1, h2⟩ := h
  have h3 : sym.act (-sym.which b + -sym.which b) b = b := by
    rw [← hl.act_add, h1, h2]
  have h4 : (-sym.which b + -sym.which b) = 0 := by
    have := hl.act_free (a := b) (g := -sym.which b + -sym.which b) (g' := 0)
    rw [hl.act_zero] at this
    exact this.mp h3
  have h5 := hl.torsion _ h4
  rw [h5, hl.act_zero] at h1
  exact hab h1.symm

theorem toFd2_ne (hl : sym.Lawful) {x y : S} (h : x ≠ y) : (sym.toFd2 x y).1 ≠ (sym.toFd2 x y).2 := by
  simpa [toFd2_eq, hl.act_inj] using h

theorem rev_fst_ne_snd (hl : sym.Lawful) {a b : S} (h : a ≠ b) : (rev sym a b).1 ≠ (rev sym a b).2 :=
  toFd2_ne hl (Ne.symm h)

/-- `in_fd(b)` for a hopping with `a` in the domain iff the far end of the reverse is too. -/
theorem rev_inFd (hl : sym.Lawful) {a b : S} (ha : sym.which a = 0) :
    sym.inFd (rev sym a b).2 = sym.inFd b := by
  simp [Symmetry.inFd, rev, toFd2_eq, hl.which_act, ha]

theorem rev_of_inFd (hl : sym.Lawful) {a b : S} (hb : sym.inFd b = true) : rev sym a b = (b, a) := by
  simp only [rev]
  exact toFd2_of_fd hl (by simpa [Symmetry.inFd] using hb) a

theorem rev_fst_eq (sym : Symmetry S G) (a b : S) : (rev sym a b).1 = sym.toFd b := rfl

theorem toFd2_eq_iff (hl : sym.Lawful) (x y a b : S) :
    sym.toFd2 x y = sym.toFd2 a b ↔ ∃ g, x = sym.act g a ∧ y = sym.act g b := by
  constructor
  · intro h
    simp only [toFd2_eq, Prod.mk.injEq] at h
    refine ⟨sym.which x + -sym.which a, ?_, ?_⟩
    · rw [← hl.act_add, ← h.1, hl.act_act_neg]
    · rw [← hl.act_add, ← h.2, hl.act_act_neg]
  · rintro ⟨g, rfl, rfl⟩; exact hl.toFd2_act g a b

/-! ### The invariant -/

/-- Well-formed builder contents. -/
structure WF (sym : Symmetry S G) (H : HMap S V Fn) : Prop extends NF H where
  fd : ∀ a ∈ Assoc.keys H, sym.which a = 0
  pair : ∀ a b st, E H a b = some st → a ≠ b ∧
    ∃ st', E H (rev sym a b).1 (rev sym a b).2 = some st' ∧ (st = .other ↔ st' ≠ .other)

theorem WF.toFd_mem {H : HMap S V Fn} (h : WF sym H) (hl : sym.Lawful) {a b st}
    (he : E H a b = some st) : sym.toFd b ∈ keys H := by
  obtain ⟨_, st', h1, _⟩ := h.pair a b st he
  exact E_some_mem h1

theorem WF.which_zero {H : HMap S V Fn} (h : WF sym H) {a b st} (he : E H a b = some st) :
    sym.which a = 0 := h.fd a (E_some_mem he)

theorem WF.mem_iff_fd {H : HMap S V Fn} (h : WF sym H) (hl : sym.Lawful) {a b st}
    (he : E H a b = some st) : b ∈ keys H ↔ sym.which b = 0 := by
  constructor
  · exact h.fd b
  · intro hb
    have := h.toFd_mem hl he
    rwa [hl.toFd_of_which hb] at this

theorem WF.empty : WF sym ([] : HMap S V Fn) where
  keys := by simp
  rows := by simp
  fd := by simp
  pair := by simp [E]

/-! ### Reading -/

/-- Value of a hopping in terms of the stored edges, for well-formed contents. -/
def edgeVal (hc : V → V) (sym : Symmetry S G) (H : HMap S V Fn) (a b : S) : Option (Val V Fn) :=
  match E H a b with
  | none => none
  | some (.const v) => some (.const v)
  | some (.func f) => some (.func f)
  | some .other =>
    match E H (rev sym a b).1 (rev sym a b).2 with
    | some (.const v) => some (.const (hc v))
    | some (.func f) => some (.herm f)
    | _ => none

/-- `KeyError` of a missing hopping. -/
def hopErr (H : HMap S V Fn) (a b : S) : Err S := if a ∈ keys H then missing H a b else .keySite a

theorem getHop_eq {H : HMap S V Fn} (h : WF sym H) (hl : sym.Lawful) {x y : S} (hxy : x ≠ y) :
    getHop sym hc H x y =
      match edgeVal hc sym H (sym.toFd2 x y).1 (sym.toFd2 x y).2 with
      | some v => .ok v
      | none => .error (hopErr H (sym.toFd2 x y).1 (sym.toFd2 x y).2) := by
  have hfd := toFd2_fst_fd hl x y
  have hne := toFd2_ne hl hxy
  unfold getHop
  simp only [hxy, if_false]
  generalize (sym.toFd2 x y).1 = a at *
  generalize (sym.toFd2 x y).2 = b at *
  rw [getEdge_eq]
  unfold edgeVal
  cases he : E H a b with
  | none => simp [hopErr]
  | some st =>
    cases st with
    | const v => rfl
    | func f => rfl
    | other =>
      obtain ⟨_, st', h1, h2⟩ := h.pair a b _ he
      have hst : st' ≠ .other := h2.mp rfl
      simp only
      have hrev : (if sym.inFd b = true then getOther hc H b a
          else if sym.inFd (sym.toFd2 b a).2 = true then .error .assertion
          else getOther hc H (sym.toFd2 b a).1 (sym.toFd2 b a).2) =
          getOther hc H (rev sym a b).1 (rev sym a b).2 := by
        by_cases hb : sym.inFd b = true
        · simp only [hb, if_true, rev_of_inFd hl hb]
        · have := rev_inFd hl (b := b) hfd
          simp only [rev] at this
          simp only [hb, this, rev]; rfl
      rw [hrev]
      simp only [getOther, getEdge_eq, h1]
      cases st' with
      | const v => rfl
      | func f => rfl
      | other => exact absurd rfl hst

theorem edgeVal_isSome {H : HMap S V Fn} (h : WF sym H) (a b : S) :
    (edgeVal hc sym H a b).isSome = (E H a b).isSome := by
  unfold edgeVal
  cases he : E H a b with
  | none => rfl
  | some st =>
    cases st with
    | const v => rfl
    | func f => rfl
    | other =>
      obtain ⟨_, st', h1, h2⟩ := h.pair a b _ he
      have hst : st' ≠ .other := h2.mp rfl
      simp only [h1]
      cases st' with
      | const v => rfl
      | func f => rfl
      | other => exact absurd rfl hst

end Kwant.Builder
