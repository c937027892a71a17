import Verif.Builder.Update
import Verif.Builder.FillModel

/-! Correctness of the flood fill. -/
set_option linter.unusedSectionVars false

namespace Kwant.Builder
open Kwant Kwant.Assoc
variable {S G GT V Fn : Type} [DecidableEq S] [AddCommGroup G] [DecidableEq G] [AddCommGroup GT] [DecidableEq GT]
variable {sym : Symmetry S G} {symT : Symmetry S GT} {T : HMap S V Fn} {shape : S → Option Bool}
variable {nv : Val V Fn} {H0 : HMap S V Fn} {start : List S}

theorem foldlM_inv {ε σ α : Type} (f : σ → α → Except ε σ) (I : List α → σ → Prop)
    (l : List α) (s s' : σ) (h0 : I [] s)
    (hstep : ∀ p x r s s', l = p ++ x :: r → I p s → f s x = .ok s' → I (p ++ [x]) s')
    (hok : l.foldlM f s = .ok s') : I l s' := by
  suffices H : ∀ (r p : List α) (s : σ), l = p ++ r → I p s → r.foldlM f s = .ok s' → I l s' from
    H l [] s rfl h0 hok
  intro r
  induction r with
  | nil =>
    intro p s hl hI he
    simp only [List.foldlM_nil] at he
    obtain rfl : s = s' := by injection he
    simpa [hl] using hI
  | cons x r ih =>
    intro p s hl hI he
    rw [List.foldlM_cons] at he
    cases hf : f s x with
    | error e => rw [hf] at he; cases he
    | ok s1 =>
      rw [hf] at he
      exact ih (p ++ [x]) s1 (by simp [hl]) (hstep p x r s s1 hl hI hf) he

/-- The symmetry of the target is a subgroup of that of the template (`has_subgroup`). -/
def SubSym (sym : Symmetry S G) (symT : Symmetry S GT) : Prop :=
  ∀ g, ∃ g', ∀ s, sym.act g s = symT.act g' s

/-- Stored value of a hopping of the (infinite) template. -/
def te (symT : Symmetry S GT) (T : HMap S V Fn) (x y : S) : Option (Stored V Fn) :=
  E T (symT.toFd2 x y).1 (symT.toFd2 x y).2

/-- The sites that a flood fill has to add: reachable from the starting sites through template hoppings
inside the shape, without stepping on sites that were already present.  (Members are in the fundamental
domain of the target.) -/
inductive FillReach (sym : Symmetry S G) (symT : Symmetry S GT) (T : HMap S V Fn) (shape : S → Option Bool)
    (H0 : HMap S V Fn) (start : List S) : S → Prop where
  | start (s : S) : s ∈ start → containsSite symT T s = true → containsSite sym H0 s = false →
      shape (sym.toFd s) = some true → FillReach sym symT T shape H0 start (sym.toFd s)
  | step (x y : S) : FillReach sym symT T shape H0 start x → containsHop symT T x y = .ok true →
      containsSite sym H0 y = false → shape (sym.toFd y) = some true →
      FillReach sym symT T shape H0 start (sym.toFd y)

section
variable (hl : sym.Lawful) (hlT : symT.Lawful) (wT : WF symT T) (w0 : WF sym H0) (sub : SubSym sym symT)
include hl hlT wT w0 sub

omit hl wT w0 in
theorem te_act (g : G) (x y : S) : te symT T (sym.act g x) (sym.act g y) = te symT T x y := by
  obtain ⟨g', hg⟩ := sub g
  unfold te
  rw [hg, hg, hlT.toFd2_act]

omit hl wT w0 in
theorem te_toFd2 (x y : S) : te symT T (sym.toFd2 x y).1 (sym.toFd2 x y).2 = te symT T x y :=
  te_act hlT sub (-sym.which x) x y

omit hl w0 sub in
theorem te_rev {x y : S} {st} (h : te symT T x y = some st) :
    x ≠ y ∧ ∃ st', te symT T y x = some st' ∧ (st = .other ↔ st' ≠ .other) := by
  obtain ⟨h1, st', h2, h3⟩ := wT.pair _ _ _ h
  rw [rev_toFd2 hlT] at h2
  refine ⟨?_, st', h2, h3⟩
  rintro rfl
  exact h1 (by simp [toFd2_eq])

omit hl w0 sub in
theorem te_mem {x y : S} {st} (h : te symT T x y = some st) : symT.toFd x ∈ keys T := E_some_mem h

omit hl w0 in
theorem toFdT_toFd (x : S) : symT.toFd (sym.toFd x) = symT.toFd x := by
  obtain ⟨g', hg⟩ := sub (-sym.which x)
  have : sym.toFd x = symT.act g' x := hg x
  rw [this, hlT.toFd_act]

omit hl w0 sub in
/-- The row of the template that belongs to `t`, shifted. -/
theorem te_row {t : S} {trow : Row S V Fn} (hg : get T (symT.act (-symT.which t) t) = some trow) (y : S)
    (v : Stored V Fn) :
    te symT T t y = some v ↔ ∃ h, (h, v) ∈ trow.edges ∧ y = symT.act (symT.which t) h := by
  have hg' : get T (symT.toFd2 t y).1 = some trow := hg
  unfold te E
  rw [hg']
  simp only [Option.bind_some]
  constructor
  · intro h
    exact ⟨_, mem_of_get h, by simp only [toFd2_eq, hlT.act_act_neg]⟩
  · rintro ⟨h, hm, rfl⟩
    have : (symT.toFd2 t (symT.act (symT.which t) h)).2 = h := by simp only [toFd2_eq, hlT.act_neg_act]
    rw [this]
    exact get_of_mem (wT.rows _ _ hg) hm

/-- Sites that may be connected: present from the beginning or inside the shape. -/
def Adm (sym : Symmetry S G) (shape : S → Option Bool) (H0 : HMap S V Fn) (y : S) : Prop :=
  sym.toFd y ∈ keys H0 ∨ shape (sym.toFd y) = some true

/-- Invariant: `R` are the added sites, `D` those whose value has been set, `W x y` tells that the outgoing
template hopping from the added site `x` to `y` has been treated. -/
structure FInv (sym : Symmetry S G) (symT : Symmetry S GT) (T : HMap S V Fn) (shape : S → Option Bool)
    (nv : Val V Fn) (H0 : HMap S V Fn) (start : List S) (R D : List S) (W : S → S → Prop)
    (H : HMap S V Fn) : Prop where
  nf : NF H
  keys : ∀ x, x ∈ Assoc.keys H ↔ x ∈ Assoc.keys H0 ∨ x ∈ R
  new : ∀ x ∈ R, x ∉ Assoc.keys H0 ∧ sym.which x = 0 ∧ shape x = some true ∧ symT.toFd x ∈ Assoc.keys T ∧
    FillReach sym symT T shape H0 start x
  dr : ∀ x ∈ D, x ∈ R
  wr : ∀ x y, W x y → x ∈ R
  o0 : ∀ x ∈ Assoc.keys H0, O H x = O H0 x
  oD : ∀ x ∈ D, O H x = O T (symT.toFd x)
  e1 : ∀ x y, x ∈ Assoc.keys H0 → W (rev sym x y).1 (rev sym x y).2 → E H x y = te symT T x y
  e2 : ∀ x y, x ∈ Assoc.keys H0 → ¬ W (rev sym x y).1 (rev sym x y).2 → E H x y = E H0 x y
  e3 : ∀ x y, x ∉ Assoc.keys H0 → W x y → Adm sym shape H0 y → E H x y = te symT T x y
  e4 : ∀ x y, x ∉ Assoc.keys H0 → ¬ (W x y ∧ Adm sym shape H0 y) → E H x y = none
  cl : ∀ x y, W x y → (te symT T x y).isSome = true → Adm sym shape H0 y → sym.toFd y ∈ Assoc.keys H0 ∨ sym.toFd y ∈ R
  cs : ∀ x y, W x y → (te symT T x y).isSome = true → sym.toFd y ∈ Assoc.keys H0 ∨ shape (sym.toFd y) ≠ none

omit hlT wT sub in
/-- `W` may be extended where the template has no hopping. -/
theorem FInv.extend {R D : List S} {W W' : S → S → Prop} {H : HMap S V Fn}
    (i : FInv sym symT T shape nv H0 start R D W H)
    (hte : ∀ x y, te symT T x y = none → te symT T y x = none)
    (hto : ∀ x y, te symT T (sym.toFd2 x y).1 (sym.toFd2 x y).2 = te symT T x y)
    (h1 : ∀ x y, W x y → W' x y)
    (h2 : ∀ x y, W' x y → W x y ∨ (x ∈ R ∧ te symT T x y = none)) :
    FInv sym symT T shape nv H0 start R D W' H := by
  refine ⟨i.nf, i.keys, i.new, i.dr, ?_, i.o0, i.oD, ?_, ?_, ?_, ?_, ?_, ?_⟩
  · intro x y h
    rcases h2 x y h with h | h
    · exact i.wr x y h
    · exact h.1
  · intro x y hx hW
    by_cases hw : W (rev sym x y).1 (rev sym x y).2
    · exact i.e1 x y hx hw
    · rcases h2 _ _ hW with h | ⟨hR, hn⟩
      · exact absurd h hw
      · rw [i.e2 x y hx hw]
        have hn' : te symT T x y = none := hte _ _ (by rw [← hto]; exact hn)
        rw [hn']
        cases he : E H0 x y with
        | none => rfl
        | some st =>
          have hm := w0.toFd_mem hl he
          exact absurd hm (i.new _ hR).1
  · intro x y hx hW
    exact i.e2 x y hx fun h => hW (h1 _ _ h)
  · intro x y hx hW ha
    rcases h2 x y hW with h | ⟨_, hn⟩
    · exact i.e3 x y hx h ha
    · by_cases hw : W x y
      · exact i.e3 x y hx hw ha
      · rw [i.e4 x y hx (fun h => hw h.1), hn]
  · intro x y hx hW
    exact i.e4 x y hx fun h => hW ⟨h1 _ _ h.1, h.2⟩
  · intro x y hW hs ha
    rcases h2 x y hW with h | ⟨_, hn⟩
    · exact i.cl x y h hs ha
    · rw [hn] at hs; simp at hs
  · intro x y hW hs
    rcases h2 x y hW with h | ⟨_, hn⟩
    · exact i.cs x y h hs
    · rw [hn] at hs; simp at hs

/-- Effect of appending an outgoing edge that is not there yet. -/
theorem fillOut_effect {H : HMap S V Fn} (hn : NF H) {t y : S} {v : Stored V Fn} (ht : t ∈ Assoc.keys H)
    (hno : E H t y = none) :
    NF (fillOut [] t y v H) ∧ Assoc.keys (fillOut [] t y v H) = Assoc.keys H ∧ O (fillOut [] t y v H) = O H ∧
    ∀ a b, E (fillOut [] t y v H) a b = if t = a ∧ y = b then some v else E H a b := by
  obtain ⟨row, hg⟩ := get_of_mem_keys ht
  have hny : y ∉ Assoc.keys row.edges := by rw [mem_edges_iff hg, hno]; simp
  have happ : ∀ (l : List (S × Stored V Fn)), y ∉ Assoc.keys l → l ++ [(y, v)] = Assoc.put l y v := by
    intro l hl
    induction l with
    | nil => rfl
    | cons p l ih =>
      obtain ⟨k, u⟩ := p
      simp only [keys_cons, List.mem_cons, not_or] at hl
      simp [Assoc.put, Ne.symm hl.1, ih hl.2]
  have : fillOut [] t y v H = (setEdge H t y v).1 := by
    simp [fillOut, setEdge, hg, happ _ hny]
  obtain ⟨H', e, n, k, o, hE⟩ := setEdge_ok (b := y) (st := v) ht hn
  rw [this, e]
  exact ⟨n, k, o, hE⟩

/-- One head. `Wt`: the heads of `t` treated so far. -/
theorem fillHead_inv {R D : List S} {W : S → S → Prop} {H H' : HMap S V Fn} {N N' oldA : List S}
    {t h0 : S} {v : Stored V Fn}
    (i : FInv sym symT T shape nv H0 start R D W H)
    (ht : t ∈ R) (hte : te symT T t (symT.act (symT.which t) h0) = some v)
    (hW : ¬ W t (symT.act (symT.which t) h0))
    (hold : ∀ z, z ∈ oldA ∨ z ∈ N → z ∈ R)
    (hkey : sym.toFd (symT.act (symT.which t) h0) ∈ R →
      sym.toFd (symT.act (symT.which t) h0) ∈ oldA ∨ sym.toFd (symT.act (symT.which t) h0) ∈ N)
    (hok : fillHead sym symT T shape nv oldA [] t (symT.which t) (H, N) (h0, v) = .ok (H', N')) :
    ∃ M, N' = N ++ M ∧ (∀ z ∈ M, z ∉ R) ∧ M.length ≤ 1 ∧
      FInv sym symT T shape nv H0 start (R ++ M) D
        (fun x y => W x y ∨ (x = t ∧ y = symT.act (symT.which t) h0)) H' := by
  generalize hhd : symT.act (symT.which t) h0 = head at *
  have htn := i.new t ht
  have htk : t ∈ Assoc.keys H := (i.keys t).mpr (.inr ht)
  have hrevt : rev sym t head = sym.toFd2 head t := rfl
  have hEt : E H t head = none := i.e4 t head htn.1 fun h => hW h.1
  have hrt : rev sym (rev sym t head).1 (rev sym t head).2 = (t, head) := rev_rev hl htn.2.1 head
  obtain ⟨hne, st', hte', hst'⟩ := te_rev hlT wT hte
  -- uniqueness: a reverse edge equal to (t, head)
  have hreq : ∀ x y, x ∈ Assoc.keys H0 → rev sym x y = (t, head) → (x, y) = rev sym t head := by
    intro x y hx e
    have := rev_rev hl (w0.fd x hx) y
    rw [e] at this
    exact this.symm
  unfold fillHead at hok
  simp only [hhd] at hok
  by_cases hA : sym.toFd head ∈ oldA ∨ sym.toFd head ∈ N
  · rw [if_pos hA] at hok
    obtain ⟨rfl, rfl⟩ := Prod.mk.inj (Except.ok.inj hok)
    obtain ⟨n1, k1, o1, E1⟩ := fillOut_effect hl hlT wT w0 sub (v := v) i.nf htk hEt
    have hfR := hold _ hA
    have hf0 := (i.new _ hfR).1
    refine ⟨[], by simp, by simp, by simp, ?_⟩
    rw [List.append_nil]
    refine ⟨n1, by rw [k1]; exact i.keys, i.new, i.dr, ?_, by rw [o1]; exact i.o0, by rw [o1]; exact i.oD,
      ?_, ?_, ?_, ?_, ?_, ?_⟩
    · rintro x y (h | ⟨rfl, _⟩)
      · exact i.wr x y h
      · exact ht
    · rintro x y hx hw
      have hxt : ¬ (t = x ∧ head = y) := fun h => htn.1 (h.1 ▸ hx)
      rw [E1, if_neg hxt]
      rcases hw with h | ⟨h1, h2⟩
      · exact i.e1 x y hx h
      · have := hreq x y hx (Prod.ext h1 h2)
        have h3 : x = sym.toFd head := by
          have := congrArg Prod.fst this; exact this
        rw [h3] at hx; exact absurd hx hf0
    · rintro x y hx hw
      have hxt : ¬ (t = x ∧ head = y) := fun h => htn.1 (h.1 ▸ hx)
      rw [E1, if_neg hxt]
      exact i.e2 x y hx fun h => hw (.inl h)
    · rintro x y hx hw ha
      rw [E1]
      by_cases hxt : t = x ∧ head = y
      · rw [if_pos hxt, ← hxt.1, ← hxt.2, hte]
      · rw [if_neg hxt]
        rcases hw with h | ⟨h1, h2⟩
        · exact i.e3 x y hx h ha
        · exact absurd ⟨h1.symm, h2.symm⟩ hxt
    · rintro x y hx hw
      rw [E1]
      by_cases hxt : t = x ∧ head = y
      · exfalso
        apply hw
        refine ⟨.inr ⟨hxt.1.symm, hxt.2.symm⟩, ?_⟩
        rw [← hxt.2]
        exact .inr (i.new _ hfR).2.2.1
      · rw [if_neg hxt]
        exact i.e4 x y hx fun h => hw ⟨.inl h.1, h.2⟩
    · rintro x y (h | ⟨rfl, rfl⟩) hs ha
      · exact i.cl x y h hs ha
      · exact .inr hfR
    · rintro x y (h | ⟨rfl, rfl⟩) hs
      · exact i.cs x y h hs
      · exact .inr (by rw [(i.new _ hfR).2.2.1]; simp)
  · rw [if_neg hA] at hok
    by_cases hB : sym.toFd head ∈ Assoc.keys H
    · rw [if_pos hB] at hok
      have hf0 : sym.toFd head ∈ Assoc.keys H0 := by
        rcases (i.keys _).mp hB with h | h
        · exact h
        · exact absurd (hkey h) hA
      have hge : getEdge T (symT.toFd2 head t).1 (symT.toFd2 head t).2 = .ok st' := by
        rw [getEdge_eq]
        have : E T (symT.toFd2 head t).1 (symT.toFd2 head t).2 = some st' := hte'
        rw [this]
      obtain ⟨H1, e1, n1, k1, o1, E1⟩ := setEdge_ok (st := st') (a := (sym.toFd2 head t).1)
        (b := (sym.toFd2 head t).2) hB i.nf
      simp only [hge, e1] at hok
      obtain ⟨rfl, rfl⟩ := Prod.mk.inj (Except.ok.inj hok)
      have hft : (sym.toFd2 head t).1 ≠ t := by
        intro e; exact htn.1 (e ▸ hf0)
      have hEt1 : E H1 t head = none := by
        rw [E1, if_neg (fun h => hft h.1), hEt]
      obtain ⟨n2, k2, o2, E2⟩ := fillOut_effect hl hlT wT w0 sub (v := v) n1 (t := t) (y := head)
        (by rw [k1]; exact htk) hEt1
      refine ⟨[], by simp, by simp, by simp, ?_⟩
      rw [List.append_nil]
      refine ⟨n2, by rw [k2, k1]; exact i.keys, i.new, i.dr, ?_, by rw [o2, o1]; exact i.o0,
        by rw [o2, o1]; exact i.oD, ?_, ?_, ?_, ?_, ?_, ?_⟩
      · rintro x y (h | ⟨rfl, _⟩)
        · exact i.wr x y h
        · exact ht
      · rintro x y hx hw
        have hxt : ¬ (t = x ∧ head = y) := fun h => htn.1 (h.1 ▸ hx)
        rw [E2, if_neg hxt, E1]
        by_cases hxr : (sym.toFd2 head t).1 = x ∧ (sym.toFd2 head t).2 = y
        · rw [if_pos hxr, ← hxr.1, ← hxr.2, te_toFd2 hlT sub, hte']
        · rw [if_neg hxr]
          rcases hw with h | ⟨h1, h2⟩
          · exact i.e1 x y hx h
          · have := hreq x y hx (Prod.ext h1 h2)
            rw [hrevt] at this
            exact absurd ⟨(congrArg Prod.fst this).symm, (congrArg Prod.snd this).symm⟩ hxr
      · rintro x y hx hw
        have hxt : ¬ (t = x ∧ head = y) := fun h => htn.1 (h.1 ▸ hx)
        have hxr : ¬ ((sym.toFd2 head t).1 = x ∧ (sym.toFd2 head t).2 = y) := by
          rintro ⟨h1, h2⟩
          apply hw
          right
          rw [← h1, ← h2, ← hrevt, hrt]; exact ⟨rfl, rfl⟩
        rw [E2, if_neg hxt, E1, if_neg hxr]
        exact i.e2 x y hx fun h => hw (.inl h)
      · rintro x y hx hw ha
        have hxr : ¬ ((sym.toFd2 head t).1 = x ∧ (sym.toFd2 head t).2 = y) := by
          rintro ⟨h1, _⟩; rw [← h1] at hx; exact hx hf0
        rw [E2, E1, if_neg hxr]
        by_cases hxt : t = x ∧ head = y
        · rw [if_pos hxt, ← hxt.1, ← hxt.2, hte]
        · rw [if_neg hxt]
          rcases hw with h | ⟨h1, h2⟩
          · exact i.e3 x y hx h ha
          · exact absurd ⟨h1.symm, h2.symm⟩ hxt
      · rintro x y hx hw
        have hxr : ¬ ((sym.toFd2 head t).1 = x ∧ (sym.toFd2 head t).2 = y) := by
          rintro ⟨h1, _⟩; rw [← h1] at hx; exact hx hf0
        rw [E2, E1, if_neg hxr]
        by_cases hxt : t = x ∧ head = y
        · exfalso
          apply hw
          refine ⟨.inr ⟨hxt.1.symm, hxt.2.symm⟩, ?_⟩
          rw [← hxt.2]
          exact .inl hf0
        · rw [if_neg hxt]
          exact i.e4 x y hx fun h => hw ⟨.inl h.1, h.2⟩
      · rintro x y (h | ⟨rfl, rfl⟩) hs ha
        · exact i.cl x y h hs ha
        · exact .inl hf0
      · rintro x y (h | ⟨rfl, rfl⟩) hs
        · exact i.cs x y h hs
        · exact .inl hf0
    · rw [if_neg hB] at hok
      have hf0 : sym.toFd head ∉ Assoc.keys H0 := fun h => hB ((i.keys _).mpr (.inl h))
      have hfR : sym.toFd head ∉ R := fun h => hB ((i.keys _).mpr (.inr h))
      cases hsh : shape (sym.toFd head) with
      | none => simp [hsh] at hok
      | some b =>
        cases b with
        | false =>
          simp only [hsh] at hok
          obtain ⟨rfl, rfl⟩ := Prod.mk.inj (Except.ok.inj hok)
          have hnadm : ¬ Adm sym shape H0 head := by
            rintro (h | h)
            · exact hf0 h
            · rw [hsh] at h; simp at h
          refine ⟨[], by simp, by simp, by simp, ?_⟩
          rw [List.append_nil]
          refine ⟨i.nf, i.keys, i.new, i.dr, ?_, i.o0, i.oD, ?_, ?_, ?_, ?_, ?_, ?_⟩
          · rintro x y (h | ⟨rfl, _⟩)
            · exact i.wr x y h
            · exact ht
          · rintro x y hx (h | ⟨h1, h2⟩)
            · exact i.e1 x y hx h
            · have := hreq x y hx (Prod.ext h1 h2)
              have h3 : x = sym.toFd head := congrArg Prod.fst this
              rw [h3] at hx; exact absurd hx hf0
          · rintro x y hx hw
            exact i.e2 x y hx fun h => hw (.inl h)
          · rintro x y hx (h | ⟨rfl, rfl⟩) ha
            · exact i.e3 x y hx h ha
            · exact absurd ha hnadm
          · rintro x y hx hw
            exact i.e4 x y hx fun h => hw ⟨.inl h.1, h.2⟩
          · rintro x y (h | ⟨rfl, rfl⟩) hs ha
            · exact i.cl x y h hs ha
            · exact absurd ha hnadm
          · rintro x y (h | ⟨rfl, rfl⟩) hs
            · exact i.cs x y h hs
            · exact .inr (by rw [hsh]; simp)
        | true =>
          simp only [hsh] at hok
          obtain ⟨rfl, rfl⟩ := Prod.mk.inj (Except.ok.inj hok)
          have hft : sym.toFd head ≠ t := by rintro e; exact hfR (e ▸ ht)
          have hgn : get H (sym.toFd head) = none := get_eq_none.mpr hB
          have hEp : ∀ a b, E (put H (sym.toFd head) ⟨nv, []⟩) a b = E H a b := by
            intro a b
            simp only [E, get_put]
            by_cases hab : sym.toFd head = a
            · subst hab; simp [hgn]
            · simp [hab]
          have hOp : ∀ a, a ≠ sym.toFd head → O (put H (sym.toFd head) ⟨nv, []⟩) a = O H a := by
            intro a ha
            simp [O, get_put, Ne.symm ha]
          have hkp : ∀ a, a ∈ Assoc.keys (put H (sym.toFd head) ⟨nv, []⟩) ↔ a = sym.toFd head ∨ a ∈ Assoc.keys H :=
            fun a => mem_keys_put
          have np : NF (put H (sym.toFd head) ⟨nv, []⟩) := i.nf.put_row (by simp)
          obtain ⟨n2, k2, o2, E2⟩ := fillOut_effect hl hlT wT w0 sub (v := v) np (t := t) (y := head)
            ((hkp t).mpr (.inr htk)) (by rw [hEp, hEt])
          refine ⟨[sym.toFd head], rfl, by simpa using hfR, by simp, ?_⟩
          refine ⟨n2, ?_, ?_, ?_, ?_, ?_, ?_, ?_, ?_, ?_, ?_, ?_, ?_⟩
          · intro x
            rw [k2, hkp, i.keys]
            simp only [List.mem_append, List.mem_singleton]
            tauto
          · intro x hx
            simp only [List.mem_append, List.mem_singleton] at hx
            rcases hx with hx | rfl
            · exact i.new x hx
            · refine ⟨hf0, hl.which_toFd head, hsh, ?_, ?_⟩
              · rw [toFdT_toFd hlT wT sub]
                exact te_mem hlT wT hte'
              · refine FillReach.step t head htn.2.2.2.2 ?_ ?_ hsh
                · rw [containsHop_eq, if_neg hne]
                  have : E T (symT.toFd2 t head).1 (symT.toFd2 t head).2 = some v := hte
                  rw [this]; rfl
                · simpa [containsSite] using hf0
          · intro x hx; exact List.mem_append_left _ (i.dr x hx)
          · rintro x y (h | ⟨rfl, _⟩)
            · exact List.mem_append_left _ (i.wr x y h)
            · exact List.mem_append_left _ ht
          · intro x hx
            rw [o2, hOp x (by rintro rfl; exact hf0 hx)]
            exact i.o0 x hx
          · intro x hx
            rw [o2, hOp x (by rintro rfl; exact hfR (i.dr _ hx))]
            exact i.oD x hx
          · rintro x y hx hw
            have hxt : ¬ (t = x ∧ head = y) := fun h => htn.1 (h.1 ▸ hx)
            rw [E2, if_neg hxt, hEp]
            rcases hw with h | ⟨h1, h2⟩
            · exact i.e1 x y hx h
            · have := hreq x y hx (Prod.ext h1 h2)
              have h3 : x = sym.toFd head := congrArg Prod.fst this
              rw [h3] at hx; exact absurd hx hf0
          · rintro x y hx hw
            have hxt : ¬ (t = x ∧ head = y) := fun h => htn.1 (h.1 ▸ hx)
            rw [E2, if_neg hxt, hEp]
            exact i.e2 x y hx fun h => hw (.inl h)
          · rintro x y hx hw ha
            rw [E2, hEp]
            by_cases hxt : t = x ∧ head = y
            · rw [if_pos hxt, ← hxt.1, ← hxt.2, hte]
            · rw [if_neg hxt]
              rcases hw with h | ⟨h1, h2⟩
              · exact i.e3 x y hx h ha
              · exact absurd ⟨h1.symm, h2.symm⟩ hxt
          · rintro x y hx hw
            rw [E2, hEp]
            by_cases hxt : t = x ∧ head = y
            · exfalso
              apply hw
              refine ⟨.inr ⟨hxt.1.symm, hxt.2.symm⟩, ?_⟩
              rw [← hxt.2]
              exact .inr hsh
            · rw [if_neg hxt]
              exact i.e4 x y hx fun h => hw ⟨.inl h.1, h.2⟩
          · rintro x y (h | ⟨rfl, rfl⟩) hs ha
            · rcases i.cl x y h hs ha with h | h
              · exact .inl h
              · exact .inr (List.mem_append_left _ h)
            · exact .inr (by simp)
          · rintro x y (h | ⟨rfl, rfl⟩) hs
            · exact i.cs x y h hs
            · exact .inr (by rw [hsh]; simp)

/-- Processing of one active site. -/
theorem fillTail_inv {R D : List S} {H H' : HMap S V Fn} {N N' oldA : List S} {t : S}
    (i : FInv sym symT T shape nv H0 start R D (fun x _ => x ∈ D) H)
    (ht : t ∈ R) (htD : t ∉ D)
    (hold : ∀ z, z ∈ oldA ∨ z ∈ N → z ∈ R)
    (hkey : ∀ y, (te symT T t y).isSome = true → sym.toFd y ∈ R → sym.toFd y ∈ oldA ∨ sym.toFd y ∈ N)
    (hok : fillTail sym symT T shape nv oldA t (H, N) = .ok (H', N')) :
    ∃ M, N' = N ++ M ∧ M.Nodup ∧ (∀ z ∈ M, z ∉ R) ∧
      FInv sym symT T shape nv H0 start (R ++ M) (D ++ [t]) (fun x _ => x ∈ D ++ [t]) H' := by
  unfold fillTail at hok
  obtain ⟨trow, htr⟩ : ∃ trow, Assoc.get T (symT.act (-symT.which t) t) = some trow :=
    get_of_mem_keys (i.new t ht).2.2.2.1
  have htk : t ∈ Assoc.keys H := (i.keys t).mpr (.inr ht)
  obtain ⟨row, hrow⟩ := get_of_mem_keys htk
  have hempty : Assoc.keys row.edges = [] := by
    rw [List.eq_nil_iff_forall_not_mem]
    intro y hy
    rw [mem_edges_iff hrow, i.e4 t y (i.new t ht).1 fun h => htD h.1] at hy
    simp at hy
  simp only [htr, hrow, hempty] at hok
  have hnd := wT.rows _ _ htr
  have hE0 : ∀ a b, E (put H t { row with onsite := trow.onsite }) a b = E H a b := by
    intro a b
    simp only [E, get_put]
    by_cases hab : t = a
    · subst hab; simp [hrow]
    · simp [hab]
  have hO0 : ∀ a, a ≠ t → O (put H t { row with onsite := trow.onsite }) a = O H a := by
    intro a ha
    simp [O, get_put, Ne.symm ha]
  have key := foldlM_inv (fillHead sym symT T shape nv oldA [] t (symT.which t))
    (fun p st => ∃ M, st.2 = N ++ M ∧ M.Nodup ∧ (∀ z ∈ M, z ∉ R) ∧
      FInv sym symT T shape nv H0 start (R ++ M) (D ++ [t])
        (fun x y => x ∈ D ∨ (x = t ∧ ∃ hv ∈ p, y = symT.act (symT.which t) hv.1)) st.1)
    trow.edges _ _ ?_ ?_ hok
  · obtain ⟨M, h1, h2, h3, h4⟩ := key
    refine ⟨M, h1, h2, h3, ?_⟩
    refine h4.extend hl w0 (fun x y h => ?_) (te_toFd2 hlT sub) (fun x y h => ?_) (fun x y h => ?_)
    · by_contra hc
      obtain ⟨v, hv⟩ := Option.ne_none_iff_exists'.mp hc
      obtain ⟨_, st', h', _⟩ := te_rev hlT wT hv
      rw [h] at h'; cases h'
    · rcases h with h | ⟨rfl, _⟩
      · exact List.mem_append_left _ h
      · simp
    · rcases List.mem_append.mp h with h | h
      · exact .inl (.inl h)
      · obtain rfl : x = t := by simpa using h
        cases hv : te symT T x y with
        | none => exact .inr ⟨List.mem_append_left _ ht, rfl⟩
        | some v =>
          obtain ⟨h', hm, he⟩ := (te_row hlT wT htr y v).mp hv
          exact .inl (.inr ⟨rfl, _, hm, he⟩)
  · refine ⟨[], by simp, by simp, by simp, ?_⟩
    rw [List.append_nil]
    refine ⟨i.nf.put_row ?_, ?_, i.new, ?_, ?_, ?_, ?_, ?_, ?_, ?_, ?_, ?_, ?_⟩
    · simp [hempty]
    · intro x
      rw [mem_keys_put, ← i.keys]
      constructor
      · rintro (rfl | h)
        · exact htk
        · exact h
      · exact .inr
    · intro x hx
      rcases List.mem_append.mp hx with h | h
      · exact i.dr x h
      · obtain rfl : x = t := by simpa using h
        exact ht
    · rintro x y (h | ⟨_, _, h, _⟩)
      · exact i.dr x h
      · simp at h
    · intro x hx
      rw [hO0 x (by rintro rfl; exact (i.new _ ht).1 hx)]
      exact i.o0 x hx
    · intro x hx
      by_cases hxt : x = t
      · subst hxt
        have : symT.toFd x = symT.act (-symT.which x) x := rfl
        simp [O, get_put, this, htr]
      · rw [hO0 x hxt]
        refine i.oD x ?_
        simpa [hxt] using hx
    · rintro x y hx (h | ⟨_, _, h, _⟩)
      · rw [hE0]; exact i.e1 x y hx h
      · simp at h
    · rintro x y hx h
      rw [hE0]; exact i.e2 x y hx fun h' => h (.inl h')
    · rintro x y hx (h | ⟨_, _, h, _⟩) ha
      · rw [hE0]; exact i.e3 x y hx h ha
      · simp at h
    · rintro x y hx h
      rw [hE0]; exact i.e4 x y hx fun h' => h ⟨.inl h'.1, h'.2⟩
    · rintro x y (h | ⟨_, _, h, _⟩) hs ha
      · exact i.cl x y h hs ha
      · simp at h
    · rintro x y (h | ⟨_, _, h, _⟩) hs
      · exact i.cs x y h hs
      · simp at h
  · rintro p ⟨h0, v⟩ r ⟨H1, N1⟩ ⟨H2, N2⟩ hpl ⟨M, rfl, hM1, hM2, hi⟩ hstep
    have hv : te symT T t (symT.act (symT.which t) h0) = some v :=
      (te_row hlT wT htr _ v).mpr ⟨h0, by simp [hpl], rfl⟩
    have := fillHead_inv hl hlT wT w0 sub hi (List.mem_append_left _ ht) hv ?_ ?_ ?_ hstep
    · obtain ⟨M', hN', hM', hlen, hi'⟩ := this
      refine ⟨M ++ M', by simp [hN'], ?_, ?_, ?_⟩
      · rw [List.nodup_append]
        refine ⟨hM1, ?_, ?_⟩
        · match M', hlen with
          | [], _ => simp
          | [_], _ => simp
        · rintro a ha b hb rfl
          exact hM' a hb (List.mem_append_right _ ha)
      · intro z hz
        rcases List.mem_append.mp hz with h | h
        · exact hM2 z h
        · exact fun hR => hM' z h (List.mem_append_left _ hR)
      · rw [← List.append_assoc]
        convert hi' using 3 with x y
        simp only [List.mem_append, List.mem_singleton]
        constructor
        · rintro (h | ⟨rfl, hv, h | rfl, h'⟩)
          · exact .inl (.inl h)
          · exact .inl (.inr ⟨rfl, hv, h, h'⟩)
          · exact .inr ⟨rfl, h'⟩
        · rintro ((h | ⟨rfl, hv, h, h'⟩) | ⟨rfl, h'⟩)
          · exact .inl h
          · exact .inr ⟨rfl, hv, .inl h, h'⟩
          · exact .inr ⟨rfl, _, .inr rfl, h'⟩
    · rintro (h | ⟨_, hv', hm, he⟩)
      · exact htD h
      · have he : h0 = hv'.1 := by
          have := congrArg (symT.act (-symT.which t)) he
          simpa only [hlT.act_neg_act] using this
        rw [hpl] at hnd
        simp only [Assoc.keys, List.map_append, List.map_cons, List.nodup_append] at hnd
        exact hnd.2.2 hv'.1 (List.mem_map_of_mem hm) h0 (by simp) he.symm
    · rintro z (h | h)
      · exact List.mem_append_left _ (hold z (.inl h))
      · rcases List.mem_append.mp h with h | h
        · exact List.mem_append_left _ (hold z (.inr h))
        · exact List.mem_append_right _ h
    · intro h
      rcases List.mem_append.mp h with h | h
      · rcases hkey _ (by simp [hv]) h with h | h
        · exact .inl h
        · exact .inr (List.mem_append_left _ h)
      · exact .inr (List.mem_append_right _ h)

omit hl hlT wT w0 sub in
theorem FInv.congr {R R' D D' : List S} {W W' : S → S → Prop} {H : HMap S V Fn}
    (i : FInv sym symT T shape nv H0 start R D W H)
    (hR : ∀ x, x ∈ R ↔ x ∈ R') (hD : ∀ x, x ∈ D ↔ x ∈ D') (hW : ∀ x y, W x y ↔ W' x y) :
    FInv sym symT T shape nv H0 start R' D' W' H := by
  obtain rfl : W = W' := by funext x y; exact propext (hW x y)
  exact ⟨i.nf, fun x => by rw [i.keys, hR], fun x hx => i.new x ((hR x).mpr hx),
    fun x hx => (hR x).mp (i.dr x ((hD x).mpr hx)), fun x y h => (hR x).mp (i.wr x y h), i.o0,
    fun x hx => i.oD x ((hD x).mpr hx), i.e1, i.e2, i.e3, i.e4,
    fun x y h1 h2 h3 => (i.cl x y h1 h2 h3).imp_right (hR _).mp, i.cs⟩

/-- Invariant of the outer loop. -/
structure LInv (sym : Symmetry S G) (symT : Symmetry S GT) (T : HMap S V Fn) (shape : S → Option Bool)
    (nv : Val V Fn) (H0 : HMap S V Fn) (start : List S) (D P A : List S) (H : HMap S V Fn) : Prop where
  inv : FInv sym symT T shape nv H0 start (D ++ A) D (fun x _ => x ∈ D) H
  nd : (D ++ A).Nodup
  pd : ∀ x ∈ P, x ∈ D
  j : ∀ x ∈ D, x ∉ P → ∀ y, (te symT T x y).isSome = true → Adm sym shape H0 y →
    sym.toFd y ∈ Assoc.keys H0 ∨ sym.toFd y ∈ D

/-- Invariant of the loop over the active sites; `q` are the sites that have been treated. -/
structure RInv (sym : Symmetry S G) (symT : Symmetry S GT) (T : HMap S V Fn) (shape : S → Option Bool)
    (nv : Val V Fn) (H0 : HMap S V Fn) (start : List S) (D A q : List S) (st : FillSt S V Fn) : Prop where
  inv : FInv sym symT T shape nv H0 start (D ++ A ++ st.new) (D ++ q) (fun x _ => x ∈ D ++ q) st.H
  nd : (D ++ A ++ st.new).Nodup
  done : st.done = D ++ q

/-- The heads that were added before are still active. -/
theorem LInv.hkey {D P A N : List S} {H : HMap S V Fn} (i : LInv sym symT T shape nv H0 start D P A H)
    {t : S} (ht : t ∈ A) (y : S) (hs : (te symT T t y).isSome = true)
    (hR : sym.toFd y ∈ D ++ A ++ N) : sym.toFd y ∈ P ++ A ∨ sym.toFd y ∈ N := by
  simp only [List.mem_append] at hR ⊢
  rcases hR with (hR | hR) | hR
  · left
    by_cases hP : sym.toFd y ∈ P
    · exact .inl hP
    · exfalso
      have htn := i.inv.new t (List.mem_append_right _ ht)
      have htfd : sym.toFd t = t := hl.toFd_of_which htn.2.1
      obtain ⟨v, hv⟩ := Option.isSome_iff_exists.mp hs
      obtain ⟨_, v', hv', _⟩ := te_rev hlT wT hv
      rw [← te_toFd2 hlT sub] at hv'
      have e1 : (sym.toFd2 y t).1 = sym.toFd y := rfl
      have e2 : sym.toFd (sym.toFd2 y t).2 = t := by
        rw [toFd2_eq, hl.toFd_act, htfd]
      rw [e1] at hv'
      have := i.j _ hR hP _ (by rw [hv']; rfl) (.inr (by rw [e2]; exact htn.2.2.1))
      rw [e2] at this
      rcases this with h | h
      · exact htn.1 h
      · have := i.nd
        rw [List.nodup_append] at this
        exact this.2.2 t h t ht rfl
  · exact .inl (.inr hR)
  · exact .inr hR

/-- One active site. -/
theorem fillStep_inv {maxSites : Option ℕ} {D P A q r : List S} {H : HMap S V Fn} {t : S}
    (i : LInv sym symT T shape nv H0 start D P A H) (hp : (q ++ t :: r).Perm A)
    {st st' : FillSt S V Fn} (ri : RInv sym symT T shape nv H0 start D A q st)
    (hok : fillStep sym symT T shape nv maxSites (P ++ A) st t = .ok st') :
    RInv sym symT T shape nv H0 start D A (q ++ [t]) st' := by
  obtain ⟨H1, N1, d1⟩ := st
  have htA : t ∈ A := hp.subset (by simp)
  have hnd2 : (D ++ (q ++ t :: r)).Nodup := ((List.Perm.append_left D hp).nodup_iff).mpr i.nd
  have htD : t ∉ D ++ q := by
    rw [← List.append_assoc, List.nodup_append] at hnd2
    exact fun h => hnd2.2.2 t h t (by simp) rfl
  unfold fillStep at hok
  split at hok
  · cases hok
  · cases hft : fillTail sym symT T shape nv (P ++ A) t (H1, N1) with
    | error e => simp [hft] at hok
    | ok res =>
      obtain ⟨H2, N2⟩ := res
      simp only [hft] at hok
      obtain rfl := Except.ok.inj hok
      obtain ⟨M, rfl, hM1, hM2, hi⟩ := fillTail_inv hl hlT wT w0 sub ri.inv
        (List.mem_append_left _ (List.mem_append_right _ htA)) htD
        (by
          rintro z (h | h)
          · rcases List.mem_append.mp h with h | h
            · exact List.mem_append_left _ (List.mem_append_left _ (i.pd z h))
            · exact List.mem_append_left _ (List.mem_append_right _ h)
          · exact List.mem_append_right _ h)
        (fun y hs hR => i.hkey hl hlT wT w0 sub htA y hs hR) hft
      refine ⟨?_, ?_, ?_⟩
      · simpa only [List.append_assoc] using hi
      · have := ri.nd
        show (D ++ A ++ (N1 ++ M)).Nodup
        rw [← List.append_assoc, List.nodup_append]
        exact ⟨this, hM1, fun a ha b hb e => hM2 b hb (e ▸ ha)⟩
      · have := ri.done
        simp only at this
        simp [this]

/-- A complete round. -/
theorem round_inv {maxSites : Option ℕ} {D P A l : List S} {H : HMap S V Fn} {st : FillSt S V Fn}
    (i : LInv sym symT T shape nv H0 start D P A H) (hp : l.Perm A)
    (hok : l.foldlM (fillStep sym symT T shape nv maxSites (P ++ A)) ⟨H, [], D⟩ = .ok st) :
    st.done = D ++ l ∧ LInv sym symT T shape nv H0 start st.done A st.new st.H := by
  have ri : RInv sym symT T shape nv H0 start D A l st := by
    refine foldlM_inv _ (fun q st => RInv sym symT T shape nv H0 start D A q st) l _ _ ?_ ?_ hok
    · exact ⟨by simpa using i.inv, by simpa using i.nd, by simp⟩
    · intro q x r s s' hl' hI hs
      exact fillStep_inv hl hlT wT w0 sub i (hl' ▸ hp) hI hs
  refine ⟨ri.done, ?_⟩
  rw [ri.done]
  have hm : ∀ x, x ∈ l ↔ x ∈ A := fun x => hp.mem_iff
  refine ⟨ri.inv.congr ?_ (fun x => Iff.rfl) (fun x y => Iff.rfl), ?_, ?_, ?_⟩
  · intro x; simp [hm]
  · exact ((List.Perm.append_right _ (List.Perm.append_left D hp)).nodup_iff).mpr ri.nd
  · intro x hx; simp [hm, hx]
  · intro x hx hxA y hs ha
    have hxD : x ∈ D := by simpa [hm, hxA] using hx
    rcases i.inv.cl x y hxD hs ha with h | h
    · exact .inl h
    · right; simpa [hm] using h

theorem fillLoop_inv {maxSites : Option ℕ} {ord : ℕ → List S → List S} (hord : ∀ n l, (ord n l).Perm l)
    {fuel n : ℕ} {D P A D' : List S} {H H' : HMap S V Fn}
    (i : LInv sym symT T shape nv H0 start D P A H)
    (hok : fillLoop sym symT T shape nv maxSites ord fuel n H D P A = some (.ok (H', D'))) :
    FInv sym symT T shape nv H0 start D' D' (fun x _ => x ∈ D') H' ∧ D'.Nodup ∧ ∀ x ∈ D ++ A, x ∈ D' := by
  induction fuel generalizing n D P A H with
  | zero => simp [fillLoop] at hok
  | succ fuel ih =>
    unfold fillLoop at hok
    by_cases hA : A = []
    · rw [if_pos hA] at hok
      obtain ⟨rfl, rfl⟩ := Prod.mk.inj (Except.ok.inj (Option.some.inj hok))
      subst hA
      refine ⟨by simpa using i.inv, by simpa using i.nd, by simp⟩
    · rw [if_neg hA] at hok
      cases hr : (ord n A).foldlM (fillStep sym symT T shape nv maxSites (P ++ A)) ⟨H, [], D⟩ with
      | error e => simp [hr] at hok
      | ok st =>
        simp only [hr] at hok
        obtain ⟨hd, i'⟩ := round_inv hl hlT wT w0 sub i (hord n A) hr
        obtain ⟨h1, h2, h3⟩ := ih i' hok
        refine ⟨h1, h2, fun x hx => h3 x ?_⟩
        rw [hd]
        simp only [List.mem_append] at hx ⊢
        rcases hx with h | h
        · exact .inl (.inl h)
        · exact .inl (.inr ((hord n A).mem_iff.mpr h))

/-- The starting sites. -/
theorem fillStart_inv {H1 : HMap S V Fn} {A : List S}
    (hin : ∀ s ∈ start, containsSite symT T s = true)
    (hok : start.foldlM (fillStart sym shape nv) (H0, []) = .ok (H1, A)) :
    LInv sym symT T shape nv H0 start [] [] A H1 ∧
    ∀ s ∈ start, sym.toFd s ∉ Assoc.keys H0 → shape (sym.toFd s) = some true → sym.toFd s ∈ A := by
  have key := foldlM_inv (fillStart sym shape nv)
    (fun p st => LInv sym symT T shape nv H0 start [] [] st.2 st.1 ∧
      ∀ s ∈ p, sym.toFd s ∉ Assoc.keys H0 → shape (sym.toFd s) = some true → sym.toFd s ∈ st.2)
    start (H0, []) (H1, A) ?_ ?_ hok
  · exact key
  · refine ⟨⟨⟨w0.toNF, by simp, by simp, by simp, by simp, by simp, by simp, by simp, by simp, by simp, ?_, by simp, by simp⟩, by simp, by simp, by simp⟩, by simp⟩
    intro x y hx _
    exact E_none_of_not_mem hx
  · rintro p s r ⟨Ha, Aa⟩ ⟨Hb, Ab⟩ hsp ⟨li, hcov⟩ hstep
    have hs : s ∈ start := by rw [hsp]; simp
    have i := li.inv
    simp only [List.nil_append] at i
    unfold fillStart at hstep
    simp only at hstep
    by_cases hk : sym.toFd s ∈ Assoc.keys Ha
    · rw [if_pos hk] at hstep
      obtain ⟨rfl, rfl⟩ := Prod.mk.inj (Except.ok.inj hstep)
      refine ⟨li, ?_⟩
      intro s' hs' h1 h2
      rcases List.mem_append.mp hs' with h | h
      · exact hcov s' h h1 h2
      · obtain rfl : s' = s := by simpa using h
        rcases (i.keys _).mp hk with h | h
        · exact absurd h h1
        · exact h
    · rw [if_neg hk] at hstep
      have hk0 : sym.toFd s ∉ Assoc.keys H0 := fun h => hk ((i.keys _).mpr (.inl h))
      have hkA : sym.toFd s ∉ Aa := fun h => hk ((i.keys _).mpr (.inr h))
      cases hsh : shape (sym.toFd s) with
      | none => simp [hsh] at hstep
      | some b =>
        cases b with
        | false =>
          simp only [hsh] at hstep
          obtain ⟨rfl, rfl⟩ := Prod.mk.inj (Except.ok.inj hstep)
          refine ⟨li, ?_⟩
          intro s' hs' h1 h2
          rcases List.mem_append.mp hs' with h | h
          · exact hcov s' h h1 h2
          · obtain rfl : s' = s := by simpa using h
            rw [hsh] at h2; cases h2
        | true =>
          simp only [hsh] at hstep
          obtain ⟨rfl, rfl⟩ := Prod.mk.inj (Except.ok.inj hstep)
          have hgn : Assoc.get Ha (sym.toFd s) = none := get_eq_none.mpr hk
          have hEp : ∀ a b, E (put Ha (sym.toFd s) ⟨nv, []⟩) a b = E Ha a b := by
            intro a b
            simp only [E, get_put]
            by_cases hab : sym.toFd s = a
            · subst hab; simp [hgn]
            · simp [hab]
          have hOp : ∀ a, a ≠ sym.toFd s → O (put Ha (sym.toFd s) ⟨nv, []⟩) a = O Ha a := by
            intro a ha
            simp [O, get_put, Ne.symm ha]
          refine ⟨⟨?_, ?_, by simp, by simp⟩, ?_⟩
          · simp only [List.nil_append]
            refine ⟨i.nf.put_row (by simp), ?_, ?_, by simp, by simp, ?_, by simp, by simp, ?_, by simp, ?_, by simp, by simp⟩
            · intro x
              rw [mem_keys_put, i.keys]
              simp only [List.mem_append, List.mem_singleton]
              tauto
            · intro x hx
              simp only [List.mem_append, List.mem_singleton] at hx
              rcases hx with hx | rfl
              · exact i.new x hx
              · refine ⟨hk0, hl.which_toFd s, hsh, ?_, ?_⟩
                · rw [toFdT_toFd hlT wT sub]
                  simpa [containsSite] using hin s hs
                · exact FillReach.start s hs (hin s hs) (by simpa [containsSite] using hk0) hsh
            · intro x hx
              rw [hOp x (by rintro rfl; exact hk0 hx)]
              exact i.o0 x hx
            · intro x y hx hw
              rw [hEp]; exact i.e2 x y hx (by simp)
            · intro x y hx hw
              rw [hEp]; exact i.e4 x y hx (by simp)
          · have := li.nd
            simp only [List.nil_append] at this ⊢
            rw [List.nodup_append]
            refine ⟨this, by simp, ?_⟩
            rintro a ha b hb rfl
            obtain rfl : a = sym.toFd s := by simpa using hb
            exact hkA ha
          · intro s' hs' h1 h2
            rcases List.mem_append.mp hs' with h | h
            · exact List.mem_append_left _ (hcov s' h h1 h2)
            · obtain rfl : s' = s := by simpa using h
              simp

end
end Kwant.Builder
