import Verif.Wrap.Model
import Mathlib.Algebra.BigOperators.Finprod
import Mathlib.Analysis.Complex.Exponential
import Mathlib.Tactic.Abel

/-! # C66: `wraparound` gives the Bloch Hamiltonian -/
set_option linter.unusedSectionVars false

namespace Kwant.Wrap
open Kwant Kwant.Builder Kwant.Assoc

variable {S A V GR : Type} [DecidableEq S] [AddCommGroup GR] [DecidableEq GR]
  [AddCommGroup V] [Module ℂ V] [StarAddMonoid V] [StarModule ℂ V]
variable {k m : ℕ}

/-! ## Specification -/

/-- A translation along the wrapped directions, as a translation of the original symmetry. -/
noncomputable def ext (emb : Fin m → Fin k) (w : Fin m → ℤ) : Fin k → ℤ := Function.extend emb w 0

/-- How the symmetries `sym` (wrapped periods, indices `emb`) and `ret.symmetry` (kept periods) are related
to the symmetry of the original builder. -/
structure Split (symO : Symmetry S (Fin k → ℤ)) (symW : Symmetry S (Fin m → ℤ)) (symR : Symmetry S GR)
    (emb : Fin m → Fin k) : Prop where
  lO : symO.Lawful
  lR : symR.Lawful
  inj : Function.Injective emb
  actW : ∀ w s, symW.act w s = symO.act (ext emb w) s
  actR : ∀ r, ∃ g : Fin k → ℤ, (∀ i, g (emb i) = 0) ∧ ∀ s, symR.act r s = symO.act g s
  Ract : ∀ g : Fin k → ℤ, (∀ i, g (emb i) = 0) → ∃ r, ∀ s, symO.act g s = symR.act r s

/-- A value function does not depend on which image of its sites it is called with. -/
def InvVal {G : Type} (sym : Symmetry S G) (v : Val V (PFn S A V)) : Prop :=
  ∀ g ss args, callVal v (ss.map (sym.act g)) args = callVal v ss args

/-- The values of the hoppings of a builder. -/
noncomputable def hopHam {G : Type} [AddCommGroup G] [DecidableEq G] (sym : Symmetry S G)
    (H : HMap S V (PFn S A V)) (env : String → A) (x y : S) : V :=
  match getHop sym star H x y with
  | .ok v => evalVal env v [x, y]
  | .error _ => 0

/-- The value of a site of a builder. -/
noncomputable def siteHam {G : Type} [AddCommGroup G] [DecidableEq G] (sym : Symmetry S G)
    (H : HMap S V (PFn S A V)) (env : String → A) (x : S) : V :=
  match getSite sym H x with
  | .ok v => evalVal env v [x]
  | .error _ => 0

/-- The matrix elements of the Hamiltonian described by a builder, for parameters `env`: `builder[x]` for
`x = y`, `builder[x, y]` otherwise (zero if absent). -/
noncomputable def ham {G : Type} [AddCommGroup G] [DecidableEq G] (sym : Symmetry S G)
    (H : HMap S V (PFn S A V)) (env : String → A) (x y : S) : V :=
  if x = y then siteHam sym H env x else hopHam sym H env x y

/-- `exp(i k·w)`, the momenta being read from the parameters. -/
noncomputable def bloch (num : A → ℝ) (momenta : List String) (env : String → A) (w : Fin m → ℤ) : ℂ :=
  Complex.exp (Complex.I * ∑ i : Fin m, ((w i : ℝ) * ((momenta.map env)[i.1]?.elim 0 num) : ℝ))

/-! ## Phases and arguments -/

variable {num : A → ℝ} {momenta : List String} {env : String → A}

theorem bloch_zero : bloch (m := m) num momenta env 0 = 1 := by simp [bloch]

theorem star_bloch (w : Fin m → ℤ) : star (bloch num momenta env w) = bloch num momenta env (-w) := by
  rw [bloch, bloch, Complex.star_def, ← Complex.exp_conj, map_mul, Complex.conj_I, Complex.conj_ofReal]
  congr 1
  simp only [Pi.neg_apply, Int.cast_neg, neg_mul, Finset.sum_neg_distrib, Complex.ofReal_neg, mul_neg]

theorem sliceTo_append (hm : 0 < momenta.length) (ps : List String) :
    sliceTo momenta.length ((ps ++ momenta).map env) = ps.map env := by
  simp [sliceTo, Nat.pos_iff_ne_zero.mp hm]

theorem sliceTo_append' (hm : 0 < momenta.length) (ps : List String) :
    sliceTo momenta.length (ps ++ momenta) = ps := by
  simp [sliceTo, Nat.pos_iff_ne_zero.mp hm]

theorem sliceFrom_append (hm : 0 < momenta.length) (ps : List String) :
    sliceFrom momenta.length ((ps ++ momenta).map env) = momenta.map env := by
  simp [sliceFrom, Nat.pos_iff_ne_zero.mp hm]

theorem evalVal_conj (v : Val V (PFn S A V)) (x y : S) :
    evalVal env (v.conj star) [x, y] = star (evalVal env v [y, x]) := by
  cases v <;> simp [evalVal, Val.conj, callVal, valParams]

theorem conj_conj (v : Val V (PFn S A V)) : (v.conj star).conj star = v := by
  cases v <;> simp [Val.conj]

theorem InvVal.eval {G : Type} {sym : Symmetry S G} {v : Val V (PFn S A V)} (h : InvVal sym v) (g : G)
    (ss : List S) : evalVal env v (ss.map (sym.act g)) = evalVal env v ss := h g ss _

theorem InvVal.conj {G : Type} {sym : Symmetry S G} {v : Val V (PFn S A V)} (h : InvVal sym v) :
    InvVal sym (v.conj star) := by
  intro g ss args
  cases v with
  | const c => rfl
  | func f =>
    have := h g ss.reverse args
    simp only [callVal] at this
    simp only [Val.conj, callVal, ← List.map_reverse, this]
  | herm f =>
    have := h g ss.reverse args
    simp only [callVal, star_inj, List.reverse_reverse, ← List.map_reverse] at this
    simpa only [Val.conj, callVal] using this

theorem evalVal_bindSiteVal (hm : 0 < momenta.length) (v : Val V (PFn S A V)) (ss : List S) :
    evalVal env (bindSiteVal momenta v) ss = evalVal env v ss := by
  cases v with
  | const c => rfl
  | func f => simp only [evalVal, bindSiteVal, valParams, bindSite, callVal, sliceTo_append hm]
  | herm f => simp only [evalVal, bindSiteVal, valParams, bindSite, callVal, sliceTo_append hm]

theorem evalVal_bindHopping (hm : 0 < momenta.length) (act : (Fin m → ℤ) → S → S) (w : Fin m → ℤ)
    (v : Val V (PFn S A V)) (a b : S) :
    evalVal env (.func (bindHopping num momenta act w v)) [a, b] =
      bloch num momenta env w • evalVal env v [a, act w b] := by
  simp only [evalVal, valParams, bindHopping, callVal, sliceTo_append hm, sliceFrom_append hm, phase, bloch]

theorem evalVal_bindHoppingAsSite (hm : 0 < momenta.length) (act : (Fin m → ℤ) → S → S) (w : Fin m → ℤ)
    (v : Val V (PFn S A V)) (a : S) :
    evalVal env (.func (bindHoppingAsSite num momenta act w v)) [a] =
      bloch num momenta env w • evalVal env v [a, act w a] +
      star (bloch num momenta env w • evalVal env v [a, act w a]) := by
  simp only [evalVal, valParams, bindHoppingAsSite, callVal, sliceTo_append hm, sliceFrom_append hm, phase, bloch]

/-! ## `bind_sum` -/

/-- Values as produced for the lists: constants, or functions whose last parameters are the momenta. -/
def Shaped (momenta : List String) (v : Val V (PFn S A V)) : Prop :=
  (∃ c, v = .const c) ∨ ∃ own, valParams v = own ++ momenta

theorem foldl_add_new (own : List String) : ∀ ps : List String,
    ∀ p, (p ∈ own ∨ p ∈ ps) → p ∈ own.foldl (fun ps p => if p ∈ ps then ps else ps ++ [p]) ps := by
  induction own with
  | nil => intro ps p h; simpa using h
  | cons q own ih =>
    intro ps p h
    simp only [List.foldl_cons]
    apply ih
    by_cases hq : q ∈ ps
    · simp only [hq, if_true]
      simp only [List.mem_cons] at h
      rcases h with (rfl | h) | h
      · exact .inr hq
      · exact .inl h
      · exact .inr h
    · simp only [hq, if_false, List.mem_append, List.mem_singleton]
      simp only [List.mem_cons] at h
      tauto

theorem mem_joint_aux (momenta : List String) : ∀ (vals : List (Val V (PFn S A V))) (ps : List String) (p : String),
    (p ∈ ps ∨ ∃ v ∈ vals, p ∈ ownParams momenta v) →
    p ∈ vals.foldl (fun ps v => (ownParams momenta v).foldl (fun ps p => if p ∈ ps then ps else ps ++ [p]) ps) ps := by
  intro vals
  induction vals with
  | nil => intro ps p h; simpa using h
  | cons v vals ih =>
    intro ps p h
    simp only [List.foldl_cons]
    apply ih
    simp only [List.mem_cons, exists_eq_or_imp] at h
    rcases h with h | h | h
    · exact .inl (foldl_add_new _ _ _ (.inr h))
    · exact .inl (foldl_add_new _ _ _ (.inl h))
    · exact .inr h

theorem mem_jointParams {vals : List (Val V (PFn S A V))} {v} (hv : v ∈ vals) {p : String}
    (hp : p ∈ ownParams momenta v) : p ∈ jointParams momenta vals :=
  mem_joint_aux momenta vals [] p (.inr ⟨v, hv, hp⟩)

theorem select_eq (names own : List String) (h : ∀ p ∈ own, p ∈ names) :
    own.filterMap (fun p => (names.map env)[names.idxOf p]?) = own.map env := by
  induction own with
  | nil => rfl
  | cons q own ih =>
    have hq := h q (by simp)
    have hlt := List.idxOf_lt_length_iff.mpr hq
    rw [List.filterMap_cons_some (b := env q), ih (fun p hp => h p (by simp [hp])), List.map_cons]
    rw [List.getElem?_map, List.getElem?_eq_getElem hlt, List.getElem_idxOf hlt]
    rfl

theorem foldl_add_sum {α : Type} (f : α → V) (l : List α) (z : V) :
    l.foldl (fun acc v => acc + f v) z = z + (l.map f).sum := by
  induction l generalizing z with
  | nil => simp
  | cons a l ih => simp [ih, add_assoc]

theorem evalVal_bindSum (hm : 0 < momenta.length) (le) (vals : List (Val V (PFn S A V)))
    (hs : ∀ v ∈ vals, Shaped momenta v) (ss : List S) :
    evalVal env (.func (bindSum momenta le vals)) ss = (vals.map fun v => evalVal env v ss).sum := by
  show (bindSum momenta le vals).call ss ((jointParams momenta vals ++ momenta).map env) = _
  simp only [bindSum, sliceFrom_append hm]
  rw [foldl_add_sum (fun v => callVal v ss ((ownParams momenta v).filterMap
    (fun p => ((jointParams momenta vals ++ momenta).map env)[(jointParams momenta vals ++ momenta).idxOf p]?) ++
      momenta.map env)), zero_add]
  rw [((List.mergeSort_perm vals le).map _).sum_eq]
  congr 1
  apply List.map_congr_left
  intro v hv
  rw [select_eq _ _ (fun p hp => List.mem_append_left _ (mem_jointParams hv hp))]
  rcases hs v hv with ⟨c, rfl⟩ | ⟨own, ho⟩
  · rfl
  · rw [ownParams, ho, sliceTo_append' hm, ← List.map_append]
    cases v with
    | const c => rfl
    | func f => simp only [valParams] at ho; simp only [callVal, evalVal, valParams, ho]
    | herm f => simp only [valParams] at ho; simp only [callVal, evalVal, valParams, ho]

theorem evalVal_mkVal (hm : 0 < momenta.length) (le) (vals : List (Val V (PFn S A V)))
    (hs : ∀ v ∈ vals, Shaped momenta v) (ss : List S) :
    evalVal env (mkVal momenta le vals) ss = (vals.map fun v => evalVal env v ss).sum := by
  unfold mkVal
  split
  · simp
  · exact evalVal_bindSum hm le _ hs ss

theorem inv_bindSum {G : Type} {sym : Symmetry S G} (le) (vals : List (Val V (PFn S A V)))
    (h : ∀ v ∈ vals, InvVal sym v) : InvVal sym (.func (bindSum momenta le vals)) := by
  intro g ss args
  show (bindSum momenta le vals).call (ss.map (sym.act g)) args = (bindSum momenta le vals).call ss args
  simp only [bindSum]
  rw [foldl_add_sum (fun v => callVal v (ss.map (sym.act g)) ((ownParams momenta v).filterMap
    (fun p => args[(jointParams momenta vals ++ momenta).idxOf p]?) ++ sliceFrom momenta.length args)),
    foldl_add_sum (fun v => callVal v ss ((ownParams momenta v).filterMap
    (fun p => args[(jointParams momenta vals ++ momenta).idxOf p]?) ++ sliceFrom momenta.length args))]
  congr 2
  apply List.map_congr_left
  intro v hv
  exact h v ((List.mergeSort_perm vals le).mem_iff.mp hv) _ _ _

theorem inv_mkVal {G : Type} {sym : Symmetry S G} (le) (vals : List (Val V (PFn S A V)))
    (h : ∀ v ∈ vals, InvVal sym v) : InvVal sym (mkVal momenta le vals) := by
  unfold mkVal
  split
  · exact h _ (by simp)
  · exact inv_bindSum le _ h

/-! ## Geometry -/

section Geo
variable {symO : Symmetry S (Fin k → ℤ)} {symW : Symmetry S (Fin m → ℤ)} {symR : Symmetry S GR}
  {emb : Fin m → Fin k}

theorem ext_apply (inj : Function.Injective emb) (w : Fin m → ℤ) (i : Fin m) : ext emb w (emb i) = w i :=
  inj.extend_apply w 0 i

theorem ext_neg (w : Fin m → ℤ) (inj : Function.Injective emb) : ext emb (-w) = -ext emb w := by
  funext j
  by_cases h : ∃ i, emb i = j
  · obtain ⟨i, rfl⟩ := h
    simp [ext_apply inj]
  · simp [ext, Function.extend_apply' _ _ _ h]

theorem ext_zero (inj : Function.Injective emb) : ext emb 0 = 0 := by
  funext j
  by_cases h : ∃ i, emb i = j
  · obtain ⟨i, rfl⟩ := h
    simp [ext_apply inj]
  · simp [ext, Function.extend_apply' _ _ _ h]

/-- The site lies in the fundamental domain of the wrapped directions. -/
def InW (symO : Symmetry S (Fin k → ℤ)) (emb : Fin m → Fin k) (s : S) : Prop := bDom symO emb s = 0

variable (sp : Split symO symW symR emb)
include sp

theorem Split.actW_zero (s : S) : symW.act 0 s = s := by rw [sp.actW, ext_zero sp.inj, sp.lO.act_zero]

theorem Split.actW_neg (w : Fin m → ℤ) (s : S) : symW.act (-w) s = symO.act (-ext emb w) s := by
  rw [sp.actW, ext_neg w sp.inj]

theorem Split.bDom_act (g : Fin k → ℤ) (s : S) : bDom symO emb (symO.act g s) = (fun i => g (emb i)) + bDom symO emb s := by
  funext i; simp [bDom, sp.lO.which_act]

theorem Split.bDom_actW (w : Fin m → ℤ) (s : S) : bDom symO emb (symW.act w s) = w + bDom symO emb s := by
  rw [sp.actW, sp.bDom_act]; congr 1; funext i; exact ext_apply sp.inj w i

theorem Split.bDom_actR (r : GR) (s : S) : bDom symO emb (symR.act r s) = bDom symO emb s := by
  obtain ⟨g, hg, e⟩ := sp.actR r
  rw [e, sp.bDom_act]
  have : (fun i => g (emb i)) = 0 := by funext i; exact hg i
  rw [this, zero_add]

theorem Split.comm (r : GR) (w : Fin m → ℤ) (s : S) : symW.act w (symR.act r s) = symR.act r (symW.act w s) := by
  obtain ⟨g, _, e⟩ := sp.actR r
  rw [e, e, sp.actW, sp.actW, sp.lO.act_add, sp.lO.act_add, add_comm]

theorem Split.actW_inj {w : Fin m → ℤ} {x y : S} : symW.act w x = symW.act w y ↔ x = y := by
  rw [sp.actW, sp.actW, sp.lO.act_inj]

theorem Split.W_cancel (w : Fin m → ℤ) (s : S) : symW.act w (symW.act (-w) s) = s := by
  rw [sp.actW_neg, sp.actW, sp.lO.act_act_neg]

theorem Split.invR {v : Val V (PFn S A V)} (h : InvVal symO v) : InvVal symR v := by
  intro r ss args
  obtain ⟨g, _, e⟩ := sp.actR r
  have : symR.act r = symO.act g := funext e
  rw [this]; exact h g ss args

/-- Key fact: a wrapped hopping `(a, b)` (up to kept translations) corresponds to the original hopping
`(a, w·b)` with `w` the wrapped translation of the far end. -/
theorem Split.fold_iff {x y a b : S} (hx : InW symO emb x) (ha : InW symO emb a) (hb : InW symO emb b)
    (w : Fin m → ℤ) :
    HopEquiv symO x y a (symW.act w b) ↔
      w = bDom symO emb y ∧ HopEquiv symR (wrapHop symO symW symR emb x y).1 (wrapHop symO symW symR emb x y).2 a b := by
  have hK : ∀ a b, HopEquiv symR (wrapHop symO symW symR emb x y).1 (wrapHop symO symW symR emb x y).2 a b ↔
      HopEquiv symR x (symW.act (-bDom symO emb y) y) a b := by
    intro a b
    unfold HopEquiv
    rw [← toFd2_eq_iff sp.lR, ← toFd2_eq_iff sp.lR]
    rw [wrapHop, show symR.toFd2 (symR.toFd2 x (symW.act (-bDom symO emb y) y)).1
      (symR.toFd2 x (symW.act (-bDom symO emb y) y)).2 = symR.toFd2 x (symW.act (-bDom symO emb y) y) from
      sp.lR.toFd2_act _ _ _]
  rw [hK]
  constructor
  · rintro ⟨g, e1, e2⟩
    have hg : ∀ i, g (emb i) = 0 := by
      have := congrArg (bDom symO emb) e1
      rw [sp.bDom_act, ha, hx, add_zero] at this
      intro i; exact (congrFun this i).symm
    obtain ⟨r, hr⟩ := sp.Ract g hg
    have hw : w = bDom symO emb y := by
      have := congrArg (bDom symO emb) e2
      rw [hr, sp.bDom_actR, sp.bDom_actW, hb, add_zero] at this
      exact this
    refine ⟨hw, r, by rw [← hr]; exact e1, ?_⟩
    rw [← sp.actW_inj (w := w), e2, hr, sp.comm, hw, sp.W_cancel]
  · rintro ⟨rfl, r, e1, e2⟩
    obtain ⟨g, _, e⟩ := sp.actR r
    refine ⟨g, by rw [← e]; exact e1, ?_⟩
    rw [e2, sp.comm, sp.W_cancel, e]

/-- The same for the reversed hopping. -/
theorem Split.fold_rev_iff {x y a b : S} (hx : InW symO emb x) (ha : InW symO emb a) (hb : InW symO emb b)
    (w : Fin m → ℤ) :
    HopEquiv symO x y (symW.act w b) a ↔
      w = -bDom symO emb y ∧ HopEquiv symR (wrapHop symO symW symR emb x y).1 (wrapHop symO symW symR emb x y).2 b a := by
  rw [← neg_eq_iff_eq_neg, ← sp.fold_iff hx hb ha (-w)]
  constructor
  · rintro ⟨g, e1, e2⟩
    refine ⟨-ext emb w + g, ?_, ?_⟩
    · rw [← sp.lO.act_add, ← e1, sp.actW, sp.lO.act_neg_act]
    · rw [← sp.lO.act_add, ← e2, sp.actW_neg]
  · rintro ⟨g, e1, e2⟩
    refine ⟨ext emb w + g, ?_, ?_⟩
    · rw [← sp.lO.act_add, ← e1, sp.actW]
    · rw [← sp.lO.act_add, ← e2, sp.actW_neg, sp.lO.act_act_neg]

end Geo

end Kwant.Wrap
