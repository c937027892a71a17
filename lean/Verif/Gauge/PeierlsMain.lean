import Verif.Gauge.PeierlsProps

/-! C183: the Hamiltonian of a system made by `add_peierls_phase`. -/

set_option linter.unusedSectionVars false

namespace Kwant.Peierls
open Kwant Kwant.Assoc Kwant.Builder Kwant.Final

section
variable {S G V Fn N A X K : Type} [DecidableEq S] [DecidableEq N] [AddCommGroup G] [DecidableEq G]
variable {E : Env S V N A X K} {sym : Symmetry S G} {hc : V → V} {C : Calls S V Fn N A X}

/-- Specification: the value of a hopping, multiplied with the phase of that hopping. -/
def withPhase (E : Env S V N A X K) (p : A) (ab : S × S) (r : Except (HErr X) V) : Except (HErr X) V :=
  match r with
  | .error e => .error e
  | .ok w =>
    match E.app p ab.1 ab.2 with
    | .error x => .error (.user x)
    | .ok k => .ok (E.mul w k)

theorem mapM_snoc (f : N → Option A) (l : List N) (n : N) (a : A) (h : f n = some a) :
    (l ++ [n]).mapM f = (l.mapM f).map (· ++ [a]) := by
  rw [List.mapM_append]
  cases l.mapM f <;> simp [h]

theorem wrapSig_some {sig : Fn → Option (List N)} {phi : N} {f : Fn} {ns' : List N} (h : wrapSig E sig phi f = some ns') :
    ∃ ns, sig f = some ns ∧ ns' = [E.site0, E.site1] ++ ns.drop 2 ++ [phi] := by
  unfold wrapSig at h
  cases hs : sig f with
  | none => rw [hs] at h; cases h
  | some ns =>
    rw [hs] at h
    simp only [mkSig] at h
    split at h
    · cases h; exact ⟨ns, rfl, rfl⟩
    · cases h

theorem constSig_some {phi : N} (h : constSig E phi ≠ none) : constSig E phi = some [E.site0, E.site1, phi] := by
  unfold constSig mkSig at h ⊢
  split
  · rfl
  · next hx => rw [if_neg hx] at h; exact absurd rfl h

/-- The value of a hopping in its stored direction. -/
theorem value_fwd {H : HMap S V Fn} (hw : WF sym H) (hl : sym.Lawful) {consts : List ((S × S) × V)} {phi : N}
    (hconst : ∀ a b c, ((a, b), Val.const c) ∈ hoppingValuePairs H → Assoc.get consts (a, b) = some c)
    (h1 : constSig E phi ≠ none) (h2 : AllWrap E C.sig phi (hoppingValuePairs H))
    {a b : S} {v : Val V Fn} (hm : ((a, b), v) ∈ hoppingValuePairs H) {params : List (N × A)} {p : A}
    (hp : Assoc.get params phi = some p) :
    hopValue sym hc (calls E C phi consts) (.func (newFn v)) a b [] params =
      withPhase E p (a, b) (hopValue sym hc C v a b [] params) := by
  obtain ⟨st, he, hv⟩ := (mem_hoppingValuePairs hw.toNF).mp hm
  have hfd : sym.toFd2 a b = (a, b) := toFd2_of_fd hl (hw.which_zero he) b
  have hne : params ≠ [] := by rintro rfl; simp [Assoc.get] at hp
  cases v with
  | const c =>
    simp only [hopValue, newFn, hfd, callWith, if_neg hne, withPhase, calls, constSig_some h1, List.length_cons, List.length_nil]
    have : List.mapM (Assoc.get params) (List.drop (0 + 1 + 1) [E.site0, E.site1, phi]) = some [p] := by simp [hp]
    rw [this]
    simp only [callConst, hconst a b c hm]
    cases E.app p a b <;> rfl
  | func f =>
    obtain ⟨ns', hns⟩ := Option.ne_none_iff_exists'.mp (h2 _ hm f rfl)
    obtain ⟨ns, hs, rfl⟩ := wrapSig_some hns
    simp only [hopValue, newFn, hfd, callWith, if_neg hne, withPhase, calls, hns, hs, List.length_cons, List.length_nil]
    have : List.mapM (Assoc.get params) (List.drop (0 + 1 + 1) ([E.site0, E.site1] ++ List.drop 2 ns ++ [phi])) =
        (List.mapM (Assoc.get params) (List.drop (0 + 1 + 1) ns)).map (· ++ [p]) := by
      rw [← mapM_snoc _ _ _ _ hp]
      rfl
    rw [this]
    cases hmm : List.mapM (Assoc.get params) (List.drop (0 + 1 + 1) ns) with
    | none => rfl
    | some as =>
      simp only [Option.map_some, callWrap, List.getLast?_append, List.getLast?_singleton, Option.some_or, List.dropLast_concat]
      cases C.call f [a, b] as with
      | error x => rfl
      | ok w =>
        simp only [Except.mapError]
        cases E.app p a b <;> rfl
  | herm f => exact absurd rfl (pairs_not_herm H _ hm f)

theorem hopValue_equiv (hl : sym.Lawful) {a b x y : S} (hq : HopEquiv sym a b x y) (v : Val V Fn) (args : List A) (params : List (N × A)) :
    hopValue sym hc C v x y args params = hopValue sym hc C v a b args params := by
  have h1 := (toFd2_eq_iff hl x y a b).mpr hq
  have h2 : sym.toFd2 y x = sym.toFd2 b a := (toFd2_eq_iff hl y x b a).mpr (by obtain ⟨g, e1, e2⟩ := hq; exact ⟨g, e2, e1⟩)
  cases v <;> simp only [hopValue, h1, h2]

theorem siteValue_plain (v : Val V Fn) (x : S) {phi : N} {consts : List ((S × S) × V)} (args : List A) (params : List (N × A)) :
    siteValue sym (calls E C phi consts) (plainVal v) x args params = siteValue sym C v x args params := by
  cases v <;> rfl

/-- The value of any hopping, in the direction in which it is stored and in the other one. -/
theorem value_any {H : HMap S V Fn} (h : Reachable sym H) {consts : List ((S × S) × V)} {H' : HMap S V (PFn Fn)} {phi : N}
    (P : Phased sym hc H consts H') (hinv : ∀ v, hc (hc v) = v)
    (h1 : constSig E phi ≠ none) (h2 : AllWrap E C.sig phi (hoppingValuePairs H))
    {x y : S} (hm : sym.toFd2 x y ∈ hoppings H) {params : List (N × A)} {p : A} (hp : Assoc.get params phi = some p)
    {v : Val V Fn} {v' : Val V (PFn Fn)} (hv : getHop sym hc H x y = .ok v) (hv' : getHop sym hc H' x y = .ok v') :
    hopValue sym hc (calls E C phi consts) v' x y [] params =
      withPhase E p (sym.toFd2 x y) (hopValue sym hc C v x y [] params) := by
  obtain ⟨hl, hw⟩ := h.wf
  rw [hoppings_eq] at hm
  obtain ⟨⟨⟨a, b⟩, w⟩, hm, e⟩ := List.mem_map.mp hm
  simp only at e
  have hq : HopEquiv sym a b x y := by
    obtain ⟨st, he, _⟩ := (mem_hoppingValuePairs hw.toNF).mp hm
    refine (toFd2_eq_iff hl x y a b).mp ?_
    rw [← e, toFd2_of_fd hl (hw.which_zero he)]
  have g1 := P.fwd a b w hm
  have g2 : getHop sym hc H' x y = .ok (.func (newFn w)) := (getHop_equiv P.reach.wf.2 hl hq _).mpr g1
  rw [hv'] at g2
  cases g2
  have g3 : getHop sym hc H a b = .ok w := by
    obtain ⟨st, he, hst⟩ := (mem_hoppingValuePairs hw.toNF).mp hm
    rw [getHop_ok_iff hw hl, toFd2_of_fd hl (hw.which_zero he)]
    refine ⟨(hw.pair a b st he).1, ?_⟩
    simp only [edgeVal, he]
    cases st <;> simp_all [Stored.toVal?]
  have g4 := (getHop_equiv hw hl hq w).mpr g3
  rw [hv] at g4
  cases g4
  rw [hopValue_equiv hl hq, hopValue_equiv hl hq, ← e, value_fwd hw hl P.const h1 h2 hm hp]

theorem hopValue_conj' (hinv : ∀ v, hc (hc v) = v) {F : Type} (C : Calls S V F N A X)
    (v : Val V F) (a b : S) (args : List A) (params : List (N × A)) :
    hopValue sym hc C (v.conj hc) b a args params = (hopValue sym hc C v a b args params).map hc := by
  cases v with
  | const w => rfl
  | func f => rfl
  | herm f =>
    simp only [hopValue, Val.conj]
    cases callWith C f [(sym.toFd2 b a).1, (sym.toFd2 b a).2] args params with
    | error e => rfl
    | ok w => simp [Except.map, hinv]

theorem value_rev {H : HMap S V Fn} (h : Reachable sym H) {consts : List ((S × S) × V)} {H' : HMap S V (PFn Fn)} {phi : N}
    (P : Phased sym hc H consts H') (hinv : ∀ v, hc (hc v) = v)
    (h1 : constSig E phi ≠ none) (h2 : AllWrap E C.sig phi (hoppingValuePairs H))
    {x y : S} (hm : sym.toFd2 x y ∈ hoppings H) {params : List (N × A)} {p : A} (hp : Assoc.get params phi = some p)
    {v : Val V Fn} {v' : Val V (PFn Fn)} (hv : getHop sym hc H y x = .ok v) (hv' : getHop sym hc H' y x = .ok v') :
    hopValue sym hc (calls E C phi consts) v' y x [] params =
      (withPhase E p (sym.toFd2 x y) ((hopValue sym hc C v y x [] params).map hc)).map hc := by
  have a1 := C23_hermitian h hinv _ _ _ hv
  have a2 := C23_hermitian P.reach hinv _ _ _ hv'
  have := value_any (C := C) h P hinv h1 h2 hm hp a1 a2
  rw [hopValue_conj' hinv, hopValue_conj' hinv] at this
  rw [← this]
  cases hopValue sym hc (calls E C phi consts) v' y x [] params with
  | error e => rfl
  | ok w => exact congrArg Except.ok (hinv w).symm

/-- Every hopping is stored in exactly one direction. -/
theorem stored_or {H : HMap S V Fn} (h : Reachable sym H) {x y : S} (hh : HasHop sym H x y) :
    sym.toFd2 x y ∈ hoppings H ∨ sym.toFd2 y x ∈ hoppings H := by
  obtain ⟨hl, hw⟩ := h.wf
  obtain ⟨a, b, hm, hq⟩ := (containsHop_iff_hoppings hw hl).mp hh
  have hm' := hm
  rw [hoppings_eq] at hm'
  obtain ⟨⟨⟨a', b'⟩, w⟩, hm2, e⟩ := List.mem_map.mp hm'
  cases e
  obtain ⟨st, he, _⟩ := (mem_hoppingValuePairs hw.toNF).mp hm2
  have hfd := toFd2_of_fd hl (hw.which_zero he) b
  rcases hq with hq | hq
  · left; rw [(toFd2_eq_iff hl x y a b).mpr hq, hfd]; exact hm
  · right; rw [(toFd2_eq_iff hl y x a b).mpr hq, hfd]; exact hm

/-- Specification: `p` is a phase that is hermitian and has the symmetry of the system, with values `u`. -/
structure GoodPhase (E : Env S V N A X K) (sym : Symmetry S G) (conj : K → K) (p : A) (u : S → S → K) : Prop where
  app : ∀ a b, E.app p a b = .ok (u a b)
  herm : ∀ a b, u b a = conj (u a b)
  symm : ∀ g a b, u (sym.act g a) (sym.act g b) = u a b

theorem GoodPhase.fd {conj : K → K} {p : A} {u : S → S → K} (hg : GoodPhase E sym conj p u) (x y : S) :
    u (sym.toFd2 x y).1 (sym.toFd2 x y).2 = u x y := hg.symm _ x y

theorem value_good {H : HMap S V Fn} (h : Reachable sym H) {consts : List ((S × S) × V)} {H' : HMap S V (PFn Fn)} {phi : N}
    (P : Phased sym hc H consts H') (hinv : ∀ v, hc (hc v) = v)
    (h1 : constSig E phi ≠ none) (h2 : AllWrap E C.sig phi (hoppingValuePairs H))
    {x y : S} (hh : HasHop sym H x y) {params : List (N × A)} {p : A} (hp : Assoc.get params phi = some p)
    {conj : K → K} {u : S → S → K} (hg : GoodPhase E sym conj p u) (hmul : ∀ w k, hc (E.mul w k) = E.mul (hc w) (conj k))
    {v : Val V Fn} {v' : Val V (PFn Fn)} (hv : getHop sym hc H x y = .ok v) (hv' : getHop sym hc H' x y = .ok v') :
    hopValue sym hc (calls E C phi consts) v' x y [] params =
      (hopValue sym hc C v x y [] params).map (fun w => E.mul w (u x y)) := by
  rcases stored_or h hh with hm | hm
  · rw [value_any (C := C) h P hinv h1 h2 hm hp hv hv']
    cases hopValue sym hc C v x y [] params with
    | error e => rfl
    | ok w => simp only [withPhase, hg.app, hg.fd, Except.map]
  · rw [value_rev (C := C) h P hinv h1 h2 hm hp hv hv']
    cases hopValue sym hc C v x y [] params with
    | error e => rfl
    | ok w => simp only [withPhase, hg.app, hg.fd, Except.map, hmul, hinv, ← hg.herm]

end
end Kwant.Peierls
