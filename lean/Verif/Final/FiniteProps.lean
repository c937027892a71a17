import Verif.Final.Finite

/-! # Properties C40-C42, C90, C91: finalized finite systems -/
set_option linter.unusedSectionVars false

namespace Kwant.Final
open Kwant Kwant.Assoc Kwant.Builder Kwant.Graph

variable {S V Fn N A X : Type} [LinearOrder S] [DecidableEq N]
variable {hc : V → V} {C : Calls S V Fn N A X} {H : HMap S V Fn}

/-- C40: finalization of any reachable builder without symmetry succeeds; `sites` are strictly increasing,
they are exactly the sites of the builder, and `id_by_site` is the inverse of `sites`. -/
theorem C40_sites (h : Reachable (noSymmetry S) H) (junk : ℕ → ℤ) :
    ∃ sys, finalizeFinite C junk H = .ok sys ∧
      sys.sites.Pairwise (· < ·) ∧
      (∀ s, s ∈ sys.sites ↔ HasSite (noSymmetry S) H s) ∧
      (∀ (s : S) (i : ℕ), Assoc.get sys.idBySite s = some i ↔ sys.sites[i]? = some s) ∧
      sys.graph.numNodes = sys.sites.length := by
  obtain ⟨hl, hw⟩ := h.wf
  obtain ⟨sys, h1, R⟩ := finalizeFinite_rep (C := C) hw hl junk
  refine ⟨sys, h1, ?_, ?_, ?_, ?_⟩
  · rw [R.sites]; exact pySorted_lt hw.keys
  · intro s; rw [R.sites, mem_pySorted, hasSite_iff]; rfl
  · intro s i; rw [R.ids, R.sites]; exact get_idTable (pySorted_nodup hw.keys) s i
  · rw [R.nn, R.sites]

/-- C41: the graph has the edge `(i, j)` exactly if the builder has the hopping; `hamiltonian(i, i)` is the
value of the site and `hamiltonian(i, j)` is the value of the hopping, evaluated with the sites in the right
order; a missing hopping raises. -/
theorem C41_hamiltonian (h : Reachable (noSymmetry S) H) (junk : ℕ → ℤ) :
    ∃ sys, finalizeFinite C junk H = .ok sys ∧
      ∀ (i j : ℕ) (a b : S), sys.sites[i]? = some a → sys.sites[j]? = some b →
        (∃ v, getSite (noSymmetry S) H a = .ok v ∧ ∀ args params, args = [] ∨ params = [] →
          sys.hamiltonian (noSymmetry S) hc C i i args params = siteValue (noSymmetry S) C v a args params) ∧
        (∃ r, sys.graph.hasEdge i j = .ok r ∧ (r = true ↔ HasHop (noSymmetry S) H a b)) ∧
        (∃ js : List ℤ, sys.graph.outNeighbors i = .ok js ∧ js.Nodup ∧
          ((j : ℤ) ∈ js ↔ HasHop (noSymmetry S) H a b)) ∧
        (i ≠ j → HasHop (noSymmetry S) H a b →
          ∃ v, getHop (noSymmetry S) hc H a b = .ok v ∧ ∀ args params, args = [] ∨ params = [] →
            sys.hamiltonian (noSymmetry S) hc C i j args params = hopValue (noSymmetry S) hc C v a b args params) ∧
        (i ≠ j → ¬ HasHop (noSymmetry S) H a b → ∀ args params, args = [] ∨ params = [] →
          sys.hamiltonian (noSymmetry S) hc C i j args params = .error (.graph .edgeDoesNotExist)) := by
  obtain ⟨hl, hw⟩ := h.wf
  obtain ⟨sys, h1, R⟩ := finalizeFinite_rep (C := C) hw hl junk
  refine ⟨sys, h1, fun i j a b ha hb => ?_⟩
  have hab : i ≠ j → a ≠ b := by
    rintro hij rfl
    rw [R.sites] at ha hb
    have hi := (List.getElem?_eq_some_iff.mp ha).1
    exact hij ((List.getElem?_inj hi (pySorted_nodup hw.keys)).mp (ha.trans hb.symm))
  have hhas : HasHop (noSymmetry S) H a b ↔ (E H a b).isSome = true := by
    rw [hasHop_iff hw hl, noSym_toFd2]
    constructor
    · exact fun h => h.2
    · intro he
      obtain ⟨st, hst⟩ := Option.isSome_iff_exists.mp he
      exact ⟨(hw.pair a b st hst).1, he⟩
  refine ⟨?_, ?_, ?_, ?_, ?_⟩
  · obtain ⟨v, hv, ho⟩ := R.onsite i a ha
    refine ⟨v, ?_, fun args params hx => ham_site ha ho args params hx⟩
    rw [getSite_eq, noSym_toFd, hv]
  · exact ⟨_, R.has i j a b ha hb, hhas.symm⟩
  · obtain ⟨js, e1, e2, e3⟩ := R.out i a ha
    refine ⟨js, e1, e2, (e3 j).trans ?_⟩
    rw [hhas]
    constructor
    · rintro ⟨k, b', hk, hb', he⟩
      have : j = k := by exact_mod_cast hk
      subst this
      rw [hb] at hb'; cases hb'; exact he
    · intro he; exact ⟨j, b, rfl, hb, he⟩
  · intro hij hh
    have he := ((hasHop_iff hw hl).mp hh).2
    rw [noSym_toFd2] at he
    obtain ⟨st, hst⟩ := Option.isSome_iff_exists.mp he
    obtain ⟨_, st', hst', hne⟩ := hw.pair a b st hst
    have hcomb := edgeVal_combine (hc := hc) hst hst'
    have hsome : (edgeVal hc (noSymmetry S) H a b).isSome = true := by rw [edgeVal_isSome hw, hst]; rfl
    obtain ⟨v, hv⟩ := Option.isSome_iff_exists.mp hsome
    refine ⟨v, ?_, fun args params hx => ?_⟩
    · rw [getHop_eq hw hl (hab hij), noSym_toFd2, hv]
    · have hst'' : E H b a = some st' := hst'
      exact ham_hop hij ha hb (R.hop i j a b ha hb st hst) (R.hop j i b a hb ha st' hst'')
        (by rw [← hcomb, hv]) args params hx
  · intro hij hh args params hx
    refine ham_missing hij (R.noHop i j a b ha hb ?_) args params hx
    cases he : E H a b with
    | none => rfl
    | some st => exact absurd ((hasHop_iff hw hl).mpr ⟨hab hij, by rw [noSym_toFd2, he]; rfl⟩) hh

/-- Giving both positional arguments and `params` raises. -/
theorem C41_exclusive {G : Type} [AddCommGroup G] [DecidableEq G] (sym : Symmetry S G) (sys : Sys S V Fn N) (i j : ℕ)
    (args : List A) (params : List (N × A)) (h1 : args ≠ []) (h2 : params ≠ []) :
    sys.hamiltonian sym hc C i j args params = .error .exclusive := ham_exclusive args params ⟨h1, h2⟩

theorem hopValue_conj {G : Type} [AddCommGroup G] [DecidableEq G] {sym : Symmetry S G} (hinv : ∀ v, hc (hc v) = v)
    (v : Val V Fn) (a b : S) (args : List A) (params : List (N × A)) :
    hopValue sym hc C (v.conj hc) b a args params = (hopValue sym hc C v a b args params).map hc := by
  cases v with
  | const w => rfl
  | func f => rfl
  | herm f =>
    simp only [hopValue, Val.conj]
    cases callWith C f [(sym.toFd2 b a).1, (sym.toFd2 b a).2] args params with
    | error e => rfl
    | ok w => simp [Except.map, hinv]

/-- C42: the Hamiltonian is Hermitian off the diagonal, for every choice of arguments or parameters,
whatever the value functions return (if one raises, both directions raise the same). -/
theorem C42_hermitian (h : Reachable (noSymmetry S) H) (junk : ℕ → ℤ) (hinv : ∀ v, hc (hc v) = v) :
    ∃ sys, finalizeFinite C junk H = .ok sys ∧
      ∀ (i j : ℕ), i ≠ j → i < sys.sites.length → j < sys.sites.length → ∀ args params,
        sys.hamiltonian (noSymmetry S) hc C j i args params =
          (sys.hamiltonian (noSymmetry S) hc C i j args params).map hc := by
  obtain ⟨sys, h1, h2⟩ := C41_hamiltonian (C := C) (hc := hc) h junk
  refine ⟨sys, h1, fun i j hij hi hj args params => ?_⟩
  by_cases hx : args = [] ∨ params = []
  · obtain ⟨_, _, _, a3, a4⟩ := h2 i j _ _ (List.getElem?_eq_getElem hi) (List.getElem?_eq_getElem hj)
    obtain ⟨_, _, _, b3, b4⟩ := h2 j i _ _ (List.getElem?_eq_getElem hj) (List.getElem?_eq_getElem hi)
    by_cases hh : HasHop (noSymmetry S) H sys.sites[i] sys.sites[j]
    · obtain ⟨v, hv, hv'⟩ := a3 hij hh
      have hherm := C23_hermitian h hinv sys.sites[i] sys.sites[j] v hv
      have hh' : HasHop (noSymmetry S) H sys.sites[j] sys.sites[i] :=
        (C23_get_iff_contains (hc := hc) h _ _).1.mp ⟨_, hherm⟩
      obtain ⟨w, hw, hw'⟩ := b3 (Ne.symm hij) hh'
      rw [hherm] at hw
      cases hw
      rw [hv' args params hx, hw' args params hx, hopValue_conj hinv]
    · have hh' : ¬ HasHop (noSymmetry S) H sys.sites[j] sys.sites[i] := by
        intro hh'
        obtain ⟨v, hv, _⟩ := b3 (Ne.symm hij) hh'
        exact hh ((C23_get_iff_contains (hc := hc) h _ _).1.mp ⟨_, C23_hermitian h hinv _ _ v hv⟩)
      rw [a4 hij hh args params hx, b4 (Ne.symm hij) hh' args params hx]
      rfl
  · push Not at hx
    rw [ham_exclusive args params hx, ham_exclusive args params hx]
    rfl

/-! ### Parameters -/

theorem collectParams_none {l : List (Option (Option (List N)))} :
    collectParams l = none ↔ some none ∈ l := by
  induction l with
  | nil => simp [collectParams]
  | cons x l ih =>
    rcases x with _ | _ | ns
    · simpa [collectParams] using ih
    · simp [collectParams]
    · cases hc : collectParams l with
      | none => simp [collectParams, hc, ← ih]
      | some r => simp [collectParams, hc, ← ih]

theorem mem_collectParams {l : List (Option (Option (List N)))} {r : List N} (h : collectParams l = some r) (n : N) :
    n ∈ r ↔ ∃ ns, some (some ns) ∈ l ∧ n ∈ ns := by
  induction l generalizing r with
  | nil => simp only [collectParams, Option.some.injEq] at h; subst h; simp
  | cons x l ih =>
    rcases x with _ | _ | ns
    · simp only [collectParams] at h; rw [ih h]; simp
    · simp [collectParams] at h
    · cases hc : collectParams l with
      | none => simp [collectParams, hc] at h
      | some r' =>
        simp only [collectParams, hc, Option.some.injEq] at h
        subst h
        rw [List.mem_append, ih hc]
        constructor
        · rintro (h | ⟨ms, h1, h2⟩)
          · exact ⟨ns, by simp, h⟩
          · exact ⟨ms, by simp [h1], h2⟩
        · rintro ⟨ms, h1, h2⟩
          simp only [List.mem_cons, Option.some.injEq] at h1
          rcases h1 with rfl | h1
          · exact Or.inl h2
          · exact Or.inr ⟨ms, h1, h2⟩

/-- `f` is the value function of a site of the builder. -/
def IsSiteFn (H : HMap S V Fn) (f : Fn) : Prop :=
  ∃ a, getSite (noSymmetry S) H a = .ok (.func f) ∨ getSite (noSymmetry S) H a = .ok (.herm f)
/-- `f` is the value function of a hopping of the builder (in one of its directions). -/
def IsHopFn (H : HMap S V Fn) (f : Fn) : Prop := ∃ (a b : S), getHop (noSymmetry S) (V := V) id H a b = .ok (.func f)

theorem getHop_func_iff (hw : Builder.WF (noSymmetry S) H) (hl : (noSymmetry S).Lawful) {a b : S} {f : Fn} :
    (getHop (noSymmetry S) hc H a b = .ok (.func f) ↔ E H a b = some (.func f)) := by
  by_cases hab : a = b
  · subst hab
    simp only [getHop, if_true]
    constructor
    · intro h; cases h
    · intro h; exact absurd rfl (hw.pair a a _ h).1
  · rw [getHop_eq hw hl hab, noSym_toFd2]
    unfold edgeVal
    cases he : E H a b with
    | none => simp
    | some st =>
      cases st with
      | const v => simp
      | func g => simp
      | other =>
        simp only
        cases he' : E H (rev (noSymmetry S) a b).1 (rev (noSymmetry S) a b).2 with
        | none => simp
        | some st' => cases st' <;> simp

theorem getHop_herm_imp (hw : Builder.WF (noSymmetry S) H) (hl : (noSymmetry S).Lawful) {a b : S} {f : Fn}
    (h : getHop (noSymmetry S) hc H a b = .ok (.herm f)) : E H b a = some (.func f) := by
  by_cases hab : a = b
  · subst hab
    simp only [getHop, if_true] at h
    cases h
  · rw [getHop_eq hw hl hab, noSym_toFd2] at h
    have hr : rev (noSymmetry S) a b = (b, a) := rfl
    unfold edgeVal at h
    cases he : E H a b with
    | none => simp [he] at h
    | some st =>
      cases st with
      | const v => simp [he] at h
      | func g => simp [he] at h
      | other =>
        simp only [he, hr] at h
        cases he' : E H b a with
        | none => simp [he'] at h
        | some st' => cases st' <;> simp [he'] at h; rw [h]

theorem names_mem {sys : Sys S V Fn N} (R : FinRep C H sys) (hw : Builder.WF (noSymmetry S) H)
    (hl : (noSymmetry S).Lawful) (o : Option (List N)) :
    (some o ∈ sys.onsites.map OnEntry.names ↔ ∃ f, IsSiteFn H f ∧ o = (C.sig f).map (List.drop 1)) ∧
    (some o ∈ sys.hoppings.map HopEntry.names → (∃ f, IsHopFn H f ∧ o = (C.sig f).map (List.drop 2)) ∨ o = some []) ∧
    (∀ f, IsHopFn H f → o = (C.sig f).map (List.drop 2) → some o ∈ sys.hoppings.map HopEntry.names) := by
  have hget : ∀ a : S, ∀ v, getSite (noSymmetry S) H a = .ok v ↔ O H a = some v := by
    intro a v
    rw [getSite_eq, noSym_toFd]
    cases O H a <;> simp
  have hhop := fun a b f => getHop_func_iff (hc := (id : V → V)) hw hl (a := a) (b := b) (f := f)
  have hidx : ∀ a ∈ keys H, ∃ i : ℕ, sys.sites[i]? = some a := fun a ha => by
    rw [R.sites]; exact List.mem_iff_getElem?.mp (mem_pySorted.mpr ha)
  refine ⟨⟨?_, ?_⟩, ?_, ?_⟩
  · intro hm
    obtain ⟨e, he, hn⟩ := List.mem_map.mp hm
    obtain ⟨i, hi⟩ := List.mem_iff_getElem?.mp he
    have hlt : i < sys.sites.length := by rw [← R.onLen]; exact (List.getElem?_eq_some_iff.mp hi).1
    obtain ⟨v, hv, ho⟩ := R.onsite i _ (List.getElem?_eq_getElem hlt)
    rw [hi] at ho
    cases ho
    cases v with
    | const w => simp [onEntry, OnEntry.names] at hn
    | func f => exact ⟨f, ⟨_, Or.inl ((hget _ _).mpr hv)⟩, by simpa [onEntry, OnEntry.names] using hn.symm⟩
    | herm f => exact ⟨f, ⟨_, Or.inr ((hget _ _).mpr hv)⟩, by simpa [onEntry, OnEntry.names] using hn.symm⟩
  · rintro ⟨f, ⟨a, ha⟩, rfl⟩
    have hmem : a ∈ keys H := by
      rw [← O_isSome]
      rcases ha with ha | ha <;> rw [(hget _ _).mp ha] <;> rfl
    obtain ⟨i, hi⟩ := hidx a hmem
    obtain ⟨v, hv, ho⟩ := R.onsite i a hi
    refine List.mem_map.mpr ⟨_, List.mem_of_getElem? ho, ?_⟩
    rcases ha with ha | ha <;> (rw [hget, hv] at ha; cases ha; rfl)
  · intro hm
    obtain ⟨e, he, hn⟩ := List.mem_map.mp hm
    obtain ⟨i, j, a, b, st, _, _, _, hst, rfl⟩ := R.hopsAll e he
    cases st with
    | const w => simp [hopEntry, HopEntry.names] at hn
    | func f => exact Or.inl ⟨f, ⟨a, b, (hhop a b f).mpr hst⟩, by simpa [hopEntry, HopEntry.names] using hn.symm⟩
    | other => right; simpa [hopEntry, HopEntry.names] using hn.symm
  · rintro f ⟨a, b, hf⟩ rfl
    have hE := (hhop a b f).mp hf
    obtain ⟨_, st', hE', _⟩ := hw.pair a b _ hE
    obtain ⟨i, hi⟩ := hidx a (E_some_mem hE)
    obtain ⟨j, hj⟩ := hidx b (E_some_mem hE')
    have := R.hop i j a b hi hj _ hE
    refine List.mem_map.mpr ⟨hopEntry C (.func f), ?_, rfl⟩
    unfold Sys.hopAt at this
    split at this
    · cases this
    · split at this
      · next h2 => cases this; exact List.mem_of_getElem? h2
      · cases this

/-- C91: `parameters` of the finalized system is `None` exactly if the parameter names of some value function
could not be determined; otherwise it is the set of the names of the parameters of the value functions of
sites (after the site) and of hoppings (after the two sites). -/
theorem C91_parameters (h : Reachable (noSymmetry S) H) (junk : ℕ → ℤ) :
    ∃ sys, finalizeFinite C junk H = .ok sys ∧
      (sys.parameters = none ↔ ∃ f, (IsSiteFn H f ∨ IsHopFn H f) ∧ C.sig f = none) ∧
      (∀ ps, sys.parameters = some ps → ∀ n, n ∈ ps ↔
        (∃ f ns, IsSiteFn H f ∧ C.sig f = some ns ∧ n ∈ ns.drop 1) ∨
        (∃ f ns, IsHopFn H f ∧ C.sig f = some ns ∧ n ∈ ns.drop 2)) := by
  obtain ⟨hl, hw⟩ := h.wf
  obtain ⟨sys, h1, R⟩ := finalizeFinite_rep (C := C) hw hl junk
  have hm := names_mem R hw hl
  refine ⟨sys, h1, ?_, ?_⟩
  · rw [R.params, collectParams_none, List.mem_append]
    constructor
    · rintro (h | h)
      · obtain ⟨f, hf, ho⟩ := ((hm none).1).mp h
        exact ⟨f, Or.inl hf, by simpa using ho.symm⟩
      · rcases ((hm none).2.1) h with ⟨f, hf, ho⟩ | ho
        · exact ⟨f, Or.inr hf, by simpa using ho.symm⟩
        · cases ho
    · rintro ⟨f, hf | hf, ho⟩
      · exact Or.inl (((hm none).1).mpr ⟨f, hf, by simp [ho]⟩)
      · exact Or.inr ((hm none).2.2 f hf (by simp [ho]))
  · intro ps hps n
    rw [R.params] at hps
    rw [mem_collectParams hps]
    constructor
    · rintro ⟨ns, hns, hn⟩
      rcases List.mem_append.mp hns with h | h
      · obtain ⟨f, hf, ho⟩ := ((hm (some ns)).1).mp h
        obtain ⟨ms, hms, rfl⟩ := Option.map_eq_some_iff.mp ho.symm
        exact Or.inl ⟨f, ms, hf, hms, hn⟩
      · rcases ((hm (some ns)).2.1) h with ⟨f, hf, ho⟩ | ho
        · obtain ⟨ms, hms, rfl⟩ := Option.map_eq_some_iff.mp ho.symm
          exact Or.inr ⟨f, ms, hf, hms, hn⟩
        · cases ho; simp at hn
    · rintro (⟨f, ns, hf, hs, hn⟩ | ⟨f, ns, hf, hs, hn⟩)
      · exact ⟨ns.drop 1, List.mem_append.mpr (Or.inl (((hm _).1).mpr ⟨f, hf, by simp [hs]⟩)), hn⟩
      · exact ⟨ns.drop 2, List.mem_append.mpr (Or.inr ((hm _).2.2 f hf (by simp [hs]))), hn⟩

theorem mapM_get_isSome {params : List (N × A)} {ns : List N} (h : ∀ n ∈ ns, n ∈ keys params) :
    ∃ as, ns.mapM (Assoc.get params) = some as := by
  induction ns with
  | nil => exact ⟨[], rfl⟩
  | cons n ns ih =>
    obtain ⟨v, hv⟩ := get_of_mem_keys (h n (by simp))
    obtain ⟨as, has⟩ := ih fun m hm => h m (by simp [hm])
    exact ⟨v :: as, by simp [hv, has]⟩

theorem callWith_not_missing {C : Calls S V Fn N A X} {f : Fn} {ss : List S} {args : List A} {params : List (N × A)} {ns : List N}
    (hs : C.sig f = some ns) (h : ∀ n ∈ ns.drop ss.length, n ∈ keys params) :
    callWith C f ss args params ≠ .error .missing ∧ callWith C f ss args params ≠ .error .signature := by
  unfold callWith
  by_cases hp : params = []
  · rw [if_pos hp]
    constructor <;> (intro h; cases hc : C.call f ss args <;> rw [hc] at h <;> cases h)
  · rw [if_neg hp, hs]
    obtain ⟨as, has⟩ := mapM_get_isSome h
    simp only [has]
    constructor <;> (intro h; cases hc : C.call f ss as <;> rw [hc] at h <;> cases h)

/-- C91: a `params` dictionary that contains all of `parameters` is sufficient: no element of the Hamiltonian
raises for missing parameters or an unsuitable signature. -/
theorem C91_sufficient (h : Reachable (noSymmetry S) H) (junk : ℕ → ℤ) :
    ∃ sys, finalizeFinite C junk H = .ok sys ∧
      ∀ ps, sys.parameters = some ps → ∀ (args : List A) (params : List (N × A)), (∀ n ∈ ps, n ∈ keys params) →
        ∀ i j, i < sys.sites.length → j < sys.sites.length →
          sys.hamiltonian (noSymmetry S) hc C i j args params ≠ .error .missing ∧
          sys.hamiltonian (noSymmetry S) hc C i j args params ≠ .error .signature := by
  obtain ⟨sys, h1, h2, h3⟩ := C91_parameters (C := C) h junk
  obtain ⟨sys', h1', h4⟩ := C41_hamiltonian (C := C) (hc := hc) h junk
  rw [h1] at h1'; cases h1'
  refine ⟨sys, h1, fun ps hps args params hp i j hi hj => ?_⟩
  by_cases hx : args = [] ∨ params = []
  swap
  · push Not at hx
    rw [ham_exclusive args params hx]
    exact (by constructor <;> (intro h; cases h))
  have hsig : ∀ f, IsSiteFn H f ∨ IsHopFn H f → ∃ ns, C.sig f = some ns := by
    intro f hf
    cases hs : C.sig f with
    | some ns => exact ⟨ns, rfl⟩
    | none => rw [h2.mpr ⟨f, hf, hs⟩] at hps; cases hps
  obtain ⟨⟨v, hv, a1⟩, _, _, a3, a4⟩ := h4 i j _ _ (List.getElem?_eq_getElem hi) (List.getElem?_eq_getElem hj)
  by_cases hij : i = j
  · subst hij
    rw [a1 args params hx]
    cases v with
    | const w => exact (by constructor <;> (intro h; cases h))
    | func f =>
      have hf : IsSiteFn H f := ⟨_, Or.inl hv⟩
      obtain ⟨ns, hns⟩ := hsig f (Or.inl hf)
      exact callWith_not_missing hns fun n hn => hp n ((h3 ps hps n).mpr (Or.inl ⟨f, ns, hf, hns, hn⟩))
    | herm f =>
      have hf : IsSiteFn H f := ⟨_, Or.inr hv⟩
      obtain ⟨ns, hns⟩ := hsig f (Or.inl hf)
      exact callWith_not_missing (C := { C with call := _ }) hns fun n hn =>
        hp n ((h3 ps hps n).mpr (Or.inl ⟨f, ns, hf, hns, hn⟩))
  · by_cases hh : HasHop (noSymmetry S) H sys.sites[i] sys.sites[j]
    · obtain ⟨w, hw, a5⟩ := a3 hij hh
      rw [a5 args params hx]
      -- the function is the value of one of the directions
      have hfn : ∀ f, w = .func f ∨ w = .herm f → IsHopFn H f := by
        intro f hf
        obtain ⟨hl, hwf⟩ := h.wf
        rcases hf with rfl | rfl
        · exact ⟨sys.sites[i], sys.sites[j], (getHop_func_iff hwf hl).mpr ((getHop_func_iff hwf hl).mp hw)⟩
        · exact ⟨sys.sites[j], sys.sites[i], (getHop_func_iff hwf hl).mpr (getHop_herm_imp hwf hl hw)⟩
      cases w with
      | const w => exact (by constructor <;> (intro h; cases h))
      | func f =>
        have hf := hfn f (Or.inl rfl)
        obtain ⟨ns, hns⟩ := hsig f (Or.inr hf)
        exact callWith_not_missing hns fun n hn => hp n ((h3 ps hps n).mpr (Or.inr ⟨f, ns, hf, hns, hn⟩))
      | herm f =>
        have hf := hfn f (Or.inr rfl)
        obtain ⟨ns, hns⟩ := hsig f (Or.inr hf)
        obtain ⟨q1, q2⟩ := callWith_not_missing (C := C) (ss := [((noSymmetry S).toFd2 sys.sites[j] sys.sites[i]).1,
          ((noSymmetry S).toFd2 sys.sites[j] sys.sites[i]).2]) (args := args) hns
          fun n hn => hp n ((h3 ps hps n).mpr (Or.inr ⟨f, ns, hf, hns, hn⟩))
        simp only [hopValue]
        revert q1 q2
        cases callWith C f _ args params with
        | ok w => intro _ _; exact (by constructor <;> (intro h; cases h))
        | error e =>
          intro q1 q2
          exact ⟨fun h => q1 (by cases h; rfl), fun h => q2 (by cases h; rfl)⟩
    · rw [a4 hij hh args params hx]
      exact (by constructor <;> (intro h; cases h))

/-! ### Leads -/

/-- C90: connecting the leads succeeds exactly if every lead can be finalized and every interface site is in
the system; then `lead_interfaces` lists the numbers of the interface sites in the order of the interface, and
`lead_paddings` the numbers of those padding sites that are still there. -/
theorem C90_leads {L : Type} (h : Reachable (noSymmetry S) H) (junk : ℕ → ℤ) (leads : List (LeadData S L)) :
    ∃ sys, finalizeFinite C junk H = .ok sys ∧
      ((∃ r, connectLeads sys.idBySite leads = .ok r) ↔
        ∀ lead ∈ leads, (∃ l, lead.fin = .ok l) ∧ ∀ s ∈ lead.interface, HasSite (noSymmetry S) H s) ∧
      (∀ r, connectLeads sys.idBySite leads = .ok r → r.length = leads.length ∧
        ∀ (k : ℕ) (lead : LeadData S L), leads[k]? = some lead → ∃ l ids pad, r[k]? = some (l, ids, pad) ∧
          lead.fin = .ok l ∧
          ids.map (fun i => sys.sites[i]?) = lead.interface.map some ∧
          pad.map (fun i => sys.sites[i]?) = (lead.padding.filter fun s => containsSite (noSymmetry S) H s).map some) := by
  obtain ⟨sys, h1, h2, h3, h4, _⟩ := C40_sites (C := C) h junk
  refine ⟨sys, h1, ?_, ?_⟩
  · have one : ∀ lead : LeadData S L, (∃ r, (match lead.fin with
        | .error e => Except.error e
        | .ok l =>
          match mapE (lookupId sys.idBySite) lead.interface with
          | .error _ => .error FErr.value
          | .ok ids => .ok (l, ids, lead.padding.filterMap (Assoc.get sys.idBySite))) = .ok r) ↔
        (∃ l, lead.fin = .ok l) ∧ ∀ s ∈ lead.interface, HasSite (noSymmetry S) H s := by
      intro lead
      cases lead.fin with
      | error e => simp
      | ok l =>
        simp only [Except.ok.injEq, exists_eq', true_and]
        cases hm : mapE (lookupId sys.idBySite) lead.interface with
        | error e =>
          simp only [reduceCtorEq, exists_false, false_iff]
          intro hall
          obtain ⟨s, hs, he⟩ := mapE_error hm
          obtain ⟨i, hi⟩ := List.mem_iff_getElem?.mp ((h3 s).mpr (hall s hs))
          simp [lookupId, (h4 s i).mpr hi] at he
        | ok ids =>
          simp only [Except.ok.injEq, exists_eq', true_iff]
          intro s hs
          obtain ⟨i, hi⟩ := List.mem_iff_getElem?.mp hs
          obtain ⟨b, hb, _⟩ := (mapE_get hm).2 i s hi
          refine (h3 s).mp ?_
          cases hg : Assoc.get sys.idBySite s with
          | none => simp [lookupId, hg] at hb
          | some k => exact List.mem_of_getElem? ((h4 s k).mp hg)
    constructor
    · rintro ⟨r, hr⟩ lead hl
      obtain ⟨k, hk⟩ := List.mem_iff_getElem?.mp hl
      obtain ⟨b, hb, _⟩ := (mapE_get hr).2 k lead hk
      exact (one lead).mp ⟨b, hb⟩
    · intro hall
      exact mapE_exists fun lead hl => (one lead).mpr (hall lead hl)
  · intro r hr
    obtain ⟨hlen, hget⟩ := mapE_get hr
    refine ⟨hlen, fun k lead hk => ?_⟩
    obtain ⟨b, hb, hrk⟩ := hget k lead hk
    cases hf : lead.fin with
    | error e => simp [hf] at hb
    | ok l =>
      cases hm : mapE (lookupId sys.idBySite) lead.interface with
      | error e => simp [hf, hm] at hb
      | ok ids =>
        simp only [hf, hm, Except.ok.injEq] at hb
        subst hb
        refine ⟨l, ids, _, hrk, rfl, ?_, ?_⟩
        · obtain ⟨ilen, iget⟩ := mapE_get hm
          refine List.ext_getElem? fun n => ?_
          rw [List.getElem?_map, List.getElem?_map]
          cases hn : lead.interface[n]? with
          | none =>
            have : ids[n]? = none := by rw [List.getElem?_eq_none_iff] at hn ⊢; omega
            rw [this]; rfl
          | some s =>
            obtain ⟨i, hi, hi'⟩ := iget n s hn
            rw [hi']
            have : Assoc.get sys.idBySite s = some i := by
              unfold lookupId at hi; split at hi <;> simp_all
            simp [(h4 s i).mp this]
        · induction lead.padding with
          | nil => rfl
          | cons s l ih =>
            cases hg : Assoc.get sys.idBySite s with
            | none =>
              have : containsSite (noSymmetry S) H s = false := by
                rw [Bool.eq_false_iff]
                intro hs
                obtain ⟨i, hi⟩ := List.mem_iff_getElem?.mp ((h3 s).mpr hs)
                rw [(h4 s i).mpr hi] at hg; cases hg
              simp [hg, this, ih]
            | some i =>
              have hi := (h4 s i).mp hg
              have : containsSite (noSymmetry S) H s = true := (h3 s).mp (List.mem_of_getElem? hi)
              simp [hg, this, ih, hi]

/-! ### A concrete case -/
namespace Example
open Kwant Kwant.Builder

/-- Three sites 2, 0, 1 with the hoppings (0, 1) = 5 (a constant) and (2, 0) = the function 7. -/
def exH : HMap ℕ ℤ ℕ :=
  let s := noSymmetry ℕ
  let H1 := setSite s [] 2 (.const 10)
  let H2 := setSite s H1 0 (.func 3)
  let H3 := setSite s H2 1 (.const 11)
  let H4 := (setHop s H3 0 1 (.const 5)).1
  (setHop s H4 2 0 (.func 7)).1

theorem exH_reachable : Reachable (noSymmetry ℕ) exH := by
  unfold exH
  exact .setHop _ _ _ (.setHop _ _ _ (.setSite _ _ (.setSite _ _ (.setSite _ _ (.empty (noSymmetry_lawful ℕ))))))

example : HasHop (noSymmetry ℕ) exH 0 1 ∧ HasHop (noSymmetry ℕ) exH 0 2 ∧ ¬ HasHop (noSymmetry ℕ) exH 1 2 ∧
    HasSite (noSymmetry ℕ) exH 2 ∧ IsHopFn exH 7 ∧ IsSiteFn exH 3 := by
  refine ⟨by decide, by decide, by decide, by decide, ⟨2, 0, by decide⟩, ⟨0, Or.inl (by decide)⟩⟩

end Example
end Kwant.Final
