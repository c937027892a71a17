import Verif.Builder.Props

/-!
# C32: renamed of parameters

Model of `_substitute_params`, `_Substituted` (builder.py l.728-782) and `Builder.substituted`
(l.1378-1429).

Simplifications
* A Python function is an opaque value `f : B` with its parameter names `sig f` (the result of
  `get_parameters`, see C81) and its behaviour `call f : List A → R` on positional arguments.
* `subs` is a dictionary given by `List (N × N)`.
* Warnings about unused parameters are not modelled.
-/
set_option linter.unusedSectionVars false

namespace Kwant.Builder
open Kwant Kwant.Assoc
variable {N B A R : Type} [DecidableEq N]

/-- A value function: a plain function or a `_Substituted` proxy (builder.py l.728-756). -/
inductive PFunc (N B : Type) where
  | plain (f : B)
  | subst (f : B) (params : List N)
deriving DecidableEq

variable (sig : B → List N) (call : B → List A → R)

/-- `get_parameters(func)`: for a proxy, the names in its `__signature__` (builder.py l.746-750). -/
def PFunc.params : PFunc N B → List N
  | .plain f => sig f
  | .subst _ ps => ps

/-- `old_func` (builder.py l.763-768). -/
def PFunc.base : PFunc N B → B
  | .plain f => f
  | .subst f _ => f

/-- Calling the function with positional arguments (`_Substituted.__call__`, builder.py l.752-753). -/
def PFunc.apply (g : PFunc N B) (args : List A) : R := call g.base args

/-- `_substitute_params` (builder.py l.759-782); `none` is the `ValueError`. -/
def substituteParams (subs : List (N × N)) (g : PFunc N B) : Option (PFunc N B) :=
  let params := (g.params sig).map fun p => (Assoc.get subs p).getD p
  if ∃ p ∈ params, 1 < params.count p then none
  else if params = g.params sig then some g
  else some (.subst g.base params)

/-- Renaming done by a dictionary. -/
def renamed (subs : List (N × N)) (p : N) : N := (Assoc.get subs p).getD p

variable {sig call}

/-- C32: substitution succeeds exactly if the renamed parameters are distinct. The result has the renamed
parameters (all renamed simultaneously) in the same order, and behaves like the original on positional
arguments. -/
theorem C32_substitute (subs : List (N × N)) (g : PFunc N B) :
    ((substituteParams sig subs g).isSome = true ↔ ((g.params sig).map (renamed subs)).Nodup) ∧
    ∀ g', substituteParams sig subs g = some g' →
      g'.params sig = (g.params sig).map (renamed subs) ∧ ∀ args : List A, g'.apply call args = g.apply call args := by
  unfold substituteParams
  have hr : (g.params sig).map (fun p => (Assoc.get subs p).getD p) = (g.params sig).map (renamed subs) := rfl
  simp only [hr]
  have hdup : (∃ p ∈ (g.params sig).map (renamed subs), 1 < ((g.params sig).map (renamed subs)).count p) ↔
      ¬ ((g.params sig).map (renamed subs)).Nodup := by
    rw [List.nodup_iff_count_le_one]
    push Not
    constructor
    · rintro ⟨p, _, h⟩; exact ⟨p, h⟩
    · rintro ⟨p, h⟩; exact ⟨p, List.count_pos_iff.mp (by omega), h⟩
  by_cases hd : ((g.params sig).map (renamed subs)).Nodup
  · rw [if_neg (by rw [hdup]; exact fun h => h hd)]
    by_cases he : (g.params sig).map (renamed subs) = g.params sig
    · rw [if_pos he]
      refine ⟨by simp [hd], ?_⟩
      rintro g' h
      obtain rfl := Option.some.inj h
      exact ⟨he.symm, fun _ => rfl⟩
    · rw [if_neg he]
      refine ⟨by simp [hd], ?_⟩
      rintro g' h
      obtain rfl := Option.some.inj h
      exact ⟨rfl, fun _ => rfl⟩
  · rw [if_pos (by rw [hdup]; exact hd)]
    simp [hd]

/-- C32, composition: renamed with `s` and then with `t` gives the parameters renamed by the composition;
the second succeeds exactly if the composite names are distinct. -/
theorem C32_compose (s t : List (N × N)) (g g1 : PFunc N B) (h1 : substituteParams sig s g = some g1) :
    ((substituteParams sig t g1).isSome = true ↔ ((g.params sig).map (renamed t ∘ renamed s)).Nodup) ∧
    ∀ g2, substituteParams sig t g1 = some g2 →
      g2.params sig = (g.params sig).map (renamed t ∘ renamed s) ∧
      ∀ args : List A, g2.apply call args = g.apply call args := by
  obtain ⟨_, e1⟩ := C32_substitute (sig := sig) (call := call) s g
  obtain ⟨p1, c1⟩ := e1 g1 h1
  obtain ⟨i2, e2⟩ := C32_substitute (sig := sig) (call := call) t g1
  rw [p1, List.map_map] at i2
  refine ⟨i2, fun g2 h2 => ?_⟩
  obtain ⟨p2, c2⟩ := e2 g2 h2
  rw [p1, List.map_map] at p2
  exact ⟨p2, fun args => (c2 args).trans (c1 args)⟩

/-! ### `Builder.substituted` -/

variable {S G V : Type} [DecidableEq S] [AddCommGroup G] [DecidableEq G] {sym : Symmetry S G}
variable [DecidableEq B]

/-- The callable values of the sites and hoppings (builder.py l.1388-1393), in the order of iteration. -/
def callables (H : HMap S V (PFunc N B)) : List (PFunc N B) :=
  ((siteValuePairs H).filterMap fun p => match p.2 with | .func f => some f | _ => none) ++
  ((hoppingValuePairs H).filterMap fun p => match p.2 with | .func f => some f | _ => none)

/-- `value_map` (builder.py l.1408-1409), `none` if one of the substitutions raises. -/
def valueMap (sig : B → List N) (subs : List (N × N)) : List (PFunc N B) → Option (List (PFunc N B × PFunc N B))
  | [] => some []
  | f :: l => do
    let g ← substituteParams sig subs f
    let m ← valueMap sig subs l
    return (f, g) :: m

/-- Copy of one value: `value_map.get(value, value)` (builder.py l.1424-1427).  The lookup hashes the value:
`none` is the `TypeError` for an unhashable constant (such as a NumPy array).  `Other` is hashable. -/
def copyStored (hashable : V → Bool) (m : List (PFunc N B × PFunc N B)) :
    Stored V (PFunc N B) → Option (Stored V (PFunc N B))
  | .const v => if hashable v then some (.const v) else none
  | .func f => some (.func ((Assoc.get m f).getD f))
  | .other => some .other

/-- The same for the value of a site.  (`HermConjOfFunc` proxies as values of sites are copied.) -/
def copyVal (hashable : V → Bool) (m : List (PFunc N B × PFunc N B)) :
    Val V (PFunc N B) → Option (Val V (PFunc N B))
  | .const v => if hashable v then some (.const v) else none
  | .func f => some (.func ((Assoc.get m f).getD f))
  | .herm f => some (.herm f)

/-- One row (builder.py l.1425-1427). -/
def copyRow (hashable : V → Bool) (m : List (PFunc N B × PFunc N B)) (r : Row S V (PFunc N B)) :
    Option (Row S V (PFunc N B)) := do
  let o ← copyVal hashable m r.onsite
  let es ← r.edges.mapM fun e => do return (e.1, ← copyStored hashable m e.2)
  return ⟨o, es⟩

/-- `substituted(**subs)` (builder.py l.1378-1429) for a builder without leads. -/
def substituted (sig : B → List N) (hashable : V → Bool) (subs : List (N × N)) (H : HMap S V (PFunc N B)) :
    Except (Err S) (HMap S V (PFunc N B)) :=
  match valueMap sig subs (callables H) with
  | none => .error .value
  | some m =>
    match H.mapM fun p => do return (p.1, ← copyRow hashable m p.2) with
    | none => .error .type
    | some H' => .ok H'

/-- Renaming of the parameters of a value. -/
def renameFn (sig : B → List N) (subs : List (N × N)) (f : PFunc N B) : PFunc N B :=
  (substituteParams sig subs f).getD f

/-- The values of sites: `HermConjOfFunc` proxies are not touched by `copyVal`. -/
def renameOnsite (sig : B → List N) (subs : List (N × N)) : Val V (PFunc N B) → Val V (PFunc N B)
  | .const v => .const v
  | .func f => .func (renameFn sig subs f)
  | .herm f => .herm f

theorem valueMap_get {subs : List (N × N)} {l : List (PFunc N B)} {m} (h : valueMap sig subs l = some m)
    (f : PFunc N B) (hf : f ∈ l) : (Assoc.get m f).getD f = renameFn sig subs f ∧
      (substituteParams sig subs f).isSome = true := by
  induction l generalizing m with
  | nil => simp at hf
  | cons f0 l ih =>
    simp only [valueMap, Option.pure_def, Option.bind_eq_bind] at h
    cases h1 : substituteParams sig subs f0 with
    | none => simp [h1] at h
    | some g =>
      cases h2 : valueMap sig subs l with
      | none => simp [h1, h2] at h
      | some m' =>
        simp only [h1, h2, Option.bind_some, Option.some.injEq] at h
        subst h
        by_cases he : f0 = f
        · subst he; simp [Assoc.get, renameFn, h1]
        · have hf' : f ∈ l := by
            rcases List.mem_cons.mp hf with h | h
            · exact absurd h.symm he
            · exact h
          simp only [Assoc.get, he, if_false]
          exact ih h2 hf'

theorem valueMap_isSome {subs : List (N × N)} {l : List (PFunc N B)} :
    (valueMap sig subs l).isSome = true ↔ ∀ f ∈ l, (substituteParams sig subs f).isSome = true := by
  induction l with
  | nil => simp [valueMap]
  | cons f0 l ih =>
    simp only [valueMap, Option.pure_def, Option.bind_eq_bind, List.forall_mem_cons, ← ih]
    cases substituteParams sig subs f0 <;> cases valueMap sig subs l <;> simp

theorem mapM_some_iff {α β : Type} (f : α → Option β) (l : List α) (l' : List β) :
    l.mapM f = some l' ↔ l.map f = l'.map some := by
  induction l generalizing l' with
  | nil => cases l' <;> simp
  | cons a l ih =>
    rw [List.mapM_cons]
    cases ha : f a with
    | none => cases l' <;> simp [ha]
    | some b =>
      cases hl : l.mapM f with
      | none =>
        cases l' with
        | nil => simp
        | cons c l' =>
          have : l.map f ≠ l'.map some := fun h => by rw [(ih l').mpr h] at hl; cases hl
          simp [ha, this]
      | some r =>
        cases l' with
        | nil => simp
        | cons c l' => 
          have := ih l'
          rw [hl] at this
          simp [ha, this.symm]

/-- Every constant in the builder is hashable. -/
def HashableConsts (hashable : V → Bool) (H : HMap S V (PFunc N B)) : Prop :=
  ∀ p ∈ H, (∀ v, p.2.onsite = .const v → hashable v = true) ∧
    ∀ e ∈ p.2.edges, ∀ v, e.2 = .const v → hashable v = true

theorem mem_callables_edge {H : HMap S V (PFunc N B)} {p} (hp : p ∈ H) {e} (he : e ∈ p.2.edges) {f}
    (hf : e.2 = .func f) : f ∈ callables H := by
  unfold callables
  refine List.mem_append_right _ ?_
  rw [List.mem_filterMap]
  refine ⟨((p.1, e.1), .func f), ?_, rfl⟩
  unfold hoppingValuePairs
  rw [List.mem_flatMap]
  refine ⟨p, hp, ?_⟩
  rw [List.mem_filterMap]
  exact ⟨e, he, by simp [hf, Stored.toVal?]⟩

theorem mem_callables_site {H : HMap S V (PFunc N B)} {p} (hp : p ∈ H) {f}
    (hf : p.2.onsite = .func f) : f ∈ callables H := by
  unfold callables
  refine List.mem_append_left _ ?_
  rw [List.mem_filterMap]
  refine ⟨(p.1, .func f), ?_, rfl⟩
  unfold siteValuePairs
  exact List.mem_map.mpr ⟨p, hp, by rw [hf]⟩

/-- C32 (partial): `substituted` succeeds if no function would get two parameters with the same name and every
constant is hashable; then every function is replaced by the one with renamed parameters, everything else is
the same.  Missing: constants that are not hashable, for which `substituted` raises `TypeError`
(`C32_counterexample`). -/
theorem C32_substituted_partial (hashable : V → Bool) (subs : List (N × N)) (H : HMap S V (PFunc N B))
    (hh : HashableConsts hashable H)
    (hf : ∀ f ∈ callables H, ((f.params sig).map (renamed subs)).Nodup) :
    substituted sig hashable subs H = .ok (mapVals (renameOnsite sig subs) (renameFn sig subs) H) := by
  unfold substituted
  obtain ⟨m, hm⟩ := Option.isSome_iff_exists.mp ((valueMap_isSome (sig := sig) (subs := subs)).mpr
    fun f hfm => ((C32_substitute (sig := sig) (call := fun (_ : B) (_ : List Unit) => ()) subs f).1).mpr (hf f hfm))
  rw [hm]
  have hrow : H.mapM (fun p => do return (p.1, ← copyRow hashable m p.2)) =
      some (mapVals (renameOnsite sig subs) (renameFn sig subs) H) := by
    rw [mapM_some_iff]
    unfold mapVals mapSnd
    rw [List.map_map]
    refine List.map_congr_left fun p hp => ?_
    obtain ⟨h1, h2⟩ := hh p hp
    have ho : copyVal hashable m p.2.onsite = some (renameOnsite sig subs p.2.onsite) := by
      cases hv : p.2.onsite with
      | const v => simp [copyVal, renameOnsite, h1 v hv]
      | func f => simp only [copyVal, renameOnsite, (valueMap_get hm f (mem_callables_site hp hv)).1]
      | herm f => rfl
    have he : p.2.edges.mapM (fun e => do return (e.1, ← copyStored hashable m e.2)) =
        some (mapSnd (Stored.mapFn (renameFn sig subs)) p.2.edges) := by
      rw [mapM_some_iff]
      unfold mapSnd
      rw [List.map_map]
      refine List.map_congr_left fun e hem => ?_
      have : copyStored hashable m e.2 = some (e.2.mapFn (renameFn sig subs)) := by
        cases hv : e.2 with
        | const v => simp [copyStored, Stored.mapFn, h2 e hem v hv]
        | func f => simp only [copyStored, Stored.mapFn, (valueMap_get hm f (mem_callables_edge hp hem hv)).1]
        | other => rfl
      simp [this]
    simp only [Function.comp_apply, copyRow, ho, he, mapRow]
    rfl
  simp only [hrow]

/-- C32: a name collision in any value function makes `substituted` fail with `ValueError`. -/
theorem C32_substituted_collision (hashable : V → Bool) (subs : List (N × N)) (H : HMap S V (PFunc N B))
    (hf : ∃ f ∈ callables H, ¬ ((f.params sig).map (renamed subs)).Nodup) :
    substituted sig hashable subs H = .error .value := by
  unfold substituted
  have : valueMap sig subs (callables H) = none := by
    cases hm : valueMap sig subs (callables H) with
    | none => rfl
    | some m =>
      obtain ⟨f, h1, h2⟩ := hf
      have := (valueMap_isSome (sig := sig) (subs := subs)).mp (by rw [hm]; rfl) f h1
      exact absurd ((C32_substitute (sig := sig) (call := fun (_ : B) (_ : List Unit) => ()) subs f).1.mp this) h2
  rw [this]

/-- C32: the values read from the substituted builder: same sites, same hoppings; a hopping with a function
value has the renamed function. -/
theorem C32_substituted_values (hashable : V → Bool) (hc : V → V) (subs : List (N × N)) {H H' : HMap S V (PFunc N B)}
    (h : Reachable sym H) (hh : HashableConsts hashable H)
    (hok : substituted sig hashable subs H = .ok H') :
    Reachable sym H' ∧ (∀ x, HasSite sym H' x ↔ HasSite sym H x) ∧ (∀ x y, HasHop sym H' x y ↔ HasHop sym H x y) ∧
    (∀ x v, getSite sym H x = .ok v → getSite sym H' x = .ok (renameOnsite sig subs v)) ∧
    (∀ x y v, getHop sym hc H x y = .ok v → getHop sym hc H' x y = .ok (match v with
      | .const v => .const v
      | .func f => .func (renameFn sig subs f)
      | .herm f => .herm (renameFn sig subs f))) := by
  have hcol : ∀ f ∈ callables H, ((f.params sig).map (renamed subs)).Nodup := by
    by_contra hcon
    push Not at hcon
    rw [C32_substituted_collision hashable subs H hcon] at hok
    cases hok
  rw [C32_substituted_partial hashable subs H hh hcol] at hok
  obtain rfl := Except.ok.inj hok
  obtain ⟨hl, w⟩ := h.wf
  have hr : Reachable sym (mapVals (renameOnsite sig subs) (renameFn sig subs) H) := .substituted _ _ h
  have w' := hr.wf.2
  have hk : keys (mapVals (renameOnsite sig subs) (renameFn sig subs) H) = keys H := by rw [mapVals, keys_map]
  have hE : ∀ a b, E (mapVals (renameOnsite sig subs) (renameFn sig subs) H) a b =
      (E H a b).map (Stored.mapFn (renameFn sig subs)) := by
    intro a b
    simp only [E, mapVals, get_map]
    cases Assoc.get H a with
    | none => rfl
    | some r => simp [get_map, mapRow]
  refine ⟨hr, fun x => by rw [hasSite_iff, hasSite_iff, hk], fun x y => ?_, ?_, ?_⟩
  · rw [hasHop_iff w' hl, hasHop_iff w hl, hE]; simp
  · intro x v hv
    unfold getSite at hv ⊢
    rw [mapVals, get_map]
    cases hg : Assoc.get H (sym.toFd x) with
    | none => simp [hg] at hv
    | some r =>
      simp only [hg, Except.ok.injEq] at hv
      simp [mapRow, hv]
  · intro x y v hv
    rw [getHop_ok_iff w hl] at hv
    rw [getHop_ok_iff w' hl]
    refine ⟨hv.1, ?_⟩
    have hv := hv.2
    unfold edgeVal at hv ⊢
    rw [hE, hE]
    cases he : E H (sym.toFd2 x y).1 (sym.toFd2 x y).2 with
    | none => simp [he] at hv
    | some st =>
      cases st with
      | const c => simp [he] at hv; simp [Stored.mapFn, ← hv]
      | func f => simp [he] at hv; simp [Stored.mapFn, ← hv]
      | other =>
        simp only [he] at hv
        simp only [Option.map_some, Stored.mapFn]
        cases hr : E H (rev sym (sym.toFd2 x y).1 (sym.toFd2 x y).2).1 (rev sym (sym.toFd2 x y).1 (sym.toFd2 x y).2).2 with
        | none => simp [hr] at hv
        | some st' =>
          cases st' with
          | const c => simp [hr] at hv; simp [Stored.mapFn, ← hv]
          | func f => simp [hr] at hv; simp [Stored.mapFn, ← hv]
          | other => simp [hr] at hv

/-! ### Examples, and the failure for unhashable constants -/

/-- A builder with one site whose value is a constant (think of a NumPy array). -/
def constH : HMap (ℤ × ℕ) ℤ (PFunc String ℕ) := setSite chainSym [] (0, 0) (.const 1)

/-- C32 fails: with an unhashable constant anywhere in the builder `substituted` raises `TypeError`, although
no function is involved. -/
theorem C32_counterexample : Reachable chainSym constH ∧ callables constH = [] ∧
    substituted (fun _ : ℕ => ["site"]) (fun _ => false) [] constH = .error .type := by
  exact ⟨.setSite _ _ (.empty chainSym_lawful), rfl, rfl⟩

/-- Swapping two names (not the same as renamed one after the other). -/
example : substituteParams (fun _ : ℕ => ["site", "a", "b"]) [("a", "b"), ("b", "a")] (.plain 0) =
    some (.subst 0 ["site", "b", "a"]) := by decide
example : substituteParams (fun _ : ℕ => ["site", "a", "b"]) [("a", "b")] (.plain 0) = none := by decide
example : HashableConsts (fun _ => true) constH := by
  intro p _; simp

end Kwant.Builder
