import Mathlib.Data.List.Basic
import Verif.Builder.Assoc

/-!
C80, C81, C82: kwant/_common.py.
-/

namespace Kwant.Common

/-! ### `interleave` (_common.py l.84-99) -/

/-- `zip(iseq, iseq)` on one iterator: the state is the list of remaining elements.  Each step takes an element for the first
component, then one for the second; if there is none, the first one is lost. -/
def interleave {α : Type} : List α → List (α × α)
  | a :: b :: l => (a, b) :: interleave l
  | _ => []

/-- **C82** -/
theorem C82_interleave {α : Type} (l : List α) :
    (interleave l).length = l.length / 2 ∧
    ∀ k < l.length / 2, ∃ a b, l[2 * k]? = some a ∧ l[2 * k + 1]? = some b ∧ (interleave l)[k]? = some (a, b) := by
  induction l using interleave.induct with
  | case1 a b l ih =>
    obtain ⟨h1, h2⟩ := ih
    refine ⟨by simp only [interleave, List.length_cons, h1]; omega, fun k hk => ?_⟩
    cases k with
    | zero => exact ⟨a, b, rfl, rfl, rfl⟩
    | succ k =>
      obtain ⟨x, y, hx, hy, hxy⟩ := h2 k (by simp only [List.length_cons] at hk; omega)
      refine ⟨x, y, ?_, ?_, ?_⟩
      · rw [show 2 * (k + 1) = 2 * k + 1 + 1 by omega, List.getElem?_cons_succ, List.getElem?_cons_succ]; exact hx
      · rw [show 2 * (k + 1) + 1 = 2 * k + 1 + 1 + 1 by omega, List.getElem?_cons_succ, List.getElem?_cons_succ]; exact hy
      · rw [interleave, List.getElem?_cons_succ]; exact hxy
  | case2 l h =>
    match l, h with
    | [], _ => exact ⟨by simp [interleave], fun k hk => by simp at hk⟩
    | [a], _ => exact ⟨by simp [interleave], fun k hk => by simp at hk⟩
    | a :: b :: l, h => exact absurd rfl (h a b l)

example : interleave [1, 2, 3, 4, 5] = [(1, 2), (3, 4)] := rfl

/-! ### `get_parameters` (_common.py l.142-176) -/

/-- `inspect.Parameter.kind` -/
inductive Kind where
  | posOnly | posOrKw | kwOnly | varPos | varKw
  deriving DecidableEq

/-- One parameter of a signature. -/
structure Param where
  name : String
  kind : Kind
  hasDefault : Bool

/-- The three error messages. -/
inductive PErr where
  | hasDefault | kwOnly | varArgs
  deriving DecidableEq

/-- The loop of `get_parameters`. -/
def getParameters : List Param → List String → Except PErr (List String)
  | [], names => .ok names
  | v :: l, names =>
    match v.kind with
    | .posOnly | .posOrKw => if v.hasDefault then .error .hasDefault else getParameters l (names ++ [v.name])
    | .kwOnly => .error .kwOnly
    | .varPos | .varKw => .error .varArgs

/-- A parameter that can, and has to, be given by position. -/
def Param.plain (v : Param) : Prop := (v.kind = .posOnly ∨ v.kind = .posOrKw) ∧ v.hasDefault = false

theorem getParameters_spec (l : List Param) (names : List String) :
    ((∀ v ∈ l, v.plain) → getParameters l names = .ok (names ++ l.map Param.name)) ∧
    (¬ (∀ v ∈ l, v.plain) → ∃ e, getParameters l names = .error e) := by
  induction l generalizing names with
  | nil => exact ⟨fun _ => by simp [getParameters], fun h => absurd (by simp) h⟩
  | cons v l ih =>
    obtain ⟨i1, i2⟩ := ih (names ++ [v.name])
    constructor
    · intro h
      have hv := h v (by simp)
      have hl : ∀ w ∈ l, w.plain := fun w hw => h w (List.mem_cons_of_mem _ hw)
      rcases hv.1 with hk | hk <;> simp [getParameters, hk, hv.2, i1 hl]
    · intro h
      by_cases hv : v.plain
      · have hl : ¬ ∀ w ∈ l, w.plain := fun hx => h fun w hw => (List.mem_cons.mp hw).elim (fun e => e ▸ hv) (hx w)
        obtain ⟨e, he⟩ := i2 hl
        refine ⟨e, ?_⟩
        rcases hv.1 with hk | hk <;> simp [getParameters, hk, hv.2, he]
      · unfold getParameters
        cases hk : v.kind with
        | posOnly =>
          have : v.hasDefault = true := by
            by_contra hx; exact hv ⟨Or.inl hk, by simpa using hx⟩
          exact ⟨.hasDefault, by simp only [this, if_true]⟩
        | posOrKw =>
          have : v.hasDefault = true := by
            by_contra hx; exact hv ⟨Or.inr hk, by simpa using hx⟩
          exact ⟨.hasDefault, by simp only [this, if_true]⟩
        | kwOnly => exact ⟨_, rfl⟩
        | varPos => exact ⟨_, rfl⟩
        | varKw => exact ⟨_, rfl⟩

/-- **C81**: `get_parameters` returns the names of all parameters in order exactly for plain signatures, and raises otherwise. -/
theorem C81_getParameters (l : List Param) :
    (∀ names, getParameters l [] = .ok names ↔ (∀ v ∈ l, v.plain) ∧ names = l.map Param.name) ∧
    ((∃ v ∈ l, ¬ v.plain) ↔ ∃ e, getParameters l [] = .error e) := by
  obtain ⟨h1, h2⟩ := getParameters_spec l []
  constructor
  · intro names
    by_cases h : ∀ v ∈ l, v.plain
    · rw [h1 h]
      simp only [List.nil_append, Except.ok.injEq]
      exact ⟨fun e => ⟨h, e.symm⟩, fun e => e.2.symm⟩
    · obtain ⟨e, he⟩ := h2 h
      rw [he]
      simp [h]
  · constructor
    · rintro ⟨v, hv, hp⟩
      exact h2 fun h => hp (h v hv)
    · rintro ⟨e, he⟩
      by_contra hx
      push Not at hx
      rw [h1 hx] at he
      cases he

example : getParameters [⟨"site", .posOrKw, false⟩, ⟨"mu", .posOrKw, false⟩] [] = .ok ["site", "mu"] := by
  simp [getParameters]

/-! ### `memoize` (_common.py l.210-229) -/

/-- An argument: a hashable value (values that compare equal are identified), or an object that is not hashable with its `id`. -/
inductive Arg (V O : Type) where
  | hashable (v : V)
  | object (id : ℕ) (o : O)

section
variable {V O R : Type} [DecidableEq V] (int : ℕ → V)

/-- `key = tuple(arg if _hashable(arg) else id(arg) for arg in args)` (_common.py l.222); `int` makes a Python integer. -/
def key (args : List (Arg V O)) : List V := args.map fun
  | .hashable v => v
  | .object id _ => int id

/-- `lookup(*args)` (_common.py l.221-226); `none` is `None`.  Returns the result, the new cache and whether the function has been
evaluated. -/
def lookup (f : List (Arg V O) → Option R) (cache : List (List V × Option R)) (a : List (Arg V O)) :
    Option R × List (List V × Option R) × Bool :=
  match (Assoc.get cache (key int a)).join with
  | some r => (some r, cache, false)
  | none => (f a, Assoc.put cache (key int a) (f a), true)

/-- A history of calls that starts with a given cache: the results, and whether the function has been evaluated. -/
def calls (f : List (Arg V O) → Option R) : List (List V × Option R) → List (List (Arg V O)) → List (Option R × Bool)
  | _, [] => []
  | c, a :: l => ((lookup int f c a).1, (lookup int f c a).2.2) :: calls f (lookup int f c a).2.1 l

/-- The cache contains only values of the function, for calls of a set. -/
def CacheOk (f : List (Arg V O) → Option R) (S : List (List (Arg V O))) (c : List (List V × Option R)) : Prop :=
  ∀ k r, Assoc.get c k = some r → ∃ a ∈ S, key int a = k ∧ f a = r

theorem lookup_ok {f : List (Arg V O) → Option R} {S : List (List (Arg V O))} (hS : ∀ a ∈ S, ∀ b ∈ S, key int a = key int b → f a = f b)
    {c : List (List V × Option R)} (hc : CacheOk int f S c) {a : List (Arg V O)} (ha : a ∈ S) :
    (lookup int f c a).1 = f a ∧ CacheOk int f S (lookup int f c a).2.1 ∧
    (f a ≠ none → Assoc.get (lookup int f c a).2.1 (key int a) = some (f a)) ∧
    ((lookup int f c a).2.2 = false ↔ f a ≠ none ∧ Assoc.get c (key int a) = some (f a)) ∧
    (∀ k r, r ≠ none → Assoc.get c k = some r → Assoc.get (lookup int f c a).2.1 k = some r) := by
  unfold lookup
  cases hg : Assoc.get c (key int a) with
  | none =>
    refine ⟨rfl, ?_, fun _ => by simp [Assoc.get_put], by simp, ?_⟩
    · intro k r hk
      simp only [Option.join_none, Assoc.get_put] at hk
      split at hk
      · next h => exact ⟨a, ha, h.symm ▸ rfl, Option.some.inj hk⟩
      · exact hc k r hk
    · intro k r _ hk
      simp only [Option.join_none, Assoc.get_put]
      rw [if_neg]
      · exact hk
      · rintro rfl; rw [hg] at hk; cases hk
  | some r =>
    obtain ⟨b, hb, hkb, hfb⟩ := hc _ _ hg
    have hab : f a = r := by rw [← hfb]; exact hS a ha b hb hkb.symm
    cases r with
    | some r => exact ⟨hab.symm, hc, fun _ => by simp [hg, hab], by simp [hab], fun k r _ hk => hk⟩
    | none =>
      refine ⟨rfl, ?_, fun h => absurd hab h, by simp [hab], ?_⟩
      · intro k r hk
        simp only [Option.join_some, Assoc.get_put] at hk
        split at hk
        · next h => exact ⟨a, ha, h.symm ▸ rfl, Option.some.inj hk⟩
        · exact hc k r hk
      · intro k r hr hk
        simp only [Option.join_some, Assoc.get_put]
        rw [if_neg]
        · exact hk
        · rintro rfl
          rw [hg] at hk
          exact absurd (Option.some.inj hk).symm hr

theorem calls_ok {f : List (Arg V O) → Option R} {S : List (List (Arg V O))} (hS : ∀ a ∈ S, ∀ b ∈ S, key int a = key int b → f a = f b)
    (l : List (List (Arg V O))) (hl : ∀ a ∈ l, a ∈ S) {c : List (List V × Option R)} (hc : CacheOk int f S c) :
    (calls int f c l).map Prod.fst = l.map f ∧
    ∀ (n : ℕ) (a : List (Arg V O)), l[n]? = some a → f a ≠ none →
      ((calls int f c l)[n]?.map Prod.snd = some false ↔
        Assoc.get c (key int a) = some (f a) ∨ ∃ (m : ℕ) (b : List (Arg V O)), m < n ∧ l[m]? = some b ∧ key int b = key int a) := by
  induction l generalizing c with
  | nil => exact ⟨rfl, fun n a h => by simp at h⟩
  | cons x l ih =>
    obtain ⟨h1, h2, h3, h4, h5⟩ := lookup_ok int hS hc (hl x (by simp))
    obtain ⟨i1, i2⟩ := ih (fun a ha => hl a (List.mem_cons_of_mem _ ha)) h2
    refine ⟨by simp [calls, h1, i1], ?_⟩
    intro n a hn hf
    cases n with
    | zero =>
      simp only [List.getElem?_cons_zero, Option.some.injEq] at hn
      subst hn
      simp only [calls, List.getElem?_cons_zero, Option.map_some, Option.some.injEq, h4]
      exact ⟨fun h => Or.inl h.2, fun h => h.elim (fun h => ⟨hf, h⟩) (fun ⟨m, _, hm, _⟩ => absurd hm (Nat.not_lt_zero m))⟩
    | succ n =>
      rw [List.getElem?_cons_succ] at hn
      simp only [calls, List.getElem?_cons_succ]
      rw [i2 n a hn hf]
      have haS : a ∈ S := hl a (List.mem_cons_of_mem _ (List.mem_of_getElem? hn))
      constructor
      · rintro (h | ⟨m, b, hm, hb, hk⟩)
        · by_cases hkx : key int x = key int a
          · exact Or.inr ⟨0, x, by omega, rfl, hkx⟩
          · left
            have hgx : Assoc.get (lookup int f c x).2.1 (key int a) = Assoc.get c (key int a) := by
              unfold lookup
              cases (Assoc.get c (key int x)).join with
              | some r => rfl
              | none =>
                simp only [Assoc.get_put]
                rw [if_neg]
                intro h; exact hkx h
            rw [← hgx]; exact h
        · exact Or.inr ⟨m + 1, b, by omega, by rw [List.getElem?_cons_succ]; exact hb, hk⟩
      · rintro (h | ⟨m, b, hm, hb, hk⟩)
        · exact Or.inl (h5 _ _ hf h)
        · cases m with
          | zero =>
            simp only [List.getElem?_cons_zero, Option.some.injEq] at hb
            subst hb
            left
            have hfx : f x = f a := hS x (hl x (by simp)) a haS hk
            rw [← hk, ← hfx]
            exact h3 (hfx ▸ hf)
          | succ m =>
            rw [List.getElem?_cons_succ] at hb
            exact Or.inr ⟨m, b, by omega, hb, hk⟩

/-- **C80 (partial).** If calls with the same key have the same result, the memoized function returns what the function returns, for
every history of calls, and a call whose result is not `None` is evaluated exactly if no earlier call had the same key.
Missing: calls with the same key and different results, that is, an integer that equals the `id` of an object passed earlier
(`C80_counterexample`). -/
theorem C80_memoize_partial {f : List (Arg V O) → Option R} (l : List (List (Arg V O)))
    (hS : ∀ a ∈ l, ∀ b ∈ l, key int a = key int b → f a = f b) :
    (calls int f [] l).map Prod.fst = l.map f ∧
    ∀ (n : ℕ) (a : List (Arg V O)), l[n]? = some a → f a ≠ none →
      ((calls int f [] l)[n]?.map Prod.snd = some true ↔ ∀ (m : ℕ) (b : List (Arg V O)), m < n → l[m]? = some b → key int b ≠ key int a) := by
  obtain ⟨h1, h2⟩ := calls_ok int hS l (fun _ h => h) (c := []) (fun k r h => by simp at h)
  refine ⟨h1, fun n a hn hf => ?_⟩
  have := h2 n a hn hf
  have hlen : n < (calls int f [] l).length := by
    have e : (calls int f [] l).length = l.length := by
      have := congrArg List.length h1
      simpa using this
    rw [e]
    by_contra hx
    rw [List.getElem?_eq_none (by omega)] at hn; cases hn
  rw [List.getElem?_eq_getElem hlen] at this ⊢
  simp only [Option.map_some, Option.some.injEq, Assoc.get_nil, reduceCtorEq, false_or] at this ⊢
  rw [← Bool.not_eq_false, this]
  push Not
  exact ⟨fun h m b hm hb => h m b hm hb, fun h m b hm hb => h m b hm hb⟩

end

/-- If all arguments are hashable, the hypothesis of `C80_memoize_partial` holds. -/
theorem key_hashable {V O R : Type} (int : ℕ → V) (f : List (Arg V O) → Option R) (a b : List V)
    (h : key int (a.map (Arg.hashable (O := O))) = key int (b.map (Arg.hashable (O := O)))) :
    f (a.map Arg.hashable) = f (b.map Arg.hashable) := by
  have : ∀ l : List V, key int (l.map (Arg.hashable (O := O))) = l := by
    intro l
    unfold key
    rw [List.map_map]
    exact List.map_id' l
  rw [this, this] at h
  rw [h]

/-- **C80 is false in general**: the function that tells integers from other objects, called with an object whose `id` is 5 and then
with 5. -/
theorem C80_counterexample :
    let f : List (Arg ℕ Unit) → Option Bool := fun | [.hashable _] => some true | _ => some false
    (calls id f [] [[.object 5 ()], [.hashable 5]]).map Prod.fst = [some false, some false] ∧
    [[.object 5 ()], [.hashable 5]].map f = [some false, some true] := by decide

end Kwant.Common
