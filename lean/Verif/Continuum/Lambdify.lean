import Mathlib.Data.List.Dedup
import Mathlib.Data.List.Sort
import Mathlib.Data.List.Basic
import Mathlib.Data.List.Lex
import Mathlib.Data.Char
import Mathlib.Data.List.GetD
import Mathlib.Data.String.Basic

/-!
C181: kwant/continuum/_common.py, `lambdify` (l.46-81).

An expression is a tree of symbols, numbers, operations and applied functions (several arguments of a function are one tuple, made by an operation).  Python objects form
an arbitrary type `D`.  `sympy.lambdify(args, expr)` is modelled by its meaning: it compiles a Python function with the parameters `args` whose body is the text of the
expression, in which names that are no parameters are looked up in the module `numpy`; a function definition with a repeated parameter is a `SyntaxError`.
`expr.atoms` returns sets, modelled by lists without duplicates; the order of a set is irrelevant as the names are sorted.  `sympify` is not modelled.
-/

set_option linter.unusedSectionVars false

namespace Kwant.Lambdify

/-- A symbol: sympy distinguishes symbols by name and by assumptions such as commutativity. -/
structure Sym where
  name : String
  commutative : Bool
  deriving DecidableEq

/-- Operations: sums, products, powers, matrices, tuples of arguments, numbered by `ℕ`. -/
abbrev Op := ℕ

/-- Sympy expressions.  `call f a` is a function, known to sympy or not, applied to `a`. -/
inductive Ex where
  | sym (s : Sym)
  | num (n : ℤ)
  | op (o : Op) (a b : Ex)
  | call (f : String) (a : Ex)
  deriving DecidableEq

/-- `expr.atoms(sympy.Symbol)` before duplicates are removed. -/
def Ex.syms : Ex → List Sym
  | .sym s => [s]
  | .num _ => []
  | .op _ a b => a.syms ++ b.syms
  | .call _ a => a.syms

/-- `expr.atoms(AppliedUndef, sympy.Function)` before duplicates are removed: all applied functions, each with the name of the function. -/
def Ex.calls : Ex → List (String × Ex)
  | .sym _ => []
  | .num _ => []
  | .op _ a b => a.calls ++ b.calls
  | .call f a => (f, a) :: a.calls

/-- `args` (l.76-79): `sorted([s.name for s in atoms(Symbol)] + [str(f.func) for f in atoms(...)])`. -/
def Ex.args (e : Ex) : List String :=
  (e.syms.dedup.map Sym.name ++ e.calls.dedup.map Prod.fst).mergeSort fun a b => decide (a ≤ b)

/-- Python objects: numbers, operations between them and calls of objects. -/
structure Py (D : Type) where
  num : ℤ → D
  op : Op → D → D → D
  call : D → D → D

variable {D : Type} (py : Py D)

/-- Evaluation of the text of an expression in a namespace; `none` is a `NameError`. -/
def Ex.run (ns : String → Option D) : Ex → Option D
  | .sym s => ns s.name
  | .num n => some (py.num n)
  | .op o a b => do return py.op o (← a.run ns) (← b.run ns)
  | .call f a => do return py.call (← ns f) (← a.run ns)

/-- What can go wrong. -/
inductive LErr where
  | syntaxError | typeError | nameError
  deriving DecidableEq

/-- The compiled function: with as many values as parameters, the body is evaluated with the parameters bound. -/
def compiled (numpy : String → Option D) (params : List String) (e : Ex) (values : List D) : Except LErr D :=
  if values.length ≠ params.length then .error .typeError
  else match e.run py fun n => ((params.zip values).lookup n).or (numpy n) with
    | some d => .ok d
    | none => .error .nameError

/-- `lambdify` (l.46-81): the parameters and the function. -/
def lambdify (numpy : String → Option D) (e : Ex) : Except LErr (List String × (List D → Except LErr D)) :=
  if e.args.Nodup then .ok (e.args, compiled py numpy e.args e) else .error .syntaxError

/-! ### Specification -/

/-- The value of an expression, for given meanings of the names. -/
def Ex.value (env : String → D) : Ex → D
  | .sym s => env s.name
  | .num n => py.num n
  | .op o a b => py.op o (a.value env) (b.value env)
  | .call f a => py.call (env f) (a.value env)

/-- A name occurs in the expression, as a symbol or a function. -/
def Ex.Occurs (n : String) : Ex → Prop
  | .sym s => s.name = n
  | .num _ => False
  | .op _ a b => a.Occurs n ∨ b.Occurs n
  | .call f a => f = n ∨ a.Occurs n

/-- Different symbols and applied functions of the expression have different names. -/
def Ex.Unambiguous (e : Ex) : Prop :=
  (∀ s ∈ e.syms, ∀ t ∈ e.syms, s.name = t.name → s = t) ∧ (∀ f ∈ e.calls, ∀ g ∈ e.calls, f.1 = g.1 → f = g) ∧
    ∀ s ∈ e.syms, ∀ f ∈ e.calls, s.name ≠ f.1

/-! ### Proofs -/

theorem occurs_iff (n : String) (e : Ex) : e.Occurs n ↔ (∃ s ∈ e.syms, s.name = n) ∨ ∃ f ∈ e.calls, f.1 = n := by
  induction e with
  | sym s => simp [Ex.Occurs, Ex.syms, Ex.calls]
  | num k => simp [Ex.Occurs, Ex.syms, Ex.calls]
  | op o a b iha ihb =>
    simp only [Ex.Occurs, Ex.syms, Ex.calls, List.mem_append, iha, ihb]
    constructor
    · rintro ((⟨s, h1, h2⟩ | ⟨s, h1, h2⟩) | (⟨s, h1, h2⟩ | ⟨s, h1, h2⟩))
      · exact Or.inl ⟨s, Or.inl h1, h2⟩
      · exact Or.inr ⟨s, Or.inl h1, h2⟩
      · exact Or.inl ⟨s, Or.inr h1, h2⟩
      · exact Or.inr ⟨s, Or.inr h1, h2⟩
    · rintro (⟨s, h1 | h1, h2⟩ | ⟨s, h1 | h1, h2⟩)
      · exact Or.inl (Or.inl ⟨s, h1, h2⟩)
      · exact Or.inr (Or.inl ⟨s, h1, h2⟩)
      · exact Or.inl (Or.inr ⟨s, h1, h2⟩)
      · exact Or.inr (Or.inr ⟨s, h1, h2⟩)
  | call f a ih =>
    simp only [Ex.Occurs, Ex.syms, Ex.calls, List.mem_cons, ih]
    constructor
    · rintro (h | h | ⟨s, h1, h2⟩)
      · exact Or.inr ⟨_, Or.inl rfl, h⟩
      · exact Or.inl h
      · exact Or.inr ⟨s, Or.inr h1, h2⟩
    · rintro (h | ⟨s, h1 | h1, h2⟩)
      · exact Or.inr (Or.inl h)
      · exact Or.inl (by rw [← h2, h1])
      · exact Or.inr (Or.inr ⟨s, h1, h2⟩)

theorem mem_args (n : String) (e : Ex) : n ∈ e.args ↔ e.Occurs n := by
  rw [occurs_iff, Ex.args, List.mem_mergeSort]
  simp [List.mem_map, List.mem_dedup]

theorem args_nodup (e : Ex) : e.args.Nodup ↔ e.Unambiguous := by
  rw [Ex.args, (List.mergeSort_perm _ _).nodup_iff, List.nodup_append]
  have h1 : (e.syms.dedup.map Sym.name).Nodup ↔ ∀ s ∈ e.syms, ∀ t ∈ e.syms, s.name = t.name → s = t := by
    rw [List.nodup_map_iff_inj_on (List.nodup_dedup _)]
    simp [List.mem_dedup]
  have h2 : (e.calls.dedup.map Prod.fst).Nodup ↔ ∀ f ∈ e.calls, ∀ g ∈ e.calls, f.1 = g.1 → f = g := by
    rw [List.nodup_map_iff_inj_on (List.nodup_dedup _)]
    simp only [List.mem_dedup]
  rw [h1, h2]
  refine and_congr Iff.rfl (and_congr Iff.rfl ?_)
  constructor
  · intro h s hs f hf
    exact h _ (List.mem_map_of_mem (List.mem_dedup.mpr hs)) _ (List.mem_map_of_mem (List.mem_dedup.mpr hf))
  · intro h a ha b hb
    obtain ⟨s, hs, rfl⟩ := List.mem_map.mp ha
    obtain ⟨f, hf, rfl⟩ := List.mem_map.mp hb
    exact h s (List.mem_dedup.mp hs) f (List.mem_dedup.mp hf)

theorem lookup_zip {env : String → D} {n : String} : ∀ {l : List String}, n ∈ l → (l.zip (l.map env)).lookup n = some (env n)
  | a :: l, h => by
    simp only [List.map_cons, List.zip_cons_cons, List.lookup_cons]
    by_cases hn : n = a
    · subst hn; simp
    · rw [beq_eq_false_iff_ne.mpr hn]
      exact lookup_zip ((List.mem_cons.mp h).resolve_left hn)

theorem run_eq {ns : String → Option D} {env : String → D} : ∀ {e : Ex}, (∀ n, e.Occurs n → ns n = some (env n)) → e.run py ns = some (e.value py env)
  | .sym s, h => h s.name rfl
  | .num n, _ => rfl
  | .op o a b, h => by
    simp only [Ex.run, Ex.value, run_eq (e := a) fun n hn => h n (Or.inl hn), run_eq (e := b) fun n hn => h n (Or.inr hn)]
    rfl
  | .call f a, h => by
    simp only [Ex.run, Ex.value, h f (Or.inl rfl), run_eq (e := a) fun n hn => h n (Or.inr hn)]
    rfl

/-- C181 (partial: expressions in which a name is used twice are refused, and functions known to sympy are parameters, see `C181_counterexample`).  `lambdify` succeeds
exactly for the expressions in which different symbols and applied functions have different names.  The parameters of the function it returns are then all the names that
occur in the expression, once each, in alphabetical order; a call with a value for each of them, in that order, returns the value of the expression, whatever the module
`numpy` contains; and a call with another number of values raises `TypeError`. -/
theorem C181_partial (numpy : String → Option D) (e : Ex) :
    ((∃ f, lambdify py numpy e = .ok f) ↔ e.Unambiguous) ∧
    ∀ f, lambdify py numpy e = .ok f →
      f.1.Pairwise (· < ·) ∧ (∀ n, n ∈ f.1 ↔ e.Occurs n) ∧
      (∀ env : String → D, f.2 (f.1.map env) = .ok (e.value py env)) ∧
      ∀ values : List D, values.length ≠ f.1.length → f.2 values = .error .typeError := by
  constructor
  · rw [← args_nodup, lambdify]
    split_ifs with h <;> simp [h]
  · rintro f hf
    rw [lambdify] at hf
    split_ifs at hf with h
    simp only [Except.ok.injEq] at hf
    subst hf
    refine ⟨?_, fun n => mem_args n e, ?_, ?_⟩
    · have hs : e.args.Pairwise (· ≤ ·) := by
        have := List.pairwise_mergeSort (le := fun a b : String => decide (a ≤ b)) (fun a b c h1 h2 => by simp only [decide_eq_true_eq] at *; exact le_trans h1 h2)
          (fun a b => by simpa using le_total a b) (e.syms.dedup.map Sym.name ++ e.calls.dedup.map Prod.fst)
        exact this.imp fun h => by simpa using h
      exact (hs.and h).imp fun h => lt_of_le_of_ne h.1 h.2
    · intro env
      simp only [compiled, List.length_map, ne_eq, not_true_eq_false, if_false]
      rw [run_eq py (env := env)]
      intro n hn
      rw [lookup_zip ((mem_args n e).mpr hn)]
      rfl
    · intro values hv
      simp only [compiled]
      rw [if_pos hv]

/-! ### What is missing -/

/-- `A(x) + A(y)`. -/
def twice : Ex := .op 0 (.call "A" (.sym ⟨"x", false⟩)) (.call "A" (.sym ⟨"y", false⟩))

/-- `sin(k_x)`. -/
def sine : Ex := .call "sin" (.sym ⟨"k_x", false⟩)

/-- The full claim of C181 is that `lambdify` turns every expression into a function of its parameters, the functions that sympy knows being understood.  It fails: for
`A(x) + A(y)`, where one function is used for two positions, there is a `SyntaxError`; and the function for `sin(k_x)` has a parameter `sin`, so that it cannot be called
with the momentum alone, even though the module `numpy` has a function of that name. -/
theorem C181_counterexample (numpy : String → Option D) :
    lambdify py numpy twice = .error .syntaxError ∧
    ∃ f, lambdify py numpy sine = .ok f ∧ "sin" ∈ f.1 ∧ ∀ k, f.2 [k] = .error .typeError := by
  constructor
  · rw [lambdify, if_neg]
    rw [args_nodup]
    intro h
    have := h.2.1 ("A", .sym ⟨"x", false⟩) (by simp [twice, Ex.calls]) ("A", .sym ⟨"y", false⟩) (by simp [twice, Ex.calls]) rfl
    exact absurd this (by simp)
  · have hu : sine.Unambiguous := by
      refine ⟨?_, ?_, ?_⟩ <;> simp [sine, Ex.syms, Ex.calls]
    obtain ⟨h1, h2⟩ := C181_partial py numpy sine
    obtain ⟨f, hf⟩ := h1.mpr hu
    obtain ⟨-, h4, -, h6⟩ := h2 f hf
    refine ⟨f, hf, (h4 _).mpr (Or.inl rfl), ?_⟩
    intro k
    apply h6
    have hlen : f.1.length = 2 := by
      rw [lambdify] at hf
      split_ifs at hf
      simp only [Except.ok.injEq] at hf
      subst hf
      simp [Ex.args, List.length_mergeSort, sine, Ex.syms, Ex.calls]
    rw [hlen]
    simp

/-- The hypotheses of `C181_partial` are met by `A(x) + B`. -/
example : (Ex.op 0 (.call "A" (.sym ⟨"x", false⟩)) (.sym ⟨"B", true⟩)).Unambiguous := by
  refine ⟨?_, ?_, ?_⟩ <;> simp [Ex.syms, Ex.calls]

end Kwant.Lambdify
