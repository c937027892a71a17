import Std.Data.String.ToNat
import Mathlib.Algebra.Field.Defs
import Mathlib.Algebra.Field.Rat
import Mathlib.Data.List.Sort
import Mathlib.Data.List.Dedup
import Mathlib.Data.List.FinRange
import Mathlib.Data.List.ProdSigma
import Mathlib.Data.String.Basic
import Mathlib.Data.Matrix.Basis

/-!
Model of the code generator of kwant/continuum/discretizer.py (`_return_string`, `_assign_symbols`, `_builder_value`) and of `monomials`, `_expression_monomials`
of kwant/continuum/_common.py.

* Numbers are elements of an arbitrary field `K` with decidable equality; `pw` is the power of Python, which may fail.  Rounding is not modelled.
* A sympy expression is a tree of numbers, symbols, sums, products, powers and applied functions.  `_print_sympy` prints a tree, Python parses it again: both are the identity.
* `expr.atoms(...)` returns sets; the order in which the applied functions are enumerated is a parameter (`calls`).
* `sympy.expand` distributes products over sums; terms and factors are not simplified any further (sympy would merge `x*x` and `x**2`), which does not change values.
* Symbols commute (`make_commutative` has been applied by the caller).
-/

set_option linter.unusedSectionVars false

namespace Kwant.Value

mutual
/-- Sympy expressions, and the Python expressions that are printed for them. -/
inductive E (K : Type)
  | num (c : K)
  | sym (s : String)
  | add (a b : E K)
  | mul (a b : E K)
  | pow (a b : E K)
  | app (f : String) (as : Es K)
  deriving DecidableEq
/-- The arguments of a function. -/
inductive Es (K : Type)
  | nil
  | cons (a : E K) (as : Es K)
  deriving DecidableEq
end

mutual
/-- `expr.atoms(sympy.Symbol)`: the names of the symbols. -/
def E.syms {K : Type} : E K → List String
  | .num _ => []
  | .sym s => [s]
  | .add a b => a.syms ++ b.syms
  | .mul a b => a.syms ++ b.syms
  | .pow a b => a.syms ++ b.syms
  | .app _ as => as.syms
/-- The same for a list of arguments. -/
def Es.syms {K : Type} : Es K → List String
  | .nil => []
  | .cons a as => a.syms ++ as.syms
end

mutual
/-- `expr.atoms(AppliedUndef, sympy.Function)`: all applied functions, also those inside of the arguments of others. -/
def E.apps {K : Type} : E K → List (String × Es K)
  | .num _ => []
  | .sym _ => []
  | .add a b => a.apps ++ b.apps
  | .mul a b => a.apps ++ b.apps
  | .pow a b => a.apps ++ b.apps
  | .app f as => (f, as) :: as.apps
/-- The same for a list of arguments. -/
def Es.apps {K : Type} : Es K → List (String × Es K)
  | .nil => []
  | .cons a as => a.apps ++ as.apps
end

mutual
/-- `expr.subs({symbol: number})`. -/
def E.subst {K : Type} (sp : List (String × K)) : E K → E K
  | .num c => .num c
  | .sym s => match sp.lookup s with
    | some a => .num a
    | none => .sym s
  | .add a b => .add (a.subst sp) (b.subst sp)
  | .mul a b => .mul (a.subst sp) (b.subst sp)
  | .pow a b => .pow (a.subst sp) (b.subst sp)
  | .app f as => .app f (as.subst sp)
/-- The same for a list of arguments. -/
def Es.subst {K : Type} (sp : List (String × K)) : Es K → Es K
  | .nil => .nil
  | .cons a as => .cons (a.subst sp) (as.subst sp)
end

/-- `sympy.symbols('_const_{}'.format(n))` (l.575). -/
def constName (n : ℕ) : String := "_const_" ++ n.repr

/-- `sympy.symbols('_cache_{}'.format(n))` (l.562). -/
def cacheName (n : ℕ) : String := "_cache_" ++ n.repr

/-- `expr.subs(map_func_calls)` (l.578) where the call number `n` is mapped to `_const_n`: the outermost calls are replaced. -/
def E.replace {K : Type} [DecidableEq K] (calls : List (String × Es K)) : E K → E K
  | .num c => .num c
  | .sym s => .sym s
  | .add a b => .add (a.replace calls) (b.replace calls)
  | .mul a b => .mul (a.replace calls) (b.replace calls)
  | .pow a b => .pow (a.replace calls) (b.replace calls)
  | .app f as => if (f, as) ∈ calls then .sym (constName (calls.idxOf (f, as))) else .app f as

section Run

/-- Python objects: numbers, matrices, functions, sites with their positions. -/
inductive Val (K : Type) (r c : ℕ)
  | num (a : K)
  | mat (m : Matrix (Fin r) (Fin c) K)
  | fn (f : List K → Option K)
  | site (pos : List K)

variable {K : Type} [Field K] [DecidableEq K] (pw : K → K → Option K) {r c : ℕ}

/-- `a + b` in Python; `none` is an exception. -/
def Val.add : Val K r c → Val K r c → Option (Val K r c)
  | .num a, .num b => some (.num (a + b))
  | .mat a, .mat b => some (.mat (a + b))
  | _, _ => none

/-- `a * b` in Python; a number times a matrix is a matrix. -/
def Val.mul : Val K r c → Val K r c → Option (Val K r c)
  | .num a, .num b => some (.num (a * b))
  | .num a, .mat b => some (.mat (a • b))
  | _, _ => none

/-- `a ** b` in Python, for numbers. -/
def Val.pow : Val K r c → Val K r c → Option (Val K r c)
  | .num a, .num b => (pw a b).map .num
  | _, _ => none

mutual
/-- Evaluation of a Python expression in a namespace; `none` is an exception. -/
def E.run (ns : String → Option (Val K r c)) : E K → Option (Val K r c)
  | .num a => some (.num a)
  | .sym s => ns s
  | .add a b => do (← a.run ns).add (← b.run ns)
  | .mul a b => do (← a.run ns).mul (← b.run ns)
  | .pow a b => do (← a.run ns).pow pw (← b.run ns)
  | .app f as => match ns f with
    | some (.fn g) => do return .num (← g (← as.run ns))
    | _ => none
/-- The values of the arguments: functions are called with numbers. -/
def Es.run (ns : String → Option (Val K r c)) : Es K → Option (List K)
  | .nil => some []
  | .cons a as => match a.run ns with
    | some (.num v) => do return v :: (← as.run ns)
    | _ => none
end

/-- `complex(expr)`: fails unless the expression is numerical. -/
def constVal (e : E K) : Option K :=
  match e.run pw (r := 0) (c := 0) (fun _ => none) with
  | some (.num a) => some a
  | _ => none

/-! ### `monomials` (continuum/_common.py l.223-289) with all symbols as generators -/

/-- A term of an expanded expression: its numerical factor, and the factors whose base is a symbol.  A factor that is neither makes the conversion of the value to a complex
array (`ta.array(x.tolist(), complex)`, discretizer.py l.563) fail: `none`. -/
def expand : E K → Option (List (K × List (E K)))
  | .num a => some [(a, [])]
  | .sym s => some [(1, [.sym s])]
  | .add a b => do return (← expand a) ++ (← expand b)
  | .mul a b => do
    let la ← expand a
    let lb ← expand b
    return la.flatMap fun t => lb.map fun u => (t.1 * u.1, t.2 ++ u.2)
  | .pow (.sym s) b => some [(1, [.pow (.sym s) b])]
  | .pow a b => (constVal pw (.pow a b)).map fun v => [(v, [])]
  | .app _ _ => none

/-- `output[key] += value` for a `defaultdict` (l.256, l.287); keys are products, so that the order of the factors does not matter. -/
def bump {A : Type} [Add A] : List (List (E K) × A) → List (E K) → A → List (List (E K) × A)
  | [], k, a => [(k, a)]
  | (k', a') :: d, k, a => if k'.isPerm k then (k', a' + a) :: d else (k', a') :: bump d k a

/-- `_expression_monomials` (l.260-289). -/
def exprMonomials (e : E K) : Option (List (List (E K) × K)) := do
  return (← expand pw e).foldl (fun d t => bump d t.2 t.1) []

/-- One entry of the loop over `np.ndenumerate(expr)` (l.253-256). -/
def addEntry (M : Matrix (Fin r) (Fin c) (E K)) (d : List (List (E K) × Matrix (Fin r) (Fin c) K)) (ij : Fin r × Fin c) :
    Option (List (List (E K) × Matrix (Fin r) (Fin c) K)) := do
  return (← exprMonomials pw (M ij.1 ij.2)).foldl (fun d t => bump d t.1 (Matrix.single ij.1 ij.2 t.2)) d

/-- `monomials` of a matrix (l.252-257). -/
def monomials (M : Matrix (Fin r) (Fin c) (E K)) : Option (List (List (E K) × Matrix (Fin r) (Fin c) K)) :=
  (List.finRange r ×ˢ List.finRange c).foldlM (addEntry pw M) []

/-! ### `_return_string`, `_assign_symbols`, `_builder_value` (discretizer.py l.541-704) -/

/-- The values of the symbolic Hamiltonian are expressions or matrices of expressions. -/
inductive Expr (K : Type) (r c : ℕ)
  | scalar (e : E K)
  | matrix (M : Matrix (Fin r) (Fin c) (E K))

/-- All entries of an expression. -/
def Expr.entries : Expr K r c → List (E K)
  | .scalar e => [e]
  | .matrix M => (List.finRange r ×ˢ List.finRange c).map fun ij => M ij.1 ij.2

/-- `expr.atoms(sympy.Symbol)`. -/
def Expr.syms (x : Expr K r c) : List String := x.entries.flatMap E.syms

/-- `expr.atoms(AppliedUndef, sympy.Function)`. -/
def Expr.apps (x : Expr K r c) : List (String × Es K) := x.entries.flatMap E.apps

/-- A substitution in all entries. -/
def Expr.map (f : E K → E K) : Expr K r c → Expr K r c
  | .scalar e => .scalar (f e)
  | .matrix M => .matrix fun i j => f (M i j)

/-- `sympy.Mul(*key)`. -/
def keyExpr : List (E K) → E K
  | [] => .num 1
  | f :: fs => .mul f (keyExpr fs)

/-- `" + ".join(mons)` (l.584-586): the product of the key and of the name of the cached matrix, for all monomials; the numbering begins with `n`. -/
def joinMons {A : Type} : ℕ → List (List (E K) × A) → Option (E K)
  | _, [] => none
  | n, [(k, _)] => some (.mul (keyExpr k) (.sym (cacheName n)))
  | n, (k, _) :: d => (joinMons (n + 1) d).map fun e => .add (.mul (keyExpr k) (.sym (cacheName n))) e

/-- A generated value function: whether it is for a site, the parameters after the sites, the coordinates that are read, the assignments, the expression after `return`
(`none` if there is none, then the function returns `None`) and the cached matrices in its namespace. -/
structure Fun (K : Type) (r c : ℕ) where
  onsite : Bool
  args : List String
  coords : Option (List String)
  lets : List (String × E K)
  ret : Option (E K)
  cache : List (String × Matrix (Fin r) (Fin c) K)

/-- What `_builder_value` returns: a number, a matrix, or a function. -/
inductive Out (K : Type) (r c : ℕ)
  | const (v : Val K r c)
  | func (f : Fun K r c)

/-- What can go wrong. -/
inductive VErr
  | typeError | valueError | syntaxError
  deriving DecidableEq

/-- The names of the first parameters (l.683). -/
def siteArgs (onsite : Bool) : List String := if onsite then ["site"] else ["site1", "site2"]

/-- `_return_string` (l.541-590) without the sets of names: the expression to be returned, and the cached matrices. -/
def returnString (calls : List (String × Es K)) (x : Expr K r c) : Except VErr (Option (E K) × List (String × Matrix (Fin r) (Fin c) K)) :=
  match x.map (E.replace calls) with
  | .scalar e => .ok (some e, [])
  | .matrix M => match monomials pw M with
    | none => .error .typeError
    | some d => .ok (joinMons 0 d, d.zipIdx.map fun t => (cacheName t.2, t.1.2))

/-- `arg_names` (l.655-668): the names of the symbols that are no coordinates, and of the functions, without repetition, sorted. -/
def argNames (coords : List String) (x : Expr K r c) : List String :=
  (((x.syms.filter fun s => s ∉ coords ++ ["site", "site1", "site2"]) ++ x.apps.map Prod.fst).dedup).mergeSort fun a b => decide (a ≤ b)

/-- `ta.array(expr.tolist(), complex)` or `complex(expr)` (l.670-675). -/
def constant : Expr K r c → Option (Val K r c)
  | .scalar e => (constVal pw e).map .num
  | .matrix M => if ∀ i j, (constVal pw (M i j)).isSome then some (.mat fun i j => (constVal pw (M i j)).getD 0) else none

/-- `_builder_value` (l.624-704).  `ident` tells whether a name is an identifier and no keyword, `calls` is the enumeration of the applied functions. -/
def builderValue (ident : String → Bool) (coords : List String) (spacing : List K) (onsite : Bool) (calls : List (String × Es K)) (x₀ : Expr K r c) :
    Except VErr (Out K r c) := do
  let x := x₀.map (E.subst ((coords.map ("a_" ++ ·)).zip spacing))
  let (ret, cache) ← returnString pw calls x
  let read := coords.any fun s => s ∈ x.syms
  let args := argNames coords x
  if args.any fun n => !ident n then .error .valueError
  else if args = [] ∧ read = false then
    match constant pw x with
    | some v => return .const v
    | none => .error .typeError
  else if ¬(siteArgs onsite ++ args).Nodup then .error .syntaxError
  else return .func {
      onsite, args, ret, cache
      coords := if read then some coords else none
      lets := calls.zipIdx.map fun t => (constName t.2, .app t.1.1 t.1.2) }

/-- The enumeration of the applied functions is one of the set of all of them, after the spacings have been substituted. -/
def Enumerates (calls : List (String × Es K)) (coords : List String) (spacing : List K) (x₀ : Expr K r c) : Prop :=
  calls.Nodup ∧ ∀ a, a ∈ calls ↔ a ∈ (x₀.map (E.subst ((coords.map ("a_" ++ ·)).zip spacing))).apps

/-- A name is bound to a value. -/
def bind (ns : String → Option (Val K r c)) (n : String) (v : Val K r c) : String → Option (Val K r c) := fun m => if m = n then some v else ns m

/-- `({}, ) = site.pos` (l.612-615): there must be as many coordinates as names. -/
def unpack (ns : String → Option (Val K r c)) : List String → List K → Option (String → Option (Val K r c))
  | [], [] => some ns
  | s :: ss, a :: as => unpack (bind ns s (.num a)) ss as
  | _, _ => none

/-- The coordinates are read only if they occur (l.651-652, l.611). -/
def readCoords (ns : String → Option (Val K r c)) (coords : Option (List String)) (pos : List K) : Option (String → Option (Val K r c)) :=
  match coords with
  | some cs => unpack ns cs pos
  | none => some ns

/-- The assignments `_const_n = f(...)` (l.617-618). -/
def runLets (ns : String → Option (Val K r c)) : List (String × E K) → Option (String → Option (Val K r c))
  | [] => some ns
  | (n, e) :: l => do runLets (bind ns n (← e.run pw ns)) l

/-- A call of the function: `glob` are the other names that Python knows, such as builtins, `pi` and `I`; `par` are the values that are passed for the parameters.
All parameters must be given.  The coordinates are read from the first site. -/
def Fun.call (f : Fun K r c) (glob : String → Option (Val K r c)) (pos pos' : List K) (par : String → Option (Val K r c)) : Option (Val K r c) := do
  if ¬∀ n ∈ f.args, (par n).isSome then none
  let ns₁ : String → Option (Val K r c) := fun n => (f.cache.lookup n).elim (glob n) (fun m => some (.mat m))
  let ns₂ := if f.onsite then bind ns₁ "site" (.site pos) else bind (bind ns₁ "site1" (.site pos)) "site2" (.site pos')
  let ns₃ : String → Option (Val K r c) := fun n => if n ∈ f.args then par n else ns₂ n
  let ns₄ ← readCoords ns₃ f.coords pos
  let ns₅ ← runLets pw ns₄ f.lets
  (← f.ret).run pw ns₅

/-- The value of a site or hopping: Kwant calls value functions with the sites and the parameters. -/
def Out.value (o : Out K r c) (glob : String → Option (Val K r c)) (pos pos' : List K) (par : String → Option (Val K r c)) : Option (Val K r c) :=
  match o with
  | .const v => some v
  | .func f => f.call pw glob pos pos' par

/-! ### Specification -/

mutual
/-- The value of an expression, for given values of symbols and functions; `none` if a name has no value or an operation has none. -/
def E.den (sy : String → Option K) (fu : String → Option (List K → Option K)) : E K → Option K
  | .num a => some a
  | .sym s => sy s
  | .add a b => do return (← a.den sy fu) + (← b.den sy fu)
  | .mul a b => do return (← a.den sy fu) * (← b.den sy fu)
  | .pow a b => do pw (← a.den sy fu) (← b.den sy fu)
  | .app f as => do (← fu f) (← as.den sy fu)
/-- The values of arguments. -/
def Es.den (sy : String → Option K) (fu : String → Option (List K → Option K)) : Es K → Option (List K)
  | .nil => some []
  | .cons a as => do return (← a.den sy fu) :: (← as.den sy fu)
end

/-- The value of a parameter that is a number. -/
def numOf (par : String → Option (Val K r c)) (n : String) : Option K :=
  match par n with
  | some (.num a) => some a
  | _ => none

/-- The value of a parameter that is a function. -/
def fnOf (par : String → Option (Val K r c)) (n : String) : Option (List K → Option K) :=
  match par n with
  | some (.fn g) => some g
  | _ => none

/-- What a symbol means: `a_x` is the lattice spacing in the direction `x`, a coordinate is that of the first site, everything else is a parameter. -/
def symbolMeans (coords : List String) (spacing pos : List K) (par : String → Option (Val K r c)) (s : String) : Option K :=
  match ((coords.map ("a_" ++ ·)).zip spacing).lookup s with
  | some a => some a
  | none => match (coords.zip pos).lookup s with
    | some a => some a
    | none => numOf par s

/-- The expression has the value `v`. -/
def Expr.Means (x : Expr K r c) (sy : String → Option K) (fu : String → Option (List K → Option K)) (v : Val K r c) : Prop :=
  match x with
  | .scalar e => ∃ a, e.den pw sy fu = some a ∧ v = .num a
  | .matrix M => ∃ m : Matrix (Fin r) (Fin c) K, (∀ i j, (M i j).den pw sy fu = some (m i j)) ∧ v = .mat m

/-- A name that the generated code uses for itself. -/
def Reserved (n : String) : Prop := n ∈ ["site", "site1", "site2"] ∨ ∃ k, n = constName k ∨ n = cacheName k

/-- No symbol and no function of the expression has a reserved name, and no function is named like a coordinate. -/
def Expr.Clean (x : Expr K r c) (coords : List String) : Prop :=
  (∀ s ∈ x.syms, ¬Reserved s) ∧ ∀ a ∈ x.apps, ¬Reserved a.1 ∧ a.1 ∉ coords

/-- The coordinates that can be discretized. -/
def GoodCoords (coords : List String) : Prop := coords.Nodup ∧ ∀ s ∈ coords, s ∈ ["x", "y", "z"]

end Run
end Kwant.Value
