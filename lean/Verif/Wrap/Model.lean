import Verif.Builder.Props
import Mathlib.Analysis.SpecialFunctions.Exp
import Mathlib.Algebra.Star.Module
import Mathlib.Data.List.Sort
import Mathlib.Data.String.Basic

/-!
Model of `wraparound` of `kwant/wraparound.py` (l.58-287).

Simplifications
* A value function (`PFn`) has the list of its parameter names (the leading one or two `_site` parameters are
  not in that list) and a body that gets the list of its sites and the list of its other arguments
  (type `A`; momenta are read as real numbers with `num`).
* Values of sites and hoppings are elements of a complex star module (`herm_conj` is `star`); numbers and
  matrices.  Arithmetic is exact.
* `memoize` (it only avoids creating equal functions twice) is the identity; see C80 for its keys.
* A user function with a parameter named like a momentum makes `inspect.Signature` raise (l.38-41): not
  modelled.
* `sym` and `ret.symmetry` are the translational symmetries made of the wrapped and of the kept periods
  (l.195-205).  `emb` lists the indices of the wrapped periods, `Split` (in `Props`) says how the three
  symmetries are related.
* `conservation_law`, `chiral` and the warnings (l.214-227) only use `bindSite`.
-/
set_option linter.unusedSectionVars false

namespace Kwant.Wrap
open Kwant Kwant.Builder Kwant.Assoc

/-- A Python value function. -/
structure PFn (S A V : Type) where
  /-- `get_parameters(f)[num_sites:]` -/
  params : List String
  /-- `f(*sites, *args)` -/
  call : List S → List A → V

/-- `args[:-n]`, with the special case of `args[:-0]` in Python, which is empty. -/
def sliceTo {A : Type} (n : ℕ) (l : List A) : List A := if n = 0 then [] else l.take (l.length - n)
/-- `args[-n:]`, with the special case of `args[-0:]` in Python, which is everything. -/
def sliceFrom {A : Type} (n : ℕ) (l : List A) : List A := if n = 0 then l else l.drop (l.length - n)

section
variable {S A V : Type} [DecidableEq S] [AddCommGroup V] [Module ℂ V] [StarAddMonoid V]

/-- Names of the parameters of a value (builder.py l.503-516: the proxy has the signature of its function). -/
def valParams : Val V (PFn S A V) → List String
  | .const _ => []
  | .func f => f.params
  | .herm f => f.params

/-- `val(*sites, *args) if callable(val) else val`; `HermConjOfFunc.__call__` is builder.py l.510-511. -/
def callVal (v : Val V (PFn S A V)) (ss : List S) (args : List A) : V :=
  match v with
  | .const c => c
  | .func f => f.call ss args
  | .herm f => star (f.call ss.reverse args)

/-- `callable(val)`. -/
def isCallable : Val V (PFn S A V) → Bool
  | .const _ => false
  | .func _ => true
  | .herm _ => true

/-- The value of a site or hopping for given parameters: what a finalized system computes
(builder.py l.2053-2097): arguments are looked up by name. -/
def evalVal (env : String → A) (v : Val V (PFn S A V)) (ss : List S) : V :=
  callVal v ss ((valParams v).map env)

variable {m : ℕ} (num : A → ℝ) (momenta : List String)

/-- `cmath.exp(1j * ta.dot(elem, args))` (wraparound.py l.98, l.114). -/
noncomputable def phase (elem : Fin m → ℤ) (args : List A) : ℂ :=
  Complex.exp (Complex.I * ∑ i : Fin m, ((elem i : ℝ) * (args[i.1]?.elim 0 num) : ℝ))

/-- `bind_site` (wraparound.py l.83-91). -/
def bindSite (val : PFn S A V) : PFn S A V where
  params := val.params ++ momenta
  call := fun ss args => val.call ss (sliceTo momenta.length args)

/-- `bind_site(val) if callable(val) else val` (l.240). -/
def bindSiteVal (val : Val V (PFn S A V)) : Val V (PFn S A V) :=
  match val with
  | .const c => .const c
  | .func f => .func (bindSite momenta f)
  | .herm f => .func (bindSite momenta ⟨f.params, fun ss args => callVal (.herm f) ss args⟩)

variable (act : (Fin m → ℤ) → S → S)

/-- `bind_hopping_as_site` (wraparound.py l.93-107); `act` is `sym.act`. -/
noncomputable def bindHoppingAsSite (elem : Fin m → ℤ) (val : Val V (PFn S A V)) : PFn S A V where
  params := valParams val ++ momenta
  call := fun ss args =>
    match ss with
    | [a] =>
      let pv := phase num elem (sliceFrom momenta.length args) •
        callVal val [a, act elem a] (sliceTo momenta.length args)
      pv + star pv
    | _ => 0

/-- `bind_hopping` (wraparound.py l.109-121). -/
noncomputable def bindHopping (elem : Fin m → ℤ) (val : Val V (PFn S A V)) : PFn S A V where
  params := valParams val ++ momenta
  call := fun ss args =>
    match ss with
    | [a, b] => phase num elem (sliceFrom momenta.length args) •
        callVal val [a, act elem b] (sliceTo momenta.length args)
    | _ => 0

/-- The names of the parameters of `val` without the trailing momenta (wraparound.py l.153-155). -/
def ownParams (val : Val V (PFn S A V)) : List String := sliceTo momenta.length (valParams val)

/-- The joint parameters of the values, each once, in the order of appearance (wraparound.py l.140-164). -/
def jointParams (vals : List (Val V (PFn S A V))) : List String :=
  vals.foldl (fun ps v => (ownParams momenta v).foldl (fun ps p => if p ∈ ps then ps else ps ++ [p]) ps) []

/-- `bind_sum` (wraparound.py l.123-185).  The values are first sorted by their selections (l.170; `sorted`
with some order `le`).  The selection of a value lists the positions of its parameters, followed by those of
the momenta, counted from the end (l.171-176; `in_args[i]` with negative `i`).  (The test of l.174 compares
names with positions, so that a selection is always computed anew for functions.) -/
def bindSum (le : Val V (PFn S A V) → Val V (PFn S A V) → Bool) (vals : List (Val V (PFn S A V))) :
    PFn S A V where
  params := jointParams momenta vals ++ momenta
  call := fun ss args =>
    (vals.mergeSort le).foldl (fun acc v =>
      acc + callVal v ss
        ((ownParams momenta v).filterMap (fun p => args[(jointParams momenta vals ++ momenta).idxOf p]?) ++
          sliceFrom momenta.length args)) 0

end

/-! ### The loops -/

section
variable {S A V G GR : Type} [DecidableEq S] [AddCommGroup G] [DecidableEq G] [AddCommGroup GR] [DecidableEq GR]
  [AddCommGroup V] [Module ℂ V] [StarAddMonoid V]
variable {k m : ℕ} (num : A → ℝ) (momenta : List String)
variable (symO : Symmetry S (Fin k → ℤ)) (symW : Symmetry S (Fin m → ℤ)) (symR : Symmetry S GR)
variable (emb : Fin m → Fin k)

/-- Lists of values per key. -/
abbrev Lists (κ S A V : Type) := List (κ × List (Val V (PFn S A V)))

/-- `d[key].append(val)` for a `defaultdict(list)`. -/
def appendTo {κ : Type} [DecidableEq κ] (d : Lists κ S A V) (key : κ) (v : Val V (PFn S A V)) : Lists κ S A V :=
  match get d key with
  | none => put d key [v]
  | some l => put d key (l ++ [v])

/-- `builder.symmetry.which(b)` without the component of the kept period (wraparound.py l.246-251). -/
def bDom (b : S) : Fin m → ℤ := fun i => symO.which b (emb i)

/-- The dictionary `sites` after the first loop (wraparound.py l.234-240). -/
def initSites (H : HMap S V (PFn S A V)) : Lists S S A V :=
  (siteValuePairs H).foldl (fun d p => put d (symR.toFd p.1) [bindSiteVal momenta p.2]) []

/-- The hopping `(a, b_wa)` in the fundamental domain of the remaining symmetry (wraparound.py l.254-256). -/
def wrapHop (a b : S) : S × S := symR.toFd2 a (symW.act (-bDom symO emb b) b)

/-- The value of a hopping that stays a hopping (wraparound.py l.264-266). -/
noncomputable def wrapVal (b : S) (v : Val V (PFn S A V)) : Val V (PFn S A V) :=
  if bDom symO emb b ≠ 0 ∨ isCallable v = true then .func (bindHopping num momenta symW.act (bDom symO emb b) v)
  else v

/-- The state of the second loop: `sites`, `hops`; the error is a failed `assert` or a `KeyError`. -/
abbrev St (S A V : Type) := Lists S S A V × Lists (S × S) S A V

/-- One iteration of the second loop (wraparound.py l.242-276). -/
noncomputable def hopStep (st : St S A V) (p : (S × S) × Val V (PFn S A V)) : Except (Err S) (St S A V) :=
  let ab := wrapHop symO symW symR emb p.1.1 p.1.2
  if ab.1 = ab.2 then
    if ab.1 ∈ keys st.1 then
      .ok (appendTo st.1 ab.1
        (.func (bindHoppingAsSite num momenta symW.act (bDom symO emb p.1.2) p.2)), st.2)
    else .error (.keySite ab.1)
  else
    let v := wrapVal num momenta symO symW emb p.1.2 p.2
    let r := symR.toFd2 ab.2 ab.1
    if r ∈ keys st.2 then
      if ab ∈ keys st.2 then .error .assertion
      else match v with
        | .herm _ => .error .assertion
        | v => .ok (st.1, appendTo st.2 r (v.conj star))
    else .ok (st.1, appendTo st.2 ab v)

/-- The second loop. -/
noncomputable def hopLoop : List ((S × S) × Val V (PFn S A V)) → St S A V → Except (Err S) (St S A V)
  | [], st => .ok st
  | p :: ps, st =>
    match hopStep num momenta symO symW symR emb st p with
    | .error e => .error e
    | .ok st => hopLoop ps st

variable (le : Val V (PFn S A V) → Val V (PFn S A V) → Bool)

/-- `vals[0] if len(vals) == 1 else bind_sum(n, *vals)` (wraparound.py l.281, l.284). -/
def mkVal (vals : List (Val V (PFn S A V))) : Val V (PFn S A V) :=
  match vals with
  | [v] => v
  | vals => .func (bindSum momenta le vals)

/-- `wraparound` (wraparound.py l.58-287): the contents of the returned builder, whose symmetry is `symR`. -/
noncomputable def wraparound (H : HMap S V (PFn S A V)) : Except (Err S) (HMap S V (PFn S A V)) :=
  match hopLoop num momenta symO symW symR emb (hoppingValuePairs H) (initSites momenta symR H, []) with
  | .error e => .error e
  | .ok st =>
    match updateHops symR (st.2.map fun p => (p.1, mkVal momenta le p.2))
        (updateSites symR [] (st.1.map fun p => (p.1, mkVal momenta le p.2))) with
    | (_, some e) => .error e
    | (H', none) => .ok H'

end
end Kwant.Wrap
