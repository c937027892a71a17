import Verif.Final.InfProps

/-!
Model of `add_peierls_phase` (builder.py l.1818-1986).

Simplifications
* A builder is its dictionary `H` (Builder/Model.lean) with its discrete symmetries (opaque values).
* Value functions of the new builder: a function of the old one (on sites), `wrap_hopping(f)`, or the function
  `const_hopping` with the dictionary `const_hoppings` it closes over.  `memoize` is the identity.
* `phi` is a value of a parameter; `app` calls it with two sites; `mul` is `hop * phi`.
* `valid` says whether a string is accepted by `inspect.Parameter` as a name; `leadName p i` is `p + '_lead{i}'`.
-/

set_option linter.unusedSectionVars false

namespace Kwant.Peierls
open Kwant Kwant.Assoc Kwant.Builder Kwant.Final

/-- Value functions of the new builder (builder.py l.1820-1847). -/
inductive PFn (Fn : Type) where
  | plain (f : Fn)
  | wrap (f : Fn)
  | constHop
deriving DecidableEq

/-- Names, and what Python does with phases. -/
structure Env (S V N A X K : Type) where
  /-- `'_site0'`, `'_site1'` -/
  site0 : N
  site1 : N
  /-- `inspect.Parameter` accepts the name -/
  valid : N → Bool
  /-- `peierls_parameter + '_lead{}'.format(i)` -/
  leadName : N → ℕ → N
  /-- `phi(a, b)` -/
  app : A → S → S → Except X K
  /-- `hop * phi` -/
  mul : V → K → V
  /-- too few values to unpack (l.1823) -/
  unpackErr : X
  /-- missing entry of `const_hoppings` (l.1839) -/
  keyErr : X

/-- Exceptions of `add_peierls_phase`. -/
inductive PErr (S : Type) where
  | value
  | attribute
  | build (e : Err S)
  | fin (e : FErr S)

section
variable {S G V Fn N A X K : Type} [DecidableEq S] [DecidableEq N] [AddCommGroup G] [DecidableEq G]
variable (E : Env S V N A X K) (sym : Symmetry S G)

/-- `inspect.Signature(inspect.Parameter(name, POSITIONAL_ONLY) for name in params)` (builder.py l.1831-1833,
l.1843-1845): `ValueError` for a duplicate name, or if the Peierls parameter (the only name that does not come from a
signature) is not acceptable. -/
def mkSig (phi : N) (names : List N) : Option (List N) :=
  if names.Nodup ∧ E.valid phi = true then some names else none

/-- The signature of `wrap_hopping(hop)` (builder.py l.1826-1833); `none`: `ValueError`. -/
def wrapSig (sig : Fn → Option (List N)) (phi : N) (f : Fn) : Option (List N) :=
  match sig f with
  | none => none
  | some ns => mkSig E phi ([E.site0, E.site1] ++ ns.drop 2 ++ [phi])

/-- The signature of `const_hopping` (builder.py l.1841-1845). -/
def constSig (phi : N) : Option (List N) := mkSig E phi [E.site0, E.site1, phi]

/-- `a, b, *args, phi = args` (builder.py l.1823). -/
def callWrap (call : List A → Except X V) (ss : List S) (as : List A) : Except X V :=
  match ss, as.getLast? with
  | [a, b], some p =>
    match call as.dropLast with
    | .error x => .error x
    | .ok v =>
      match E.app p a b with
      | .error x => .error x
      | .ok k => .ok (E.mul v k)
  | _, _ => .error E.unpackErr

/-- `const_hopping` (builder.py l.1838-1839). -/
def callConst (consts : List ((S × S) × V)) (ss : List S) (as : List A) : Except X V :=
  match ss, as with
  | [a, b], [p] =>
    match Assoc.get consts (a, b) with
    | none => .error E.keyErr
    | some v =>
      match E.app p a b with
      | .error x => .error x
      | .ok k => .ok (E.mul v k)
  | _, _ => .error E.unpackErr

/-- The value functions of the new builder. -/
def calls (C : Calls S V Fn N A X) (phi : N) (consts : List ((S × S) × V)) : Calls S V (PFn Fn) N A X where
  sig
    | .plain f => C.sig f
    | .wrap f => wrapSig E C.sig phi f
    | .constHop => constSig E phi
  call
    | .plain f => C.call f
    | .wrap f => fun ss as => callWrap E (C.call f ss) ss as
    | .constHop => callConst E consts
  hermOnsite
    | .plain f => C.hermOnsite f
    | .wrap f => fun _ _ => .error E.unpackErr
    | .constHop => fun _ _ => .error E.unpackErr

/-- A value of a site, copied (builder.py l.1866-1867). -/
def plainVal : Val V Fn → Val V (PFn Fn)
  | .const v => .const v
  | .func f => .func (.plain f)
  | .herm f => .herm (.plain f)

/-- The loop over the hoppings (builder.py l.1869-1874).  `hopping_value_pairs` never yields a `HermConjOfFunc`. -/
def hopLoop (sig : Fn → Option (List N)) (phi : N) : List ((S × S) × Val V Fn) → List ((S × S) × V) → HMap S V (PFn Fn) →
    Except (PErr S) (List ((S × S) × V) × HMap S V (PFn Fn))
  | [], consts, H => .ok (consts, H)
  | (hop, v) :: rest, consts, H =>
    match v with
    | .const c =>
      match setHop sym H hop.1 hop.2 (.func .constHop) with
      | (_, some e) => .error (.build e)
      | (H', none) => hopLoop sig phi rest (put consts hop c) H'
    | .func f =>
      match wrapSig E sig phi f with
      | none => .error .value
      | some _ =>
        match setHop sym H hop.1 hop.2 (.func (.wrap f)) with
        | (_, some e) => .error (.build e)
        | (H', none) => hopLoop sig phi rest consts H'
    | .herm _ => .error .value

/-- `_add_peierls_phase` on the contents of a builder (builder.py l.1836-1847, l.1866-1876). -/
def addPhase (sig : Fn → Option (List N)) (phi : N) (H : HMap S V Fn) :
    Except (PErr S) (List ((S × S) × V) × HMap S V (PFn Fn)) :=
  match constSig E phi with
  | none => .error .value
  | some _ =>
    hopLoop E sym sig phi (hoppingValuePairs H) [] (updateSites sym [] ((siteValuePairs H).map fun p => (p.1, plainVal p.2)))

end

/-- The discrete symmetries of a builder (builder.py l.893-905). -/
structure Disc (D : Type) where
  conservationLaw : Option D
  timeReversal : Option D
  particleHole : Option D
  chiral : Option D

/-- The discrete symmetries of the new builder (builder.py l.1848-1854). -/
def Disc.peierls {D : Type} (d : Disc D) : Disc D := { d with timeReversal := none }

/-- A lead: a `BuilderLead` (builder.py l.589-592), or one of another class. -/
inductive ALead (S V Fn D : Type) where
  | bld (sym : Symmetry S ℤ) (H : HMap S V Fn) (disc : Disc D) (interface padding : List S)
  | other

/-- A `BuilderLead` with phases: new builder with the dictionary of its constants. -/
structure PLead (S V Fn D : Type) where
  sym : Symmetry S ℤ
  consts : List ((S × S) × V)
  H : HMap S V (PFn Fn)
  disc : Disc D
  interface : List S
  padding : List S

section
variable {S V Fn N A X K D : Type} [LinearOrder S] [DecidableEq N]
variable (E : Env S V N A X K)

/-- The loop over the leads (builder.py l.1855-1864). -/
def addLeads (sig : Fn → Option (List N)) (phi : N) : ℕ → List (ALead S V Fn D) → Except (PErr S) (List (PLead S V Fn D))
  | _, [] => .ok []
  | _, .other :: _ => .error .attribute
  | i, .bld sym H disc interface padding :: rest =>
    match addPhase E sym sig (E.leadName phi i) H with
    | .error e => .error e
    | .ok (consts, H') =>
      match addLeads sig phi (i + 1) rest with
      | .error e => .error e
      | .ok ls => .ok (⟨sym, consts, H', disc.peierls, pySorted interface, pySorted padding⟩ :: ls)

/-- The builder made by `_add_peierls_phase`. -/
structure PBuilder (S V Fn D : Type) where
  consts : List ((S × S) × V)
  H : HMap S V (PFn Fn)
  disc : Disc D
  leads : List (PLead S V Fn D)

/-- `_add_peierls_phase` (builder.py l.1818-1876): the signature of `const_hopping` is made first, then the leads are done, then
the builder itself. -/
def addPeierls {G : Type} [AddCommGroup G] [DecidableEq G] (sym : Symmetry S G) (sig : Fn → Option (List N)) (phi : N) (H : HMap S V Fn)
    (disc : Disc D) (leads : List (ALead S V Fn D)) : Except (PErr S) (PBuilder S V Fn D) :=
  match constSig E phi with
  | none => .error .value
  | some _ =>
    match addLeads E sig phi 0 leads with
    | .error e => .error e
    | .ok ls =>
      match addPhase E sym sig phi H with
      | .error e => .error e
      | .ok (consts, H') => .ok ⟨consts, H', disc.peierls, ls⟩

/-- `phases_names` and `dict(zip(phase_names, phases))` (builder.py l.1928-1931, l.1967-1972). -/
def gaugeDict (phi : N) (n : ℕ) (phases : List A) : List (N × A) :=
  ((phi :: (List.range n).map (E.leadName phi)).zip phases).foldl (fun d p => put d p.1 p.2) []

end
end Kwant.Peierls
