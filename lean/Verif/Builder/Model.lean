import Verif.Symmetry.Model
import Verif.Builder.Assoc

/-!
Model of the class `Builder` of `kwant/builder.py` (l.779-1430): the stored directed graph `H` and its
elementary operations.

Simplifications
* `H` is an insertion-ordered map from sites to rows; a row is the value of the site plus the
  head/value pairs of the list `H[tail]` after its special first pair (whose head is `tail` itself).
  Replacing a site by an equal stored one (l.1113-1114) is the identity.
* Values: a constant (number or matrix, type `V` with Hermitian conjugation `hc`), a user function
  (type `Fn`), or a `HermConjOfFunc` proxy around a user function.  The value `Other` is internal.
* Operations that mutate the builder return the new `H` *together with* a possible error, without any
  rollback, so that half-done mutations are visible.
* Keys are already well-typed (sites, pairs of sites); general keys are expanded in `Keys.lean`.
-/

namespace Kwant.Builder
open Kwant Kwant.Assoc

/-- Observable values of sites and hoppings. -/
inductive Val (V Fn : Type) where
  | const (v : V)
  | func (f : Fn)
  | herm (f : Fn)
deriving DecidableEq

/-- Values stored on edges: `Other` (builder.py l.693-697) marks the direction whose value is obtained by
conjugation. -/
inductive Stored (V Fn : Type) where
  | const (v : V)
  | func (f : Fn)
  | other
deriving DecidableEq

/-- Errors. `keySite`/`keyHop`: `KeyError`; `value`: `ValueError`; `assertion`: a failed `assert` (or the
unreachable call of `Other`); `runtime`: `RuntimeError`; `type`: `TypeError`; `fuel`: a loop of the model did not finish (proved not to happen). -/
inductive Err (S : Type) where
  | keySite (s : S)
  | keyHop (a b : S)
  | value
  | assertion
  | runtime
  | type
  | fuel
deriving DecidableEq

/-- `H[site]`: value of the site, and the head/value pairs. -/
structure Row (S V Fn : Type) where
  onsite : Val V Fn
  edges : List (S × Stored V Fn)

/-- The dictionary `Builder.H`. -/
abbrev HMap (S V Fn : Type) := List (S × Row S V Fn)

/-- Result of a mutating operation: new `H`, and the exception if one was raised. -/
abbrev Res (S V Fn : Type) := HMap S V Fn × Option (Err S)

section
variable {S G V Fn : Type} [DecidableEq S] [AddCommGroup G] [DecidableEq G]
variable (sym : Symmetry S G) (hc : V → V)

/-- Sequencing: stop at the first exception, keep the mutations. -/
def Res.seq (r : Res S V Fn) (f : HMap S V Fn → Res S V Fn) : Res S V Fn :=
  match r.2 with
  | none => f r.1
  | some _ => r

/-- The `KeyError` of `_get_edge` and `_del_edge` when the tail is present (builder.py l.940-945, l.966-971). -/
def missing (H : HMap S V Fn) (tail head : S) : Err S :=
  if head ∈ keys H then .keyHop tail head else .keySite head

/-- `_get_edge` (builder.py l.934-945). -/
def getEdge (H : HMap S V Fn) (tail head : S) : Except (Err S) (Stored V Fn) :=
  match get H tail with
  | none => .error (.keySite tail)
  | some row =>
    match get row.edges head with
    | some st => .ok st
    | none => .error (missing H tail head)

/-- `_set_edge` (builder.py l.947-956). -/
def setEdge (H : HMap S V Fn) (tail head : S) (st : Stored V Fn) : Res S V Fn :=
  match get H tail with
  | none => (H, some (.keySite tail))
  | some row => (put H tail { row with edges := put row.edges head st }, none)

/-- `_del_edge` (builder.py l.958-973). -/
def delEdge (H : HMap S V Fn) (tail head : S) : Res S V Fn :=
  match get H tail with
  | none => (H, some (.keySite tail))
  | some row =>
    if head ∈ keys row.edges then (put H tail { row with edges := del row.edges head }, none)
    else (H, some (missing H tail head))

/-- `_out_neighbors` (builder.py l.975-977). -/
def outNeighbors (H : HMap S V Fn) (tail : S) : Except (Err S) (List S) :=
  match get H tail with
  | none => .error (.keySite tail)
  | some row => .ok (keys row.edges)

/-- `_out_degree` (builder.py l.979-981). -/
def outDegree (H : HMap S V Fn) (tail : S) : Except (Err S) ℕ :=
  match get H tail with
  | none => .error (.keySite tail)
  | some row => .ok row.edges.length

/-- Hermitian conjugation of an observable value: `herm_conj` on constants (builder.py l.469-500),
`HermConjOfFunc` on functions (l.503-516); conjugating a proxy gives back the function. -/
def Val.conj : Val V Fn → Val V Fn
  | .const v => .const (hc v)
  | .func f => .herm f
  | .herm f => .func f

/-- The value stored by `_set_hopping` in the direction of the key (builder.py l.1123-1129). -/
def Val.fwd : Val V Fn → Stored V Fn
  | .const v => .const v
  | .func f => .func f
  | .herm _ => .other

/-- The value stored by `_set_hopping` in the opposite direction (builder.py l.1123-1129). -/
def Val.bwd : Val V Fn → Stored V Fn
  | .const _ => .other
  | .func _ => .other
  | .herm f => .func f

/-- `builder[site]` (builder.py l.1062-1064). -/
def getSite (H : HMap S V Fn) (s : S) : Except (Err S) (Val V Fn) :=
  match get H (sym.toFd s) with
  | none => .error (.keySite (sym.toFd s))
  | some row => .ok row.onsite

/-- Lines 1070-1079 of builder.py: the value behind `Other`. -/
def getOther (H : HMap S V Fn) (b a : S) : Except (Err S) (Val V Fn) :=
  match getEdge H b a with
  | .error e => .error e
  | .ok (.const v) => .ok (.const (hc v))
  | .ok (.func f) => .ok (.herm f)
  | .ok .other => .error .assertion

/-- `builder[a, b]` (builder.py l.1066-1080). -/
def getHop (H : HMap S V Fn) (x y : S) : Except (Err S) (Val V Fn) :=
  if x = y then .error .value else
  let ab := sym.toFd2 x y
  match getEdge H ab.1 ab.2 with
  | .error e => .error e
  | .ok (.const v) => .ok (.const v)
  | .ok (.func f) => .ok (.func f)
  | .ok .other =>
    if sym.inFd ab.2 then getOther hc H ab.2 ab.1
    else
      let ba := sym.toFd2 ab.2 ab.1
      if sym.inFd ba.2 then .error .assertion else getOther hc H ba.1 ba.2

/-- `site in builder` (builder.py l.1084-1086). -/
def containsSite (H : HMap S V Fn) (s : S) : Bool := decide (sym.toFd s ∈ keys H)

/-- `(a, b) in builder` (builder.py l.1088-1091). -/
def containsHop (H : HMap S V Fn) (x y : S) : Except (Err S) Bool :=
  if x = y then .error .value else
  let ab := sym.toFd2 x y
  match get H ab.1 with
  | none => .ok false
  | some row => .ok (decide (ab.2 ∈ keys row.edges))

/-- `_set_site` (builder.py l.1093-1102). -/
def setSite (H : HMap S V Fn) (s : S) (v : Val V Fn) : HMap S V Fn :=
  match get H (sym.toFd s) with
  | none => put H (sym.toFd s) ⟨v, []⟩
  | some row => put H (sym.toFd s) { row with onsite := v }

/-- First part of `_set_hopping` (builder.py l.1110-1119): the reverse hopping `(b2, a2)`, after checking
that the site `b2` is present. -/
def setHopPrep (H : HMap S V Fn) (a b : S) : Except (Err S) (S × S) :=
  if sym.inFd b then
    if a ∉ keys H then .error (.keySite a)
    else if b ∉ keys H then .error (.keySite b)
    else .ok (b, a)
  else
    let ba := sym.toFd2 b a
    if sym.inFd ba.2 then .error .assertion
    else if ba.1 ∉ keys H then .error (.keySite b)
    else .ok ba

/-- `_set_hopping` (builder.py l.1104-1129). -/
def setHop (H : HMap S V Fn) (x y : S) (v : Val V Fn) : Res S V Fn :=
  if x = y then (H, some .value) else
  let ab := sym.toFd2 x y
  match setHopPrep sym H ab.1 ab.2 with
  | .error e => (H, some e)
  | .ok ba =>
    (setEdge H ab.1 ab.2 v.fwd).seq fun H => setEdge H ba.1 ba.2 v.bwd

/-- One iteration of the loop of `_del_site` (builder.py l.1152-1156). -/
def delSiteStep (H : HMap S V Fn) (site n : S) : Res S V Fn :=
  if n ∈ keys H then delEdge H n site
  else if sym.inFd n then (H, some .assertion)
  else
    let e := sym.toFd2 n site
    delEdge H e.1 e.2

/-- The loop of `_del_site` (builder.py l.1149-1156): iteration by position over the live list `H[site]`. -/
def delSiteLoop (site : S) : ℕ → ℕ → HMap S V Fn → Res S V Fn
  | 0, _, H => (H, some .fuel)
  | fuel + 1, i, H =>
    match get H site with
    | none => (H, some (.keySite site))
    | some row =>
      match row.edges[i]? with
      | none => (H, none)
      | some (n, _) => (delSiteStep sym H site n).seq (delSiteLoop site fuel (i + 1))

/-- `_del_site` (builder.py l.1140-1158). -/
def delSite (H : HMap S V Fn) (s : S) : Res S V Fn :=
  let site := sym.toFd s
  match get H site with
  | none => (H, some (.keySite site))
  | some row =>
    (delSiteLoop sym site (row.edges.length + 1) 0 H).seq fun H => (del H site, none)

/-- `_del_hopping` (builder.py l.1160-1172). -/
def delHop (H : HMap S V Fn) (x y : S) : Res S V Fn :=
  if x = y then (H, some .value) else
  let ab := sym.toFd2 x y
  (delEdge H ab.1 ab.2).seq fun H =>
    if sym.inFd ab.2 then delEdge H ab.2 ab.1
    else
      let ba := sym.toFd2 ab.2 ab.1
      if sym.inFd ba.2 then (H, some .assertion) else delEdge H ba.1 ba.2

/-- The edge to be deleted in `eradicate_dangling` (builder.py l.1203-1208). -/
def eradEdge (H : HMap S V Fn) (n site : S) : S × S :=
  if n ∈ keys H then (n, site) else sym.toFd2 n site

/-- The continuation site in `eradicate_dangling` (builder.py l.1203-1208). -/
def eradNext (H : HMap S V Fn) (n : S) : S := if n ∈ keys H then n else sym.toFd n

/-- The inner loop of `eradicate_dangling` (builder.py l.1197-1213). -/
def eradLoop : ℕ → HMap S V Fn → S → Res S V Fn
  | 0, H, _ => (H, some .fuel)
  | fuel + 1, H, site =>
    match get H site with
    | none => (H, some (.keySite site))
    | some row =>
      match row.edges with
      | [] => (del H site, none)
      | [(n, _)] =>
        (delEdge H (eradEdge sym H n site).1 (eradEdge sym H n site).2).seq fun H' =>
          eradLoop fuel (del H' site) (eradNext sym H n)
      | _ => (H, none)

/-- `dangling` (builder.py l.1259-1267), also the list of l.1189-1190. -/
def dangling (H : HMap S V Fn) : List S :=
  (H.filter fun p => p.2.edges.length < 2).map Prod.fst

/-- The outer loop of `eradicate_dangling` (builder.py l.1192-1196). -/
def eradOuter : List S → HMap S V Fn → Res S V Fn
  | [], H => (H, none)
  | s :: rest, H =>
    if s ∉ keys H then eradOuter rest H
    else (eradLoop sym (H.length + 1) H s).seq (eradOuter rest)

/-- `eradicate_dangling` (builder.py l.1183-1213). -/
def eradicateDangling (H : HMap S V Fn) : Res S V Fn := eradOuter sym (dangling H) H

/-- `sites` (builder.py l.1219-1230). -/
def sites (H : HMap S V Fn) : List S := keys H

/-- `site_value_pairs` (builder.py l.1232-1235). -/
def siteValuePairs (H : HMap S V Fn) : List (S × Val V Fn) := H.map fun p => (p.1, p.2.onsite)

/-- The value of an edge that is not `Other`. -/
def Stored.toVal? : Stored V Fn → Option (Val V Fn)
  | .const v => some (.const v)
  | .func f => some (.func f)
  | .other => none

/-- `hopping_value_pairs` (builder.py l.1250-1257). -/
def hoppingValuePairs (H : HMap S V Fn) : List ((S × S) × Val V Fn) :=
  H.flatMap fun p => p.2.edges.filterMap fun e => e.2.toVal?.map fun v => ((p.1, e.1), v)

/-- `hoppings` (builder.py l.1237-1248). -/
def hoppings (H : HMap S V Fn) : List (S × S) :=
  H.flatMap fun p => p.2.edges.filterMap fun e => e.2.toVal?.map fun _ => (p.1, e.1)

/-- `degree` (builder.py l.1269-1275). -/
def degree (H : HMap S V Fn) (s : S) : Except (Err S) ℕ := outDegree H (sym.toFd s)

/-- `neighbors` (builder.py l.1277-1295); the branch for `NoSymmetry` is the same with a trivial action. -/
def neighbors (H : HMap S V Fn) (s : S) : Except (Err S) (List S) :=
  let shift := sym.which s
  match outNeighbors H (sym.act (-shift) s) with
  | .error e => .error e
  | .ok ns => .ok (ns.map (sym.act shift))

/-- The first loop of `update` (builder.py l.1363-1364): each site goes through `__setitem__`. -/
def updateSites (H : HMap S V Fn) (ps : List (S × Val V Fn)) : HMap S V Fn :=
  ps.foldl (fun H p => setSite sym H p.1 p.2) H

/-- The second loop of `update` (builder.py l.1365-1366). -/
def updateHops : List ((S × S) × Val V Fn) → HMap S V Fn → Res S V Fn
  | [], H => (H, none)
  | (h, v) :: rest, H => (setHop sym H h.1 h.2 v).seq (updateHops rest)

/-- `update` (builder.py l.1351-1367) on `H`, after the check of the symmetries. -/
def update (H other : HMap S V Fn) : Res S V Fn :=
  updateHops sym (hoppingValuePairs other) (updateSites sym H (siteValuePairs other))

/-- A builder with its list of leads (builder.py l.907-908). -/
structure BState (S V Fn L : Type) where
  H : HMap S V Fn
  leads : List L

/-- `update` (builder.py l.1351-1367), complete: `symEq` is the outcome of the two `has_subgroup` tests
(l.1359-1362); the leads are appended last (l.1367).  Updating a builder from itself (aliasing) is not
modelled. -/
def updateFull {L : Type} (symEq : Bool) (b other : BState S V Fn L) :
    BState S V Fn L × Option (Err S) :=
  if !symEq then (b, some .value) else
  match update sym b.H other.H with
  | (H, some e) => (⟨H, b.leads⟩, some e)
  | (H, none) => (⟨H, b.leads ++ other.leads⟩, none)

end
end Kwant.Builder
