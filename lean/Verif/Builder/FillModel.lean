import Verif.Builder.Model

/-!
Model of `Builder.fill` (builder.py l.1431-1603).

Simplifications
* `start` is a list of sites (the numerical form, resolved by `template.closest`, is not modelled).
* `shape` returns `none` when it raises an exception.
* The iteration order of the Python set `active` is an arbitrary permutation `ord n` in round `n`.
* `max_sites` is `none` for infinity.  A flood fill in an infinite shape does not terminate; the model has
  a bound `fuel` on the number of rounds and returns `none` when it is exhausted.
* Warnings are not modelled.
-/

namespace Kwant.Builder
open Kwant Kwant.Assoc

section
variable {S G GT V Fn : Type} [DecidableEq S] [AddCommGroup G] [DecidableEq G] [AddCommGroup GT] [DecidableEq GT]
variable (sym : Symmetry S G) (symT : Symmetry S GT) (T : HMap S V Fn) (shape : S → Option Bool)
variable (nv : Val V Fn)

/-- Fill the outgoing edge (builder.py l.1584-1590). -/
def fillOut (oldHeads : List S) (tail head : S) (value : Stored V Fn) (H : HMap S V Fn) : HMap S V Fn :=
  match get H tail with
  | none => H
  | some row =>
    put H tail ⟨row.onsite,
      if head ∈ oldHeads then Assoc.put row.edges head value else row.edges ++ [(head, value)]⟩

/-- Body of the loop over the head/value pairs of the template (builder.py l.1562-1590).  The state is the
target and the set `new_active`. -/
def fillHead (oldActive oldHeads : List S) (tail : S) (shift : GT) (st : HMap S V Fn × List S)
    (hv : S × Stored V Fn) : Except (Err S) (HMap S V Fn × List S) :=
  let head := symT.act shift hv.1
  let headFd := sym.toFd head
  if headFd ∈ oldActive ∨ headFd ∈ st.2 then
    .ok (fillOut oldHeads tail head hv.2 st.1, st.2)
  else if headFd ∈ keys st.1 then
    match getEdge T (symT.toFd2 head tail).1 (symT.toFd2 head tail).2 with
    | .error e => .error e
    | .ok ov =>
      match setEdge st.1 (sym.toFd2 head tail).1 (sym.toFd2 head tail).2 ov with
      | (_, some e) => .error e
      | (H', none) => .ok (fillOut oldHeads tail head hv.2 H', st.2)
  else
    match shape headFd with
    | none => .error .runtime
    | some false => .ok st
    | some true => .ok (fillOut oldHeads tail head hv.2 (put st.1 headFd ⟨nv, []⟩), st.2 ++ [headFd])

/-- Processing of one active site (builder.py l.1549-1590). -/
def fillTail (oldActive : List S) (tail : S) (st : HMap S V Fn × List S) :
    Except (Err S) (HMap S V Fn × List S) :=
  let shift := symT.which tail
  match get T (symT.act (-shift) tail) with
  | none => .error (.keySite (symT.act (-shift) tail))
  | some trow =>
    match get st.1 tail with
    | none => .error (.keySite tail)
    | some row =>
      trow.edges.foldlM (fillHead sym symT T shape nv oldActive (keys row.edges) tail shift)
        (put st.1 tail { row with onsite := trow.onsite }, st.2)

/-- State of the flood fill: target, `new_active`, `done`. -/
structure FillSt (S V Fn : Type) where
  H : HMap S V Fn
  new : List S
  done : List S

/-- One iteration of the loop over `active` (builder.py l.1543-1590). -/
def fillStep (maxSites : Option ℕ) (oldActive : List S) (st : FillSt S V Fn) (tail : S) :
    Except (Err S) (FillSt S V Fn) :=
  if maxSites.any (fun m => decide (m < st.done.length + 1)) then .error .runtime
  else
    match fillTail sym symT T shape nv oldActive tail (st.H, st.new) with
    | .error e => .error e
    | .ok (H, new) => .ok ⟨H, new, st.done ++ [tail]⟩

/-- The outer loop (builder.py l.1540-1593). -/
def fillLoop (maxSites : Option ℕ) (ord : ℕ → List S → List S) :
    ℕ → ℕ → HMap S V Fn → List S → List S → List S → Option (Except (Err S) (HMap S V Fn × List S))
  | 0, _, _, _, _, _ => none
  | fuel + 1, n, H, done, oldActive, active =>
    if active = [] then some (.ok (H, done))
    else
      match (ord n active).foldlM (fillStep sym symT T shape nv maxSites (oldActive ++ active)) ⟨H, [], done⟩ with
      | .error e => some (.error e)
      | .ok st => fillLoop maxSites ord fuel (n + 1) st.H st.done active st.new

/-- Body of the loop over the starting sites (builder.py l.1515-1521). -/
def fillStart (st : HMap S V Fn × List S) (s : S) : Except (Err S) (HMap S V Fn × List S) :=
  let s := sym.toFd s
  if s ∈ keys st.1 then .ok st
  else
    match shape s with
    | none => .error .runtime
    | some false => .ok st
    | some true => .ok (put st.1 s ⟨nv, []⟩, st.2 ++ [s])

/-- The part of `fill` inside `try` (builder.py l.1509-1593). -/
def fillTry (maxSites : Option ℕ) (ord : ℕ → List S → List S) (fuel : ℕ) (H : HMap S V Fn) (start : List S) :
    Option (Except (Err S) (HMap S V Fn × List S)) :=
  match start.foldlM (fillStart sym shape nv) (H, []) with
  | .error e => some (.error e)
  | .ok (H1, active) =>
    if active = [] then some (.ok (H1, [])) else
    fillLoop sym symT T shape nv maxSites ord fuel 0 H1 [] [] active

/-- `fill` (builder.py l.1431-1603); `subOk` is the outcome of `templ_sym.has_subgroup(self.symmetry)`.
Returns the new contents and the list of added sites or the exception; `none` if `fuel` is exhausted. -/
def fill (maxSites : Option ℕ) (subOk : Bool) (ord : ℕ → List S → List S) (fuel : ℕ) (H : HMap S V Fn)
    (start : List S) : Option (HMap S V Fn × Except (Err S) (List S)) :=
  if maxSites = some 0 then some (H, .error .value)
  else if !subOk then some (H, .error .value)
  else if start.filter (containsSite symT T) = [] then some (H, .ok [])
  else
    match fillTry sym symT T shape nv maxSites ord fuel H (start.filter (containsSite symT T)) with
    | none => none
    | some (.error _) => some ([], .error .runtime)
    | some (.ok (H', done)) => some (H', .ok done)

end
end Kwant.Builder
