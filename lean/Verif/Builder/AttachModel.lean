import Verif.Builder.FillModel

/-!
Model of `Builder.attach_lead` (builder.py l.1605-1769).

Simplifications
* The target has no symmetry (checked by the code, l.1672), the lead a one-dimensional one, whose group
  elements are integers (checked, l.1680); `add_cells` is a natural number (checked, l.1675).
* `subgroup((n,))` of a one-dimensional symmetry has elements acting as multiples of `n`, and the domain of
  a site is the old one divided by `n` (the cached matrices of `TranslationalSymmetry` for a period
  multiplied by `n` give exactly this when the same complementing vectors are chosen).
* Sets are lists; the iteration order of the set `start` is arbitrary (`ordS`).
* `fuel`, `ord`, `nv`: see the model of `fill`.  Warnings, and the chaining of the exceptions are not modelled.
-/

namespace Kwant
variable {S : Type}

/-- `sym.subgroup((n,))` for one period (lattice.py l.546-557). -/
def Symmetry.subgroup1 (sym : Symmetry S ℤ) (n : ℤ) : Symmetry S ℤ :=
  ⟨fun g s => sym.act (n * g) s, fun s => sym.which s / n⟩

namespace Builder
open Kwant Kwant.Assoc
variable {V Fn F : Type} [DecidableEq S] [DecidableEq F]

/-- `hop_range` (builder.py l.1683-1687). -/
def hopRange (sym : Symmetry S ℤ) (L : HMap S V Fn) : ℕ :=
  (hoppings L).foldr (fun h m => max (sym.which h.2).natAbs m) 0

/-- Automatic increase of the period (builder.py l.1689-1704). -/
def extendLead (sym : Symmetry S ℤ) (L : HMap S V Fn) (nv : Val V Fn) (ord : ℕ → List S → List S) (fuel : ℕ) :
    Option (Except (Err S) (Symmetry S ℤ × HMap S V Fn)) :=
  if 1 < hopRange sym L then
    match fill (sym.subgroup1 (hopRange sym L)) sym L (fun _ => some true) nv none true ord fuel [] (sites L) with
    | none => none
    | some (_, .error e) => some (.error e)
    | some (L', .ok _) => some (.ok (sym.subgroup1 (hopRange sym L), L'))
  else some (.ok (sym, L))

/-- `all_doms` (builder.py l.1721-1731). -/
def allDoms (fam : S → F) (sym : Symmetry S ℤ) (L H : HMap S V Fn) (origin : Option S) : List ℤ :=
  let doms := (keys H).filterMap fun s =>
    if fam s ∈ (keys L).map fam then
      if sym.act (-sym.which s) s ∈ keys L then some (sym.which s) else none
    else none
  match origin with
  | none => doms
  | some o => doms.filter fun d => d ≤ sym.which o

/-- `shape` (builder.py l.1739-1744); `none`: `ValueError`. -/
def leadShape (sym : Symmetry S ℤ) (minDom maxDom : ℤ) (s : S) : Option Bool :=
  if sym.which s < minDom then none else some (decide (sym.which s ≤ maxDom + 1))

/-- `del self[start]` (builder.py l.1757, l.1174-1181). -/
def delSites {G : Type} [AddCommGroup G] [DecidableEq G] (sym : Symmetry S G) : List S → HMap S V Fn → Res S V Fn
  | [], H => (H, none)
  | s :: rest, H => (delSite sym H s).seq (delSites sym rest)

/-- `interface` (builder.py l.1760-1765). -/
def leadInterface (sym : Symmetry S ℤ) (L : HMap S V Fn) (maxDom : ℤ) : List S :=
  ((keys L).flatMap fun s =>
    match neighbors sym L s with
    | .error _ => []
    | .ok ns => (ns.map (sym.act (maxDom + 1))).filter fun n => sym.which n = maxDom).dedup

/-- `attach_lead` from l.1705 on: the new contents of the system, and the added sites with the interface
or the exception. -/
def attachCore (fam : S → F) (sym : Symmetry S ℤ) (L : HMap S V Fn) (nv : Val V Fn)
    (ord : ℕ → List S → List S) (ordS : List S → List S) (fuel : ℕ)
    (origin : Option S) (addCells : ℕ) (H : HMap S V Fn) :
    Option (HMap S V Fn × Except (Err S) (List S × List S)) :=
  if L = [] then some (H, .error .value)
  else if ∃ f ∈ (keys L).map fam, f ∉ (keys H).map fam then some (H, .error .value)
  else
    match (allDoms fam sym L H origin).max?, (allDoms fam sym L H origin).min? with
    | some mx, some minDom =>
      let maxDom := mx + addCells
      let start := ordS ((keys L).map (sym.act (maxDom + 1)))
      match fill (noSymmetry S) sym L (leadShape sym minDom maxDom) nv none true ord fuel H start with
      | none => none
      | some (H1, .error e) => some (H1, .error e)
      | some (H1, .ok all) =>
        match delSites (noSymmetry S) start H1 with
        | (H2, some e) => some (H2, .error e)
        | (H2, none) => some (H2, .ok (all.filter (fun s => s ∉ start), leadInterface sym L maxDom))
    | _, _ => some (H, .error .value)

/-- `attach_lead` (builder.py l.1605-1769). -/
def attachLead (fam : S → F) (sym : Symmetry S ℤ) (L : HMap S V Fn) (nv : Val V Fn)
    (ord : ℕ → List S → List S) (ordS : List S → List S) (fuel : ℕ)
    (origin : Option S) (addCells : ℕ) (H : HMap S V Fn) :
    Option (HMap S V Fn × Except (Err S) (List S × List S)) :=
  match extendLead sym L nv ord fuel with
  | none => none
  | some (.error e) => some (H, .error e)
  | some (.ok (sym', L')) => attachCore fam sym' L' nv ord ordS fuel origin addCells H

end Builder
end Kwant
