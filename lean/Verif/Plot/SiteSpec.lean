import Mathlib.Data.List.Basic
import Mathlib.Data.List.Perm.Basic
import Mathlib.Data.List.Perm.Lattice
import Mathlib.Data.List.Range
import Mathlib.Data.List.Sort
import Mathlib.Data.Rat.Defs
import Mathlib.Algebra.Order.Ring.Rat
import Mathlib.Tactic.Common

/-!
C198: which symbol, size, colour, edge colour and line width `kwant.plot` (matplotlib engine) gives to each site of the system: model.

`_check_length`, `_make_proper_site_spec`, the splitting into one collection per symbol and the loop over the collections in
`_plot_matplotlib` (plotter.py l.919-950, l.1000-1055, l.1404-1480), `get_symbol`, `symbols`, `set_colors` (l.165-199, l.229-345).

Simplifications: sizes, widths and colour channels are rational numbers; colour names are taken to be valid and not to be numerals;
`numpy.asarray` keeps the entries of a list (in kwant it would turn the numbers of a list that mixes numbers with names into strings);
`matplotlib.path.Path` symbols, and names of three characters beginning with `p` or `P`, are not modelled; the leads, the hoppings and
the axes are not part of this model.  A matplotlib collection draws its `k`-th item with the `k`-th path, size, colour, edge colour and width, each list
being cycled through (matplotlib's documentation of `Collection`).
-/

namespace Kwant.PlotSites

/-- What a symbol description can be (l.764-778): a name, or a tuple `('p', n, angle)` / `('P', n, angle)`. -/
inductive Sym where
  | name (s : String)
  | poly (area : Bool) (n : ℕ) (angle : ℚ)
  deriving DecidableEq

/-- A value for one site: a number, a colour name, or a tuple of numbers. -/
inductive Val where
  | num (q : ℚ)
  | name (s : String)
  | tup (l : List ℚ)
  deriving DecidableEq

/-- An argument of `plot`: `None`, a single value, an array of values (`nd`: a NumPy array, not a list), or a function. -/
inductive Spec (S A : Type) where
  | none
  | const (a : A)
  | arr (nd : Bool) (l : List A)
  | func (f : S → A)

/-- The kinds of systems that `_plot_matplotlib` tells apart (l.1376-1391). -/
inductive Kind where
  | builder
  | finalized
  | other
  deriving DecidableEq

/-- A Python value after `_make_proper_site_spec`: not indexable, or indexable. -/
inductive Proc where
  | one (v : Val)
  | seq (nd : Bool) (l : List Val)

/-- The path drawn. -/
inductive Shape where
  | circle
  | polygon (area : Bool) (n : ℕ) (angle : ℚ)
  deriving DecidableEq

/-- The fill of a symbol: a colour, or a number put through the colour map with the given lower and upper end. -/
inductive Paint where
  | rgba (v : Val)
  | mapped (c : ℚ) (lo hi : Option ℚ)

/-- One symbol in the figure. -/
structure Drawn (S : Type) where
  site : S
  shape : Option Shape
  size : Val
  paint : Paint
  edge : Val
  lw : Val

/-- The arguments concerning the sites. -/
structure Args (S : Type) where
  kind : Kind
  dim3 : Bool
  symbol : Spec S Sym
  size : Spec S Val
  color : Spec S Val
  edge : Spec S Val
  lw : Spec S Val

/-- `defaults` (l.715-723) -/
def dflt (dim3 : Bool) : Val × Val × Val × Val × Unit :=
  if dim3 then (.num (1 / 2), .name "white", .name "black", .num (1 / 10), ())
  else (.num (1 / 4), .name "black", .name "black", .num 0, ())

/-! ## `_check_length`, `_make_proper_site_spec` -/

/-- `_check_length` (l.919-932) -/
def checkLength {S : Type} (sizeOrLw : Bool) (n : ℕ) : Spec S Val → Except String Unit
  | .const (.tup _) => if sizeOrLw then .error "TypeError" else .ok ()
  | .arr _ l => if l.length ≠ n then .error "ValueError" else .ok ()
  | _ => .ok ()

/-- `_check_length` for the symbols; a polygon is a tuple. -/
def checkLengthSym {S : Type} (n : ℕ) : Spec S Sym → Except String Unit
  | .arr _ l => if l.length ≠ n then .error "ValueError" else .ok ()
  | _ => .ok ()

/-- `_make_proper_site_spec` (l.935-950); `sites` are the sites that are not in a lead; a tuple can be indexed.  `none` and its replacement
by the default value (l.1399-1406). -/
def properSpec {S : Type} (kind : Kind) (sites : List S) (fancy : Bool) (d : Val) : Spec S Val → Except String Proc
  | .none => .ok (.one d)
  | .const (.tup l) => if kind = .builder then .error "TypeError" else .ok (.seq fancy (l.map .num))
  | .const v => .ok (.one v)
  | .arr nd l => if kind = .builder then .error "TypeError" else .ok (.seq (nd || fancy) l)
  | .func f => .ok (.seq fancy (sites.map f))

/-- What `site_symbol` is after `_make_proper_site_spec` and the replacement of `None`. -/
inductive SymProc where
  | one (s : Sym)
  | many (l : List Sym)

def properSym {S : Type} (kind : Kind) (sites : List S) : Spec S Sym → Except String SymProc
  | .none => .ok (.one (.name "o"))
  | .const (.poly a n g) => if kind = .builder then .error "TypeError" else .ok (.one (.poly a n g))
  | .const s => .ok (.one s)
  | .arr _ l => if kind = .builder then .error "TypeError" else .ok (.many l)
  | .func f => .ok (.many (sites.map f))

/-! ## One collection per symbol -/

/-- `symbol_dict[symbol].append(i)` for a `defaultdict(list)`, kept in order of insertion. -/
def dictAppend : List (Sym × List ℕ) → Sym → ℕ → List (Sym × List ℕ)
  | [], s, i => [(s, [i])]
  | (t, is) :: r, s, i => if t = s then (t, is ++ [i]) :: r else (t, is) :: dictAppend r s i

/-- l.1365-1367 -/
def groupSymbols (l : List Sym) : List (Sym × List ℕ) :=
  l.zipIdx.foldl (fun d p => dictAppend d p.1 p.2) []

/-- The two kinds of indices in `symbol_slcs`. -/
inductive Slc where
  | upto (n : ℕ)
  | idx (l : List ℕ)

/-- l.1362-1374 -/
def symbolSlcs (dim3 : Bool) (n : ℕ) : SymProc → List (SymProc × Slc) × Bool
  | .many l =>
    if dim3 then ([(.many l, .upto n)], false)
    else ((groupSymbols l).map (fun p => (.one p.1, .idx p.2)), true)
  | .one s => ([(.one s, .upto n)], false)

/-- `list[i]` -/
def pyGet {A : Type} (l : List A) (i : ℕ) : Except String A :=
  match l[i]? with
  | some a => .ok a
  | none => .error "IndexError"

/-- `value[slc]` -/
def slice {A : Type} (l : List A) : Slc → Except String (List A)
  | .upto n => .ok (l.take n)
  | .idx is => is.mapM (pyGet l)

/-- `value[slc] if _p.isarray(value) else value` (l.1466-1470) -/
def pick (p : Proc) (s : Slc) : Except String Proc :=
  match p with
  | .one v => .ok (.one v)
  | .seq nd l => (slice l s).map (.seq nd)

/-! ## `set_colors`, `get_symbol`, `symbols` -/

def asNum : Val → Option ℚ
  | .num q => some q
  | _ => none

/-- What `matplotlib` takes as one colour. -/
def isColor : Val → Bool
  | .name _ => true
  | .tup l => l.length == 3 || l.length == 4
  | .num _ => false

/-- `colorConverter.to_rgba_array`: three or four numbers are one colour; otherwise a list of colours. -/
def toRgbaArray : Proc → Except String (List Val)
  | .one v => if isColor v then .ok [v] else .error "ValueError"
  | .seq _ l =>
    match l.mapM asNum with
    | some q =>
      if q.length = 0 then .ok [] else if q.length = 3 ∨ q.length = 4 then .ok [.tup q] else .error "ValueError"
    | none => if l.all isColor then .ok l else .error "ValueError"

/-- The colours of a collection. -/
inductive Colouring where
  | rgba (l : List Val)
  | mapped (l : List ℚ) (lo hi : Option ℚ)

/-- `set_colors` (l.165-199); without `norm`, matplotlib takes the range of the data. -/
def setColors (color : Proc) (length : ℕ) (norm : Option (Option ℚ × Option ℚ)) : Except String Colouring :=
  match color with
  | .seq nd l =>
    match (if l.length = length then l.mapM asNum else none) with
    | some q => .ok (match norm with | some (a, b) => .mapped q a b | none => .mapped q q.min? q.max?)
    | none => (toRgbaArray (.seq nd l)).map .rgba
  | .one v => (toRgbaArray (.one v)).map .rgba

/-- `patch` after one symbol (l.241-242, l.245-265): an unknown name leaves it as it was. -/
def nextPatch (patch : Option Shape) : Sym → Option Shape
  | .poly a n g => some (.polygon a n g)
  | .name s =>
    if s = "o" ∨ s = "O" then some .circle
    else if s = "s" then some (.polygon false 4 45)
    else if s = "S" then some (.polygon true 4 45)
    else patch

/-- The loop of `get_symbol` (l.244-266). -/
def getSymbolLoop : List Sym → Option Shape → Except String (List Shape)
  | [], _ => .ok []
  | s :: r, patch =>
    match nextPatch patch s with
    | none => .error "UnboundLocalError"
    | some p => (getSymbolLoop r (some p)).map (p :: ·)

/-- `get_symbol` (l.231-266); a string is iterated character by character. -/
def getSymbol : SymProc → Except String (List Shape)
  | .one (.poly a n g) => getSymbolLoop [.poly a n g] none
  | .one (.name s) => getSymbolLoop (s.toList.map (fun c => .name (String.singleton c))) none
  | .many l => getSymbolLoop l none

/-- The list that matplotlib cycles through. -/
def Proc.toList : Proc → List Val
  | .one v => [v]
  | .seq _ l => l

/-- The `k`-th item of a cycled list. -/
def cyc {A : Type} (d : A) (l : List A) (k : ℕ) : A := l.getD (k % l.length) d

/-- Nothing to draw (l.332-334): `np.all(symbol == 'no symbol') or np.all(size == 0)`; a list compares unequal to a number. -/
def hidden {S : Type} (sites : List S) (symbol : SymProc) (size : Proc) : Bool :=
  sites.isEmpty ||
    (match symbol with | .one (.name s) => s == "no symbol" | _ => false) ||
    (match size with | .seq true l => l.all (· == .num 0) | _ => false)

/-- The paint of the `k`-th item. -/
def Colouring.at (k : ℕ) : Colouring → Paint
  | .rgba l => .rgba (cyc (.num 0) l k)
  | .mapped l lo hi => .mapped (cyc 0 l k) lo hi

/-- `symbols` (l.269-345): the items of the collection. -/
def symbols {S : Type} (sites : List S) (symbol : SymProc) (size face edge lw : Proc) (norm : Option (Option ℚ × Option ℚ)) :
    Except String (List (Drawn S)) := do
  let hid := hidden sites symbol size
  let pos := if hid then [] else sites
  let paths ← if hid then .ok [] else getSymbol symbol
  let colors ← setColors face (max paths.length pos.length) norm
  let edges ← toRgbaArray edge
  .ok (pos.zipIdx.map (fun p =>
    { site := p.1
      shape := cyc none (paths.map some) p.2
      size := cyc (.num 0) size.toList p.2
      paint := colors.at p.2
      edge := cyc (.num 0) edges p.2
      lw := cyc (.num 0) lw.toList p.2 }))

/-! ## `_plot_matplotlib` -/

/-- `color_mapping` (l.1378-1388): the sorted families zipped with the cycle of colours. -/
def colorOf {F : Type} [LinearOrder F] (families : List F) (cycle : List String) (f : F) : Val :=
  let fs := families.dedup.mergeSort (· ≤ ·)
  .name (cyc "" cycle (fs.idxOf f))

/-- `site_color` with `None` replaced (l.1376-1391); for a builder the families of the lead sites count as well. -/
def colorSpec {S F : Type} [LinearOrder F] (a : Args S) (family : S → F) (cycle : List String) (all syst : List S) : Spec S Val :=
  match a.color with
  | .none =>
    match a.kind with
    | .finalized => .func (fun s => colorOf (syst.map family) cycle (family s))
    | .builder => .func (fun s => colorOf (all.map family) cycle (family s))
    | .other => .const (dflt a.dim3).2.1
  | c => c

/-- l.1411-1419 -/
def normOf (slcs n : ℕ) (color : Proc) : Option (Option ℚ × Option ℚ) :=
  if 1 < slcs then
    match color with
    | .seq true l => if l.length = n then (l.mapM asNum).map (fun q => (q.min?, q.max?)) else none
    | _ => none
  else none

/-- The site part of `_plot_matplotlib`.  `sites` is the list returned by `sys_leads_sites`: sites with the lead they are in.  The symbols drawn for
the system, collection by collection. -/
def plotSites {S F : Type} [LinearOrder F] (a : Args S) (family : S → F) (cycle : List String) (sites : List (S × Option ℕ)) :
    Except String (List (List (Drawn S))) := do
  let syst := (sites.filter (fun p => p.2.isNone)).map Prod.fst
  let n := syst.length
  checkLengthSym n a.symbol
  checkLength true n a.size
  checkLength false n a.color
  checkLength false n a.edge
  checkLength true n a.lw
  let sym ← properSym a.kind syst a.symbol
  let (slcs, fancy) := symbolSlcs a.dim3 n sym
  let cspec := colorSpec a family cycle (sites.map Prod.fst) syst
  let size ← properSpec a.kind syst fancy (dflt a.dim3).1 a.size
  let color ← properSpec a.kind syst fancy (dflt a.dim3).2.1 cspec
  let edge ← properSpec a.kind syst fancy (dflt a.dim3).2.2.1 a.edge
  let lw ← properSpec a.kind syst fancy (dflt a.dim3).2.2.2.1 a.lw
  let norm := normOf slcs.length n color
  slcs.mapM (fun p => do
    let size' ← pick size p.2
    let col ← pick color p.2
    let edgecol ← pick edge p.2
    let lw' ← pick lw p.2
    let pos ← slice (sites.map Prod.fst) p.2
    symbols pos p.1 size' col edgecol lw' norm)

end Kwant.PlotSites
