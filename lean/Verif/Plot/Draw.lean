import Verif.Final.InfProps

/-!
# What is drawn: `sys_leads_sites`, `sys_leads_pos`, `sys_leads_hoppings`,
`sys_leads_hopping_pos` of `kwant/plotter.py` (l.434-713)

Simplifications: positions are elements of an abelian group `P` (vectors with a fixed number of
coordinates, so that the check l.527-529, l.682-684 cannot fail); an array of pairs of
positions is a list of elements of `P × P` (the slices l.713 are the components).
-/

set_option linter.unusedSectionVars false

namespace Kwant.Draw
open Kwant Kwant.Assoc Kwant.Builder Kwant.Final Kwant.Graph

/-- Exceptions: `IndexError`, `AttributeError`, `KeyError`. -/
inductive PErr where
  | index
  | attribute
  | key
deriving DecidableEq

/-- `(object, lead_number, copy_number)`. -/
abbrev Item (α : Type) := α × Option ℕ × ℕ

section generic
variable {α L Q : Type}

/-- The items of one lead (l.471-473, l.482-484, l.617-619, l.633-634). -/
def leadItems (objs : List α) (nr n : ℕ) : List (Item α) :=
  objs.flatMap fun s => (List.range n).map fun i => (s, some nr, i)

/-- The loop over the leads (l.468-474, l.477-485, l.614-620, l.628-635); `objs` are
the sites or hoppings of the lead, none if it is not drawn. -/
def collect (n : ℕ) (objs : L → List α) : List L → ℕ → List (Item α) →
    List (Item α) × List (ℕ × ℕ)
  | [], _, acc => (acc, [])
  | l :: ls, nr, acc =>
    let acc' := acc ++ leadItems (objs l) nr n
    let r := collect n objs ls (nr + 1) acc'
    (r.1, (acc.length, acc'.length) :: r.2)

variable [AddCommGroup Q]

/-- The position of one item; `tab` is `vecs_doms` (l.553-557, l.707-711). -/
def placeOne (raw : Item α → Option Q) (tab : List (Q × ℤ)) (num : ℕ) (it : Item α) :
    Except PErr Q :=
  match raw it with
  | none => .error .index
  | some p =>
    match (match it.2.1 with
      | none => some ((0 : Q), (0 : ℤ))
      | some k => tab[k]?) with
    | none => .error .key
    | some vd =>
      match ((List.range num).map fun i : ℕ => (vd.2 + (i : ℤ)) • vd.1)[it.2.2]? with
      | none => .error .index
      | some w => .ok (p + w)

/-- `num_lead_cells` and the positions of all items (l.517-526, l.553-558, l.669-681,
l.707-712). -/
def place (raw : Item α → Option Q) (tab : List (Q × ℤ)) (items : List (Item α)) :
    Except PErr (List Q) :=
  match items.getLast? with
  | none => .error .index
  | some last => items.mapM (placeOne raw tab (last.2.2 + 1))

end generic

section
variable {S V Fn N A X P : Type} [LinearOrder S] [DecidableEq N] [AddCommGroup P]

/-- A `BuilderLead`: symmetry, contents and interface, and `np.array(sym.periods)[0]`. -/
structure Built (S V Fn P : Type) where
  sym : Symmetry S ℤ
  H : HMap S V Fn
  interface : List S
  vec : P

/-- A finalized builder lead; `interface` is `syst.lead_interfaces[leadnr]`. -/
structure Fin' (S V Fn N P : Type) where
  sym : Symmetry S ℤ
  sys : Sys S V Fn N
  cell : ℕ
  interface : List ℕ
  vec : P

/-! ### Builders -/

/-- The sites of a lead of a builder (l.469-474). -/
def leadSitesB : Option (Built S V Fn P) → List S
  | none => []
  | some b => if b.interface = [] then [] else sites b.H

/-- `sys_leads_sites` of a builder (l.465-474); a lead without attribute `builder` is `none`. -/
def sitesB (H : HMap S V Fn) (leads : List (Option (Built S V Fn P))) (n : ℕ) :
    List (Item S) × List (ℕ × ℕ) :=
  collect n leadSitesB leads 0
    ((sites H).map fun s => (s, none, 0))

/-- `lead_hoppings` (l.600-612). -/
def leadHoppings (sym : Symmetry S ℤ) (L : HMap S V Fn) : List (S × S) :=
  (hoppings L).map fun h =>
    let shift := max (sym.which h.2) (sym.which h.1)
    (sym.act (-shift) h.1, sym.act (-shift) h.2)

/-- The hoppings of a lead of a builder (l.615-620). -/
def leadHopsB : Option (Built S V Fn P) → List (S × S)
  | none => []
  | some b => if b.interface = [] then [] else leadHoppings b.sym b.H

/-- `sys_leads_hoppings` of a builder (l.597-620). -/
def hoppingsB (H : HMap S V Fn) (leads : List (Option (Built S V Fn P))) (n : ℕ) :
    List (Item (S × S)) × List (ℕ × ℕ) :=
  collect n leadHopsB leads 0
    ((hoppings H).map fun h => (h, none, 0))

/-- `get_vec_domain` for a builder (l.532-541, l.549-552): the access to the attribute `builder` is
not protected. -/
def vecDomB : Option (Built S V Fn P) → Except PErr (P × ℤ)
  | none => .error .attribute
  | some b =>
    match b.interface with
    | [] => .ok (0, 0)
    | s :: _ => .ok (b.vec, b.sym.which s + 1)

/-- `sys_leads_pos` of a builder (l.490-558). -/
def posB (pos : S → P) (leads : List (Option (Built S V Fn P))) (items : List (Item S)) :
    Except PErr (List P) :=
  if items = [] then .error .index
  else
    match leads.mapM vecDomB with
    | .error e => .error e
    | .ok tab => place (fun it => some (pos it.1)) tab items

/-- The vector is repeated for the two ends of a hopping (l.705). -/
def twice (vd : P × ℤ) : (P × P) × ℤ := ((vd.1, vd.1), vd.2)

/-- `sys_leads_hopping_pos` of a builder (l.637-713). -/
def hopPosB (pos : S → P) (leads : List (Option (Built S V Fn P))) (items : List (Item (S × S))) :
    Except PErr (List (P × P)) :=
  if items = [] then .ok []
  else
    match leads.mapM vecDomB with
    | .error e => .error e
    | .ok tab => place (fun it => some (pos it.1.1, pos it.1.2)) (tab.map twice) items

/-! ### Finalized systems -/

/-- The sites of a lead of a finalized system (l.478-485). -/
def leadSitesF : Option (Fin' S V Fn N P) → List ℕ
  | none => []
  | some b => if b.interface = [] then [] else List.range b.cell

/-- `sys_leads_sites` of a finalized system (l.475-485); a lead without graph or symmetry is
`none`. -/
def sitesF (sys : Sys S V Fn N) (leads : List (Option (Fin' S V Fn N P))) (n : ℕ) :
    List (Item ℕ) × List (ℕ × ℕ) :=
  collect n leadSitesF leads 0
    ((List.range sys.graph.numNodes).map fun i => (i, none, 0))

/-- `ll_hoppings` (l.622-626). -/
def llHoppings (g : CGraph) : List (ℕ × ℕ) :=
  (List.range g.numNodes).flatMap fun i : ℕ =>
    match g.outNeighbors i with
    | .error _ => []
    | .ok js => (js.filter fun j => decide ((i : ℤ) < j)).map fun j => (i, j.toNat)

/-- The hoppings of a lead of a finalized system (l.629-635). -/
def leadHopsF : Option (Fin' S V Fn N P) → List (ℕ × ℕ)
  | none => []
  | some b => if b.interface = [] then [] else llHoppings b.sys.graph

/-- `sys_leads_hoppings` of a finalized system (l.621-635). -/
def hoppingsF (sys : Sys S V Fn N) (leads : List (Option (Fin' S V Fn N P))) (n : ℕ) :
    List (Item (ℕ × ℕ)) × List (ℕ × ℕ) :=
  collect n leadHopsF leads 0
    ((llHoppings sys.graph).map fun h => (h, none, 0))

/-- `get_vec_domain` for a finalized system (l.542-552): `AttributeError` and `IndexError` are
caught. -/
def vecDomF (sys : Sys S V Fn N) : Option (Fin' S V Fn N P) → P × ℤ
  | none => (0, 0)
  | some b =>
    match b.interface with
    | [] => (0, 0)
    | i :: _ =>
      match sys.sites[i]? with
      | none => (0, 0)
      | some s => (b.vec, b.sym.which s + 1)

/-- `syst.pos(i)` or `syst.leads[lead].pos(i)` (l.522-525, builder.py l.2274). -/
def rawF (pos : S → P) (sys : Sys S V Fn N) (leads : List (Option (Fin' S V Fn N P)))
    (lead : Option ℕ) (i : ℕ) : Option P :=
  match lead with
  | none => sys.sites[i]?.map pos
  | some k =>
    match leads[k]? with
    | some (some b) => b.sys.sites[i]?.map pos
    | _ => none

/-- `sys_leads_pos` of a finalized system (l.490-558). -/
def posF (pos : S → P) (sys : Sys S V Fn N) (leads : List (Option (Fin' S V Fn N P)))
    (items : List (Item ℕ)) : Except PErr (List P) :=
  place (fun it => rawF pos sys leads it.2.1 it.1) (leads.map (vecDomF sys)) items

/-- `sys_leads_hopping_pos` of a finalized system (l.637-713). -/
def hopPosF (pos : S → P) (sys : Sys S V Fn N) (leads : List (Option (Fin' S V Fn N P)))
    (items : List (Item (ℕ × ℕ))) : Except PErr (List (P × P)) :=
  if items = [] then .ok []
  else place (fun it =>
      match rawF pos sys leads it.2.1 it.1.1, rawF pos sys leads it.2.1 it.1.2 with
      | some p, some q => some (p, q)
      | _, _ => none) ((leads.map (vecDomF sys)).map twice) items

end

/-! ## Specification -/

/-- The list of positions consists of those of the wanted objects, each once. -/
def Shows {X Q : Type} (f : X → Q) (wanted : X → Prop) (ps : List Q) : Prop :=
  ∃ drawn : List X, ps = drawn.map f ∧ drawn.Nodup ∧ ∀ a, a ∈ drawn ↔ wanted a

/-- The same for hoppings: each is shown once, in one of the two directions. -/
def ShowsPairs {S Q : Type} (f : S → Q) (wanted : S → S → Prop) (ps : List (Q × Q)) : Prop :=
  ∃ drawn : List (S × S), ps = drawn.map (fun h => (f h.1, f h.2)) ∧ drawn.Nodup ∧
    (∀ a b, (a, b) ∈ drawn → (b, a) ∉ drawn) ∧
    ∀ a b, ((a, b) ∈ drawn ∨ (b, a) ∈ drawn) ↔ wanted a b

/-- The slices follow each other from `a` to `b`. -/
def Chained : ℕ → List (ℕ × ℕ) → ℕ → Prop
  | a, [], b => a = b
  | a, s :: r, b => s.1 = a ∧ s.1 ≤ s.2 ∧ Chained s.2 r b

/-- The part of a list given by a slice. -/
def slice {Q : Type} (ps : List Q) (s : ℕ × ℕ) : List Q := (ps.drop s.1).take (s.2 - s.1)

section
variable {S V Fn P : Type} [DecidableEq S]

/-- The sites of a lead in the `n` cells that follow the interface in cell `dom`. -/
def LeadSite (sym : Symmetry S ℤ) (L : HMap S V Fn) (dom : ℤ) (n : ℕ) (a : S) : Prop :=
  HasSite sym L a ∧ dom < sym.which a ∧ sym.which a ≤ dom + n

/-- The hoppings of a lead within these cells and from them to the interface. -/
def LeadHop (sym : Symmetry S ℤ) (L : HMap S V Fn) (dom : ℤ) (n : ℕ) (a b : S) : Prop :=
  HasHop sym L a b ∧ dom < max (sym.which a) (sym.which b) ∧ max (sym.which a) (sym.which b) ≤ dom + n

/-- What should be shown of one lead: nothing if it is not a builder lead or has no
interface. -/
def leadPart {Q : Type} (show' : Built S V Fn P → ℤ → List Q → Prop) (part : List Q) :
    Option (Built S V Fn P) → Prop
  | none => part = []
  | some b =>
    match b.interface with
    | [] => part = []
    | i :: _ => show' b (b.sym.which i) part

/-- A picture of the sites of a builder `H` with leads: positions `ps`, slices `sl`. -/
def SitePicture (pos : S → P) (H : HMap S V Fn) (leads : List (Option (Built S V Fn P))) (n : ℕ)
    (sl : List (ℕ × ℕ)) (ps : List P) : Prop :=
  ∃ m, Shows pos (HasSite (noSymmetry S) H) (ps.take m) ∧ Chained m sl ps.length ∧
    List.Forall₂ (fun s l => leadPart (fun b dom => Shows pos (LeadSite b.sym b.H dom n)) (slice ps s) l)
      sl leads

/-- A picture of the hoppings. -/
def HopPicture (pos : S → P) (H : HMap S V Fn) (leads : List (Option (Built S V Fn P))) (n : ℕ)
    (sl : List (ℕ × ℕ)) (ps : List (P × P)) : Prop :=
  ∃ m, ShowsPairs pos (HasHop (noSymmetry S) H) (ps.take m) ∧ Chained m sl ps.length ∧
    List.Forall₂ (fun s l => leadPart (fun b dom => ShowsPairs pos (LeadHop b.sym b.H dom n))
      (slice ps s) l) sl leads

end
end Kwant.Draw
