import Verif.Gauge.Infinite

/-!
# The magnetic gauge of a system with leads: model and specification

Model of `kwant/physics/gauge.py`: `_check_composite_system` (l.698-754), `_extended_scattering_region` (l.432-525),
`_interior_links` (l.528-553), `_make_metatree` (l.556-582), `_spanning_tree_composite` (l.585-652),
`_loops_in_composite` (l.357-429), `_previous_phase_composite` (l.829-847), `_peierls_composite` (l.907-934).

Simplifications
* Exact arithmetic, and the conventions of `Loops.lean` (`pick`, `choose`, `argsort`).
* `csgraph.connected_components` and `csgraph.minimum_spanning_tree` are parameters, specified below.
* All leads are finalized infinite builders.
* A site is described by its coordinates in a lead: its domain and its number in the unit cell of the lead (a number not
  below `cell_size` stands for a site that is not in the lead).
* An exception is `none`.
-/
set_option linter.unusedSectionVars false

namespace Kwant.Gauge
open Kwant.Dijkstra Complex

/-! ## Model -/

/-- A lead of a finalized system: `cell_size`, `graph.num_nodes`, `graph`, distances, `lead_interfaces[p]`,
`lead_paddings[p]`. -/
structure CLead where
  c : ℕ
  m : ℕ
  links : List (ℕ × ℕ)
  dist : ℕ → ℕ → ℝ
  interface : List ℕ
  padding : List ℕ

/-- A finalized system with leads: `graph.num_nodes`, `graph`, distances, leads. -/
structure CSyst where
  n : ℕ
  links : List (ℕ × ℕ)
  dist : ℕ → ℕ → ℝ
  leads : List CLead

/-- `_check_composite_system`: an interface between a lead patch and the reduced scattering region (gauge.py l.704-715). -/
def reducedInterface (links : List (ℕ × ℕ)) (L : CLead) : List ℕ :=
  if L.padding = [] then L.interface
  else (L.interface.filter fun i => i ∉ L.padding) ++
    (links.filter fun e => e.1 ∈ L.padding ∧ e.2 ∉ L.padding).map fun e => e.2

/-- `len(interfaces[i] & (interfaces[j] | extras[j]))` (gauge.py l.736). -/
def overlap (links : List (ℕ × ℕ)) (A B : CLead) : ℕ :=
  ((reducedInterface links A).dedup.filter fun x => x ∈ reducedInterface links B ∨ x ∈ B.padding).length

/-- The pairs of leads `permutations(range(num_leads), 2)` (gauge.py l.735). -/
def leadPairs (k : ℕ) : List (ℕ × ℕ) :=
  (List.range k).flatMap fun i => ((List.range k).filter fun j => i ≠ j).map fun j => (i, j)

open Classical in
/-- `connected_components(..., return_labels=False)` for `k` nodes (links count in both directions): every component is
counted by its smallest node. -/
noncomputable def numComponents (k : ℕ) (edges : List (ℕ × ℕ)) : ℕ :=
  ((List.range k).filter fun i => ∀ j < i, ¬ Conn {e | e ∈ edges ∨ e.swap ∈ edges} i j).length

/-- `leads[i]`. -/
def CSyst.lead (s : CSyst) (p : ℕ) : CLead := s.leads.getD p ⟨0, 0, [], fun _ _ => 0, [], []⟩

/-- The entries of the matrix `metagraph` (gauge.py l.734-747). -/
def leadGraph (s : CSyst) : List (ℕ × ℕ) :=
  (leadPairs s.leads.length).filter fun e => overlap s.links (s.lead e.1) (s.lead e.2) = 1

/-- `_check_composite_system` (gauge.py l.698-754): `false` is a `ValueError`. -/
noncomputable def checkComposite (s : CSyst) : Bool :=
  if ∃ e ∈ leadPairs s.leads.length, overlap s.links (s.lead e.1) (s.lead e.2) > 1 then false
  else (leadGraph s).length / 2 + numComponents s.leads.length (leadGraph s) == s.leads.length

/-- First index of the unit cell added for lead `p` (`first_lead_site`, gauge.py l.463-481; also `lead_starts[p]`). -/
def CSyst.start (s : CSyst) (p : ℕ) : ℕ := s.n + ((s.leads.take p).map CLead.c).sum

/-- Index in the extended region of an end of a link of a lead (gauge.py l.472-478). -/
def mapEnd (start : ℕ) (L : CLead) (i : ℕ) : ℕ := if i < L.c then i + start else L.interface.getD (i - L.c) 0

/-- `uc` (gauge.py l.466-478). -/
def addedCell (start : ℕ) (L : CLead) : List ((ℕ × ℕ) × ℝ) :=
  L.links.map fun e => ((mapEnd start L e.1, mapEnd start L e.2), L.dist e.1 e.2)

/-- `extended_scattering_region` (gauge.py l.483-488): entries of the matrix in coordinate format. -/
def CSyst.entries (s : CSyst) : List ((ℕ × ℕ) × ℝ) :=
  (s.links.map fun e => (e, s.dist e.1 e.2)) ++
    (List.range s.leads.length).flatMap fun p => addedCell (s.start p) (s.lead p)

/-- `extended_size` (gauge.py l.457-458). -/
def CSyst.size (s : CSyst) : ℕ := s.start s.leads.length

/-- `bisect.bisect(lead_starts, i) - 1` (gauge.py l.490-491, l.506). -/
def CSyst.whichLead (s : CSyst) (i : ℕ) : ℕ :=
  ((List.range (s.leads.length + 1)).filter fun p => s.start p ≤ i).length - 1

/-- `which_patch` (gauge.py l.496-508). -/
def CSyst.patch (s : CSyst) (i : ℕ) : ℤ :=
  if i < s.n then
    match (List.range s.leads.length).find? fun p => i ∈ (s.lead p).padding with
    | some p => p
    | none => -1
  else s.whichLead i

/-- `interface_sites` of `_interior_links` (gauge.py l.538-543). -/
def interfaceSites (E : List ((ℕ × ℕ) × ℝ)) (patch : ℕ → ℤ) : List ℕ :=
  (E.filter fun e => Xor (patch e.1.1 > -1) (patch e.1.2 > -1)).map fun e =>
    if ¬ patch e.1.1 > -1 then e.1.1 else e.1.2

/-- `_we_want` (gauge.py l.545-546). -/
def weWant (E : List ((ℕ × ℕ) × ℝ)) (patch : ℕ → ℤ) (i j : ℕ) : Prop :=
  i ∈ interfaceSites E patch ∧ ¬ patch j > -1

/-- The entry with index `k`. -/
def entryAt (E : List ((ℕ × ℕ) × ℝ)) (k : ℕ) : (ℕ × ℕ) × ℝ := E.getD k ((0, 0), 0)

open Classical in
/-- `_interior_links` (gauge.py l.528-553): the indices of the links between interface sites and other sites of the
scattering region. -/
noncomputable def interiorLinks (E : List ((ℕ × ℕ) × ℝ)) (patch : ℕ → ℤ) : List ℕ :=
  (List.range E.length).filter fun k =>
    weWant E patch (entryAt E k).1.1 (entryAt E k).1.2 ∨ weWant E patch (entryAt E k).1.2 (entryAt E k).1.1

/-- `np.delete(..., links_to_delete)` (gauge.py l.563-566). -/
def remainingLinks (E : List ((ℕ × ℕ) × ℝ)) (del : List ℕ) : List (ℕ × ℕ) :=
  ((List.range E.length).filter fun k => k ∉ del).map fun k => (entryAt E k).1

open Classical in
/-- One step of the loop of `_make_metatree` (gauge.py l.572-580).  The matrix in DOK format stores no zeros, and
`metagraph.get((i, j), np.inf)` is infinite if nothing is stored. -/
noncomputable def metaStep (E : List ((ℕ × ℕ) × ℝ)) (labels : ℕ → ℕ) (mg : ℕ × ℕ → ℕ) (k : ℕ) : ℕ × ℕ → ℕ :=
  let i := labels (entryAt E k).1.1
  let j := labels (entryAt E k).1.2
  if i = j then mg
  else if mg (i, j) = 0 ∨ (entryAt E k).2 < (mg (i, j) : ℝ) then
    Function.update (Function.update mg (i, j) k) (j, i) k
  else mg

section
variable (components : List (ℕ × ℕ) → ℕ → ℕ) (mst : (ℕ × ℕ → ℕ) → List (ℕ × ℕ))

/-- The matrix `metagraph` of `_make_metatree` (gauge.py l.571-580). -/
noncomputable def metaGraph (E : List ((ℕ × ℕ) × ℝ)) (del : List ℕ) : ℕ × ℕ → ℕ :=
  del.foldl (metaStep E (components (remainingLinks E del))) fun _ => 0

/-- `_make_metatree(graph, links_to_delete).data` (gauge.py l.556-582). -/
noncomputable def metaTree (E : List ((ℕ × ℕ) × ℝ)) (del : List ℕ) : List ℕ :=
  (mst (metaGraph components E del)).map (metaGraph components E del)

/-- `_assign_csr(a, v, (row, col))` for a number `v` (gauge.py l.167-189). -/
def assignVal (a : Csr) (v : WithTop ℝ) (row col : ℕ) : Option Csr :=
  ((a row).findIdx? fun e => e.1 = col).map fun j => Function.update a row ((a row).modify j fun e => (e.1, v))

/-- Two assignments, in both directions (gauge.py l.424-425, l.649-650). -/
def assignBoth (a : Csr) (e : (ℕ × ℕ) × ℝ) : Option Csr :=
  (assignVal a (e.2 : WithTop ℝ) e.1.1 e.1.2).bind fun a => assignVal a (e.2 : WithTop ℝ) e.1.2 e.1.1

/-- A sequence of assignments. -/
def assignAll (l : List ((ℕ × ℕ) × ℝ)) (a : Csr) : Option Csr :=
  l.foldl (fun st e => st.bind fun a => assignBoth a e) (some a)

variable (pick : List ℕ → (ℕ → ℝ) → ℕ) (choose : List ℕ → ℕ) (argsort : List ℝ → List ℕ) (argmin : List ℝ → ℕ)

/-- `distance_matrix` as a matrix with infinite entries allowed. -/
def cooOf (E : List ((ℕ × ℕ) × ℝ)) : Coo := E.map fun e => (e.1, ((e.2 : ℝ) : WithTop ℝ))

/-- `cut_syst` (gauge.py l.636-637). -/
def cutCoo (E : List ((ℕ × ℕ) × ℝ)) (del : List ℕ) : Coo :=
  (List.range E.length).map fun k => ((entryAt E k).1, if k ∈ del then ⊤ else (((entryAt E k).2 : ℝ) : WithTop ℝ))

/-- `_spanning_tree_composite` (gauge.py l.585-652).  If there are no interior links, `links_to_delete` is an empty array of
floating point numbers, and using it as an index (l.637) raises an `IndexError`. -/
noncomputable def spanningTreeComposite (E : List ((ℕ × ℕ) × ℝ)) (patch : ℕ → ℤ) (N : ℕ) : Option Csr :=
  let del := interiorLinks E patch
  if del = [] then none else
  (shortestDistanceForest pick choose (csrOf (cutCoo E del)) N).bind fun forest =>
    assignAll ((metaTree components mst E del).dedup.map (entryAt E)) forest

/-- `_loops_in_composite` (gauge.py l.357-429). -/
noncomputable def loopsInComposite (s : CSyst) : Option (List (List ℕ)) :=
  if checkComposite s = false then none else
  let E := s.entries
  (spanningTreeComposite components mst pick choose E s.patch s.size).bind fun tree =>
    (assignAll (E.filter fun e => s.patch e.1.1 > -1 ∨ s.patch e.1.2 > -1) tree).bind fun sub =>
      findLoops pick argsort (csrOf (cooOf E)) sub s.size

/-- `extended_sites(i)` (gauge.py l.513-525) in the coordinates of lead `p`: `at_ p i` are the coordinates of the site `i`
(of the scattering region, or of a unit cell added for another lead). -/
def extCoord (s : CSyst) (at_ : ℕ → ℕ → ℤ × ℕ) (p i : ℕ) : ℤ × ℕ :=
  if s.n ≤ i ∧ s.whichLead i = p then ((at_ p ((s.lead p).interface.headD 0)).1 + 1, i - s.start p) else at_ p i

/-- One step of `_previous_phase_composite` (gauge.py l.832-845): `leadPhases p` is `lead_phases[p]`; the assertion of
l.841 and the `KeyError` of a lead are exceptions. -/
noncomputable def stepComposite (s : CSyst) (at_ : ℕ → ℕ → ℤ × ℕ) (leadPhases : ℕ → ℤ × ℕ → ℤ × ℕ → Option ℂ)
    (ph : Phases) (acc : ℂ) (e : ℕ × ℕ) : Option ℂ :=
  let pi := s.patch e.1
  let pj := s.patch e.2
  if pi = -1 ∧ pj = -1 then some (acc * (ph (e.1, e.2)).getD 1 / (ph (e.2, e.1)).getD 1)
  else if pi * pj ≤ 0 ∨ pi = pj then
    let p := (max pi pj).toNat
    (leadPhases p (extCoord s at_ p e.1) (extCoord s at_ p e.2)).map fun z => acc * z
  else none

/-- `_previous_phase_composite` (gauge.py l.829-847). -/
noncomputable def previousPhaseComposite (s : CSyst) (at_ : ℕ → ℕ → ℤ × ℕ)
    (leadPhases : ℕ → ℤ × ℕ → ℤ × ℕ → Option ℂ) (ph : Phases) (path : List ℕ) : Option ℂ :=
  (path.zip path.tail).foldl (fun acc e => acc.bind fun acc => stepComposite s at_ leadPhases ph acc e) (some 1)

/-- `_calculate_phases` (gauge.py l.768-798) with exceptions. -/
noncomputable def calculatePhasesM {V : Type} (loops : List (List ℕ)) (pos : ℕ → V) (previous : Phases → List ℕ → Option ℂ)
    (flux : List V → ℝ) : Option Phases :=
  loops.foldl (fun st loop => st.bind fun ph => (previous ph loop).map fun z =>
    Function.update ph (loop.getLastD 0, loop.headD 0)
      (some (Complex.exp (I * Real.pi * flux (loop.map pos)) / z))) (some fun _ => none)

variable {V : Type} [AddCommGroup V]

/-- `magnetic_gauge(lead)(field)` for every lead (gauge.py l.913-914, l.979): positions of the sites of the unit cell,
period, and flux of the field for each lead. -/
noncomputable def leadGauges (s : CSyst) (leadPos : ℕ → ℕ → V) (T : ℕ → V) (leadFlux : ℕ → List V → ℝ) (p : ℕ) :
    ℤ × ℕ → ℤ × ℕ → Option ℂ :=
  fun a b => (loopsInInfinite pick choose argsort argmin (s.lead p).links (s.lead p).dist (s.lead p).c).bind fun loops =>
    peierlsInfinite (s.lead p).c (s.lead p).m loops (leadPos p) (T p) (leadFlux p) a b

/-- `magnetic_gauge(syst)(syst_field, *lead_fields)` for a system with leads (gauge.py l.975-982, l.907-934): the phases of
the scattering region; `none` for an exception, in particular if the number of fields is wrong, if the check of the system
fails, or if the gauge of one of the leads cannot be fixed. -/
noncomputable def peierlsComposite (s : CSyst) (at_ : ℕ → ℕ → ℤ × ℕ) (pos : ℕ → V) (leadPos : ℕ → ℕ → V) (T : ℕ → V)
    (flux : List V → ℝ) (leadFlux : List (List V → ℝ)) : Option (ℕ → ℕ → ℂ) :=
  (loopsInComposite components mst pick choose argsort s).bind fun loops =>
    if ∃ p < s.leads.length,
      loopsInInfinite pick choose argsort argmin (s.lead p).links (s.lead p).dist (s.lead p).c = none then none
    else if leadFlux.length ≠ s.leads.length then none
    else (calculatePhasesM loops pos (previousPhaseComposite s at_
      (leadGauges pick choose argsort argmin s leadPos T fun p => leadFlux.getD p fun _ => 0)) flux).map finiteWrapper

end

/-! ## Specification -/

/-- `csgraph.connected_components`: two nodes have the same label if and only if they are connected. -/
def Components (components : List (ℕ × ℕ) → ℕ → ℕ) : Prop :=
  ∀ links : List (ℕ × ℕ), (∀ e ∈ links, e.swap ∈ links) → ∀ i j,
    components links i = components links j ↔ Conn {e | e ∈ links} i j

/-- `csgraph.minimum_spanning_tree` of a symmetric matrix of weights: links of the graph, without closed loops, that connect
whatever is connected by the graph. -/
def SpanningTree (mst : (ℕ × ℕ → ℕ) → List (ℕ × ℕ)) : Prop :=
  ∀ g : ℕ × ℕ → ℕ, {e | g e ≠ 0}.Finite → (∀ e, g e.swap = g e) → (∀ a, g (a, a) = 0) →
    (∀ e ∈ mst g, g e ≠ 0) ∧ Forest {e | e ∈ mst g ∨ e.swap ∈ mst g} ∧
    ∀ a b, g (a, b) ≠ 0 → Conn {e | e ∈ mst g ∨ e.swap ∈ mst g} a b

/-- A finalized system with leads (C40, C46): the graph of the scattering region, the graphs of the leads, and for each lead
an interface with one site of the scattering region for each site of the lead that has a hopping from the next cell. -/
structure CompositeOk (s : CSyst) : Prop where
  links : Links s.links s.n
  dist_nonneg : ∀ i j, 0 ≤ s.dist i j
  dist_symm : ∀ i j, s.dist i j = s.dist j i
  lead_links : ∀ p < s.leads.length, InfLinks (s.lead p).links (s.lead p).c (s.lead p).m
  lead_nonneg : ∀ p < s.leads.length, ∀ i j, 0 ≤ (s.lead p).dist i j
  lead_symm : ∀ p < s.leads.length, ∀ i j, (s.lead p).dist i j = (s.lead p).dist j i
  interface_length : ∀ p < s.leads.length, (s.lead p).c + (s.lead p).interface.length = (s.lead p).m
  interface_nodup : ∀ p < s.leads.length, (s.lead p).interface.Nodup
  interface_lt : ∀ p < s.leads.length, ∀ i ∈ (s.lead p).interface, i < s.n
  interface_hop : ∀ p < s.leads.length, ∀ k < (s.lead p).interface.length, ∃ i, (i, (s.lead p).c + k) ∈ (s.lead p).links
  padding_lt : ∀ p < s.leads.length, ∀ i ∈ (s.lead p).padding, i < s.n
  padding_disjoint : ∀ p < s.leads.length, ∀ q < s.leads.length, p ≠ q → ∀ i ∈ (s.lead p).padding, i ∉ (s.lead q).padding

/-- The links of the extended scattering region: those of the scattering region and those of one added unit cell of
every lead. -/
def CSyst.extended (s : CSyst) : List (ℕ × ℕ) := s.entries.map Prod.fst

/-- No hopping connects the patches of different leads. -/
def Separate (s : CSyst) : Prop :=
  ∀ e ∈ s.extended, s.patch e.1 ≠ -1 → s.patch e.2 ≠ -1 → s.patch e.1 = s.patch e.2

/-- The system is attached to its leads (C29): the interface sites are the sites of one domain of the lead, and the hoppings
of the padding sites are translated hoppings of the lead. -/
structure Attached (s : CSyst) (at_ : ℕ → ℕ → ℤ × ℕ) : Prop where
  interface : ∀ p < s.leads.length, ∀ k < (s.lead p).interface.length,
    at_ p ((s.lead p).interface.getD k 0) = ((at_ p ((s.lead p).interface.headD 0)).1, k)
  padding : ∀ p < s.leads.length, ∀ e ∈ s.links, e.1 ∈ (s.lead p).padding ∨ e.2 ∈ (s.lead p).padding →
    Hop (s.lead p).links (s.lead p).c (at_ p e.1) (at_ p e.2)

/-- The positions: those of the sites of the leads are translated by the period from one domain to the next. -/
def Positions {V : Type} [AddCommGroup V] (s : CSyst) (at_ : ℕ → ℕ → ℤ × ℕ) (pos : ℕ → V) (leadPos : ℕ → ℕ → V) (T : ℕ → V) :
    Prop :=
  ∀ p < s.leads.length, ∀ e ∈ s.extended, s.patch e.1 = p ∨ s.patch e.2 = p →
    pos e.1 = leadPos p (extCoord s at_ p e.1).2 + (extCoord s at_ p e.1).1 • T p

/-- The phase of a hopping of the extended region: that of the scattering region between its own sites, that of the lead if
one of the sites is in the patch of the lead. -/
noncomputable def phaseOf (s : CSyst) (at_ : ℕ → ℕ → ℤ × ℕ) (P : ℕ → ℕ → ℂ) (Q : ℕ → ℤ × ℕ → ℤ × ℕ → ℂ) (i j : ℕ) : ℂ :=
  if s.patch i = -1 ∧ s.patch j = -1 then P i j
  else Q (max (s.patch i) (s.patch j)).toNat (extCoord s at_ (max (s.patch i) (s.patch j)).toNat i)
    (extCoord s at_ (max (s.patch i) (s.patch j)).toNat j)

end Kwant.Gauge
