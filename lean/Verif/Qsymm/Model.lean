import Mathlib.Analysis.SpecialFunctions.Exponential
import Mathlib.Data.Matrix.Mul
import Mathlib.Analysis.Complex.Basic

/-!
# Conversion between builders and models of qsymm: model and specification

Model of `kwant/qsymm.py`: `builder_to_model` (l.39-178), `model_to_builder` (l.181-390).

Simplifications
* Exact arithmetic: `allclose(m, 0)` says that the matrix is zero, `make_int` that the vector has integer components.
* A model of qsymm is the list of its terms: displacement, coefficient, and matrix; the sum of models is the concatenation.
* A site is a unit cell and the number of a site of the fundamental domain; values of onsites and hoppings are matrices of the
  size of the sites.
* Parameters are real numbers where they appear in the result.
* An exception is `none`.
-/
set_option linter.unusedSectionVars false

namespace Kwant.Qsymm
open Complex

/-- A matrix. -/
abbrev Mat := ℕ → ℕ → ℂ

/-- Values of the parameters. -/
abbrev Values := String → ℂ

/-- The value of an onsite or a hopping: a matrix, or a function with parameters (besides the site or the two sites). -/
inductive Val where
  | const (m : Mat)
  | func (names : List String) (f : List ℂ → Mat)

/-- The value for given parameters. -/
def Val.eval (v : Val) (x : Values) : Mat :=
  match v with
  | .const m => m
  | .func names f => f (names.map x)

/-- A term of a `BlochModel`: displacement, coefficient (`none` for `'1'`), matrix. -/
structure Term (dim : ℕ) where
  d : Fin dim → ℝ
  par : Option String
  mat : Mat

/-- A builder with translational symmetry: the sites of the fundamental domain in sorted order, their numbers of orbitals and
positions, the periods, the values of the onsites (`site_value_pairs`) and of the hoppings (`hopping_value_pairs`: a site of
the fundamental domain, and the cell and number of the other site). -/
structure Syst (D dim : ℕ) where
  sites : List ℕ
  norbs : ℕ → Option ℕ
  pos : ℕ → Fin D → ℝ
  periods : Fin dim → Fin D → ℝ
  onsites : List (ℕ × Val)
  hops : List ((ℕ × (Fin dim → ℤ) × ℕ) × Val)

variable {D dim : ℕ}

/-- Position of a site in any cell. -/
def Syst.sitePos (s : Syst D dim) (R : Fin dim → ℤ) (a : ℕ) : Fin D → ℝ := s.pos a + ∑ i, (R i : ℝ) • s.periods i

/-! ## builder_to_model -/

/-- `orbital_slices` (qsymm.py l.128-138): the slices and the number of orbitals. -/
def orbitalSlices (norbs : ℕ → Option ℕ) (sites : List ℕ) : Option (List (ℕ × ℕ × ℕ) × ℕ) :=
  sites.foldl (fun st a => st.bind fun st => (norbs a).map fun n => (st.1 ++ [(a, st.2, n)], st.2 + n)) (some ([], 0))

/-- `slices[site]`: start and length. -/
def sliceOf (sl : List (ℕ × ℕ × ℕ)) (a : ℕ) : ℕ × ℕ := (sl.lookup a).getD (0, 0)

/-- `set_block` (qsymm.py l.141-144). -/
def setBlock (s1 s2 : ℕ × ℕ) (val : Mat) : Mat := fun i j =>
  if (s1.1 ≤ i ∧ i < s1.1 + s1.2) ∧ (s2.1 ≤ j ∧ j < s2.1 + s2.2) then val (i - s1.1) (j - s2.1) else 0

open Classical in
/-- `term_to_model` (qsymm.py l.75-82). -/
noncomputable def termToModel (d : Fin dim → ℝ) (par : Option String) (m : Mat) : List (Term dim) :=
  if m = 0 then [] else [⟨d, par, m⟩]

/-- The arguments of a value: fixed parameters, 1 for the parameter `q`, and 0 (qsymm.py l.116-125). -/
def argument (fixed : String → Option ℂ) (q : Option String) (p : String) : ℂ :=
  match fixed p with
  | some v => v
  | none => if q = some p then 1 else 0

/-- `function_to_terms` (qsymm.py l.104-126). -/
def functionToTerms (fixed : String → Option ℂ) (names : List String) (f : List ℂ → Mat) : List (Option String × Mat) :=
  let h0 := f (names.map (argument fixed none))
  (names.filter fun p => fixed p = none).map (fun p => (some p, f (names.map (argument fixed (some p))) - h0)) ++ [(none, h0)]

/-- The terms of a value (qsymm.py l.93-98, l.103-107). -/
noncomputable def valueToModel (fixed : String → Option ℂ) (d : Fin dim → ℝ) (s1 s2 : ℕ × ℕ) (v : Val) : List (Term dim) :=
  match v with
  | .const m => termToModel d none (setBlock s1 s2 m)
  | .func names f => (functionToTerms fixed names f).flatMap fun t => termToModel d t.1 (setBlock s1 s2 t.2)

/-- The displacement of a hopping (qsymm.py l.86-90). -/
noncomputable def displacement (s : Syst D dim) (proj : Matrix (Fin dim) (Fin D) ℝ) (realSpace : Bool)
    (h : ℕ × (Fin dim → ℤ) × ℕ) : Fin dim → ℝ :=
  if realSpace then proj.mulVec (s.sitePos h.2.1 h.2.2 - s.pos h.1) else fun i => (h.2.1 i : ℝ)

/-- `term.T().conj()` for real parameters. -/
def Term.adjoint (t : Term dim) : Term dim := ⟨-t.d, t.par, fun i j => (starRingEnd ℂ) (t.mat j i)⟩

/-- `builder_to_model` (qsymm.py l.39-178) with the matrix `proj` (l.153-164). -/
noncomputable def builderToModel (s : Syst D dim) (proj : Matrix (Fin dim) (Fin D) ℝ) (realSpace : Bool)
    (fixed : String → Option ℂ) : Option (List (Term dim)) :=
  (orbitalSlices s.norbs s.sites).map fun sl =>
    let oneWay := s.hops.flatMap fun h =>
      valueToModel fixed (displacement s proj realSpace h.1) (sliceOf sl.1 h.1.1) (sliceOf sl.1 h.1.2.2) h.2
    let onsites := s.onsites.flatMap fun o => valueToModel fixed 0 (sliceOf sl.1 o.1) (sliceOf sl.1 o.1) o.2
    onsites ++ (oneWay ++ oneWay.map Term.adjoint)

/-! ## model_to_builder -/

/-- A coefficient of a model: an expression with free symbols. -/
structure Coeff where
  names : List String
  f : Values → ℂ

/-- A term of the model that is converted. -/
structure Entry (D : ℕ) where
  r : Fin D → ℝ
  coeff : Coeff
  mat : Mat

/-- What `model_to_builder` gets: the model, the number of atoms, `norbs`, `lat_vecs`, `atom_coords`.  `order` are the atoms
in the order of their sublattices: sites are sorted by the representation of their family, which starts with the position
(lattice.py l.441-445). -/
structure Input (D : ℕ) where
  model : List (Entry D)
  n : ℕ
  norbs : ℕ → ℕ
  lat : Fin D → Fin D → ℝ
  coord : ℕ → Fin D → ℝ
  order : List ℕ

/-- `ranges[atom]` (qsymm.py l.325-328). -/
def Input.range (p : Input D) (a : ℕ) : ℕ × ℕ := (((List.range a).map p.norbs).sum, p.norbs a)

/-- `hop_mat[ranges[atom1], ranges[atom2]]`. -/
def block (m : Mat) (s1 s2 : ℕ × ℕ) : Mat := fun i j => if i < s1.2 ∧ j < s2.2 then m (s1.1 + i) (s2.1 + j) else 0

/-- The block of a term. -/
def Input.hop (p : Input D) (e : Entry D) (a b : ℕ) : Mat := block e.mat (p.range a) (p.range b)

open Classical in
/-- `make_int(np.linalg.solve(np.vstack(lat_vecs).T, r))` (qsymm.py l.214-222, l.271-272). -/
noncomputable def latBasis (lat : Fin D → Fin D → ℝ) (r : Fin D → ℝ) : Option (Fin D → ℤ) :=
  if h : ∃ R : Fin D → ℤ, ∑ i, (R i : ℝ) • lat i = r then some h.choose else none

/-- A hopping kind: `delta`, `family_a`, `family_b`. -/
abbrev Kind (D : ℕ) := (Fin D → ℤ) × ℕ × ℕ

/-- A local model: coefficients and matrices. -/
abbrev Local := List (Coeff × Mat)

/-- `d[key] += value` for a `defaultdict`. -/
def addTo {K : Type} [DecidableEq K] (d : List (K × Local)) (key : K) (v : Coeff × Mat) : List (K × Local) :=
  if key ∈ d.map Prod.fst then d.map fun e => if e.1 = key then (e.1, e.2 ++ [v]) else e
  else d ++ [(key, [v])]

/-- The dictionaries `onsites_dict` and `hopping_dict`. -/
abbrev Dicts (D : ℕ) := List (ℕ × Local) × List (Kind D × Local)

/-- The pairs of atoms `it.product(atoms, atoms)`. -/
def atomPairs (n : ℕ) : List (ℕ × ℕ) := (List.range n).flatMap fun a => (List.range n).map fun b => (a, b)

open Classical in
/-- One step of `term_onsite` (qsymm.py l.229-249). -/
noncomputable def onsiteStep (p : Input D) (e : Entry D) (st : Dicts D) (ab : ℕ × ℕ) : Option (Dicts D) :=
  if ab.1 = ab.2 then some (addTo st.1 ab.1 (e.coeff, p.hop e ab.1 ab.2), st.2)
  else if p.hop e ab.1 ab.2 = 0 then some st
  else if p.coord ab.1 ≠ p.coord ab.2 then none
  else some (st.1, addTo st.2 (-(0 : Fin D → ℤ), ab.1, ab.2) (e.coeff, p.hop e ab.1 ab.2))

open Classical in
/-- One step of `term_hopping` (qsymm.py l.257-286). -/
noncomputable def hoppingStep (p : Input D) (e : Entry D) (st : Dicts D) (ab : ℕ × ℕ) : Option (Dicts D) :=
  if p.hop e ab.1 ab.2 = 0 then some st
  else (latBasis p.lat (e.r + p.coord ab.1 - p.coord ab.2)).map fun R =>
    (st.1, addTo st.2 (-R, ab.1, ab.2) (e.coeff, p.hop e ab.1 ab.2))

open Classical in
/-- The step for a term (qsymm.py l.350-363). -/
noncomputable def termStep (p : Input D) (st : Dicts D) (e : Entry D) : Option (Dicts D) :=
  (atomPairs p.n).foldl (fun st ab => st.bind fun st => if e.r = 0 then onsiteStep p e st ab else hoppingStep p e st ab) (some st)

/-- The loop over the terms (qsymm.py l.342-363). -/
noncomputable def dictionaries (p : Input D) : Option (Dicts D) :=
  p.model.foldl (fun st e => st.bind fun st => termStep p st e) (some ([], []))

/-- The symbols of a local model. -/
def Local.names (m : Local) : List String := (m.flatMap fun t => t.1.names).dedup

/-- `lambdify` (qsymm.py l.379, l.383): a function of the symbols. -/
def Local.lambdify (m : Local) : Val :=
  .func m.names fun args i j => (m.map fun t => t.1.f (fun s => ((m.names.zip args).lookup s).getD 0) * t.2 i j).sum

/-- The hoppings `(family_a(x + delta), family_b(x))` of a kind, translated such that the first site is in the fundamental
domain (builder.py l.372-380). -/
def hopKey (k : Kind D) : ℕ × (Fin D → ℤ) × ℕ := (k.2.1, -k.1, k.2.2)

/-- The same hopping from the other side. -/
def reverse (h : ℕ × (Fin D → ℤ) × ℕ) : ℕ × (Fin D → ℤ) × ℕ := (h.2.2, -h.2.1, h.1)

/-- `syst[direction] = value`: replaces the hopping in either direction (C21). -/
def setHop (hops : List ((ℕ × (Fin D → ℤ) × ℕ) × Val)) (key : ℕ × (Fin D → ℤ) × ℕ) (v : Val) :
    List ((ℕ × (Fin D → ℤ) × ℕ) × Val) :=
  (hops.filter fun h => h.1 ≠ key ∧ h.1 ≠ reverse key) ++ [(key, v)]

/-- Onsite terms that are not set are zero (qsymm.py l.366-370). -/
def fillOnsites (n : ℕ) (d : List (ℕ × Local)) : List (ℕ × Local) :=
  (List.range n).foldl (fun d a => if a ∈ d.map Prod.fst then d else d ++ [(a, [(⟨[], fun _ => 1⟩, 0)])]) d

/-- `model_to_builder` (qsymm.py l.181-390). -/
noncomputable def modelToBuilder (p : Input D) : Option (Syst D D) :=
  (dictionaries p).map fun st =>
    { sites := p.order
      norbs := fun a => some (p.norbs a)
      pos := p.coord
      periods := p.lat
      onsites := (fillOnsites p.n st.1).map fun e => (e.1, e.2.lambdify)
      hops := st.2.foldl (fun hops e => setHop hops (hopKey e.1) e.2.lambdify) [] }

/-! ## Specification -/

/-- The matrix element between orbital `i` of site `a` in some cell and orbital `j` of site `b`, `R` cells further: the onsite
term, the hopping, or the Hermitian conjugate of the hopping from the other side. -/
noncomputable def amplitude (s : Syst D dim) (x : Values) (a b : ℕ) (R : Fin dim → ℤ) (i j : ℕ) : ℂ :=
  (s.onsites.map fun o => if o.1 = a ∧ a = b ∧ R = 0 then o.2.eval x i j else 0).sum +
  (s.hops.map fun h => (if h.1 = (a, R, b) then h.2.eval x i j else 0) +
    (if h.1 = (b, -R, a) then (starRingEnd ℂ) (h.2.eval x j i) else 0)).sum

/-- Well-formed builders. -/
structure Syst.Ok (s : Syst D dim) : Prop where
  nodup : s.sites.Nodup
  onsites : ∀ o ∈ s.onsites, o.1 ∈ s.sites
  hops : ∀ h ∈ s.hops, h.1.1 ∈ s.sites ∧ h.1.2.2 ∈ s.sites

/-- First orbital of a site: the orbitals of all sites before it come first. -/
def Syst.start (s : Syst D dim) (a : ℕ) : ℕ := ((s.sites.takeWhile (· ≠ a)).map fun b => (s.norbs b).getD 0).sum

/-- Values of parameters: those that are fixed have their value, the others are real. -/
def Admissible (fixed : String → Option ℂ) (x : Values) : Prop :=
  ∀ p, match fixed p with
    | some v => x p = v
    | none => (starRingEnd ℂ) (x p) = x p

/-- The value depends on the parameters that are not fixed in an affine way. -/
def Val.Affine (fixed : String → Option ℂ) (v : Val) : Prop :=
  match v with
  | .const _ => True
  | .func names f => names.Nodup ∧ ∃ (A : Mat) (B : String → Mat), ∀ x : Values, (∀ p v, fixed p = some v → x p = v) →
      ∀ i j, f (names.map x) i j = A i j + ((names.filter fun p => fixed p = none).map fun p => x p * B p i j).sum

/-- The Hamiltonian of a model at momentum `k`. -/
noncomputable def evalModel (m : List (Term dim)) (k : Fin dim → ℝ) (x : Values) : Mat := fun i j =>
  (m.map fun t => Complex.exp (I * ((k ⬝ᵥ t.d : ℝ) : ℂ)) * t.par.elim 1 x * t.mat i j).sum

/-- The same for the input of `model_to_builder`. -/
noncomputable def evalEntries (m : List (Entry D)) (k : Fin D → ℝ) (x : Values) : Mat := fun i j =>
  (m.map fun e => Complex.exp (I * ((k ⬝ᵥ e.r : ℝ) : ℂ)) * e.coeff.f x * e.mat i j).sum

open Classical in
/-- The Fourier component of a model at a displacement. -/
noncomputable def component (m : List (Entry D)) (x : Values) (r : Fin D → ℝ) : Mat := fun i j =>
  (m.map fun e => if e.r = r then e.coeff.f x * e.mat i j else 0).sum

end Kwant.Qsymm
