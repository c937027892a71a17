import Mathlib.Analysis.Complex.Exponential
import Mathlib.Data.List.Basic
import Mathlib.Tactic.Ring
import Mathlib.Tactic.Linarith

/-!
# `kwant.plotter.spectrum` and `kwant.plotter.bands`: what is drawn

Model of `_generate_spectrum`, `_spectrum_matplotlib`, `_spectrum_plotly` and `bands` (plotter.py l.1852-2177).

Simplifications: the Hamiltonian is a function of the assignment of values to parameter names (a dict), `numpy.linalg.eigvalsh` a function `eig` of the
Hamiltonian that returns a list; arrays are flat lists with shapes (`numpy.array`, `reshape`, `.T`, indexing are modelled by positions in the flat list);
`nan` is `none`.  The plot is the list of the curves or surfaces, each one the list of the points that `matplotlib` (`ax.plot(x, y)` takes column after
column, `plot_surface(X, Y, Z)` the points with equal indices) or `plotly` (`Scatter(x, y)`, `Surface(x, y, z)` puts `z[j][i]` at `x[i], y[j]`) joins.  Titles and
labels are not modelled.
-/

set_option linter.unusedSectionVars false

namespace Kwant.Spectrum

variable {Name Val H E : Type} [DecidableEq Name]

/-- Exceptions: `StopIteration` (no point is left), `ValueError` (numbers of energies differ). -/
inductive Err where
  | stop
  | value
deriving DecidableEq

/-- A dict. -/
abbrev Dict (Name Val : Type) := List (Name × Val)

/-- The value of a key; later entries replace earlier ones. -/
def lookup (d : Dict Name Val) (k : Name) : Option Val := (d.reverse.find? fun e => e.1 = k).map Prod.snd

/-- An axis: the name of a parameter and its values. -/
structure Axis (Name Val : Type) where
  name : Name
  vals : List Val

/-- `itertools.product(*array_values)` (l.2043) with the `dict(zip(keys, point))` (l.2044). -/
def points (x : Axis Name Val) (y : Option (Axis Name Val)) : List (Dict Name Val) :=
  match y with
  | none => x.vals.map fun a => [(x.name, a)]
  | some y => x.vals.flatMap fun a => y.vals.map fun b => [(x.name, a), (y.name, b)]

/-- The body of the loop (l.2044-2049): nothing for masked points, otherwise the energies.  `partial(ham, **params)(**p)`: the entries of `p` replace those of
`params`. -/
def energies (ham : (Name → Option Val) → H) (eig : H → List E) (params : Dict Name Val) (mask : Option (Dict Name Val → Bool)) (p : Dict Name Val) :
    Option (List E) :=
  if (match mask with | some m => m p | none => false) then none
  else some (eig (ham (lookup (params ++ p))))

/-- An array: the flat list of its entries with the numbers of x values, y values and energies. -/
structure Arr (E : Type) where
  nx : ℕ
  ny : ℕ
  n : ℕ
  data : List (Option E)

/-- The number of y values; 1 for planar plots. -/
def ycount : Option (Axis Name Val) → ℕ
  | none => 1
  | some y => y.vals.length

/-- `_generate_spectrum` (l.2007-2058). -/
def generate (ham : (Name → Option Val) → H) (eig : H → List E) (params : Dict Name Val) (mask : Option (Dict Name Val → Bool))
    (x : Axis Name Val) (y : Option (Axis Name Val)) : Except Err (Arr E) :=
  let spec := (points x y).map (energies ham eig params mask)
  match spec.find? Option.isSome with
  | some (some l) =>
    let rows := spec.map fun s => match s with | none => List.replicate l.length none | some e => e.map some
    if rows.all fun r => r.length = l.length then
      .ok ⟨x.vals.length, ycount y, l.length, rows.flatten⟩
    else .error .value
  | _ => .error .stop

/-- `spectrum[i, j, m]` after `reshape`, in C order. -/
def Arr.at (s : Arr E) (i j m : ℕ) : Option E := (s.data[(i * s.ny + j) * s.n + m]?).join

/-- `ax.plot(array_values[0], spectrum)` (l.2160): column `m` of the array is one curve. -/
def plotMpl1 (x : Axis Name Val) (s : Arr E) : List (List (Option Val × Option E)) :=
  (List.range s.n).map fun m => (List.range s.nx).map fun i => (x.vals[i]?, s.at i 0 m)

/-- One `Scatter` for each row of `spectrum.T` (l.2079-2085). -/
def plotPlotly1 (x : Axis Name Val) (s : Arr E) : List (List (Option Val × Option E)) :=
  let t := fun m i => s.at i 0 m
  (List.range s.n).map fun m => (List.range x.vals.length).map fun i => (x.vals[i]?, t m i)

/-- `np.meshgrid(*array_values)` (l.2168): two arrays with as many rows as there are y values. -/
def meshgrid (xs ys : List Val) : (ℕ → ℕ → Option Val) × (ℕ → ℕ → Option Val) := (fun _ i => xs[i]?, fun j _ => ys[j]?)

/-- One `plot_surface` for each energy (l.2168-2173), the points row by row. -/
def plotMpl2 (x y : Axis Name Val) (s : Arr E) : List (List (Option Val × Option Val × Option E)) :=
  let grid := meshgrid x.vals y.vals
  (List.range s.n).map fun m =>
    let spec := fun j i => s.at i j m
    (List.range y.vals.length).flatMap fun j => (List.range x.vals.length).map fun i => (grid.1 j i, grid.2 j i, spec j i)

/-- One `Surface` for each entry of `spectrum.T` (l.2089-2097): `z[j][i]` belongs to `x[i]`, `y[j]`. -/
def plotPlotly2 (x y : Axis Name Val) (s : Arr E) : List (List (Option Val × Option Val × Option E)) :=
  let t := fun m j i => s.at i j m
  (List.range s.n).map fun m =>
    (List.range y.vals.length).flatMap fun j => (List.range x.vals.length).map fun i => (x.vals[i]?, y.vals[j]?, t m j i)

/-! ## Specification -/

/-- The values of the parameters at a point of the grid: those that are varied, and otherwise the given ones. -/
def Assigns (params p : Dict Name Val) (f : Name → Option Val) : Prop :=
  (∀ k v, (k, v) ∈ p → f k = some v) ∧ (∀ k, (∀ v, (k, v) ∉ p) → f k = lookup params k)

/-- Energy number `m` at the point `p`: none if it is masked, otherwise the energy of the Hamiltonian there. -/
def Shows (ham : (Name → Option Val) → H) (eig : H → List E) (params : Dict Name Val) (mask : Option (Dict Name Val → Bool)) (p : Dict Name Val)
    (m : ℕ) (o : Option E) : Prop :=
  ((∃ f, mask = some f ∧ f p = true) → o = none) ∧
  ((∀ f, mask = some f → f p = false) → ∃ f, Assigns params p f ∧ o = (eig (ham f))[m]? ∧ o ≠ none)

/-! ## Proofs -/

theorem lookup_append (d e : Dict Name Val) (k : Name) :
    lookup (d ++ e) k = (lookup e k).or (lookup d k) := by
  unfold lookup
  rw [List.reverse_append, List.find?_append]
  cases List.find? (fun e => decide (e.1 = k)) e.reverse <;> simp

theorem lookup_not_mem {d : Dict Name Val} {k : Name} (h : ∀ v, (k, v) ∉ d) : lookup d k = none := by
  unfold lookup
  rw [Option.map_eq_none_iff, List.find?_eq_none]
  intro e he
  simp only [decide_eq_true_eq]
  rintro rfl
  exact h e.2 (by simpa using he)

theorem assigns_points {x : Axis Name Val} {y : Option (Axis Name Val)} (hxy : ∀ y', y = some y' → x.name ≠ y'.name)
    {p : Dict Name Val} (hp : p ∈ points x y) (params : Dict Name Val) : Assigns params p (lookup (params ++ p)) := by
  constructor
  · intro k v hk
    rw [lookup_append]
    have : lookup p k = some v := by
      unfold points at hp
      cases y with
      | none =>
        simp only [List.mem_map] at hp
        obtain ⟨a, _, rfl⟩ := hp
        simp only [List.mem_singleton, Prod.mk.injEq] at hk
        obtain ⟨rfl, rfl⟩ := hk
        simp [lookup]
      | some y =>
        simp only [List.mem_flatMap, List.mem_map] at hp
        obtain ⟨a, _, b, _, rfl⟩ := hp
        have hne := hxy y rfl
        simp only [List.mem_cons, Prod.mk.injEq, List.not_mem_nil, or_false] at hk
        rcases hk with ⟨rfl, rfl⟩ | ⟨rfl, rfl⟩
        · simp [lookup, List.find?_cons, Ne.symm hne]
        · simp [lookup, List.find?_cons]
    rw [this]
    rfl
  · intro k hk
    rw [lookup_append, lookup_not_mem hk]
    simp

theorem getElem?_flatten_uniform {α : Type} {n : ℕ} : ∀ (rows : List (List α)), (∀ r ∈ rows, r.length = n) → ∀ (q m : ℕ), m < n →
    rows.flatten[q * n + m]? = (rows[q]?).bind fun r => r[m]?
  | [], _, q, m, _ => by simp
  | r :: rest, h, q, m, hm => by
    have hr := h r (by simp)
    rw [List.flatten_cons]
    cases q with
    | zero =>
      rw [List.getElem?_append_left (by omega)]
      simp
    | succ q =>
      have e : (q + 1) * n + m = r.length + (q * n + m) := by rw [hr]; ring
      rw [e, List.getElem?_append_right (by omega), Nat.add_sub_cancel_left,
        getElem?_flatten_uniform rest (fun r hr => h r (by simp [hr])) q m hm]
      simp

/-- The points of a grid, in C order. -/
theorem points_get {x y : Axis Name Val} {i j : ℕ} (hi : i < x.vals.length) (hj : j < y.vals.length) :
    (points x (some y))[i * y.vals.length + j]? = some [(x.name, x.vals[i]), (y.name, y.vals[j])] := by
  simp only [points]
  rw [List.flatMap_def, getElem?_flatten_uniform _ (by simp) i j hj]
  simp [hi, hj]

theorem generate_spec {ham : (Name → Option Val) → H} {eig : H → List E} {params : Dict Name Val} {mask : Option (Dict Name Val → Bool)}
    {x : Axis Name Val} {y : Option (Axis Name Val)} {s : Arr E} (h : generate ham eig params mask x y = .ok s) :
    s.nx = x.vals.length ∧ s.ny = ycount y ∧
    (∃ p ∈ points x y, energies ham eig params mask p ≠ none) ∧
    (∀ p ∈ points x y, ∀ e, energies ham eig params mask p = some e → e.length = s.n) ∧
    (∀ (q m : ℕ) (p : Dict Name Val), (points x y)[q]? = some p → m < s.n →
      (s.data[q * s.n + m]?).join = (energies ham eig params mask p).bind fun e => e[m]?) := by
  unfold generate at h
  simp only at h
  split at h
  · rename_i l hl
    split at h
    · rename_i hall
      cases h
      rw [List.all_eq_true] at hall
      have hall' : ∀ r ∈ ((points x y).map (energies ham eig params mask)).map
          (fun s => match s with | none => List.replicate l.length none | some e => e.map some), r.length = l.length := by
        intro r hr
        simpa using hall r hr
      refine ⟨rfl, rfl, ?_, ?_, ?_⟩
      · have := List.mem_of_find?_eq_some hl
        rw [List.mem_map] at this
        obtain ⟨p, hp, e⟩ := this
        exact ⟨p, hp, by rw [e]; simp⟩
      · intro p hp e he
        have := hall' (e.map some) (by
          rw [List.mem_map]
          exact ⟨some e, List.mem_map.mpr ⟨p, hp, he⟩, rfl⟩)
        simpa using this
      · intro q m p hq hm
        simp only at hm ⊢
        rw [getElem?_flatten_uniform _ hall' q m hm]
        simp only [List.getElem?_map, hq, Option.map_some, Option.bind_some]
        cases he : energies ham eig params mask p with
        | none => simp [List.getElem?_replicate, hm]
        | some e =>
          simp only [List.getElem?_map, Option.bind_some]
          cases e[m]? <;> rfl
    · cases h
  · cases h

theorem shows_of {ham : (Name → Option Val) → H} {eig : H → List E} {params : Dict Name Val} {mask : Option (Dict Name Val → Bool)}
    {x : Axis Name Val} {y : Option (Axis Name Val)} (hxy : ∀ y', y = some y' → x.name ≠ y'.name) {p : Dict Name Val} (hp : p ∈ points x y)
    {n m : ℕ} (hm : m < n) (hn : ∀ e, energies ham eig params mask p = some e → e.length = n) :
    Shows ham eig params mask p m ((energies ham eig params mask p).bind fun e => e[m]?) := by
  constructor
  · rintro ⟨f, rfl, hf⟩
    simp [energies, hf]
  · intro hf
    have e : energies ham eig params mask p = some (eig (ham (lookup (params ++ p)))) := by
      unfold energies
      cases mask with
      | none => simp
      | some f => simp [hf f rfl]
    refine ⟨_, assigns_points hxy hp params, by rw [e]; rfl, ?_⟩
    rw [e]
    have := hn _ e
    simp only [Option.bind_some, ne_eq, List.getElem?_eq_none_iff]
    omega

/-- C174: `spectrum` with one varied parameter, with both engines: curve `m` passes at each value of the parameter through energy number `m` of the
Hamiltonian with this value, and has a gap at the masked values. -/
theorem C174_curves {ham : (Name → Option Val) → H} {eig : H → List E} {params : Dict Name Val} {mask : Option (Dict Name Val → Bool)}
    {x : Axis Name Val} {s : Arr E} (h : generate ham eig params mask x none = .ok s) :
    plotMpl1 x s = plotPlotly1 x s ∧ (plotMpl1 x s).length = s.n ∧
    (∀ p ∈ points x none, ∀ e, energies ham eig params mask p = some e → e.length = s.n) ∧
    ∀ c ∈ plotMpl1 x s, ∃ m < s.n, (plotMpl1 x s)[m]? = some c ∧ c.length = x.vals.length ∧
      ∀ (i : ℕ) (hi : i < x.vals.length), ∃ o, c[i]? = some (some x.vals[i], o) ∧ Shows ham eig params mask [(x.name, x.vals[i])] m o := by
  obtain ⟨h1, h2, _, h4, h5⟩ := generate_spec h
  refine ⟨?_, by simp [plotMpl1], h4, ?_⟩
  · simp [plotMpl1, plotPlotly1, h1]
  · intro c hc
    unfold plotMpl1 at hc
    rw [List.mem_map] at hc
    obtain ⟨m, hm, rfl⟩ := hc
    rw [List.mem_range] at hm
    refine ⟨m, hm, by simp [plotMpl1, hm], by simp [h1], ?_⟩
    intro i hi
    have hp : (points x none)[i]? = some [(x.name, x.vals[i])] := by simp [points, hi]
    have e := h5 i m _ hp hm
    have hs := shows_of (ham := ham) (eig := eig) (params := params) (mask := mask) (y := none) (by simp) (List.mem_of_getElem? hp) hm
      (h4 _ (List.mem_of_getElem? hp))
    rw [← e] at hs
    refine ⟨_, ?_, hs⟩
    have hat : s.at i 0 m = (s.data[i * s.n + m]?).join := by
      unfold Arr.at
      rw [h2]
      simp [ycount]
    simp [h1, hi, hat]

/-- C174: `spectrum` with two varied parameters, with both engines: the points of surface `m` are those over the whole grid, at the height of energy
number `m` there, with gaps at the masked points. -/
theorem C174_surfaces {ham : (Name → Option Val) → H} {eig : H → List E} {params : Dict Name Val} {mask : Option (Dict Name Val → Bool)}
    {x y : Axis Name Val} (hxy : x.name ≠ y.name) {s : Arr E} (h : generate ham eig params mask x (some y) = .ok s) :
    plotMpl2 x y s = plotPlotly2 x y s ∧ (plotMpl2 x y s).length = s.n ∧
    (∀ p ∈ points x (some y), ∀ e, energies ham eig params mask p = some e → e.length = s.n) ∧
    ∀ c ∈ plotMpl2 x y s, ∃ m < s.n, (plotMpl2 x y s)[m]? = some c ∧ c.length = y.vals.length * x.vals.length ∧
      ∀ (i j : ℕ) (hi : i < x.vals.length) (hj : j < y.vals.length), ∃ o, c[j * x.vals.length + i]? = some (some x.vals[i], some y.vals[j], o) ∧
        Shows ham eig params mask [(x.name, x.vals[i]), (y.name, y.vals[j])] m o := by
  obtain ⟨h1, h2, _, h4, h5⟩ := generate_spec h
  refine ⟨?_, by simp [plotMpl2], h4, ?_⟩
  · simp [plotMpl2, plotPlotly2, meshgrid]
  · intro c hc
    unfold plotMpl2 at hc
    rw [List.mem_map] at hc
    obtain ⟨m, hm, rfl⟩ := hc
    rw [List.mem_range] at hm
    refine ⟨m, hm, by simp [plotMpl2, hm], by simp [List.length_flatMap], ?_⟩
    intro i j hi hj
    have hp := points_get hi hj
    have e := h5 _ m _ hp hm
    have hs := shows_of (ham := ham) (eig := eig) (params := params) (mask := mask) (y := some y) (by rintro _ ⟨⟩; exact hxy)
      (List.mem_of_getElem? hp) hm (h4 _ (List.mem_of_getElem? hp))
    rw [← e] at hs
    refine ⟨_, ?_, hs⟩
    have hat : s.at i j m = (s.data[(i * y.vals.length + j) * s.n + m]?).join := by
      unfold Arr.at
      rw [h2]
      rfl
    rw [List.flatMap_def, getElem?_flatten_uniform _ (by simp) j i hi]
    simp [hj, hi, hat, meshgrid]

/-- C174: when `spectrum` succeeds: exactly if some point is not masked and the Hamiltonian has the same size at all points that are not. -/
theorem C174_succeeds {ham : (Name → Option Val) → H} {eig : H → List E} {params : Dict Name Val} {mask : Option (Dict Name Val → Bool)}
    {x : Axis Name Val} {y : Option (Axis Name Val)} :
    (∃ s, generate ham eig params mask x y = .ok s) ↔
      (∃ p ∈ points x y, energies ham eig params mask p ≠ none) ∧
      (∀ p ∈ points x y, ∀ p' ∈ points x y, ∀ e e', energies ham eig params mask p = some e → energies ham eig params mask p' = some e' →
        e.length = e'.length) := by
  constructor
  · rintro ⟨s, h⟩
    obtain ⟨_, _, h3, h4, _⟩ := generate_spec h
    exact ⟨h3, fun p hp p' hp' e e' he he' => (h4 p hp e he).trans (h4 p' hp' e' he').symm⟩
  · rintro ⟨⟨p, hp, hne⟩, hall⟩
    obtain ⟨e, he⟩ := Option.ne_none_iff_exists'.mp hne
    unfold generate
    simp only
    have hf : ((points x y).map (energies ham eig params mask)).find? Option.isSome ≠ none := by
      intro hf
      rw [List.find?_eq_none] at hf
      exact hf (some e) (List.mem_map.mpr ⟨p, hp, he⟩) rfl
    obtain ⟨o, ho⟩ := Option.ne_none_iff_exists'.mp hf
    have hsome := List.find?_some ho
    obtain ⟨l, rfl⟩ := Option.isSome_iff_exists.mp hsome
    rw [ho]
    simp only
    have hl := List.mem_of_find?_eq_some ho
    rw [List.mem_map] at hl
    obtain ⟨p', hp', hl⟩ := hl
    rw [if_pos]
    · exact ⟨_, rfl⟩
    · rw [List.all_eq_true]
      intro r hr
      simp only [List.mem_map] at hr
      obtain ⟨o, ⟨p2, hp2, rfl⟩, rfl⟩ := hr
      cases h2 : energies ham eig params mask p2 with
      | none => simp
      | some e2 =>
        have := hall p2 hp2 p' hp' e2 l h2 hl
        simpa using this

/-- C174: a grid of three by two points, one of which is masked, for the 1 by 1 Hamiltonian `x + y + c`. -/
theorem C174_example : ∃ s, generate (Name := String) (Val := ℤ) (fun f => (f "x").getD 0 + (f "y").getD 0 + (f "c").getD 0) (fun h => [h]) [("c", 10)]
      (some fun p => p = [("x", 1), ("y", 5)]) ⟨"x", [0, 1, 2]⟩ (some ⟨"y", [4, 5]⟩) = .ok s ∧
    plotMpl2 ⟨"x", [0, 1, 2]⟩ ⟨"y", [4, 5]⟩ s =
      [[(some 0, some 4, some 14), (some 1, some 4, some 15), (some 2, some 4, some 16),
        (some 0, some 5, some 15), (some 1, some 5, none), (some 2, some 5, some 17)]] := by
  refine ⟨_, rfl, ?_⟩
  decide

end Kwant.Spectrum
