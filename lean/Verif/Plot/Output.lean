import Mathlib.Data.List.Basic
import Mathlib.Tactic.SplitIfs

/-!
C203: the output of figures by the functions of `kwant.plotter`: `set_engine`, `get_engine`, `_check_incompatible_args_plotly`, `_make_figure`, `_maybe_output_fig` and the ends of `plot`, `map`, `bands`,
`spectrum`, `streamplot`, `scalarplot`, `current` and `density` (plotter.py l.44-159, l.880-908, l.1450-1452, l.1750-1764, l.1815-1819, l.1907-1933, l.1992-2004, l.2106-2177, l.2544-2571, l.2655-2698,
l.2761-2775, l.2806-2812, l.2874-2876, l.2931-2933).  Only the arguments `file`, `show`, `dpi`, `fig_size` and `ax` matter here; what is drawn is the subject of C145-C148, C167, C168, C174-C178, C198-C202.
-/

namespace Kwant.Output

/-! ## Model -/

/-- The functions that draw. -/
inductive Func where
  | plot
  | map
  | bands
  | spectrum
  | streamplot
  | current
  | scalarplot
  | density
deriving DecidableEq

/-- The state of `kwant._plotter`: which libraries can be imported, whether the code runs in IPython, the engine. -/
structure Plotter where
  mpl : Bool
  plotly : Bool
  kernel : Bool
  engine : Option String

/-- `engines` (_plotter.py l.81-92) -/
def Plotter.engines (p : Plotter) : List String := (if p.plotly then ["plotly"] else []) ++ (if p.mpl then ["matplotlib"] else [])

/-- What is written or shown. -/
inductive Event where
  | saved (file : String)
  | shown
deriving DecidableEq

/-- The arguments; `ax`, `dpi` and `figSize` tell whether they are given. -/
structure Args where
  file : Option String
  «show» : Bool
  ax : Bool
  dpi : Bool
  figSize : Bool

/-- The effects of a call, and the exception or the value returned: `some true` for a figure, `some false` for `None`. -/
abbrev Result := List Event × Except String Bool

/-- `set_engine` (l.44-71): the new state, or `RuntimeError`.  Without libraries there is only a warning. -/
def setEngine (p : Plotter) (engine : String) : Except String Plotter :=
  if p.mpl || p.plotly then
    if engine ∈ p.engines then .ok { p with engine := some engine } else .error "RuntimeError"
  else .ok p

/-- `_check_incompatible_args_plotly` (l.78-85) -/
def incompatible (a : Args) : Bool := a.dpi || a.figSize || a.ax

/-- `_maybe_output_fig` (l.119-159): effects, and whether `RuntimeError` is raised. -/
def maybeOutput (p : Plotter) (fig : Bool) (a : Args) : List Event × Bool :=
  if !fig then ([], false)
  else if p.engine = some "matplotlib" then
    match a.file with
    | some f => ([.saved f], false)
    | none => if a.show then ([.shown], false) else ([], false)
  else if p.engine = some "plotly" then
    let saved := match a.file with
      | some f => [Event.saved f]
      | none => []
    if a.show then if p.kernel then (saved ++ [.shown], false) else (saved, true) else (saved, false)
  else ([], false)

/-- Output followed by the return of a value. -/
def finish (o : List Event × Bool) (value : Bool) : Result := (o.1, if o.2 then .error "RuntimeError" else .ok value)

/-- Whether the function of the engine has a figure: with matplotlib it is made unless `ax` is given. -/
def hasFigure (p : Plotter) (a : Args) : Bool := if p.engine = some "matplotlib" then !a.ax else true

/-- The functions that output the figure and return it (`plot`, `map`, `scalarplot`, `density`; for `spectrum` and `bands` this happens in the function of the engine). -/
def outputAndReturn (p : Plotter) (a : Args) : Result :=
  if p.engine = some "matplotlib" then finish (maybeOutput p (hasFigure p a) a) (hasFigure p a)
  else if p.engine = some "plotly" then
    if incompatible a then ([], .error "RuntimeError") else finish (maybeOutput p (hasFigure p a) a) (hasFigure p a)
  else ([], .error "RuntimeError")

/-- `streamplot` (l.2544-2562): `_streamplot_matplotlib` outputs the figure (l.2696), and then `streamplot` does it again (l.2562) and returns `None`; there is no version for plotly. -/
def streamOutput (p : Plotter) (a : Args) : Result :=
  if p.engine = some "matplotlib" then
    let o := maybeOutput p (hasFigure p a) a
    finish (o.1 ++ o.1, o.2) false
  else ([], .error "RuntimeError")

/-- A call with valid other arguments. -/
def call (p : Plotter) (f : Func) (a : Args) : Result :=
  match f with
  | .streamplot => streamOutput p a
  | .current => streamOutput p a
  | _ => outputAndReturn p a

/-! ## Specification -/

/-- The output that is documented: a figure is saved if a file is given; otherwise it is shown, unless `show` is false. -/
def wanted (a : Args) : List Event :=
  match a.file, a.show with
  | some f, _ => [.saved f]
  | none, true => [.shown]
  | none, false => []

/-- Arguments that plotly does not support. -/
def Unsupported (a : Args) : Prop := a.dpi = true ∨ a.figSize = true ∨ a.ax = true

/-- The library of an engine can be imported. -/
def Available (p : Plotter) (e : String) : Prop := (e = "matplotlib" ∧ p.mpl = true) ∨ (e = "plotly" ∧ p.plotly = true)

/-- The state is one that importing the module and `set_engine` can produce. -/
def Valid (p : Plotter) : Prop := ∀ e, p.engine = some e → Available p e

/-- Functions for which the documentation is right. -/
def Func.isStream : Func → Bool
  | .streamplot => true
  | .current => true
  | _ => false

/-! ## Proofs -/

theorem mem_engines (p : Plotter) (e : String) : e ∈ p.engines ↔ Available p e := by
  unfold Plotter.engines Available
  cases p.mpl <;> cases p.plotly <;> simp <;> tauto

theorem any_available (p : Plotter) : (p.mpl || p.plotly) = true ↔ ∃ e, Available p e := by
  unfold Available
  cases p.mpl <;> cases p.plotly <;> simp

/-- **C203 (engines).** `set_engine` accepts exactly the engines whose library can be imported, and leaves the engine as it is otherwise; every state that can be reached is valid. -/
theorem C203_engine (p : Plotter) (hv : Valid p) (e : String) :
    (Available p e → setEngine p e = .ok { p with engine := some e }) ∧
      (¬ Available p e → (∃ x, Available p x) → setEngine p e = .error "RuntimeError") ∧ ((¬ ∃ x, Available p x) → setEngine p e = .ok p ∧ p.engine = none) ∧
      ∀ q, setEngine p e = .ok q → Valid q := by
  refine ⟨fun h => ?_, fun h hn => ?_, fun h => ⟨?_, ?_⟩, fun q h => ?_⟩
  · unfold setEngine
    rw [if_pos ((any_available p).mpr ⟨e, h⟩), if_pos ((mem_engines p e).mpr h)]
  · unfold setEngine
    rw [if_pos ((any_available p).mpr hn), if_neg (by rw [mem_engines]; exact h)]
  · unfold setEngine
    rw [if_neg (by rw [any_available]; exact h)]
  · rcases hx : p.engine with _ | x
    · rfl
    · exact absurd ⟨x, hv x hx⟩ h
  · unfold setEngine at h
    split at h
    · split at h
      · rename_i he
        cases h
        intro x hx
        cases hx
        exact (mem_engines p _).mp he
      · cases h
    · cases h
      exact hv

/-- **C203 (matplotlib).** If `ax` is not given, the figure is output exactly once, as documented, and returned; with `ax`, nothing is output and `None` is returned.  (Not for stream plots.) -/
theorem C203_matplotlib (p : Plotter) (he : p.engine = some "matplotlib") (f : Func) (hf : f.isStream = false) (a : Args) :
    call p f a = if a.ax then ([], .ok false) else (wanted a, .ok true) := by
  obtain ⟨file, sh, ax, dpi, fs⟩ := a
  cases f <;> first | exact absurd hf (by decide) | skip
  all_goals cases ax <;> cases file <;> cases sh <;> simp [call, outputAndReturn, he, maybeOutput, hasFigure, finish, wanted]

/-- **C203 (plotly).** In IPython, without the arguments that plotly does not support, the figure is saved if there is a file, shown if `show` is true, and returned; unsupported arguments are refused before
anything is output; outside of IPython, showing a figure is refused, after it has been saved. -/
theorem C203_plotly (p : Plotter) (he : p.engine = some "plotly") (f : Func) (hf : f.isStream = false) (a : Args) :
    (Unsupported a → call p f a = ([], .error "RuntimeError")) ∧
      (¬ Unsupported a → (p.kernel = true ∨ a.show = false) →
        call p f a = ((a.file.toList.map Event.saved) ++ (if a.show then [.shown] else []), .ok true)) ∧
      (¬ Unsupported a → p.kernel = false → a.show = true → call p f a = (a.file.toList.map Event.saved, .error "RuntimeError")) := by
  have hu : incompatible a = true ↔ Unsupported a := by
    unfold incompatible Unsupported
    cases a.dpi <;> cases a.figSize <;> cases a.ax <;> simp
  rw [← hu]
  simp only [Bool.not_eq_true]
  obtain ⟨file, sh, ax, dpi, fs⟩ := a
  cases f <;> first | exact absurd hf (by decide) | skip
  all_goals
    refine ⟨fun h => ?_, fun h hk => ?_, fun h hk hs => ?_⟩
    · simp [call, outputAndReturn, he, h]
    · cases file <;> cases sh <;> simp_all [call, outputAndReturn, maybeOutput, hasFigure, finish]
    · cases file <;> cases sh <;> simp_all [call, outputAndReturn, maybeOutput, hasFigure, finish]

/-- **C203 (no engine).** Without an engine nothing is output, and every function raises an exception. -/
theorem C203_none (p : Plotter) (he : p.engine = none) (f : Func) (a : Args) : call p f a = ([], .error "RuntimeError") := by
  cases f <;> simp [call, outputAndReturn, streamOutput, he]

/-- Stream plots: with `ax`, nothing is output; with plotly they are refused. -/
theorem C203_stream (p : Plotter) (f : Func) (hf : f.isStream = true) (a : Args) :
    (p.engine = some "matplotlib" → a.ax = true → call p f a = ([], .ok false)) ∧ (p.engine = some "plotly" → call p f a = ([], .error "RuntimeError")) := by
  cases f <;> first | exact absurd hf (by decide) | skip
  all_goals
    refine ⟨fun he ha => ?_, fun he => ?_⟩
    · simp [call, streamOutput, he, hasFigure, ha, maybeOutput, finish]
    · simp [call, streamOutput, he]

/-- The documentation of stream plots is wrong for matplotlib, whatever the arguments: the figure is output twice (two images in a file that is open for writing), and it is never returned. -/
theorem C203_counterexample (p : Plotter) (he : p.engine = some "matplotlib") (f : Func) (hf : f.isStream = true) (a : Args) (ha : a.ax = false) :
    call p f a = (wanted a ++ wanted a, .ok false) := by
  obtain ⟨file, sh, ax, dpi, fs⟩ := a
  simp only at ha
  subst ha
  cases f <;> first | exact absurd hf (by decide) | skip
  all_goals cases file <;> cases sh <;> simp [call, streamOutput, he, hasFigure, maybeOutput, finish, wanted]

/-- The hypotheses of the theorems can be met. -/
theorem C203_example :
    let p : Plotter := ⟨true, true, false, some "matplotlib"⟩
    Valid p ∧ call p .density ⟨some "a.pdf", true, false, true, false⟩ = ([.saved "a.pdf"], .ok true) ∧
      call p .current ⟨some "a.pdf", true, false, true, false⟩ = ([.saved "a.pdf", .saved "a.pdf"], .ok false) ∧
      ∃ q, setEngine p "plotly" = .ok q ∧ q.engine = some "plotly" ∧ call q .map ⟨some "a.html", true, false, false, false⟩ = ([.saved "a.html"], .error "RuntimeError") := by
  refine ⟨?_, rfl, rfl, _, rfl, rfl, rfl⟩
  intro e h
  cases h
  exact Or.inl ⟨rfl, rfl⟩

end Kwant.Output
