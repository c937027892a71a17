import Mathlib.Data.Complex.Basic
import Mathlib.Algebra.Module.Basic
import Mathlib.Algebra.Order.Floor.Ring
import Mathlib.Data.Real.Basic
import Mathlib.Data.Real.Archimedean

/-!
Model of kpm.py: `_rescale`, `_VectorFactory`, and the moments of `SpectralDensity` (`__init__`, `add_moments`, `add_vectors`,
`_update_moments_list`).

Simplifications
* Exact arithmetic; vectors are elements of a complex vector space `V`, the Hamiltonian enters through `matvec`.
* Counts given by the user are integers (numbers like 2.5, which are refused too, do not exist here).
* The bounds of the spectrum are given: what the user passed or what `eigsh` returned.
* Functions given by the user (operator, kernel) do not raise.
* Random numbers: the iterable of vectors is arbitrary.
* A call that fails half-way leaves what it has changed: every method returns the new state together with the exception, if any.
-/

set_option linter.unusedSectionVars false

namespace Kwant.Kpm

/-- Exceptions.  `arith`: a division by zero (NumPy gives `inf` or `nan` and a warning). -/
inductive KErr where
  | type
  | value
  | index
  | stopIteration
  | arith
  deriving DecidableEq

section
variable {V W : Type} [AddCommGroup V] [Module ℂ V] [AddCommGroup W]

/-! ### `_rescale` -/

/-- `_rescale` (kpm.py l.1145-1187): the pair `(a, b)`. -/
noncomputable def rescale (eps lmin lmax : ℝ) : Except KErr (ℝ × ℝ) :=
  if 2 - eps = 0 then .error .arith
  else if lmax - lmin ≤ |lmax + lmin| * (eps / 2) / 2 then .error .value
  else .ok (|lmax - lmin| / (2 - eps), (lmax + lmin) / 2)

/-- `rescaled(v)` (kpm.py l.1182-1183) -/
noncomputable def rescaled (ham : V → V) (a b : ℝ) (v : V) : V := (a : ℂ)⁻¹ • (ham v - (b : ℂ) • v)

/-! ### `_VectorFactory` -/

/-- `_VectorFactory` (kpm.py l.850-929).  `source i` is the `i`-th element that the iterator yields (`none`: exhausted),
`pos` how many it has yielded so far, `maxVectors` the length (`none`: `np.inf`), `lastIdx = none`: `-np.inf`. -/
structure Factory (V : Type) where
  source : ℕ → Option V
  pos : ℕ
  maxVectors : Option ℕ
  accumulate : Bool
  saved : List (Option V)
  numVectors : ℕ
  lastIdx : Option ℕ
  lastVector : Option V

/-- `self.num_vectors + num_vectors > self._max_vectors` -/
def Factory.tooMany (f : Factory V) (n : ℤ) : Bool :=
  match f.maxVectors with
  | none => false
  | some m => decide ((f.numVectors : ℤ) + n > m)

/-- `index < self._last_idx` -/
def Factory.passed (f : Factory V) (index : ℕ) : Bool :=
  match f.lastIdx with
  | none => false
  | some l => decide (index < l)

/-- `num_vectors`, or the length of the iterable. -/
def wanted : Option ℤ → Option ℕ → Option ℤ
  | some n, _ => some n
  | none, some l => some (l : ℤ)
  | none, none => none

/-- `_VectorFactory.add_vectors` (kpm.py l.909-929). -/
def Factory.addVectors (f : Factory V) (n : Option ℤ) : Factory V × Option KErr :=
  match n with
  | none => (f, some .value)
  | some n =>
    if n ≤ 0 then (f, some .value)
    else if f.tooMany n then (f, some .value)
    else ({ f with
      numVectors := f.numVectors + n.toNat
      saved := if f.accumulate then f.saved ++ List.replicate n.toNat none else f.saved }, none)

/-- `_VectorFactory.__init__` (kpm.py l.865-886); `len` is the length of the iterable, if it has one. -/
def Factory.init (source : ℕ → Option V) (len : Option ℕ) (numVectors : Option ℤ) (accumulate : Bool) : Except KErr (Factory V) :=
  match wanted numVectors len with
  | none => .error .value
  | some n =>
    match (Factory.mk source 0 len accumulate [] 0 none none).addVectors (some n) with
    | (f, none) => .ok f
    | (_, some e) => .error e

/-- `next(self._iterator)` -/
def Factory.next (f : Factory V) : Factory V × Except KErr V :=
  match f.source f.pos with
  | some v => ({ f with pos := f.pos + 1 }, .ok v)
  | none => (f, .error .stopIteration)

/-- `_fill_in_saved_vectors` and `__getitem__` (kpm.py l.888-907). -/
def Factory.get (f : Factory V) (index : ℕ) : Factory V × Except KErr V :=
  if f.passed index && !f.accumulate then (f, .error .value)
  else if f.numVectors ≤ index then (f, .error .index)
  else
    let f1 := { f with lastIdx := some index }
    if f.accumulate then
      match f.saved.getD index none with
      | some v => (f1, .ok v)
      | none =>
        match f1.next with
        | (f2, .ok v) => ({ f2 with saved := f2.saved.set index (some v) }, .ok v)
        | (f2, .error e) => (f2, .error e)
    else
      match f1.next with
      | (f2, .ok v) => ({ f2 with lastVector := some v }, .ok v)
      | (f2, .error e) => (f2, .error e)

/-! ### Moments -/

/-- `self.operator`: `None`, where `dot` is `np.vdot`, or a function of bra and ket. -/
inductive OpKind (V W : Type) where
  | dos (dot : V → V → W)
  | op (f : V → V → W)

/-- The variables `alpha`, `alpha_next`, `one_moment`. -/
structure Iter (V W : Type) where
  alpha : V
  next : V
  mom : List W

/-- `alpha_save = alpha_next; alpha_next = 2 * matvec(alpha_next) - alpha; alpha = alpha_save` (kpm.py l.465-468, l.480-483) -/
def Iter.step (h : V → V) (s : Iter V W) : Iter V W := ⟨s.next, (2 : ℂ) • h s.next - s.alpha, s.mom⟩

/-- Body of the loop without operator (kpm.py l.465-473). -/
def dosBody (h : V → V) (dot : V → V → W) (s : Iter V W) (n : ℕ) : Iter V W :=
  let s1 := s.step h
  let m1 := s1.mom.set (2 * n) ((2 : ℕ) • dot s1.alpha s1.alpha - s1.mom.getD 0 0)
  { s1 with mom := m1.set (2 * n + 1) ((2 : ℕ) • dot s1.next s1.alpha - m1.getD 1 0) }

/-- Body of the loop with an operator (kpm.py l.480-484). -/
def opBody (h : V → V) (f : V → V → W) (v0 : V) (s : Iter V W) (n : ℕ) : Iter V W :=
  let s1 := s.step h
  { s1 with mom := s1.mom.set n (f v0 s1.next) }

/-- `for n in range(lo, hi)` -/
def forRange {σ : Type} (lo hi : ℕ) (body : σ → ℕ → σ) (s : σ) : σ := (List.range' lo (hi - lo)).foldl body s

/-- The loops over the moments (kpm.py l.463-484). -/
def iterate (h : V → V) (k : OpKind V W) (v0 : V) (mStart nMoments : ℕ) (s : Iter V W) : Iter V W :=
  match k with
  | .dos dot =>
    let s1 := forRange (mStart / 2) (nMoments / 2) (dosBody h dot) s
    if nMoments % 2 = 1 then
      { s1 with mom := s1.mom.set (nMoments - 1) ((2 : ℕ) • dot s1.next s1.next - s1.mom.getD 0 0) }
    else s1
  | .op f => forRange mStart nMoments (opBody h f v0) s

/-- `np.vdot(bra, ket)` or `self.operator(bra, ket)` -/
def OpKind.val : OpKind V W → V → V → W
  | .dos dot => dot
  | .op f => f

/-- `SpectralDensity`, as far as the moments are concerned. -/
structure SD (V W : Type) where
  ham : V → V
  kind : OpKind V W
  a : ℝ
  b : ℝ
  factory : Factory V
  numMoments : ℕ
  moments : List (List W)
  last : List (V × V)

/-- `num_vectors` (kpm.py l.259-261) -/
def SD.numVectors (s : SD V W) : ℕ := s.moments.length

/-- The body of the loop over the vectors after `alpha_zero` has been obtained (kpm.py l.439-484).  `newVectors`: whether
`new_vectors > 0`, otherwise `new_moments > 0`. -/
noncomputable def SD.calc (s : SD V W) (v0 : V) (r mStart nMoments : ℕ) (newVectors : Bool) : Except KErr (Iter V W) :=
  let h := rescaled s.ham s.a s.b
  if newVectors then
    if nMoments < 2 then .error .index
    else .ok (iterate h s.kind v0 mStart nMoments
      ⟨v0, h v0, ((List.replicate nMoments 0).set 0 (s.kind.val v0 v0)).set 1 (s.kind.val v0 (h v0))⟩)
  else
    .ok (iterate h s.kind v0 mStart nMoments
      ⟨(s.last.getD r (0, 0)).1, (s.last.getD r (0, 0)).2, s.moments.getD r [] ++ List.replicate (nMoments - s.numMoments) 0⟩)

/-- The loop over the vectors (kpm.py l.436-490). -/
noncomputable def SD.loop (mStart nMoments : ℕ) (newVectors : Bool) : SD V W → List ℕ → SD V W × Option KErr
  | s, [] => (s, none)
  | s, r :: rs =>
    match s.factory.get r with
    | (f, .error e) => ({ s with factory := f }, some e)
    | (f, .ok v0) =>
      match { s with factory := f }.calc v0 r mStart nMoments newVectors with
      | .error e => ({ s with factory := f }, some e)
      | .ok it => SD.loop mStart nMoments newVectors
          { s with
            factory := f
            moments := s.moments.set r it.mom
            last := if f.accumulate then s.last.set r (it.alpha, it.next) else s.last } rs

/-- `_update_moments_list` (kpm.py l.390-490).  The placeholder `0.` of a new vector is an empty list. -/
noncomputable def SD.update (s : SD V W) (nMoments numVectors : ℕ) : SD V W × Option KErr :=
  if numVectors < s.numVectors then (s, some .value)
  else
    let rStart := if s.numVectors = numVectors then 0 else s.numVectors
    let newVectors := numVectors - s.numVectors
    let s1 := { s with
      moments := s.moments ++ List.replicate newVectors []
      last := s.last ++ List.replicate newVectors (0, 0) }
    if nMoments = s.numMoments then
      if newVectors = 0 then (s1, none)
      else s1.loop 2 nMoments true (List.range' rStart (numVectors - rStart))
    else if s.factory.accumulate = false then (s1, some .value)
    else if nMoments < s.numMoments then (s1, some .value)
    else if newVectors ≠ 0 then (s1, some .value)
    else s1.loop s.numMoments nMoments false (List.range' rStart (numVectors - rStart))

/-- `math.ceil((1.6 * self._a) / energy_resolution)` -/
noncomputable def momentsFor (a er : ℝ) : ℤ := ⌈1.6 * a / er⌉

/-- The number of moments in `__init__` (kpm.py l.168-170, l.215-221). -/
noncomputable def initMoments (a : ℝ) (numMoments : Option ℤ) (er : Option ℝ) : Except KErr ℕ :=
  if numMoments.getD 0 ≠ 0 ∧ er.getD 0 ≠ 0 then .error .type
  else
    let n := if er.getD 0 ≠ 0 then momentsFor a (er.getD 0) else numMoments.getD 100
    if n ≤ 0 then .error .value else .ok n.toNat

/-- `SpectralDensity.__init__` up to the moments (kpm.py l.163-247). -/
noncomputable def SD.init (ham : V → V) (kind : OpKind V W) (eps lmin lmax : ℝ) (numMoments : Option ℤ) (er : Option ℝ)
    (source : ℕ → Option V) (len : Option ℕ) (numVectors : Option ℤ) (accumulate : Bool) : Except KErr (SD V W) :=
  if numMoments.getD 0 ≠ 0 ∧ er.getD 0 ≠ 0 then .error .type
  else if eps ≤ 0 then .error .value
  else
    match rescale eps lmin lmax with
    | .error e => .error e
    | .ok (a, b) =>
      match initMoments a numMoments er with
      | .error e => .error e
      | .ok n =>
        match Factory.init source len numVectors accumulate with
        | .error e => .error e
        | .ok f =>
          match (SD.mk ham kind a b f n [] []).update n f.numVectors with
          | (s, none) => .ok s
          | (_, some e) => .error e

/-- `add_moments` (kpm.py l.318-358). -/
noncomputable def SD.addMoments (s : SD V W) (numMoments : Option ℤ) (er : Option ℝ) : SD V W × Option KErr :=
  if numMoments.isSome = er.isSome then (s, some .type)
  else if er.getD 0 ≠ 0 ∧ er.getD 0 ≤ 0 then (s, some .value)
  else if er.getD 0 ≠ 0 ∧ s.a * 1.6 / s.numMoments < er.getD 0 then (s, some .value)
  else
    match (if er.getD 0 ≠ 0 then some (momentsFor s.a (er.getD 0)) else numMoments) with
    | none => (s, some .value)
    | some n =>
      if n ≤ 0 then (s, some .value)
      else
        match s.update (s.numMoments + n.toNat) s.numVectors with
        | (s1, none) => ({ s1 with numMoments := s.numMoments + n.toNat }, none)
        | (s1, some e) => (s1, some e)

/-- `add_vectors` (kpm.py l.360-376). -/
noncomputable def SD.addVectors (s : SD V W) (numVectors : Option ℤ) : SD V W × Option KErr :=
  match s.factory.addVectors numVectors with
  | (f, some e) => ({ s with factory := f }, some e)
  | (f, none) =>
    { s with factory := f }.update s.numMoments (s.numVectors + (f.numVectors - s.numVectors))

end
end Kwant.Kpm
