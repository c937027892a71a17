import Mathlib.Data.List.Basic
import Mathlib.Tactic.Common

/-!
C195: leads given by user functions (`SelfEnergyLead`, `ModesLead`), and the decorator `deprecate_parameter`.

Modelled: kwant/builder.py l.603-685, kwant/_common.py l.47-83, and the rules by which Python binds the arguments of a call to the parameters of a function.
-/

namespace Kwant.Call

/-! ### Python calls -/

/-- `inspect.Parameter.kind` -/
inductive Kind | posOnly | posOrKw | varPos | kwOnly | varKw
  deriving DecidableEq

/-- A parameter of a Python function; `V` is the type of Python objects. -/
structure Param (V : Type) where
  name : String
  kind : Kind
  default : Option V := none

/-- What a parameter is bound to: an object, the tuple of a `*args`, the dictionary of a `**kwargs`. -/
inductive Arg (V : Type)
  | one (v : V)
  | tuple (l : List V)
  | dict (l : List (String × V))

/-- `TypeError`s of a call, and whatever the body raises. -/
inductive Err | typeError | raised (code : ℕ)
  deriving DecidableEq

variable {V R : Type}

def lookup (kw : List (String × V)) (n : String) : Option V := (kw.find? fun p => p.1 == n).map Prod.snd

def remove (kw : List (String × V)) (n : String) : List (String × V) := kw.filter fun p => p.1 != n

/-- The rules of Python for binding the arguments of a call, as in `inspect.Signature.bind` (whose `arguments` is the result: the explicitly bound parameters only).  `none` is `TypeError`.
The parameters come in the order in which Python requires them (`*args` before keyword-only parameters, `**kwargs` last); keyword arguments are distinct. -/
def bind : List (Param V) → List V → List (String × V) → Option (List (String × Arg V))
  | [], args, kw => if args.isEmpty && kw.isEmpty then some [] else none
  | p :: ps, args, kw =>
    match p.kind with
    | .posOnly => match args with
      | v :: args => (bind ps args kw).map fun b => (p.name, .one v) :: b
      | [] => if p.default.isSome then bind ps [] kw else none
    | .posOrKw => match args with
      | v :: args => if (lookup kw p.name).isSome then none else (bind ps args kw).map fun b => (p.name, .one v) :: b
      | [] => match lookup kw p.name with
        | some v => (bind ps [] (remove kw p.name)).map fun b => (p.name, .one v) :: b
        | none => if p.default.isSome then bind ps [] kw else none
    | .varPos => (bind ps [] kw).map fun b => if args.isEmpty then b else (p.name, .tuple args) :: b
    | .kwOnly => match lookup kw p.name with
      | some v => (bind ps args (remove kw p.name)).map fun b => (p.name, .one v) :: b
      | none => if p.default.isSome then bind ps args kw else none
    | .varKw => (bind ps args []).map fun b => if kw.isEmpty then b else (p.name, .dict kw) :: b

/-- The bound argument with the given name (`BoundArguments.arguments.get(name)`). -/
def argument (b : List (String × Arg V)) (n : String) : Option (Arg V) := (b.find? fun p => p.1 == n).map Prod.snd

/-- The local variables at the begin of the body: bound arguments, and the defaults of the others. -/
def locals (ps : List (Param V)) (b : List (String × Arg V)) : List (String × Arg V) :=
  ps.map fun p => (p.name, match argument b p.name with
    | some a => a
    | none => match p.kind, p.default with
      | .varPos, _ => .tuple []
      | .varKw, _ => .dict []
      | _, some d => .one d
      | _, none => .tuple [])

/-- What a call does: number of deprecation warnings, and the returned object or the exception. -/
abbrev Outcome (R : Type) := ℕ × Except Err R

/-- A Python function: its signature, and its body as a function of the local variables. -/
structure Func (V R : Type) where
  sig : List (Param V)
  body : List (String × Arg V) → Outcome R

/-- A call `f(*args, **kw)`. -/
def Func.call (f : Func V R) (args : List V) (kw : List (String × V)) : Outcome R :=
  match bind f.sig args kw with
  | none => (0, .error .typeError)
  | some b => f.body (locals f.sig b)

/-- What the model needs to know about Python objects. -/
structure Py (V : Type) where
  none_ : V
  unit_ : V
  truthy : V → Bool
  none_false : truthy none_ = false
  unit_false : truthy unit_ = false

def Py.truthyArg (py : Py V) : Arg V → Bool
  | .one v => py.truthy v
  | .tuple l => !l.isEmpty
  | .dict l => !l.isEmpty

/-- Something that can be called and inspected: `inspect.signature` of a function decorated with `functools.wraps` is the one of the wrapped function. -/
structure Callable (V R : Type) where
  sig : List (Param V)
  call : List V → List (String × V) → Outcome R

def Func.callable (f : Func V R) : Callable V R := ⟨f.sig, f.call⟩

/-! ### The modelled code -/

/-- `deprecate_parameter(name)(f)` (_common.py l.47-78): the warning is issued if the named argument is given and truthy. -/
def deprecateParameter (py : Py V) (name : String) (f : Callable V R) : Callable V R :=
  ⟨f.sig, fun args kw =>
    match bind f.sig args kw with
    | none => (0, .error .typeError)
    | some b =>
      let w := match argument b name with
        | some a => py.truthyArg a
        | none => false
      let o := f.call args kw
      ((if w then 1 else 0) + o.1, o.2)⟩

/-- A local variable that is a single object (`()` if there is none: does not happen for the signatures below). -/
def var (py : Py V) (l : List (String × Arg V)) (n : String) : V :=
  match argument l n with
  | some (.one v) => v
  | _ => py.unit_

/-- The parameters `energy, args=(), *, params=None` (builder.py l.618, 648, 679; the bound method has no `self`). -/
def leadSig (py : Py V) : List (Param V) := [⟨"energy", .posOrKw, none⟩, ⟨"args", .posOrKw, some py.unit_⟩, ⟨"params", .kwOnly, some py.none_⟩]

/-- `_ensure_signature` (builder.py l.603-620). -/
def ensureSignature (py : Py V) (f : Callable V R) : Callable V R :=
  let hasParams := f.sig.any fun p => p.name == "params"
  let hasKwargs := f.sig.any fun p => p.kind == .varKw
  if hasParams || hasKwargs then f
  else deprecateParameter py "args" (Func.callable ⟨leadSig py, fun l => f.call [var py l "energy", var py l "args"] []⟩)

/-- `SelfEnergyLead(f, ...).selfenergy` and `ModesLead(f, ...).modes` (builder.py l.636-649, 667-680). -/
def leadMethod (py : Py V) (f : Callable V R) : Callable V R :=
  deprecateParameter py "args" (Func.callable ⟨leadSig py, fun l => (ensureSignature py f).call [var py l "energy", var py l "args"] [("params", var py l "params")]⟩)

/-- `ModesLead(f, ...).selfenergy` (builder.py l.682-685); `sigma` is `StabilizedModes.selfenergy` of the second component. -/
def modesSelfenergy {P S T : Type} (py : Py V) (f : Callable V (P × S)) (sigma : S → Except Err T) : Callable V T :=
  deprecateParameter py "args" (Func.callable ⟨leadSig py, fun l =>
    let o := (leadMethod py f).call [var py l "energy", var py l "args"] [("params", var py l "params")]
    (o.1, o.2.bind fun m => sigma m.2)⟩)

/-! ### Properties -/

open Classical in
/-- The decorator changes neither results nor errors, for all ways to call the function; it adds one warning, and does so exactly if the named argument has been given and is truthy. -/
theorem C195_deprecate (py : Py V) (name : String) (f : Func V R) (args : List V) (kw : List (String × V)) :
    ((deprecateParameter py name f.callable).call args kw).2 = (f.call args kw).2 ∧
    ((deprecateParameter py name f.callable).call args kw).1 =
      (f.call args kw).1 + (if ∃ b a, bind f.sig args kw = some b ∧ argument b name = some a ∧ py.truthyArg a = true then 1 else 0) := by
  cases hb : bind f.sig args kw with
  | none => simp [deprecateParameter, Func.callable, Func.call, hb]
  | some b =>
    simp only [deprecateParameter, Func.callable, hb, Option.some.injEq, true_and]
    rw [Nat.add_comm]
    congr 1
    cases ha : argument b name with
    | none => simp [ha]
    | some a => simp [ha]

/-- The two forms of a call with the documented signature that users and the solvers write. -/
theorem bind_lead (py : Py V) (e a p : V) : bind (leadSig py) [e, a] [("params", p)] = some [("energy", .one e), ("args", .one a), ("params", .one p)] := by
  simp [bind, leadSig, lookup, remove]

theorem locals_lead (py : Py V) (e a p : V) : locals (leadSig py) [("energy", .one e), ("args", .one a), ("params", .one p)] = [("energy", .one e), ("args", .one a), ("params", .one p)] := by
  simp [locals, leadSig, argument]

theorem lead_call (py : Py V) (body : List (String × Arg V) → Outcome R) (e a p : V) :
    (deprecateParameter py "args" (Func.callable ⟨leadSig py, body⟩)).call [e, a] [("params", p)] =
      ((if py.truthy a then 1 else 0) + (body [("energy", .one e), ("args", .one a), ("params", .one p)]).1, (body [("energy", .one e), ("args", .one a), ("params", .one p)]).2) := by
  simp [deprecateParameter, Func.callable, Func.call, bind_lead, locals_lead, argument, Py.truthyArg]

theorem method_call (py : Py V) (f : Callable V R) (e a p : V) : (leadMethod py f).call [e, a] [("params", p)] =
    ((if py.truthy a then 1 else 0) + ((ensureSignature py f).call [e, a] [("params", p)]).1, ((ensureSignature py f).call [e, a] [("params", p)]).2) := by
  rw [leadMethod, lead_call]
  simp [var, argument]

/-- Whoever accepts a keyword argument has a parameter of this name, or `**kwargs`. -/
theorem accepts_keyword (n : String) : ∀ (ps : List (Param V)) (args : List V) (kw : List (String × V)), (lookup kw n).isSome → bind ps args kw ≠ none →
    (∃ p ∈ ps, p.name = n ∧ (p.kind = .posOrKw ∨ p.kind = .kwOnly)) ∨ ∃ p ∈ ps, p.kind = .varKw := by
  intro ps
  induction ps with
  | nil =>
    intro args kw h1 h2
    rcases kw with _ | ⟨x, kw⟩
    · simp [lookup] at h1
    · simp [bind] at h2
  | cons p ps ih =>
    intro args kw h1 h2
    have lift : ((∃ p ∈ ps, p.name = n ∧ (p.kind = .posOrKw ∨ p.kind = .kwOnly)) ∨ ∃ p ∈ ps, p.kind = .varKw) →
        (∃ q ∈ p :: ps, q.name = n ∧ (q.kind = .posOrKw ∨ q.kind = .kwOnly)) ∨ ∃ q ∈ p :: ps, q.kind = .varKw := by
      rintro (⟨q, hq, h⟩ | ⟨q, hq, h⟩)
      · exact .inl ⟨q, List.mem_cons_of_mem _ hq, h⟩
      · exact .inr ⟨q, List.mem_cons_of_mem _ hq, h⟩
    have keep : ∀ m, m ≠ n → (lookup (remove kw m) n).isSome := by
      intro m hm
      rw [lookup, remove, Option.isSome_map, List.find?_filter, List.find?_isSome]
      rw [lookup, Option.isSome_map, List.find?_isSome] at h1
      obtain ⟨x, hx, hxn⟩ := h1
      refine ⟨x, hx, ?_⟩
      have : x.1 = n := by simpa using hxn
      simp [this, Ne.symm hm]
    have none_map : ∀ {α β : Type} {g : α → β} {x : Option α}, x.map g ≠ none → x ≠ none := by
      intro α β g x h e
      exact h (by rw [e]; rfl)
    cases hk : p.kind with
    | posOnly =>
      rw [bind.eq_def] at h2
      simp only [hk] at h2
      rcases args with _ | ⟨v, args⟩
      · simp only at h2
        split_ifs at h2
        · exact lift (ih _ _ h1 h2)
        · exact absurd rfl h2
      · simp only at h2
        exact lift (ih _ _ h1 (none_map h2))
    | posOrKw =>
      by_cases hn : p.name = n
      · exact .inl ⟨p, by simp, hn, .inl hk⟩
      rw [bind.eq_def] at h2
      simp only [hk] at h2
      rcases args with _ | ⟨v, args⟩
      · simp only at h2
        cases hl : lookup kw p.name with
        | none =>
          rw [hl] at h2
          simp only at h2
          split_ifs at h2
          · exact lift (ih _ _ h1 h2)
          · exact absurd rfl h2
        | some v =>
          rw [hl] at h2
          exact lift (ih _ _ (keep _ hn) (none_map h2))
      · simp only at h2
        split_ifs at h2
        · exact absurd rfl h2
        · exact lift (ih _ _ h1 (none_map h2))
    | varPos =>
      rw [bind.eq_def] at h2
      simp only [hk] at h2
      exact lift (ih _ _ h1 (none_map h2))
    | kwOnly =>
      by_cases hn : p.name = n
      · exact .inl ⟨p, by simp, hn, .inr hk⟩
      rw [bind.eq_def] at h2
      simp only [hk] at h2
      cases hl : lookup kw p.name with
      | none =>
        rw [hl] at h2
        simp only at h2
        split_ifs at h2
        · exact lift (ih _ _ h1 h2)
        · exact absurd rfl h2
      | some v =>
        rw [hl] at h2
        exact lift (ih _ _ (keep _ hn) (none_map h2))
    | varKw => exact .inr ⟨p, by simp, hk⟩

/-- C195, current API: if the function can be called as `f(energy, args, params=params)`, then this is the call that is made. -/
theorem C195_new (py : Py V) (f : Callable V R) (e a p : V) (h : bind f.sig [e, a] [("params", p)] ≠ none) :
    ((leadMethod py f).call [e, a] [("params", p)]).2 = (f.call [e, a] [("params", p)]).2 ∧
    ((leadMethod py f).call [e, a] [("params", p)]).1 = (f.call [e, a] [("params", p)]).1 + if py.truthy a then 1 else 0 := by
  have hs : ensureSignature py f = f := by
    have h1 := accepts_keyword "params" f.sig [e, a] [("params", p)] (by simp [lookup]) h
    rw [ensureSignature]
    refine if_pos ?_
    rcases h1 with ⟨q, hq, hn, _⟩ | ⟨q, hq, hk⟩
    · have : (f.sig.any fun p => p.name == "params") = true := List.any_eq_true.mpr ⟨q, hq, by simp [hn]⟩
      rw [this, Bool.true_or]
    · have : (f.sig.any fun p => p.kind == .varKw) = true := List.any_eq_true.mpr ⟨q, hq, by simp [hk]⟩
      rw [this, Bool.or_true]
  rw [method_call, hs]
  exact ⟨rfl, Nat.add_comm _ _⟩

/-- C195, old API: a function without a parameter `params` and without `**kwargs` is called as `f(energy, args)`, whatever `params` are. -/
theorem C195_old (py : Py V) (f : Callable V R) (e a p : V) (h : ∀ q ∈ f.sig, q.name ≠ "params" ∧ q.kind ≠ .varKw) :
    ((leadMethod py f).call [e, a] [("params", p)]).2 = (f.call [e, a] []).2 ∧
    ((leadMethod py f).call [e, a] [("params", p)]).1 = (f.call [e, a] []).1 + if py.truthy a then 2 else 0 := by
  have hs : ¬ (((f.sig.any fun p => p.name == "params") || f.sig.any fun p => p.kind == .varKw) = true) := by
    rw [Bool.or_eq_true, List.any_eq_true, List.any_eq_true]
    rintro (⟨q, hq, hn⟩ | ⟨q, hq, hn⟩)
    · exact (h q hq).1 (by simpa using hn)
    · exact (h q hq).2 (by simpa using hn)
  have hc : (ensureSignature py f).call [e, a] [("params", p)] = ((if py.truthy a then 1 else 0) + (f.call [e, a] []).1, (f.call [e, a] []).2) := by
    rw [ensureSignature, if_neg hs, lead_call]
    simp [var, argument]
  rw [method_call, hc]
  refine ⟨rfl, ?_⟩
  simp only
  split_ifs <;> omega

/-- C195: a function with the documented signature gets exactly the arguments of the call. -/
theorem C195_documented (py : Py V) (body : List (String × Arg V) → Outcome R) (e a p : V) :
    ((leadMethod py (Func.callable ⟨leadSig py, body⟩)).call [e, a] [("params", p)]).2 = (body [("energy", .one e), ("args", .one a), ("params", .one p)]).2 := by
  rw [(C195_new py _ e a p (by rw [show (Func.callable ⟨leadSig py, body⟩).sig = leadSig py from rfl, bind_lead]; simp)).1]
  simp [Func.callable, Func.call, bind_lead, locals_lead]

/-- C195: the other ways to call the method are equivalent to `lead.selfenergy(energy, args, params=params)` with the defaults `()` and `None`. -/
theorem C195_defaults (py : Py V) (f : Callable V R) (e a p : V) :
    (leadMethod py f).call [e] [] = (leadMethod py f).call [e, py.unit_] [("params", py.none_)] ∧
    (leadMethod py f).call [e] [("params", p)] = (leadMethod py f).call [e, py.unit_] [("params", p)] ∧
    (leadMethod py f).call [e, a] [] = (leadMethod py f).call [e, a] [("params", py.none_)] ∧
    (leadMethod py f).call [] [("energy", e), ("params", p)] = (leadMethod py f).call [e, py.unit_] [("params", p)] ∧
    (leadMethod py f).call [] [("params", p), ("energy", e)] = (leadMethod py f).call [e, py.unit_] [("params", p)] ∧
    (leadMethod py f).call [e] [("args", a), ("params", p)] = (leadMethod py f).call [e, a] [("params", p)] ∧
    (leadMethod py f).call [e, a, p] [] = (0, .error .typeError) := by
  refine ⟨?_, ?_, ?_, ?_, ?_, ?_, ?_⟩ <;>
    simp [leadMethod, deprecateParameter, Func.callable, Func.call, bind, leadSig, lookup, remove, locals, argument, var, Py.truthyArg, py.unit_false]

/-- C195: exactly which functions can be used for leads. -/
theorem C195_accepts (py : Py V) (f : Func V R) (e a p : V) :
    ((leadMethod py f.callable).call [e, a] [("params", p)]).2 =
      if bind f.sig [e, a] [("params", p)] ≠ none then (f.call [e, a] [("params", p)]).2
      else if (∀ q ∈ f.sig, q.name ≠ "params" ∧ q.kind ≠ .varKw) then (f.call [e, a] []).2
      else .error .typeError := by
  split_ifs with h1 h2
  · exact (C195_new py f.callable e a p h1).1
  · exact (C195_old py f.callable e a p h2).1
  · have hs : ensureSignature py f.callable = f.callable := by
      rw [ensureSignature]
      refine if_pos ?_
      by_contra hc
      refine h2 fun q hq => ⟨fun hn => hc ?_, fun hk => hc ?_⟩
      · have : (f.callable.sig.any fun p => p.name == "params") = true := List.any_eq_true.mpr ⟨q, hq, by simp [hn]⟩
        rw [this, Bool.true_or]
      · have : (f.callable.sig.any fun p => p.kind == .varKw) = true := List.any_eq_true.mpr ⟨q, hq, by simp [hk]⟩
        rw [this, Bool.or_true]
    rw [method_call, hs]
    simp only [ne_eq, not_not] at h1
    simp [Func.callable, Func.call, h1]

/-- C195: the methods of a lead can be given to another lead; nothing changes but the number of warnings. -/
theorem C195_rewrap (py : Py V) (f : Callable V R) (e a p : V) :
    ((leadMethod py (leadMethod py f)).call [e, a] [("params", p)]).2 = ((leadMethod py f).call [e, a] [("params", p)]).2 :=
  (C195_new py (leadMethod py f) e a p (by rw [show (leadMethod py f).sig = leadSig py from rfl, bind_lead]; simp)).1

/-- C195: the self-energy of a `ModesLead` is the one of its stabilized modes, for the same arguments; errors of the function are passed on. -/
theorem C195_modes_selfenergy {P S T : Type} (py : Py V) (f : Callable V (P × S)) (sigma : S → Except Err T) (e a p : V) :
    (∀ m, ((leadMethod py f).call [e, a] [("params", p)]).2 = .ok m → ((modesSelfenergy py f sigma).call [e, a] [("params", p)]).2 = sigma m.2) ∧
    ∀ x, ((leadMethod py f).call [e, a] [("params", p)]).2 = .error x → ((modesSelfenergy py f sigma).call [e, a] [("params", p)]).2 = .error x := by
  have h : ((modesSelfenergy py f sigma).call [e, a] [("params", p)]).2 = ((leadMethod py f).call [e, a] [("params", p)]).2.bind fun m => sigma m.2 := by
    rw [modesSelfenergy, lead_call]
    simp [var, argument]
  rw [h]
  constructor
  · intro m hm
    rw [hm]; rfl
  · intro x hx
    rw [hx]; rfl

/-! ### Examples -/

/-- Objects are numbers; 0 is `None` and `()`. -/
def exPy : Py ℕ := ⟨0, 0, (· != 0), rfl, rfl⟩

/-- `lambda energy, args: (energy, args)` -/
def exOld : Func ℕ (List ℕ) := ⟨[⟨"energy", .posOrKw, none⟩, ⟨"args", .posOrKw, none⟩], fun l => (0, .ok [var exPy l "energy", var exPy l "args"])⟩

/-- `lambda energy, *a, **kw: (energy, a[0], kw['params'])` -/
def exNew : Func ℕ (List ℕ) := ⟨[⟨"energy", .posOrKw, none⟩, ⟨"a", .varPos, none⟩, ⟨"kw", .varKw, none⟩], fun l => (0, .ok (var exPy l "energy" :: (match argument l "a" with | some (.tuple t) => t | _ => []) ++
  match argument l "kw" with | some (.dict d) => d.map Prod.snd | _ => []))⟩

theorem C195_example : (leadMethod exPy exNew.callable).call [7, 0] [("params", 9)] = (0, .ok [7, 0, 9]) ∧ (leadMethod exPy exOld.callable).call [7, 5] [("params", 9)] = (2, .ok [7, 5]) ∧
    (leadMethod exPy exNew.callable).call [7] [] = (0, .ok [7, 0, 0]) := by
  refine ⟨?_, ?_, ?_⟩ <;> rfl

/-- A function of the old API whose second parameter happens to be called `params`: `def f(energy, params)`.  It can be called as `f(energy, args)`, but the methods of the lead raise `TypeError`, whatever the arguments
are.  The same for `def f(energy, args, *params)`. -/
def ctOld (V : Type) (R : Type) (g : List (String × Arg V) → Outcome R) : Func V R := ⟨[⟨"energy", .posOrKw, none⟩, ⟨"params", .posOrKw, none⟩], g⟩
def ctStar (V : Type) (R : Type) (g : List (String × Arg V) → Outcome R) : Func V R := ⟨[⟨"energy", .posOrKw, none⟩, ⟨"args", .posOrKw, none⟩, ⟨"params", .varPos, none⟩], g⟩

theorem C195_counterexample (py : Py V) (g : List (String × Arg V) → Outcome R) (e a p : V) :
    (ctOld V R g).call [e, a] [] = g [("energy", .one e), ("params", .one a)] ∧ ((leadMethod py (ctOld V R g).callable).call [e, a] [("params", p)]).2 = .error .typeError ∧
    (ctStar V R g).call [e, a] [] = g [("energy", .one e), ("args", .one a), ("params", .tuple [])] ∧ ((leadMethod py (ctStar V R g).callable).call [e, a] [("params", p)]).2 = .error .typeError := by
  refine ⟨?_, ?_, ?_, ?_⟩
  · simp [ctOld, Func.call, bind, lookup, locals, argument]
  · rw [C195_accepts]
    simp [ctOld, bind, lookup]
  · simp [ctStar, Func.call, bind, lookup, locals, argument]
  · rw [C195_accepts]
    simp [ctStar, bind, lookup]

end Kwant.Call
