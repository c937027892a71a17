import Verif.Final.Lemmas

/-!
Model of `FiniteSystem.precalculate`, `PrecalculatedLead` (system.py l.148-202, l.414-452) and of the treatment of broken
symmetries in `InfiniteSystem.modes` (system.py l.320-345).

Simplifications
* `energy, args, params` are one query `Q`.  A lead is an object that may lack the method `modes` or `selfenergy`
  (`AttributeError`); the methods are pure and may raise.
* `modes` returns a pair (always true in a boolean context); `stab.selfenergy()` is `stabSE`.
* The self-energy is never `None`.
-/

namespace Kwant.System
open Kwant Kwant.Assoc Kwant.Final

section Precalculate
variable {Q P St Sg E Nm : Type}

inductive LErr (E : Type) where
  | value
  | attribute
  | user (e : E)
deriving DecidableEq

/-- Lead objects: any object with methods, or a `PrecalculatedLead` (system.py l.414-452). -/
inductive Lead (Q P St Sg E Nm : Type) where
  | obj (modes : Option (Q → Except E (P × St))) (selfenergy : Option (Q → Except E Sg)) (parameters : List Nm)
  | pre (modes : Option (P × St)) (selfenergy : Option Sg)

/-- `lead.modes(energy, args, params=params)` (system.py l.436-442 for precalculated leads). -/
def Lead.modes : Lead Q P St Sg E Nm → Q → Except (LErr E) (P × St)
  | .obj (some f) _ _, q =>
    match f q with
    | .ok m => .ok m
    | .error e => .error (.user e)
  | .obj none _ _, _ => .error .attribute
  | .pre (some m) _, _ => .ok m
  | .pre none _, _ => .error .value

/-- `lead.selfenergy(energy, args, params=params)` (system.py l.444-450 for precalculated leads). -/
def Lead.selfenergy : Lead Q P St Sg E Nm → Q → Except (LErr E) Sg
  | .obj _ (some f) _, q =>
    match f q with
    | .ok m => .ok m
    | .error e => .error (.user e)
  | .obj _ none _, _ => .error .attribute
  | .pre _ (some m), _ => .ok m
  | .pre _ none, _ => .error .value

/-- `lead.parameters` (system.py l.434). -/
def Lead.parameters : Lead Q P St Sg E Nm → List Nm
  | .obj _ _ ps => ps
  | .pre _ _ => []

variable (stabSE : St → Sg)

/-- The loop body for a listed lead: `modes` (system.py l.189-191). -/
def preModes (what : String) (q : Q) (lead : Lead Q P St Sg E Nm) : Except (LErr E) (Option (P × St)) :=
  if what = "modes" ∨ what = "all" then (lead.modes q).map some else .ok none

/-- The loop body for a listed lead: `selfenergy` (system.py l.192-196). -/
def preSelf (what : String) (q : Q) (lead : Lead Q P St Sg E Nm) (modes : Option (P × St)) :
    Except (LErr E) (Option Sg) :=
  if what = "selfenergy" ∨ what = "all" then
    match modes with
    | some m => .ok (some (stabSE m.2))
    | none => (lead.selfenergy q).map some
  else .ok none

/-- `PrecalculatedLead(modes, selfenergy)` (system.py l.415-431). -/
def mkPre (modes : Option (P × St)) (se : Option Sg) : Except (LErr E) (Lead Q P St Sg E Nm) :=
  match modes, se with
  | none, none => .error .value
  | m, s => .ok (.pre m s)

/-- One round of the loop (system.py l.184-197). -/
def preLead (what : String) (q : Q) (leads : List ℕ) (p : Lead Q P St Sg E Nm × ℕ) :
    Except (LErr E) (Lead Q P St Sg E Nm) :=
  if p.2 ∉ leads then .ok p.1 else
  match preModes what q p.1 with
  | .error e => .error e
  | .ok m =>
    match preSelf stabSE what q p.1 m with
    | .error e => .error e
    | .ok s => mkPre m s

/-- `FiniteSystem.precalculate` (system.py l.148-199): the leads of the returned copy. -/
def precalculate (what : String) (q : Q) (sysLeads : List (Lead Q P St Sg E Nm)) (leads : Option (List ℕ)) :
    Except (LErr E) (List (Lead Q P St Sg E Nm)) :=
  if what ≠ "modes" ∧ what ≠ "selfenergy" ∧ what ≠ "all" then .error .value else
  mapE (preLead stabSE what q (leads.getD (List.range sysLeads.length))) sysLeads.zipIdx

/-- What `modes` of the precalculated lead has to return, whatever the query. -/
def frozenModes (what : String) (q : Q) (lead : Lead Q P St Sg E Nm) : Except (LErr E) (P × St) :=
  if what = "selfenergy" then .error .value else lead.modes q

/-- What `selfenergy` of the precalculated lead has to return, whatever the query. -/
def frozenSelf (what : String) (q : Q) (lead : Lead Q P St Sg E Nm) : Except (LErr E) Sg :=
  if what = "modes" then .error .value
  else if what = "all" then (lead.modes q).map fun m => stabSE m.2
  else lead.selfenergy q

theorem preLead_unlisted {what : String} {q : Q} {ls : List ℕ} {l : Lead Q P St Sg E Nm} {k : ℕ} (h : k ∉ ls) :
    preLead stabSE what q ls (l, k) = .ok l := by simp [preLead, h]

theorem preLead_listed {what : String} (hw : what = "modes" ∨ what = "selfenergy" ∨ what = "all") {q : Q} {ls : List ℕ}
    {l : Lead Q P St Sg E Nm} {k : ℕ} (h : k ∈ ls) :
    (∀ l', preLead stabSE what q ls (l, k) = .ok l' → (∀ q', l'.modes q' = frozenModes what q l) ∧
      (∀ q', l'.selfenergy q' = frozenSelf stabSE what q l) ∧ l'.parameters = []) ∧
    ((∃ l', preLead stabSE what q ls (l, k) = .ok l') ↔
      (what ≠ "selfenergy" → ∃ m, l.modes q = .ok m) ∧ (what = "selfenergy" → ∃ s, l.selfenergy q = .ok s)) := by
  rcases hw with rfl | rfl | rfl
  · simp only [preLead, h, not_true, if_false, preModes, preSelf, frozenModes, frozenSelf]
    cases hm : l.modes q with
    | error e => simp [Except.map]
    | ok m =>
      simp only [true_or, if_true, Except.map, mkPre]
      constructor
      · intro l' hl'
        simp at hl'
        subst hl'
        exact ⟨fun _ => by simp [Lead.modes], fun _ => by simp [Lead.selfenergy], rfl⟩
      · simp
  · simp only [preLead, h, not_true, if_false, preModes, preSelf, frozenModes, frozenSelf]
    cases hm : l.selfenergy q with
    | error e => simp [Except.map]
    | ok m =>
      constructor
      · intro l' hl'
        simp [Except.map, mkPre] at hl'
        subst hl'
        exact ⟨fun _ => by simp [Lead.modes], fun _ => by simp [Lead.selfenergy], rfl⟩
      · simp [Except.map, mkPre]
  · simp only [preLead, h, not_true, if_false, preModes, preSelf, frozenModes, frozenSelf]
    cases hm : l.modes q with
    | error e => simp [Except.map]
    | ok m =>
      constructor
      · intro l' hl'
        simp [Except.map, mkPre] at hl'
        subst hl'
        exact ⟨fun _ => by simp [Lead.modes], fun _ => by simp [Lead.selfenergy, Except.map], rfl⟩
      · simp [Except.map, mkPre]

/-- C48: `precalculate` changes only the listed leads; a listed lead afterwards answers every query with the value
at the query of the precalculation, or raises `ValueError` for what was not requested; it has no parameters left. -/
theorem C48_precalculate {what : String} {q : Q} {sysLeads new : List (Lead Q P St Sg E Nm)} {leads : Option (List ℕ)}
    (h : precalculate stabSE what q sysLeads leads = .ok new) :
    new.length = sysLeads.length ∧
    ∀ (k : ℕ) (l : Lead Q P St Sg E Nm), sysLeads[k]? = some l → ∃ l', new[k]? = some l' ∧
      (∀ ls, leads = some ls → k ∉ ls → l' = l) ∧
      ((∀ ls, leads = some ls → k ∈ ls) → (∀ q', l'.modes q' = frozenModes what q l) ∧
        (∀ q', l'.selfenergy q' = frozenSelf stabSE what q l) ∧ l'.parameters = []) := by
  unfold precalculate at h
  split at h
  · cases h
  · next hw =>
    have hw' : what = "modes" ∨ what = "selfenergy" ∨ what = "all" := by
      by_contra hc; push Not at hc; exact hw hc
    obtain ⟨h1, h2⟩ := mapE_get h
    refine ⟨by simpa using h1, fun k l hk => ?_⟩
    obtain ⟨l', h3, h4⟩ := h2 k (l, k) (by simp [hk])
    refine ⟨l', h4, ?_, ?_⟩
    · rintro ls rfl hn
      rw [Option.getD_some, preLead_unlisted stabSE hn] at h3
      cases h3; rfl
    · intro hin
      have hmem : k ∈ leads.getD (List.range sysLeads.length) := by
        cases hl : leads with
        | none => simpa using (List.getElem?_eq_some_iff.mp hk).1
        | some ls => exact hin ls hl
      exact (preLead_listed stabSE hw' hmem).1 l' h3

/-- C48: `precalculate` succeeds exactly if `what` is valid and what is requested can be computed for the listed leads. -/
theorem C48_succeeds (what : String) (q : Q) (sysLeads : List (Lead Q P St Sg E Nm)) (leads : Option (List ℕ)) :
    (∃ new, precalculate stabSE what q sysLeads leads = .ok new) ↔
      (what = "modes" ∨ what = "selfenergy" ∨ what = "all") ∧
      ∀ (k : ℕ) (l : Lead Q P St Sg E Nm), sysLeads[k]? = some l → (∀ ls, leads = some ls → k ∈ ls) →
        (what ≠ "selfenergy" → ∃ m, l.modes q = .ok m) ∧ (what = "selfenergy" → ∃ s, l.selfenergy q = .ok s) := by
  unfold precalculate
  by_cases hw : what = "modes" ∨ what = "selfenergy" ∨ what = "all"
  · rw [if_neg (by push Not; rcases hw with h | h | h <;> simp [h])]
    simp only [hw, true_and]
    constructor
    · rintro ⟨new, h⟩ k l hk hin
      have hmem : k ∈ leads.getD (List.range sysLeads.length) := by
        cases hl : leads with
        | none => simpa using (List.getElem?_eq_some_iff.mp hk).1
        | some ls => exact hin ls hl
      obtain ⟨l', h3, _⟩ := (mapE_get h).2 k (l, k) (by simp [hk])
      exact (preLead_listed stabSE hw hmem).2.mp ⟨l', h3⟩
    · intro h
      refine mapE_exists ?_
      rintro ⟨l, k⟩ hp
      have hk : sysLeads[k]? = some l := by
        have := List.mem_zipIdx_iff_getElem?.mp hp
        simpa using this
      by_cases hmem : k ∈ leads.getD (List.range sysLeads.length)
      · refine (preLead_listed stabSE hw hmem).2.mpr (h k l hk ?_)
        rintro ls rfl; exact hmem
      · exact ⟨l, preLead_unlisted stabSE hmem⟩
  · rw [if_pos (by push Not at hw; exact hw)]
    simp [hw]

/-- Two leads, one of which has no modes; the first one is precalculated. -/
def exLeads : List (Lead ℕ ℕ ℕ ℕ String String) :=
  [.obj (some fun q => .ok (q, q + 1)) (some fun q => .ok (10 * q)) ["x"], .obj none (some fun q => .ok q) []]

example : ∃ l0 l1, precalculate (E := String) (fun st => 100 * st) "all" 7 exLeads (some [0]) = .ok [l0, l1] ∧
    l0.modes 3 = .ok (7, 8) ∧ l0.selfenergy 3 = .ok 800 ∧ l1.selfenergy 5 = .ok 5 := ⟨_, _, rfl, rfl, rfl, rfl⟩

end Precalculate

/-! ### Broken symmetries -/

section Modes
variable {M : Type}

/-- An object: its attributes (`DiscreteSymmetry` has the attributes `projectors`, `time_reversal`,
`particle_hole`, `chiral`; system.py sets attributes with `setattr`). -/
abbrev PyObj (M : Type) := List (String × Option M)

/-- The attribute names used by `InfiniteSystem.modes` (system.py l.333-336). -/
def attributeNames : List (String × String) :=
  [("Conservation law", "projectors"), ("Time reversal", "time_reversal"),
   ("Particle-hole", "particle-hole"), ("Chiral", "chiral")]

/-- One round of the loop over `broken` (system.py l.337-341); a name that is not in the table is an assertion failure. -/
def dropBroken (o : PyObj M) (name : String) : PyObj M :=
  match Assoc.get attributeNames name with
  | some attr => put o attr none
  | none => o

/-- The symmetries passed on to `physics.modes` (system.py l.330-351). -/
def modesSymmetries (o : PyObj M) (broken : List String) (energyNonzero : Bool) : PyObj M :=
  let o := broken.foldl dropBroken o
  if energyNonzero then put (put o "particle_hole" none) "chiral" none else o

/-- The names reported by `DiscreteSymmetry.validate` and the attribute that holds the symmetry
(physics/symmetry.py l.37-38, l.180-181, l.213, l.222). -/
inductive SymKind where
  | conservation | timeReversal | particleHole | chiral
deriving DecidableEq

def SymKind.name : SymKind → String
  | .conservation => "Conservation law"
  | .timeReversal => "Time reversal"
  | .particleHole => "Particle-hole"
  | .chiral => "Chiral"

def SymKind.attr : SymKind → String
  | .conservation => "projectors"
  | .timeReversal => "time_reversal"
  | .particleHole => "particle_hole"
  | .chiral => "chiral"

/-- What `physics.modes` sees of the object. -/
def seen (o : PyObj M) (k : SymKind) : Option M := (Assoc.get o k.attr).getD none

/-- The attribute the code actually overwrites. -/
def SymKind.droppedAttr : SymKind → String
  | .conservation => "projectors"
  | .timeReversal => "time_reversal"
  | .particleHole => "particle-hole"
  | .chiral => "chiral"

theorem get_dropBroken (o : PyObj M) (k : SymKind) (a : String) :
    Assoc.get (dropBroken o k.name) a = if a = k.droppedAttr then some none
      else Assoc.get o a := by
  have e : dropBroken o k.name = put o k.droppedAttr none := by
    cases k <;> simp [dropBroken, attributeNames, SymKind.name, Assoc.get, SymKind.droppedAttr]
  rw [e, get_put]
  by_cases h : a = k.droppedAttr
  · simp [h]
  · rw [if_neg h, if_neg (fun h' => h h'.symm)]

theorem seen_broken (o : PyObj M) (bs : List SymKind) (k : SymKind) (hk : k ≠ .particleHole) :
    seen ((bs.map SymKind.name).foldl dropBroken o) k = if k ∈ bs then none else seen o k := by
  induction bs generalizing o with
  | nil => simp
  | cons b bs ih =>
    simp only [List.map_cons, List.foldl_cons, ih, List.mem_cons]
    by_cases hm : k ∈ bs
    · simp [hm]
    · simp only [hm, if_false, or_false]
      unfold seen
      rw [get_dropBroken]
      cases k <;> cases b <;> simp [SymKind.attr, SymKind.droppedAttr] at hk ⊢

theorem seen_particleHole (o : PyObj M) (bs : List SymKind) :
    seen ((bs.map SymKind.name).foldl dropBroken o) .particleHole = seen o .particleHole := by
  induction bs generalizing o with
  | nil => rfl
  | cons b bs ih =>
    simp only [List.map_cons, List.foldl_cons, ih]
    unfold seen
    rw [get_dropBroken]
    cases b <;> simp [SymKind.attr, SymKind.droppedAttr]

/-- C49 (part): broken conservation laws, time-reversal and chiral symmetries are ignored, a broken particle-hole symmetry
is ignored if the energy is not zero; symmetries that are not broken (and apply at the energy) are passed on. -/
theorem C49_ignored_partial (o : PyObj M) (bs : List SymKind) (e : Bool) (k : SymKind) :
    (k ≠ .particleHole ∨ e = true → k ∈ bs → seen (modesSymmetries o (bs.map SymKind.name) e) k = none) ∧
    (k ∉ bs → (e = false ∨ k = .conservation ∨ k = .timeReversal) →
      seen (modesSymmetries o (bs.map SymKind.name) e) k = seen o k) := by
  have hE : ∀ o' : PyObj M, seen (put (put o' "particle_hole" none) "chiral" none) k =
      if k = .particleHole ∨ k = .chiral then none else seen o' k := by
    intro o'
    unfold seen
    rw [get_put, get_put]
    cases k <;> simp [SymKind.attr]
  unfold modesSymmetries
  cases e with
  | false =>
    simp only [Bool.false_eq_true, if_false, or_false, true_or, forall_true_left]
    by_cases hk : k = .particleHole
    · subst hk
      exact ⟨fun h => absurd rfl h, fun _ => seen_particleHole o bs⟩
    · rw [seen_broken o bs k hk]
      exact ⟨fun _ h => by simp [h], fun h => by simp [h]⟩
  | true =>
    simp only [if_true, hE]
    constructor
    · intro _ hm
      by_cases hk : k = .particleHole
      · simp [hk]
      · rw [seen_broken o bs k hk]; simp [hm]
    · rintro hm (h | h | h)
      · cases h
      · subst h; rw [seen_broken o bs _ (by simp)]; simp [hm]
      · subst h; rw [seen_broken o bs _ (by simp)]; simp [hm]

/-- C49 is false of the code: at zero energy a broken particle-hole symmetry is always passed on. -/
theorem C49_counterexample (o : PyObj M) (bs : List SymKind) :
    seen (modesSymmetries o (bs.map SymKind.name) false) .particleHole = seen o .particleHole :=
  seen_particleHole o bs

/-- A system with all four symmetries declared, particle-hole and time-reversal broken. -/
example : let o : PyObj ℕ := [("projectors", some 1), ("time_reversal", some 2), ("particle_hole", some 3), ("chiral", some 4)]
    let o' := modesSymmetries o ["Time reversal", "Particle-hole"] false
    seen o' .timeReversal = none ∧ seen o' .particleHole = some 3 ∧ seen o' .chiral = some 4 := by decide

end Modes
end Kwant.System
