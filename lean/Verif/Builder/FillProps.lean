import Verif.Builder.Props

/-!
# C34: `fill`

`FillReach` (Fill.lean) is the specification of the set of sites to be added.
-/
set_option linter.unusedSectionVars false

namespace Kwant.Builder
open Kwant Kwant.Assoc
variable {S G GT V Fn : Type} [DecidableEq S] [AddCommGroup G] [DecidableEq G] [AddCommGroup GT] [DecidableEq GT]
variable {sym : Symmetry S G} {symT : Symmetry S GT} {T H H' : HMap S V Fn} {shape : S → Option Bool}
variable {nv : Val V Fn} {start : List S} {hc : V → V} {maxSites : Option ℕ} {ord : ℕ → List S → List S} {fuel : ℕ}

/-- C34: a successful `fill` returns, without repetition, exactly the sites that are reachable from the
starting sites through template hoppings inside the shape without stepping on sites that were present
before, and adds exactly these (modulo the symmetry).  New sites get the value they have in the template.
Old sites, and hoppings between old sites, keep their values.  Hoppings with at least one new end (and both
ends present) are those of the template.  The iteration order over the set of active sites is arbitrary. -/
theorem C34_fill {added : List S} (h : Reachable sym H) (ht : Reachable symT T) (sub : SubSym sym symT)
    (hord : ∀ n l, (ord n l).Perm l)
    (hok : fill sym symT T shape nv maxSites true ord fuel H start = some (H', .ok added)) :
    Reachable sym H' ∧ added.Nodup ∧ (∀ m, maxSites = some m → added.length ≤ m) ∧
    (∀ s, s ∈ added ↔ FillReach sym symT T shape H start s) ∧
    (∀ x, HasSite sym H' x ↔ HasSite sym H x ∨ sym.toFd x ∈ added) ∧
    (∀ x, HasSite sym H x → sym.toFd x ∉ added ∧ getSite sym H' x = getSite sym H x) ∧
    (∀ x, sym.toFd x ∈ added → HasSite symT T x ∧ getSite sym H' x = getSite symT T x) ∧
    (∀ x y v, HasSite sym H x → HasSite sym H y → (getHop sym hc H' x y = .ok v ↔ getHop sym hc H x y = .ok v)) ∧
    (∀ x y v, HasSite sym H' x → HasSite sym H' y → ¬ (HasSite sym H x ∧ HasSite sym H y) →
      (getHop sym hc H' x y = .ok v ↔ getHop symT hc T x y = .ok v)) := by
  obtain ⟨hl, w⟩ := h.wf
  obtain ⟨hlT, wT⟩ := ht.wf
  have hr : Reachable sym H' := .fill h hlT wT sub hord hok
  obtain ⟨i, hnd, hcov⟩ := fill_ok hl hlT wT w sub hord hok
  refine ⟨hr, hnd, fill_max hl hlT wT w sub hok, ?_, ?_, ?_, ?_, ?_, ?_⟩
  · intro s
    rw [i.complete hl hlT wT w sub hcov, fillReach_filter]
  · intro x
    rw [hasSite_iff, hasSite_iff, i.keys]
  · intro x hx
    rw [hasSite_iff] at hx
    refine ⟨fun hD => (i.new _ hD).1 hx, ?_⟩
    rw [getSite_eq, getSite_eq, i.o0 _ hx]
  · intro x hx
    have h1 := toFdT_toFd hlT wT sub x
    have h2 := (i.new _ hx).2.2.2.1
    rw [h1] at h2
    refine ⟨hasSite_iff.mpr h2, ?_⟩
    have h3 := i.oD _ hx
    rw [h1] at h3
    rw [getSite_eq, getSite_eq, h3]
    have := O_isSome.mpr h2
    cases hO : O T (symT.toFd x) with
    | none => rw [hO] at this; simp at this
    | some v => rfl
  · intro x y v hx hy
    rw [hasSite_iff] at hx hy
    exact getHop_transfer hr.wf.2 hl w hl (i.te_old hl hlT wT w sub hx hy) (i.te_old hl hlT wT w sub hy hx) v
  · intro x y v hx hy hn
    rw [hasSite_iff] at hx hy
    rw [hasSite_iff, hasSite_iff] at hn
    have hor : sym.toFd x ∈ added ∨ sym.toFd y ∈ added := by
      rcases (i.keys _).mp hx with h1 | h1
      · rcases (i.keys _).mp hy with h2 | h2
        · exact absurd ⟨h1, h2⟩ hn
        · exact .inr h2
      · exact .inl h1
    exact getHop_transfer hr.wf.2 hl wT hlT (i.te_new hl hlT wT w sub hx hy hor)
      (i.te_new hl hlT wT w sub hy hx hor.symm) v

/-- C34: a successful fill has evaluated `shape`, without exception, at every absent neighbour of an added
site. -/
theorem C34_shape {added : List S} (h : Reachable sym H) (ht : Reachable symT T) (sub : SubSym sym symT)
    (hord : ∀ n l, (ord n l).Perm l)
    (hok : fill sym symT T shape nv maxSites true ord fuel H start = some (H', .ok added))
    (x y : S) (hx : x ∈ added) (hxy : HasHop symT T x y) : HasSite sym H y ∨ shape (sym.toFd y) ≠ none := by
  obtain ⟨i, _, _⟩ := fill_ok h.lawful ht.lawful ht.wf.2 h.wf.2 sub hord hok
  rw [hasSite_iff]
  exact i.cs x y hx ((hasHop_iff ht.wf.2 ht.lawful).mp hxy).2

/-- C34, failures: `ValueError` leaves the builder unchanged and happens only for bad arguments; any failure
during the filling empties the builder, raises `RuntimeError`, and happens only if `shape` raised an
exception or there are more than `max_sites` sites to be added.  No internal lookup fails. -/
theorem C34_failure {subOk : Bool} {e : Err S} (h : Reachable sym H) (ht : Reachable symT T)
    (sub : subOk = true → SubSym sym symT) (hord : ∀ n l, (ord n l).Perm l)
    (herr : fill sym symT T shape nv maxSites subOk ord fuel H start = some (H', .error e)) :
    (e = .value ∧ H' = H ∧ (maxSites = some 0 ∨ subOk = false)) ∨
    (e = .runtime ∧ H' = [] ∧ ((∃ y, shape y = none) ∨
      ∃ (m : ℕ) (l : List S), maxSites = some m ∧ l.length = m + 1 ∧ l.Nodup ∧
        ∀ s ∈ l, FillReach sym symT T shape H start s)) := by
  cases subOk with
  | false =>
    simp only [fill, Bool.not_false, if_true] at herr
    left
    split at herr
    · rename_i hm
      obtain ⟨rfl, h2⟩ := Prod.mk.inj (Option.some.inj herr)
      injection h2 with h2
      exact ⟨h2.symm, rfl, .inl hm⟩
    · obtain ⟨rfl, h2⟩ := Prod.mk.inj (Option.some.inj herr)
      injection h2 with h2
      exact ⟨h2.symm, rfl, .inr rfl⟩
  | true =>
    rcases fill_error h.lawful ht.lawful ht.wf.2 h.wf.2 (sub rfl) hord herr with h1 | ⟨h1, h2, h3⟩
    · exact .inl h1
    · refine .inr ⟨h1, h2, h3.imp_right ?_⟩
      rintro ⟨m, l, a, b, c, d⟩
      exact ⟨m, l, a, b, c, fun s hs => (fillReach_filter s).mp (d s hs)⟩

/-- C34, termination: the fill finishes whenever `max_sites` is finite or the set of sites to be added is. -/
theorem C34_terminates (h : Reachable sym H) (ht : Reachable symT T) (sub : SubSym sym symT)
    (hord : ∀ n l, (ord n l).Perm l)
    (hb : (∃ b, maxSites = some b) ∨ ∃ L : List S, ∀ s, FillReach sym symT T shape H start s → s ∈ L) :
    ∃ n, ∀ fuel ≥ n, fill sym symT T shape nv maxSites true ord fuel H start ≠ none := by
  rcases hb with ⟨b, hb⟩ | ⟨L, hL⟩
  · exact ⟨b + 2, fun fuel hf => fill_terminates h.lawful ht.lawful ht.wf.2 h.wf.2 sub hord (.inl hb) hf⟩
  · refine ⟨L.length + 2, fun fuel hf => fill_terminates h.lawful ht.lawful ht.wf.2 h.wf.2 sub hord (.inr ?_) hf⟩
    intro l hnd hl
    exact (List.subperm_of_subset hnd fun s hs => hL s (hl s hs)).length_le

/-- C34, success: without `max_sites` and with a `shape` that never raises, a terminating fill succeeds. -/
theorem C34_succeeds (h : Reachable sym H) (ht : Reachable symT T) (sub : SubSym sym symT)
    (hord : ∀ n l, (ord n l).Perm l) (hsh : ∀ y, shape y ≠ none)
    (hf : fill sym symT T shape nv none true ord fuel H start ≠ none) :
    ∃ H' added, fill sym symT T shape nv none true ord fuel H start = some (H', .ok added) := by
  obtain ⟨⟨H', r⟩, hr⟩ := Option.ne_none_iff_exists'.mp hf
  cases r with
  | ok added => exact ⟨H', added, hr⟩
  | error e =>
    rcases C34_failure h ht (fun _ => sub) hord hr with ⟨_, _, h1 | h1⟩ | ⟨_, _, ⟨y, hy⟩ | ⟨m, _, h1, _⟩⟩
    · cases h1
    · cases h1
    · exact absurd hy (hsh y)
    · cases h1

/-! ## Non-vacuity -/

/-- A target without symmetry that already contains one site of the ladder. -/
def fillTarget : HMap (ℤ × ℕ) ℤ ℕ := setSite (noSymmetry _) [] (2, 0) (.const 100)

theorem subSym_noSymmetry (symT : Symmetry S GT) (h : symT.Lawful) : SubSym (noSymmetry S) symT :=
  fun _ => ⟨0, fun s => by rw [h.act_zero]; rfl⟩

/-- The shape `-1 ≤ x < 4`. -/
def fillShape (s : ℤ × ℕ) : Option Bool := some (decide (-1 ≤ s.1 ∧ s.1 < 4))

/-- A fill that stops at the present site `(2, 0)` and at the border, and goes around it. -/
example : ∃ H', fill (noSymmetry (ℤ × ℕ)) chainSym exampleH fillShape (.const 0) (some 100) true (fun _ l => l) 50
    fillTarget [(0, 0), (5, 1), (0, 7)] =
      some (H', .ok [(0, 0), (1, 1), (-1, 0), (1, 0), (0, 1), (2, 1)]) ∧
    getHop (noSymmetry _) (fun v : ℤ => -v) H' (2, 0) (1, 0) = .ok (.const 3) := by
  refine ⟨_, rfl, by decide⟩

example : (fill (noSymmetry (ℤ × ℕ)) chainSym exampleH fillShape (.const 0) (some 3) true (fun _ l => l) 50
    fillTarget [(0, 0)]).map (fun r => sites r.1) = some [] := by decide

end Kwant.Builder
