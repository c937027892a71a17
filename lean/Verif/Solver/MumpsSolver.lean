import Mathlib.Data.List.Induction
import Verif.Solver.MumpsProps

/-!
# C171, C172, C173: the options of the solver and the solution of linear systems (`kwant/solvers/mumps.py`)
-/

set_option linter.unusedSectionVars false

namespace Kwant.Mumps

/-! ## Options -/

/-- The options of a `Solver` (solvers/mumps.py l.31-33); `None` before they are first set. -/
structure Opts where
  nrhs : Option ℤ
  ordering : Option String
  sparse : Option Bool
deriving DecidableEq

/-- `int(x)` of a number: towards zero. -/
def pyInt (q : ℚ) : ℤ := if 0 ≤ q then ⌊q⌋ else ⌈q⌉

/-- The keys of `orderings` (linalg/mumps.py l.21-22). -/
def orderingNames : List String := ["amd", "amf", "scotch", "pord", "metis", "qamd", "auto"]

/-- The best of the orderings of the installation (l.97-100). -/
def best (possible : List String) : Option String :=
  (["metis", "scotch", "auto"].filter fun o => decide (o ∈ possible)).head?

/-- The part of `options` for `nrhs` (l.88-92). -/
def setNrhs (s : Opts) : Option ℚ → Except Err Opts
  | none => .ok s
  | some q => if q < 1 ∧ (pyInt q : ℚ) ≠ q then .error .value else .ok { s with nrhs := some (pyInt q) }

/-- The part of `options` for `ordering` (l.94-103). -/
def setOrdering (possible : List String) (s : Opts) : Option String → Except Err Opts
  | none => .ok s
  | some o =>
    if o = "kwant_decides" then
      match best possible with
      | none => .error .value
      | some o' => .ok { s with ordering := some o' }
    else if o ∉ orderingNames then .error .value
    else .ok { s with ordering := some o }

/-- `options` (l.39-108): the new state of the solver and the old options or an exception. -/
def options (possible : List String) (s : Opts) (nrhs : Option ℚ) (ordering : Option String) (sparse : Option Bool) :
    Opts × Except Err Opts :=
  match setNrhs s nrhs with
  | .error e => (s, .error e)
  | .ok s1 =>
    match setOrdering possible s1 ordering with
    | .error e => (s1, .error e)
    | .ok s2 =>
      match sparse with
      | none => (s2, .ok s)
      | some b => ({ s2 with sparse := some b }, .ok s)

/-- `reset_options` (l.35-37). -/
def resetOptions (possible : List String) (s : Opts) : Opts × Except Err Opts :=
  options possible s (some 6) (some "kwant_decides") (some false)

/-- `Solver.__init__` (l.31-33). -/
def newSolver (possible : List String) : Opts := (resetOptions possible ⟨none, none, none⟩).1

/-- The solvers after any history of calls, failed ones included. -/
inductive Configured (possible : List String) : Opts → Prop where
  | new : Configured possible (newSolver possible)
  | options {s} (nrhs : Option ℚ) (ordering : Option String) (sparse : Option Bool) :
      Configured possible s → Configured possible (options possible s nrhs ordering sparse).1
  | reset {s} : Configured possible s → Configured possible (resetOptions possible s).1

theorem pyInt_int (z : ℤ) : pyInt (z : ℚ) = z := by
  unfold pyInt
  split <;> simp

/-- All options are set. -/
def Set' (s : Opts) : Prop := (∃ z, s.nrhs = some z) ∧ (∃ o ∈ orderingNames, s.ordering = some o) ∧ ∃ b, s.sparse = some b

theorem best_some {possible : List String} (h : "auto" ∈ possible) : ∃ o ∈ orderingNames, best possible = some o := by
  unfold best
  by_cases h1 : "metis" ∈ possible
  · exact ⟨"metis", by decide, by simp [h1]⟩
  · by_cases h2 : "scotch" ∈ possible
    · exact ⟨"scotch", by decide, by simp [h1, h2]⟩
    · exact ⟨"auto", by decide, by simp [h, h1, h2]⟩

theorem best_mem {possible : List String} {o : String} (h : best possible = some o) : o ∈ orderingNames := by
  unfold best at h
  have := List.mem_of_head? h
  have h2 := (List.mem_filter.mp this).1
  revert h2
  simp only [List.mem_cons, List.not_mem_nil, or_false]
  rintro (rfl | rfl | rfl) <;> decide

theorem setNrhs_ok {s s1 : Opts} {q : Option ℚ} (h : setNrhs s q = .ok s1) :
    s1.ordering = s.ordering ∧ s1.sparse = s.sparse ∧ (q = none → s1 = s) ∧ ∀ x, q = some x → s1.nrhs = some (pyInt x) := by
  cases q with
  | none =>
    cases h
    exact ⟨rfl, rfl, fun _ => rfl, by simp⟩
  | some x =>
    unfold setNrhs at h
    simp only at h
    split at h
    · cases h
    · cases h
      refine ⟨rfl, rfl, by simp, ?_⟩
      intro y hy
      cases hy
      rfl

theorem setOrdering_ok {possible : List String} {s s1 : Opts} {o : Option String} (h : setOrdering possible s o = .ok s1) :
    s1.nrhs = s.nrhs ∧ s1.sparse = s.sparse ∧ (o = none → s1 = s) ∧
    (o ≠ none → ∃ o' ∈ orderingNames, s1.ordering = some o') := by
  cases o with
  | none =>
    cases h
    exact ⟨rfl, rfl, fun _ => rfl, by simp⟩
  | some x =>
    unfold setOrdering at h
    simp only at h
    split at h
    · split at h
      · cases h
      · rename_i o' hb
        cases h
        exact ⟨rfl, rfl, by simp, fun _ => ⟨o', best_mem hb, rfl⟩⟩
    · split at h
      · cases h
      · rename_i hx
        cases h
        exact ⟨rfl, rfl, by simp, fun _ => ⟨x, not_not.mp hx, rfl⟩⟩

theorem options_set {possible : List String} {s : Opts} (hs : Set' s) (q : Option ℚ) (o : Option String) (b : Option Bool) :
    Set' (options possible s q o b).1 := by
  obtain ⟨⟨z, h1⟩, ⟨x, h2, h2'⟩, ⟨c, h3⟩⟩ := hs
  unfold options
  cases hn : setNrhs s q with
  | error e => exact ⟨⟨z, h1⟩, ⟨x, h2, h2'⟩, ⟨c, h3⟩⟩
  | ok s1 =>
    obtain ⟨a1, a2, a3, a4⟩ := setNrhs_ok hn
    have hz : ∃ z, s1.nrhs = some z := by
      cases q with
      | none => rw [a3 rfl]; exact ⟨z, h1⟩
      | some y => exact ⟨_, a4 y rfl⟩
    simp only
    cases ho : setOrdering possible s1 o with
    | error e => exact ⟨hz, ⟨x, h2, a1.trans h2'⟩, ⟨c, a2.trans h3⟩⟩
    | ok s2 =>
      obtain ⟨b1, b2, b3, b4⟩ := setOrdering_ok ho
      have hx : ∃ o ∈ orderingNames, s2.ordering = some o := by
        cases o with
        | none => rw [b3 rfl]; exact ⟨x, h2, a1.trans h2'⟩
        | some y => exact b4 (by simp)
      simp only
      cases b with
      | none => exact ⟨by rw [b1]; exact hz, hx, ⟨c, by rw [b2, a2, h3]⟩⟩
      | some d => exact ⟨by obtain ⟨z, hz⟩ := hz; exact ⟨z, b1.trans hz⟩, hx, ⟨d, rfl⟩⟩

theorem reset_eq {possible : List String} (h : "auto" ∈ possible) (s : Opts) :
    (resetOptions possible s).1 = newSolver possible := by
  obtain ⟨o, _, ho⟩ := best_some h
  have e6 : pyInt 6 = 6 := pyInt_int 6
  simp [newSolver, resetOptions, options, setNrhs, setOrdering, ho, e6]

theorem configured_set {possible : List String} (h : "auto" ∈ possible) {s : Opts} (hs : Configured possible s) : Set' s := by
  have hnew : Set' (newSolver possible) := by
    obtain ⟨o, ho, ho'⟩ := best_some h
    have e6 : pyInt 6 = 6 := pyInt_int 6
    refine ⟨⟨6, ?_⟩, ⟨o, ho, ?_⟩, ⟨false, ?_⟩⟩ <;>
      simp [newSolver, resetOptions, options, setNrhs, setOrdering, ho', e6]
  induction hs with
  | new => exact hnew
  | options q o b _ ih => exact options_set ih q o b
  | reset _ _ =>
    rw [reset_eq h]
    exact hnew

theorem auto_not_decides {o : String} (h : o ∈ orderingNames) : o ≠ "kwant_decides" := by
  rintro rfl
  revert h
  decide

/-- C171: `options` returns the old options, and passing them to `options` restores them exactly; `reset_options`
restores those of a new solver. -/
theorem C171_restore {possible : List String} (h : "auto" ∈ possible) {s : Opts} (hs : Configured possible s)
    (nrhs : Option ℚ) (ordering : Option String) (sparse : Option Bool) :
    (∀ s' old, options possible s nrhs ordering sparse = (s', .ok old) →
      old = s ∧ options possible s' (old.nrhs.map (fun z : ℤ => (z : ℚ))) old.ordering old.sparse = (s, .ok s')) ∧
    (∃ old, resetOptions possible s = (newSolver possible, .ok old) ∧ old = s) := by
  constructor
  · intro s' old he
    have hs0 := configured_set h hs
    obtain ⟨⟨z, h1⟩, ⟨x, h2, h2'⟩, ⟨c, h3⟩⟩ := hs0
    have hold : old = s := by
      unfold options at he
      split at he
      · cases he
      · split at he
        · cases he
        · split at he <;> (cases he; rfl)
    refine ⟨hold, ?_⟩
    subst hold
    rw [h1, h2', h3]
    simp only [options, Option.map_some, setNrhs, pyInt_int, ne_eq, not_true_eq_false, and_false, if_false,
      setOrdering, if_neg (auto_not_decides h2), h2, not_true_eq_false]
    obtain ⟨n0, o0, s0⟩ := old
    simp only at h1 h2' h3
    subst h1 h2' h3
    rfl
  · obtain ⟨o, _, ho⟩ := best_some h
    have e6 : pyInt 6 = 6 := pyInt_int 6
    refine ⟨s, ?_, rfl⟩
    simp [newSolver, resetOptions, options, setNrhs, setOrdering, ho, e6]

/-- C172 (partial): positive integers are accepted as `nrhs`, fractions below one and unknown orderings raise; if `options`
raises, `ordering` and `sparse_rhs` are unchanged, and everything is if `nrhs` was not given. -/
theorem C172_partial {possible : List String} (h : "auto" ∈ possible) {s : Opts} (hs : Configured possible s) :
    (∀ z : ℤ, 1 ≤ z → options possible s (some (z : ℚ)) none none = ({ s with nrhs := some z }, .ok s)) ∧
    (∀ (q : ℚ) o b, q < 1 → (∀ z : ℤ, q ≠ z) → options possible s (some q) o b = (s, .error .value)) ∧
    (∀ q o b s' e, options possible s q o b = (s', .error e) →
      e = .value ∧ s'.ordering = s.ordering ∧ s'.sparse = s.sparse ∧ (q = none → s' = s)) ∧
    (∀ (o : String) b, options possible s none (some o) b = (s, .error .value) ↔ o ≠ "kwant_decides" ∧ o ∉ orderingNames) := by
  refine ⟨?_, ?_, ?_, ?_⟩
  · intro z hz
    simp [options, setNrhs, pyInt_int, setOrdering]
  · intro q o b h1 h2
    have : (pyInt q : ℚ) ≠ q := fun e => h2 _ e.symm
    simp [options, setNrhs, h1, this]
  · intro q o b s' e he
    unfold options at he
    cases hn : setNrhs s q with
    | error e' =>
      rw [hn] at he
      cases he
      refine ⟨?_, rfl, rfl, fun _ => rfl⟩
      unfold setNrhs at hn
      split at hn
      · cases hn
      · split at hn
        · cases hn
          rfl
        · cases hn
    | ok s1 =>
      obtain ⟨a1, a2, a3, a4⟩ := setNrhs_ok hn
      rw [hn] at he
      simp only at he
      cases ho : setOrdering possible s1 o with
      | error e' =>
        rw [ho] at he
        cases he
        refine ⟨?_, a1, a2, a3⟩
        unfold setOrdering at ho
        split at ho
        · cases ho
        · split at ho
          · split at ho
            · cases ho
              rfl
            · cases ho
          · split at ho
            · cases ho
              rfl
            · cases ho
      | ok s2 =>
        rw [ho] at he
        cases b <;> simp at he
  · intro o b
    obtain ⟨o', _, hb⟩ := best_some h
    constructor
    · intro he
      constructor
      · rintro rfl
        simp only [options, setNrhs, setOrdering, hb, if_true] at he
        cases b <;> simp at he
      · intro hm
        simp only [options, setNrhs, setOrdering, if_neg (auto_not_decides hm), hm, not_true_eq_false, if_false] at he
        cases b <;> simp at he
    · rintro ⟨h1, h2⟩
      simp [options, setNrhs, setOrdering, h1, h2]

/-- C172 fails: zero, negative and non-integer values of `nrhs` are accepted, and a call that raises because of the ordering has changed
`nrhs`. -/
theorem C172_counterexample : ∃ s, Configured ["auto"] s ∧
    options ["auto"] s (some 0) none none = ({ s with nrhs := some 0 }, .ok s) ∧
    options ["auto"] s (some (-3)) none none = ({ s with nrhs := some (-3) }, .ok s) ∧
    options ["auto"] s (some (5 / 2)) none none = ({ s with nrhs := some 2 }, .ok s) ∧
    s.nrhs = some 6 ∧ options ["auto"] s (some 3) (some "best") none = ({ s with nrhs := some 3 }, .error .value) := by
  have e0 : pyInt 0 = 0 := pyInt_int 0
  have e3 : pyInt 3 = 3 := pyInt_int 3
  have em : pyInt (-3) = -3 := by
    have := pyInt_int (-3)
    simpa using this
  have e5 : pyInt (5 / 2) = 2 := by
    unfold pyInt
    rw [if_pos (by norm_num), Int.floor_eq_iff]
    norm_num
  have e6 : pyInt 6 = 6 := pyInt_int 6
  refine ⟨_, .new, ?_, ?_, ?_, ?_, ?_⟩
  · simp [options, setNrhs, setOrdering, e0]
  · simp [options, setNrhs, setOrdering, em]
  · have : ¬ ((5 / 2 : ℚ) < 1) := by norm_num
    simp [options, setNrhs, setOrdering, e5, this]
  · simp [newSolver, resetOptions, options, setNrhs, setOrdering, best, e6]
  · simp [options, setNrhs, setOrdering, e3, orderingNames]

/-! ## Linear systems -/

section
variable {M Col Par K : Type} {L : Lib M Col Par}

/-- The right hand sides solved at once: `b[:, j:min(j + nrhs, b.shape[1])]` for `j in range(0, b.shape[1], nrhs)` (l.122-123). -/
def chunks (nrhs : ℕ) (cols : List Col) : List (List Col) :=
  (List.range ((cols.length + nrhs - 1) / nrhs)).map fun i =>
    (cols.drop (i * nrhs)).take (min (i * nrhs + nrhs) cols.length - i * nrhs)

/-- The loop (l.122-127). -/
def solveChunks (L : Lib M Col Par) (rows : ℕ) (sparse : Bool) (keep : Col → K) :
    Ctx M Col → List (List Col) → Ctx M Col × Except Err (List K)
  | c, [] => (c, .ok [])
  | c, ch :: rest =>
    match solve L c ⟨rows, ch, false⟩ sparse with
    | (c', .error e) => (c', .error e)
    | (c', .ok xs) =>
      match solveChunks L rows sparse keep c' rest with
      | (c'', .error e) => (c'', .error e)
      | (c'', .ok ys) => (c'', .ok (xs.map keep ++ ys))

/-- `_solve_linear_sys` (l.115-129); `keep` selects the rows `kept_vars`.  `range` refuses the step 0 and is empty for a negative one,
`concatenate` refuses an empty list. -/
def solveLinear (L : Lib M Col Par) (nrhs : ℤ) (sparse : Bool) (keep : Col → K) (c : Ctx M Col) (rows : ℕ) (cols : List Col) :
    Ctx M Col × Except Err (List K) :=
  if cols = [] then (c, .ok [])
  else if nrhs ≤ 0 then (c, .error .value)
  else solveChunks L rows sparse keep c (chunks nrhs.toNat cols)

theorem take_chunks (n : ℕ) (cols : List Col) (m : ℕ) :
    ((List.range m).map fun i => (cols.drop (i * n)).take (min (i * n + n) cols.length - i * n)).flatten =
      cols.take (m * n) := by
  induction m with
  | zero => simp
  | succ m ih =>
    rw [List.range_succ, List.map_append, List.flatten_append, ih]
    simp only [List.map_cons, List.map_nil, List.flatten_cons, List.flatten_nil, List.append_nil]
    have e : (m + 1) * n = m * n + n := by ring
    rw [e, List.take_add]
    congr 1
    by_cases hm : m * n + n ≤ cols.length
    · rw [min_eq_left hm]
      congr 1
      omega
    · rw [min_eq_right (by omega)]
      have hl : (cols.drop (m * n)).length = cols.length - m * n := by simp
      rw [List.take_of_length_le (by omega), List.take_of_length_le (by omega)]

/-- The chunks cover all right hand sides. -/
theorem chunks_flatten {n : ℕ} (hn : 1 ≤ n) (cols : List Col) : (chunks n cols).flatten = cols := by
  unfold chunks
  rw [take_chunks]
  apply List.take_of_length_le
  have h1 := Nat.div_add_mod (cols.length + n - 1) n
  have h2 := Nat.mod_lt (cols.length + n - 1) (by omega : n > 0)
  have h3 : (cols.length + n - 1) / n * n = n * ((cols.length + n - 1) / n) := Nat.mul_comm _ _
  omega

theorem solveChunks_ok {fuel : ℕ} {a : M} {rows : ℕ} {sp : Bool} {keep : Col → K} (h1 : rows ≠ 1) (hrows : rows = L.size a)
    (chs : List (List Col)) : ∀ (c : Ctx M Col) (h : List (Op M Col Par × Out Col)), Reaches L fuel c h → NoReuseFailure h →
    current h = some a → (sp = false → ¬ HasSparse h) →
    ∃ (xs : List Col) (h' : List (Op M Col Par × Out Col)), (solveChunks L rows sp keep c chs).2 = .ok (xs.map keep) ∧ xs.map (L.mul a) = chs.flatten ∧
      Reaches L fuel (solveChunks L rows sp keep c chs).1 (h ++ h') ∧ ∀ x ∈ h', ∃ b o, x = (.solve b sp, o) := by
  induction chs with
  | nil =>
    intro c h hr _ _ _
    exact ⟨[], [], rfl, rfl, by rw [List.append_nil]; exact hr, by simp⟩
  | cons ch rest ih =>
    intro c h hr hn hc hs
    have hR := C169_solve_partial hr hn ⟨rows, ch, false⟩ sp (Or.inr (Or.inl h1)) hs
    unfold Right at hR
    rw [hc] at hR
    simp only at hR
    rw [if_neg (by simp [hrows])] at hR
    obtain ⟨xs, hx, hmul⟩ := hR
    rcases hsol : solve L c ⟨rows, ch, false⟩ sp with ⟨c', o⟩
    rw [hsol] at hx
    simp only at hx
    subst hx
    have hr' : Reaches L fuel c' (h ++ [(.solve ⟨rows, ch, false⟩ sp, .ok xs)]) :=
      .call hr (by simp [step, hsol])
    obtain ⟨ys, h', i1, i2, i3, i4⟩ := ih c' _ hr'
      (by
        intro a ord p o hm
        rcases List.mem_append.mp hm with hm | hm
        · exact hn a ord p o hm
        · simp at hm)
      (by rw [current_snoc, hc]; rfl)
      (by
        intro hsp hh
        obtain ⟨b, o, hm⟩ := hh
        rcases List.mem_append.mp hm with hm | hm
        · exact hs hsp ⟨b, o, hm⟩
        · simp [hsp] at hm)
    rcases hrest : solveChunks L rows sp keep c' rest with ⟨c'', r⟩
    rw [hrest] at i1 i3
    simp only at i1 i3
    subst i1
    refine ⟨xs ++ ys, (.solve ⟨rows, ch, false⟩ sp, .ok xs) :: h', ?_, ?_, ?_, ?_⟩
    · simp [solveChunks, hsol, hrest]
    · simp [hmul, i2]
    · simpa [solveChunks, hsol, hrest] using i3
    · intro x hx
      rcases List.mem_cons.mp hx with rfl | hx
      · exact ⟨_, _, rfl⟩
      · exact i4 x hx

/-- C173 (partial): for every positive `nrhs` and both kinds of right hand sides, any number of linear systems can be solved with
a factorization, and each time the selected rows of the solutions of all right hand sides are returned, in order; excluded are
systems with a single row, and dense right hand sides after a sparse one. -/
theorem C173_solve_partial {fuel : ℕ} {c : Ctx M Col} {h : List (Op M Col Par × Out Col)} (hr : Reaches L fuel c h)
    (hn : NoReuseFailure h) {a : M} (hc : current h = some a) {nrhs : ℤ} (hp : 1 ≤ nrhs) {rows : ℕ} (h1 : rows ≠ 1)
    (hrows : rows = L.size a) (sp : Bool) (hs : sp = false → ¬ HasSparse h) (keep : Col → K) (cols : List Col) :
    ∃ (xs : List Col) (h' : List (Op M Col Par × Out Col)), (solveLinear L nrhs sp keep c rows cols).2 = .ok (xs.map keep) ∧ xs.map (L.mul a) = cols ∧
      Reaches L fuel (solveLinear L nrhs sp keep c rows cols).1 (h ++ h') ∧ NoReuseFailure (h ++ h') ∧
      current (h ++ h') = some a ∧ (sp = false → ¬ HasSparse (h ++ h')) := by
  have rest : ∀ h' : List (Op M Col Par × Out Col), (∀ x ∈ h', ∃ b o, x = (.solve b sp, o)) →
      NoReuseFailure (h ++ h') ∧ current (h ++ h') = some a ∧ (sp = false → ¬ HasSparse (h ++ h')) := by
    intro h' hall
    refine ⟨?_, ?_, ?_⟩
    · intro a ord p o hm
      rcases List.mem_append.mp hm with hm | hm
      · exact hn a ord p o hm
      · obtain ⟨b, o', e⟩ := hall _ hm
        cases e
    · induction h' using List.reverseRecOn with
      | nil => simpa using hc
      | append_singleton l x ih =>
        rw [← List.append_assoc, current_snoc, ih fun y hy => hall y (by simp [hy])]
        obtain ⟨b, o, rfl⟩ := hall x (by simp)
        rfl
    · intro hsp ⟨b, o, hm⟩
      rcases List.mem_append.mp hm with hm | hm
      · exact hs hsp ⟨b, o, hm⟩
      · obtain ⟨b', o', e⟩ := hall _ hm
        rw [hsp] at e
        cases e
  unfold solveLinear
  split
  · rename_i he
    refine ⟨[], [], rfl, by simp [he], by simpa using hr, rest [] (by simp)⟩
  · rw [if_neg (by omega)]
    obtain ⟨xs, h', i1, i2, i3, i4⟩ := solveChunks_ok (keep := keep) h1 hrows (chunks nrhs.toNat cols) c h hr hn hc hs
    rw [chunks_flatten (by omega)] at i2
    exact ⟨xs, h', i1, i2, i3, rest h' i4⟩

end

/-- C173: the hypotheses can be met, and the result is right for every `nrhs`. -/
theorem C173_example : ∃ c h, Reaches toy 31 c h ∧ NoReuseFailure h ∧ ¬ HasSparse h ∧ current h = some (2, -1) ∧
    (solveLinear toy 2 false List.head? c 2 [[1, 2], [3, 4], [5, 6]]).2 = .ok [some (-1), some (-3), some (-5)] := by
  have hc : ∃ c h, calls 31 newCtx [.factor (2, -1) (some 7) () false] = some (c, h) ∧
      h = [(.factor (2, -1) (some 7) () false, .ok [])] ∧
      (solveLinear toy 2 false List.head? c 2 [[1, 2], [3, 4], [5, 6]]).2 = .ok [some (-1), some (-3), some (-5)] :=
    ⟨_, _, rfl, rfl, rfl⟩
  obtain ⟨c, h, h1, h2, h3⟩ := hc
  refine ⟨c, h, by simpa using calls_reaches .new h1, ?_, ?_, ?_, h3⟩
  · subst h2
    intro a ord p o hm e he
    simp at hm
  · subst h2
    rintro ⟨b, o, hm⟩
    simp at hm
  · subst h2
    rfl

/-- C173 fails: if the option `sparse_rhs` is switched off between two uses of a factorization (of a `wave_function`), the second one
gives the solutions of the first; a system with one row and one right hand side is refused. -/
theorem C173_counterexample :
    (∃ c h, Reaches toy 31 c h ∧ current h = some (2, -1) ∧ ¬ HasSparse h ∧
      (solveLinear toy 6 true id c 2 [[1, 2]]).2 = .ok [[-1, -2]] ∧
      (solveLinear toy 6 false id (solveLinear toy 6 true id c 2 [[1, 2]]).1 2 [[3, 4]]).2 = .ok [[-1, -2]]) ∧
    (∃ c h, Reaches toy 31 c h ∧ current h = some (1, -1) ∧ ¬ HasSparse h ∧
      (solveLinear toy 6 false id c 1 [[1]]).2 = .error .value) := by
  constructor
  · have hc : ∃ c h, calls 31 newCtx [.factor (2, -1) (some 7) () false] = some (c, h) ∧
        h = [(.factor (2, -1) (some 7) () false, .ok [])] ∧
        (solveLinear toy 6 true id c 2 [[1, 2]]).2 = .ok [[-1, -2]] ∧
        (solveLinear toy 6 false id (solveLinear toy 6 true id c 2 [[1, 2]]).1 2 [[3, 4]]).2 = .ok [[-1, -2]] :=
      ⟨_, _, rfl, rfl, rfl, rfl⟩
    obtain ⟨c, h, h1, h2, h3⟩ := hc
    refine ⟨c, h, by simpa using calls_reaches .new h1, by subst h2; rfl, ?_, h3⟩
    subst h2
    rintro ⟨b, o, hm⟩
    simp at hm
  · have hc : ∃ c h, calls 31 newCtx [.factor (1, -1) (some 7) () false] = some (c, h) ∧
        h = [(.factor (1, -1) (some 7) () false, .ok [])] ∧
        (solveLinear toy 6 false id c 1 [[1]]).2 = .error .value := ⟨_, _, rfl, rfl, rfl⟩
    obtain ⟨c, h, h1, h2, h3⟩ := hc
    refine ⟨c, h, by simpa using calls_reaches .new h1, by subst h2; rfl, ?_, h3⟩
    subst h2
    rintro ⟨b, o, hm⟩
    simp at hm

end Kwant.Mumps
