import Verif.Solver.Wave
import Mathlib.Data.List.GetD

/-!
C201: the solver of `kwant.solvers.sparse` (used by `kwant.solvers.default` if MUMPS is missing), from the system to the scattering matrix, the Green's function, the wave functions and the
local density of states.  The factorization of SciPy is a parameter with a contract (`SuperLU`).
-/

set_option linter.unusedSectionVars false

namespace Kwant.Solver
open Finset Kwant.System

section
variable {R : Type} [CommRing R] [StarRing R] [DecidableEq R]

/-! ## Model -/

/-- `scipy.sparse.linalg.factorized`: `factor a = none` if it raises `RuntimeError` (singular matrix); otherwise the function `solve f` solves `a x = v`, in exact arithmetic. -/
structure SuperLU (R : Type) [CommRing R] where
  Fac : Type
  factor : Mat R → Option Fac
  solve : Fac → (ℕ → R) → ℕ → R
  law : ∀ a f, factor a = some f → ∀ v, ∀ ρ < a.rows, mulVec a (solve f v) ρ = v ρ

/-- The body of the loop in `_solve_linear_sys` (sparse.py l.35-37): the vector `vec` is overwritten with column `j`, and the kept part of its solution is appended to `sols`. -/
def solveColumn (S : SuperLU R) (f : S.Fac) (b : Mat R) (kept : List ℕ) (st : (ℕ → R) × List (List R)) (j : ℕ) : (ℕ → R) × List (List R) :=
  let vec := fun ρ => if ρ < b.rows then b.val ρ j else st.1 ρ
  (vec, st.2 ++ [kept.map (S.solve f vec)])

/-- `_solve_linear_sys` (sparse.py l.29-39) for a right-hand side and the list of the kept variables (`slice(n)` is `range n`); `np.empty` is the argument `junk`.  A right-hand side without columns is
returned without the rows that are not kept (for all callers it is a numpy array, see `_make_linear_sys`). -/
def solveLinearSys (S : SuperLU R) (junk : ℕ → R) (f : S.Fac) (b : Mat R) (kept : List ℕ) : Mat R :=
  if b.cols = 0 then ⟨kept.length, 0, fun k j => b.val (kept.getD k 0) j⟩
  else
    let sols := ((List.range b.cols).foldl (solveColumn S f b kept) (junk, [])).2
    ⟨kept.length, b.cols, fun k j => (sols.getD j []).getD k 0⟩

/-- Exceptions: those of the setup, and the one of `factorized`. -/
inductive SciErr where
  | setup (e : LErr)
  | singular
deriving DecidableEq

/-- `sp.bmat([linsys.rhs])` (common.py l.396, l.492, l.554) -/
def stack (ls : LinearSys R) : Mat R := ⟨ls.lhs.rows, (ls.rhs.map Mat.cols).sum, fun ρ c => rhsCol ls.rhs c ρ⟩

/-- The end of `smatrix` and `greens_function` (common.py l.389-398, l.485-494): the data of the result. -/
def blockData (S : SuperLU R) (junk : ℕ → R) : Except LErr (LinearSys R × List ℕ × List ℕ × List ℕ) → Except SciErr (Mat R)
  | .error e => .error (.setup e)
  | .ok (ls, kv, _, _) =>
    if (ls.rhs.map Mat.cols).sum = 0 ∨ kv.length = 0 then .ok ⟨kv.length, (ls.rhs.map Mat.cols).sum, fun _ _ => 0⟩
    else
      match S.factor ls.lhs with
      | none => .error .singular
      | some f => .ok (solveLinearSys S junk f (stack ls) kv)

/-- `smatrix(...).data` -/
def smatrixData (S : SuperLU R) (junk : ℕ → R) (sys : SSys R) (E : R) (outLeads inLeads : Option (List ℕ)) (check : Bool) : Except SciErr (Mat R) :=
  blockData S junk (smatrixSetup sys E outLeads inLeads check)

/-- `greens_function(...).data` -/
def greensData (S : SuperLU R) (junk : ℕ → R) (sys : SSys R) (E : R) (outLeads inLeads : Option (List ℕ)) (check : Bool) : Except SciErr (Mat R) :=
  blockData S junk (greensSetup sys E outLeads inLeads check)

/-- `wave_function(...)(lead)`: `WaveFunction.__init__` and `__call__` (common.py l.609-643) -/
def waveData (S : SuperLU R) (junk : ℕ → R) (sys : SSys R) (E : R) (check : Bool) (lead : ℕ) : Except SciErr (Mat R) :=
  match waveInit sys E check with
  | .error e => .error (.setup e)
  | .ok ls =>
    match S.factor ls.lhs with
    | none => .error .singular
    | some f =>
      if lead ∈ modesLeads sys then
        match ls.rhs[lead]? with
        | some B =>
          let r := solveLinearSys S junk f B (List.range ls.numOrb)
          .ok ⟨r.cols, r.rows, fun m α => r.val α m⟩
        | none => .error (.setup .type)
      else .error (.setup .value)

end

/-- `ldos` (common.py l.541-562) after the linear system has been set up, with this solver (`nrhs = 1`, sparse.py l.23) -/
noncomputable def ldosData (S : SuperLU ℂ) (junk : ℕ → ℂ) (ls : LinearSys ℂ) : Except SciErr (ℕ → ℝ) :=
  if (ls.rhs.map Mat.cols).sum = 0 then .ok (fun _ => 0)
  else
    match S.factor ls.lhs with
    | none => .error .singular
    | some f => .ok (ldosOf ls (fun α c => (solveLinearSys S junk f ⟨ls.lhs.rows, 1, fun ρ _ => rhsCol ls.rhs c ρ⟩ (List.range ls.numOrb)).val α 0) 1)

/-! ## Proofs -/

section
variable {R : Type} [CommRing R] [StarRing R] [DecidableEq R]

/-- The contents of the buffer when column `j` is solved. -/
def buffer (b : Mat R) (junk : ℕ → R) (j : ℕ) : ℕ → R := fun ρ => if ρ < b.rows then b.val ρ j else junk ρ

theorem solveLoop_eq (S : SuperLU R) (f : S.Fac) (b : Mat R) (kept : List ℕ) (junk : ℕ → R) (n : ℕ) :
    (∀ ρ, b.rows ≤ ρ → ((List.range n).foldl (solveColumn S f b kept) (junk, [])).1 ρ = junk ρ) ∧
      ((List.range n).foldl (solveColumn S f b kept) (junk, [])).2 = (List.range n).map (fun j => kept.map (S.solve f (buffer b junk j))) := by
  induction n with
  | zero => exact ⟨fun _ _ => rfl, rfl⟩
  | succ n ih =>
    rw [List.range_succ, List.foldl_append, List.map_append]
    simp only [List.foldl_cons, List.foldl_nil, solveColumn, ih.2, List.map_cons, List.map_nil]
    have hb : (fun ρ => if ρ < b.rows then b.val ρ n else ((List.range n).foldl (solveColumn S f b kept) (junk, [])).1 ρ) = buffer b junk n := by
      funext ρ
      unfold buffer
      split
      · rfl
      · rename_i h
        exact ih.1 ρ (by omega)
    refine ⟨fun ρ hρ => ?_, by rw [hb]⟩
    rw [if_neg (by omega)]
    exact ih.1 ρ hρ

theorem solveLinearSys_val (S : SuperLU R) (junk : ℕ → R) (f : S.Fac) (b : Mat R) (kept : List ℕ) :
    (solveLinearSys S junk f b kept).rows = kept.length ∧ (solveLinearSys S junk f b kept).cols = b.cols ∧
      ∀ k < kept.length, ∀ j < b.cols, (solveLinearSys S junk f b kept).val k j = S.solve f (buffer b junk j) (kept.getD k 0) := by
  unfold solveLinearSys
  split
  · rename_i h
    exact ⟨rfl, h.symm, fun _ _ j hj => by omega⟩
  · refine ⟨rfl, rfl, fun k hk j hj => ?_⟩
    simp only [(solveLoop_eq S f b kept junk b.cols).2]
    rw [List.getD_eq_getElem (l := (List.range b.cols).map _) _ (by simpa using hj), List.getElem_map, List.getElem_range, List.getD_eq_getElem _ _ (by simpa using hk),
      List.getElem_map, List.getD_eq_getElem _ _ hk]

/-- **C201 (linear systems).** `_solve_linear_sys` returns the kept variables of a solution for every column of the right-hand side, whatever the contents of the buffer. -/
theorem C201_solve (S : SuperLU R) (junk : ℕ → R) (a : Mat R) (f : S.Fac) (hf : S.factor a = some f) (b : Mat R) (hb : b.rows = a.rows) (kept : List ℕ) :
    (solveLinearSys S junk f b kept).rows = kept.length ∧ (solveLinearSys S junk f b kept).cols = b.cols ∧
      ∃ X : ℕ → ℕ → R, (∀ j < b.cols, ∀ ρ < a.rows, ∑ κ ∈ range a.cols, a.val ρ κ * X κ j = b.val ρ j) ∧
        ∀ k (hk : k < kept.length), ∀ j < b.cols, (solveLinearSys S junk f b kept).val k j = X kept[k] j := by
  obtain ⟨h1, h2, h3⟩ := solveLinearSys_val S junk f b kept
  refine ⟨h1, h2, fun κ j => S.solve f (buffer b junk j) κ, fun j _ ρ hρ => ?_, fun k hk j hj => ?_⟩
  · have := S.law a f hf (buffer b junk j) ρ hρ
    unfold mulVec at this
    rw [this]
    unfold buffer
    rw [if_pos (by omega)]
  · rw [h3 k hk j hj, List.getD_eq_getElem _ _ hk]

/-- The solution found. -/
def solution (S : SuperLU R) (junk : ℕ → R) (f : S.Fac) (ls : LinearSys R) (κ c : ℕ) : R := S.solve f (buffer (stack ls) junk c) κ

theorem solution_solves (S : SuperLU R) (junk : ℕ → R) (f : S.Fac) (ls : LinearSys R) (hf : S.factor ls.lhs = some f) : Solves ls (solution S junk f ls) := by
  intro c _ ρ hρ
  have := S.law ls.lhs f hf (buffer (stack ls) junk c) ρ hρ
  unfold solution
  rw [this]
  unfold buffer stack
  rw [if_pos hρ]

theorem blockData_ok {S : SuperLU R} {junk : ℕ → R} {ls : LinearSys R} {kv o i : List ℕ} {M : Mat R}
    (h : blockData S junk (.ok (ls, kv, o, i)) = .ok M) :
    M.rows = kv.length ∧ M.cols = (ls.rhs.map Mat.cols).sum ∧ (((ls.rhs.map Mat.cols).sum = 0 ∨ kv.length = 0) ∨
      ∃ f, S.factor ls.lhs = some f ∧
      ∀ k (hk : k < kv.length), ∀ c < (ls.rhs.map Mat.cols).sum, M.val k c = solution S junk f ls kv[k] c) := by
  unfold blockData at h
  simp only at h
  split at h
  · rename_i hz
    cases h
    exact ⟨rfl, rfl, .inl hz⟩
  · split at h
    · cases h
    · rename_i f hf
      cases h
      obtain ⟨h1, h2, h3⟩ := solveLinearSys_val S junk f (stack ls) kv
      refine ⟨h1, h2, .inr ⟨f, hf, fun k hk c hc => ?_⟩⟩
      rw [h3 k hk c hc, List.getD_eq_getElem _ _ hk]
      rfl

/-- The column of an incoming mode exists. -/
theorem column_lt {sys : SSys R} {E : R} {outLeads inLeads : Option (List ℕ)} {check : Bool} {ls : LinearSys R} {kv o i : List ℕ}
    (hok : SysOk sys) (h : smatrixSetup sys E outLeads inLeads check = .ok (ls, kv, o, i)) {ji li : ℕ} (hji : i[ji]? = some li)
    {lead' : Lead R} (hli : sys.leads[li]? = some lead') {b : ℕ} (hb : b < lead'.nprop) :
    ((i.take ji).map fun k => ((sys.leads[k]?).map Lead.nprop).getD 0).sum + b < (ls.rhs.map Mat.cols).sum := by
  obtain ⟨_, _, h3, h4, _, _, h7, h8, h9⟩ := smatrixSetup_ok h
  have hm' : lead'.hasModes := by
    by_contra hx; rw [Lead.nprop, if_neg hx] at hb; omega
  have hb' : b < lead'.modes.nprop := by rw [Lead.nprop, if_pos hm'] at hb; exact hb
  obtain ⟨B, hB, hB1, hB2, hiff⟩ := C95_scattering hok h8 (List.mem_of_getElem? hji) hli hm' hb'
  have hlil : li < sys.leads.length := by
    by_contra hx; rw [List.getElem?_eq_none (by omega)] at hli; cases hli
  have hsum := rhs_take_sum hok h8 li (by omega)
  rw [filter_range_lt h4 ji li hji] at hsum
  rw [← hsum]
  have hlen : li < ls.rhs.length := by
    by_contra hx; rw [List.getElem?_eq_none (by omega)] at hB; cases hB
  have e : (ls.rhs.map Mat.cols).sum = ((ls.rhs.take li).map Mat.cols).sum + ((ls.rhs.drop li).map Mat.cols).sum := by
    rw [← List.sum_append, ← List.map_append, List.take_append_drop]
  rw [e, List.drop_eq_getElem_cons hlen, List.map_cons, List.sum_cons]
  rw [List.getElem?_eq_getElem hlen] at hB
  rw [Option.some.inj hB]
  omega

theorem filter_range_all {o : List ℕ} (ho : o.Pairwise (· < ·)) (n : ℕ) (hn : ∀ a ∈ o, a < n) : (List.range n).filter (fun k => k ∈ o) = o := by
  refine List.Perm.eq_of_pairwise (le := (· < ·)) (fun a b _ _ h1 h2 => by omega) ?_ ho ?_
  · exact List.Pairwise.filter _ List.pairwise_lt_range
  · refine (List.perm_ext_iff_of_nodup (List.Nodup.filter _ List.nodup_range) (ho.imp fun h => Nat.ne_of_lt h)).mpr fun a => ?_
    rw [List.mem_filter, List.mem_range, decide_eq_true_iff]
    exact ⟨fun h => h.2, fun h => ⟨hn a h, h⟩⟩

/-- The number of modes of a lead, by its number. -/
def modesOf (sys : SSys R) (k : ℕ) : ℕ := ((sys.leads[k]?).map Lead.nprop).getD 0

/-- **C201 (scattering matrix).** What `smatrix` returns with this solver: it has the sizes of the requested leads, and its elements are the amplitudes of the outgoing modes in the scattering states of the
incoming modes. -/
theorem C201_smatrix {S : SuperLU R} {junk : ℕ → R} {sys : SSys R} {E : R} {outLeads inLeads : Option (List ℕ)} {check : Bool} {M : Mat R} (hok : SysOk sys)
    (hz : (∀ l ∈ sys.leads, l.isSelfEnergy = false → l.modes.u.rows ≠ 0) ∨ outLeads.getD (List.range sys.leads.length) = List.range sys.leads.length)
    (h : smatrixData S junk sys E outLeads inLeads check = .ok M) :
    M.rows = ((outLeads.getD (List.range sys.leads.length)).map (modesOf sys)).sum ∧ M.cols = ((inLeads.getD (List.range sys.leads.length)).map (modesOf sys)).sum ∧
      ∀ (ji li : ℕ) (lead' : Lead R) (b : ℕ), (inLeads.getD (List.range sys.leads.length))[ji]? = some li → sys.leads[li]? = some lead' → b < lead'.nprop → M.rows ≠ 0 →
      ∃ (ψ : ℕ → R) (s : ℕ → ℕ → R), IsScattering sys E li b ψ s ∧
        ∀ (jo lo : ℕ) (lead : Lead R) (a : ℕ), (outLeads.getD (List.range sys.leads.length))[jo]? = some lo → sys.leads[lo]? = some lead → a < lead.nprop →
          M.val ((((outLeads.getD (List.range sys.leads.length)).take jo).map (modesOf sys)).sum + a)
            ((((inLeads.getD (List.range sys.leads.length)).take ji).map (modesOf sys)).sum + b) = s lo a := by
  unfold smatrixData at h
  rcases hs : smatrixSetup sys E outLeads inLeads check with e | ⟨ls, kv, o, i⟩
  · rw [hs] at h; cases h
  rw [hs] at h
  obtain ⟨h1, h2, h3⟩ := blockData_ok h
  obtain ⟨ho, hi, _, hip, _, _, hl, hmk, _⟩ := smatrixSetup_ok hs
  rw [← ho] at hz
  rw [← ho, ← hi]
  refine ⟨?_, ?_, fun ji li lead' b hji hli hb hrows => ?_⟩
  · rw [h1, C94_kept_partial hok hs hz, List.length_flatMap]
    congr 1
    apply List.map_congr_left
    intro k _
    unfold modesOf modeVars
    cases sys.leads[k]? <;> simp
  · rw [h2]
    have := rhs_take_sum hok hmk sys.leads.length (le_refl _)
    rw [List.take_of_length_le (by rw [(C95_other_blocks hok hmk).1]), filter_range_all hip _ (by
      intro a ha
      obtain ⟨lead, hlead, _⟩ := hl a (List.mem_append_left _ ha)
      by_contra hx
      rw [List.getElem?_eq_none (by omega)] at hlead
      cases hlead)] at this
    exact this
  · have hc := column_lt hok hs hji hli hb
    have hpos : (ls.rhs.map Mat.cols).sum ≠ 0 := by omega
    rcases h3 with h3 | ⟨f, hf, h3⟩
    · rcases h3 with h3 | h3
      · exact absurd h3 hpos
      · exact absurd (h1.trans h3) hrows
    obtain ⟨ψ, s, hsc, hval⟩ := C95_smatrix_partial hok hs hz (solution_solves S junk f ls hf) hji hli hb
    refine ⟨ψ, s, hsc, fun jo lo lead a hjo hlo ha => ?_⟩
    obtain ⟨row, hr, hx⟩ := hval jo lo lead a hjo hlo ha
    obtain ⟨hk, rfl⟩ := List.getElem?_eq_some_iff.mp hr
    exact (h3 _ hk _ hc).trans hx

/-- **C201 (Green's function).** What `greens_function` returns with this solver: rows and columns are the orbitals of the interfaces of the requested leads, and the elements are those of the inverse of
`E - H - Σ`. -/
theorem C201_greens {S : SuperLU R} {junk : ℕ → R} {sys : SSys R} {E : R} {outLeads inLeads : Option (List ℕ)} {check : Bool} {ls : LinearSys R} {kv o i : List ℕ} {M : Mat R} (hok : SysOk sys)
    (hs : greensSetup sys E outLeads inLeads check = .ok (ls, kv, o, i)) (h : greensData S junk sys E outLeads inLeads check = .ok M) :
    M.rows = (o.flatMap (leadOrbs sys)).length ∧ M.cols = (i.flatMap (leadOrbs sys)).length ∧
      (M.rows ≠ 0 → ∃ G : ℕ → ℕ → R,
        (∀ (c β : ℕ), (i.flatMap (leadOrbs sys))[c]? = some β → ∀ α < sys.ham.rows, ∑ γ ∈ range sys.ham.rows, invGreen sys E α γ * G γ c = if α = β then 1 else 0) ∧
        ∀ (k : ℕ) (hk : k < (o.flatMap (leadOrbs sys)).length), ∀ c < M.cols, M.val k c = G (o.flatMap (leadOrbs sys))[k] c) := by
  unfold greensData at h
  rw [hs] at h
  obtain ⟨h1, h2, h3⟩ := blockData_ok h
  obtain ⟨g1, g2, g3, g4, g5⟩ := C95_greens hok hs
  subst g1
  refine ⟨h1, h2.trans g4, fun hr => ?_⟩
  rcases h3 with h3 | ⟨f, hf, h3⟩
  · rcases h3 with h3 | h3
    · refine ⟨fun _ _ => 0, fun c β hc => ?_, fun k hk c hc => by omega⟩
      rw [h3] at g4
      rw [List.getElem?_eq_none (by omega)] at hc
      cases hc
    · exact absurd (h1.trans h3) hr
  · exact ⟨solution S junk f ls, (g5 _).mp (solution_solves S junk f ls hf), fun k hk c hc => h3 k hk c (by omega)⟩

/-- **C201 (wave functions).** What `wave_function(...)(lead)` returns with this solver: the scattering states of the incoming modes of the lead; or an exception: of the setup, for a singular system, or
for a lead without modes. -/
theorem C201_wave {S : SuperLU R} {junk : ℕ → R} {sys : SSys R} {E : R} {check : Bool} {ls : LinearSys R} (hok : SysOk sys) (hs : waveInit sys E check = .ok ls) (i : ℕ) :
    (S.factor ls.lhs = none → waveData S junk sys E check i = .error .singular) ∧
    (∀ f, S.factor ls.lhs = some f →
      (∀ lead, sys.leads[i]? = some lead → lead.isSelfEnergy = false →
        ∃ W, waveData S junk sys E check i = .ok W ∧ W.rows = lead.nprop ∧ W.cols = sys.ham.rows ∧
          ∀ b < W.rows, ∃ ψ s, IsScattering sys E i b ψ s ∧ ∀ α < W.cols, W.val b α = ψ α) ∧
      ((∀ lead, sys.leads[i]? = some lead → lead.isSelfEnergy = true) → waveData S junk sys E check i = .error (.setup .value))) := by
  refine ⟨fun hf => by simp [waveData, hs, hf], fun f hf => ?_⟩
  have hex : Exact ls (fun _ B α c => S.solve f (buffer B junk c) α) := by
    intro B hB c hc ρ hρ
    have := S.law ls.lhs f hf (buffer B junk c) ρ hρ
    refine this.trans ?_
    unfold buffer
    rw [if_pos (by omega)]
  obtain ⟨c1, c2⟩ := C97_wave_function hok hs hex i
  constructor
  · intro lead hl hse
    obtain ⟨W, hW, hr, hc, hW'⟩ := c1 lead hl hse
    unfold waveCall at hW
    split at hW
    · rename_i hm
      split at hW
      · rename_i B hB
        cases hW
        obtain ⟨v1, v2, v3⟩ := solveLinearSys_val S junk f B (List.range ls.numOrb)
        refine ⟨⟨(solveLinearSys S junk f B (List.range ls.numOrb)).cols, (solveLinearSys S junk f B (List.range ls.numOrb)).rows,
          fun m α => (solveLinearSys S junk f B (List.range ls.numOrb)).val α m⟩, by simp only [waveData, hs, hf, if_pos hm, hB], v2.trans hr, ?_, fun b hb => ?_⟩
        · show (solveLinearSys S junk f B (List.range ls.numOrb)).rows = _
          rw [v1, List.length_range]
          exact hc
        · have hb' : b < B.cols := by rw [← v2]; exact hb
          obtain ⟨s, hsc⟩ := hW' b hb'
          refine ⟨_, s, hsc, fun α hα => ?_⟩
          have hα' : α < (List.range ls.numOrb).length := by rw [← v1]; exact hα
          refine (v3 α hα' b hb').trans ?_
          rw [List.getD_eq_getElem _ _ hα', List.getElem_range]
      · cases hW
    · cases hW
  · intro hx
    have := c2 hx
    unfold waveCall at this
    split at this
    · rename_i hm
      obtain ⟨l, e1, e2⟩ := (mem_modesLeads sys i).mp hm
      rw [hx l e1] at e2
      cases e2
    · rename_i hm
      simp [waveData, hs, hf, hm]

end

/-- **C201 (local density of states).** What `ldos` returns with this solver: the sum of the squared moduli of the scattering states of all incoming modes, divided by `2π`. -/
theorem C201_ldos {S : SuperLU ℂ} {junk : ℕ → ℂ} {sys : SSys ℂ} {E : ℂ} {ls : LinearSys ℂ} (hok : SysOk sys)
    (hs : makeLinearSys sys (List.range sys.leads.length) E true false = .ok ls) {d : ℕ → ℝ} (h : ldosData S junk ls = .ok d)
    (hf : ∃ f, S.factor ls.lhs = some f) :
    ∃ ψ : ℕ → ℕ → ℕ → ℂ, (∀ i lead, sys.leads[i]? = some lead → ∀ b < lead.nprop, ∃ s, IsScattering sys E i b (ψ i b) s) ∧
      ∀ α < sys.ham.rows, d α = (∑ i ∈ range sys.leads.length, ∑ b ∈ range (modesOf sys i), Complex.normSq (ψ i b α)) / (2 * Real.pi) := by
  obtain ⟨f, hf⟩ := hf
  obtain ⟨ψ, p1, p2⟩ := C97_ldos hok hs (solution_solves S junk f ls hf) (nrhs := 1) one_pos
  refine ⟨ψ, p1, fun α hα => ?_⟩
  refine Eq.trans ?_ (p2 α)
  unfold ldosData at h
  split at h
  · rename_i hz
    cases h
    simp [ldosOf, hz]
  · rename_i hz
    rw [hf] at h
    cases h
    have hno : ls.numOrb = sys.ham.rows := (makeLinearSys_spec hok hs).1
    unfold ldosOf
    rw [if_neg hz, if_neg hz, ldosLoop_eq _ _ _ one_pos _ _ _ (by omega), ldosLoop_eq _ _ _ one_pos _ _ _ (by omega)]
    congr 2
    apply Finset.sum_congr rfl
    intro c _
    congr 1
    obtain ⟨-, -, v3⟩ := solveLinearSys_val S junk f ⟨ls.lhs.rows, 1, fun ρ _ => rhsCol ls.rhs c ρ⟩ (List.range ls.numOrb)
    have hk : α < (List.range ls.numOrb).length := by rw [List.length_range]; omega
    refine (v3 α hk 0 one_pos).trans ?_
    rw [List.getD_eq_getElem _ _ hk, List.getElem_range]
    rfl

/-! ## Example -/

/-- A solver for matrices with a given inverse. -/
def fixedLU {R : Type} [CommRing R] [DecidableEq R] (n : ℕ) (inv : ℕ → ℕ → R) : SuperLU R where
  Fac := Unit
  factor a := if a.rows = n ∧ a.cols = n ∧ ∀ ρ < n, ∀ σ < n, ∑ κ ∈ range n, a.val ρ κ * inv κ σ = if ρ = σ then 1 else 0 then some () else none
  solve _ v κ := ∑ σ ∈ range n, inv κ σ * v σ
  law := by
    intro a f hf v ρ hρ
    split at hf
    · rename_i h
      obtain ⟨rfl, hc, h⟩ := h
      unfold mulVec
      rw [hc]
      simp only [Finset.mul_sum]
      rw [Finset.sum_comm]
      simp only [← mul_assoc, ← Finset.sum_mul]
      rw [Finset.sum_congr rfl (fun σ hσ => by rw [h ρ hρ σ (Finset.mem_range.mp hσ)])]
      simp [hρ]
    · cases hf

/-- One site at the end of a chain. -/
def endSys : SSys GaussianInt := ⟨⟨1, 1, fun _ _ => 0⟩, [1], [chainLead]⟩

/-- The inverse of its linear system. -/
def endInv (κ σ : ℕ) : GaussianInt := if κ = 0 ∧ σ = 0 then ⟨0, -1⟩ else if κ + σ = 1 then 1 else 0

def endLU : SuperLU GaussianInt := fixedLU 2 endInv

/-- Elements of a result. -/
def elements {R : Type} (m : Except SciErr (Mat R)) : Option (List (List R)) :=
  match m with
  | .ok m => some ((List.range m.rows).map (fun i => (List.range m.cols).map (m.val i)))
  | .error _ => none

/-- The hypotheses of the theorems can be met: at the end of a chain everything is reflected, with the opposite sign; the scattering state is `2i` on the last site. -/
theorem C201_example : SysOk endSys ∧ elements (smatrixData endLU (fun _ => 7) endSys 0 none none true) = some [[-1]] ∧
    elements (waveData endLU (fun _ => 7) endSys 0 true 0) = some [[⟨0, 2⟩]] ∧ elements (waveData endLU (fun _ => 7) endSys 5 true 0) = none := by
  refine ⟨⟨rfl, rfl, ?_, ?_⟩, by decide +kernel, by decide +kernel, by decide +kernel⟩
  · intro l hl
    simp only [endSys, List.mem_cons, List.not_mem_nil, or_false] at hl
    subst hl
    simp [chainLead, endSys]
  · intro l hl hm
    simp only [endSys, List.mem_cons, List.not_mem_nil, or_false] at hl
    subst hl
    exact ⟨by decide, rfl⟩

end Kwant.Solver
