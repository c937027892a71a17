import Verif.Solver.Kept
import Verif.Leads.FullWave

/-!
C116: the scattering matrix, end to end.  This file has the specification: a finite system with semi-infinite leads, its wave functions, and its scattering matrix.
-/

set_option linter.unusedSectionVars false

namespace Kwant.Scatt
open Finset Complex Filter
open Matrix hiding mulVec
open Kwant.Leads hiding Modes
open Kwant.Solver hiding transmission LErr mulVec

/-! ### A system with leads -/

/-- A lead: the Hamiltonian of a unit cell, the hopping to the cell that is closer to the scattering region (restricted to the orbitals it acts on), the sites of the
scattering region these orbitals are attached to, and the symmetries. -/
structure PhysLead where
  n : ℕ
  m : ℕ
  ham : Matrix (Fin n) (Fin n) ℂ
  hop : Matrix (Fin n) (Fin m) ℂ
  interface : List ℕ
  projectors : Option (Projectors n)
  sy : Symm n

/-- A finite system with leads. -/
structure Open where
  ham : System.Mat ℂ
  norb : List ℕ
  N : ℕ
  lead : Fin N → PhysLead

/-- `ham.flat[::ham.shape[0] + 1] -= energy` (system.py l.350, l.374) -/
noncomputable def PhysLead.at (L : PhysLead) (E : ℝ) : Matrix (Fin L.n) (Fin L.n) ℂ := L.ham - (E : ℂ) • 1

/-- The orbitals of the interface. -/
def Open.iface (T : Open) (l : Fin T.N) : List ℕ := orbs T.norb (T.lead l).interface

/-- The amplitudes at the interface. -/
def Open.amp (T : Open) (ψ : ℕ → ℂ) (l : Fin T.N) : Fin (T.lead l).m → ℂ := fun p => ψ ((T.iface l).getD p 0)

/-- What hops from the lead into orbital `α`. -/
def Open.fromLead (T : Open) (l : Fin T.N) (f : Fin (T.lead l).m → ℂ) (α : ℕ) : ℂ := ∑ p : Fin (T.lead l).m, if (T.iface l)[(p : ℕ)]? = some α then f p else 0

/-- The Hamiltonian is square and Hermitian, and the leads are attached to orbitals of the system. -/
structure Open.Ok (T : Open) : Prop where
  square : T.ham.cols = T.ham.rows
  size : T.ham.rows = T.norb.sum
  herm : ∀ α < T.ham.rows, ∀ β < T.ham.rows, star (T.ham.val α β) = T.ham.val β α
  iface : ∀ l, ∀ i ∈ (T.lead l).interface, i < T.norb.length
  width : ∀ l, (T.iface l).length = (T.lead l).m

/-! ### Specification -/

/-- `ψ` in the scattering region and `Ψ l j` in cell `j` of lead `l` are a solution of the Schrödinger equation of the infinite system at energy `E`. -/
structure InfWave (T : Open) (E : ℝ) (ψ : ℕ → ℂ) (Ψ : (l : Fin T.N) → ℕ → Fin (T.lead l).n → ℂ) : Prop where
  region : ∀ α < T.ham.rows, (∑ β ∈ range T.ham.rows, T.ham.val α β * ψ β) - E * ψ α + (∑ l, T.fromLead l ((T.lead l).hopᴴ *ᵥ Ψ l 0) α) = 0
  lead : ∀ l, LeadSolution ((T.lead l).at E) (T.lead l).hop (T.amp ψ l) (Ψ l)

/-- Far from the scattering region the wave consists of the propagating modes `M`, with the amplitudes `a` (and signs `sg`), up to a part that decays.  The wave functions
of the modes refer to the cell next to the lead. -/
def Asymp {n m : ℕ} (M : LeadModes n m) (sg a : Fin M.p ⊕ Fin M.p → ℂ) (Ψ : ℕ → Fin n → ℂ) : Prop :=
  Tendsto (fun j : ℕ => Ψ j - ∑ i, (a i * sg i * cexp (I * M.mom i * (j + 1))) • M.wf.col i) atTop (nhds 0)

/-- The modes of all leads, and signs. -/
structure LeadBasis (T : Open) where
  M : (l : Fin T.N) → LeadModes (T.lead l).n (T.lead l).m
  sg : (l : Fin T.N) → Fin (M l).p ⊕ Fin (M l).p → ℂ

/-- The number of modes of a lead. -/
def LeadBasis.num {T : Open} (B : LeadBasis T) (l : ℕ) : ℕ := if h : l < T.N then (B.M ⟨l, h⟩).p else 0

/-- `ψ`, `Ψ` is the wave that comes in in mode `b` of lead `i` and goes out with the amplitudes `s`. -/
def ScattWave {T : Open} (E : ℝ) (B : LeadBasis T) (i : Fin T.N) (b : ℕ) (s : ℕ → ℕ → ℂ) (ψ : ℕ → ℂ) (Ψ : (l : Fin T.N) → ℕ → Fin (T.lead l).n → ℂ) : Prop :=
  InfWave T E ψ Ψ ∧ ∀ l, Asymp (B.M l) (B.sg l) (Sum.elim (fun a => if l = i ∧ (a : ℕ) = b then 1 else 0) (fun a => s l a)) (Ψ l)

/-- `S` is the scattering matrix: for each incoming mode there is a wave with this mode incoming, in which the amplitudes of the outgoing modes are the elements of `S`. -/
def IsSmatrix {T : Open} (E : ℝ) (B : LeadBasis T) (S : FullS) : Prop :=
  ∀ (i : Fin T.N), ∀ b < (B.M i).p, ∃ ψ Ψ, ScattWave E B i b (fun l a => S l a i b) ψ Ψ

/-- There is no bound state at energy `E`. -/
def NoBoundState (T : Open) (E : ℝ) : Prop :=
  ∀ ψ Ψ, InfWave T E ψ Ψ → (∀ l, Tendsto (Ψ l) atTop (nhds 0)) → (∀ α < T.ham.rows, ψ α = 0) ∧ ∀ l j, Ψ l j = 0

/-! ### Model -/

/-- A Matrix as the solvers see it. -/
noncomputable def toMat {a b : ℕ} (A : Matrix (Fin a) (Fin b) ℂ) : System.Mat ℂ := ⟨a, b, fun i j => if h : i < a ∧ j < b then A ⟨i, h.1⟩ ⟨j, h.2⟩ else 0⟩

/-- The columns of the stabilized modes in their order. -/
def colIdx (p q : ℕ) : Fin (p + p + q) ≃ ((Fin p ⊕ Fin p) ⊕ Fin q) := finSumFinEquiv.symm.trans (finSumFinEquiv.symm.sumCongr (Equiv.refl _))

/-- `stab.vecs`, `stab.vecslmbdainv`, `stab.nmodes`, `stab.sqrt_hop` (common.py l.206-209) -/
noncomputable def toModes {n m : ℕ} (M : LeadModes n m) : Solver.Modes ℂ :=
  ⟨toMat (M.stab.vecs.submatrix id (colIdx M.p M.q)), toMat (M.stab.vecslmbdainv.submatrix id (colIdx M.p M.q)), M.p, toMat M.stab.sqrtHop⟩

/-- The system as the solvers see it, with the modes `M` and the self-energies `Sig` of the leads. -/
noncomputable def Open.toSys (T : Open) (M : (l : Fin T.N) → LeadModes (T.lead l).n (T.lead l).m) (Sig : (l : Fin T.N) → Matrix (Fin (T.lead l).m) (Fin (T.lead l).m) ℂ) : SSys ℂ :=
  ⟨T.ham, T.norb, List.ofFn fun l => ⟨false, toMat (Sig l), toModes (M l), (T.lead l).interface⟩⟩

/-- The modes are those that `InfiniteSystem.modes` (system.py l.307-356) computes at the energy `E`; for its treatment of symmetries see C49. -/
def Computed (e : ModesNum) (T : Open) (E : ℝ) (M : (l : Fin T.N) → LeadModes (T.lead l).n (T.lead l).m) : Prop :=
  ∀ l, modes e (T.lead l).projectors (T.lead l).sy ((T.lead l).at E) (T.lead l).hop = .ok (M l)

/-- The hypotheses about the leads, see C114. -/
def LeadsOk (e : ModesNum) (T : Open) (E : ℝ) : Prop :=
  ∀ l, LeadOk e ((T.lead l).projectors.getD (Projectors.default _)) (T.lead l).sy ((T.lead l).at E) (padHop (T.lead l).hop)

/-- The signs of the modes are 1 without particle-hole and chiral symmetries. -/
def SignsOk {T : Open} (B : LeadBasis T) : Prop :=
  (∀ l i, B.sg l i = 1 ∨ B.sg l i = -1) ∧ ∀ l, (T.lead l).sy.ph = none → (T.lead l).sy.chiral = none → ∀ i, B.sg l i = 1

/-- What C114 says about the modes of all leads. -/
structure BasisOk {T : Open} (E : ℝ) (B : LeadBasis T) : Prop where
  herm : ∀ l, ((T.lead l).at E).IsHermitian
  spec : ∀ l, LeadSpec ((T.lead l).at E) (padHop (T.lead l).hop) (B.M l).wf (B.M l).mom (B.M l).vel (B.M l).stab.vecslmbdainv (B.M l).stab.vecs (padRows (B.M l).stab.sqrtHop) (B.sg l)
  incoming : ∀ l i, (B.M l).vel (.inl i) < 0
  outgoing : ∀ l i, 0 < (B.M l).vel (.inr i)
  number : ∀ l, (B.M l).p + (B.M l).q = (B.M l).r
  size : ∀ l, (T.lead l).m ≤ (T.lead l).n ∨ (T.lead l).hop = 0 ∧ (B.M l).r = 0

theorem basis_ok {e : ModesNum} {T : Open} {E : ℝ} {M : (l : Fin T.N) → LeadModes (T.lead l).n (T.lead l).m} (ho : LeadsOk e T E) (hM : Computed e T E M) :
    ∃ sg, SignsOk ⟨M, sg⟩ ∧ BasisOk E ⟨M, sg⟩ := by
  have h1 := fun l => C114_modes (ho l) (hM l)
  choose sg hsg hs1 using fun l => (h1 l).spec
  exact ⟨sg, ⟨fun l => (hsg l).sign, hs1⟩, fun l => (ho l).herm, hsg, fun l => (h1 l).incoming, fun l => (h1 l).outgoing, fun l => (h1 l).number, fun l => modes_size (hM l)⟩

end Kwant.Scatt
