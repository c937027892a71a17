import Verif.Scatt.FisherLee
import Verif.Scatt.Ex

/-!
C117: `greens_function` succeeds without bound states, and an example.
-/

set_option linter.unusedSectionVars false

namespace Kwant.Scatt
open Finset Complex Filter
open Matrix hiding mulVec
open Kwant.Leads hiding Modes
open Kwant.Solver hiding transmission LErr mulVec

variable {T : Open} {E : ℝ}

theorem leadLoopReal_ok {norb inLeads : List ℕ} (leads : List (Solver.Lead ℂ))
    (h : ∀ l ∈ leads, l.interface ≠ [] ∧ (∀ i ∈ l.interface, i < norb.length) ∧ l.sigma.rows = (orbs norb l.interface).length ∧ l.sigma.cols = (orbs norb l.interface).length)
    (st : LState ℂ) (n : ℕ) : ∃ st', leadLoop (leadStepReal norb inLeads) st n leads = .ok st' := by
  induction leads generalizing st n with
  | nil => exact ⟨_, rfl⟩
  | cons l leads ih =>
    obtain ⟨c1, c2, c3, c4⟩ := h l (by simp)
    have hif : ifaceOrbs norb l.interface = .ok (orbs norb l.interface) := by
      cases hc : ifaceOrbs norb l.interface with
      | error e => rw [ifaceOrbs, if_neg c1] at hc; cases hc
      | ok c => rw [ifaceOrbs_eq c2 hc]
    rw [leadLoop, leadStepReal, hif]
    simp only
    rw [if_neg (not_not.mpr ⟨c3, c4⟩)]
    exact ih (fun l' hl' => h l' (List.mem_cons_of_mem _ hl')) _ _

/-- `greens_function` sets up its linear system for any increasing lists of leads. -/
theorem greens_succeeds (hT : T.Ok) {B : LeadBasis T} (hif : ∀ l, (T.lead l).interface ≠ []) (Sig)
    {o i : List ℕ} (ho : o.Pairwise (· < ·)) (hi : i.Pairwise (· < ·)) (ho' : o ≠ []) (hi' : i ≠ []) (hlt : ∀ l ∈ o, l < T.N) (check : Bool) :
    ∃ ls kv, greensSetup (T.toSys B.M Sig) (E : ℂ) (some o) (some i) check = .ok (ls, kv, o, i) := by
  have hN : T.N ≠ 0 := by
    obtain ⟨l, hl⟩ := List.exists_mem_of_ne_nil o ho'
    have := hlt l hl
    omega
  have hlead : ∀ lead ∈ (T.toSys B.M Sig).leads, lead.interface ≠ [] ∧ (∀ i ∈ lead.interface, i < T.norb.length) ∧ lead.sigma.rows = (orbs T.norb lead.interface).length ∧
      lead.sigma.cols = (orbs T.norb lead.interface).length := by
    intro lead hl
    obtain ⟨k, hk, rfl⟩ := List.getElem_of_mem hl
    obtain ⟨l, _, h2⟩ := toSys_getD B.M Sig (List.getElem?_eq_getElem hk)
    rw [h2]
    exact ⟨hif l, hT.iface l, (hT.width l).symm, (hT.width l).symm⟩
  obtain ⟨st, hst⟩ := leadLoopReal_ok (norb := T.norb) (inLeads := i) (T.toSys B.M Sig).leads hlead ⟨hamMinusE T.ham (E : ℂ), [], []⟩ 0
  have hind := (leadLoopReal_spec hst (fun l hl => (hlead l hl).2.1)).2.2.1
  have hmk : makeLinearSys (T.toSys B.M Sig) i (E : ℂ) check true = .ok ⟨st.lhs, st.rhs.map (resize st.lhs.rows), st.indices, T.ham.rows⟩ := by
    unfold makeLinearSys
    rw [if_neg (by intro h; have := toSys_length B.M Sig; rw [h] at this; exact hN this.symm),
      if_neg (by
        have := hamMinusE_hermitian (E := E) hT
        change isHermitian (hamMinusE (T.toSys B.M Sig).ham (E : ℂ)) = true at this
        rw [this]; simp)]
    simp only [if_true]
    have : leadLoop (leadStepReal (T.toSys B.M Sig).norb i) ⟨hamMinusE (T.toSys B.M Sig).ham (E : ℂ), [], []⟩ 0 (T.toSys B.M Sig).leads = .ok st := hst
    rw [this]
    rfl
  obtain ⟨kv, hkv⟩ := keptVars_succeeds (indices := st.indices) ho ho' (by
    intro l hl
    have hl' := hlt l hl
    rw [hind, List.nil_append, List.getElem?_map, toSys_get B.M Sig ⟨l, hl'⟩]
    exact ⟨_, rfl⟩)
  refine ⟨⟨st.lhs, st.rhs.map (resize st.lhs.rows), st.indices, T.ham.rows⟩, kv, ?_⟩
  unfold greensSetup
  have h1 := (C94_lists (T.toSys B.M Sig).leads.length (some o) (some i) (o, i)).mpr ⟨rfl, ho, hi, ho', hi'⟩
  rw [h1]
  simp only [hmk, hkv]

/-- Without bound states `E - H - Σ` has no kernel. -/
theorem green_kernel (hT : T.Ok) {B : LeadBasis T} (hB : BasisOk E B) {Sig} (hS : SelfenergiesOk T E Sig) (hn : NoBoundState T E) {x : ℕ → ℂ}
    (h : ∀ α < T.ham.rows, ∑ γ ∈ range T.ham.rows, invGreen (T.toSys B.M Sig) (E : ℂ) α γ * x γ = 0) : ∀ α < T.ham.rows, x α = 0 := by
  choose Ψ h1 h2 _ h4 using fun l => hS l (T.amp x l)
  have hw : InfWave T E x Ψ := by
    refine ⟨fun α hα => ?_, h1⟩
    have h6 := h α hα
    have h7 : ∀ γ, invGreen (T.toSys B.M Sig) (E : ℂ) α γ * x γ =
        (if α = γ then (E : ℂ) * x γ else 0) - T.ham.val α γ * x γ - ∑ l : Fin T.N, sigmaAt T.norb (solverLead B.M Sig l) α γ * x γ := by
      intro γ
      unfold invGreen
      rw [toSys_sum B.M Sig (fun lead _ => sigmaAt (T.toSys B.M Sig).norb lead α γ), sub_mul, sub_mul, ite_mul, zero_mul, Finset.sum_mul]
      rfl
    simp only [h7, Finset.sum_sub_distrib] at h6
    rw [Finset.sum_ite_eq, if_pos (Finset.mem_range.mpr hα), Finset.sum_comm, Finset.sum_congr rfl fun l _ => sigma_apply hT B.M Sig l x α] at h6
    simp only [h4] at h6
    linear_combination -h6
  choose c hc using fun l => outgoing_asymp (hB.data l) (h2 l)
  have h0 := no_outgoing hT hB hw hc (fun l i => rfl)
  refine (hn _ _ hw fun l => ?_).1
  have := hc l
  unfold Asymp at this
  simp only [h0, zero_mul, zero_smul, Finset.sum_const_zero, sub_zero] at this
  exact this

/-- C117: without bound states, `greens_function` succeeds for any increasing lists of leads, and its linear system has exactly one solution. -/
theorem C117_succeeds (hT : T.Ok) {B : LeadBasis T} (hB : BasisOk E B) {Sig} (hS : SelfenergiesOk T E Sig) (hn : NoBoundState T E) (hif : ∀ l, (T.lead l).interface ≠ [])
    {o i : List ℕ} (ho : o.Pairwise (· < ·)) (hi : i.Pairwise (· < ·)) (ho' : o ≠ []) (hi' : i ≠ []) (hlt : ∀ l ∈ o, l < T.N) (check : Bool) :
    ∃ ls kv, greensSetup (T.toSys B.M Sig) (E : ℂ) (some o) (some i) check = .ok (ls, kv, o, i) ∧ (∃ X, Solves ls X) ∧
      ∀ X X', Solves ls X → Solves ls X' → ∀ c < (ls.rhs.map System.Mat.cols).sum, ∀ α < T.ham.rows, X α c = X' α c := by
  obtain ⟨ls, kv, h⟩ := greens_succeeds (E := E) (B := B) hT hif Sig ho hi ho' hi' hlt check
  obtain ⟨_, _, _, h4, h5⟩ := C95_greens (sysOk hT hB Sig) h
  have hker := fun x hx => green_kernel (x := x) hT hB hS hn hx
  refine ⟨ls, kv, h, ?_, ?_⟩
  · let m : System.Mat ℂ := ⟨T.ham.rows, T.ham.rows, invGreen (T.toSys B.M Sig) (E : ℂ)⟩
    choose x hx using fun c : ℕ => solve_square (m := m) rfl hker (fun α => if (i.flatMap (leadOrbs (T.toSys B.M Sig)))[c]? = some α then 1 else 0)
    refine ⟨fun κ c => x c κ, (h5 _).mpr fun c β hc α hα => ?_⟩
    refine Eq.trans (hx c α hα) ?_
    rw [hc]
    by_cases hab : α = β
    · rw [if_pos hab, if_pos (by rw [hab])]
    · rw [if_neg hab, if_neg (fun hx => hab (Option.some.inj hx).symm)]
  · intro X X' hX hX' c hc α hα
    rw [h4] at hc
    obtain ⟨β, hβ⟩ : ∃ β, (i.flatMap (leadOrbs (T.toSys B.M Sig)))[c]? = some β := ⟨_, List.getElem?_eq_getElem hc⟩
    have h1 := (h5 X).mp hX c β hβ
    have h2 := (h5 X').mp hX' c β hβ
    refine sub_eq_zero.mp (hker (fun γ => X γ c - X' γ c) (fun α hα => ?_) α hα)
    simp only [mul_sub, Finset.sum_sub_distrib]
    rw [sub_eq_zero]
    exact (h1 α hα).trans (h2 α hα).symm

/-- There is a threshold below all positive eigenvalues. -/
theorem resolved_exists {m : ℕ} (Sig : Matrix (Fin m) (Fin m) ℂ) : Resolved Sig 0 := ⟨le_rfl, fun _ h => h⟩

/-- The example of C116 meets the hypotheses of the theorems of C117. -/
theorem C117_example : exOpen.Ok ∧ NoBoundState exOpen 0 ∧ ∃ B : LeadBasis exOpen, BasisOk 0 B ∧ ∃ Sig, SelfenergiesOk exOpen 0 Sig ∧ (∀ l, Sig l ≠ 0) ∧ (∃ S, IsSmatrix 0 B S) ∧ ∃ ls kv X,
    greensSetup (exOpen.toSys B.M Sig) ((0 : ℝ) : ℂ) (some [0, 1]) (some [0, 1]) true = .ok (ls, kv, [0, 1], [0, 1]) ∧ Solves ls X := by
  obtain ⟨M, Sig0, hM, _, hS0, hne⟩ := C115_example
  have hcomp : Computed exM exOpen 0 fun _ => M := by
    intro l
    have e := exAt l
    change modes exM (some trProj) trSym ((exOpen.lead l).at 0) trHop = .ok M
    rw [e]
    exact hM
  obtain ⟨sg, _, hB⟩ := basis_ok exLeads hcomp
  have hS : SelfenergiesOk exOpen 0 fun _ => Sig0 := by
    intro l
    have e := exAt l
    change IsSelfenergy ((exOpen.lead l).at 0) trHop Sig0
    rw [e]
    exact hS0
  have hl : ∀ l ∈ [0, 1], l < exOpen.N := by
    intro l hl
    change l < 2
    simp at hl
    omega
  obtain ⟨ls, kv, h, ⟨X, hX⟩, _⟩ := C117_succeeds exOpen_ok hB hS ex_noBound (fun l => by change [0] ≠ []; simp) (o := [0, 1]) (i := [0, 1]) (by simp) (by simp) (by simp) (by simp) hl true
  refine ⟨exOpen_ok, ex_noBound, _, hB, _, hS, fun _ => hne, ?_, ls, kv, X, h, hX⟩
  refine C117_exists exOpen_ok hB hS h hX fun l => ?_
  have := l.2
  change (l : ℕ) < 2 at this
  simp
  omega

end Kwant.Scatt
