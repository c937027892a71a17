import Verif.Scatt.Main

/-!
C116: without bound states the linear system of `smatrix` is regular, `smatrix` succeeds, and the scattering matrix exists.
-/

set_option linter.unusedSectionVars false

namespace Kwant.Scatt
open Finset Complex Filter
open Matrix hiding mulVec
open Kwant.Leads hiding Modes
open Kwant.Solver hiding transmission LErr

variable {T : Open} {E : ℝ}

/-! ### The linear system is regular -/

theorem kernel (hT : T.Ok) {B : LeadBasis T} (hB : BasisOk E B) (hn : NoBoundState T E) {Sig} {inLeads : List ℕ} {check : Bool} {ls : LinearSys ℂ}
    (h : makeLinearSys (T.toSys B.M Sig) inLeads (E : ℂ) check false = .ok ls) {x : ℕ → ℂ} (hx : ∀ ρ < ls.lhs.rows, Solver.mulVec ls.lhs x ρ = 0) : ∀ κ < ls.lhs.cols, x κ = 0 := by
  have hok := sysOk hT hB Sig
  obtain ⟨_, a2, a3, _, _, a6, a7⟩ := makeLinearSys_spec hok h
  have hs : IsScattering (T.toSys B.M Sig) (E : ℂ) T.N 0 x (fun l m => x (baseVar T.ham.rows (T.toSys B.M Sig).leads l + m)) := by
    constructor
    · intro α hα
      have h1 := hx α (by omega)
      rw [a6 x α hα] at h1
      have h2 : ∑ l : Fin (T.toSys B.M Sig).leads.length, (if (l : ℕ) = T.N then incoming (T.toSys B.M Sig).norb (T.toSys B.M Sig).leads[l] 0 α else 0) = 0 := by
        refine Finset.sum_eq_zero fun l _ => if_neg ?_
        have := l.2
        have := toSys_length B.M Sig
        omega
      rw [h2, add_zero]
      exact h1
    · intro k l hk hm r hr
      have hno : l.nout = l.modes.sqrtHop.cols := by rw [Solver.Lead.nout, if_pos hm, (hok.modes l (List.mem_of_getElem? hk) hm).2]
      have := baseVar_total (T.toSys B.M Sig).ham.rows (T.toSys B.M Sig).leads k l hk
      have h1 := hx (baseVar (T.toSys B.M Sig).ham.rows (T.toSys B.M Sig).leads k + r) (by omega)
      rw [(a7 k l hk hm).2 x r hr] at h1
      obtain ⟨l', h2, _⟩ := toSys_getD B.M Sig hk
      rw [if_neg (show ¬ k = T.N by have := l'.2; omega), add_zero]
      exact sub_eq_zero.mp h1
  have hm := matched_of_scattering hT hB (fun l hl => absurd hl (by have := l.2; omega)) hs
  obtain ⟨Ψ, w1, w2, w3⟩ := wave_of_matched hB hm
  have h0 := no_outgoing hT hB w1 w2 (fun l i => if_neg (fun h => by have := l.2; omega))
  have hdec : ∀ l, Tendsto (Ψ l) atTop (nhds 0) := by
    intro l
    have := w2 l
    unfold Asymp at this
    simp only [h0 l, zero_mul, zero_smul, Finset.sum_const_zero, sub_zero] at this
    exact this
  obtain ⟨hψ, hΨ⟩ := hn x Ψ w1 hdec
  have hc : ∀ l, (amps ((l : ℕ) = T.N) 0 (fun m => x (baseVar T.ham.rows (T.toSys B.M Sig).leads l + m)) : (Fin (B.M l).p ⊕ Fin (B.M l).p) ⊕ Fin (B.M l).q → ℂ) = 0 := by
    intro l
    set c : (Fin (B.M l).p ⊕ Fin (B.M l).p) ⊕ Fin (B.M l).q → ℂ := amps ((l : ℕ) = T.N) 0 (fun m => x (baseVar T.ham.rows (T.toSys B.M Sig).leads l + m)) with hcd
    have hin : ∀ i, c (.inl i) = 0 := fun i => h0 l i
    have hamp : T.amp x l = 0 := by
      ext p
      refine hψ _ (hT.lt (l := l) ?_)
      have hp : (p : ℕ) < (T.iface l).length := by rw [hT.width]; exact p.2
      rw [List.getD_eq_getElem?_getD, List.getElem?_eq_getElem hp, Option.getD_some]
      exact List.getElem_mem hp
    have e1 : (B.M l).stab.vecs *ᵥ c = 0 := w3 l (hΨ l 0)
    have e2 : (B.M l).stab.vecslmbdainv *ᵥ c = 0 := by rw [hm.lead l, hamp, mulVec_zero]
    have hcc : c = Sum.elim (fun _ => (0 : ℂ)) (c ∘ Sum.inr) := by
      ext i
      rcases i with i | i
      · exact hin i
      · rfl
    have cols : ∀ {a : ℕ} (A : Matrix (Fin a) ((Fin (B.M l).p ⊕ Fin (B.M l).p) ⊕ Fin (B.M l).q) ℂ), A *ᵥ c = A.toCols₂ *ᵥ (c ∘ Sum.inr) := by
      intro a A
      ext r
      rw [Matrix.mulVec, dotProduct, Fintype.sum_sum_type, Finset.sum_eq_zero (fun i _ => by rw [hin, mul_zero]), zero_add]
      rfl
    rw [cols] at e1 e2
    have h3 := (hB.spec l).indep _ e2 e1
    rw [hcc, h3]
    ext i
    rcases i with i | i <;> rfl
  intro κ hκ
  by_cases hk : κ < T.ham.rows
  · exact hψ κ hk
  · obtain ⟨k, lead, r, b1, b2, b3⟩ := var_cases T.ham.rows (T.toSys B.M Sig).leads κ (by omega) (by have : (T.toSys B.M Sig).ham.rows = T.ham.rows := rfl; omega)
    obtain ⟨l, rfl, rfl⟩ := toSys_getD B.M Sig b1
    rw [lead_nout hB] at b2
    rw [b3]
    by_cases hr : r < (B.M l).p
    · exact congrFun (hc l) (.inl (.inr ⟨r, hr⟩))
    · have := congrFun (hc l) (.inr ⟨r - (B.M l).p, by omega⟩)
      change x (_ + ((B.M l).p + (r - (B.M l).p))) = 0 at this
      rw [show (B.M l).p + (r - (B.M l).p) = r by omega] at this
      exact this

/-- An injective square system has exactly one solution for each right-hand side. -/
theorem solve_square {m : System.Mat ℂ} (hsq : m.cols = m.rows) (hinj : ∀ x : ℕ → ℂ, (∀ ρ < m.rows, Solver.mulVec m x ρ = 0) → ∀ κ < m.cols, x κ = 0) (b : ℕ → ℂ) :
    ∃ x : ℕ → ℂ, ∀ ρ < m.rows, Solver.mulVec m x ρ = b ρ := by
  let A : Matrix (Fin m.rows) (Fin m.rows) ℂ := of fun i j => m.val i j
  have hA : ∀ (y : Fin m.rows → ℂ) (i : Fin m.rows), (A *ᵥ y) i = Solver.mulVec m (fun κ => if h : κ < m.rows then y ⟨κ, h⟩ else 0) i := by
    intro y i
    rw [Solver.mulVec, hsq, Finset.sum_range, Matrix.mulVec, dotProduct]
    refine Finset.sum_congr rfl fun j _ => ?_
    rw [dif_pos j.2]
    rfl
  have hi : Function.Injective (Matrix.mulVec A) := by
    intro y y' h
    have h1 : A *ᵥ (y - y') = 0 := by rw [mulVec_sub, h, sub_self]
    have h2 := hinj (fun κ => if h : κ < m.rows then (y - y') ⟨κ, h⟩ else 0) (fun ρ hρ => by
      have := hA (y - y') ⟨ρ, hρ⟩
      rw [h1] at this
      exact this.symm)
    ext j
    have h3 := h2 j (by omega)
    rw [dif_pos j.2] at h3
    exact sub_eq_zero.mp h3
  have hu : IsUnit A := mulVec_injective_iff_isUnit.mp hi
  obtain ⟨y, hy⟩ := (mulVec_surjective_iff_isUnit.mpr hu) (fun i : Fin m.rows => b i)
  refine ⟨fun κ => if h : κ < m.rows then y ⟨κ, h⟩ else 0, fun ρ hρ => ?_⟩
  have := hA y ⟨ρ, hρ⟩
  rw [← this, hy]

/-- C116: without bound states the linear system has exactly one solution. -/
theorem C116_regular (hT : T.Ok) {B : LeadBasis T} (hB : BasisOk E B) (hn : NoBoundState T E) {Sig} {inLeads : List ℕ} {check : Bool} {ls : LinearSys ℂ}
    (h : makeLinearSys (T.toSys B.M Sig) inLeads (E : ℂ) check false = .ok ls) :
    (∃ X, Solves ls X) ∧ ∀ X X', Solves ls X → Solves ls X' → ∀ c < (ls.rhs.map System.Mat.cols).sum, ∀ κ < ls.lhs.cols, X κ c = X' κ c := by
  have hsq := (makeLinearSys_spec (sysOk hT hB Sig) h).2.2.1
  constructor
  · choose x hx using fun c => solve_square hsq (fun x => kernel hT hB hn h) (rhsCol ls.rhs c)
    exact ⟨fun κ c => x c κ, fun c _ ρ hρ => hx c ρ hρ⟩
  · intro X X' hX hX' c hc κ hκ
    have := kernel hT hB hn h (x := fun κ => X κ c - X' κ c) (fun ρ hρ => by
      have h1 := hX c hc ρ hρ
      have h2 := hX' c hc ρ hρ
      rw [Solver.mulVec] at h1 h2 ⊢
      simp only [mul_sub, Finset.sum_sub_distrib]
      rw [h1, h2, sub_self]) κ hκ
    exact sub_eq_zero.mp this

/-! ### `smatrix` succeeds -/

theorem leadLoop_ok {norb inLeads : List ℕ} (leads : List (Solver.Lead ℂ))
    (hl : ∀ l ∈ leads, l.isSelfEnergy = false ∧ (l.modes.u.rows ≠ 0 → l.interface ≠ [] ∧ (∀ i ∈ l.interface, i < norb.length) ∧ l.modes.sqrtHop.rows = (orbs norb l.interface).length ∧
      l.modes.u.rows = l.modes.sqrtHop.cols ∧ l.modes.ulinv.rows = l.modes.sqrtHop.cols ∧ l.modes.ulinv.cols = l.modes.u.cols ∧ l.modes.nout = l.modes.sqrtHop.cols))
    (st : LState ℂ) (hsq : st.lhs.cols = st.lhs.rows) (n : ℕ) : ∃ st', leadLoop (leadStep norb inLeads) st n leads = .ok st' := by
  induction leads generalizing st n with
  | nil => exact ⟨st, rfl⟩
  | cons l leads ih =>
    obtain ⟨h1, h2⟩ := hl l (by simp)
    have hl' := fun l' h => hl l' (List.mem_cons_of_mem _ h)
    rw [leadLoop]
    by_cases hu : l.modes.u.rows = 0
    · have : leadStep norb inLeads st n l = .ok { st with rhs := st.rhs ++ [.none] } := by
        rw [leadStep, if_neg (by rw [h1]; decide), if_pos hu]
      rw [this]
      simp only
      exact ih hl' { st with rhs := st.rhs ++ [.none] } hsq _
    · obtain ⟨c1, c2, c3, c4, c5, c6, c7⟩ := h2 hu
      have hif : ifaceOrbs norb l.interface = .ok (orbs norb l.interface) := by
        cases hc : ifaceOrbs norb l.interface with
        | error e => rw [ifaceOrbs, if_neg c1] at hc; cases hc
        | ok c => rw [ifaceOrbs_eq c2 hc]
      rw [leadStep, if_neg (by rw [h1]; decide), if_neg hu, hif]
      simp only
      rw [if_neg (not_not.mpr c3), if_neg (not_not.mpr ⟨c4, c5, c6, hsq⟩)]
      refine ih hl' _ ?_ _
      change st.lhs.cols + l.modes.nout = st.lhs.rows + l.modes.sqrtHop.cols
      rw [hsq, c7]

theorem hamMinusE_hermitian (hT : T.Ok) : isHermitian (hamMinusE T.ham (E : ℂ)) = true := by
  unfold isHermitian
  rw [List.all_eq_true]
  intro i hi
  rw [List.all_eq_true]
  intro j hj
  rw [decide_eq_true_iff]
  have hi' : i < T.ham.rows := List.mem_range.mp hi
  have hj' : j < T.ham.rows := by have := List.mem_range.mp hj; have h2 := hT.square; change j < T.ham.cols at this; omega
  change T.ham.val i j - (if i = j then (E : ℂ) else 0) = star (T.ham.val j i - if j = i then (E : ℂ) else 0)
  rw [star_sub, hT.herm j hj' i hi']
  congr 1
  by_cases h : i = j
  · rw [if_pos h, if_pos h.symm]; exact (conj_ofReal E).symm
  · rw [if_neg h, if_neg (Ne.symm h), star_zero]

theorem makeLinearSys_ok (hT : T.Ok) {B : LeadBasis T} (hB : BasisOk E B) (hif : ∀ l, (T.lead l).interface ≠ []) (hN : T.N ≠ 0) (Sig) (inLeads : List ℕ) (check : Bool) :
    ∃ ls, makeLinearSys (T.toSys B.M Sig) inLeads (E : ℂ) check false = .ok ls := by
  unfold makeLinearSys
  rw [if_neg (by intro h; have := toSys_length B.M Sig; rw [h] at this; exact hN this.symm),
    if_neg (by
      have := hamMinusE_hermitian (E := E) hT
      change isHermitian (hamMinusE (T.toSys B.M Sig).ham (E : ℂ)) = true at this
      rw [this]; simp)]
  obtain ⟨st, hst⟩ := leadLoop_ok (norb := T.norb) (inLeads := inLeads) (T.toSys B.M Sig).leads (by
    intro lead hl
    obtain ⟨k, hk, rfl⟩ := List.getElem_of_mem hl
    obtain ⟨l, _, h2⟩ := toSys_getD B.M Sig (List.getElem?_eq_getElem hk)
    rw [h2]
    refine ⟨rfl, fun _ => ⟨hif l, hT.iface l, (hT.width l).symm, rfl, rfl, rfl, ?_⟩⟩
    have := hB.number l
    change (B.M l).p + (B.M l).p + (B.M l).q - (B.M l).p = (B.M l).r
    omega) ⟨hamMinusE T.ham (E : ℂ), [], []⟩ hT.square 0
  simp only [Bool.false_eq_true, if_false]
  have : leadLoop (leadStep (T.toSys B.M Sig).norb inLeads) ⟨hamMinusE (T.toSys B.M Sig).ham (E : ℂ), [], []⟩ 0 (T.toSys B.M Sig).leads = .ok st := hst
  rw [this]
  exact ⟨_, rfl⟩

theorem keptVars_succeeds {indices : List (Option (List ℕ))} {o : List ℕ} (hs : o.Pairwise (· < ·)) (ho : o ≠ []) (h : ∀ l ∈ o, ∃ x, indices[l]? = some (some x)) : ∃ kv, keptVars indices o = .ok kv := by
  unfold keptVars
  simp only
  rw [select_eq _ _ hs, if_neg]
  · exact ⟨_, rfl⟩
  · rintro (h1 | h1)
    · obtain ⟨l, hl⟩ := List.exists_mem_of_ne_nil o ho
      obtain ⟨x, hx⟩ := h l hl
      have : some x ∈ o.filterMap (indices[·]?) := List.mem_filterMap.mpr ⟨l, hl, hx⟩
      rw [h1] at this
      cases this
    · obtain ⟨l, hl, hx⟩ := List.mem_filterMap.mp h1
      obtain ⟨x, hx'⟩ := h l hl
      rw [hx] at hx'
      cases hx'

theorem rank_ne_zero {B : LeadBasis T} (hB : BasisOk E B) (l : Fin T.N) (hl : (T.lead l).hop ≠ 0) : (B.M l).r ≠ 0 := by
  intro hr
  obtain ⟨u, _, _, hf, _⟩ := all_modes (hB.spec l)
  refine hl ?_
  rw [hop_factor (vm := (B.M l).stab.sqrtHop) (hB.size l) u hf]
  ext x y
  rw [mul_apply, Matrix.zero_apply]
  exact Finset.sum_eq_zero fun k _ => absurd (show (k : ℕ) < (B.M l).r from k.2) (by omega)

/-- `smatrix` sets up its linear system for any increasing lists of leads. -/
theorem smatrix_succeeds (hT : T.Ok) {B : LeadBasis T} (hB : BasisOk E B) (hif : ∀ l, (T.lead l).interface ≠ []) (hhop : ∀ l, (T.lead l).hop ≠ 0) (Sig)
    {o i : List ℕ} (ho : o.Pairwise (· < ·)) (hi : i.Pairwise (· < ·)) (ho' : o ≠ []) (hi' : i ≠ []) (hlt : ∀ l ∈ i ++ o, l < T.N) (check : Bool) :
    ∃ ls kv, smatrixSetup (T.toSys B.M Sig) (E : ℂ) (some o) (some i) check = .ok (ls, kv, o, i) := by
  have hN : T.N ≠ 0 := by
    obtain ⟨l, hl⟩ := List.exists_mem_of_ne_nil o ho'
    have := hlt l (List.mem_append_right _ hl)
    omega
  obtain ⟨ls, hls⟩ := makeLinearSys_ok hT hB hif hN Sig i check
  have hz : ∀ l ∈ (T.toSys B.M Sig).leads, l.isSelfEnergy = false → l.modes.u.rows ≠ 0 := by
    intro lead hl _
    obtain ⟨k, hk, rfl⟩ := List.getElem_of_mem hl
    obtain ⟨l, _, h2⟩ := toSys_getD B.M Sig (List.getElem?_eq_getElem hk)
    rw [h2]
    exact rank_ne_zero hB l (hhop l)
  obtain ⟨kv, hkv⟩ := keptVars_succeeds (indices := ls.indices) ho ho' (by
    intro l hl
    have hl' := hlt l (List.mem_append_right _ hl)
    rw [(makeLinearSys_spec (sysOk hT hB Sig) hls).2.2.2.1, idxSpec_get _ _ hz, toSys_get B.M Sig ⟨l, hl'⟩]
    exact ⟨_, rfl⟩)
  refine ⟨ls, kv, ?_⟩
  unfold smatrixSetup
  have h1 := (C94_lists (T.toSys B.M Sig).leads.length (some o) (some i) (o, i)).mpr ⟨rfl, ho, hi, ho', hi'⟩
  rw [h1]
  simp only
  rw [if_neg, if_neg, hls]
  · simp only [hkv]
  · simp only [Bool.not_eq_true, List.any_eq_false]
    intro l hl
    have hl' := hlt l hl
    rw [List.getD_eq_getElem?_getD, List.getElem?_map, toSys_get B.M Sig ⟨l, hl'⟩]
    exact rfl
  · simp only [Bool.not_eq_true, List.any_eq_false, decide_eq_true_iff, toSys_length]
    intro l hl
    have := hlt l hl
    omega

/-! ### The scattering matrix exists -/

/-- If the linear system for all leads has a solution, the scattering matrix exists. -/
theorem exists_of_solves (hT : T.Ok) {B : LeadBasis T} (hB : BasisOk E B) {Sig} {outLeads inLeads : Option (List ℕ)} {check : Bool} {ls : LinearSys ℂ} {kv o i : List ℕ}
    (h : smatrixSetup (T.toSys B.M Sig) (E : ℂ) outLeads inLeads check = .ok (ls, kv, o, i)) (hi : ∀ l : Fin T.N, (l : ℕ) ∈ i) {X : ℕ → ℕ → ℂ} (hX : Solves ls X) : ∃ S, IsSmatrix E B S := by
  have hok := sysOk hT hB Sig
  have hls := (smatrixSetup_ok h).2.2.2.2.2.2.2.1
  have key : ∀ (i : Fin T.N), ∀ b < (B.M i).p, ∃ (s : ℕ → ℕ → ℂ) (ψ : ℕ → ℂ) (Ψ : (l : Fin T.N) → ℕ → Fin (T.lead l).n → ℂ), ScattWave E B i b s ψ Ψ := by
    intro l b hb
    have hm : (solverLead B.M Sig l).hasModes := (lead_hasModes B.M Sig l).mpr (by have := hB.number l; omega)
    obtain ⟨Bm, e1, _, e3, e4⟩ := C95_scattering hok hls (hi l) (toSys_get B.M Sig l) hm hb
    have hc : ((ls.rhs.take l).map System.Mat.cols).sum + b < (ls.rhs.map System.Mat.cols).sum := by
      have hlt : (l : ℕ) < ls.rhs.length := by by_contra hx; rw [List.getElem?_eq_none (by omega)] at e1; cases e1
      have : (ls.rhs.map System.Mat.cols).sum = ((ls.rhs.take l).map System.Mat.cols).sum + ((ls.rhs.drop l).map System.Mat.cols).sum := by
        rw [← List.sum_append, ← List.map_append, List.take_append_drop]
      rw [this, List.drop_eq_getElem_cons hlt, List.map_cons, List.sum_cons]
      rw [List.getElem?_eq_getElem hlt] at e1
      rw [Option.some.inj e1, e3]
      have : b < (solverLead B.M Sig l).modes.nprop := hb
      omega
    have hsc := (e4 (fun κ => X κ (((ls.rhs.take l).map System.Mat.cols).sum + b))).mp (by
      intro ρ hρ
      rw [hX _ hc ρ hρ]
      exact rhsCol_get ls.rhs l b Bm e1 (by rw [e3]; exact hb) ρ)
    obtain ⟨Ψ, hw⟩ := wave_of_scattering hT hB hb hsc
    exact ⟨_, _, Ψ, hw⟩
  choose s ψ Ψ hw using key
  refine ⟨fun l a i b => if h : i < T.N then (if hb : b < (B.M ⟨i, h⟩).p then s ⟨i, h⟩ b hb l a else 0) else 0, fun i b hb => ⟨ψ i b hb, Ψ i b hb, ?_⟩⟩
  have h1 := hw i b hb
  have h2 : (fun (l a : ℕ) => if h : (i : ℕ) < T.N then (if hb : b < (B.M ⟨i, h⟩).p then s ⟨i, h⟩ b hb l a else 0) else 0) = s i b hb := by
    ext l a
    rw [dif_pos i.2]
    exact dif_pos hb
  rw [h2]
  exact h1

/-- C116: without bound states, `smatrix` succeeds for any increasing lists of leads, its linear system has exactly one solution, and the infinite system has a scattering
matrix. -/
theorem C116_succeeds {e : ModesNum} (hT : T.Ok) (ho : LeadsOk e T E) {M : (l : Fin T.N) → LeadModes (T.lead l).n (T.lead l).m} (hM : Computed e T E M) (hn : NoBoundState T E)
    (hif : ∀ l, (T.lead l).interface ≠ []) (hhop : ∀ l, (T.lead l).hop ≠ 0) (Sig) {o i : List ℕ} (hos : o.Pairwise (· < ·)) (his : i.Pairwise (· < ·)) (ho' : o ≠ []) (hi' : i ≠ [])
    (hlt : ∀ l ∈ i ++ o, l < T.N) (check : Bool) : ∃ ls kv, smatrixSetup (T.toSys M Sig) (E : ℂ) (some o) (some i) check = .ok (ls, kv, o, i) ∧ (∃ X, Solves ls X) ∧
      (∀ X X', Solves ls X → Solves ls X' → ∀ c < (ls.rhs.map System.Mat.cols).sum, ∀ κ < ls.lhs.cols, X κ c = X' κ c) ∧
      ∃ sg, SignsOk ⟨M, sg⟩ ∧ BasisOk E ⟨M, sg⟩ ∧ ∃ S, IsSmatrix E ⟨M, sg⟩ S := by
  obtain ⟨sg, hsg, hB⟩ := basis_ok ho hM
  obtain ⟨ls, kv, h⟩ := smatrix_succeeds hT hB hif hhop Sig hos his ho' hi' hlt check
  obtain ⟨r1, r2⟩ := C116_regular hT hB hn (smatrixSetup_ok h).2.2.2.2.2.2.2.1
  refine ⟨ls, kv, h, r1, r2, sg, hsg, hB, ?_⟩
  have hN : T.N ≠ 0 := by
    obtain ⟨l, hl⟩ := List.exists_mem_of_ne_nil o ho'
    have := hlt l (List.mem_append_right _ hl)
    omega
  have hr : List.range T.N ≠ [] := by rw [Ne, List.range_eq_nil]; exact hN
  obtain ⟨ls', kv', h'⟩ := smatrix_succeeds hT hB hif hhop Sig (o := List.range T.N) (i := List.range T.N) List.pairwise_lt_range List.pairwise_lt_range hr hr
    (fun l hl => by simpa using hl) check
  obtain ⟨⟨X, hX⟩, _⟩ := C116_regular hT hB hn (smatrixSetup_ok h').2.2.2.2.2.2.2.1
  exact exists_of_solves hT hB h' (fun l => List.mem_range.mpr l.2) hX

/-- C116: if at least one of the two leads has been requested, what `transmission` returns is the transmission in the infinite system. -/
theorem C116_transmission (hT : T.Ok) {B : LeadBasis T} (hB : BasisOk E B) {S : FullS} (hS : IsSmatrix E B S) {s : SMat} (hp : PartOf s S) (hN : s.nLeads = T.N) (hsz : s.sizes = B.num)
    {o i : ℕ} (ho : o < T.N) (hi : i < T.N) (hio : o ∈ s.outLeads ∨ i ∈ s.inLeads) {t : ℝ} (h : Solver.transmission s o i = .ok t) : t = trans B.num S o i := by
  rw [← hsz]
  exact C53_transmission_partial hp (fun _ => by rw [hN, hsz]; exact C116_unitary hT hB hS) (by rw [hN]; exact ho) (by rw [hN]; exact hi) hio h

end Kwant.Scatt
