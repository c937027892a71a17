import Verif.Scatt.Conserve

/-! C194: in the presence of a conservation law, the current is conserved for each value of the conserved quantity. -/

set_option linter.unusedSectionVars false

namespace Kwant.Scatt

open Matrix Kwant.Leads Kwant.Solver Complex Finset

variable {T : Open} {E : ℝ} {q : ℕ → ℕ → ℂ} {Q : (l : Fin T.N) → Matrix (Fin (T.lead l).n) (Fin (T.lead l).n) ℂ} {Qm : (l : Fin T.N) → Matrix (Fin (T.lead l).m) (Fin (T.lead l).m) ℂ}

theorem sum_blocks (nl : List ℕ) : ∀ F : ℕ → ℝ, ∑ x : Fin nl.length, ∑ a ∈ range (nl.getD x 0), F ((nl.take x).sum + a) = ∑ a ∈ range nl.sum, F a := by
  induction nl with
  | nil => intro F; simp
  | cons n nl ih =>
    intro F
    rw [List.length_cons, Fin.sum_univ_succ]
    simp only [Fin.val_zero, List.getD_cons_zero, List.take_zero, List.sum_nil, zero_add, Fin.val_succ, List.getD_cons_succ, List.take_succ_cons, List.sum_cons]
    rw [Finset.sum_range_add, ← ih fun a => F (n + a)]
    simp only [Nat.add_assoc]

theorem block_le (bs : List ℕ) (b : ℕ) (hb : b < bs.length) : (bs.take b).sum + bs.getD b 0 ≤ bs.sum := by
  have e : bs.sum = (bs.take (b + 1)).sum + (bs.drop (b + 1)).sum := by rw [← List.sum_append, List.take_append_drop]
  rw [List.take_add_one, List.getElem?_eq_getElem hb, List.sum_append] at e
  simp only [Option.toList_some, List.sum_cons, List.sum_nil, Nat.add_zero] at e
  rw [List.getD_eq_getElem?_getD, List.getElem?_eq_getElem hb, Option.getD_some]
  omega

theorem unitary_col {n : ℕ} {N : ℕ → ℕ} {S : FullS} (h : Unitary n N S) {i b : ℕ} (hi : i < n) (hb : b < N i) : ∑ l : Fin n, ∑ a ∈ range (N l), normSq (S l a i b) = 1 := by
  have h1 := h.2 i hi b hb i hi b hb
  rw [if_pos ⟨rfl, rfl⟩, Finset.sum_range] at h1
  have h2 : ((∑ l : Fin n, ∑ a ∈ range (N l), normSq (S l a i b) : ℝ) : ℂ) = 1 := by
    rw [← h1]
    push_cast
    exact Finset.sum_congr rfl fun l _ => Finset.sum_congr rfl fun a _ => (normSq_eq_conj_mul_self)
  exact_mod_cast h2

theorem unitary_row {n : ℕ} {N : ℕ → ℕ} {S : FullS} (h : Unitary n N S) {o a : ℕ} (ho : o < n) (ha : a < N o) : ∑ l : Fin n, ∑ b ∈ range (N l), normSq (S o a l b) = 1 := by
  have h1 := h.1 o ho a ha o ho a ha
  rw [if_pos ⟨rfl, rfl⟩, Finset.sum_range] at h1
  have h2 : ((∑ l : Fin n, ∑ b ∈ range (N l), normSq (S o a l b) : ℝ) : ℂ) = 1 := by
    rw [← h1]
    push_cast
    exact Finset.sum_congr rfl fun l _ => Finset.sum_congr rfl fun a _ => by rw [normSq_eq_conj_mul_self, mul_comm]; rfl
  exact_mod_cast h2

/-- The transmissions between the blocks, and their sums over all blocks. -/
theorem block_sums {e : ModesNum} (hT : T.Ok) (ho : LeadsOk e T E) {M : (l : Fin T.N) → LeadModes (T.lead l).n (T.lead l).m} (hM : Computed e T E M)
    {P : (l : Fin T.N) → Projectors (T.lead l).n} (hP : ∀ l, (T.lead l).projectors = some (P l)) {sg : (l : Fin T.N) → Fin (M l).p ⊕ Fin (M l).p → ℂ} (hB : BasisOk E ⟨M, sg⟩) {S : FullS}
    (h : IsSmatrix E ⟨M, sg⟩ S) {s : SMat} (hs : PartOf s S) (hsz : s.sizes = (LeadBasis.mk M sg).num) (hbs : ∀ l : Fin T.N, s.blockSizes l = (M l).blockNmodes) (hhop : ∀ l, (T.lead l).hop ≠ 0) :
    ∃ (nm : Fin T.N → List ℕ) (t : (l k : Fin T.N) → Fin (P l).nb → Fin (P k).nb → ℝ), (∀ l, (M l).blockNmodes = some (nm l) ∧ (nm l).length = (P l).nb ∧ (nm l).sum = (M l).p) ∧
      (∀ l k : Fin T.N, (l : ℕ) ∈ s.outLeads → (k : ℕ) ∈ s.inLeads → ∀ (x : Fin (P l).nb) (y : Fin (P k).nb), transmissionSel s (.block l x) (.block k y) = .ok (t l k x y)) ∧
      (∀ (k : Fin T.N) (y : Fin (P k).nb), ∑ l : Fin T.N, ∑ x, t l k x y = (nm k).getD y 0) ∧ ∀ (l : Fin T.N) (x : Fin (P l).nb), ∑ k : Fin T.N, ∑ y, t l k x y = (nm l).getD x 0 := by
  have hoP : ∀ l, LeadOk e (P l) (T.lead l).sy ((T.lead l).at E) (padHop (T.lead l).hop) := fun l => by
    have h1 := ho l
    rw [hP l] at h1
    exact h1
  have hMP : ∀ l, modes e (some (P l)) (T.lead l).sy ((T.lead l).at E) (T.lead l).hop = .ok (M l) := fun l => by
    rw [← hP l]
    exact hM l
  have hnm : ∀ l : Fin T.N, ∃ nm, (M l).blockNmodes = some nm ∧ nm.length = (P l).nb ∧ nm.sum = (M l).p := fun l => by
    rcases modes_blocks (hMP l) with h1 | h1
    · exact absurd h1.1 (hhop l)
    · obtain ⟨nm, hnm⟩ := h1.2
      obtain ⟨lam, _, hl⟩ := mode_values (A := 0) (val := fun _ => 0) (hoP l) (hMP l) (fun x => by simp)
      obtain ⟨h2, h3, _⟩ := hl nm hnm
      exact ⟨nm, hnm, h3, h2⟩
  choose nm hnm hlen hsum using hnm
  have hnum : ∀ l : Fin T.N, s.sizes l = (M l).p := fun l => by
    rw [hsz]
    exact dif_pos l.2
  have hnum' : ∀ l : Fin T.N, (LeadBasis.mk M sg).num l = (nm l).sum := fun l => by
    rw [hsum]
    exact dif_pos l.2
  have hu := C116_unitary hT hB h
  have hflat : ∀ (l : Fin T.N) (F : ℕ → ℝ), ∑ x : Fin (P l).nb, ∑ a ∈ range ((nm l).getD x 0), F (((nm l).take x).sum + a) = ∑ a ∈ range ((LeadBasis.mk M sg).num l), F a := by
    intro l F
    rw [hnum', ← sum_blocks]
    exact (Fintype.sum_equiv (finCongr (hlen l)) _ _ fun x => rfl).symm
  refine ⟨nm, fun l k x y => ∑ a ∈ range ((nm l).getD x 0), ∑ b ∈ range ((nm k).getD y 0), normSq (S l (((nm l).take x).sum + a) k (((nm k).take y).sum + b)), fun l => ⟨hnm l, hlen l, hsum l⟩, ?_, ?_, ?_⟩
  · intro l k hl hk x y
    exact C55_block_transmission hs hl hk ((hbs l).trans (hnm l)) ((hbs k).trans (hnm k)) (by rw [hnum, hsum]) (by rw [hnum, hsum]) (by rw [hlen]; exact x.2) (by rw [hlen]; exact y.2)
  · intro k y
    have h1 : ∀ b ∈ range ((nm k).getD y 0), ((nm k).take y).sum + b < (LeadBasis.mk M sg).num k := by
      intro b hb
      have := block_le (nm k) y (by rw [hlen]; exact y.2)
      have := Finset.mem_range.mp hb
      rw [hnum']
      omega
    rw [Finset.sum_congr rfl fun l _ => hflat l fun a => ∑ b ∈ range ((nm k).getD y 0), normSq (S l a k (((nm k).take y).sum + b))]
    rw [Finset.sum_congr rfl fun l _ => Finset.sum_comm, Finset.sum_comm, Finset.sum_congr rfl fun b hb => unitary_col hu k.2 (h1 b hb)]
    simp
  · intro l x
    have h1 : ∀ a ∈ range ((nm l).getD x 0), ((nm l).take x).sum + a < (LeadBasis.mk M sg).num l := by
      intro b hb
      have := block_le (nm l) x (by rw [hlen]; exact x.2)
      have := Finset.mem_range.mp hb
      rw [hnum']
      omega
    have h2 : ∀ k : Fin T.N, ∑ y : Fin (P k).nb, ∑ a ∈ range ((nm l).getD x 0), ∑ b ∈ range ((nm k).getD y 0), normSq (S l (((nm l).take x).sum + a) k (((nm k).take y).sum + b)) =
        ∑ a ∈ range ((nm l).getD x 0), ∑ b ∈ range ((LeadBasis.mk M sg).num k), normSq (S l (((nm l).take x).sum + a) k b) := by
      intro k
      rw [Finset.sum_comm]
      exact Finset.sum_congr rfl fun a _ => hflat k fun b => normSq (S l (((nm l).take x).sum + a) k b)
    rw [Finset.sum_congr rfl fun k _ => h2 k, Finset.sum_comm, Finset.sum_congr rfl fun b hb => unitary_row hu l.2 (h1 b hb)]
    simp

/-- C194.  If the leads have projectors to the eigenspaces of a conserved quantity, then for every block of a lead the transmissions into all the blocks of all the leads with the same value of the quantity add up to the
number of modes of the block; and so do the transmissions from all of these blocks. -/
theorem C194_transmission {e : ModesNum} (hQ : Conserved T q Q Qm) (hT : T.Ok) (ho : LeadsOk e T E) {M : (l : Fin T.N) → LeadModes (T.lead l).n (T.lead l).m} (hM : Computed e T E M)
    {P : (l : Fin T.N) → Projectors (T.lead l).n} (hP : ∀ l, (T.lead l).projectors = some (P l)) {val : (l : Fin T.N) → Fin (P l).nb → ℝ}
    (hval : ∀ l x, Q l * (P l).proj x = (val l x : ℂ) • (P l).proj x) {sg : (l : Fin T.N) → Fin (M l).p ⊕ Fin (M l).p → ℂ} (hB : BasisOk E ⟨M, sg⟩) {S : FullS} (h : IsSmatrix E ⟨M, sg⟩ S)
    {s : SMat} (hs : PartOf s S) (hsz : s.sizes = (LeadBasis.mk M sg).num) (hbs : ∀ l : Fin T.N, s.blockSizes l = (M l).blockNmodes) (hhop : ∀ l, (T.lead l).hop ≠ 0)
    (hout : ∀ l : Fin T.N, (l : ℕ) ∈ s.outLeads) (hin : ∀ l : Fin T.N, (l : ℕ) ∈ s.inLeads) :
    ∃ (nm : Fin T.N → List ℕ) (t : (l k : Fin T.N) → Fin (P l).nb → Fin (P k).nb → ℝ), (∀ l, (M l).blockNmodes = some (nm l) ∧ (nm l).length = (P l).nb) ∧
      (∀ (l k : Fin T.N) (x : Fin (P l).nb) (y : Fin (P k).nb), transmissionSel s (.block l x) (.block k y) = .ok (t l k x y)) ∧
      (∀ (k : Fin T.N) (y : Fin (P k).nb), ∑ l : Fin T.N, ∑ x with val l x = val k y, t l k x y = (nm k).getD y 0) ∧
      ∀ (l : Fin T.N) (x : Fin (P l).nb), ∑ k : Fin T.N, ∑ y with val k y = val l x, t l k x y = (nm l).getD x 0 := by
  obtain ⟨nm, t, h1, h2, h3, h4⟩ := block_sums hT ho hM hP hB h hs hsz hbs hhop
  have hz : ∀ (l k : Fin T.N) x y, val l x ≠ val k y → t l k x y = 0 := by
    intro l k x y hne
    have e1 := h2 l k (hout l) (hin k) x y
    have e2 := C190_transmission hQ hT ho hM hP hval hB h hs hsz hbs (hout l) (hin k) (hhop l) (hhop k) x y hne
    rw [e1] at e2
    exact Except.ok.inj e2
  refine ⟨nm, t, fun l => ⟨(h1 l).1, (h1 l).2.1⟩, fun l k => h2 l k (hout l) (hin k), fun k y => ?_, fun l x => ?_⟩
  · rw [← h3 k y]
    refine Finset.sum_congr rfl fun l _ => ?_
    rw [Finset.sum_filter]
    refine Finset.sum_congr rfl fun x _ => ?_
    split_ifs with hc
    · rfl
    · exact (hz l k x y hc).symm
  · rw [← h4 l x]
    refine Finset.sum_congr rfl fun k _ => ?_
    rw [Finset.sum_filter]
    refine Finset.sum_congr rfl fun y _ => ?_
    split_ifs with hc
    · rfl
    · exact (hz l k x y fun h => hc h.symm).symm

/-- C194 for what `smatrix` returns: the scattering matrix with all leads, whenever the system has no bound states at the energy. -/
theorem C194_smatrix {e : ModesNum} (hQ : Conserved T q Q Qm) (hT : T.Ok) (ho : LeadsOk e T E) {M : (l : Fin T.N) → LeadModes (T.lead l).n (T.lead l).m} (hM : Computed e T E M)
    (hn : NoBoundState T E) (hif : ∀ l, (T.lead l).interface ≠ []) (hhop : ∀ l, (T.lead l).hop ≠ 0)
    {P : (l : Fin T.N) → Projectors (T.lead l).n} (hP : ∀ l, (T.lead l).projectors = some (P l)) {val : (l : Fin T.N) → Fin (P l).nb → ℝ}
    (hval : ∀ l x, Q l * (P l).proj x = (val l x : ℂ) • (P l).proj x) (Sig) {outLeads inLeads : Option (List ℕ)} {check : Bool} {ls : LinearSys ℂ} {kv o i : List ℕ}
    (h : smatrixSetup (T.toSys M Sig) (E : ℂ) outLeads inLeads check = .ok (ls, kv, o, i)) {X : ℕ → ℕ → ℂ} (hX : Solves ls X) {s : SMat}
    (hdata : ∀ p c r, kv[p]? = some r → s.data p c = X r c) (hN : s.nLeads = T.N) (hso : s.outLeads = o) (hsi : s.inLeads = i) (hsz : ∀ l : Fin T.N, s.sizes l = (M l).p)
    (hsz' : ∀ l, T.N ≤ l → s.sizes l = 0) (hbs : ∀ l : Fin T.N, s.blockSizes l = (M l).blockNmodes) (hout : ∀ l < T.N, l ∈ o) (hin : ∀ l < T.N, l ∈ i) :
    ∃ (nm : Fin T.N → List ℕ) (t : (l k : Fin T.N) → Fin (P l).nb → Fin (P k).nb → ℝ), (∀ l, (M l).blockNmodes = some (nm l) ∧ (nm l).length = (P l).nb) ∧
      (∀ (l k : Fin T.N) (x : Fin (P l).nb) (y : Fin (P k).nb), transmissionSel s (.block l x) (.block k y) = .ok (t l k x y)) ∧
      (∀ (k : Fin T.N) (y : Fin (P k).nb), ∑ l : Fin T.N, ∑ x with val l x = val k y, t l k x y = (nm k).getD y 0) ∧
      ∀ (l : Fin T.N) (x : Fin (P l).nb), ∑ k : Fin T.N, ∑ y with val k y = val l x, t l k x y = (nm l).getD x 0 := by
  rcases Nat.eq_zero_or_pos T.N with h0 | h0
  · have : IsEmpty (Fin T.N) := by rw [h0]; infer_instance
    exact ⟨fun l => isEmptyElim l, fun l => isEmptyElim l, fun l => isEmptyElim l, fun l => isEmptyElim l, fun l => isEmptyElim l, fun l => isEmptyElim l⟩
  obtain ⟨_, _, _, _, _, sg, _, hB, S, hS⟩ := C116_succeeds hT ho hM hn hif hhop Sig (o := [0]) (i := [0]) (by simp) (by simp) (by simp) (by simp) (by simpa using h0) check
  have hsz0 : s.sizes = (LeadBasis.mk M sg).num := by
    funext j
    by_cases hj : j < T.N
    · rw [LeadBasis.num, dif_pos hj]
      exact hsz ⟨j, hj⟩
    · rw [LeadBasis.num, dif_neg hj]
      exact hsz' j (not_lt.mp hj)
  have hp := smatrix_part hT hB Sig h (.inl hhop) hX hS hdata hN hso hsi hsz0
  exact C194_transmission hQ hT ho hM hP hval hB hS hp hsz0 hbs hhop (fun l => by rw [hso]; exact hout l l.2) fun l => by rw [hsi]; exact hin l l.2

/-- The system of two orbitals between two leads with two blocks each: what leaves a block of a lead is the same block of the two leads. -/
theorem C194_example : ∃ M : (l : Fin cnOpen.N) → LeadModes (cnOpen.lead l).n (cnOpen.lead l).m, Computed exM cnOpen 0 M ∧ ∀ Sig, ∃ (s : SMat) (ls : LinearSys ℂ) (kv : List ℕ) (X : ℕ → ℕ → ℂ),
    (∀ l : Fin cnOpen.N, s.sizes l = (M l).p ∧ s.blockSizes l = (M l).blockNmodes) ∧
    smatrixSetup (cnOpen.toSys M Sig) ((0 : ℝ) : ℂ) (some [0, 1]) (some [0, 1]) true = .ok (ls, kv, [0, 1], [0, 1]) ∧ Solves ls X ∧ (∀ p c r, kv[p]? = some r → s.data p c = X r c) ∧
    ∃ (nm : Fin 2 → List ℕ) (t : Fin 2 → Fin 2 → Fin 2 → Fin 2 → ℝ), (∀ l : Fin 2, (M l).blockNmodes = some (nm l) ∧ (nm l).length = 2) ∧
      (∀ l k x y : Fin 2, transmissionSel s (.block l x) (.block k y) = .ok (t l k x y)) ∧ ∀ k y : Fin 2, t 0 k y y + t 1 k y y = (nm k).getD y 0 := by
  have hne : trHop ≠ 0 := by
    intro h
    have := congrFun (congrFun h 0) 0
    simp [trHop] at this
  obtain ⟨M, hM⟩ : ∃ M, Computed exM cnOpen 0 M := exComputed
  refine ⟨M, hM, fun Sig => ?_⟩
  obtain ⟨ls, kv, h, ⟨X, hX⟩, _, sg, _, hB, S, hS⟩ := C116_succeeds cnOpen_ok (exLeads : LeadsOk exM cnOpen 0) hM cn_noBound (fun l => by change [0] ≠ []; simp) (fun l => hne) Sig (o := [0, 1]) (i := [0, 1])
    (by simp) (by simp) (by simp) (by simp) (by
      intro l hl
      change l < 2
      simp at hl
      omega) true
  refine ⟨⟨fun p c => X (kv.getD p 0) c, 2, [0, 1], [0, 1], (LeadBasis.mk M sg).num, fun l => if h : l < 2 then (M ⟨l, h⟩).blockNmodes else none, true⟩, ls, kv, X, fun l => ⟨?_, ?_⟩, h, hX, ?_, ?_⟩
  · exact dif_pos l.2
  · exact dif_pos l.2
  · intro p c r hr
    change X (kv.getD p 0) c = X r c
    rw [List.getD_eq_getElem?_getD, hr, Option.getD_some]
  · have hall : ∀ l < cnOpen.N, l ∈ [0, 1] := by
      intro l hl
      change l < 2 at hl
      interval_cases l <;> simp
    obtain ⟨nm, t, h1, h2, h3, _⟩ := C194_smatrix (P := fun _ => trProj) (val := fun _ x => ((x : ℕ) : ℝ)) cn_conserved cnOpen_ok (exLeads : LeadsOk exM cnOpen 0) hM cn_noBound
      (fun l => by change [0] ≠ []; simp) (fun l => hne) (fun l => rfl) (by
        intro l x
        change Fin 2 at x
        ext i j
        change Fin 2 at i
        change (cnQ * (of fun i _ => if i = x then 1 else 0 : Matrix (Fin 2) (Fin 1) ℂ)) i j = (((x : ℕ) : ℝ) : ℂ) * (if i = x then 1 else 0)
        rw [cnQ, diagonal_mul]
        fin_cases x <;> fin_cases i <;> simp) Sig h hX
      (s := ⟨fun p c => X (kv.getD p 0) c, 2, [0, 1], [0, 1], (LeadBasis.mk M sg).num, fun l => if h : l < 2 then (M ⟨l, h⟩).blockNmodes else none, true⟩)
      (by
        intro p c r hr
        change X (kv.getD p 0) c = X r c
        rw [List.getD_eq_getElem?_getD, hr, Option.getD_some]) rfl rfl rfl (fun l => dif_pos l.2) (fun l hl => dif_neg (not_lt.mpr hl)) (fun l => dif_pos l.2) hall hall
    refine ⟨nm, t, h1, h2, fun k y => ?_⟩
    have h4 := h3 k y
    change ∑ l : Fin 2, ∑ x ∈ Finset.univ.filter (fun x : Fin 2 => ((x : ℕ) : ℝ) = ((y : ℕ) : ℝ)), t l k x y = _ at h4
    rw [← h4, Fin.sum_univ_two]
    have h5 : ∀ f : Fin 2 → ℝ, ∑ x ∈ Finset.univ.filter (fun x : Fin 2 => ((x : ℕ) : ℝ) = ((y : ℕ) : ℝ)), f x = f y := by
      intro f
      have : (Finset.univ.filter fun x : Fin 2 => ((x : ℕ) : ℝ) = ((y : ℕ) : ℝ)) = {y} := by
        ext x
        simp [Fin.ext_iff]
      rw [this, Finset.sum_singleton]
    rw [h5, h5]

end Kwant.Scatt
