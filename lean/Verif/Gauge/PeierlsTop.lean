import Verif.Gauge.PeierlsMain

/-! C183: the theorems about `add_peierls_phase`. -/

set_option linter.unusedSectionVars false

namespace Kwant.Peierls
open Kwant Kwant.Assoc Kwant.Builder Kwant.Final

variable {S V Fn N A X K D : Type} [LinearOrder S] [DecidableEq N]
variable {E : Env S V N A X K} {hc : V → V} {C : Calls S V Fn N A X}

/-- Specification: the parameter `phi` can be added to the hoppings of `H`: it is a proper name different from `_site0` and `_site1`,
the parameters of every function on a hopping can be determined, and none of its parameters after the two sites has one of these
names (or appears twice). -/
def NameOK {G : Type} [AddCommGroup G] [DecidableEq G] (E : Env S V N A X K) (sym : Symmetry S G) (hc : V → V)
    (sig : Fn → Option (List N)) (phi : N) (H : HMap S V Fn) : Prop :=
  E.valid phi = true ∧ E.site0 ≠ E.site1 ∧ phi ≠ E.site0 ∧ phi ≠ E.site1 ∧
  ∀ x y f, getHop sym hc H x y = .ok (.func f) → ∃ ns, sig f = some ns ∧ (ns.drop 2).Nodup ∧ phi ∉ ns.drop 2 ∧
    E.site0 ∉ ns.drop 2 ∧ E.site1 ∉ ns.drop 2

theorem constSig_iff (phi : N) : constSig E phi ≠ none ↔ E.valid phi = true ∧ E.site0 ≠ E.site1 ∧ phi ≠ E.site0 ∧ phi ≠ E.site1 := by
  unfold constSig mkSig
  have : ([E.site0, E.site1, phi].Nodup ∧ E.valid phi = true) ↔ E.valid phi = true ∧ E.site0 ≠ E.site1 ∧ phi ≠ E.site0 ∧ phi ≠ E.site1 := by
    simp only [List.nodup_cons, List.mem_cons, List.not_mem_nil, or_false, not_or, not_false_eq_true, List.nodup_nil, and_true, ne_eq]
    constructor
    · rintro ⟨⟨⟨a, b⟩, c⟩, d⟩; exact ⟨d, a, fun e => b e.symm, fun e => c e.symm⟩
    · rintro ⟨d, a, b, c⟩; exact ⟨⟨⟨a, fun e => b e.symm⟩, fun e => c e.symm⟩, d⟩
  by_cases h : [E.site0, E.site1, phi].Nodup ∧ E.valid phi = true
  · rw [if_pos h]; simp [this.mp h]
  · rw [if_neg h]
    simp only [ne_eq, not_true_eq_false, false_iff]
    intro hx; exact h (this.mpr hx)

theorem wrapSig_iff {sig : Fn → Option (List N)} {phi : N} (f : Fn) (hcs : constSig E phi ≠ none) :
    wrapSig E sig phi f ≠ none ↔ ∃ ns, sig f = some ns ∧ (ns.drop 2).Nodup ∧ phi ∉ ns.drop 2 ∧
      E.site0 ∉ ns.drop 2 ∧ E.site1 ∉ ns.drop 2 := by
  obtain ⟨hv, h01, hp0, hp1⟩ := (constSig_iff phi).mp hcs
  unfold wrapSig
  cases hs : sig f with
  | none => simp
  | some ns =>
    simp only [Option.some.injEq, exists_eq_left', mkSig]
    have : (([E.site0, E.site1] ++ ns.drop 2 ++ [phi]).Nodup ∧ E.valid phi = true) ↔
        ((ns.drop 2).Nodup ∧ phi ∉ ns.drop 2 ∧ E.site0 ∉ ns.drop 2 ∧ E.site1 ∉ ns.drop 2) := by
      generalize ns.drop 2 = l
      simp only [List.cons_append, List.nil_append, List.nodup_cons, List.mem_cons, List.mem_append, List.not_mem_nil, or_false, not_or,
        List.nodup_append, List.nodup_nil, not_false_eq_true, and_true, hv, ne_eq, true_and]
      constructor
      · rintro ⟨⟨_, h1, _⟩, ⟨h2, _⟩, h3, h4⟩
        exact ⟨h3, fun hm => h4 _ hm phi rfl rfl, h1, h2⟩
      · rintro ⟨h1, h2, h3, h4⟩
        refine ⟨⟨h01, h3, fun e => hp0 e.symm⟩, ⟨h4, fun e => hp1 e.symm⟩, h1, ?_⟩
        rintro a ha b rfl rfl
        exact h2 ha
    by_cases h : ([E.site0, E.site1] ++ ns.drop 2 ++ [phi]).Nodup ∧ E.valid phi = true
    · rw [if_pos h]; simp only [ne_eq, reduceCtorEq, not_false_eq_true, true_iff]; exact this.mp h
    · rw [if_neg h]; simp only [ne_eq, not_true_eq_false, false_iff]; exact fun hx => h (this.mpr hx)

theorem nameOK_iff {G : Type} [AddCommGroup G] [DecidableEq G] {sym : Symmetry S G} {H : HMap S V Fn} (h : Reachable sym H)
    (sig : Fn → Option (List N)) (phi : N) :
    NameOK E sym hc sig phi H ↔ constSig E phi ≠ none ∧ AllWrap E sig phi (hoppingValuePairs H) := by
  obtain ⟨hl, hw⟩ := h.wf
  have hget : ∀ a b v, ((a, b), v) ∈ hoppingValuePairs H → getHop sym hc H a b = .ok v := by
    intro a b v hm
    obtain ⟨st, he, hst⟩ := (mem_hoppingValuePairs hw.toNF).mp hm
    rw [getHop_ok_iff hw hl, toFd2_of_fd hl (hw.which_zero he)]
    refine ⟨(hw.pair a b st he).1, ?_⟩
    simp only [edgeVal, he]
    cases st <;> simp_all [Stored.toVal?]
  constructor
  · rintro ⟨a, b, c, d, e⟩
    have hcs := (constSig_iff (E := E) phi).mpr ⟨a, b, c, d⟩
    refine ⟨hcs, ?_⟩
    rintro ⟨⟨x, y⟩, v⟩ hm f rfl
    exact (wrapSig_iff f hcs).mpr (e x y f (hget x y _ hm))
  · rintro ⟨hcs, hall⟩
    obtain ⟨a, b, c, d⟩ := (constSig_iff phi).mp hcs
    refine ⟨a, b, c, d, fun x y f hf => ?_⟩
    obtain ⟨hne, he⟩ := (getHop_ok_iff hw hl).mp hf
    have hst : Builder.E H (sym.toFd2 x y).1 (sym.toFd2 x y).2 = some (.func f) := by
      simp only [edgeVal] at he
      split at he
      · cases he
      · cases he
      · next h1 => cases he; exact h1
      · split at he <;> cases he
    have hm : (sym.toFd2 x y, Val.func f) ∈ hoppingValuePairs H :=
      (mem_hoppingValuePairs hw.toNF).mpr ⟨_, hst, rfl⟩
    exact (wrapSig_iff f hcs).mp (hall _ hm f rfl)

/-- The loop over the leads. -/
theorem addLeads_spec (sig : Fn → Option (List N)) (phi : N) : ∀ (leads : List (ALead S V Fn D)) (i : ℕ) (ls : List (PLead S V Fn D)),
    addLeads E sig phi i leads = .ok ls → ls.length = leads.length ∧
      ∀ k l, leads[k]? = some l → ∃ sym H disc iface pad consts H', l = .bld sym H disc iface pad ∧
        addPhase E sym sig (E.leadName phi (i + k)) H = .ok (consts, H') ∧
        ls[k]? = some ⟨sym, consts, H', disc.peierls, pySorted iface, pySorted pad⟩ := by
  intro leads
  induction leads with
  | nil => intro i ls h; cases h; exact ⟨rfl, fun k l hk => by simp at hk⟩
  | cons l rest ih =>
    intro i ls h
    cases l with
    | other => cases h
    | bld sym H disc iface pad =>
      simp only [addLeads] at h
      cases ha : addPhase E sym sig (E.leadName phi i) H with
      | error e => rw [ha] at h; cases h
      | ok r =>
        obtain ⟨consts, H'⟩ := r
        rw [ha] at h
        simp only at h
        cases hb : addLeads E sig phi (i + 1) rest with
        | error e => rw [hb] at h; cases h
        | ok ls' =>
          rw [hb] at h
          cases h
          obtain ⟨h1, h2⟩ := ih (i + 1) ls' hb
          refine ⟨by simp [h1], fun k l hk => ?_⟩
          cases k with
          | zero =>
            simp only [List.getElem?_cons_zero, Option.some.injEq] at hk
            exact ⟨sym, H, disc, iface, pad, consts, H', hk.symm, by simpa using ha, by simp⟩
          | succ k =>
            rw [List.getElem?_cons_succ] at hk
            obtain ⟨sym', H2, d2, i2, p2, c2, H2', e1, e2, e3⟩ := h2 k l hk
            refine ⟨sym', H2, d2, i2, p2, c2, H2', e1, ?_, by rw [List.getElem?_cons_succ]; exact e3⟩
            rw [show i + (k + 1) = i + 1 + k by omega]
            exact e2

theorem addLeads_iff (hc : V → V) (sig : Fn → Option (List N)) (phi : N) : ∀ (leads : List (ALead S V Fn D)) (i : ℕ),
    (∀ l ∈ leads, ∀ sym H disc iface pad, l = .bld sym H disc iface pad → Reachable sym H) →
    ((∃ ls, addLeads E sig phi i leads = .ok ls) ↔ ∀ k l, leads[k]? = some l →
      ∃ sym H disc iface pad, l = .bld sym H disc iface pad ∧ NameOK E sym hc sig (E.leadName phi (i + k)) H) := by
  intro leads
  induction leads with
  | nil => intro i _; simp [addLeads]
  | cons l rest ih =>
    intro i hr
    have ih := ih (i + 1) (fun l hl => hr l (by simp [hl]))
    have hsplit : (∀ k l', (l :: rest)[k]? = some l' →
        ∃ sym H disc iface pad, l' = .bld sym H disc iface pad ∧ NameOK E sym hc sig (E.leadName phi (i + k)) H) ↔
        (∃ sym H disc iface pad, l = .bld sym H disc iface pad ∧ NameOK E sym hc sig (E.leadName phi i) H) ∧
        (∀ k l', rest[k]? = some l' →
          ∃ sym H disc iface pad, l' = .bld sym H disc iface pad ∧ NameOK E sym hc sig (E.leadName phi (i + 1 + k)) H) := by
      constructor
      · intro h
        refine ⟨by simpa using h 0 l (by simp), fun k l' hk => ?_⟩
        have := h (k + 1) l' (by simpa using hk)
        rwa [show i + (k + 1) = i + 1 + k by omega] at this
      · rintro ⟨h1, h2⟩ k l' hk
        cases k with
        | zero => simp only [List.getElem?_cons_zero, Option.some.injEq] at hk; subst hk; simpa using h1
        | succ k =>
          have := h2 k l' (by simpa using hk)
          rwa [show i + (k + 1) = i + 1 + k by omega]
    rw [hsplit, ← ih]
    cases l with
    | other => simp [addLeads]
    | bld sym H disc iface pad =>
      have hR := hr _ List.mem_cons_self sym H disc iface pad rfl
      obtain ⟨f1, f2⟩ := addPhase_effect (E := E) hc hR sig (E.leadName phi i)
      have hn := nameOK_iff (E := E) (hc := hc) hR sig (E.leadName phi i)
      by_cases hx : NameOK E sym hc sig (E.leadName phi i) H
      · obtain ⟨consts, H', he, _⟩ := f2 (hn.mp hx).1 (hn.mp hx).2
        simp only [addLeads, he]
        constructor
        · rintro ⟨ls, hls⟩
          refine ⟨⟨sym, H, disc, iface, pad, rfl, hx⟩, ?_⟩
          cases hb : addLeads E sig phi (i + 1) rest with
          | error e => rw [hb] at hls; cases hls
          | ok ls' => exact ⟨ls', rfl⟩
        · rintro ⟨_, ls', hls'⟩
          rw [hls']
          exact ⟨_, rfl⟩
      · have he : addPhase E sym sig (E.leadName phi i) H = .error .value := by
          apply f1
          rw [hn] at hx
          tauto
        simp only [addLeads, he, reduceCtorEq, exists_false, false_iff]
        rintro ⟨⟨sym', H2, d2, i2, p2, e, hx'⟩, _⟩
        injection e with e1 e2 e3 e4 e5
        subst e1 e2
        exact hx hx'

/-- **C183.** `add_peierls_phase` succeeds exactly if all leads are `BuilderLead`s and the names `phi`, `phi_lead0`, ... can be added to
the parameters of the hoppings; the new system keeps conservation law, particle-hole and chiral symmetry, but not time reversal. -/
theorem C183_succeeds {G : Type} [AddCommGroup G] [DecidableEq G] {sym : Symmetry S G} {H : HMap S V Fn} (hc : V → V) (h : Reachable sym H)
    (sig : Fn → Option (List N)) (phi : N) (disc : Disc D) (leads : List (ALead S V Fn D))
    (hr : ∀ l ∈ leads, ∀ sym H disc iface pad, l = .bld sym H disc iface pad → Reachable sym H) :
    ((∃ B, addPeierls E sym sig phi H disc leads = .ok B) ↔ NameOK E sym hc sig phi H ∧ ∀ k l, leads[k]? = some l →
      ∃ sym H disc iface pad, l = .bld sym H disc iface pad ∧ NameOK E sym hc sig (E.leadName phi k) H) ∧
    ∀ B, addPeierls E sym sig phi H disc leads = .ok B →
      B.disc.timeReversal = none ∧ B.disc.conservationLaw = disc.conservationLaw ∧ B.disc.particleHole = disc.particleHole ∧
      B.disc.chiral = disc.chiral ∧ B.leads.length = leads.length := by
  have hL := addLeads_iff (E := E) hc sig phi leads 0 hr
  simp only [Nat.zero_add] at hL
  have hn := nameOK_iff (E := E) (hc := hc) h sig phi
  obtain ⟨f1, f2⟩ := addPhase_effect (E := E) hc h sig phi
  constructor
  · rw [← hL, hn]
    unfold addPeierls
    cases hcs : constSig E phi with
    | none => simp
    | some ns =>
      simp only [ne_eq, reduceCtorEq, not_false_eq_true, true_and]
      cases hb : addLeads E sig phi 0 leads with
      | error e => simp
      | ok ls =>
        simp only [Except.ok.injEq, exists_eq', and_true]
        by_cases hall : AllWrap E sig phi (hoppingValuePairs H)
        · obtain ⟨c, H', he, _⟩ := f2 (by rw [hcs]; simp) hall
          rw [he]
          simp [hall]
        · rw [f1 (.inr hall)]
          simp [hall]
  · intro B hB
    unfold addPeierls at hB
    split at hB
    · cases hB
    · split at hB
      · cases hB
      · next ls hb =>
        split at hB
        · cases hB
        · cases hB
          exact ⟨rfl, rfl, rfl, rfl, (addLeads_spec sig phi leads 0 ls hb).1⟩

/-- Lists sorted strictly with the same elements are equal. -/
theorem sorted_ext {l l' : List S} (h : l.Pairwise (· < ·)) (h' : l'.Pairwise (· < ·)) (hm : ∀ s, s ∈ l ↔ s ∈ l') : l = l' := by
  have hn : l.Nodup := h.imp fun h => ne_of_lt h
  have hn' : l'.Nodup := h'.imp fun h => ne_of_lt h
  have hp : l.Perm l' := (List.perm_ext_iff_of_nodup hn hn').mpr hm
  exact hp.eq_of_pairwise (fun a b _ _ h1 h2 => absurd (lt_trans h1 h2) (lt_irrefl _)) h h'

/-- **C183.** A finite system with phases: same sites in the same order; each value of a site is unchanged; the hopping `(a, b)` of the
builder is multiplied with `phi(a, b)`, its conjugate accordingly. -/
theorem C183_finite {H : HMap S V Fn} (h : Reachable (noSymmetry S) H) (hinv : ∀ v, hc (hc v) = v) (junk : ℕ → ℤ) (phi : N)
    {disc : Disc D} {leads : List (ALead S V Fn D)} {B : PBuilder S V Fn D}
    (hB : addPeierls E (noSymmetry S) C.sig phi H disc leads = .ok B) :
    ∃ sys sys', finalizeFinite C junk H = .ok sys ∧ finalizeFinite (calls E C phi B.consts) junk B.H = .ok sys' ∧
      sys'.sites = sys.sites ∧
      ∀ (params : List (N × A)) (p : A), Assoc.get params phi = some p →
      ∀ (i j : ℕ) (a b : S), sys.sites[i]? = some a → sys.sites[j]? = some b →
        sys'.hamiltonian (noSymmetry S) hc (calls E C phi B.consts) i i [] params = sys.hamiltonian (noSymmetry S) hc C i i [] params ∧
        ((a, b) ∈ hoppings H →
          sys'.hamiltonian (noSymmetry S) hc (calls E C phi B.consts) i j [] params =
            withPhase E p (a, b) (sys.hamiltonian (noSymmetry S) hc C i j [] params) ∧
          sys'.hamiltonian (noSymmetry S) hc (calls E C phi B.consts) j i [] params =
            (withPhase E p (a, b) (sys.hamiltonian (noSymmetry S) hc C i j [] params)).map hc) ∧
        (∀ (conj : K → K) (u : S → S → K), GoodPhase E (noSymmetry S) conj p u → (∀ w k, hc (E.mul w k) = E.mul (hc w) (conj k)) → i ≠ j →
          sys'.hamiltonian (noSymmetry S) hc (calls E C phi B.consts) i j [] params =
            (sys.hamiltonian (noSymmetry S) hc C i j [] params).map fun w => E.mul w (u a b)) := by
  obtain ⟨consts, H', hok, hBeq⟩ : ∃ consts H', addPhase E (noSymmetry S) C.sig phi H = .ok (consts, H') ∧ B.consts = consts ∧ B.H = H' := by
    unfold addPeierls at hB
    split at hB
    · cases hB
    · split at hB
      · cases hB
      · split at hB
        · cases hB
        · next c H' ha => cases hB; exact ⟨c, H', ha, rfl, rfl⟩
  obtain ⟨rfl, rfl⟩ := hBeq
  obtain ⟨f1, f2⟩ := addPhase_effect (E := E) hc h C.sig phi
  have h1 : constSig E phi ≠ none := fun hx => by rw [f1 (.inl hx)] at hok; cases hok
  have h2 : AllWrap E C.sig phi (hoppingValuePairs H) := by
    by_contra hx
    rw [f1 (.inr hx)] at hok; cases hok
  obtain ⟨c, H', e, P⟩ := f2 h1 h2
  rw [hok] at e
  cases e
  obtain ⟨sys, g1, g2, g3, _⟩ := C40_sites (C := C) h junk
  obtain ⟨sys_, g1_, g4⟩ := C41_hamiltonian (C := C) (hc := hc) h junk
  rw [g1] at g1_; cases g1_
  obtain ⟨sys', g1', g2', g3', _⟩ := C40_sites (C := calls E C phi B.consts) P.reach junk
  obtain ⟨sys'_, g1'_, g4'⟩ := C41_hamiltonian (C := calls E C phi B.consts) (hc := hc) P.reach junk
  rw [g1'] at g1'_; cases g1'_
  have hHS : ∀ s, HasSite (noSymmetry S) B.H s ↔ HasSite (noSymmetry S) H s := fun s => by
    unfold HasSite; rw [P.siteIff]
  have hHH : ∀ x y, HasHop (noSymmetry S) B.H x y ↔ HasHop (noSymmetry S) H x y := fun x y => P.hopIff x y
  have hsites : sys'.sites = sys.sites := sorted_ext g2' g2 fun s => by rw [g3', g3, hHS]
  refine ⟨sys, sys', g1, g1', hsites, fun params p hp i j a b ha hb => ?_⟩
  have ha' : sys'.sites[i]? = some a := by rw [hsites]; exact ha
  have hb' : sys'.sites[j]? = some b := by rw [hsites]; exact hb
  have hfd : ∀ x y : S, (noSymmetry S).toFd2 x y = (x, y) := fun x y => rfl
  obtain ⟨⟨v, k1, k2⟩, _, _, k3, k4⟩ := g4 i j a b ha hb
  obtain ⟨⟨v', k1', k2'⟩, _, _, k3', k4'⟩ := g4' i j a b ha' hb'
  obtain ⟨_, _, _, r3, r4⟩ := g4 j i b a hb ha
  obtain ⟨_, _, _, r3', r4'⟩ := g4' j i b a hb' ha'
  refine ⟨?_, ?_, ?_⟩
  · rw [k2 [] params (.inl rfl), k2' [] params (.inl rfl)]
    have := P.site a v k1
    rw [this] at k1'
    cases k1'
    exact siteValue_plain v a [] params
  · intro hm
    obtain ⟨hl, hw⟩ := h.wf
    have hm' : (noSymmetry S).toFd2 a b ∈ hoppings H := hm
    have hhop : HasHop (noSymmetry S) H a b :=
      (containsHop_iff_hoppings hw hl).mpr ⟨a, b, hm, .inl ⟨0, rfl, rfl⟩⟩
    have hne : a ≠ b := by
      rintro rfl
      unfold HasHop at hhop
      simp [containsHop] at hhop
    have hij : i ≠ j := by
      rintro rfl
      rw [ha] at hb
      exact hne (Option.some.inj hb)
    obtain ⟨w, q1, q2⟩ := k3 hij hhop
    obtain ⟨w', q1', q2'⟩ := k3' hij ((hHH a b).mpr hhop)
    have key := value_any (C := C) h P hinv h1 h2 hm' hp q1 q1'
    rw [q2 [] params (.inl rfl), q2' [] params (.inl rfl)]
    refine ⟨key, ?_⟩
    have s1 := C23_hermitian P.reach hinv _ _ _ q1'
    have hhop' : HasHop (noSymmetry S) B.H b a := by
      have := ((C23_get_iff_contains (hc := hc) P.reach b a).1).mp ⟨_, s1⟩
      exact this
    obtain ⟨z, z1, z2⟩ := r3' (Ne.symm hij) hhop'
    rw [s1] at z1
    cases z1
    rw [z2 [] params (.inl rfl), hopValue_conj' hinv, key]
    rfl
  · intro conj u hg hmul hij
    by_cases hhop : HasHop (noSymmetry S) H a b
    · obtain ⟨w, q1, q2⟩ := k3 hij hhop
      obtain ⟨w', q1', q2'⟩ := k3' hij ((hHH a b).mpr hhop)
      rw [q2 [] params (.inl rfl), q2' [] params (.inl rfl)]
      exact value_good (C := C) h P hinv h1 h2 hhop hp hg hmul q1 q1'
    · rw [k4 hij hhop [] params (.inl rfl), k4' hij (fun hx => hhop ((hHH a b).mp hx)) [] params (.inl rfl)]
      rfl

end Kwant.Peierls
