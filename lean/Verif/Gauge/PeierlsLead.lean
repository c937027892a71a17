import Verif.Gauge.PeierlsTop

/-! C183: leads and infinite systems with Peierls phases, the parameters, and the dictionary of the gauge. -/

set_option linter.unusedSectionVars false

namespace Kwant.Peierls
open Kwant Kwant.Assoc Kwant.Builder Kwant.Final

variable {S V Fn N A X K D : Type} [LinearOrder S] [DecidableEq N]
variable {E : Env S V N A X K} {hc : V → V} {C : Calls S V Fn N A X}

theorem addPhase_phased {G : Type} [AddCommGroup G] [DecidableEq G] {sym : Symmetry S G} (hc : V → V) {H : HMap S V Fn} (h : Reachable sym H)
    {phi : N} {sig : Fn → Option (List N)} {consts : List ((S × S) × V)} {H' : HMap S V (PFn Fn)}
    (hok : addPhase E sym sig phi H = .ok (consts, H')) :
    constSig E phi ≠ none ∧ AllWrap E sig phi (hoppingValuePairs H) ∧ Phased sym hc H consts H' := by
  obtain ⟨f1, f2⟩ := addPhase_effect (E := E) hc h sig phi
  have h1 : constSig E phi ≠ none := fun hx => by rw [f1 (.inl hx)] at hok; cases hok
  have h2 : AllWrap E sig phi (hoppingValuePairs H) := by
    by_contra hx
    rw [f1 (.inr hx)] at hok; cases hok
  obtain ⟨c, H', e, P⟩ := f2 h1 h2
  rw [hok] at e
  cases e
  exact ⟨h1, h2, P⟩

/-- **C183.** An infinite system (a lead, or a builder with one direction) with phases: it can be finalized exactly if the original one
can; same sites in the same order, values of sites unchanged, each hopping multiplied with its phase (taken in the fundamental domain). -/
theorem C183_infinite {sym : Symmetry S ℤ} {H : HMap S V Fn} (h : Reachable sym H) (ho : OrdInv sym) (hinv : ∀ v, hc (hc v) = v)
    (junk : ℕ → ℤ) (order : Option (List S)) (phi : N) {consts : List ((S × S) × V)} {H' : HMap S V (PFn Fn)}
    (hok : addPhase E sym C.sig phi H = .ok (consts, H')) :
    ((∃ r, finalizeInfinite (calls E C phi consts) sym junk H' order = .ok r) ↔ ∃ r, finalizeInfinite C sym junk H order = .ok r) ∧
    ∀ sys sys' cell cell', finalizeInfinite C sym junk H order = .ok (sys, cell) →
      finalizeInfinite (calls E C phi consts) sym junk H' order = .ok (sys', cell') →
      cell' = cell ∧ sys'.sites = sys.sites ∧
      ∀ (params : List (N × A)) (p : A), Assoc.get params phi = some p →
      ∀ (i j : ℕ) (a b : S), sys.sites[i]? = some a → sys.sites[j]? = some b →
        infHamiltonian hc (calls E C phi consts) sym sys' cell' i i [] params = infHamiltonian hc C sym sys cell i i [] params ∧
        (i ≠ j → sym.toFd2 a b ∈ hoppings H →
          infHamiltonian hc (calls E C phi consts) sym sys' cell' i j [] params =
            withPhase E p (sym.toFd2 a b) (infHamiltonian hc C sym sys cell i j [] params)) ∧
        (∀ (conj : K → K) (u : S → S → K), GoodPhase E sym conj p u → (∀ w k, hc (E.mul w k) = E.mul (hc w) (conj k)) → i ≠ j →
          infHamiltonian hc (calls E C phi consts) sym sys' cell' i j [] params =
            (infHamiltonian hc C sym sys cell i j [] params).map fun w => E.mul w (u a b)) := by
  obtain ⟨h1, h2, P⟩ := addPhase_phased hc h hok
  obtain ⟨hl, hw⟩ := h.wf
  have hw' := P.reach.wf.2
  have hHS : ∀ s, HasSite sym H' s ↔ HasSite sym H s := fun s => by unfold HasSite; rw [P.siteIff]
  have hHH : ∀ x y, HasHop sym H' x y ↔ HasHop sym H x y := fun x y => P.hopIff x y
  have hOn : ∀ a, OnInterface sym H' a ↔ OnInterface sym H a := fun a => by simp only [OnInterface, hHH]
  have hkeys : ∀ a, a ∈ keys H' ↔ a ∈ keys H := by
    intro a
    have e1 : ∀ {F : Type} {H : HMap S V F}, WF sym H → (a ∈ keys H ↔ sym.which a = 0 ∧ HasSite sym H a) := by
      intro F H hw
      constructor
      · intro ha
        refine ⟨hw.fd a ha, ?_⟩
        rw [hasSite_iff, hl.toFd_of_which (hw.fd a ha)]
        exact ha
      · rintro ⟨ha, hs⟩
        rw [hasSite_iff, hl.toFd_of_which ha] at hs
        exact hs
    rw [e1 hw', e1 hw, hHS]
  have hiff : (OrderOK sym H' order ∧ NearestCells sym H') ↔ (OrderOK sym H order ∧ NearestCells sym H) := by
    refine and_congr ?_ ?_
    · cases order with
      | none => exact Iff.rfl
      | some o => simp only [OrderOK, hOn]
    · simp only [NearestCells, hHH]
  refine ⟨?_, ?_⟩
  · rw [(C92_succeeds_iff h ho junk order).1, (C92_succeeds_iff P.reach ho junk order).1, hiff]
  · intro sys sys' cell cell' hr hr'
    obtain ⟨_, _, hcell, R⟩ := rep_of_ok h ho hr
    obtain ⟨_, _, hcell', R'⟩ := rep_of_ok P.reach ho hr'
    have hwith : pySorted (sitesWith sym H') = pySorted (sitesWith sym H) := by
      have n1 : (sitesWith sym H).Nodup := (List.nodup_append.mp ((with_perm sym H).nodup_iff.mpr hw.keys)).1
      have n2 : (sitesWith sym H').Nodup := (List.nodup_append.mp ((with_perm sym H').nodup_iff.mpr hw'.keys)).1
      refine sorted_ext (pySorted_lt n2) (pySorted_lt n1) fun s => ?_
      rw [mem_pySorted, mem_pySorted, mem_with_iff hl hw, mem_with_iff hl hw', hOn]
    have hwithout : pySorted (sitesWithout sym H') = pySorted (sitesWithout sym H) := by
      obtain ⟨_, n1, d1⟩ := List.nodup_append.mp ((with_perm sym H).nodup_iff.mpr hw.keys)
      obtain ⟨_, n2, d2⟩ := List.nodup_append.mp ((with_perm sym H').nodup_iff.mpr hw'.keys)
      have e1 : ∀ {F : Type} {H : HMap S V F}, (∀ a ∈ sitesWith sym H, ∀ b ∈ sitesWithout sym H, a ≠ b) → ∀ s,
          s ∈ sitesWithout sym H ↔ s ∈ keys H ∧ s ∉ sitesWith sym H := by
        intro F H d s
        have hp := (with_perm sym H).mem_iff (a := s)
        rw [List.mem_append] at hp
        constructor
        · intro hs
          exact ⟨hp.mp (.inr hs), fun h => d s h s hs rfl⟩
        · rintro ⟨ha, hb⟩
          exact (hp.mpr ha).resolve_left hb
      refine sorted_ext (pySorted_lt n2) (pySorted_lt n1) fun s => ?_
      rw [mem_pySorted, mem_pySorted, e1 d1, e1 d2, hkeys, mem_with_iff hl hw, mem_with_iff hl hw', hOn]
    have hcs : cellSites sym H' = cellSites sym H := by unfold cellSites; rw [hwith, hwithout]
    have hsites : sys'.sites = sys.sites := by
      rw [R.sites, R'.sites]; unfold sitesOf; rw [hcs, hwith]
    have hcc : cell' = cell := by rw [hcell, hcell', hcs]
    refine ⟨hcc, hsites, fun params p hp i j a b ha hb => ?_⟩
    have ha' : sys'.sites[i]? = some a := by rw [hsites]; exact ha
    have hb' : sys'.sites[j]? = some b := by rw [hsites]; exact hb
    obtain ⟨⟨v, k1, k2⟩, _, _, k3, k4⟩ := C47_hamiltonian (hc := hc) h ho hr i j a b ha hb
    obtain ⟨⟨v', k1', k2'⟩, _, _, k3', k4'⟩ := C47_hamiltonian (hc := hc) P.reach ho hr' i j a b ha' hb'
    rw [hcc] at k3' k4'
    refine ⟨?_, ?_, ?_⟩
    · rw [k2 [] params (.inl rfl), k2' [] params (.inl rfl)]
      have := P.site a v k1
      rw [this] at k1'
      cases k1'
      exact siteValue_plain v a [] params
    · intro hij hm
      have hhop : HasHop sym H a b := (containsHop_iff_hoppings hw hl).mpr ⟨(sym.toFd2 a b).1, (sym.toFd2 a b).2, hm, .inl (by
        refine ⟨sym.which a, ?_, ?_⟩
        · change a = sym.act (sym.which a) (sym.act (-sym.which a) a)
          rw [hl.act_add, add_neg_cancel, hl.act_zero]
        · change b = sym.act (sym.which a) (sym.act (-sym.which a) b)
          rw [hl.act_add, add_neg_cancel, hl.act_zero])⟩
      by_cases hcl : i < cell ∨ j < cell
      · obtain ⟨w, q1, q2⟩ := k3 hij hcl hhop
        obtain ⟨w', q1', q2'⟩ := k3' hij hcl ((hHH a b).mpr hhop)
        rw [hcc, q2 [] params (.inl rfl), q2' [] params (.inl rfl)]
        exact value_any (C := C) h P hinv h1 h2 hm hp q1 q1'
      · rw [hcc, k4 hij (fun hx => hcl hx.1) [] params (.inl rfl), k4' hij (fun hx => hcl hx.1) [] params (.inl rfl)]
        rfl
    · intro conj u hg hmul hij
      by_cases hx : (i < cell ∨ j < cell) ∧ HasHop sym H a b
      · obtain ⟨w, q1, q2⟩ := k3 hij hx.1 hx.2
        obtain ⟨w', q1', q2'⟩ := k3' hij hx.1 ((hHH a b).mpr hx.2)
        rw [hcc, q2 [] params (.inl rfl), q2' [] params (.inl rfl)]
        exact value_good (C := C) h P hinv h1 h2 hx.2 hp hg hmul q1 q1'
      · rw [hcc, k4 hij hx [] params (.inl rfl), k4' hij (fun hy => hx ⟨hy.1, (hHH a b).mp hy.2⟩) [] params (.inl rfl)]
        rfl

/-- **C183.** The leads: each keeps its symmetry, (sorted) interface and padding; its builder gets phases with its own parameter name, so
that `C183_infinite` applies to it. -/
theorem C183_leads {G : Type} [AddCommGroup G] [DecidableEq G] {sym : Symmetry S G} {H : HMap S V Fn} {phi : N}
    {disc : Disc D} {leads : List (ALead S V Fn D)} {B : PBuilder S V Fn D} {sig : Fn → Option (List N)}
    (hB : addPeierls E sym sig phi H disc leads = .ok B) (k : ℕ) (l : ALead S V Fn D) (hk : leads[k]? = some l) :
    ∃ symL HL d iface pad lead, l = .bld symL HL d iface pad ∧ B.leads[k]? = some lead ∧ lead.sym = symL ∧
      lead.disc.timeReversal = none ∧ lead.disc.conservationLaw = d.conservationLaw ∧ lead.disc.particleHole = d.particleHole ∧
      lead.disc.chiral = d.chiral ∧
      lead.interface.Perm iface ∧ lead.padding.Perm pad ∧ lead.interface.Pairwise (· ≤ ·) ∧ lead.padding.Pairwise (· ≤ ·) ∧
      addPhase E symL sig (E.leadName phi k) HL = .ok (lead.consts, lead.H) := by
  unfold addPeierls at hB
  split at hB
  · cases hB
  · split at hB
    · cases hB
    · next ls hb =>
      split at hB
      · cases hB
      · cases hB
        obtain ⟨symL, HL, d, iface, pad, consts, H', e1, e2, e3⟩ := (addLeads_spec sig phi leads 0 ls hb).2 k l hk
        rw [Nat.zero_add] at e2
        have hsort : ∀ l : List S, (pySorted l).Pairwise (· ≤ ·) := fun l => by
          have := List.pairwise_mergeSort (le := fun a b : S => decide (a ≤ b)) (by simpa using fun a b c => le_trans)
            (by simpa using le_total) l
          unfold pySorted
          exact this.imp (by simp)
        exact ⟨symL, HL, d, iface, pad, _, e1, e3, rfl, rfl, rfl, rfl, rfl, pySorted_perm _, pySorted_perm _, hsort _, hsort _, e2⟩

theorem foldl_put_get : ∀ (l : List (N × A)) (d : List (N × A)) (n : N) (a : A), (l.map Prod.fst).Nodup →
    ((n, a) ∈ l → Assoc.get (l.foldl (fun d p => put d p.1 p.2) d) n = some a) ∧
    (n ∉ l.map Prod.fst → Assoc.get (l.foldl (fun d p => put d p.1 p.2) d) n = Assoc.get d n) := by
  intro l
  induction l with
  | nil => intro d n a _; simp
  | cons q l ih =>
    intro d n a hn
    obtain ⟨m, b⟩ := q
    rw [List.map_cons, List.nodup_cons] at hn
    simp only [List.foldl_cons]
    constructor
    · intro hm
      rcases List.mem_cons.mp hm with e | hm
      · obtain ⟨rfl, rfl⟩ := Prod.mk.inj e
        rw [(ih _ n a hn.2).2 hn.1, get_put, if_pos rfl]
      · exact (ih _ n a hn.2).1 hm
    · intro hx
      rw [List.map_cons, List.mem_cons, not_or] at hx
      rw [(ih _ n a hn.2).2 hx.2, get_put, if_neg (Ne.symm hx.1)]

/-- **C183.** The dictionary returned by the gauge maps the names `phi`, `phi_lead0`, ... to the phases of the system and of its leads. -/
theorem C183_gauge (phi : N) (n : ℕ) (phases : List A) (hinj : Function.Injective (E.leadName phi)) (hphi : ∀ i, E.leadName phi i ≠ phi) :
    (∀ p, phases[0]? = some p → Assoc.get (gaugeDict E phi n phases) phi = some p) ∧
    (∀ i p, i < n → phases[i + 1]? = some p → Assoc.get (gaugeDict E phi n phases) (E.leadName phi i) = some p) := by
  have hnd : (phi :: (List.range n).map (E.leadName phi)).Nodup := by
    rw [List.nodup_cons]
    refine ⟨?_, List.nodup_range.map hinj⟩
    intro hm
    obtain ⟨i, _, e⟩ := List.mem_map.mp hm
    exact hphi i e
  have hz : (((phi :: (List.range n).map (E.leadName phi)).zip phases).map Prod.fst).Nodup := by
    refine hnd.sublist ?_
    generalize (phi :: (List.range n).map (E.leadName phi)) = l
    induction l generalizing phases with
    | nil => simp
    | cons x l ih =>
      cases phases with
      | nil => simp
      | cons y ys => exact (ih ys).cons_cons x
  have key : ∀ (k : ℕ) (m : N) (p : A), (phi :: (List.range n).map (E.leadName phi))[k]? = some m → phases[k]? = some p →
      Assoc.get (gaugeDict E phi n phases) m = some p := by
    intro k m p h1 h2
    refine (foldl_put_get _ [] m p hz).1 ?_
    refine List.mem_iff_getElem?.mpr ⟨k, ?_⟩
    rw [List.getElem?_zip_eq_some]
    exact ⟨h1, h2⟩
  refine ⟨fun p hp => key 0 phi p rfl hp, fun i p hi hp => key (i + 1) _ p ?_ hp⟩
  rw [List.getElem?_cons_succ, List.getElem?_map, List.getElem?_range hi]
  rfl

end Kwant.Peierls
