import Verif.Builder.Fill

/-! The state after a flood fill; failures; termination. -/
set_option linter.unusedSectionVars false

namespace Kwant.Builder
open Kwant Kwant.Assoc
variable {S G GT V Fn : Type} [DecidableEq S] [AddCommGroup G] [DecidableEq G] [AddCommGroup GT] [DecidableEq GT]
variable {sym : Symmetry S G} {symT : Symmetry S GT} {T : HMap S V Fn} {shape : S → Option Bool}
variable {nv : Val V Fn} {H0 : HMap S V Fn} {start : List S} {hc : V → V}

/-- The value of a hopping is determined by the stored values of its two directions. -/
theorem getHop_transfer {H : HMap S V Fn} (w : WF sym H) (hl : sym.Lawful) (wT : WF symT T) (hlT : symT.Lawful)
    {x y : S} (h1 : te sym H x y = te symT T x y) (h2 : te sym H y x = te symT T y x) (v : Val V Fn) :
    getHop sym hc H x y = .ok v ↔ getHop symT hc T x y = .ok v := by
  rw [getHop_ok_iff w hl, getHop_ok_iff wT hlT]
  unfold te at h1 h2
  simp only [edgeVal, rev_toFd2 hl, rev_toFd2 hlT, h1, h2]

theorem foldlM_err {ε σ α : Type} (f : σ → α → Except ε σ) (I : List α → σ → Prop)
    (l : List α) (s : σ) (e : ε) (h0 : I [] s)
    (hstep : ∀ p x r s s', l = p ++ x :: r → I p s → f s x = .ok s' → I (p ++ [x]) s')
    (herr : l.foldlM f s = .error e) : ∃ p x r s1, l = p ++ x :: r ∧ I p s1 ∧ f s1 x = .error e := by
  suffices H : ∀ (r p : List α) (s : σ), l = p ++ r → I p s → r.foldlM f s = .error e →
      ∃ p x r s1, l = p ++ x :: r ∧ I p s1 ∧ f s1 x = .error e from H l [] s rfl h0 herr
  intro r
  induction r with
  | nil => intro p s _ _ he; cases he
  | cons x r ih =>
    intro p s hl hI he
    rw [List.foldlM_cons] at he
    cases hf : f s x with
    | error e' =>
      rw [hf] at he
      obtain rfl : e' = e := by injection he
      exact ⟨p, x, r, s, hl, hI, hf⟩
    | ok s1 =>
      rw [hf] at he
      exact ih (p ++ [x]) s1 (by simp [hl]) (hstep p x r s s1 hl hI hf) he

section
variable (hl : sym.Lawful) (hlT : symT.Lawful) (wT : WF symT T) (w0 : WF sym H0) (sub : SubSym sym symT)
include hl hlT wT w0 sub

/-- After the fill the contents are well-formed. -/
theorem FInv.wf {D : List S} {H : HMap S V Fn}
    (i : FInv sym symT T shape nv H0 start D D (fun x _ => x ∈ D) H) : WF sym H := by
  refine ⟨i.nf, ?_, ?_⟩
  · intro a ha
    rcases (i.keys a).mp ha with h | h
    · exact w0.fd a h
    · exact (i.new a h).2.1
  · intro a b st he
    have hak := (i.keys a).mp (E_some_mem he)
    have hfa : sym.which a = 0 := by
      rcases hak with h | h
      · exact w0.fd a h
      · exact (i.new a h).2.1
    have hrr := rev_rev hl hfa b
    have hr2 : sym.toFd (rev sym a b).2 = a := by
      rw [← rev_fst_eq sym (rev sym a b).1 (rev sym a b).2, hrr]
    have hter : te symT T (rev sym a b).1 (rev sym a b).2 = te symT T b a := te_toFd2 hlT sub b a
    by_cases ha0 : a ∈ Assoc.keys H0
    · by_cases hb : (rev sym a b).1 ∈ D
      · rw [i.e1 a b ha0 hb] at he
        obtain ⟨hne, st', h', hx⟩ := te_rev hlT wT he
        refine ⟨hne, st', ?_, hx⟩
        rw [i.e3 _ _ (i.new _ hb).1 hb (.inl (by rw [hr2]; exact ha0)), hter, h']
      · rw [i.e2 a b ha0 hb] at he
        obtain ⟨hne, st', h', hx⟩ := w0.pair a b st he
        refine ⟨hne, st', ?_, hx⟩
        rw [i.e2 _ _ (E_some_mem h') ?_, h']
        rw [hrr]
        exact fun h => (i.new _ h).1 ha0
    · have haD : a ∈ D := hak.resolve_left ha0
      by_cases hAd : Adm sym shape H0 b
      · rw [i.e3 a b ha0 haD hAd] at he
        obtain ⟨hne, st', h', hx⟩ := te_rev hlT wT he
        refine ⟨hne, st', ?_, hx⟩
        rcases i.cl a b haD (by rw [he]; rfl) hAd with hb | hb
        · have hb' : (rev sym a b).1 ∈ Assoc.keys H0 := hb
          rw [i.e1 _ _ hb' (by rw [hrr]; exact haD), hter, h']
        · have hb' : (rev sym a b).1 ∈ D := hb
          rw [i.e3 _ _ (i.new _ hb').1 hb' (.inr (by rw [hr2]; exact (i.new a haD).2.2.1)), hter, h']
      · rw [i.e4 a b ha0 (fun h => hAd h.2)] at he
        cases he

/-- The stored edges after the fill. -/
theorem FInv.te_new {D : List S} {H : HMap S V Fn}
    (i : FInv sym symT T shape nv H0 start D D (fun x _ => x ∈ D) H) {x y : S}
    (hx : sym.toFd x ∈ Assoc.keys H) (hy : sym.toFd y ∈ Assoc.keys H)
    (hn : sym.toFd x ∈ D ∨ sym.toFd y ∈ D) : te sym H x y = te symT T x y := by
  rw [← te_toFd2 hlT sub x y]
  show E H (sym.toFd2 x y).1 (sym.toFd2 x y).2 = _
  have e1 : (sym.toFd2 x y).1 = sym.toFd x := rfl
  have e2 : sym.toFd (sym.toFd2 x y).2 = sym.toFd y := by rw [toFd2_eq, hl.toFd_act]
  by_cases hxD : sym.toFd x ∈ D
  · refine i.e3 _ _ (by rw [e1]; exact (i.new _ hxD).1) (by rw [e1]; exact hxD) ?_
    unfold Adm
    rw [e2]
    rcases (i.keys _).mp hy with h | h
    · exact .inl h
    · exact .inr (i.new _ h).2.2.1
  · have hyD := hn.resolve_left hxD
    have hx0 : sym.toFd x ∈ Assoc.keys H0 := ((i.keys _).mp hx).resolve_right hxD
    refine i.e1 _ _ (by rw [e1]; exact hx0) ?_
    rw [rev_fst_eq, e2]
    exact hyD

theorem FInv.te_old {D : List S} {H : HMap S V Fn}
    (i : FInv sym symT T shape nv H0 start D D (fun x _ => x ∈ D) H) {x y : S}
    (hx : sym.toFd x ∈ Assoc.keys H0) (hy : sym.toFd y ∈ Assoc.keys H0) : te sym H x y = te sym H0 x y := by
  show E H (sym.toFd2 x y).1 (sym.toFd2 x y).2 = E H0 _ _
  have e1 : (sym.toFd2 x y).1 = sym.toFd x := rfl
  have e2 : sym.toFd (sym.toFd2 x y).2 = sym.toFd y := by rw [toFd2_eq, hl.toFd_act]
  refine i.e2 _ _ (by rw [e1]; exact hx) ?_
  rw [rev_fst_eq, e2]
  exact fun h => (i.new _ h).1 hy

/-- The added sites are exactly those that have to be added. -/
theorem FInv.complete {D : List S} {H : HMap S V Fn}
    (i : FInv sym symT T shape nv H0 start D D (fun x _ => x ∈ D) H)
    (hs : ∀ s ∈ start, sym.toFd s ∉ Assoc.keys H0 → shape (sym.toFd s) = some true → sym.toFd s ∈ D) (x : S) :
    x ∈ D ↔ FillReach sym symT T shape H0 start x := by
  refine ⟨fun h => (i.new x h).2.2.2.2, ?_⟩
  intro h
  induction h with
  | start s h1 _ h3 h4 => exact hs s h1 (by simpa [containsSite] using h3) h4
  | step x y _ h2 h3 h4 ih =>
    have hn : sym.toFd y ∉ Assoc.keys H0 := by simpa [containsSite] using h3
    refine (i.cl x y ih ?_ (.inr h4)).resolve_left hn
    rw [containsHop_eq] at h2
    by_cases hxy : x = y
    · simp [hxy] at h2
    · rw [if_neg hxy] at h2
      exact Except.ok.inj h2

/-! ### Failures -/

/-- The only failure in the treatment of a head is an exception in `shape`. -/
theorem fillHead_err {H : HMap S V Fn} {N oldA : List S}
    {t h0 : S} {v : Stored V Fn} {e : Err S}
    (hte : te symT T t (symT.act (symT.which t) h0) = some v)
    (herr : fillHead sym symT T shape nv oldA [] t (symT.which t) (H, N) (h0, v) = .error e) :
    ∃ y, shape y = none := by
  obtain ⟨hne, st', hte', _⟩ := te_rev hlT wT hte
  unfold fillHead at herr
  simp only at herr
  split at herr
  · cases herr
  · split at herr
    · rename_i hB
      have hge : getEdge T (symT.toFd2 (symT.act (symT.which t) h0) t).1 (symT.toFd2 (symT.act (symT.which t) h0) t).2
          = .ok st' := by
        rw [getEdge_eq]
        have : E T (symT.toFd2 (symT.act (symT.which t) h0) t).1 (symT.toFd2 (symT.act (symT.which t) h0) t).2 =
          some st' := hte'
        rw [this]
      obtain ⟨H1, e1⟩ : ∃ H1, setEdge H (sym.toFd2 (symT.act (symT.which t) h0) t).1
          (sym.toFd2 (symT.act (symT.which t) h0) t).2 st' = (H1, none) := by
        obtain ⟨r, hr⟩ := get_of_mem_keys (k := (sym.toFd2 (symT.act (symT.which t) h0) t).1) hB
        unfold setEdge
        rw [hr]
        exact ⟨_, rfl⟩
      simp only [hge, e1] at herr
      cases herr
    · cases hsh : shape (sym.toFd (symT.act (symT.which t) h0)) with
      | none => exact ⟨_, hsh⟩
      | some b => cases b <;> simp [hsh] at herr


/-- The only failure in the treatment of an active site is an exception in `shape`. -/
theorem fillTail_err {R D : List S} {H : HMap S V Fn} {N oldA : List S} {t : S} {e : Err S}
    (i : FInv sym symT T shape nv H0 start R D (fun x _ => x ∈ D) H) (ht : t ∈ R) (htD : t ∉ D)
    (herr : fillTail sym symT T shape nv oldA t (H, N) = .error e) : ∃ y, shape y = none := by
  unfold fillTail at herr
  obtain ⟨trow, htr⟩ : ∃ trow, Assoc.get T (symT.act (-symT.which t) t) = some trow :=
    get_of_mem_keys (i.new t ht).2.2.2.1
  have htk : t ∈ Assoc.keys H := (i.keys t).mpr (.inr ht)
  obtain ⟨row, hrow⟩ := get_of_mem_keys htk
  have hempty : Assoc.keys row.edges = [] := by
    rw [List.eq_nil_iff_forall_not_mem]
    intro y hy
    rw [mem_edges_iff hrow, i.e4 t y (i.new t ht).1 fun h => htD h.1] at hy
    simp at hy
  simp only [htr, hrow, hempty] at herr
  obtain ⟨p, ⟨h0, v⟩, r, ⟨H1, N1⟩, hpl, _, hf⟩ := foldlM_err _ (fun _ _ => True) _ _ _ trivial (fun _ _ _ _ _ _ _ _ => trivial) herr
  exact fillHead_err hl hlT wT w0 sub ((te_row hlT wT htr _ v).mpr ⟨h0, by simp [hpl], rfl⟩) hf

/-- What a failing flood fill proves. -/
def FillFail (sym : Symmetry S G) (symT : Symmetry S GT) (T : HMap S V Fn) (shape : S → Option Bool)
    (H0 : HMap S V Fn) (start : List S) (maxSites : Option ℕ) : Prop :=
  (∃ y, shape y = none) ∨
  ∃ (m : ℕ) (l : List S), maxSites = some m ∧ l.length = m + 1 ∧ l.Nodup ∧ ∀ s ∈ l, FillReach sym symT T shape H0 start s

theorem fillStep_err {maxSites : Option ℕ} {D P A q r : List S} {H : HMap S V Fn} {t : S} {e : Err S}
    (i : LInv sym symT T shape nv H0 start D P A H) (hp : (q ++ t :: r).Perm A)
    {st : FillSt S V Fn} (ri : RInv sym symT T shape nv H0 start D A q st)
    (hm : ∀ m, maxSites = some m → st.done.length ≤ m)
    (herr : fillStep sym symT T shape nv maxSites (P ++ A) st t = .error e) :
    FillFail sym symT T shape H0 start maxSites := by
  have htA : t ∈ A := hp.subset (by simp)
  have hnd2 : (D ++ (q ++ t :: r)).Nodup := ((List.Perm.append_left D hp).nodup_iff).mpr i.nd
  have hnd3 : (D ++ q ++ [t]).Nodup := by
    refine List.Nodup.sublist (List.Sublist.append_left (List.Sublist.cons_cons t (List.nil_sublist r)) _) ?_
    simpa using hnd2
  have htD : t ∉ D ++ q := by
    rw [List.nodup_append] at hnd3
    exact fun h => hnd3.2.2 t h t (by simp) rfl
  have htR : t ∈ D ++ A ++ st.new := List.mem_append_left _ (List.mem_append_right _ htA)
  unfold fillStep at herr
  split at herr
  · rename_i hc
    right
    cases hms : maxSites with
    | none => simp [hms] at hc
    | some m =>
      refine ⟨m, D ++ q ++ [t], rfl, ?_, hnd3, ?_⟩
      · simp only [hms, Option.any_some, decide_eq_true_eq] at hc
        have := hm m hms
        rw [ri.done] at hc this
        simp only [List.length_append, List.length_singleton] at hc this ⊢
        omega
      · intro s hs
        rcases List.mem_append.mp hs with h | h
        · exact (ri.inv.new s (ri.inv.dr s h)).2.2.2.2
        · obtain rfl : s = t := by simpa using h
          exact (ri.inv.new s htR).2.2.2.2
  · cases hft : fillTail sym symT T shape nv (P ++ A) t (st.H, st.new) with
    | ok res => simp [hft] at herr
    | error e' => exact .inl (fillTail_err hl hlT wT w0 sub ri.inv htR htD hft)

/-- The bound `max_sites` is respected. -/
theorem fillStep_max {maxSites : Option ℕ} {oldA : List S} {t : S} {st st' : FillSt S V Fn}
    (hok : fillStep sym symT T shape nv maxSites oldA st t = .ok st') (m : ℕ) (hm : maxSites = some m) :
    st'.done.length ≤ m := by
  unfold fillStep at hok
  split at hok
  · cases hok
  · rename_i hc
    cases hft : fillTail sym symT T shape nv oldA t (st.H, st.new) with
    | error e => simp [hft] at hok
    | ok res =>
      simp only [hft] at hok
      obtain rfl := Except.ok.inj hok
      simp only [hm, Option.any_some, decide_eq_true_eq] at hc
      simp only [List.length_append, List.length_singleton]
      omega

theorem round_max {maxSites : Option ℕ} {oldA l : List S} {st st' : FillSt S V Fn}
    (h0 : ∀ m, maxSites = some m → st.done.length ≤ m)
    (hok : l.foldlM (fillStep sym symT T shape nv maxSites oldA) st = .ok st') (m : ℕ) (hm : maxSites = some m) :
    st'.done.length ≤ m :=
  foldlM_inv _ (fun _ st => ∀ m, maxSites = some m → st.done.length ≤ m) l st st' h0
    (fun _ _ _ _ _ _ _ h => fillStep_max hl hlT wT w0 sub h) hok m hm

theorem fillLoop_err {maxSites : Option ℕ} {ord : ℕ → List S → List S} (hord : ∀ n l, (ord n l).Perm l)
    {fuel n : ℕ} {D P A : List S} {H : HMap S V Fn} {e : Err S}
    (i : LInv sym symT T shape nv H0 start D P A H) (hm : ∀ m, maxSites = some m → D.length ≤ m)
    (herr : fillLoop sym symT T shape nv maxSites ord fuel n H D P A = some (.error e)) :
    FillFail sym symT T shape H0 start maxSites := by
  induction fuel generalizing n D P A H with
  | zero => simp [fillLoop] at herr
  | succ fuel ih =>
    unfold fillLoop at herr
    by_cases hA : A = []
    · rw [if_pos hA] at herr; simp at herr
    · rw [if_neg hA] at herr
      cases hr : (ord n A).foldlM (fillStep sym symT T shape nv maxSites (P ++ A)) ⟨H, [], D⟩ with
      | ok st =>
        simp only [hr] at herr
        obtain ⟨hd, i'⟩ := round_inv hl hlT wT w0 sub i (hord n A) hr
        exact ih i' (round_max hl hlT wT w0 sub hm hr) herr
      | error e' =>
        obtain ⟨q, t, r, st, hq, ⟨hri, hmx⟩, hf⟩ := foldlM_err _
          (fun q st => RInv sym symT T shape nv H0 start D A q st ∧ ∀ m, maxSites = some m → st.done.length ≤ m)
          (ord n A) _ _ ⟨⟨by simpa using i.inv, by simpa using i.nd, by simp⟩, hm⟩
          (by
            intro q x r s s' hl' hI hs
            exact ⟨fillStep_inv hl hlT wT w0 sub i (hl' ▸ hord n A) hI.1 hs, fillStep_max hl hlT wT w0 sub hs⟩) hr
        exact fillStep_err hl hlT wT w0 sub i (hq ▸ hord n A) hri hmx hf

theorem fillStart_err {e : Err S} (hok : start.foldlM (fillStart sym shape nv) (H0, []) = .error e) :
    ∃ y, shape y = none := by
  obtain ⟨p, s, r, st, _, _, hf⟩ := foldlM_err _ (fun _ _ => True) _ _ _ trivial (fun _ _ _ _ _ _ _ _ => trivial) hok
  unfold fillStart at hf
  simp only at hf
  split at hf
  · cases hf
  · cases hsh : shape (sym.toFd s) with
    | none => exact ⟨_, hsh⟩
    | some b => cases b <;> simp [hsh] at hf

/-! ### Termination -/

theorem fillLoop_terminates {maxSites : Option ℕ} {ord : ℕ → List S → List S} (hord : ∀ n l, (ord n l).Perm l)
    {b : ℕ} (hb : maxSites = some b ∨ ∀ l : List S, l.Nodup → (∀ s ∈ l, FillReach sym symT T shape H0 start s) → l.length ≤ b)
    {fuel n : ℕ} {D P A : List S} {H : HMap S V Fn}
    (i : LInv sym symT T shape nv H0 start D P A H) (hD : D.length ≤ b) (hfuel : b + 2 ≤ fuel + D.length) :
    fillLoop sym symT T shape nv maxSites ord fuel n H D P A ≠ none := by
  induction fuel generalizing n D P A H with
  | zero => omega
  | succ fuel ih =>
    unfold fillLoop
    by_cases hA : A = []
    · rw [if_pos hA]; simp
    · rw [if_neg hA]
      cases hr : (ord n A).foldlM (fillStep sym symT T shape nv maxSites (P ++ A)) ⟨H, [], D⟩ with
      | error e => simp
      | ok st =>
        obtain ⟨hd, i'⟩ := round_inv hl hlT wT w0 sub i (hord n A) hr
        refine ih i' ?_ ?_
        · rcases hb with hb | hb
          · subst hb
            have hA' : ord n A ≠ [] := fun h => hA (by have := hord n A; rw [h] at this; exact this.nil_eq.symm)
            refine round_max hl hlT wT w0 sub ?_ hr b rfl
            rintro m hm
            obtain rfl := Option.some.inj hm
            exact hD
          · refine hb _ ?_ fun s hs => (i'.inv.new s (i'.inv.dr s hs)).2.2.2.2
            have := i'.nd
            rw [List.nodup_append] at this
            exact this.1
        · rw [hd, List.length_append, (hord n A).length_eq]
          have : 0 < A.length := List.length_pos_iff.mpr hA
          omega

omit hl hlT wT w0 sub in
theorem fillReach_filter (x : S) :
    FillReach sym symT T shape H0 (start.filter (containsSite symT T)) x ↔ FillReach sym symT T shape H0 start x := by
  constructor
  · intro h
    induction h with
    | start s h1 h2 h3 h4 => exact .start s (List.mem_filter.mp h1).1 h2 h3 h4
    | step x y _ h2 h3 h4 ih => exact .step x y ih h2 h3 h4
  · intro h
    induction h with
    | start s h1 h2 h3 h4 => exact .start s (List.mem_filter.mpr ⟨h1, h2⟩) h2 h3 h4
    | step x y _ h2 h3 h4 ih => exact .step x y ih h2 h3 h4

/-- A successful fill. -/
theorem fill_ok {maxSites : Option ℕ} {subOk : Bool} {ord : ℕ → List S → List S} (hord : ∀ n l, (ord n l).Perm l)
    {fuel : ℕ} {H' : HMap S V Fn} {added : List S}
    (hok : fill sym symT T shape nv maxSites subOk ord fuel H0 start = some (H', .ok added)) :
    FInv sym symT T shape nv H0 (start.filter (containsSite symT T)) added added (fun x _ => x ∈ added) H' ∧
    added.Nodup ∧
    ∀ s ∈ start.filter (containsSite symT T), sym.toFd s ∉ Assoc.keys H0 → shape (sym.toFd s) = some true →
      sym.toFd s ∈ added := by
  have hin : ∀ s ∈ start.filter (containsSite symT T), containsSite symT T s = true :=
    fun s hs => (List.mem_filter.mp hs).2
  unfold fill at hok
  generalize start.filter (containsSite symT T) = start' at *
  split at hok
  · cases hok
  · split at hok
    · cases hok
    · split at hok
      · rename_i hnil
        subst hnil
        obtain ⟨rfl, h2⟩ := Prod.mk.inj (Option.some.inj hok)
        obtain rfl := Except.ok.inj h2
        have := (fillStart_inv hl hlT wT w0 sub (shape := shape) (nv := nv) (start := []) (A := []) (by simp) rfl).1.inv
        exact ⟨by simpa using this, by simp, by simp⟩
      · unfold fillTry at hok
        cases hs : start'.foldlM (fillStart sym shape nv) (H0, []) with
        | error e => simp [hs] at hok
        | ok r =>
          obtain ⟨H1, A⟩ := r
          obtain ⟨li, hcov⟩ := fillStart_inv hl hlT wT w0 sub hin hs
          simp only [hs] at hok
          by_cases hA : A = []
          · simp only [hA, if_true] at hok
            obtain ⟨rfl, h2⟩ := Prod.mk.inj (Option.some.inj hok)
            obtain rfl := Except.ok.inj h2
            subst hA
            exact ⟨by simpa using li.inv, by simp, hcov⟩
          · simp only [hA, if_false] at hok
            cases hL : fillLoop sym symT T shape nv maxSites ord fuel 0 H1 [] [] A with
            | none => simp [hL] at hok
            | some res =>
              cases res with
              | error e => simp [hL] at hok
              | ok r =>
                obtain ⟨H2, D⟩ := r
                simp only [hL] at hok
                obtain ⟨rfl, h2⟩ := Prod.mk.inj (Option.some.inj hok)
                obtain rfl := Except.ok.inj h2
                obtain ⟨h1, h2, h3⟩ := fillLoop_inv hl hlT wT w0 sub hord li hL
                exact ⟨h1, h2, fun s hs h4 h5 => h3 _ (by simpa using hcov s hs h4 h5)⟩

/-- A failing fill. -/
theorem fill_error {maxSites : Option ℕ} {subOk : Bool} {ord : ℕ → List S → List S}
    (hord : ∀ n l, (ord n l).Perm l) {fuel : ℕ} {H' : HMap S V Fn} {e : Err S}
    (herr : fill sym symT T shape nv maxSites subOk ord fuel H0 start = some (H', .error e)) :
    (e = .value ∧ H' = H0 ∧ (maxSites = some 0 ∨ subOk = false)) ∨
    (e = .runtime ∧ H' = [] ∧ FillFail sym symT T shape H0 (start.filter (containsSite symT T)) maxSites) := by
  have hin : ∀ s ∈ start.filter (containsSite symT T), containsSite symT T s = true :=
    fun s hs => (List.mem_filter.mp hs).2
  unfold fill at herr
  generalize start.filter (containsSite symT T) = start' at *
  split at herr
  · rename_i hm
    obtain ⟨rfl, h2⟩ := Prod.mk.inj (Option.some.inj herr)
    injection h2 with h2
    exact .inl ⟨h2.symm, rfl, .inl hm⟩
  · split at herr
    · rename_i hm
      obtain ⟨rfl, h2⟩ := Prod.mk.inj (Option.some.inj herr)
      injection h2 with h2
      exact .inl ⟨h2.symm, rfl, .inr (by simpa using hm)⟩
    · split at herr
      · simp at herr
      · unfold fillTry at herr
        right
        cases hs : start'.foldlM (fillStart sym shape nv) (H0, []) with
        | error e' =>
          simp only [hs] at herr
          obtain ⟨rfl, h2⟩ := Prod.mk.inj (Option.some.inj herr)
          injection h2 with h2
          exact ⟨h2.symm, rfl, .inl (fillStart_err hl hlT wT w0 sub hs)⟩
        | ok r =>
          obtain ⟨H1, A⟩ := r
          obtain ⟨li, hcov⟩ := fillStart_inv hl hlT wT w0 sub hin hs
          simp only [hs] at herr
          by_cases hA : A = []
          · simp [hA] at herr
          · simp only [hA, if_false] at herr
            cases hL : fillLoop sym symT T shape nv maxSites ord fuel 0 H1 [] [] A with
            | none => simp [hL] at herr
            | some res =>
              cases res with
              | ok r => simp [hL] at herr
              | error e' =>
                simp only [hL] at herr
                obtain ⟨rfl, h2⟩ := Prod.mk.inj (Option.some.inj herr)
                injection h2 with h2
                exact ⟨h2.symm, rfl, fillLoop_err hl hlT wT w0 sub hord li (by simp) hL⟩

/-- `max_sites` is respected. -/
theorem fillLoop_max {maxSites : Option ℕ} {ord : ℕ → List S → List S}
    {fuel n : ℕ} {D P A D' : List S} {H H' : HMap S V Fn} (hm : ∀ m, maxSites = some m → D.length ≤ m)
    (hok : fillLoop sym symT T shape nv maxSites ord fuel n H D P A = some (.ok (H', D'))) :
    ∀ m, maxSites = some m → D'.length ≤ m := by
  induction fuel generalizing n D P A H with
  | zero => simp [fillLoop] at hok
  | succ fuel ih =>
    unfold fillLoop at hok
    by_cases hA : A = []
    · rw [if_pos hA] at hok
      obtain ⟨rfl, rfl⟩ := Prod.mk.inj (Except.ok.inj (Option.some.inj hok))
      exact hm
    · rw [if_neg hA] at hok
      cases hr : (ord n A).foldlM (fillStep sym symT T shape nv maxSites (P ++ A)) ⟨H, [], D⟩ with
      | error e => simp [hr] at hok
      | ok st =>
        simp only [hr] at hok
        exact ih (round_max hl hlT wT w0 sub hm hr) hok

theorem fill_max {maxSites : Option ℕ} {subOk : Bool} {ord : ℕ → List S → List S}
    {fuel : ℕ} {H' : HMap S V Fn} {added : List S}
    (hok : fill sym symT T shape nv maxSites subOk ord fuel H0 start = some (H', .ok added)) (m : ℕ)
    (hm : maxSites = some m) : added.length ≤ m := by
  unfold fill at hok
  generalize start.filter (containsSite symT T) = start' at *
  split at hok
  · cases hok
  · split at hok
    · cases hok
    · split at hok
      · obtain ⟨rfl, h2⟩ := Prod.mk.inj (Option.some.inj hok)
        obtain rfl := Except.ok.inj h2
        simp
      · unfold fillTry at hok
        cases hs : start'.foldlM (fillStart sym shape nv) (H0, []) with
        | error e => simp [hs] at hok
        | ok r =>
          obtain ⟨H1, A⟩ := r
          simp only [hs] at hok
          by_cases hA : A = []
          · simp only [hA, if_true] at hok
            obtain ⟨rfl, h2⟩ := Prod.mk.inj (Option.some.inj hok)
            obtain rfl := Except.ok.inj h2
            simp
          · simp only [hA, if_false] at hok
            cases hL : fillLoop sym symT T shape nv maxSites ord fuel 0 H1 [] [] A with
            | none => simp [hL] at hok
            | some res =>
              cases res with
              | error e => simp [hL] at hok
              | ok r =>
                obtain ⟨H2, D⟩ := r
                simp only [hL] at hok
                obtain ⟨rfl, h2⟩ := Prod.mk.inj (Option.some.inj hok)
                obtain rfl := Except.ok.inj h2
                exact fillLoop_max hl hlT wT w0 sub (by simp) hL m hm

/-- With enough fuel the model of the fill finishes. -/
theorem fill_terminates {maxSites : Option ℕ} {subOk : Bool} {ord : ℕ → List S → List S}
    (hord : ∀ n l, (ord n l).Perm l) {fuel b : ℕ}
    (hb : maxSites = some b ∨ ∀ l : List S, l.Nodup → (∀ s ∈ l, FillReach sym symT T shape H0 start s) → l.length ≤ b)
    (hfuel : b + 2 ≤ fuel) : fill sym symT T shape nv maxSites subOk ord fuel H0 start ≠ none := by
  have hin : ∀ s ∈ start.filter (containsSite symT T), containsSite symT T s = true :=
    fun s hs => (List.mem_filter.mp hs).2
  have hb' : maxSites = some b ∨ ∀ l : List S, l.Nodup →
      (∀ s ∈ l, FillReach sym symT T shape H0 (start.filter (containsSite symT T)) s) → l.length ≤ b :=
    hb.imp_right fun h l h1 h2 => h l h1 fun s hs => (fillReach_filter s).mp (h2 s hs)
  unfold fill
  generalize start.filter (containsSite symT T) = start' at *
  split
  · simp
  · split
    · simp
    · split
      · simp
      · unfold fillTry
        cases hs : start'.foldlM (fillStart sym shape nv) (H0, []) with
        | error e => simp
        | ok r =>
          obtain ⟨H1, A⟩ := r
          obtain ⟨li, hcov⟩ := fillStart_inv hl hlT wT w0 sub hin hs
          by_cases hA : A = []
          · simp [hA]
          · simp only [hA, if_false]
            cases hL : fillLoop sym symT T shape nv maxSites ord fuel 0 H1 [] [] A with
            | none => exact absurd hL (fillLoop_terminates hl hlT wT w0 sub hord hb' li (by simp) (by simpa using hfuel))
            | some res => cases res <;> simp

end
end Kwant.Builder
