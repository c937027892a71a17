import Verif.Plot.SiteSpecThm
import Mathlib.Tactic.NormNum
import Mathlib.Tactic.Positivity

/-!
C198, end: the theorems about the site part of `kwant.plot`.
-/

namespace Kwant.PlotSites

variable {S F A B : Type}

theorem min?_perm {l m : List ℚ} (h : l.Perm m) : l.min? = m.min? := by
  cases hl : l.min? with
  | none =>
    rw [List.min?_eq_none_iff] at hl
    subst hl
    rw [List.nil_perm.mp h]
    rfl
  | some a =>
    symm
    rw [List.min?_eq_some_iff] at hl ⊢
    exact ⟨h.mem_iff.mp hl.1, fun b hb => hl.2 b (h.mem_iff.mpr hb)⟩

theorem max?_perm {l m : List ℚ} (h : l.Perm m) : l.max? = m.max? := by
  cases hl : l.max? with
  | none =>
    rw [List.max?_eq_none_iff] at hl
    subst hl
    rw [List.nil_perm.mp h]
    rfl
  | some a =>
    symm
    rw [List.max?_eq_some_iff] at hl ⊢
    exact ⟨h.mem_iff.mp hl.1, fun b hb => hl.2 b (h.mem_iff.mpr hb)⟩

theorem numbers_eq {n : ℕ} {col : ℕ → Val} (h : ∀ i < n, asNum (col i) ≠ none) : numbers n col = (List.range n).map (toQ ∘ col) := by
  unfold numbers
  rw [← List.filterMap_eq_map]
  apply List.filterMap_congr
  intro i hi
  exact (toQ_spec (h i (List.mem_range.mp hi))).1

/-- What `symbol_slcs` holds. -/
theorem slcs_ok [Inhabited S] {kind : Kind} {syst : List S} {spec : Spec S Sym} (dim3 : Bool) (hn : syst ≠ [])
    (h : UsableSym kind syst.length spec)
    (h3 : dim3 = true → ∀ i < syst.length, valAt syst (.name "o") spec i ≠ .name "no symbol") :
    ∃ sp, properSym kind syst spec = .ok sp ∧ checkLengthSym syst.length spec = .ok () ∧
      ∃ parts : List (SymProc × Slc × List ℕ), (symbolSlcs dim3 syst.length sp).1 = parts.map (fun p => (p.1, p.2.1)) ∧
        (parts.flatMap (fun p => p.2.2)).Perm (List.range syst.length) ∧
        ∀ p ∈ parts, p.2.2 ≠ [] ∧ IsIdx syst.length p.2.1 p.2.2 ∧ SymRep p.2.2 (valAt syst (.name "o") spec) p.1 ∧
          ((symbolSlcs dim3 syst.length sp).2 = true ∨ parts = [p]) := by
  have hr : List.range syst.length ≠ [] := by simpa using hn
  have hupto : IsIdx syst.length (.upto syst.length) (List.range syst.length) :=
    ⟨fun i hi => List.mem_range.mp hi, .inl ⟨rfl, rfl⟩⟩
  have one : ∀ s0, (∀ i, valAt syst (.name "o") spec i = s0) →
      ∃ parts : List (SymProc × Slc × List ℕ), (symbolSlcs dim3 syst.length (.one s0)).1 = parts.map (fun p => (p.1, p.2.1)) ∧
        (parts.flatMap (fun p => p.2.2)).Perm (List.range syst.length) ∧
        ∀ p ∈ parts, p.2.2 ≠ [] ∧ IsIdx syst.length p.2.1 p.2.2 ∧ SymRep p.2.2 (valAt syst (.name "o") spec) p.1 ∧
          ((symbolSlcs dim3 syst.length (.one s0)).2 = true ∨ parts = [p]) := by
    intro s0 h0
    refine ⟨[(.one s0, .upto syst.length, List.range syst.length)], rfl, by simp, ?_⟩
    intro p hp
    rw [List.mem_singleton] at hp
    subst hp
    exact ⟨hr, hupto, .inl ⟨s0, rfl, fun i _ => h0 i⟩, .inr rfl⟩
  have many : ∀ l, l = (List.range syst.length).map (valAt syst (.name "o") spec) →
      ∃ parts : List (SymProc × Slc × List ℕ), (symbolSlcs dim3 syst.length (.many l)).1 = parts.map (fun p => (p.1, p.2.1)) ∧
        (parts.flatMap (fun p => p.2.2)).Perm (List.range syst.length) ∧
        ∀ p ∈ parts, p.2.2 ≠ [] ∧ IsIdx syst.length p.2.1 p.2.2 ∧ SymRep p.2.2 (valAt syst (.name "o") spec) p.1 ∧
          ((symbolSlcs dim3 syst.length (.many l)).2 = true ∨ parts = [p]) := by
    intro l hl
    cases hd : dim3 with
    | true =>
      refine ⟨[(.many l, .upto syst.length, List.range syst.length)], rfl, by simp, ?_⟩
      intro p hp
      rw [List.mem_singleton] at hp
      subst hp
      exact ⟨hr, hupto, .inr ⟨congrArg _ hl, fun i hi => h3 hd i (List.mem_range.mp hi)⟩, .inr rfl⟩
    | false =>
      have hlen : l.length = syst.length := by rw [hl]; simp
      obtain ⟨g1, g2⟩ := group_inv l
      rw [hlen] at g1
      refine ⟨(groupSymbols l).map (fun p => (.one p.1, .idx p.2, p.2)), ?_, ?_, ?_⟩
      · simp [symbolSlcs]
      · rw [List.flatMap_map]
        exact g1
      · intro p hp
        obtain ⟨q, hq, rfl⟩ := List.mem_map.mp hp
        obtain ⟨q1, q2⟩ := g2 q hq
        have hlt : ∀ i ∈ q.2, i < syst.length := by
          intro i hi
          have := g1.mem_iff.mp (List.mem_flatMap.mpr ⟨q, hq, hi⟩)
          exact List.mem_range.mp this
        refine ⟨q1, ⟨hlt, .inr rfl⟩, .inl ⟨q.1, rfl, ?_⟩, .inl rfl⟩
        intro i hi
        have h5 := q2 i hi
        rw [hl] at h5
        simpa [List.getElem?_range (hlt i hi)] using h5
  cases spec with
  | none => exact ⟨_, rfl, rfl, one _ (fun _ => rfl)⟩
  | const s =>
    cases s with
    | name s => exact ⟨_, rfl, rfl, one _ (fun _ => rfl)⟩
    | poly a n g =>
      refine ⟨_, ?_, rfl, one _ (fun _ => rfl)⟩
      unfold properSym
      simp only
      rw [if_neg (show kind ≠ .builder from h)]
  | arr nd l =>
    obtain ⟨hl, hk⟩ := h
    refine ⟨.many l, by simp [properSym, hk], by simp [checkLengthSym, hl], many l ?_⟩
    rw [← hl]
    exact (getD_map_range l _).symm
  | func f =>
    refine ⟨_, rfl, rfl, many _ ?_⟩
    conv_lhs => rw [← getD_map_range syst default]
    simp [valAt]

theorem checkLength_ok {kind : Kind} {n : ℕ} {spec : Spec S Val} (b : Bool) (h : Usable kind n spec) : checkLength b n spec = .ok () := by
  cases spec with
  | none => rfl
  | func f => rfl
  | arr nd l => simp [checkLength, h.1]
  | const v => cases v with
    | tup l => exact absurd h (by simp [Usable])
    | num q => rfl
    | name q => rfl

/-- The value of `site_color` for the site with index `i`; `None` stands for the colours by family. -/
def colorAt [LinearOrder F] [Inhabited S] (a : Args S) (family : S → F) (cycle : List String) (syst leads : List S) (i : ℕ) : Val :=
  valAt syst (dflt a.dim3).2.1 (colorSpec a family cycle (syst ++ leads) syst) i

/-- **C198.** In a figure drawn by `kwant.plot` (matplotlib) every site of the system appears exactly once, whatever the symbols, with its own symbol,
size, edge colour, line width and colour; numbers are mapped with the range of the numbers of all the sites, also when the sites are spread over
several collections.  Sites without a symbol or of size zero are not visible. -/
theorem C198_sites [LinearOrder F] [Inhabited S] (a : Args S) (family : S → F) (cycle : List String) (syst : List S)
    (leads : List (S × ℕ)) (hn : syst ≠ [])
    (hsy : UsableSym a.kind syst.length a.symbol) (hsi : Usable a.kind syst.length a.size) (hco : Usable a.kind syst.length a.color)
    (hed : Usable a.kind syst.length a.edge) (hlw : Usable a.kind syst.length a.lw)
    (hv : ∀ i < syst.length, ValidSym (valAt syst (.name "o") a.symbol i))
    (h3 : a.dim3 = true → ∀ i < syst.length, valAt syst (.name "o") a.symbol i ≠ .name "no symbol")
    (he : ∀ i < syst.length, isColor (valAt syst (dflt a.dim3).2.2.1 a.edge i) = true)
    (hc : (∀ i < syst.length, isColor (colorAt a family cycle syst (leads.map Prod.fst) i) = true) ∨
      ((∀ i < syst.length, asNum (colorAt a family cycle syst (leads.map Prod.fst) i) ≠ none ∧
          valAt syst (.name "o") a.symbol i ≠ .name "no symbol" ∧ valAt syst (dflt a.dim3).1 a.size i ≠ .num 0) ∧
        ∀ q, a.color ≠ .const (.num q))) :
    ∃ out, plotSites a family cycle (syst.map (fun s => (s, none)) ++ leads.map (fun p => (p.1, some p.2))) = .ok out ∧
      (out.flatten.filter visible).Perm
        (((List.range syst.length).map (wanted syst (valAt syst (.name "o") a.symbol) (valAt syst (dflt a.dim3).1 a.size)
          (colorAt a family cycle syst (leads.map Prod.fst)) (valAt syst (dflt a.dim3).2.2.1 a.edge)
          (valAt syst (dflt a.dim3).2.2.2.1 a.lw))).filter visible) := by
  set sites := syst.map (fun s => (s, (none : Option ℕ))) ++ leads.map (fun p => (p.1, some p.2)) with hsites
  have hfst : sites.map Prod.fst = syst ++ leads.map Prod.fst := by
    have e1 : ∀ l : List S, l.map (Prod.fst ∘ fun s => (s, (none : Option ℕ))) = l := fun l => List.map_id l
    have e2 : ∀ l : List (S × ℕ), l.map (Prod.fst ∘ fun p : S × ℕ => (p.1, some p.2)) = l.map Prod.fst := fun l => rfl
    rw [hsites, List.map_append, List.map_map, List.map_map, e1, e2]
  have hsyst : (sites.filter (fun p => p.2.isNone)).map Prod.fst = syst := by
    rw [hsites, List.filter_append]
    rw [List.filter_eq_self.mpr (by simp), List.filter_eq_nil_iff.mpr (by
      intro p hp
      obtain ⟨q, -, rfl⟩ := List.mem_map.mp hp
      simp)]
    rw [List.append_nil, List.map_map]
    exact List.map_id syst
  obtain ⟨sp, e1, e2, parts, e3, e4, e5⟩ := slcs_ok a.dim3 hn hsy h3
  set slcs := symbolSlcs a.dim3 syst.length sp with hslcs
  have hco' : Usable a.kind syst.length (colorSpec a family cycle (syst ++ leads.map Prod.fst) syst) := by
    unfold colorSpec
    cases hcol : a.color with
    | none => cases hk : a.kind <;> simp [Usable, dflt] <;> cases a.dim3 <;> simp
    | const v => rw [hcol] at hco; exact hco
    | arr nd l => rw [hcol] at hco; exact hco
    | func f => rw [hcol] at hco; exact hco
  obtain ⟨ps, f1, r1⟩ := proper_rep slcs.2 (dflt a.dim3).1 hsi
  obtain ⟨pc, f2, r2⟩ := proper_rep slcs.2 (dflt a.dim3).2.1 hco'
  obtain ⟨pe, f3, r3⟩ := proper_rep slcs.2 (dflt a.dim3).2.2.1 hed
  obtain ⟨pl, f4, r4⟩ := proper_rep slcs.2 (dflt a.dim3).2.2.2.1 hlw
  set sym := valAt syst (.name "o") a.symbol
  set size := valAt syst (dflt a.dim3).1 a.size
  set col := colorAt a family cycle syst (leads.map Prod.fst) with hcoldef
  set edge := valAt syst (dflt a.dim3).2.2.1 a.edge
  set lw := valAt syst (dflt a.dim3).2.2.2.1 a.lw
  -- the colours, when they are numbers, are an array
  have hseq : ¬ (∀ i < syst.length, isColor (col i) = true) → ∃ nd, pc = .seq nd ((List.range syst.length).map col) ∧ (slcs.2 = true → nd = true) := by
    intro hno
    obtain ⟨hnum, hq⟩ := hc.resolve_left hno
    have hpos : 0 < syst.length := List.length_pos_iff.mpr hn
    have h0 := (hnum 0 hpos).1
    have hcs : ∀ v, colorSpec a family cycle (syst ++ leads.map Prod.fst) syst ≠ .const v := by
      intro v hv'
      have h0' : asNum v ≠ none := by
        have : col 0 = v := by rw [hcoldef, colorAt, hv']; rfl
        rw [← this]; exact h0
      have h1' : asNum (dflt a.dim3).2.1 = none := by cases a.dim3 <;> rfl
      unfold colorSpec at hv'
      cases hcol : a.color with
      | none =>
        rw [hcol] at hv'
        cases hk : a.kind <;> rw [hk] at hv' <;> simp at hv'
        rw [← hv'] at h0'
        exact h0' h1'
      | const w =>
        rw [hcol] at hv'
        simp only [Spec.const.injEq] at hv'
        subst hv'
        cases w with
        | num q => exact hq q hcol
        | name q => simp [asNum] at h0'
        | tup q => simp [asNum] at h0'
      | arr nd l => rw [hcol] at hv'; simp at hv'
      | func f => rw [hcol] at hv'; simp at hv'
    have hnn : colorSpec a family cycle (syst ++ leads.map Prod.fst) syst ≠ .none := by
      unfold colorSpec
      cases hcol : a.color with
      | none => cases hk : a.kind <;> simp
      | const w => simp
      | arr nd l => simp
      | func f => simp
    have hr2 : ∃ nd, pc = .seq nd ((List.range syst.length).map col) := by
      rcases r2 with ⟨v, rfl, hv'⟩ | h5
      · exfalso
        cases hcol : colorSpec a family cycle (syst ++ leads.map Prod.fst) syst with
        | none => exact hnn hcol
        | const w => exact hcs w hcol
        | arr nd l =>
          rw [hcol] at f2
          unfold properSpec at f2
          simp only at f2
          split_ifs at f2
          simp at f2
        | func f => rw [hcol] at f2; simp [properSpec] at f2
      · exact h5
    obtain ⟨nd, hnd⟩ := hr2
    refine ⟨nd, hnd, ?_⟩
    intro hf
    subst hnd
    cases hcol : colorSpec a family cycle (syst ++ leads.map Prod.fst) syst with
    | none => exact absurd hcol hnn
    | const w => exact absurd hcol (hcs w)
    | arr nd' l =>
      rw [hcol, hf] at f2
      unfold properSpec at f2
      simp only at f2
      split_ifs at f2
      simp only [Except.ok.injEq, Proc.seq.injEq, Bool.or_true] at f2
      exact f2.1.symm
    | func f =>
      rw [hcol, hf] at f2
      simp only [properSpec, Except.ok.injEq, Proc.seq.injEq] at f2
      exact f2.1.symm
  set norm := normOf slcs.1.length syst.length pc with hnorm
  -- one call of `symbols` per part
  have hpart : ∀ p ∈ parts, ∃ out, (do
      let size' ← pick ps p.2.1
      let c ← pick pc p.2.1
      let edgecol ← pick pe p.2.1
      let lw' ← pick pl p.2.1
      let pos ← slice (sites.map Prod.fst) p.2.1
      symbols pos p.1 size' c edgecol lw' norm) = .ok out ∧
      out.filter visible = (p.2.2.map (wanted syst sym size col edge lw)).filter visible := by
    intro p hp
    obtain ⟨g1, g2, g3, g4⟩ := e5 p hp
    have hlt := g2.1
    obtain ⟨q1, k1, m1⟩ := pick_rep g2 r1
    obtain ⟨q2, k2, m2⟩ := pick_rep g2 r2
    obtain ⟨q3, k3, m3⟩ := pick_rep g2 r3
    obtain ⟨q4, k4, m4⟩ := pick_rep g2 r4
    have hpos : slice (sites.map Prod.fst) p.2.1 = .ok (p.2.2.map (fun i => syst.getD i default)) := by
      rw [hfst]
      have := slice_ok g2 (fun i => syst.getD i default) (leads.map Prod.fst)
      rwa [getD_map_range] at this
    simp only [k1, k2, k3, k4, hpos]
    apply symbols_ok syst sym size col edge lw g1 g3 m1 m2 m3 m4 (fun i hi => hv i (hlt i hi)) (fun i hi => he i (hlt i hi))
    by_cases hno : ∀ i < syst.length, isColor (col i) = true
    · exact .inl (fun i hi => hno i (hlt i hi))
    · right
      obtain ⟨nd, hnd, hfan⟩ := hseq hno
      obtain ⟨hnum, -⟩ := hc.resolve_left hno
      have hnum' : numbers syst.length col = (List.range syst.length).map (toQ ∘ col) := numbers_eq (fun i hi => (hnum i hi).1)
      refine ⟨fun i hi => hnum i (hlt i hi), ?_, ?_⟩
      · rw [hnd] at k2
        simp only [pick] at k2
        cases hsl : slice ((List.range syst.length).map col) p.2.1 with
        | error e => rw [hsl] at k2; simp [Except.map] at k2
        | ok l =>
          rw [hsl] at k2
          simp only [Except.map, Except.ok.injEq] at k2
          exact ⟨nd, l, k2.symm⟩
      · have hlen : slcs.1.length = parts.length := by rw [e3]; simp
        have hmapM : ((List.range syst.length).map col).mapM asNum = some ((List.range syst.length).map (toQ ∘ col)) := by
          rw [mapM_some asNum toQ]
          · simp
          · intro x hx
            obtain ⟨i, hi, rfl⟩ := List.mem_map.mp hx
            exact (toQ_spec (hnum i (List.mem_range.mp hi)).1).1
        by_cases h1 : 1 < parts.length
        · left
          have hf : slcs.2 = true := by
            rcases g4 with g4 | g4
            · exact g4
            · rw [g4] at h1; simp at h1
          rw [hnorm, hnd, hfan hf]
          unfold normOf
          rw [hlen, if_pos h1]
          simp only [List.length_map, List.length_range, if_true, hmapM, hnum']
          rfl
        · right
          have hone : parts = [p] := by
            cases hpt : parts with
            | nil => rw [hpt] at hp; cases hp
            | cons x r =>
              rw [hpt] at h1 hp
              have : r = [] := by
                rw [List.length_cons] at h1
                exact List.length_eq_zero_iff.mp (by omega)
              subst this
              rw [List.mem_singleton] at hp
              rw [hp]
          have hperm : p.2.2.Perm (List.range syst.length) := by
            rw [hone] at e4
            simpa using e4
          refine ⟨?_, ?_, ?_⟩
          · rw [hnorm]
            unfold normOf
            rw [hlen, if_neg h1]
          · rw [hnum']
            exact min?_perm (hperm.map _)
          · rw [hnum']
            exact max?_perm (hperm.map _)
  choose! g hg1 hg2 using hpart
  refine ⟨parts.map g, ?_, ?_⟩
  · have hmap : (parts.map (fun p => (p.1, p.2.1))).mapM (fun p => do
        let size' ← pick ps p.2
        let c ← pick pc p.2
        let edgecol ← pick pe p.2
        let lw' ← pick pl p.2
        let pos ← slice (sites.map Prod.fst) p.2
        symbols pos p.1 size' c edgecol lw' norm) = .ok (parts.map g) := by
      rw [List.mapM_map]
      exact mapM_ok _ g parts hg1
    rw [← e3] at hmap
    unfold plotSites
    simp only [hsyst, e1, e2, checkLength_ok _ hsi, checkLength_ok _ hco, checkLength_ok _ hed, checkLength_ok _ hlw]
    rw [hfst] at hmap ⊢
    show (do
      let size ← properSpec a.kind syst slcs.2 (dflt a.dim3).1 a.size
      _) = _
    rw [f1]
    show (do
      let color ← properSpec a.kind syst slcs.2 (dflt a.dim3).2.1 (colorSpec a family cycle (syst ++ leads.map Prod.fst) syst)
      _) = _
    rw [f2]
    show (do
      let edge ← properSpec a.kind syst slcs.2 (dflt a.dim3).2.2.1 a.edge
      _) = _
    rw [f3]
    show (do
      let lw ← properSpec a.kind syst slcs.2 (dflt a.dim3).2.2.2.1 a.lw
      _) = _
    rw [f4]
    exact hmap
  · have h5 : ∀ L : List (SymProc × Slc × List ℕ), (∀ p ∈ L, p ∈ parts) →
        (L.map g).flatten.filter visible = ((L.flatMap (fun p => p.2.2)).map (wanted syst sym size col edge lw)).filter visible := by
      intro L
      induction L with
      | nil => intro _; rfl
      | cons p r ih =>
        intro hL
        rw [List.map_cons, List.flatten_cons, List.filter_append, List.flatMap_cons, List.map_append, List.filter_append,
          hg2 p (hL p (by simp)), ih (fun q hq => hL q (by simp [hq]))]
    rw [h5 parts (fun _ h => h)]
    exact (e4.map _).filter _

theorem pgd {l : List A} {d : A} {k : ℕ} (hk : k < l.length) : l.getD k d = l[k] := by
  simp [hk]

/-- Two positions of a list without duplicates. -/
theorem cyc_inj {cycle : List String} (hnd : cycle.Nodup) {i j : ℕ} (hi : i < cycle.length) (hj : j < cycle.length)
    (h : cyc "" cycle i = cyc "" cycle j) : i = j := by
  unfold cyc at h
  rw [Nat.mod_eq_of_lt hi, Nat.mod_eq_of_lt hj, pgd hi, pgd hj] at h
  exact (hnd.getElem_inj_iff).mp h

/-- **C198 (default colours).** Without `site_color`, sites of a builder or a finalized builder have the same colour exactly if they are of the same
family, as long as there are not more families than colours in the cycle (for a builder, families of lead sites count). -/
theorem C198_default_colors [LinearOrder F] [Inhabited S] (a : Args S) (family : S → F) (cycle : List String) (syst leads : List S)
    (hcol : a.color = .none) (hk : a.kind ≠ .other) (hcy : cycle.Nodup)
    (hlen : (if a.kind = .builder then (syst ++ leads).map family else syst.map family).dedup.length ≤ cycle.length)
    {i j : ℕ} (hi : i < syst.length) (hj : j < syst.length) :
    colorAt a family cycle syst leads i = colorAt a family cycle syst leads j ↔ family syst[i] = family syst[j] := by
  have hget : ∀ k (hk : k < syst.length), syst.getD k default = syst[k] := fun k hk => pgd hk
  have key : ∀ families : List F, families.dedup.length ≤ cycle.length → family syst[i] ∈ families → family syst[j] ∈ families →
      (colorOf families cycle (family syst[i]) = colorOf families cycle (family syst[j]) ↔ family syst[i] = family syst[j]) := by
    intro fs hl h1 h2
    constructor
    · intro h
      unfold colorOf at h
      simp only [Val.name.injEq] at h
      have hmem : ∀ f, f ∈ fs → f ∈ fs.dedup.mergeSort (· ≤ ·) := by
        intro f hf
        rw [(List.mergeSort_perm _ _).mem_iff]
        exact List.mem_dedup.mpr hf
      have hlt : ∀ f, f ∈ fs → (fs.dedup.mergeSort (· ≤ ·)).idxOf f < cycle.length := by
        intro f hf
        have := List.idxOf_lt_length_iff.mpr (hmem f hf)
        rw [(List.mergeSort_perm _ _).length_eq] at this
        omega
      have h5 := cyc_inj hcy (hlt _ h1) (hlt _ h2) h
      exact (List.idxOf_inj (hmem _ h1)).mp h5
    · intro h
      rw [h]
  have m1 : family syst[i] ∈ syst.map family := List.mem_map_of_mem (List.getElem_mem hi)
  have m2 : family syst[j] ∈ syst.map family := List.mem_map_of_mem (List.getElem_mem hj)
  unfold colorAt colorSpec
  rw [hcol]
  cases hkk : a.kind with
  | other => exact absurd hkk hk
  | finalized =>
    rw [hkk] at hlen
    simp only [valAt, hget i hi, hget j hj]
    exact key _ (by simpa using hlen) m1 m2
  | builder =>
    rw [hkk] at hlen
    simp only [valAt, hget i hi, hget j hj]
    refine key _ (by simpa using hlen) ?_ ?_
    · rw [List.map_append]; exact List.mem_append_left _ m1
    · rw [List.map_append]; exact List.mem_append_left _ m2

/-- A documented polygon as the symbol of all the sites, or a documented RGB tuple as the colour of all the sites, makes `plot` of any
builder fail. -/
theorem C198_counterexample_builder [LinearOrder F] (a : Args S) (family : S → F) (cycle : List String) (sites : List (S × Option ℕ))
    (hk : a.kind = .builder) (h : (∃ ar n g, a.symbol = .const (.poly ar n g)) ∨ ∃ l, a.color = .const (.tup l))
    (out : List (List (Drawn S))) : plotSites a family cycle sites ≠ .ok out := by
  intro hout
  unfold plotSites at hout
  simp only [bind, Except.bind] at hout
  rcases h with ⟨ar, n, g, h⟩ | ⟨l, h⟩
  · simp only [h, properSym, hk, if_true] at hout
    repeat' split at hout
    all_goals simp_all
  · simp only [colorSpec, h, properSpec, hk, if_true] at hout
    repeat' split at hout
    all_goals simp_all

/-- The arguments of the concrete cases: a finalized system with the colour `c`. -/
def exArgs (symbol : Spec ℕ Sym) (c : Spec ℕ Val) : Args ℕ :=
  { kind := .finalized, dim3 := false, symbol := symbol, size := .none, color := c, edge := .none, lw := .none }

/-- For finalized systems: the RGB tuple `(1, 0, 0)` is cut to the number of sites and put through the colour map when there are two or three sites, and
fails when the symbols differ; numbers as colours fail when a site is hidden by `'no symbol'`. -/
theorem C198_counterexample_finalized :
    (∃ out, plotSites (exArgs .none (.const (.tup [1, 0, 0]))) id ["b"] [(0, none), (1, none)] = .ok out ∧
      out.flatten.map (fun d => d.paint) = [.mapped 1 (some 0) (some 1), .mapped 0 (some 0) (some 1)]) ∧
    (∃ out, plotSites (exArgs .none (.const (.tup [1, 0, 0]))) id ["b"] [(0, none), (1, none), (2, none)] = .ok out ∧
      out.flatten.map (fun d => d.paint) = [.mapped 1 (some 0) (some 1), .mapped 0 (some 0) (some 1), .mapped 0 (some 0) (some 1)]) ∧
    plotSites (exArgs (.func (fun s => if s = 0 then .name "o" else .name "s")) (.const (.tup [1, 0, 0]))) id ["b"]
      [(0, none), (1, none), (2, none), (3, none)] = .error "IndexError" ∧
    plotSites (exArgs (.func (fun s => if s = 0 then .name "o" else .name "no symbol")) (.func (fun s => .num s))) id ["b"]
      [(0, none), (1, none), (2, none)] = .error "ValueError" := by
  refine ⟨⟨_, rfl, rfl⟩, ⟨_, rfl, rfl⟩, rfl, rfl⟩

/-- A builder with three sites and a lead, with two symbols and with numbers as colours. -/
theorem C198_example : ∃ out, plotSites
    { kind := .builder, dim3 := false, symbol := .func (fun s : ℕ => if s = 1 then .poly false 6 30 else .name "s"),
      size := .func (fun s => if s = 0 then .num 1 else .num 2), color := .func (fun s => if s = 0 then .num 0 else if s = 1 then .num 10 else .num 20), edge := .const (.name "red"), lw := .none } id ["b"]
    [(0, none), (1, none), (2, none), (7, some 0)] = .ok out ∧
    (out.flatten.filter visible).Perm [
      ⟨0, some (.polygon false 4 45), .num 1, .mapped 0 (some 0) (some 20), .name "red", .num 0⟩,
      ⟨1, some (.polygon false 6 30), .num 2, .mapped 10 (some 0) (some 20), .name "red", .num 0⟩,
      ⟨2, some (.polygon false 4 45), .num 2, .mapped 20 (some 0) (some 20), .name "red", .num 0⟩] := by
  obtain ⟨out, h1, h2⟩ := C198_sites
    { kind := .builder, dim3 := false, symbol := .func (fun s : ℕ => if s = 1 then .poly false 6 30 else .name "s"),
      size := .func (fun s => if s = 0 then .num 1 else .num 2), color := .func (fun s => if s = 0 then .num 0 else if s = 1 then .num 10 else .num 20), edge := .const (.name "red"), lw := .none } id ["b"]
    [0, 1, 2] [(7, 0)] (by simp) trivial trivial trivial trivial trivial
    (by
      intro i hi
      simp only [valAt]
      split_ifs
      · exact .inl rfl
      · exact .inl rfl)
    (by intro h; simp at h)
    (by intro i hi; rfl)
    (.inr ⟨by
      intro i hi
      refine ⟨?_, ?_, ?_⟩
      · simp only [colorAt, colorSpec, valAt]
        split_ifs <;> simp [asNum]
      · simp only [valAt]
        split_ifs <;> simp
      · simp only [valAt]
        split_ifs <;> simp, by intro q; simp⟩)
  refine ⟨out, h1, ?_⟩
  exact h2

end Kwant.PlotSites
