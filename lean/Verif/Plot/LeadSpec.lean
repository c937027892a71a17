import Verif.Plot.SiteSpecMain
import Mathlib.Tactic.Linarith
import Mathlib.Tactic.Ring
import Mathlib.Tactic.FieldSimp

/-!
C199: the hoppings and the leads in the figure of `kwant.plot` (matplotlib): `_make_proper_hop_spec`, `lines`, and the part of
`_plot_matplotlib` (plotter.py l.951-960, l.347-409, l.1395-1409, l.1421-1444, l.1477-1510) that takes the properties of the leads from those of the sites and draws
the leads.  Same simplifications as in `SiteSpec.lean`.
-/

namespace Kwant.PlotSites

variable {S H : Type}

/-! ## Model -/

/-- A value that has not been sliced, as an argument of `symbols` or `lines`: a tuple can be indexed. -/
def toProc : Val → Proc
  | .tup l => .seq false (l.map .num)
  | v => .one v

/-- `_make_proper_hop_spec` without fancy indexing, and the default (l.951-960, l.1396-1397, l.1408-1409). -/
def properHop (hops : List H) (d : Val) : Spec H Val → Proc
  | .none => .one d
  | .const v => toProc v
  | .arr nd l => .seq nd l
  | .func f => .seq false (hops.map f)

/-- A line in the figure. -/
structure Line (H : Type) where
  hop : H
  paint : Paint
  lw : Val

/-- `linewidths == 0` (l.389): a list is unequal to a number, an array of several elements has no truth value. -/
def widthZero : Proc → Except String Bool
  | .one v => .ok (v == .num 0)
  | .seq false _ => .ok false
  | .seq true [v] => .ok (v == .num 0)
  | .seq true _ => .error "ValueError"

/-- `lines` (l.347-409) -/
def lines (segs : List H) (colors lw : Proc) (norm : Option (Option ℚ × Option ℚ)) : Except String (List (Line H)) :=
  if segs.isEmpty then .ok []
  else do
    let z ← widthZero lw
    if z then .ok []
    else do
      let c ← setColors colors segs.length norm
      .ok (segs.zipIdx.map (fun p => { hop := p.1, paint := c.at p.2, lw := cyc (.num 0) lw.toList p.2 }))

/-- The lines of the system: l.1396-1397, l.1408-1409, l.1477-1479. -/
def plotHoppings (dim3 : Bool) (color lw : Spec H Val) (hops : List H) : Except String (List (Line H)) :=
  lines hops (properHop hops (.name "black") color) (properHop hops (if dim3 then .num 0 else .num (1 / 10)) lw) none

/-- `lead_site_symbol` with `None` replaced (l.1422-1425); `site` is `site_symbol` after l.1360: a polygon is a tuple, which can be indexed. -/
def leadSymbol (given : Option Sym) (site : SymProc) : Sym :=
  match given with
  | some s => s
  | none =>
    match site with
    | .one (.name s) => .name s
    | _ => .name "o"

/-- The other properties of leads with `None` replaced (l.1426-1428, l.1433-1441). -/
def leadValue (given : Option Val) (site : Proc) (d : Val) : Val :=
  match given with
  | some v => v
  | none =>
    match site with
    | .one v => v
    | .seq _ _ => d

/-- The colours of a lead are numbers of cells, put through a colour map from `lead_color` to white with this range (l.1482). -/
def leadNorm (numCells : ℕ) : Option (Option ℚ × Option ℚ) := some (some (-1 / 2), some (numCells - 1 / 2))

/-- The arguments concerning leads after the replacement of `None`. -/
structure LeadArgs where
  symbol : Sym
  size : Val
  edge : Val
  lw : Val
  hopLw : Val

/-- One turn of the loop over the leads (l.1486-1510): sites and hoppings of the lead, each with the number of its cell. -/
def drawLead (a : LeadArgs) (numCells : ℕ) (sites : List (S × ℕ)) (hops : List (H × ℕ)) : Except String (List (Drawn S) × List (Line H)) := do
  let s ← symbols (sites.map Prod.fst) (.one a.symbol) (toProc a.size) (.seq true (sites.map (fun p => .num p.2))) (toProc a.edge) (toProc a.lw)
    (leadNorm numCells)
  let l ← lines (hops.map Prod.fst) (.seq true (hops.map (fun p => .num p.2))) (toProc a.hopLw) (leadNorm numCells)
  .ok (s, l)

/-- The leads of the figure. -/
def plotLeads (a : LeadArgs) (numCells : ℕ) (leads : List (List (S × ℕ) × List (H × ℕ))) : Except String (List (List (Drawn S) × List (Line H))) :=
  leads.mapM (fun l => drawLead a numCells l.1 l.2)

/-! ## Specification -/

/-- The value an argument gives to a hopping. -/
def hopVal (d : Val) (spec : Spec H Val) (h : H) : Val :=
  match spec with
  | .none => d
  | .const v => v
  | .arr _ _ => d
  | .func f => f h

/-- The documented arguments for hoppings: no arrays. -/
def NoArray : Spec H Val → Prop
  | .arr _ _ => False
  | _ => True

/-- The numbers among the colours of all the hoppings. -/
def hopNumbers (col : H → Val) (hops : List H) : List ℚ := hops.filterMap (fun h => asNum (col h))

/-- What is to be drawn for a hopping. -/
def wantedLine (col lw : H → Val) (hops : List H) (h : H) : Line H :=
  { hop := h
    paint := match col h with
      | .num c => .mapped c (hopNumbers col hops).min? (hopNumbers col hops).max?
      | v => .rgba v
    lw := lw h }

/-- A line that can be seen. -/
def seen (l : Line H) : Bool := l.lw != .num 0

/-- A number for all the sites or hoppings, and no tuple. -/
def IsNumber (v : Val) : Prop := (asNum v).isSome

/-! ## Proofs -/

theorem toProc_list_color {v : Val} (h : isColor v = true) : toRgbaArray (toProc v) = .ok [v] := by
  cases v with
  | num q => simp [isColor] at h
  | name s => rfl
  | tup l =>
    have h1 : (l.map Val.num).mapM asNum = some l := by
      rw [mapM_some asNum toQ _ (by
        intro x hx
        obtain ⟨q, -, rfl⟩ := List.mem_map.mp hx
        rfl), List.map_map]
      congr 1
      exact List.map_id l
    have h2 : l.length = 3 ∨ l.length = 4 := by simpa [isColor] using h
    have h3 : l.length ≠ 0 := by omega
    simp only [toProc, toRgbaArray, h1, if_neg h3, if_pos h2]

theorem cyc_toProc_num {v : Val} (h : IsNumber v) (k : ℕ) : cyc (.num 0) (toProc v).toList k = v := by
  cases v with
  | num q => exact cyc_one _ _ _
  | name s => exact cyc_one _ _ _
  | tup l => simp [IsNumber, asNum] at h

/-- The items of a collection of lines. -/
theorem lines_ok {X : Type} (items : List X) (f : X → H) (colors : Proc) (lwp : Proc) (norm : Option (Option ℚ × Option ℚ)) (lw : X → Val)
    (paint : X → Paint)
    (hc : items ≠ [] → ∃ c, setColors colors items.length norm = .ok c ∧ ∀ k (hk : k < items.length), c.at k = paint items[k])
    (hlw : ∀ k (hk : k < items.length), cyc (.num 0) lwp.toList k = lw items[k]) (hz : (∃ v, lwp = .one v) ∨ ∃ l, lwp = .seq false l) :
    ∃ out, lines (items.map f) colors lwp norm = .ok out ∧
      out.filter seen = (items.map (fun x => ({ hop := f x, paint := paint x, lw := lw x } : Line H))).filter seen := by
  by_cases he : items = []
  · subst he
    exact ⟨[], rfl, rfl⟩
  · obtain ⟨c, h1, h2⟩ := hc he
    have hemp : (items.map f).isEmpty = false := by simpa using he
    have hitems : (items.map f).zipIdx.map (fun p => ({ hop := p.1, paint := c.at p.2, lw := cyc (.num 0) lwp.toList p.2 } : Line H)) =
        items.map (fun x => { hop := f x, paint := paint x, lw := lw x }) := by
      apply List.ext_getElem (by simp)
      intro k k1 k2
      simp only [List.length_map] at k2
      simp only [List.getElem_map, List.getElem_zipIdx, zero_add, h2 k k2, hlw k k2]
    rcases hz with ⟨v, rfl⟩ | ⟨l, rfl⟩
    · by_cases hv : v = .num 0
      · refine ⟨[], ?_, ?_⟩
        · simp [lines, he, widthZero, hv, bind, Except.bind]
        · symm
          rw [List.filter_nil, List.filter_eq_nil_iff]
          intro x hx
          obtain ⟨h, hh, rfl⟩ := List.mem_map.mp hx
          obtain ⟨k, hk, rfl⟩ := List.getElem_of_mem hh
          have := hlw k hk
          rw [show (Proc.one v).toList = [v] from rfl, cyc_one, hv] at this
          simp [seen, ← this]
      · refine ⟨_, ?_, rfl⟩
        have hv' : (v == Val.num 0) = false := by simpa using hv
        simp only [lines, hemp, widthZero, hv', h1, bind, Except.bind, Bool.false_eq_true, if_false, List.length_map]
        rw [hitems]
    · refine ⟨_, ?_, rfl⟩
      simp only [lines, hemp, widthZero, h1, bind, Except.bind, Bool.false_eq_true, if_false, List.length_map]
      rw [hitems]

theorem asNum_mapM (f : H → Val) (l : List H) (h : ∀ x ∈ l, asNum (f x) ≠ none) : (l.map f).mapM asNum = some (l.map (toQ ∘ f)) := by
  rw [mapM_some asNum toQ _ (by
    intro x hx
    obtain ⟨y, hy, rfl⟩ := List.mem_map.mp hx
    exact (toQ_spec (h y hy)).1), List.map_map]

theorem lines_id (hops : List H) (c lw : Proc) (n : Option (Option ℚ × Option ℚ)) : lines hops c lw n = lines (hops.map id) c lw n := by
  rw [List.map_id]

/-- **C199 (hoppings).** Every hopping of the system is drawn exactly once, with its own colour and width; numbers as colours are mapped with the range of the numbers of
all the hoppings.  Lines of width zero are not seen. -/
theorem C199_hoppings (dim3 : Bool) (color lw : Spec H Val) (hops : List H) (hc : NoArray color) (hl : NoArray lw)
    (ht : ∀ l, color ≠ .const (.tup l))
    (hcol : (∀ h ∈ hops, isColor (hopVal (.name "black") color h) = true) ∨
      ((∀ h ∈ hops, asNum (hopVal (.name "black") color h) ≠ none) ∧ ∀ v, color ≠ .const v))
    (hlw : ∀ h ∈ hops, IsNumber (hopVal (if dim3 then .num 0 else .num (1 / 10)) lw h)) :
    ∃ out, plotHoppings dim3 color lw hops = .ok out ∧
      out.filter seen = (hops.map (wantedLine (hopVal (.name "black") color) (hopVal (if dim3 then .num 0 else .num (1 / 10)) lw) hops)).filter seen := by
  unfold plotHoppings
  have hlwp : (∀ k (hk : k < hops.length), cyc (.num 0) (properHop hops (if dim3 then .num 0 else .num (1 / 10)) lw).toList k =
        hopVal (if dim3 then .num 0 else .num (1 / 10)) lw hops[k]) ∧
      ((∃ v, properHop hops (if dim3 then .num 0 else .num (1 / 10)) lw = .one v) ∨
        (∃ l, properHop hops (if dim3 then .num 0 else .num (1 / 10)) lw = .seq false l)) := by
    cases lw with
    | none => exact ⟨fun k _ => cyc_one _ _ _, .inl ⟨_, rfl⟩⟩
    | const v =>
      cases v with
      | num q => exact ⟨fun k _ => cyc_one _ _ _, .inl ⟨_, rfl⟩⟩
      | name q => exact ⟨fun k _ => cyc_one _ _ _, .inl ⟨_, rfl⟩⟩
      | tup l =>
        refine ⟨fun k hk => ?_, .inr ⟨_, rfl⟩⟩
        have := hlw _ (List.getElem_mem hk)
        simp [hopVal, IsNumber, asNum] at this
    | arr nd l => exact absurd hl (by simp [NoArray])
    | func f => exact ⟨fun k hk => cyc_map _ _ _ hk, .inr ⟨_, rfl⟩⟩
  conv =>
    enter [1, out, 1, 1]
    rw [lines_id]
  refine lines_ok hops id _ _ none _ (fun h => (wantedLine (hopVal (.name "black") color) (hopVal (if dim3 then .num 0 else .num (1 / 10)) lw) hops h).paint)
    (fun hne => ?_) hlwp.1 hlwp.2
  cases color with
  | none => exact ⟨.rgba [.name "black"], rfl, fun k _ => by simp [Colouring.at, cyc_one, wantedLine, hopVal]⟩
  | const v =>
    have h0 : isColor v = true := by
      rcases hcol with h | ⟨-, h⟩
      · obtain ⟨x, hx⟩ := List.exists_mem_of_ne_nil hops hne
        exact h x hx
      · exact absurd rfl (h v)
    cases v with
    | num q => simp [isColor] at h0
    | name s => exact ⟨.rgba [.name s], rfl, fun k _ => by simp [Colouring.at, cyc_one, wantedLine, hopVal]⟩
    | tup l => exact absurd rfl (ht l)
  | arr nd l => exact absurd hc (by simp [NoArray])
  | func f =>
    rcases hcol with h | ⟨h, -⟩
    · have h1 : (hops.map f).mapM asNum = none := by
        apply mapM_none _ _ (by simpa using hne)
        intro x hx
        obtain ⟨y, hy, rfl⟩ := List.mem_map.mp hx
        exact isColor_asNum (h y hy)
      have h2 : (hops.map f).all isColor = true := by
        rw [List.all_eq_true]
        intro x hx
        obtain ⟨y, hy, rfl⟩ := List.mem_map.mp hx
        exact h y hy
      refine ⟨.rgba (hops.map f), ?_, ?_⟩
      · simp [properHop, setColors, toRgbaArray, h1, h2, Except.map]
      · intro k hk
        have h3 := h _ (List.getElem_mem hk)
        simp only [Colouring.at, cyc_map _ _ _ hk, wantedLine, hopVal] at h3 ⊢
        cases h4 : f hops[k] with
        | num q => rw [h4] at h3; simp [isColor] at h3
        | name s => rfl
        | tup l => rfl
    · have h1 := asNum_mapM f hops h
      have h2 : hopNumbers (hopVal (.name "black") (.func f)) hops = hops.map (toQ ∘ f) := by
        unfold hopNumbers
        rw [← List.filterMap_eq_map]
        apply List.filterMap_congr
        intro x hx
        exact (toQ_spec (h x hx)).1
      refine ⟨.mapped (hops.map (toQ ∘ f)) (hops.map (toQ ∘ f)).min? (hops.map (toQ ∘ f)).max?, ?_, ?_⟩
      · simp [properHop, setColors, h1]
      · intro k hk
        have h3 := (toQ_spec (h _ (List.getElem_mem hk))).2
        simp only [hopVal] at h3
        simp only [Colouring.at, cyc_map _ _ _ hk, wantedLine, hopVal]
        rw [h3]
        simp only [← h2]
        rfl

/-- What is to be drawn for a site of a lead: the colour is that of its cell. -/
def wantedLeadSite (a : LeadArgs) (numCells : ℕ) (p : S × ℕ) : Drawn S :=
  { site := p.1, shape := shapeDoc a.symbol, size := a.size, paint := .mapped p.2 (some (-1 / 2)) (some (numCells - 1 / 2)), edge := a.edge, lw := a.lw }

/-- What is to be drawn for a hopping of a lead. -/
def wantedLeadLine (a : LeadArgs) (numCells : ℕ) (p : H × ℕ) : Line H :=
  { hop := p.1, paint := .mapped p.2 (some (-1 / 2)) (some (numCells - 1 / 2)), lw := a.hopLw }

theorem setColors_cells (l : List (S × ℕ)) (n : ℕ) :
    setColors (.seq true (l.map (fun p => .num p.2))) l.length (leadNorm n) =
      .ok (.mapped (l.map (fun p => (p.2 : ℚ))) (some (-1 / 2)) (some (n - 1 / 2))) := by
  have h1 := asNum_mapM (fun p : S × ℕ => Val.num p.2) l (by simp [asNum])
  simp only [setColors, List.length_map, if_true, h1, leadNorm]
  rfl

/-- **C199 (leads).** Every site and every hopping of every plotted cell of every lead is drawn exactly once, with the symbol, size, edge colour and widths of the
leads, and with the colour of its cell, provided that the symbol of the leads is not `'no symbol'`. -/
theorem C199_leads (a : LeadArgs) (numCells : ℕ) (leads : List (List (S × ℕ) × List (H × ℕ))) (hs : (shapeDoc a.symbol).isSome)
    (h1 : IsNumber a.size) (h2 : isColor a.edge = true) (h3 : IsNumber a.lw) (h4 : IsNumber a.hopLw) :
    ∃ out, plotLeads a numCells leads = .ok out ∧
      out.map (fun o => (o.1, o.2.filter seen)) =
        leads.map (fun l => (l.1.map (wantedLeadSite a numCells), (l.2.map (wantedLeadLine a numCells)).filter seen)) := by
  have key : ∀ l : List (S × ℕ) × List (H × ℕ), ∃ o, drawLead a numCells l.1 l.2 = .ok o ∧
      (o.1, o.2.filter seen) = (l.1.map (wantedLeadSite a numCells), (l.2.map (wantedLeadLine a numCells)).filter seen) := by
    intro l
    have hsym : symbols (l.1.map Prod.fst) (.one a.symbol) (toProc a.size) (.seq true (l.1.map (fun p => .num p.2))) (toProc a.edge) (toProc a.lw)
        (leadNorm numCells) = .ok (l.1.map (wantedLeadSite a numCells)) := by
      have hedge := toProc_list_color h2
      cases hl : l.1 with
      | nil =>
        unfold symbols
        simp only [hidden, List.map_nil, List.isEmpty_nil, Bool.true_or, if_true, hedge]
        rfl
      | cons x r =>
        rw [← hl]
        have hne : l.1 ≠ [] := by rw [hl]; simp
        have hhid : hidden (l.1.map Prod.fst) (.one a.symbol) (toProc a.size) = false := by
          have e1 : (l.1.map Prod.fst).isEmpty = false := by simpa using hne
          cases h5 : a.symbol with
          | poly ar n g => cases h6 : a.size <;> simp [hidden, e1, toProc, -List.isEmpty_map]
          | name s =>
            have h7 : s ≠ "no symbol" := by
              intro h6
              rw [h5, h6] at hs
              simp [shapeDoc] at hs
            cases h6 : a.size <;> simp [hidden, toProc, h7, hne]
        obtain ⟨ps, g1, g2⟩ := getSymbol_one hs
        have hlen : ps.length = 1 := by simpa using congrArg List.length g2
        have hpos : 0 < l.1.length := List.length_pos_iff.mpr hne
        have hmax : max ps.length (l.1.map Prod.fst).length = l.1.length := by rw [List.length_map]; omega
        unfold symbols
        simp only [hhid, Bool.false_eq_true, if_false, g1, hedge]
        show (do let colors ← setColors _ (max ps.length (l.1.map Prod.fst).length) (leadNorm numCells); _) = _
        rw [hmax, setColors_cells]
        show Except.ok _ = Except.ok _
        congr 1
        apply List.ext_getElem (by simp)
        intro k k1 k2
        simp only [List.length_map] at k2
        simp only [List.getElem_map, List.getElem_zipIdx, zero_add, wantedLeadSite, cyc_toProc_num h1, cyc_toProc_num h3, cyc_one, g2, Colouring.at,
          cyc_map _ _ _ k2]
    obtain ⟨lo, hlo1, hlo2⟩ := lines_ok l.2 Prod.fst (.seq true (l.2.map (fun p => .num p.2))) (toProc a.hopLw) (leadNorm numCells)
      (fun _ => a.hopLw) (fun p => .mapped p.2 (some (-1 / 2)) (some (numCells - 1 / 2)))
      (fun _ => ⟨_, setColors_cells l.2 numCells, fun k hk => by simp only [Colouring.at, cyc_map _ _ _ hk]⟩)
      (fun k _ => cyc_toProc_num h4 k) (by
        cases h5 : a.hopLw with
        | num q => exact .inl ⟨_, rfl⟩
        | name s => exact .inl ⟨_, rfl⟩
        | tup l => exact .inr ⟨_, rfl⟩)
    refine ⟨(l.1.map (wantedLeadSite a numCells), lo), ?_, ?_⟩
    · simp only [drawLead, hsym, hlo1, bind, Except.bind]
    · rw [hlo2]
      rfl
  choose g hg1 hg2 using key
  exact ⟨leads.map g, mapM_ok _ g leads (fun l _ => hg1 l), by
    rw [List.map_map]
    exact List.map_congr_left (fun l _ => hg2 l)⟩

/-- The position of a cell on the way from `lead_color` (0) to white (1). -/
def fade (numCells cell : ℕ) : ℚ := ((cell : ℚ) - (-1 / 2)) / ((numCells - 1 / 2) - (-1 / 2))

/-- **C199 (fading).** The colours of the cells fade strictly from `lead_color` to white, and are all different from both. -/
theorem C199_fade (numCells : ℕ) {i j : ℕ} (hij : i < j) (hj : j < numCells) :
    0 < fade numCells i ∧ fade numCells i < fade numCells j ∧ fade numCells j < 1 := by
  have h1 : (0 : ℚ) < numCells := by exact_mod_cast (by omega : 0 < numCells)
  have h2 : (i : ℚ) < j := by exact_mod_cast hij
  have h3 : (j : ℚ) + 1 ≤ numCells := by exact_mod_cast hj
  have h0 : (0 : ℚ) ≤ i := by positivity
  have h4 : ((numCells : ℚ) - 1 / 2) - (-1 / 2) = numCells := by ring
  unfold fade
  rw [h4]
  refine ⟨div_pos (by linarith) h1, (div_lt_div_iff_of_pos_right h1).mpr (by linarith), (div_lt_one h1).mpr (by linarith)⟩

/-- **C199 (defaults).** The symbol and the other properties of the leads are the given ones; otherwise those of the sites, if these are given as a single value that is
no tuple; otherwise the defaults. -/
theorem C199_inherit [Inhabited S] (kind : Kind) (syst : List S) (fancy : Bool) (d : Val) (spec : Spec S Val) (p : Proc)
    (hp : properSpec kind syst fancy d spec = .ok p) (given : Option Val) :
    leadValue given p d = match given, spec with
      | some v, _ => v
      | none, .const (.tup _) => d
      | none, .const v => v
      | none, _ => d := by
  cases given with
  | some v => rfl
  | none =>
    cases spec with
    | none => simp only [properSpec, Except.ok.injEq] at hp; subst hp; rfl
    | const v =>
      cases v with
      | num q => simp only [properSpec, Except.ok.injEq] at hp; subst hp; rfl
      | name q => simp only [properSpec, Except.ok.injEq] at hp; subst hp; rfl
      | tup l =>
        simp only [properSpec] at hp
        split_ifs at hp
        simp only [Except.ok.injEq] at hp
        subst hp
        rfl
    | arr nd l =>
      simp only [properSpec] at hp
      split_ifs at hp
      simp only [Except.ok.injEq] at hp
      subst hp
      rfl
    | func f => simp only [properSpec, Except.ok.injEq] at hp; subst hp; rfl

/-- The same for the symbol; but a polygon is not passed on to the leads, although it is a single symbol for all the sites. -/
theorem C199_inherit_symbol (kind : Kind) (syst : List S) (spec : Spec S Sym) (p : SymProc)
    (hp : properSym kind syst spec = .ok p) (given : Option Sym) :
    leadSymbol given p = match given, spec with
      | some s, _ => s
      | none, .const (.name s) => .name s
      | none, _ => .name "o" := by
  cases given with
  | some v => rfl
  | none =>
    cases spec with
    | none => simp only [properSym, Except.ok.injEq] at hp; subst hp; rfl
    | const v =>
      cases v with
      | name q => simp only [properSym, Except.ok.injEq] at hp; subst hp; rfl
      | poly ar n g =>
        simp only [properSym] at hp
        split_ifs at hp
        simp only [Except.ok.injEq] at hp
        subst hp
        rfl
    | arr nd l =>
      simp only [properSym] at hp
      split_ifs at hp
      simp only [Except.ok.injEq] at hp
      subst hp
      rfl
    | func f => simp only [properSym, Except.ok.injEq] at hp; subst hp; rfl

/-- With `site_symbol='no symbol'` (and no `lead_site_symbol`) the leads have no symbol either, and `plot` fails as soon as a lead shows one, two or at least five sites; a polygon
for all the sites of a finalized system is drawn as a circle in the leads; the colour `(1, 0, 0)` for hoppings is taken for three numbers when there are
three hoppings. -/
theorem C199_counterexample :
    (∀ p, properSym (S := ℕ) .finalized [0] (.const (.name "no symbol")) = .ok p → ∀ (a : LeadArgs) (numCells : ℕ) (sites : List (S × ℕ)) (hops : List (H × ℕ)),
      a.symbol = leadSymbol none p → isColor a.edge = true → sites ≠ [] → sites.length ≠ 3 → sites.length ≠ 4 →
        drawLead a numCells sites hops = .error "ValueError") ∧
    (∀ n g, ∃ p, properSym (S := ℕ) .finalized [0] (.const (.poly false n g)) = .ok p ∧ shapeDoc (leadSymbol none p) = some .circle) ∧
    ∃ out, plotHoppings (H := ℕ) false (.const (.tup [1, 0, 0])) (.const (.num 1)) [0, 1, 2] = .ok out ∧
      out.map (fun l => l.paint) = [.mapped 1 (some 0) (some 1), .mapped 0 (some 0) (some 1), .mapped 0 (some 0) (some 1)] := by
  refine ⟨?_, ?_, ⟨_, rfl, rfl⟩⟩
  · intro p hp a numCells sites hops ha he hne h3 h4
    simp only [properSym, Except.ok.injEq] at hp
    subst hp
    have hh : hidden (sites.map Prod.fst) (.one a.symbol) (toProc a.size) = true := by
      rw [ha]
      simp [hidden, leadSymbol]
    have hlen : sites.length ≠ 0 := by simpa using hne
    have hlen' : ¬ (0 = sites.length) := fun h => hlen h.symm
    have hnum := asNum_mapM (fun p : S × ℕ => Val.num p.2) sites (by simp [asNum])
    have herr : symbols (sites.map Prod.fst) (.one a.symbol) (toProc a.size) (.seq true (sites.map (fun p => .num p.2))) (toProc a.edge) (toProc a.lw)
        (leadNorm numCells) = .error "ValueError" := by
      have hset : setColors (.seq true (sites.map (fun p => .num p.2))) 0 (leadNorm numCells) = .error "ValueError" := by
        simp only [setColors, List.length_map, if_neg hlen, toRgbaArray, hnum, h3, h4, or_self, if_false]
        rfl
      unfold symbols
      simp only [hh, if_true]
      show (do let colors ← setColors _ 0 (leadNorm numCells); _) = _
      rw [hset]
      rfl
    simp only [drawLead, herr, bind, Except.bind]
  · intro n g
    exact ⟨_, rfl, rfl⟩

/-- A lead with two cells of two sites. -/
theorem C199_example : ∃ out, plotLeads (S := ℕ) (H := ℕ) ⟨.name "s", .num 1, .name "black", .num 0, .num 1⟩ 2
    [([(10, 0), (11, 0), (12, 1), (13, 1)], [(5, 0), (6, 1)])] = .ok out ∧
    out.map (fun o => o.1.map (fun d => d.paint)) =
      [[.mapped 0 (some (-1 / 2)) (some (2 - 1 / 2)), .mapped 0 (some (-1 / 2)) (some (2 - 1 / 2)), .mapped 1 (some (-1 / 2)) (some (2 - 1 / 2)),
        .mapped 1 (some (-1 / 2)) (some (2 - 1 / 2))]] := by
  obtain ⟨out, h1, h2⟩ := C199_leads (S := ℕ) (H := ℕ) ⟨.name "s", .num 1, .name "black", .num 0, .num 1⟩ 2
    [([(10, 0), (11, 0), (12, 1), (13, 1)], [(5, 0), (6, 1)])] rfl rfl rfl rfl rfl
  refine ⟨out, h1, ?_⟩
  have := congrArg (List.map (fun o : List (Drawn ℕ) × List (Line ℕ) => o.1.map (fun d => d.paint))) h2
  rw [List.map_map] at this
  refine Eq.trans this ?_
  simp [wantedLeadSite]

end Kwant.PlotSites
