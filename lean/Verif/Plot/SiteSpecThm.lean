import Verif.Plot.SiteSpec
import Mathlib.Data.List.MinMax

/-!
C198: every site of the system is drawn once, with the symbol, the size, the colour, the edge colour and the width that the arguments
of `kwant.plot` give for it; specification and proofs.
-/

namespace Kwant.PlotSites

variable {S F A B : Type}

/-! ## Specification -/

/-- The value an argument gives to the site with index `i` (documentation of `plot`). -/
def valAt [Inhabited S] (syst : List S) (d : A) (spec : Spec S A) (i : ℕ) : A :=
  match spec with
  | .none => d
  | .const a => a
  | .arr _ l => l.getD i d
  | .func f => f (syst.getD i default)

/-- The documented symbols (l.767-777). -/
def shapeDoc : Sym → Option Shape
  | .name s => if s = "o" then some .circle else if s = "s" then some (.polygon false 4 45) else
      if s = "S" then some (.polygon true 4 45) else none
  | .poly a n g => some (.polygon a n g)

/-- A documented symbol description. -/
def ValidSym (s : Sym) : Prop := (shapeDoc s).isSome ∨ s = .name "no symbol"

/-- Anything but a tuple for all the sites, and arrays only of the right length and not for builders. -/
def Usable (kind : Kind) (n : ℕ) : Spec S Val → Prop
  | .const (.tup _) => False
  | .arr _ l => l.length = n ∧ kind ≠ .builder
  | _ => True

/-- The same for the symbols, where the tuple of a polygon is allowed for finalized systems. -/
def UsableSym (kind : Kind) (n : ℕ) : Spec S Sym → Prop
  | .const (.poly _ _ _) => kind ≠ .builder
  | .arr _ l => l.length = n ∧ kind ≠ .builder
  | _ => True

/-- The numbers among the values of all the sites. -/
def numbers (n : ℕ) (col : ℕ → Val) : List ℚ := (List.range n).filterMap (fun i => asNum (col i))

/-- A number goes through the colour map, whose ends are the smallest and the largest number of all the sites. -/
def paintOf (n : ℕ) (col : ℕ → Val) (i : ℕ) : Paint :=
  match col i with
  | .num c => .mapped c (numbers n col).min? (numbers n col).max?
  | v => .rgba v

/-- What is to be drawn for the site with index `i`. -/
def wanted [Inhabited S] (syst : List S) (sym : ℕ → Sym) (size col edge lw : ℕ → Val) (i : ℕ) : Drawn S :=
  { site := syst.getD i default, shape := shapeDoc (sym i), size := size i, paint := paintOf syst.length col i, edge := edge i, lw := lw i }

/-- A symbol that can be seen. -/
def visible (d : Drawn S) : Bool := d.shape.isSome && d.size != .num 0

/-! ## Lemmas -/

theorem mapM_ok (f : A → Except String B) (g : A → B) (l : List A) (h : ∀ x ∈ l, f x = .ok (g x)) : l.mapM f = .ok (l.map g) := by
  induction l with
  | nil => rfl
  | cons x r ih =>
    rw [List.mapM_cons, h x (by simp), ih (fun y hy => h y (by simp [hy]))]
    rfl

theorem mapM_some (f : A → Option B) (g : A → B) (l : List A) (h : ∀ x ∈ l, f x = some (g x)) : l.mapM f = some (l.map g) := by
  induction l with
  | nil => rfl
  | cons x r ih =>
    rw [List.mapM_cons, h x (by simp), ih (fun y hy => h y (by simp [hy]))]
    rfl

theorem mapM_none (f : A → Option B) (l : List A) (hl : l ≠ []) (h : ∀ x ∈ l, f x = none) : l.mapM f = none := by
  cases l with
  | nil => exact absurd rfl hl
  | cons x r => rw [List.mapM_cons, h x (by simp)]; rfl

/-- The indices selected by `slc`. -/
def IsIdx (n : ℕ) (slc : Slc) (is : List ℕ) : Prop :=
  (∀ i ∈ is, i < n) ∧ ((slc = .upto n ∧ is = List.range n) ∨ slc = .idx is)

theorem slice_ok {n : ℕ} {slc : Slc} {is : List ℕ} (h : IsIdx n slc is) (f : ℕ → A) (r : List A) :
    slice ((List.range n).map f ++ r) slc = .ok (is.map f) := by
  obtain ⟨h1, ⟨rfl, rfl⟩ | rfl⟩ := h
  · show Except.ok (List.take n _) = _
    rw [List.take_append_of_le_length (by simp), List.take_of_length_le (by simp)]
  · unfold slice
    apply mapM_ok
    intro i hi
    have hi' := h1 i hi
    unfold pyGet
    rw [List.getElem?_append_left (by simpa using hi')]
    simp [List.getElem?_range hi']

/-- `p` holds the values `at` of the sites `is`. -/
def Rep (is : List ℕ) (val : ℕ → Val) (p : Proc) : Prop :=
  (∃ v, p = .one v ∧ ∀ i ∈ is, val i = v) ∨ ∃ nd, p = .seq nd (is.map val)

theorem getD_map_range (l : List A) (d : A) : (List.range l.length).map (fun i => l.getD i d) = l := by
  apply List.ext_getElem (by simp)
  intro i h1 h2
  simp [h2]

theorem proper_rep [Inhabited S] {kind : Kind} {syst : List S} {spec : Spec S Val} (fancy : Bool) (d : Val) (h : Usable kind syst.length spec) :
    ∃ p, properSpec kind syst fancy d spec = .ok p ∧ Rep (List.range syst.length) (valAt syst d spec) p := by
  cases spec with
  | none => exact ⟨_, rfl, .inl ⟨d, rfl, fun _ _ => rfl⟩⟩
  | const v =>
    cases v with
    | tup l => exact absurd h (by simp [Usable])
    | num q => exact ⟨_, rfl, .inl ⟨_, rfl, fun _ _ => rfl⟩⟩
    | name q => exact ⟨_, rfl, .inl ⟨_, rfl, fun _ _ => rfl⟩⟩
  | arr nd l =>
    obtain ⟨hl, hk⟩ := h
    refine ⟨_, by simp [properSpec, hk]; rfl, .inr ⟨nd || fancy, ?_⟩⟩
    rw [← hl]
    exact congrArg _ (getD_map_range l d).symm
  | func f =>
    refine ⟨_, rfl, .inr ⟨fancy, ?_⟩⟩
    congr 1
    conv_lhs => rw [← getD_map_range syst default]
    simp [valAt]

theorem pick_rep {n : ℕ} {slc : Slc} {is : List ℕ} {val : ℕ → Val} {p : Proc} (hs : IsIdx n slc is) (h : Rep (List.range n) val p) :
    ∃ q, pick p slc = .ok q ∧ Rep is val q := by
  rcases h with ⟨v, rfl, hv⟩ | ⟨nd, rfl⟩
  · exact ⟨_, rfl, .inl ⟨v, rfl, fun i hi => hv i (List.mem_range.mpr (hs.1 i hi))⟩⟩
  · refine ⟨.seq nd (is.map val), ?_, .inr ⟨nd, rfl⟩⟩
    have := slice_ok hs val []
    rw [List.append_nil] at this
    simp [pick, this, Except.map]

theorem cyc_map (d : B) (f : A → B) (l : List A) {k : ℕ} (hk : k < l.length) : cyc d (l.map f) k = f l[k] := by
  unfold cyc
  rw [List.length_map, Nat.mod_eq_of_lt hk]
  simp [hk]

theorem cyc_one (d v : B) (k : ℕ) : cyc d [v] k = v := by
  unfold cyc
  simp [Nat.mod_one]

theorem cyc_rep {is : List ℕ} {val : ℕ → Val} {q : Proc} (h : Rep is val q) (d : Val) {k : ℕ} (hk : k < is.length) :
    cyc d q.toList k = val is[k] := by
  rcases h with ⟨v, rfl, hv⟩ | ⟨nd, rfl⟩
  · rw [show (Proc.one v).toList = [v] from rfl, cyc_one, hv _ (List.getElem_mem hk)]
  · exact cyc_map d val is hk

theorem isColor_asNum {v : Val} (h : isColor v = true) : asNum v = none := by
  cases v <;> simp_all [isColor, asNum]

/-- Colours are handed on to the items. -/
theorem rgba_rep {is : List ℕ} (hne : is ≠ []) {val : ℕ → Val} {q : Proc} (h : Rep is val q) (hc : ∀ i ∈ is, isColor (val i) = true) :
    toRgbaArray q = .ok q.toList := by
  rcases h with ⟨v, rfl, hv⟩ | ⟨nd, rfl⟩
  · obtain ⟨i, hi⟩ := List.exists_mem_of_ne_nil is hne
    have := hc i hi
    rw [hv i hi] at this
    simp [toRgbaArray, this, Proc.toList]
  · have h1 : (is.map val).mapM asNum = none := by
      apply mapM_none _ _ (by simpa using hne)
      intro x hx
      obtain ⟨i, hi, rfl⟩ := List.mem_map.mp hx
      exact isColor_asNum (hc i hi)
    have h2 : (is.map val).all isColor = true := by
      rw [List.all_eq_true]
      intro x hx
      obtain ⟨i, hi, rfl⟩ := List.mem_map.mp hx
      exact hc i hi
    simp [toRgbaArray, h1, h2, Proc.toList]

theorem setColors_rgba {is : List ℕ} (hne : is ≠ []) {val : ℕ → Val} {q : Proc} (h : Rep is val q) (hc : ∀ i ∈ is, isColor (val i) = true)
    (len : ℕ) (norm : Option (Option ℚ × Option ℚ)) : setColors q len norm = .ok (.rgba q.toList) := by
  have h0 := rgba_rep hne h hc
  rcases h with ⟨v, rfl, hv⟩ | ⟨nd, rfl⟩
  · simp [setColors, h0, Except.map]
  · have h1 : (is.map val).mapM asNum = none := by
      apply mapM_none _ _ (by simpa using hne)
      intro x hx
      obtain ⟨i, hi, rfl⟩ := List.mem_map.mp hx
      exact isColor_asNum (hc i hi)
    simp only [setColors, h1]
    simp [h0, Except.map]

/-- The numeric value. -/
def toQ (v : Val) : ℚ := (asNum v).getD 0

theorem toQ_spec {v : Val} (h : asNum v ≠ none) : asNum v = some (toQ v) ∧ v = .num (toQ v) := by
  cases v <;> simp_all [asNum, toQ]

theorem setColors_mapped {is : List ℕ} {val : ℕ → Val} (nd : Bool) (hc : ∀ i ∈ is, asNum (val i) ≠ none)
    (norm : Option (Option ℚ × Option ℚ)) : setColors (.seq nd (is.map val)) is.length norm =
      .ok (match norm with
        | some (a, b) => .mapped (is.map (toQ ∘ val)) a b
        | none => .mapped (is.map (toQ ∘ val)) (is.map (toQ ∘ val)).min? (is.map (toQ ∘ val)).max?) := by
  have : (is.map val).mapM asNum = some ((is.map val).map toQ) := by
    apply mapM_some
    intro x hx
    obtain ⟨i, hi, rfl⟩ := List.mem_map.mp hx
    exact (toQ_spec (hc i hi)).1
  simp only [setColors, List.length_map, if_true, this]
  cases norm <;> simp

theorem getSymbolLoop_valid (l : List Sym) (h : ∀ s ∈ l, (shapeDoc s).isSome) (p : Option Shape) :
    ∃ ps, getSymbolLoop l p = .ok ps ∧ ps.map some = l.map shapeDoc := by
  induction l generalizing p with
  | nil => exact ⟨[], rfl, rfl⟩
  | cons s r ih =>
    have hs := h s (by simp)
    have key : ∀ sh, shapeDoc s = some sh → nextPatch p s = some sh := by
      intro sh hsh
      cases s with
      | poly a n g => exact hsh
      | name s =>
        simp only [shapeDoc] at hsh
        split_ifs at hsh with h1 h2 h3
        · subst h1; exact hsh
        · subst h2; exact hsh
        · subst h3; exact hsh
    obtain ⟨sh, hsh⟩ := Option.isSome_iff_exists.mp hs
    obtain ⟨ps, h1, h2⟩ := ih (fun t ht => h t (by simp [ht])) (some sh)
    refine ⟨sh :: ps, ?_, by simp [h2, hsh]⟩
    unfold getSymbolLoop
    simp only [key sh hsh, h1]
    rfl

theorem getSymbol_one {s : Sym} (h : (shapeDoc s).isSome) : ∃ ps, getSymbol (.one s) = .ok ps ∧ ps.map some = [shapeDoc s] := by
  cases s with
  | poly a n g => exact getSymbolLoop_valid [.poly a n g] (by simpa using h) none
  | name s =>
    have : s = "o" ∨ s = "s" ∨ s = "S" := by
      simp only [shapeDoc] at h
      split_ifs at h with h1 h2 h3
      · exact .inl h1
      · exact .inr (.inl h2)
      · exact .inr (.inr h3)
      · simp at h
    have e : s.toList.map (fun c => Sym.name (String.singleton c)) = [.name s] := by
      rcases this with rfl | rfl | rfl <;> rfl
    obtain ⟨ps, h1, h2⟩ := getSymbolLoop_valid [.name s] (by simpa using h) none
    exact ⟨ps, by unfold getSymbol; simp only [e]; exact h1, by simpa using h2⟩

/-- What `site_symbol` holds for the sites `is`. -/
def SymRep (is : List ℕ) (sym : ℕ → Sym) (s : SymProc) : Prop :=
  (∃ s0, s = .one s0 ∧ ∀ i ∈ is, sym i = s0) ∨ (s = .many (is.map sym) ∧ ∀ i ∈ is, sym i ≠ .name "no symbol")

theorem valid_shape {s : Sym} (h : ValidSym s) (hn : s ≠ .name "no symbol") : (shapeDoc s).isSome :=
  h.resolve_right hn

theorem zipIdx_map_eq (is : List ℕ) (f : ℕ → S) (g : S × ℕ → B) (h : ℕ → B) (hh : ∀ k (hk : k < is.length), g (f is[k], k) = h is[k]) :
    (is.map f).zipIdx.map g = is.map h := by
  apply List.ext_getElem (by simp)
  intro k h1 h2
  simp only [List.length_map] at h2
  simpa using hh k h2

/-- One call of `symbols`. -/
theorem symbols_ok [Inhabited S] (syst : List S) (sym : ℕ → Sym) (size col edge lw : ℕ → Val) {is : List ℕ} (hne : is ≠ [])
    {s : SymProc} {qs qc qe ql : Proc} (hs : SymRep is sym s) (h1 : Rep is size qs) (h2 : Rep is col qc) (h3 : Rep is edge qe)
    (h4 : Rep is lw ql) (hv : ∀ i ∈ is, ValidSym (sym i)) (he : ∀ i ∈ is, isColor (edge i) = true)
    (norm : Option (Option ℚ × Option ℚ))
    (hc : (∀ i ∈ is, isColor (col i) = true) ∨
      ((∀ i ∈ is, asNum (col i) ≠ none ∧ sym i ≠ .name "no symbol" ∧ size i ≠ .num 0) ∧ (∃ nd l, qc = .seq nd l) ∧
        (norm = some ((numbers syst.length col).min?, (numbers syst.length col).max?) ∨
          (norm = none ∧ (is.map (toQ ∘ col)).min? = (numbers syst.length col).min? ∧
            (is.map (toQ ∘ col)).max? = (numbers syst.length col).max?)))) :
    ∃ out, symbols (is.map (fun i => syst.getD i default)) s qs qc qe ql norm = .ok out ∧
      out.filter visible = (is.map (wanted syst sym size col edge lw)).filter visible := by
  have hedges := rgba_rep hne h3 he
  by_cases hh : hidden (is.map (fun i => syst.getD i default)) s qs = true
  · -- nothing is drawn
    have hinv : ∀ i ∈ is, visible (wanted syst sym size col edge lw i) = false := by
      unfold hidden at hh
      rw [Bool.or_eq_true, Bool.or_eq_true] at hh
      rcases hh with (hh | hh) | hh
      · simp [hne] at hh
      · rcases hs with ⟨s0, rfl, h0⟩ | ⟨rfl, h0⟩
        · intro i hi
          cases s0 with
          | poly a n g => simp at hh
          | name t =>
            simp only [beq_iff_eq] at hh
            subst hh
            simp [visible, wanted, h0 i hi, shapeDoc]
        · simp at hh
      · rcases h1 with ⟨v, rfl, h0⟩ | ⟨nd, rfl⟩
        · simp at hh
        · intro i hi
          cases nd with
          | false => simp at hh
          | true =>
            simp only [List.all_eq_true] at hh
            have := hh _ (List.mem_map_of_mem (f := size) hi)
            simp only [beq_iff_eq] at this
            simp [visible, wanted, this]
    have hcol : ∀ i ∈ is, isColor (col i) = true := by
      rcases hc with hc | ⟨hc, -, -⟩
      · exact hc
      · exfalso
        obtain ⟨i, hi⟩ := List.exists_mem_of_ne_nil is hne
        have h5 := hinv i hi
        obtain ⟨h6, h7, h8⟩ := hc i hi
        have := valid_shape (hv i hi) h7
        simp [visible, wanted, this, h8] at h5
    refine ⟨[], ?_, ?_⟩
    · unfold symbols
      simp only [hh, if_true]
      simp only [setColors_rgba hne h2 hcol, hedges]
      rfl
    · symm
      rw [List.filter_nil, List.filter_eq_nil_iff]
      intro d hd
      obtain ⟨i, hi, rfl⟩ := List.mem_map.mp hd
      simp [hinv i hi]
  · -- the symbols are drawn
    have hns : ∀ i ∈ is, sym i ≠ .name "no symbol" := by
      rcases hs with ⟨s0, rfl, h0⟩ | ⟨rfl, h0⟩
      · intro i hi he'
        apply hh
        rw [h0 i hi] at he'
        subst he'
        simp [hidden]
      · exact h0
    have hsh : ∀ i ∈ is, (shapeDoc (sym i)).isSome := fun i hi => valid_shape (hv i hi) (hns i hi)
    obtain ⟨i0, hi0⟩ := List.exists_mem_of_ne_nil is hne
    have hpos : 0 < is.length := List.length_pos_iff.mpr hne
    obtain ⟨ps, hps, hcyc, hlen⟩ : ∃ ps, getSymbol s = .ok ps ∧
        (∀ k (hk : k < is.length), cyc none (ps.map some) k = shapeDoc (sym is[k])) ∧ max ps.length is.length = is.length := by
      rcases hs with ⟨s0, rfl, h0⟩ | ⟨rfl, h0⟩
      · have := hsh i0 hi0
        rw [h0 i0 hi0] at this
        obtain ⟨ps, h5, h6⟩ := getSymbol_one this
        refine ⟨ps, h5, ?_, ?_⟩
        · intro k hk
          rw [h6, cyc_one, h0 _ (List.getElem_mem hk)]
        · have := congrArg List.length h6
          simp only [List.length_map, List.length_cons, List.length_nil] at this
          omega
      · obtain ⟨ps, h5, h6⟩ := getSymbolLoop_valid (is.map sym) (by simpa using hsh) none
        refine ⟨ps, h5, ?_, ?_⟩
        · intro k hk
          rw [h6, List.map_map, cyc_map _ _ _ hk]
          rfl
        · have := congrArg List.length h6
          simp only [List.length_map] at this
          omega
    obtain ⟨cs, hcs, hat⟩ : ∃ cs, setColors qc is.length norm = .ok cs ∧
        ∀ k (hk : k < is.length), cs.at k = paintOf syst.length col is[k] := by
      rcases hc with hc | ⟨hc, ⟨nd, l, hl⟩, hnorm⟩
      · refine ⟨_, setColors_rgba hne h2 hc _ _, ?_⟩
        intro k hk
        have h5 := hc _ (List.getElem_mem hk)
        rw [Colouring.at, cyc_rep h2 _ hk]
        unfold paintOf
        cases h6 : col is[k] with
        | num q => rw [h6] at h5; simp [isColor] at h5
        | name q => rfl
        | tup q => rfl
      · have hl' : ∃ nd, qc = .seq nd (is.map col) := by
          rcases h2 with ⟨v, h2, -⟩ | h2
          · rw [hl] at h2; cases h2
          · exact h2
        obtain ⟨nd, rfl⟩ := hl'
        refine ⟨_, setColors_mapped nd (fun i hi => (hc i hi).1) norm, ?_⟩
        intro k hk
        have h5 := (toQ_spec (hc _ (List.getElem_mem hk)).1).2
        unfold paintOf
        rw [h5]
        rcases hnorm with rfl | ⟨rfl, h6, h7⟩
        · simp only [Colouring.at]
          rw [cyc_map _ _ _ hk]
          rfl
        · simp only [Colouring.at]
          rw [cyc_map _ _ _ hk, h6, h7]
          rfl
    refine ⟨is.map (wanted syst sym size col edge lw), ?_, rfl⟩
    unfold symbols
    simp only [hh]
    simp only [Bool.false_eq_true, if_false, hps, hedges]
    show (do let colors ← setColors qc (max ps.length (is.map (fun i => syst.getD i default)).length) norm; _) = _
    rw [List.length_map, hlen, hcs]
    show Except.ok _ = Except.ok _
    congr 1
    apply zipIdx_map_eq
    intro k hk
    simp only [wanted]
    rw [cyc_rep h1 _ hk, hat k hk, cyc_rep h4 _ hk, cyc_rep h3 _ hk, hcyc k hk]

/-! ### The grouping -/

/-- The invariant of the grouping loop. -/
def GInv (l : List Sym) (m : ℕ) (d : List (Sym × List ℕ)) : Prop :=
  (d.flatMap Prod.snd).Perm (List.range m) ∧ (∀ p ∈ d, p.2 ≠ [] ∧ ∀ i ∈ p.2, l[i]? = some p.1)

theorem dictAppend_perm (d : List (Sym × List ℕ)) (s : Sym) (i : ℕ) :
    ((dictAppend d s i).flatMap Prod.snd).Perm (d.flatMap Prod.snd ++ [i]) := by
  induction d with
  | nil => simp [dictAppend]
  | cons p r ih =>
    obtain ⟨t, is⟩ := p
    unfold dictAppend
    split_ifs
    · simp only [List.flatMap_cons, List.append_assoc]
      exact List.Perm.append_left _ List.perm_append_comm
    · simp only [List.flatMap_cons, List.append_assoc]
      exact ih.append_left is

theorem dictAppend_mem (d : List (Sym × List ℕ)) (s : Sym) (i : ℕ) : ∀ p ∈ dictAppend d s i,
    p ∈ d ∨ (p.1 = s ∧ p.2 ≠ [] ∧ ∀ j ∈ p.2, j = i ∨ ∃ q ∈ d, q.1 = s ∧ j ∈ q.2) := by
  induction d with
  | nil => simp [dictAppend]
  | cons p r ih =>
    obtain ⟨t, is⟩ := p
    unfold dictAppend
    split_ifs with h
    · subst h
      intro p hp
      rcases List.mem_cons.mp hp with rfl | hp
      · right
        refine ⟨rfl, by simp, ?_⟩
        intro j hj
        rcases List.mem_append.mp hj with hj | hj
        · exact .inr ⟨(t, is), by simp, rfl, hj⟩
        · exact .inl (by simpa using hj)
      · exact .inl (by simp [hp])
    · intro p hp
      rcases List.mem_cons.mp hp with rfl | hp
      · exact .inl (by simp)
      · rcases ih p hp with h' | ⟨h1, h2, h3⟩
        · exact .inl (by simp [h'])
        · refine .inr ⟨h1, h2, fun j hj => ?_⟩
          rcases h3 j hj with h4 | ⟨q, h5, h6⟩
          · exact .inl h4
          · exact .inr ⟨q, by simp [h5], h6⟩

theorem group_inv (l : List Sym) : GInv l l.length (groupSymbols l) := by
  have key : ∀ (r p : List Sym), p ++ r = l → ∀ d, GInv l p.length d →
      GInv l l.length ((r.zipIdx p.length).foldl (fun d q => dictAppend d q.1 q.2) d) := by
    intro r
    induction r with
    | nil => intro p hp d hd; rw [List.append_nil] at hp; subst hp; simpa using hd
    | cons s r ih =>
      intro p hp d hd
      rw [List.zipIdx_cons, List.foldl_cons]
      have h0 := ih (p ++ [s]) (by simp [hp]) (dictAppend d s p.length)
      rw [List.length_append, List.length_singleton] at h0
      apply h0
      obtain ⟨h1, h2⟩ := hd
      constructor
      · refine (dictAppend_perm d s p.length).trans ?_
        rw [List.range_succ]
        exact h1.append_right _
      · intro q hq
        rcases dictAppend_mem d s p.length q hq with h3 | ⟨h3, h4, h5⟩
        · exact h2 q h3
        · refine ⟨h4, fun j hj => ?_⟩
          rcases h5 j hj with rfl | ⟨q', h6, h7, h8⟩
          · rw [h3, ← hp]
            simp
          · rw [h3, ← h7]
            exact (h2 q' h6).2 j h8
  have := key l [] rfl [] ⟨by simp, by simp⟩
  exact this

end Kwant.PlotSites
