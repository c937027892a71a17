import Verif.Continuum.ValueThm

/-! C193: the value functions that `discretize` generates evaluate the symbolic expressions. -/

set_option linter.unusedSectionVars false

namespace Kwant.Value

variable {K : Type} [Field K] [DecidableEq K] (pw : K → K → Option K) {r c : ℕ}

/-! ### The namespace of a call -/

theorem lookup_zip_none {A : Type} {n : String} : ∀ (cs : List String) (l : List A), n ∉ cs → (cs.zip l).lookup n = none
  | [], _, _ => rfl
  | _ :: _, [], _ => rfl
  | s :: cs, a :: l, h => by
    simp only [List.mem_cons, not_or] at h
    have : (n == s) = false := by simpa using h.1
    simp only [List.zip_cons_cons, List.lookup_cons, this]
    exact lookup_zip_none cs l h.2

theorem lookup_zip_some {A : Type} {n : String} : ∀ (cs : List String) (l : List A), l.length = cs.length → n ∈ cs → ((cs.zip l).lookup n).isSome
  | [], _, _, h => by cases h
  | s :: cs, [], h, _ => by simp at h
  | s :: cs, a :: l, hl, h => by
    simp only [List.zip_cons_cons, List.lookup_cons]
    by_cases hs : n = s
    · subst hs
      simp
    · have : (n == s) = false := by simpa using hs
      simp only [this]
      exact lookup_zip_some cs l (by simpa using hl) (by simpa [hs] using h)

theorem unpack_spec : ∀ (cs : List String) (pos : List K) (ns : String → Option (Val K r c)), pos.length = cs.length → cs.Nodup →
    ∃ ns', unpack ns cs pos = some ns' ∧ ∀ n, ns' n = match (cs.zip pos).lookup n with
      | some a => some (.num a)
      | none => ns n
  | [], [], ns, _, _ => ⟨ns, rfl, fun _ => rfl⟩
  | [], _ :: _, _, h, _ => by simp at h
  | _ :: _, [], _, h, _ => by simp at h
  | s :: cs, a :: pos, ns, hl, hn => by
    obtain ⟨ns', h1, h2⟩ := unpack_spec cs pos (bind ns s (.num a)) (by simpa using hl) (List.nodup_cons.1 hn).2
    refine ⟨ns', h1, fun n => ?_⟩
    rw [h2 n]
    simp only [List.zip_cons_cons, List.lookup_cons]
    by_cases hs : n = s
    · subst hs
      rw [lookup_zip_none cs pos (List.nodup_cons.1 hn).1]
      simp [bind]
    · have : (n == s) = false := by simpa using hs
      simp only [this]
      cases (cs.zip pos).lookup n <;> simp [bind, hs]

mutual
theorem apps_sub (x : String × Es K) : ∀ e : E K, x ∈ e.apps → x.2.syms ⊆ e.syms ∧ x.2.apps ⊆ e.apps
  | .num _, h => by simp [E.apps] at h
  | .sym _, h => by simp [E.apps] at h
  | .add a b, h => by
    simp only [E.apps, E.syms, List.mem_append] at h ⊢
    rcases h with h | h
    · exact ⟨fun s hs => List.mem_append_left _ ((apps_sub x a h).1 hs), fun s hs => List.mem_append_left _ ((apps_sub x a h).2 hs)⟩
    · exact ⟨fun s hs => List.mem_append_right _ ((apps_sub x b h).1 hs), fun s hs => List.mem_append_right _ ((apps_sub x b h).2 hs)⟩
  | .mul a b, h => by
    simp only [E.apps, E.syms, List.mem_append] at h ⊢
    rcases h with h | h
    · exact ⟨fun s hs => List.mem_append_left _ ((apps_sub x a h).1 hs), fun s hs => List.mem_append_left _ ((apps_sub x a h).2 hs)⟩
    · exact ⟨fun s hs => List.mem_append_right _ ((apps_sub x b h).1 hs), fun s hs => List.mem_append_right _ ((apps_sub x b h).2 hs)⟩
  | .pow a b, h => by
    simp only [E.apps, E.syms, List.mem_append] at h ⊢
    rcases h with h | h
    · exact ⟨fun s hs => List.mem_append_left _ ((apps_sub x a h).1 hs), fun s hs => List.mem_append_left _ ((apps_sub x a h).2 hs)⟩
    · exact ⟨fun s hs => List.mem_append_right _ ((apps_sub x b h).1 hs), fun s hs => List.mem_append_right _ ((apps_sub x b h).2 hs)⟩
  | .app f as, h => by
    simp only [E.apps, E.syms, List.mem_cons] at h ⊢
    rcases h with rfl | h
    · exact ⟨fun _ hs => hs, fun _ hs => List.mem_cons_of_mem _ hs⟩
    · exact ⟨(appss_sub x as h).1, fun _ hs => List.mem_cons_of_mem _ ((appss_sub x as h).2 hs)⟩
theorem appss_sub (x : String × Es K) : ∀ e : Es K, x ∈ e.apps → x.2.syms ⊆ e.syms ∧ x.2.apps ⊆ e.apps
  | .nil, h => by simp [Es.apps] at h
  | .cons a b, h => by
    simp only [Es.apps, Es.syms, List.mem_append] at h ⊢
    rcases h with h | h
    · exact ⟨fun s hs => List.mem_append_left _ ((apps_sub x a h).1 hs), fun s hs => List.mem_append_left _ ((apps_sub x a h).2 hs)⟩
    · exact ⟨fun s hs => List.mem_append_right _ ((appss_sub x b h).1 hs), fun s hs => List.mem_append_right _ ((appss_sub x b h).2 hs)⟩
end

theorem runLets_spec (sy : String → Option K) (fu : String → Option (List K → Option K)) (ss : List String) (as : List (String × Es K))
    (hs : ∀ s ∈ ss, ∀ i, s ≠ constName i) (ha : ∀ a ∈ as, ∀ i, a.1 ≠ constName i) :
    ∀ (calls : List (String × Es K)) (k : ℕ) (ns : String → Option (Val K r c)), Knows ns sy fu ss as →
      (∀ x ∈ calls, (E.app x.1 x.2).den pw sy fu ≠ none ∧ x.2.syms ⊆ ss ∧ x ∈ as ∧ x.2.apps ⊆ as) →
      ∃ ns', runLets pw ns ((calls.zipIdx k).map fun t => (constName t.2, .app t.1.1 t.1.2)) = some ns' ∧ (∀ n, (∀ i, n ≠ constName i) → ns' n = ns n) ∧
        (∀ i < k, ns' (constName i) = ns (constName i)) ∧
          ∀ i x, calls[i]? = some x → ns' (constName (k + i)) = ((E.app x.1 x.2).den pw sy fu).map .num
  | [], k, ns, _, _ => ⟨ns, rfl, fun _ _ => rfl, fun _ _ => rfl, fun i x h => by simp at h⟩
  | x :: calls, k, ns, hk, hc => by
    obtain ⟨hx, h1, h2, h3⟩ := hc x (by simp)
    obtain ⟨v, hv⟩ := Option.ne_none_iff_exists'.1 hx
    have hrun := run_den pw ns sy fu (.app x.1 x.2) v (hk.mono h1 (by
      intro y hy
      simp only [E.apps, List.mem_cons] at hy
      rcases hy with rfl | hy
      exacts [h2, h3 hy])) hv
    have hk' : Knows (bind ns (constName k) (.num v)) sy fu ss as :=
      ⟨fun s hs' a h => by rw [bind, if_neg (hs s hs' k)]; exact hk.1 s hs' a h, fun y hy g h => by rw [bind, if_neg (ha y hy k)]; exact hk.2 y hy g h⟩
    obtain ⟨ns', e1, e2, e3, e4⟩ := runLets_spec sy fu ss as hs ha calls (k + 1) _ hk' (fun x hx => hc x (by simp [hx]))
    refine ⟨ns', ?_, ?_, ?_, ?_⟩
    · simp only [List.zipIdx_cons, List.map_cons, runLets]
      rw [hrun]
      exact e1
    · intro n hn
      rw [e2 n hn, bind, if_neg (hn k)]
    · intro i hi
      rw [e3 i (by omega), bind, if_neg fun h => by have := constName_inj h; omega]
    · intro i y hy
      cases i with
      | zero =>
        simp only [List.getElem?_cons_zero, Option.some.injEq] at hy
        subst hy
        rw [Nat.add_zero, e3 k (by omega), bind, if_pos rfl, hv]
        rfl
      | succ i =>
        rw [List.getElem?_cons_succ] at hy
        rw [← e4 i y hy]
        congr 2
        omega

theorem cache_lookup {A : Type} (i : ℕ) : ∀ (d : List (List (E K) × A)) (k : ℕ) (t : List (E K) × A), d[i]? = some t →
    ((d.zipIdx k).map fun t => (cacheName t.2, t.1.2)).lookup (cacheName (k + i)) = some t.2 := by
  induction i with
  | zero =>
    intro d k t h
    cases d with
    | nil => simp at h
    | cons u d =>
      simp only [List.getElem?_cons_zero, Option.some.injEq] at h
      subst h
      simp
  | succ i ih =>
    intro d k t h
    cases d with
    | nil => simp at h
    | cons u d =>
      rw [List.getElem?_cons_succ] at h
      have := ih d (k + 1) t h
      have hne : (cacheName (k + (i + 1)) == cacheName k) = false := by
        simp only [beq_eq_false_iff_ne]
        intro h
        have := cacheName_inj h
        omega
      simp only [List.zipIdx_cons, List.map_cons, List.lookup_cons, hne]
      rw [← this]
      congr 2
      omega

/-! ### Substituted expressions -/

theorem entries_map (f : E K → E K) (x : Expr K r c) : (x.map f).entries = x.entries.map f := by
  cases x with
  | scalar e => rfl
  | matrix M => simp [Expr.map, Expr.entries, List.map_map, Function.comp_def]

theorem map_syms (sp : List (String × K)) (x : Expr K r c) (s : String) : s ∈ (x.map (E.subst sp)).syms ↔ s ∈ x.syms ∧ sp.lookup s = none := by
  simp only [Expr.syms, entries_map, List.mem_flatMap, List.mem_map]
  constructor
  · rintro ⟨_, ⟨e, he, rfl⟩, h⟩
    rw [subst_syms] at h
    exact ⟨⟨e, he, h.1⟩, h.2⟩
  · rintro ⟨⟨e, he, h⟩, h2⟩
    exact ⟨_, ⟨e, he, rfl⟩, (subst_syms sp s e).2 ⟨h, h2⟩⟩

theorem map_apps (sp : List (String × K)) (x : Expr K r c) : (x.map (E.subst sp)).apps.map Prod.fst = x.apps.map Prod.fst := by
  simp only [Expr.apps, entries_map, List.map_flatMap, List.flatMap_map, subst_apps]

theorem means_map (sp : List (String × K)) (sy : String → Option K) (fu : String → Option (List K → Option K)) (x : Expr K r c) (v : Val K r c) :
    (x.map (E.subst sp)).Means pw sy fu v ↔ x.Means pw (fun s => (sp.lookup s).or (sy s)) fu v := by
  cases x with
  | scalar e => simp only [Expr.map, Expr.Means, subst_den]
  | matrix M => simp only [Expr.map, Expr.Means, subst_den]

theorem means_bound {sy : String → Option K} {fu : String → Option (List K → Option K)} {x : Expr K r c} {v : Val K r c} (h : x.Means pw sy fu v) :
    Bound pw sy fu x.syms x.apps := by
  have : ∀ e ∈ x.entries, ∃ a, e.den pw sy fu = some a := by
    intro e he
    cases x with
    | scalar e' =>
      simp only [Expr.entries, List.mem_singleton] at he
      subst he
      obtain ⟨a, ha, _⟩ := h
      exact ⟨a, ha⟩
    | matrix M =>
      simp only [Expr.entries, List.mem_map] at he
      obtain ⟨ij, _, rfl⟩ := he
      obtain ⟨m, hm, _⟩ := h
      exact ⟨_, hm _ _⟩
  constructor
  · intro s hs
    obtain ⟨e, he, h1⟩ := List.mem_flatMap.1 hs
    obtain ⟨a, ha⟩ := this e he
    exact (bound_den pw sy fu e a ha).1 s h1
  · intro s hs
    obtain ⟨e, he, h1⟩ := List.mem_flatMap.1 hs
    obtain ⟨a, ha⟩ := this e he
    exact (bound_den pw sy fu e a ha).2 s h1

theorem mem_argNames {coords : List String} {x : Expr K r c} {n : String} :
    n ∈ argNames coords x ↔ (n ∈ x.syms ∧ n ∉ coords ∧ n ∉ ["site", "site1", "site2"]) ∨ n ∈ x.apps.map Prod.fst := by
  unfold argNames
  rw [(List.mergeSort_perm _ _).mem_iff, List.mem_dedup, List.mem_append, List.mem_filter]
  simp only [List.mem_append, decide_eq_true_eq, not_or]

/-! ### The theorems -/

/-- C193.  The value that `_builder_value` makes of an expression is the value of the expression: for every expression or matrix of expressions, lattice spacing, position of the
sites, value of the parameters and order in which the applied functions are enumerated, the constant or the function that is returned evaluates to the value that the expression
has if `a_x` is the spacing, coordinates are those of the first site and all other names are parameters.  Names that the generated code uses itself must not occur. -/
theorem C193_value {ident : String → Bool} {coords : List String} {spacing pos pos' : List K} {onsite : Bool} {calls : List (String × Es K)} {x₀ : Expr K r c} {o : Out K r c}
    (hcoords : GoodCoords coords) (hpos : pos.length = coords.length) (hcalls : Enumerates calls coords spacing x₀) (hclean : x₀.Clean coords)
    (hb : builderValue pw ident coords spacing onsite calls x₀ = .ok o) (glob par : String → Option (Val K r c)) {v : Val K r c}
    (hv : x₀.Means pw (symbolMeans coords spacing pos par) (fnOf par) v) : o.value pw glob pos pos' par = some v := by
  set sp := (coords.map ("a_" ++ ·)).zip spacing with hsp
  set x := x₀.map (E.subst sp) with hx
  set sy : String → Option K := fun s => match (coords.zip pos).lookup s with
    | some a => some a
    | none => numOf par s with hsy
  have hmean : symbolMeans coords spacing pos par = fun s => (sp.lookup s).or (sy s) := by
    funext s
    simp only [symbolMeans, ← hsp, hsy]
    cases sp.lookup s <;> rfl
  have hv' : x.Means pw sy (fnOf par) v := by
    rw [hx, means_map, ← hmean]
    exact hv
  have hbd := means_bound pw hv'
  have hcs : ∀ s ∈ x.syms, ¬Reserved s := fun s hs => hclean.1 s ((map_syms sp x₀ s).1 hs).1
  have hca : ∀ a ∈ x.apps, ¬Reserved a.1 ∧ a.1 ∉ coords := by
    intro a ha
    have : a.1 ∈ x₀.apps.map Prod.fst := by rw [← map_apps sp x₀]; exact List.mem_map_of_mem ha
    obtain ⟨b, hb, hab⟩ := List.mem_map.1 this
    rw [← hab]
    exact hclean.2 b hb
  have hargs : ∀ n ∈ argNames coords x, ¬Reserved n ∧ (par n).isSome := by
    intro n hn
    rcases mem_argNames.1 hn with ⟨h1, h2, _⟩ | h1
    · refine ⟨hcs n h1, ?_⟩
      have := hbd.1 n h1
      simp only [hsy, lookup_zip_none coords pos h2, numOf] at this
      cases hp : par n with
      | none => rw [hp] at this; cases this
      | some w => rfl
    · obtain ⟨a, ha, rfl⟩ := List.mem_map.1 h1
      refine ⟨(hca a ha).1, ?_⟩
      have := (hbd.2 a ha).1
      simp only [fnOf] at this
      cases hp : par a.1 with
      | none => rw [hp] at this; cases this
      | some w => rfl
  -- what has been built
  unfold builderValue at hb
  simp only [← hsp, ← hx] at hb
  cases hret : returnString pw calls x with
  | error e => rw [hret] at hb; cases hb
  | ok rc =>
    obtain ⟨ret, cache⟩ := rc
    rw [hret] at hb
    simp only [Bind.bind, Except.bind] at hb
    generalize hrd : (if (coords.any fun s => decide (s ∈ x.syms)) = true then some coords else none) = rd at hb
    split_ifs at hb with h1 h2 h3
    · -- a constant
      cases hcv : constant pw x with
      | none => rw [hcv] at hb; cases hb
      | some w =>
        rw [hcv] at hb
        cases hb
        simp only [Out.value, Option.some.injEq]
        cases hxe : x with
        | scalar e =>
          rw [hxe] at hcv hv'
          obtain ⟨a, ha, rfl⟩ := hv'
          simp only [constant, Option.map_eq_some_iff] at hcv
          obtain ⟨b, hb, rfl⟩ := hcv
          rw [constVal_den pw sy _ e hb ha]
        | matrix M =>
          rw [hxe] at hcv hv'
          obtain ⟨m, hm, rfl⟩ := hv'
          simp only [constant, Option.ite_none_right_eq_some, Option.some.injEq] at hcv
          obtain ⟨hall, rfl⟩ := hcv
          congr 1
          funext i j
          obtain ⟨b, hb⟩ := Option.isSome_iff_exists.1 (hall i j)
          rw [hb, ← constVal_den pw sy _ (M i j) hb (hm i j)]
          rfl
    · -- a function
      cases hb
      simp only [Out.value, Fun.call]
      rw [if_neg (not_not.2 fun n hn => (hargs n hn).2)]
      simp only [Option.bind_eq_bind, Option.bind_some]
      set ns₁ : String → Option (Val K r c) := fun n => (cache.lookup n).elim (glob n) (fun m => some (.mat m)) with hns1
      set ns₂ : String → Option (Val K r c) := if onsite = true then Value.bind ns₁ "site" (.site pos) else
        Value.bind (Value.bind ns₁ "site1" (.site pos)) "site2" (.site pos') with hns2
      set ns₃ : String → Option (Val K r c) := fun n => if n ∈ argNames coords x then par n else ns₂ n with hns3
      obtain ⟨ns₄, h4, h4a, h4b⟩ : ∃ ns₄, readCoords ns₃ rd pos = some ns₄ ∧ (∀ n ∉ coords, ns₄ n = ns₃ n) ∧
            ∀ s ∈ x.syms, ∀ a, (coords.zip pos).lookup s = some a → ns₄ s = some (.num a) := by
        subst hrd
        split_ifs with hread
        · obtain ⟨ns', e1, e2⟩ := unpack_spec coords pos ns₃ hpos hcoords.1
          refine ⟨ns', e1, fun n hn => ?_, fun s _ a ha => ?_⟩
          · rw [e2, lookup_zip_none coords pos hn]
          · rw [e2, ha]
        · refine ⟨ns₃, rfl, fun _ _ => rfl, fun s hs a ha => ?_⟩
          exfalso
          have : s ∈ coords := by
            by_contra h
            rw [lookup_zip_none coords pos h] at ha
            cases ha
          exact hread (List.any_eq_true.2 ⟨s, this, by simpa using hs⟩)
      have hknow : Knows ns₄ sy (fnOf par) x.syms x.apps := by
        constructor
        · intro s hs a ha
          simp only [hsy] at ha
          cases hl : (coords.zip pos).lookup s with
          | some b =>
            rw [hl] at ha
            simp only [Option.some.injEq] at ha
            subst ha
            exact h4b s hs b hl
          | none =>
            rw [hl] at ha
            have hsc : s ∉ coords := by
              intro h
              have := lookup_zip_some coords pos hpos h
              rw [hl] at this
              cases this
            have harg : s ∈ argNames coords x := mem_argNames.2 (Or.inl ⟨hs, hsc, fun h => hcs s hs (Or.inl h)⟩)
            rw [h4a s hsc]
            simp only [hns3, if_pos harg]
            simp only [numOf] at ha
            cases hp : par s with
            | none => rw [hp] at ha; cases ha
            | some w =>
              rw [hp] at ha
              cases w with
              | num b => simp only [Option.some.injEq] at ha; rw [ha]
              | mat _ => cases ha
              | fn _ => cases ha
              | site _ => cases ha
        · intro a ha g hg
          have harg : a.1 ∈ argNames coords x := mem_argNames.2 (Or.inr (List.mem_map_of_mem ha))
          rw [h4a a.1 (hca a ha).2]
          simp only [hns3, if_pos harg]
          simp only [fnOf] at hg
          cases hp : par a.1 with
          | none => rw [hp] at hg; cases hg
          | some w =>
            rw [hp] at hg
            cases w with
            | fn b => simp only [Option.some.injEq] at hg; rw [hg]
            | mat _ => cases hg
            | num _ => cases hg
            | site _ => cases hg
      have hcallx : ∀ y ∈ calls, y ∈ x.apps := fun y hy => (hcalls.2 y).1 hy
      obtain ⟨ns₅, h5, h5a, _, h5b⟩ := runLets_spec pw sy (fnOf par) x.syms x.apps (fun s hs i h => hcs s hs (Or.inr ⟨i, Or.inl h⟩))
        (fun a ha i h => (hca a ha).1 (Or.inr ⟨i, Or.inl h⟩)) calls 0 ns₄ hknow (fun y hy => by
          obtain ⟨e, he, hye⟩ := List.mem_flatMap.1 (hcallx y hy)
          obtain ⟨s1, s2⟩ := apps_sub y e hye
          exact ⟨(hbd.2 y (hcallx y hy)).2, fun s hs => List.mem_flatMap.2 ⟨e, he, s1 hs⟩, hcallx y hy, fun s hs => List.mem_flatMap.2 ⟨e, he, s2 hs⟩⟩)
      rw [h4]
      simp only [Option.bind_some]
      rw [h5]
      simp only [Option.bind_some]
      have hsym : ∀ s ∈ x.syms, ∀ a, sy s = some a → ns₅ s = some (.num a) := by
        intro s hs a ha
        rw [h5a s fun i h => hcs s hs (Or.inr ⟨i, Or.inl h⟩)]
        exact hknow.1 s hs a ha
      have hcon : ∀ y ∈ calls, ∀ a, (E.app y.1 y.2).den pw sy (fnOf par) = some a → ns₅ (constName (calls.idxOf y)) = some (.num a) := by
        intro y hy a ha
        have := h5b (calls.idxOf y) y (by rw [List.getElem?_eq_getElem (List.idxOf_lt_length_of_mem hy), List.getElem_idxOf])
        rw [Nat.zero_add] at this
        rw [this, ha]
        rfl
      have hcache : ∀ i, ns₅ (cacheName i) = (cache.lookup (cacheName i)).elim (glob (cacheName i)) (fun m => some (.mat m)) := by
        intro i
        have hres : Reserved (cacheName i) := Or.inr ⟨i, Or.inr rfl⟩
        rw [h5a _ fun j h => const_ne_cache j i h.symm, h4a _ fun h => coord_not_reserved (hcoords.2 _ h) hres]
        simp only [hns3]
        rw [if_neg fun h => (hargs _ h).1 hres]
        have e0 : cacheName i ≠ "site" := fun h => cache_ne (by decide) h.symm
        have e1 : cacheName i ≠ "site1" := fun h => cache_ne (by decide) h.symm
        have e2 : cacheName i ≠ "site2" := fun h => cache_ne (by decide) h.symm
        simp only [hns2]
        split_ifs
        · simp [Value.bind, e0, hns1]
        · simp [Value.bind, e1, e2, hns1]
      cases hxe : x with
      | scalar e =>
        rw [hxe] at hret hv'
        simp only [returnString, Expr.map, Except.ok.injEq, Prod.mk.injEq] at hret
        obtain ⟨rfl, rfl⟩ := hret
        obtain ⟨a, ha, rfl⟩ := hv'
        simp only [Option.bind_some]
        refine replace_run pw ns₅ sy (fnOf par) calls hcon e a (fun s hs => hsym s ?_) (fun y hy => (hcalls.2 y).2 ?_) ha
        · rw [hxe]; simpa [Expr.syms, Expr.entries] using hs
        · rw [← hsp, ← hx, hxe]; simpa [Expr.apps, Expr.entries] using hy
      | matrix M =>
        rw [hxe] at hret hv'
        obtain ⟨m, hm, rfl⟩ := hv'
        simp only [returnString, Expr.map] at hret
        cases hmon : monomials pw (fun i j => (M i j).replace calls) with
        | none => rw [hmon] at hret; cases hret
        | some d =>
          rw [hmon] at hret
          simp only [Except.ok.injEq, Prod.mk.injEq] at hret
          obtain ⟨hret, hcc⟩ := hret
          have hmem : ∀ i j, M i j ∈ x.entries := by
            intro i j
            rw [hxe]
            exact List.mem_map.2 ⟨(i, j), List.mem_product.2 ⟨List.mem_finRange _, List.mem_finRange _⟩, rfl⟩
          obtain ⟨d1, d2, d3⟩ := monomials_run pw ns₅ (fun i j => (M i j).replace calls) m (fun i j => replace_run pw ns₅ sy (fnOf par) calls hcon (M i j) (m i j)
            (fun s hs => hsym s (List.mem_flatMap.2 ⟨_, hmem i j, hs⟩))
            (fun y hy => (hcalls.2 y).2 (by rw [← hsp, ← hx]; exact List.mem_flatMap.2 ⟨_, hmem i j, hy⟩)) (hm i j)) d hmon
          have hne : d ≠ [] := by
            have hent : x.entries ≠ [] := by
              intro h
              refine h2 ⟨?_, ?_⟩
              · apply List.eq_nil_iff_forall_not_mem.2
                intro n hn
                rcases mem_argNames.1 hn with ⟨h5, _⟩ | h5
                · simp [Expr.syms, h] at h5
                · simp [Expr.apps, h] at h5
              · simp [Expr.syms, h]
            rw [hxe] at hent
            simp only [Expr.entries, ne_eq, List.map_eq_nil_iff] at hent
            refine d3 ?_ ?_
            · by_contra hr
              have hr : r = 0 := by omega
              subst hr
              exact hent rfl
            · by_contra hr
              have hr : c = 0 := by omega
              subst hr
              apply hent
              apply List.eq_nil_iff_forall_not_mem.2
              intro ij _
              exact ij.2.elim0
          obtain ⟨e, he, hrun⟩ := joinMons_run pw ns₅ d 0 d1 (fun i t ht => by
            rw [hcache, Nat.zero_add, ← hcc]
            have := cache_lookup i d 0 t ht
            rw [Nat.zero_add] at this
            rw [this]
            rfl) hne
          rw [← hret, he]
          simp only [Option.bind_some]
          rw [hrun, d2]

end Kwant.Value
