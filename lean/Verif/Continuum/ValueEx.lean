import Verif.Continuum.ValueMain
import Mathlib.Tactic.NormNum

/-! C193: parameters, constants and errors of the generated functions; examples and counterexamples. -/

set_option linter.unusedSectionVars false

namespace Kwant.Value

variable {K : Type} [Field K] [DecidableEq K] (pw : K → K → Option K) {r c : ℕ}

theorem lookup_sp {coords : List String} {spacing : List K} (h : spacing.length = coords.length) (n : String) :
    ((coords.map ("a_" ++ ·)).zip spacing).lookup n = none ↔ ∀ s ∈ coords, n ≠ "a_" ++ s := by
  constructor
  · intro h1 s hs hn
    have : n ∈ coords.map ("a_" ++ ·) := List.mem_map.2 ⟨s, hs, hn.symm⟩
    have := lookup_zip_some _ spacing (by simpa using h) this
    rw [h1] at this
    cases this
  · intro h1
    refine lookup_zip_none _ _ fun hn => ?_
    obtain ⟨s, hs, rfl⟩ := List.mem_map.1 hn
    exact h1 s hs rfl

/-- C193.  The parameters of a generated function, besides the sites, are the names of the functions and of the symbols of the expression that are neither coordinates nor lattice
spacings, each of them once, in alphabetical order. -/
theorem C193_args {ident : String → Bool} {coords : List String} {spacing : List K} {onsite : Bool} {calls : List (String × Es K)} {x₀ : Expr K r c} {f : Fun K r c}
    (hsp : spacing.length = coords.length) (hb : builderValue pw ident coords spacing onsite calls x₀ = .ok (.func f)) :
    f.onsite = onsite ∧ f.args.Pairwise (· ≤ ·) ∧ f.args.Nodup ∧ (∀ n ∈ f.args, ident n = true) ∧
      ∀ n, n ∈ f.args ↔ (n ∈ x₀.syms ∧ (∀ s ∈ coords, n ≠ "a_" ++ s) ∧ n ∉ coords ∧ n ∉ ["site", "site1", "site2"]) ∨ ∃ a ∈ x₀.apps, a.1 = n := by
  unfold builderValue at hb
  set x := x₀.map (E.subst ((coords.map ("a_" ++ ·)).zip spacing)) with hx
  cases hret : returnString pw calls x with
  | error e => simp only [hret] at hb; cases hb
  | ok rc =>
    simp only [hret, Bind.bind, Except.bind] at hb
    generalize (if (coords.any fun s => decide (s ∈ x.syms)) = true then some coords else none) = rd at hb
    split_ifs at hb with h1 h2 h3
    · cases hc : constant pw x <;> rw [hc] at hb <;> cases hb
    · cases hb
      refine ⟨rfl, ?_, ?_, ?_, fun n => ?_⟩
      · refine (List.pairwise_mergeSort (le := fun a b => decide (a ≤ b)) ?_ ?_ _).imp (by simp)
        · intro a b c h1 h2
          simp only [decide_eq_true_eq] at h1 h2 ⊢
          exact le_trans h1 h2
        · intro a b
          simp only [Bool.or_eq_true, decide_eq_true_eq]
          exact le_total a b
      · exact (List.mergeSort_perm _ _).nodup_iff.2 (List.nodup_dedup _)
      · intro n hn
        by_contra hi
        exact h1 (List.any_eq_true.2 ⟨n, hn, by simpa using hi⟩)
      · rw [mem_argNames, hx, map_syms, map_apps, lookup_sp hsp]
        simp only [List.mem_map]
        constructor
        · rintro (⟨⟨h1, h2⟩, h3⟩ | h)
          exacts [Or.inl ⟨h1, h2, h3⟩, Or.inr h]
        · rintro (⟨h1, h2, h3⟩ | h)
          exacts [Or.inl ⟨⟨h1, h2⟩, h3⟩, Or.inr h]

theorem closed_of_run : ∀ (e : E K) (v : Val K 0 0), e.run pw (fun _ => none) = some v → e.syms = [] ∧ e.apps = []
  | .num _, _, _ => ⟨rfl, rfl⟩
  | .sym _, _, h => by simp [E.run] at h
  | .add a b, v, h => by
    simp only [E.run, Option.bind_eq_bind, Option.bind_eq_some_iff] at h
    obtain ⟨x, hx, y, hy, _⟩ := h
    simp [E.syms, E.apps, closed_of_run a x hx, closed_of_run b y hy]
  | .mul a b, v, h => by
    simp only [E.run, Option.bind_eq_bind, Option.bind_eq_some_iff] at h
    obtain ⟨x, hx, y, hy, _⟩ := h
    simp [E.syms, E.apps, closed_of_run a x hx, closed_of_run b y hy]
  | .pow a b, v, h => by
    simp only [E.run, Option.bind_eq_bind, Option.bind_eq_some_iff] at h
    obtain ⟨x, hx, y, hy, _⟩ := h
    simp [E.syms, E.apps, closed_of_run a x hx, closed_of_run b y hy]
  | .app f as, v, h => by simp [E.run] at h

theorem closed_of_constVal {e : E K} {a : K} (h : constVal pw e = some a) : e.syms = [] ∧ e.apps = [] := by
  unfold constVal at h
  cases hw : e.run pw (r := 0) (c := 0) (fun _ => none) with
  | none => rw [hw] at h; cases h
  | some w => exact closed_of_run pw e w hw

/-- C193.  The value is a constant instead of a function exactly if the expression contains no function and no symbol other than lattice spacings. -/
theorem C193_const {ident : String → Bool} {coords : List String} {spacing : List K} {onsite : Bool} {calls : List (String × Es K)} {x₀ : Expr K r c} {o : Out K r c}
    (hsp : spacing.length = coords.length) (hb : builderValue pw ident coords spacing onsite calls x₀ = .ok o) :
    (∃ v, o = .const v) ↔ x₀.apps = [] ∧ ∀ n ∈ x₀.syms, ∃ s ∈ coords, n = "a_" ++ s := by
  unfold builderValue at hb
  set x := x₀.map (E.subst ((coords.map ("a_" ++ ·)).zip spacing)) with hx
  have happs : x.apps = [] ↔ x₀.apps = [] := by
    rw [← List.map_eq_nil_iff (f := Prod.fst), ← List.map_eq_nil_iff (f := Prod.fst) (l := x₀.apps), hx, map_apps]
  have hsyms : x.syms = [] ↔ ∀ n ∈ x₀.syms, ∃ s ∈ coords, n = "a_" ++ s := by
    rw [List.eq_nil_iff_forall_not_mem]
    constructor
    · intro h n hn
      by_contra h2
      refine h n ?_
      rw [hx, map_syms, lookup_sp hsp]
      exact ⟨hn, fun s hs hns => h2 ⟨s, hs, hns⟩⟩
    · intro h n hn
      rw [hx, map_syms, lookup_sp hsp] at hn
      obtain ⟨s, hs, hns⟩ := h n hn.1
      exact hn.2 s hs hns
  rw [← happs, ← hsyms]
  cases hret : returnString pw calls x with
  | error e => simp only [hret] at hb; cases hb
  | ok rc =>
    simp only [hret, Bind.bind, Except.bind] at hb
    generalize hrd : (if (coords.any fun s => decide (s ∈ x.syms)) = true then some coords else none) = rd at hb
    split_ifs at hb with h1 h2 h3
    · cases hc : constant pw x with
      | none => rw [hc] at hb; cases hb
      | some v =>
        rw [hc] at hb
        cases hb
        refine ⟨fun _ => ?_, fun _ => ⟨v, rfl⟩⟩
        have hall : ∀ e ∈ x.entries, e.syms = [] ∧ e.apps = [] := by
          intro e he
          cases hxe : x with
          | scalar e' =>
            rw [hxe] at he hc
            simp only [Expr.entries, List.mem_singleton] at he
            subst he
            simp only [constant, Option.map_eq_some_iff] at hc
            obtain ⟨a, ha, _⟩ := hc
            exact closed_of_constVal pw ha
          | matrix M =>
            rw [hxe] at he hc
            simp only [Expr.entries, List.mem_map] at he
            obtain ⟨ij, _, rfl⟩ := he
            simp only [constant, Option.ite_none_right_eq_some] at hc
            obtain ⟨a, ha⟩ := Option.isSome_iff_exists.1 (hc.1 ij.1 ij.2)
            exact closed_of_constVal pw ha
        exact ⟨List.flatMap_eq_nil_iff.2 fun e he => (hall e he).2, List.flatMap_eq_nil_iff.2 fun e he => (hall e he).1⟩
    · cases hb
      constructor
      · rintro ⟨v, hv⟩
        cases hv
      · rintro ⟨ha, hs⟩
        exfalso
        refine h2 ⟨?_, ?_⟩
        · apply List.eq_nil_iff_forall_not_mem.2
          intro n hn
          rcases mem_argNames.1 hn with ⟨h5, _⟩ | h5
          · simp [hs] at h5
          · simp [ha] at h5
        · simp [hs]

/-! ### Errors -/

/-- Every power has a symbol as its base, or is a number; the inside of functions does not matter. -/
def E.Polynomial : E K → Prop
  | .num _ => True
  | .sym _ => True
  | .add a b => a.Polynomial ∧ b.Polynomial
  | .mul a b => a.Polynomial ∧ b.Polynomial
  | .pow (.sym _) _ => True
  | .pow (.app _ _) _ => True
  | .pow a b => ∃ v, constVal pw (.pow a b) = some v
  | .app _ _ => True

theorem replace_of_closed (calls : List (String × Es K)) : ∀ e : E K, e.apps = [] → e.replace calls = e
  | .num _, _ => rfl
  | .sym _, _ => rfl
  | .add a b, h => by
    simp only [E.apps, List.append_eq_nil_iff] at h
    simp [E.replace, replace_of_closed calls a h.1, replace_of_closed calls b h.2]
  | .mul a b, h => by
    simp only [E.apps, List.append_eq_nil_iff] at h
    simp [E.replace, replace_of_closed calls a h.1, replace_of_closed calls b h.2]
  | .pow a b, h => by
    simp only [E.apps, List.append_eq_nil_iff] at h
    simp [E.replace, replace_of_closed calls a h.1, replace_of_closed calls b h.2]
  | .app f as, h => by simp [E.apps] at h

theorem replace_syms {calls : List (String × Es K)} : ∀ e : E K, (∀ x ∈ e.apps, x ∈ calls) → (e.replace calls).apps = [] ∧ ((e.replace calls).syms = [] → e.apps = [])
  | .num _, _ => ⟨rfl, fun _ => rfl⟩
  | .sym _, _ => ⟨rfl, fun _ => rfl⟩
  | .add a b, h => by
    have h1 := replace_syms a fun x hx => h x (by simp [E.apps, hx])
    have h2 := replace_syms b fun x hx => h x (by simp [E.apps, hx])
    simp only [E.replace, E.apps, E.syms, List.append_eq_nil_iff]
    exact ⟨⟨h1.1, h2.1⟩, fun h => ⟨h1.2 h.1, h2.2 h.2⟩⟩
  | .mul a b, h => by
    have h1 := replace_syms a fun x hx => h x (by simp [E.apps, hx])
    have h2 := replace_syms b fun x hx => h x (by simp [E.apps, hx])
    simp only [E.replace, E.apps, E.syms, List.append_eq_nil_iff]
    exact ⟨⟨h1.1, h2.1⟩, fun h => ⟨h1.2 h.1, h2.2 h.2⟩⟩
  | .pow a b, h => by
    have h1 := replace_syms a fun x hx => h x (by simp [E.apps, hx])
    have h2 := replace_syms b fun x hx => h x (by simp [E.apps, hx])
    simp only [E.replace, E.apps, E.syms, List.append_eq_nil_iff]
    exact ⟨⟨h1.1, h2.1⟩, fun h => ⟨h1.2 h.1, h2.2 h.2⟩⟩
  | .app f as, h => by
    have := h (f, as) (by simp [E.apps])
    simp [E.replace, this, E.apps, E.syms]

theorem constVal_replace {calls : List (String × Es K)} {e : E K} (h : ∀ x ∈ e.apps, x ∈ calls) : constVal pw (e.replace calls) = constVal pw e := by
  by_cases ha : e.apps = []
  · rw [replace_of_closed calls e ha]
  · cases h1 : constVal pw (e.replace calls) with
    | some v => exact absurd ((replace_syms e h).2 (closed_of_constVal pw h1).1) ha
    | none =>
      cases h2 : constVal pw e with
      | some v => exact absurd (closed_of_constVal pw h2).2 ha
      | none => rfl

theorem expand_isSome {calls : List (String × Es K)} : ∀ e : E K, (∀ x ∈ e.apps, x ∈ calls) → ((expand pw (e.replace calls)).isSome ↔ e.Polynomial pw)
  | .num _, _ => by simp [E.replace, expand, E.Polynomial]
  | .sym _, _ => by simp [E.replace, expand, E.Polynomial]
  | .add a b, h => by
    have h1 := expand_isSome a fun x hx => h x (by simp [E.apps, hx])
    have h2 := expand_isSome b fun x hx => h x (by simp [E.apps, hx])
    simp only [E.replace, expand, E.Polynomial, ← h1, ← h2]
    cases expand pw (a.replace calls) <;> cases expand pw (b.replace calls) <;> simp
  | .mul a b, h => by
    have h1 := expand_isSome a fun x hx => h x (by simp [E.apps, hx])
    have h2 := expand_isSome b fun x hx => h x (by simp [E.apps, hx])
    simp only [E.replace, expand, E.Polynomial, ← h1, ← h2]
    cases expand pw (a.replace calls) <;> cases expand pw (b.replace calls) <;> simp
  | .pow (.sym s) b, h => by simp [E.replace, expand, E.Polynomial]
  | .pow (.app f as) b, h => by
    have := h (f, as) (by simp [E.apps])
    simp [E.replace, this, expand, E.Polynomial]
  | .pow (.num a) b, h => by
    have := constVal_replace pw h
    simp only [E.replace] at this
    simp only [E.replace, expand, E.Polynomial, Option.isSome_map, this, Option.isSome_iff_exists]
  | .pow (.add a a') b, h => by
    have := constVal_replace pw h
    simp only [E.replace] at this
    simp only [E.replace, expand, E.Polynomial, Option.isSome_map, this, Option.isSome_iff_exists]
  | .pow (.mul a a') b, h => by
    have := constVal_replace pw h
    simp only [E.replace] at this
    simp only [E.replace, expand, E.Polynomial, Option.isSome_map, this, Option.isSome_iff_exists]
  | .pow (.pow a a') b, h => by
    have := constVal_replace pw h
    simp only [E.replace] at this
    simp only [E.replace, expand, E.Polynomial, Option.isSome_map, this, Option.isSome_iff_exists]
  | .app f as, h => by
    have := h (f, as) (by simp [E.apps])
    simp [E.replace, this, expand, E.Polynomial]

theorem monomials_isSome (M : Matrix (Fin r) (Fin c) (E K)) : (monomials pw M).isSome ↔ ∀ i j, (expand pw (M i j)).isSome := by
  have key : ∀ (l : List (Fin r × Fin c)) (d : List (List (E K) × Matrix (Fin r) (Fin c) K)),
      (l.foldlM (addEntry pw M) d).isSome ↔ ∀ ij ∈ l, (expand pw (M ij.1 ij.2)).isSome := by
    intro l
    induction l with
    | nil => intro d; simp
    | cons ij l ih =>
      intro d
      simp only [List.foldlM_cons, List.forall_mem_cons, addEntry, exprMonomials]
      cases expand pw (M ij.1 ij.2) with
      | none => simp
      | some l1 =>
        simp only [Option.bind_eq_bind, Option.bind_some, Option.isSome_some, true_and]
        exact ih _
  unfold monomials
  rw [key]
  constructor
  · intro h i j
    exact h (i, j) (List.mem_product.2 ⟨List.mem_finRange _, List.mem_finRange _⟩)
  · intro h ij _
    exact h _ _

theorem constVal_of_polynomial : ∀ e : E K, e.syms = [] → e.apps = [] → e.Polynomial pw → (constVal pw e).isSome := by
  have comb : ∀ (a : E K), (constVal pw a).isSome → ∃ v, a.run pw (r := 0) (c := 0) (fun _ => none) = some (.num v) := by
    intro a h
    unfold constVal at h
    cases hw : a.run pw (r := 0) (c := 0) (fun _ => none) with
    | none => rw [hw] at h; cases h
    | some w =>
      obtain ⟨v, rfl, _⟩ := run_empty pw (fun _ => (none : Option (Val K 0 0))) a w hw
      exact ⟨v, rfl⟩
  intro e
  induction e using E.rec (motive_2 := fun _ => True) with
  | num a => intros; rfl
  | sym s => intro h; simp [E.syms] at h
  | add a b iha ihb =>
    intro h1 h2 h3
    simp only [E.syms, E.apps, List.append_eq_nil_iff] at h1 h2
    obtain ⟨v, hv⟩ := comb a (iha h1.1 h2.1 h3.1)
    obtain ⟨w, hw⟩ := comb b (ihb h1.2 h2.2 h3.2)
    simp [constVal, E.run, hv, hw, Val.add]
  | mul a b iha ihb =>
    intro h1 h2 h3
    simp only [E.syms, E.apps, List.append_eq_nil_iff] at h1 h2
    obtain ⟨v, hv⟩ := comb a (iha h1.1 h2.1 h3.1)
    obtain ⟨w, hw⟩ := comb b (ihb h1.2 h2.2 h3.2)
    simp [constVal, E.run, hv, hw, Val.mul]
  | pow a b iha ihb =>
    intro h1 h2 h3
    cases a with
    | sym s => simp [E.syms] at h1
    | app f as => simp [E.apps] at h2
    | num a => exact Option.isSome_iff_exists.2 h3
    | add a a' => exact Option.isSome_iff_exists.2 h3
    | mul a a' => exact Option.isSome_iff_exists.2 h3
    | pow a a' => exact Option.isSome_iff_exists.2 h3
  | app f as _ => intro _ h; simp [E.apps] at h
  | nil => trivial
  | cons a as _ _ => trivial

theorem siteArgs_nodup {coords : List String} {x : Expr K r c} {onsite : Bool} (h : ∀ a ∈ x.apps, ¬Reserved a.1) : (siteArgs onsite ++ argNames coords x).Nodup := by
  rw [List.nodup_append]
  refine ⟨by unfold siteArgs; split <;> decide, (List.mergeSort_perm _ _).nodup_iff.2 (List.nodup_dedup _), ?_⟩
  intro n hn m hm hnm
  subst hnm
  have hsite : n ∈ ["site", "site1", "site2"] := by
    unfold siteArgs at hn
    split at hn <;> simp only [List.mem_cons, List.not_mem_nil, or_false] at hn ⊢ <;> tauto
  rcases mem_argNames.1 hm with ⟨_, _, h3⟩ | h3
  · exact h3 hsite
  · obtain ⟨a, ha, rfl⟩ := List.mem_map.1 h3
    exact h a ha (Or.inl hsite)

/-- C193.  When the generation succeeds: for an expression whose names are valid and not reserved, a value is made of a scalar that contains a function or a symbol other than
spacings, and of a matrix exactly if no entry contains a power of something that is neither a symbol, a function nor a number. -/
theorem C193_ok {ident : String → Bool} {coords : List String} {spacing : List K} {onsite : Bool} {calls : List (String × Es K)} {x₀ : Expr K r c}
    (hsp : spacing.length = coords.length) (hcalls : Enumerates calls coords spacing x₀) (hclean : x₀.Clean coords) (hid : ∀ n, n ∈ x₀.syms ∨ (∃ a ∈ x₀.apps, a.1 = n) → ident n = true) :
    match x₀ with
    | .scalar e => (e.apps ≠ [] ∨ ∃ n ∈ e.syms, ∀ s ∈ coords, n ≠ "a_" ++ s) → ∃ f, builderValue pw ident coords spacing onsite calls x₀ = .ok (.func f)
    | .matrix M => ((∃ o, builderValue pw ident coords spacing onsite calls x₀ = .ok o) ↔
          ∀ i j, ((M i j).subst ((coords.map ("a_" ++ ·)).zip spacing)).Polynomial pw) ∧
        ((¬∀ i j, ((M i j).subst ((coords.map ("a_" ++ ·)).zip spacing)).Polynomial pw) → builderValue pw ident coords spacing onsite calls x₀ = .error .typeError) := by
  unfold builderValue
  set sp := (coords.map ("a_" ++ ·)).zip spacing with hspd
  set x := x₀.map (E.subst sp) with hx
  have hargs : ¬(argNames coords x).any (fun n => !ident n) = true := by
    intro h
    obtain ⟨n, hn, hi⟩ := List.any_eq_true.1 h
    have : ident n = true := by
      apply hid
      rcases mem_argNames.1 hn with ⟨h1, _⟩ | h1
      · exact Or.inl ((map_syms sp x₀ n).1 h1).1
      · rw [hx, map_apps] at h1
        obtain ⟨a, ha, h⟩ := List.mem_map.1 h1
        exact Or.inr ⟨a, ha, h⟩
    simp [this] at hi
  have hca : ∀ a ∈ x.apps, ¬Reserved a.1 := by
    intro a ha
    have : a.1 ∈ x₀.apps.map Prod.fst := by rw [← map_apps sp x₀]; exact List.mem_map_of_mem ha
    obtain ⟨b, hb, hab⟩ := List.mem_map.1 this
    rw [← hab]
    exact (hclean.2 b hb).1
  have hnd : ¬¬(siteArgs onsite ++ argNames coords x).Nodup := not_not.2 (siteArgs_nodup hca)
  have hmemc : ∀ a ∈ x.apps, a ∈ calls := fun a ha => (hcalls.2 a).2 ha
  cases x₀ with
  | scalar e =>
    intro hne
    have hnc : ¬(argNames coords x = [] ∧ (coords.any fun s => decide (s ∈ x.syms)) = false) := by
      rintro ⟨h1, h2⟩
      rcases hne with hne | ⟨n, hn, hns⟩
      · obtain ⟨a, ha⟩ := List.exists_mem_of_ne_nil _ hne
        have : a.1 ∈ argNames coords x := by
          refine mem_argNames.2 (Or.inr ?_)
          rw [hx, map_apps]
          exact List.mem_map_of_mem (by simpa [Expr.apps, Expr.entries] using ha)
        rw [h1] at this
        cases this
      · have hn0 : n ∈ (Expr.scalar e : Expr K r c).syms := by simpa [Expr.syms, Expr.entries] using hn
        have hnx : n ∈ x.syms := by
          rw [hx, map_syms, hspd, lookup_sp hsp]
          exact ⟨hn0, hns⟩
        by_cases hnc : n ∈ coords
        · have := List.any_eq_false.1 h2 n hnc
          simp [hnx] at this
        · have : n ∈ argNames coords x := mem_argNames.2 (Or.inl ⟨hnx, hnc, fun h => hclean.1 n hn0 (Or.inl h)⟩)
          rw [h1] at this
          cases this
    have hret : returnString pw calls x = .ok (some ((e.subst sp).replace calls), []) := rfl
    simp only [hret, Bind.bind, Except.bind]
    rw [if_neg hargs, if_neg hnc, if_neg hnd]
    exact ⟨_, rfl⟩
  | matrix M =>
    have hmem : ∀ i j, (M i j).subst sp ∈ x.entries := by
      intro i j
      exact List.mem_map.2 ⟨(i, j), List.mem_product.2 ⟨List.mem_finRange _, List.mem_finRange _⟩, rfl⟩
    have hin : ∀ i j, ∀ a ∈ ((M i j).subst sp).apps, a ∈ calls := fun i j a ha => hmemc a (List.mem_flatMap.2 ⟨_, hmem i j, ha⟩)
    have hpoly : (monomials pw fun i j => ((M i j).subst sp).replace calls).isSome ↔ ∀ i j, ((M i j).subst sp).Polynomial pw := by
      refine (monomials_isSome pw _).trans ?_
      exact forall_congr' fun i => forall_congr' fun j => expand_isSome pw _ (hin i j)
    have hret : returnString pw calls x = match monomials pw (fun i j => ((M i j).subst sp).replace calls) with
        | none => .error .typeError
        | some d => .ok (joinMons 0 d, d.zipIdx.map fun t => (cacheName t.2, t.1.2)) := rfl
    simp only
    rw [← hpoly, hret]
    cases hmon : monomials pw (fun i j => ((M i j).subst sp).replace calls) with
    | none =>
      simp only [Bind.bind, Except.bind]
      simp
    | some d =>
      simp only [Bind.bind, Except.bind, Option.isSome_some, not_true_eq_false, false_implies, and_true, iff_true]
      rw [if_neg hargs]
      split_ifs with h2
      · -- a constant matrix
        have hempty : x.syms = [] ∧ x.apps = [] := by
          constructor
          · apply List.eq_nil_iff_forall_not_mem.2
            intro n hn
            by_cases hnc : n ∈ coords
            · have := List.any_eq_false.1 h2.2 n hnc
              simp [hn] at this
            · have : n ∈ argNames coords x := mem_argNames.2 (Or.inl ⟨hn, hnc, fun h => hclean.1 n ((map_syms sp _ n).1 hn).1 (Or.inl h)⟩)
              rw [h2.1] at this
              cases this
          · apply List.eq_nil_iff_forall_not_mem.2
            intro a ha
            have : a.1 ∈ argNames coords x := mem_argNames.2 (Or.inr (List.mem_map_of_mem ha))
            rw [h2.1] at this
            cases this
        have hp := hpoly.1 (by rw [hmon]; rfl)
        have hall : ∀ i j, (constVal pw ((M i j).subst sp)).isSome := fun i j => constVal_of_polynomial pw _
          (List.flatMap_eq_nil_iff.1 hempty.1 _ (hmem i j)) (List.flatMap_eq_nil_iff.1 hempty.2 _ (hmem i j)) (hp i j)
        have : constant pw x = some (.mat fun i j => (constVal pw ((M i j).subst sp)).getD 0) := if_pos hall
        rw [this]
        exact ⟨_, rfl⟩
      all_goals first | exact ⟨_, rfl⟩ | contradiction

/-- C193.  Invalid names are refused: no value is made if a parameter would have a name that is no identifier or a keyword; of a scalar expression it is a `ValueError`. -/
theorem C193_names {ident : String → Bool} {coords : List String} {spacing : List K} {onsite : Bool} {calls : List (String × Es K)} {x₀ : Expr K r c} {n : String}
    (hsp : spacing.length = coords.length)
    (hn : (n ∈ x₀.syms ∧ (∀ s ∈ coords, n ≠ "a_" ++ s) ∧ n ∉ coords ∧ n ∉ ["site", "site1", "site2"]) ∨ ∃ a ∈ x₀.apps, a.1 = n) (hid : ident n = false) :
    (∀ o, builderValue pw ident coords spacing onsite calls x₀ ≠ .ok o) ∧
      ∀ e, x₀ = .scalar e → builderValue pw ident coords spacing onsite calls x₀ = .error .valueError := by
  unfold builderValue
  set sp := (coords.map ("a_" ++ ·)).zip spacing with hspd
  set x := x₀.map (E.subst sp) with hx
  have hargs : (argNames coords x).any (fun n => !ident n) = true := by
    refine List.any_eq_true.2 ⟨n, ?_, by simp [hid]⟩
    rw [mem_argNames, hx, map_syms, map_apps, hspd, lookup_sp hsp]
    rcases hn with ⟨h1, h2, h3⟩ | ⟨a, ha, rfl⟩
    · exact Or.inl ⟨⟨h1, h2⟩, h3⟩
    · exact Or.inr (List.mem_map_of_mem ha)
  constructor
  · intro o ho
    cases hret : returnString pw calls x with
    | error e => simp only [hret] at ho; cases ho
    | ok rc =>
      simp only [hret, Bind.bind, Except.bind] at ho
      rw [if_pos hargs] at ho
      cases ho
  · rintro e rfl
    have hret : returnString pw calls x = .ok (some ((e.subst sp).replace calls), []) := rfl
    simp only [hret, Bind.bind, Except.bind]
    rw [if_pos hargs]

/-! ### Examples -/

/-- Squares and reciprocals of rational numbers. -/
def exPow (a b : ℚ) : Option ℚ := if b = 2 then some (a * a) else if b = -1 ∧ a ≠ 0 then some a⁻¹ else none

theorem not_reserved {s : String} (h : s.toList.head? ≠ some '_') (h2 : s ∉ ["site", "site1", "site2"]) : ¬Reserved s := by
  rintro (h1 | ⟨k, h1 | h1⟩)
  · exact h2 h1
  · exact const_ne h h1
  · exact cache_ne h h1

/-- `[[a_x * B * V(x), x**2], [V(x), W(V(x))]]`. -/
def exMat : Expr ℚ 2 2 := .matrix fun i j =>
  if i = 0 then if j = 0 then .mul (.mul (.sym "a_x") (.sym "B")) (.app "V" (.cons (.sym "x") .nil)) else .pow (.sym "x") (.num 2)
  else if j = 0 then .app "V" (.cons (.sym "x") .nil) else .app "W" (.cons (.app "V" (.cons (.sym "x") .nil)) .nil)

/-- The applied functions of the example, the inner one last. -/
def exCalls : List (String × Es ℚ) := [("W", .cons (.app "V" (.cons (.sym "x") .nil)) .nil), ("V", .cons (.sym "x") .nil)]

/-- `B = 5`, `V` adds one, `W` doubles. -/
def exPar (n : String) : Option (Val ℚ 2 2) :=
  if n = "B" then some (.num 5) else if n = "V" then some (.fn fun l => l.head?.map (· + 1)) else if n = "W" then some (.fn fun l => l.head?.map (2 * ·)) else none

theorem exMat_syms : exMat.syms = ["a_x", "B", "x", "x", "x", "x"] := by
  simp [exMat, Expr.syms, Expr.entries, List.finRange, E.syms, Es.syms, SProd.sprod, List.product, List.ofFn_succ]

theorem exMat_apps : (exMat.map (E.subst ((["x"].map ("a_" ++ ·)).zip [(2 : ℚ)]))).apps =
    [("V", .cons (.sym "x") .nil), ("V", .cons (.sym "x") .nil), ("W", .cons (.app "V" (.cons (.sym "x") .nil)) .nil), ("V", .cons (.sym "x") .nil)] := by
  have h : ("a_" ++ "x" : String) = "a_x" := rfl
  have h1 : ("x" == "a_x") = false := by decide
  have h2 : ("B" == "a_x") = false := by decide
  simp [exMat, Expr.map, Expr.apps, Expr.entries, List.finRange, E.apps, Es.apps, E.subst, Es.subst, List.lookup, h, h1, h2, SProd.sprod, List.product, List.ofFn_succ]

/-- A hopping between sites at 3 and 5 on a lattice with spacing 2: a function is generated, and it returns the matrix that one expects. -/
theorem C193_example : ∃ o, builderValue exPow (fun _ => true) ["x"] [2] false exCalls exMat = .ok o ∧ (¬∃ v, o = .const v) ∧
    o.value exPow (fun _ => none) [3] [5] exPar = some (.mat fun i j => if i = 0 then if j = 0 then 40 else 9 else if j = 0 then 4 else 8) := by
  have hen : Enumerates exCalls ["x"] [2] exMat := by
    refine ⟨by decide, fun a => ?_⟩
    rw [exMat_apps]
    simp only [exCalls, List.mem_cons, List.not_mem_nil, or_false]
    tauto
  have hclean : exMat.Clean ["x"] := by
    constructor
    · rw [exMat_syms]
      intro s hs
      simp only [List.mem_cons, List.not_mem_nil, or_false] at hs
      rcases hs with rfl | rfl | rfl | rfl | rfl | rfl <;> exact not_reserved (by decide) (by decide)
    · intro a ha
      have h1 : a.1 ∈ exMat.apps.map Prod.fst := List.mem_map_of_mem ha
      rw [← map_apps ((["x"].map ("a_" ++ ·)).zip [(2 : ℚ)]), exMat_apps] at h1
      simp only [List.map_cons, List.map_nil, List.mem_cons, List.not_mem_nil, or_false] at h1
      rcases h1 with h | h | h | h <;> rw [h] <;> exact ⟨not_reserved (by decide) (by decide), by decide⟩
  have hok := (C193_ok exPow (ident := fun _ => true) (onsite := false) rfl hen hclean (fun _ _ => rfl)).1.2 (by
    intro i j
    fin_cases i <;> fin_cases j <;> simp [E.subst, E.Polynomial, List.lookup] <;> decide)
  obtain ⟨o, ho⟩ := hok
  have ho : builderValue exPow (fun _ => true) ["x"] [2] false exCalls exMat = .ok o := ho
  refine ⟨o, ho, ?_, ?_⟩
  · rw [C193_const exPow (coords := ["x"]) (spacing := [2]) rfl ho]
    rintro ⟨_, h⟩
    obtain ⟨s, hs, h⟩ := h "B" (by rw [exMat_syms]; simp)
    simp only [List.mem_singleton] at hs
    subst hs
    exact absurd h (by decide)
  · refine C193_value exPow ⟨by decide, by decide⟩ rfl hen hclean ho _ exPar ⟨_, fun i j => ?_, rfl⟩
    have h : ("a_" ++ "x" : String) = "a_x" := rfl
    have h1 : ("x" == "a_x") = false := by decide
    have h2 : ("B" == "a_x") = false := by decide
    have h3 : ("B" == "x") = false := by decide
    fin_cases i <;> fin_cases j <;>
      simp [E.den, Es.den, symbolMeans, fnOf, numOf, exPar, exPow, List.lookup, h, h1, h2, h3] <;> norm_num

end Kwant.Value
