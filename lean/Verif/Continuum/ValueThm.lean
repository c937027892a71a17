import Verif.Continuum.Value
import Mathlib.Tactic.Abel
import Mathlib.Tactic.Ring

/-! Lemmas on the code generator: names, substitution, evaluation, monomials. -/

set_option linter.unusedSectionVars false

namespace Kwant.Value

/-! ### Names -/

theorem constName_inj {i j : ℕ} (h : constName i = constName j) : i = j :=
  Nat.repr_injective (String.append_right_inj _ |>.1 h)

theorem cacheName_inj {i j : ℕ} (h : cacheName i = cacheName j) : i = j :=
  Nat.repr_injective (String.append_right_inj _ |>.1 h)

theorem toList_const (i : ℕ) : (constName i).toList = ['_', 'c', 'o', 'n', 's', 't', '_'] ++ i.repr.toList := by
  rw [constName, String.toList_append]
  rfl

theorem toList_cache (i : ℕ) : (cacheName i).toList = ['_', 'c', 'a', 'c', 'h', 'e', '_'] ++ i.repr.toList := by
  rw [cacheName, String.toList_append]
  rfl

theorem const_ne_cache (i j : ℕ) : constName i ≠ cacheName j := by
  intro h
  have := congrArg String.toList h
  rw [toList_const, toList_cache] at this
  simp at this

theorem const_ne {i : ℕ} {s : String} (hs : s.toList.head? ≠ some '_') : s ≠ constName i := by
  rintro rfl
  rw [toList_const] at hs
  simp at hs

theorem cache_ne {i : ℕ} {s : String} (hs : s.toList.head? ≠ some '_') : s ≠ cacheName i := by
  rintro rfl
  rw [toList_cache] at hs
  simp at hs

theorem coord_not_reserved {s : String} (h : s ∈ ["x", "y", "z"]) : ¬Reserved s := by
  have hh : s.toList.head? ≠ some '_' := by
    simp only [List.mem_cons, List.not_mem_nil, or_false] at h
    rcases h with rfl | rfl | rfl <;> decide
  rintro (h1 | ⟨k, h1 | h1⟩)
  · simp only [List.mem_cons, List.not_mem_nil, or_false] at h h1
    rcases h with rfl | rfl | rfl <;> revert h1 <;> decide
  · exact const_ne hh h1
  · exact cache_ne hh h1

variable {K : Type} [Field K] [DecidableEq K] (pw : K → K → Option K) {r c : ℕ}

/-! ### Substitution -/

mutual
theorem subst_syms (sp : List (String × K)) (s : String) : ∀ e : E K, s ∈ (e.subst sp).syms ↔ s ∈ e.syms ∧ sp.lookup s = none
  | .num _ => by simp [E.subst, E.syms]
  | .sym t => by
    unfold E.subst
    cases h : sp.lookup t with
    | some a =>
      simp only [E.syms, List.not_mem_nil, List.mem_singleton, false_iff]
      rintro ⟨rfl, h2⟩
      rw [h] at h2
      cases h2
    | none =>
      simp only [E.syms, List.mem_singleton]
      constructor
      · rintro rfl
        exact ⟨rfl, h⟩
      · exact fun h => h.1
  | .add a b => by simp only [E.subst, E.syms, List.mem_append, subst_syms sp s a, subst_syms sp s b]; tauto
  | .mul a b => by simp only [E.subst, E.syms, List.mem_append, subst_syms sp s a, subst_syms sp s b]; tauto
  | .pow a b => by simp only [E.subst, E.syms, List.mem_append, subst_syms sp s a, subst_syms sp s b]; tauto
  | .app f as => by simp only [E.subst, E.syms]; exact substs_syms sp s as
theorem substs_syms (sp : List (String × K)) (s : String) : ∀ e : Es K, s ∈ (e.subst sp).syms ↔ s ∈ e.syms ∧ sp.lookup s = none
  | .nil => by simp [Es.subst, Es.syms]
  | .cons a as => by simp only [Es.subst, Es.syms, List.mem_append, subst_syms sp s a, substs_syms sp s as]; tauto
end

mutual
theorem subst_apps (sp : List (String × K)) : ∀ e : E K, (e.subst sp).apps.map Prod.fst = e.apps.map Prod.fst
  | .num _ => rfl
  | .sym t => by
    unfold E.subst
    cases h : sp.lookup t <;> rfl
  | .add a b => by simp only [E.subst, E.apps, List.map_append, subst_apps sp a, subst_apps sp b]
  | .mul a b => by simp only [E.subst, E.apps, List.map_append, subst_apps sp a, subst_apps sp b]
  | .pow a b => by simp only [E.subst, E.apps, List.map_append, subst_apps sp a, subst_apps sp b]
  | .app f as => by simp only [E.subst, E.apps, List.map_cons, substs_apps sp as]
theorem substs_apps (sp : List (String × K)) : ∀ e : Es K, (e.subst sp).apps.map Prod.fst = e.apps.map Prod.fst
  | .nil => rfl
  | .cons a as => by simp only [Es.subst, Es.apps, List.map_append, subst_apps sp a, substs_apps sp as]
end

mutual
theorem subst_den (sp : List (String × K)) (sy : String → Option K) (fu : String → Option (List K → Option K)) :
    ∀ e : E K, (e.subst sp).den pw sy fu = e.den pw (fun s => (sp.lookup s).or (sy s)) fu
  | .num _ => rfl
  | .sym t => by
    unfold E.subst
    cases h : sp.lookup t <;> simp [E.den, h]
  | .add a b => by simp only [E.subst, E.den, subst_den sp sy fu a, subst_den sp sy fu b]
  | .mul a b => by simp only [E.subst, E.den, subst_den sp sy fu a, subst_den sp sy fu b]
  | .pow a b => by simp only [E.subst, E.den, subst_den sp sy fu a, subst_den sp sy fu b]
  | .app f as => by simp only [E.subst, E.den, substs_den sp sy fu as]
theorem substs_den (sp : List (String × K)) (sy : String → Option K) (fu : String → Option (List K → Option K)) :
    ∀ e : Es K, (e.subst sp).den pw sy fu = e.den pw (fun s => (sp.lookup s).or (sy s)) fu
  | .nil => rfl
  | .cons a as => by simp only [Es.subst, Es.den, subst_den sp sy fu a, substs_den sp sy fu as]
end

/-! ### Evaluation -/

/-- All names of an expression with a value have values. -/
def Bound (sy : String → Option K) (fu : String → Option (List K → Option K)) (ss : List String) (as : List (String × Es K)) : Prop :=
  (∀ s ∈ ss, (sy s).isSome) ∧ ∀ a ∈ as, (fu a.1).isSome ∧ (E.app a.1 a.2).den pw sy fu ≠ none

theorem bound_append {sy : String → Option K} {fu : String → Option (List K → Option K)} {s t : List String} {a b : List (String × Es K)}
    (h : Bound pw sy fu s a) (h' : Bound pw sy fu t b) : Bound pw sy fu (s ++ t) (a ++ b) := by
  refine ⟨fun x hx => ?_, fun x hx => ?_⟩
  · rcases List.mem_append.1 hx with hx | hx
    exacts [h.1 x hx, h'.1 x hx]
  · rcases List.mem_append.1 hx with hx | hx
    exacts [h.2 x hx, h'.2 x hx]

mutual
theorem bound_den (sy : String → Option K) (fu : String → Option (List K → Option K)) :
    ∀ (e : E K) (v : K), e.den pw sy fu = some v → Bound pw sy fu e.syms e.apps
  | .num _, v, _ => ⟨by simp [E.syms], by simp [E.apps]⟩
  | .sym s, v, h => ⟨by simp only [E.syms, List.mem_singleton]; rintro _ rfl; simp only [E.den] at h; simp [h], by simp [E.apps]⟩
  | .add a b, v, h => by
    simp only [E.den, Option.bind_eq_bind, Option.bind_eq_some_iff] at h
    obtain ⟨x, hx, y, hy, _⟩ := h
    exact bound_append pw (bound_den sy fu a x hx) (bound_den sy fu b y hy)
  | .mul a b, v, h => by
    simp only [E.den, Option.bind_eq_bind, Option.bind_eq_some_iff] at h
    obtain ⟨x, hx, y, hy, _⟩ := h
    exact bound_append pw (bound_den sy fu a x hx) (bound_den sy fu b y hy)
  | .pow a b, v, h => by
    simp only [E.den, Option.bind_eq_bind, Option.bind_eq_some_iff] at h
    obtain ⟨x, hx, y, hy, _⟩ := h
    exact bound_append pw (bound_den sy fu a x hx) (bound_den sy fu b y hy)
  | .app f as, v, h => by
    have h0 := h
    simp only [E.den, Option.bind_eq_bind, Option.bind_eq_some_iff] at h
    obtain ⟨g, hg, l, hl, _⟩ := h
    have := bounds_den sy fu as l hl
    refine ⟨this.1, fun x hx => ?_⟩
    rcases List.mem_cons.1 hx with rfl | hx
    · exact ⟨by simp [hg], by simp [h0]⟩
    · exact this.2 x hx
theorem bounds_den (sy : String → Option K) (fu : String → Option (List K → Option K)) :
    ∀ (e : Es K) (v : List K), e.den pw sy fu = some v → Bound pw sy fu e.syms e.apps
  | .nil, v, _ => ⟨by simp [Es.syms], by simp [Es.apps]⟩
  | .cons a as, v, h => by
    simp only [Es.den, Option.bind_eq_bind, Option.bind_eq_some_iff] at h
    obtain ⟨x, hx, y, hy, _⟩ := h
    exact bound_append pw (bound_den sy fu a x hx) (bounds_den sy fu as y hy)
end

/-- A namespace knows the values of the names. -/
def Knows (ns : String → Option (Val K r c)) (sy : String → Option K) (fu : String → Option (List K → Option K)) (ss : List String) (as : List (String × Es K)) : Prop :=
  (∀ s ∈ ss, ∀ a, sy s = some a → ns s = some (.num a)) ∧ ∀ x ∈ as, ∀ g, fu x.1 = some g → ns x.1 = some (.fn g)

theorem Knows.mono {ns : String → Option (Val K r c)} {sy : String → Option K} {fu : String → Option (List K → Option K)} {s t : List String} {a b : List (String × Es K)}
    (h : Knows ns sy fu s a) (h1 : t ⊆ s) (h2 : b ⊆ a) : Knows ns sy fu t b :=
  ⟨fun x hx => h.1 x (h1 hx), fun x hx => h.2 x (h2 hx)⟩

mutual
theorem run_den (ns : String → Option (Val K r c)) (sy : String → Option K) (fu : String → Option (List K → Option K)) :
    ∀ (e : E K) (v : K), Knows ns sy fu e.syms e.apps → e.den pw sy fu = some v → e.run pw ns = some (.num v)
  | .num _, v, _, h => by
    simp only [E.den, Option.some.injEq] at h
    rw [← h]
    rfl
  | .sym s, v, k, h => k.1 s (by simp [E.syms]) v h
  | .add a b, v, k, h => by
    simp only [E.den, Option.bind_eq_bind, Option.bind_eq_some_iff] at h
    obtain ⟨x, hx, y, hy, hv⟩ := h
    have h1 := run_den ns sy fu a x (k.mono (by simp [E.syms]) (by simp [E.apps])) hx
    have h2 := run_den ns sy fu b y (k.mono (by simp [E.syms]) (by simp [E.apps])) hy
    cases hv
    simp [E.run, h1, h2, Val.add]
  | .mul a b, v, k, h => by
    simp only [E.den, Option.bind_eq_bind, Option.bind_eq_some_iff] at h
    obtain ⟨x, hx, y, hy, hv⟩ := h
    have h1 := run_den ns sy fu a x (k.mono (by simp [E.syms]) (by simp [E.apps])) hx
    have h2 := run_den ns sy fu b y (k.mono (by simp [E.syms]) (by simp [E.apps])) hy
    cases hv
    simp [E.run, h1, h2, Val.mul]
  | .pow a b, v, k, h => by
    simp only [E.den, Option.bind_eq_bind, Option.bind_eq_some_iff] at h
    obtain ⟨x, hx, y, hy, hv⟩ := h
    have h1 := run_den ns sy fu a x (k.mono (by simp [E.syms]) (by simp [E.apps])) hx
    have h2 := run_den ns sy fu b y (k.mono (by simp [E.syms]) (by simp [E.apps])) hy
    simp [E.run, h1, h2, Val.pow, hv]
  | .app f as, v, k, h => by
    simp only [E.den, Option.bind_eq_bind, Option.bind_eq_some_iff] at h
    obtain ⟨g, hg, l, hl, hv⟩ := h
    have h1 := runs_den ns sy fu as l (k.mono (by simp [E.syms]) (by simp [E.apps])) hl
    have h2 := k.2 (f, as) (by simp [E.apps]) g hg
    simp only at h2
    simp [E.run, h1, h2, hv]
theorem runs_den (ns : String → Option (Val K r c)) (sy : String → Option K) (fu : String → Option (List K → Option K)) :
    ∀ (e : Es K) (v : List K), Knows ns sy fu e.syms e.apps → e.den pw sy fu = some v → e.run pw ns = some v
  | .nil, v, _, h => by
    simp only [Es.den, Option.some.injEq] at h
    rw [← h]
    rfl
  | .cons a as, v, k, h => by
    simp only [Es.den, Option.bind_eq_bind, Option.bind_eq_some_iff] at h
    obtain ⟨x, hx, y, hy, hv⟩ := h
    have h1 := run_den ns sy fu a x (k.mono (by simp [Es.syms]) (by simp [Es.apps])) hx
    have h2 := runs_den ns sy fu as y (k.mono (by simp [Es.syms]) (by simp [Es.apps])) hy
    cases hv
    simp [Es.run, h1, h2]
end

/-- Replacing the calls by names that are bound to their values. -/
theorem replace_run (ns : String → Option (Val K r c)) (sy : String → Option K) (fu : String → Option (List K → Option K)) (calls : List (String × Es K))
    (hc : ∀ x ∈ calls, ∀ a, (E.app x.1 x.2).den pw sy fu = some a → ns (constName (calls.idxOf x)) = some (.num a)) :
    ∀ (e : E K) (v : K), (∀ s ∈ e.syms, ∀ a, sy s = some a → ns s = some (.num a)) → (∀ x ∈ e.apps, x ∈ calls) → e.den pw sy fu = some v →
      (e.replace calls).run pw ns = some (.num v)
  | .num _, v, _, _, h => by
    simp only [E.den, Option.some.injEq] at h
    rw [← h]
    rfl
  | .sym s, v, k, _, h => k s (by simp [E.syms]) v h
  | .add a b, v, k, hm, h => by
    simp only [E.den, Option.bind_eq_bind, Option.bind_eq_some_iff] at h
    obtain ⟨x, hx, y, hy, hv⟩ := h
    have h1 := replace_run ns sy fu calls hc a x (fun s hs => k s (by simp [E.syms, hs])) (fun s hs => hm s (by simp [E.apps, hs])) hx
    have h2 := replace_run ns sy fu calls hc b y (fun s hs => k s (by simp [E.syms, hs])) (fun s hs => hm s (by simp [E.apps, hs])) hy
    cases hv
    simp [E.replace, E.run, h1, h2, Val.add]
  | .mul a b, v, k, hm, h => by
    simp only [E.den, Option.bind_eq_bind, Option.bind_eq_some_iff] at h
    obtain ⟨x, hx, y, hy, hv⟩ := h
    have h1 := replace_run ns sy fu calls hc a x (fun s hs => k s (by simp [E.syms, hs])) (fun s hs => hm s (by simp [E.apps, hs])) hx
    have h2 := replace_run ns sy fu calls hc b y (fun s hs => k s (by simp [E.syms, hs])) (fun s hs => hm s (by simp [E.apps, hs])) hy
    cases hv
    simp [E.replace, E.run, h1, h2, Val.mul]
  | .pow a b, v, k, hm, h => by
    simp only [E.den, Option.bind_eq_bind, Option.bind_eq_some_iff] at h
    obtain ⟨x, hx, y, hy, hv⟩ := h
    have h1 := replace_run ns sy fu calls hc a x (fun s hs => k s (by simp [E.syms, hs])) (fun s hs => hm s (by simp [E.apps, hs])) hx
    have h2 := replace_run ns sy fu calls hc b y (fun s hs => k s (by simp [E.syms, hs])) (fun s hs => hm s (by simp [E.apps, hs])) hy
    simp [E.replace, E.run, h1, h2, Val.pow, hv]
  | .app f as, v, k, hm, h => by
    have hmem := hm (f, as) (by simp [E.apps])
    simp only [E.replace, hmem, if_true, E.run]
    exact hc (f, as) hmem v h

mutual
/-- More names do not change a value. -/
theorem run_empty (ns : String → Option (Val K r c)) : ∀ (e : E K) (v : Val K 0 0), e.run pw (fun _ => none) = some v → ∃ a, v = .num a ∧ e.run pw ns = some (.num a)
  | .num a, v, h => by
    simp only [E.run, Option.some.injEq] at h
    exact ⟨a, h.symm, rfl⟩
  | .sym s, v, h => by simp [E.run] at h
  | .add a b, v, h => by
    simp only [E.run, Option.bind_eq_bind, Option.bind_eq_some_iff] at h
    obtain ⟨x, hx, y, hy, hv⟩ := h
    obtain ⟨p, rfl, h1⟩ := run_empty ns a x hx
    obtain ⟨q, rfl, h2⟩ := run_empty ns b y hy
    simp only [Val.add, Option.some.injEq] at hv
    exact ⟨_, hv.symm, by simp [E.run, h1, h2, Val.add]⟩
  | .mul a b, v, h => by
    simp only [E.run, Option.bind_eq_bind, Option.bind_eq_some_iff] at h
    obtain ⟨x, hx, y, hy, hv⟩ := h
    obtain ⟨p, rfl, h1⟩ := run_empty ns a x hx
    obtain ⟨q, rfl, h2⟩ := run_empty ns b y hy
    simp only [Val.mul, Option.some.injEq] at hv
    exact ⟨_, hv.symm, by simp [E.run, h1, h2, Val.mul]⟩
  | .pow a b, v, h => by
    simp only [E.run, Option.bind_eq_bind, Option.bind_eq_some_iff] at h
    obtain ⟨x, hx, y, hy, hv⟩ := h
    obtain ⟨p, rfl, h1⟩ := run_empty ns a x hx
    obtain ⟨q, rfl, h2⟩ := run_empty ns b y hy
    simp only [Val.pow, Option.map_eq_some_iff] at hv
    obtain ⟨z, hz, hv⟩ := hv
    exact ⟨z, hv.symm, by simp [E.run, h1, h2, Val.pow, hz]⟩
  | .app f as, v, h => by simp [E.run] at h
end

theorem constVal_den (sy : String → Option K) (fu : String → Option (List K → Option K)) (e : E K) {a v : K} (h : constVal pw e = some a) (hd : e.den pw sy fu = some v) :
    a = v := by
  unfold constVal at h
  cases hr : e.run pw (r := 0) (c := 0) (fun _ => none) with
  | none => rw [hr] at h; cases h
  | some w =>
    let ns : String → Option (Val K 0 0) := fun n => ((sy n).map Val.num).or ((fu n).map Val.fn)
    obtain ⟨p, rfl, _⟩ := run_empty pw ns e w hr
    rw [hr] at h
    simp only [Option.some.injEq] at h
    subst h
    -- the value in the empty namespace is that for any meaning of the names
    exact Option.some.inj ((den_empty sy fu e p hr).symm.trans hd)
where
  den_empty (sy : String → Option K) (fu : String → Option (List K → Option K)) : ∀ (e : E K) (p : K), e.run pw (r := 0) (c := 0) (fun _ => none) = some (.num p) →
      e.den pw sy fu = some p
  | .num a, v, h => by
    simp only [E.run, Option.some.injEq, Val.num.injEq] at h
    rw [← h]
    rfl
  | .sym s, v, h => by simp [E.run] at h
  | .add a b, v, h => by
    simp only [E.run, Option.bind_eq_bind, Option.bind_eq_some_iff] at h
    obtain ⟨x, hx, y, hy, hv⟩ := h
    obtain ⟨p, rfl, _⟩ := run_empty pw (fun _ => (none : Option (Val K 0 0))) a x hx
    obtain ⟨q, rfl, _⟩ := run_empty pw (fun _ => (none : Option (Val K 0 0))) b y hy
    simp only [Val.add, Option.some.injEq, Val.num.injEq] at hv
    simp [E.den, den_empty sy fu a p hx, den_empty sy fu b q hy, hv]
  | .mul a b, v, h => by
    simp only [E.run, Option.bind_eq_bind, Option.bind_eq_some_iff] at h
    obtain ⟨x, hx, y, hy, hv⟩ := h
    obtain ⟨p, rfl, _⟩ := run_empty pw (fun _ => (none : Option (Val K 0 0))) a x hx
    obtain ⟨q, rfl, _⟩ := run_empty pw (fun _ => (none : Option (Val K 0 0))) b y hy
    simp only [Val.mul, Option.some.injEq, Val.num.injEq] at hv
    simp [E.den, den_empty sy fu a p hx, den_empty sy fu b q hy, hv]
  | .pow a b, v, h => by
    simp only [E.run, Option.bind_eq_bind, Option.bind_eq_some_iff] at h
    obtain ⟨x, hx, y, hy, hv⟩ := h
    obtain ⟨p, rfl, _⟩ := run_empty pw (fun _ => (none : Option (Val K 0 0))) a x hx
    obtain ⟨q, rfl, _⟩ := run_empty pw (fun _ => (none : Option (Val K 0 0))) b y hy
    simp only [Val.pow, Option.map_eq_some_iff, Val.num.injEq] at hv
    obtain ⟨z, hz, rfl⟩ := hv
    simp [E.den, den_empty sy fu a p hx, den_empty sy fu b q hy, hz]
  | .app f as, v, h => by simp [E.run] at h

/-! ### Monomials -/

/-- The value of a key. -/
def weight (ns : String → Option (Val K r c)) (f : E K) : K :=
  match f.run pw ns with
  | some (.num a) => a
  | _ => 0

/-- The factors of a key are numbers. -/
def Defined (ns : String → Option (Val K r c)) (k : List (E K)) : Prop := ∀ f ∈ k, ∃ a, f.run pw ns = some (.num a)

theorem expand_run (ns : String → Option (Val K r c)) :
    ∀ (e : E K) (l : List (K × List (E K))) (v : K), expand pw e = some l → e.run pw ns = some (.num v) →
      l ≠ [] ∧ (∀ t ∈ l, Defined pw ns t.2) ∧ (l.map fun t => t.1 * (t.2.map (weight pw ns)).prod).sum = v := by
  have hconst : ∀ (e : E K) (l : List (K × List (E K))) (v : K), (constVal pw e).map (fun v => [(v, ([] : List (E K)))]) = some l → e.run pw ns = some (.num v) →
      l ≠ [] ∧ (∀ t ∈ l, Defined pw ns t.2) ∧ (l.map fun t => t.1 * (t.2.map (weight pw ns)).prod).sum = v := by
    intro e l v h hr
    obtain ⟨a, ha, rfl⟩ := Option.map_eq_some_iff.1 h
    unfold constVal at ha
    cases hw : e.run pw (r := 0) (c := 0) (fun _ => none) with
    | none => rw [hw] at ha; cases ha
    | some w =>
      obtain ⟨p, rfl, hp⟩ := run_empty pw ns e w hw
      rw [hw] at ha
      simp only [Option.some.injEq] at ha
      subst ha
      rw [hr] at hp
      simp only [Option.some.injEq, Val.num.injEq] at hp
      subst hp
      exact ⟨by simp, by simp [Defined], by simp⟩
  intro e
  induction e using E.rec (motive_2 := fun _ => True) with
  | num a =>
    intro l v h hr
    simp only [expand, Option.some.injEq] at h
    simp only [E.run, Option.some.injEq, Val.num.injEq] at hr
    subst h hr
    exact ⟨by simp, by simp [Defined], by simp⟩
  | sym s =>
    intro l v h hr
    simp only [expand, Option.some.injEq] at h
    subst h
    refine ⟨by simp, ?_, ?_⟩
    · intro t ht f hf
      simp only [List.mem_singleton] at ht
      subst ht
      simp only [List.mem_singleton] at hf
      subst hf
      exact ⟨v, hr⟩
    · simp [weight, hr]
  | add a b iha ihb =>
    intro l v h hr
    simp only [expand, Option.bind_eq_bind, Option.bind_eq_some_iff] at h
    obtain ⟨la, hla, lb, hlb, hl⟩ := h
    cases hl
    simp only [E.run, Option.bind_eq_bind, Option.bind_eq_some_iff] at hr
    obtain ⟨x, hx, y, hy, hv⟩ := hr
    cases x <;> cases y <;> simp only [Val.add, Option.some.injEq, Val.num.injEq, reduceCtorEq] at hv
    subst hv
    obtain ⟨n1, d1, s1⟩ := iha la _ hla hx
    obtain ⟨n2, d2, s2⟩ := ihb lb _ hlb hy
    refine ⟨by simp [n1], fun t ht => ?_, ?_⟩
    · rcases List.mem_append.1 ht with ht | ht
      exacts [d1 t ht, d2 t ht]
    · rw [List.map_append, List.sum_append, s1, s2]
  | mul a b iha ihb =>
    intro l v h hr
    simp only [expand, Option.bind_eq_bind, Option.bind_eq_some_iff] at h
    obtain ⟨la, hla, lb, hlb, hl⟩ := h
    cases hl
    simp only [E.run, Option.bind_eq_bind, Option.bind_eq_some_iff] at hr
    obtain ⟨x, hx, y, hy, hv⟩ := hr
    cases hx' : x with
    | num p =>
      cases hy' : y with
      | num q =>
        subst hx' hy'
        simp only [Val.mul, Option.some.injEq, Val.num.injEq] at hv
        subst hv
        obtain ⟨n1, d1, s1⟩ := iha la _ hla hx
        obtain ⟨n2, d2, s2⟩ := ihb lb _ hlb hy
        refine ⟨?_, fun t ht => ?_, ?_⟩
        · obtain ⟨t, la', rfl⟩ := List.exists_cons_of_ne_nil n1
          obtain ⟨u, lb', rfl⟩ := List.exists_cons_of_ne_nil n2
          simp
        · obtain ⟨t1, h1, h2⟩ := List.mem_flatMap.1 ht
          obtain ⟨u, h3, rfl⟩ := List.mem_map.1 h2
          intro f hf
          rcases List.mem_append.1 hf with hf | hf
          exacts [d1 t1 h1 f hf, d2 u h3 f hf]
        · rw [← s1, ← s2, ← List.sum_map_mul_right]
          rw [List.map_flatMap, List.flatMap_def, List.sum_flatten, List.map_map]
          congr 1
          refine List.map_congr_left fun t _ => ?_
          simp only [Function.comp]
          rw [← List.sum_map_mul_left, List.map_map]
          congr 1
          refine List.map_congr_left fun u _ => ?_
          simp only [Function.comp, List.map_append, List.prod_append]
          ring
      | mat m => subst hx' hy'; simp [Val.mul] at hv
      | fn m => subst hx' hy'; simp [Val.mul] at hv
      | site m => subst hx' hy'; simp [Val.mul] at hv
    | mat m => subst hx'; simp [Val.mul] at hv
    | fn m => subst hx'; simp [Val.mul] at hv
    | site m => subst hx'; simp [Val.mul] at hv
  | pow a b iha ihb =>
    intro l v h hr
    cases a with
    | sym s =>
      simp only [expand, Option.some.injEq] at h
      subst h
      refine ⟨by simp, ?_, ?_⟩
      · intro t ht f hf
        simp only [List.mem_singleton] at ht
        subst ht
        simp only [List.mem_singleton] at hf
        subst hf
        exact ⟨v, hr⟩
      · simp [weight, hr]
    | num a => exact hconst _ l v h hr
    | add a a' => exact hconst _ l v h hr
    | mul a a' => exact hconst _ l v h hr
    | pow a a' => exact hconst _ l v h hr
    | app f as => exact hconst _ l v h hr
  | app f as _ =>
    intro l v h hr
    simp [expand] at h
  | nil => trivial
  | cons a as _ _ => trivial

/-- The sum of a dictionary of monomials. -/
def total {A : Type} [AddCommMonoid A] [Module K A] (w : E K → K) (d : List (List (E K) × A)) : A := (d.map fun t => (t.1.map w).prod • t.2).sum

theorem total_bump {A : Type} [AddCommGroup A] [Module K A] (w : E K → K) (k : List (E K)) (a : A) :
    ∀ d : List (List (E K) × A), total w (bump d k a) = total w d + (k.map w).prod • a
  | [] => by simp [total, bump]
  | (k', a') :: d => by
    unfold bump
    split
    · rename_i h
      have hp : (k'.map w).prod = (k.map w).prod := ((List.isPerm_iff.1 h).map w).prod_eq
      simp only [total, List.map_cons, List.sum_cons, smul_add, hp]
      abel
    · have := total_bump w k a d
      simp only [total, List.map_cons, List.sum_cons] at this ⊢
      rw [this]
      abel

theorem bump_keys {A : Type} [Add A] (P : List (E K) → Prop) (k : List (E K)) (a : A) (hk : P k) :
    ∀ d : List (List (E K) × A), (∀ t ∈ d, P t.1) → ∀ t ∈ bump d k a, P t.1
  | [], _, t, ht => by
    simp only [bump, List.mem_singleton] at ht
    subst ht
    exact hk
  | (k', a') :: d, h, t, ht => by
    unfold bump at ht
    split at ht
    · rcases List.mem_cons.1 ht with rfl | ht
      · exact h (k', a') (by simp)
      · exact h t (by simp [ht])
    · rcases List.mem_cons.1 ht with rfl | ht
      · exact h (k', a') (by simp)
      · exact bump_keys P k a hk d (fun t ht => h t (by simp [ht])) t ht

theorem bump_ne {A : Type} [Add A] (k : List (E K)) (a : A) (d : List (List (E K) × A)) : bump d k a ≠ [] := by
  cases d with
  | nil => simp [bump]
  | cons t d =>
    unfold bump
    split <;> simp

theorem foldl_bump {A B : Type} [AddCommGroup A] [Module K A] (w : E K → K) (P : List (E K) → Prop) (key : B → List (E K)) (val : B → A) :
    ∀ (l : List B) (d : List (List (E K) × A)), (∀ t ∈ l, P (key t)) → (∀ t ∈ d, P t.1) →
      total w (l.foldl (fun d t => bump d (key t) (val t)) d) = total w d + (l.map fun t => ((key t).map w).prod • val t).sum ∧
        (∀ t ∈ l.foldl (fun d t => bump d (key t) (val t)) d, P t.1) ∧ (l ≠ [] ∨ d ≠ [] → l.foldl (fun d t => bump d (key t) (val t)) d ≠ [])
  | [], d, _, hd => ⟨by simp, hd, by simp⟩
  | t :: l, d, hl, hd => by
    obtain ⟨h1, h2, h3⟩ := foldl_bump w P key val l (bump d (key t) (val t)) (fun t ht => hl t (by simp [ht])) (bump_keys P _ _ (hl t (by simp)) d hd)
    refine ⟨?_, h2, fun _ => h3 (Or.inr (bump_ne _ _ _))⟩
    rw [List.foldl_cons, h1, total_bump, List.map_cons, List.sum_cons]
    abel

theorem exprMonomials_run (ns : String → Option (Val K r c)) (e : E K) (d : List (List (E K) × K)) (v : K) (h : exprMonomials pw e = some d) (hr : e.run pw ns = some (.num v)) :
    d ≠ [] ∧ (∀ t ∈ d, Defined pw ns t.1) ∧ total (weight pw ns) d = v := by
  unfold exprMonomials at h
  simp only [Option.bind_eq_bind, Option.bind_eq_some_iff] at h
  obtain ⟨l, hl, hd⟩ := h
  cases hd
  obtain ⟨h1, h2, h3⟩ := expand_run pw ns e l v hl hr
  obtain ⟨g1, g2, g3⟩ := foldl_bump (weight pw ns) (Defined pw ns) (fun t : K × List (E K) => t.2) (fun t => t.1) l [] h2 (by simp)
  refine ⟨g3 (Or.inl h1), g2, ?_⟩
  rw [g1, ← h3]
  simp only [total, List.map_nil, List.sum_nil, zero_add, smul_eq_mul]
  congr 1
  exact List.map_congr_left fun t _ => mul_comm _ _

theorem monomials_run (ns : String → Option (Val K r c)) (M : Matrix (Fin r) (Fin c) (E K)) (m : Matrix (Fin r) (Fin c) K)
    (hr : ∀ i j, (M i j).run pw ns = some (.num (m i j))) (d : List (List (E K) × Matrix (Fin r) (Fin c) K)) (h : monomials pw M = some d) :
    (∀ t ∈ d, Defined pw ns t.1) ∧ total (weight pw ns) d = m ∧ (0 < r → 0 < c → d ≠ []) := by
  have key : ∀ (l : List (Fin r × Fin c)) (d₀ d : List (List (E K) × Matrix (Fin r) (Fin c) K)), l.foldlM (addEntry pw M) d₀ = some d → (∀ t ∈ d₀, Defined pw ns t.1) →
      (∀ t ∈ d, Defined pw ns t.1) ∧ total (weight pw ns) d = total (weight pw ns) d₀ + (l.map fun ij => Matrix.single ij.1 ij.2 (m ij.1 ij.2)).sum ∧
        (l ≠ [] ∨ d₀ ≠ [] → d ≠ []) := by
    intro l
    induction l with
    | nil =>
      intro d₀ d h hd
      cases h
      exact ⟨hd, by simp, by simp⟩
    | cons ij l ih =>
      intro d₀ d h hd
      simp only [List.foldlM_cons, Option.bind_eq_bind, Option.bind_eq_some_iff] at h
      obtain ⟨d₁, h1, h2⟩ := h
      unfold addEntry at h1
      simp only [Option.bind_eq_bind, Option.bind_eq_some_iff] at h1
      obtain ⟨l1, hl1, h1⟩ := h1
      cases h1
      obtain ⟨e1, e2, e3⟩ := exprMonomials_run pw ns _ l1 _ hl1 (hr ij.1 ij.2)
      obtain ⟨g1, g2, g3⟩ := foldl_bump (weight pw ns) (Defined pw ns) (fun t : List (E K) × K => t.1) (fun t => Matrix.single ij.1 ij.2 t.2) l1 d₀ e2 hd
      obtain ⟨k1, k2, k3⟩ := ih _ d h2 g2
      refine ⟨k1, ?_, fun _ => k3 (Or.inr (g3 (Or.inl e1)))⟩
      rw [k2, g1, List.map_cons, List.sum_cons, ← add_assoc, add_assoc (total _ _), add_assoc (total _ _)]
      congr 2
      rw [← e3]
      clear g1 g2 g3 k1 k2 k3 h2 hl1 e1 e2 e3
      induction l1 with
      | nil => simp [total]
      | cons t l1 ih1 =>
        simp only [total, List.map_cons, List.sum_cons, Matrix.single_add] at ih1 ⊢
        rw [ih1, Matrix.smul_single]
  obtain ⟨h1, h2, h3⟩ := key _ [] d h (by simp)
  refine ⟨h1, ?_, fun hr hc => h3 (Or.inl ?_)⟩
  · rw [h2]
    ext i j
    simp only [total, List.map_nil, List.sum_nil, zero_add]
    exact sum_single m i j
  · intro h
    have : ((⟨0, hr⟩ : Fin r), (⟨0, hc⟩ : Fin c)) ∈ List.finRange r ×ˢ List.finRange c := List.mem_product.2 ⟨List.mem_finRange _, List.mem_finRange _⟩
    rw [h] at this
    cases this
where
  sum_single (m : Matrix (Fin r) (Fin c) K) (i : Fin r) (j : Fin c) :
      ((List.finRange r ×ˢ List.finRange c).map fun ij => Matrix.single ij.1 ij.2 (m ij.1 ij.2)).sum i j = m i j := by
    have h := Matrix.matrix_eq_sum_single m
    have hn : (List.finRange r ×ˢ List.finRange c).Nodup := (List.nodup_finRange r).product (List.nodup_finRange c)
    have : ((List.finRange r ×ˢ List.finRange c).map fun ij => Matrix.single ij.1 ij.2 (m ij.1 ij.2)).sum
        = ∑ ij : Fin r × Fin c, Matrix.single ij.1 ij.2 (m ij.1 ij.2) := by
      rw [← List.sum_toFinset _ hn]
      refine Finset.sum_congr ?_ fun _ _ => rfl
      ext ij
      simp only [List.mem_toFinset, Finset.mem_univ, iff_true]
      exact List.mem_product.2 ⟨List.mem_finRange _, List.mem_finRange _⟩
    rw [this, Fintype.sum_prod_type, ← h]

theorem keyExpr_run (ns : String → Option (Val K r c)) : ∀ k : List (E K), Defined pw ns k → (keyExpr k).run pw ns = some (.num (k.map (weight pw ns)).prod)
  | [], _ => rfl
  | f :: k, h => by
    obtain ⟨a, ha⟩ := h f (by simp)
    have := keyExpr_run ns k fun f hf => h f (by simp [hf])
    simp [keyExpr, E.run, this, ha, Val.mul, weight]

theorem joinMons_run (ns : String → Option (Val K r c)) : ∀ (d : List (List (E K) × Matrix (Fin r) (Fin c) K)) (n : ℕ), (∀ t ∈ d, Defined pw ns t.1) →
    (∀ i t, d[i]? = some t → ns (cacheName (n + i)) = some (.mat t.2)) → d ≠ [] →
    ∃ e, joinMons n d = some e ∧ e.run pw ns = some (.mat (total (weight pw ns) d))
  | [], _, _, _, h => absurd rfl h
  | [t], n, hd, hc, _ => by
    refine ⟨_, rfl, ?_⟩
    have h1 := keyExpr_run pw ns t.1 (hd t (by simp))
    have h2 := hc 0 t rfl
    simp only [Nat.add_zero] at h2
    simp [E.run, h1, h2, Val.mul, total]
  | t :: u :: d, n, hd, hc, _ => by
    obtain ⟨e, he, hr⟩ := joinMons_run ns (u :: d) (n + 1) (fun t ht => hd t (by simp only [List.mem_cons] at ht ⊢; tauto))
      (fun i t ht => by have := hc (i + 1) t ht; rwa [← add_assoc, add_right_comm] at this) (by simp)
    refine ⟨_, by simp only [joinMons]; rw [he]; rfl, ?_⟩
    have h1 := keyExpr_run pw ns t.1 (hd t (by simp))
    have h2 := hc 0 t rfl
    simp only [Nat.add_zero] at h2
    simp [E.run, h1, h2, hr, Val.mul, Val.add, total]

end Kwant.Value
