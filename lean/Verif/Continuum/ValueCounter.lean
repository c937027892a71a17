import Verif.Continuum.ValueEx

/-! C193: what goes wrong with names that the generated code uses itself, and with matrices of expressions that are no polynomials. -/

set_option linter.unusedSectionVars false

namespace Kwant.Value

/-- `V(x) + _const_0`. -/
def ceConst : E ℚ := .add (.app "V" (.cons (.sym "x") .nil)) (.sym "_const_0")

/-- The applied function of it. -/
def ceCalls : List (String × Es ℚ) := [("V", .cons (.sym "x") .nil)]

/-- `_const_0 = 5`, `V` adds one. -/
def cePar (n : String) : Option (Val ℚ 0 0) :=
  if n = "_const_0" then some (.num 5) else if n = "V" then some (.fn fun l => l.head?.map (· + 1)) else none

theorem ceConst_subst : (Expr.scalar ceConst : Expr ℚ 0 0).map (E.subst ((["x"].map ("a_" ++ ·)).zip [1])) = .scalar ceConst := by
  have h : ("a_" ++ "x" : String) = "a_x" := rfl
  have h1 : ("x" == "a_x") = false := by decide
  have h2 : ("_const_0" == "a_x") = false := by decide
  simp [ceConst, Expr.map, E.subst, Es.subst, List.lookup, h, h1, h2]

theorem ceConst_build : builderValue exPow (fun _ => true) ["x"] [1] true ceCalls (Expr.scalar ceConst : Expr ℚ 0 0) = .ok (.func {
    onsite := true, args := ["V", "_const_0"], coords := some ["x"], lets := [("_const_0", .app "V" (.cons (.sym "x") .nil))],
    ret := some (.add (.sym "_const_0") (.sym "_const_0")), cache := [] }) := by
  have hargs : argNames ["x"] (Expr.scalar ceConst : Expr ℚ 0 0) = ["V", "_const_0"] := by
    have h : ¬("_const_0" ≤ "V") := by decide
    have hl : ((((Expr.scalar ceConst : Expr ℚ 0 0).syms.filter fun s => s ∉ ["x"] ++ ["site", "site1", "site2"]) ++
      (Expr.scalar ceConst : Expr ℚ 0 0).apps.map Prod.fst).dedup) = ["_const_0", "V"] := by decide
    rw [argNames, hl]
    simp [List.mergeSort, List.MergeSort.Internal.splitInTwo, h]
  have hret : returnString exPow ceCalls (Expr.scalar ceConst : Expr ℚ 0 0) = .ok (some (.add (.sym "_const_0") (.sym "_const_0")), []) := by
    have h : constName 0 = "_const_0" := rfl
    simp [returnString, Expr.map, ceConst, E.replace, ceCalls, h]
  have hread : (["x"].any fun s => decide (s ∈ (Expr.scalar ceConst : Expr ℚ 0 0).syms)) = true := by decide
  have hc : constName 0 = "_const_0" := rfl
  have hnd : (siteArgs true ++ ["V", "_const_0"]).Nodup := by decide
  unfold builderValue
  rw [ceConst_subst]
  simp only [hret, hargs, hread, Bind.bind, Except.bind]
  rw [if_neg (by decide), if_neg (by simp), if_neg (not_not.2 hnd)]
  simp [ceCalls, hc]
  rfl

/-- C193.  A parameter that is called like an intermediate result is overwritten: the function made of `V(x) + _const_0` returns `2 * V(x)`. -/
theorem C193_counterexample_const : Enumerates ceCalls ["x"] [1] (Expr.scalar ceConst : Expr ℚ 0 0) ∧
    (Expr.scalar ceConst : Expr ℚ 0 0).Means exPow (symbolMeans ["x"] [1] [3] cePar) (fnOf cePar) (.num 9) ∧
    ∃ o, builderValue exPow (fun _ => true) ["x"] [1] true ceCalls (Expr.scalar ceConst : Expr ℚ 0 0) = .ok o ∧ o.value exPow (fun _ => none) [3] [] cePar = some (.num 8) := by
  have h : ("a_" ++ "x" : String) = "a_x" := rfl
  have h1 : ("x" == "a_x") = false := by decide
  have h2 : ("_const_0" == "a_x") = false := by decide
  have h3 : ("_const_0" == "x") = false := by decide
  refine ⟨⟨by decide, fun a => ?_⟩, ⟨9, ?_, rfl⟩, _, ceConst_build, ?_⟩
  · rw [ceConst_subst]
    simp [ceCalls, ceConst, Expr.apps, Expr.entries, E.apps, Es.apps, E.syms]
  · simp [ceConst, E.den, Es.den, symbolMeans, fnOf, numOf, cePar, List.lookup, h, h1, h2, h3]
    norm_num
  · simp [Out.value, Fun.call, cePar, readCoords, unpack, runLets, bind, E.run, Es.run, Val.add]
    norm_num

/-- `[[_cache_0]]`. -/
def ceCache : Expr ℚ 1 1 := .matrix fun _ _ => .sym "_cache_0"

/-- The parameter `_cache_0` has the value `a`. -/
def cacheIs (a : ℚ) (n : String) : Option (Val ℚ 1 1) := if n = "_cache_0" then some (.num a) else none

theorem ceCache_build : builderValue exPow (fun _ => true) ["x"] [1] true [] ceCache = .ok (.func {
    onsite := true, args := ["_cache_0"], coords := none, lets := [], ret := some (.mul (.mul (.sym "_cache_0") (.num 1)) (.sym "_cache_0")),
    cache := [("_cache_0", Matrix.single 0 0 1)] }) := by
  have hsub : ceCache.map (E.subst ((["x"].map ("a_" ++ ·)).zip [1])) = ceCache := by
    have h : ("a_" ++ "x" : String) = "a_x" := rfl
    have h2 : ("_cache_0" == "a_x") = false := by decide
    simp [ceCache, Expr.map, E.subst, List.lookup, h, h2]
  have hsyms : ceCache.syms = ["_cache_0"] := rfl
  have happs : ceCache.apps = [] := rfl
  have hargs : argNames ["x"] ceCache = ["_cache_0"] := by
    have hl : (["_cache_0"].filter fun s => decide (s ∉ ["x"] ++ ["site", "site1", "site2"])) = ["_cache_0"] := by decide
    rw [argNames, hsyms, happs, hl]
    simp [List.mergeSort]
  have hc : cacheName 0 = "_cache_0" := rfl
  have hret : returnString exPow [] ceCache = .ok (some (.mul (.mul (.sym "_cache_0") (.num 1)) (.sym "_cache_0")), [("_cache_0", Matrix.single 0 0 1)]) := by
    have hf : (List.finRange 1 ×ˢ List.finRange 1) = [(0, 0)] := rfl
    simp only [returnString, ceCache, Expr.map, E.replace, monomials, hf]
    simp [addEntry, exprMonomials, expand, bump, joinMons, keyExpr, hc]
  have hnd : (siteArgs true ++ ["_cache_0"]).Nodup := by decide
  have hread : (["x"].any fun s => decide (s ∈ ceCache.syms)) = false := by rw [hsyms]; decide
  unfold builderValue
  rw [hsub]
  simp only [hret, hargs, hread, Bind.bind, Except.bind]
  rw [if_neg (by decide), if_neg (by simp), if_neg (not_not.2 hnd)]
  rfl

/-- C193.  A parameter that is called like a cached matrix hides it: the function made of `[[_cache_0]]` returns the square of the parameter, which is not even a matrix. -/
theorem C193_counterexample_cache (a : ℚ) : Enumerates [] ["x"] [1] ceCache ∧
    ceCache.Means exPow (symbolMeans ["x"] [1] [3] (cacheIs a)) (fnOf (cacheIs a)) (.mat fun _ _ => a) ∧
    ∃ o, builderValue exPow (fun _ => true) ["x"] [1] true [] ceCache = .ok o ∧
      o.value exPow (fun _ => none) [3] [] (cacheIs a) = some (.num (a * a)) := by
  have h : ("a_" ++ "x" : String) = "a_x" := rfl
  have h2 : ("_cache_0" == "a_x") = false := by decide
  have h3 : ("_cache_0" == "x") = false := by decide
  refine ⟨⟨by decide, fun a => ?_⟩, ⟨_, fun i j => ?_, rfl⟩, _, ceCache_build, ?_⟩
  · have : (ceCache.map (E.subst ((["x"].map ("a_" ++ ·)).zip [1]))).apps.map Prod.fst = [] := by rw [map_apps]; rfl
    rw [List.map_eq_nil_iff.1 this]
  · simp [E.den, symbolMeans, numOf, cacheIs, List.lookup, h, h2, h3]
  · simp [Out.value, Fun.call, readCoords, runLets, cacheIs, E.run, Val.mul]

/-- `1 / (x + 1)`. -/
def ceInv : E ℚ := .pow (.add (.sym "x") (.num 1)) (.num (-1))

/-- C193.  A value is made of the scalar `1 / (x + 1)`, but of the matrix `[[1 / (x + 1)]]` there is none, for any grid and any site. -/
theorem C193_counterexample_matrix (onsite : Bool) :
    (∃ f, builderValue exPow (fun _ => true) ["x"] [1] onsite [] (Expr.scalar ceInv : Expr ℚ 1 1) = .ok (.func f)) ∧
      builderValue exPow (fun _ => true) ["x"] [1] onsite [] (.matrix fun _ _ => ceInv : Expr ℚ 1 1) = .error .typeError := by
  have happ : ∀ x : Expr ℚ 1 1, x.apps = [] → Enumerates [] ["x"] [1] x := by
    intro x hx
    refine ⟨by simp, fun a => ?_⟩
    have : (x.map (E.subst ((["x"].map ("a_" ++ ·)).zip [1]))).apps.map Prod.fst = [] := by rw [map_apps, hx]; rfl
    rw [List.map_eq_nil_iff.1 this]
  have hres : ¬Reserved "x" := coord_not_reserved (by decide)
  constructor
  · refine C193_ok exPow (x₀ := .scalar ceInv) rfl (happ _ rfl) ⟨fun s hs => ?_, fun a ha => by cases ha⟩ (fun _ _ => rfl) (Or.inr ⟨"x", by simp [ceInv, E.syms], ?_⟩)
    · have : s = "x" := by simpa [ceInv, Expr.syms, Expr.entries, E.syms] using hs
      rw [this]
      exact hres
    · decide
  · refine (C193_ok exPow (x₀ := (.matrix fun _ _ => ceInv : Expr ℚ 1 1)) rfl (happ _ rfl) ⟨fun s hs => ?_, fun a ha => by cases ha⟩ (fun _ _ => rfl)).2 ?_
    · have hsyms : (.matrix fun _ _ => ceInv : Expr ℚ 1 1).syms = ["x"] := rfl
      rw [hsyms, List.mem_singleton] at hs
      rw [hs]
      exact hres
    · intro h
      obtain ⟨v, hv⟩ : ∃ v, constVal exPow (ceInv.subst ((["x"].map ("a_" ++ ·)).zip [1])) = some v := h 0 0
      have h1 : ("a_" ++ "x" : String) = "a_x" := rfl
      have h2 : ("x" == "a_x") = false := by decide
      simp [constVal, ceInv, E.subst, E.run, List.lookup, h1, h2] at hv

end Kwant.Value
