import Verif.Final.Lemmas
import Verif.Final.Spec

/-! # C40-C42: finalized finite systems -/
set_option linter.unusedSectionVars false

namespace Kwant.Final
open Kwant Kwant.Assoc Kwant.Builder Kwant.Graph

section
variable {S G V Fn N A X : Type} [DecidableEq S] [DecidableEq N] [AddCommGroup G] [DecidableEq G]
variable {sym : Symmetry S G} {hc : V → V} {C : Calls S V Fn N A X}

/-- The value of a hopping from the values stored in both directions. -/
def combine (hc : V → V) (st st' : Stored V Fn) : Option (Val V Fn) :=
  match st with
  | .const v => some (.const v)
  | .func f => some (.func f)
  | .other =>
    match st' with
    | .const v => some (.const (hc v))
    | .func f => some (.herm f)
    | .other => none

theorem userCall_eq (r : Except X V) : userCall r = r.mapError HErr.user := by cases r <;> rfl

theorem callWith_two (f : Fn) (a b : S) (args : List A) (params : List (N × A)) :
    callWith C f [a, b] args params =
      match argsFor ((C.sig f).map (List.drop 2)) args params with
      | .error e => .error e
      | .ok as => userCall (C.call f [a, b] as) := by
  unfold callWith argsFor
  by_cases hp : params = []
  · simp only [hp, if_true, userCall_eq]
  · simp only [hp, if_false]
    cases C.sig f with
    | none => rfl
    | some ns =>
      simp only [Option.map_some, List.length_cons, List.length_nil]
      cases (ns.drop 2).mapM (Assoc.get params) <;> simp [userCall_eq]

theorem callWith_one (f : Fn) (a : S) (args : List A) (params : List (N × A)) :
    callWith C f [a] args params =
      match argsFor ((C.sig f).map (List.drop 1)) args params with
      | .error e => .error e
      | .ok as => userCall (C.call f [a] as) := by
  unfold callWith argsFor
  by_cases hp : params = []
  · simp only [hp, if_true, userCall_eq]
  · simp only [hp, if_false]
    cases C.sig f with
    | none => rfl
    | some ns =>
      simp only [Option.map_some, List.length_cons, List.length_nil]
      cases (ns.drop 1).mapM (Assoc.get params) <;> simp [userCall_eq]

theorem eval_func {sys : Sys S V Fn N} {i j : ℕ} {a b : S} (ha : sys.sites[i]? = some a)
    (hb : sys.sites[j]? = some b) (f : Fn) (args : List A) (params : List (N × A)) :
    sys.evalHop sym C i j (.func f ((C.sig f).map (List.drop 2))) args params =
      callWith C f [(sym.toFd2 a b).1, (sym.toFd2 a b).2] args params := by
  simp only [Sys.evalHop, ha, hb, callWith_two]
  rfl

/-- Evaluation of a hopping of a finalized system. -/
theorem ham_hop {sys : Sys S V Fn N} {i j : ℕ} {a b : S} (hij : i ≠ j) (ha : sys.sites[i]? = some a)
    (hb : sys.sites[j]? = some b) {st st' : Stored V Fn} {v : Val V Fn}
    (h1 : sys.hopAt (X := X) i j = .ok (hopEntry C st)) (h2 : sys.hopAt (X := X) j i = .ok (hopEntry C st'))
    (hv : combine hc st st' = some v) (args : List A) (params : List (N × A)) (hx : args = [] ∨ params = []) :
    sys.hamiltonian sym hc C i j args params = hopValue sym hc C v a b args params := by
  unfold Sys.hamiltonian
  rw [if_neg (by rintro ⟨p, q⟩; rcases hx with h | h <;> contradiction), if_neg hij, h1]
  cases st with
  | const w => simp only [combine, Option.some.injEq] at hv; subst hv; rfl
  | func f =>
    simp only [combine, Option.some.injEq] at hv; subst hv
    simp only [hopEntry, eval_func ha hb, hopValue]
  | other =>
    cases st' with
    | other => simp [combine] at hv
    | const w =>
      simp only [combine, Option.some.injEq] at hv; subst hv
      simp only [hopEntry, h2, Sys.evalHop, hopValue]
    | func f =>
      simp only [combine, Option.some.injEq] at hv; subst hv
      simp only [hopEntry, h2, eval_func hb ha, hopValue]
      cases callWith C f [(sym.toFd2 b a).1, (sym.toFd2 b a).2] args params <;> rfl

/-- Evaluation of a site of a finalized system. -/
theorem ham_site {sys : Sys S V Fn N} {i : ℕ} {a : S} {v : Val V Fn} (ha : sys.sites[i]? = some a)
    (h1 : sys.onsites[i]? = some (onEntry C v)) (args : List A) (params : List (N × A))
    (hx : args = [] ∨ params = []) :
    sys.hamiltonian sym hc C i i args params = siteValue sym C v a args params := by
  unfold Sys.hamiltonian
  rw [if_neg (by rintro ⟨p, q⟩; rcases hx with h | h <;> contradiction), if_pos rfl, h1]
  cases v with
  | const w => rfl
  | func f => simp only [onEntry, Sys.evalOnsite, ha, siteValue, callWith_one]; rfl
  | herm f => simp only [onEntry, Sys.evalOnsite, ha, siteValue, callWith_one]; rfl

theorem ham_missing {sys : Sys S V Fn N} {i j : ℕ} (hij : i ≠ j) {e : HErr X}
    (h1 : sys.hopAt i j = .error e) (args : List A) (params : List (N × A))
    (hx : args = [] ∨ params = []) :
    sys.hamiltonian sym hc C i j args params = .error e := by
  unfold Sys.hamiltonian
  rw [if_neg (by rintro ⟨p, q⟩; rcases hx with h | h <;> contradiction), if_neg hij, h1]

theorem ham_exclusive {sys : Sys S V Fn N} {i j : ℕ} (args : List A) (params : List (N × A))
    (hx : args ≠ [] ∧ params ≠ []) :
    sys.hamiltonian sym hc C i j args params = .error .exclusive := by
  unfold Sys.hamiltonian
  rw [if_pos hx]

theorem edgeVal_combine {H : HMap S V Fn} {a b : S} {st st' : Stored V Fn} (h1 : E H a b = some st)
    (h2 : E H (rev sym a b).1 (rev sym a b).2 = some st') : edgeVal hc sym H a b = combine hc st st' := by
  unfold edgeVal combine
  rw [h1]
  cases st with
  | const v => rfl
  | func f => rfl
  | other => simp only [h2]; cases st' <;> rfl

end

section
variable {S V Fn N A X : Type} [LinearOrder S] [DecidableEq N]
variable {hc : V → V} {C : Calls S V Fn N A X} {H : HMap S V Fn}

theorem siteAt_ok {sites : List S} {i : ℕ} {a : S} (h : sites[i]? = some a) : siteAt sites (i : ℤ) = .ok a := by
  simp [siteAt, h]

/-- What a finalized finite system consists of. -/
structure FinRep (C : Calls S V Fn N A X) (H : HMap S V Fn) (sys : Sys S V Fn N) : Prop where
  sites : sys.sites = pySorted (keys H)
  ids : sys.idBySite = idTable (pySorted (keys H))
  onsite : ∀ (i : ℕ) (a : S), sys.sites[i]? = some a → ∃ v, O H a = some v ∧ sys.onsites[i]? = some (onEntry C v)
  nn : sys.graph.numNodes = (pySorted (keys H)).length
  hop : ∀ (i j : ℕ) (a b : S), sys.sites[i]? = some a → sys.sites[j]? = some b → ∀ st, E H a b = some st →
    sys.hopAt (X := X) i j = .ok (hopEntry C st)
  noHop : ∀ (i j : ℕ) (a b : S), sys.sites[i]? = some a → sys.sites[j]? = some b → E H a b = none →
    sys.hopAt (X := X) i j = .error (.graph .edgeDoesNotExist)
  has : ∀ (i j : ℕ) (a b : S), sys.sites[i]? = some a → sys.sites[j]? = some b →
    sys.graph.hasEdge i j = .ok (E H a b).isSome
  out : ∀ (i : ℕ) (a : S), sys.sites[i]? = some a → ∃ js : List ℤ, sys.graph.outNeighbors i = .ok js ∧ js.Nodup ∧
    ∀ j : ℤ, j ∈ js ↔ ∃ (k : ℕ) (b : S), j = k ∧ sys.sites[k]? = some b ∧ (E H a b).isSome = true
  params : sys.parameters = collectParams (sys.onsites.map OnEntry.names ++ sys.hoppings.map HopEntry.names)
  onLen : sys.onsites.length = sys.sites.length
  hopsAll : ∀ e ∈ sys.hoppings, ∃ (i j : ℕ) (a b : S) (st : Stored V Fn), i ≠ j ∧ sys.sites[i]? = some a ∧ sys.sites[j]? = some b ∧
    E H a b = some st ∧ e = hopEntry C st

theorem noSym_toFd (s : S) : (noSymmetry S).toFd s = s := rfl
theorem noSym_toFd2 (a b : S) : (noSymmetry S).toFd2 a b = (a, b) := rfl

theorem finalizeFinite_rep (hw : WF (noSymmetry S) H) (hl : (noSymmetry S).Lawful) (junk : ℕ → ℤ) :
    ∃ sys, finalizeFinite C junk H = .ok sys ∧ FinRep C H sys := by
  have hnd : (pySorted (keys H)).Nodup := pySorted_nodup hw.keys
  have hid := @get_idTable _ _ _ hnd
  have hmem : ∀ a ∈ keys H, ∃ i : ℕ, (pySorted (keys H))[i]? = some a := fun a ha =>
    List.mem_iff_getElem?.mp (mem_pySorted.mpr ha)
  have hlook : ∀ a i, (pySorted (keys H))[i]? = some a → lookupId (idTable (pySorted (keys H))) a = .ok i := by
    intro a i h; simp [lookupId, (hid a i).mpr h]
  let idx : S → ℤ := fun s => (((Assoc.get (idTable (pySorted (keys H))) s).getD 0 : ℕ) : ℤ)
  have hidx : ∀ a (i : ℕ), (pySorted (keys H))[i]? = some a → idx a = i := by
    intro a i h; simp only [idx, (hid a i).mpr h, Option.getD_some]
  have hinj : ∀ a ∈ keys H, ∀ b ∈ keys H, idx a = idx b → a = b := by
    intro a ha b hb h
    obtain ⟨i, hi⟩ := hmem a ha
    obtain ⟨j, hj⟩ := hmem b hb
    rw [hidx a i hi, hidx b j hj] at h
    have : i = j := by exact_mod_cast h
    subst this
    rw [hi] at hj; exact Option.some.inj hj
  -- heads are sites, different from the tail
  have hheads : ∀ p ∈ H, ∀ b ∈ keys p.2.edges, p.1 ≠ b ∧ b ∈ keys H := by
    rintro ⟨a, row⟩ hp b hb
    have hg := get_of_mem hw.keys hp
    have he := (mem_edges_iff hg (b := b)).mp hb
    obtain ⟨st, he⟩ := Option.isSome_iff_exists.mp he
    obtain ⟨h1, st', h2, _⟩ := hw.pair a b st he
    exact ⟨h1, E_some_mem h2⟩
  have htail : ∀ p ∈ H, p.1 ∈ keys H := fun p hp => List.mem_map_of_mem (f := Prod.fst) hp
  -- the list of edges
  have hrows : mapE (fun p => rowEdges (idTable (pySorted (keys H))) p.1 (keys p.2.edges)) H =
      .ok (H.map fun p => (keys p.2.edges).map fun b => (idx p.1, idx b)) := by
    refine mapE_ok fun p hp => ?_
    have hfil : (keys p.2.edges).filter (fun h => decide (p.1 ≠ h)) = keys p.2.edges :=
      List.filter_eq_self.mpr fun b hb => by simpa using (hheads p hp b hb).1
    unfold rowEdges
    rw [hfil]
    refine mapE_ok fun b hb => ?_
    obtain ⟨i, hi⟩ := hmem p.1 (htail p hp)
    obtain ⟨j, hj⟩ := hmem b (hheads p hp b hb).2
    simp [hlook _ _ hi, hlook _ _ hj, hidx _ _ hi, hidx _ _ hj]
  generalize hesdef : (H.map fun p => (keys p.2.edges).map fun b => (idx p.1, idx b)).flatten = es
  have hes : ∀ q : ℤ × ℤ, q ∈ es ↔ ∃ (i j : ℕ) (a b : S), q = ((i : ℤ), (j : ℤ)) ∧
      (pySorted (keys H))[i]? = some a ∧ (pySorted (keys H))[j]? = some b ∧ (E H a b).isSome = true := by
    intro q
    rw [← hesdef, List.mem_flatten]
    constructor
    · rintro ⟨es, hes1, hq⟩
      obtain ⟨p, hp, rfl⟩ := List.mem_map.mp hes1
      obtain ⟨b, hb, rfl⟩ := List.mem_map.mp hq
      obtain ⟨i, hi⟩ := hmem p.1 (htail p hp)
      obtain ⟨j, hj⟩ := hmem b (hheads p hp b hb).2
      refine ⟨i, j, p.1, b, by rw [hidx _ _ hi, hidx _ _ hj], hi, hj, ?_⟩
      exact (mem_edges_iff (get_of_mem hw.keys (show (p.1, p.2) ∈ H from hp))).mp hb
    · rintro ⟨i, j, a, b, rfl, hi, hj, he⟩
      obtain ⟨st, hst⟩ := Option.isSome_iff_exists.mp he
      obtain ⟨row, hr⟩ := get_of_mem_keys (E_some_mem hst)
      have hp : (a, row) ∈ H := mem_of_get hr
      refine ⟨_, List.mem_map.mpr ⟨_, hp, rfl⟩, List.mem_map.mpr ⟨b, (mem_edges_iff hr).mpr he, ?_⟩⟩
      rw [hidx _ _ hi, hidx _ _ hj]
  have hpair : ∀ (i j : ℕ) (a b : S), (pySorted (keys H))[i]? = some a → (pySorted (keys H))[j]? = some b →
      (((i : ℤ), (j : ℤ)) ∈ es ↔ (E H a b).isSome = true) := by
    intro i j a b hi hj
    rw [hes]
    constructor
    · rintro ⟨i', j', a', b', hq, hi', hj', he⟩
      obtain ⟨h1, h2⟩ := Prod.mk.inj hq
      have : i = i' := by exact_mod_cast h1
      subst this
      have : j = j' := by exact_mod_cast h2
      subst this
      rw [hi] at hi'; rw [hj] at hj'
      cases hi'; cases hj'; exact he
    · intro he; exact ⟨i, j, a, b, rfl, hi, hj, he⟩
  have hesnd : es.Nodup := by
    rw [← hesdef, ← List.flatMap_def, List.nodup_flatMap]
    constructor
    · rintro ⟨a, row⟩ hp
      refine List.Nodup.map_on ?_ (hw.rows a row (get_of_mem hw.keys hp))
      intro x hx y hy hxy
      exact hinj x (hheads _ hp x hx).2 y (hheads _ hp y hy).2 (Prod.mk.inj hxy).2
    · have hk := hw.keys
      rw [keys, List.nodup_iff_pairwise_ne, List.pairwise_map] at hk
      refine List.Pairwise.imp_of_mem ?_ hk
      intro p q hp hq hne
      simp only [Function.onFun]
      intro x hx hy
      obtain ⟨b, _, rfl⟩ := List.mem_map.mp hx
      obtain ⟨b', _, he⟩ := List.mem_map.mp hy
      exact hne (hinj _ (htail p hp) _ (htail q hq) (Prod.mk.inj he).1.symm)
  have hbound : ∀ p ∈ es, 0 ≤ p.1 ∧ 0 ≤ p.2 ∧ p.1 < (pySorted (keys H)).length ∧ p.2 < (pySorted (keys H)).length := by
    intro q hq
    obtain ⟨i, j, a, b, rfl, hi, hj, _⟩ := (hes q).mp hq
    have := (List.getElem?_eq_some_iff.mp hi).1
    have := (List.getElem?_eq_some_iff.mp hj).1
    refine ⟨by simp, by simp, by simpa, by simpa⟩
  obtain ⟨c, l, hg, G⟩ := mkGraph_spec (S := S) junk _ _ hbound
  -- onsites
  have hon := mapE_exists (l := pySorted (keys H)) (f := onsiteAt C H) (fun s hs => by
        obtain ⟨row, hr⟩ := get_of_mem_keys (mem_pySorted.mp hs)
        exact ⟨_, by simp only [onsiteAt, hr]; rfl⟩)
  obtain ⟨onsites, hon⟩ := hon
  -- hoppings
  have hhop1 : ∀ (i j : ℕ) (a b : S) (st : Stored V Fn), (pySorted (keys H))[i]? = some a →
      (pySorted (keys H))[j]? = some b → E H a b = some st →
      hopOf C H (pySorted (keys H)) ((i : ℤ), (j : ℤ)) = .ok (hopEntry C st) := by
    intro i j a b st hi hj he
    simp only [hopOf, siteAt_ok hi, siteAt_ok hj, getEntry, getEdge_eq, he]
  have hhop := mapE_exists (l := l) (f := hopOf C H (pySorted (keys H))) (fun p hp => by
    obtain ⟨i, j, a, b, rfl, hi, hj, he⟩ := (hes p).mp (G.sub p hp)
    obtain ⟨st, hst⟩ := Option.isSome_iff_exists.mp he
    exact ⟨_, hhop1 i j a b st hi hj hst⟩)
  obtain ⟨hops, hhop⟩ := hhop
  refine ⟨_, by
    unfold finalizeFinite
    simp only [hrows, hesdef, hg, hon, graphList, G.list, hhop]
    rfl, ?_⟩
  obtain ⟨onlen, onget⟩ := mapE_get hon
  obtain ⟨hoplen, hopget⟩ := mapE_get hhop
  have hlt : ∀ {i : ℕ} {a : S}, (pySorted (keys H))[i]? = some a → i < (pySorted (keys H)).length := fun h =>
    (List.getElem?_eq_some_iff.mp h).1
  refine ⟨rfl, rfl, ?_, G.nn, ?_, ?_, ?_, ?_, rfl, onlen, ?_⟩
  · intro i a ha
    obtain ⟨e, h1, h2⟩ := onget i a ha
    obtain ⟨row, hr⟩ := get_of_mem_keys (mem_pySorted.mp (List.mem_of_getElem? ha))
    simp only [onsiteAt, hr] at h1
    cases h1
    exact ⟨row.onsite, by simp [O, hr], h2⟩
  · intro i j a b ha hb st he
    obtain ⟨id, h1, h2⟩ := G.first i j (hlt ha) (hlt hb) ((hpair i j a b ha hb).mpr (by rw [he]; rfl))
    obtain ⟨e, h3, h4⟩ := hopget id _ h2
    rw [hhop1 i j a b st ha hb he] at h3
    cases h3
    simp only [Sys.hopAt, h1, Int.toNat_natCast, h4]
  · intro i j a b ha hb he
    have := G.noEdge i j (hlt ha) (hlt hb) (by rw [hpair i j a b ha hb, he]; simp)
    simp only [Sys.hopAt, this]
  · intro i j a b ha hb
    rw [G.has i j (hlt ha) (hlt hb)]
    congr 1
    rw [Bool.eq_iff_iff, decide_eq_true_eq]
    exact hpair i j a b ha hb
  · intro i a ha
    refine ⟨_, G.out i (hlt ha), ?_, ?_⟩
    · refine List.Nodup.map_on ?_ (hesnd.filter _)
      intro x hx y hy hxy
      have h1 := (List.mem_filter.mp hx).2
      have h2 := (List.mem_filter.mp hy).2
      simp only [beq_iff_eq] at h1 h2
      exact Prod.ext (h1.trans h2.symm) hxy
    · intro j
      rw [List.mem_map]
      constructor
      · rintro ⟨q, hq, rfl⟩
        obtain ⟨hq1, hq2⟩ := List.mem_filter.mp hq
        obtain ⟨i', k, a', b, rfl, hi, hj, he⟩ := (hes q).mp hq1
        have : i' = i := by simpa using hq2
        subst this
        rw [show (pySorted (keys H))[i']? = some a from ha] at hi
        cases hi
        exact ⟨k, b, rfl, hj, he⟩
      · rintro ⟨k, b, rfl, hb, he⟩
        exact ⟨((i : ℤ), (k : ℤ)), List.mem_filter.mpr ⟨(hpair i k a b ha hb).mpr he, by simp⟩, rfl⟩
  · intro e he
    obtain ⟨p, hp, hpe⟩ := (mapE_mem hhop e).mp he
    obtain ⟨i, j, a, b, rfl, hi, hj, hE⟩ := (hes p).mp (G.sub p hp)
    obtain ⟨st, hst⟩ := Option.isSome_iff_exists.mp hE
    rw [hhop1 i j a b st hi hj hst] at hpe
    cases hpe
    refine ⟨i, j, a, b, st, ?_, hi, hj, hst, rfl⟩
    rintro rfl
    rw [hi] at hj; cases hj
    exact (hw.pair a a st hst).1 rfl

end
end Kwant.Final
