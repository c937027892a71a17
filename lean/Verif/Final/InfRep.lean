import Verif.Final.Infinite

/-! What a finalized infinite system consists of. -/
set_option linter.unusedSectionVars false

namespace Kwant.Final
open Kwant Kwant.Assoc Kwant.Builder Kwant.Graph

variable {S V Fn N A X : Type} [LinearOrder S] [DecidableEq N]
variable {hc : V → V} {C : Calls S V Fn N A X} {H : HMap S V Fn} {sym : Symmetry S ℤ}

/-- The hopping from site number `i` (which is `a`) to site number `j` (which is `b`) is represented: one of
the ends is in the cell, and the builder has it. -/
def InfEdge (sym : Symmetry S ℤ) (H : HMap S V Fn) (cell i j : ℕ) (a b : S) : Prop :=
  (i < cell ∨ j < cell) ∧ (E H (sym.toFd2 a b).1 (sym.toFd2 a b).2).isSome = true

structure InfRep (C : Calls S V Fn N A X) (sym : Symmetry S ℤ) (H : HMap S V Fn) (sys : Sys S V Fn N) (cell : ℕ) : Prop where
  sites : sys.sites = sitesOf sym H
  ids : sys.idBySite = idTable (sitesOf sym H)
  onsite : ∀ (i : ℕ) (a : S), i < cell → sys.sites[i]? = some a → ∃ v, O H a = some v ∧ sys.onsites[i]? = some (onEntry C v)
  onLen : sys.onsites.length = cell
  nn : sys.graph.numNodes = (sitesOf sym H).length
  hop : ∀ (i j : ℕ) (a b : S), sys.sites[i]? = some a → sys.sites[j]? = some b → InfEdge sym H cell i j a b →
    ∃ st, E H (sym.toFd2 a b).1 (sym.toFd2 a b).2 = some st ∧ sys.hopAt (X := X) i j = .ok (hopEntry C st)
  noHop : ∀ (i j : ℕ) (a b : S), sys.sites[i]? = some a → sys.sites[j]? = some b → ¬ InfEdge sym H cell i j a b →
    sys.hopAt (X := X) i j = .error (.graph .edgeDoesNotExist)
  has : ∀ (i j : ℕ) (a b : S), sys.sites[i]? = some a → sys.sites[j]? = some b →
    ∃ r, sys.graph.hasEdge i j = .ok r ∧ (r = true ↔ InfEdge sym H cell i j a b)
  out : ∀ (i : ℕ) (a : S), sys.sites[i]? = some a → ∃ js : List ℤ, sys.graph.outNeighbors i = .ok js ∧ js.Nodup ∧
    ∀ j : ℤ, j ∈ js ↔ ∃ (k : ℕ) (b : S), j = k ∧ sys.sites[k]? = some b ∧ InfEdge sym H cell i k a b

  params : sys.parameters = collectParams (sys.onsites.map OnEntry.names ++ sys.hoppings.map HopEntry.names)
  hopMem : ∀ e ∈ sys.hoppings, ∃ (i j : ℕ) (a b : S) (st : Stored V Fn), sys.sites[i]? = some a ∧ sys.sites[j]? = some b ∧
    InfEdge sym H cell i j a b ∧ E H (sym.toFd2 a b).1 (sym.toFd2 a b).2 = some st ∧ e = hopEntry C st

theorem E_toFd2_swap (hl : sym.Lawful) (hw : Builder.WF sym H) (a b : S) :
    (E H (sym.toFd2 a b).1 (sym.toFd2 a b).2).isSome = (E H (sym.toFd2 b a).1 (sym.toFd2 b a).2).isSome := by
  have one : ∀ a b, (E H (sym.toFd2 a b).1 (sym.toFd2 a b).2).isSome = true →
      (E H (sym.toFd2 b a).1 (sym.toFd2 b a).2).isSome = true := by
    intro a b h
    obtain ⟨st, hst⟩ := Option.isSome_iff_exists.mp h
    obtain ⟨_, st', h2, _⟩ := hw.pair _ _ st hst
    rw [rev_toFd2 hl] at h2
    rw [h2]; rfl
  rw [Bool.eq_iff_iff]
  exact ⟨one a b, one b a⟩

/-- No hopping reaches further than to the neighbouring cells. -/
def NearestOnly (sym : Symmetry S ℤ) (H : HMap S V Fn) : Prop :=
  ∀ a b, (E H a b).isSome = true → sym.which b = 0 ∨ sym.which b = -1 ∨ sym.which b = 1

/-- The edges added for the neighbour `b` of site number `i`. -/
def headEdges (table : List (S × ℕ)) (cell i : ℕ) (b : S) : List (ℤ × ℤ) :=
  match Assoc.get table b with
  | none => []
  | some h => if h ≥ cell then [((h : ℤ), (i : ℤ)), ((i : ℤ), (h : ℤ))] else [((i : ℤ), (h : ℤ))]

theorem cellHead_ok {table : List (S × ℕ)} {cell i : ℕ} {b : S} {l : List (ℤ × ℤ)}
    (h : cellHead sym table cell i b = .ok l) : l = headEdges table cell i b := by
  unfold cellHead at h
  unfold headEdges
  split at h
  · next hg =>
    rw [hg]
    split at h
    · cases h
    · cases h; rfl
  · next k hg =>
    rw [hg]
    simp only
    split at h <;> (cases h; simp [*])

/-- Edges of site number `p.2`, which is `p.1`. -/
def rowOf (H : HMap S V Fn) (table : List (S × ℕ)) (cell : ℕ) (p : S × ℕ) : List (ℤ × ℤ) :=
  match Assoc.get H p.1 with
  | none => []
  | some row => (keys row.edges).flatMap (headEdges table cell p.2)

theorem mem_headEdges {sites : List S} (hnd : sites.Nodup) {cell i : ℕ} {b : S} {q : ℤ × ℤ} (hi : i < cell) :
    q ∈ headEdges (idTable sites) cell i b ↔ ∃ j : ℕ, sites[j]? = some b ∧
      (q = ((i : ℤ), (j : ℤ)) ∨ (cell ≤ j ∧ q = ((j : ℤ), (i : ℤ)))) := by
  unfold headEdges
  cases hg : Assoc.get (idTable sites) b with
  | none =>
    simp only [List.not_mem_nil, false_iff]
    rintro ⟨j, hj, _⟩
    rw [(get_idTable hnd b j).mpr hj] at hg
    cases hg
  | some h =>
    have hh := (get_idTable hnd b h).mp hg
    have huniq : ∀ j, sites[j]? = some b → j = h := by
      intro j hj
      have := (get_idTable hnd b j).mpr hj
      rw [hg] at this; exact (Option.some.inj this).symm
    simp only
    split
    · next hge =>
      simp only [List.mem_cons, List.not_mem_nil, or_false]
      constructor
      · rintro (rfl | rfl)
        · exact ⟨h, hh, Or.inr ⟨hge, rfl⟩⟩
        · exact ⟨h, hh, Or.inl rfl⟩
      · rintro ⟨j, hj, h1 | ⟨_, h1⟩⟩
        · rw [huniq j hj] at h1; exact Or.inr h1
        · rw [huniq j hj] at h1; exact Or.inl h1
    · next hlt =>
      simp only [List.mem_cons, List.not_mem_nil, or_false]
      constructor
      · rintro rfl; exact ⟨h, hh, Or.inl rfl⟩
      · rintro ⟨j, hj, h1 | ⟨h2, h1⟩⟩
        · rw [huniq j hj] at h1; exact h1
        · rw [huniq j hj] at h2; omega

section
variable (hl : sym.Lawful) (hw : Builder.WF sym H)
include hl hw

theorem cellRow_ok (hn : NearestOnly sym H) {p : S × ℕ} (hp : p.1 ∈ keys H) :
    ∃ v, O H p.1 = some v ∧ cellRow C sym H (idTable (sitesOf sym H)) (cellSites sym H).length p =
      .ok (onEntry C v, rowOf H (idTable (sitesOf sym H)) (cellSites sym H).length p) := by
  obtain ⟨row, hr⟩ := get_of_mem_keys hp
  refine ⟨row.onsite, by simp [O, hr], ?_⟩
  have : mapE (cellHead sym (idTable (sitesOf sym H)) (cellSites sym H).length p.2) (keys row.edges) =
      .ok ((keys row.edges).map (headEdges (idTable (sitesOf sym H)) (cellSites sym H).length p.2)) := by
    refine mapE_ok fun b hb => ?_
    have hE := (mem_edges_iff hr).mp hb
    obtain ⟨c1, c2, c3, _⟩ := cellHead_spec hl hw (i := p.2) hE
    have hex : ∃ l, cellHead sym (idTable (sitesOf sym H)) (cellSites sym H).length p.2 b = .ok l := by
      rcases hn _ _ hE with h | h | h
      · obtain ⟨j, _, _, h3⟩ := c1 h; exact ⟨_, h3⟩
      · obtain ⟨j, _, _, h3⟩ := c2 h; exact ⟨_, h3⟩
      · exact ⟨_, c3 h⟩
    obtain ⟨l, hl'⟩ := hex
    rw [hl', cellHead_ok hl']
  simp only [cellRow, hr, cellEdges, this, rowOf, List.flatMap_def]

theorem cellRow_fail {a b : S} (hE : (E H a b).isSome = true) (h0 : sym.which b ≠ 0) (h1 : sym.which b ≠ -1)
    (h2 : sym.which b ≠ 1) (i : ℕ) :
    ∃ e, cellRow C sym H (idTable (sitesOf sym H)) (cellSites sym H).length (a, i) = .error e := by
  obtain ⟨st, hst⟩ := Option.isSome_iff_exists.mp hE
  obtain ⟨row, hr⟩ := get_of_mem_keys (E_some_mem hst)
  obtain ⟨_, _, _, c4⟩ := cellHead_spec hl hw (i := i) hE
  have c4 := c4 h0 h1 h2
  cases hm : mapE (cellHead sym (idTable (sitesOf sym H)) (cellSites sym H).length i) (keys row.edges) with
  | error e => exact ⟨e, by simp only [cellRow, hr, cellEdges, hm]⟩
  | ok l =>
    obtain ⟨k, hk⟩ := List.mem_iff_getElem?.mp ((mem_edges_iff hr).mpr hE)
    obtain ⟨l', hl', _⟩ := (mapE_get hm).2 k b hk
    rw [c4] at hl'; cases hl'

/-- The only exception of the loop over the cell is the `ValueError`. -/
theorem cellRow_error {p : S × ℕ} (hp : p.1 ∈ keys H) {e : FErr S}
    (h : cellRow C sym H (idTable (sitesOf sym H)) (cellSites sym H).length p = .error e) : e = .value := by
  obtain ⟨row, hr⟩ := get_of_mem_keys hp
  simp only [cellRow, hr, cellEdges] at h
  cases hm : mapE (cellHead sym (idTable (sitesOf sym H)) (cellSites sym H).length p.2) (keys row.edges) with
  | ok l => simp [hm] at h
  | error e' =>
    simp only [hm] at h
    cases h
    obtain ⟨b, _, hb⟩ := mapE_error hm
    unfold cellHead at hb
    split at hb
    · split at hb <;> cases hb; rfl
    · split at hb <;> cases hb

theorem rows_edges {rows : List (OnEntry V Fn N × List (ℤ × ℤ))} {l : List (S × ℕ)} (hn : NearestOnly sym H)
    (hk : ∀ p ∈ l, p.1 ∈ keys H)
    (h : mapE (cellRow C sym H (idTable (sitesOf sym H)) (cellSites sym H).length) l = .ok rows) :
    rows.map Prod.snd = l.map (rowOf H (idTable (sitesOf sym H)) (cellSites sym H).length) := by
  obtain ⟨hlen, hget⟩ := mapE_get h
  refine List.ext_getElem? fun i => ?_
  rw [List.getElem?_map, List.getElem?_map]
  cases hi : l[i]? with
  | none =>
    have : rows[i]? = none := by
      rw [List.getElem?_eq_none_iff] at hi ⊢; omega
    simp [this]
  | some p =>
    obtain ⟨r, h1, h2⟩ := hget i p hi
    obtain ⟨v, _, h3⟩ := cellRow_ok (C := C) hl hw hn (hk p (List.mem_of_getElem? hi))
    rw [h3] at h1
    cases h1
    simp [h2]

/-- The edges of the graph. -/
theorem edges_mem (q : ℤ × ℤ) :
    q ∈ ((cellSites sym H).zipIdx.map (rowOf H (idTable (sitesOf sym H)) (cellSites sym H).length)).flatten ↔
      ∃ (i j : ℕ) (a b : S), q = ((i : ℤ), (j : ℤ)) ∧ (sitesOf sym H)[i]? = some a ∧ (sitesOf sym H)[j]? = some b ∧
        InfEdge sym H (cellSites sym H).length i j a b := by
  have hnd := sites_nodup hl hw
  have hcell : ∀ (i : ℕ) (a : S), (a, i) ∈ (cellSites sym H).zipIdx ↔
      i < (cellSites sym H).length ∧ (sitesOf sym H)[i]? = some a := by
    intro i a
    rw [List.mem_zipIdx_iff_getElem?]
    constructor
    · intro h
      have hlt := (List.getElem?_eq_some_iff.mp h).1
      refine ⟨hlt, ?_⟩
      unfold sitesOf
      rw [List.getElem?_append_left hlt]; exact h
    · rintro ⟨hlt, h⟩
      unfold sitesOf at h
      rwa [List.getElem?_append_left hlt] at h
  have hfd : ∀ {i : ℕ} {a : S} (b : S), i < (cellSites sym H).length → (sitesOf sym H)[i]? = some a →
      sym.toFd2 a b = (a, b) := fun b hi ha => toFd2_of_fd hl (hw.fd _ (sites_lt hl hw ha hi)) b
  have key : ∀ (i j : ℕ) (a b : S), i < (cellSites sym H).length → (sitesOf sym H)[i]? = some a →
      (sitesOf sym H)[j]? = some b → (E H a b).isSome = true → ∀ q, (q = ((i : ℤ), (j : ℤ)) ∨
        ((cellSites sym H).length ≤ j ∧ q = ((j : ℤ), (i : ℤ)))) →
      q ∈ ((cellSites sym H).zipIdx.map (rowOf H (idTable (sitesOf sym H)) (cellSites sym H).length)).flatten := by
    intro i j a b hi ha hb hE q hq
    obtain ⟨st, hst⟩ := Option.isSome_iff_exists.mp hE
    obtain ⟨row, hr⟩ := get_of_mem_keys (E_some_mem hst)
    refine List.mem_flatten.mpr ⟨_, List.mem_map.mpr ⟨(a, i), (hcell i a).mpr ⟨hi, ha⟩, rfl⟩, ?_⟩
    simp only [rowOf, hr]
    exact List.mem_flatMap.mpr ⟨b, (mem_edges_iff hr).mpr hE, (mem_headEdges hnd hi).mpr ⟨j, hb, hq⟩⟩
  constructor
  · intro hq
    obtain ⟨l, hl1, hq1⟩ := List.mem_flatten.mp hq
    obtain ⟨⟨a, i⟩, hp, rfl⟩ := List.mem_map.mp hl1
    obtain ⟨hi, ha⟩ := (hcell i a).mp hp
    obtain ⟨row, hr⟩ := get_of_mem_keys (sites_lt hl hw ha hi)
    simp only [rowOf, hr] at hq1
    obtain ⟨b, hb, hq2⟩ := List.mem_flatMap.mp hq1
    have hE := (mem_edges_iff hr).mp hb
    obtain ⟨j, hj, rfl | ⟨_, rfl⟩⟩ := (mem_headEdges hnd hi).mp hq2
    · exact ⟨i, j, a, b, rfl, ha, hj, Or.inl hi, by rw [hfd b hi ha]; exact hE⟩
    · refine ⟨j, i, b, a, rfl, hj, ha, Or.inr hi, ?_⟩
      rw [E_toFd2_swap hl hw, hfd b hi ha]; exact hE
  · rintro ⟨i, j, a, b, rfl, ha, hb, hor, hE⟩
    by_cases hi : i < (cellSites sym H).length
    · rw [hfd b hi ha] at hE
      exact key i j a b hi ha hb hE _ (Or.inl rfl)
    · have hj : j < (cellSites sym H).length := by rcases hor with h | h; exacts [absurd h hi, h]
      rw [E_toFd2_swap hl hw, hfd a hj hb] at hE
      exact key j i b a hj hb ha hE _ (Or.inr ⟨by omega, rfl⟩)

theorem edges_nodup :
    ((cellSites sym H).zipIdx.map (rowOf H (idTable (sitesOf sym H)) (cellSites sym H).length)).flatten.Nodup := by
  have hnd := sites_nodup hl hw
  have hcell : ∀ p ∈ (cellSites sym H).zipIdx, p.2 < (cellSites sym H).length := by
    intro p hp
    exact (List.getElem?_eq_some_iff.mp (List.mem_zipIdx_iff_getElem?.mp hp)).1
  have hrow : ∀ p ∈ (cellSites sym H).zipIdx, ∀ q ∈ rowOf H (idTable (sitesOf sym H)) (cellSites sym H).length p,
      ∃ j : ℕ, q = ((p.2 : ℤ), (j : ℤ)) ∨ ((cellSites sym H).length ≤ j ∧ q = ((j : ℤ), (p.2 : ℤ))) := by
    intro p hp q hq
    unfold rowOf at hq
    split at hq
    · cases hq
    · obtain ⟨b, _, hb⟩ := List.mem_flatMap.mp hq
      obtain ⟨j, _, hj⟩ := (mem_headEdges hnd (hcell p hp)).mp hb
      exact ⟨j, hj⟩
  rw [← List.flatMap_def, List.nodup_flatMap]
  constructor
  · intro p hp
    unfold rowOf
    split
    · exact List.nodup_nil
    · next row hr =>
      rw [List.nodup_flatMap]
      constructor
      · intro b hb
        unfold headEdges
        split
        · exact List.nodup_nil
        · split
          · next h hg hge =>
            have := hcell p hp
            simp only [List.nodup_cons, List.mem_cons, List.not_mem_nil, or_false, not_false_eq_true, List.nodup_nil, and_true]
            intro he
            have := (Prod.mk.inj he).1
            omega
          · exact List.nodup_singleton _
      · refine List.Pairwise.imp ?_ (List.nodup_iff_pairwise_ne.mp (hw.rows _ row hr))
        intro b b' hne
        simp only [Function.onFun]
        intro q hq hq'
        obtain ⟨j, hj, h1⟩ := (mem_headEdges hnd (hcell p hp)).mp hq
        obtain ⟨j', hj', h2⟩ := (mem_headEdges hnd (hcell p hp)).mp hq'
        have hlt := hcell p hp
        have hjj : j ≠ j' := by
          rintro rfl
          rw [hj] at hj'; exact hne (Option.some.inj hj')
        rcases h1 with rfl | ⟨g1, rfl⟩ <;> rcases h2 with h2 | ⟨g2, h2⟩ <;>
          (obtain ⟨e1, e2⟩ := Prod.mk.inj h2; omega)
  · have hz : ((cellSites sym H).zipIdx).Pairwise fun p q => p.2 ≠ q.2 := by
      have := List.nodup_range' (s := 0) (n := (cellSites sym H).length) (step := 1) (by omega)
      rw [← List.zipIdx_map_snd, List.nodup_iff_pairwise_ne, List.pairwise_map] at this
      exact this
    refine List.Pairwise.imp_of_mem ?_ hz
    intro p p' hp hp' hne
    simp only [Function.onFun]
    intro q hq hq'
    obtain ⟨j, h1⟩ := hrow p hp q hq
    obtain ⟨j', h2⟩ := hrow p' hp' q hq'
    have := hcell p hp
    have := hcell p' hp'
    rcases h1 with rfl | ⟨g1, rfl⟩ <;> rcases h2 with h2 | ⟨g2, h2⟩ <;>
      (obtain ⟨e1, e2⟩ := Prod.mk.inj h2; omega)

theorem finalizeInfinite_rep (ho : OrdInv sym) (junk : ℕ → ℤ) (order : Option (List S))
    (hg : GoodOrder sym (sitesWith sym H) order) (hn : NearestOnly sym H) :
    ∃ sys, finalizeInfinite C sym junk H order = .ok (sys, (cellSites sym H).length) ∧
      InfRep C sym H sys (cellSites sym H).length := by
  have hnd := sites_nodup hl hw
  obtain ⟨r, hr⟩ : ∃ r, interfaceOf sym (sitesWith sym H) order = .ok r := by
    cases hi : interfaceOf sym (sitesWith sym H) order with
    | ok r => exact ⟨r, rfl⟩
    | error e => exact absurd hg ((interfaceOf_spec hl _ _).2 e hi).2
  obtain ⟨withs, iface⟩ := r
  have hsites := interface_eq hl ho hr
  simp only at hsites
  have htake : (sitesOf sym H).take (cellSites sym H).length = cellSites sym H := by
    unfold sitesOf; simp
  have hkeys : ∀ p ∈ (cellSites sym H).zipIdx, p.1 ∈ keys H := by
    intro p hp
    have h1 := List.mem_zipIdx_iff_getElem?.mp hp
    exact (cellSites_perm sym H).mem_iff.mp (List.mem_of_getElem? h1)
  obtain ⟨rows, hrows⟩ := mapE_exists (l := (cellSites sym H).zipIdx)
    (f := cellRow C sym H (idTable (sitesOf sym H)) (cellSites sym H).length) (fun p hp => by
      obtain ⟨v, _, h⟩ := cellRow_ok (C := C) hl hw hn (hkeys p hp); exact ⟨_, h⟩)
  have hsnd := rows_edges hl hw hn hkeys hrows
  have hes := edges_mem hl hw
  have hesnd := edges_nodup hl hw
  generalize hesdef : ((cellSites sym H).zipIdx.map (rowOf H (idTable (sitesOf sym H)) (cellSites sym H).length)).flatten = es at *
  have hpair : ∀ (i j : ℕ) (a b : S), (sitesOf sym H)[i]? = some a → (sitesOf sym H)[j]? = some b →
      (((i : ℤ), (j : ℤ)) ∈ es ↔ InfEdge sym H (cellSites sym H).length i j a b) := by
    intro i j a b hi hj
    rw [hes]
    constructor
    · rintro ⟨i', j', a', b', hq, hi', hj', he⟩
      obtain ⟨h1, h2⟩ := Prod.mk.inj hq
      have : i = i' := by exact_mod_cast h1
      subst this
      have : j = j' := by exact_mod_cast h2
      subst this
      rw [hi] at hi'; rw [hj] at hj'
      cases hi'; cases hj'; exact he
    · intro he; exact ⟨i, j, a, b, rfl, hi, hj, he⟩
  have hbound : ∀ p ∈ es, 0 ≤ p.1 ∧ 0 ≤ p.2 ∧ p.1 < (sitesOf sym H).length ∧ p.2 < (sitesOf sym H).length := by
    intro q hq
    obtain ⟨i, j, a, b, rfl, hi, hj, _⟩ := (hes q).mp hq
    have := (List.getElem?_eq_some_iff.mp hi).1
    have := (List.getElem?_eq_some_iff.mp hj).1
    refine ⟨by simp, by simp, by simpa, by simpa⟩
  obtain ⟨c, l, hgr, G⟩ := mkGraph_spec (S := S) junk _ _ hbound
  have hhop1 : ∀ (i j : ℕ) (a b : S) (st : Stored V Fn), (sitesOf sym H)[i]? = some a →
      (sitesOf sym H)[j]? = some b → E H (sym.toFd2 a b).1 (sym.toFd2 a b).2 = some st →
      infHopOf C sym H (sitesOf sym H) (cellSites sym H).length ((i : ℤ), (j : ℤ)) = .ok (hopEntry C st) := by
    intro i j a b st hi hj he
    simp only [infHopOf, siteAt_ok hi, siteAt_ok hj, getEntry, getEdge_eq, he]
    split
    · rfl
    · next hlt =>
      have : sym.toFd2 a b = (a, b) := toFd2_of_fd hl (hw.fd _ (sites_lt hl hw hi (by omega))) b
      rw [this] at he
      rw [he]
  have hhop := mapE_exists (l := l) (f := infHopOf C sym H (sitesOf sym H) (cellSites sym H).length) (fun p hp => by
    obtain ⟨i, j, a, b, rfl, hi, hj, he⟩ := (hes p).mp (G.sub p hp)
    obtain ⟨st, hst⟩ := Option.isSome_iff_exists.mp he.2
    exact ⟨_, hhop1 i j a b st hi hj hst⟩)
  obtain ⟨hops, hhop⟩ := hhop
  refine ⟨_, by
    unfold finalizeInfinite
    simp only [hr, cell_length, hsites, htake, hrows, hsnd, hesdef, hgr, graphList, G.list, hhop]
    rfl, ?_⟩
  obtain ⟨rowlen, rowget⟩ := mapE_get hrows
  obtain ⟨hoplen, hopget⟩ := mapE_get hhop
  have hlt : ∀ {i : ℕ} {a : S}, (sitesOf sym H)[i]? = some a → i < (sitesOf sym H).length := fun h =>
    (List.getElem?_eq_some_iff.mp h).1
  refine ⟨rfl, rfl, ?_, by simpa using rowlen, G.nn, ?_, ?_, ?_, ?_, rfl, ?_⟩
  · intro i a hi ha
    have hz : (cellSites sym H).zipIdx[i]? = some (a, i) := by
      have : (cellSites sym H)[i]? = some a := by
        have ha' : (sitesOf sym H)[i]? = some a := ha
        unfold sitesOf at ha'
        rwa [List.getElem?_append_left hi] at ha'
      simp [List.getElem?_zipIdx, this]
    obtain ⟨e, h1, h2⟩ := rowget i _ hz
    obtain ⟨v, hv, h3⟩ := cellRow_ok (C := C) hl hw hn (hkeys _ (List.mem_of_getElem? hz))
    rw [h3] at h1
    cases h1
    exact ⟨v, hv, by simp [List.getElem?_map, h2]⟩
  · intro i j a b ha hb he
    obtain ⟨st, hst⟩ := Option.isSome_iff_exists.mp he.2
    refine ⟨st, hst, ?_⟩
    obtain ⟨id, h1, h2⟩ := G.first i j (hlt ha) (hlt hb) ((hpair i j a b ha hb).mpr he)
    obtain ⟨e, h3, h4⟩ := hopget id _ h2
    rw [hhop1 i j a b st ha hb hst] at h3
    cases h3
    simp only [Sys.hopAt, h1, Int.toNat_natCast, h4]
  · intro i j a b ha hb he
    have := G.noEdge i j (hlt ha) (hlt hb) (by rw [hpair i j a b ha hb]; exact he)
    simp only [Sys.hopAt, this]
  · intro i j a b ha hb
    refine ⟨_, G.has i j (hlt ha) (hlt hb), ?_⟩
    rw [decide_eq_true_eq]
    exact hpair i j a b ha hb
  · intro i a ha
    refine ⟨_, G.out i (hlt ha), ?_, ?_⟩
    · refine List.Nodup.map_on ?_ (hesnd.filter _)
      intro x hx y hy hxy
      have h1 := (List.mem_filter.mp hx).2
      have h2 := (List.mem_filter.mp hy).2
      simp only [beq_iff_eq] at h1 h2
      exact Prod.ext (h1.trans h2.symm) hxy
    · intro j
      rw [List.mem_map]
      constructor
      · rintro ⟨q, hq, rfl⟩
        obtain ⟨hq1, hq2⟩ := List.mem_filter.mp hq
        obtain ⟨i', k, a', b, rfl, hi, hj, he⟩ := (hes q).mp hq1
        have : i' = i := by simpa using hq2
        subst this
        rw [show (sitesOf sym H)[i']? = some a from ha] at hi
        cases hi
        exact ⟨k, b, rfl, hj, he⟩
      · rintro ⟨k, b, rfl, hb, he⟩
        exact ⟨((i : ℤ), (k : ℤ)), List.mem_filter.mpr ⟨(hpair i k a b ha hb).mpr he, by simp⟩, rfl⟩
  · intro e he
    obtain ⟨p, hp, hpe⟩ := (mapE_mem hhop e).mp he
    obtain ⟨i, j, a, b, rfl, hi, hj, hE⟩ := (hes p).mp (G.sub p hp)
    obtain ⟨st, hst⟩ := Option.isSome_iff_exists.mp hE.2
    rw [hhop1 i j a b st hi hj hst] at hpe
    cases hpe
    exact ⟨i, j, a, b, st, hi, hj, hE, hst, rfl⟩

/-- The failures. -/
theorem finalizeInfinite_fail (ho : OrdInv sym) (junk : ℕ → ℤ) (order : Option (List S))
    (h : ¬ (GoodOrder sym (sitesWith sym H) order ∧ NearestOnly sym H)) :
    finalizeInfinite C sym junk H order = .error .value := by
  unfold finalizeInfinite
  cases hi : interfaceOf sym (sitesWith sym H) order with
  | error e =>
    have := ((interfaceOf_spec hl _ _).2 e hi).1
    simp only [this]
  | ok r =>
    obtain ⟨withs, iface⟩ := r
    have hsites := interface_eq hl ho hi
    simp only at hsites
    have htake : (sitesOf sym H).take (cellSites sym H).length = cellSites sym H := by
      unfold sitesOf; simp
    have hgood := ((interfaceOf_spec hl _ _).1 _ hi).1
    have hn : ¬ NearestOnly sym H := fun hn => h ⟨hgood, hn⟩
    unfold NearestOnly at hn
    push Not at hn
    obtain ⟨a, b, hE, h0, h1, h2⟩ := hn
    obtain ⟨st, hst⟩ := Option.isSome_iff_exists.mp hE
    obtain ⟨i, hi', ha⟩ := exists_lt (sym := sym) hl hw (E_some_mem hst)
    have hz : (a, i) ∈ (cellSites sym H).zipIdx := by
      rw [List.mem_zipIdx_iff_getElem?]
      unfold sitesOf at ha
      rwa [List.getElem?_append_left hi'] at ha
    have hkeys : ∀ p ∈ (cellSites sym H).zipIdx, p.1 ∈ keys H := by
      intro p hp
      have h1 := List.mem_zipIdx_iff_getElem?.mp hp
      exact (cellSites_perm sym H).mem_iff.mp (List.mem_of_getElem? h1)
    simp only [cell_length, hsites, htake]
    cases hm : mapE (cellRow C sym H (idTable (sitesOf sym H)) (cellSites sym H).length) (cellSites sym H).zipIdx with
    | error e =>
      obtain ⟨p, hp, hpe⟩ := mapE_error hm
      simp only [cellRow_error hl hw (hkeys p hp) hpe]
    | ok rows =>
      obtain ⟨k, hk⟩ := List.mem_iff_getElem?.mp hz
      obtain ⟨_, h3, _⟩ := (mapE_get hm).2 k _ hk
      obtain ⟨e, h4⟩ := cellRow_fail (C := C) hl hw hE h0 h1 h2 i
      rw [h4] at h3; cases h3
end

end Kwant.Final
