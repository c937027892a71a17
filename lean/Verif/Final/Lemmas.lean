import Mathlib.Data.List.Nodup
import Verif.Graph.Props
import Verif.Builder.Props
import Verif.Final.Model

/-! Helper lemmas for the finalization of builders. -/
set_option linter.unusedSectionVars false

namespace Kwant.Final
open Kwant Kwant.Assoc Kwant.Builder Kwant.Graph

/-! ### Loops -/
section
variable {α β ε : Type}

theorem mapE_ok {f : α → Except ε β} {g : α → β} {l : List α} (h : ∀ a ∈ l, f a = .ok (g a)) :
    mapE f l = .ok (l.map g) := by
  induction l with
  | nil => rfl
  | cons a l ih =>
    simp only [mapE, h a (by simp), ih fun x hx => h x (by simp [hx]), List.map_cons]

theorem mapE_exists {f : α → Except ε β} {l : List α} (h : ∀ a ∈ l, ∃ b, f a = .ok b) :
    ∃ r, mapE f l = .ok r := by
  induction l with
  | nil => exact ⟨[], rfl⟩
  | cons a l ih =>
    obtain ⟨b, hb⟩ := h a (by simp)
    obtain ⟨r, hr⟩ := ih fun x hx => h x (by simp [hx])
    exact ⟨b :: r, by simp only [mapE, hb, hr]⟩

theorem mapE_get {f : α → Except ε β} {l : List α} {r : List β} (h : mapE f l = .ok r) :
    r.length = l.length ∧ ∀ (i : ℕ) (a : α), l[i]? = some a → ∃ b, f a = .ok b ∧ r[i]? = some b := by
  induction l generalizing r with
  | nil => simp only [mapE] at h; cases h; simp
  | cons a l ih =>
    simp only [mapE] at h
    cases ha : f a with
    | error e => simp [ha] at h
    | ok b =>
      cases hl : mapE f l with
      | error e => simp [ha, hl] at h
      | ok bs =>
        simp only [ha, hl] at h
        cases h
        obtain ⟨h1, h2⟩ := ih hl
        refine ⟨by simp [h1], fun i x hx => ?_⟩
        cases i with
        | zero => simp only [List.getElem?_cons_zero, Option.some.injEq] at hx; subst hx; exact ⟨b, ha, by simp⟩
        | succ i => simpa using h2 i x (by simpa using hx)

theorem mapE_error {f : α → Except ε β} {l : List α} {e : ε} (h : mapE f l = .error e) :
    ∃ a ∈ l, f a = .error e := by
  induction l with
  | nil => simp [mapE] at h
  | cons a l ih =>
    simp only [mapE] at h
    cases ha : f a with
    | error e' => simp only [ha] at h; cases h; exact ⟨a, by simp, ha⟩
    | ok b =>
      cases hl : mapE f l with
      | error e' =>
        simp only [ha, hl] at h
        cases h
        obtain ⟨x, hx, h2⟩ := ih hl
        exact ⟨x, by simp [hx], h2⟩
      | ok bs => simp [ha, hl] at h

theorem mapE_mem {f : α → Except ε β} {l : List α} {r : List β} (h : mapE f l = .ok r) (b : β) :
    b ∈ r ↔ ∃ a ∈ l, f a = .ok b := by
  obtain ⟨h1, h2⟩ := mapE_get h
  constructor
  · intro hb
    obtain ⟨i, hi⟩ := List.mem_iff_getElem?.mp hb
    have : i < l.length := by rw [← h1]; exact (List.getElem?_eq_some_iff.mp hi).1
    obtain ⟨b', h3, h4⟩ := h2 i l[i] (List.getElem?_eq_getElem this)
    rw [hi] at h4; cases h4
    exact ⟨l[i], List.getElem_mem _, h3⟩
  · rintro ⟨a, ha, hf⟩
    obtain ⟨i, hi⟩ := List.mem_iff_getElem?.mp ha
    obtain ⟨b', h3, h4⟩ := h2 i a hi
    rw [hf] at h3; cases h3
    exact List.mem_iff_getElem?.mpr ⟨i, h4⟩
end

/-! ### Sorting, numbering -/
section
variable {S : Type} [LinearOrder S]

theorem pySorted_perm (l : List S) : (pySorted l).Perm l := List.mergeSort_perm _ _

theorem mem_pySorted {l : List S} {s : S} : s ∈ pySorted l ↔ s ∈ l := (pySorted_perm l).mem_iff

theorem pySorted_le (l : List S) : (pySorted l).Pairwise (· ≤ ·) := by
  have := List.pairwise_mergeSort (le := fun a b : S => decide (a ≤ b))
    (fun a b c h1 h2 => by simp at *; exact h1.trans h2) (fun a b => by simp; exact le_total a b) l
  simpa [pySorted] using this

theorem pySorted_lt {l : List S} (h : l.Nodup) : (pySorted l).Pairwise (· < ·) := by
  have hn : (pySorted l).Nodup := (pySorted_perm l).nodup_iff.mpr h
  exact ((pySorted_le l).and hn).imp fun h => lt_of_le_of_ne h.1 h.2

theorem pySorted_nodup {l : List S} (h : l.Nodup) : (pySorted l).Nodup := (pySorted_perm l).nodup_iff.mpr h

theorem pySorted_length (l : List S) : (pySorted l).length = l.length := (pySorted_perm l).length_eq

/-- A sorted list is unchanged by sorting. -/
theorem pySorted_of_sorted {l : List S} (h : l.Pairwise (· ≤ ·)) : pySorted l = l :=
  (pySorted_perm l).eq_of_pairwise (fun _ _ _ _ h1 h2 => le_antisymm h1 h2) (pySorted_le l) h
end

section
variable {S : Type} [DecidableEq S]

theorem idTable_aux (sites : List S) (hn : sites.Nodup) (k : ℕ) (t : List (S × ℕ)) (s : S)
    (ht : ∀ s ∈ sites, Assoc.get t s = none) (hk : (keys t).Nodup) :
    (keys ((sites.zipIdx k).foldl (fun t p => put t p.1 p.2) t)).Nodup ∧
    ∀ i, Assoc.get ((sites.zipIdx k).foldl (fun t p => put t p.1 p.2) t) s = some i ↔
      (∃ j, i = k + j ∧ sites[j]? = some s) ∨ Assoc.get t s = some i := by
  induction sites generalizing k t with
  | nil => simpa using hk
  | cons a l ih =>
    rw [List.nodup_cons] at hn
    simp only [List.zipIdx_cons, List.foldl_cons]
    have hput : ∀ x, Assoc.get (put t a k) x = if a = x then some k else Assoc.get t x := fun x => by
      rw [get_put]
    obtain ⟨h1, h2⟩ := ih hn.2 (k + 1) (put t a k) (fun x hx => by
      rw [hput, if_neg (by rintro rfl; exact hn.1 hx)]; exact ht x (by simp [hx])) (nodup_put hk)
    refine ⟨h1, fun i => (h2 i).trans ?_⟩
    rw [hput]
    constructor
    · rintro (⟨j, rfl, hj⟩ | h)
      · exact Or.inl ⟨j + 1, by omega, by simpa using hj⟩
      · by_cases has : a = s
        · subst has; simp only [if_true, Option.some.injEq] at h; subst h
          exact Or.inl ⟨0, by omega, by simp⟩
        · rw [if_neg has] at h; exact Or.inr h
    · rintro (⟨j, rfl, hj⟩ | h)
      · cases j with
        | zero => simp only [List.getElem?_cons_zero, Option.some.injEq] at hj; subst hj; right; simp
        | succ j => exact Or.inl ⟨j, by omega, by simpa using hj⟩
      · by_cases has : a = s
        · subst has; rw [ht a (by simp)] at h; exact absurd h (by simp)
        · right; rw [if_neg has]; exact h

theorem get_idTable {sites : List S} (hn : sites.Nodup) (s : S) (i : ℕ) :
    Assoc.get (idTable sites) s = some i ↔ sites[i]? = some s := by
  have := (idTable_aux sites hn 0 [] s (fun _ _ => rfl) (by simp)).2 i
  simp only [get_nil] at this
  unfold idTable
  rw [this]
  simp

theorem get_idTable_none {sites : List S} (hn : sites.Nodup) (s : S) :
    Assoc.get (idTable sites) s = none ↔ s ∉ sites := by
  constructor
  · intro h hs
    obtain ⟨i, hi⟩ := List.mem_iff_getElem?.mp hs
    rw [(get_idTable hn s i).mpr hi] at h
    exact absurd h (by simp)
  · intro h
    cases hg : Assoc.get (idTable sites) s with
    | none => rfl
    | some i => exact absurd (List.mem_iff_getElem?.mpr ⟨i, (get_idTable hn s i).mp hg⟩) h

end

/-! ### Graphs -/

/-- The operations performed on the graph. -/
def gops (n : ℕ) (es : List (ℤ × ℤ)) : List Op := Op.setNumNodes n :: es.map fun p => Op.addEdge p.1 p.2

theorem go_eq (g : Graph) (es : List (ℤ × ℤ)) (h : ∀ p ∈ es, 0 ≤ p.1 ∧ 0 ≤ p.2) :
    Graph.addEdges.go g es = ((es.map fun p => Op.addEdge p.1 p.2).foldl Graph.step g, .ok ()) := by
  induction es generalizing g with
  | nil => rfl
  | cons p es ih =>
    have hA : Acceptable g.allowNeg p.1 p.2 := Or.inl (h p (by simp))
    obtain ⟨h1, h2⟩ := (addEdge_spec g p.1 p.2).1 hA
    obtain ⟨t, hd⟩ := p
    simp only [Graph.addEdges.go, List.map_cons, List.foldl_cons]
    rw [← ih _ fun q hq => h q (by simp [hq])]
    rcases hr : g.addEdge t hd with ⟨g', r⟩
    rw [hr] at h1
    simp only at h1
    subst h1
    simp [Graph.step, hr]

theorem accepted_gops (n : ℕ) (es : List (ℤ × ℤ)) (h : ∀ p ∈ es, 0 ≤ p.1 ∧ 0 ≤ p.2) :
    accepted false (gops n es) = es.map fun p => ⟨p.1, p.2⟩ := by
  unfold gops
  simp only [accepted]
  induction es with
  | nil => rfl
  | cons p es ih =>
    have hA : Acceptable false p.1 p.2 := Or.inl (h p (by simp))
    simp only [List.map_cons, accepted, hA, if_true, ih fun q hq => h q (by simp [hq])]

theorem numNodes_gops (n : ℕ) (es : List (ℤ × ℤ)) (h : ∀ p ∈ es, 0 ≤ p.1 ∧ 0 ≤ p.2 ∧ p.1 < n ∧ p.2 < n) :
    (run false (gops n es)).numNodes = n := by
  unfold run gops
  simp only [List.foldl_cons]
  have h0 : ((Graph.new false).step (.setNumNodes n)).numNodes = n := by
    simp [Graph.step, Graph.setNumNodes, Graph.new, show ¬ ((n : ℤ) < 0) by omega]
  generalize (Graph.new false).step (.setNumNodes n) = g at h0 ⊢
  induction es generalizing g with
  | nil => exact h0
  | cons p es ih =>
    simp only [List.map_cons, List.foldl_cons]
    refine ih (fun q hq => h q (by simp [hq])) _ ?_
    obtain ⟨a1, a2, a3, a4⟩ := h p (by simp)
    have hA : Acceptable g.allowNeg p.1 p.2 := Or.inl ⟨a1, a2⟩
    simp only [Graph.step, ((addEdge_spec g p.1 p.2).1 hA).2.2.1]
    omega

/-- A compressed graph whose edges are `es`: enumeration, lookup and adjacency agree. -/
structure GraphOf (n : ℕ) (es : List (ℤ × ℤ)) (c : CGraph) (l : List (ℤ × ℤ)) : Prop where
  list : c.toList = .ok l
  nn : c.numNodes = n
  len : l.length = es.length
  sub : ∀ p ∈ l, p ∈ es
  first : ∀ i j : ℕ, i < n → j < n → ((i : ℤ), (j : ℤ)) ∈ es →
    ∃ id : ℕ, c.firstEdgeId i j = .ok (id : ℤ) ∧ l[id]? = some ((i : ℤ), (j : ℤ))
  noEdge : ∀ i j : ℕ, i < n → j < n → ((i : ℤ), (j : ℤ)) ∉ es →
    c.firstEdgeId i j = .error .edgeDoesNotExist
  range : ∀ i j : ℕ, n ≤ i ∨ n ≤ j → c.firstEdgeId i j = .error .nodeDoesNotExist
  has : ∀ i j : ℕ, i < n → j < n → c.hasEdge i j = .ok (decide (((i : ℤ), (j : ℤ)) ∈ es))
  out : ∀ i : ℕ, i < n → c.outNeighbors i = .ok ((es.filter fun p => p.1 == (i : ℤ)).map Prod.snd)

theorem mkGraph_spec {S : Type} (junk : ℕ → ℤ) (n : ℕ) (es : List (ℤ × ℤ))
    (h : ∀ p ∈ es, 0 ≤ p.1 ∧ 0 ≤ p.2 ∧ p.1 < n ∧ p.2 < n) :
    ∃ c l, mkGraph (S := S) junk n es = .ok c ∧ GraphOf n es c l := by
  have hpos : ∀ p ∈ es, 0 ≤ p.1 ∧ 0 ≤ p.2 := fun p hp => ⟨(h p hp).1, (h p hp).2.1⟩
  have hacc := accepted_gops n es hpos
  have hnn := numNodes_gops n es h
  have hposA : ∀ e ∈ accepted false (gops n es), 0 ≤ e.tail := by
    rw [hacc]; intro e he; obtain ⟨p, hp, rfl⟩ := List.mem_map.mp he; exact (hpos p hp).1
  have hcomp : Compressible (accepted false (gops n es)) false false := Or.inr (Or.inr hposA)
  have hinj : ∀ p : ℤ × ℤ, (⟨p.1, p.2⟩ : Edge) ∈ accepted false (gops n es) ↔ p ∈ es := by
    intro p
    rw [hacc, List.mem_map]
    constructor
    · rintro ⟨q, hq, he⟩
      have : q = p := by cases q; cases p; simp at he; simp [he]
      rw [← this]; exact hq
    · intro hp; exact ⟨p, hp, rfl⟩
  obtain ⟨c, l, hc, hl, hlen, hget⟩ := C04_toList false (gops n es) junk false false false hposA
  have q1 := (C07_compressed false (gops n es) junk false false false).1 hcomp
  have q2 := C03_surjective false (gops n es) junk false false false hcomp
  have q3 := C05_edgeIds false (gops n es) junk false false false hcomp
  have q4 := C05_hasEdge false (gops n es) junk false false false hcomp
  have q5 := C01_outNeighbors false (gops n es) junk false false false hcomp
  have un : ∀ {P : CGraph → Prop}, (∃ c', (run false (gops n es)).compressed junk false false false = .ok c' ∧ P c') → P c := by
    rintro P ⟨c', e, hp⟩
    rw [hc] at e; cases e; exact hp
  have q1 := un (P := fun c => _ ∧ _) q1
  have q2 := un (P := fun c => _ ∧ _) q2
  have q3 := un (P := fun c => ∀ t h : Int, _) q3
  have q4 := un (P := fun c => ∀ t h : Int, _) q4
  have q5 := un (P := fun c => ∀ t : Int, _) q5
  have hne : c.numEdges = es.length := by
    rw [q1.2, if_neg (by simp), List.filter_eq_self.mpr (by simpa using hposA), hacc, List.length_map]
  have hle : l.length = es.length := by rw [hlen, hacc, List.length_map]
  refine ⟨c, l, ?_, ⟨hl, by rw [q1.1, hnn], hle, ?_, ?_, ?_, ?_, ?_, ?_⟩⟩
  · unfold mkGraph
    have e0 : (Graph.new false).setNumNodes n = ((Graph.new false).step (.setNumNodes n), .ok ()) := by
      simp [Graph.step, Graph.setNumNodes, Graph.new, show ¬ ((n : ℤ) < 0) by omega]
    rw [e0]
    simp only [go_eq _ es hpos]
    have : (es.map fun p => Op.addEdge p.1 p.2).foldl Graph.step ((Graph.new false).step (.setNumNodes n)) =
        run false (gops n es) := rfl
    rw [this, hc]
  · intro p hp
    obtain ⟨id, hid⟩ := List.mem_iff_getElem?.mp hp
    have hlt : id < c.numEdges := by rw [hne, ← hle]; exact (List.getElem?_eq_some_iff.mp hid).1
    obtain ⟨nr, e, he, _, hs, _⟩ := q2.1 id hlt
    have := hget nr e he
    rw [hs, hid] at this
    cases this
    exact (hinj (e.tail, e.head)).mp (List.mem_of_getElem? he)
  · intro i j hi hj hmem
    have := (q3 i j (Or.inl (by omega))).2
    rw [hnn, if_neg (by omega), if_neg (by omega)] at this
    have hm : (⟨i, j⟩ : Edge) ∈ accepted false (gops n es) := (hinj ((i : ℤ), (j : ℤ))).mpr hmem
    have hne' : idsOf (accepted false (gops n es)) i j ≠ [] := by
      obtain ⟨nr, hnr⟩ := List.mem_iff_getElem?.mp hm
      have : nr ∈ numbersOf (fun e => decide (e = ⟨i, j⟩)) (accepted false (gops n es)) :=
        mem_numbersOf.mpr ⟨_, hnr, by simp⟩
      intro hnil
      unfold idsOf at hnil
      rw [List.map_eq_nil_iff] at hnil
      rw [hnil] at this; simp at this
    obtain ⟨id, rest, hids⟩ := List.exists_cons_of_ne_nil hne'
    rw [hids] at this
    simp only [List.head?_cons] at this
    have hid : id ∈ idsOf (accepted false (gops n es)) i j := by rw [hids]; simp
    unfold idsOf at hid
    obtain ⟨nr, hnr, rfl⟩ := List.mem_map.mp hid
    obtain ⟨e, he, hp⟩ := mem_numbersOf.mp hnr
    have := of_decide_eq_true hp
    subst this
    exact ⟨_, by assumption, hget nr _ he⟩
  · intro i j hi hj hmem
    have := (q3 i j (Or.inl (by omega))).2
    rw [hnn, if_neg (by omega), if_neg (by omega)] at this
    rw [this]
    have : idsOf (accepted false (gops n es)) i j = [] := by
      unfold idsOf
      rw [List.map_eq_nil_iff, List.eq_nil_iff_forall_not_mem]
      intro nr hnr
      obtain ⟨e, he, hp⟩ := mem_numbersOf.mp hnr
      have := of_decide_eq_true hp
      subst this
      exact hmem ((hinj ((i : ℤ), (j : ℤ))).mp (List.mem_of_getElem? he))
    rw [this]; rfl
  · intro i j hij
    have := (q3 i j (Or.inl (by omega))).2
    rw [hnn, if_pos (by omega)] at this
    exact this
  · intro i j hi hj
    have := q4 i j
    rw [hnn, if_neg (by omega), if_pos (by omega)] at this
    rw [this]
    congr 1
    rw [decide_eq_decide]
    exact hinj ((i : ℤ), (j : ℤ))
  · intro i hi
    have := q5 i
    rw [hnn, if_pos (by omega)] at this
    rw [this, hacc, List.filter_map, List.map_map]
    rfl

end Kwant.Final
