import Verif.Graph.Lemmas
import Verif.Graph.Spec

/-! Helper lemmas connecting the queries of a compressed graph with the specification. -/

namespace Kwant.Graph

theorem snoc_induction {α : Type} {motive : List α → Prop} (nil : motive [])
    (snoc : ∀ l x, motive l → motive (l ++ [x])) (l : List α) : motive l := by
  generalize hn : l.length = n
  induction n generalizing l with
  | zero => rw [List.length_eq_zero_iff.mp hn]; exact nil
  | succ n ih =>
    rcases List.eq_nil_or_concat l with rfl | ⟨l', x, rfl⟩
    · simp at hn
    · simp at hn; simpa using snoc l' x (ih _ hn)

theorem numbersOf_nil (p) : numbersOf p [] = [] := rfl

theorem numbersOf_snoc (p : Edge → Bool) (l : List Edge) (e : Edge) :
    numbersOf p (l ++ [e]) = numbersOf p l ++ (if p e then [l.length] else []) := by
  unfold numbersOf
  simp only [List.length_append, List.length_singleton, List.range_succ, List.filter_append]
  congr 1
  · apply List.filter_congr
    intro i hi
    simp at hi
    simp [List.getElem?_append_left hi]
  · simp [List.filter_cons]

theorem numbersOf_length (p l) : (numbersOf p l).length = (l.filter p).length := by
  induction l using snoc_induction with
  | nil => rfl
  | snoc l e ih =>
    rw [numbersOf_snoc, List.length_append, ih, List.filter_append, List.length_append]
    by_cases h : p e = true <;> simp [h]

theorem mem_numbersOf {p l i} : i ∈ numbersOf p l ↔ ∃ e, l[i]? = some e ∧ p e = true := by
  simp only [numbersOf, List.mem_filter, List.mem_range]
  constructor
  · rintro ⟨h1, h2⟩
    cases h : l[i]? with
    | none => simp [h] at h2
    | some e => exact ⟨e, rfl, by simpa [h] using h2⟩
  · rintro ⟨e, h1, h2⟩
    exact ⟨by have := List.getElem?_eq_some_iff.mp h1; exact this.1, by simp [h1, h2]⟩

/-- The `k`-th number. -/
theorem numbersOf_split (p : Edge → Bool) (l : List Edge) (k i : Nat) (h : (numbersOf p l)[k]? = some i) :
    ∃ a e b, l = a ++ e :: b ∧ p e = true ∧ a.length = i ∧ (a.filter p).length = k := by
  induction l using snoc_induction generalizing k i with
  | nil => simp [numbersOf_nil] at h
  | snoc l x ih =>
    rw [numbersOf_snoc] at h
    by_cases hk : k < (numbersOf p l).length
    · rw [List.getElem?_append_left hk] at h
      obtain ⟨a, e, b, h1, h2, h3, h4⟩ := ih k i h
      exact ⟨a, e, b ++ [x], by simp [h1], h2, h3, h4⟩
    · rw [List.getElem?_append_right (by omega)] at h
      by_cases hp : p x = true
      · simp only [hp, if_true, List.getElem?_singleton] at h
        split at h
        · next h0 =>
          refine ⟨l, x, [], by simp, hp, by simpa using h, ?_⟩
          rw [← numbersOf_length]; omega
        · simp at h
      · simp [hp] at h

theorem numbersOf_map (p : Edge → Bool) (l : List Edge) (g : Nat → Int) (f : Edge → Int)
    (h : ∀ a e b, l = a ++ e :: b → g a.length = f e) :
    (numbersOf p l).map g = (l.filter p).map f := by
  induction l using snoc_induction with
  | nil => rfl
  | snoc l x ih =>
    rw [numbersOf_snoc, List.map_append, List.filter_append, List.map_append,
      ih (fun a e b hl => h a e (b ++ [x]) (by simp [hl]))]
    congr 1
    by_cases hp : p x = true <;> simp [hp]
    exact h l x [] (by simp)

theorem split_getElem? {α : Type} {l a b : List α} {e : α} (h : l = a ++ e :: b) : l[a.length]? = some e := by
  subst h; simp
theorem split_take {α : Type} {l a b : List α} {e : α} (h : l = a ++ e :: b) : l.take a.length = a := by
  subst h; simp
theorem getElem?_split {α : Type} {l : List α} {i : Nat} {e : α} (h : l[i]? = some e) :
    l = l.take i ++ e :: l.drop (i+1) ∧ (l.take i).length = i := by
  obtain ⟨h1, h2⟩ := List.getElem?_eq_some_iff.mp h
  constructor
  · rw [← h2]; simp
  · simp; omega

/-! ### IDs -/

theorem Nat.beq_eq_decide_eq' (a b : Nat) : (a == b) = decide (a = b) := by
  by_cases h : a = b <;> simp [h]

theorem specId_eq {es : List Edge} {n : Nat} (hb : ∀ e ∈ es, e.tail < n) {a e b} (h : es = a ++ e :: b) :
    specId es a.length = slot (kT n) es a e := by
  have he : e ∈ es := by rw [h]; simp
  simp only [specId, split_getElem? h, slot, split_take h, start, cnt]
  congr 1
  · congr 1
    apply List.filter_congr
    intro x hx
    have h1 := hb x hx
    have h2 := hb e he
    unfold tailBefore
    rw [decide_eq_decide]
    unfold kT
    split <;> split <;> omega
  · congr 1
    apply List.filter_congr
    intro x hx
    have h1 := hb x (by rw [h]; simp [hx])
    have h2 := hb e he
    simp only [tailSame, kT, Nat.beq_eq_decide_eq', decide_eq_decide]
    split <;> split <;> omega

theorem slot_inj {key : Edge → Nat} {es a e b a' e' b'} (h : es = a ++ e :: b) (h' : es = a' ++ e' :: b')
    (hs : slot key es a e = slot key es a' e') : a.length = a'.length := by
  rcases Nat.lt_trichotomy a.length a'.length with hl | hl | hl
  · exfalso
    have : ∃ c, a' = a ++ e :: c := by
      have h1 := h.symm.trans h'
      rcases List.append_eq_append_iff.mp h1 with ⟨c, h2, h3⟩ | ⟨c, h2, h3⟩
      · cases c with
        | nil => simp at h2; subst h2; omega
        | cons x c => simp at h3; exact ⟨c, by rw [h2, h3.1]⟩
      · rw [h2] at hl; simp at hl; omega
    obtain ⟨c, hc⟩ := this
    exact slot_ne h' hc hs
  · exact hl
  · exfalso
    have : ∃ c, a = a' ++ e' :: c := by
      have h1 := h'.symm.trans h
      rcases List.append_eq_append_iff.mp h1 with ⟨c, h2, h3⟩ | ⟨c, h2, h3⟩
      · cases c with
        | nil => simp at h2; subst h2; omega
        | cons x c => simp at h3; exact ⟨c, by rw [h2, h3.1]⟩
      · rw [h2] at hl; simp at hl; omega
    obtain ⟨c, hc⟩ := this
    exact slot_ne h hc hs.symm

/-- Every position below `start k` is a slot of an edge with key below `k`. -/
theorem slot_surj (key : Edge → Nat) (es : List Edge) (k pos : Nat) (h : pos < start key es k) :
    ∃ a e b, es = a ++ e :: b ∧ slot key es a e = pos ∧ key e < k := by
  induction k with
  | zero => simp at h
  | succ k ih =>
    by_cases hlt : pos < start key es k
    · obtain ⟨a, e, b, h1, h2, h3⟩ := ih hlt; exact ⟨a, e, b, h1, h2, by omega⟩
    · rw [start_succ] at h
      obtain ⟨a, e, b, h1, h2, h3, _⟩ := filter_split (fun e => key e == k) es (pos - start key es k)
        (by unfold cnt at h; omega)
      have hk : key e = k := by simpa using h2
      exact ⟨a, e, b, h1, by simp only [slot, hk, cnt, h3]; omega, by omega⟩

/-! ### Reading buckets -/

theorem slice_bucket {key : Edge → Nat} {es : List Edge} {P val arr} (hf : Filled key es P val arr es)
    (k : Nat) (hP : ∀ e ∈ es, key e = k → P e) (g : Nat → Int)
    (hg : ∀ a e b, es = a ++ e :: b → key e = k → val a e = g a.length) :
    slice arr (start key es k : Int) (start key es (k+1) : Int) =
      .ok ((numbersOf (fun e => key e == k) es).map g) := by
  have hlen : ((start key es (k+1) : Int) - (start key es k : Int)).toNat =
      (numbersOf (fun e => key e == k) es).length := by
    rw [start_succ, numbersOf_length, cnt]; omega
  unfold slice
  rw [hlen]
  rw [mapM_ok (g := fun i => (((numbersOf (fun e => key e == k) es).map g)[i]?).getD 0)]
  · congr 1
    apply List.ext_getElem
    · simp
    · intro i h1 h2
      simp at h1 h2
      simp [h1]
  · intro i hi
    simp at hi
    obtain ⟨a, e, b, h1, h2, h3, h4⟩ := numbersOf_split (fun e => key e == k) es i _
      (List.getElem?_eq_getElem hi)
    have hk : key e = k := by simpa using h2
    have h5 := hf a e b h1 (hP e (by rw [h1]; simp) hk)
    have h6 : slot key es a e = start key es k + i := by simp only [slot, hk, cnt, h4]
    rw [h6] at h5
    have h7 := rd_ok h5
    rw [show ((start key es k + i : Nat) : Int) = (start key es k : Int) + (i : Int) by simp] at h7
    rw [h7, hg a e b h1 hk, h3]
    simp [hi]

theorem indexed_bucket {key : Edge → Nat} {es : List Edge} {P val arr} (hf : Filled key es P val arr es)
    (k : Nat) (hP : ∀ e ∈ es, key e = k → P e) (g : Nat → Int) (s : Nat → Int)
    (hg : ∀ a e b, es = a ++ e :: b → key e = k → val a e = g a.length)
    (hs : ∀ a e b, es = a ++ e :: b → key e = k → (slot key es a e : Int) = s a.length) :
    indexed arr (start key es k : Int) (start key es (k+1) : Int) =
      .ok ((numbersOf (fun e => key e == k) es).map fun i => (s i, g i)) := by
  have hlen : ((start key es (k+1) : Int) - (start key es k : Int)).toNat =
      (numbersOf (fun e => key e == k) es).length := by
    rw [start_succ, numbersOf_length, cnt]; omega
  unfold indexed
  rw [hlen]
  rw [mapM_ok (g := fun i => (((numbersOf (fun e => key e == k) es).map fun i => (s i, g i))[i]?).getD (0,0))]
  · congr 1
    apply List.ext_getElem
    · simp
    · intro i h1 h2
      simp at h1 h2
      simp [h1]
  · intro i hi
    simp at hi
    obtain ⟨a, e, b, h1, h2, h3, h4⟩ := numbersOf_split (fun e => key e == k) es i _
      (List.getElem?_eq_getElem hi)
    have hk : key e = k := by simpa using h2
    have h5 := hf a e b h1 (hP e (by rw [h1]; simp) hk)
    have h6 : slot key es a e = start key es k + i := by simp only [slot, hk, cnt, h4]
    have h8 := hs a e b h1 hk
    rw [h6] at h5 h8
    have h7 := rd_ok h5
    rw [show ((start key es k + i : Nat) : Int) = (start key es k : Int) + (i : Int) by simp] at h7 h8
    rw [h7, hg a e b h1 hk, h8, h3]
    simp [hi]

/-! ### Every history yields a well-formed graph -/

theorem push_wf {g : Graph} (hb : ∀ e ∈ g.edges, e.tail < g.numNodes ∧ e.head < g.numNodes ∧
    (0 ≤ e.tail ∨ 0 ≤ e.head)) {t h : Int} (hth : 0 ≤ t ∨ 0 ≤ h) :
    ∀ e ∈ (g.push t h).1.edges, e.tail < (g.push t h).1.numNodes ∧ e.head < (g.push t h).1.numNodes ∧
      (0 ≤ e.tail ∨ 0 ≤ e.head) := by
  intro e he
  simp only [Graph.push, List.mem_append, List.mem_singleton] at he ⊢
  rcases he with he | rfl
  · obtain ⟨h1, h2, h3⟩ := hb e he
    refine ⟨?_, ?_, h3⟩ <;> omega
  · refine ⟨?_, ?_, hth⟩ <;> simp only <;> omega

theorem step_wf {g : Graph} (h : WF g) (op : Op) : WF (g.step op) := by
  cases op with
  | setNumNodes v =>
    simp only [Graph.step, Graph.setNumNodes]
    split
    · exact h
    · next hv =>
      refine ⟨fun e he => ?_, h.pp, h.pn, h.np⟩
      have := h.bnd e he
      refine ⟨?_, ?_, this.2.2⟩ <;> simp only <;> omega
  | addEdge t hd =>
    simp only [Graph.step, Graph.addEdge]
    split
    · next h1 =>
      split
      · exact h
      · split
        · exact h
        · next h3 =>
          split
          · next h4 =>
            have c1 : 0 ≤ t := by omega
            have c2 : ¬ 0 ≤ hd := by omega
            have c3 : ¬ t < 0 := by omega
            refine ⟨push_wf (g := { g with numPN := g.numPN + 1 }) h.bnd (Or.inl c1), ?_, ?_, ?_⟩
            · simp [Graph.push, h.pp, c2]
            · simp [Graph.push, h.pn, c1, h4]
            · simp [Graph.push, h.np, c3]
          · next h4 =>
            have c1 : ¬ 0 ≤ t := by omega
            have c2 : 0 ≤ hd := by omega
            have c3 : t < 0 := by omega
            refine ⟨push_wf (g := { g with numNP := g.numNP + 1 }) h.bnd (Or.inr c2), ?_, ?_, ?_⟩
            · simp [Graph.push, h.pp, c1]
            · simp [Graph.push, h.pn, c1]
            · simp [Graph.push, h.np, c3, c2]
    · next h1 =>
      have c1 : 0 ≤ t := by omega
      have c2 : 0 ≤ hd := by omega
      have c3 : ¬ t < 0 := by omega
      have c4 : ¬ hd < 0 := by omega
      refine ⟨push_wf (g := { g with numPP := g.numPP + 1 }) h.bnd (Or.inl c1), ?_, ?_, ?_⟩
      · simp [Graph.push, h.pp, c1, c2]
      · simp [Graph.push, h.pn, c4]
      · simp [Graph.push, h.np, c3]

theorem new_wf (a : Bool) : WF (Graph.new a) := ⟨by simp [Graph.new], rfl, rfl, rfl⟩

theorem foldl_wf {g : Graph} (h : WF g) (ops : List Op) : WF (ops.foldl Graph.step g) := by
  induction ops generalizing g with
  | nil => exact h
  | cons op ops ih => exact ih (step_wf h op)

theorem run_wf (a : Bool) (ops : List Op) : WF (run a ops) := foldl_wf (new_wf a) ops

theorem addEdge_spec (g : Graph) (t h : Int) :
    (Acceptable g.allowNeg t h → (g.addEdge t h).2 = .ok (g.edges.length : Int) ∧
      (g.addEdge t h).1.edges = g.edges ++ [⟨t, h⟩] ∧
      (g.addEdge t h).1.numNodes = max (max g.numNodes (t + 1).toNat) (h + 1).toNat ∧
      (g.addEdge t h).1.allowNeg = g.allowNeg) ∧
    (¬ Acceptable g.allowNeg t h → g.addEdge t h = (g, .error .valueError)) := by
  unfold Acceptable Graph.addEdge
  constructor
  · intro hA
    split
    · next h1 =>
      rcases hA with hA | ⟨hA, hB⟩
      · omega
      · rw [if_neg (by simp [hA]), if_neg (by omega)]
        split <;> simp [Graph.push]
    · simp [Graph.push]
  · intro hA
    split
    · next h1 =>
      split
      · rfl
      · next h2 => rw [if_pos]; simp at h2; simp [h2] at hA; omega
    · omega

theorem run_edges_aux (a : Bool) (ops : List Op) (g : Graph) (hg : g.allowNeg = a) :
    (ops.foldl Graph.step g).edges = g.edges ++ accepted a ops := by
  induction ops generalizing g with
  | nil => simp [accepted]
  | cons op ops ih =>
    cases op with
    | setNumNodes v =>
      have : (g.step (.setNumNodes v)).edges = g.edges ∧ (g.step (.setNumNodes v)).allowNeg = a := by
        simp only [Graph.step, Graph.setNumNodes]; split <;> simp [hg]
      simp [ih _ this.2, this.1, accepted]
    | addEdge t h =>
      simp only [List.foldl_cons, accepted]
      by_cases hA : Acceptable a t h
      · obtain ⟨_, h2, _, h4⟩ := (addEdge_spec g t h).1 (hg ▸ hA)
        rw [ih (g.step (.addEdge t h)) (by simp [Graph.step, h4, hg])]
        simp [Graph.step, h2, hA]
      · have h2 := (addEdge_spec g t h).2 (hg ▸ hA)
        have h3 : g.step (.addEdge t h) = g := by simp [Graph.step, h2]
        rw [h3, ih g hg]; simp [hA]

theorem run_edges (a : Bool) (ops : List Op) : (run a ops).edges = accepted a ops := by
  have := run_edges_aux a ops (Graph.new a) rfl
  simpa [run, Graph.new] using this

end Kwant.Graph
