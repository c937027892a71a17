import Verif.Graph.Model

/-! Helper lemmas for the graph model: memory, the counting sort, and the state of a compressed graph. -/

namespace Kwant.Graph

/-! ### Except plumbing -/

@[simp] theorem ok_bind {ε α β : Type} (a : α) (f : α → Except ε β) :
    ((Except.ok a : Except ε α) >>= f) = f a := rfl
@[simp] theorem error_bind {ε α β : Type} (e : ε) (f : α → Except ε β) :
    ((Except.error e : Except ε α) >>= f) = Except.error e := rfl
@[simp] theorem pure_eq_ok {ε α : Type} (a : α) : (pure a : Except ε α) = Except.ok a := rfl

theorem foldlM_ok {ε σ α : Type} (f : σ → α → Except ε σ) (I : List α → σ → Prop)
    (l : List α) (s : σ) (h0 : I [] s)
    (hstep : ∀ p x r s, l = p ++ x :: r → I p s → ∃ s', f s x = .ok s' ∧ I (p ++ [x]) s') :
    ∃ s', l.foldlM f s = .ok s' ∧ I l s' := by
  suffices H : ∀ (r p : List α) (s : σ), l = p ++ r → I p s → ∃ s', r.foldlM f s = .ok s' ∧ I l s' from
    H l [] s rfl h0
  intro r
  induction r with
  | nil => intro p s hl hI; exact ⟨s, rfl, by simpa [hl] using hI⟩
  | cons x r ih =>
    intro p s hl hI
    obtain ⟨s', h1, h2⟩ := hstep p x r s hl hI
    obtain ⟨s'', h3, h4⟩ := ih (p ++ [x]) s' (by simp [hl]) h2
    exact ⟨s'', by simp [List.foldlM, h1, h3], h4⟩

theorem mapM_ok {ε α β : Type} (f : α → Except ε β) (g : α → β) (l : List α)
    (h : ∀ x ∈ l, f x = .ok (g x)) : l.mapM f = .ok (l.map g) := by
  induction l with
  | nil => rfl
  | cons x l ih =>
    simp only [List.mapM_cons, h x (by simp), ok_bind, pure_eq_ok, List.map_cons]
    rw [ih (fun y hy => h y (by simp [hy]))]; rfl

/-! ### Memory -/

theorem rd_ok {a : Mem} {i : Nat} {v : Int} (h : a[i]? = some v) : rd a (i : Int) = .ok v := by
  simp [rd, h]

theorem rd_ok_succ {a : Mem} {i : Nat} {v : Int} (h : a[i+1]? = some v) : rd a ((i : Int) + 1) = .ok v := by
  have := rd_ok h; simpa using this

theorem wr_ok {a : Mem} {i : Nat} (v : Int) (h : i < a.length) : wr a (i : Int) v = .ok (a.set i v) := by
  simp [wr, h]

theorem wr_ok_succ {a : Mem} {i : Nat} (v : Int) (h : i + 1 < a.length) :
    wr a ((i : Int) + 1) v = .ok (a.set (i+1) v) := by
  have := wr_ok v h; simpa using this

@[simp] theorem alloc_length (junk : Nat → Int) (n : Nat) : (alloc junk n).length = n := by simp [alloc]

/-- An index array: a zero followed by `f 0, ..., f (n-1)`. -/
def Cnt (a : Mem) (n : Nat) (f : Nat → Nat) : Prop :=
  a.length = n + 1 ∧ a[0]? = some 0 ∧ ∀ t < n, a[t+1]? = some (f t : Int)

theorem Cnt.congr {a n f g} (h : Cnt a n f) (hfg : ∀ t < n, f t = g t) : Cnt a n g :=
  ⟨h.1, h.2.1, fun t ht => by rw [h.2.2 t ht, hfg t ht]⟩

theorem cnt_memset (junk : Nat → Int) (n : Nat) :
    ∃ a, memset0 (alloc junk (n+1)) (n+1) = .ok a ∧ Cnt a n (fun _ => 0) := by
  refine ⟨List.replicate (n+1) 0, by simp [memset0], by simp, by simp, ?_⟩
  intro t ht
  simp [ht]

theorem incr_ok {a n f} (h : Cnt a n f) {t : Nat} (ht : t < n) :
    ∃ a', incr a (t : Int) = .ok a' ∧ Cnt a' n (fun s => if s = t then f t + 1 else f s) := by
  have h1 := rd_ok_succ (h.2.2 t ht)
  have hl : t + 1 < a.length := by rw [h.1]; omega
  refine ⟨a.set (t+1) ((f t : Int) + 1), ?_, ?_, ?_, ?_⟩
  · simp [incr, h1, wr_ok_succ _ hl]
  · simp [h.1]
  · simp [h.2.1]
  · intro s hs
    by_cases hst : s = t
    · subst hst; simp [List.getElem?_set, hl]
    · have : t + 1 ≠ s + 1 := by omega
      rw [List.getElem?_set, if_neg this, h.2.2 s hs]; simp [hst]

/-- Partial sums. -/
def psum (f : Nat → Nat) : Nat → Nat
  | 0 => 0
  | t + 1 => psum f t + f t

theorem scan_ok {a n f} (h : Cnt a n f) : ∃ a', scan a n = .ok a' ∧ Cnt a' n (psum f) := by
  have key := foldlM_ok scanStep
    (fun p st => Cnt st.1 n (fun t => if t < p.length then psum f t else f t) ∧
      st.2 = (psum f p.length : Int)) (List.range n) (a, 0)
    ⟨h.congr (by simp), by simp [psum]⟩ (by
      intro p x r st hl hI
      have hx : x = p.length ∧ p.length < n := by
        have h1 : (List.range n)[p.length]? = some x := by rw [hl]; simp
        rw [List.getElem?_eq_some_iff] at h1
        obtain ⟨h1, h2⟩ := h1
        simp at h1 h2; omega
      obtain ⟨rfl, hx⟩ := hx
      obtain ⟨hc, hs⟩ := hI
      have h1 := rd_ok_succ (hc.2.2 _ hx)
      simp only [Nat.lt_irrefl, if_false] at h1
      have hl' : p.length + 1 < st.1.length := by rw [hc.1]; omega
      refine ⟨_, by simp only [scanStep, h1, ok_bind, wr_ok_succ _ hl', pure_eq_ok]; rfl, ?_, ?_⟩
      · refine ⟨by simp [hc.1], by simp [hc.2.1], ?_⟩
        intro t ht
        have h2 := hc.2.2 t ht
        simp only [List.length_append, List.length_singleton]
        by_cases htp : t = p.length
        · subst htp
          simp only [List.getElem?_set, hl', if_true, hs]
          simp
        · have h3 : p.length + 1 ≠ t + 1 := by omega
          rw [List.getElem?_set]
          simp only [h3, if_false, h2]
          by_cases h4 : t < p.length
          · simp [h4, Nat.lt_succ_of_lt h4]
          · have : ¬ t < p.length + 1 := by omega
            simp [h4, this]
      · simp [hs, psum])
  obtain ⟨st, h1, h2, _⟩ := key
  refine ⟨st.1, by simp [scan, h1], h2.congr ?_⟩
  intro t ht; simp [ht]

/-! ### Counting sort -/

/-- Number of edges with key `k`. -/
def cnt (key : Edge → Nat) (l : List Edge) (k : Nat) : Nat := (l.filter (fun e => key e == k)).length
/-- Number of edges with key smaller than `k`. -/
def start (key : Edge → Nat) (l : List Edge) (k : Nat) : Nat :=
  (l.filter (fun e => decide (key e < k))).length

@[simp] theorem cnt_nil (key k) : cnt key [] k = 0 := rfl
@[simp] theorem start_nil (key k) : start key [] k = 0 := rfl
theorem cnt_cons (key e l k) : cnt key (e :: l) k = (if key e = k then 1 else 0) + cnt key l k := by
  simp only [cnt, List.filter_cons]
  by_cases h : key e = k <;> simp [h]; omega
theorem start_cons (key e l k) : start key (e :: l) k = (if key e < k then 1 else 0) + start key l k := by
  simp only [start, List.filter_cons]
  by_cases h : key e < k <;> simp [h]; omega
theorem cnt_append (key l m k) : cnt key (l ++ m) k = cnt key l k + cnt key m k := by
  simp [cnt, List.filter_append]
theorem start_append (key l m k) : start key (l ++ m) k = start key l k + start key m k := by
  simp [start, List.filter_append]
theorem cnt_snoc (key l e k) : cnt key (l ++ [e]) k = cnt key l k + (if key e = k then 1 else 0) := by
  simp [cnt_append, cnt_cons]

@[simp] theorem start_zero (key l) : start key l 0 = 0 := by simp [start]

theorem start_succ (key l k) : start key l (k+1) = start key l k + cnt key l k := by
  induction l with
  | nil => rfl
  | cons e l ih =>
    simp only [start_cons, cnt_cons, ih]
    rcases Nat.lt_trichotomy (key e) k with h | h | h
    · simp [h, Nat.lt_succ_of_lt h, Nat.ne_of_lt h]; omega
    · simp [h]; omega
    · have h1 : ¬ key e < k + 1 := by omega
      have h2 : ¬ key e < k := by omega
      have h3 : ¬ key e = k := by omega
      simp [h1, h2, h3]

theorem start_mono (key l) {j k : Nat} (h : j ≤ k) : start key l j ≤ start key l k := by
  induction h with
  | refl => exact Nat.le_refl _
  | step _ ih => rw [start_succ]; omega

theorem start_le (key l k) : start key l k ≤ l.length := List.length_filter_le _ _

theorem start_eq_psum (key l k) : psum (cnt key l) k = start key l k := by
  induction k with
  | zero => simp [psum]
  | succ k ih => simp [psum, start_succ, ih]

/-- The position assigned to an edge `e` that comes after the edges `a` of the whole list `es`. -/
def slot (key : Edge → Nat) (es a : List Edge) (e : Edge) : Nat := start key es (key e) + cnt key a (key e)

theorem slot_lt {key : Edge → Nat} {es a : List Edge} {e : Edge} {b : List Edge} (h : es = a ++ e :: b) :
    slot key es a e < start key es (key e + 1) := by
  rw [start_succ]; subst h
  simp [slot, cnt_append, cnt_cons]
  omega

theorem slot_ne {key : Edge → Nat} {es p : List Edge} {e : Edge} {r : List Edge} (h : es = p ++ e :: r)
    {a e' b} (h' : p = a ++ e' :: b) : slot key es a e' ≠ slot key es p e := by
  by_cases hk : key e' = key e
  · subst h'
    simp only [slot, hk, cnt_append, cnt_cons, if_true]; omega
  · have h1 : slot key es a e' < start key es (key e' + 1) :=
      slot_lt (b := b ++ e :: r) (by simp [h, h'])
    have h2 := slot_lt (key := key) h
    have h3 : start key es (key e') ≤ slot key es a e' := by simp [slot]
    have h4 : start key es (key e) ≤ slot key es p e := by simp [slot]
    rcases Nat.lt_or_gt_of_ne hk with h5 | h5
    · have := start_mono key es (j := key e' + 1) (k := key e) (by omega); omega
    · have := start_mono key es (j := key e + 1) (k := key e') (by omega); omega

theorem snoc_split {α : Type} {p : List α} {x : α} {a : List α} {y : α} {b : List α}
    (h : p ++ [x] = a ++ y :: b) : (a = p ∧ y = x ∧ b = []) ∨ ∃ b', b = b' ++ [x] ∧ p = a ++ y :: b' := by
  rcases List.eq_nil_or_concat b with rfl | ⟨b', z, rfl⟩
  · left
    have := List.append_inj' h (by simp)
    obtain ⟨h1, h2⟩ := this
    simp at h2; exact ⟨h1.symm, h2.symm, rfl⟩
  · right
    have h' : p ++ [x] = (a ++ y :: b') ++ [z] := by simp [h]
    have := List.append_inj' h' (by simp)
    obtain ⟨h1, h2⟩ := this
    simp at h2
    exact ⟨b', by simp [h2], h1⟩

/-- All edges of `p` satisfying `P` have their value stored in their slot. -/
def Filled (key : Edge → Nat) (es : List Edge) (P : Edge → Prop) (val : List Edge → Edge → Int)
    (arr : Mem) (p : List Edge) : Prop :=
  ∀ a e b, p = a ++ e :: b → P e → arr[slot key es a e]? = some (val a e)

theorem Filled.snoc {key es P val arr p} (h : Filled key es P val arr p) {e r} (hes : es = p ++ e :: r)
    (hl : slot key es p e < arr.length) :
    Filled key es P val (arr.set (slot key es p e) (val p e)) (p ++ [e]) := by
  intro a e' b hab hP
  rcases snoc_split hab with ⟨rfl, rfl, _⟩ | ⟨b', _, hp⟩
  · simp [List.getElem?_set, hl]
  · have := slot_ne (key := key) hes hp
    rw [List.getElem?_set, if_neg (Ne.symm this), h a e' b' hp hP]

theorem Filled.skip {key es P val arr p} (h : Filled key es P val arr p) {e} (he : ¬ P e) :
    Filled key es P val arr (p ++ [e]) := by
  intro a e' b hab hP
  rcases snoc_split hab with ⟨rfl, rfl, _⟩ | ⟨b', _, hp⟩
  · exact absurd hP he
  · exact h a e' b' hp hP

/-- The `k`-th element of a filtered list, located in the list. -/
theorem filter_split {α : Type} (f : α → Bool) (l : List α) (k : Nat) (hk : k < (l.filter f).length) :
    ∃ a e b, l = a ++ e :: b ∧ f e = true ∧ (a.filter f).length = k ∧ (l.filter f)[k] = e := by
  induction l generalizing k with
  | nil => simp at hk
  | cons x l ih =>
    by_cases hx : f x = true
    · cases k with
      | zero => exact ⟨[], x, l, rfl, hx, rfl, by simp [hx]⟩
      | succ k =>
        have hk' : k < (l.filter f).length := by simpa [hx] using hk
        obtain ⟨a, e, b, h1, h2, h3, h4⟩ := ih k hk'
        exact ⟨x :: a, e, b, by simp [h1], h2, by simp [hx, h3], by simpa [hx] using h4⟩
    · have hk' : k < (l.filter f).length := by simpa [hx] using hk
      obtain ⟨a, e, b, h1, h2, h3, h4⟩ := ih k hk'
      exact ⟨x :: a, e, b, by simp [h1], h2, by simp [hx, h3], by simpa [hx] using h4⟩

/-! ### Keys -/

/-- Sort key of the outgoing side: the tail, negative tails last. -/
def kT (n : Nat) (e : Edge) : Nat := if 0 ≤ e.tail then e.tail.toNat else n
/-- Sort key of the incoming side. -/
def kH (n : Nat) (e : Edge) : Nat := if 0 ≤ e.head then e.head.toNat else n

/-- The ID given to edge `e` preceded by `a`. -/
def eid (twoway : Bool) (n : Nat) (es a : List Edge) (e : Edge) : Int :=
  if 0 ≤ e.tail ∨ twoway then (slot (kT n) es a e : Int) else -1

/-- Well-formed graph states. -/
structure WF (g : Graph) : Prop where
  bnd : ∀ e ∈ g.edges, e.tail < g.numNodes ∧ e.head < g.numNodes ∧ (0 ≤ e.tail ∨ 0 ≤ e.head)
  pp : g.numPP = (g.edges.filter fun e => decide (0 ≤ e.tail) && decide (0 ≤ e.head)).length
  pn : g.numPN = (g.edges.filter fun e => decide (0 ≤ e.tail) && decide (e.head < 0)).length
  np : g.numNP = (g.edges.filter fun e => decide (e.tail < 0) && decide (0 ≤ e.head)).length

theorem kT_pos {n : Nat} {e : Edge} (h : 0 ≤ e.tail) : (kT n e : Int) = e.tail := by
  simp only [kT, h, if_true]; omega
theorem kT_neg {n : Nat} {e : Edge} (h : ¬ 0 ≤ e.tail) : kT n e = n := by simp [kT, h]
theorem kH_pos {n : Nat} {e : Edge} (h : 0 ≤ e.head) : (kH n e : Int) = e.head := by
  simp only [kH, h, if_true]; omega
theorem kH_neg {n : Nat} {e : Edge} (h : ¬ 0 ≤ e.head) : kH n e = n := by simp [kH, h]

theorem WF.counts {g : Graph} (h : WF g) :
    g.numPP + g.numPN = start (kT g.numNodes) g.edges g.numNodes ∧
    g.numPP + g.numNP = start (kH g.numNodes) g.edges g.numNodes ∧
    g.numPP + g.numPN + g.numNP = g.edges.length ∧
    g.numNP = cnt (kT g.numNodes) g.edges g.numNodes := by
  have hb := h.bnd
  rw [h.pp, h.pn, h.np]
  revert hb
  generalize g.edges = es
  generalize g.numNodes = n
  intro hb
  induction es with
  | nil => simp
  | cons e es ih =>
    have ih := ih (fun x hx => hb x (by simp [hx]))
    obtain ⟨b1, b2, b3⟩ := hb e (by simp)
    simp only [start_cons, cnt_cons, List.filter_cons, List.length_cons]
    by_cases ht : 0 ≤ e.tail <;> by_cases hh : 0 ≤ e.head
    · have e1 : (kT n e : Int) = e.tail := kT_pos ht
      have e2 : (kH n e : Int) = e.head := kH_pos hh
      have : kT n e < n := by omega
      have h2 : kH n e < n := by omega
      have h3 : ¬ kT n e = n := by omega
      have h4 : ¬ e.tail < 0 := by omega
      have h5 : ¬ e.head < 0 := by omega
      simp [ht, hh, h4, h5, this, h2, h3]; omega
    · have e1 : (kT n e : Int) = e.tail := kT_pos ht
      have e2 := kH_neg (n := n) hh
      have : kT n e < n := by omega
      have h3 : ¬ kT n e = n := by omega
      have h4 : ¬ e.tail < 0 := by omega
      have h5 : e.head < 0 := by omega
      simp [ht, hh, h4, h5, this, e2, h3]; omega
    · have e1 := kT_neg (n := n) ht
      have e2 : (kH n e : Int) = e.head := kH_pos hh
      have h2 : kH n e < n := by omega
      have h4 : e.tail < 0 := by omega
      have h5 : ¬ e.head < 0 := by omega
      simp [ht, hh, h4, h5, e1, h2]; omega
    · omega

theorem WF.kT_lt {g : Graph} (h : WF g) {e} (he : e ∈ g.edges) (ht : 0 ≤ e.tail) :
    kT g.numNodes e < g.numNodes := by
  have := (h.bnd e he).1; have := kT_pos (n := g.numNodes) ht; omega
theorem WF.kH_lt {g : Graph} (h : WF g) {e} (he : e ∈ g.edges) (ht : 0 ≤ e.head) :
    kH g.numNodes e < g.numNodes := by
  have := (h.bnd e he).2.1; have := kH_pos (n := g.numNodes) ht; omega

theorem incr_key {a n f} (h : Cnt a n f) {k : Int} (hk : 0 ≤ k) (hn : k.toNat < n) :
    ∃ a', incr a k = .ok a' ∧ Cnt a' n (fun s => if s = k.toNat then f s + 1 else f s) := by
  obtain ⟨a', h1, h2⟩ := incr_ok h hn
  have : ((k.toNat : Nat) : Int) = k := by omega
  rw [this] at h1
  refine ⟨a', h1, h2.congr ?_⟩
  intro t _; by_cases ht : t = k.toNat <;> simp [ht]

theorem kT_toNat {n : Nat} {e : Edge} (h : 0 ≤ e.tail) : kT n e = e.tail.toNat := by simp [kT, h]
theorem kH_toNat {n : Nat} {e : Edge} (h : 0 ≤ e.head) : kH n e = e.head.toNat := by simp [kH, h]

theorem hist_ok {g : Graph} (h : WF g) (tw : Bool) {h0 t0 : Mem} (hh : Cnt h0 g.numNodes (fun _ => 0))
    (ht : tw = true → Cnt t0 g.numNodes (fun _ => 0)) :
    ∃ h1 t1, g.edges.foldlM (histStep tw) (h0, t0) = .ok (h1, t1) ∧
      Cnt h1 g.numNodes (cnt (kT g.numNodes) g.edges) ∧
      (tw = true → Cnt t1 g.numNodes (cnt (kH g.numNodes) g.edges)) ∧
      (tw = false → t1 = t0) := by
  let n := g.numNodes
  have := foldlM_ok (histStep tw)
    (fun p st => Cnt st.1 n (cnt (kT n) p) ∧ (tw = true → Cnt st.2 n (cnt (kH n) p)) ∧
      (tw = false → st.2 = t0)) g.edges (h0, t0)
    ⟨hh.congr (by simp), fun x => (ht x).congr (by simp), by simp⟩ (by
      intro p e r st hl ⟨i1, i2, i3⟩
      have he : e ∈ g.edges := by rw [hl]; simp
      have A : ∃ h', histTail st.1 e = Except.ok h' ∧
          Cnt h' n (cnt (kT n) (p ++ [e])) := by
        by_cases c : 0 ≤ e.tail
        · obtain ⟨a', j1, j2⟩ := incr_key i1 (k := e.tail) c (by have := h.kT_lt he c; rwa [kT_toNat c] at this)
          refine ⟨a', by simp [histTail, c, j1], j2.congr ?_⟩
          intro t _
          rw [cnt_snoc, kT_toNat c]
          by_cases q : t = e.tail.toNat
          · simp [q]
          · rw [if_neg q, if_neg (Ne.symm q)]; rfl
        · refine ⟨st.1, by simp [histTail, c], i1.congr ?_⟩
          intro t ht
          rw [cnt_snoc, kT_neg c]
          rw [if_neg (by show ¬ g.numNodes = t; omega)]; rfl
      have B : ∃ t', histHead tw st.2 e = Except.ok t' ∧
          (tw = true → Cnt t' n (cnt (kH n) (p ++ [e]))) ∧ (tw = false → t' = t0) := by
        cases tw with
        | false => exact ⟨st.2, by simp [histHead], by simp, by simpa using i3⟩
        | true =>
          have i2 := i2 rfl
          by_cases c : 0 ≤ e.head
          · obtain ⟨a', j1, j2⟩ := incr_key i2 (k := e.head) c (by have := h.kH_lt he c; rwa [kH_toNat c] at this)
            refine ⟨a', by simp [histHead, c, j1], fun _ => j2.congr ?_, by simp⟩
            intro t _
            rw [cnt_snoc, kH_toNat c]
            by_cases q : t = e.head.toNat
            · simp [q]
            · rw [if_neg q, if_neg (Ne.symm q)]; rfl
          · refine ⟨st.2, by simp [histHead, c], fun _ => i2.congr ?_, by simp⟩
            intro t ht
            rw [cnt_snoc, kH_neg c]
            rw [if_neg (by show ¬ g.numNodes = t; omega)]; rfl
      obtain ⟨h', a1, a2⟩ := A
      obtain ⟨t', b1, b2, b3⟩ := B
      exact ⟨(h', t'), by simp only [histStep, a1, b1, ok_bind, pure_eq_ok], a2, b2, b3⟩)
  obtain ⟨⟨h1, t1⟩, k1, k2, k3, k4⟩ := this
  exact ⟨h1, t1, k1, k2, k3, k4⟩

/-- Contents of the arrays of a compressed graph, in terms of the graph. -/
structure Compressed (g : Graph) (tw tr : Bool) (c : CGraph) : Prop where
  tw_eq : c.twoway = tw
  tr_eq : c.edgeNrTranslation = tr
  nn : c.numNodes = g.numNodes
  ne : c.numEdges = if tw then g.edges.length else start (kT g.numNodes) g.edges g.numNodes
  px : c.numPX = start (kT g.numNodes) g.edges g.numNodes
  xp : c.numXP = if tw then g.numPP + g.numNP else g.numPP
  nrEnd : c.edgeNrEnd = g.edges.length
  hidx_len : c.headsIdxs.length = g.numNodes + 1
  hidx : ∀ t ≤ g.numNodes, c.headsIdxs[t]? = some (start (kT g.numNodes) g.edges t : Int)
  heads_len : c.heads.length = c.numEdges
  heads : Filled (kT g.numNodes) g.edges (fun e => 0 ≤ e.tail ∨ tw = true) (fun _ e => e.head) c.heads g.edges
  tidx_len : c.tailsIdxs.length = if tw then g.numNodes + 1 else 0
  tidx : tw = true → ∀ t ≤ g.numNodes, c.tailsIdxs[t]? = some (start (kH g.numNodes) g.edges t : Int)
  tails_len : c.tails.length = if tw then c.numXP else 0
  tails : tw = true → Filled (kH g.numNodes) g.edges (fun e => 0 ≤ e.head) (fun _ e => e.tail) c.tails g.edges
  eids_len : c.edgeIds.length = if tw then c.numXP else 0
  eids : tw = true → Filled (kH g.numNodes) g.edges (fun e => 0 ≤ e.head)
    (eid tw g.numNodes g.edges) c.edgeIds g.edges
  nr_len : c.byNr.length = if tr then g.edges.length else 0
  nr : tr = true → ∀ a e b, g.edges = a ++ e :: b → c.byNr[a.length]? = some (eid tw g.numNodes g.edges a e)

/-- Invariant of the main loop. -/
structure FillInv (g : Graph) (tw tr : Bool) (p : List Edge) (st : FillSt) : Prop where
  hidx : Cnt st.headsIdxs g.numNodes
    (fun t => start (kT g.numNodes) g.edges t + cnt (kT g.numNodes) p t)
  heads_len : st.heads.length =
    if tw then g.edges.length else start (kT g.numNodes) g.edges g.numNodes
  heads : Filled (kT g.numNodes) g.edges (fun e => 0 ≤ e.tail ∨ tw = true) (fun _ e => e.head) st.heads p
  tidx_len : st.tailsIdxs.length = if tw then g.numNodes + 1 else 0
  tidx : tw = true → Cnt st.tailsIdxs g.numNodes
    (fun t => start (kH g.numNodes) g.edges t + cnt (kH g.numNodes) p t)
  tails_len : st.tails.length = if tw then start (kH g.numNodes) g.edges g.numNodes else 0
  tails : tw = true → Filled (kH g.numNodes) g.edges (fun e => 0 ≤ e.head) (fun _ e => e.tail) st.tails p
  eids_len : st.edgeIds.length = if tw then start (kH g.numNodes) g.edges g.numNodes else 0
  eids : tw = true → Filled (kH g.numNodes) g.edges (fun e => 0 ≤ e.head)
    (eid tw g.numNodes g.edges) st.edgeIds p
  nr_len : st.byNr.length = if tr then g.edges.length else 0
  nr : tr = true → ∀ a e b, p = a ++ e :: b → st.byNr[a.length]? = some (eid tw g.numNodes g.edges a e)
  enr : tr = true → st.edgeNr = p.length
  np : st.nextNp = (start (kT g.numNodes) g.edges g.numNodes : Int) +
    (if tw then (cnt (kT g.numNodes) p g.numNodes : Int) else 0)

theorem chooseId_ok {g : Graph} (h : WF g) {tw tr : Bool} {p e r st} (hl : g.edges = p ++ e :: r)
    (I : FillInv g tw tr p st) :
    ∃ h' np', chooseId tw st.headsIdxs st.nextNp e = .ok (eid tw g.numNodes g.edges p e, h', np') ∧
      Cnt h' g.numNodes (fun t => start (kT g.numNodes) g.edges t + cnt (kT g.numNodes) (p ++ [e]) t) ∧
      np' = (start (kT g.numNodes) g.edges g.numNodes : Int) +
        (if tw then (cnt (kT g.numNodes) (p ++ [e]) g.numNodes : Int) else 0) := by
  have he : e ∈ g.edges := by rw [hl]; simp
  by_cases c : 0 ≤ e.tail
  · have hk := h.kT_lt he c
    have hk' : e.tail.toNat < g.numNodes := by rwa [kT_toNat c] at hk
    obtain ⟨a', j1, j2⟩ := incr_key I.hidx (k := e.tail) c hk'
    have h1 := I.hidx.2.2 _ hk'
    have h2 := rd_ok_succ h1
    have h3 : ((e.tail.toNat : Nat) : Int) = e.tail := by omega
    rw [h3] at h2
    refine ⟨a', st.nextNp, ?_, j2.congr ?_, ?_⟩
    · simp only [chooseId, ge_iff_le, c, if_true, h2, ok_bind, j1, pure_eq_ok, eid, true_or, slot,
        kT_toNat c]
    · intro t _
      rw [cnt_snoc, kT_toNat c]
      by_cases q : t = e.tail.toNat
      · simp [q]; omega
      · rw [if_neg q, if_neg (Ne.symm q)]; rfl
    · rw [I.np, cnt_snoc]
      have : ¬ kT g.numNodes e = g.numNodes := by omega
      simp [this]
  · have hk := kT_neg (n := g.numNodes) c
    have hb := (h.bnd e he).2.2
    have hh : 0 ≤ e.head := by omega
    have hc : Cnt st.headsIdxs g.numNodes
        (fun t => start (kT g.numNodes) g.edges t + cnt (kT g.numNodes) (p ++ [e]) t) := by
      refine I.hidx.congr ?_
      intro t ht
      rw [cnt_snoc, hk]
      have : ¬ g.numNodes = t := by omega
      simp [this]
    cases tw with
    | true =>
      refine ⟨st.headsIdxs, st.nextNp + 1, ?_, hc, ?_⟩
      · simp [chooseId, c, hh, eid, slot, hk, I.np]
      · rw [I.np, cnt_snoc, hk]; simp; omega
    | false =>
      refine ⟨st.headsIdxs, st.nextNp, ?_, hc, ?_⟩
      · simp [chooseId, c, eid]
      · rw [I.np]; simp

theorem fillStep_ok {g : Graph} (h : WF g) {tw tr : Bool} {p e r st} (hl : g.edges = p ++ e :: r)
    (I : FillInv g tw tr p st) :
    ∃ st', fillStep tw tr st e = .ok st' ∧ FillInv g tw tr (p ++ [e]) st' := by
  have he : e ∈ g.edges := by rw [hl]; simp
  obtain ⟨h', np', c1, c2, c3⟩ := chooseId_ok h hl I
  -- heads
  have A : ∃ hd, storeHead st.heads (eid tw g.numNodes g.edges p e) e = Except.ok hd ∧ hd.length = st.heads.length ∧
      Filled (kT g.numNodes) g.edges (fun e => 0 ≤ e.tail ∨ tw = true) (fun _ e => e.head) hd (p ++ [e]) := by
    by_cases c : 0 ≤ e.tail ∨ tw = true
    · have hlt := slot_lt (key := kT g.numNodes) hl
      have hlen : slot (kT g.numNodes) g.edges p e < st.heads.length := by
        rw [I.heads_len]
        cases tw with
        | true => have := start_le (kT g.numNodes) g.edges (kT g.numNodes e + 1); simp; omega
        | false =>
          have c : 0 ≤ e.tail := by simpa using c
          have := h.kT_lt he c
          have := start_mono (kT g.numNodes) g.edges (j := kT g.numNodes e + 1) (k := g.numNodes) (by omega)
          simp; omega
      refine ⟨_, ?_, ?_, I.heads.snoc hl hlen⟩
      · have : eid tw g.numNodes g.edges p e = (slot (kT g.numNodes) g.edges p e : Int) := by simp [eid, c]
        rw [this]
        simp [storeHead, wr_ok _ hlen]
      · simp
    · refine ⟨st.heads, ?_, rfl, I.heads.skip c⟩
      simp [storeHead, eid, c]
  obtain ⟨hd, a1, a2, a3⟩ := A
  -- tails side
  have B : ∃ ti ts ei, storeTail tw st.tailsIdxs st.tails st.edgeIds (eid tw g.numNodes g.edges p e) e
        = .ok (ti, ts, ei) ∧
      ti.length = st.tailsIdxs.length ∧ ts.length = st.tails.length ∧ ei.length = st.edgeIds.length ∧
      (tw = true → Cnt ti g.numNodes
        (fun t => start (kH g.numNodes) g.edges t + cnt (kH g.numNodes) (p ++ [e]) t)) ∧
      (tw = true → Filled (kH g.numNodes) g.edges (fun e => 0 ≤ e.head) (fun _ e => e.tail) ts (p ++ [e])) ∧
      (tw = true → Filled (kH g.numNodes) g.edges (fun e => 0 ≤ e.head)
        (eid tw g.numNodes g.edges) ei (p ++ [e])) := by
    cases tw with
    | false => exact ⟨st.tailsIdxs, st.tails, st.edgeIds, by simp [storeTail], rfl, rfl, rfl, by simp, by simp, by simp⟩
    | true =>
      have tidx := I.tidx rfl
      by_cases c : 0 ≤ e.head
      · have hk := h.kH_lt he c
        have hk' : e.head.toNat < g.numNodes := by rwa [kH_toNat c] at hk
        obtain ⟨ti, j1, j2⟩ := incr_key tidx (k := e.head) c hk'
        have h1 := tidx.2.2 _ hk'
        have h2 := rd_ok_succ h1
        have h3 : ((e.head.toNat : Nat) : Int) = e.head := by omega
        rw [h3] at h2
        have hs : start (kH g.numNodes) g.edges e.head.toNat + cnt (kH g.numNodes) p e.head.toNat
            = slot (kH g.numNodes) g.edges p e := by simp [slot, kH_toNat c]
        simp only [hs] at h2
        have hlt := slot_lt (key := kH g.numNodes) hl
        have hm := start_mono (kH g.numNodes) g.edges (j := kH g.numNodes e + 1) (k := g.numNodes) (by omega)
        have l1 : slot (kH g.numNodes) g.edges p e < st.tails.length := by rw [I.tails_len]; simp; omega
        have l2 : slot (kH g.numNodes) g.edges p e < st.edgeIds.length := by rw [I.eids_len]; simp; omega
        refine ⟨ti, _, _, ?_, ?_, ?_, ?_, fun _ => j2.congr ?_, fun _ => (I.tails rfl).snoc hl l1,
          fun _ => (I.eids rfl).snoc hl l2⟩
        · simp only [storeTail, ge_iff_le, c, and_self, if_true, h2, ok_bind, wr_ok _ l1, wr_ok _ l2, j1, pure_eq_ok]
        · rw [j2.1, tidx.1]
        · simp
        · simp
        · intro t _
          rw [cnt_snoc, kH_toNat c]
          by_cases q : t = e.head.toNat
          · simp [q]; omega
          · rw [if_neg q, if_neg (Ne.symm q)]; rfl
      · refine ⟨st.tailsIdxs, st.tails, st.edgeIds, by simp [storeTail, c], rfl, rfl, rfl, fun _ => tidx.congr ?_,
          fun _ => (I.tails rfl).skip c, fun _ => (I.eids rfl).skip c⟩
        intro t ht
        rw [cnt_snoc, kH_neg c]
        have : ¬ g.numNodes = t := by omega
        simp [this]
  obtain ⟨ti, ts, ei, b1, b2, b3, b4, b5, b6, b7⟩ := B
  -- translation
  have C : ∃ nr en, storeNr tr st.byNr st.edgeNr (eid tw g.numNodes g.edges p e) = .ok (nr, en) ∧
      nr.length = st.byNr.length ∧ (tr = true → en = (p ++ [e]).length) ∧
      (tr = true → ∀ a e' b, p ++ [e] = a ++ e' :: b →
        nr[a.length]? = some (eid tw g.numNodes g.edges a e')) := by
    cases tr with
    | false => exact ⟨st.byNr, st.edgeNr, by simp [storeNr], rfl, by simp, by simp⟩
    | true =>
      have en := I.enr rfl
      have hlen : p.length < st.byNr.length := by rw [I.nr_len, hl]; simp
      refine ⟨st.byNr.set p.length (eid tw g.numNodes g.edges p e), p.length + 1,
        by simp [storeNr, en, wr_ok _ hlen], by simp, by simp, ?_⟩
      intro _ a e' b hab
      rcases snoc_split hab with ⟨rfl, rfl, _⟩ | ⟨b', _, hp⟩
      · simp [List.getElem?_set, hlen]
      · have h5 : p.length ≠ a.length := by rw [hp]; simp
        rw [List.getElem?_set]
        simp [h5, I.nr rfl a e' b' hp]
  obtain ⟨nr, en, d1, d2, d3, d4⟩ := C
  refine ⟨{ headsIdxs := h', heads := hd, tailsIdxs := ti, tails := ts, edgeIds := ei, byNr := nr,
            nextNp := np', edgeNr := en }, ?_, ?_⟩
  · simp only [fillStep, c1, ok_bind, a1, b1, d1, pure_eq_ok]
  · exact ⟨c2, by rw [a2, I.heads_len], a3, by rw [b2, I.tidx_len], b5, by rw [b3, I.tails_len], b6,
      by rw [b4, I.eids_len], b7, by rw [d2, I.nr_len], d4, d3, c3⟩

theorem cnt_eq_hidx {a n f} (h : Cnt a n (fun t => start f es t + cnt f es t)) :
    ∀ t ≤ n, a[t]? = some (start f es t : Int) := by
  intro t ht
  cases t with
  | zero => simp [h.2.1]
  | succ t => rw [h.2.2 t (by omega), start_succ]

/-- Compression succeeds exactly when it should, and fills the arrays as specified. -/
theorem compressed_spec (junk : Nat → Int) {g : Graph} (h : WF g) (tw tr al : Bool) :
    ((tw ∨ al ∨ g.numNP = 0) → ∃ c, g.compressed junk tw tr al = .ok c ∧ Compressed g tw tr c) ∧
    (¬ (tw ∨ al ∨ g.numNP = 0) → g.compressed junk tw tr al = .error .valueError) := by
  obtain ⟨n1, n2, n3, n4⟩ := h.counts
  constructor
  · intro hc
    obtain ⟨h0, a1, a2⟩ := cnt_memset junk g.numNodes
    have T : ∃ t0, (if tw = true then memset0 (if tw = true then alloc junk (g.numNodes + 1) else [])
        (g.numNodes + 1) else Except.ok (if tw = true then alloc junk (g.numNodes + 1) else [])) = Except.ok t0 ∧
        (tw = true → Cnt t0 g.numNodes (fun _ => 0)) ∧ (tw = false → t0 = []) := by
      cases tw with
      | false => exact ⟨[], rfl, by simp, by simp⟩
      | true => exact ⟨h0, by simpa using a1, fun _ => a2, by simp⟩
    obtain ⟨t0, b1, b2, b3⟩ := T
    obtain ⟨h1, t1, c1, c2, c3, c4⟩ := hist_ok h tw a2 b2
    obtain ⟨h2, d1, d2⟩ := scan_ok c2
    have S : ∃ t2, (if tw = true then scan t1 g.numNodes else Except.ok t1) = Except.ok t2 ∧
        (tw = true → Cnt t2 g.numNodes (psum (cnt (kH g.numNodes) g.edges))) ∧ (tw = false → t2 = []) := by
      cases tw with
      | false => exact ⟨t1, rfl, by simp, fun _ => by rw [c4 rfl, b3 rfl]⟩
      | true => obtain ⟨t2, e1, e2⟩ := scan_ok (c3 rfl); exact ⟨t2, by simp [e1], fun _ => e2, by simp⟩
    obtain ⟨t2, e1, e2, e3⟩ := S
    let r := CGraph.init junk tw tr g.numNodes g.numPP g.numPN g.numNP
    obtain ⟨st, f1, f2⟩ := foldlM_ok (fillStep tw tr) (FillInv g tw tr) g.edges
      { headsIdxs := h2, heads := r.heads, tailsIdxs := t2, tails := r.tails, edgeIds := r.edgeIds,
        byNr := r.byNr, nextNp := r.numPX, edgeNr := 0 } (by
        refine ⟨d2.congr ?_, ?_, ?_, ?_, fun x => (e2 x).congr ?_, ?_, ?_, ?_, ?_, ?_, ?_, ?_, ?_⟩
        · intro t _; simp [start_eq_psum]
        · simp only [r, CGraph.init]; cases tw <;> simp [n1, ← n3]
        · intro a e b hab; simp at hab
        · cases tw with
          | false => simp [e3 rfl]
          | true => simp [(e2 rfl).1]
        · intro t _; simp [start_eq_psum]
        · simp only [r, CGraph.init]; cases tw <;> simp [n2]
        · intro _ a e b hab; simp at hab
        · simp only [r, CGraph.init]; cases tw <;> simp [n2]
        · intro _ a e b hab; simp at hab
        · simp only [r, CGraph.init]; cases tr <;> simp [← n3]
        · intro _ a e b hab; simp at hab
        · simp
        · simp [r, CGraph.init, ← n1])
      (fun p x q s hl hI => fillStep_ok h hl hI)
    have hfin : ((CGraph.init junk tw tr g.numNodes g.numPP g.numPN g.numNP).numEdges : Int) = st.nextNp := by
      rw [f2.np, ← n4, ← n1]
      cases tw <;> simp [CGraph.init]
    let c : CGraph := { r with
      headsIdxs := st.headsIdxs
      heads := st.heads
      tailsIdxs := st.tailsIdxs
      tails := st.tails
      edgeIds := st.edgeIds
      byNr := st.byNr }
    refine ⟨c, ?_, ?_⟩
    · simp only [Graph.compressed]
      rw [if_neg (by omega), if_neg (not_not_intro hc)]
      have i1 : (CGraph.init junk tw tr g.numNodes g.numPP g.numPN g.numNP).headsIdxs
        = alloc junk (g.numNodes + 1) := rfl
      have i2 : (CGraph.init junk tw tr g.numNodes g.numPP g.numPN g.numNP).tailsIdxs
        = (if tw = true then alloc junk (g.numNodes + 1) else []) := rfl
      simp only [i1, i2, a1, b1, c1, d1, e1, ok_bind]
      rw [show g.edges.foldlM (fillStep tw tr) _ = Except.ok st from f1]
      simp only [ok_bind]
      rw [if_neg (by rw [hfin]; simp)]
      rfl
    · exact {
        tw_eq := rfl, tr_eq := rfl, nn := rfl
        ne := by simp only [c, r, CGraph.init]; cases tw <;> simp [n1, ← n3]
        px := by simp [c, r, CGraph.init, n1]
        xp := by simp [c, r, CGraph.init]
        nrEnd := by simp [c, r, CGraph.init, n3]
        hidx_len := f2.hidx.1
        hidx := cnt_eq_hidx f2.hidx
        heads_len := by
          rw [show (_ : Mem).length = _ from f2.heads_len]
          simp only [c, r, CGraph.init]; cases tw <;> simp [n1, ← n3]
        heads := f2.heads
        tidx_len := f2.tidx_len
        tidx := fun x => cnt_eq_hidx (f2.tidx x)
        tails_len := by
          rw [show (_ : Mem).length = _ from f2.tails_len]
          simp only [c, r, CGraph.init]; cases tw <;> simp [n2]
        tails := f2.tails
        eids_len := by
          rw [show (_ : Mem).length = _ from f2.eids_len]
          simp only [c, r, CGraph.init]; cases tw <;> simp [n2]
        eids := f2.eids
        nr_len := f2.nr_len
        nr := f2.nr }
  · intro hc
    simp only [Graph.compressed]
    rw [if_neg (by omega), if_pos hc]

end Kwant.Graph
