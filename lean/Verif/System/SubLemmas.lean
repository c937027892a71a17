import Mathlib.Algebra.BigOperators.Group.List.Basic
import Mathlib.Tactic.Ring
import Verif.System.SubModel

/-! The matrices built by `hamiltonian_submatrix`, as lists of blocks. -/
set_option linter.unusedSectionVars false

namespace Kwant.System
open Kwant Kwant.Assoc Kwant.Final

@[local simp] theorem emap_ok {α β ε : Type} (f : α → β) (a : α) : Except.map f (Except.ok a : Except ε α) = .ok (f a) := rfl
@[local simp] theorem emap_error {α β ε : Type} (f : α → β) (e : ε) : Except.map f (Except.error e : Except ε α) = .error e := rfl

section Generic
variable {α β γ ε' : Type}

/-- A loop whose body appends to the accumulator what does not depend on it. -/
theorem foldE_eq (f : β → α → Except ε' β) (g : α → Except ε' (List γ)) (w : β → γ → β)
    (h : ∀ b a, f b a = (g a).map fun l => (l.foldl w b)) (b : β) (l : List α) :
    foldE f b l = (mapE g l).map fun ls => (ls.flatten.foldl w b) := by
  induction l generalizing b with
  | nil => rfl
  | cons a l ih =>
    simp only [foldE, mapE, h]
    cases g a with
    | error e => rfl
    | ok l1 =>
      simp only [ih]
      cases mapE g l with
      | error e => rfl
      | ok ls => simp [List.foldl_append]

/-- The value of a computation that succeeded. -/
def okD (x : Except ε' (List γ)) : List γ :=
  match x with
  | .ok l => l
  | .error _ => []

theorem mapE_eq_map {g : α → Except ε' (List γ)} {l : List α} {r : List (List γ)} (h : mapE g l = .ok r) :
    r = l.map (fun a => okD (g a)) ∧ ∀ a ∈ l, g a = .ok (okD (g a)) := by
  induction l generalizing r with
  | nil => simp only [mapE] at h; cases h; simp
  | cons a l ih =>
    simp only [mapE] at h
    cases ha : g a with
    | error e => simp [ha] at h
    | ok b =>
      simp only [ha] at h
      cases hm : mapE g l with
      | error e => simp [hm] at h
      | ok bs =>
        simp only [hm] at h
        cases h
        obtain ⟨i1, i2⟩ := ih hm
        refine ⟨by rw [List.map_cons, ← i1, ha]; rfl, ?_⟩
        intro x hx
        rcases List.mem_cons.mp hx with rfl | hx
        · rw [ha]; rfl
        · exact i2 x hx
end Generic

section Off

theorem off_succ (l : List ℕ) (k : ℕ) : off l (k + 1) = off l k + l.getD k 0 := by
  unfold off
  rw [List.take_add_one, List.sum_append, List.getD_eq_getElem?_getD]
  cases l[k]? <;> simp

theorem off_mono (l : List ℕ) {a b : ℕ} (h : a ≤ b) : off l a ≤ off l b := by
  induction h with
  | refl => exact le_refl _
  | step _ ih => rw [off_succ]; omega

/-- Positions determine the number of the site. -/
theorem off_inj (l : List ℕ) {a b r : ℕ} (h1 : off l a ≤ r) (h2 : r < off l (a + 1)) (h3 : off l b ≤ r)
    (h4 : r < off l (b + 1)) : a = b := by
  rcases Nat.lt_trichotomy a b with h | h | h
  · have := off_mono l (show a + 1 ≤ b from h); omega
  · exact h
  · have := off_mono l (show b + 1 ≤ a from h); omega

theorem off_length (l : List ℕ) : off l l.length = l.sum := by simp [off]

theorem off_exists (l : List ℕ) {r : ℕ} (h : r < l.sum) : ∃ a i, a < l.length ∧ i < l.getD a 0 ∧ r = off l a + i := by
  have : ∀ k, r < off l k → ∃ a i, a < k ∧ i < l.getD a 0 ∧ r = off l a + i := by
    intro k
    induction k with
    | zero => intro h; simp [off] at h
    | succ k ih =>
      intro h
      by_cases hk : r < off l k
      · obtain ⟨a, i, h1, h2, h3⟩ := ih hk
        exact ⟨a, i, by omega, h2, h3⟩
      · rw [off_succ] at h
        exact ⟨k, r - off l k, by omega, by omega, by omega⟩
  exact this l.length (by rw [off_length]; exact h)
end Off

section Blocks
variable {K ε : Type} [AddCommMonoid K] [StarAddMonoid K] [DecidableEq K]

/-- A block of the matrix: number of the to-site, number of the from-site, matrix. -/
abbrev Block (K : Type) := ℕ × ℕ × Mat K

def Block.key (x : Block K) : ℕ × ℕ := (x.1, x.2.1)

/-- A block that comes together with its Hermitian conjugate or alone. -/
structure Item (K : Type) where
  toN : ℕ
  frN : ℕ
  h : Mat K
  two : Bool

def Item.blocks (it : Item K) : List (Block K) :=
  if it.two then [(it.toN, it.frN, it.h), (it.frN, it.toN, it.h.dagger)] else [(it.toN, it.frN, it.h)]

variable (sys : LSys K ε) (b : Bufs K)

def wBlock (M : ℕ → ℕ → K) (x : Block K) : ℕ → ℕ → K :=
  writeBlock M (off b.toNorb x.1) (off b.toNorb (x.1 + 1)) (off b.fromNorb x.2.1) (off b.fromNorb (x.2.1 + 1)) x.2.2

def wItem (M : ℕ → ℕ → K) (it : Item K) : ℕ → ℕ → K := it.blocks.foldl (wBlock b) M

def entriesOf (it : Item K) : List ((ℕ × ℕ) × K) :=
  if it.two then blockEntries2 it.h (off b.toNorb it.toN) (off b.fromNorb it.frN)
  else blockEntries it.h (off b.toNorb it.toN) (off b.fromNorb it.frN)

def diagItem (table : List (ℕ × ℕ)) (fs nfs : ℕ) : Except (SErr ε) (List (Item K)) :=
  match Assoc.get table fs with
  | none => .ok []
  | some nts =>
    match b.diag[nfs]? with
    | none => .error .index
    | some h => if squareOK b h nfs then .ok [⟨nts, nfs, h, false⟩] else .error (.value fs fs)

def nbrItem (table : List (ℕ × ℕ)) (fs nfs ts : ℕ) : Except (SErr ε) (List (Item K)) :=
  match Assoc.get table ts with
  | none => .ok []
  | some nts =>
    match sys.call ts fs with
    | .error e => .error e
    | .ok h => if shapeOK b h nts nfs then .ok [⟨nts, nfs, h, false⟩] else .error (.value fs ts)

def rowItems (table : List (ℕ × ℕ)) (p : ℕ × ℕ) : Except (SErr ε) (List (Item K)) :=
  match diagItem b table p.1 p.2 with
  | .error e => .error e
  | .ok l =>
    (mapE (nbrItem sys b table p.1 p.2) (sys.nbrs p.1)).map fun ls => (l ++ ls.flatten)

theorem makeDense_eq (fromSites : List ℕ) (table : List (ℕ × ℕ)) :
    makeDense sys b fromSites table = (mapE (rowItems sys b table) fromSites.zipIdx).map fun ls => (ls.flatten.foldl (wItem b) fun _ _ => 0) := by
  unfold makeDense
  refine foldE_eq _ _ _ (fun M p => ?_) _ _
  have h1 : denseDiag (ε := ε) b table p.1 p.2 M = (diagItem b table p.1 p.2).map fun l => (l.foldl (wItem b) M) := by
    unfold denseDiag diagItem
    cases Assoc.get table p.1 with
    | none => rfl
    | some nts =>
      cases b.diag[p.2]? with
      | none => rfl
      | some h => by_cases hs : squareOK b h p.2 = true <;> simp [hs, wItem, Item.blocks, wBlock]
  have h2 : ∀ M, foldE (denseNbr sys b table p.1 p.2) M (sys.nbrs p.1) =
      (mapE (nbrItem sys b table p.1 p.2) (sys.nbrs p.1)).map fun ls => (ls.flatten.foldl (wItem b) M) := by
    intro M
    refine foldE_eq _ _ _ (fun M ts => ?_) _ _
    unfold denseNbr nbrItem
    cases Assoc.get table ts with
    | none => rfl
    | some nts =>
      cases sys.call ts p.1 with
      | error e => rfl
      | ok h => by_cases hs : shapeOK b h nts p.2 = true <;> simp [hs, wItem, Item.blocks, wBlock]
  simp only [h1, h2, rowItems]
  cases diagItem b table p.1 p.2 with
  | error e => rfl
  | ok l =>
    simp only
    cases mapE (nbrItem sys b table p.1 p.2) (sys.nbrs p.1) with
    | error e => rfl
    | ok ls => simp [List.foldl_append]

theorem foldl_append_entries (l : List ((ℕ × ℕ) × K)) (I : List (Item K)) :
    I.foldl (fun l it => l ++ entriesOf b it) l = l ++ I.flatMap (entriesOf b) := by
  induction I generalizing l with
  | nil => simp
  | cons it I ih => simp [ih]

theorem makeSparse_eq (fromSites : List ℕ) (table : List (ℕ × ℕ)) :
    makeSparse sys b fromSites table = (mapE (rowItems sys b table) fromSites.zipIdx).map fun ls => (ls.flatten.flatMap (entriesOf b)) := by
  have key : makeSparse sys b fromSites table = (mapE (rowItems sys b table) fromSites.zipIdx).map fun ls => (ls.flatten.foldl (fun l it => l ++ entriesOf b it) []) := by
    unfold makeSparse
    refine foldE_eq _ _ _ (fun M p => ?_) _ _
    have h1 : sparseDiag (ε := ε) b table p.1 p.2 M = (diagItem b table p.1 p.2).map fun l => (l.foldl (fun l it => l ++ entriesOf b it) M) := by
      unfold sparseDiag diagItem
      cases Assoc.get table p.1 with
      | none => rfl
      | some nts =>
        cases b.diag[p.2]? with
        | none => rfl
        | some h => by_cases hs : squareOK b h p.2 = true <;> simp [hs, entriesOf]
    have h2 : ∀ M, foldE (sparseNbr sys b table p.1 p.2) M (sys.nbrs p.1) =
        (mapE (nbrItem sys b table p.1 p.2) (sys.nbrs p.1)).map fun ls => (ls.flatten.foldl (fun l it => l ++ entriesOf b it) M) := by
      intro M
      refine foldE_eq _ _ _ (fun M ts => ?_) _ _
      unfold sparseNbr nbrItem
      cases Assoc.get table ts with
      | none => rfl
      | some nts =>
        cases sys.call ts p.1 with
        | error e => rfl
        | ok h => by_cases hs : shapeOK b h nts p.2 = true <;> simp [hs, entriesOf]
    simp only [h1, h2, rowItems]
    cases diagItem b table p.1 p.2 with
    | error e => rfl
    | ok l =>
      simp only
      cases mapE (nbrItem sys b table p.1 p.2) (sys.nbrs p.1) with
      | error e => rfl
      | ok ls => simp [List.foldl_append]
  rw [key]
  cases mapE (rowItems sys b table) fromSites.zipIdx with
  | error e => rfl
  | ok ls => simp only [foldl_append_entries, List.nil_append]

/-! Full matrices -/

def diagItemF (fs : ℕ) : Except (SErr ε) (List (Item K)) :=
  match b.diag[fs]? with
  | none => .error .index
  | some h => if squareOK b h fs then .ok [⟨fs, fs, h, false⟩] else .error (.value fs fs)

def nbrItemF (fs ts : ℕ) : Except (SErr ε) (List (Item K)) :=
  if ts < fs then .ok [] else
  match sys.call ts fs with
  | .error e => .error e
  | .ok h => if shapeOK b h ts fs then .ok [⟨ts, fs, h, true⟩] else .error (.value fs ts)

def rowItemsF (fs : ℕ) : Except (SErr ε) (List (Item K)) :=
  match diagItemF b fs with
  | .error e => .error e
  | .ok l =>
    (mapE (nbrItemF sys b fs) (sys.nbrs fs)).map fun ls => (l ++ ls.flatten)

theorem makeDenseFull_eq (hb : b.toNorb = b.fromNorb) :
    makeDenseFull sys b = (mapE (rowItemsF sys b) (List.range sys.n)).map fun ls => (ls.flatten.foldl (wItem b) fun _ _ => 0) := by
  unfold makeDenseFull
  refine foldE_eq _ _ _ (fun M fs => ?_) _ _
  have h1 : denseFullDiag (ε := ε) b fs M = (diagItemF b fs).map fun l => (l.foldl (wItem b) M) := by
    unfold denseFullDiag diagItemF
    cases b.diag[fs]? with
    | none => rfl
    | some h => by_cases hs : squareOK b h fs = true <;> simp [hs, wItem, Item.blocks, wBlock]
  have h2 : ∀ M, foldE (denseFullNbr sys b fs) M (sys.nbrs fs) =
      (mapE (nbrItemF sys b fs) (sys.nbrs fs)).map fun ls => (ls.flatten.foldl (wItem b) M) := by
    intro M
    refine foldE_eq _ _ _ (fun M ts => ?_) _ _
    unfold denseFullNbr nbrItemF
    by_cases hlt : ts < fs
    · simp [hlt]
    · simp only [hlt, if_false]
      cases sys.call ts fs with
      | error e => rfl
      | ok h => by_cases hs : shapeOK b h ts fs = true <;> simp [hs, wItem, Item.blocks, wBlock, hb]
  simp only [h1, h2, rowItemsF]
  cases diagItemF b fs with
  | error e => rfl
  | ok l =>
    simp only
    cases mapE (nbrItemF sys b fs) (sys.nbrs fs) with
    | error e => rfl
    | ok ls => simp [List.foldl_append]

theorem makeSparseFull_eq :
    makeSparseFull sys b = (mapE (rowItemsF sys b) (List.range sys.n)).map fun ls => (ls.flatten.flatMap (entriesOf b)) := by
  have key : makeSparseFull sys b = (mapE (rowItemsF sys b) (List.range sys.n)).map fun ls => (ls.flatten.foldl (fun l it => l ++ entriesOf b it) []) := by
    unfold makeSparseFull
    refine foldE_eq _ _ _ (fun M fs => ?_) _ _
    have h1 : sparseFullDiag (ε := ε) b fs M = (diagItemF b fs).map fun l => (l.foldl (fun l it => l ++ entriesOf b it) M) := by
      unfold sparseFullDiag diagItemF
      cases b.diag[fs]? with
      | none => rfl
      | some h => by_cases hs : squareOK b h fs = true <;> simp [hs, entriesOf]
    have h2 : ∀ M, foldE (sparseFullNbr sys b fs) M (sys.nbrs fs) =
        (mapE (nbrItemF sys b fs) (sys.nbrs fs)).map fun ls => (ls.flatten.foldl (fun l it => l ++ entriesOf b it) M) := by
      intro M
      refine foldE_eq _ _ _ (fun M ts => ?_) _ _
      unfold sparseFullNbr nbrItemF
      by_cases hlt : ts < fs
      · simp [hlt]
      · simp only [hlt, if_false]
        cases sys.call ts fs with
        | error e => rfl
        | ok h => by_cases hs : shapeOK b h ts fs = true <;> simp [hs, entriesOf]
    simp only [h1, h2, rowItemsF]
    cases diagItemF b fs with
    | error e => rfl
    | ok l =>
      simp only
      cases mapE (nbrItemF sys b fs) (sys.nbrs fs) with
      | error e => rfl
      | ok ls => simp [List.foldl_append]
  rw [key]
  cases mapE (rowItemsF sys b) (List.range sys.n) with
  | error e => rfl
  | ok ls => simp only [foldl_append_entries, List.nil_append]

/-! ### The matrix that a list of blocks stands for -/

/-- The matrix represented in coordinate format: entries at the same position are added. -/
def cooVal (l : List ((ℕ × ℕ) × K)) (r c : ℕ) : K := (l.map fun e => if e.1 = (r, c) then e.2 else 0).sum

/-- The shapes agree with the offsets. -/
def Shaped (x : Block K) : Prop := x.2.2.rows = b.toNorb.getD x.1 0 ∧ x.2.2.cols = b.fromNorb.getD x.2.1 0

theorem wItem_foldl (I : List (Item K)) (M : ℕ → ℕ → K) :
    I.foldl (wItem b) M = (I.flatMap Item.blocks).foldl (wBlock b) M := by
  induction I generalizing M with
  | nil => rfl
  | cons it I ih => simp [ih, wItem, List.foldl_append]

theorem wBlock_at (M : ℕ → ℕ → K) {x : Block K} {a c i j : ℕ} (hi : i < b.toNorb.getD a 0) (hj : j < b.fromNorb.getD c 0) :
    wBlock b M x (off b.toNorb a + i) (off b.fromNorb c + j) =
      if x.key = (a, c) then x.2.2.val i j else M (off b.toNorb a + i) (off b.fromNorb c + j) := by
  have ha := off_succ b.toNorb a
  have hc := off_succ b.fromNorb c
  unfold wBlock writeBlock
  by_cases hk : x.key = (a, c)
  · obtain ⟨h1, h2⟩ := Prod.mk.inj (show (x.1, x.2.1) = (a, c) from hk)
    rw [if_pos hk, h1, h2, if_pos (by omega)]
    simp
  · rw [if_neg hk, if_neg]
    rintro ⟨h1, h2, h3, h4⟩
    apply hk
    have e1 := off_inj b.toNorb h1 h2 (b := a) (by omega) (by omega)
    have e2 := off_inj b.fromNorb h3 h4 (b := c) (by omega) (by omega)
    simp [Block.key, e1, e2]

/-- The value at an orbital of a pair of sites after writing the blocks. -/
theorem dense_at (L : List (Block K)) (hn : (L.map Block.key).Nodup) (M : ℕ → ℕ → K) {a c i j : ℕ}
    (hi : i < b.toNorb.getD a 0) (hj : j < b.fromNorb.getD c 0) :
    (∀ h, (a, c, h) ∈ L → L.foldl (wBlock b) M (off b.toNorb a + i) (off b.fromNorb c + j) = h.val i j) ∧
    ((a, c) ∉ L.map Block.key → L.foldl (wBlock b) M (off b.toNorb a + i) (off b.fromNorb c + j) =
      M (off b.toNorb a + i) (off b.fromNorb c + j)) := by
  induction L generalizing M with
  | nil => simp
  | cons x L ih =>
    simp only [List.map_cons, List.nodup_cons] at hn
    obtain ⟨i1, i2⟩ := ih hn.2 (wBlock b M x)
    refine ⟨fun h hm => ?_, fun hm => ?_⟩
    · simp only [List.foldl_cons]
      rcases List.mem_cons.mp hm with rfl | hm
      · rw [i2 hn.1, wBlock_at b M hi hj]
        simp [Block.key]
      · exact i1 h hm
    · simp only [List.map_cons, List.mem_cons, not_or] at hm
      simp only [List.foldl_cons]
      rw [i2 hm.2, wBlock_at b M hi hj, if_neg (Ne.symm hm.1)]

theorem cooVal_append (l l' : List ((ℕ × ℕ) × K)) (r c : ℕ) : cooVal (l ++ l') r c = cooVal l r c + cooVal l' r c := by
  simp [cooVal]

theorem cooVal_flatMap {α : Type} (l : List α) (f : α → List ((ℕ × ℕ) × K)) (r c : ℕ) :
    cooVal (l.flatMap f) r c = (l.map fun a => cooVal (f a) r c).sum := by
  induction l with
  | nil => simp [cooVal]
  | cons a l ih => simp [cooVal_append, ih]

theorem sum_range_ite (n r0 r : ℕ) (g : ℕ → K) :
    ((List.range n).map fun i => if i + r0 = r then g i else 0).sum = if r0 ≤ r ∧ r < r0 + n then g (r - r0) else 0 := by
  induction n with
  | zero => simp
  | succ n ih =>
    rw [List.range_succ, List.map_append, List.sum_append, ih]
    simp only [List.map_cons, List.map_nil, List.sum_cons, List.sum_nil, add_zero]
    by_cases h : n + r0 = r
    · rw [if_neg (by omega), if_pos h, if_pos (by omega), zero_add]
      congr 1; omega
    · rw [if_neg h, add_zero]
      by_cases h' : r0 ≤ r ∧ r < r0 + n
      · rw [if_pos h', if_pos (by omega)]
      · rw [if_neg h', if_neg (by omega)]

theorem cooVal_two_ite (n m r0 c0 r c : ℕ) (v : ℕ → ℕ → K) :
    ((List.range n).map fun i => ((List.range m).map fun j => if (i + r0, j + c0) = (r, c) then v i j else 0).sum).sum =
      if (r0 ≤ r ∧ r < r0 + n) ∧ (c0 ≤ c ∧ c < c0 + m) then v (r - r0) (c - c0) else 0 := by
  have : (fun i => ((List.range m).map fun j => if (i + r0, j + c0) = (r, c) then v i j else 0).sum) =
      fun i => if i + r0 = r then (if c0 ≤ c ∧ c < c0 + m then v i (c - c0) else 0) else 0 := by
    funext i
    by_cases h : i + r0 = r
    · simp only [Prod.mk.injEq, h, true_and, if_true]
      exact sum_range_ite m c0 c (fun j => v i j)
    · simp [h]
  rw [this, sum_range_ite]
  by_cases h1 : r0 ≤ r ∧ r < r0 + n
  · by_cases h2 : c0 ≤ c ∧ c < c0 + m <;> simp [h1, h2]
  · simp [h1]

theorem cooVal_entries (h : Mat K) (r0 c0 r c : ℕ) :
    cooVal (blockEntries h r0 c0) r c =
      if (r0 ≤ r ∧ r < r0 + h.rows) ∧ (c0 ≤ c ∧ c < c0 + h.cols) then h.val (r - r0) (c - c0) else 0 := by
  rw [← cooVal_two_ite]
  unfold blockEntries
  rw [cooVal_flatMap]
  congr 1
  refine List.map_congr_left fun i _ => ?_
  rw [cooVal_flatMap]
  congr 1
  refine List.map_congr_left fun j _ => ?_
  by_cases hv : h.val i j = 0 <;> simp [cooVal, hv]

theorem cooVal_entries2 (h : Mat K) (r0 c0 r c : ℕ) :
    cooVal (blockEntries2 h r0 c0) r c = cooVal (blockEntries h r0 c0) r c + cooVal (blockEntries h.dagger c0 r0) r c := by
  have h2 : cooVal (blockEntries h.dagger c0 r0) r c =
      ((List.range h.rows).map fun i => ((List.range h.cols).map fun j =>
        if (j + c0, i + r0) = (r, c) then star (h.val i j) else 0).sum).sum := by
    rw [cooVal_entries]
    have := cooVal_two_ite h.rows h.cols r0 c0 c r (fun i j => star (h.val i j))
    have e : (fun i => ((List.range h.cols).map fun j =>
        if (j + c0, i + r0) = (r, c) then star (h.val i j) else 0).sum) =
        fun i => ((List.range h.cols).map fun j => if (i + r0, j + c0) = (c, r) then star (h.val i j) else 0).sum := by
      funext i
      congr 1
      refine List.map_congr_left fun j _ => ?_
      simp only [Prod.mk.injEq]
      congr 1
      exact propext and_comm
    rw [e, this]
    simp only [Mat.dagger]
    congr 1
    exact propext and_comm
  rw [h2, cooVal_entries, ← cooVal_two_ite, ← List.sum_map_add]
  unfold blockEntries2
  rw [cooVal_flatMap]
  congr 1
  refine List.map_congr_left fun i _ => ?_
  rw [cooVal_flatMap, ← List.sum_map_add]
  congr 1
  refine List.map_congr_left fun j _ => ?_
  by_cases hv : h.val i j = 0 <;> simp [cooVal, hv]

def blockEnt (x : Block K) : List ((ℕ × ℕ) × K) := blockEntries x.2.2 (off b.toNorb x.1) (off b.fromNorb x.2.1)

theorem cooVal_items (I : List (Item K)) (hb : ∀ it ∈ I, it.two = true → b.toNorb = b.fromNorb) (r c : ℕ) :
    cooVal (I.flatMap (entriesOf b)) r c = ((I.flatMap Item.blocks).map fun x => cooVal (blockEnt b x) r c).sum := by
  induction I with
  | nil => simp [cooVal]
  | cons it I ih =>
    rw [List.flatMap_cons, cooVal_append, ih fun x hx => hb x (by simp [hx]), List.flatMap_cons, List.map_append, List.sum_append]
    congr 1
    unfold entriesOf Item.blocks
    by_cases ht : it.two = true
    · simp only [ht, if_true, cooVal_entries2, List.map_cons, List.map_nil, List.sum_cons, List.sum_nil, add_zero, blockEnt,
        hb it (by simp) ht]
    · simp [ht, blockEnt]

theorem cooVal_block {x : Block K} (hs : Shaped b x) {a c i j : ℕ} (hi : i < b.toNorb.getD a 0) (hj : j < b.fromNorb.getD c 0) :
    cooVal (blockEnt b x) (off b.toNorb a + i) (off b.fromNorb c + j) = if x.key = (a, c) then x.2.2.val i j else 0 := by
  rw [← wBlock_at b (fun _ _ => 0) hi hj, blockEnt, cooVal_entries]
  unfold wBlock writeBlock
  rw [off_succ, off_succ, hs.1, hs.2]
  congr 1
  simp only [and_assoc]

theorem coo_at (L : List (Block K)) (hn : (L.map Block.key).Nodup) (hs : ∀ x ∈ L, Shaped b x) {a c i j : ℕ}
    (hi : i < b.toNorb.getD a 0) (hj : j < b.fromNorb.getD c 0) :
    (∀ h, (a, c, h) ∈ L →
      (L.map fun x => cooVal (blockEnt b x) (off b.toNorb a + i) (off b.fromNorb c + j)).sum = h.val i j) ∧
    ((a, c) ∉ L.map Block.key →
      (L.map fun x => cooVal (blockEnt b x) (off b.toNorb a + i) (off b.fromNorb c + j)).sum = 0) := by
  induction L with
  | nil => simp
  | cons x L ih =>
    simp only [List.map_cons, List.nodup_cons] at hn
    obtain ⟨i1, i2⟩ := ih hn.2 (fun y hy => hs y (by simp [hy]))
    have hx := cooVal_block b (hs x (by simp)) hi hj
    refine ⟨fun h hm => ?_, fun hm => ?_⟩
    · simp only [List.map_cons, List.sum_cons]
      rcases List.mem_cons.mp hm with rfl | hm
      · rw [i2 hn.1, hx]
        simp [Block.key]
      · rw [i1 h hm, hx, if_neg, zero_add]
        intro hk
        exact hn.1 (List.mem_map.mpr ⟨_, hm, hk.symm⟩)
    · simp only [List.map_cons, List.mem_cons, not_or] at hm
      simp only [List.map_cons, List.sum_cons]
      rw [i2 hm.2, hx, if_neg (Ne.symm hm.1), zero_add]

end Blocks
end Kwant.System
