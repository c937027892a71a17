import Mathlib.Algebra.Group.Basic
import Mathlib.Data.Finset.Card
import Mathlib.Data.Finset.Union
import Mathlib.Data.Finset.Prod
import Mathlib.Data.Set.Finite.Basic
import Mathlib.Data.Set.Finite.Lattice

/-!
C102: kwant/lattice.py, `Polyatomic.shape` (l.129-213), the generator `shape_sites`.

Simplifications
* A set is a `Finset`; a `for` loop over a set visits its elements in an arbitrary order (`ordT`, `ordS`).
* The generator is observed through the list of the sites yielded in its first `n` rounds (`yielded`), and, when it is exhausted, through the list of all the
  yielded sites (`run`).
* `symmetry.to_fd(Site(lat, tag)).tag` is the function `fd lat tag`, `function(site.pos)` is `inside lat tag`: what these are for a lattice and a symmetry is in
  `Verif.Lattice.Lattice`.
-/

set_option linter.unusedSectionVars false

namespace Kwant.Shape

variable {T L : Type*} [AddCommGroup T] [DecidableEq T] [DecidableEq L]

/-- What the generator depends on (lattice.py l.171-190): the sublattices, `deltas`, the tag in the fundamental domain, the shape, and the set
`set(lat.closest(start) for lat in lats)`; the iteration orders of sets of tags and of sites. -/
structure Inp (T L : Type*) where
  lats : List L
  deltas : List T
  fd : L → T → T
  inside : L → T → Bool
  starts : Finset T
  ordT : Finset T → List T
  ordS : Finset (L × T) → List (L × T)

/-- A `for` loop visits every element of a set once. -/
structure OrdOk (I : Inp T L) : Prop where
  memT : ∀ s t, t ∈ I.ordT s ↔ t ∈ s
  nodupT : ∀ s, (I.ordT s).Nodup
  memS : ∀ s t, t ∈ I.ordS s ↔ t ∈ s
  nodupS : ∀ s, (I.ordS s).Nodup

variable (I : Inp T L)

/-- The initial list `sites` (l.186-191). -/
def startSites : List (L × T) :=
  (I.ordT I.starts).flatMap fun tag => I.lats.filterMap fun lat => if I.inside lat (I.fd lat tag) then some (lat, I.fd lat tag) else none

/-- `set(s.tag for s in sites)` -/
def tagsOf (sites : List (L × T)) : Finset T := (sites.map Prod.snd).toFinset

/-- `new_tags` (l.205-210) -/
def newTags (tags old : Finset T) : Finset T := tags.biUnion fun tag => ((I.deltas.map fun d => tag + d).toFinset).filter fun t => t ∉ old

/-- The new set `sites` (l.212-217) -/
def newSites (new old : Finset T) : Finset (L × T) :=
  new.biUnion fun tag => (I.lats.filterMap fun lat =>
    if I.fd lat tag ∉ old ∧ I.inside lat (I.fd lat tag) = true then some (lat, I.fd lat tag) else none).toFinset

/-- The body of the `while` loop (l.197-217) after yielding all of `sites`: the new `sites` and the new value of `tags`. -/
def round (st : List (L × T) × Finset T) : List (L × T) × Finset T :=
  let tags := tagsOf st.1
  let old := st.2 ∪ tags
  (I.ordS (newSites I (newTags I tags old) old), tags)

/-- The state before the `while` loop (l.195). -/
def start : List (L × T) × Finset T := (startSites I, tagsOf (startSites I))

/-- The `while` loop, for at most `fuel` rounds (l.197): what is yielded, if the loop ends. -/
def loop : ℕ → List (L × T) × Finset T → Option (List (L × T))
  | _, ([], _) => some []
  | 0, (_ :: _, _) => none
  | fuel + 1, (s :: l, tags) => (loop fuel (round I (s :: l, tags))).map fun out => (s :: l) ++ out

/-- The exceptions of the generator. -/
inductive Err where
  /-- `ValueError`: no site close to the start is inside the shape (l.192-194) -/
  | noSites
  deriving DecidableEq

/-- All the sites yielded by the generator, if it ends. -/
def run (fuel : ℕ) : Except Err (Option (List (L × T))) :=
  if startSites I = [] then .error .noSites else .ok (loop I fuel (start I))

/-- The sites yielded in the first `n` rounds, from some state. -/
def yielded : ℕ → List (L × T) × Finset T → List (L × T)
  | 0, _ => []
  | n + 1, st => st.1 ++ yielded n (round I st)

/-! ### Specification -/

/-- A site of the fundamental domain with that tag is in the shape. -/
def Live (t : T) : Prop := ∃ lat ∈ I.lats, I.inside lat t = true

/-- `Within τ n t`: `t` can be reached from a start tag in at most `n` steps, each by one of the vectors `deltas` followed by a translation into the fundamental
domain, through tags having a site in the shape. -/
inductive Within (τ : T → T) : ℕ → T → Prop
  | start {n t} : t ∈ I.starts → Live I (τ t) → Within τ n (τ t)
  | step {n t d} : Within τ n t → d ∈ I.deltas → Live I (τ (t + d)) → Within τ (n + 1) (τ (t + d))

/-- Reachable in any number of steps. -/
def Reachable (τ : T → T) (t : T) : Prop := ∃ n, Within I τ n t

/-- The contract between the lattice and the symmetry: translating into the fundamental domain does the same to the tags of all the sublattices, and translating
first and adding a vector leads to the same site of the fundamental domain as not translating first. -/
structure FdOk (τ : T → T) : Prop where
  same : ∀ lat ∈ I.lats, I.fd lat = τ
  coset : ∀ t d, τ (τ t + d) = τ (t + d)

/-! ### Proofs -/

variable {I} {τ : T → T}

theorem FdOk.idem (h : FdOk I τ) (t : T) : τ (τ t) = τ t := by
  have := h.coset t 0
  rwa [add_zero, add_zero] at this

theorem Within.live {n : ℕ} {t : T} (h : Within I τ n t) : Live I t := by cases h <;> assumption

theorem Within.fixed (hfd : FdOk I τ) {n : ℕ} {t : T} (h : Within I τ n t) : τ t = t := by cases h <;> exact hfd.idem _

theorem Within.mono {n m : ℕ} {t : T} (h : Within I τ n t) (hm : n ≤ m) : Within I τ m t := by
  induction h generalizing m with
  | start h1 h2 => exact .start h1 h2
  | step _ h2 h3 ih =>
    obtain ⟨k, rfl⟩ : ∃ k, m = k + 1 := ⟨m - 1, by omega⟩
    exact .step (ih (by omega)) h2 h3

/-- All the sites of the shape with tags in a set. -/
def Full (I : Inp T L) (P : T → Prop) (sites : List (L × T)) : Prop := ∀ lat t, (lat, t) ∈ sites ↔ lat ∈ I.lats ∧ I.inside lat t = true ∧ P t

theorem mem_tagsOf {sites : List (L × T)} {t : T} : t ∈ tagsOf sites ↔ ∃ lat, (lat, t) ∈ sites := by
  unfold tagsOf
  rw [List.mem_toFinset, List.mem_map]
  constructor
  · rintro ⟨⟨lat, t'⟩, h, rfl⟩; exact ⟨lat, h⟩
  · rintro ⟨lat, h⟩; exact ⟨_, h, rfl⟩

theorem tagsOf_full {P : T → Prop} {sites : List (L × T)} (h : Full I P sites) (hP : ∀ t, P t → Live I t) (t : T) : t ∈ tagsOf sites ↔ P t := by
  rw [mem_tagsOf]
  constructor
  · rintro ⟨lat, hl⟩; exact ((h lat t).mp hl).2.2
  · intro hp
    obtain ⟨lat, h1, h2⟩ := hP t hp
    exact ⟨lat, (h lat t).mpr ⟨h1, h2, hp⟩⟩

theorem start_full (ho : OrdOk I) (hfd : FdOk I τ) : Full I (Within I τ 0) (startSites I) := by
  intro lat t
  unfold startSites
  simp only [List.mem_flatMap, List.mem_filterMap]
  constructor
  · rintro ⟨tag, ht, lat', hl, he⟩
    rw [hfd.same lat' hl] at he
    split at he
    · next hi =>
      obtain ⟨rfl, rfl⟩ := Prod.mk.inj (Option.some.inj he)
      exact ⟨hl, hi, .start ((ho.memT _ _).mp ht) ⟨lat', hl, hi⟩⟩
    · cases he
  · rintro ⟨hl, hi, hw⟩
    generalize hn : 0 = n at hw
    cases hw with
    | start h1 h2 =>
      refine ⟨_, (ho.memT _ _).mpr h1, lat, hl, ?_⟩
      rw [hfd.same lat hl, if_pos hi]
    | step => cases hn

/-- The sites of layer `n`: at distance exactly `n`. -/
def Layer (I : Inp T L) (τ : T → T) : ℕ → T → Prop
  | 0, t => Within I τ 0 t
  | n + 1, t => Within I τ (n + 1) t ∧ ¬ Within I τ n t

theorem Layer.within {n : ℕ} {t : T} (h : Layer I τ n t) : Within I τ n t := by
  cases n with
  | zero => exact h
  | succ n => exact h.1

/-- The symmetric difference vectors: `-d` is one of them if `d` is. -/
def NegOk (I : Inp T L) : Prop := ∀ d ∈ I.deltas, -d ∈ I.deltas

theorem Within.back (hfd : FdOk I τ) (hneg : NegOk I) {n : ℕ} {t d : T} (ht : Live I t) (hf : τ t = t) (hd : d ∈ I.deltas)
    (h : Within I τ n (τ (t + d))) : Within I τ (n + 1) t := by
  have e : τ (τ (t + d) + -d) = t := by rw [hfd.coset, add_neg_cancel_right, hf]
  have := Within.step h (hneg d hd) (by rw [e]; exact ht)
  rwa [e] at this

theorem within_zero_iff {t : T} : Within I τ 0 t ↔ ∃ s ∈ I.starts, τ s = t ∧ Live I t := by
  constructor
  · intro h
    generalize hn : 0 = n at h
    cases h with
    | start h1 h2 => exact ⟨_, h1, rfl, h2⟩
    | step => cases hn
  · rintro ⟨s, h1, rfl, h2⟩; exact .start h1 h2

theorem within_succ {n : ℕ} {t : T} (h : Within I τ (n + 1) t) : Within I τ n t ∨ ∃ s d, Layer I τ n s ∧ d ∈ I.deltas ∧ τ (s + d) = t := by
  generalize hm : n + 1 = m at h
  induction h generalizing n with
  | start h1 h2 => left; exact .start h1 h2
  | @step k t d h1 h2 h3 ih =>
    obtain rfl : n = k := by omega
    cases n with
    | zero => right; exact ⟨t, d, h1, h2, rfl⟩
    | succ n =>
      by_cases hw : Within I τ n t
      · left; exact .step hw h2 h3
      · right; exact ⟨t, d, ⟨h1, hw⟩, h2, rfl⟩

/-- One round of the loop goes from layer `n` to layer `n + 1`. -/
theorem round_full (ho : OrdOk I) (hfd : FdOk I τ) (hneg : NegOk I) {n : ℕ} {st : List (L × T) × Finset T} (h1 : Full I (Layer I τ n) st.1)
    (h2 : ∀ t, t ∈ st.2 ↔ Layer I τ (n - 1) t) :
    Full I (Layer I τ (n + 1)) (round I st).1 ∧ ∀ t, t ∈ (round I st).2 ↔ Layer I τ n t := by
  have hlive : ∀ k t, Layer I τ k t → Live I t := fun k t h => h.within.live
  have htags : ∀ t, t ∈ tagsOf st.1 ↔ Layer I τ n t := tagsOf_full h1 (hlive n)
  refine ⟨fun lat t => ?_, htags⟩
  unfold round
  simp only [ho.memS]
  unfold newSites newTags
  simp only [Finset.mem_biUnion, Finset.mem_filter, List.mem_toFinset, List.mem_filterMap, List.mem_map, Finset.mem_union, htags, h2, not_or]
  have hfix : ∀ k t, Layer I τ k t → τ t = t := fun k t h => h.within.fixed hfd
  constructor
  · rintro ⟨u, ⟨s, hs, ⟨d, hd, rfl⟩, -⟩, lat', hl, he⟩
    rw [hfd.same lat' hl] at he
    split at he
    · next hi =>
      obtain ⟨rfl, rfl⟩ := Prod.mk.inj (Option.some.inj he)
      have hlv : Live I (τ (s + d)) := ⟨lat', hl, hi.2⟩
      rw [Finset.mem_union, htags, h2, not_or] at hi
      refine ⟨hl, hi.2, Within.step hs.within hd hlv, fun hw => ?_⟩
      -- the tag is not in an earlier layer
      cases n with
      | zero => exact hi.1.2 hw
      | succ n =>
        by_cases hw1 : Within I τ n (τ (s + d))
        · cases n with
          | zero => exact hi.1.1 hw1
          | succ n =>
            by_cases hw2 : Within I τ n (τ (s + d))
            · exact hs.2 (Within.back hfd hneg (hlive _ _ hs) (hfix _ _ hs) hd hw2)
            · exact hi.1.1 ⟨hw1, hw2⟩
        · exact hi.1.2 ⟨hw, hw1⟩
    · cases he
  · rintro ⟨hl, hi, hw, hnw⟩
    rcases within_succ hw with h | ⟨s, d, hs, hd, rfl⟩
    · exact absurd h hnw
    · have hn1 : ¬ Layer I τ (n - 1) (τ (s + d)) := fun h => hnw (h.within.mono (by omega))
      have hn2 : ¬ Layer I τ n (τ (s + d)) := fun h => hnw h.within
      refine ⟨s + d, ⟨s, hs, ⟨d, hd, rfl⟩, fun h => hn1 ?_, fun h => hn2 ?_⟩, lat, hl, ?_⟩
      · rw [hfix _ _ h]; exact h
      · rw [hfix _ _ h]; exact h
      · rw [hfd.same lat hl, if_pos ⟨by rw [Finset.mem_union, htags, h2, not_or]; exact ⟨hn1, hn2⟩, hi⟩]

/-- The state after `n` rounds. -/
def stateAt (I : Inp T L) : ℕ → List (L × T) × Finset T
  | 0 => start I
  | n + 1 => round I (stateAt I n)

theorem state_full (ho : OrdOk I) (hfd : FdOk I τ) (hneg : NegOk I) (n : ℕ) :
    Full I (Layer I τ n) (stateAt I n).1 ∧ ∀ t, t ∈ (stateAt I n).2 ↔ Layer I τ (n - 1) t := by
  induction n with
  | zero => exact ⟨start_full ho hfd, tagsOf_full (start_full ho hfd) fun t h => Within.live h⟩
  | succ n ih => exact round_full ho hfd hneg ih.1 ih.2

theorem yielded_eq (n k : ℕ) : yielded I n (stateAt I k) = (List.range n).flatMap fun i => (stateAt I (k + i)).1 := by
  induction n generalizing k with
  | zero => rfl
  | succ n ih =>
    show (stateAt I k).1 ++ yielded I n (stateAt I (k + 1)) = _
    rw [ih, List.range_succ_eq_map, List.flatMap_cons, List.flatMap_map]
    congr 1
    refine List.flatMap_congr fun i _ => ?_
    rw [Nat.add_right_comm, Nat.add_assoc]

theorem within_layer {n : ℕ} {t : T} : Within I τ n t ↔ ∃ k ≤ n, Layer I τ k t := by
  constructor
  · intro h
    induction n with
    | zero => exact ⟨0, le_rfl, h⟩
    | succ n ih =>
      by_cases hw : Within I τ n t
      · obtain ⟨k, hk, hl⟩ := ih hw; exact ⟨k, by omega, hl⟩
      · exact ⟨n + 1, le_rfl, h, hw⟩
  · rintro ⟨k, hk, hl⟩; exact hl.within.mono hk

/-- The sites yielded in the first `n + 1` rounds of the generator. -/
theorem C102_rounds (ho : OrdOk I) (hfd : FdOk I τ) (hneg : NegOk I) (n : ℕ) (lat : L) (t : T) :
    (lat, t) ∈ yielded I (n + 1) (start I) ↔ lat ∈ I.lats ∧ I.inside lat t = true ∧ Within I τ n t := by
  have h0 : start I = stateAt I 0 := rfl
  rw [h0, yielded_eq, List.mem_flatMap]
  simp only [List.mem_range, Nat.zero_add, (state_full ho hfd hneg _).1 lat t]
  rw [within_layer]
  constructor
  · rintro ⟨k, hk, h1, h2, h3⟩; exact ⟨h1, h2, k, by omega, h3⟩
  · rintro ⟨h1, h2, k, hk, h3⟩; exact ⟨k, by omega, h1, h2, h3⟩

theorem loop_nil (fuel : ℕ) (tags : Finset T) : loop I fuel ([], tags) = some [] := by cases fuel <;> rfl

theorem loop_cons (fuel : ℕ) {st : List (L × T) × Finset T} (h : st.1 ≠ []) :
    loop I (fuel + 1) st = (loop I fuel (round I st)).map fun out => st.1 ++ out := by
  obtain ⟨s, tags⟩ := st
  cases s with
  | nil => exact absurd rfl h
  | cons a l => rfl

theorem loop_zero {st : List (L × T) × Finset T} (h : st.1 ≠ []) : loop I 0 st = none := by
  obtain ⟨s, tags⟩ := st
  cases s with
  | nil => exact absurd rfl h
  | cons a l => rfl

theorem loop_state {fuel k : ℕ} {out : List (L × T)} (h : loop I fuel (stateAt I k) = some out) :
    ∃ m, (stateAt I (k + m)).1 = [] ∧ out = yielded I m (stateAt I k) ∧ m ≤ fuel := by
  induction fuel generalizing k out with
  | zero =>
    by_cases hs : (stateAt I k).1 = []
    · have e : stateAt I k = ([], (stateAt I k).2) := Prod.ext hs rfl
      rw [e, loop_nil] at h
      exact ⟨0, hs, (Option.some.inj h).symm, le_rfl⟩
    · rw [loop_zero hs] at h; cases h
  | succ fuel ih =>
    by_cases hs : (stateAt I k).1 = []
    · have e : stateAt I k = ([], (stateAt I k).2) := Prod.ext hs rfl
      rw [e, loop_nil] at h
      exact ⟨0, hs, (Option.some.inj h).symm, Nat.zero_le _⟩
    · rw [loop_cons fuel hs] at h
      obtain ⟨out', h1, h2⟩ := Option.map_eq_some_iff.mp h
      have h1' : loop I fuel (stateAt I (k + 1)) = some out' := h1
      obtain ⟨m, hm1, hm2, hm3⟩ := ih h1'
      refine ⟨m + 1, by rw [← hm1]; congr 2; omega, ?_, by omega⟩
      rw [← h2, hm2]; rfl

theorem loop_ends {k m : ℕ} (h : (stateAt I (k + m)).1 = []) : ∃ out, loop I m (stateAt I k) = some out := by
  induction m generalizing k with
  | zero =>
    have e : stateAt I k = ([], (stateAt I k).2) := Prod.ext h rfl
    exact ⟨[], by rw [e, loop_nil]⟩
  | succ m ih =>
    by_cases hs : (stateAt I k).1 = []
    · have e : stateAt I k = ([], (stateAt I k).2) := Prod.ext hs rfl
      exact ⟨[], by rw [e, loop_nil]⟩
    · obtain ⟨out, ho⟩ := ih (k := k + 1) (by rw [← h]; congr 2; omega)
      exact ⟨(stateAt I k).1 ++ out, by rw [loop_cons m hs]; show Option.map _ (loop I m (stateAt I (k + 1))) = _; rw [ho]; rfl⟩

/-- Nothing at distance `n` means nothing farther away. -/
theorem layer_empty {n : ℕ} (h : ∀ t, ¬ Layer I τ n t) {m : ℕ} (hm : n ≤ m) (t : T) : ¬ Layer I τ m t := by
  induction m, hm using Nat.le_induction generalizing t with
  | base => exact h t
  | succ m _ ih =>
    intro hl
    rcases within_succ hl.1 with h1 | ⟨s, d, hs, -, -⟩
    · exact hl.2 h1
    · exact ih s hs

theorem full_nil {P : T → Prop} (hP : ∀ t, P t → Live I t) {sites : List (L × T)} (h : Full I P sites) : sites = [] ↔ ∀ t, ¬ P t := by
  constructor
  · rintro rfl t hp
    obtain ⟨lat, h1, h2⟩ := hP t hp
    exact absurd ((h lat t).mpr ⟨h1, h2, hp⟩) List.not_mem_nil
  · intro hn
    rw [List.eq_nil_iff_forall_not_mem]
    rintro ⟨lat, t⟩ hm
    exact hn t ((h lat t).mp hm).2.2

/-- **C102**: when the flood fill ends, it has yielded exactly the sites of the shape whose tag can be reached from the tags closest to the start. -/
theorem C102_shape (ho : OrdOk I) (hfd : FdOk I τ) (hneg : NegOk I) {fuel : ℕ} {out : List (L × T)} (h : run I fuel = .ok (some out)) (lat : L) (t : T) :
    (lat, t) ∈ out ↔ lat ∈ I.lats ∧ I.inside lat t = true ∧ Reachable I τ t := by
  unfold run at h
  split at h
  · cases h
  · have hl : loop I fuel (stateAt I 0) = some out := by injection h
    obtain ⟨m, hm, rfl, -⟩ := loop_state hl
    rw [Nat.zero_add] at hm
    rw [yielded_eq, List.mem_flatMap]
    simp only [List.mem_range, Nat.zero_add, (state_full ho hfd hneg _).1 lat t]
    have he : ∀ t, ¬ Layer I τ m t := (full_nil (fun t h => h.within.live) (state_full ho hfd hneg m).1).mp hm
    constructor
    · rintro ⟨k, -, h1, h2, h3⟩; exact ⟨h1, h2, k, h3.within⟩
    · rintro ⟨h1, h2, n, hn⟩
      obtain ⟨k, -, hk⟩ := within_layer.mp hn
      refine ⟨k, ?_, h1, h2, hk⟩
      by_contra hge
      exact layer_empty he (not_lt.mp hge) t hk

/-- **C102**: the exception is raised exactly if no site with a start tag is in the shape. -/
theorem C102_exception (ho : OrdOk I) (hfd : FdOk I τ) (fuel : ℕ) :
    run I fuel = .error .noSites ↔ ∀ t ∈ I.starts, ∀ lat ∈ I.lats, I.inside lat (τ t) = false := by
  have hk : startSites I = [] ↔ ∀ t, ¬ Within I τ 0 t := full_nil (fun t h => Within.live h) (start_full ho hfd)
  have e : run I fuel = .error .noSites ↔ startSites I = [] := by
    unfold run
    split <;> simp_all
  rw [e, hk]
  constructor
  · intro h t ht lat hl
    by_contra hc
    exact h (τ t) (.start ht ⟨lat, hl, by simpa using hc⟩)
  · intro h t hw
    obtain ⟨s, hs, rfl, lat, hl, hi⟩ := within_zero_iff.mp hw
    rw [h s hs lat hl] at hi
    cases hi

/-- **C102**: the flood fill ends if and only if finitely many tags can be reached. -/
theorem C102_terminates (ho : OrdOk I) (hfd : FdOk I τ) (hneg : NegOk I) (hs : startSites I ≠ []) :
    (∃ fuel out, run I fuel = .ok (some out)) ↔ {t | Reachable I τ t}.Finite := by
  constructor
  · rintro ⟨fuel, out, h⟩
    refine (tagsOf out).finite_toSet.subset fun t ht => ?_
    obtain ⟨n, hn⟩ := ht
    obtain ⟨lat, h1, h2⟩ := hn.live
    exact mem_tagsOf.mpr ⟨lat, (C102_shape ho hfd hneg h lat t).mpr ⟨h1, h2, n, hn⟩⟩
  · intro hfin
    -- some layer is empty
    have hex : ∃ n, ∀ t, ¬ Layer I τ n t := by
      by_contra hne
      push Not at hne
      choose f hf using hne
      have hinj : Function.Injective f := by
        have hlt : ∀ a b, a < b → f a ≠ f b := by
          intro a b hab e
          obtain ⟨b, rfl⟩ : ∃ c, b = c + 1 := ⟨b - 1, by omega⟩
          exact (hf (b + 1)).2 (e ▸ (hf a).within.mono (by omega))
        intro a b e
        rcases lt_trichotomy a b with h | h | h
        · exact absurd e (hlt a b h)
        · exact h
        · exact absurd e.symm (hlt b a h)
      exact Set.infinite_range_of_injective hinj (hfin.subset (Set.range_subset_iff.mpr fun n => ⟨n, (hf n).within⟩))
    obtain ⟨n, hn⟩ := hex
    have hst : (stateAt I (0 + n)).1 = [] := by
      rw [Nat.zero_add]
      exact (full_nil (fun t h => h.within.live) (state_full ho hfd hneg n).1).mpr hn
    obtain ⟨out, hl⟩ := loop_ends hst
    refine ⟨n, out, ?_⟩
    unfold run
    rw [if_neg hs]
    exact congrArg _ hl

/-- **C102**: no site is yielded twice, provided different start tags have different tags in the fundamental domain. -/
theorem C102_nodup (ho : OrdOk I) (hfd : FdOk I τ) (hneg : NegOk I) (hl : I.lats.Nodup) (hinj : ∀ s ∈ I.starts, ∀ t ∈ I.starts, τ s = τ t → s = t) (n : ℕ) :
    (yielded I n (start I)).Nodup := by
  have h0 : start I = stateAt I 0 := rfl
  rw [h0, yielded_eq, List.nodup_flatMap]
  constructor
  · intro k _
    rw [Nat.zero_add]
    cases k with
    | zero =>
      show (startSites I).Nodup
      unfold startSites
      rw [List.nodup_flatMap]
      constructor
      · intro t ht
        refine List.Nodup.filterMap ?_ hl
        intro a b x ha hb
        rw [Option.mem_def] at ha hb
        split at ha
        · split at hb
          · rw [← Option.some.inj hb] at ha
            exact (Prod.mk.inj (Option.some.inj ha)).1
          · cases hb
        · cases ha
      · refine (ho.nodupT I.starts).imp_of_mem ?_
        intro s t hs ht hne x hx hy
        obtain ⟨a, ha, hxa⟩ := List.mem_filterMap.mp hx
        obtain ⟨b, hb, hxb⟩ := List.mem_filterMap.mp hy
        split at hxa
        · split at hxb
          · have e := (Option.some.inj hxa).trans (Option.some.inj hxb).symm
            have e2 := (Prod.mk.inj e).2
            rw [hfd.same a ha, hfd.same b hb] at e2
            exact hne (hinj s ((ho.memT _ _).mp hs) t ((ho.memT _ _).mp ht) e2)
          · cases hxb
        · cases hxa
    | succ k => exact ho.nodupS _
  · have hlt : ∀ a b, a < b → ∀ x, x ∈ (stateAt I (0 + a)).1 → x ∈ (stateAt I (0 + b)).1 → False := by
      rintro a b hab ⟨lat, t⟩ hx hy
      rw [Nat.zero_add] at hx hy
      have h1 := (((state_full ho hfd hneg a).1 lat t).mp hx).2.2
      have h2 := (((state_full ho hfd hneg b).1 lat t).mp hy).2.2
      obtain ⟨b, rfl⟩ : ∃ c, b = c + 1 := ⟨b - 1, by omega⟩
      exact h2.2 (h1.within.mono (by omega))
    exact List.pairwise_lt_range.imp fun {a b} hab x hx hy => hlt a b hab x hx hy

/-! ### Example: a site that is yielded twice

A chain with primitive vector 1 and two sublattices at 0 and 0.6, and the translational symmetry of period 1: the site of the first sublattice closest to 0 has the
tag 0, that of the second one the tag -1.  Both tags have the same representative in the fundamental domain. -/

/-- The flood fill of everything. -/
noncomputable def dup : Inp ℤ Bool where
  lats := [false, true]
  deltas := [1, -1]
  fd := fun _ _ => 0
  inside := fun _ _ => true
  starts := {0, -1}
  ordT := Finset.toList
  ordS := Finset.toList

theorem dup_ord : OrdOk dup := ⟨fun _ _ => Finset.mem_toList, fun s => Finset.nodup_toList s, fun _ _ => Finset.mem_toList, fun s => Finset.nodup_toList s⟩

theorem dup_fd : FdOk dup fun _ => 0 := ⟨fun _ _ => rfl, fun _ _ => rfl⟩

theorem dup_neg : NegOk dup := by
  intro d hd
  have : d = 1 ∨ d = -1 := by simpa [dup] using hd
  rcases this with rfl | rfl <;> simp [dup]

/-- **C102**: all the hypotheses of the other theorems hold, and sites are yielded twice. -/
theorem C102_duplicates : OrdOk dup ∧ FdOk dup (fun _ => 0) ∧ NegOk dup ∧ dup.lats.Nodup ∧ ¬ (yielded dup 1 (start dup)).Nodup := by
  refine ⟨dup_ord, dup_fd, dup_neg, by simp [dup], fun h => ?_⟩
  have e : yielded dup 1 (start dup) = startSites dup := List.append_nil _
  rw [e] at h
  have hl : (startSites dup).length = 4 := by
    unfold startSites
    rw [List.length_flatMap]
    have : (fun tag => (dup.lats.filterMap fun lat => if dup.inside lat (dup.fd lat tag) = true then some (lat, dup.fd lat tag) else none).length) = fun _ : ℤ => 2 := by
      funext tag; simp [dup]
    rw [this, List.map_const', List.sum_replicate]
    show (Finset.toList {0, -1}).length • 2 = 4
    rw [Finset.length_toList]
    rfl
  have hs : startSites dup ⊆ [(false, 0), (true, 0)] := by
    rintro ⟨lat, t⟩ hm
    obtain ⟨-, -, hw⟩ := (start_full dup_ord dup_fd lat t).mp hm
    obtain ⟨-, -, rfl, -⟩ := within_zero_iff.mp hw
    cases lat <;> simp
  have := (h.subperm hs).length_le
  rw [hl] at this
  simp at this

end Kwant.Shape
