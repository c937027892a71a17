import Verif.Builder.Props
import Mathlib.Logic.Function.Iterate

/-!
# C31: general keys;  C33: `HoppingKind`

## Model of `Builder.expand` and of assignment/deletion with general keys (builder.py l.1016-1055,
l.1131-1138, l.1174-1181)

`expand` is a generator: function keys are called, and iterables are advanced, while the consumer mutates the
builder.  The model is a machine whose state contains the builder.
Simplifications: iterables are finite lists of keys that do not depend on the builder (a generator function
of the builder is a `fn` key) and do not raise.
-/
set_option linter.unusedSectionVars false

namespace Kwant.Builder
open Kwant Kwant.Assoc

/-- Keys (builder.py l.1026-1034): simple keys, iterables of keys, functions of the builder that return a key,
and objects that are no keys. -/
inductive Key (B K : Type) where
  | leaf (k : K)
  | seq (l : List (Key B K))
  | fn (g : B → Key B K)
  | bad

section
variable {B K ε : Type} (f : B → K → B × Option ε) (typeErr : ε)

/-- State of the machine: builder, remaining items of `itr`, `iter_stack` (without the sentinel `None`),
and the exception when one was raised. -/
structure Machine (B K ε : Type) where
  b : B
  itr : List (Key B K)
  stack : List (List (Key B K))
  err : Option ε

/-- One step of the loops of `expand` (builder.py l.1037-1055), with the consumer `f` called for every
yielded simple key. -/
def Machine.step (m : Machine B K ε) : Machine B K ε :=
  match m.err with
  | some _ => m
  | none =>
    match m.itr with
    | [] =>
      match m.stack with
      | [] => m
      | it :: st => { m with itr := it, stack := st }
    | .leaf k :: rest => { m with b := (f m.b k).1, err := (f m.b k).2, itr := rest }
    | .seq l :: rest => { m with itr := l, stack := rest :: m.stack }
    | .fn g :: rest => { m with itr := g m.b :: rest }
    | .bad :: rest => { m with err := some typeErr, itr := rest }

/-- Start of `expand` (builder.py l.1037-1038). -/
def Machine.start (b : B) (key : Key B K) : Machine B K ε := ⟨b, [key], [], none⟩

/-- The machine has stopped: exhausted or an exception was raised. -/
def Machine.Stopped (m : Machine B K ε) : Prop := m.err ≠ none ∨ (m.itr = [] ∧ m.stack = [])

/-! ### Specification -/

mutual
/-- What an operation with a general key means, by recursion over the key. -/
def Key.run : Key B K → B → B × Option ε
  | .leaf k, b => f b k
  | .seq l, b => Key.runList l b
  | .fn g, b => (g b).run b
  | .bad, b => (b, some typeErr)
/-- One key after the other, until an exception is raised. -/
def Key.runList : List (Key B K) → B → B × Option ε
  | [], b => (b, none)
  | k :: l, b =>
    match k.run b with
    | (b', some e) => (b', some e)
    | (b', none) => Key.runList l b'
end

mutual
/-- The simple keys in a key without functions, from left to right (`none` if there is something else). -/
def Key.leaves : Key B K → Option (List K)
  | .leaf k => some [k]
  | .seq l => Key.leavesList l
  | .fn _ => none
  | .bad => none
def Key.leavesList : List (Key B K) → Option (List K)
  | [] => some []
  | k :: l => do return (← k.leaves) ++ (← Key.leavesList l)
end

/-- Apply `f` to each of the simple keys in turn, until an exception is raised. -/
def runLeaves : List K → B → B × Option ε
  | [], b => (b, none)
  | k :: l, b =>
    match f b k with
    | (b', some e) => (b', some e)
    | (b', none) => runLeaves l b'

/-! ### Proofs -/

variable {f typeErr}

theorem Key.run_leaf (k : K) (b : B) : Key.run f typeErr (.leaf k) b = f b k := by rw [Key.run]
theorem Key.run_seq (l : List (Key B K)) (b : B) : Key.run f typeErr (.seq l) b = Key.runList f typeErr l b := by
  rw [Key.run]
theorem Key.run_fn (g : B → Key B K) (b : B) : Key.run f typeErr (.fn g) b = (g b).run f typeErr b := by rw [Key.run]
theorem Key.run_bad (b : B) : Key.run f typeErr (.bad : Key B K) b = (b, some typeErr) := by rw [Key.run]
theorem Key.runList_nil (b : B) : Key.runList f typeErr [] b = (b, none) := by rw [Key.runList]
theorem Key.runList_cons (k : Key B K) (l : List (Key B K)) (b : B) : Key.runList f typeErr (k :: l) b =
    match k.run f typeErr b with
    | (b', some e) => (b', some e)
    | (b', none) => Key.runList f typeErr l b' := by rw [Key.runList]

/-- Outcome of working off a part of the machine's state. -/
def Reaches (m : Machine B K ε) (r : B × Option ε) (itr : List (Key B K)) (stack : List (List (Key B K))) : Prop :=
  ∃ n, match r.2 with
    | none => (Machine.step f typeErr)^[n] m = ⟨r.1, itr, stack, none⟩
    | some e => ((Machine.step f typeErr)^[n] m).b = r.1 ∧ ((Machine.step f typeErr)^[n] m).err = some e

theorem Reaches.step {m : Machine B K ε} {r : B × Option ε} {itr stack}
    (h : Reaches (f := f) (typeErr := typeErr) (m.step f typeErr) r itr stack) :
    Reaches (f := f) (typeErr := typeErr) m r itr stack := by
  obtain ⟨n, hn⟩ := h
  exact ⟨n + 1, by simpa only [Function.iterate_succ_apply] using hn⟩

theorem Reaches.trans {m : Machine B K ε} {b : B} {r : B × Option ε} {itr stack itr' stack'}
    (h1 : Reaches (f := f) (typeErr := typeErr) m (b, none) itr stack)
    (h2 : Reaches (f := f) (typeErr := typeErr) ⟨b, itr, stack, none⟩ r itr' stack') :
    Reaches (f := f) (typeErr := typeErr) m r itr' stack' := by
  obtain ⟨n, hn⟩ := h1
  obtain ⟨k, hk⟩ := h2
  simp only at hn
  refine ⟨k + n, ?_⟩
  rw [Function.iterate_add_apply, hn]
  exact hk

mutual
theorem run_reaches (key : Key B K) (b : B) (rest : List (Key B K)) (stack : List (List (Key B K))) :
    Reaches (f := f) (typeErr := typeErr) ⟨b, key :: rest, stack, none⟩ (key.run f typeErr b) rest stack := by
  match key with
  | .leaf k =>
    rw [Key.run_leaf]
    refine ⟨1, ?_⟩
    cases hf : f b k with
    | mk b' e => cases e <;> simp [Machine.step, hf]
  | .seq l =>
    rw [Key.run_seq]
    exact Reaches.step (runList_reaches l b rest stack)
  | .fn g =>
    rw [Key.run_fn]
    exact Reaches.step (run_reaches (g b) b rest stack)
  | .bad =>
    rw [Key.run_bad]
    exact ⟨1, by simp [Machine.step]⟩
theorem runList_reaches (l : List (Key B K)) (b : B) (rest : List (Key B K)) (stack : List (List (Key B K))) :
    Reaches (f := f) (typeErr := typeErr) ⟨b, l, rest :: stack, none⟩ (Key.runList f typeErr l b) rest stack := by
  match l with
  | [] =>
    rw [Key.runList_nil]
    exact ⟨1, rfl⟩
  | k :: l =>
    rw [Key.runList_cons]
    have h1 := run_reaches k b l (rest :: stack)
    cases hk : k.run f typeErr b with
    | mk b' e =>
      rw [hk] at h1
      cases e with
      | none => exact h1.trans (runList_reaches l b' rest stack)
      | some e => 
        obtain ⟨n, hn⟩ := h1
        exact ⟨n, hn⟩
end

/-- C31: for every key, however nested, the explicit iterator stack of `expand` terminates and does what the
recursive reading of the key says: the consumer is applied to the simple keys in order, functions are
called with the builder as it is when their turn comes, and nothing happens after an exception. -/
theorem C31_expand (key : Key B K) (b : B) :
    ∃ n, ∀ k ≥ n, ((Machine.step f typeErr)^[k] (Machine.start b key)).Stopped ∧
      ((Machine.step f typeErr)^[k] (Machine.start b key)).b = (key.run f typeErr b).1 ∧
      ((Machine.step f typeErr)^[k] (Machine.start b key)).err = (key.run f typeErr b).2 := by
  obtain ⟨n, hn⟩ := run_reaches (f := f) (typeErr := typeErr) key b [] []
  refine ⟨n, fun k hk => ?_⟩
  obtain ⟨d, rfl⟩ := Nat.exists_eq_add_of_le hk
  rw [Nat.add_comm, Function.iterate_add_apply]
  have hfix : ∀ m : Machine B K ε, m.Stopped → (Machine.step f typeErr)^[d] m = m := by
    intro m hm
    refine Function.iterate_fixed ?_ d
    unfold Machine.step
    rcases hm with h | ⟨h1, h2⟩
    · cases he : m.err with
      | none => exact absurd he h
      | some e => rfl
    · cases he : m.err with
      | none => simp [h1, h2]
      | some e => rfl
  cases hr : (key.run f typeErr b).2 with
  | none =>
    rw [hr] at hn
    simp only at hn
    have : (Machine.step f typeErr)^[n] (Machine.start b key) = ⟨(key.run f typeErr b).1, [], [], none⟩ := hn
    rw [this, hfix _ (.inr ⟨rfl, rfl⟩)]
    exact ⟨.inr ⟨rfl, rfl⟩, rfl, rfl⟩
  | some e =>
    rw [hr] at hn
    have hn' : ((Machine.step f typeErr)^[n] (Machine.start b key)).b = (key.run f typeErr b).1 ∧
      ((Machine.step f typeErr)^[n] (Machine.start b key)).err = some e := hn
    have hst : ((Machine.step f typeErr)^[n] (Machine.start b key)).Stopped := .inl (by rw [hn'.2]; simp)
    rw [hfix _ hst]
    exact ⟨hst, hn'⟩

theorem runLeaves_append (l l' : List K) (b : B) : runLeaves f (l ++ l') b =
    match runLeaves f l b with
    | (b', some e) => (b', some e)
    | (b', none) => runLeaves f l' b' := by
  induction l generalizing b with
  | nil => rfl
  | cons k l ih =>
    simp only [List.cons_append, runLeaves]
    cases f b k with
    | mk b' e => cases e with
      | none => simp only [ih]
      | some e => rfl

mutual
/-- C31: a key made of nested iterables of simple keys means: each of its leaves in turn, from left to
right. -/
theorem C31_leaves (key : Key B K) (l : List K) (hl : key.leaves = some l) (b : B) :
    key.run f typeErr b = runLeaves f l b := by
  match key with
  | .leaf k =>
    rw [Key.leaves] at hl
    obtain rfl := Option.some.inj hl
    rw [Key.run_leaf]
    simp only [runLeaves]
    cases f b k with
    | mk b' e => cases e <;> rfl
  | .seq ks =>
    rw [Key.leaves] at hl
    rw [Key.run_seq]
    exact runList_leaves ks l hl b
  | .fn g => rw [Key.leaves] at hl; cases hl
  | .bad => rw [Key.leaves] at hl; cases hl
theorem runList_leaves (ks : List (Key B K)) (l : List K) (hl : Key.leavesList ks = some l) (b : B) :
    Key.runList f typeErr ks b = runLeaves f l b := by
  match ks with
  | [] =>
    rw [Key.leavesList] at hl
    obtain rfl := Option.some.inj hl
    rw [Key.runList_nil]; rfl
  | k :: ks =>
    rw [Key.leavesList] at hl
    cases h1 : k.leaves with
    | none => rw [h1] at hl; cases hl
    | some l1 =>
      cases h2 : Key.leavesList ks with
      | none => rw [h1, h2] at hl; cases hl
      | some l2 =>
        rw [h1, h2] at hl
        obtain rfl : l1 ++ l2 = l := by simpa using hl
        rw [Key.runList_cons, C31_leaves k l1 h1 b, runLeaves_append]
        cases runLeaves f l1 b with
        | mk b' e => cases e with
          | none => exact runList_leaves ks l2 h2 b'
          | some e => rfl
end

mutual
theorem run_inv (P : B → Prop) (hP : ∀ b k, P b → P (f b k).1) (key : Key B K) (b : B) (hb : P b) :
    P (key.run f typeErr b).1 := by
  match key with
  | .leaf k => rw [Key.run_leaf]; exact hP b k hb
  | .seq l => rw [Key.run_seq]; exact runList_inv P hP l b hb
  | .fn g => rw [Key.run_fn]; exact run_inv P hP (g b) b hb
  | .bad => rw [Key.run_bad]; exact hb
theorem runList_inv (P : B → Prop) (hP : ∀ b k, P b → P (f b k).1) (l : List (Key B K)) (b : B) (hb : P b) :
    P (Key.runList f typeErr l b).1 := by
  match l with
  | [] => rw [Key.runList_nil]; exact hb
  | k :: l =>
    rw [Key.runList_cons]
    have := run_inv P hP k b hb
    cases hk : k.run f typeErr b with
    | mk b' e =>
      rw [hk] at this
      cases e with
      | none => exact runList_inv P hP l b' this
      | some e => exact this
end

end

/-! ### Assignment and deletion with general keys -/

variable {S G V Fn : Type} [DecidableEq S] [AddCommGroup G] [DecidableEq G]
variable {sym : Symmetry S G} {H : HMap S V Fn}

/-- State of the loops of `__setitem__` and `__delitem__`: the contents and the variable `func`
(`some true`: sites, `some false`: hoppings). -/
abbrev ItemState (S V Fn : Type) := HMap S V Fn × Option Bool

/-- Body of the loop of `__setitem__` (builder.py l.1134-1138): the kind of the first simple key decides; a key
of the other kind raises `TypeError`. -/
def setLeaf (sym : Symmetry S G) (v : Val V Fn) (st : ItemState S V Fn) (k : S ⊕ S × S) :
    ItemState S V Fn × Option (Err S) :=
  match st.2.getD k.isLeft, k with
  | true, .inl s => ((setSite sym st.1 s v, some true), none)
  | false, .inr h => (((setHop sym st.1 h.1 h.2 v).1, some false), (setHop sym st.1 h.1 h.2 v).2)
  | m, _ => ((st.1, some m), some .type)

/-- Body of the loop of `__delitem__` (builder.py l.1177-1181). -/
def delLeaf (sym : Symmetry S G) (st : ItemState S V Fn) (k : S ⊕ S × S) : ItemState S V Fn × Option (Err S) :=
  match st.2.getD k.isLeft, k with
  | true, .inl s => (((delSite sym st.1 s).1, some true), (delSite sym st.1 s).2)
  | false, .inr h => (((delHop sym st.1 h.1 h.2).1, some false), (delHop sym st.1 h.1 h.2).2)
  | m, _ => ((st.1, some m), some .type)

/-- `builder[key] = v`, by the stack machine run for `n` steps. -/
def setItem (sym : Symmetry S G) (v : Val V Fn) (H : HMap S V Fn) (key : Key (ItemState S V Fn) (S ⊕ S × S)) (n : ℕ) :
    Machine (ItemState S V Fn) (S ⊕ S × S) (Err S) :=
  (Machine.step (setLeaf sym v) .type)^[n] (.start (H, none) key)

/-- `del builder[key]`, by the stack machine run for `n` steps. -/
def delItem (sym : Symmetry S G) (H : HMap S V Fn) (key : Key (ItemState S V Fn) (S ⊕ S × S)) (n : ℕ) :
    Machine (ItemState S V Fn) (S ⊕ S × S) (Err S) :=
  (Machine.step (delLeaf sym) .type)^[n] (.start (H, none) key)

/-- The builder stays reachable (hence well-formed, C20) at every step of an assignment or deletion with
any key, in particular when an exception interrupts it half-way. -/
theorem C31_reachable (h : Reachable sym H) (v : Val V Fn) (key : Key (ItemState S V Fn) (S ⊕ S × S)) (n : ℕ) :
    Reachable sym (setItem sym v H key n).b.1 ∧ Reachable sym (delItem sym H key n).b.1 := by
  have gen : ∀ (f : ItemState S V Fn → S ⊕ S × S → ItemState S V Fn × Option (Err S)),
      (∀ st k, Reachable sym st.1 → Reachable sym (f st k).1.1) →
      Reachable sym ((Machine.step f .type)^[n] (.start (H, none) key)).b.1 := by
    intro f hf
    induction n with
    | zero => exact h
    | succ n ih =>
      rw [Function.iterate_succ_apply']
      unfold Machine.step
      split
      · exact ih
      · split
        · split
          · exact ih
          · exact ih
        · exact hf _ _ ih
        · exact ih
        · exact ih
        · exact ih
  constructor
  · refine gen _ fun st k hst => ?_
    unfold setLeaf
    split
    · exact .setSite _ _ hst
    · exact .setHop _ _ _ hst
    · exact hst
  · refine gen _ fun st k hst => ?_
    unfold delLeaf
    split
    · exact .delSite _ hst
    · exact .delHop _ _ hst
    · exact hst

/-- Setting a nested collection of sites sets each of them in turn, and never fails. -/
theorem C31_setSites (v : Val V Fn) (key : Key (ItemState S V Fn) (S ⊕ S × S)) (l : List S)
    (hl : key.leaves = some (l.map Sum.inl)) :
    ∃ n, ∀ k ≥ n, (setItem sym v H key k).Stopped ∧ (setItem sym v H key k).err = none ∧
      (setItem sym v H key k).b.1 = l.foldl (fun H s => setSite sym H s v) H := by
  obtain ⟨n, hn⟩ := C31_expand (f := setLeaf sym v) (typeErr := .type) key (H, none)
  refine ⟨n, fun k hk => ?_⟩
  obtain ⟨h1, h2, h3⟩ := hn k hk
  rw [C31_leaves key _ hl] at h2 h3
  have key : ∀ (l : List S) (H : HMap S V Fn) (m : Option Bool), m ≠ some false →
      (runLeaves (setLeaf sym v) (l.map Sum.inl) (H, m)).2 = none ∧
      (runLeaves (setLeaf sym v) (l.map Sum.inl) (H, m)).1.1 = l.foldl (fun H s => setSite sym H s v) H := by
    intro l
    induction l with
    | nil => intro H m _; exact ⟨rfl, rfl⟩
    | cons s l ih =>
      intro H m hm
      have hm' : m.getD true = true := by
        cases m with
        | none => rfl
        | some b => cases b <;> simp at hm ⊢
      have : setLeaf sym v (H, m) (.inl s) = ((setSite sym H s v, some true), none) := by
        unfold setLeaf
        simp [hm']
      simp only [List.map_cons, runLeaves, this, List.foldl_cons]
      exact ih _ _ (by simp)
  obtain ⟨k1, k2⟩ := key l H none (by simp)
  exact ⟨h1, by rw [← k1]; exact h3, by rw [← k2]; exact congrArg Prod.fst h2⟩

/-- Setting a nested collection of hoppings sets each of them in turn and stops at the first failure. -/
theorem C31_setHops (v : Val V Fn) (key : Key (ItemState S V Fn) (S ⊕ S × S)) (l : List (S × S))
    (hl : key.leaves = some (l.map Sum.inr)) :
    ∃ n, ∀ k ≥ n, (setItem sym v H key k).Stopped ∧
      ((setItem sym v H key k).b.1, (setItem sym v H key k).err) =
        l.foldl (fun r h => Res.seq r fun H => setHop sym H h.1 h.2 v) (H, none) := by
  obtain ⟨n, hn⟩ := C31_expand (f := setLeaf sym v) (typeErr := .type) key (H, none)
  refine ⟨n, fun k hk => ?_⟩
  obtain ⟨h1, h2, h3⟩ := hn k hk
  rw [C31_leaves key _ hl] at h2 h3
  have stop : ∀ (l : List (S × S)) (H : HMap S V Fn) (e : Err S),
      l.foldl (fun r h => Res.seq r fun H => setHop sym H h.1 h.2 v) (H, some e) = (H, some e) := by
    intro l
    induction l with
    | nil => intro H e; rfl
    | cons h l ih => intro H e; simp only [List.foldl_cons, Res.seq]; exact ih H e
  have key : ∀ (l : List (S × S)) (H : HMap S V Fn) (m : Option Bool), m ≠ some true →
      ((runLeaves (setLeaf sym v) (l.map Sum.inr) (H, m)).1.1, (runLeaves (setLeaf sym v) (l.map Sum.inr) (H, m)).2)
        = l.foldl (fun r h => Res.seq r fun H => setHop sym H h.1 h.2 v) (H, none) := by
    intro l
    induction l with
    | nil => intro H m _; rfl
    | cons s l ih =>
      intro H m hm
      have hm' : m.getD false = false := by
        cases m with
        | none => rfl
        | some b => cases b <;> simp at hm ⊢
      have : setLeaf sym v (H, m) (.inr s) =
          (((setHop sym H s.1 s.2 v).1, some false), (setHop sym H s.1 s.2 v).2) := by
        unfold setLeaf
        simp [hm']
      simp only [List.map_cons, runLeaves, this, List.foldl_cons, Res.seq]
      cases hs : setHop sym H s.1 s.2 v with
      | mk H' e =>
        cases e with
        | none => exact ih H' (some false) (by simp)
        | some e => exact (stop l H' e).symm
  rw [← key l H none (by simp)]
  exact ⟨h1, by rw [← h2, ← h3]; rfl⟩

/-- A nested key: two levels of lists, an empty list, and a function of the builder. -/
def exampleKey : Key (ItemState (ℤ × ℕ) ℤ ℕ) ((ℤ × ℕ) ⊕ (ℤ × ℕ) × (ℤ × ℕ)) :=
  .seq [.leaf (.inl (0, 5)), .seq [.seq [], .leaf (.inl (3, 6))], .fn fun st => .leaf (.inl (0, st.1.length))]

example : sites (setItem chainSym (.const 2) exampleH exampleKey 20).b.1 =
    [(0, 0), (0, 1), (0, 5), (0, 6), (0, 4)] := by decide
example : (Key.seq [.leaf (.inl (0, 5)), .seq [.seq [], .leaf (.inl (3, 6))]] :
    Key (ItemState (ℤ × ℕ) ℤ ℕ) ((ℤ × ℕ) ⊕ (ℤ × ℕ) × (ℤ × ℕ))).leaves = some ([(0, 5), (3, 6)].map Sum.inl) := rfl

/-! ## C33: `HoppingKind` -/

/-- Sites with a family and a tag. -/
structure TSite (F T : Type) where
  family : F
  tag : T
deriving DecidableEq

variable {F T : Type} [DecidableEq F] [AddCommGroup T] [DecidableEq T] {symS : Symmetry (TSite F T) G}
variable {HS : HMap (TSite F T) V Fn}

/-- `HoppingKind.__call__` (builder.py l.439-451). -/
def hoppingKind (sym : Symmetry (TSite F T) G) (delta : T) (famA famB : F) (H : HMap (TSite F T) V Fn) :
    List (TSite F T × TSite F T) :=
  (keys H).filterMap fun a =>
    if a.family ≠ famA then none
    else if sym.toFd ⟨famB, a.tag - delta⟩ ∈ keys H then some (a, ⟨famB, a.tag - delta⟩) else none

/-- C33: the hoppings are those that match the kind, start in the fundamental domain, and have both ends in the
builder; each appears once. -/
theorem C33_hoppingKind (h : Reachable symS HS) (delta : T) (famA famB : F) :
    (hoppingKind symS delta famA famB HS).Nodup ∧
    ∀ a b, (a, b) ∈ hoppingKind symS delta famA famB HS ↔
      symS.inFd a = true ∧ HasSite symS HS a ∧ HasSite symS HS b ∧
      a.family = famA ∧ b.family = famB ∧ a.tag - b.tag = delta := by
  obtain ⟨hl, w⟩ := h.wf
  constructor
  · refine List.Nodup.filterMap ?_ w.keys
    intro a a' p hp hp'
    simp only [Option.mem_def] at hp hp'
    split at hp
    · cases hp
    · split at hp
      · split at hp'
        · cases hp'
        · split at hp'
          · rw [← hp'] at hp
            exact (Prod.mk.inj (Option.some.inj hp)).1
          · cases hp'
      · cases hp
  · intro a b
    unfold hoppingKind
    rw [List.mem_filterMap]
    constructor
    · rintro ⟨a', ha', he⟩
      split at he
      · cases he
      · rename_i hf
        split at he
        · rename_i hb
          obtain ⟨rfl, rfl⟩ := Prod.mk.inj (Option.some.inj he)
          have h0 := w.fd _ ha'
          refine ⟨by simp [Symmetry.inFd, h0], ?_, hasSite_iff.mpr hb, by simpa using hf, rfl, by simp⟩
          rw [hasSite_iff, hl.toFd_of_which h0]
          exact ha'
        · cases he
    · rintro ⟨h1, h2, h3, h4, h5, h6⟩
      have h0 : symS.which a = 0 := by simpa [Symmetry.inFd] using h1
      rw [hasSite_iff, hl.toFd_of_which h0] at h2
      have hb : (⟨famB, a.tag - delta⟩ : TSite F T) = b := by
        obtain ⟨bf, bt⟩ := b
        simp only at h5 h6
        subst h5
        simp [← h6]
      refine ⟨a, h2, ?_⟩
      rw [if_neg (by simpa using h4), hb, if_pos (hasSite_iff.mp h3)]

/-- C33, up to symmetry: if the symmetry translates the tags of both families in the same way, every hopping
of the infinite system that matches the kind and has both ends in the builder has exactly one image in the
result. -/
theorem C33_hoppingKind_orbit (h : Reachable symS HS) (delta : T) (famA famB : F)
    (htr : ∀ g, ∃ t : T, ∀ s : TSite F T, s.family = famA ∨ s.family = famB → symS.act g s = ⟨s.family, s.tag + t⟩)
    (x y : TSite F T) (hx : HasSite symS HS x) (hy : HasSite symS HS y) (hfx : x.family = famA)
    (hfy : y.family = famB) (hd : x.tag - y.tag = delta) :
    ∃! p, p ∈ hoppingKind symS delta famA famB HS ∧ HopEquiv symS x y p.1 p.2 := by
  have hl := h.lawful
  obtain ⟨_, hm⟩ := C33_hoppingKind h delta famA famB
  obtain ⟨t, ht⟩ := htr (-symS.which x)
  refine ⟨symS.toFd2 x y, ⟨?_, -symS.which x, rfl, rfl⟩, ?_⟩
  · have e1 : symS.act (-symS.which x) x = ⟨famA, x.tag + t⟩ := by rw [ht x (.inl hfx), hfx]
    have e2 : symS.act (-symS.which x) y = ⟨famB, y.tag + t⟩ := by rw [ht y (.inr hfy), hfy]
    have : symS.toFd2 x y = (symS.act (-symS.which x) x, symS.act (-symS.which x) y) := rfl
    rw [this, hm]
    refine ⟨?_, ?_, ?_, ?_, ?_, ?_⟩
    · simp [Symmetry.inFd, hl.which_act]
    · rw [hasSite_iff, hl.toFd_act]; exact hasSite_iff.mp hx
    · rw [hasSite_iff, hl.toFd_act]; exact hasSite_iff.mp hy
    · rw [e1]
    · rw [e2]
    · rw [e1, e2]; simpa using hd
  · rintro ⟨a, b⟩ ⟨hp, g, ha, hb⟩
    simp only at ha hb
    rw [hm] at hp
    have h0 : symS.which a = 0 := by simpa [Symmetry.inFd] using hp.1
    rw [ha, hl.which_act] at h0
    have hg : g = -symS.which x := eq_neg_of_add_eq_zero_left h0
    rw [ha, hb, hg]
    rfl

/-- A one-dimensional lattice with period 2. -/
def evenSym : Symmetry (TSite ℕ ℤ) ℤ := ⟨fun g s => ⟨s.family, s.tag + 2 * g⟩, fun s => s.tag / 2⟩

theorem evenSym_lawful : evenSym.Lawful where
  act_zero := fun s => by simp [evenSym]
  act_add := fun g h s => by simp [evenSym]; ring
  which_act := fun g s => by simp only [evenSym]; omega
  torsion := fun g hg => by omega

example : hoppingKind evenSym 1 0 0
    (setSite evenSym (setSite evenSym ([] : HMap (TSite ℕ ℤ) ℤ ℕ) ⟨0, 4⟩ (.const 0)) ⟨0, 7⟩ (.const 0)) =
    [(⟨0, 0⟩, ⟨0, -1⟩), (⟨0, 1⟩, ⟨0, 0⟩)] := by decide

end Kwant.Builder
