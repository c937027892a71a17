import Mathlib.Data.Real.Basic
import Mathlib.Data.List.Nodup
import Mathlib.Logic.Function.Basic

/-!
Model of the Fibonacci heap of kwant/graph/dijkstra.pyx (l.183-401) at the level of its pointers.

Simplifications
* A pointer to a node is `Option ℕ`: the index of the node in the array `nodes`, or NULL.  The memory is the content of that array.
* `unsigned int` ranks are natural numbers; values are exact.
* Loops and recursive calls have fuel, running out of it is a fault of its own (`fuel`); following NULL is the fault `null`; an index of `roots_by_rank` outside of its 100 elements
  is the fault `overflow`.
* The field `state` belongs to the model of Dijkstra's algorithm, which is the only code that uses it; `index` is the address.
-/

set_option linter.unusedSectionVars false

namespace Kwant.Fib

/-- `FibonacciNode` (dijkstra.pyx l.195-203). -/
structure Node where
  rank : ℕ
  val : ℝ
  parent : Option ℕ
  left : Option ℕ
  right : Option ℕ
  children : Option ℕ

/-- The array `nodes`. -/
abbrev Mem := ℕ → Node

/-- What can go wrong. -/
inductive Fault where
  | null | overflow | fuel
deriving DecidableEq

/-- `FibonacciHeap` (dijkstra.pyx l.295-297), with the memory; `roots_by_rank` is only used in `remove_min`. -/
structure Heap where
  mem : Mem
  min : Option ℕ

/-! ### Assignments to fields -/

/-- `node.rank = r` -/
def setRank (m : Mem) (x : ℕ) (r : ℕ) : Mem := Function.update m x { m x with rank := r }
/-- `node.val = v` -/
noncomputable def setVal (m : Mem) (x : ℕ) (v : ℝ) : Mem := Function.update m x { m x with val := v }
/-- `node.parent = p` -/
def setParent (m : Mem) (x : ℕ) (p : Option ℕ) : Mem := Function.update m x { m x with parent := p }
/-- `node.left_sibling = p` -/
def setLeft (m : Mem) (x : ℕ) (p : Option ℕ) : Mem := Function.update m x { m x with left := p }
/-- `node.right_sibling = p` -/
def setRight (m : Mem) (x : ℕ) (p : Option ℕ) : Mem := Function.update m x { m x with right := p }
/-- `node.children = p` -/
def setChildren (m : Mem) (x : ℕ) (p : Option ℕ) : Mem := Function.update m x { m x with children := p }

/-! ### Nodes -/

/-- `initialize_node` for all nodes (dijkstra.pyx l.206-219). -/
def initMem : Mem := fun _ => ⟨0, 0, none, none, none, none⟩

/-- `rightmost_sibling` (dijkstra.pyx l.222-227). -/
def rightmost : ℕ → Mem → ℕ → Except Fault ℕ
  | 0, _, _ => .error .fuel
  | f + 1, m, x => (m x).right.elim (.ok x) fun y => rightmost f m y

/-- `leftmost_sibling` (dijkstra.pyx l.230-235). -/
def leftmost : ℕ → Mem → ℕ → Except Fault ℕ
  | 0, _, _ => .error .fuel
  | f + 1, m, x => (m x).left.elim (.ok x) fun y => leftmost f m y

/-- The assignments of `add_sibling` after the rightmost sibling `temp` is found (dijkstra.pyx l.258-263). -/
def linkSibling (m : Mem) (node new temp : ℕ) : Mem :=
  let m1 := setRight m temp (some new)
  let m2 := setLeft m1 new (some temp)
  let m3 := setRight m2 new none
  let m4 := setParent m3 new (m3 node).parent
  (m4 new).parent.elim m4 fun p => setRank m4 p ((m4 p).rank + 1)

/-- `add_sibling` (dijkstra.pyx l.253-263). -/
def addSibling (F : ℕ) (m : Mem) (node new : ℕ) : Except Fault Mem :=
  (rightmost F m node).map fun temp => linkSibling m node new temp

/-- `add_child` (dijkstra.pyx l.238-250). -/
def addChild (F : ℕ) (m : Mem) (node new : ℕ) : Except Fault Mem :=
  let m1 := setParent m new (some node)
  (m1 node).children.elim
    (.ok (setRank (setLeft (setRight (setChildren m1 node (some new)) new none) new none) node 1))
    fun c => addSibling F m1 c new

/-- The first part of `remove` (dijkstra.pyx l.268-275). -/
def removeParent (m : Mem) (x : ℕ) : Mem :=
  (m x).parent.elim m fun p =>
    let m1 := setRank m p ((m p).rank - 1)
    setChildren m1 p ((m1 x).left.elim ((m1 x).right.elim none fun r => some r) fun l => some l)

/-- `remove` (dijkstra.pyx l.266-284). -/
def remove (m : Mem) (x : ℕ) : Mem :=
  let m1 := removeParent m x
  let m2 := (m1 x).left.elim m1 fun l => setRight m1 l (m1 x).right
  let m3 := (m2 x).right.elim m2 fun r => setLeft m2 r (m2 x).left
  setParent (setRight (setLeft m3 x none) x none) x none

/-! ### Heaps -/

/-- `insert_node` (dijkstra.pyx l.300-310). -/
noncomputable def insertNode (F : ℕ) (h : Heap) (node : ℕ) : Except Fault Heap :=
  h.min.elim (.ok ⟨h.mem, some node⟩) fun mn =>
    (addSibling F h.mem mn node).map fun m => ⟨m, if (m node).val < (m mn).val then some node else some mn⟩

/-- The last two lines of `decrease_val` (dijkstra.pyx l.325-326). -/
noncomputable def lowerMin (h : Heap) (node : ℕ) : Except Fault Heap :=
  h.min.elim (.error .null) fun mn => .ok ⟨h.mem, if (h.mem node).val < (h.mem mn).val then some node else some mn⟩

/-- `decrease_val` (dijkstra.pyx l.313-326). -/
noncomputable def decreaseVal (F : ℕ) (h : Heap) (node : ℕ) (newval : ℝ) : Except Fault Heap :=
  let m := setVal h.mem node newval
  (m node).parent.elim (lowerMin ⟨m, h.min⟩ node) fun p =>
    if newval ≤ (m p).val then insertNode F ⟨remove m node, h.min⟩ node else lowerMin ⟨m, h.min⟩ node

/-- The length of `roots_by_rank` (dijkstra.pyx l.297). -/
def maxRank : ℕ := 100

/-- `link` (dijkstra.pyx l.329-351); `T` is `roots_by_rank`, `mn` is `heap.min_node`. -/
noncomputable def link (F mn : ℕ) : ℕ → Mem → (ℕ → Option ℕ) → ℕ → Except Fault (Mem × (ℕ → Option ℕ))
  | 0, _, _, _ => .error .fuel
  | f + 1, m, T, node =>
    if maxRank ≤ (m node).rank then .error .overflow
    else (T (m node).rank).elim (.ok (m, Function.update T (m node).rank (some node))) fun ln =>
      if (m node).val < (m ln).val ∨ node = mn then
        (addChild F (remove m ln) node ln).bind fun m' => link F mn f m' (Function.update T (m node).rank none) node
      else
        (addChild F (remove m node) ln node).bind fun m' => link F mn f m' (Function.update T (m node).rank none) ln

/-- The loop that makes the children of the minimum into roots (dijkstra.pyx l.367-371). -/
def moveKids (F mn : ℕ) : ℕ → Mem → Option ℕ → Except Fault Mem
  | 0, _, _ => .error .fuel
  | f + 1, m, temp => temp.elim (.ok m) fun t => (addSibling F (remove m t) mn t).bind fun m' => moveKids F mn f m' (m t).right

/-- The loop that re-links the heap (dijkstra.pyx l.394-399). -/
noncomputable def relink (F : ℕ) : ℕ → Mem → (ℕ → Option ℕ) → ℕ → Option ℕ → Except Fault (Mem × ℕ)
  | 0, _, _, _, _ => .error .fuel
  | f + 1, m, T, mn, temp => temp.elim (.ok (m, mn)) fun t =>
      let mn' := if (m t).val < (m mn).val then t else mn
      (link F mn' F m T t).bind fun r => relink F f r.1 r.2 mn' (m t).right

/-- `remove_min` from l.386 on: the minimum `mn` is removed, `temp` is the first of the other roots. -/
noncomputable def finishMin (F : ℕ) (m : Mem) (mn temp : ℕ) : Except Fault (Heap × ℕ) :=
  (relink F F (remove m mn) (fun _ => none) temp (some temp)).map fun r => (⟨r.1, some r.2⟩, mn)

/-- `remove_min` from l.376 on: choose another root. -/
noncomputable def chooseRoot (F : ℕ) (m : Mem) (mn : ℕ) : Except Fault (Heap × ℕ) :=
  (leftmost F m mn).bind fun t =>
    if t = mn then (m mn).right.elim (.ok (⟨m, none⟩, mn)) fun r => finishMin F m mn r
    else finishMin F m mn t

/-- `remove_min` (dijkstra.pyx l.354-401). -/
noncomputable def removeMin (F : ℕ) (h : Heap) : Except Fault (Heap × ℕ) :=
  h.min.elim (.error .null) fun mn =>
    (h.mem mn).children.elim (chooseRoot F h.mem mn) fun c =>
      (leftmost F h.mem c).bind fun t => (moveKids F mn F h.mem (some t)).bind fun m => chooseRoot F (setChildren m mn none) mn

end Kwant.Fib
