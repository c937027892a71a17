import Verif.Fib.Model

/-! What a priority queue does, independent of the implementation. -/

set_option linter.unusedSectionVars false

namespace Kwant.Fib

/-- The operations on the queue.  A node that is put into the queue gets its value before. -/
inductive Op where
  | insert (x : ℕ) (v : ℝ)
  | decrease (x : ℕ) (v : ℝ)
  | removeMin

/-- The operations may be used as their comments say: nodes that are inserted are in the array of `N` nodes and not in the queue, values are only decreased, and the minimum of an empty queue
is not asked for.  `q` has the values of the nodes that are in the queue. -/
def Valid (N : ℕ) (q : ℕ → Option ℝ) : Op → Prop
  | .insert x _ => x < N ∧ q x = none
  | .decrease x v => ∃ w, q x = some w ∧ v ≤ w
  | .removeMin => ∃ x, q x ≠ none

/-- The operations, with `F` units of fuel for the loops.  The result of `remove_min` is the node. -/
noncomputable def exec (F : ℕ) (h : Heap) : Op → Except Fault (Heap × Option ℕ)
  | .insert x v => (insertNode F ⟨setVal h.mem x v, h.min⟩ x).map fun h => (h, none)
  | .decrease x v => (decreaseVal F h x v).map fun h => (h, none)
  | .removeMin => (removeMin F h).map fun r => (r.1, some r.2)

/-- What a queue contains after an operation with the result `out`. -/
noncomputable def after (q : ℕ → Option ℝ) : Op → Option ℕ → ℕ → Option ℝ
  | .insert x v, _ => Function.update q x (some v)
  | .decrease x v, _ => Function.update q x (some v)
  | .removeMin, some x => Function.update q x none
  | .removeMin, none => q

/-- The states of a heap of `N` nodes after any history of valid operations, with what the queue contains. -/
inductive Reachable (F N : ℕ) : Heap → (ℕ → Option ℝ) → Prop
  | init : Reachable F N ⟨initMem, none⟩ fun _ => none
  | step {h q op h' out} : Reachable F N h q → Valid N q op → exec F h op = .ok (h', out) → Reachable F N h' (after q op out)

end Kwant.Fib
