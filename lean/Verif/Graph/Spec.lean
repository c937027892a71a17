import Verif.Graph.Model

/-!
Specification vocabulary for the graph properties.  Nothing here refers to the arrays of a compressed
graph: everything is said in terms of the sequence of operations a user performed and of the resulting
list of accepted edges.
-/

namespace Kwant.Graph

/-- Operations of a user on a `Graph`. -/
inductive Op where
  | addEdge (tail head : Int)
  | setNumNodes (value : Int)
  deriving DecidableEq, Repr

/-- One operation (the state it leaves behind, whether or not it raises). -/
def Graph.step (g : Graph) : Op → Graph
  | .addEdge t h => (g.addEdge t h).1
  | .setNumNodes v => (g.setNumNodes v).1

/-- A history of operations on a fresh graph. -/
def run (allowNeg : Bool) (ops : List Op) : Graph := ops.foldl Graph.step (Graph.new allowNeg)

/-- An edge is acceptable iff both ends are non-negative, or exactly one is negative and negative nodes
are allowed. -/
def Acceptable (allowNeg : Bool) (t h : Int) : Prop :=
  (0 ≤ t ∧ 0 ≤ h) ∨ (allowNeg = true ∧ (0 ≤ t ∨ 0 ≤ h))

instance (a : Bool) (t h : Int) : Decidable (Acceptable a t h) := by unfold Acceptable; infer_instance

/-- The edges accepted during a history, in order of addition. -/
def accepted (allowNeg : Bool) : List Op → List Edge
  | [] => []
  | .addEdge t h :: ops => if Acceptable allowNeg t h then ⟨t, h⟩ :: accepted allowNeg ops
                            else accepted allowNeg ops
  | .setNumNodes _ :: ops => accepted allowNeg ops

/-- The numbers (positions in the order of addition) of the edges satisfying `p`, increasing. -/
def numbersOf (p : Edge → Bool) (es : List Edge) : List Nat :=
  (List.range es.length).filter fun i => match es[i]? with
    | some e => p e
    | none => false

/-- `e` is stored before `f` because of its tail: smaller non-negative tail; negative tails are last. -/
def tailBefore (e f : Edge) : Bool := decide (0 ≤ e.tail ∧ (f.tail < 0 ∨ e.tail < f.tail))
/-- Same tail, all negative tails counting as the same. -/
def tailSame (e f : Edge) : Bool := decide (e.tail = f.tail ∨ (e.tail < 0 ∧ f.tail < 0))

/-- The ID of the edge with number `i`: edges are ordered by tail (negative tails last), then by number;
the ID is the position in this order. -/
def specId (es : List Edge) (i : Nat) : Nat :=
  match es[i]? with
  | none => 0
  | some e => (es.filter (tailBefore · e)).length + ((es.take i).filter (tailSame · e)).length

end Kwant.Graph
