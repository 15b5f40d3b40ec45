import Verif.Model.RTree

/-!
# Specification vocabulary for spatial trees
-/

namespace Marco
namespace Spec

/-- The points of box `a` are points of box `b`. -/
def SubB (a b : Box) : Prop := ∀ p, InB p a → InB p b

/-- A well-formed box of rank `k`. -/
def Ranked (k : Nat) (b : Box) : Prop := b.Valid ∧ b.length = k

/-- Every node of a subtree satisfies `P`. -/
inductive AllNodes (P : Node → Prop) : Node → Prop
  | mk {n : Node} : P n → (∀ c ∈ n.ch, AllNodes P c) → AllNodes P n

/-- One node of a spatial tree of rank `k`: it holds either children or objects, and its
boundary covers the boundaries of the former and the points of the latter. -/
structure NodeCovers (k : Nat) (n : Node) : Prop where
  bd : Ranked k n.bd
  excl : n.ch = [] ∨ n.obs = []
  obs : ∀ o ∈ n.obs, Ranked k o ∧ SubB o n.bd
  ch : ∀ c ∈ n.ch, SubB c.bd n.bd

/-- A spatial tree whose node boundaries cover their descendants. -/
def Covers (k : Nat) (n : Node) : Prop := AllNodes (NodeCovers k) n

/-- `b` is the minimum bounding box of the boxes of `l`: it covers them and is covered by every
box of the same rank that covers them. -/
def IsMBR (b : Box) (l : List Box) : Prop :=
  (∀ o ∈ l, SubB o b) ∧ ∀ b' : Box, b'.length = b.length → (∀ o ∈ l, SubB o b') → SubB b b'

end Spec
end Marco

namespace Marco
namespace Spec

/-- All the leaves of the subtree are `d` levels below its root. -/
inductive Uniform : Nat → Node → Prop
  | leaf {n : Node} : n.ch = [] → Uniform 0 n
  | inner {n : Node} {d : Nat} : n.ch ≠ [] → (∀ c ∈ n.ch, Uniform d c) → Uniform (d + 1) n

end Spec

namespace Node
mutual
/-- The addresses of the nodes of a subtree. -/
def ids : Node → List Nat
  | .mk i _ ch _ => i :: idsL ch
/-- The addresses of the nodes of a list of subtrees. -/
def idsL : List Node → List Nat
  | [] => []
  | c :: cs => ids c ++ idsL cs
end
end Node
end Marco
