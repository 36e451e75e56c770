import Verif.Spec.GraphOps

/-!
# Families of graphs, as relations on the vertices
-/

namespace ICPC.Spec.Family

/-- Vertices of a complete tree of height `h` in which every inner vertex has `c` children. -/
def treeSize (c : Nat) : Nat → Nat
  | 0 => 1
  | h + 1 => 1 + c * treeSize c h

/-- That tree with its subtrees one after the other: the children of the root 0 are the first vertices of the subtrees. -/
def TreeEdge (c : Nat) : Nat → Int → Int → Prop
  | 0, _, _ => False
  | h + 1, u, v => ∃ i : Nat, i < c ∧ ((u = 0 ∧ v = 1 + i * treeSize c h) ∨ TreeEdge c h (u - (1 + i * treeSize c h)) (v - (1 + i * treeSize c h)))

/-- Numbers that differ in exactly one of the `d` lowest bits. -/
def CubeEdge (d : Nat) (u v : Int) : Prop := ∃ x y k : Nat, u = x ∧ v = y ∧ x < 2 ^ d ∧ y < 2 ^ d ∧ k < d ∧
  ∀ i, (x.testBit i ≠ y.testBit i ↔ i = k)

/-- The set of bits `v` is `u` without one element. -/
def CoverEdge (d : Nat) (u v : Int) : Prop := ∃ x y k : Nat, u = x ∧ v = y ∧ x < 2 ^ d ∧ x.testBit k = true ∧
  ∀ i, y.testBit i = (x.testBit i && decide (i ≠ k))

/-- Bit `i` of `j` is set. -/
def RadoEdge (n : Nat) (i j : Int) : Prop := ∃ x y : Nat, i = x ∧ j = y ∧ x < y ∧ y < n ∧ y.testBit x = true

end ICPC.Spec.Family
