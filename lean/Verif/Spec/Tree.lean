import Mathlib.Logic.Relation
import Mathlib.Data.List.Nodup
import Mathlib.Data.Int.Basic
import Mathlib.Data.Finset.Basic

/-! # Rooted spanning trees and their depth-first threads

Vocabulary for C08.  A rooted tree on the node type `V` is given by a parent function (`none` at the root).  The arrays of a network
simplex code store beside it a depth-first order ("thread") and data about subtrees.  `TreeRep` says that all of them describe
the same tree. -/

namespace POT.Spec

variable {V : Type*}

/-- `Anc parent u x`: following parents from `x` one reaches `u` (`u` is an ancestor of `x` or `x` itself). -/
def Anc (parent : V → Option V) (u x : V) : Prop := Relation.ReflTransGen (fun a b => parent a = some b) x u

/-- `j` is the nearest common ancestor of `u` and `v`. -/
structure IsJoin (parent : V → Option V) (j u v : V) : Prop where
  left : Anc parent j u
  right : Anc parent j v
  least : ∀ w, Anc parent w u → Anc parent w v → Anc parent w j

/-- Following the pointers `f` from `x` one visits exactly the nodes of the list and is then at `y`. -/
def Walk (f : V → V) : V → List V → V → Prop
  | x, [], y => x = y
  | x, a :: l, y => x = a ∧ Walk f (f a) l y

/-- The arrays `parent`, `thread`, `revThread`, `succNum`, `lastSucc` describe one spanning tree with root `root`, listed in the
depth-first order `L`:
* every node reaches the root along parents, the root has no parent;
* `L` lists every node once, following `thread` from the root one visits the nodes in the order `L` and comes back to the root, and
  `revThread` is the inverse of `thread`;
* for every node `u` the descendants of `u` form a block of `L` beginning with `u`; `succNum u` is the length of that block and
  `lastSucc u` its last element. -/
structure TreeRep (root : V) (parent : V → Option V) (thread revThread : V → V) (succNum : V → ℤ) (lastSucc : V → V)
    (L : List V) : Prop where
  root_none : parent root = none
  root_anc : ∀ x, Anc parent root x
  nodup : L.Nodup
  mem : ∀ x, x ∈ L
  walk : Walk thread root L root
  rev : ∀ x, revThread (thread x) = x
  block : ∀ u, ∃ P B Q, L = P ++ (u :: B) ++ Q ∧ (∀ x, x ∈ u :: B ↔ Anc parent u x) ∧
    (u :: B).getLast? = some (lastSucc u) ∧ succNum u = (u :: B).length

end POT.Spec
