import Mathlib.Data.List.Basic

/-! # Vocabulary for batches of graphs -/

namespace POT.Spec

variable {F : Type*}

/-- a batch made of graphs (features, edges), the nodes numbered from `off` and the graphs from `i`: features and edges put one after the other, edges moved by the number of nodes
before, and for each node the number of its graph -/
def collate : ℕ → ℕ → List (List F × List (ℕ × ℕ)) → List F × List (ℕ × ℕ) × List ℕ
  | _, _, [] => ([], [], [])
  | off, i, G :: Gs =>
    let r := collate (off + G.1.length) (i + 1) Gs
    (G.1 ++ r.1, (G.2.map fun e => (off + e.1, off + e.2)) ++ r.2.1, List.replicate G.1.length i ++ r.2.2)

/-- the edges of a graph join nodes of the graph -/
def EdgesOk (G : List F × List (ℕ × ℕ)) : Prop := ∀ e ∈ G.2, e.1 < G.1.length ∧ e.2 < G.1.length

end POT.Spec
