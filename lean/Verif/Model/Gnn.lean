import Mathlib.Data.Real.Basic
import Mathlib.Data.List.Basic
import Mathlib.Data.Fintype.BigOperators
import Mathlib.Analysis.SpecialFunctions.Log.Basic

/-! # Template distances of graph neural networks (ot/gnn)

`FGW_distance_to_templates`, `wasserstein_distance_to_templates` (ot/gnn/_utils.py 72-307) and the layers that call them (ot/gnn/_layers.py).
Parameters of the model: the distance `dist` between features, the solvers `fused_gromov_wasserstein2` and `emd2`.  Not modelled: single precision, gradients, the test that graph
and templates have the same feature dimension (features are of one type here). -/

namespace POT.Gnn

variable {F : Type*} {k K : ℕ}

/-- a graph as it is given: node features and edges (`G_features`, `G_edges`) -/
structure Graph (F : Type*) where
  feats : List F
  edges : List (ℕ × ℕ)

/-- the templates: adjacency matrices, features and weights -/
structure Templates (F : Type*) (K k : ℕ) where
  adj : Fin K → Fin k → Fin k → ℝ
  feat : Fin K → Fin k → F
  w : Fin K → Fin k → ℝ

/-- `TypeError`, `RuntimeError`, `IndexError` -/
inductive Err | type | runtime | index

/-- `alpha`: a Python number or a tensor (with its entries) -/
inductive Alpha | float (a : ℝ) | tensor (l : List ℝ)

/-- `fused_gromov_wasserstein2(M, C, Ct, p, q, alpha=alpha, symmetric=True, max_iter=50)`, `emd2(p, q, M, numItermax=50)` and `dist` -/
structure Solvers (F : Type*) (k : ℕ) where
  dist : F → F → ℝ
  fgw2 : ∀ {n : ℕ}, (Fin n → Fin k → ℝ) → (Fin n → Fin n → ℝ) → (Fin k → Fin k → ℝ) → (Fin n → ℝ) → (Fin k → ℝ) → ℝ → ℝ
  emd2 : ∀ {n : ℕ}, (Fin n → ℝ) → (Fin k → ℝ) → (Fin n → Fin k → ℝ) → ℝ

/-- `torch.sparse_coo_tensor(G_edges, ones, size=(n, n)).to_dense()`, ot/gnn/_utils.py 118-121, 185-188: equal edges are added up -/
def adjacency (n : ℕ) (edges : List (ℕ × ℕ)) : Fin n → Fin n → ℝ := fun a b => (edges.count (a.val, b.val) : ℝ)

/-- `torch.ones(n) / n`, ot/gnn/_utils.py 116, 181 -/
noncomputable def uniform (n : ℕ) : Fin n → ℝ := fun _ => 1 / (n : ℝ)

/-- `dist(G_features, template_features)`, ot/gnn/_utils.py 134, 199 -/
def distMatrix (S : Solvers F k) (G : Graph F) (f : Fin k → F) : Fin G.feats.length → Fin k → ℝ := fun i l => S.dist (G.feats.get i) (f l)

/-- all results, or the first error -/
def collect {A : Type*} : List (Except Err A) → Except Err (List A)
  | [] => .ok []
  | .error e :: _ => .error e
  | .ok x :: l => match collect l with
    | .ok r => .ok (x :: r)
    | .error e => .error e

/-- the choice of the distance to template `j`, ot/gnn/_utils.py 137-162, 202-227.  `torch.any` and `torch.all` refuse a Python `bool`; the truth value of a tensor with several
entries is refused. -/
noncomputable def embedding (S : Solvers F k) (t : Templates F K k) (alpha : Alpha) (multi : Bool) (G : Graph F) (j : Fin K) : Except Err ℝ :=
  let M := distMatrix S G (t.feat j)
  let fgw : ℝ → ℝ := S.fgw2 M (adjacency _ G.edges) (t.adj j) (uniform _) (t.w j)
  let emd : ℝ := S.emd2 (uniform _) (t.w j) M
  open Classical in
  match alpha with
  | .float _ => .error .type
  | .tensor l =>
    if multi then
      if ∃ a ∈ l, 0 < a then match l[j.val]? with
        | some a => .ok (fgw a)
        | none => .error .index
      else .ok emd
    else if ∀ a ∈ l, a = 0 then .ok emd
    else match l with
      | [a] => if 0 < a then .ok (fgw a) else .ok emd
      | _ => .error .runtime

/-- `FGW_distance_to_templates` without `batch`, ot/gnn/_utils.py 112-164; edges between nodes that do not exist are refused by `sparse_coo_tensor` -/
noncomputable def fgwDistances (S : Solvers F k) (t : Templates F K k) (alpha : Alpha) (multi : Bool) (G : Graph F) : Except Err (List ℝ) :=
  open Classical in
  if ∃ e ∈ G.edges, G.feats.length ≤ e.1 ∨ G.feats.length ≤ e.2 then .error .runtime
  else collect ((List.finRange K).map fun j => embedding S t alpha multi G j)

/-- `wasserstein_distance_to_templates` without `batch`, ot/gnn/_utils.py 257-276 -/
noncomputable def wDistances (S : Solvers F k) (t : Templates F K k) (G : Graph F) : Except Err (List ℝ) :=
  .ok ((List.finRange K).map fun j => S.emd2 (uniform _) (t.w j) (distMatrix S G (t.feat j)))

/-- the positions of `i` in a list, counted from `off` -/
def positions (i : ℕ) : ℕ → List ℕ → List ℕ
  | _, [] => []
  | off, b :: B => if b = i then off :: positions i (off + 1) B else positions i (off + 1) B

/-- `torch.where(batch == i)[0]`, ot/gnn/_utils.py 174, 286 -/
def nodesOf (batch : List ℕ) (i : ℕ) : List ℕ := positions i 0 batch

/-- `subgraph(nodes, edge_index, relabel_nodes=True)` of PyTorch Geometric and `G_features[nodes]`, ot/gnn/_utils.py 176-177: edges between the nodes, renamed to their
positions -/
def subgraph (G : Graph F) (nodes : List ℕ) : Graph F where
  feats := nodes.filterMap fun x => G.feats[x]?
  edges := (G.edges.filter fun e => e.1 ∈ nodes ∧ e.2 ∈ nodes).map fun e => (nodes.idxOf e.1, nodes.idxOf e.2)

/-- the loop over the graphs of a batch, ot/gnn/_utils.py 166-229, 278-305; `torch.max` of an empty tensor is refused -/
def batched (f : Graph F → Except Err (List ℝ)) (G : Graph F) (batch : List ℕ) : Except Err (List (List ℝ)) :=
  match batch.max? with
  | none => .error .runtime
  | some mx => collect ((List.range (mx + 1)).map fun i => f (subgraph G (nodesOf batch i)))

/-! ### Layers -/

/-- `torch.sigmoid` -/
noncomputable def sigmoid (x : ℝ) : ℝ := 1 / (1 + Real.exp (-x))

/-- `torch.sigmoid(torch.logit(alpha))`, ot/gnn/_layers.py 154, 167: `logit(0) = -inf` and `logit(1) = inf` -/
noncomputable def alphaFixed (a : ℝ) : ℝ :=
  open Classical in if a = 0 then 0 else if a = 1 then 1 else sigmoid (Real.log (a / (1 - a)))

/-- `nn.Softmax(dim=1)`, one row, ot/gnn/_layers.py 138, 168 -/
noncomputable def softmax (q : Fin k → ℝ) : Fin k → ℝ := fun l => Real.exp (q l) / ∑ l, Real.exp (q l)

/-- `0.5 * (A + A^T)`, ot/gnn/_utils.py 66-68 -/
noncomputable def symmetrised (U : Fin k → Fin k → ℝ) : Fin k → Fin k → ℝ := fun a b => 0.5 * (U a b + U b a)

/-- `TFGWPooling.forward` with a fixed `alpha`, ot/gnn/_layers.py 136-179; the last argument is the batch vector -/
noncomputable def tfgwForward (S : Solvers F k) (adj : Fin K → Fin k → Fin k → ℝ) (feat : Fin K → Fin k → F) (q0 : Fin K → Fin k → ℝ) (alpha : ℝ) (multi : Bool) (G : Graph F)
    (batch : List ℕ) : Except Err (List (List ℝ)) :=
  batched (fgwDistances S ⟨adj, feat, fun j => softmax (q0 j)⟩ (.tensor (if multi then List.replicate K (alphaFixed alpha) else [alphaFixed alpha])) multi) G batch

end POT.Gnn
