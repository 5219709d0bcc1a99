import Verif.Spec.UnbBary
import Verif.Model.Unbalanced

/-!
# Model of the unbalanced barycenter solvers (`ot/unbalanced/_sinkhorn.py` 1404-1708)

Real arithmetic is exact. In the code the histograms and the barycenter have the same size `dim`; the two index types `I` (histograms) and `J` (barycenter) are kept apart here, which only makes the model more general.
The `nan`/`inf` tests are modelled by the divisions by zero that cause them.
-/

set_option linter.unusedSectionVars false

namespace POT.UnbBary

open Finset Spec Sinkhorn Unbalanced

variable {I J H : Type*} [Fintype I] [Fintype J] [Fintype H]

/-- `weights = nx.ones(n_hists) / n_hists` if no weights are given (ot/unbalanced/_sinkhorn.py 1482-1485, 1634-1637); given weights are not checked or normalised -/
noncomputable def weightsOf (w : Option (H → ℝ)) : H → ℝ := w.getD fun _ => 1 / (Fintype.card H : ℝ)

/-- `K = nx.exp(-M / reg)` (ot/unbalanced/_sinkhorn.py 1642) -/
noncomputable def kern (M : I → J → ℝ) (reg : ℝ) : I → J → ℝ := fun i j => Real.exp (-M i j / reg)

/-- `fi = reg_m / (reg_m + reg)` (ot/unbalanced/_sinkhorn.py 1490, 1644) -/
noncomputable def fiB (reg ρ : ℝ) : ℝ := ρ / (ρ + reg)

/-- `Kv = nx.dot(K, v)` (ot/unbalanced/_sinkhorn.py 1656) -/
def kvB (K : I → J → ℝ) (v : J → H → ℝ) : I → H → ℝ := fun i h => ∑ j, K i j * v j h

/-- `u = (A / Kv) ** fi` (ot/unbalanced/_sinkhorn.py 1657) -/
noncomputable def updU (A : I → H → ℝ) (K : I → J → ℝ) (f : ℝ) (v : J → H → ℝ) : I → H → ℝ := fun i h => (A i h / kvB K v i h) ^ f

/-- `Ktu = nx.dot(K.T, u)` (ot/unbalanced/_sinkhorn.py 1658) -/
def ktuB (K : I → J → ℝ) (u : I → H → ℝ) : J → H → ℝ := fun j h => ∑ i, K i j * u i h

/-- `q = nx.dot(Ktu ** (1 - fi), weights); q = q ** (1 / (1 - fi))` (ot/unbalanced/_sinkhorn.py 1659-1660) -/
noncomputable def updQ (w : H → ℝ) (f : ℝ) (κ : J → H → ℝ) : J → ℝ := fun j => (∑ h, κ j h ^ (1 - f) * w h) ^ (1 / (1 - f))

/-- `v = (Q / Ktu) ** fi` (ot/unbalanced/_sinkhorn.py 1662) -/
noncomputable def updV (f : ℝ) (κ : J → H → ℝ) (q : J → ℝ) : J → H → ℝ := fun j h => (q j / κ j h) ^ f

/-- The state of the loop. -/
structure StB (I J H : Type*) where
  u : I → H → ℝ
  v : J → H → ℝ
  q : J → ℝ

/-- one iteration (ot/unbalanced/_sinkhorn.py 1656-1662) -/
noncomputable def stepB (A : I → H → ℝ) (w : H → ℝ) (K : I → J → ℝ) (f : ℝ) (s : StB I J H) : StB I J H :=
  let u := updU A K f s.v
  let κ := ktuB K u
  let q := updQ w f κ
  { u := u, v := updV f κ q, q := q }

/-- the numerical test (ot/unbalanced/_sinkhorn.py 1664-1677): a division by zero in `u`, or a zero in `Ktu` -/
def badB (A : I → H → ℝ) (K : I → J → ℝ) (f : ℝ) (s : StB I J H) : Prop :=
  (∃ i h, kvB K s.v i h = 0) ∨ ∃ j h, ktuB K (updU A K f s.v) j h = 0

/-- `err < stopThr and i > 10` (ot/unbalanced/_sinkhorn.py 1679-1685) -/
def stopB [Nonempty J] (stopThr : ℝ) (i : ℕ) (s t : StB I J H) : Prop := relErr s.q t.q < stopThr ∧ i > 10

/-- initial values (ot/unbalanced/_sinkhorn.py 1646-1648); the code's `u` of shape `(dim, 1)` is never used -/
def startB : StB I J H := { u := fun _ _ => 1, v := fun _ _ => 1, q := fun _ => 1 }

/-- `barycenter_unbalanced_sinkhorn` (ot/unbalanced/_sinkhorn.py 1568-1708); the returned vector is `run.s.q` -/
noncomputable def barycenterUnb [Nonempty J] (A : I → H → ℝ) (M : I → J → ℝ) (reg ρ : ℝ) (w : Option (H → ℝ)) (numItermax : ℕ) (stopThr : ℝ) : Run (StB I J H) :=
  loop (stepB A (weightsOf w) (kern M reg) (fiB reg ρ)) (badB A (kern M reg) (fiB reg ρ)) (stopB stopThr) numItermax 0 startB

/-! ## The stabilised solver -/

/-- The state of the stabilised loop: scalings, absorbed potentials (one for all histograms), barycenter. -/
structure StS (I J H : Type*) where
  u : I → H → ℝ
  v : J → H → ℝ
  α : I → ℝ
  β : J → ℝ
  q : J → ℝ

/-- `K = nx.exp((alpha[:, None] + beta[None, :] - M) / reg)` (ot/unbalanced/_sinkhorn.py 1496, 1523) -/
noncomputable def kernS (M : I → J → ℝ) (reg : ℝ) (s : StS I J H) : I → J → ℝ := fun i j => Real.exp ((s.α i + s.β j - M i j) / reg)

/-- `f_alpha = nx.exp(-alpha / (reg + reg_m))` (ot/unbalanced/_sinkhorn.py 1508-1509) -/
noncomputable def fac (reg ρ x : ℝ) : ℝ := Real.exp (-x / (reg + ρ))

/-- `u = ((A / (Kv + 1e-16)) ** fi) * f_alpha` (ot/unbalanced/_sinkhorn.py 1512) -/
noncomputable def updUS (eps : ℝ) (A : I → H → ℝ) (M : I → J → ℝ) (reg ρ : ℝ) (s : StS I J H) : I → H → ℝ :=
  fun i h => (A i h / (kvB (kernS M reg s) s.v i h + eps)) ^ fiB reg ρ * fac reg ρ (s.α i)

/-- `q = (Ktu ** (1 - fi)) * f_beta; q = nx.dot(q, weights) ** (1 / (1 - fi))` (ot/unbalanced/_sinkhorn.py 1513-1515) -/
noncomputable def updQS (eps : ℝ) (A : I → H → ℝ) (w : H → ℝ) (M : I → J → ℝ) (reg ρ : ℝ) (s : StS I J H) : J → ℝ :=
  fun j => (∑ h, (ktuB (kernS M reg s) (updUS eps A M reg ρ s) j h ^ (1 - fiB reg ρ) * fac reg ρ (s.β j)) * w h) ^ (1 / (1 - fiB reg ρ))

/-- `v = ((Q / (Ktu + 1e-16)) ** fi) * f_beta` (ot/unbalanced/_sinkhorn.py 1516-1517) -/
noncomputable def updVS (eps : ℝ) (A : I → H → ℝ) (w : H → ℝ) (M : I → J → ℝ) (reg ρ : ℝ) (s : StS I J H) : J → H → ℝ :=
  fun j h => (updQS eps A w M reg ρ s j / (ktuB (kernS M reg s) (updUS eps A M reg ρ s) j h + eps)) ^ fiB reg ρ * fac reg ρ (s.β j)

/-- `nx.any(u > tau) or nx.any(v > tau)` (ot/unbalanced/_sinkhorn.py 1519) -/
def absorbsB (eps tau : ℝ) (A : I → H → ℝ) (w : H → ℝ) (M : I → J → ℝ) (reg ρ : ℝ) (s : StS I J H) : Prop :=
  (∃ i h, tau < updUS eps A M reg ρ s i h) ∨ ∃ j h, tau < updVS eps A w M reg ρ s j h

open Classical in
/-- one iteration (ot/unbalanced/_sinkhorn.py 1506-1524): when a scaling exceeds `tau`, the potentials absorb the largest scaling over the histograms, `v` is set to one, `u` is kept -/
noncomputable def stepS [Nonempty H] (eps tau : ℝ) (A : I → H → ℝ) (w : H → ℝ) (M : I → J → ℝ) (reg ρ : ℝ) (s : StS I J H) : StS I J H :=
  if absorbsB eps tau A w M reg ρ s then
    { u := updUS eps A M reg ρ s, v := fun _ _ => 1, q := updQS eps A w M reg ρ s,
      α := fun i => s.α i + reg * Real.log (vmax (updUS eps A M reg ρ s i)),
      β := fun j => s.β j + reg * Real.log (vmax (updVS eps A w M reg ρ s j)) }
  else { u := updUS eps A M reg ρ s, v := updVS eps A w M reg ρ s, q := updQS eps A w M reg ρ s, α := s.α, β := s.β }

/-- the numerical test (ot/unbalanced/_sinkhorn.py 1526-1537): a division by zero, or a zero in `Ktu`; the code then returns the previous `q` -/
def badS (eps : ℝ) (A : I → H → ℝ) (M : I → J → ℝ) (reg ρ : ℝ) (s : StS I J H) : Prop :=
  (∃ i h, kvB (kernS M reg s) s.v i h + eps = 0) ∨ ∃ j h, ktuB (kernS M reg s) (updUS eps A M reg ρ s) j h = 0

/-- `(i % 10 == 0 and not absorbing) or i == 0`, then `err < stopThr` (ot/unbalanced/_sinkhorn.py 1538-1551) -/
def stopS [Nonempty J] (eps tau : ℝ) (A : I → H → ℝ) (w : H → ℝ) (M : I → J → ℝ) (reg ρ stopThr : ℝ) (i : ℕ) (s t : StS I J H) : Prop :=
  (i % 10 = 0 ∧ ¬ absorbsB eps tau A w M reg ρ s ∨ i = 0) ∧ relErr s.q t.q < stopThr

/-- initial values (ot/unbalanced/_sinkhorn.py 1492-1493, 1502-1504) -/
noncomputable def startS : StS I J H :=
  { u := fun _ _ => 1 / (Fintype.card I : ℝ), v := fun _ _ => 1 / (Fintype.card J : ℝ), α := fun _ => 0, β := fun _ => 0, q := fun _ => 1 / (Fintype.card J : ℝ) }

/-- `barycenter_unbalanced_stabilized` (ot/unbalanced/_sinkhorn.py 1404-1565); the returned vector is `run.s.q`.  `eps` is `1e-16`. -/
noncomputable def barycenterStab [Nonempty H] [Nonempty J] (eps tau : ℝ) (A : I → H → ℝ) (M : I → J → ℝ) (reg ρ : ℝ) (w : Option (H → ℝ)) (numItermax : ℕ) (stopThr : ℝ) :
    Run (StS I J H) :=
  loop (stepS eps tau A (weightsOf w) M reg ρ) (badS eps A M reg ρ) (stopS eps tau A (weightsOf w) M reg ρ stopThr) numItermax 0 startS

end POT.UnbBary
