import Verif.Lemmas.GwDictRun

set_option linter.unusedSectionVars false

namespace POT.GwDict

open Finset POT.Spec

variable {I J D : Type} [Fintype I] [Fintype J] [Fintype D]

/-- items of a batch unmixed on `Cd` -/
noncomputable def itemsOf {n : ℕ} (C : Fin n → I → I → ℝ) (w : Fin n → D → ℝ) (T : Fin n → I → J → ℝ) (Cd : D → J → J → ℝ) :
    List (Item I J D) := List.ofFn fun b => ⟨C b, w b, atomMix (w b) Cd, T b⟩

theorem gradDict_items {n : ℕ} (q : J → ℝ) (C : Fin n → I → I → ℝ) (w : Fin n → D → ℝ) (T : Fin n → I → J → ℝ) (Cd : D → J → J → ℝ)
    (d : D) (k l : J) :
    gradDict q (itemsOf C w T Cd) d k l
      = (∑ b, w b d * (atomMix (w b) Cd k l * constQ q k l - constTCT (C b) (T b) k l)) * (2 / n) := by
  unfold gradDict itemsOf
  rw [List.map_ofFn, List.sum_ofFn, List.length_ofFn]
  rfl

theorem one_expand (C : I → I → ℝ) (hC : IsSymm C) (T : I → J → ℝ) (q : J → ℝ) (hq : ∀ j, ∑ i, T i j = q j) (E X : J → J → ℝ) (t : ℝ) :
    gwEnergy sqLoss C (fun j l => E j l + t * X j l) T = gwEnergy sqLoss C E T
      + t * (2 * ∑ j, ∑ l, X j l * (E j l * constQ q j l - constTCT C T j l)) + t ^ 2 * ∑ j, ∑ l, X j l ^ 2 * constQ q j l := by
  rw [gw_expand C _ T q hq, gw_expand C E T q hq]
  simp only [mul_sum, add_assoc, ← sum_add_distrib]
  congr 1
  refine sum_congr rfl fun j _ => sum_congr rfl fun l _ => ?_
  rw [cross_eq, cross_symm C hC]
  ring

theorem mixture_add (w : D → ℝ) (Cd X : D → J → J → ℝ) (t : ℝ) :
    atomMix w (fun d k l => Cd d k l + t * X d k l) = fun k l => atomMix w Cd k l + t * atomMix w X k l := by
  funext k l
  unfold atomMix
  rw [mul_sum, ← sum_add_distrib]
  exact sum_congr rfl fun d _ => by ring

theorem mean_expand {n : ℕ} (hn : n ≠ 0) (C : Fin n → I → I → ℝ) (hC : ∀ b, IsSymm (C b)) (w : Fin n → D → ℝ) (T : Fin n → I → J → ℝ)
    (q : J → ℝ) (hq : ∀ b j, ∑ i, T b i j = q j) (Cd X : D → J → J → ℝ) (t : ℝ) :
    meanReconstruction C w T (fun d k l => Cd d k l + t * X d k l) = meanReconstruction C w T Cd
      + t * (∑ d, ∑ k, ∑ l, gradDict q (itemsOf C w T Cd) d k l * X d k l)
      + t ^ 2 * ((∑ b, ∑ j, ∑ l, atomMix (w b) X j l ^ 2 * constQ q j l) / n) := by
  have hn' : (n : ℝ) ≠ 0 := Nat.cast_ne_zero.2 hn
  unfold meanReconstruction
  simp only [mixture_add, Fintype.card_fin]
  have h1 : ∀ b, gwEnergy sqLoss (C b) (fun k l => atomMix (w b) Cd k l + t * atomMix (w b) X k l) (T b) = _ :=
    fun b => one_expand (C b) (hC b) (T b) q (hq b) (atomMix (w b) Cd) (atomMix (w b) X) t
  rw [sum_congr rfl fun b _ => h1 b]
  have h2 : ∑ d, ∑ k, ∑ l, gradDict q (itemsOf C w T Cd) d k l * X d k l
      = (∑ b, 2 * ∑ j, ∑ l, atomMix (w b) X j l * (atomMix (w b) Cd j l * constQ q j l - constTCT (C b) (T b) j l)) / n := by
    have h3 : ∀ b, ∑ j, ∑ l, atomMix (w b) X j l * (atomMix (w b) Cd j l * constQ q j l - constTCT (C b) (T b) j l)
        = ∑ d, ∑ j, ∑ l, w b d * X d j l * (atomMix (w b) Cd j l * constQ q j l - constTCT (C b) (T b) j l) := by
      intro b
      have h := dot_mixture X (fun j l => atomMix (w b) Cd j l * constQ q j l - constTCT (C b) (T b) j l) (fun _ => 0) (w b)
      have z : ∀ j l, atomMix (fun _ : D => (0 : ℝ)) X j l = 0 := fun j l => by unfold atomMix; simp
      simp only [z, sub_zero] at h
      rw [h]
      simp only [mul_sum]
      exact sum_congr rfl fun d _ => sum_congr rfl fun j _ => sum_congr rfl fun l _ => by ring
    simp only [h3, gradDict_items]
    rw [eq_div_iff hn']
    simp only [mul_sum, sum_mul]
    rw [sum_comm]
    refine Eq.trans ?_ (sum_congr rfl fun b _ => rfl)
    rw [sum_comm]
    rw [sum_congr rfl fun d _ => sum_congr rfl fun k _ => sum_comm, sum_congr rfl fun d _ => sum_comm, sum_comm]
    refine sum_congr rfl fun b _ => sum_congr rfl fun d _ => sum_congr rfl fun k _ => sum_congr rfl fun l _ => ?_
    field_simp
  rw [h2]
  simp only [sum_add_distrib, ← mul_sum]
  field_simp

theorem mixture_sq (w : D → ℝ) (hw : IsWeights w) (X : D → J → J → ℝ) (j l : J) : atomMix w X j l ^ 2 ≤ ∑ d, X d j l ^ 2 := by
  have h1 : 0 ≤ ∑ d, w d * (X d j l - atomMix w X j l) ^ 2 := sum_nonneg fun d _ => mul_nonneg (hw.1 d) (sq_nonneg _)
  have h2 : ∑ d, w d * (X d j l - atomMix w X j l) ^ 2 = ∑ d, w d * X d j l ^ 2 - atomMix w X j l ^ 2 := by
    have : ∀ d, w d * (X d j l - atomMix w X j l) ^ 2
        = w d * X d j l ^ 2 - 2 * atomMix w X j l * (w d * X d j l) + atomMix w X j l ^ 2 * w d := fun d => by ring
    rw [sum_congr rfl fun d _ => this d, sum_add_distrib, sum_sub_distrib, ← mul_sum, ← mul_sum, hw.2]
    have : ∑ d, w d * X d j l = atomMix w X j l := rfl
    rw [this]; ring
  have h3 : ∑ d, w d * X d j l ^ 2 ≤ ∑ d, X d j l ^ 2 := by
    refine sum_le_sum fun d _ => ?_
    have : w d ≤ 1 := by rw [← hw.2]; exact single_le_sum (f := w) (fun e _ => hw.1 e) (mem_univ d)
    exact mul_le_of_le_one_left (sq_nonneg _) this
  linarith

theorem curv_le {n : ℕ} (hn : n ≠ 0) (w : Fin n → D → ℝ) (hw : ∀ b, IsWeights (w b)) (q : J → ℝ) (hq0 : ∀ j, 0 ≤ q j)
    (hq1 : ∑ j, q j = 1) (X : D → J → J → ℝ) :
    (∑ b, ∑ j, ∑ l, atomMix (w b) X j l ^ 2 * constQ q j l) / n ≤ ∑ d, ∑ j, ∑ l, X d j l ^ 2 := by
  have hn' : (0 : ℝ) < n := Nat.cast_pos.2 (Nat.pos_of_ne_zero hn)
  have hql : ∀ j, q j ≤ 1 := fun j => by rw [← hq1]; exact single_le_sum (f := q) (fun e _ => hq0 e) (mem_univ j)
  rw [div_le_iff₀ hn']
  have h1 : ∀ b, ∑ j, ∑ l, atomMix (w b) X j l ^ 2 * constQ q j l ≤ ∑ d, ∑ j, ∑ l, X d j l ^ 2 := by
    intro b
    calc ∑ j, ∑ l, atomMix (w b) X j l ^ 2 * constQ q j l ≤ ∑ j, ∑ l, ∑ d, X d j l ^ 2 := by
          refine sum_le_sum fun j _ => sum_le_sum fun l _ => ?_
          have hc : constQ q j l ≤ 1 := mul_le_one₀ (hql j) (hq0 l) (hql l)
          exact (mul_le_of_le_one_right (sq_nonneg _) hc).trans (mixture_sq (w b) (hw b) X j l)
      _ = ∑ d, ∑ j, ∑ l, X d j l ^ 2 := by
          rw [sum_congr rfl fun j _ => sum_comm, sum_comm]
  calc ∑ b, ∑ j, ∑ l, atomMix (w b) X j l ^ 2 * constQ q j l ≤ ∑ _b : Fin n, ∑ d, ∑ j, ∑ l, X d j l ^ 2 :=
        sum_le_sum fun b _ => h1 b
    _ = (∑ d, ∑ j, ∑ l, X d j l ^ 2) * n := by rw [sum_const, card_univ, Fintype.card_fin, nsmul_eq_mul, mul_comm]

/-! ## Projections -/

/-- dictionaries in the constraint set -/
def Feasible (symm nonneg : Bool) (Cd : D → J → J → ℝ) : Prop :=
  (symm = true → ∀ d, IsSymm (Cd d)) ∧ (nonneg = true → ∀ d k l, 0 ≤ Cd d k l)

theorem project_feasible (symm nonneg : Bool) (Cd : D → J → J → ℝ) : Feasible symm nonneg (project symm nonneg Cd) := by
  constructor
  · intro h d k l
    subst h
    unfold project
    have e : (1 / 2 : ℝ) * (Cd d k l + Cd d l k) = 1 / 2 * (Cd d l k + Cd d k l) := by ring
    cases nonneg <;> simp [add_comm]
  · intro h d k l
    subst h
    unfold project
    simp only [if_true]
    split_ifs <;> linarith

/-- the projection is the Euclidean one -/
theorem project_obtuse (symm nonneg : Bool) (V X : D → J → J → ℝ) (hX : Feasible symm nonneg X) :
    ∑ d, ∑ k, ∑ l, (V d k l - project symm nonneg V d k l) * (X d k l - project symm nonneg V d k l) ≤ 0 := by
  obtain ⟨U, hU⟩ : ∃ U : D → J → J → ℝ, U = if symm then fun d k l => (1 / 2) * (V d k l + V d l k) else V := ⟨_, rfl⟩
  have hp : project symm nonneg V = if nonneg then fun d k l => if U d k l < 0 then 0 else U d k l else U := by
    unfold project; simp only [hU]
  have hf := project_feasible symm nonneg V
  have h1 : ∑ d, ∑ k, ∑ l, (V d k l - U d k l) * (X d k l - project symm nonneg V d k l) = 0 := by
    cases hs : symm
    · subst hs; simp [hU]
    · refine sum_eq_zero fun d _ => ?_
      have hs1 := hX.1 hs d
      have hs2 := hf.1 hs d
      have hanti : ∀ k l, (V d k l - U d k l) = -(V d l k - U d l k) := by
        intro k l; rw [hU, hs]; simp only [if_true]; ring
      have : ∑ k, ∑ l, (V d k l - U d k l) * (X d k l - project symm nonneg V d k l)
          = - ∑ k, ∑ l, (V d k l - U d k l) * (X d k l - project symm nonneg V d k l) := by
        conv_lhs => rw [sum_comm]
        rw [← sum_neg_distrib]
        refine sum_congr rfl fun k _ => ?_
        rw [← sum_neg_distrib]
        refine sum_congr rfl fun l _ => ?_
        rw [hanti l k, hs1 l k, hs2 l k]; ring
      rw [hs] at this
      linarith
  have h2 : ∑ d, ∑ k, ∑ l, (U d k l - project symm nonneg V d k l) * (X d k l - project symm nonneg V d k l) ≤ 0 := by
    refine sum_nonpos fun d _ => sum_nonpos fun k _ => sum_nonpos fun l _ => ?_
    rw [hp]
    cases hnn : nonneg
    · simp
    · simp only [if_true]
      have hx := hX.2 hnn d k l
      split_ifs with h
      · nlinarith
      · simp
  calc _ = ∑ d, ∑ k, ∑ l, (V d k l - U d k l) * (X d k l - project symm nonneg V d k l)
        + ∑ d, ∑ k, ∑ l, (U d k l - project symm nonneg V d k l) * (X d k l - project symm nonneg V d k l) := by
        simp only [← sum_add_distrib]
        exact sum_congr rfl fun d _ => sum_congr rfl fun k _ => sum_congr rfl fun l _ => by ring
    _ ≤ 0 := by rw [h1]; linarith

theorem descent {n : ℕ} (hn : n ≠ 0) (C : Fin n → I → I → ℝ) (hC : ∀ b, IsSymm (C b)) (w : Fin n → D → ℝ) (hw : ∀ b, IsWeights (w b))
    (T : Fin n → I → J → ℝ) (q : J → ℝ) (hq0 : ∀ j, 0 ≤ q j) (hq1 : ∑ j, q j = 1) (hq : ∀ b j, ∑ i, T b i j = q j)
    (symm nonneg : Bool) (lr : ℝ) (hlr : 0 < lr) (X : D → J → J → ℝ) (hX : Feasible symm nonneg X) :
    let Z := project symm nonneg fun d k l => X d k l - lr * gradDict q (itemsOf C w T X) d k l
    lr * meanReconstruction C w T Z + (1 - lr) * ∑ d, ∑ k, ∑ l, (Z d k l - X d k l) ^ 2 ≤ lr * meanReconstruction C w T X := by
  intro Z
  have h1 := mean_expand hn C hC w T q hq X (fun d k l => Z d k l - X d k l) 1
  have e : (fun d k l => X d k l + 1 * (Z d k l - X d k l)) = Z := by funext d k l; ring
  rw [e] at h1
  have h2 := curv_le hn w hw q hq0 hq1 (fun d k l => Z d k l - X d k l)
  have h3 := project_obtuse symm nonneg (fun d k l => X d k l - lr * gradDict q (itemsOf C w T X) d k l) X hX
  have h4 : ∑ d, ∑ k, ∑ l, (X d k l - lr * gradDict q (itemsOf C w T X) d k l - Z d k l) * (X d k l - Z d k l)
      = ∑ d, ∑ k, ∑ l, (Z d k l - X d k l) ^ 2
        + lr * ∑ d, ∑ k, ∑ l, gradDict q (itemsOf C w T X) d k l * (Z d k l - X d k l) := by
    simp only [mul_sum, ← sum_add_distrib]
    exact sum_congr rfl fun d _ => sum_congr rfl fun k _ => sum_congr rfl fun l _ => by ring
  have h5 : ∑ d, ∑ k, ∑ l, (X d k l - lr * gradDict q (itemsOf C w T X) d k l - Z d k l) * (X d k l - Z d k l) ≤ 0 := h3
  rw [h4] at h5
  rw [h1]
  nlinarith [mul_le_mul_of_nonneg_left h2 hlr.le]

/-! ## Epochs -/

theorem epoch_inv {Θ : Type} (P : Θ → Prop) (e : List (Θ → Θ × ℝ)) (he : ∀ b ∈ e, ∀ θ, P θ → P (b θ).1) (s : Θ × ℝ) (hs : P s.1) :
    P (e.foldl (fun s b => ((b s.1).1, s.2 + (b s.1).2)) s).1 := by
  induction e generalizing s with
  | nil => exact hs
  | cons b l ih =>
    rw [List.foldl_cons]
    exact ih (fun b' hb' => he b' (List.mem_cons_of_mem _ hb')) _ (he b List.mem_cons_self _ hs)

theorem epochs_inv {Θ : Type} (P : Θ → Prop) (es : List (List (Θ → Θ × ℝ))) (hes : ∀ e ∈ es, ∀ b ∈ e, ∀ θ, P θ → P (b θ).1)
    (θ best : Θ) (l : Option ℝ) (hθ : P θ) (hb : P best) : P (epochs es θ best l) := by
  induction es generalizing θ best l with
  | nil => exact hb
  | cons e es ih =>
    have h1 : P (epoch e θ).1 := epoch_inv P e (hes e List.mem_cons_self) (θ, 0) hθ
    have hes' : ∀ e' ∈ es, ∀ b ∈ e', ∀ θ, P θ → P (b θ).1 := fun e' he' => hes e' (List.mem_cons_of_mem _ he')
    cases l with
    | none => rw [epochs]; exact ih hes' _ _ _ h1 h1
    | some l =>
      rw [epochs]
      split_ifs
      · exact ih hes' _ _ _ h1 h1
      · exact ih hes' _ _ _ h1 hb

/-- states after epochs -/
def after {Θ : Type} (es : List (List (Θ → Θ × ℝ))) (θ : Θ) : Θ := es.foldl (fun θ e => (epoch e θ).1) θ

theorem epochs_best {Θ : Type} (es : List (List (Θ → Θ × ℝ))) (θ best : Θ) (l : ℝ) :
    (epochs es θ best (some l) = best ∧ ∀ pre e post, es = pre ++ e :: post → l ≤ (epoch e (after pre θ)).2) ∨
    ∃ pre e post, es = pre ++ e :: post ∧ epochs es θ best (some l) = (epoch e (after pre θ)).1 ∧ (epoch e (after pre θ)).2 ≤ l ∧
      ∀ pre' e' post', es = pre' ++ e' :: post' → (epoch e (after pre θ)).2 ≤ (epoch e' (after pre' θ)).2 := by
  induction es generalizing θ best l with
  | nil =>
    left
    refine ⟨rfl, fun pre e post h => ?_⟩
    simp at h
  | cons e es ih =>
    rw [epochs]
    split_ifs with hl
    · right
      rcases ih (epoch e θ).1 (epoch e θ).1 (epoch e θ).2 with ⟨h1, h2⟩ | ⟨pre, e1, post, h1, h2, h3, h4⟩
      · refine ⟨[], e, es, rfl, h1, (by exact le_of_lt hl), fun pre' e' post' h => ?_⟩
        cases pre' with
        | nil => simp only [List.nil_append, List.cons.injEq] at h; rw [h.1]
        | cons a pre' =>
          simp only [List.cons_append, List.cons.injEq] at h
          obtain ⟨rfl, h⟩ := h
          exact h2 pre' e' post' h
      · refine ⟨e :: pre, e1, post, by rw [h1]; rfl, h2, h3.trans (le_of_lt hl), fun pre' e' post' h => ?_⟩
        cases pre' with
        | nil => simp only [List.nil_append, List.cons.injEq] at h; rw [← h.1]; exact h3
        | cons a pre' =>
          simp only [List.cons_append, List.cons.injEq] at h
          obtain ⟨rfl, h⟩ := h
          exact h4 pre' e' post' h
    · rcases ih (epoch e θ).1 best l with ⟨h1, h2⟩ | ⟨pre, e1, post, h1, h2, h3, h4⟩
      · left
        refine ⟨h1, fun pre' e' post' h => ?_⟩
        cases pre' with
        | nil => simp only [List.nil_append, List.cons.injEq] at h; rw [← h.1]; exact not_lt.1 hl
        | cons a pre' =>
          simp only [List.cons_append, List.cons.injEq] at h
          obtain ⟨rfl, h⟩ := h
          exact h2 pre' e' post' h
      · right
        refine ⟨e :: pre, e1, post, by rw [h1]; rfl, h2, h3, fun pre' e' post' h => ?_⟩
        cases pre' with
        | nil => simp only [List.nil_append, List.cons.injEq] at h; rw [← h.1]; exact h3.trans (not_lt.1 hl)
        | cons a pre' =>
          simp only [List.cons_append, List.cons.injEq] at h
          obtain ⟨rfl, h⟩ := h
          exact h4 pre' e' post' h

/-! ## Adam -/

theorem adam_inv {X : Type} (β1 β2 : ℝ) (h1 : 0 ≤ β1) (h1' : β1 < 1) (h2 : 0 ≤ β2) (h2' : β2 < 1) (x : X) (lo hi lo2 hi2 : ℝ)
    (gs : List (X → ℝ)) (hg : ∀ g ∈ gs, lo ≤ g x ∧ g x ≤ hi ∧ lo2 ≤ g x ^ 2 ∧ g x ^ 2 ≤ hi2) (m : Adam X) (hc : 1 ≤ m.count)
    (hm : lo * (1 - β1 ^ (m.count - 1)) ≤ m.mean x ∧ m.mean x ≤ hi * (1 - β1 ^ (m.count - 1)) ∧
      lo2 * (1 - β2 ^ (m.count - 1)) ≤ m.var x ∧ m.var x ≤ hi2 * (1 - β2 ^ (m.count - 1))) :
    let r := gs.foldl (fun m g => (adamMoments β1 β2 g m).2.2) m
    1 ≤ r.count ∧ lo * (1 - β1 ^ (r.count - 1)) ≤ r.mean x ∧ r.mean x ≤ hi * (1 - β1 ^ (r.count - 1)) ∧
      lo2 * (1 - β2 ^ (r.count - 1)) ≤ r.var x ∧ r.var x ≤ hi2 * (1 - β2 ^ (r.count - 1)) := by
  induction gs generalizing m with
  | nil => exact ⟨hc, hm⟩
  | cons g gs ih =>
    rw [List.foldl_cons]
    obtain ⟨a1, a2, a3, a4⟩ := hg g List.mem_cons_self
    obtain ⟨b1, b2, b3, b4⟩ := hm
    refine ih (fun g' hg' => hg g' (List.mem_cons_of_mem _ hg')) _ (by unfold adamMoments; simp) ?_
    unfold adamMoments
    simp only [Nat.add_sub_cancel]
    have e1 : β1 ^ m.count = β1 * β1 ^ (m.count - 1) := by
      conv_lhs => rw [← Nat.sub_add_cancel hc]
      rw [pow_succ]; ring
    have e2 : β2 ^ m.count = β2 * β2 ^ (m.count - 1) := by
      conv_lhs => rw [← Nat.sub_add_cancel hc]
      rw [pow_succ]; ring
    rw [e1, e2]
    refine ⟨?_, ?_, ?_, ?_⟩
    · nlinarith [mul_le_mul_of_nonneg_left b1 h1, mul_le_mul_of_nonneg_left a1 (sub_nonneg.2 h1'.le)]
    · nlinarith [mul_le_mul_of_nonneg_left b2 h1, mul_le_mul_of_nonneg_left a2 (sub_nonneg.2 h1'.le)]
    · nlinarith [mul_le_mul_of_nonneg_left b3 h2, mul_le_mul_of_nonneg_left a3 (sub_nonneg.2 h2'.le)]
    · nlinarith [mul_le_mul_of_nonneg_left b4 h2, mul_le_mul_of_nonneg_left a4 (sub_nonneg.2 h2'.le)]

end POT.GwDict
