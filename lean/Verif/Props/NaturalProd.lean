import Verif.Solver.ObjectProd
import Verif.Props.Multi
import Verif.Props.NaturalRot

/-!
# Runs on a product depend on its factors only (C138)

Not on how equal factors are grouped, not on the order of the factors, not on the representation chosen by each of them.
-/

set_option linter.unusedSectionVars false

namespace Verif.Obj

open Matrix Verif.Mat Verif.Stiefel Verif.Intr Verif.Multi

variable {P V P' V' : Type}

/-! ## Specification -/

/-- What the solver sees of a vector computed in extrinsic form. -/
def outv (A : Comp P V) (a : Bool) (x : P) (v : V) : V := if a then A.toIntr x v else v

/-- What the problem sees of a vector of the solver. -/
def inv (A : Comp P V) (a : Bool) (x : P) (v : V) : V := if a then A.toExtr x v else v

/-- Two manifolds, each in the representation given by its flag, with corresponding metric, retraction and conversion of gradients. `RG` relates Euclidean gradients. -/
structure FactorCorr (A : Comp P V) (a : Bool) (L : VecOps V) (A' : Comp P' V') (a' : Bool) (L' : VecOps V') (RP : P → P' → Prop) (RV RG : P → P' → V → V' → Prop) : Prop where
  grad : ∀ x x' g g', RP x x' → RG x x' g g' → RV x x' (outv A a x (A.grad a x g)) (outv A' a' x' (A'.grad a' x' g'))
  metric : ∀ x x' v v' w w', RP x x' → RV x x' v v' → RV x x' w w' → A'.metric a' x' v' w' = A.metric a x v w
  retr : ∀ x x' v v', RP x x' → RV x x' v v' → RP (A.retr a x v) (A'.retr a' x' v')
  proj : ∀ x x' v v', RP x x' → RV x x' v v' → RV x x' (A.proj a x v) (A'.proj a' x' v')
  smul : ∀ x x' c v v', RP x x' → RV x x' v v' → RV x x' (L.smul c v) (L'.smul c v')
  lin : ∀ x x' c d v v' w w', RP x x' → RV x x' v v' → RV x x' w w' → RV x x' (L.lin c v d w) (L'.lin c v' d w')
  axpy : ∀ x x' c v v' w w', RP x x' → RV x x' v v' → RV x x' w w' → RV x x' (L.axpy c v w) (L'.axpy c v' w')

/-- The vector transports correspond as well. -/
def FactorTran (A : Comp P V) (a : Bool) (A' : Comp P' V') (a' : Bool) (RP : P → P' → Prop) (RV : P → P' → V → V' → Prop) : Prop :=
  ∀ x x' v v' w w', RP x x' → RV x x' v v' → RV x x' w w' →
    RV (A.retr a x v) (A'.retr a' x' v') (A.tran a x v (A.retr a x v) w) (A'.tran a' x' v' (A'.retr a' x' v') w')

/-- The metrics agree at points other than the foot. -/
def FactorAnywhere (A : Comp P V) (a : Bool) (A' : Comp P' V') (a' : Bool) (RP : P → P' → Prop) (RV : P → P' → V → V' → Prop) : Prop :=
  ∀ x x' y y' v v' w w', RP x x' → RP y y' → RV y y' v v' → RV y y' w w' → A'.metric a' x' v' w' = A.metric a x v w

/-- The slopes read by a line search correspond: the metric at the new point of a vector there with the derivative of the retraction. -/
def FactorSlope (A : Comp P V) (a : Bool) (A' : Comp P' V') (a' : Bool) (RP : P → P' → Prop) (RV RG : P → P' → V → V' → Prop) : Prop :=
  ∀ x x' v v' w w' g g', RP x x' → RV x x' v v' → RV x x' w w' → RG (A.retr a x v) (A'.retr a' x' v') g g' →
    A'.metric a' (A'.retr a' x' v') (outv A' a' (A'.retr a' x' v') (A'.grad a' (A'.retr a' x' v') g')) (A'.diffRetr a' x' v' (A'.retr a' x' v') w' true) =
      A.metric a (A.retr a x v) (outv A a (A.retr a x v) (A.grad a (A.retr a x v) g)) (A.diffRetr a x v (A.retr a x v) w true)

/-- The conversions of Hessians correspond. `RU` relates the extrinsic vectors given to the problem. -/
structure FactorHess (A : Comp P V) (a : Bool) (hv : P → V → V → V → V) (A' : Comp P' V') (a' : Bool) (hv' : P' → V' → V' → V' → V') (RP : P → P' → Prop) (RV RG RU : P → P' → V → V' → Prop) : Prop where
  inv : ∀ x x' v v', RP x x' → RV x x' v v' → RU x x' (inv A a x v) (inv A' a' x' v')
  hv : ∀ x x' g g' e e' w w', RP x x' → RG x x' g g' → RU x x' e e' → RG x x' w w' → RV x x' (outv A a x (hv x g e w)) (outv A' a' x' (hv' x' g' e' w'))

/-- `X` is an intrinsic product (as the constructors make it) with `ks i` factors of type `i`, `N` factors in all. -/
structure IsProd (X : ProdMan P V) (ks : Nat → Nat) (N : Nat) : Prop where
  made : Made X ks
  len : (types ks X.nt).length = N
  intr : X.intr = true

/-- Factor `j` of `X` corresponds to factor `σ j` of `X'`. -/
def Factors (N : Nat) (σ : Fin N ≃ Fin N) (X : ProdMan P V) (ks : Nat → Nat) (X' : ProdMan P' V') (ks' : Nat → Nat)
    (C : Fin N → Comp P V → Bool → Comp P' V' → Bool → Prop) : Prop :=
  ∀ (j : Fin N) t t', IsComp X ks j t → IsComp X' ks' (σ j) t' → C j (X.M t) (X.flag t) (X'.M t') (X'.flag t')

/-- Points whose components correspond. -/
def ProdRel (N : Nat) (σ : Fin N ≃ Fin N) (RP : Fin N → P → P' → Prop) (x : Nat → P) (x' : Nat → P') : Prop := ∀ j : Fin N, RP j (x j) (x' (σ j))

/-- Vectors whose components correspond. -/
def ProdRelV (N : Nat) (σ : Fin N ≃ Fin N) (RV : Fin N → P → P' → V → V' → Prop) (x : Nat → P) (x' : Nat → P') (v : Nat → V) (v' : Nat → V') : Prop :=
  ∀ j : Fin N, RV j (x j) (x' (σ j)) (v j) (v' (σ j))

/-! ## Helper lemmas -/

section
variable {X : ProdMan P V} {ks : Nat → Nat} {N : Nat}

theorem IsProd.comp (h : IsProd X ks N) (j : Fin N) : ∃ t, IsComp X ks j t := by
  have hj : (j : Nat) < (types ks X.nt).length := by rw [h.len]; exact j.2
  exact ⟨_, List.getElem?_eq_getElem hj⟩

theorem IsProd.metric_sum (h : IsProd X ks N) (x : Nat → P) (u v : Nat → V) {c : Fin N → ℝ} (hc : ∀ (j : Fin N) t, IsComp X ks j t → c j = (X.M t).metric (X.flag t) (x j) (u j) (v j)) :
    Multi.metric X x u v = ∑ j, c j := by
  rw [C43_metric h.made, sumComps]
  have e : ((types ks X.nt).zipIdx.map fun q => (X.M q.1).metric (X.flag q.1) (x q.2) (u q.2) (v q.2)) = List.ofFn c := by
    apply List.ext_getElem
    · simp [h.len]
    · intro i h1 h2
      have hi : i < N := by simpa using h2
      simp only [List.getElem_map, List.getElem_zipIdx, List.getElem_ofFn, Nat.zero_add]
      exact (hc ⟨i, hi⟩ _ (List.getElem?_eq_getElem _)).symm
  rw [e, List.sum_ofFn]

theorem IsProd.retr_at (h : IsProd X ks N) (x : Nat → P) (v : Nat → V) (old : Nat → P) {j : Nat} {t : Nat} (ht : IsComp X ks j t) :
    (Multi.retr X x v old).1 j = (X.M t).retr (X.flag t) (x j) (v j) := by
  have := (C43_retraction h.made x x v old v j t ht).1
  rwa [h.intr, Bool.true_and] at this

theorem IsProd.grad_at (h : IsProd X ks N) (x : Nat → P) (g old : Nat → V) {j : Nat} {t : Nat} (ht : IsComp X ks j t) :
    (if X.intr then Multi.toIntr X x (Multi.grad X x g old) old else Multi.grad X x g old) j = outv (X.M t) (X.flag t) (x j) ((X.M t).grad (X.flag t) (x j) (g j)) := by
  rw [h.intr, if_pos rfl]
  have e1 := (C43_operations h.made x x (Multi.grad X x g old) g old true).1 j t ht
  have e2 := e1.2.2.2.2.2.2.2.1
  unfold outv
  rw [← e2]
  cases hf : X.flag t with
  | true => rw [if_pos rfl]; exact (e1.2.2.2.2.2.2.2.2.2.1 hf).1
  | false => rw [if_neg (by simp)]; exact (e1.2.2.2.2.2.2.2.2.2.2 hf).1

theorem IsProd.extr_at (h : IsProd X ks N) (x : Nat → P) (η old : Nat → V) {j : Nat} {t : Nat} (ht : IsComp X ks j t) : Multi.toExtr X x η old j = inv (X.M t) (X.flag t) (x j) (η j) := by
  have e2 := (C43_operations h.made x x η η old true).1 j t ht
  unfold inv
  cases hf : X.flag t with
  | true => rw [if_pos rfl]; exact (e2.2.2.2.2.2.2.2.2.2.1 hf).2
  | false => rw [if_neg (by simp)]; exact (e2.2.2.2.2.2.2.2.2.2.2 hf).2

theorem IsProd.hess_at (h : IsProd X ks N) (hv : Nat → P → V → V → V → V) (old : Nat → V) (G : (Nat → P) → Nat → V) (H : (Nat → P) → (Nat → V) → Nat → V) (x : Nat → P) (η : Nat → V)
    {j : Nat} {t : Nat} (ht : IsComp X ks j t) :
    prodHess X hv old G H x η j = outv (X.M t) (X.flag t) (x j) (hv t (x j) (G x j) (inv (X.M t) (X.flag t) (x j) (η j)) (H x (Multi.toExtr X x η old) j)) := by
  unfold prodHess
  rw [h.intr, if_pos rfl]
  have e0 := (comps_spec h.made old fun i j => hv i (x j) (G x j) (Multi.toExtr X x η old j) (H x (Multi.toExtr X x η old) j)).1 j t ht
  have e1 := (C43_operations h.made x x (comps X old fun i j => hv i (x j) (G x j) (Multi.toExtr X x η old j) (H x (Multi.toExtr X x η old) j)) η old true).1 j t ht
  rw [← h.extr_at x η old ht, ← e0]
  unfold outv
  cases hf : X.flag t with
  | true => rw [if_pos rfl]; exact (e1.2.2.2.2.2.2.2.2.2.1 hf).1
  | false => rw [if_neg (by simp)]; exact (e1.2.2.2.2.2.2.2.2.2.2 hf).1

end

section
variable {N : Nat} {σ : Fin N ≃ Fin N} {X : ProdMan P V} {ks : Nat → Nat} {L : VecOps V} {X' : ProdMan P' V'} {ks' : Nat → Nat} {L' : VecOps V'}
  {RP : Fin N → P → P' → Prop} {RV RG : Fin N → P → P' → V → V' → Prop} {oldP : Nat → P} {oldV : Nat → V} {oldP' : Nat → P'} {oldV' : Nat → V'}
  {f : (Nat → P) → ℝ} {G : (Nat → P) → Nat → V} {f' : (Nat → P') → ℝ} {G' : (Nat → P') → Nat → V'}

theorem prod_metric (h : IsProd X ks N) (h' : IsProd X' ks' N) {x : Nat → P} {x' : Nat → P'} {u v : Nat → V} {u' v' : Nat → V'}
    (hm : ∀ (j : Fin N) t t', IsComp X ks j t → IsComp X' ks' (σ j) t' →
      (X'.M t').metric (X'.flag t') (x' (σ j)) (u' (σ j)) (v' (σ j)) = (X.M t).metric (X.flag t) (x j) (u j) (v j)) :
    Multi.metric X' x' u' v' = Multi.metric X x u v := by
  classical
  choose ty hty using h.comp
  choose ty' hty' using h'.comp
  rw [h.metric_sum x u v (c := fun j => (X.M (ty j)).metric (X.flag (ty j)) (x j) (u j) (v j)) fun j t ht => by
      have : t = ty j := by have := hty j; rw [IsComp] at this ht; rw [ht] at this; exact Option.some.inj this
      rw [this],
    h'.metric_sum x' u' v' (c := fun j => (X'.M (ty' j)).metric (X'.flag (ty' j)) (x' j) (u' j) (v' j)) fun j t ht => by
      have : t = ty' j := by have := hty' j; rw [IsComp] at this ht; rw [ht] at this; exact Option.some.inj this
      rw [this]]
  rw [← Equiv.sum_comp σ]
  exact Finset.sum_congr rfl fun j _ => hm j _ _ (hty j) (hty' (σ j))

theorem prod_retr (h : IsProd X ks N) (h' : IsProd X' ks' N) (hF : Factors N σ X ks X' ks' fun j A a A' a' => FactorCorr A a L A' a' L' (RP j) (RV j) (RG j)) {x : Nat → P} {x' : Nat → P'}
    {v : Nat → V} {v' : Nat → V'} (hx : ProdRel N σ RP x x') (hv : ProdRelV N σ RV x x' v v') : ProdRel N σ RP (Multi.retr X x v oldP).1 (Multi.retr X' x' v' oldP').1 := by
  intro j
  obtain ⟨t, ht⟩ := h.comp j
  obtain ⟨t', ht'⟩ := h'.comp (σ j)
  rw [h.retr_at x v oldP ht, h'.retr_at x' v' oldP' ht']
  exact (hF j t t' ht ht').retr _ _ _ _ (hx j) (hv j)

/-- Products of corresponding factors correspond. -/
theorem prod_corr (h : IsProd X ks N) (h' : IsProd X' ks' N) (hF : Factors N σ X ks X' ks' fun j A a A' a' => FactorCorr A a L A' a' L' (RP j) (RV j) (RG j))
    (hf : ∀ x x', ProdRel N σ RP x x' → f' x' = f x) (hG : ∀ x x', ProdRel N σ RP x x' → ProdRelV N σ RG x x' (G x) (G' x')) :
    Corr (prodEnv X L oldP oldV f G) (prodEnv X' L' oldP' oldV' f' G') (ProdRel N σ RP) (ProdRelV N σ RV) := by
  have ex : ∀ j : Fin N, ∃ t t', IsComp X ks j t ∧ IsComp X' ks' (σ j) t' := fun j => by
    obtain ⟨t, ht⟩ := h.comp j
    obtain ⟨t', ht'⟩ := h'.comp (σ j)
    exact ⟨t, t', ht, ht'⟩
  refine realEnv_corr hf ?_ ?_ ?_ ?_ ?_
  · intro x x' hx j
    obtain ⟨t, t', ht, ht'⟩ := ex j
    rw [h.grad_at x (G x) oldV ht, h'.grad_at x' (G' x') oldV' ht']
    exact (hF j t t' ht ht').grad _ _ _ _ (hx j) (hG x x' hx j)
  · intro x x' v v' w w' hx hv hw
    exact prod_metric h h' fun j t t' ht ht' => (hF j t t' ht ht').metric _ _ _ _ _ _ (hx j) (hv j) (hw j)
  · intro x x' v v' hx hv
    exact prod_retr h h' hF hx hv
  · intro x x' c v v' hx hv j
    obtain ⟨t, t', ht, ht'⟩ := ex j
    exact (hF j t t' ht ht').smul _ _ _ _ _ (hx j) (hv j)
  · intro x x' a b v v' w w' hx hv hw j
    obtain ⟨t, t', ht, ht'⟩ := ex j
    exact (hF j t t' ht ht').lin _ _ _ _ _ _ _ _ (hx j) (hv j) (hw j)

theorem prod_trans (h : IsProd X ks N) (h' : IsProd X' ks' N) (hF : Factors N σ X ks X' ks' fun j A a A' a' => FactorCorr A a L A' a' L' (RP j) (RV j) (RG j))
    (hT : Factors N σ X ks X' ks' fun j A a A' a' => FactorTran A a A' a' (RP j) (RV j)) :
    TransCorr (prodEnv X L oldP oldV f G) (prodEnv X' L' oldP' oldV' f' G') (ProdRel N σ RP) (ProdRelV N σ RV) := by
  intro x x' v v' w w' hx hv hw j
  obtain ⟨t, ht⟩ := h.comp j
  obtain ⟨t', ht'⟩ := h'.comp (σ j)
  show RV j ((Multi.retr X x v oldP).1 j) ((Multi.retr X' x' v' oldP').1 (σ j)) (Multi.tran X x v (Multi.retr X x v oldP).1 w oldV j) (Multi.tran X' x' v' (Multi.retr X' x' v' oldP').1 w' oldV' (σ j))
  rw [((C43_operations h.made x (Multi.retr X x v oldP).1 v w oldV true).1 j t ht).2.2.2.2.1, ((C43_operations h'.made x' (Multi.retr X' x' v' oldP').1 v' w' oldV' true).1 (σ j) t' ht').2.2.2.2.1,
    h.retr_at x v oldP ht, h'.retr_at x' v' oldP' ht']
  exact hT j t t' ht ht' _ _ _ _ _ _ (hx j) (hv j) (hw j)

theorem prod_anywhere (h : IsProd X ks N) (h' : IsProd X' ks' N) (hA : Factors N σ X ks X' ks' fun j A a A' a' => FactorAnywhere A a A' a' (RP j) (RV j)) :
    MetricAnywhere (prodEnv X L oldP oldV f G) (prodEnv X' L' oldP' oldV' f' G') (ProdRel N σ RP) (ProdRelV N σ RV) := by
  intro x x' y y' v v' w w' hx hy hv hw
  exact prod_metric h h' fun j t t' ht ht' => hA j t t' ht ht' _ _ _ _ _ _ _ _ (hx j) (hy j) (hv j) (hw j)

theorem prod_slope (h : IsProd X ks N) (h' : IsProd X' ks' N) (hF : Factors N σ X ks X' ks' fun j A a A' a' => FactorCorr A a L A' a' L' (RP j) (RV j) (RG j))
    (hG : ∀ x x', ProdRel N σ RP x x' → ProdRelV N σ RG x x' (G x) (G' x')) (hD : Factors N σ X ks X' ks' fun j A a A' a' => FactorSlope A a A' a' (RP j) (RV j) (RG j)) :
    SlopeCorr (prodEnv X L oldP oldV f G) (prodEnv X' L' oldP' oldV' f' G') (ProdRel N σ RP) (ProdRelV N σ RV) := by
  intro x x' v v' w w' hx hv hw
  have hy : ProdRel N σ RP (Multi.retr X x v oldP).1 (Multi.retr X' x' v' oldP').1 := prod_retr h h' hF hx hv
  refine prod_metric (σ := σ) h h' fun j t t' ht ht' => ?_
  have hg := hG _ _ hy j
  show (X'.M t').metric (X'.flag t') ((Multi.retr X' x' v' oldP').1 (σ j)) ((if X'.intr then Multi.toIntr X' (Multi.retr X' x' v' oldP').1 (Multi.grad X' (Multi.retr X' x' v' oldP').1 (G' (Multi.retr X' x' v' oldP').1) oldV') oldV' else Multi.grad X' (Multi.retr X' x' v' oldP').1 (G' (Multi.retr X' x' v' oldP').1) oldV') (σ j))
      (Multi.diffRetr X' x' v' (Multi.retr X' x' v' oldP').1 w' true oldV' (σ j)) =
    (X.M t).metric (X.flag t) ((Multi.retr X x v oldP).1 j) ((if X.intr then Multi.toIntr X (Multi.retr X x v oldP).1 (Multi.grad X (Multi.retr X x v oldP).1 (G (Multi.retr X x v oldP).1) oldV) oldV else Multi.grad X (Multi.retr X x v oldP).1 (G (Multi.retr X x v oldP).1) oldV) j)
      (Multi.diffRetr X x v (Multi.retr X x v oldP).1 w true oldV j)
  generalize G' (Multi.retr X' x' v' oldP').1 = g' at hg ⊢
  generalize G (Multi.retr X x v oldP).1 = g at hg ⊢
  rw [h.grad_at _ g oldV ht, h'.grad_at _ g' oldV' ht', ((C43_operations h.made x (Multi.retr X x v oldP).1 v w oldV true).1 j t ht).2.2.2.1,
    ((C43_operations h'.made x' (Multi.retr X' x' v' oldP').1 v' w' oldV' true).1 (σ j) t' ht').2.2.2.1, h.retr_at x v oldP ht, h'.retr_at x' v' oldP' ht']
  rw [h.retr_at x v oldP ht, h'.retr_at x' v' oldP' ht'] at hg
  exact hD j t t' ht ht' _ _ _ _ _ _ _ _ (hx j) (hv j) (hw j) hg

theorem prodTR_corr (h : IsProd X ks N) (h' : IsProd X' ks' N) (hF : Factors N σ X ks X' ks' fun j A a A' a' => FactorCorr A a L A' a' L' (RP j) (RV j) (RG j))
    (hf : ∀ x x', ProdRel N σ RP x x' → f' x' = f x) (hG : ∀ x x', ProdRel N σ RP x x' → ProdRelV N σ RG x x' (G x) (G' x')) (pw : ℝ → ℝ) :
    TRCorr (prodTR X L oldP oldV f G pw) (prodTR X' L' oldP' oldV' f' G' pw) (ProdRel N σ RP) (ProdRelV N σ RV) where
  toCorr := prod_corr h h' hF hf hG
  powtheta := rfl
  axpy := by
    intro x x' c v v' w w' hx hv hw j
    obtain ⟨t, ht⟩ := h.comp j
    obtain ⟨t', ht'⟩ := h'.comp (σ j)
    exact (hF j t t' ht ht').axpy _ _ _ _ _ _ _ (hx j) (hv j) (hw j)
  proj := by
    intro x x' v v' hx hv j
    obtain ⟨t, ht⟩ := h.comp j
    obtain ⟨t', ht'⟩ := h'.comp (σ j)
    show RV j (x j) (x' (σ j)) (Multi.proj X x v oldV j) (Multi.proj X' x' v' oldV' (σ j))
    rw [((C43_operations h.made x x v v oldV true).1 j t ht).1, ((C43_operations h'.made x' x' v' v' oldV' true).1 (σ j) t' ht').1]
    exact (hF j t t' ht ht').proj _ _ _ _ (hx j) (hv j)

theorem prod_hess (h : IsProd X ks N) (h' : IsProd X' ks' N) {hv : Nat → P → V → V → V → V} {hv' : Nat → P' → V' → V' → V' → V'} {RU : Fin N → P → P' → V → V' → Prop}
    {H : (Nat → P) → (Nat → V) → Nat → V} {H' : (Nat → P') → (Nat → V') → Nat → V'}
    (hF : ∀ (j : Fin N) t t', IsComp X ks j t → IsComp X' ks' (σ j) t' → FactorHess (X.M t) (X.flag t) (hv t) (X'.M t') (X'.flag t') (hv' t') (RP j) (RV j) (RG j) (RU j))
    (hG : ∀ x x', ProdRel N σ RP x x' → ProdRelV N σ RG x x' (G x) (G' x'))
    (hH : ∀ x x' e e', ProdRel N σ RP x x' → ProdRelV N σ RU x x' e e' → ProdRelV N σ RG x x' (H x e) (H' x' e')) (x : Nat → P) (x' : Nat → P') (v : Nat → V) (v' : Nat → V')
    (hx : ProdRel N σ RP x x') (hvv : ProdRelV N σ RV x x' v v') : ProdRelV N σ RV x x' (prodHess X hv oldV G H x v) (prodHess X' hv' oldV' G' H' x' v') := by
  have he : ProdRelV N σ RU x x' (Multi.toExtr X x v oldV) (Multi.toExtr X' x' v' oldV') := by
    intro j
    obtain ⟨t, ht⟩ := h.comp j
    obtain ⟨t', ht'⟩ := h'.comp (σ j)
    rw [h.extr_at x v oldV ht, h'.extr_at x' v' oldV' ht']
    exact (hF j t t' ht ht').inv _ _ _ _ (hx j) (hvv j)
  intro j
  obtain ⟨t, ht⟩ := h.comp j
  obtain ⟨t', ht'⟩ := h'.comp (σ j)
  have hw := hH _ _ _ _ hx he j
  rw [h.hess_at hv oldV G H x v ht, h'.hess_at hv' oldV' G' H' x' v' ht']
  exact (hF j t t' ht ht').hv _ _ _ _ _ _ _ _ (hx j) (hG x x' hx j) ((hF j t t' ht ht').inv _ _ _ _ (hx j) (hvv j)) hw

/-! ## The properties -/

/-- **C138 (steepest descent).** Two products with corresponding factors, in any order and grouping, give the same run. The Barzilai-Borwein initial step needs corresponding transports. -/
theorem C138_rsd (h : IsProd X ks N) (h' : IsProd X' ks' N) (hF : Factors N σ X ks X' ks' fun j A a A' a' => FactorCorr A a L A' a' L' (RP j) (RV j) (RG j))
    (hf : ∀ x x', ProdRel N σ RP x x' → f' x' = f x) (hG : ∀ x x', ProdRel N σ RP x x' → ProdRelV N σ RG x x' (G x) (G' x')) {cfg : Cfg ℝ (Nat → P) (Nat → V)} {stop' : StopKind ℝ (Nat → P')}
    (hb : cfg.initType ≠ .bb ∨ (Factors N σ X ks X' ks' (fun j A a A' a' => FactorTran A a A' a' (RP j) (RV j)) ∧ Factors N σ X ks X' ks' fun j A a A' a' => FactorAnywhere A a A' a' (RP j) (RV j)))
    (hs : cfg.search = .armijo) (hst : StopCorr (ProdRel N σ RP) cfg.stop stop') (m n : Nat) (o : Obj ℝ (Nat → P) (Nat → V) Unit) (o' : Obj ℝ (Nat → P') (Nat → V') Unit)
    (hx : ProdRel N σ RP o.x1 o'.x1) (hx2 : ProdRel N σ RP o.x2 o'.x2) (hB : o'.preBBs = o.preBBs) (hlen : o'.lengthSeries = o.lengthSeries) (hcnt : o'.cnt = o.cnt) :
    SameRuns (ProdRel N σ RP) (ProdRelV N σ RV) (run (prodEnv X L oldP oldV f G) cfg (rsd (prodEnv X L oldP oldV f G)) m n o)
      (run (prodEnv X' L' oldP' oldV' f' G') (reCfg cfg stop') (rsd (prodEnv X' L' oldP' oldV' f' G')) m n o') :=
  C130_rsd (prod_corr h h' hF hf hG) (hb.imp_right fun hb => ⟨prod_trans h h' hF hb.1, prod_anywhere h h' hb.2⟩) hs hst m n o o' hx hx2 hB hlen hcnt

/-- **C138 (conjugate gradients).** -/
theorem C138_rcg (h : IsProd X ks N) (h' : IsProd X' ks' N) (hF : Factors N σ X ks X' ks' fun j A a A' a' => FactorCorr A a L A' a' L' (RP j) (RV j) (RG j))
    (hT : Factors N σ X ks X' ks' fun j A a A' a' => FactorTran A a A' a' (RP j) (RV j)) (hf : ∀ x x', ProdRel N σ RP x x' → f' x' = f x)
    (hG : ∀ x x', ProdRel N σ RP x x' → ProdRelV N σ RG x x' (G x) (G' x')) {cfg : Cfg ℝ (Nat → P) (Nat → V)} {stop' : StopKind ℝ (Nat → P')}
    (hb : cfg.initType ≠ .bb ∨ Factors N σ X ks X' ks' fun j A a A' a' => FactorAnywhere A a A' a' (RP j) (RV j))
    (hs : cfg.search = .armijo) (hst : StopCorr (ProdRel N σ RP) cfg.stop stop') (kind : CGKind) (m n : Nat) (o : Obj ℝ (Nat → P) (Nat → V) (CGOwn ℝ (Nat → V)))
    (o' : Obj ℝ (Nat → P') (Nat → V') (CGOwn ℝ (Nat → V')))
    (hx : ProdRel N σ RP o.x1 o'.x1) (hx2 : ProdRel N σ RP o.x2 o'.x2) (hB : o'.preBBs = o.preBBs) (hlen : o'.lengthSeries = o.lengthSeries) (hcnt : o'.cnt = o.cnt) :
    SameRuns (ProdRel N σ RP) (ProdRelV N σ RV) (run (prodEnv X L oldP oldV f G) cfg (rcg (prodEnv X L oldP oldV f G) kind) m n o)
      (run (prodEnv X' L' oldP' oldV' f' G') (reCfg cfg stop') (rcg (prodEnv X' L' oldP' oldV' f' G') kind) m n o') :=
  C130_rcg (prod_corr h h' hF hf hG) (prod_trans h h' hF hT) (hb.imp_right fun hb => ⟨prod_trans h h' hF hT, prod_anywhere h h' hb⟩) hs hst kind m n o o' hx hx2 hB hlen hcnt

/-- **C138 (trust-region Newton).** -/
theorem C138_rtrnewton (h : IsProd X ks N) (h' : IsProd X' ks' N) (hF : Factors N σ X ks X' ks' fun j A a A' a' => FactorCorr A a L A' a' L' (RP j) (RV j) (RG j))
    (hf : ∀ x x', ProdRel N σ RP x x' → f' x' = f x) (hG : ∀ x x', ProdRel N σ RP x x' → ProdRelV N σ RG x x' (G x) (G' x'))
    {hv : Nat → P → V → V → V → V} {hv' : Nat → P' → V' → V' → V' → V'} {RU : Fin N → P → P' → V → V' → Prop} {H : (Nat → P) → (Nat → V) → Nat → V} {H' : (Nat → P') → (Nat → V') → Nat → V'}
    (hFH : ∀ (j : Fin N) t t', IsComp X ks j t → IsComp X' ks' (σ j) t' → FactorHess (X.M t) (X.flag t) (hv t) (X'.M t') (X'.flag t') (hv' t') (RP j) (RV j) (RG j) (RU j))
    (hH : ∀ x x' e e', ProdRel N σ RP x x' → ProdRelV N σ RU x x' e e' → ProdRelV N σ RG x x' (H x e) (H' x' e')) (pw : ℝ → ℝ) {cfg : TRCfg ℝ (Nat → P)} {stop' : StopKind ℝ (Nat → P')}
    (hst : StopCorr (ProdRel N σ RP) cfg.stop stop') (n : Nat) {o : TRObj ℝ (Nat → P) (Nat → V) Unit} {o' : TRObj ℝ (Nat → P') (Nat → V') Unit} (h0 : SameStart (ProdRel N σ RP) o o') :
    OptRel (SameTR (ProdRel N σ RP) (ProdRelV N σ RV)) (trRun (prodTR X L oldP oldV f G pw) cfg (rtr (prodTR X L oldP oldV f G pw) (prodHess X hv oldV G H)) n o)
      (trRun (prodTR X' L' oldP' oldV' f' G' pw) (reTRCfg cfg stop') (rtr (prodTR X' L' oldP' oldV' f' G' pw) (prodHess X' hv' oldV' G' H')) n o') :=
  C134_rtr (prodTR_corr h h' hF hf hG pw) (prod_hess h h' hFH hG hH) hst n h0

/-- **C138 (line searches).** Every search reads the same function of the step and the same derivative. -/
theorem C138_ray (h : IsProd X ks N) (h' : IsProd X' ks' N) (hF : Factors N σ X ks X' ks' fun j A a A' a' => FactorCorr A a L A' a' L' (RP j) (RV j) (RG j))
    (hf : ∀ x x', ProdRel N σ RP x x' → f' x' = f x) (hG : ∀ x x', ProdRel N σ RP x x' → ProdRelV N σ RG x x' (G x) (G' x'))
    (hD : Factors N σ X ks X' ks' fun j A a A' a' => FactorSlope A a A' a' (RP j) (RV j) (RG j)) {i : SearchIn ℝ (Nat → P) (Nat → V)} {i' : SearchIn ℝ (Nat → P') (Nat → V')}
    (hi : SameInput (ProdRel N σ RP) (ProdRelV N σ RV) i i') : rayOf (prodEnv X' L' oldP' oldV' f' G') i' = rayOf (prodEnv X L oldP oldV f G) i :=
  C135_ray (prod_corr h h' hF hf hG) (prod_slope h h' hF hG hD) hi

end

/-! ## Order and grouping of the factors -/

section
variable {N : Nat} {σ : Fin N ≃ Fin N} {X X' : ProdMan P V} {ks ks' : Nat → Nat} {L : VecOps V} {oldP oldP' : Nat → P} {oldV oldV' : Nat → V}
  {f f' : (Nat → P) → ℝ} {G G' : (Nat → P) → Nat → V}

/-- The same components in the order given by `σ`; memory beyond the components is not compared. -/
abbrev Reord {T : Type} (N : Nat) (σ : Fin N ≃ Fin N) (x x' : Nat → T) : Prop := ∀ j : Fin N, x' (σ j) = x j

/-- The factors of `X'` are those of `X` in the order given by `σ`, with the same flags, in any grouping. -/
abbrev SameFactors (N : Nat) (σ : Fin N ≃ Fin N) (X : ProdMan P V) (ks : Nat → Nat) (X' : ProdMan P V) (ks' : Nat → Nat) : Prop :=
  Factors N σ X ks X' ks' fun _ A a A' a' => A' = A ∧ a' = a

theorem factorCorr_refl (A : Comp P V) (a : Bool) (L : VecOps V) : FactorCorr A a L A a L (fun x x' => x' = x) (fun _ _ v v' => v' = v) (fun _ _ v v' => v' = v) := by
  constructor
  · rintro x _ g _ rfl rfl; rfl
  · rintro x _ v _ w _ rfl rfl rfl; rfl
  · rintro x _ v _ rfl rfl; rfl
  · rintro x _ v _ rfl rfl; rfl
  · rintro x _ c v _ rfl rfl; rfl
  · rintro x _ c d v _ w _ rfl rfl rfl; rfl
  · rintro x _ c v _ w _ rfl rfl rfl; rfl

theorem sameFactors_corr (hF : SameFactors N σ X ks X' ks') (L : VecOps V) :
    Factors N σ X ks X' ks' fun _ A a A' a' => FactorCorr A a L A' a' L (fun x x' => x' = x) (fun _ _ v v' => v' = v) (fun _ _ v v' => v' = v) := by
  intro j t t' ht ht'
  obtain ⟨e1, e2⟩ := hF j t t' ht ht'
  show FactorCorr _ _ _ _ _ _ _ _ _
  rw [e1, e2]
  exact factorCorr_refl _ _ _

theorem sameFactors_tran (hF : SameFactors N σ X ks X' ks') : Factors N σ X ks X' ks' fun _ A a A' a' => FactorTran A a A' a' (fun x x' => x' = x) (fun _ _ v v' => v' = v) := by
  intro j t t' ht ht'
  obtain ⟨e1, e2⟩ := hF j t t' ht ht'
  show FactorTran _ _ _ _ _ _
  rw [e1, e2]
  rintro x _ v _ w _ rfl rfl rfl; rfl

theorem sameFactors_anywhere (hF : SameFactors N σ X ks X' ks') : Factors N σ X ks X' ks' fun _ A a A' a' => FactorAnywhere A a A' a' (fun x x' => x' = x) (fun _ _ v v' => v' = v) := by
  intro j t t' ht ht'
  obtain ⟨e1, e2⟩ := hF j t t' ht ht'
  show FactorAnywhere _ _ _ _ _ _
  rw [e1, e2]
  rintro x _ y _ v _ w _ rfl rfl rfl rfl; rfl

theorem sameFactors_slope (hF : SameFactors N σ X ks X' ks') :
    Factors N σ X ks X' ks' fun _ A a A' a' => FactorSlope A a A' a' (fun x x' => x' = x) (fun _ _ v v' => v' = v) (fun _ _ v v' => v' = v) := by
  intro j t t' ht ht'
  obtain ⟨e1, e2⟩ := hF j t t' ht ht'
  show FactorSlope _ _ _ _ _ _ _
  rw [e1, e2]
  rintro x _ v _ w _ g _ rfl rfl rfl rfl; rfl

/-- **C138 (order and grouping).** The runs of steepest descent and of conjugate gradients, with every initial step rule, do not depend on how equal factors are grouped into types, on the order of the
factors, or on the contents of fresh memory. -/
theorem C138_regroup (h : IsProd X ks N) (h' : IsProd X' ks' N) (hF : SameFactors N σ X ks X' ks') (hf : ∀ x x', Reord N σ x x' → f' x' = f x) (hG : ∀ x x', Reord N σ x x' → Reord N σ (G x) (G' x'))
    {cfg : Cfg ℝ (Nat → P) (Nat → V)} {stop' : StopKind ℝ (Nat → P)} (hs : cfg.search = .armijo) (hst : StopCorr (Reord N σ) cfg.stop stop') (m n : Nat) :
    (∀ o o' : Obj ℝ (Nat → P) (Nat → V) Unit, Reord N σ o.x1 o'.x1 → Reord N σ o.x2 o'.x2 → o'.preBBs = o.preBBs → o'.lengthSeries = o.lengthSeries → o'.cnt = o.cnt →
      SameRuns (Reord N σ) (fun _ _ => Reord N σ) (run (prodEnv X L oldP oldV f G) cfg (rsd (prodEnv X L oldP oldV f G)) m n o)
        (run (prodEnv X' L oldP' oldV' f' G') (reCfg cfg stop') (rsd (prodEnv X' L oldP' oldV' f' G')) m n o')) ∧
    (∀ (kind : CGKind) (o o' : Obj ℝ (Nat → P) (Nat → V) (CGOwn ℝ (Nat → V))), Reord N σ o.x1 o'.x1 → Reord N σ o.x2 o'.x2 → o'.preBBs = o.preBBs → o'.lengthSeries = o.lengthSeries → o'.cnt = o.cnt →
      SameRuns (Reord N σ) (fun _ _ => Reord N σ) (run (prodEnv X L oldP oldV f G) cfg (rcg (prodEnv X L oldP oldV f G) kind) m n o)
        (run (prodEnv X' L oldP' oldV' f' G') (reCfg cfg stop') (rcg (prodEnv X' L oldP' oldV' f' G') kind) m n o')) :=
  ⟨fun o o' hx hx2 hB hlen hcnt => C138_rsd h h' (sameFactors_corr hF L) hf hG (Or.inr ⟨sameFactors_tran hF, sameFactors_anywhere hF⟩) hs hst m n o o' hx hx2 hB hlen hcnt,
    fun kind o o' hx hx2 hB hlen hcnt => C138_rcg h h' (sameFactors_corr hF L) (sameFactors_tran hF) hf hG (Or.inr (sameFactors_anywhere hF)) hs hst kind m n o o' hx hx2 hB hlen hcnt⟩

/-- **C138 (order and grouping, trust-region Newton).** -/
theorem C138_regroup_rtrnewton (h : IsProd X ks N) (h' : IsProd X' ks' N) (hF : SameFactors N σ X ks X' ks') (hf : ∀ x x', Reord N σ x x' → f' x' = f x) (hG : ∀ x x', Reord N σ x x' → Reord N σ (G x) (G' x'))
    {hv hv' : Nat → P → V → V → V → V} (hhv : ∀ (j : Fin N) t t', IsComp X ks j t → IsComp X' ks' (σ j) t' → hv' t' = hv t) {H H' : (Nat → P) → (Nat → V) → Nat → V}
    (hH : ∀ x x' e e', Reord N σ x x' → Reord N σ e e' → Reord N σ (H x e) (H' x' e')) (pw : ℝ → ℝ) {cfg : TRCfg ℝ (Nat → P)} {stop' : StopKind ℝ (Nat → P)} (hst : StopCorr (Reord N σ) cfg.stop stop')
    (n : Nat) {o o' : TRObj ℝ (Nat → P) (Nat → V) Unit} (h0 : SameStart (Reord N σ) o o') :
    OptRel (SameTR (Reord N σ) (fun _ _ => Reord N σ)) (trRun (prodTR X L oldP oldV f G pw) cfg (rtr (prodTR X L oldP oldV f G pw) (prodHess X hv oldV G H)) n o)
      (trRun (prodTR X' L oldP' oldV' f' G' pw) (reTRCfg cfg stop') (rtr (prodTR X' L oldP' oldV' f' G' pw) (prodHess X' hv' oldV' G' H')) n o') := by
  refine C138_rtrnewton (RU := fun _ _ _ v v' => v' = v) h h' (sameFactors_corr hF L) hf hG ?_ hH pw hst n h0
  intro j t t' ht ht'
  obtain ⟨e1, e2⟩ := hF j t t' ht ht'
  rw [e1, e2, hhv j t t' ht ht']
  constructor
  · rintro x _ v _ rfl rfl; rfl
  · rintro x _ g _ e _ w _ rfl rfl rfl rfl; rfl

/-- **C138 (order and grouping, line searches).** -/
theorem C138_regroup_ray (h : IsProd X ks N) (h' : IsProd X' ks' N) (hF : SameFactors N σ X ks X' ks') (hf : ∀ x x', Reord N σ x x' → f' x' = f x) (hG : ∀ x x', Reord N σ x x' → Reord N σ (G x) (G' x'))
    {i i' : SearchIn ℝ (Nat → P) (Nat → V)} (hi : SameInput (Reord N σ) (fun _ _ => Reord N σ) i i') : rayOf (prodEnv X' L oldP' oldV' f' G') i' = rayOf (prodEnv X L oldP oldV f G) i :=
  C138_ray h h' (sameFactors_corr hF L) hf hG (sameFactors_slope hF) hi

end

/-! ## One factor -/

section
variable {X : ProdMan P V} {ks : Nat → Nat} {L : VecOps V} {oldP : Nat → P} {oldV : Nat → V} {t : Nat} {f : P → ℝ} {G : P → V}

/-- The product and the single manifold agree in component 0. -/
abbrev First {T : Type} (x : Nat → T) (x' : T) : Prop := x 0 = x'

theorem single_metric (h : IsProd X ks 1) (ht : IsComp X ks 0 t) (x : Nat → P) (u v : Nat → V) : Multi.metric X x u v = (X.M t).metric (X.flag t) (x 0) (u 0) (v 0) := by
  rw [h.metric_sum x u v (c := fun _ => (X.M t).metric (X.flag t) (x 0) (u 0) (v 0)), Fin.sum_univ_one]
  intro j s hs
  have hj : j = 0 := Subsingleton.elim _ _
  rw [hj] at hs ⊢
  rw [IsComp] at ht
  rw [IsComp, Fin.val_zero, ht] at hs
  rw [Option.some.inj hs]
  rfl

theorem single_corr (h : IsProd X ks 1) (ht : IsComp X ks 0 t) :
    Corr (prodEnv X L oldP oldV (fun x => f (x 0)) (fun x _ => G (x 0))) (compEnv (X.M t) (X.flag t) L f G) First (fun _ _ => First) := by
  refine realEnv_corr ?_ ?_ ?_ ?_ ?_ ?_
  · rintro x _ rfl; rfl
  · rintro x _ rfl; exact h.grad_at x (fun _ => G (x 0)) oldV ht
  · rintro x _ v _ w _ rfl rfl rfl; exact (single_metric h ht x v w).symm
  · rintro x _ v _ rfl rfl; exact h.retr_at x v oldP ht
  · rintro x _ c v _ rfl rfl; rfl
  · rintro x _ a b v _ w _ rfl rfl rfl; rfl

theorem single_trans (h : IsProd X ks 1) (ht : IsComp X ks 0 t) :
    TransCorr (prodEnv X L oldP oldV (fun x => f (x 0)) (fun x _ => G (x 0))) (compEnv (X.M t) (X.flag t) L f G) First (fun _ _ => First) := by
  rintro x _ v _ w _ rfl rfl rfl
  show Multi.tran X x v (Multi.retr X x v oldP).1 w oldV 0 = (X.M t).tran (X.flag t) (x 0) (v 0) ((X.M t).retr (X.flag t) (x 0) (v 0)) (w 0)
  rw [((C43_operations h.made x (Multi.retr X x v oldP).1 v w oldV true).1 0 t ht).2.2.2.2.1, h.retr_at x v oldP ht]

/-- **C138 (one factor).** The product with one factor and the factor itself give the same runs. -/
theorem C138_single (h : IsProd X ks 1) (ht : IsComp X ks 0 t) {cfg : Cfg ℝ (Nat → P) (Nat → V)} {stop' : StopKind ℝ P} (hs : cfg.search = .armijo) (hst : StopCorr First cfg.stop stop') (m n : Nat) :
    let e := prodEnv X L oldP oldV (fun x => f (x 0)) (fun x _ => G (x 0)); let e' := compEnv (X.M t) (X.flag t) L f G
    (∀ (o : Obj ℝ (Nat → P) (Nat → V) Unit) (o' : Obj ℝ P V Unit), First o.x1 o'.x1 → First o.x2 o'.x2 → o'.preBBs = o.preBBs → o'.lengthSeries = o.lengthSeries → o'.cnt = o.cnt →
      SameRuns First (fun _ _ => First) (run e cfg (rsd e) m n o) (run e' (reCfg cfg stop') (rsd e') m n o')) ∧
    (∀ (kind : CGKind) (o : Obj ℝ (Nat → P) (Nat → V) (CGOwn ℝ (Nat → V))) (o' : Obj ℝ P V (CGOwn ℝ V)), First o.x1 o'.x1 → First o.x2 o'.x2 → o'.preBBs = o.preBBs →
      o'.lengthSeries = o.lengthSeries → o'.cnt = o.cnt → SameRuns First (fun _ _ => First) (run e cfg (rcg e kind) m n o) (run e' (reCfg cfg stop') (rcg e' kind) m n o')) := by
  have hC := single_corr (L := L) (oldP := oldP) (oldV := oldV) (f := f) (G := G) h ht
  have hT := single_trans (L := L) (oldP := oldP) (oldV := oldV) (f := f) (G := G) h ht
  have hA : MetricAnywhere (prodEnv X L oldP oldV (fun x => f (x 0)) (fun x _ => G (x 0))) (compEnv (X.M t) (X.flag t) L f G) First (fun _ _ => First) := by
    rintro x _ y _ v _ w _ rfl rfl rfl rfl
    exact (single_metric h ht x v w).symm
  exact ⟨fun o o' hx hx2 hB hlen hcnt => C130_rsd hC (Or.inr ⟨hT, hA⟩) hs hst m n o o' hx hx2 hB hlen hcnt,
    fun kind o o' hx hx2 hB hlen hcnt => C130_rcg hC hT (Or.inr ⟨hT, hA⟩) hs hst kind m n o o' hx hx2 hB hlen hcnt⟩

/-- **C138 (one factor, trust-region Newton).** -/
theorem C138_single_rtrnewton (h : IsProd X ks 1) (ht : IsComp X ks 0 t) (hv : Nat → P → V → V → V → V) (H : P → V → V) (pw : ℝ → ℝ) {cfg : TRCfg ℝ (Nat → P)} {stop' : StopKind ℝ P}
    (hst : StopCorr First cfg.stop stop') (n : Nat) {o : TRObj ℝ (Nat → P) (Nat → V) Unit} {o' : TRObj ℝ P V Unit} (h0 : SameStart First o o') :
    let e := prodTR X L oldP oldV (fun x => f (x 0)) (fun x _ => G (x 0)) pw; let e' := compTR (X.M t) (X.flag t) L f G pw
    OptRel (SameTR First (fun _ _ => First)) (trRun e cfg (rtr e (prodHess X hv oldV (fun x _ => G (x 0)) (fun x e _ => H (x 0) (e 0)))) n o)
      (trRun e' (reTRCfg cfg stop') (rtr e' (compHess (X.M t) (X.flag t) (hv t) G H)) n o') := by
  have hC : TRCorr (prodTR X L oldP oldV (fun x => f (x 0)) (fun x _ => G (x 0)) pw) (compTR (X.M t) (X.flag t) L f G pw) First (fun _ _ => First) :=
    { toCorr := single_corr h ht
      powtheta := rfl
      axpy := by rintro x _ c v _ w _ rfl rfl rfl; rfl
      proj := by
        rintro x _ v _ rfl rfl
        exact ((C43_operations h.made x x v v oldV true).1 0 t ht).1 }
  refine C134_rtr hC ?_ hst n h0
  rintro x _ v _ rfl rfl
  show prodHess X hv oldV _ _ x v 0 = _
  rw [h.hess_at hv oldV _ _ x v ht, h.extr_at x v oldV ht]
  unfold outv inv compHess
  cases X.flag t <;> rfl

end

/-! ## Stiefel and Grassmann factors in either representation -/

section
variable {n p : ℕ}

/-- Vectors in memory: coordinates when the flag is set. -/
def stCode (cd : Framed n p → Matrix (Fin n) (Fin p) ℝ → List ℝ) (a : Bool) (x : Framed n p) (v : Matrix (Fin n) (Fin p) ℝ) : StV n p := if a then .inr (cd x v) else .inl v

/-- Two copies of a point with its stored factors. -/
def StP (x x' : Framed n p) : Prop := x'.1 = x.1 ∧ FramedOk x.1 x ∧ FramedOk x.1 x'

/-- Two representations of the same vector in the subspace `T x`. -/
def StVec (T : Matrix (Fin n) (Fin p) ℝ → Matrix (Fin n) (Fin p) ℝ → Prop) (cd : Framed n p → Matrix (Fin n) (Fin p) ℝ → List ℝ) (a a' : Bool) (x x' : Framed n p) (u u' : StV n p) : Prop :=
  ∃ v, T x.1 v ∧ u = stCode cd a x v ∧ u' = stCode cd a' x' v

/-- The same matrix, of any kind. -/
def StMat (_ _ : Framed n p) (u u' : StV n p) : Prop := ∃ m, u = .inl m ∧ u' = .inl m

/-- The same matrix in the subspace `T x`. -/
def StExt (T : Matrix (Fin n) (Fin p) ℝ → Matrix (Fin n) (Fin p) ℝ → Prop) (x _ : Framed n p) (u u' : StV n p) : Prop := ∃ m, T x.1 m ∧ u = .inl m ∧ u' = .inl m

/-- What is common to the two manifolds: the projection `π` on `T x`, the coordinates `cd`. -/
structure StRep (hp : p ≤ n) (hhr : Matrix (Fin n) (Fin p) ℝ → Frame n p) (A : Comp (Framed n p) (StV n p)) (hv : Framed n p → StV n p → StV n p → StV n p → StV n p)
    (T : Matrix (Fin n) (Fin p) ℝ → Matrix (Fin n) (Fin p) ℝ → Prop) (π : Matrix (Fin n) (Fin p) ℝ → Matrix (Fin n) (Fin p) ℝ → Matrix (Fin n) (Fin p) ℝ)
    (cd : Framed n p → Matrix (Fin n) (Fin p) ℝ → List ℝ) : Prop where
  ptan : ∀ x m, xᵀ * x = 1 → T x (π x m)
  pid : ∀ x v, xᵀ * x = 1 → T x v → π x v = v
  tan : ∀ x v, T x v → IsTangent x v
  tlin : ∀ x (a b : ℝ) v w, T x v → T x w → T x (a • v + b • w)
  clin : ∀ x (a b : ℝ) v w, cd x (a • v + b • w) = List.zipWith (fun s t => a * s + b * t) (cd x v) (cd x w)
  iso : ∀ x v w, FramedOk x.1 x → T x.1 v → T x.1 w → dot (cd x v) (cd x w) = frob v w
  isod : ∀ y v R ξ, FramedOk y.1 y → T y.1 v → dot (cd y v) (cd y (diffQf y.1 R ξ)) = frob v (diffQf y.1 R ξ)
  grad : ∀ a x m, A.grad a x (.inl m) = .inl (π x.1 m)
  intr : ∀ x v, A.toIntr x (.inl v) = .inr (cd x v)
  extr : ∀ x v, FramedOk x.1 x → T x.1 v → A.toExtr x (.inr (cd x v)) = .inl v
  met0 : ∀ x v w, A.metric false x (.inl v) (.inl w) = frob v w
  met1 : ∀ x c d, A.metric true x (.inr c) (.inr d) = dot c d
  proj0 : ∀ x v, A.proj false x (.inl v) = .inl (π x.1 v)
  proj1 : ∀ x u, A.proj true x u = u
  retr : ∀ a x v, FramedOk x.1 x → T x.1 v → A.retr a x (stCode cd a x v) = (qfPoint hp (hhr (x.1 + v)), hhr (x.1 + v))
  diff0 : ∀ x u y ξ, A.diffRetr false x u y (.inl ξ) true = .inl (diffQf y.1 (topR hp y.2.2) ξ)
  diff1 : ∀ x u y ξ, FramedOk x.1 x → T x.1 ξ → A.diffRetr true x u y (.inr (cd x ξ)) true = .inr (cd y (diffQf y.1 (topR hp y.2.2) ξ))
  hess : ∀ (x x' : Framed n p) (g v w : Matrix (Fin n) (Fin p) ℝ), x'.1 = x.1 → x.1ᵀ * x.1 = 1 → ∃ u, T x.1 u ∧ hv x (.inl g) (.inl v) (.inl w) = .inl u ∧ hv x' (.inl g) (.inl v) (.inl w) = .inl u

variable {hp : p ≤ n} {hhr : Matrix (Fin n) (Fin p) ℝ → Frame n p}

theorem stiefel_rep (hp : p ≤ n) (junk : ℕ → ℝ) (hhr : Matrix (Fin n) (Fin p) ℝ → Frame n p) (B : Comp (Framed n p) (StV n p)) :
    StRep hp hhr (stiefelComp hp junk hhr B) stiefelHv IsTangent Stiefel.proj (fun x => stiefelIntr x.2.1 x.2.2) := by
  have ex : ∀ (x : Framed n p) v, FramedOk x.1 x → IsTangent x.1 v → stiefelExtr junk x.2.1 x.2.2 (stiefelIntr x.2.1 x.2.2 v) = v := by
    rintro x v ⟨_, h2, R, hR, hs⟩ hv
    rw [← rowSigns_intr hs, ← rowSigns_extr hs]
    exact C37_stiefel_extr_intr hp hR h2 hv junk
  have iso : ∀ (x : Framed n p) v w, FramedOk x.1 x → IsTangent x.1 v → IsTangent x.1 w → dot (stiefelIntr x.2.1 x.2.2 v) (stiefelIntr x.2.1 x.2.2 w) = frob v w := by
    rintro x v w ⟨_, h2, R, hR, hs⟩ hv hw
    rw [← rowSigns_intr hs, ← rowSigns_intr hs]
    exact C37_stiefel_isometry hp hR h2 hv hw
  refine
    { ptan := fun x m hx => (C35_stiefel_projection hx m m).1
      pid := fun x v hx hv => (C35_stiefel_projection hx v v).2.1 hv
      tan := fun x v h => h
      tlin := fun x a b v w => tangent_lin a b
      clin := fun x a b v w => stiefelIntr_lin _ _ _ _ _ _
      iso := iso
      isod := fun y v R ξ hy hv => iso y v _ hy hv (diffQf_tangent hy.2.1 R ξ)
      grad := fun a x m => rfl
      intr := fun x v => rfl
      extr := fun x v hx hv => congrArg Sum.inl (ex x v hx hv)
      met0 := fun x v w => rfl
      met1 := fun x c d => rfl
      proj0 := fun x v => rfl
      proj1 := fun x u => rfl
      retr := ?_
      diff0 := fun x u y ξ => rfl
      diff1 := ?_
      hess := ?_ }
  · intro a x v hx hv
    cases a with
    | true =>
      show (qfPoint hp (hhr (x.1 + stiefelExtr junk x.2.1 x.2.2 (stiefelIntr x.2.1 x.2.2 v))), hhr (x.1 + stiefelExtr junk x.2.1 x.2.2 (stiefelIntr x.2.1 x.2.2 v))) = _
      rw [ex x v hx hv]
    | false => rfl
  · intro x u y ξ hx hξ
    show Sum.inr (stiefelIntr y.2.1 y.2.2 (diffQf y.1 (topR hp y.2.2) (stiefelExtr junk x.2.1 x.2.2 (stiefelIntr x.2.1 x.2.2 ξ)))) = _
    rw [ex x ξ hx hξ]
  · intro x x' g v w e hx
    refine ⟨_, (C35_stiefel_projection hx _ v).1, rfl, ?_⟩
    show Sum.inl (hess x'.1 g v w) = _
    rw [e]; rfl

theorem grass_rep (hp : p ≤ n) (junk : ℕ → ℝ) (hhr : Matrix (Fin n) (Fin p) ℝ → Frame n p) (B : Comp (Framed n p) (StV n p)) :
    StRep hp hhr (grassComp hp junk hhr B) grassHv IsHorizontal gProj (fun x => grassIntr x.2.1) := by
  have ex : ∀ (x : Framed n p) v, FramedOk x.1 x → IsHorizontal x.1 v → grassExtr junk x.2.1 (grassIntr x.2.1 v) = v := by
    rintro x v ⟨_, h2, R, hR, hs⟩ hv
    exact C37_grassmann_extr_intr hp hR h2 hv junk
  have iso : ∀ (x : Framed n p) v w, FramedOk x.1 x → IsHorizontal x.1 v → dot (grassIntr x.2.1 v) (grassIntr x.2.1 w) = frob v w := by
    rintro x v w ⟨_, h2, R, hR, hs⟩ hv
    exact C37_grassmann_isometry hp hR h2 hv w
  refine
    { ptan := fun x m hx => (C35_grassmann_projection hx m m).1
      pid := fun x v hx hv => (C35_grassmann_projection hx v v).2.1 hv
      tan := fun x v h => horizontal_tangent h
      tlin := fun x a b v w => horizontal_lin a b
      clin := fun x a b v w => grassIntr_lin _ _ _ _ _
      iso := fun x v w hx hv _ => iso x v w hx hv
      isod := fun y v R ξ hy hv => iso y v _ hy hv
      grad := fun a x m => rfl
      intr := fun x v => rfl
      extr := fun x v hx hv => congrArg Sum.inl (ex x v hx hv)
      met0 := fun x v w => rfl
      met1 := fun x c d => rfl
      proj0 := fun x v => rfl
      proj1 := fun x u => rfl
      retr := ?_
      diff0 := fun x u y ξ => rfl
      diff1 := ?_
      hess := ?_ }
  · intro a x v hx hv
    cases a with
    | true =>
      show (qfPoint hp (hhr (x.1 + grassExtr junk x.2.1 (grassIntr x.2.1 v))), hhr (x.1 + grassExtr junk x.2.1 (grassIntr x.2.1 v))) = _
      rw [ex x v hx hv]
    | false => rfl
  · intro x u y ξ hx hξ
    show Sum.inr (grassIntr y.2.1 (diffQf y.1 (topR hp y.2.2) (grassExtr junk x.2.1 (grassIntr x.2.1 ξ)))) = _
    rw [ex x ξ hx hξ]
  · intro x x' g v w e hx
    refine ⟨_, (C35_grassmann_projection hx _ v).1, rfl, ?_⟩
    show Sum.inl (gHess x'.1 g v w) = _
    rw [e]; rfl

section
variable {A : Comp (Framed n p) (StV n p)} {hv : Framed n p → StV n p → StV n p → StV n p → StV n p} {T : Matrix (Fin n) (Fin p) ℝ → Matrix (Fin n) (Fin p) ℝ → Prop}
  {π : Matrix (Fin n) (Fin p) ℝ → Matrix (Fin n) (Fin p) ℝ → Matrix (Fin n) (Fin p) ℝ} {cd : Framed n p → Matrix (Fin n) (Fin p) ℝ → List ℝ}

theorem StRep.outv_eq (h : StRep hp hhr A hv T π cd) (a : Bool) (x : Framed n p) (v : Matrix (Fin n) (Fin p) ℝ) : outv A a x (.inl v) = stCode cd a x v := by
  unfold outv stCode
  cases a with
  | true => exact h.intr x v
  | false => rfl

theorem StRep.inv_eq (h : StRep hp hhr A hv T π cd) (a : Bool) {x : Framed n p} (hx : FramedOk x.1 x) {v : Matrix (Fin n) (Fin p) ℝ} (hv : T x.1 v) : inv A a x (stCode cd a x v) = .inl v := by
  unfold inv stCode
  cases a with
  | true => exact h.extr x v hx hv
  | false => rfl

theorem StRep.metric_eq (h : StRep hp hhr A hv T π cd) (a : Bool) {x : Framed n p} (hx : FramedOk x.1 x) {v w : Matrix (Fin n) (Fin p) ℝ} (hv : T x.1 v) (hw : T x.1 w) :
    A.metric a x (stCode cd a x v) (stCode cd a x w) = frob v w := by
  cases a with
  | true => exact (h.met1 x _ _).trans (h.iso x v w hx hv hw)
  | false => exact h.met0 x v w

theorem StRep.lin_eq (h : StRep hp hhr A hv T π cd) (a : Bool) (x : Framed n p) (c d : ℝ) (v w : Matrix (Fin n) (Fin p) ℝ) :
    stOps.lin c (stCode cd a x v) d (stCode cd a x w) = stCode cd a x (c • v + d • w) := by
  cases a with
  | true => exact congrArg Sum.inr (h.clin x c d v w).symm
  | false => rfl

theorem StRep.axpy_eq (h : StRep hp hhr A hv T π cd) (a : Bool) (x : Framed n p) (c : ℝ) (v w : Matrix (Fin n) (Fin p) ℝ) :
    stOps.axpy c (stCode cd a x v) (stCode cd a x w) = stCode cd a x (c • v + w) := by
  cases a with
  | true =>
    have e := h.clin x c 1 v w
    rw [one_smul] at e
    simp only [one_mul] at e
    exact congrArg Sum.inr e.symm
  | false => rfl

theorem StRep.smul_eq (h : StRep hp hhr A hv T π cd) (a : Bool) (x : Framed n p) (c : ℝ) (v : Matrix (Fin n) (Fin p) ℝ) : stOps.smul c (stCode cd a x v) = stCode cd a x (c • v) := by
  cases a with
  | true =>
    have e := h.clin x c 0 v v
    rw [zero_smul, add_zero, zip_self] at e
    refine congrArg Sum.inr (Eq.symm (e.trans ?_))
    exact List.map_congr_left fun q _ => by ring
  | false => rfl

theorem StRep.retr_ok (hh : IsHHR hhr) (h : StRep hp hhr A hv T π cd) {x : Framed n p} (hx : FramedOk x.1 x) {v : Matrix (Fin n) (Fin p) ℝ} (hv : T x.1 v) :
    FramedOk (qfPoint hp (hhr (x.1 + v))) (qfPoint hp (hhr (x.1 + v)), hhr (x.1 + v)) := by
  obtain ⟨a, _, b⟩ := qfPoint_spec hp hh hx.2.1 (h.tan _ _ hv)
  exact ⟨rfl, a, b⟩

theorem StRep.corr (hh : IsHHR hhr) (h : StRep hp hhr A hv T π cd) (a a' : Bool) : FactorCorr A a stOps A a' stOps StP (StVec T cd a a') StMat := by
  constructor
  · rintro x x' _ _ hx ⟨m, rfl, rfl⟩
    refine ⟨π x.1 m, h.ptan _ _ hx.2.1.2.1, ?_, ?_⟩
    · rw [h.grad, h.outv_eq]
    · rw [h.grad, h.outv_eq, hx.1]
  · rintro x x' _ _ _ _ hx ⟨v, hv, rfl, rfl⟩ ⟨w, hw, rfl, rfl⟩
    have hx' : FramedOk x'.1 x' := by rw [hx.1]; exact hx.2.2
    rw [h.metric_eq a hx.2.1 hv hw, h.metric_eq a' hx' (by rwa [hx.1]) (by rwa [hx.1])]
  · rintro x x' _ _ hx ⟨v, hv, rfl, rfl⟩
    have hx' : FramedOk x'.1 x' := by rw [hx.1]; exact hx.2.2
    rw [h.retr a x v hx.2.1 hv, h.retr a' x' v hx' (by rwa [hx.1]), hx.1]
    exact ⟨rfl, h.retr_ok hh hx.2.1 hv, h.retr_ok hh hx.2.1 hv⟩
  · rintro x x' _ _ hx ⟨v, hv, rfl, rfl⟩
    have e : ∀ (b : Bool) (y : Framed n p), y.1 = x.1 → A.proj b y (stCode cd b y v) = stCode cd b y v := by
      intro b y hy
      cases b with
      | true => exact h.proj1 _ _
      | false =>
        refine (h.proj0 y v).trans (congrArg Sum.inl ?_)
        rw [hy]
        exact h.pid _ _ hx.2.1.2.1 hv
    rw [e a x rfl, e a' x' hx.1]
    exact ⟨v, hv, rfl, rfl⟩
  · rintro x x' c _ _ hx ⟨v, hv, rfl, rfl⟩
    rw [h.smul_eq, h.smul_eq]
    have := h.tlin x.1 c 0 v v hv hv
    rw [zero_smul, add_zero] at this
    exact ⟨_, this, rfl, rfl⟩
  · rintro x x' c d _ _ _ _ hx ⟨v, hv, rfl, rfl⟩ ⟨w, hw, rfl, rfl⟩
    rw [h.lin_eq, h.lin_eq]
    exact ⟨_, h.tlin x.1 c d v w hv hw, rfl, rfl⟩
  · rintro x x' c _ _ _ _ hx ⟨v, hv, rfl, rfl⟩ ⟨w, hw, rfl, rfl⟩
    rw [h.axpy_eq, h.axpy_eq]
    have := h.tlin x.1 c 1 v w hv hw
    rw [one_smul] at this
    exact ⟨_, this, rfl, rfl⟩

theorem StRep.hess_corr (h : StRep hp hhr A hv T π cd) (a a' : Bool) : FactorHess A a hv A a' hv StP (StVec T cd a a') StMat (StExt T) := by
  constructor
  · rintro x x' _ _ hx ⟨v, hv, rfl, rfl⟩
    have hx' : FramedOk x'.1 x' := by rw [hx.1]; exact hx.2.2
    exact ⟨v, hv, h.inv_eq a hx.2.1 hv, h.inv_eq a' hx' (by rwa [hx.1])⟩
  · rintro x x' _ _ _ _ _ _ hx ⟨g, rfl, rfl⟩ ⟨v, _, rfl, rfl⟩ ⟨w, rfl, rfl⟩
    obtain ⟨u, hu, e1, e2⟩ := h.hess x x' g v w hx.1 hx.2.1.2.1
    rw [e1, e2, h.outv_eq, h.outv_eq]
    exact ⟨u, hu, rfl, rfl⟩

theorem StRep.slope (hh : IsHHR hhr) (h : StRep hp hhr A hv T π cd) (a a' : Bool) : FactorSlope A a A a' StP (StVec T cd a a') StMat := by
  rintro x x' _ _ _ _ _ _ hx ⟨v, hv, rfl, rfl⟩ ⟨w, hw, rfl, rfl⟩ ⟨g, rfl, rfl⟩
  have hx' : FramedOk x'.1 x' := by rw [hx.1]; exact hx.2.2
  have key : ∀ (b : Bool) (z : Framed n p), z.1 = x.1 → FramedOk z.1 z →
      A.metric b (A.retr b z (stCode cd b z v)) (outv A b (A.retr b z (stCode cd b z v)) (A.grad b (A.retr b z (stCode cd b z v)) (.inl g)))
        (A.diffRetr b z (stCode cd b z v) (A.retr b z (stCode cd b z v)) (stCode cd b z w) true) =
      frob (π (qfPoint hp (hhr (x.1 + v))) g) (diffQf (qfPoint hp (hhr (x.1 + v))) (topR hp (hhr (x.1 + v)).2) w) := by
    intro b z e hz
    rw [h.retr b z v hz (by rwa [e]), h.grad, h.outv_eq, e]
    have ok := h.retr_ok hh hx.2.1 hv
    cases b with
    | true =>
      have d := h.diff1 z (stCode cd true z v) (qfPoint hp (hhr (x.1 + v)), hhr (x.1 + v)) w hz (by rwa [e])
      have d' : stCode cd true z w = .inr (cd z w) := rfl
      rw [d', d]
      refine (h.met1 _ _ _).trans ?_
      exact h.isod (qfPoint hp (hhr (x.1 + v)), hhr (x.1 + v)) _ _ _ ok (h.ptan _ _ ok.2.1)
    | false =>
      have d' : stCode cd false z w = .inl w := rfl
      rw [d', h.diff0]
      exact h.met0 _ _ _
  rw [key a x rfl hx.2.1, key a' x' hx.1 hx']

end

/-! ### Products of both, any flags -/

/-- The factor: a Grassmann manifold when `k` is set, a Stiefel manifold otherwise. -/
noncomputable def stFactor (hp : p ≤ n) (junk : ℕ → ℝ) (hhr : Matrix (Fin n) (Fin p) ℝ → Frame n p) (B : Comp (Framed n p) (StV n p)) (k : Bool) : Comp (Framed n p) (StV n p) :=
  if k then grassComp hp junk hhr B else stiefelComp hp junk hhr B

/-- Its conversion of Hessians. -/
noncomputable def stFactorHv (k : Bool) : Framed n p → StV n p → StV n p → StV n p → StV n p := if k then grassHv else stiefelHv

/-- Its tangent (horizontal) space. -/
def stSpace (k : Bool) (x v : Matrix (Fin n) (Fin p) ℝ) : Prop := if k then IsHorizontal x v else IsTangent x v

/-- Its coordinates. -/
noncomputable def stCoord (k : Bool) (x : Framed n p) (v : Matrix (Fin n) (Fin p) ℝ) : List ℝ := if k then grassIntr x.2.1 v else stiefelIntr x.2.1 x.2.2 v

/-- Factor `j` of `X` and factor `σ j` of `X'` are of the kind `k j`, with the flags `fl j` and `fl' j`. -/
def Mixed (hp : p ≤ n) (junk : ℕ → ℝ) (hhr : Matrix (Fin n) (Fin p) ℝ → Frame n p) (B : Comp (Framed n p) (StV n p)) (N : ℕ) (σ : Fin N ≃ Fin N) (k fl fl' : Fin N → Bool)
    (X : ProdMan (Framed n p) (StV n p)) (ks : ℕ → ℕ) (X' : ProdMan (Framed n p) (StV n p)) (ks' : ℕ → ℕ) : Prop :=
  Factors N σ X ks X' ks' fun j A a A' a' => A = stFactor hp junk hhr B (k j) ∧ a = fl j ∧ A' = stFactor hp junk hhr B (k j) ∧ a' = fl' j

theorem stFactor_rep (hp : p ≤ n) (junk : ℕ → ℝ) (hhr : Matrix (Fin n) (Fin p) ℝ → Frame n p) (B : Comp (Framed n p) (StV n p)) (k : Bool) :
    StRep hp hhr (stFactor hp junk hhr B k) (stFactorHv k) (stSpace k) (fun x m => if k then gProj x m else Stiefel.proj x m) (stCoord k) := by
  cases k with
  | true => exact grass_rep hp junk hhr B
  | false => exact stiefel_rep hp junk hhr B

variable {junk : ℕ → ℝ} {B : Comp (Framed n p) (StV n p)} {N : ℕ} {σ : Fin N ≃ Fin N} {k fl fl' : Fin N → Bool} {X X' : ProdMan (Framed n p) (StV n p)} {ks ks' : ℕ → ℕ}
  {oldP oldP' : ℕ → Framed n p} {oldV oldV' : ℕ → StV n p} {f f' : (ℕ → Framed n p) → ℝ} {G G' : (ℕ → Framed n p) → ℕ → StV n p}

/-- Points of the two products: the same matrices, each with its own stored factors. -/
abbrev MixP (N : ℕ) (σ : Fin N ≃ Fin N) : (ℕ → Framed n p) → (ℕ → Framed n p) → Prop := ProdRel N σ fun _ => StP

/-- Vectors of the two products: representations of the same tangent vectors. -/
abbrev MixV (N : ℕ) (σ : Fin N ≃ Fin N) (k fl fl' : Fin N → Bool) : (ℕ → Framed n p) → (ℕ → Framed n p) → (ℕ → StV n p) → (ℕ → StV n p) → Prop :=
  ProdRelV N σ fun j => StVec (stSpace (k j)) (stCoord (k j)) (fl j) (fl' j)

/-- **C138 (Stiefel and Grassmann factors).** On products of Stiefel and Grassmann manifolds, the flags of the factors, their order and their grouping have no influence on a run of steepest descent. -/
theorem C138_mixed_rsd (hh : IsHHR hhr) (h : IsProd X ks N) (h' : IsProd X' ks' N) (hM : Mixed hp junk hhr B N σ k fl fl' X ks X' ks') (hf : ∀ x x', MixP N σ x x' → f' x' = f x)
    (hG : ∀ x x', MixP N σ x x' → ProdRelV N σ (fun _ => StMat) x x' (G x) (G' x')) {cfg : Cfg ℝ (ℕ → Framed n p) (ℕ → StV n p)} {stop' : StopKind ℝ (ℕ → Framed n p)} (hb : cfg.initType ≠ .bb)
    (hs : cfg.search = .armijo) (hst : StopCorr (MixP N σ) cfg.stop stop') (m c : ℕ) (o o' : Obj ℝ (ℕ → Framed n p) (ℕ → StV n p) Unit)
    (hx : MixP N σ o.x1 o'.x1) (hx2 : MixP N σ o.x2 o'.x2) (hB : o'.preBBs = o.preBBs) (hlen : o'.lengthSeries = o.lengthSeries) (hcnt : o'.cnt = o.cnt) :
    SameRuns (MixP N σ) (MixV N σ k fl fl') (run (prodEnv X stOps oldP oldV f G) cfg (rsd (prodEnv X stOps oldP oldV f G)) m c o)
      (run (prodEnv X' stOps oldP' oldV' f' G') (reCfg cfg stop') (rsd (prodEnv X' stOps oldP' oldV' f' G')) m c o') := by
  refine C138_rsd (RG := fun _ => StMat) h h' ?_ hf hG (Or.inl hb) hs hst m c o o' hx hx2 hB hlen hcnt
  intro j t t' ht ht'
  obtain ⟨e1, e2, e3, e4⟩ := hM j t t' ht ht'
  show FactorCorr _ _ _ _ _ _ _ _ _
  rw [e1, e2, e3, e4]
  exact (stFactor_rep hp junk hhr B (k j)).corr hh _ _

/-- **C138 (Stiefel and Grassmann factors, trust-region Newton).** -/
theorem C138_mixed_rtrnewton (hh : IsHHR hhr) (h : IsProd X ks N) (h' : IsProd X' ks' N) (hM : Mixed hp junk hhr B N σ k fl fl' X ks X' ks') (hf : ∀ x x', MixP N σ x x' → f' x' = f x)
    (hG : ∀ x x', MixP N σ x x' → ProdRelV N σ (fun _ => StMat) x x' (G x) (G' x')) {hv hv' : ℕ → Framed n p → StV n p → StV n p → StV n p → StV n p}
    (hhv : ∀ (j : Fin N) t t', IsComp X ks j t → IsComp X' ks' (σ j) t' → hv t = stFactorHv (k j) ∧ hv' t' = stFactorHv (k j))
    {H H' : (ℕ → Framed n p) → (ℕ → StV n p) → ℕ → StV n p}
    (hH : ∀ x x' e e', MixP N σ x x' → ProdRelV N σ (fun j => StExt (stSpace (k j))) x x' e e' → ProdRelV N σ (fun _ => StMat) x x' (H x e) (H' x' e')) (pw : ℝ → ℝ)
    {cfg : TRCfg ℝ (ℕ → Framed n p)} {stop' : StopKind ℝ (ℕ → Framed n p)} (hst : StopCorr (MixP N σ) cfg.stop stop') (c : ℕ) {o o' : TRObj ℝ (ℕ → Framed n p) (ℕ → StV n p) Unit}
    (h0 : SameStart (MixP N σ) o o') :
    OptRel (SameTR (MixP N σ) (MixV N σ k fl fl')) (trRun (prodTR X stOps oldP oldV f G pw) cfg (rtr (prodTR X stOps oldP oldV f G pw) (prodHess X hv oldV G H)) c o)
      (trRun (prodTR X' stOps oldP' oldV' f' G' pw) (reTRCfg cfg stop') (rtr (prodTR X' stOps oldP' oldV' f' G' pw) (prodHess X' hv' oldV' G' H')) c o') := by
  refine C138_rtrnewton (RG := fun _ => StMat) (RU := fun j => StExt (stSpace (k j))) h h' ?_ hf hG ?_ hH pw hst c h0
  · intro j t t' ht ht'
    obtain ⟨e1, e2, e3, e4⟩ := hM j t t' ht ht'
    show FactorCorr _ _ _ _ _ _ _ _ _
    rw [e1, e2, e3, e4]
    exact (stFactor_rep hp junk hhr B (k j)).corr hh _ _
  · intro j t t' ht ht'
    obtain ⟨e1, e2, e3, e4⟩ := hM j t t' ht ht'
    rw [e1, e2, e3, e4, (hhv j t t' ht ht').1, (hhv j t t' ht ht').2]
    exact (stFactor_rep hp junk hhr B (k j)).hess_corr _ _

/-- **C138 (Stiefel and Grassmann factors, line searches).** -/
theorem C138_mixed_ray (hh : IsHHR hhr) (h : IsProd X ks N) (h' : IsProd X' ks' N) (hM : Mixed hp junk hhr B N σ k fl fl' X ks X' ks') (hf : ∀ x x', MixP N σ x x' → f' x' = f x)
    (hG : ∀ x x', MixP N σ x x' → ProdRelV N σ (fun _ => StMat) x x' (G x) (G' x')) {i i' : SearchIn ℝ (ℕ → Framed n p) (ℕ → StV n p)} (hi : SameInput (MixP N σ) (MixV N σ k fl fl') i i') :
    rayOf (prodEnv X' stOps oldP' oldV' f' G') i' = rayOf (prodEnv X stOps oldP oldV f G) i := by
  refine C138_ray (RG := fun _ => StMat) h h' ?_ hf hG ?_ hi
  · intro j t t' ht ht'
    obtain ⟨e1, e2, e3, e4⟩ := hM j t t' ht ht'
    show FactorCorr _ _ _ _ _ _ _ _ _
    rw [e1, e2, e3, e4]
    exact (stFactor_rep hp junk hhr B (k j)).corr hh _ _
  · intro j t t' ht ht'
    obtain ⟨e1, e2, e3, e4⟩ := hM j t t' ht ht'
    show FactorSlope _ _ _ _ _ _ _
    rw [e1, e2, e3, e4]
    exact (stFactor_rep hp junk hhr B (k j)).slope hh _ _

end

/-! ## Concrete cases -/

theorem isProd_mk (nt : ℕ) (M : ℕ → Comp P V) (flag : ℕ → Bool) (ks : ℕ → ℕ) : IsProd (Multi.mk nt M flag ks) ks (types ks nt).length := ⟨(C43_constructors nt M flag ks _ fun _ _ => rfl).1, rfl, rfl⟩

/-- `A × A × B` as two types with powers 2 and 1, and as three types with power 1: the same runs of steepest descent. -/
example (A B : Comp P V) (a b : Bool) (L : VecOps V) (oldP : ℕ → P) (oldV : ℕ → V) {f : (ℕ → P) → ℝ} {G : (ℕ → P) → ℕ → V} (hf : ∀ x x', Reord 3 (Equiv.refl _) x x' → f x' = f x)
    (hG : ∀ x x', Reord 3 (Equiv.refl _) x x' → Reord 3 (Equiv.refl _) (G x) (G x')) {cfg : Cfg ℝ (ℕ → P) (ℕ → V)} (hs : cfg.search = .armijo) (hst : cfg.stop = .gradF) (m n : ℕ)
    (o : Obj ℝ (ℕ → P) (ℕ → V) Unit) :
    let X := Multi.mk 2 (fun i => if i = 0 then A else B) (fun i => if i = 0 then a else b) (fun i => if i = 0 then 2 else 1)
    let X' := Multi.mk 3 (fun i => if i < 2 then A else B) (fun i => if i < 2 then a else b) (fun _ => 1)
    SameRuns (Reord 3 (Equiv.refl _)) (fun _ _ => Reord 3 (Equiv.refl _)) (run (prodEnv X L oldP oldV f G) cfg (rsd (prodEnv X L oldP oldV f G)) m n o)
      (run (prodEnv X' L oldP oldV f G) (reCfg cfg .gradF) (rsd (prodEnv X' L oldP oldV f G)) m n o) := by
  intro X X'
  have h : IsProd X (fun i => if i = 0 then 2 else 1) 3 := isProd_mk _ _ _ _
  have h' : IsProd X' (fun _ => 1) 3 := isProd_mk _ _ _ _
  refine (C138_regroup h h' ?_ hf hG hs (by rw [hst]; trivial) m n).1 o o (fun _ => rfl) (fun _ => rfl) rfl rfl rfl
  intro j t t' ht ht'
  have e : t = if j.1 < 2 then 0 else 1 := by
    have : (types (fun i => if i = 0 then 2 else 1) 2)[j.1]? = some t := ht
    fin_cases j <;> exact (Option.some.inj this).symm
  have e' : t' = j.1 := by
    have : (types (fun _ => 1) 3)[j.1]? = some t' := ht'
    fin_cases j <;> exact (Option.some.inj this).symm
  subst e e'
  fin_cases j <;> exact ⟨rfl, rfl⟩

/-- The Stiefel manifold times the Grassmann manifold with coordinates, and with the order and both flags changed: line searches read the same values. -/
example {n p : ℕ} (hp : p ≤ n) (junk : ℕ → ℝ) {hhr : Matrix (Fin n) (Fin p) ℝ → Frame n p} (hh : IsHHR hhr) (B : Comp (Framed n p) (StV n p)) (oldP : ℕ → Framed n p) (oldV : ℕ → StV n p)
    {f f' : (ℕ → Framed n p) → ℝ} {G G' : (ℕ → Framed n p) → ℕ → StV n p} (hf : ∀ x x', MixP 2 (Equiv.swap 0 1) x x' → f' x' = f x)
    (hG : ∀ x x', MixP 2 (Equiv.swap 0 1) x x' → ProdRelV 2 (Equiv.swap 0 1) (fun _ => StMat) x x' (G x) (G' x')) {i i' : SearchIn ℝ (ℕ → Framed n p) (ℕ → StV n p)}
    (hi : SameInput (MixP 2 (Equiv.swap 0 1)) (MixV 2 (Equiv.swap 0 1) (fun j => j == 1) (fun _ => true) (fun _ => false)) i i') :
    let X := Multi.mk 2 (fun t => stFactor hp junk hhr B (t == 1)) (fun _ => true) (fun _ => 1)
    let X' := Multi.mk 2 (fun t => stFactor hp junk hhr B (t == 0)) (fun _ => false) (fun _ => 1)
    rayOf (prodEnv X' stOps oldP oldV f' G') i' = rayOf (prodEnv X stOps oldP oldV f G) i := by
  intro X X'
  have h : IsProd X (fun _ => 1) 2 := isProd_mk _ _ _ _
  have h' : IsProd X' (fun _ => 1) 2 := isProd_mk _ _ _ _
  refine C138_mixed_ray (k := fun j => j == 1) (hp := hp) (junk := junk) (B := B) hh h h' ?_ hf hG hi
  intro j t t' ht ht'
  have e : t = j.1 := by
    have : (types (fun _ => 1) 2)[j.1]? = some t := ht
    fin_cases j <;> exact (Option.some.inj this).symm
  have e' : t' = (Equiv.swap (0 : Fin 2) 1 j).1 := by
    have : (types (fun _ => 1) 2)[(Equiv.swap (0 : Fin 2) 1 j).1]? = some t' := ht'
    fin_cases j <;> exact (Option.some.inj this).symm
  subst e e'
  fin_cases j <;> exact ⟨rfl, rfl, rfl, rfl⟩

end Verif.Obj
