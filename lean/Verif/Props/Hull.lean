import Verif.Props.SubDir
import Verif.Props.Problems
import Verif.Manifold.Sphere

/-!
# What the inner solver of the minimum-norm subproblem can return (C90)

`MinPNormConHull` (`Others/MinPNormConHull.cpp:19-41`) minimises the function of `SphereConvexHull` over the unit sphere with a Newton trust-region method started at a random point,
with the stopping test on the norm of the gradient, and returns the vector left in the field `"Wxsq"`.
-/

set_option linter.unusedSectionVars false

namespace Verif.SubDir

open Verif.QN Verif.Problem
open scoped RealInnerProductSpace

variable {E : Type*} [NormedAddCommGroup E] [InnerProductSpace ℝ E] {k : Nat}

/-- The Riemannian gradient of the subproblem: `EucGradToGrad` of the sphere (`Stiefel.cpp:315-328` with `p = 1`) applied to `SphereConvexHull::EucGrad`. -/
noncomputable def hullGrad (W : Fin k → E) (P : E → E) (x : EuclideanSpace ℝ (Fin k)) : EuclideanSpace ℝ (Fin k) :=
  Sphere.proj x (WithLp.toLp 2 ((sphereConvexHull W P).eucGrad x ((sphereConvexHull W P).f x).2))

/-- The Riemannian Hessian of the subproblem: `EucHvToHv` of the sphere (`Stiefel.cpp:330-340`) applied to `SphereConvexHull::EucHessianEta`. -/
noncomputable def hullHess (W : Fin k → E) (P : E → E) (x η : EuclideanSpace ℝ (Fin k)) : EuclideanSpace ℝ (Fin k) :=
  Sphere.hessian x (WithLp.toLp 2 ((sphereConvexHull W P).eucGrad x ((sphereConvexHull W P).f x).2)) η
    (WithLp.toLp 2 ((sphereConvexHull W P).eucHess x ((sphereConvexHull W P).f x).2 η))

/-- The vector returned (`xopt.Field("Wxsq")`). -/
noncomputable def hullVec (W : Fin k → E) (P : E → E) (x : EuclideanSpace ℝ (Fin k)) : E := ((sphereConvexHull W P).f x).2.1

theorem hullVec_eq (W : Fin k → E) (P : E → E) (x : EuclideanSpace ℝ (Fin k)) : hullVec W P x = ∑ i, (x i * x i) • W i := combine_eq _ _

theorem inner_eq_sum (x y : EuclideanSpace ℝ (Fin k)) : ⟪x, y⟫ = ∑ i, x i * y i := by
  rw [PiLp.inner_apply]
  refine Finset.sum_congr rfl fun i _ => ?_
  simp [mul_comm]

theorem hullGrad_apply (W : Fin k → E) (P : E → E) (x : EuclideanSpace ℝ (Fin k)) (i : Fin k) :
    hullGrad W P x i = 4 * x i * (⟪W i, P (hullVec W P x)⟫ - ⟪hullVec W P x, P (hullVec W P x)⟫) := by
  have e : ⟪x, (WithLp.toLp 2 ((sphereConvexHull W P).eucGrad x ((sphereConvexHull W P).f x).2) : EuclideanSpace ℝ (Fin k))⟫ =
      4 * ⟪hullVec W P x, P (hullVec W P x)⟫ := by
    rw [inner_eq_sum]
    conv_rhs => rw [show ⟪hullVec W P x, P (hullVec W P x)⟫ = ⟪∑ i, (x i * x i) • W i, P (hullVec W P x)⟫ from by rw [← hullVec_eq W P x]]
    rw [sum_inner, Finset.mul_sum]
    refine Finset.sum_congr rfl fun i _ => ?_
    rw [inner_smul_left]
    simp only [conj_trivial]
    change x i * (4 * x i * ⟪W i, P (hullVec W P x)⟫) = _
    ring
  rw [hullGrad, Sphere.proj, e]
  change 4 * x i * ⟪W i, P (hullVec W P x)⟫ - ((4 * ⟪hullVec W P x, P (hullVec W P x)⟫ + 4 * ⟪hullVec W P x, P (hullVec W P x)⟫) / 2) * x i = _
  ring

/-- **C90.** At a point of the sphere where the gradient of the subproblem vanishes and its Hessian is positive semidefinite on the tangent space, the vector returned is the shortest one of the convex
hull (in the inner product of the operator), for every number of vectors and every symmetric positive definite operator. -/
theorem C90_second_order_is_shortest (W : Fin k → E) (H : E →ₗ[ℝ] E) (h : IsSPD H) (x : EuclideanSpace ℝ (Fin k)) (hx : ∑ i, x i * x i = 1)
    (hg : hullGrad W H x = 0) (hh : ∀ η, ⟪x, η⟫ = 0 → 0 ≤ ⟪η, hullHess W H x η⟫) : ShortestIn H (Set.range W) (hullVec W H x) := by
  set v := hullVec W H x with hv
  have hfirst : ∀ i, x i ≠ 0 → ⟪W i, H v⟫ = ⟪v, H v⟫ := by
    intro i hi
    have := hullGrad_apply W H x i
    rw [hg] at this
    have h0 : (0 : ℝ) = 4 * x i * (⟪W i, H v⟫ - ⟪v, H v⟫) := this
    have h1 : 4 * x i ≠ 0 := mul_ne_zero (by norm_num) hi
    have := (mul_eq_zero.mp h0.symm).resolve_left h1
    linarith
  have hall : ∀ i, ⟪v, H v⟫ ≤ ⟪W i, H v⟫ := by
    intro i
    by_cases hi : x i = 0
    · set η : EuclideanSpace ℝ (Fin k) := EuclideanSpace.single i 1 with hη
      have hsum : ∀ y : EuclideanSpace ℝ (Fin k), ⟪η, y⟫ = y i := by
        intro y
        rw [inner_eq_sum, Finset.sum_eq_single i]
        · simp [hη]
        · intro j _ hj; simp [hη, hj]
        · simp
      have hxη : ⟪x, η⟫ = 0 := by rw [real_inner_comm, hsum, hi]
      have hcurv := hh η hxη
      have hge : ⟪(WithLp.toLp 2 ((sphereConvexHull W H).eucGrad x ((sphereConvexHull W H).f x).2) : EuclideanSpace ℝ (Fin k)), x⟫ = 4 * ⟪v, H v⟫ := by
        rw [real_inner_comm, inner_eq_sum]
        conv_rhs => rw [show ⟪v, H v⟫ = ⟪∑ i, (x i * x i) • W i, H v⟫ from by rw [← hullVec_eq W H x]]
        rw [sum_inner, Finset.mul_sum]
        refine Finset.sum_congr rfl fun i _ => ?_
        rw [inner_smul_left]
        simp only [conj_trivial]
        change x i * (4 * x i * ⟪W i, H v⟫) = _
        ring
      rw [hullHess, Sphere.hessian, Sphere.proj, hge, inner_sub_right, inner_smul_right, real_inner_comm x η, hxη, mul_zero, sub_zero, inner_sub_right, inner_smul_right, hsum, hsum] at hcurv
      have hη1 : η i = 1 := by simp [hη]
      have he : ((WithLp.toLp 2 ((sphereConvexHull W H).eucHess x ((sphereConvexHull W H).f x).2 η) : EuclideanSpace ℝ (Fin k)) i) = 4 * ⟪W i, H v⟫ := by
        change 4 * η i * ⟪W i, H v⟫ + 8 * x i * _ = _
        rw [hi, hη1]
        ring
      rw [he, hη1] at hcurv
      linarith
    · exact (hfirst i hi).ge
  have hhull : ∀ u ∈ convexHull ℝ (Set.range W), ⟪v, H v⟫ ≤ ⟪u, H v⟫ := by
    intro u hu
    have hconv : Convex ℝ {u : E | ⟪v, H v⟫ ≤ ⟪u, H v⟫} := by
      intro a ha b hb s t hs ht hst
      have ha : ⟪v, H v⟫ ≤ ⟪a, H v⟫ := ha
      have hb : ⟪v, H v⟫ ≤ ⟪b, H v⟫ := hb
      change ⟪v, H v⟫ ≤ ⟪s • a + t • b, H v⟫
      rw [inner_add_left, inner_smul_left, inner_smul_left]
      simp only [conj_trivial]
      have e : ⟪v, H v⟫ = s * ⟪v, H v⟫ + t * ⟪v, H v⟫ := by rw [← add_mul, hst, one_mul]
      have := mul_le_mul_of_nonneg_left ha hs
      have := mul_le_mul_of_nonneg_left hb ht
      linarith
    exact convexHull_min (by rintro _ ⟨i, rfl⟩; exact hall i) hconv hu
  refine ⟨(C51_in_hull W H hx).1, fun u hu => ?_⟩
  have h1 := hhull u hu
  have h2 := quad_expand h.1 u v 1
  have h3 := spd_nonneg h (u - v)
  rw [one_smul, add_sub_cancel] at h2
  rw [h2]
  linarith

/-- **C90.** With exact solutions of the subproblem in this sense the direction theorems apply: any choice of second-order points gives an exact solver. -/
theorem C90_exact_solver (H : E →ₗ[ℝ] E) (h : IsSPD H) (sol : (K : E →ₗ[ℝ] E) → (W : List E) → EuclideanSpace ℝ (Fin W.length))
    (hsol : ∀ K, IsSPD K → ∀ W : List E, W ≠ [] → ∑ i, sol K W i * sol K W i = 1 ∧ hullGrad W.get K (sol K W) = 0 ∧ ∀ η, ⟪sol K W, η⟫ = 0 → 0 ≤ ⟪η, hullHess W.get K (sol K W) η⟫) :
    Exact H fun K W => hullVec W.get K (sol K W) := by
  have hr : ∀ W : List E, Set.range W.get = {w | w ∈ W} := by
    intro W
    ext w
    simp only [Set.mem_range, Set.mem_ofPred_eq]
    exact List.mem_iff_get.symm
  intro W hW
  constructor
  · obtain ⟨h1, h2, h3⟩ := hsol H h W hW
    rw [← hr]; exact C90_second_order_is_shortest W.get H h _ h1 h2 h3
  · obtain ⟨h1, h2, h3⟩ := hsol LinearMap.id id_spd W hW
    rw [← hr]; exact C90_second_order_is_shortest W.get LinearMap.id id_spd _ h1 h2 h3

/-- **C90 (violated): the stopping test also accepts other points.** The gradient of the subproblem vanishes at every coordinate vector, whatever the vectors and the operator: the returned vector is then the
corresponding given vector itself, shortest or not. -/
theorem C90_vertices_pass_the_test (W : Fin k → E) (P : E → E) (j : Fin k) :
    hullGrad W P (EuclideanSpace.single j 1) = 0 ∧ hullVec W P (EuclideanSpace.single j 1) = W j := by
  have hv : hullVec W P (EuclideanSpace.single j 1) = W j := by
    rw [hullVec_eq, Finset.sum_eq_single j]
    · simp
    · intro i _ hi; simp [hi]
    · simp
  refine ⟨?_, hv⟩
  ext i
  rw [hullGrad_apply, hv]
  by_cases hi : i = j
  · subst hi; simp
  · simp [hi]

/-- **C90 (violated).** Two opposite gradients on the line: the shortest vector of their hull is 0, the stopping test is passed with 1. -/
theorem C90_not_shortest : ∃ (W : Fin 2 → ℝ) (x : EuclideanSpace ℝ (Fin 2)), ∑ i, x i * x i = 1 ∧ hullGrad W (LinearMap.id : ℝ →ₗ[ℝ] ℝ) x = 0 ∧
    ¬ ShortestIn LinearMap.id (Set.range W) (hullVec W (LinearMap.id : ℝ →ₗ[ℝ] ℝ) x) := by
  obtain ⟨h1, h2⟩ := C90_vertices_pass_the_test (![1, -1] : Fin 2 → ℝ) (LinearMap.id : ℝ →ₗ[ℝ] ℝ) 0
  refine ⟨![1, -1], EuclideanSpace.single 0 1, by simp, h1, ?_⟩
  rw [h2]
  intro hs
  have hmem : (0 : ℝ) ∈ convexHull ℝ (Set.range (![1, -1] : Fin 2 → ℝ)) := by
    have := (convex_convexHull ℝ (Set.range (![1, -1] : Fin 2 → ℝ))) (subset_convexHull ℝ _ ⟨0, rfl⟩) (subset_convexHull ℝ _ ⟨1, rfl⟩)
      (by norm_num : (0 : ℝ) ≤ 1 / 2) (by norm_num : (0 : ℝ) ≤ 1 / 2) (by norm_num)
    convert this using 1
    simp
  have := hs.2 0 hmem
  simp at this
  linarith

/-- Hypotheses of `C90_second_order_is_shortest` in a case with two vectors: the point with equal weights for 1 and -1. -/
example : ShortestIn LinearMap.id (Set.range (![1, -1] : Fin 2 → ℝ)) (hullVec (![1, -1] : Fin 2 → ℝ) (LinearMap.id : ℝ →ₗ[ℝ] ℝ) (WithLp.toLp 2 ![√(1 / 2), √(1 / 2)])) := by
  have hsq : √(1 / 2 : ℝ) * √(1 / 2) = 1 / 2 := Real.mul_self_sqrt (by norm_num)
  have hv : hullVec (![1, -1] : Fin 2 → ℝ) (LinearMap.id : ℝ →ₗ[ℝ] ℝ) (WithLp.toLp 2 ![√(1 / 2), √(1 / 2)]) = 0 := by
    rw [hullVec_eq, Fin.sum_univ_two]
    simp only [Matrix.cons_val_zero, Matrix.cons_val_one, smul_eq_mul, hsq]
    norm_num
  refine C90_second_order_is_shortest _ _ id_spd _ ?_ ?_ ?_
  · rw [Fin.sum_univ_two]
    simp only [Matrix.cons_val_zero, Matrix.cons_val_one, hsq]
    norm_num
  · ext i
    rw [hullGrad_apply, hv]
    simp
  · intro η hη
    set x : EuclideanSpace ℝ (Fin 2) := WithLp.toLp 2 ![√(1 / 2), √(1 / 2)] with hx
    have hF : ((sphereConvexHull (![1, -1] : Fin 2 → ℝ) (LinearMap.id : ℝ →ₗ[ℝ] ℝ)).f x).2 = (0, 0) := Prod.ext hv hv
    have hgr : ((WithLp.toLp 2 ((sphereConvexHull (![1, -1] : Fin 2 → ℝ) (LinearMap.id : ℝ →ₗ[ℝ] ℝ)).eucGrad x (0, 0))) : EuclideanSpace ℝ (Fin 2)) = 0 := by
      ext i
      simp [sphereConvexHull]
    rw [hullHess, Sphere.hessian, Sphere.proj, hF, hgr, inner_zero_left, zero_smul, sub_zero, inner_sub_right, inner_smul_right, real_inner_comm x η, hη, mul_zero, sub_zero, inner_eq_sum,
      Fin.sum_univ_two]
    simp only [sphereConvexHull, combine_eq, Fin.sum_univ_two, Matrix.cons_val_zero, Matrix.cons_val_one, smul_eq_mul, LinearMap.id_coe, id_eq,
      RCLike.inner_apply, conj_trivial, hx]
    nlinarith [sq_nonneg (√(1 / 2) * η 0 - √(1 / 2) * η 1)]

end Verif.SubDir
