import Verif.Props.NaturalMat
import Verif.Solver.LRRun
import Verif.Solver.TrustRegion
import Mathlib.Analysis.InnerProductSpace.PiL2

/-!
# Stiefel and Grassmann manifolds, with intrinsic vectors, as the run models see them

The run models of the line-search solvers (`Verif.Solver.Geo`) and of the trust-region Newton solver (`Verif.TR.Prob`) take tangent vectors from an inner product space. With the intrinsic approach
(the default of both manifolds, Stiefel.cpp:14, Grassmann.cpp:11) a tangent vector is a list of `IntrinsicDim` numbers with the usual inner product, so the
environments `stiefelIntrEnv`, `grassIntrEnv` of the solver objects are instances. Points are restricted to those a run can reach: orthonormal columns and a frame belonging to the point
(`FramedOk`), an invariant of the retraction. No preconditioner (`Problem::PreConditioner` returns its argument, Problem.cpp); `Beta` is 1 and the transport copies the coordinates
(Manifold.cpp).
-/

namespace Verif.Obj

open Matrix Verif.Mat Verif.Stiefel Verif.Intr Verif.Solver

variable {n p d : ℕ}

/-- Coordinate vectors. -/
abbrev Coord (d : ℕ) := EuclideanSpace ℝ (Fin d)

/-- The array of a coordinate vector. -/
def toArr (c : Coord d) : List ℝ := List.ofFn fun i => c i

/-- The coordinate vector in an array. -/
noncomputable def ofArr (d : ℕ) (l : List ℝ) : Coord d := WithLp.toLp 2 fun i => buf l i

/-- Points with orthonormal columns and a frame. -/
abbrev StPoint (n p : ℕ) := {z : Framed n p // FramedOk z.1 z}

theorem length_toArr (c : Coord d) : (toArr c).length = d := List.length_ofFn

theorem ofArr_toArr (c : Coord d) : ofArr d (toArr c) = c := by
  ext i
  show buf (List.ofFn _) i = c i
  simp [buf]

theorem toArr_ofArr {l : List ℝ} (h : l.length = d) : toArr (ofArr d l) = l := by
  refine List.ext_getElem (by rw [length_toArr, h]) fun i h1 h2 => ?_
  simp [toArr, ofArr, buf, h2]

theorem dot_ofFn : ∀ {d : ℕ} (a b : Fin d → ℝ), dot (List.ofFn a) (List.ofFn b) = ∑ i, a i * b i
  | 0, a, b => by simp [dot]
  | d + 1, a, b => by
    rw [List.ofFn_succ, List.ofFn_succ, Fin.sum_univ_succ, ← dot_ofFn]
    simp [dot]

theorem dot_toArr (a b : Coord d) : dot (toArr a) (toArr b) = inner ℝ a b := by
  rw [toArr, toArr, dot_ofFn, PiLp.inner_apply]
  refine Finset.sum_congr rfl fun i _ => ?_
  simp [mul_comm]

/-- Number of coordinates on the Stiefel manifold (Stiefel.cpp: `IntrinsicDim`). -/
abbrev stDim (n p : ℕ) : ℕ := n * p - p * (p + 1) / 2

/-- Number of coordinates on the Grassmann manifold. -/
abbrev grDim (n p : ℕ) : ℕ := (n - p) * p

/-- Every array of the right length is a tangent vector. -/
theorem stiefel_extr (hp : p ≤ n) (junk : ℕ → ℝ) (z : StPoint n p) (c : Coord (stDim n p)) :
    IsTangent z.1.1 (stiefelExtr junk z.1.2.1 z.1.2.2 (toArr c)) ∧ stiefelIntr z.1.2.1 z.1.2.2 (stiefelExtr junk z.1.2.1 z.1.2.2 (toArr c)) = toArr c := by
  obtain ⟨-, h2, R, hR, hs⟩ := z.2
  obtain ⟨a, b⟩ := C37_stiefel_intr_extr hp hR h2 (toArr c) (length_toArr c) junk
  rw [← rowSigns_extr hs, ← rowSigns_intr hs]
  exact ⟨b, a⟩

theorem grass_extr (hp : p ≤ n) (junk : ℕ → ℝ) (z : StPoint n p) (c : Coord (grDim n p)) :
    IsHorizontal z.1.1 (grassExtr junk z.1.2.1 (toArr c)) ∧ grassIntr z.1.2.1 (grassExtr (p := p) junk z.1.2.1 (toArr c)) = toArr c := by
  obtain ⟨-, h2, R, hR, hs⟩ := z.2
  obtain ⟨a, b⟩ := C37_grassmann_intr_extr hp hR h2 (toArr c) (length_toArr c) junk
  exact ⟨b, a⟩

/-- The retraction stays among the points with a frame. -/
theorem stiefel_retr_ok (hp : p ≤ n) (junk : ℕ → ℝ) {hhr : Matrix (Fin n) (Fin p) ℝ → Frame n p} (hh : IsHHR hhr) (f : Matrix (Fin n) (Fin p) ℝ → ℝ)
    (G : Matrix (Fin n) (Fin p) ℝ → Matrix (Fin n) (Fin p) ℝ) (z : StPoint n p) (c : Coord (stDim n p)) :
    FramedOk ((stiefelIntrEnv hp junk hhr f G).retr z.1 (toArr c)).1 ((stiefelIntrEnv hp junk hhr f G).retr z.1 (toArr c)) := by
  obtain ⟨a, _, b⟩ := qfPoint_spec hp hh z.2.2.1 (stiefel_extr hp junk z c).1
  exact ⟨rfl, a, b⟩

theorem grass_retr_ok (hp : p ≤ n) (junk : ℕ → ℝ) {hhr : Matrix (Fin n) (Fin p) ℝ → Frame n p} (hh : IsHHR hhr) (f : Matrix (Fin n) (Fin p) ℝ → ℝ)
    (G : Matrix (Fin n) (Fin p) ℝ → Matrix (Fin n) (Fin p) ℝ) (z : StPoint n p) (c : Coord (grDim n p)) :
    FramedOk ((grassIntrEnv hp junk hhr f G).retr z.1 (toArr c)).1 ((grassIntrEnv hp junk hhr f G).retr z.1 (toArr c)) := by
  obtain ⟨a, _, b⟩ := qfPoint_spec hp hh z.2.2.1 (horizontal_tangent (grass_extr hp junk z c).1)
  exact ⟨rfl, a, b⟩

/-- `Stiefel` (Euclidean metric, qf retraction, intrinsic vectors, transport by parallelization) for the run models. -/
noncomputable def stiefelGeo (hp : p ≤ n) (junk : ℕ → ℝ) {hhr : Matrix (Fin n) (Fin p) ℝ → Frame n p} (hh : IsHHR hhr) (f : Matrix (Fin n) (Fin p) ℝ → ℝ)
    (G : Matrix (Fin n) (Fin p) ℝ → Matrix (Fin n) (Fin p) ℝ) : Geo (StPoint n p) (Coord (stDim n p)) where
  f z := (stiefelIntrEnv hp junk hhr f G).f z.1
  grad z := ofArr _ ((stiefelIntrEnv hp junk hhr f G).grad z.1)
  retr z c := ⟨(stiefelIntrEnv hp junk hhr f G).retr z.1 (toArr c), stiefel_retr_ok hp junk hh f G z c⟩
  dretr z c e := ofArr _ ((stiefelIntrEnv hp junk hhr f G).dretr z.1 (toArr c) ((stiefelIntrEnv hp junk hhr f G).retr z.1 (toArr c)) (toArr e))
  T _ _ := LinearIsometryEquiv.refl ℝ _
  beta _ _ := 1
  P _ v := v

/-- `Grassmann` (intrinsic vectors) for the run models. -/
noncomputable def grassGeo (hp : p ≤ n) (junk : ℕ → ℝ) {hhr : Matrix (Fin n) (Fin p) ℝ → Frame n p} (hh : IsHHR hhr) (f : Matrix (Fin n) (Fin p) ℝ → ℝ)
    (G : Matrix (Fin n) (Fin p) ℝ → Matrix (Fin n) (Fin p) ℝ) : Geo (StPoint n p) (Coord (grDim n p)) where
  f z := (grassIntrEnv hp junk hhr f G).f z.1
  grad z := ofArr _ ((grassIntrEnv hp junk hhr f G).grad z.1)
  retr z c := ⟨(grassIntrEnv hp junk hhr f G).retr z.1 (toArr c), grass_retr_ok hp junk hh f G z c⟩
  dretr z c e := ofArr _ ((grassIntrEnv hp junk hhr f G).dretr z.1 (toArr c) ((grassIntrEnv hp junk hhr f G).retr z.1 (toArr c)) (toArr e))
  T _ _ := LinearIsometryEquiv.refl ℝ _
  beta _ _ := 1
  P _ v := v

/-! ## Newton's method -/

theorem ofArr_lin (d : ℕ) (a b : ℝ) {l m : List ℝ} (hl : l.length = d) (hm : m.length = d) :
    ofArr d (List.zipWith (fun s t => a * s + b * t) l m) = a • ofArr d l + b • ofArr d m := by
  ext i
  have h1 : (i : ℕ) < l.length := by rw [hl]; exact i.2
  have h2 : (i : ℕ) < m.length := by rw [hm]; exact i.2
  simp [ofArr, buf, h1, h2]

theorem stiefel_intr_lin (hp : p ≤ n) (Q : Matrix (Fin n) (Fin n) ℝ) (R : Matrix (Fin n) (Fin p) ℝ) (a b : ℝ) (v w : Matrix (Fin n) (Fin p) ℝ) :
    ofArr (stDim n p) (stiefelIntr Q R (a • v + b • w)) = a • ofArr (stDim n p) (stiefelIntr Q R v) + b • ofArr (stDim n p) (stiefelIntr Q R w) := by
  rw [stiefelIntr_lin, ofArr_lin _ _ _ (C37_stiefel_dim hp _ _ _) (C37_stiefel_dim hp _ _ _)]

/-- The tangent vector depends linearly on its coordinates. -/
theorem stiefel_extr_lin (hp : p ≤ n) (junk : ℕ → ℝ) (z : StPoint n p) (a b : ℝ) (c e : Coord (stDim n p)) :
    stiefelExtr junk z.1.2.1 z.1.2.2 (toArr (a • c + b • e)) = a • stiefelExtr junk z.1.2.1 z.1.2.2 (toArr c) + b • stiefelExtr junk z.1.2.1 z.1.2.2 (toArr e) := by
  obtain ⟨c1, c2⟩ := stiefel_extr hp junk z c
  obtain ⟨e1, e2⟩ := stiefel_extr hp junk z e
  obtain ⟨-, h2, R, hR, hs⟩ := z.2
  have h := C37_stiefel_extr_intr hp hR h2 (tangent_lin a b c1 e1) junk
  rw [rowSigns_extr hs, rowSigns_intr hs] at h
  rw [← h]
  congr 1
  have h3 := stiefel_intr_lin hp z.1.2.1 z.1.2.2 a b (stiefelExtr junk z.1.2.1 z.1.2.2 (toArr c)) (stiefelExtr junk z.1.2.1 z.1.2.2 (toArr e))
  rw [c2, e2, ofArr_toArr, ofArr_toArr] at h3
  rw [← h3, toArr_ofArr (C37_stiefel_dim hp _ _ _)]

theorem hess_add (x G u v Hu Hv : Matrix (Fin n) (Fin p) ℝ) : hess x G (u + v) (Hu + Hv) = hess x G u Hu + hess x G v Hv := by
  simp only [hess, proj, sym, Matrix.mul_add, Matrix.add_mul, Matrix.mul_sub, transpose_add, transpose_sub, Matrix.mul_smul, smul_add, smul_sub]
  abel

theorem hess_smul (x G u Hu : Matrix (Fin n) (Fin p) ℝ) (a : ℝ) : hess x G (a • u) (a • Hu) = a • hess x G u Hu := by
  have e : a • Hu - a • u * sym (xᵀ * G) = a • (Hu - u * sym (xᵀ * G)) := by rw [Matrix.smul_mul, smul_sub]
  unfold hess
  rw [e]
  generalize Hu - u * sym (xᵀ * G) = A
  unfold proj sym
  rw [Matrix.mul_smul xᵀ a A, transpose_smul, ← smul_add, smul_comm, Matrix.mul_smul x a, smul_sub]

/-- `Problem::HessianEta` with intrinsic vectors (Problem.cpp:72-81): the vector is made extrinsic, `EucHessianEta` and `EucHvToHv` (Stiefel.cpp, Euclidean metric) are applied, the result is made
intrinsic. `H` is the Euclidean Hessian supplied by the user. -/
noncomputable def stiefelHess (hp : p ≤ n) (junk : ℕ → ℝ) (G : Matrix (Fin n) (Fin p) ℝ → Matrix (Fin n) (Fin p) ℝ)
    (H : Matrix (Fin n) (Fin p) ℝ → Matrix (Fin n) (Fin p) ℝ →ₗ[ℝ] Matrix (Fin n) (Fin p) ℝ) (z : StPoint n p) : Coord (stDim n p) →ₗ[ℝ] Coord (stDim n p) where
  toFun c :=
    let η := stiefelExtr junk z.1.2.1 z.1.2.2 (toArr c)
    ofArr _ (stiefelIntr z.1.2.1 z.1.2.2 (hess z.1.1 (G z.1.1) η (H z.1.1 η)))
  map_add' c e := by
    have h := stiefel_extr_lin hp junk z 1 1 c e
    simp only [one_smul] at h
    show ofArr _ (stiefelIntr _ _ (hess _ _ (stiefelExtr junk z.1.2.1 z.1.2.2 (toArr (c + e))) _)) = _
    rw [h, map_add]
    have h2 := stiefel_intr_lin hp z.1.2.1 z.1.2.2 1 1 (hess z.1.1 (G z.1.1) (stiefelExtr junk z.1.2.1 z.1.2.2 (toArr c)) (H z.1.1 (stiefelExtr junk z.1.2.1 z.1.2.2 (toArr c))))
      (hess z.1.1 (G z.1.1) (stiefelExtr junk z.1.2.1 z.1.2.2 (toArr e)) (H z.1.1 (stiefelExtr junk z.1.2.1 z.1.2.2 (toArr e))))
    simp only [one_smul] at h2
    rw [← h2, ← hess_add]
  map_smul' a c := by
    have h := stiefel_extr_lin hp junk z a 0 c c
    simp only [zero_smul, add_zero] at h
    show ofArr _ (stiefelIntr _ _ (hess _ _ (stiefelExtr junk z.1.2.1 z.1.2.2 (toArr (a • c))) _)) = _
    rw [h, map_smul]
    have h2 := stiefel_intr_lin hp z.1.2.1 z.1.2.2 a 0 (hess z.1.1 (G z.1.1) (stiefelExtr junk z.1.2.1 z.1.2.2 (toArr c)) (H z.1.1 (stiefelExtr junk z.1.2.1 z.1.2.2 (toArr c)))) 0
    simp only [zero_smul, add_zero] at h2
    rw [hess_smul, h2]
    rfl

/-- `RTRNewton` without preconditioner on `Stiefel` with intrinsic vectors; the stopping test compares the norm of the gradient with `thr`. -/
noncomputable def stiefelProb (hp : p ≤ n) (junk : ℕ → ℝ) {hhr : Matrix (Fin n) (Fin p) ℝ → Frame n p} (hh : IsHHR hhr) (f : Matrix (Fin n) (Fin p) ℝ → ℝ)
    (G : Matrix (Fin n) (Fin p) ℝ → Matrix (Fin n) (Fin p) ℝ) (H : Matrix (Fin n) (Fin p) ℝ → Matrix (Fin n) (Fin p) ℝ →ₗ[ℝ] Matrix (Fin n) (Fin p) ℝ) (z0 : StPoint n p)
    (theta kappa : ℝ) (maxInner : ℕ) (thr : ℝ) : Verif.TR.Prob (StPoint n p) (fun _ => Coord (stDim n p)) where
  f := (stiefelGeo hp junk hh f G).f
  g := (stiefelGeo hp junk hh f G).grad
  H := stiefelHess hp junk G H
  P _ := LinearMap.id
  retr := (stiefelGeo hp junk hh f G).retr
  x0 := z0
  theta := theta
  kappa := kappa
  minInner := 0
  maxInner := maxInner
  stopped0 := Classical.propDecidable (‖(stiefelGeo hp junk hh f G).grad z0‖ < thr) |>.decide
  stopped _ _ z := Classical.propDecidable (‖(stiefelGeo hp junk hh f G).grad z‖ < thr) |>.decide

end Verif.Obj
