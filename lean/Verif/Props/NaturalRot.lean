import Verif.Props.NaturalSPD
import Verif.Props.StiefelConverge

/-!
# Runs on Stiefel and Grassmann do not depend on the basis of the ambient space (C137)

Replacing every point `x` by `U x` with an orthogonal matrix `U`, and the objective accordingly, does not change the run of a solver.
-/

set_option linter.unusedSectionVars false

namespace Verif.Obj

open Matrix Verif.Mat Verif.Stiefel Verif.Intr Verif.Problem

/-! ## Composition of correspondences -/

section
variable {K X E Y F Z D : Type*} [Add K] [Sub K] [Mul K] [Div K] [Neg K]

theorem Corr.symm {env : Env K X E} {env' : Env K Y F} {RX : X → Y → Prop} {RE : X → Y → E → F → Prop} (h : Corr env env' RX RE) :
    Corr env' env (fun y x => RX x y) (fun y x w v => RE x y v w) where
  lit := h.lit.symm
  lt := h.lt.symm
  le := h.le.symm
  eq := h.eq.symm
  sqrt := h.sqrt.symm
  abs := h.abs.symm
  finite := h.finite.symm
  inf := h.inf.symm
  eps := h.eps.symm
  f := fun x x' hx => (h.f _ _ hx).symm
  grad := fun x x' hx => h.grad _ _ hx
  precond := fun x x' v v' hx hv => h.precond _ _ _ _ hx hv
  metric := fun x x' v v' w w' hx hv hw => (h.metric _ _ _ _ _ _ hx hv hw).symm
  retr := fun x x' v v' hx hv => h.retr _ _ _ _ hx hv
  smul := fun x x' c v v' hx hv => h.smul _ _ _ _ _ hx hv
  lin := fun x x' a b v v' w w' hx hv hw => h.lin _ _ _ _ _ _ _ _ hx hv hw

/-- Correspondences compose, if a point has only one partner in the middle. -/
theorem Corr.comp {e1 : Env K X E} {e2 : Env K Y F} {e3 : Env K Z D} {RX : X → Y → Prop} {RE : X → Y → E → F → Prop} {SX : Y → Z → Prop} {SE : Y → Z → F → D → Prop}
    (h : Corr e1 e2 RX RE) (k : Corr e2 e3 SX SE) (hu : ∀ x y y', RX x y → RX x y' → y = y') :
    Corr e1 e3 (fun x z => ∃ y, RX x y ∧ SX y z) (fun x z v w => ∃ y u, RX x y ∧ SX y z ∧ RE x y v u ∧ SE y z u w) where
  lit := k.lit.trans h.lit
  lt := k.lt.trans h.lt
  le := k.le.trans h.le
  eq := k.eq.trans h.eq
  sqrt := k.sqrt.trans h.sqrt
  abs := k.abs.trans h.abs
  finite := k.finite.trans h.finite
  inf := k.inf.trans h.inf
  eps := k.eps.trans h.eps
  f := fun x z ⟨y, a, b⟩ => (k.f _ _ b).trans (h.f _ _ a)
  grad := fun x z ⟨y, a, b⟩ => ⟨y, _, a, b, h.grad _ _ a, k.grad _ _ b⟩
  precond := fun x z v w _ ⟨y, u, a, b, c, d⟩ => ⟨y, _, a, b, h.precond _ _ _ _ a c, k.precond _ _ _ _ b d⟩
  metric := fun x z v v' w w' _ ⟨y, u, a, b, c, d⟩ ⟨y', u', a', b', c', d'⟩ => by
    obtain rfl := hu _ _ _ a a'
    exact (k.metric _ _ _ _ _ _ b d d').trans (h.metric _ _ _ _ _ _ a c c')
  retr := fun x z v w _ ⟨y, u, a, b, c, d⟩ => ⟨_, h.retr _ _ _ _ a c, k.retr _ _ _ _ b d⟩
  smul := fun x z t v w _ ⟨y, u, a, b, c, d⟩ => ⟨y, _, a, b, h.smul _ _ _ _ _ a c, k.smul _ _ _ _ _ b d⟩
  lin := fun x z s t v v' w w' _ ⟨y, u, a, b, c, d⟩ ⟨y', u', a', b', c', d'⟩ => by
    obtain rfl := hu _ _ _ a a'
    exact ⟨y, _, a, b, h.lin _ _ _ _ _ _ _ _ a c c', k.lin _ _ _ _ _ _ _ _ b d d'⟩

theorem Corr.congr {env : Env K X E} {env' : Env K Y F} {RX RX' : X → Y → Prop} {RE RE' : X → Y → E → F → Prop} (h : Corr env env' RX RE) (hX : ∀ x y, RX x y ↔ RX' x y)
    (hE : ∀ x y v w, RX x y → (RE x y v w ↔ RE' x y v w)) : Corr env env' RX' RE' where
  lit := h.lit
  lt := h.lt
  le := h.le
  eq := h.eq
  sqrt := h.sqrt
  abs := h.abs
  finite := h.finite
  inf := h.inf
  eps := h.eps
  f := fun x x' hx => h.f _ _ ((hX _ _).mpr hx)
  grad := fun x x' hx => (hE _ _ _ _ ((hX _ _).mpr hx)).mp (h.grad _ _ ((hX _ _).mpr hx))
  precond := fun x x' v v' hx hv => (hE _ _ _ _ ((hX _ _).mpr hx)).mp (h.precond _ _ _ _ ((hX _ _).mpr hx) ((hE _ _ _ _ ((hX _ _).mpr hx)).mpr hv))
  metric := fun x x' v v' w w' hx hv hw =>
    h.metric _ _ _ _ _ _ ((hX _ _).mpr hx) ((hE _ _ _ _ ((hX _ _).mpr hx)).mpr hv) ((hE _ _ _ _ ((hX _ _).mpr hx)).mpr hw)
  retr := fun x x' v v' hx hv => (hX _ _).mp (h.retr _ _ _ _ ((hX _ _).mpr hx) ((hE _ _ _ _ ((hX _ _).mpr hx)).mpr hv))
  smul := fun x x' c v v' hx hv => (hE _ _ _ _ ((hX _ _).mpr hx)).mp (h.smul _ _ _ _ _ ((hX _ _).mpr hx) ((hE _ _ _ _ ((hX _ _).mpr hx)).mpr hv))
  lin := fun x x' a b v v' w w' hx hv hw => (hE _ _ _ _ ((hX _ _).mpr hx)).mp
    (h.lin _ _ _ _ _ _ _ _ ((hX _ _).mpr hx) ((hE _ _ _ _ ((hX _ _).mpr hx)).mpr hv) ((hE _ _ _ _ ((hX _ _).mpr hx)).mpr hw))

theorem TRCorr.symm {env : TREnv K X E} {env' : TREnv K Y F} {RX : X → Y → Prop} {RE : X → Y → E → F → Prop} (h : TRCorr env env' RX RE) :
    TRCorr env' env (fun y x => RX x y) (fun y x w v => RE x y v w) where
  toCorr := h.toCorr.symm
  powtheta := h.powtheta.symm
  axpy := fun x x' c v v' w w' hx hv hw => h.axpy _ _ _ _ _ _ _ hx hv hw
  proj := fun x x' v v' hx hv => h.proj _ _ _ _ hx hv

theorem TRCorr.comp {e1 : TREnv K X E} {e2 : TREnv K Y F} {e3 : TREnv K Z D} {RX : X → Y → Prop} {RE : X → Y → E → F → Prop} {SX : Y → Z → Prop} {SE : Y → Z → F → D → Prop}
    (h : TRCorr e1 e2 RX RE) (k : TRCorr e2 e3 SX SE) (hu : ∀ x y y', RX x y → RX x y' → y = y') :
    TRCorr e1 e3 (fun x z => ∃ y, RX x y ∧ SX y z) (fun x z v w => ∃ y u, RX x y ∧ SX y z ∧ RE x y v u ∧ SE y z u w) where
  toCorr := h.toCorr.comp k.toCorr hu
  powtheta := k.powtheta.trans h.powtheta
  axpy := fun x z t v v' w w' _ ⟨y, u, a, b, c, d⟩ ⟨y', u', a', b', c', d'⟩ => by
    obtain rfl := hu _ _ _ a a'
    exact ⟨y, _, a, b, h.axpy _ _ _ _ _ _ _ a c c', k.axpy _ _ _ _ _ _ _ b d d'⟩
  proj := fun x z v w _ ⟨y, u, a, b, c, d⟩ => ⟨y, _, a, b, h.proj _ _ _ _ a c, k.proj _ _ _ _ b d⟩

theorem TRCorr.congr {env : TREnv K X E} {env' : TREnv K Y F} {RX RX' : X → Y → Prop} {RE RE' : X → Y → E → F → Prop} (h : TRCorr env env' RX RE) (hX : ∀ x y, RX x y ↔ RX' x y)
    (hE : ∀ x y v w, RX x y → (RE x y v w ↔ RE' x y v w)) : TRCorr env env' RX' RE' where
  toCorr := h.toCorr.congr hX hE
  powtheta := h.powtheta
  axpy := fun x x' c v v' w w' hx hv hw => (hE _ _ _ _ ((hX _ _).mpr hx)).mp
    (h.axpy _ _ _ _ _ _ _ ((hX _ _).mpr hx) ((hE _ _ _ _ ((hX _ _).mpr hx)).mpr hv) ((hE _ _ _ _ ((hX _ _).mpr hx)).mpr hw))
  proj := fun x x' v v' hx hv => (hE _ _ _ _ ((hX _ _).mpr hx)).mp (h.proj _ _ _ _ ((hX _ _).mpr hx) ((hE _ _ _ _ ((hX _ _).mpr hx)).mpr hv))

end

variable {n p : ℕ}

/-! ## Specification -/

/-- The point `x'` is the image of `x` under the orthogonal matrix. -/
def Rot (U : Matrix (Fin n) (Fin n) ℝ) (x x' : Matrix (Fin n) (Fin p) ℝ) : Prop := xᵀ * x = 1 ∧ x' = U * x

/-- The tangent vector `v'` is the image of `v`. -/
def RotTan (U : Matrix (Fin n) (Fin n) ℝ) (x _x' v v' : Matrix (Fin n) (Fin p) ℝ) : Prop := IsTangent x v ∧ v' = U * v

/-- The same for horizontal vectors. -/
def RotHor (U : Matrix (Fin n) (Fin n) ℝ) (x _x' v v' : Matrix (Fin n) (Fin p) ℝ) : Prop := IsHorizontal x v ∧ v' = U * v

/-- Points with their stored factors: the factors are any results of `HHRDecom` for the two points. -/
def RotFramed (U : Matrix (Fin n) (Fin n) ℝ) (x x' : Framed n p) : Prop := FramedOk x.1 x ∧ FramedOk x'.1 x' ∧ x'.1 = U * x.1

/-- Coordinates of a tangent vector of Stiefel and of its image. -/
def RotCoord (U : Matrix (Fin n) (Fin n) ℝ) (x x' : Framed n p) (c c' : List ℝ) : Prop :=
  ∃ v, IsTangent x.1 v ∧ c = stiefelIntr x.2.1 x.2.2 v ∧ c' = stiefelIntr x'.2.1 x'.2.2 (U * v)

/-- Coordinates of a horizontal vector and of its image. -/
def RotCoordG (U : Matrix (Fin n) (Fin n) ℝ) (x x' : Framed n p) (c c' : List ℝ) : Prop :=
  ∃ v, IsHorizontal x.1 v ∧ c = grassIntr x.2.1 v ∧ c' = grassIntr x'.2.1 (U * v)

/-! ## Helper lemmas -/

variable {U : Matrix (Fin n) (Fin n) ℝ}

theorem rot_gram (hU : Uᵀ * U = 1) (x v : Matrix (Fin n) (Fin p) ℝ) : (U * x)ᵀ * (U * v) = xᵀ * v := by
  rw [transpose_mul, Matrix.mul_assoc, ← Matrix.mul_assoc Uᵀ, hU, Matrix.one_mul]

theorem rot_tangent (hU : Uᵀ * U = 1) {x v : Matrix (Fin n) (Fin p) ℝ} (h : IsTangent x v) : IsTangent (U * x) (U * v) := by
  unfold IsTangent at h ⊢
  rw [rot_gram hU, h]

theorem rot_proj (hU : Uᵀ * U = 1) (x v : Matrix (Fin n) (Fin p) ℝ) : proj (U * x) (U * v) = U * proj x v := by
  unfold proj
  rw [rot_gram hU, Matrix.mul_sub, Matrix.mul_assoc]

theorem rot_gProj (hU : Uᵀ * U = 1) (x v : Matrix (Fin n) (Fin p) ℝ) : gProj (U * x) (U * v) = U * gProj x v := by
  unfold gProj
  rw [rot_gram hU, Matrix.mul_sub, Matrix.mul_assoc]

theorem rot_frob (hU : Uᵀ * U = 1) (v w : Matrix (Fin n) (Fin p) ℝ) : frob (U * v) (U * w) = frob v w := by
  rw [frob_mul_left, ← Matrix.mul_assoc, hU, Matrix.one_mul]

theorem rot_hess (hU : Uᵀ * U = 1) (x g v h : Matrix (Fin n) (Fin p) ℝ) : hess (U * x) (U * g) (U * v) (U * h) = U * hess x g v h := by
  unfold hess
  rw [rot_gram hU, Matrix.mul_assoc, ← Matrix.mul_sub, rot_proj hU]

theorem rot_gHess (hU : Uᵀ * U = 1) (x g v h : Matrix (Fin n) (Fin p) ℝ) : gHess (U * x) (U * g) (U * v) (U * h) = U * gHess x g v h := by
  unfold gHess
  rw [rot_gram hU, Matrix.mul_assoc, ← Matrix.mul_sub, rot_gProj hU]

/-- The qf factor is equivariant, whatever reflectors `HHRDecom` chooses. -/
theorem rot_qf (hp : p ≤ n) (hU : Uᵀ * U = 1) {hhr : Matrix (Fin n) (Fin p) ℝ → Frame n p} (hh : IsHHR hhr) {x v : Matrix (Fin n) (Fin p) ℝ} (hx : xᵀ * x = 1) (hv : IsTangent x v) :
    qfPoint hp (hhr (U * x + U * v)) = U * qfPoint hp (hhr (x + v)) := by
  have hx' : (U * x)ᵀ * (U * x) = 1 := by rw [rot_gram hU, hx]
  obtain ⟨a, ⟨R, b1, b2, b3⟩, _⟩ := qfPoint_spec hp hh hx hv
  obtain ⟨a', ⟨R', b1', b2', b3'⟩, _⟩ := qfPoint_spec hp hh hx' (rot_tangent hU hv)
  exact (qf_unique a' (by rw [rot_gram hU, a]) b1' b1 b2' b2 (by rw [b3', Matrix.mul_assoc, b3, Matrix.mul_add])).1

/-- So is its derivative. -/
theorem rot_diffQf (hp : p ≤ n) (hU : Uᵀ * U = 1) {hhr : Matrix (Fin n) (Fin p) ℝ → Frame n p} (hh : IsHHR hhr) {x v : Matrix (Fin n) (Fin p) ℝ} (hx : xᵀ * x = 1) (hv : IsTangent x v)
    (w : Matrix (Fin n) (Fin p) ℝ) :
    diffQf (U * qfPoint hp (hhr (x + v))) (topR hp (hhr (U * x + U * v)).2) (U * w) = U * diffQf (qfPoint hp (hhr (x + v))) (topR hp (hhr (x + v)).2) w := by
  have hx' : (U * x)ᵀ * (U * x) = 1 := by rw [rot_gram hU, hx]
  obtain ⟨a, _⟩ := qfPoint_spec hp hh hx hv
  obtain ⟨T, hT, _, t1, t2⟩ := qf_triangle hp hh hx hv
  obtain ⟨T', hT', _, t1', t2'⟩ := qf_triangle hp hh hx' (rot_tangent hU hv)
  have e : T' = T := by
    rw [rot_qf hp hU hh hx hv, ← Matrix.mul_add] at t1'
    generalize qfPoint hp (hhr (x + v)) = q at a t1 t1'
    rw [← t1] at t1'
    have e1 := congrArg (fun Z => qᵀ * (Uᵀ * Z)) t1'
    simp only [← Matrix.mul_assoc] at e1
    rw [Matrix.mul_assoc _ Uᵀ U, hU, Matrix.mul_one, a, Matrix.one_mul, Matrix.one_mul] at e1
    exact e1
  simp only [diffQf]
  rw [t2, t2', e, Matrix.mul_assoc U, rot_gram hU, Matrix.mul_add, Matrix.mul_assoc U]

variable {f f' : Matrix (Fin n) (Fin p) ℝ → ℝ} {G G' : Matrix (Fin n) (Fin p) ℝ → Matrix (Fin n) (Fin p) ℝ}
  {H H' : Matrix (Fin n) (Fin p) ℝ → Matrix (Fin n) (Fin p) ℝ → Matrix (Fin n) (Fin p) ℝ}

theorem rot_grad (hU : Uᵀ * U = 1) (hG : IsEucGrad f G) (hG' : IsEucGrad f' G') (hf : ∀ x, f' (U * x) = f x) (x : Matrix (Fin n) (Fin p) ℝ) : G' (U * x) = U * G x := by
  have hU' : U * Uᵀ = 1 := mul_eq_one_comm.mp hU
  refine frob_ext fun v => ?_
  have h1 := hG' (U * x) v
  have h2 := hG x (Uᵀ * v)
  have e : (fun t : ℝ => f' (U * x + t • v)) = fun t : ℝ => f (x + t • (Uᵀ * v)) := by
    funext t
    rw [← hf, Matrix.mul_add, Matrix.mul_smul, ← Matrix.mul_assoc, hU', Matrix.one_mul]
  rw [e] at h1
  rw [h1.unique h2, frob_mul_left]

theorem rot_ehess (hU : Uᵀ * U = 1) (hG : IsEucGrad f G) (hG' : IsEucGrad f' G') (hH : IsEucHessMat G H) (hH' : IsEucHessMat G' H') (hf : ∀ x, f' (U * x) = f x)
    (x v : Matrix (Fin n) (Fin p) ℝ) : H' (U * x) (U * v) = U * H x v := by
  refine frob_ext fun w => ?_
  have h1 := hH' (U * x) (U * v) w
  have h2 := hH x v (Uᵀ * w)
  have e : (fun t : ℝ => frob (G' (U * x + t • (U * v))) w) = fun t : ℝ => frob (G (x + t • v)) (Uᵀ * w) := by
    funext t
    rw [← Matrix.mul_smul, ← Matrix.mul_add, rot_grad hU hG hG' hf, frob_mul_left]
  rw [e] at h1
  rw [h1.unique h2, frob_mul_left]

theorem horizontal_rot (hU : Uᵀ * U = 1) {x v : Matrix (Fin n) (Fin p) ℝ} (h : IsHorizontal x v) : IsHorizontal (U * x) (U * v) := by
  unfold IsHorizontal at h ⊢
  rw [rot_gram hU, h]

/-! ## Correspondences -/

theorem stiefel_rot (hp : p ≤ n) (hU : Uᵀ * U = 1) {hhr : Matrix (Fin n) (Fin p) ℝ → Frame n p} (hh : IsHHR hhr) (hG : IsEucGrad f G) (hG' : IsEucGrad f' G') (hf : ∀ x, f' (U * x) = f x) :
    Corr (stiefelExtrEnv hp hhr f G) (stiefelExtrEnv hp hhr f' G') (Rot U) (RotTan U) := by
  refine realEnv_corr ?_ ?_ ?_ ?_ ?_ ?_
  · rintro x _ ⟨hx, rfl⟩; exact hf x
  · rintro x _ ⟨hx, rfl⟩
    exact ⟨(C35_stiefel_projection hx _ x).1, by rw [rot_grad hU hG hG' hf, rot_proj hU]⟩
  · rintro x _ v _ w _ ⟨hx, rfl⟩ ⟨_, rfl⟩ ⟨_, rfl⟩
    exact rot_frob hU v w
  · rintro x _ v _ ⟨hx, rfl⟩ ⟨hv, rfl⟩
    exact ⟨(qfPoint_spec hp hh hx hv).1, rot_qf hp hU hh hx hv⟩
  · rintro x _ c v _ ⟨hx, rfl⟩ ⟨hv, rfl⟩
    exact ⟨hv.smul c, by rw [Matrix.mul_smul]⟩
  · rintro x _ a b v _ w _ ⟨hx, rfl⟩ ⟨hv, rfl⟩ ⟨hw, rfl⟩
    exact ⟨tangent_lin a b hv hw, by rw [Matrix.mul_add, Matrix.mul_smul, Matrix.mul_smul]⟩

theorem grass_rot (hp : p ≤ n) (hU : Uᵀ * U = 1) {hhr : Matrix (Fin n) (Fin p) ℝ → Frame n p} (hh : IsHHR hhr) (hG : IsEucGrad f G) (hG' : IsEucGrad f' G') (hf : ∀ x, f' (U * x) = f x) :
    Corr (grassExtrEnv hp hhr f G) (grassExtrEnv hp hhr f' G') (Rot U) (RotHor U) := by
  refine realEnv_corr ?_ ?_ ?_ ?_ ?_ ?_
  · rintro x _ ⟨hx, rfl⟩; exact hf x
  · rintro x _ ⟨hx, rfl⟩
    exact ⟨(C35_grassmann_projection hx _ x).1, by rw [rot_grad hU hG hG' hf, rot_gProj hU]⟩
  · rintro x _ v _ w _ ⟨hx, rfl⟩ ⟨_, rfl⟩ ⟨_, rfl⟩
    exact rot_frob hU v w
  · rintro x _ v _ ⟨hx, rfl⟩ ⟨hv, rfl⟩
    exact ⟨(qfPoint_spec hp hh hx (horizontal_tangent hv)).1, rot_qf hp hU hh hx (horizontal_tangent hv)⟩
  · rintro x _ c v _ ⟨hx, rfl⟩ ⟨hv, rfl⟩
    refine ⟨?_, by rw [Matrix.mul_smul]⟩
    have := horizontal_lin c 0 hv hv
    rwa [zero_smul, add_zero] at this
  · rintro x _ a b v _ w _ ⟨hx, rfl⟩ ⟨hv, rfl⟩ ⟨hw, rfl⟩
    exact ⟨horizontal_lin a b hv hw, by rw [Matrix.mul_add, Matrix.mul_smul, Matrix.mul_smul]⟩

theorem stiefel_rot_trans (hp : p ≤ n) (hU : Uᵀ * U = 1) {hhr : Matrix (Fin n) (Fin p) ℝ → Frame n p} (hh : IsHHR hhr) (f f' : Matrix (Fin n) (Fin p) ℝ → ℝ)
    (G G' : Matrix (Fin n) (Fin p) ℝ → Matrix (Fin n) (Fin p) ℝ) : TransCorr (stiefelExtrEnv hp hhr f G) (stiefelExtrEnv hp hhr f' G') (Rot U) (RotTan U) := by
  rintro x _ v _ w _ ⟨hx, rfl⟩ ⟨hv, rfl⟩ ⟨hw, rfl⟩
  refine ⟨(C35_stiefel_projection (qfPoint_spec hp hh hx hv).1 w v).1, ?_⟩
  show proj (qfPoint hp (hhr (U * x + U * v))) (U * w) = U * proj (qfPoint hp (hhr (x + v))) w
  rw [rot_qf hp hU hh hx hv, rot_proj hU]

theorem grass_rot_trans (hp : p ≤ n) (hU : Uᵀ * U = 1) {hhr : Matrix (Fin n) (Fin p) ℝ → Frame n p} (hh : IsHHR hhr) (f f' : Matrix (Fin n) (Fin p) ℝ → ℝ)
    (G G' : Matrix (Fin n) (Fin p) ℝ → Matrix (Fin n) (Fin p) ℝ) : TransCorr (grassExtrEnv hp hhr f G) (grassExtrEnv hp hhr f' G') (Rot U) (RotHor U) := by
  rintro x _ v _ w _ ⟨hx, rfl⟩ ⟨hv, rfl⟩ ⟨hw, rfl⟩
  refine ⟨(C35_grassmann_projection (qfPoint_spec hp hh hx (horizontal_tangent hv)).1 w v).1, ?_⟩
  show gProj (qfPoint hp (hhr (U * x + U * v))) (U * w) = U * gProj (qfPoint hp (hhr (x + v))) w
  rw [rot_qf hp hU hh hx (horizontal_tangent hv), rot_gProj hU]

theorem stiefel_rot_anywhere (hp : p ≤ n) (hU : Uᵀ * U = 1) (hhr : Matrix (Fin n) (Fin p) ℝ → Frame n p) (f f' : Matrix (Fin n) (Fin p) ℝ → ℝ)
    (G G' : Matrix (Fin n) (Fin p) ℝ → Matrix (Fin n) (Fin p) ℝ) : MetricAnywhere (stiefelExtrEnv hp hhr f G) (stiefelExtrEnv hp hhr f' G') (Rot U) (RotTan U) := by
  rintro x x' y y' v _ w _ _ _ ⟨_, rfl⟩ ⟨_, rfl⟩
  exact rot_frob hU v w

theorem grass_rot_anywhere (hp : p ≤ n) (hU : Uᵀ * U = 1) (hhr : Matrix (Fin n) (Fin p) ℝ → Frame n p) (f f' : Matrix (Fin n) (Fin p) ℝ → ℝ)
    (G G' : Matrix (Fin n) (Fin p) ℝ → Matrix (Fin n) (Fin p) ℝ) : MetricAnywhere (grassExtrEnv hp hhr f G) (grassExtrEnv hp hhr f' G') (Rot U) (RotHor U) := by
  rintro x x' y y' v _ w _ _ _ ⟨_, rfl⟩ ⟨_, rfl⟩
  exact rot_frob hU v w

theorem stiefel_rot_slope (hp : p ≤ n) (hU : Uᵀ * U = 1) {hhr : Matrix (Fin n) (Fin p) ℝ → Frame n p} (hh : IsHHR hhr) (hG : IsEucGrad f G) (hG' : IsEucGrad f' G') (hf : ∀ x, f' (U * x) = f x) :
    SlopeCorr (stiefelExtrEnv hp hhr f G) (stiefelExtrEnv hp hhr f' G') (Rot U) (RotTan U) := by
  rintro x _ v _ w _ ⟨hx, rfl⟩ ⟨hv, rfl⟩ ⟨hw, rfl⟩
  show frob (proj (qfPoint hp (hhr (U * x + U * v))) (G' (qfPoint hp (hhr (U * x + U * v))))) (diffQf (qfPoint hp (hhr (U * x + U * v))) (topR hp (hhr (U * x + U * v)).2) (U * w)) =
    frob (proj (qfPoint hp (hhr (x + v))) (G (qfPoint hp (hhr (x + v))))) (diffQf (qfPoint hp (hhr (x + v))) (topR hp (hhr (x + v)).2) w)
  rw [rot_qf hp hU hh hx hv, rot_diffQf hp hU hh hx hv, rot_grad hU hG hG' hf, rot_proj hU, rot_frob hU]

theorem grass_rot_slope (hp : p ≤ n) (hU : Uᵀ * U = 1) {hhr : Matrix (Fin n) (Fin p) ℝ → Frame n p} (hh : IsHHR hhr) (hG : IsEucGrad f G) (hG' : IsEucGrad f' G') (hf : ∀ x, f' (U * x) = f x) :
    SlopeCorr (grassExtrEnv hp hhr f G) (grassExtrEnv hp hhr f' G') (Rot U) (RotHor U) := by
  rintro x _ v _ w _ ⟨hx, rfl⟩ ⟨hv, rfl⟩ ⟨hw, rfl⟩
  show frob (gProj (qfPoint hp (hhr (U * x + U * v))) (G' (qfPoint hp (hhr (U * x + U * v))))) (diffQf (qfPoint hp (hhr (U * x + U * v))) (topR hp (hhr (U * x + U * v)).2) (U * w)) =
    frob (gProj (qfPoint hp (hhr (x + v))) (G (qfPoint hp (hhr (x + v))))) (diffQf (qfPoint hp (hhr (x + v))) (topR hp (hhr (x + v)).2) w)
  rw [rot_qf hp hU hh hx (horizontal_tangent hv), rot_diffQf hp hU hh hx (horizontal_tangent hv), rot_grad hU hG hG' hf, rot_gProj hU, rot_frob hU]

theorem stiefelTR_rot (hp : p ≤ n) (hU : Uᵀ * U = 1) {hhr : Matrix (Fin n) (Fin p) ℝ → Frame n p} (hh : IsHHR hhr) (hG : IsEucGrad f G) (hG' : IsEucGrad f' G') (hf : ∀ x, f' (U * x) = f x)
    (pw : ℝ → ℝ) : TRCorr (stiefelExtrTR hp hhr f G pw) (stiefelExtrTR hp hhr f' G' pw) (Rot U) (RotTan U) where
  toCorr := stiefel_rot hp hU hh hG hG' hf
  powtheta := rfl
  axpy := by
    rintro x _ c v _ w _ ⟨hx, rfl⟩ ⟨hv, rfl⟩ ⟨hw, rfl⟩
    refine ⟨?_, ?_⟩
    · have := tangent_lin c 1 hv hw
      rwa [one_smul] at this
    · show c • (U * v) + U * w = U * (c • v + w)
      rw [Matrix.mul_add, Matrix.mul_smul]
  proj := by
    rintro x _ v _ ⟨hx, rfl⟩ ⟨hv, rfl⟩
    exact ⟨(C35_stiefel_projection hx v v).1, rot_proj hU x v⟩

theorem grassTR_rot (hp : p ≤ n) (hU : Uᵀ * U = 1) {hhr : Matrix (Fin n) (Fin p) ℝ → Frame n p} (hh : IsHHR hhr) (hG : IsEucGrad f G) (hG' : IsEucGrad f' G') (hf : ∀ x, f' (U * x) = f x)
    (pw : ℝ → ℝ) : TRCorr (grassExtrTR hp hhr f G pw) (grassExtrTR hp hhr f' G' pw) (Rot U) (RotHor U) where
  toCorr := grass_rot hp hU hh hG hG' hf
  powtheta := rfl
  axpy := by
    rintro x _ c v _ w _ ⟨hx, rfl⟩ ⟨hv, rfl⟩ ⟨hw, rfl⟩
    refine ⟨?_, ?_⟩
    · have := horizontal_lin c 1 hv hw
      rwa [one_smul] at this
    · show c • (U * v) + U * w = U * (c • v + w)
      rw [Matrix.mul_add, Matrix.mul_smul]
  proj := by
    rintro x _ v _ ⟨hx, rfl⟩ ⟨hv, rfl⟩
    exact ⟨(C35_grassmann_projection hx v v).1, rot_gProj hU x v⟩

theorem stiefel_rot_hess (hU : Uᵀ * U = 1) (hG : IsEucGrad f G) (hG' : IsEucGrad f' G') (hH : IsEucHessMat G H) (hH' : IsEucHessMat G' H') (hf : ∀ x, f' (U * x) = f x) :
    ∀ x x' v v', Rot U x x' → RotTan U x x' v v' → RotTan U x x' (stiefelExtrHess G H x v) (stiefelExtrHess G' H' x' v') := by
  rintro x _ v _ ⟨hx, rfl⟩ ⟨hv, rfl⟩
  refine ⟨(C35_stiefel_projection hx _ v).1, ?_⟩
  simp only [stiefelExtrHess]
  rw [rot_grad hU hG hG' hf, rot_ehess hU hG hG' hH hH' hf, rot_hess hU]

theorem grass_rot_hess (hU : Uᵀ * U = 1) (hG : IsEucGrad f G) (hG' : IsEucGrad f' G') (hH : IsEucHessMat G H) (hH' : IsEucHessMat G' H') (hf : ∀ x, f' (U * x) = f x) :
    ∀ x x' v v', Rot U x x' → RotHor U x x' v v' → RotHor U x x' (grassExtrHess G H x v) (grassExtrHess G' H' x' v') := by
  rintro x _ v _ ⟨hx, rfl⟩ ⟨hv, rfl⟩
  refine ⟨(C35_grassmann_projection hx _ v).1, ?_⟩
  simp only [grassExtrHess]
  rw [rot_grad hU hG hG' hf, rot_ehess hU hG hG' hH hH' hf, rot_gHess hU]

/-! ## With stored factors -/

theorem framed_unique (x : Framed n p) (y y' : Matrix (Fin n) (Fin p) ℝ) (h : FramedOk y x) (h' : FramedOk y' x) : y = y' := h.1.symm.trans h'.1

theorem rotFramed_iff (x x' : Framed n p) : (∃ y, (∃ z, FramedOk z x ∧ Rot U z y) ∧ FramedOk y x') ↔ RotFramed U x x' := by
  constructor
  · rintro ⟨y, ⟨z, h1, h2, rfl⟩, h3⟩
    obtain rfl := h1.1
    exact ⟨h1, by rw [h3.1]; exact h3, h3.1⟩
  · rintro ⟨h1, h2, h3⟩
    rw [h3] at h2
    exact ⟨_, ⟨_, h1, h1.2.1, rfl⟩, h2⟩

theorem rotCoord_iff (hU : Uᵀ * U = 1) (x x' : Framed n p) (c c' : List ℝ) (hX : ∃ y, (∃ z, FramedOk z x ∧ Rot U z y) ∧ FramedOk y x') :
    (∃ (y u : Matrix (Fin n) (Fin p) ℝ), (∃ z, FramedOk z x ∧ Rot U z y) ∧ FramedOk y x' ∧ (∃ (z w : Matrix (Fin n) (Fin p) ℝ), FramedOk z x ∧ Rot U z y ∧ (IsTangent z w ∧ c = stiefelIntr x.2.1 x.2.2 w) ∧ RotTan U z y w u) ∧
      (IsTangent y u ∧ c' = stiefelIntr x'.2.1 x'.2.2 u)) ↔ RotCoord U x x' c c' := by
  constructor
  · rintro ⟨y, u, -, h3, ⟨z, w, h1, _, ⟨hw, rfl⟩, _, rfl⟩, _, rfl⟩
    obtain rfl := h1.1
    exact ⟨w, hw, rfl, rfl⟩
  · obtain ⟨h1, h2, h3⟩ := (rotFramed_iff x x').mp hX
    rintro ⟨v, hv, rfl, rfl⟩
    rw [h3] at h2
    exact ⟨_, _, ⟨_, h1, h1.2.1, rfl⟩, h2, ⟨_, v, h1, ⟨h1.2.1, rfl⟩, ⟨hv, rfl⟩, hv, rfl⟩, rot_tangent hU hv, rfl⟩

theorem rotCoordG_iff (hU : Uᵀ * U = 1) (x x' : Framed n p) (c c' : List ℝ) (hX : ∃ y, (∃ z, FramedOk z x ∧ Rot U z y) ∧ FramedOk y x') :
    (∃ (y u : Matrix (Fin n) (Fin p) ℝ), (∃ z, FramedOk z x ∧ Rot U z y) ∧ FramedOk y x' ∧ (∃ (z w : Matrix (Fin n) (Fin p) ℝ), FramedOk z x ∧ Rot U z y ∧ (IsHorizontal z w ∧ c = grassIntr x.2.1 w) ∧ RotHor U z y w u) ∧
      (IsHorizontal y u ∧ c' = grassIntr x'.2.1 u)) ↔ RotCoordG U x x' c c' := by
  constructor
  · rintro ⟨y, u, -, h3, ⟨z, w, h1, _, ⟨hw, rfl⟩, _, rfl⟩, _, rfl⟩
    obtain rfl := h1.1
    exact ⟨w, hw, rfl, rfl⟩
  · obtain ⟨h1, h2, h3⟩ := (rotFramed_iff x x').mp hX
    rintro ⟨v, hv, rfl, rfl⟩
    rw [h3] at h2
    exact ⟨_, _, ⟨_, h1, h1.2.1, rfl⟩, h2, ⟨_, v, h1, ⟨h1.2.1, rfl⟩, ⟨hv, rfl⟩, hv, rfl⟩, horizontal_rot hU hv, rfl⟩

theorem framedRot_unique (x : Framed n p) (y y' : Matrix (Fin n) (Fin p) ℝ) (h : ∃ z, FramedOk z x ∧ Rot U z y) (h' : ∃ z, FramedOk z x ∧ Rot U z y') : y = y' := by
  obtain ⟨z, h1, _, rfl⟩ := h
  obtain ⟨z', h1', _, rfl⟩ := h'
  rw [framed_unique x z z' h1 h1']

theorem stiefelTR_rot_intr (hp : p ≤ n) (junk : ℕ → ℝ) (hU : Uᵀ * U = 1) {hhr : Matrix (Fin n) (Fin p) ℝ → Frame n p} (hh : IsHHR hhr) (hG : IsEucGrad f G) (hG' : IsEucGrad f' G') (hf : ∀ x, f' (U * x) = f x)
    (pw : ℝ → ℝ) : TRCorr (stiefelIntrTR hp junk hhr f G pw) (stiefelIntrTR hp junk hhr f' G' pw) (RotFramed U) (RotCoord U) :=
  ((((stiefelTR_corr hp junk hh f G pw).symm.comp (stiefelTR_rot hp hU hh hG hG' hf pw) framed_unique).comp (stiefelTR_corr hp junk hh f' G' pw) framedRot_unique)).congr
    rotFramed_iff fun x x' c c' hX => rotCoord_iff hU x x' c c' hX

theorem grassTR_rot_intr (hp : p ≤ n) (junk : ℕ → ℝ) (hU : Uᵀ * U = 1) {hhr : Matrix (Fin n) (Fin p) ℝ → Frame n p} (hh : IsHHR hhr) (hG : IsEucGrad f G) (hG' : IsEucGrad f' G') (hf : ∀ x, f' (U * x) = f x)
    (pw : ℝ → ℝ) : TRCorr (grassIntrTR hp junk hhr f G pw) (grassIntrTR hp junk hhr f' G' pw) (RotFramed U) (RotCoordG U) :=
  ((((grassTR_corr hp junk hh f G pw).symm.comp (grassTR_rot hp hU hh hG hG' hf pw) framed_unique).comp (grassTR_corr hp junk hh f' G' pw) framedRot_unique)).congr
    rotFramed_iff fun x x' c c' hX => rotCoordG_iff hU x x' c c' hX

theorem stiefel_rot_hess_intr (hp : p ≤ n) (junk : ℕ → ℝ) (hU : Uᵀ * U = 1) (hG : IsEucGrad f G) (hG' : IsEucGrad f' G') (hH : IsEucHessMat G H) (hH' : IsEucHessMat G' H')
    (hf : ∀ x, f' (U * x) = f x) :
    ∀ x x' v v', RotFramed U x x' → RotCoord U x x' v v' → RotCoord U x x' (stiefelIntrHess junk G H x v) (stiefelIntrHess junk G' H' x' v') := by
  rintro x x' _ _ ⟨h1, h2, h3⟩ ⟨v, hv, rfl, rfl⟩
  have a := stiefel_hess_corr hp junk G H h1 hv
  have b := stiefel_hess_corr hp junk G' H' h2 (v := U * v) (by rw [h3]; exact rot_tangent hU hv)
  have c := stiefel_rot_hess hU hG hG' hH hH' hf x.1 x'.1 v (U * v) ⟨h1.2.1, h3⟩ ⟨hv, rfl⟩
  exact ⟨_, a.1, a.2, by rw [b.2, c.2]⟩

theorem grass_rot_hess_intr (hp : p ≤ n) (junk : ℕ → ℝ) (hU : Uᵀ * U = 1) (hG : IsEucGrad f G) (hG' : IsEucGrad f' G') (hH : IsEucHessMat G H) (hH' : IsEucHessMat G' H')
    (hf : ∀ x, f' (U * x) = f x) :
    ∀ x x' v v', RotFramed U x x' → RotCoordG U x x' v v' → RotCoordG U x x' (grassIntrHess junk G H x v) (grassIntrHess junk G' H' x' v') := by
  rintro x x' _ _ ⟨h1, h2, h3⟩ ⟨v, hv, rfl, rfl⟩
  have a := grass_hess_corr hp junk G H h1 hv
  have b := grass_hess_corr hp junk G' H' h2 (v := U * v) (by rw [h3]; exact horizontal_rot hU hv)
  have c := grass_rot_hess hU hG hG' hH hH' hf x.1 x'.1 v (U * v) ⟨h1.2.1, h3⟩ ⟨hv, rfl⟩
  exact ⟨_, a.1, a.2, by rw [b.2, c.2]⟩

/-! ## C137 -/

/-- **C137 (Stiefel, conjugate gradients).** The run of `RCG` on the rotated problem passes through the rotated points and reports the same numbers. -/
theorem C137_stiefel_rcg (hp : p ≤ n) (hU : Uᵀ * U = 1) {hhr : Matrix (Fin n) (Fin p) ℝ → Frame n p} (hh : IsHHR hhr) (hG : IsEucGrad f G) (hG' : IsEucGrad f' G') (hf : ∀ x, f' (U * x) = f x)
    {cfg : Cfg ℝ (Matrix (Fin n) (Fin p) ℝ) (Matrix (Fin n) (Fin p) ℝ)} {stop' : StopKind ℝ (Matrix (Fin n) (Fin p) ℝ)} (hs : cfg.search = .armijo) (hst : StopCorr (Rot U) cfg.stop stop') (kind : CGKind) (m N : ℕ) (o o' : Obj ℝ (Matrix (Fin n) (Fin p) ℝ) (Matrix (Fin n) (Fin p) ℝ) (CGOwn ℝ (Matrix (Fin n) (Fin p) ℝ)))
    (hx : Rot U o.x1 o'.x1) (hx2 : Rot U o.x2 o'.x2) (hB : o'.preBBs = o.preBBs) (hlen : o'.lengthSeries = o.lengthSeries) (hcnt : o'.cnt = o.cnt) :
    SameRuns (Rot U) (RotTan U) (run (stiefelExtrEnv hp hhr f G) cfg (rcg (stiefelExtrEnv hp hhr f G) kind) m N o)
      (run (stiefelExtrEnv hp hhr f' G') (reCfg cfg stop') (rcg (stiefelExtrEnv hp hhr f' G') kind) m N o') :=
  C130_rcg (stiefel_rot hp hU hh hG hG' hf) (stiefel_rot_trans hp hU hh f f' G G') (Or.inr ⟨stiefel_rot_trans hp hU hh f f' G G', stiefel_rot_anywhere hp hU hhr f f' G G'⟩) hs hst kind m N o o'
    hx hx2 hB hlen hcnt

/-- **C137 (Grassmann, conjugate gradients).** -/
theorem C137_grassmann_rcg (hp : p ≤ n) (hU : Uᵀ * U = 1) {hhr : Matrix (Fin n) (Fin p) ℝ → Frame n p} (hh : IsHHR hhr) (hG : IsEucGrad f G) (hG' : IsEucGrad f' G') (hf : ∀ x, f' (U * x) = f x)
    {cfg : Cfg ℝ (Matrix (Fin n) (Fin p) ℝ) (Matrix (Fin n) (Fin p) ℝ)} {stop' : StopKind ℝ (Matrix (Fin n) (Fin p) ℝ)} (hs : cfg.search = .armijo) (hst : StopCorr (Rot U) cfg.stop stop') (kind : CGKind) (m N : ℕ) (o o' : Obj ℝ (Matrix (Fin n) (Fin p) ℝ) (Matrix (Fin n) (Fin p) ℝ) (CGOwn ℝ (Matrix (Fin n) (Fin p) ℝ)))
    (hx : Rot U o.x1 o'.x1) (hx2 : Rot U o.x2 o'.x2) (hB : o'.preBBs = o.preBBs) (hlen : o'.lengthSeries = o.lengthSeries) (hcnt : o'.cnt = o.cnt) :
    SameRuns (Rot U) (RotHor U) (run (grassExtrEnv hp hhr f G) cfg (rcg (grassExtrEnv hp hhr f G) kind) m N o)
      (run (grassExtrEnv hp hhr f' G') (reCfg cfg stop') (rcg (grassExtrEnv hp hhr f' G') kind) m N o') :=
  C130_rcg (grass_rot hp hU hh hG hG' hf) (grass_rot_trans hp hU hh f f' G G') (Or.inr ⟨grass_rot_trans hp hU hh f f' G G', grass_rot_anywhere hp hU hhr f f' G G'⟩) hs hst kind m N o o'
    hx hx2 hB hlen hcnt

/-- **C137 (Stiefel, steepest descent), with any initial step rule.** -/
theorem C137_stiefel_rsd (hp : p ≤ n) (hU : Uᵀ * U = 1) {hhr : Matrix (Fin n) (Fin p) ℝ → Frame n p} (hh : IsHHR hhr) (hG : IsEucGrad f G) (hG' : IsEucGrad f' G') (hf : ∀ x, f' (U * x) = f x)
    {cfg : Cfg ℝ (Matrix (Fin n) (Fin p) ℝ) (Matrix (Fin n) (Fin p) ℝ)} {stop' : StopKind ℝ (Matrix (Fin n) (Fin p) ℝ)} (hs : cfg.search = .armijo) (hst : StopCorr (Rot U) cfg.stop stop') (m N : ℕ) (o o' : Obj ℝ (Matrix (Fin n) (Fin p) ℝ) (Matrix (Fin n) (Fin p) ℝ) Unit)
    (hx : Rot U o.x1 o'.x1) (hx2 : Rot U o.x2 o'.x2) (hB : o'.preBBs = o.preBBs) (hlen : o'.lengthSeries = o.lengthSeries) (hcnt : o'.cnt = o.cnt) :
    SameRuns (Rot U) (RotTan U) (run (stiefelExtrEnv hp hhr f G) cfg (rsd (stiefelExtrEnv hp hhr f G)) m N o)
      (run (stiefelExtrEnv hp hhr f' G') (reCfg cfg stop') (rsd (stiefelExtrEnv hp hhr f' G')) m N o') :=
  C130_rsd (stiefel_rot hp hU hh hG hG' hf) (Or.inr ⟨stiefel_rot_trans hp hU hh f f' G G', stiefel_rot_anywhere hp hU hhr f f' G G'⟩) hs hst m N o o' hx hx2 hB hlen hcnt

/-- **C137 (Grassmann, steepest descent), with any initial step rule.** -/
theorem C137_grassmann_rsd (hp : p ≤ n) (hU : Uᵀ * U = 1) {hhr : Matrix (Fin n) (Fin p) ℝ → Frame n p} (hh : IsHHR hhr) (hG : IsEucGrad f G) (hG' : IsEucGrad f' G') (hf : ∀ x, f' (U * x) = f x)
    {cfg : Cfg ℝ (Matrix (Fin n) (Fin p) ℝ) (Matrix (Fin n) (Fin p) ℝ)} {stop' : StopKind ℝ (Matrix (Fin n) (Fin p) ℝ)} (hs : cfg.search = .armijo) (hst : StopCorr (Rot U) cfg.stop stop') (m N : ℕ) (o o' : Obj ℝ (Matrix (Fin n) (Fin p) ℝ) (Matrix (Fin n) (Fin p) ℝ) Unit)
    (hx : Rot U o.x1 o'.x1) (hx2 : Rot U o.x2 o'.x2) (hB : o'.preBBs = o.preBBs) (hlen : o'.lengthSeries = o.lengthSeries) (hcnt : o'.cnt = o.cnt) :
    SameRuns (Rot U) (RotHor U) (run (grassExtrEnv hp hhr f G) cfg (rsd (grassExtrEnv hp hhr f G)) m N o)
      (run (grassExtrEnv hp hhr f' G') (reCfg cfg stop') (rsd (grassExtrEnv hp hhr f' G')) m N o') :=
  C130_rsd (grass_rot hp hU hh hG hG' hf) (Or.inr ⟨grass_rot_trans hp hU hh f f' G G', grass_rot_anywhere hp hU hhr f f' G G'⟩) hs hst m N o o' hx hx2 hB hlen hcnt

/-- **C137 (Stiefel, steepest descent with intrinsic vectors).** The stored factors, and so the coordinates of corresponding vectors, may differ. -/
theorem C137_stiefel_rsd_intrinsic (hp : p ≤ n) (junk : ℕ → ℝ) (hU : Uᵀ * U = 1) {hhr : Matrix (Fin n) (Fin p) ℝ → Frame n p} (hh : IsHHR hhr) (hG : IsEucGrad f G) (hG' : IsEucGrad f' G')
    (hf : ∀ x, f' (U * x) = f x) {cfg : Cfg ℝ (Framed n p) (List ℝ)} {stop' : StopKind ℝ (Framed n p)} (hb : cfg.initType ≠ .bb) (hs : cfg.search = .armijo)
    (hst : StopCorr (RotFramed U) cfg.stop stop') (m N : ℕ) (o o' : Obj ℝ (Framed n p) (List ℝ) Unit) (hx : RotFramed U o.x1 o'.x1) (hx2 : RotFramed U o.x2 o'.x2) (hB : o'.preBBs = o.preBBs)
    (hlen : o'.lengthSeries = o.lengthSeries) (hcnt : o'.cnt = o.cnt) :
    SameRuns (RotFramed U) (RotCoord U) (run (stiefelIntrEnv hp junk hhr f G) cfg (rsd (stiefelIntrEnv hp junk hhr f G)) m N o)
      (run (stiefelIntrEnv hp junk hhr f' G') (reCfg cfg stop') (rsd (stiefelIntrEnv hp junk hhr f' G')) m N o') :=
  C130_rsd (stiefelTR_rot_intr hp junk hU hh hG hG' hf id).toCorr (Or.inl hb) hs hst m N o o' hx hx2 hB hlen hcnt

/-- **C137 (Grassmann, steepest descent with intrinsic vectors).** -/
theorem C137_grassmann_rsd_intrinsic (hp : p ≤ n) (junk : ℕ → ℝ) (hU : Uᵀ * U = 1) {hhr : Matrix (Fin n) (Fin p) ℝ → Frame n p} (hh : IsHHR hhr) (hG : IsEucGrad f G) (hG' : IsEucGrad f' G')
    (hf : ∀ x, f' (U * x) = f x) {cfg : Cfg ℝ (Framed n p) (List ℝ)} {stop' : StopKind ℝ (Framed n p)} (hb : cfg.initType ≠ .bb) (hs : cfg.search = .armijo)
    (hst : StopCorr (RotFramed U) cfg.stop stop') (m N : ℕ) (o o' : Obj ℝ (Framed n p) (List ℝ) Unit) (hx : RotFramed U o.x1 o'.x1) (hx2 : RotFramed U o.x2 o'.x2) (hB : o'.preBBs = o.preBBs)
    (hlen : o'.lengthSeries = o.lengthSeries) (hcnt : o'.cnt = o.cnt) :
    SameRuns (RotFramed U) (RotCoordG U) (run (grassIntrEnv hp junk hhr f G) cfg (rsd (grassIntrEnv hp junk hhr f G)) m N o)
      (run (grassIntrEnv hp junk hhr f' G') (reCfg cfg stop') (rsd (grassIntrEnv hp junk hhr f' G')) m N o') :=
  C130_rsd (grassTR_rot_intr hp junk hU hh hG hG' hf id).toCorr (Or.inl hb) hs hst m N o o' hx hx2 hB hlen hcnt

/-- **C137 (Stiefel, trust-region Newton).** -/
theorem C137_stiefel_rtrnewton (hp : p ≤ n) (hU : Uᵀ * U = 1) {hhr : Matrix (Fin n) (Fin p) ℝ → Frame n p} (hh : IsHHR hhr) (hG : IsEucGrad f G) (hG' : IsEucGrad f' G') (hH : IsEucHessMat G H)
    (hH' : IsEucHessMat G' H') (hf : ∀ x, f' (U * x) = f x) (pw : ℝ → ℝ) {cfg : TRCfg ℝ (Matrix (Fin n) (Fin p) ℝ)} {stop' : StopKind ℝ (Matrix (Fin n) (Fin p) ℝ)} (hst : StopCorr (Rot U) cfg.stop stop') (N : ℕ)
    {o o' : TRObj ℝ (Matrix (Fin n) (Fin p) ℝ) (Matrix (Fin n) (Fin p) ℝ) Unit} (h0 : SameStart (Rot U) o o') :
    OptRel (SameTR (Rot U) (RotTan U)) (trRun (stiefelExtrTR hp hhr f G pw) cfg (rtr (stiefelExtrTR hp hhr f G pw) (stiefelExtrHess G H)) N o)
      (trRun (stiefelExtrTR hp hhr f' G' pw) (reTRCfg cfg stop') (rtr (stiefelExtrTR hp hhr f' G' pw) (stiefelExtrHess G' H')) N o') :=
  C134_rtr (stiefelTR_rot hp hU hh hG hG' hf pw) (stiefel_rot_hess hU hG hG' hH hH' hf) hst N h0

/-- **C137 (Grassmann, trust-region Newton).** -/
theorem C137_grassmann_rtrnewton (hp : p ≤ n) (hU : Uᵀ * U = 1) {hhr : Matrix (Fin n) (Fin p) ℝ → Frame n p} (hh : IsHHR hhr) (hG : IsEucGrad f G) (hG' : IsEucGrad f' G') (hH : IsEucHessMat G H)
    (hH' : IsEucHessMat G' H') (hf : ∀ x, f' (U * x) = f x) (pw : ℝ → ℝ) {cfg : TRCfg ℝ (Matrix (Fin n) (Fin p) ℝ)} {stop' : StopKind ℝ (Matrix (Fin n) (Fin p) ℝ)} (hst : StopCorr (Rot U) cfg.stop stop') (N : ℕ)
    {o o' : TRObj ℝ (Matrix (Fin n) (Fin p) ℝ) (Matrix (Fin n) (Fin p) ℝ) Unit} (h0 : SameStart (Rot U) o o') :
    OptRel (SameTR (Rot U) (RotHor U)) (trRun (grassExtrTR hp hhr f G pw) cfg (rtr (grassExtrTR hp hhr f G pw) (grassExtrHess G H)) N o)
      (trRun (grassExtrTR hp hhr f' G' pw) (reTRCfg cfg stop') (rtr (grassExtrTR hp hhr f' G' pw) (grassExtrHess G' H')) N o') :=
  C134_rtr (grassTR_rot hp hU hh hG hG' hf pw) (grass_rot_hess hU hG hG' hH hH' hf) hst N h0

/-- **C137 (Stiefel, trust-region Newton with intrinsic vectors).** -/
theorem C137_stiefel_rtrnewton_intrinsic (hp : p ≤ n) (junk : ℕ → ℝ) (hU : Uᵀ * U = 1) {hhr : Matrix (Fin n) (Fin p) ℝ → Frame n p} (hh : IsHHR hhr) (hG : IsEucGrad f G) (hG' : IsEucGrad f' G')
    (hH : IsEucHessMat G H) (hH' : IsEucHessMat G' H') (hf : ∀ x, f' (U * x) = f x) (pw : ℝ → ℝ) {cfg : TRCfg ℝ (Framed n p)} {stop' : StopKind ℝ (Framed n p)}
    (hst : StopCorr (RotFramed U) cfg.stop stop') (N : ℕ) {o o' : TRObj ℝ (Framed n p) (List ℝ) Unit} (h0 : SameStart (RotFramed U) o o') :
    OptRel (SameTR (RotFramed U) (RotCoord U)) (trRun (stiefelIntrTR hp junk hhr f G pw) cfg (rtr (stiefelIntrTR hp junk hhr f G pw) (stiefelIntrHess junk G H)) N o)
      (trRun (stiefelIntrTR hp junk hhr f' G' pw) (reTRCfg cfg stop') (rtr (stiefelIntrTR hp junk hhr f' G' pw) (stiefelIntrHess junk G' H')) N o') :=
  C134_rtr (stiefelTR_rot_intr hp junk hU hh hG hG' hf pw) (stiefel_rot_hess_intr hp junk hU hG hG' hH hH' hf) hst N h0

/-- **C137 (Grassmann, trust-region Newton with intrinsic vectors).** -/
theorem C137_grassmann_rtrnewton_intrinsic (hp : p ≤ n) (junk : ℕ → ℝ) (hU : Uᵀ * U = 1) {hhr : Matrix (Fin n) (Fin p) ℝ → Frame n p} (hh : IsHHR hhr) (hG : IsEucGrad f G) (hG' : IsEucGrad f' G')
    (hH : IsEucHessMat G H) (hH' : IsEucHessMat G' H') (hf : ∀ x, f' (U * x) = f x) (pw : ℝ → ℝ) {cfg : TRCfg ℝ (Framed n p)} {stop' : StopKind ℝ (Framed n p)}
    (hst : StopCorr (RotFramed U) cfg.stop stop') (N : ℕ) {o o' : TRObj ℝ (Framed n p) (List ℝ) Unit} (h0 : SameStart (RotFramed U) o o') :
    OptRel (SameTR (RotFramed U) (RotCoordG U)) (trRun (grassIntrTR hp junk hhr f G pw) cfg (rtr (grassIntrTR hp junk hhr f G pw) (grassIntrHess junk G H)) N o)
      (trRun (grassIntrTR hp junk hhr f' G' pw) (reTRCfg cfg stop') (rtr (grassIntrTR hp junk hhr f' G' pw) (grassIntrHess junk G' H')) N o') :=
  C134_rtr (grassTR_rot_intr hp junk hU hh hG hG' hf pw) (grass_rot_hess_intr hp junk hU hG hG' hH hH' hf) hst N h0

/-- **C137 (line searches).** Every search reads the same function of the step and the same derivative on the rotated problem. -/
theorem C137_stiefel_ray (hp : p ≤ n) (hU : Uᵀ * U = 1) {hhr : Matrix (Fin n) (Fin p) ℝ → Frame n p} (hh : IsHHR hhr) (hG : IsEucGrad f G) (hG' : IsEucGrad f' G') (hf : ∀ x, f' (U * x) = f x)
    {i i' : SearchIn ℝ (Matrix (Fin n) (Fin p) ℝ) (Matrix (Fin n) (Fin p) ℝ)} (hi : SameInput (Rot U) (RotTan U) i i') : rayOf (stiefelExtrEnv hp hhr f' G') i' = rayOf (stiefelExtrEnv hp hhr f G) i :=
  C135_ray (stiefel_rot hp hU hh hG hG' hf) (stiefel_rot_slope hp hU hh hG hG' hf) hi

theorem C137_grassmann_ray (hp : p ≤ n) (hU : Uᵀ * U = 1) {hhr : Matrix (Fin n) (Fin p) ℝ → Frame n p} (hh : IsHHR hhr) (hG : IsEucGrad f G) (hG' : IsEucGrad f' G') (hf : ∀ x, f' (U * x) = f x)
    {i i' : SearchIn ℝ (Matrix (Fin n) (Fin p) ℝ) (Matrix (Fin n) (Fin p) ℝ)} (hi : SameInput (Rot U) (RotHor U) i i') : rayOf (grassExtrEnv hp hhr f' G') i' = rayOf (grassExtrEnv hp hhr f G) i :=
  C135_ray (grass_rot hp hU hh hG hG' hf) (grass_rot_slope hp hU hh hG hG' hf) hi

/-! ## The coded test problems -/

/-- The coded Euclidean Hessian of a problem. -/
def hessOf {F : Type} (P : Verif.Problem.Prob (Matrix (Fin n) (Fin p) ℝ) F) (x v : Matrix (Fin n) (Fin p) ℝ) : Matrix (Fin n) (Fin p) ℝ := P.eucHess x (P.f x).2 v

theorem eucHessMat_of {F : Type} {P : Verif.Problem.Prob (Matrix (Fin n) (Fin p) ℝ) F} (h : Verif.Problem.IsHess (Verif.Problem.matGeo (Fin n) (Fin p)) P) : IsEucHessMat (gradOf P) (hessOf P) := by
  intro x v w
  have := h (fun t : ℝ => x + t • v) v 0 (line_ed x v)
  simp only [zero_smul, add_zero] at this
  simp only [frob]
  exact HasDerivAt.fun_sum fun i _ => HasDerivAt.fun_sum fun j _ => (this i j).mul_const _

theorem brockett_rot (hU : Uᵀ * U = 1) (B : Matrix (Fin n) (Fin n) ℝ) (D : Fin p → ℝ) (x : Matrix (Fin n) (Fin p) ℝ) : costOf (stieBrockett (U * B * Uᵀ) D) (U * x) = costOf (stieBrockett B D) x := by
  simp only [costOf, stieBrockett, colScale_eq]
  rw [Matrix.mul_assoc (U * B), ← Matrix.mul_assoc Uᵀ, hU, Matrix.one_mul, Matrix.mul_assoc U B, Matrix.mul_assoc U, rot_frob hU]

theorem rayleigh_rot (hU : Uᵀ * U = 1) (B : Matrix (Fin n) (Fin n) ℝ) (x : Matrix (Fin n) (Fin p) ℝ) : costOf (grassRQ (U * B * Uᵀ)) (U * x) = costOf (grassRQ B) x := by
  simp only [costOf, grassRQ]
  rw [Matrix.mul_assoc (U * B), ← Matrix.mul_assoc Uᵀ, hU, Matrix.one_mul, Matrix.mul_assoc U B, rot_frob hU]

theorem conj_symm {B : Matrix (Fin n) (Fin n) ℝ} (hB : Bᵀ = B) (U : Matrix (Fin n) (Fin n) ℝ) : (U * B * Uᵀ)ᵀ = U * B * Uᵀ := by
  rw [transpose_mul, transpose_mul, transpose_transpose, hB, Matrix.mul_assoc]

/-- **C137, Brockett cost.** `RTRNewton` for `StieBrockett` with the matrix `U B Uᵀ` from `U x` runs as with `B` from `x`, in either representation of the vectors. -/
theorem C137_brockett_rtrnewton (hp : p ≤ n) (junk : ℕ → ℝ) (hU : Uᵀ * U = 1) {hhr : Matrix (Fin n) (Fin p) ℝ → Frame n p} (hh : IsHHR hhr) {B : Matrix (Fin n) (Fin n) ℝ} (hB : Bᵀ = B) (D : Fin p → ℝ) (pw : ℝ → ℝ) :
    let f := costOf (stieBrockett B D); let G := gradOf (stieBrockett B D); let H := hessOf (stieBrockett B D)
    let f' := costOf (stieBrockett (U * B * Uᵀ) D); let G' := gradOf (stieBrockett (U * B * Uᵀ) D); let H' := hessOf (stieBrockett (U * B * Uᵀ) D)
    (∀ {cfg : TRCfg ℝ (Matrix (Fin n) (Fin p) ℝ)} {stop' : StopKind ℝ (Matrix (Fin n) (Fin p) ℝ)} (_ : StopCorr (Rot U) cfg.stop stop') (N : ℕ) {o o' : TRObj ℝ (Matrix (Fin n) (Fin p) ℝ) (Matrix (Fin n) (Fin p) ℝ) Unit} (_ : SameStart (Rot U) o o'),
      OptRel (SameTR (Rot U) (RotTan U)) (trRun (stiefelExtrTR hp hhr f G pw) cfg (rtr (stiefelExtrTR hp hhr f G pw) (stiefelExtrHess G H)) N o)
        (trRun (stiefelExtrTR hp hhr f' G' pw) (reTRCfg cfg stop') (rtr (stiefelExtrTR hp hhr f' G' pw) (stiefelExtrHess G' H')) N o')) ∧
    (∀ {cfg : TRCfg ℝ (Framed n p)} {stop' : StopKind ℝ (Framed n p)} (_ : StopCorr (RotFramed U) cfg.stop stop') (N : ℕ) {o o' : TRObj ℝ (Framed n p) (List ℝ) Unit}
      (_ : SameStart (RotFramed U) o o'),
      OptRel (SameTR (RotFramed U) (RotCoord U)) (trRun (stiefelIntrTR hp junk hhr f G pw) cfg (rtr (stiefelIntrTR hp junk hhr f G pw) (stiefelIntrHess junk G H)) N o)
        (trRun (stiefelIntrTR hp junk hhr f' G' pw) (reTRCfg cfg stop') (rtr (stiefelIntrTR hp junk hhr f' G' pw) (stiefelIntrHess junk G' H')) N o')) := by
  intro f G H f' G' H'
  have hG : IsEucGrad f G := eucGrad_of (C52_brockett hB D).1
  have hG' : IsEucGrad f' G' := eucGrad_of (C52_brockett (conj_symm hB U) D).1
  have hH : IsEucHessMat G H := eucHessMat_of (C52_brockett hB D).2
  have hH' : IsEucHessMat G' H' := eucHessMat_of (C52_brockett (conj_symm hB U) D).2
  have hf : ∀ x, f' (U * x) = f x := brockett_rot hU B D
  exact ⟨fun hst N _ _ h0 => C137_stiefel_rtrnewton hp hU hh hG hG' hH hH' hf pw hst N h0, fun hst N _ _ h0 => C137_stiefel_rtrnewton_intrinsic hp junk hU hh hG hG' hH hH' hf pw hst N h0⟩

/-- **C137, Rayleigh quotient.** Conjugate gradients for `GrassRQ`: only the position of the start relative to the matrix matters. -/
theorem C137_rayleigh_rcg (hp : p ≤ n) (hU : Uᵀ * U = 1) {hhr : Matrix (Fin n) (Fin p) ℝ → Frame n p} (hh : IsHHR hhr) {B : Matrix (Fin n) (Fin n) ℝ} (hB : Bᵀ = B)
    {cfg : Cfg ℝ (Matrix (Fin n) (Fin p) ℝ) (Matrix (Fin n) (Fin p) ℝ)} {stop' : StopKind ℝ (Matrix (Fin n) (Fin p) ℝ)} (hs : cfg.search = .armijo) (hst : StopCorr (Rot U) cfg.stop stop') (kind : CGKind) (m N : ℕ) (o o' : Obj ℝ (Matrix (Fin n) (Fin p) ℝ) (Matrix (Fin n) (Fin p) ℝ) (CGOwn ℝ (Matrix (Fin n) (Fin p) ℝ)))
    (hx : Rot U o.x1 o'.x1) (hx2 : Rot U o.x2 o'.x2) (hB' : o'.preBBs = o.preBBs) (hlen : o'.lengthSeries = o.lengthSeries) (hcnt : o'.cnt = o.cnt) :
    let e := grassExtrEnv hp hhr (costOf (grassRQ B)) (gradOf (grassRQ B)); let e' := grassExtrEnv hp hhr (costOf (grassRQ (U * B * Uᵀ))) (gradOf (grassRQ (U * B * Uᵀ)))
    SameRuns (Rot U) (RotHor U) (run e cfg (rcg e kind) m N o) (run e' (reCfg cfg stop') (rcg e' kind) m N o') :=
  C137_grassmann_rcg hp hU hh (eucGrad_of (C52_rayleigh hB).1) (eucGrad_of (C52_rayleigh (conj_symm hB U)).1) (rayleigh_rot hU B) hs hst kind m N o o' hx hx2 hB' hlen hcnt

/-! ## Concrete cases -/

/-- A rotation of the plane by a right angle takes `diag (1, 2)` to `diag (2, 1)`; the trust-region runs from the corresponding starts on the circle agree. -/
example (pw : ℝ → ℝ) {cfg : TRCfg ℝ (Matrix (Fin 2) (Fin 1) ℝ)} (hst : cfg.stop = .gradF0) (N : ℕ) (o : TRObj ℝ (Matrix (Fin 2) (Fin 1) ℝ) (Matrix (Fin 2) (Fin 1) ℝ) Unit)
    (hx : o.x1 = !![3 / 5; 4 / 5]) (hx2 : o.x2 = o.x1) :
    let U : Matrix (Fin 2) (Fin 2) ℝ := !![0, -1; 1, 0]
    let e := stiefelExtrTR (by norm_num) rotHHR (costOf (stieBrockett !![1, 0; 0, 2] fun _ : Fin 1 => 1)) (gradOf (stieBrockett !![1, 0; 0, 2] fun _ => 1)) pw
    let e' := stiefelExtrTR (by norm_num) rotHHR (costOf (stieBrockett (U * !![1, 0; 0, 2] * Uᵀ) fun _ : Fin 1 => 1)) (gradOf (stieBrockett (U * !![1, 0; 0, 2] * Uᵀ) fun _ => 1)) pw
    OptRel (SameTR (Rot U) (RotTan U)) (trRun e cfg (rtr e (stiefelExtrHess (gradOf (stieBrockett !![1, 0; 0, 2] fun _ => 1)) (hessOf (stieBrockett !![1, 0; 0, 2] fun _ => 1)))) N o)
      (trRun e' (reTRCfg cfg .gradF0) (rtr e' (stiefelExtrHess (gradOf (stieBrockett (U * !![1, 0; 0, 2] * Uᵀ) fun _ => 1)) (hessOf (stieBrockett (U * !![1, 0; 0, 2] * Uᵀ) fun _ => 1)))) N
        { o with x1 := U * o.x1, x2 := U * o.x1 }) := by
  intro U e e'
  have hU : Uᵀ * U = 1 := by
    ext i j
    fin_cases i <;> fin_cases j <;> simp [U, mul_apply, Fin.sum_univ_two]
  have h1 : o.x1ᵀ * o.x1 = 1 := by
    rw [hx]
    ext i j
    fin_cases i; fin_cases j
    simp [mul_apply, Fin.sum_univ_two]
    norm_num
  refine (C137_brockett_rtrnewton (by norm_num) (fun _ => 0) hU rotHHR_spec (B := !![1, 0; 0, 2]) ?_ (fun _ => 1) pw).1 (by rw [hst]; trivial) N
    ⟨⟨h1, rfl⟩, ⟨by rw [hx2]; exact h1, by rw [hx2]⟩, rfl, rfl, rfl, rfl, rfl⟩
  ext i j
  fin_cases i <;> fin_cases j <;> simp

end Verif.Obj
