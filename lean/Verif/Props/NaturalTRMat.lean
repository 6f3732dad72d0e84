import Verif.Props.NaturalTR
import Verif.Props.NaturalMat
import Verif.Solver.ObjectTRMat

/-!
# Trust-region runs on the Stiefel and Grassmann manifolds: extrinsic and intrinsic vectors, representatives of a subspace (C134)
-/

namespace Verif.Obj

open Matrix Verif.Mat Verif.Stiefel Verif.Intr

variable {n p : ℕ}

/-! ## Specification -/

/-- `H` is the derivative of `G`. -/
def IsEucHessMat (G : Matrix (Fin n) (Fin p) ℝ → Matrix (Fin n) (Fin p) ℝ) (H : Matrix (Fin n) (Fin p) ℝ → Matrix (Fin n) (Fin p) ℝ → Matrix (Fin n) (Fin p) ℝ) : Prop :=
  ∀ x v w, HasDerivAt (fun t : ℝ => frob (G (x + t • v)) w) (frob (H x v) w) 0

/-! ## Correspondences -/

theorem grassIntr_axpy (Q : Matrix (Fin n) (Fin n) ℝ) (a : ℝ) (v w : Matrix (Fin n) (Fin p) ℝ) :
    grassIntr Q (a • v + w) = List.zipWith (fun s t => a * s + t) (grassIntr Q v) (grassIntr Q w) := by
  have h := grassIntr_lin Q a 1 v w
  rw [one_smul] at h
  rw [h]
  simp only [one_mul]

theorem stiefelIntr_axpy (Q : Matrix (Fin n) (Fin n) ℝ) (R : Matrix (Fin n) (Fin p) ℝ) (a : ℝ) (v w : Matrix (Fin n) (Fin p) ℝ) :
    stiefelIntr Q R (a • v + w) = List.zipWith (fun s t => a * s + t) (stiefelIntr Q R v) (stiefelIntr Q R w) := by
  have h := stiefelIntr_lin Q R a 1 v w
  rw [one_smul] at h
  rw [h]
  simp only [one_mul]

theorem stiefelTR_corr (hp : p ≤ n) (junk : ℕ → ℝ) {hhr : Matrix (Fin n) (Fin p) ℝ → Frame n p} (hh : IsHHR hhr) (f : Matrix (Fin n) (Fin p) ℝ → ℝ)
    (G : Matrix (Fin n) (Fin p) ℝ → Matrix (Fin n) (Fin p) ℝ) (pw : ℝ → ℝ) :
    TRCorr (stiefelExtrTR hp hhr f G pw) (stiefelIntrTR hp junk hhr f G pw) FramedOk (fun x x' v c => IsTangent x v ∧ c = stiefelIntr x'.2.1 x'.2.2 v) where
  toCorr := stiefel_corr hp junk hh f G
  powtheta := rfl
  axpy := by
    rintro x x' c v d w e hX ⟨hv, rfl⟩ ⟨hw, rfl⟩
    refine ⟨?_, (stiefelIntr_axpy _ _ _ _ _).symm⟩
    have := tangent_lin c 1 hv hw
    rwa [one_smul] at this
  proj := by
    rintro x x' v d hX ⟨hv, rfl⟩
    have e : proj x v = v := (C35_stiefel_projection hX.2.1 v v).2.1 hv
    show IsTangent x (proj x v) ∧ stiefelIntr _ _ v = stiefelIntr _ _ (proj x v)
    rw [e]
    exact ⟨hv, rfl⟩

theorem grassTR_corr (hp : p ≤ n) (junk : ℕ → ℝ) {hhr : Matrix (Fin n) (Fin p) ℝ → Frame n p} (hh : IsHHR hhr) (f : Matrix (Fin n) (Fin p) ℝ → ℝ)
    (G : Matrix (Fin n) (Fin p) ℝ → Matrix (Fin n) (Fin p) ℝ) (pw : ℝ → ℝ) :
    TRCorr (grassExtrTR hp hhr f G pw) (grassIntrTR hp junk hhr f G pw) FramedOk (fun x x' v c => IsHorizontal x v ∧ c = grassIntr x'.2.1 v) where
  toCorr := grass_corr hp junk hh f G
  powtheta := rfl
  axpy := by
    rintro x x' c v d w e hX ⟨hv, rfl⟩ ⟨hw, rfl⟩
    refine ⟨?_, (grassIntr_axpy _ _ _ _).symm⟩
    have := horizontal_lin c 1 hv hw
    rwa [one_smul] at this
  proj := by
    rintro x x' v d hX ⟨hv, rfl⟩
    have e : gProj x v = v := by rw [gProj, show xᵀ * v = 0 from hv, Matrix.mul_zero, sub_zero]
    show IsHorizontal x (gProj x v) ∧ grassIntr _ v = grassIntr _ (gProj x v)
    rw [e]
    exact ⟨hv, rfl⟩

theorem grassTR_rep_corr (hp : p ≤ n) {hhr : Matrix (Fin n) (Fin p) ℝ → Frame n p} (hh : IsHHR hhr) {f : Matrix (Fin n) (Fin p) ℝ → ℝ}
    {G : Matrix (Fin n) (Fin p) ℝ → Matrix (Fin n) (Fin p) ℝ} (hf : OnSubspaces f) (hG : IsEucGrad f G) (pw : ℝ → ℝ) :
    TRCorr (grassExtrTR hp hhr f G pw) (grassExtrTR hp hhr f G pw) SameSpan SameLift where
  toCorr := grass_rep_corr hp hh hf hG
  powtheta := rfl
  axpy := by
    rintro x x' c v d w e hX ⟨hv, rfl⟩ ⟨hw, rfl⟩
    refine ⟨?_, ?_⟩
    · have := horizontal_lin c 1 hv hw
      rwa [one_smul] at this
    · show c • (v * _) + w * _ = (c • v + w) * _
      rw [Matrix.add_mul, Matrix.smul_mul]
  proj := by
    rintro x x' v d hX ⟨hv, rfl⟩
    have e : ∀ {y u : Matrix (Fin n) (Fin p) ℝ}, IsHorizontal y u → gProj y u = u := fun {y u} hu => by
      rw [gProj, show yᵀ * u = 0 from hu, Matrix.mul_zero, sub_zero]
    have hv' : IsHorizontal x' (v * (xᵀ * x')) := by
      obtain ⟨_, hx'⟩ := sameSpan_gram hX
      unfold IsHorizontal
      rw [← Matrix.mul_assoc]
      conv_lhs => rw [hx']
      rw [transpose_mul, Matrix.mul_assoc (xᵀ * x')ᵀ, show xᵀ * v = 0 from hv, Matrix.mul_zero, Matrix.zero_mul]
    show IsHorizontal x (gProj x v) ∧ gProj x' _ = gProj x v * _
    rw [e hv, e hv']
    exact ⟨hv, rfl⟩

theorem stiefel_hess_corr (hp : p ≤ n) (junk : ℕ → ℝ) (G : Matrix (Fin n) (Fin p) ℝ → Matrix (Fin n) (Fin p) ℝ)
    (H : Matrix (Fin n) (Fin p) ℝ → Matrix (Fin n) (Fin p) ℝ → Matrix (Fin n) (Fin p) ℝ) {x : Matrix (Fin n) (Fin p) ℝ} {x' : Framed n p} (hX : FramedOk x x')
    {v : Matrix (Fin n) (Fin p) ℝ} (hv : IsTangent x v) :
    IsTangent x (stiefelExtrHess G H x v) ∧ stiefelIntrHess junk G H x' (stiefelIntr x'.2.1 x'.2.2 v) = stiefelIntr x'.2.1 x'.2.2 (stiefelExtrHess G H x v) := by
  obtain ⟨h1, h2, R, hR, hs⟩ := hX
  have e : stiefelExtr junk x'.2.1 x'.2.2 (stiefelIntr x'.2.1 x'.2.2 v) = v := by
    rw [← rowSigns_intr hs, ← rowSigns_extr hs]
    exact C37_stiefel_extr_intr hp hR h2 hv junk
  refine ⟨(C35_stiefel_projection h2 _ v).1, ?_⟩
  simp only [stiefelIntrHess, stiefelExtrHess]
  rw [e, h1]

theorem grass_hess_corr (hp : p ≤ n) (junk : ℕ → ℝ) (G : Matrix (Fin n) (Fin p) ℝ → Matrix (Fin n) (Fin p) ℝ)
    (H : Matrix (Fin n) (Fin p) ℝ → Matrix (Fin n) (Fin p) ℝ → Matrix (Fin n) (Fin p) ℝ) {x : Matrix (Fin n) (Fin p) ℝ} {x' : Framed n p} (hX : FramedOk x x')
    {v : Matrix (Fin n) (Fin p) ℝ} (hv : IsHorizontal x v) :
    IsHorizontal x (grassExtrHess G H x v) ∧ grassIntrHess junk G H x' (grassIntr x'.2.1 v) = grassIntr x'.2.1 (grassExtrHess G H x v) := by
  obtain ⟨h1, h2, R, hR, hs⟩ := hX
  have e := C37_grassmann_extr_intr hp hR h2 hv junk
  refine ⟨(C35_grassmann_projection h2 _ v).1, ?_⟩
  simp only [grassIntrHess, grassExtrHess]
  rw [e, h1]

/-- The Hessian of a function of the subspace is equivariant. -/
theorem hess_equivariant {f : Matrix (Fin n) (Fin p) ℝ → ℝ} {G : Matrix (Fin n) (Fin p) ℝ → Matrix (Fin n) (Fin p) ℝ}
    {H : Matrix (Fin n) (Fin p) ℝ → Matrix (Fin n) (Fin p) ℝ → Matrix (Fin n) (Fin p) ℝ} (hf : OnSubspaces f) (hG : IsEucGrad f G) (hH : IsEucHessMat G H)
    (x v : Matrix (Fin n) (Fin p) ℝ) {O : Matrix (Fin p) (Fin p) ℝ} (hO : Oᵀ * O = 1) : H (x * O) (v * O) = H x v * O := by
  refine frob_ext fun w => ?_
  have h1 := hH (x * O) (v * O) w
  have h2 := hH x v (w * Oᵀ)
  have e : (fun t : ℝ => frob (G (x * O + t • (v * O))) w) = fun t : ℝ => frob (G (x + t • v)) (w * Oᵀ) := by
    funext t
    rw [← Matrix.smul_mul, ← Matrix.add_mul, grad_equivariant hf hG _ hO, frob_mul_right]
  rw [e] at h1
  rw [h1.unique h2, frob_mul_right]

theorem grass_hess_rep_corr {f : Matrix (Fin n) (Fin p) ℝ → ℝ} {G : Matrix (Fin n) (Fin p) ℝ → Matrix (Fin n) (Fin p) ℝ}
    {H : Matrix (Fin n) (Fin p) ℝ → Matrix (Fin n) (Fin p) ℝ → Matrix (Fin n) (Fin p) ℝ} (hf : OnSubspaces f) (hG : IsEucGrad f G) (hH : IsEucHessMat G H)
    {x x' : Matrix (Fin n) (Fin p) ℝ} (hX : SameSpan x x') (v : Matrix (Fin n) (Fin p) ℝ) :
    IsHorizontal x (grassExtrHess G H x v) ∧ grassExtrHess G H x' (v * (xᵀ * x')) = grassExtrHess G H x v * (xᵀ * x') := by
  refine ⟨(C35_grassmann_projection hX.1 _ v).1, ?_⟩
  obtain ⟨hO, hx'⟩ := sameSpan_gram hX
  have hO' := mul_eq_one_comm.mp hO
  generalize xᵀ * x' = O at hO hx' hO' ⊢
  subst hx'
  simp only [grassExtrHess, gHess]
  rw [grad_equivariant hf hG x hO, hess_equivariant hf hG hH x v hO]
  have e1 : H x v * O - v * O * ((x * O)ᵀ * (G x * O)) = (H x v - v * (xᵀ * G x)) * O := by
    rw [Matrix.sub_mul, transpose_mul]
    congr 1
    rw [Matrix.mul_assoc v O, Matrix.mul_assoc Oᵀ, ← Matrix.mul_assoc O Oᵀ, hO', Matrix.one_mul, Matrix.mul_assoc v, Matrix.mul_assoc xᵀ]
  rw [e1]
  generalize H x v - v * (xᵀ * G x) = Z
  rw [gProj, gProj, Matrix.sub_mul, transpose_mul]
  congr 1
  rw [Matrix.mul_assoc x O, Matrix.mul_assoc Oᵀ, ← Matrix.mul_assoc O Oᵀ, hO', Matrix.one_mul, Matrix.mul_assoc x, Matrix.mul_assoc xᵀ]

/-! ## Runs -/

/-- **C134 (Stiefel, intrinsic and extrinsic vectors).** `RTRNewton` with intrinsic tangent vectors passes through the same points as with extrinsic ones and reports the same
numbers (radii, ratios, statuses of the inner iteration and numbers of inner iterations included), whatever the frames are. -/
theorem C134_stiefel_intrinsic (hp : p ≤ n) (junk : ℕ → ℝ) {hhr : Matrix (Fin n) (Fin p) ℝ → Frame n p} (hh : IsHHR hhr) (f : Matrix (Fin n) (Fin p) ℝ → ℝ)
    (G : Matrix (Fin n) (Fin p) ℝ → Matrix (Fin n) (Fin p) ℝ) (H : Matrix (Fin n) (Fin p) ℝ → Matrix (Fin n) (Fin p) ℝ → Matrix (Fin n) (Fin p) ℝ) (pw : ℝ → ℝ)
    (cfg : TRCfg ℝ (Matrix (Fin n) (Fin p) ℝ)) (N : ℕ) (o : TRObj ℝ (Matrix (Fin n) (Fin p) ℝ) (Matrix (Fin n) (Fin p) ℝ) Unit) (o' : TRObj ℝ (Framed n p) (List ℝ) Unit)
    (h0 : SameStart FramedOk o o') :
    OptRel (SameTR FramedOk fun x x' v c => IsTangent x v ∧ c = stiefelIntr x'.2.1 x'.2.2 v)
      (trRun (stiefelExtrTR hp hhr f G pw) cfg (rtr (stiefelExtrTR hp hhr f G pw) (stiefelExtrHess G H)) N o)
      (trRun (stiefelIntrTR hp junk hhr f G pw) (reTRCfg cfg (framedStop cfg.stop)) (rtr (stiefelIntrTR hp junk hhr f G pw) (stiefelIntrHess junk G H)) N o') := by
  refine C134_rtr (stiefelTR_corr hp junk hh f G pw) ?_ (framedStop_corr cfg.stop) N h0
  rintro x x' v c hX ⟨hv, rfl⟩
  exact stiefel_hess_corr hp junk G H hX hv

/-- **C134 (Stiefel, intrinsic and extrinsic vectors), `RTRSD`.** -/
theorem C134_stiefel_intrinsic_sd (hp : p ≤ n) (junk : ℕ → ℝ) {hhr : Matrix (Fin n) (Fin p) ℝ → Frame n p} (hh : IsHHR hhr) (f : Matrix (Fin n) (Fin p) ℝ → ℝ)
    (G : Matrix (Fin n) (Fin p) ℝ → Matrix (Fin n) (Fin p) ℝ) (pw : ℝ → ℝ)
    (cfg : TRCfg ℝ (Matrix (Fin n) (Fin p) ℝ)) (N : ℕ) (o : TRObj ℝ (Matrix (Fin n) (Fin p) ℝ) (Matrix (Fin n) (Fin p) ℝ) Unit) (o' : TRObj ℝ (Framed n p) (List ℝ) Unit)
    (h0 : SameStart FramedOk o o') :
    OptRel (SameTR FramedOk fun x x' v c => IsTangent x v ∧ c = stiefelIntr x'.2.1 x'.2.2 v)
      (trRun (stiefelExtrTR hp hhr f G pw) cfg (rtr (stiefelExtrTR hp hhr f G pw) fun _ v => v) N o)
      (trRun (stiefelIntrTR hp junk hhr f G pw) (reTRCfg cfg (framedStop cfg.stop)) (rtr (stiefelIntrTR hp junk hhr f G pw) fun _ v => v) N o') :=
  C134_rtr (stiefelTR_corr hp junk hh f G pw) (fun _ _ _ _ _ h => h) (framedStop_corr cfg.stop) N h0

/-- **C134 (Grassmann, intrinsic and extrinsic vectors).** -/
theorem C134_grassmann_intrinsic (hp : p ≤ n) (junk : ℕ → ℝ) {hhr : Matrix (Fin n) (Fin p) ℝ → Frame n p} (hh : IsHHR hhr) (f : Matrix (Fin n) (Fin p) ℝ → ℝ)
    (G : Matrix (Fin n) (Fin p) ℝ → Matrix (Fin n) (Fin p) ℝ) (H : Matrix (Fin n) (Fin p) ℝ → Matrix (Fin n) (Fin p) ℝ → Matrix (Fin n) (Fin p) ℝ) (pw : ℝ → ℝ)
    (cfg : TRCfg ℝ (Matrix (Fin n) (Fin p) ℝ)) (N : ℕ) (o : TRObj ℝ (Matrix (Fin n) (Fin p) ℝ) (Matrix (Fin n) (Fin p) ℝ) Unit) (o' : TRObj ℝ (Framed n p) (List ℝ) Unit)
    (h0 : SameStart FramedOk o o') :
    OptRel (SameTR FramedOk fun x x' v c => IsHorizontal x v ∧ c = grassIntr x'.2.1 v)
      (trRun (grassExtrTR hp hhr f G pw) cfg (rtr (grassExtrTR hp hhr f G pw) (grassExtrHess G H)) N o)
      (trRun (grassIntrTR hp junk hhr f G pw) (reTRCfg cfg (framedStop cfg.stop)) (rtr (grassIntrTR hp junk hhr f G pw) (grassIntrHess junk G H)) N o') := by
  refine C134_rtr (grassTR_corr hp junk hh f G pw) ?_ (framedStop_corr cfg.stop) N h0
  rintro x x' v c hX ⟨hv, rfl⟩
  exact grass_hess_corr hp junk G H hX hv

/-- **C134 (Grassmann, representatives).** `RTRNewton` on a function of the subspace depends only on the subspace spanned by the initial point. -/
theorem C134_grassmann_subspace (hp : p ≤ n) {hhr : Matrix (Fin n) (Fin p) ℝ → Frame n p} (hh : IsHHR hhr) {f : Matrix (Fin n) (Fin p) ℝ → ℝ}
    {G : Matrix (Fin n) (Fin p) ℝ → Matrix (Fin n) (Fin p) ℝ} {H : Matrix (Fin n) (Fin p) ℝ → Matrix (Fin n) (Fin p) ℝ → Matrix (Fin n) (Fin p) ℝ} (hf : OnSubspaces f) (hG : IsEucGrad f G)
    (hH : IsEucHessMat G H) (pw : ℝ → ℝ) (cfg : TRCfg ℝ (Matrix (Fin n) (Fin p) ℝ)) {stop' : StopKind ℝ (Matrix (Fin n) (Fin p) ℝ)} (hst : StopCorr SameSpan cfg.stop stop') (N : ℕ)
    (o o' : TRObj ℝ (Matrix (Fin n) (Fin p) ℝ) (Matrix (Fin n) (Fin p) ℝ) Unit) (h0 : SameStart SameSpan o o') :
    OptRel (SameTR SameSpan SameLift) (trRun (grassExtrTR hp hhr f G pw) cfg (rtr (grassExtrTR hp hhr f G pw) (grassExtrHess G H)) N o)
      (trRun (grassExtrTR hp hhr f G pw) (reTRCfg cfg stop') (rtr (grassExtrTR hp hhr f G pw) (grassExtrHess G H)) N o') := by
  refine C134_rtr (grassTR_rep_corr hp hh hf hG pw) ?_ hst N h0
  rintro x x' v c hX ⟨hv, rfl⟩
  exact grass_hess_rep_corr hf hG hH hX v

/-! ## A concrete case: lines in the plane -/

/-- The Hessian of `lineF`. -/
def lineH (_ v : Matrix (Fin 2) (Fin 1) ℝ) : Matrix (Fin 2) (Fin 1) ℝ := !![2 * v 0 0; 0]

theorem lineH_hess : IsEucHessMat lineG lineH := by
  intro x v w
  have h0 : HasDerivAt (fun t : ℝ => t * (2 * v 0 0 * w 0 0)) (1 * (2 * v 0 0 * w 0 0)) 0 := (hasDerivAt_id (0 : ℝ)).mul_const _
  have h1 := HasDerivAt.fun_add (hasDerivAt_const (0 : ℝ) (2 * x 0 0 * w 0 0)) h0
  have e : (fun t : ℝ => frob (lineG (x + t • v)) w) = fun t : ℝ => 2 * x 0 0 * w 0 0 + t * (2 * v 0 0 * w 0 0) := by
    funext t; simp [lineG, frob]; ring
  have e2 : frob (lineH x v) w = 0 + 1 * (2 * v 0 0 * w 0 0) := by
    simp [frob, lineH]
  rw [e, e2]
  exact h1

/-- From `x` and from `-x` the trust-region Newton method on the projective line gives the same numbers. -/
example (pw : ℝ → ℝ) {cfg : TRCfg ℝ (Matrix (Fin 2) (Fin 1) ℝ)} (hst : cfg.stop = .gradF0) (N : ℕ)
    (o : TRObj ℝ (Matrix (Fin 2) (Fin 1) ℝ) (Matrix (Fin 2) (Fin 1) ℝ) Unit) (hx : o.x1 = !![3 / 5; 4 / 5]) (hx2 : o.x2 = o.x1) :
    OptRel (SameTR SameSpan SameLift)
      (trRun (grassExtrTR (by norm_num) rotHHR lineF lineG pw) cfg (rtr (grassExtrTR (by norm_num) rotHHR lineF lineG pw) (grassExtrHess lineG lineH)) N o)
      (trRun (grassExtrTR (by norm_num) rotHHR lineF lineG pw) (reTRCfg cfg .gradF0) (rtr (grassExtrTR (by norm_num) rotHHR lineF lineG pw) (grassExtrHess lineG lineH)) N
        { o with x1 := -o.x1, x2 := -o.x1 }) := by
  have h1 : SameSpan o.x1 (-o.x1) := by
    refine ⟨?_, -1, by simp, by simp⟩
    rw [hx]
    ext i j
    fin_cases i; fin_cases j
    simp [mul_apply, Fin.sum_univ_two]
    norm_num
  have h2 : SameSpan o.x2 (-o.x1) := by rw [hx2]; exact h1
  exact C134_grassmann_subspace (by norm_num) rotHHR_spec lineF_onSubspaces lineG_grad lineH_hess pw cfg (stop' := .gradF0) (by rw [hst]; trivial) N o
    { o with x1 := -o.x1, x2 := -o.x1 } ⟨h1, h2, rfl, rfl, rfl, rfl, rfl⟩

end Verif.Obj
