import Verif.Props.NaturalMat
import Verif.Solver.ObjectRay
import Verif.Solver.ExactLS
import Verif.Props.FirstOrder
import Mathlib.Analysis.Calculus.Deriv.Shift
import Mathlib.Analysis.InnerProductSpace.GramSchmidtOrtho
import Mathlib.Analysis.InnerProductSpace.PiL2

/-!
# Every line search sees the same function, whatever the representation (C135)
-/

namespace Verif.Obj

open Matrix Verif.Mat Verif.Stiefel Verif.Intr

/-! ## Specification -/

section
variable {K X E X' E' : Type*}

/-- The slopes `⟨grad f(y), DR_v[w]⟩` at `y = R(v)` agree. The vectors `DR_v[w]` themselves need not. -/
def SlopeCorr (env : Env K X E) (env' : Env K X' E') (RX : X → X' → Prop) (RE : X → X' → E → E' → Prop) : Prop :=
  ∀ x x' v v' w w', RX x x' → RE x x' v v' → RE x x' w w' →
    env'.metric (env'.retr x' v') (env'.grad (env'.retr x' v')) (env'.dretr x' v' (env'.retr x' v') w') =
      env.metric (env.retr x v) (env.grad (env.retr x v)) (env.dretr x v (env.retr x v) w)

end

section
variable {K : Type} {X E X' E' : Type*} {env : Env K X E} {env' : Env K X' E'} {RX : X → X' → Prop} {RE : X → X' → E → E' → Prop}

/-- Related inputs of a line search. -/
structure SameInput (RX : X → X' → Prop) (RE : X → X' → E → E' → Prop) (i : SearchIn K X E) (i' : SearchIn K X' E') : Prop where
  x1 : RX i.x1 i'.x1
  eta1 : RE i.x1 i'.x1 i.eta1 i'.eta1
  f1 : i'.f1 = i.f1
  slope : i'.initialslope = i.initialslope

/-- **C135.** The objective along the search direction, and its slopes, are the same functions of the step in both representations. -/
theorem C135_ray (hC : Corr env env' RX RE) (hS : SlopeCorr env env' RX RE) {i : SearchIn K X E} {i' : SearchIn K X' E'} (hi : SameInput RX RE i i') : rayOf env' i' = rayOf env i := by
  have he : ∀ t, RE i.x1 i'.x1 (env.smul t i.eta1) (env'.smul t i'.eta1) := fun t => hC.smul _ _ _ _ _ hi.x1 hi.eta1
  unfold rayOf
  congr 1
  · exact hi.f1
  · exact hi.slope
  · funext t; exact hC.f _ _ (hC.retr _ _ _ _ hi.x1 (he t))
  · funext t; exact hS _ _ _ _ _ _ hi.x1 (he t) hi.eta1

end

section
variable {K : Type} [Field K] [LinearOrder K] {X E X' E' : Type*} {env : Env K X E} {env' : Env K X' E'} {RX : X → X' → Prop} {RE : X → X' → E → E' → Prop}

/-- **C135 (searches).** The strong Wolfe, weak Wolfe and exact searches return the same step, value, slope and status. -/
theorem C135_searches (hC : Corr env env' RX RE) (hS : SlopeCorr env env' RX RE) {i : SearchIn K X E} {i' : SearchIn K X' E'} (hi : SameInput RX RE i i') (P : Solver.LSParams K)
    (I : Solver.Interp K) (PE : Solver.ExactPar K) (fuel : ℕ) (s0 : Solver.Search K) (t : K) :
    Solver.strongWolfe P (rayOf env' i') I fuel s0 = Solver.strongWolfe P (rayOf env i) I fuel s0 ∧ Solver.wolfe P (rayOf env' i') I fuel s0 = Solver.wolfe P (rayOf env i) I fuel s0 ∧
      Solver.exactLS PE (rayOf env' i') fuel t = Solver.exactLS PE (rayOf env i) fuel t := by
  rw [C135_ray hC hS hi]
  exact ⟨rfl, rfl, rfl⟩

end

/-! ## Stiefel and Grassmann -/

variable {n p : ℕ}

theorem scaleCols_eq (s : Fin p → ℝ) (A : Matrix (Fin n) (Fin p) ℝ) : scaleCols s A = A * diagonal s := by
  ext i j
  rw [mul_diagonal, scaleCols, mul_comm]

/-- The triangle with the signs of the columns: `y T = x + η`. -/
theorem qf_triangle (hp : p ≤ n) {hhr : Matrix (Fin n) (Fin p) ℝ → Frame n p} (hh : IsHHR hhr) {x η : Matrix (Fin n) (Fin p) ℝ} (hx : xᵀ * x = 1) (hη : IsTangent x η) :
    ∃ T : Matrix (Fin p) (Fin p) ℝ, IsUnit T.det ∧ IsUpper T ∧ qfPoint hp (hhr (x + η)) * T = x + η ∧
      ∀ ξ : Matrix (Fin n) (Fin p) ℝ, scaleCols (signs (topR hp (hhr (x + η)).2)) (ξ * (topR hp (hhr (x + η)).2)⁻¹) = ξ * T⁻¹ := by
  obtain ⟨h1, h2, h3⟩ := thin_spec hp (hh (x + η))
  obtain ⟨a, ⟨R', b1, b2, b3⟩, _⟩ := qfPoint_spec hp hh hx hη
  set R := topR hp (hhr (x + η)).2 with hR
  set S : Matrix (Fin p) (Fin p) ℝ := diagonal (signs R) with hS
  have hSS : S * S = 1 := by
    rw [hS, diagonal_mul_diagonal]
    have : (fun i => signs R i * signs R i) = fun _ => (1 : ℝ) := by
      funext i
      unfold signs
      by_cases h : R i i < 0
      · rw [if_pos h]; norm_num
      · rw [if_neg h]; norm_num
    rw [this, diagonal_one]
  have hy : qfPoint hp (hhr (x + η)) = thinQ hp (hhr (x + η)).1 * S := by
    rw [qfPoint, qfRetraction, scaleCols_eq]
  have hT : qfPoint hp (hhr (x + η)) * (S * R) = x + η := by
    rw [hy, Matrix.mul_assoc, ← Matrix.mul_assoc S S, hSS, Matrix.one_mul, h3]
  have hRT : R' = S * R := by
    have e : qfPoint hp (hhr (x + η)) * R' = qfPoint hp (hhr (x + η)) * (S * R) := by rw [b3, hT]
    have e2 := congrArg (fun Z => (qfPoint hp (hhr (x + η)))ᵀ * Z) e
    simp only [← Matrix.mul_assoc, a, Matrix.one_mul] at e2
    exact e2
  refine ⟨S * R, ?_, hRT ▸ b1, hT, fun ξ => ?_⟩
  · rw [← hRT, isUnit_iff_ne_zero, det_upper b1]
    exact Finset.prod_ne_zero_iff.mpr fun i _ => (b2 i).ne'
  · rw [scaleCols_eq, Matrix.mul_inv_rev, Matrix.mul_assoc]
    congr 2
    exact (inv_eq_left_inv hSS).symm

/-- Against a horizontal vector only the first part of the differentiated retraction counts. -/
theorem horizontal_slope {y ζ : Matrix (Fin n) (Fin p) ℝ} (hζ : IsHorizontal y ζ) (R : Matrix (Fin p) (Fin p) ℝ) (ξ : Matrix (Fin n) (Fin p) ℝ) :
    frob ζ (diffQf y R ξ) = frob ζ (scaleCols (signs R) (ξ * R⁻¹)) := by
  simp only [diffQf]
  rw [frob_add_right, frob_mul_left', show yᵀ * ζ = 0 from hζ]
  simp [frob]

/-- The differentiated qf retraction returns a tangent vector at the new point. -/
theorem diffQf_tangent {y : Matrix (Fin n) (Fin p) ℝ} (hy : yᵀ * y = 1) (R : Matrix (Fin p) (Fin p) ℝ) (ξ : Matrix (Fin n) (Fin p) ℝ) : IsTangent y (diffQf y R ξ) := by
  unfold IsTangent
  simp only [diffQf]
  rw [Matrix.mul_add, ← Matrix.mul_assoc, hy, Matrix.one_mul]
  generalize yᵀ * scaleCols (signs R) (ξ * R⁻¹) = M
  ext i j
  rw [transpose_apply, Matrix.neg_apply, Matrix.add_apply, Matrix.add_apply]
  unfold qfCorrection
  rcases lt_trichotomy i j with h | h | h
  · rw [if_neg h.ne', if_neg h.le.not_gt, if_neg h.ne, if_pos h]; ring
  · subst h; rw [if_pos rfl]; ring
  · rw [if_neg h.ne, if_pos h, if_neg h.ne', if_neg h.le.not_gt]; ring

theorem stiefel_slope (hp : p ≤ n) (junk : ℕ → ℝ) {hhr : Matrix (Fin n) (Fin p) ℝ → Frame n p} (hh : IsHHR hhr) (f : Matrix (Fin n) (Fin p) ℝ → ℝ)
    (G : Matrix (Fin n) (Fin p) ℝ → Matrix (Fin n) (Fin p) ℝ) :
    SlopeCorr (stiefelExtrEnv hp hhr f G) (stiefelIntrEnv hp junk hhr f G) FramedOk (fun x x' v c => IsTangent x v ∧ c = stiefelIntr x'.2.1 x'.2.2 v) := by
  rintro x x' v _ w _ hX ⟨hv, rfl⟩ ⟨hw, rfl⟩
  have ex : ∀ {u}, IsTangent x u → stiefelExtr junk x'.2.1 x'.2.2 (stiefelIntr x'.2.1 x'.2.2 u) = u := by
    intro u hu
    obtain ⟨h1, h2, R, hR, hs⟩ := hX
    rw [← rowSigns_intr hs, ← rowSigns_extr hs]
    exact C37_stiefel_extr_intr hp hR h2 hu junk
  obtain ⟨a, _, R, b1, b2⟩ := qfPoint_spec hp hh hX.2.1 hv
  have e2 : (stiefelIntrEnv hp junk hhr f G).retr x' (stiefelIntr x'.2.1 x'.2.2 v) = (qfPoint hp (hhr (x + v)), hhr (x + v)) := by
    show (qfPoint hp (hhr (x'.1 + _)), hhr (x'.1 + _)) = _
    rw [ex hv, hX.1]
  rw [e2]
  show dot (stiefelIntr (hhr (x + v)).1 (hhr (x + v)).2 (proj (qfPoint hp (hhr (x + v))) (G (qfPoint hp (hhr (x + v))))))
      (stiefelIntr (hhr (x + v)).1 (hhr (x + v)).2 (diffQf (qfPoint hp (hhr (x + v))) (topR hp (hhr (x + v)).2) (stiefelExtr junk x'.2.1 x'.2.2 (stiefelIntr x'.2.1 x'.2.2 w)))) =
    frob (proj (qfPoint hp (hhr (x + v))) (G (qfPoint hp (hhr (x + v))))) (diffQf (qfPoint hp (hhr (x + v))) (topR hp (hhr (x + v)).2) w)
  rw [ex hw, ← rowSigns_intr b2, ← rowSigns_intr b2]
  refine C37_stiefel_isometry hp b1 a (C35_stiefel_projection a _ v).1 ?_
  exact diffQf_tangent a _ _

theorem grass_slope (hp : p ≤ n) (junk : ℕ → ℝ) {hhr : Matrix (Fin n) (Fin p) ℝ → Frame n p} (hh : IsHHR hhr) (f : Matrix (Fin n) (Fin p) ℝ → ℝ)
    (G : Matrix (Fin n) (Fin p) ℝ → Matrix (Fin n) (Fin p) ℝ) :
    SlopeCorr (grassExtrEnv hp hhr f G) (grassIntrEnv hp junk hhr f G) FramedOk (fun x x' v c => IsHorizontal x v ∧ c = grassIntr x'.2.1 v) := by
  rintro x x' v _ w _ hX ⟨hv, rfl⟩ ⟨hw, rfl⟩
  have ex : ∀ {u}, IsHorizontal x u → grassExtr junk x'.2.1 (grassIntr x'.2.1 u) = u := by
    intro u hu
    obtain ⟨h1, h2, R, hR, hs⟩ := hX
    exact C37_grassmann_extr_intr hp hR h2 hu junk
  obtain ⟨a, _, R, b1, b2⟩ := qfPoint_spec hp hh hX.2.1 (horizontal_tangent hv)
  have e2 : (grassIntrEnv hp junk hhr f G).retr x' (grassIntr x'.2.1 v) = (qfPoint hp (hhr (x + v)), hhr (x + v)) := by
    show (qfPoint hp (hhr (x'.1 + _)), hhr (x'.1 + _)) = _
    rw [ex hv, hX.1]
  rw [e2]
  show dot (grassIntr (hhr (x + v)).1 (gProj (qfPoint hp (hhr (x + v))) (G (qfPoint hp (hhr (x + v))))))
      (grassIntr (hhr (x + v)).1 (diffQf (qfPoint hp (hhr (x + v))) (topR hp (hhr (x + v)).2) (grassExtr junk x'.2.1 (grassIntr x'.2.1 w)))) =
    frob (gProj (qfPoint hp (hhr (x + v))) (G (qfPoint hp (hhr (x + v))))) (diffQf (qfPoint hp (hhr (x + v))) (topR hp (hhr (x + v)).2) w)
  rw [ex hw]
  exact C37_grassmann_isometry hp b1 a (C35_grassmann_projection a _ v).1 _

theorem grass_rep_slope (hp : p ≤ n) {hhr : Matrix (Fin n) (Fin p) ℝ → Frame n p} (hh : IsHHR hhr) {f : Matrix (Fin n) (Fin p) ℝ → ℝ}
    {G : Matrix (Fin n) (Fin p) ℝ → Matrix (Fin n) (Fin p) ℝ} (hf : OnSubspaces f) (hG : IsEucGrad f G) :
    SlopeCorr (grassExtrEnv hp hhr f G) (grassExtrEnv hp hhr f G) SameSpan SameLift := by
  rintro x x' v _ w _ hX ⟨hv, rfl⟩ ⟨hw, rfl⟩
  have hY := (grass_rep_corr hp hh hf hG).retr _ _ _ _ hX ⟨hv, rfl⟩
  have hgr := (grass_rep_corr hp hh hf hG).grad _ _ hY
  have hlift : ∀ {u}, IsHorizontal x u → IsHorizontal x' (u * (xᵀ * x')) := by
    intro u hu
    obtain ⟨_, hx'⟩ := sameSpan_gram hX
    unfold IsHorizontal
    rw [← Matrix.mul_assoc]
    conv_lhs => rw [hx']
    rw [transpose_mul, Matrix.mul_assoc (xᵀ * x')ᵀ, show xᵀ * u = 0 from hu, Matrix.mul_zero, Matrix.zero_mul]
  have hx'x' : x'ᵀ * x' = 1 := by
    obtain ⟨hO, hx'⟩ := sameSpan_gram hX
    have hx := hX.1
    generalize xᵀ * x' = O at hO hx'
    rw [hx', transpose_mul, Matrix.mul_assoc, ← Matrix.mul_assoc xᵀ, hx, Matrix.one_mul, hO]
  obtain ⟨T, hT, _, t1, t2⟩ := qf_triangle hp hh hX.1 (horizontal_tangent hv)
  obtain ⟨T', hT', _, t1', t2'⟩ := qf_triangle hp hh hx'x' (horizontal_tangent (hlift hv))
  obtain ⟨hO, hx'⟩ := sameSpan_gram hX
  have hO' := mul_eq_one_comm.mp hO
  obtain ⟨hW, hy'⟩ := sameSpan_gram hY
  have hW' := mul_eq_one_comm.mp hW
  have hg := hgr.1
  have hg' : IsHorizontal ((grassExtrEnv hp hhr f G).retr x' (v * (xᵀ * x'))) ((grassExtrEnv hp hhr f G).grad ((grassExtrEnv hp hhr f G).retr x' (v * (xᵀ * x')))) := by
    obtain ⟨c, _⟩ := qfPoint_spec hp hh hx'x' (horizontal_tangent (hlift hv))
    exact (C35_grassmann_projection c _ v).1
  show frob _ (diffQf _ (topR hp (hhr (x' + v * (xᵀ * x'))).2) (w * (xᵀ * x'))) = frob _ (diffQf _ (topR hp (hhr (x + v)).2) w)
  rw [horizontal_slope hg, horizontal_slope hg', t2, t2', hgr.2]
  have hyd : (grassExtrEnv hp hhr f G).retr x v = qfPoint hp (hhr (x + v)) := rfl
  have hyd' : (grassExtrEnv hp hhr f G).retr x' (v * (xᵀ * x')) = qfPoint hp (hhr (x' + v * (xᵀ * x'))) := rfl
  rw [← hyd] at t1
  rw [← hyd'] at t1'
  have hyy := hY.1
  generalize (grassExtrEnv hp hhr f G).retr x' (v * (xᵀ * x')) = y' at *
  generalize (grassExtrEnv hp hhr f G).retr x v = y at *
  generalize yᵀ * y' = W at *
  generalize xᵀ * x' = O at *
  have key : W * T' = T * O := by
    have e : y * (W * T') = y * (T * O) := by
      rw [← Matrix.mul_assoc, ← hy', t1', ← Matrix.mul_assoc, t1, Matrix.add_mul, ← hx']
    have e2 := congrArg (fun Z => yᵀ * Z) e
    simp only [← Matrix.mul_assoc, hyy, Matrix.one_mul] at e2
    exact e2
  have key2 : O * T'⁻¹ = T⁻¹ * W := by
    calc O * T'⁻¹ = T⁻¹ * (T * O) * T'⁻¹ := by rw [← Matrix.mul_assoc, nonsing_inv_mul _ hT, Matrix.one_mul]
      _ = T⁻¹ * W := by rw [← key, Matrix.mul_assoc, Matrix.mul_assoc, mul_nonsing_inv _ hT', Matrix.mul_one]
  rw [Matrix.mul_assoc w, key2, ← Matrix.mul_assoc, frob_mul_right, Matrix.mul_assoc, hW', Matrix.mul_one]

/-! ## The slope is the derivative -/

/-- `G` is the Euclidean gradient of `f`: along every differentiable curve the derivative of `f` is the inner product with the velocity. -/
def IsCurveGrad (f : Matrix (Fin n) (Fin p) ℝ → ℝ) (G : Matrix (Fin n) (Fin p) ℝ → Matrix (Fin n) (Fin p) ℝ) : Prop :=
  ∀ (γ : ℝ → Matrix (Fin n) (Fin p) ℝ) ξ t, (∀ i j, HasDerivAt (fun s => γ s i j) (ξ i j) t) → HasDerivAt (fun s => f (γ s)) (frob (G (γ t)) ξ) t

/-- The retracted point moves with the velocity returned by `DiffRetraction`, at every step. -/
theorem qf_ray_deriv (hp : p ≤ n) {hhr : Matrix (Fin n) (Fin p) ℝ → Frame n p} (hh : IsHHR hhr) {x v : Matrix (Fin n) (Fin p) ℝ} (hx : xᵀ * x = 1) (hv : IsTangent x v) (t : ℝ) (i : Fin n)
    (j : Fin p) : HasDerivAt (fun s : ℝ => qfPoint hp (hhr (x + s • v)) i j) (diffQf (qfPoint hp (hhr (x + t • v))) (topR hp (hhr (x + t • v)).2) v i j) t := by
  have h := fun s : ℝ => thin_spec hp (hh (x + (t • v + s • v)))
  have e := C62_qf_diff_retraction hx (hv.smul t) hv (fun s : ℝ => thinQ hp (hhr (x + (t • v + s • v))).1) (fun s : ℝ => topR hp (hhr (x + (t • v + s • v))).2)
    (fun s => (h s).1) (fun s => (h s).2.1) (fun s => (h s).2.2) i j
  simp only [zero_smul, add_zero] at e
  rw [← sub_self t] at e
  have e2 := HasDerivAt.comp_sub_const t t e
  have e3 : ∀ s : ℝ, t • v + (s - t) • v = s • v := by intro s; module
  simp only [e3] at e2
  exact e2

/-- The gradient of a function of the subspace: `yᵀ G(y)` is symmetric. -/
theorem onSubspaces_sym {f : Matrix (Fin n) (Fin p) ℝ → ℝ} {G : Matrix (Fin n) (Fin p) ℝ → Matrix (Fin n) (Fin p) ℝ} (hf : OnSubspaces f) (hG : IsCurveGrad f G) (y : Matrix (Fin n) (Fin p) ℝ)
    {A : Matrix (Fin p) (Fin p) ℝ} (hA : Aᵀ = -A) : frob (yᵀ * G y) A = 0 := by
  have h1 : IsTangent (1 : Matrix (Fin p) (Fin p) ℝ) A := by
    unfold IsTangent; rw [transpose_one, Matrix.one_mul]; exact hA
  have hone : (1 : Matrix (Fin p) (Fin p) ℝ)ᵀ * 1 = 1 := by simp
  obtain ⟨c0, c1⟩ := C77_cayley hone h1
  have hd : ∀ i j, HasDerivAt (fun s : ℝ => (y * cayleyRetraction 1 (s • A)) i j) ((y * A) i j) 0 := by
    intro i j
    simp only [mul_apply]
    exact HasDerivAt.fun_sum fun l _ => (c1 l j).const_mul (y i l)
  have h2 := hG (fun s => y * cayleyRetraction 1 (s • A)) (y * A) 0 hd
  simp only [c0, Matrix.mul_one] at h2
  have e : (fun s : ℝ => f (y * cayleyRetraction 1 (s • A))) = fun _ => f y := by
    funext s; exact hf y _ (C36_cayley_retraction hone (h1.smul s)).1
  rw [e] at h2
  rw [← frob_mul_left']
  exact h2.unique (hasDerivAt_const _ _)

/-- **C135 (Stiefel).** The slope a search reads is the derivative of the function it reads, at every step. -/
theorem C135_stiefel_slope (hp : p ≤ n) {hhr : Matrix (Fin n) (Fin p) ℝ → Frame n p} (hh : IsHHR hhr) {f : Matrix (Fin n) (Fin p) ℝ → ℝ} {G : Matrix (Fin n) (Fin p) ℝ → Matrix (Fin n) (Fin p) ℝ}
    (hG : IsCurveGrad f G) (i : SearchIn ℝ (Matrix (Fin n) (Fin p) ℝ) (Matrix (Fin n) (Fin p) ℝ)) (hx : i.x1ᵀ * i.x1 = 1) (hv : IsTangent i.x1 i.eta1) (t : ℝ) :
    HasDerivAt (rayOf (stiefelExtrEnv hp hhr f G) i).phi ((rayOf (stiefelExtrEnv hp hhr f G) i).der t) t := by
  have h := hG _ _ t (qf_ray_deriv hp hh hx hv t)
  obtain ⟨a, _⟩ := qfPoint_spec hp hh hx (hv.smul t)
  have e := C35_stiefel_projection a (G (qfPoint hp (hhr (i.x1 + t • i.eta1)))) (diffQf (qfPoint hp (hhr (i.x1 + t • i.eta1))) (topR hp (hhr (i.x1 + t • i.eta1)).2) i.eta1)
  have e2 := C35_stiefel_projection a (diffQf (qfPoint hp (hhr (i.x1 + t • i.eta1))) (topR hp (hhr (i.x1 + t • i.eta1)).2) i.eta1) (G (qfPoint hp (hhr (i.x1 + t • i.eta1))))
  rw [← e2.2.1 (diffQf_tangent a _ _), ← e.2.2.2.1] at h
  exact h

/-- **C135 (Grassmann).** The slope a search reads is the derivative of the function it reads, at every step. -/
theorem C135_grassmann_slope (hp : p ≤ n) {hhr : Matrix (Fin n) (Fin p) ℝ → Frame n p} (hh : IsHHR hhr) {f : Matrix (Fin n) (Fin p) ℝ → ℝ}
    {G : Matrix (Fin n) (Fin p) ℝ → Matrix (Fin n) (Fin p) ℝ} (hf : OnSubspaces f) (hG : IsCurveGrad f G) (i : SearchIn ℝ (Matrix (Fin n) (Fin p) ℝ) (Matrix (Fin n) (Fin p) ℝ))
    (hx : i.x1ᵀ * i.x1 = 1) (hv : IsHorizontal i.x1 i.eta1) (t : ℝ) :
    HasDerivAt (rayOf (grassExtrEnv hp hhr f G) i).phi ((rayOf (grassExtrEnv hp hhr f G) i).der t) t := by
  have h := hG _ _ t (qf_ray_deriv hp hh hx (horizontal_tangent hv) t)
  obtain ⟨a, _⟩ := qfPoint_spec hp hh hx ((horizontal_tangent hv).smul t)
  have e : (rayOf (grassExtrEnv hp hhr f G) i).der t =
      frob (G (qfPoint hp (hhr (i.x1 + t • i.eta1)))) (diffQf (qfPoint hp (hhr (i.x1 + t • i.eta1))) (topR hp (hhr (i.x1 + t • i.eta1)).2) i.eta1) := by
    show frob (gProj (qfPoint hp (hhr (i.x1 + t • i.eta1))) (G (qfPoint hp (hhr (i.x1 + t • i.eta1))))) (diffQf (qfPoint hp (hhr (i.x1 + t • i.eta1))) (topR hp (hhr (i.x1 + t • i.eta1)).2) i.eta1) = _
    rw [gProj, frob_sub_left, frob_mul_left, onSubspaces_sym hf hG _ (diffQf_tangent a _ _), sub_zero]
  rw [e]
  exact h

/-- **C135 (Stiefel, representations).** -/
theorem C135_stiefel_ray (hp : p ≤ n) (junk : ℕ → ℝ) {hhr : Matrix (Fin n) (Fin p) ℝ → Frame n p} (hh : IsHHR hhr) (f : Matrix (Fin n) (Fin p) ℝ → ℝ)
    (G : Matrix (Fin n) (Fin p) ℝ → Matrix (Fin n) (Fin p) ℝ) {i : SearchIn ℝ (Matrix (Fin n) (Fin p) ℝ) (Matrix (Fin n) (Fin p) ℝ)} {i' : SearchIn ℝ (Framed n p) (List ℝ)}
    (hi : SameInput FramedOk (fun x x' v c => IsTangent x v ∧ c = stiefelIntr x'.2.1 x'.2.2 v) i i') :
    rayOf (stiefelIntrEnv hp junk hhr f G) i' = rayOf (stiefelExtrEnv hp hhr f G) i :=
  C135_ray (stiefel_corr hp junk hh f G) (stiefel_slope hp junk hh f G) hi

/-- **C135 (Grassmann, representations).** -/
theorem C135_grassmann_ray (hp : p ≤ n) (junk : ℕ → ℝ) {hhr : Matrix (Fin n) (Fin p) ℝ → Frame n p} (hh : IsHHR hhr) (f : Matrix (Fin n) (Fin p) ℝ → ℝ)
    (G : Matrix (Fin n) (Fin p) ℝ → Matrix (Fin n) (Fin p) ℝ) {i : SearchIn ℝ (Matrix (Fin n) (Fin p) ℝ) (Matrix (Fin n) (Fin p) ℝ)} {i' : SearchIn ℝ (Framed n p) (List ℝ)}
    (hi : SameInput FramedOk (fun x x' v c => IsHorizontal x v ∧ c = grassIntr x'.2.1 v) i i') :
    rayOf (grassIntrEnv hp junk hhr f G) i' = rayOf (grassExtrEnv hp hhr f G) i :=
  C135_ray (grass_corr hp junk hh f G) (grass_slope hp junk hh f G) hi

/-- **C135 (Grassmann, bases of the same subspace).** -/
theorem C135_grassmann_ray_basis (hp : p ≤ n) {hhr : Matrix (Fin n) (Fin p) ℝ → Frame n p} (hh : IsHHR hhr) {f : Matrix (Fin n) (Fin p) ℝ → ℝ}
    {G : Matrix (Fin n) (Fin p) ℝ → Matrix (Fin n) (Fin p) ℝ} (hf : OnSubspaces f) (hG : IsEucGrad f G) {i i' : SearchIn ℝ (Matrix (Fin n) (Fin p) ℝ) (Matrix (Fin n) (Fin p) ℝ)}
    (hi : SameInput SameSpan SameLift i i') : rayOf (grassExtrEnv hp hhr f G) i' = rayOf (grassExtrEnv hp hhr f G) i :=
  C135_ray (grass_rep_corr hp hh hf hG) (grass_rep_slope hp hh hf hG) hi

/-! ## Grassmann's differentiated retraction leaves the horizontal space -/

/-- Householder factors exist for every matrix: the hypothesis `IsHHR` can be met in all sizes. -/
theorem exists_hhr (n p : ℕ) : ∃ hhr : Matrix (Fin n) (Fin p) ℝ → Frame n p, IsHHR hhr := by
  have key : ∀ A : Matrix (Fin n) (Fin p) ℝ, ∃ h : Frame n p, IsQR A h.1 h.2 := by
    intro A
    let f : Fin n → EuclideanSpace ℝ (Fin n) := fun j => if h : j.1 < p then WithLp.toLp 2 (fun i => A i ⟨j, h⟩) else 0
    let b := InnerProductSpace.gramSchmidtOrthonormalBasis (𝕜 := ℝ) (by simp) f
    let Q : Matrix (Fin n) (Fin n) ℝ := Matrix.of fun i j => b j i
    have hQ : Qᵀ * Q = 1 := by
      ext i j
      have h := orthonormal_iff_ite.mp b.orthonormal i j
      rw [mul_apply, one_apply, ← h, PiLp.inner_apply]
      exact Finset.sum_congr rfl fun l _ => mul_comm _ _
    refine ⟨(Q, Qᵀ * A), hQ, fun i j hij => ?_, ?_⟩
    · have h := InnerProductSpace.gramSchmidtOrthonormalBasis_inv_triangular (𝕜 := ℝ) (by simp) f (i := ⟨j.1, hij.trans i.2⟩) (j := i) hij
      have hf : f ⟨j.1, hij.trans i.2⟩ = WithLp.toLp 2 (fun l => A l j) := by
        simp only [f, dif_pos j.2]
      rw [hf, PiLp.inner_apply] at h
      show (Qᵀ * A) i j = 0
      rw [mul_apply, ← h]
      exact Finset.sum_congr rfl fun l _ => mul_comm _ _
    · show A = Q * (Qᵀ * A)
      rw [← Matrix.mul_assoc, mul_eq_one_comm.mp hQ, Matrix.one_mul]
  choose hhr h using key
  exact ⟨hhr, h⟩

/-- The result of `Grassmann::DiffRetraction` on extrinsic vectors (Grassmann.cpp:79-134) should be horizontal at the new point. -/
def DiffHorizontal (n p : ℕ) : Prop :=
  ∀ (hp : p ≤ n) (hhr : Matrix (Fin n) (Fin p) ℝ → Frame n p), IsHHR hhr → ∀ x η ξ : Matrix (Fin n) (Fin p) ℝ, xᵀ * x = 1 → IsHorizontal x η → IsHorizontal x ξ →
    IsHorizontal (qfPoint hp (hhr (x + η))) ((grassExtrEnv hp hhr (fun _ => 0) fun _ => 0).dretr x η (qfPoint hp (hhr (x + η))) ξ)

/-- **C135 (negation).** With extrinsic vectors the result of `Grassmann::DiffRetraction` is tangent to the Stiefel manifold, but not horizontal: the intrinsic representation drops the
difference, so that the two representations store different `beta` fields. The slopes above agree because the gradient is horizontal. -/
theorem C135_grassmann_diff_not_horizontal : ¬ DiffHorizontal 3 2 := by
  intro h
  obtain ⟨hhr, hh⟩ := exists_hhr 3 2
  let x : Matrix (Fin 3) (Fin 2) ℝ := !![1, 0; 0, 1; 0, 0]
  let η : Matrix (Fin 3) (Fin 2) ℝ := !![0, 0; 0, 0; 1, 1]
  have hx : xᵀ * x = 1 := by
    ext i j
    fin_cases i <;> fin_cases j <;> simp [x, mul_apply, Fin.sum_univ_three]
  have hη : IsHorizontal x η := by
    unfold IsHorizontal
    ext i j
    fin_cases i <;> fin_cases j <;> simp [x, η, mul_apply, Fin.sum_univ_three]
  have hp : 2 ≤ 3 := by norm_num
  have hD := h hp hhr hh x η η hx hη hη
  obtain ⟨T, hT, hup, t1, t2⟩ := qf_triangle hp hh hx (horizontal_tangent hη)
  obtain ⟨a, _⟩ := qfPoint_spec hp hh hx (horizontal_tangent hη)
  have hD' : IsHorizontal (qfPoint hp (hhr (x + η))) (diffQf (qfPoint hp (hhr (x + η))) (topR hp (hhr (x + η)).2) η) := hD
  unfold IsHorizontal at hD'
  simp only [diffQf] at hD'
  rw [t2, Matrix.mul_add, ← Matrix.mul_assoc _ (qfPoint hp _), a, Matrix.one_mul] at hD'
  generalize qfPoint hp (hhr (x + η)) = y at *
  have e10 := congrFun (congrFun hD' 1) 0
  have c10 : qfCorrection (yᵀ * (η * T⁻¹)) 1 0 = 0 := by
    unfold qfCorrection
    rw [if_neg (by decide), if_neg (by decide)]
  rw [Matrix.add_apply, c10, add_zero, Matrix.zero_apply] at e10
  have hTT : T * T⁻¹ = 1 := mul_nonsing_inv _ hT
  have hTT' : T⁻¹ * T = 1 := nonsing_inv_mul _ hT
  have gram : Tᵀ * T = (x + η)ᵀ * (x + η) := by
    rw [← t1, transpose_mul, Matrix.mul_assoc, ← Matrix.mul_assoc yᵀ, a, Matrix.one_mul]
  have hM : Tᵀ * (yᵀ * (η * T⁻¹)) * T = ηᵀ * η := by
    have e1 : Tᵀ * yᵀ = (x + η)ᵀ := by rw [← transpose_mul, t1]
    have e2 : (x + η)ᵀ * η = ηᵀ * η := by rw [transpose_add, Matrix.add_mul, show xᵀ * η = 0 from hη, zero_add]
    rw [← Matrix.mul_assoc, e1, ← Matrix.mul_assoc, Matrix.mul_assoc _ T⁻¹, hTT', Matrix.mul_one, e2]
  have hsym : (yᵀ * (η * T⁻¹))ᵀ = yᵀ * (η * T⁻¹) := by
    have hcan : ∀ A B : Matrix (Fin 2) (Fin 2) ℝ, Tᵀ * A * T = Tᵀ * B * T → A = B := by
      intro A B hAB
      have := congrArg (fun Z => (T⁻¹)ᵀ * Z * T⁻¹) hAB
      have hl : (T⁻¹)ᵀ * Tᵀ = 1 := by rw [← transpose_mul, hTT, transpose_one]
      simp only [Matrix.mul_assoc, hTT, Matrix.mul_one] at this
      rwa [← Matrix.mul_assoc, ← Matrix.mul_assoc, hl, Matrix.one_mul, Matrix.one_mul] at this
    refine hcan _ _ ?_
    generalize yᵀ * (η * T⁻¹) = M at *
    have := congrArg transpose hM
    rw [transpose_mul, transpose_mul, transpose_mul, transpose_transpose, transpose_transpose] at this
    rw [Matrix.mul_assoc, this, hM]
  generalize yᵀ * (η * T⁻¹) = M at *
  have e01 : M 0 1 = 0 := by
    have := congrFun (congrFun hsym 1) 0
    rw [transpose_apply] at this
    rw [this, e10]
  have t10 : T 1 0 = 0 := hup 1 0 (by decide)
  have f01 := congrFun (congrFun hM 0) 1
  have f00 := congrFun (congrFun hM 0) 0
  have g00 := congrFun (congrFun gram 0) 0
  have g01 := congrFun (congrFun gram 0) 1
  simp [mul_apply, Fin.sum_univ_two, Fin.sum_univ_three, t10, e01, x, η] at f01 f00 g00 g01
  nlinarith

/-! ## Concrete cases -/

/-- `x₁²` on the projective line, from `(3/5, 4/5)` along the horizontal direction `(-4/5, 3/5)`: the slope read at every step is the derivative. -/
example (t : ℝ) (i : SearchIn ℝ (Matrix (Fin 2) (Fin 1) ℝ) (Matrix (Fin 2) (Fin 1) ℝ)) (hx : i.x1 = !![3 / 5; 4 / 5]) (hv : i.eta1 = !![-4 / 5; 3 / 5]) :
    HasDerivAt (rayOf (grassExtrEnv (by norm_num) rotHHR lineF lineG) i).phi ((rayOf (grassExtrEnv (by norm_num) rotHHR lineF lineG) i).der t) t := by
  have hG : IsCurveGrad lineF lineG := by
    intro γ ξ t h
    have h2 := (h 0 0).pow 2
    simp only [lineF]
    have e : frob (lineG (γ t)) ξ = ((2 : ℕ) : ℝ) * γ t 0 0 ^ (2 - 1) * ξ 0 0 := by simp [frob, lineG]
    rw [e]
    exact h2
  refine C135_grassmann_slope (by norm_num) rotHHR_spec lineF_onSubspaces hG i ?_ ?_ t
  · rw [hx]; ext a b; fin_cases a; fin_cases b
    simp [mul_apply, Fin.sum_univ_two]; norm_num
  · rw [hx, hv]; unfold IsHorizontal; ext a b; fin_cases a; fin_cases b
    simp [mul_apply, Fin.sum_univ_two]; norm_num

/-- On the circle, intrinsic and extrinsic searches from the same point read the same function and slopes. -/
example (junk : ℕ → ℝ) (f0 s0 : ℝ) : ∃ (i : SearchIn ℝ (Matrix (Fin 2) (Fin 1) ℝ) (Matrix (Fin 2) (Fin 1) ℝ)) (i' : SearchIn ℝ (Framed 2 1) (List ℝ)),
    i.eta1 = !![-4 / 5; 3 / 5] ∧ rayOf (stiefelIntrEnv (by norm_num) junk rotHHR lineF lineG) i' = rayOf (stiefelExtrEnv (by norm_num) rotHHR lineF lineG) i := by
  let x : Matrix (Fin 2) (Fin 1) ℝ := !![3 / 5; 4 / 5]
  let v : Matrix (Fin 2) (Fin 1) ℝ := !![-4 / 5; 3 / 5]
  have hv : IsTangent x v := by
    unfold IsTangent; ext a b; fin_cases a; fin_cases b
    simp [x, v, mul_apply, Fin.sum_univ_two]; norm_num
  have hx : xᵀ * x = 1 := by
    ext a b; fin_cases a; fin_cases b
    simp [x, mul_apply, Fin.sum_univ_two]; norm_num
  refine ⟨{ x1 := x, f1 := f0, gf1 := v, eta1 := v, ngf1 := 1, initialslope := s0, stepsize := 1, initiallength := 1, preFuns := [], iter := 0 },
    { x1 := (x, rotHHR x), f1 := f0, gf1 := [], eta1 := stiefelIntr (rotHHR x).1 (rotHHR x).2 v, ngf1 := 1, initialslope := s0, stepsize := 1, initiallength := 1, preFuns := [], iter := 0 }, rfl, ?_⟩
  exact C135_stiefel_ray (by norm_num) junk rotHHR_spec _ _ ⟨⟨rfl, hx, _, rotHHR_spec x, rfl⟩, ⟨hv, rfl⟩, rfl, rfl⟩

end Verif.Obj
