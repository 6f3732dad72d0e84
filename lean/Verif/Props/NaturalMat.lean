import Verif.Props.Natural
import Verif.Solver.ObjectMat
import Verif.Props.Intrinsic
import Mathlib.Analysis.Calculus.Deriv.Add
import Mathlib.Analysis.Calculus.Deriv.Mul
import Mathlib.Analysis.Calculus.Deriv.Pow

/-!
# Steepest descent on the Stiefel and Grassmann manifolds: extrinsic and intrinsic vectors, representatives of a subspace (C130)
-/

namespace Verif.Obj

open Matrix Verif.Mat Verif.Stiefel Verif.Intr

variable {n p : ℕ}

local notation "Mat" => Matrix (Fin n) (Fin p) ℝ

/-! ## Specification -/

/-- `HHRDecom` returns a factorisation of every matrix. -/
def IsHHR (hhr : Matrix (Fin n) (Fin p) ℝ → Frame n p) : Prop := ∀ A, IsQR A (hhr A).1 (hhr A).2

/-- `G` is the Euclidean gradient of `f`. -/
def IsEucGrad (f : Matrix (Fin n) (Fin p) ℝ → ℝ) (G : Matrix (Fin n) (Fin p) ℝ → Matrix (Fin n) (Fin p) ℝ) : Prop :=
  ∀ x v, HasDerivAt (fun t : ℝ => f (x + t • v)) (frob (G x) v) 0

/-- `f` depends only on the subspace spanned by the columns. -/
def OnSubspaces (f : Matrix (Fin n) (Fin p) ℝ → ℝ) : Prop := ∀ (x : Matrix (Fin n) (Fin p) ℝ) (O : Matrix (Fin p) (Fin p) ℝ), Oᵀ * O = 1 → f (x * O) = f x

/-- Two orthonormal bases of one subspace. -/
def SameSpan (x x' : Matrix (Fin n) (Fin p) ℝ) : Prop := xᵀ * x = 1 ∧ ∃ O : Matrix (Fin p) (Fin p) ℝ, Oᵀ * O = 1 ∧ x' = x * O

/-- The horizontal lifts of one tangent vector at two bases of a subspace. -/
def SameLift (x x' v v' : Matrix (Fin n) (Fin p) ℝ) : Prop := IsHorizontal x v ∧ v' = v * (xᵀ * x')

/-- A point with orthonormal columns and a frame belonging to it. -/
def FramedOk (x : Matrix (Fin n) (Fin p) ℝ) (x' : Framed n p) : Prop := x'.1 = x ∧ xᵀ * x = 1 ∧ ∃ R, IsQR x x'.2.1 R ∧ rowSigns R = rowSigns x'.2.2

/-- The user's stopping test does not look at the frame. -/
def framedStop : StopKind ℝ (Matrix (Fin n) (Fin p) ℝ) → StopKind ℝ (Framed n p)
  | .funRel => .funRel
  | .gradF => .gradF
  | .gradF0 => .gradF0
  | .user q => .user fun x => q x.1

/-! ## Factors -/

theorem thin_spec (hp : p ≤ n) {A R : Matrix (Fin n) (Fin p) ℝ} {Q : Matrix (Fin n) (Fin n) ℝ} (h : IsQR A Q R) :
    (thinQ hp Q)ᵀ * thinQ hp Q = 1 ∧ IsUpper (topR hp R) ∧ thinQ hp Q * topR hp R = A := by
  refine ⟨?_, ?_, ?_⟩
  · ext i j
    have := congrFun (congrFun h.orth (Fin.castLE hp i)) (Fin.castLE hp j)
    rw [mul_apply] at this ⊢
    simp only [thinQ, transpose_apply, submatrix_apply, id] at this ⊢
    rw [this, one_apply, one_apply]
    simp only [Fin.ext_iff, Fin.val_castLE]
  · intro i j hij
    exact h.upper _ _ hij
  · rw [h.eq]
    ext i j
    rw [mul_apply, mul_apply]
    simp only [thinQ, topR, submatrix_apply, id]
    have hinj : Function.Injective (Fin.castLE hp) := Fin.castLE_injective hp
    rw [← Finset.sum_image (s := Finset.univ) (g := Fin.castLE hp) (f := fun k => Q i k * R k j) (fun a _ b _ h => hinj h)]
    refine Finset.sum_subset (Finset.subset_univ _) fun k _ hk => ?_
    have : p ≤ k.1 := by
      by_contra hlt
      exact hk (Finset.mem_image.2 ⟨⟨k.1, by omega⟩, Finset.mem_univ _, rfl⟩)
    rw [h.upper k j (by omega), mul_zero]

theorem horizontal_tangent {x v : Matrix (Fin n) (Fin p) ℝ} (h : IsHorizontal x v) : IsTangent x v := by
  unfold IsTangent; rw [show xᵀ * v = 0 from h]; simp

/-- The new point has orthonormal columns, is a multiple of `x + η` by an invertible triangle, and the stored frame belongs to it. -/
theorem qfPoint_spec (hp : p ≤ n) {hhr : Matrix (Fin n) (Fin p) ℝ → Frame n p} (hh : IsHHR hhr) {x η : Matrix (Fin n) (Fin p) ℝ} (hx : xᵀ * x = 1) (hη : IsTangent x η) :
    (qfPoint hp (hhr (x + η)))ᵀ * qfPoint hp (hhr (x + η)) = 1 ∧ (∃ R' : Matrix (Fin p) (Fin p) ℝ, IsUpper R' ∧ (∀ i, 0 < R' i i) ∧ qfPoint hp (hhr (x + η)) * R' = x + η) ∧
    ∃ R, IsQR (qfPoint hp (hhr (x + η))) (hhr (x + η)).1 R ∧ rowSigns R = rowSigns (hhr (x + η)).2 := by
  obtain ⟨h1, h2, h3⟩ := thin_spec hp (hh (x + η))
  obtain ⟨a, ⟨R', b1, b2, b3, _⟩, _⟩ := C36_qf_retraction hx hη h1 h2 h3
  refine ⟨a, ⟨R', b1, b2, b3⟩, Matrix.of fun i j => if i.1 = j.1 then signs (topR hp (hhr (x + η)).2) j else 0, ⟨(hh _).orth, fun i j hij => if_neg (by omega), ?_⟩, ?_⟩
  · ext i j
    rw [mul_apply, Finset.sum_eq_single (Fin.castLE hp j)]
    · simp only [qfPoint, qfRetraction, scaleCols, thinQ, submatrix_apply, id, Fin.val_castLE, if_true, of_apply]
      rw [mul_comm]
    · intro b _ hb
      rw [of_apply, if_neg (show ¬ b.1 = j.1 from fun h => hb (Fin.ext h)), mul_zero]
    · intro h; exact absurd (Finset.mem_univ _) h
  · funext i
    unfold rowSigns
    by_cases hi : i.1 < p
    · rw [dif_pos hi, dif_pos hi]
      have e : topR hp (hhr (x + η)).2 ⟨i.1, hi⟩ ⟨i.1, hi⟩ = (hhr (x + η)).2 i ⟨i.1, hi⟩ := rfl
      rw [of_apply, if_pos rfl, signs, e]
      by_cases hR : (hhr (x + η)).2 i ⟨i.1, hi⟩ < 0
      · rw [if_pos hR, if_pos (by norm_num : (-1 : ℝ) < 0)]
      · rw [if_neg hR, if_neg (by norm_num : ¬ (1 : ℝ) < 0)]
    · rw [dif_neg hi, dif_neg hi]

theorem rowSigns_intr {Q : Matrix (Fin n) (Fin n) ℝ} {R R' : Matrix (Fin n) (Fin p) ℝ} (h : rowSigns R = rowSigns R') (v : Matrix (Fin n) (Fin p) ℝ) : stiefelIntr Q R v = stiefelIntr Q R' v := by
  unfold stiefelIntr; rw [h]

theorem rowSigns_extr {Q : Matrix (Fin n) (Fin n) ℝ} {R R' : Matrix (Fin n) (Fin p) ℝ} (h : rowSigns R = rowSigns R') (junk : ℕ → ℝ) (c : List ℝ) : stiefelExtr junk Q R c = stiefelExtr junk Q R' c := by
  unfold stiefelExtr; rw [h]

/-! ## Coordinates are linear -/

theorem flat_lin (a b : ℝ) (A B : Matrix (Fin n) (Fin p) ℝ) (k : ℕ) : flat (a • A + b • B) k = a * flat A k + b * flat B k := by
  unfold flat
  by_cases h : k % n < n ∧ k / n < p
  · rw [dif_pos h, dif_pos h, dif_pos h]; simp
  · rw [dif_neg h, dif_neg h, dif_neg h]; simp

theorem zip_map {α : Type*} (F : ℝ → ℝ → ℝ) (g h : α → ℝ) : ∀ l : List α, List.zipWith F (l.map g) (l.map h) = l.map fun q => F (g q) (h q)
  | [] => rfl
  | a :: l => by rw [List.map_cons, List.map_cons, List.zipWith_cons_cons, zip_map F g h l, List.map_cons]

theorem grassIntr_lin (Q : Matrix (Fin n) (Fin n) ℝ) (a b : ℝ) (v w : Matrix (Fin n) (Fin p) ℝ) :
    grassIntr Q (a • v + b • w) = List.zipWith (fun s t => a * s + b * t) (grassIntr Q v) (grassIntr Q w) := by
  unfold grassIntr restIntr
  rw [zip_map, Matrix.mul_add, Matrix.mul_smul, Matrix.mul_smul]
  simp only [flat_lin]

theorem scaleRows_lin (s : Fin n → ℝ) (a b : ℝ) (v w : Matrix (Fin n) (Fin p) ℝ) : scaleRows s (a • v + b • w) = a • scaleRows s v + b • scaleRows s w := by
  ext i j; simp [scaleRows]; ring

theorem stiefelIntr_lin (Q : Matrix (Fin n) (Fin n) ℝ) (R : Matrix (Fin n) (Fin p) ℝ) (a b : ℝ) (v w : Matrix (Fin n) (Fin p) ℝ) :
    stiefelIntr Q R (a • v + b • w) = List.zipWith (fun s t => a * s + b * t) (stiefelIntr Q R v) (stiefelIntr Q R w) := by
  unfold stiefelIntr skewIntr
  rw [List.zipWith_append (by rw [List.length_map, List.length_map]), zip_map, zip_map, Matrix.mul_add, Matrix.mul_smul, Matrix.mul_smul, scaleRows_lin]
  simp only [flat_lin]
  congr 1
  refine List.map_congr_left fun q _ => ?_
  ring

theorem zip_self (F : ℝ → ℝ → ℝ) : ∀ l : List ℝ, List.zipWith F l l = l.map fun q => F q q
  | [] => rfl
  | a :: l => by rw [List.zipWith_cons_cons, zip_self F l, List.map_cons]

theorem grassIntr_smul (Q : Matrix (Fin n) (Fin n) ℝ) (a : ℝ) (v : Matrix (Fin n) (Fin p) ℝ) : grassIntr Q (a • v) = (grassIntr Q v).map (a * ·) := by
  have h := grassIntr_lin Q a 0 v v
  rw [zero_smul, add_zero, zip_self] at h
  rw [h]
  exact List.map_congr_left fun q _ => by ring

theorem stiefelIntr_smul (Q : Matrix (Fin n) (Fin n) ℝ) (R : Matrix (Fin n) (Fin p) ℝ) (a : ℝ) (v : Matrix (Fin n) (Fin p) ℝ) : stiefelIntr Q R (a • v) = (stiefelIntr Q R v).map (a * ·) := by
  have h := stiefelIntr_lin Q R a 0 v v
  rw [zero_smul, add_zero, zip_self] at h
  rw [h]
  exact List.map_congr_left fun q _ => by ring

theorem tangent_lin {x v w : Matrix (Fin n) (Fin p) ℝ} (a b : ℝ) (hv : IsTangent x v) (hw : IsTangent x w) : IsTangent x (a • v + b • w) := by
  unfold IsTangent at *
  rw [Matrix.mul_add, Matrix.mul_smul, Matrix.mul_smul, transpose_add, transpose_smul, transpose_smul, hv, hw]
  module

theorem horizontal_lin {x v w : Matrix (Fin n) (Fin p) ℝ} (a b : ℝ) (hv : IsHorizontal x v) (hw : IsHorizontal x w) : IsHorizontal x (a • v + b • w) := by
  unfold IsHorizontal at *
  rw [Matrix.mul_add, Matrix.mul_smul, Matrix.mul_smul, hv, hw]
  simp

/-! ## Intrinsic and extrinsic vectors -/

theorem stiefel_corr (hp : p ≤ n) (junk : ℕ → ℝ) {hhr : Matrix (Fin n) (Fin p) ℝ → Frame n p} (hh : IsHHR hhr) (f : Matrix (Fin n) (Fin p) ℝ → ℝ)
    (G : Matrix (Fin n) (Fin p) ℝ → Matrix (Fin n) (Fin p) ℝ) :
    Corr (stiefelExtrEnv hp hhr f G) (stiefelIntrEnv hp junk hhr f G) FramedOk (fun x x' v c => IsTangent x v ∧ c = stiefelIntr x'.2.1 x'.2.2 v) where
  lit := rfl
  lt := rfl
  le := rfl
  eq := rfl
  sqrt := rfl
  abs := rfl
  finite := rfl
  inf := rfl
  eps := rfl
  f := fun x x' h => congrArg f h.1
  grad := fun x x' h => ⟨(C35_stiefel_projection h.2.1 (G x) (G x)).1, by
    show stiefelIntr x'.2.1 x'.2.2 (proj x'.1 (G x'.1)) = _
    rw [h.1]; rfl⟩
  precond := fun x x' v v' _ h => h
  metric := by
    rintro x x' v c w d ⟨h1, h2, R, hR, hs⟩ ⟨hv, rfl⟩ ⟨hw, rfl⟩
    show dot _ _ = frob v w
    rw [← rowSigns_intr hs, ← rowSigns_intr hs]
    exact C37_stiefel_isometry hp hR h2 hv hw
  retr := by
    rintro x x' v c ⟨h1, h2, R, hR, hs⟩ ⟨hv, rfl⟩
    have e : stiefelExtr junk x'.2.1 x'.2.2 (stiefelIntr x'.2.1 x'.2.2 v) = v := by
      rw [← rowSigns_intr hs, ← rowSigns_extr hs]
      exact C37_stiefel_extr_intr hp hR h2 hv junk
    obtain ⟨a, _, b⟩ := qfPoint_spec hp hh h2 hv
    have e2 : (stiefelIntrEnv hp junk hhr f G).retr x' (stiefelIntr x'.2.1 x'.2.2 v) = (qfPoint hp (hhr (x + v)), hhr (x + v)) := by
      show (qfPoint hp (hhr (x'.1 + _)), hhr (x'.1 + _)) = _
      rw [e, h1]
    rw [e2]
    exact ⟨rfl, a, b⟩
  smul := by
    rintro x x' c v d hX ⟨hv, rfl⟩
    refine ⟨?_, (stiefelIntr_smul _ _ _ _).symm⟩
    have := tangent_lin c 0 hv hv
    rwa [zero_smul, add_zero] at this
  lin := by
    rintro x x' a b v c w d hX ⟨hv, rfl⟩ ⟨hw, rfl⟩
    exact ⟨tangent_lin a b hv hw, (stiefelIntr_lin _ _ _ _ _ _).symm⟩

theorem grass_corr (hp : p ≤ n) (junk : ℕ → ℝ) {hhr : Matrix (Fin n) (Fin p) ℝ → Frame n p} (hh : IsHHR hhr) (f : Matrix (Fin n) (Fin p) ℝ → ℝ)
    (G : Matrix (Fin n) (Fin p) ℝ → Matrix (Fin n) (Fin p) ℝ) :
    Corr (grassExtrEnv hp hhr f G) (grassIntrEnv hp junk hhr f G) FramedOk (fun x x' v c => IsHorizontal x v ∧ c = grassIntr x'.2.1 v) where
  lit := rfl
  lt := rfl
  le := rfl
  eq := rfl
  sqrt := rfl
  abs := rfl
  finite := rfl
  inf := rfl
  eps := rfl
  f := fun x x' h => congrArg f h.1
  grad := fun x x' h => ⟨(C35_grassmann_projection h.2.1 (G x) (G x)).1, by
    show grassIntr x'.2.1 (gProj x'.1 (G x'.1)) = _
    rw [h.1]; rfl⟩
  precond := fun x x' v v' _ h => h
  metric := by
    rintro x x' v c w d ⟨h1, h2, R, hR, hs⟩ ⟨hv, rfl⟩ ⟨hw, rfl⟩
    exact C37_grassmann_isometry hp hR h2 hv w
  retr := by
    rintro x x' v c ⟨h1, h2, R, hR, hs⟩ ⟨hv, rfl⟩
    have e := C37_grassmann_extr_intr hp hR h2 hv junk
    obtain ⟨a, _, b⟩ := qfPoint_spec hp hh h2 (horizontal_tangent hv)
    have e2 : (grassIntrEnv hp junk hhr f G).retr x' (grassIntr x'.2.1 v) = (qfPoint hp (hhr (x + v)), hhr (x + v)) := by
      show (qfPoint hp (hhr (x'.1 + _)), hhr (x'.1 + _)) = _
      rw [e, h1]
    rw [e2]
    exact ⟨rfl, a, b⟩
  smul := by
    rintro x x' c v d hX ⟨hv, rfl⟩
    refine ⟨?_, (grassIntr_smul _ _ _).symm⟩
    have := horizontal_lin c 0 hv hv
    rwa [zero_smul, add_zero] at this
  lin := by
    rintro x x' a b v c w d hX ⟨hv, rfl⟩ ⟨hw, rfl⟩
    exact ⟨horizontal_lin a b hv hw, (grassIntr_lin _ _ _ _ _).symm⟩

/-! ## Representatives of a subspace -/

/-- The gradient of a function of the subspace is equivariant. -/
theorem grad_equivariant {f : Matrix (Fin n) (Fin p) ℝ → ℝ} {G : Matrix (Fin n) (Fin p) ℝ → Matrix (Fin n) (Fin p) ℝ} (hf : OnSubspaces f) (hG : IsEucGrad f G)
    (x : Matrix (Fin n) (Fin p) ℝ) {O : Matrix (Fin p) (Fin p) ℝ} (hO : Oᵀ * O = 1) : G (x * O) = G x * O := by
  have hO' : O * Oᵀ = 1 := mul_eq_one_comm.mp hO
  refine frob_ext fun v => ?_
  have h1 := hG (x * O) v
  have h2 := hG x (v * Oᵀ)
  have e : (fun t : ℝ => f (x * O + t • v)) = fun t : ℝ => f (x + t • (v * Oᵀ)) := by
    funext t
    rw [← hf (x + t • (v * Oᵀ)) O hO, Matrix.add_mul, Matrix.smul_mul, Matrix.mul_assoc, hO, Matrix.mul_one]
  rw [e] at h1
  rw [h1.unique h2, frob_mul_right]

theorem sameSpan_gram {x x' : Matrix (Fin n) (Fin p) ℝ} (h : SameSpan x x') : (xᵀ * x')ᵀ * (xᵀ * x') = 1 ∧ x' = x * (xᵀ * x') := by
  obtain ⟨hx, O, hO, rfl⟩ := h
  have e : xᵀ * (x * O) = O := by rw [← Matrix.mul_assoc, hx, Matrix.one_mul]
  rw [e]
  exact ⟨hO, rfl⟩

theorem grass_rep_corr (hp : p ≤ n) {hhr : Matrix (Fin n) (Fin p) ℝ → Frame n p} (hh : IsHHR hhr) {f : Matrix (Fin n) (Fin p) ℝ → ℝ}
    {G : Matrix (Fin n) (Fin p) ℝ → Matrix (Fin n) (Fin p) ℝ} (hf : OnSubspaces f) (hG : IsEucGrad f G) :
    Corr (grassExtrEnv hp hhr f G) (grassExtrEnv hp hhr f G) SameSpan SameLift where
  lit := rfl
  lt := rfl
  le := rfl
  eq := rfl
  sqrt := rfl
  abs := rfl
  finite := rfl
  inf := rfl
  eps := rfl
  f := by
    rintro x x' ⟨hx, O, hO, rfl⟩
    exact hf x O hO
  grad := by
    rintro x x' ⟨hx, O, hO, rfl⟩
    refine ⟨(C35_grassmann_projection hx (G x) (G x)).1, ?_⟩
    show gProj (x * O) (G (x * O)) = gProj x (G x) * (xᵀ * (x * O))
    have hO' : O * Oᵀ = 1 := mul_eq_one_comm.mp hO
    rw [grad_equivariant hf hG x hO, ← Matrix.mul_assoc xᵀ, hx, Matrix.one_mul, gProj, gProj, Matrix.sub_mul, transpose_mul]
    congr 1
    rw [Matrix.mul_assoc x O, Matrix.mul_assoc Oᵀ, ← Matrix.mul_assoc O Oᵀ, hO', Matrix.one_mul, Matrix.mul_assoc, ← Matrix.mul_assoc xᵀ]
  precond := fun x x' v v' _ h => h
  metric := by
    rintro x x' v v' w w' hX ⟨hv, rfl⟩ ⟨hw, rfl⟩
    have hO := (sameSpan_gram hX).1
    have hO' := mul_eq_one_comm.mp hO
    show frob (v * (xᵀ * x')) (w * (xᵀ * x')) = frob v w
    rw [frob_mul_right, Matrix.mul_assoc, hO', Matrix.mul_one]
  retr := by
    rintro x x' v v' hX ⟨hv, rfl⟩
    obtain ⟨hO, hx'⟩ := sameSpan_gram hX
    have hx := hX.1
    generalize xᵀ * x' = O at hO hx' ⊢
    have hxx' : x'ᵀ * x' = 1 := by
      rw [hx', transpose_mul, Matrix.mul_assoc, ← Matrix.mul_assoc xᵀ, hx, Matrix.one_mul, hO]
    have hv' : IsHorizontal x' (v * O) := by
      unfold IsHorizontal
      rw [hx', transpose_mul, Matrix.mul_assoc, ← Matrix.mul_assoc xᵀ, show xᵀ * v = 0 from hv, Matrix.zero_mul, Matrix.mul_zero]
    obtain ⟨a, ⟨R, b1, b2, b3⟩, _⟩ := qfPoint_spec hp hh hx (horizontal_tangent hv)
    obtain ⟨a', ⟨R', b1', b2', b3'⟩, _⟩ := qfPoint_spec hp hh hxx' (horizontal_tangent hv')
    show SameSpan (qfPoint hp (hhr (x + v))) (qfPoint hp (hhr (x' + v * O)))
    have hd : IsUnit R'.det := isUnit_iff_ne_zero.2 (by rw [det_upper b1']; exact Finset.prod_ne_zero_iff.mpr fun i _ => (b2' i).ne')
    have h1 : x' + v * O = (x + v) * O := by rw [Matrix.add_mul, ← hx']
    have key : ∀ Y Y' : Matrix (Fin n) (Fin p) ℝ, Y * R = x + v → Y' * R' = x' + v * O → Y' = Y * (R * O * R'⁻¹) := by
      intro Y Y' e e'
      rw [← Matrix.mul_assoc, ← Matrix.mul_assoc, e, ← h1, ← e', Matrix.mul_assoc, mul_nonsing_inv _ hd, Matrix.mul_one]
    have e := key _ _ b3 b3'
    refine ⟨a, _, ?_, e⟩
    rw [e, transpose_mul, Matrix.mul_assoc, ← Matrix.mul_assoc (qfPoint hp (hhr (x + v)))ᵀ, a, Matrix.one_mul] at a'
    exact a'
  smul := by
    rintro x x' c v v' hX ⟨hv, rfl⟩
    refine ⟨?_, ?_⟩
    · have := horizontal_lin c 0 hv hv
      rwa [zero_smul, add_zero] at this
    · show c • (v * _) = (c • v) * _
      rw [Matrix.smul_mul]
  lin := by
    rintro x x' a b v v' w w' hX ⟨hv, rfl⟩ ⟨hw, rfl⟩
    refine ⟨horizontal_lin a b hv hw, ?_⟩
    show a • (v * _) + b • (w * _) = (a • v + b • w) * _
    rw [Matrix.add_mul, Matrix.smul_mul, Matrix.smul_mul]

/-! ## Runs -/

theorem framedStop_corr : ∀ s : StopKind ℝ (Matrix (Fin n) (Fin p) ℝ), StopCorr FramedOk s (framedStop s)
  | .funRel => trivial
  | .gradF => trivial
  | .gradF0 => trivial
  | .user q => fun x x' s l a b h => by show q x'.1 s l a b = q x s l a b; rw [h.1]

/-- **C130 (Stiefel, intrinsic and extrinsic vectors).** Steepest descent with intrinsic tangent vectors passes through the same points as with extrinsic ones and reports the same
numbers, whatever the frames are. -/
theorem C130_stiefel_intrinsic (hp : p ≤ n) (junk : ℕ → ℝ) {hhr : Matrix (Fin n) (Fin p) ℝ → Frame n p} (hh : IsHHR hhr) (f : Matrix (Fin n) (Fin p) ℝ → ℝ)
    (G : Matrix (Fin n) (Fin p) ℝ → Matrix (Fin n) (Fin p) ℝ) {cfg : Cfg ℝ (Matrix (Fin n) (Fin p) ℝ) (Matrix (Fin n) (Fin p) ℝ)} (hb : cfg.initType ≠ .bb) (hs : cfg.search = .armijo) (m N : ℕ)
    (o : Obj ℝ (Matrix (Fin n) (Fin p) ℝ) (Matrix (Fin n) (Fin p) ℝ) Unit) (o' : Obj ℝ (Framed n p) (List ℝ) Unit) (hx : FramedOk o.x1 o'.x1) (hx2 : FramedOk o.x2 o'.x2)
    (hB : o'.preBBs = o.preBBs) (hlen : o'.lengthSeries = o.lengthSeries) (hcnt : o'.cnt = o.cnt) :
    SameRuns (fun x x' => x'.1 = x ∧ xᵀ * x = 1) (fun x x' v c => IsTangent x v ∧ c = stiefelIntr x'.2.1 x'.2.2 v)
      (run (stiefelExtrEnv hp hhr f G) cfg (rsd (stiefelExtrEnv hp hhr f G)) m N o)
      (run (stiefelIntrEnv hp junk hhr f G) (reCfg cfg (framedStop cfg.stop)) (rsd (stiefelIntrEnv hp junk hhr f G)) m N o') := by
  have h := C130_rsd (stiefel_corr hp junk hh f G) (Or.inl hb) hs (framedStop_corr cfg.stop) m N o o' hx hx2 hB hlen hcnt
  revert h
  cases run (stiefelExtrEnv hp hhr f G) cfg (rsd (stiefelExtrEnv hp hhr f G)) m N o <;>
    cases run (stiefelIntrEnv hp junk hhr f G) (reCfg cfg (framedStop cfg.stop)) (rsd (stiefelIntrEnv hp junk hhr f G)) m N o'
  · exact id
  · exact id
  · exact id
  · exact fun h => { h with x1 := ⟨h.x1.1, h.x1.2.1⟩, x2 := ⟨h.x2.1, h.x2.2.1⟩ }

/-- **C130 (Grassmann, intrinsic and extrinsic vectors).** -/
theorem C130_grassmann_intrinsic (hp : p ≤ n) (junk : ℕ → ℝ) {hhr : Matrix (Fin n) (Fin p) ℝ → Frame n p} (hh : IsHHR hhr) (f : Matrix (Fin n) (Fin p) ℝ → ℝ)
    (G : Matrix (Fin n) (Fin p) ℝ → Matrix (Fin n) (Fin p) ℝ) {cfg : Cfg ℝ (Matrix (Fin n) (Fin p) ℝ) (Matrix (Fin n) (Fin p) ℝ)} (hb : cfg.initType ≠ .bb) (hs : cfg.search = .armijo) (m N : ℕ)
    (o : Obj ℝ (Matrix (Fin n) (Fin p) ℝ) (Matrix (Fin n) (Fin p) ℝ) Unit) (o' : Obj ℝ (Framed n p) (List ℝ) Unit) (hx : FramedOk o.x1 o'.x1) (hx2 : FramedOk o.x2 o'.x2)
    (hB : o'.preBBs = o.preBBs) (hlen : o'.lengthSeries = o.lengthSeries) (hcnt : o'.cnt = o.cnt) :
    SameRuns (fun x x' => x'.1 = x ∧ xᵀ * x = 1) (fun x x' v c => IsHorizontal x v ∧ c = grassIntr x'.2.1 v)
      (run (grassExtrEnv hp hhr f G) cfg (rsd (grassExtrEnv hp hhr f G)) m N o)
      (run (grassIntrEnv hp junk hhr f G) (reCfg cfg (framedStop cfg.stop)) (rsd (grassIntrEnv hp junk hhr f G)) m N o') := by
  have h := C130_rsd (grass_corr hp junk hh f G) (Or.inl hb) hs (framedStop_corr cfg.stop) m N o o' hx hx2 hB hlen hcnt
  revert h
  cases run (grassExtrEnv hp hhr f G) cfg (rsd (grassExtrEnv hp hhr f G)) m N o <;>
    cases run (grassIntrEnv hp junk hhr f G) (reCfg cfg (framedStop cfg.stop)) (rsd (grassIntrEnv hp junk hhr f G)) m N o'
  · exact id
  · exact id
  · exact id
  · exact fun h => { h with x1 := ⟨h.x1.1, h.x1.2.1⟩, x2 := ⟨h.x2.1, h.x2.2.1⟩ }

/-- **C130 (Grassmann, representatives).** Steepest descent on a function of the subspace depends only on the subspace spanned by the initial point: from two bases of one
subspace the iterates span the same subspaces and all numbers agree. -/
theorem C130_grassmann_subspace (hp : p ≤ n) {hhr : Matrix (Fin n) (Fin p) ℝ → Frame n p} (hh : IsHHR hhr) {f : Matrix (Fin n) (Fin p) ℝ → ℝ}
    {G : Matrix (Fin n) (Fin p) ℝ → Matrix (Fin n) (Fin p) ℝ} (hf : OnSubspaces f) (hG : IsEucGrad f G) {cfg : Cfg ℝ (Matrix (Fin n) (Fin p) ℝ) (Matrix (Fin n) (Fin p) ℝ)}
    {stop' : StopKind ℝ (Matrix (Fin n) (Fin p) ℝ)} (hb : cfg.initType ≠ .bb) (hs : cfg.search = .armijo) (hst : StopCorr SameSpan cfg.stop stop') (m N : ℕ)
    (o o' : Obj ℝ (Matrix (Fin n) (Fin p) ℝ) (Matrix (Fin n) (Fin p) ℝ) Unit) (hx : SameSpan o.x1 o'.x1) (hx2 : SameSpan o.x2 o'.x2)
    (hB : o'.preBBs = o.preBBs) (hlen : o'.lengthSeries = o.lengthSeries) (hcnt : o'.cnt = o.cnt) :
    SameRuns SameSpan SameLift (run (grassExtrEnv hp hhr f G) cfg (rsd (grassExtrEnv hp hhr f G)) m N o)
      (run (grassExtrEnv hp hhr f G) (reCfg cfg stop') (rsd (grassExtrEnv hp hhr f G)) m N o') :=
  C130_rsd (grass_rep_corr hp hh hf hG) (Or.inl hb) hs hst m N o o' hx hx2 hB hlen hcnt

/-! ## What depends on the representative -/

/-- **C130, negation.** The vector transport of the Grassmann manifold with extrinsic vectors (projection onto the new horizontal space) depends on the basis: transporting the
same tangent vector along the same direction from two bases of one subspace gives different tangent vectors. `C130_rcg` does not apply. -/
theorem C130_grassmann_transport {hhr : Matrix (Fin 4) (Fin 2) ℝ → Frame 4 2} (hh : IsHHR hhr) (f : Matrix (Fin 4) (Fin 2) ℝ → ℝ) (G : Matrix (Fin 4) (Fin 2) ℝ → Matrix (Fin 4) (Fin 2) ℝ) :
    ¬ TransCorr (grassExtrEnv (by norm_num) hhr f G) (grassExtrEnv (by norm_num) hhr f G) SameSpan SameLift := by
  intro hT
  set x : Matrix (Fin 4) (Fin 2) ℝ := !![1, 0; 0, 1; 0, 0; 0, 0] with hxd
  set v : Matrix (Fin 4) (Fin 2) ℝ := !![0, 0; 0, 0; 1, 1; 0, 0] with hvd
  set w : Matrix (Fin 4) (Fin 2) ℝ := !![0, 0; 0, 0; 0, 0; 1, 0] with hwd
  set O : Matrix (Fin 2) (Fin 2) ℝ := !![0, 1; 1, 0] with hOd
  have hx : xᵀ * x = 1 := by
    ext i j; fin_cases i <;> fin_cases j <;> simp [hxd, mul_apply, Fin.sum_univ_four]
  have hO : Oᵀ * O = 1 := by
    ext i j; fin_cases i <;> fin_cases j <;> simp [hOd, mul_apply, Fin.sum_univ_two]
  have hv : IsHorizontal x v := by
    unfold IsHorizontal
    ext i j; fin_cases i <;> fin_cases j <;> simp [hxd, hvd, mul_apply, Fin.sum_univ_four]
  have hw : IsHorizontal x w := by
    unfold IsHorizontal
    ext i j; fin_cases i <;> fin_cases j <;> simp [hxd, hwd, mul_apply, Fin.sum_univ_four]
  have hvw : (x + v)ᵀ * w = 0 := by
    ext i j; fin_cases i <;> fin_cases j <;> simp [hxd, hvd, hwd, mul_apply, Fin.sum_univ_four]
  have hgram : ((x + v)ᵀ * (x + v)) 0 1 = 1 := by
    simp [hxd, hvd, mul_apply, Fin.sum_univ_four]
  have hX : SameSpan x (x * O) := ⟨hx, O, hO, rfl⟩
  have hxO : xᵀ * (x * O) = O := by rw [← Matrix.mul_assoc, hx, Matrix.one_mul]
  have hxx' : (x * O)ᵀ * (x * O) = 1 := by rw [transpose_mul, Matrix.mul_assoc, hxO, hO]
  have hv' : IsHorizontal (x * O) (v * O) := by
    unfold IsHorizontal
    rw [transpose_mul, Matrix.mul_assoc, ← Matrix.mul_assoc xᵀ, show xᵀ * v = 0 from hv, Matrix.zero_mul, Matrix.mul_zero]
  have h := (hT x (x * O) v (v * O) w (w * O) hX ⟨hv, by rw [hxO]⟩ ⟨hw, by rw [hxO]⟩).2
  obtain ⟨a, ⟨R, b1, b2, b3⟩, _⟩ := qfPoint_spec (by norm_num) hh hx (horizontal_tangent hv)
  obtain ⟨a', ⟨R', b1', b2', b3'⟩, _⟩ := qfPoint_spec (by norm_num) hh hxx' (horizontal_tangent hv')
  have h2 : gProj (qfPoint (by norm_num) (hhr (x * O + v * O))) (w * O) =
      gProj (qfPoint (by norm_num) (hhr (x + v))) w * ((qfPoint (by norm_num) (hhr (x + v)))ᵀ * qfPoint (by norm_num) (hhr (x * O + v * O))) := h
  generalize qfPoint (by norm_num : 2 ≤ 4) (hhr (x + v)) = y at a b3 h2
  generalize qfPoint (by norm_num : 2 ≤ 4) (hhr (x * O + v * O)) = y' at a' b3' h2
  have hd : IsUnit R.det := isUnit_iff_ne_zero.2 (by rw [det_upper b1]; exact Finset.prod_ne_zero_iff.mpr fun i _ => (b2 i).ne')
  have hd' : IsUnit R'.det := isUnit_iff_ne_zero.2 (by rw [det_upper b1']; exact Finset.prod_ne_zero_iff.mpr fun i _ => (b2' i).ne')
  have cancel : ∀ {S : Matrix (Fin 2) (Fin 2) ℝ} {z u : Matrix (Fin 4) (Fin 2) ℝ}, IsUnit S.det → (z * S)ᵀ * u = 0 → zᵀ * u = 0 := by
    intro S z u hS e
    have hS' : IsUnit Sᵀ.det := by rwa [det_transpose]
    rw [transpose_mul, Matrix.mul_assoc] at e
    calc zᵀ * u = Sᵀ⁻¹ * (Sᵀ * (zᵀ * u)) := by rw [← Matrix.mul_assoc, nonsing_inv_mul _ hS', Matrix.one_mul]
      _ = 0 := by rw [e, Matrix.mul_zero]
  have hyw : yᵀ * w = 0 := cancel hd (by rw [b3, hvw])
  have hyw' : y'ᵀ * (w * O) = 0 := cancel hd' (by
    rw [b3', ← Matrix.add_mul, transpose_mul, Matrix.mul_assoc, ← Matrix.mul_assoc (x + v)ᵀ, hvw, Matrix.zero_mul, Matrix.mul_zero])
  rw [gProj, gProj, hyw, hyw', Matrix.mul_zero, Matrix.mul_zero, sub_zero, sub_zero] at h2
  have hW : (yᵀ * y') * R' = R * O := by
    rw [Matrix.mul_assoc, b3', ← Matrix.add_mul, ← b3, ← Matrix.mul_assoc, ← Matrix.mul_assoc, a, Matrix.one_mul]
  generalize yᵀ * y' = W at h2 hW
  have e1 := congrFun (congrFun h2 3) 0
  have e2 := congrFun (congrFun hW 0) 0
  simp only [mul_apply, Fin.sum_univ_two, hwd, hOd] at e1 e2
  have hl : R' 1 0 = 0 := b1' 1 0 (by decide)
  have hl2 : R 1 0 = 0 := b1 1 0 (by decide)
  have e3 : (Rᵀ * R) 0 1 = 1 := by
    rw [← hgram, ← b3, transpose_mul, Matrix.mul_assoc, ← Matrix.mul_assoc yᵀ, a, Matrix.one_mul]
  simp only [mul_apply, Fin.sum_univ_two, transpose_apply, hl2] at e3
  simp at e1 e2
  rw [← e1, hl] at e2
  simp at e2
  rw [← e2] at e3
  simp at e3

/-! ## A concrete case: lines in the plane -/

/-- A rotation taking the first axis to the given vector. -/
noncomputable def rotHHR (A : Matrix (Fin 2) (Fin 1) ℝ) : Frame 2 1 :=
  let r := Real.sqrt (A 0 0 ^ 2 + A 1 0 ^ 2)
  (if r = 0 then 1 else !![A 0 0 / r, -(A 1 0) / r; A 1 0 / r, A 0 0 / r], !![r; 0])

theorem rotHHR_spec : IsHHR rotHHR := by
  intro A
  have hr : Real.sqrt (A 0 0 ^ 2 + A 1 0 ^ 2) ^ 2 = A 0 0 ^ 2 + A 1 0 ^ 2 := Real.sq_sqrt (by positivity)
  by_cases h0 : Real.sqrt (A 0 0 ^ 2 + A 1 0 ^ 2) = 0
  · rw [h0] at hr
    have h1 : A 0 0 = 0 := by nlinarith [sq_nonneg (A 0 0), sq_nonneg (A 1 0)]
    have h2 : A 1 0 = 0 := by nlinarith [sq_nonneg (A 0 0), sq_nonneg (A 1 0)]
    have e : rotHHR A = (1, !![0; 0]) := by simp only [rotHHR, h0, if_true]
    rw [e]
    refine ⟨by simp, fun i j h => by fin_cases i <;> simp, ?_⟩
    ext i j
    fin_cases i <;> fin_cases j <;> simp [h1, h2]
  · have e : rotHHR A = (!![A 0 0 / Real.sqrt (A 0 0 ^ 2 + A 1 0 ^ 2), -(A 1 0) / Real.sqrt (A 0 0 ^ 2 + A 1 0 ^ 2); A 1 0 / Real.sqrt (A 0 0 ^ 2 + A 1 0 ^ 2), A 0 0 / Real.sqrt (A 0 0 ^ 2 + A 1 0 ^ 2)],
        !![Real.sqrt (A 0 0 ^ 2 + A 1 0 ^ 2); 0]) := by simp only [rotHHR, if_neg h0]
    rw [e]
    generalize Real.sqrt (A 0 0 ^ 2 + A 1 0 ^ 2) = r at *
    refine ⟨?_, fun i j h => ?_, ?_⟩
    · ext i j
      fin_cases i <;> fin_cases j <;> simp [mul_apply, Fin.sum_univ_two] <;> field_simp <;> linarith
    · fin_cases i <;> fin_cases j <;> simp at h ⊢
    · ext i j
      fin_cases i <;> fin_cases j <;> simp [mul_apply, Fin.sum_univ_two] <;> field_simp

/-- `f (x) = x₁²`, a function of the line spanned by `x`. -/
def lineF (x : Matrix (Fin 2) (Fin 1) ℝ) : ℝ := x 0 0 ^ 2

/-- Its gradient. -/
def lineG (x : Matrix (Fin 2) (Fin 1) ℝ) : Matrix (Fin 2) (Fin 1) ℝ := !![2 * x 0 0; 0]

theorem lineF_onSubspaces : OnSubspaces lineF := by
  intro x O hO
  have h := congrFun (congrFun hO 0) 0
  simp [mul_apply] at h
  simp only [lineF, mul_apply, Finset.univ_unique, Finset.sum_singleton]
  have : (x 0 default * O default 0) ^ 2 = x 0 0 ^ 2 * (O 0 0 * O 0 0) := by
    rw [show (default : Fin 1) = 0 from rfl]; ring
  rw [this, h, mul_one]

theorem lineG_grad : IsEucGrad lineF lineG := by
  intro x v
  have h0 : HasDerivAt (fun t : ℝ => t * v 0 0) (1 * v 0 0) 0 := (hasDerivAt_id (0 : ℝ)).mul_const (v 0 0)
  have h1 : HasDerivAt (fun t : ℝ => x 0 0 + t * v 0 0) (1 * v 0 0) 0 := by
    have := HasDerivAt.fun_add (hasDerivAt_const (0 : ℝ) (x 0 0)) h0
    rwa [zero_add] at this
  have h2 : HasDerivAt (fun t : ℝ => (x 0 0 + t * v 0 0) ^ 2) (((2 : ℕ) : ℝ) * (x 0 0 + 0 * v 0 0) ^ (2 - 1) * (1 * v 0 0)) 0 := h1.pow 2
  have e : (fun t : ℝ => lineF (x + t • v)) = fun t : ℝ => (x 0 0 + t * v 0 0) ^ 2 := by
    funext t; simp [lineF]
  have e2 : frob (lineG x) v = ((2 : ℕ) : ℝ) * (x 0 0 + 0 * v 0 0) ^ (2 - 1) * (1 * v 0 0) := by
    simp [frob, lineG]
  rw [e, e2]
  exact h2

/-- From `x` and from `-x` steepest descent on the projective line gives the same numbers. -/
example {cfg : Cfg ℝ (Matrix (Fin 2) (Fin 1) ℝ) (Matrix (Fin 2) (Fin 1) ℝ)} (hb : cfg.initType ≠ .bb) (hs : cfg.search = .armijo) (hst : cfg.stop = .gradF0) (m N : ℕ)
    (o : Obj ℝ (Matrix (Fin 2) (Fin 1) ℝ) (Matrix (Fin 2) (Fin 1) ℝ) Unit) (hx : o.x1 = !![3 / 5; 4 / 5]) (hx2 : o.x2 = o.x1) :
    SameRuns SameSpan SameLift (run (grassExtrEnv (by norm_num) rotHHR lineF lineG) cfg (rsd (grassExtrEnv (by norm_num) rotHHR lineF lineG)) m N o)
      (run (grassExtrEnv (by norm_num) rotHHR lineF lineG) (reCfg cfg .gradF0) (rsd (grassExtrEnv (by norm_num) rotHHR lineF lineG)) m N { o with x1 := -o.x1, x2 := -o.x1 }) := by
  have h1 : SameSpan o.x1 (-o.x1) := by
    refine ⟨?_, -1, by simp, by simp⟩
    rw [hx]
    ext i j
    fin_cases i; fin_cases j
    simp [mul_apply, Fin.sum_univ_two]
    norm_num
  have h2 : SameSpan o.x2 (-o.x1) := by rw [hx2]; exact h1
  exact C130_grassmann_subspace (by norm_num) rotHHR_spec lineF_onSubspaces lineG_grad (stop' := .gradF0) hb hs (by rw [hst]; trivial) m N o
    { o with x1 := -o.x1, x2 := -o.x1 } h1 h2 rfl rfl rfl

end Verif.Obj
