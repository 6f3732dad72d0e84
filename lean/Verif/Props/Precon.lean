import Verif.Iface.Precon
import Verif.Props.Intrinsic

/-!
# C159: what a preconditioner of the user becomes
-/

set_option linter.unusedSectionVars false
set_option linter.unusedVariables false

namespace Verif.Intr

open Matrix Verif.Elem Verif.Mat Verif.Mex
open Verif.Stiefel (IsTangent IsHorizontal)

variable {n p : Nat}

/-! ## Specification -/

/-- The operator of the user is symmetric and positive on the vectors with the property `T`, in the inner product `ip`. Its values need not have that property. -/
structure Good {M : Type*} [Zero M] (T : M → Prop) (ip : M → M → ℝ) (P : M → M) : Prop where
  symm : ∀ η ξ, T η → T ξ → ip (P η) ξ = ip η (P ξ)
  pos : ∀ η, T η → η ≠ 0 → 0 < ip (P η) η

/-- What the iterative solvers need of the operator they get, on coordinate vectors of length `d`: it returns such vectors, is symmetric and positive definite. -/
structure Usable (d : Nat) (A : List ℝ → Option (Rep M)) : Prop where
  defined : ∀ c, c.length = d → ∃ b, A c = some (.coords b) ∧ b.length = d
  symm : ∀ c e b b', c.length = d → e.length = d → A c = some (.coords b) → A e = some (.coords b') → dot b e = dot c b'
  pos : ∀ c b, c.length = d → (∃ r ∈ c, r ≠ 0) → A c = some (.coords b) → 0 < dot b c

/-! ## Conversions -/

theorem dot_comm (a b : List ℝ) : dot a b = dot b a := by
  unfold dot
  congr 1
  exact List.zipWith_comm_of_comm mul_comm

/-- The coordinates of an arbitrary matrix belong to its tangential part: `ObtainIntr` is the adjoint of `ObtainExtr`. -/
theorem skew_adjoint (hp : p ≤ n) (A B : Matrix (Fin n) (Fin p) ℝ) (hB : TopSkew n p (flat B)) : dot (skewIntr n p (flat A)) (skewIntr n p (flat B)) = frob A B := by
  rw [frob_split hp, skewIntr, skewIntr, dot_append (by simp), dot_map, dot_map, add_left_inj,
    Finset.sum_comm, sum_square p fun i j => flat A (i + j * n) * flat B (i + j * n)]
  have h0 : ∑ i ∈ Finset.range p, flat A (i + i * n) * flat B (i + i * n) = 0 := by
    refine Finset.sum_eq_zero fun i hi => ?_
    have hi := Finset.mem_range.mp hi
    have h : flat B (i + i * n) = 0 := by have := hB i i hi hi; linarith
    rw [h, mul_zero]
  rw [h0, zero_add]
  congr 1
  refine List.map_congr_left ?_
  rintro ⟨i, j⟩ hq
  have hij := mem_pairs.mp hq
  have hb := hB i j (by omega) (by omega)
  simp only []
  rw [hb]
  have := r2_mul_r2
  linear_combination ((flat A (j + i * n) - flat A (i + j * n)) * flat B (j + i * n) / 2) * this

/-- **C159, adjoint (Stiefel).** -/
theorem C159_stiefel_adjoint {x R : Matrix (Fin n) (Fin p) ℝ} {Q : Matrix (Fin n) (Fin n) ℝ} (hp : p ≤ n) (h : IsQR x Q R) (hx : xᵀ * x = 1) (junk : Nat → ℝ) (z : Matrix (Fin n) (Fin p) ℝ) (c : List ℝ) (hc : c.length = n * p - p * (p + 1) / 2) :
    dot (stiefelIntr Q R z) c = frob z (stiefelExtr junk Q R c) := by
  obtain ⟨h1, h2⟩ := C37_stiefel_intr_extr hp h hx c hc junk
  conv_lhs => rw [← h1]
  unfold stiefelIntr
  rw [skew_adjoint hp _ _ ((top_skew hp h hx).mp h2), frob_scale, frob_orth h.orth']

/-- **C159, adjoint (Grassmann).** -/
theorem C159_grassmann_adjoint {x R : Matrix (Fin n) (Fin p) ℝ} {Q : Matrix (Fin n) (Fin n) ℝ} (hp : p ≤ n) (h : IsQR x Q R) (hx : xᵀ * x = 1) (junk : Nat → ℝ) (z : Matrix (Fin n) (Fin p) ℝ) (c : List ℝ) (hc : c.length = (n - p) * p) :
    dot (grassIntr Q z) c = frob z (grassExtr junk Q c) := by
  obtain ⟨h1, h2⟩ := C37_grassmann_intr_extr hp h hx c hc junk
  conv_lhs => rw [← h1]
  rw [dot_comm, C37_grassmann_isometry hp h hx h2, frob_comm]

theorem dot_self_pos {c : List ℝ} (h : ∃ r ∈ c, r ≠ 0) : 0 < dot c c := by
  unfold dot
  rw [List.zipWith_self]
  obtain ⟨r, hr, h0⟩ := h
  refine lt_of_lt_of_le (mul_self_pos.mpr h0) ?_
  exact List.single_le_sum (fun a ha => by obtain ⟨b, -, rfl⟩ := List.mem_map.mp ha; exact mul_self_nonneg b) _ (List.mem_map.mpr ⟨r, hr, rfl⟩)

/-- From adjoint conversions to a usable operator. -/
theorem usable_of_adjoint {M : Type*} [Zero M] {d : Nat} {T : M → Prop} {ip : M → M → ℝ} {P : M → M} {extr : List ℝ → M} {intr : M → List ℝ} (hP : Good T ip P) (hcomm : ∀ a b, ip a b = ip b a) (hlen : ∀ c, c.length = d → (intr (P (extr c))).length = d)
    (hT : ∀ c, c.length = d → T (extr c)) (hadj : ∀ c e, c.length = d → e.length = d → dot (intr (P (extr c))) e = ip (P (extr c)) (extr e)) (hiso : ∀ c, c.length = d → (∃ r ∈ c, r ≠ 0) → extr c ≠ 0) :
    Usable d fun c => preCond (some P) true extr intr (.coords c) where
  defined c hc := ⟨_, rfl, hlen c hc⟩
  symm c e b b' hc he h1 h2 := by
    simp only [preCond, Option.some.injEq, Rep.coords.injEq] at h1 h2
    rw [← h1, ← h2, dot_comm c, hadj c e hc he, hadj e c he hc, hP.symm _ _ (hT c hc) (hT e he), hcomm]
  pos c b hc h0 h1 := by
    simp only [preCond, Option.some.injEq, Rep.coords.injEq] at h1
    rw [← h1, hadj c c hc hc]
    exact hP.pos _ (hT c hc) (hiso c hc h0)

/-- **C159, Stiefel.** A preconditioner that is symmetric and positive on tangent vectors becomes a usable one in coordinates, also if its values are not tangent vectors. -/
theorem C159_stiefel {x R : Matrix (Fin n) (Fin p) ℝ} {Q : Matrix (Fin n) (Fin n) ℝ} (hp : p ≤ n) (h : IsQR x Q R) (hx : xᵀ * x = 1) (junk : Nat → ℝ) {P : Matrix (Fin n) (Fin p) ℝ → Matrix (Fin n) (Fin p) ℝ} (hP : Good (IsTangent x) frob P) :
    Usable (n * p - p * (p + 1) / 2) fun c => preCond (some P) true (stiefelExtr junk Q R) (stiefelIntr Q R) (.coords c) := by
  refine usable_of_adjoint hP frob_comm (fun c hc => C37_stiefel_dim hp Q R _) (fun c hc => (C37_stiefel_intr_extr hp h hx c hc junk).2) (fun c e hc he => C159_stiefel_adjoint hp h hx junk _ e he) (fun c hc h0 hz => ?_)
  have h1 := C159_stiefel_adjoint hp h hx junk (stiefelExtr junk Q R c) c hc
  rw [(C37_stiefel_intr_extr hp h hx c hc junk).1, hz] at h1
  have h2 := dot_self_pos h0
  simp [h1, frob] at h2

/-- **C159, Grassmann.** -/
theorem C159_grassmann {x R : Matrix (Fin n) (Fin p) ℝ} {Q : Matrix (Fin n) (Fin n) ℝ} (hp : p ≤ n) (h : IsQR x Q R) (hx : xᵀ * x = 1) (junk : Nat → ℝ) {P : Matrix (Fin n) (Fin p) ℝ → Matrix (Fin n) (Fin p) ℝ} (hP : Good (IsHorizontal x) frob P) :
    Usable ((n - p) * p) fun c => preCond (some P) true (grassExtr junk Q) (grassIntr Q) (.coords c) := by
  refine usable_of_adjoint hP frob_comm (fun c hc => C37_grassmann_dim Q _) (fun c hc => (C37_grassmann_intr_extr hp h hx c hc junk).2) (fun c e hc he => C159_grassmann_adjoint hp h hx junk _ e he) (fun c hc h0 hz => ?_)
  have h1 := C159_grassmann_adjoint hp h hx junk (grassExtr junk Q c) c hc
  rw [(C37_grassmann_intr_extr hp h hx c hc junk).1, hz] at h1
  have h2 := dot_self_pos h0
  simp [h1, frob] at h2

/-- **C159, positive definite matrices.** Here the values must be symmetric matrices; the metrics are the affine invariant one and the Euclidean one. -/
theorem C159_spd {x L : Matrix (Fin n) (Fin n) ℝ} (hL : L.det ≠ 0) (hx : x = L * Lᵀ) (junk : Nat → ℝ) {P : Matrix (Fin n) (Fin n) ℝ → Matrix (Fin n) (Fin n) ℝ} (hPS : ∀ η, ηᵀ = η → (P η)ᵀ = P η) :
    (Good (fun η => ηᵀ = η) (fun η ξ => trace (x⁻¹ * η * x⁻¹ * ξ)) P → Usable (n * (n + 1) / 2) fun c => preCond (some P) true (spdExtrAF junk L) (spdIntrAF L) (.coords c)) ∧
    (Good (fun η => ηᵀ = η) frob P → Usable (n * (n + 1) / 2) fun c => preCond (some P) true (spdExtrEuc junk) spdIntrEuc (.coords c)) := by
  obtain ⟨a1, a2, a3⟩ := C37_spd_af hL hx junk
  obtain ⟨e1, e2, e3⟩ := C37_spd_euc (n := n) junk
  constructor
  · intro hP
    refine usable_of_adjoint hP (fun a b => ?_) (fun c hc => (C37_spd_dim L _).1) (fun c hc => (a2 c hc).2) (fun c e hc he => ?_) (fun c hc h0 hz => ?_)
    · show trace (x⁻¹ * a * x⁻¹ * b) = trace (x⁻¹ * b * x⁻¹ * a)
      rw [Matrix.mul_assoc (x⁻¹ * a), trace_mul_comm, ← Matrix.mul_assoc]
    · have := a3 _ _ (hPS _ (a2 c hc).2) (a2 e he).2
      rw [(a2 e he).1] at this
      exact this
    · have := a3 _ _ (a2 c hc).2 (a2 c hc).2
      rw [(a2 c hc).1, hz] at this
      have h2 := dot_self_pos h0
      simp [this] at h2
  · intro hP
    refine usable_of_adjoint hP frob_comm (fun c hc => (C37_spd_dim L _).2) (fun c hc => (e2 c hc).2) (fun c e hc he => ?_) (fun c hc h0 hz => ?_)
    · have := e3 _ _ (hPS _ (e2 c hc).2) (e2 e he).2
      rw [(e2 e he).1] at this
      exact this
    · have := e3 _ _ (e2 c hc).2 (e2 c hc).2
      rw [(e2 c hc).1, hz] at this
      have h2 := dot_self_pos h0
      simp [this, frob] at h2

/-- The preconditioner `η ↦ A η`. -/
def leftMul (A : Matrix (Fin n) (Fin n) ℝ) (η : Matrix (Fin n) (Fin p) ℝ) : Matrix (Fin n) (Fin p) ℝ := A * η

/-- A positive definite matrix that is not diagonal. -/
noncomputable def skewA : Matrix (Fin 2) (Fin 2) ℝ := !![1, 99 / 100; 99 / 100, 1]

theorem good_leftMul (T : Matrix (Fin 2) (Fin p) ℝ → Prop) : Good T frob (leftMul skewA) where
  symm η ξ _ _ := by
    simp only [frob, leftMul, skewA, Matrix.mul_apply, Fin.sum_univ_two]
    rw [← Finset.sum_add_distrib, ← Finset.sum_add_distrib]
    refine Finset.sum_congr rfl fun j _ => ?_
    simp
    ring
  pos η _ h0 := by
    have e : frob (leftMul skewA η) η = ∑ j, (1 / 100 * (η 0 j ^ 2 + η 1 j ^ 2) + 99 / 100 * (η 0 j + η 1 j) ^ 2) := by
      simp only [frob, leftMul, skewA, Matrix.mul_apply, Fin.sum_univ_two]
      rw [← Finset.sum_add_distrib]
      refine Finset.sum_congr rfl fun j _ => ?_
      simp
      ring
    rw [e]
    obtain ⟨j, hj⟩ : ∃ j, η 0 j ≠ 0 ∨ η 1 j ≠ 0 := by
      by_contra hc
      push Not at hc
      exact h0 (by ext i j; fin_cases i <;> simp [hc j])
    refine Finset.sum_pos' (fun i _ => by positivity) ⟨j, Finset.mem_univ j, ?_⟩
    rcases hj with h | h <;> positivity

/-- **C159, negation.** On the manifold of positive definite matrices a preconditioner that is symmetric and positive definite on all matrices, but returns matrices that are not symmetric, is not usable: only one triangle is read, and the
result can point into the opposite half space. -/
theorem C159_spd_leak (junk : Nat → ℝ) : Good (fun η : Matrix (Fin 2) (Fin 2) ℝ => ηᵀ = η) frob (leftMul skewA) ∧
    ∃ b, preCond (some (leftMul skewA)) true (spdExtrEuc junk) spdIntrEuc (.coords [1, 0, -1]) = some (.coords b) ∧ dot b [1, 0, -1] < 0 := by
  refine ⟨good_leftMul _, _, rfl, ?_⟩
  have hE : spdExtrEuc (n := 2) junk [1, 0, -1] = !![1, -1 / r2; -1 / r2, 0] := by
    have hk : (pairs 2)[0]? = some (0, 1) := by decide
    have h1 := symExtr_pair junk (buf [1, 0, -1]) hk
    have h2 := symExtr_diag junk (buf [1, 0, -1]) (show 0 < 2 by norm_num)
    have h3 := symExtr_diag junk (buf [1, 0, -1]) (show 1 < 2 by norm_num)
    ext i j
    fin_cases i <;> fin_cases j
    · exact h2
    · exact h1.2
    · exact h1.1
    · exact h3
  rw [hE]
  have hp : pairs 2 = [(0, 1)] := by decide
  have e : dot (spdIntrEuc (leftMul skewA !![1, -1 / r2; -1 / r2, 0])) [1, 0, -1] = 2 - 297 / 200 * r2 := by
    have hr := r2_mul_r2
    simp [spdIntrEuc, symIntr, hp, dot, flat, leftMul, skewA, Matrix.mul_apply, List.range_succ]
    field_simp [r2_ne]
    nlinarith
  rw [e]
  have : (1.4 : ℝ) < r2 := Real.lt_sqrt_of_sq_lt (by norm_num)
  linarith

/-- **C159, negation.** When the domain represents tangent vectors by matrices the value of the preconditioner is not projected: what the solver gets need not be a tangent vector. -/
theorem C159_not_tangent : ∃ (x η : Matrix (Fin 2) (Fin 1) ℝ), xᵀ * x = 1 ∧ IsTangent x η ∧ Good (IsTangent x) frob (leftMul skewA) ∧
    ∀ extr intr z, preCond (some (leftMul skewA)) false extr intr (.full η) = some (.full z) → ¬IsTangent x z := by
  refine ⟨!![1; 0], !![0; 1], ?_, ?_, good_leftMul _, ?_⟩
  · ext i j; fin_cases i; fin_cases j; simp [Matrix.mul_apply]
  · ext i j; fin_cases i; fin_cases j; simp [Matrix.mul_apply]
  · intro extr intr z hz ht
    simp only [preCond, Option.some.injEq, Rep.full.injEq] at hz
    have := congrFun (congrFun ht 0) 0
    rw [← hz] at this
    simp [leftMul, skewA, Matrix.mul_apply, Fin.sum_univ_two] at this
    linarith

/-- **C159, no handle.** Without a function of the user the solvers get the identity, which is usable in every length. -/
theorem C159_no_handle {M : Type*} (intrinsic : Bool) (extr : List ℝ → M) (intr : M → List ℝ) (d : Nat) : Usable d fun c => preCond none intrinsic extr intr (.coords c) where
  defined c hc := ⟨c, rfl, hc⟩
  symm c e b b' _ _ h1 h2 := by
    simp only [preCond, Option.some.injEq, Rep.coords.injEq] at h1 h2
    rw [h1, h2]
  pos c b _ h0 h1 := by
    simp only [preCond, Option.some.injEq, Rep.coords.injEq] at h1
    rw [← h1]
    exact dot_self_pos h0

/-- A preconditioner that is not a multiple of the identity, with a tangent vector it takes out of the tangent space, on the Stiefel manifold of 3 by 2 matrices. -/
example : ∃ (P : Matrix (Fin 3) (Fin 2) ℝ → Matrix (Fin 3) (Fin 2) ℝ) (η : Matrix (Fin 3) (Fin 2) ℝ), IsQR exX 1 exX ∧ exXᵀ * exX = 1 ∧ IsTangent exX η ∧ Good (IsTangent exX) frob P ∧ ¬IsTangent exX (P η) := by
  refine ⟨fun η => !![1, 0, 0; 0, 2, 0; 0, 0, (3 : ℝ)] * η, !![0, 2; 2, 0; 5, 7], ⟨by simp, ?_, by simp⟩, ?_, ?_, ⟨fun η ξ _ _ => ?_, fun η _ h0 => ?_⟩, fun h => ?_⟩
  · intro i j; fin_cases i <;> fin_cases j <;> simp [exX]
  · ext i j; fin_cases i <;> fin_cases j <;> simp [exX, mul_apply, Fin.sum_univ_three]
  · show (exXᵀ * _)ᵀ = -(exXᵀ * _)
    ext i j; fin_cases i <;> fin_cases j <;> simp [exX, mul_apply, Fin.sum_univ_three]
  · simp [frob, mul_apply, Fin.sum_univ_three, Fin.sum_univ_two]
    ring
  · have e : frob (!![1, 0, 0; 0, 2, 0; 0, 0, (3 : ℝ)] * η) η = ∑ j, (η 0 j ^ 2 + 2 * η 1 j ^ 2 + 3 * η 2 j ^ 2) := by
      simp [frob, mul_apply, Fin.sum_univ_three, Fin.sum_univ_two]
      ring
    show 0 < frob _ η
    rw [e]
    obtain ⟨j, hj⟩ : ∃ j, η 0 j ≠ 0 ∨ η 1 j ≠ 0 ∨ η 2 j ≠ 0 := by
      by_contra hc
      push Not at hc
      exact h0 (by ext i j; fin_cases i <;> simp [hc j])
    refine Finset.sum_pos' (fun i _ => by positivity) ⟨j, Finset.mem_univ j, ?_⟩
    rcases hj with h | h | h <;> positivity
  · have := congrFun (congrFun h 0) 1
    simp [exX, mul_apply, Fin.sum_univ_three] at this

/-- On the manifold of positive definite matrices: `η ↦ D η D` keeps symmetric matrices symmetric and is symmetric and positive. -/
example : ∃ P : Matrix (Fin 2) (Fin 2) ℝ → Matrix (Fin 2) (Fin 2) ℝ, (∀ η, ηᵀ = η → (P η)ᵀ = P η) ∧ Good (fun η => ηᵀ = η) frob P ∧ P !![1, 1; 1, 1] = !![1, 2; 2, 4] := by
  refine ⟨fun η => !![1, 0; 0, (2 : ℝ)] * η * !![1, 0; 0, (2 : ℝ)], fun η h => ?_, ⟨fun η ξ _ _ => ?_, fun η _ h0 => ?_⟩, ?_⟩
  · have : (!![1, 0; 0, (2 : ℝ)])ᵀ = !![1, 0; 0, (2 : ℝ)] := by ext i j; fin_cases i <;> fin_cases j <;> simp
    simp only [transpose_mul, this, h, Matrix.mul_assoc]
  · simp [frob, mul_apply, Matrix.vecMul, dotProduct, Fin.sum_univ_two]
    ring
  · have e : frob (!![1, 0; 0, (2 : ℝ)] * η * !![1, 0; 0, (2 : ℝ)]) η = η 0 0 ^ 2 + 2 * η 0 1 ^ 2 + 2 * η 1 0 ^ 2 + 4 * η 1 1 ^ 2 := by
      simp [frob, mul_apply, Matrix.vecMul, dotProduct, Fin.sum_univ_two]
      ring
    show 0 < frob _ η
    rw [e]
    by_contra hc
    have a := sq_nonneg (η 0 0)
    have b := sq_nonneg (η 0 1)
    have c := sq_nonneg (η 1 0)
    have d := sq_nonneg (η 1 1)
    have a' : η 0 0 = 0 := pow_eq_zero_iff (two_ne_zero) |>.mp (by linarith)
    have b' : η 0 1 = 0 := pow_eq_zero_iff (two_ne_zero) |>.mp (by linarith)
    have c' : η 1 0 = 0 := pow_eq_zero_iff (two_ne_zero) |>.mp (by linarith)
    have d' : η 1 1 = 0 := pow_eq_zero_iff (two_ne_zero) |>.mp (by linarith)
    exact h0 (by ext i j; fin_cases i <;> fin_cases j <;> simp [a', b', c', d'])
  · ext i j; fin_cases i <;> fin_cases j <;> simp [mul_apply, Fin.sum_univ_two]
    norm_num

end Verif.Intr
