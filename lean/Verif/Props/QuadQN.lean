import Verif.Solver.QuadQN
import Verif.Props.QuadCG

/-!
# C169, C170: the quasi-Newton solvers on quadratic functions
-/

namespace Verif.QuadQN

open Verif.QN Verif.QuadCG
open scoped RealInnerProductSpace Classical

variable {E : Type*} [NormedAddCommGroup E] [InnerProductSpace ℝ E]
variable {A : E →ₗ[ℝ] E} {b x0 : E}

/-- C169: while the cautious test passes, the iterates of RBFGS and of RBroydenFamily (with the parameter one
of the library) with exact steps are those of the linear conjugate gradient method. -/
theorem C169_is_cg (hA : SPD A) (c : Cautious) (upd : Call E → (E →ₗ[ℝ] E) → Option (E →ₗ[ℝ] E))
    (hupd : upd = rbfgs c ∨ upd = rbroyden c 1) (k : Nat) (hacc : ∀ j, j < k → Accepts c A b x0 j) :
    (state upd A b x0 k).map Prod.fst = some (linearCG A b x0 k).x := by
  obtain ⟨H, hs, -⟩ := state_eq hA c upd hupd k hacc
  rw [hs]; rfl

/-- C169: they are also those of the conjugate gradient solver of the library. -/
theorem C169_same_as_rcg (s : Setup E) (hA : SPD s.A) (hc : s.c < 1) (hP : ∀ v, s.P v = v)
    (hm : s.m ≠ .other) (c : Cautious) (upd : Call E → (E →ₗ[ℝ] E) → Option (E →ₗ[ℝ] E))
    (hupd : upd = rbfgs c ∨ upd = rbroyden c 1) (k : Nat)
    (hacc : ∀ j, j < k → Accepts c s.A s.b s.x0 j) :
    (state upd s.A s.b s.x0 k).map Prod.fst = s.iterate k := by
  obtain ⟨e, hs, -⟩ := QuadCG.state_eq s hA hc hP hm k (fun j hj => accepts_ne hA (hacc j hj))
  rw [C169_is_cg hA c upd hupd k hacc, Setup.iterate, hs]
  rfl

/-- C169: the operator reproduces every earlier step from the change of the gradient over that step, not only
the latest one, and it is symmetric positive definite. -/
theorem C169_all_secants (hA : SPD A) (c : Cautious) (upd : Call E → (E →ₗ[ℝ] E) → Option (E →ₗ[ℝ] E))
    (hupd : upd = rbfgs c ∨ upd = rbroyden c 1) (k : Nat) (hacc : ∀ j, j < k → Accepts c A b x0 j)
    (x : E) (q : QNState E) (hk : state upd A b x0 k = some (x, q)) :
    IsSPD q.H ∧ ∀ i, i < k → ∀ u v qu qv, state upd A b x0 i = some (u, qu) →
      state upd A b x0 (i + 1) = some (v, qv) → q.H ((A v - b) - (A u - b)) = v - u := by
  obtain ⟨H, hs, hH⟩ := state_eq hA c upd hupd k hacc
  rw [hs] at hk
  obtain ⟨rfl, rfl⟩ := Prod.mk.inj (Option.some.inj hk)
  refine ⟨hH.spd, fun i hi u v qu qv h1 h2 => ?_⟩
  obtain ⟨_, e1, -⟩ := state_eq hA c upd hupd i (fun j hj => hacc j (by omega))
  obtain ⟨_, e2, -⟩ := state_eq hA c upd hupd (i + 1) (fun j hj => hacc j (by omega))
  rw [e1] at h1
  rw [e2] at h2
  obtain ⟨rfl, -⟩ := Prod.mk.inj (Option.some.inj h1)
  obtain ⟨rfl, -⟩ := Prod.mk.inj (Option.some.inj h2)
  have e : (A (linearCG A b x0 (i + 1)).x - b) - (A (linearCG A b x0 i).x - b)
      = al A b x0 i • A (linearCG A b x0 i).p := by
    rw [x_succ, map_add, map_smul]; abel
  rw [e, map_smul, hH.secant i hi, x_succ]
  abel

/-- C169: when the cautious test passes at every iterate that is not a solution, the run reaches the solution
after at most as many passes as the space has dimensions. -/
theorem C169_ends [FiniteDimensional ℝ E] (hA : SPD A) (c : Cautious)
    (upd : Call E → (E →ₗ[ℝ] E) → Option (E →ₗ[ℝ] E)) (hupd : upd = rbfgs c ∨ upd = rbroyden c 1)
    (hacc : ∀ j, A (linearCG A b x0 j).x ≠ b → Accepts c A b x0 j) :
    ∃ k x q, k ≤ Module.finrank ℝ E ∧ state upd A b x0 k = some (x, q) ∧ A x = b ∧
      ∀ j, j < k → ∃ y q', state upd A b x0 j = some (y, q') ∧ A y ≠ b := by
  have hex : ∃ k, (linearCG A b x0 k).r = 0 := ⟨_, finite_end hA⟩
  have hsol : ∀ j, (linearCG A b x0 j).r = 0 ↔ A (linearCG A b x0 j).x = b := by
    intro j; rw [QuadCG.residual, sub_eq_zero]; exact eq_comm
  have hmin : ∀ j, j < Nat.find hex → A (linearCG A b x0 j).x ≠ b :=
    fun j hj h => Nat.find_min hex hj ((hsol j).mpr h)
  obtain ⟨H, hs, -⟩ := state_eq hA c upd hupd (Nat.find hex) (fun j hj => hacc j (hmin j hj))
  refine ⟨Nat.find hex, _, _, Nat.find_min' hex (finite_end hA), hs,
    (hsol _).mp (Nat.find_spec hex), fun j hj => ?_⟩
  obtain ⟨H', hs', -⟩ := state_eq hA c upd hupd j (fun i hi => hacc i (hmin i (by omega)))
  exact ⟨_, _, hs', hmin j hj⟩

/-- C169: after as many accepted passes as the space has dimensions the operator is the inverse of the
Hessian. -/
theorem C169_inverse [FiniteDimensional ℝ E] (hA : SPD A) (c : Cautious)
    (upd : Call E → (E →ₗ[ℝ] E) → Option (E →ₗ[ℝ] E)) (hupd : upd = rbfgs c ∨ upd = rbroyden c 1)
    (hacc : ∀ j, j < Module.finrank ℝ E → Accepts c A b x0 j) :
    ∃ x q, state upd A b x0 (Module.finrank ℝ E) = some (x, q) ∧ A x = b ∧
      (∀ v, q.H (A v) = v) ∧ ∀ v, A (q.H v) = v := by
  obtain ⟨H, hs, hH⟩ := state_eq hA c upd hupd (Module.finrank ℝ E) hacc
  have hne : ∀ j, j < Module.finrank ℝ E → (linearCG A b x0 j).r ≠ 0 := fun j hj => accepts_ne hA (hacc j hj)
  have hli : LinearIndependent ℝ (fun i : Fin (Module.finrank ℝ E) => (linearCG A b x0 i).r) :=
    linearIndependent_of_ne_zero_of_inner_eq_zero (fun i => hne i i.2)
      (fun i j hij => orth hA (fun h => hij (Fin.ext h)))
  have hspan : Submodule.span ℝ (Set.range fun i : Fin (Module.finrank ℝ E) => (linearCG A b x0 i).r) = ⊤ :=
    hli.span_eq_top_of_card_eq_finrank' (by simp)
  have hfix : ∀ i, i < Module.finrank ℝ E → H (A (linearCG A b x0 i).r) = (linearCG A b x0 i).r := by
    intro i hi
    cases i with
    | zero => exact hH.secant 0 hi
    | succ i =>
      have e : (linearCG A b x0 (i + 1)).r
          = (linearCG A b x0 (i + 1)).p - be A b x0 i • (linearCG A b x0 i).p := by
        rw [p_succ]; abel
      rw [e, map_sub, map_sub, map_smul, map_smul, hH.secant _ hi, hH.secant i (by omega)]
  have hHA : H ∘ₗ A = LinearMap.id := by
    apply LinearMap.ext_on_range hspan
    intro i
    exact hfix i i.2
  refine ⟨_, _, hs, ?_, fun v => LinearMap.congr_fun hHA v, fun v => ?_⟩
  · have := finite_end (A := A) (b := b) (x0 := x0) hA
    rw [QuadCG.residual, sub_eq_zero] at this
    exact this.symm
  · have := mul_eq_one_comm.mp (show H * A = 1 from hHA)
    exact LinearMap.congr_fun this v

/-- C169: when the cautious test passes. With curvature at least `l`, it is enough that `nu |g|^mu` does not
exceed `l` and that the step is not too short. -/
theorem C169_accepts (c : Cautious) (l : ℝ) (hl : ∀ v, l * ⟪v, v⟫ ≤ ⟪v, A v⟫) (j : Nat)
    (h1 : c.nu * ‖A (linearCG A b x0 j).x - b‖ ^ c.mu ≤ l)
    (h0 : 0 ≤ c.eps)
    (h2 : c.eps < ‖(linearCG A b x0 (j + 1)).x - (linearCG A b x0 j).x‖ ^ 2)
    (h3 : c.eps < l * ‖(linearCG A b x0 (j + 1)).x - (linearCG A b x0 j).x‖ ^ 2) :
    Accepts c A b x0 j := by
  unfold Accepts
  dsimp only
  set s := (linearCG A b x0 (j + 1)).x - (linearCG A b x0 j).x
  have hs := hl s
  rw [real_inner_self_eq_norm_sq] at hs ⊢
  have hp : 0 < ‖s‖ ^ 2 := lt_of_le_of_lt h0 h2
  refine ⟨⟨hp.ne', ?_⟩, Or.inr ⟨h2, by linarith⟩⟩
  rw [le_div_iff₀ hp]
  nlinarith

/-! ### Far from the solution -/

/-- The method of steepest descent with exact steps. -/
noncomputable def steepest (A : E →ₗ[ℝ] E) (b x0 : E) : Nat → E
  | 0 => x0
  | k + 1 =>
    let x := steepest A b x0 k
    x - (‖A x - b‖ ^ 2 / ⟪A x - b, A (A x - b)⟫) • (A x - b)

/-- C170: with the default `isconvex = false`, as long as `nu |g|^mu` exceeds the largest curvature, every
update is refused and RBFGS and RBroydenFamily are the method of steepest descent. -/
theorem C170_far_is_steepest (c : Cautious) (hconv : c.isconvex = false) (phi : ℝ)
    (upd : Call E → (E →ₗ[ℝ] E) → Option (E →ₗ[ℝ] E)) (hupd : upd = rbfgs c ∨ upd = rbroyden c phi)
    (L : ℝ) (hL : ∀ v, ⟪v, A v⟫ ≤ L * ⟪v, v⟫) (k : Nat)
    (hfar : ∀ j, j < k → L < c.nu * ‖A (steepest A b x0 j) - b‖ ^ c.mu) :
    state upd A b x0 k
      = some (steepest A b x0 k, ⟨LinearMap.id, A (steepest A b x0 k) - b, k⟩) := by
  induction k with
  | zero => rfl
  | succ k ih =>
    show (state upd A b x0 k).bind _ = _
    rw [ih (fun j hj => hfar j (by omega))]
    set x := steepest A b x0 k with hx
    have hf := hfar k (Nat.lt_succ_self k)
    rw [← hx] at hf
    set t := exactStep A (A x - b) (-(A x - b)) with ht
    have htv : t = ‖A x - b‖ ^ 2 / ⟪A x - b, A (A x - b)⟫ := by
      rw [ht, exactStep, map_neg, inner_neg_neg, inner_neg_right, neg_neg, real_inner_self_eq_norm_sq]
    have hx2 : x + t • (-(A x - b)) = steepest A b x0 (k + 1) := by
      show _ = x - (‖A x - b‖ ^ 2 / ⟪A x - b, A (A x - b)⟫) • (A x - b)
      rw [htv, smul_neg, ← sub_eq_add_neg]
    have hT : ∀ G : E →ₗ[ℝ] E, tranH (LinearIsometryEquiv.refl ℝ E) G = G := by
      intro G; ext v; rfl
    have hyy : (1 / (1 : ℝ)) • (A (steepest A b x0 (k + 1)) - b) - (A x - b) = A (t • (-(A x - b))) := by
      rw [← hx2, map_add, div_one, one_smul]; abel
    have hrej : ∀ s : E, ¬ acceptPair c ‖A x - b‖ ‖A x0 - b‖ ⟪s, s⟫ ⟪s, A s⟫ := by
      rintro s ⟨⟨h0, h1⟩, -⟩
      have hp : 0 < ⟪s, s⟫ := lt_of_le_of_ne real_inner_self_nonneg (Ne.symm h0)
      rw [le_div_iff₀ hp] at h1
      have := hL s
      nlinarith
    simp only [Option.bind_some, pass, runStep, qnDir, LinearMap.id_apply, ← ht, hx2]
    have hcall : upd ⟨LinearIsometryEquiv.refl ℝ E, t • (-(A x - b)), A x - b,
        A (steepest A b x0 (k + 1)) - b, 1, ‖A x - b‖, ‖A x0 - b‖, k + 1⟩ LinearMap.id
        = some LinearMap.id := by
      rcases hupd with rfl | rfl
      · unfold rbfgs
        simp only [Call.s, Call.y, LinearIsometryEquiv.coe_refl, id_eq, hyy, hT, hconv]
        rw [if_neg (hrej _)]
        simp
      · unfold rbroyden
        simp only [Call.s, Call.y, LinearIsometryEquiv.coe_refl, id_eq, hyy, hT, hconv]
        rw [if_neg (hrej _)]
        simp
    rw [hcall]
    rfl

/-! ### Concrete cases -/

theorem exA_le (v : EuclideanSpace ℝ (Fin 2)) : ⟪v, exA v⟫ ≤ 2 * ⟪v, v⟫ := by
  simp only [exA, LinearMap.coe_mk, AddHom.coe_mk, PiLp.inner_apply, Fin.sum_univ_two]
  simp
  nlinarith [mul_self_nonneg (v 0), mul_self_nonneg (v 1)]

theorem exA_ge (v : EuclideanSpace ℝ (Fin 2)) : 1 * ⟪v, v⟫ ≤ ⟪v, exA v⟫ := by
  simp only [exA, LinearMap.coe_mk, AddHom.coe_mk, PiLp.inner_apply, Fin.sum_univ_two]
  simp
  nlinarith [mul_self_nonneg (v 0), mul_self_nonneg (v 1)]

/-- The first two steps of the conjugate gradient method for `diag(1, 2)` from `(1, 1)`. -/
theorem cg_one : linearCG exA 0 !₂[1, 1] 1 = ⟨!₂[4 / 9, -1 / 9], !₂[-4 / 9, 2 / 9], !₂[-40 / 81, 10 / 81]⟩ := by
  have h0 : (0 : EuclideanSpace ℝ (Fin 2)) - exA !₂[1, 1] = !₂[-1, -2] := by
    ext i; fin_cases i <;> simp [exA]
  have h1 : exA !₂[-1, -2] = !₂[-1, -4] := by ext i; fin_cases i <;> simp [exA]; norm_num
  have h2 : ‖(!₂[-1, -2] : EuclideanSpace ℝ (Fin 2))‖ ^ 2 = 5 := by
    rw [EuclideanSpace.norm_sq_eq, Fin.sum_univ_two]; simp; norm_num
  have h3 : ⟪(!₂[-1, -2] : EuclideanSpace ℝ (Fin 2)), !₂[-1, -4]⟫ = 9 := by
    simp [PiLp.inner_apply, Fin.sum_univ_two]; norm_num
  have h4 : (!₂[-1, -2] : EuclideanSpace ℝ (Fin 2)) - (5 / 9 : ℝ) • !₂[-1, -4] = !₂[-4 / 9, 2 / 9] := by
    ext i; fin_cases i <;> simp <;> norm_num
  have h5 : ‖(!₂[-4 / 9, 2 / 9] : EuclideanSpace ℝ (Fin 2))‖ ^ 2 = 20 / 81 := by
    rw [EuclideanSpace.norm_sq_eq, Fin.sum_univ_two]; simp; norm_num
  simp only [linearCG, h0, h1, h2, h3, h4, h5, CG.mk.injEq, true_and]
  constructor <;> ext i <;> fin_cases i <;> simp <;> norm_num

theorem cg_two_x : (linearCG exA 0 !₂[1, 1] 2).x = 0 := by
  rw [x_succ, al, cg_one]
  have h1 : exA !₂[-40 / 81, 10 / 81] = !₂[-40 / 81, 20 / 81] := by
    ext i; fin_cases i <;> simp [exA]; norm_num
  have h3 : ⟪(!₂[-40 / 81, 10 / 81] : EuclideanSpace ℝ (Fin 2)), !₂[-40 / 81, 20 / 81]⟫ = 1800 / 6561 := by
    simp [PiLp.inner_apply, Fin.sum_univ_two]; norm_num
  have h5 : ‖(!₂[-4 / 9, 2 / 9] : EuclideanSpace ℝ (Fin 2))‖ ^ 2 = 20 / 81 := by
    rw [EuclideanSpace.norm_sq_eq, Fin.sum_univ_two]; simp; norm_num
  simp only [h1, h3, h5]
  ext i; fin_cases i <;> simp <;> norm_num

/-- With the default parameters (and a threshold far above the machine epsilon) both updates of this run
are accepted. -/
theorem ex_accepts : ∀ j, j < 2 → Accepts ⟨1 / 10000, 1, 1 / 1000, false⟩ exA 0 !₂[1, 1] j := by
  have small : ∀ v : EuclideanSpace ℝ (Fin 2), ‖v‖ ^ 2 ≤ 100 → (1 : ℝ) / 10000 * ‖v‖ ^ (1 : ℝ) ≤ 1 := by
    intro v hv
    rw [Real.rpow_one]
    nlinarith [norm_nonneg v]
  have n2 : ∀ a c : ℝ, ‖(!₂[a, c] : EuclideanSpace ℝ (Fin 2))‖ ^ 2 = a ^ 2 + c ^ 2 := by
    intro a c
    rw [EuclideanSpace.norm_sq_eq, Fin.sum_univ_two]; simp
  have e0 : exA !₂[1, 1] - 0 = !₂[1, 2] := by ext i; fin_cases i <;> simp [exA]
  have e1 : exA !₂[4 / 9, -1 / 9] - 0 = !₂[4 / 9, -2 / 9] := by
    ext i; fin_cases i <;> simp [exA]; norm_num
  have d0 : (!₂[4 / 9, -1 / 9] : EuclideanSpace ℝ (Fin 2)) - !₂[1, 1] = !₂[-5 / 9, -10 / 9] := by
    ext i; fin_cases i <;> simp <;> norm_num
  have x0e : (linearCG exA 0 !₂[1, 1] 0).x = !₂[1, 1] := rfl
  intro j hj
  have : j = 0 ∨ j = 1 := by omega
  rcases this with rfl | rfl
  · apply C169_accepts _ 1 exA_ge 0
    · rw [x0e, e0]; apply small; rw [n2]; norm_num
    · norm_num
    · rw [cg_one, x0e]; dsimp only; rw [d0, n2]; norm_num
    · rw [cg_one, x0e]; dsimp only; rw [d0, n2]; norm_num
  · apply C169_accepts _ 1 exA_ge 1
    · rw [cg_one]; dsimp only; rw [e1]; apply small; rw [n2]; norm_num
    · norm_num
    · rw [cg_two_x, cg_one]; dsimp only; rw [zero_sub, norm_neg, n2]; norm_num
    · rw [cg_two_x, cg_one]; dsimp only; rw [zero_sub, norm_neg, n2]; norm_num

/-- The operator after two passes is the inverse of `diag(1, 2)`. -/
example : ∃ x q, state (rbfgs ⟨1 / 10000, 1, 1 / 1000, false⟩) exA 0 !₂[1, 1]
      (Module.finrank ℝ (EuclideanSpace ℝ (Fin 2))) = some (x, q) ∧ exA x = 0 ∧
      (∀ v, q.H (exA v) = v) ∧ ∀ v, exA (q.H v) = v := by
  apply C169_inverse exA_spd ⟨1 / 10000, 1, 1 / 1000, false⟩ _ (Or.inl rfl)
  rw [finrank_euclideanSpace_fin]
  exact ex_accepts

/-- One pass of steepest descent for `diag(1, 2)` and the zero right-hand side. -/
theorem steepest_pass (a : ℝ) (ha : a ≠ 0) (e : ℝ) (he : e ^ 2 = 1) (k : Nat) (x0 : EuclideanSpace ℝ (Fin 2))
    (h : steepest exA 0 x0 k = !₂[2 * a, e * a]) :
    steepest exA 0 x0 (k + 1) = !₂[2 * (a / 3), -e * (a / 3)] := by
  have hg : exA !₂[2 * a, e * a] - 0 = !₂[2 * a, 2 * (e * a)] := by
    rw [sub_zero]; ext i; fin_cases i <;> simp [exA]
  show steepest exA 0 x0 k - _ = _
  rw [h, hg]
  have h1 : ‖!₂[2 * a, 2 * (e * a)]‖ ^ 2 = 8 * a ^ 2 := by
    rw [EuclideanSpace.norm_sq_eq, Fin.sum_univ_two]
    simp only [Real.norm_eq_abs, sq_abs]
    simp
    linear_combination 4 * a ^ 2 * he
  have h2 : ⟪!₂[2 * a, 2 * (e * a)], exA !₂[2 * a, 2 * (e * a)]⟫ = 12 * a ^ 2 := by
    simp only [exA, LinearMap.coe_mk, AddHom.coe_mk, PiLp.inner_apply, Fin.sum_univ_two]
    simp only [RCLike.inner_apply, conj_trivial]
    simp
    linear_combination 8 * a ^ 2 * he
  rw [h1, h2]
  have h3 : 8 * a ^ 2 / (12 * a ^ 2) = 2 / 3 := by field_simp; norm_num
  rw [h3]
  ext i
  fin_cases i <;> simp <;> ring

/-- C170: the property that RBFGS with exact steps solves every quadratic in as many passes as there are
dimensions fails for the default parameters of the library: for `diag(1, 2)` and a starting point far from the
solution, the third iterate is not the solution and the operator is still the identity. -/
theorem C170_no_finite_end (eps : ℝ) :
    ∃ x0 x : EuclideanSpace ℝ (Fin 2), ∃ q,
      state (rbfgs ⟨1 / 10000, 1, eps, false⟩) exA 0 x0 (Module.finrank ℝ (EuclideanSpace ℝ (Fin 2)))
        = some (x, q) ∧ exA x ≠ 0 ∧ q.H = LinearMap.id := by
  set x0 : EuclideanSpace ℝ (Fin 2) := !₂[2 * 1000000, 1 * 1000000] with hx0
  have s0 : steepest exA 0 x0 0 = !₂[2 * 1000000, 1 * 1000000] := rfl
  have s1 := steepest_pass 1000000 (by norm_num) 1 (by norm_num) 0 x0 s0
  have s2 := steepest_pass (1000000 / 3) (by norm_num) (-1) (by norm_num) 1 x0 s1
  have key := C170_far_is_steepest (A := exA) (b := 0) (x0 := x0) ⟨1 / 10000, 1, eps, false⟩ rfl 1
    (rbfgs ⟨1 / 10000, 1, eps, false⟩) (Or.inl rfl) 2 exA_le 2 (by
      have big : ∀ v : EuclideanSpace ℝ (Fin 2), 100000 ≤ v 0 →
          (2 : ℝ) < 1 / 10000 * ‖exA v - 0‖ ^ (1 : ℝ) := by
        intro v hv
        have : ‖(exA v - 0) 0‖ ≤ ‖exA v - 0‖ := PiLp.norm_apply_le _ _
        have e : (exA v - 0) 0 = v 0 := by simp [exA]
        rw [e, Real.norm_of_nonneg (by linarith)] at this
        rw [Real.rpow_one]
        linarith
      intro j hj
      have : j = 0 ∨ j = 1 := by omega
      rcases this with rfl | rfl
      · apply big; rw [s0]; simp; norm_num
      · apply big; rw [s1]; simp; norm_num)
  rw [finrank_euclideanSpace_fin]
  refine ⟨x0, _, _, key, ?_, rfl⟩
  rw [s2]
  intro h
  have := congrArg (fun v : EuclideanSpace ℝ (Fin 2) => v 0) h
  simp [exA] at this

end Verif.QuadQN
