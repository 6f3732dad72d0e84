import Verif.Solver.QuadCG
import Verif.Props.QuasiNewton

/-!
# The quasi-Newton solvers on a quadratic function

The loop of `SolversSMLS::Run` (`Solvers/SolversSMLS.cpp:7-170`) for `RBFGS` (`Solvers/RBFGS.cpp`) and
`RBroydenFamily` (`Solvers/RBroydenFamily.cpp`) on the Euclidean space with the cost
`1/2 <x, A x> - <b, x>`: the retraction is the addition, the vector transport is the identity and `Beta` is one
(`Manifolds/Euclidean/Euclidean.cpp`, `Manifolds/Manifold.cpp`). As in `Verif.Solver.QuadCG` the step is the
minimiser along the search direction (`LineSearch_LS = LSSM_INPUTFUN`, `IsPureLSInput = true`,
`SolversSMLS.cpp:69-88`).

Simplifications: real arithmetic; a supplied step below the machine epsilon is used as it is; the stopping test
is left out.
-/

namespace Verif.QuadQN

open Verif.QN Verif.QuadCG
open scoped RealInnerProductSpace Classical

variable {E : Type*} [NormedAddCommGroup E] [InnerProductSpace ℝ E]

/-- One pass of the loop (`SolversSMLS.cpp:46-140`): `GetSearchDir`, the step, `UpdateData`. The state is the
iterate and the state of the quasi-Newton solver. -/
noncomputable def pass (upd : Call E → (E →ₗ[ℝ] E) → Option (E →ₗ[ℝ] E)) (A : E →ₗ[ℝ] E) (b : E) (ngf0 : ℝ)
    (st : E × QNState E) : Option (E × QNState E) :=
  let d := qnDir st.2.H st.2.gf1
  let t := exactStep A st.2.gf1 d
  let x2 := st.1 + t • d
  (runStep upd ngf0 { T := LinearIsometryEquiv.refl ℝ E, t := t, beta := 1, gf2 := A x2 - b } st.2).map
    fun q => (x2, q)

/-- The state before pass `k`; at the start the operator is the identity (`RBFGS.cpp:20-40`,
`RBroydenFamily.cpp:19-39`). -/
noncomputable def state (upd : Call E → (E →ₗ[ℝ] E) → Option (E →ₗ[ℝ] E)) (A : E →ₗ[ℝ] E) (b x0 : E) :
    Nat → Option (E × QNState E)
  | 0 => some (x0, { H := LinearMap.id, gf1 := A x0 - b, iter := 0 })
  | k + 1 => (state upd A b x0 k).bind (pass upd A b ‖A x0 - b‖)

/-! ### Specification -/

/-- The cautious test passes for the pair of the `j`-th step of the linear conjugate gradient method: the
displacement between two iterates and its image under the Hessian. -/
def Accepts (c : Cautious) (A : E →ₗ[ℝ] E) (b x0 : E) (j : Nat) : Prop :=
  let s := (linearCG A b x0 (j + 1)).x - (linearCG A b x0 j).x
  acceptPair c ‖A (linearCG A b x0 j).x - b‖ ‖A x0 - b‖ ⟪s, s⟫ ⟪s, A s⟫

/-! ### Lemmas -/

/-- What one BFGS correction does to a vector orthogonal to the step. -/
theorem bfgs_orth {H : E →ₗ[ℝ] E} (h : IsSym H) {s y w : E} (hw : ⟪s, w⟫ = 0) :
    bfgsThree H s y ⟪s, y⟫ w = H w - (1 / ⟪s, y⟫ * ⟪y, H w⟫) • s := by
  rw [C23_bfgs_formula h]
  simp [hw]

variable {A : E →ₗ[ℝ] E} {b x0 : E}

/-- What holds of the operator before pass `k`. -/
structure OpInv (A : E →ₗ[ℝ] E) (b x0 : E) (k : Nat) (H : E →ₗ[ℝ] E) : Prop where
  spd : IsSPD H
  fresh : ∃ γ : ℝ, 0 < γ ∧
    (∀ w, (∀ i, i < k → ⟪(linearCG A b x0 i).p, w⟫ = 0) →
      (∀ i, i < k → ⟪A (linearCG A b x0 i).p, w⟫ = 0) → H w = γ • w) ∧
    H (linearCG A b x0 k).r = γ • (linearCG A b x0 k).p
  secant : ∀ i, i < k → H (A (linearCG A b x0 i).p) = (linearCG A b x0 i).p

theorem opInv_id_scaled (γ : ℝ) (h : 0 < γ) : OpInv A b x0 0 (γ • LinearMap.id) :=
  ⟨scaledId_spd h, ⟨γ, h, fun w _ _ => by simp, by simp [p_zero]⟩, fun i hi => by omega⟩

theorem opInv_id : OpInv A b x0 0 LinearMap.id := by
  have := opInv_id_scaled (A := A) (b := b) (x0 := x0) 1 one_pos
  rwa [one_smul] at this

/-- A residual is orthogonal to the images of the directions of all steps but the one before it. -/
theorem Ap_r (hA : SPD A) {i j : Nat} (hr : (linearCG A b x0 i).r ≠ 0) (hi : i < j) (hij : i + 1 ≠ j) :
    ⟪A (linearCG A b x0 i).p, (linearCG A b x0 j).r⟫ = 0 := by
  have h0 : al A b x0 i ≠ 0 := by
    intro h0
    have := al_mul hA (inv_all hA i (b := b) (x0 := x0))
    rw [h0, zero_mul] at this
    exact hr (by simpa using this.symm)
  have e : al A b x0 i • A (linearCG A b x0 i).p
      = (linearCG A b x0 i).r - (linearCG A b x0 (i + 1)).r := by rw [r_succ]; abel
  have : al A b x0 i * ⟪A (linearCG A b x0 i).p, (linearCG A b x0 j).r⟫ = 0 := by
    rw [← real_inner_smul_left, e, inner_sub_left, orth hA (by omega), orth hA hij, sub_zero]
  exact (mul_eq_zero.mp this).resolve_left h0

/-- The correction with the pair of step `k` carries the invariant on. -/
theorem opInv_step (hA : SPD A) {k : Nat} (hne : ∀ j, j ≤ k → (linearCG A b x0 j).r ≠ 0) {H : E →ₗ[ℝ] E}
    (h : OpInv A b x0 k H) :
    OpInv A b x0 (k + 1) (bfgsThree H (al A b x0 k • (linearCG A b x0 k).p)
      (al A b x0 k • A (linearCG A b x0 k).p)
      ⟪al A b x0 k • (linearCG A b x0 k).p, al A b x0 k • A (linearCG A b x0 k).p⟫) := by
  obtain ⟨hspd, ⟨γ, hγ, hw, hrk⟩, hsec⟩ := h
  have hI : Inv A b x0 k := inv_all hA k
  have hI' : Inv A b x0 (k + 1) := inv_all hA (k + 1)
  have hrpos : 0 < ‖(linearCG A b x0 k).r‖ ^ 2 := by
    have := norm_pos_iff.mpr (hne k (le_refl _)); positivity
  have hp0 : (linearCG A b x0 k).p ≠ 0 := by
    intro h0
    have := hI.rp
    rw [h0, inner_zero_right] at this
    linarith
  have hpAp : 0 < ⟪(linearCG A b x0 k).p, A (linearCG A b x0 k).p⟫ := hA.2 _ hp0
  have halm := al_mul hA hI
  have hal : 0 < al A b x0 k := by unfold al; positivity
  have hsy : ⟪al A b x0 k • (linearCG A b x0 k).p, al A b x0 k • A (linearCG A b x0 k).p⟫
      = al A b x0 k * ‖(linearCG A b x0 k).r‖ ^ 2 := by
    rw [real_inner_smul_left, real_inner_smul_right, halm]
  have hsypos : 0 < ⟪al A b x0 k • (linearCG A b x0 k).p, al A b x0 k • A (linearCG A b x0 k).p⟫ := by
    rw [hsy]; positivity
  have hne' := hsypos.ne'
  refine ⟨C23_bfgs_update_spd hspd hsypos, ⟨γ, hγ, ?_, ?_⟩, ?_⟩
  · intro w h1 h2
    rw [bfgs_orth hspd.1 (by rw [real_inner_smul_left, h1 k (by omega), mul_zero]),
      hw w (fun i hi => h1 i (by omega)) (fun i hi => h2 i (by omega)),
      real_inner_smul_left _ (γ • w), real_inner_smul_right _ w, h2 k (by omega)]
    simp
  · have hHr : H (linearCG A b x0 (k + 1)).r = γ • (linearCG A b x0 (k + 1)).r := by
      apply hw
      · intro i hi
        rw [real_inner_comm]; exact hI'.r_p i (by omega)
      · intro i hi
        exact Ap_r hA (hne i (by omega)) (by omega) (by omega)
    rw [bfgs_orth hspd.1 (by
      rw [real_inner_smul_left, real_inner_comm, hI'.r_p k (by omega), mul_zero]), hHr, hsy]
    have e : al A b x0 k • A (linearCG A b x0 k).p
        = (linearCG A b x0 k).r - (linearCG A b x0 (k + 1)).r := by rw [r_succ]; abel
    have e2 : ⟪al A b x0 k • A (linearCG A b x0 k).p, γ • (linearCG A b x0 (k + 1)).r⟫
        = -(γ * ‖(linearCG A b x0 (k + 1)).r‖ ^ 2) := by
      rw [e, real_inner_smul_right, inner_sub_left, orth hA (by omega), real_inner_self_eq_norm_sq]
      ring
    rw [e2, p_succ, be, smul_add, smul_smul, smul_smul, sub_eq_add_neg, ← neg_smul]
    congr 2
    field_simp
  · intro i hi
    rcases Nat.lt_succ_iff_lt_or_eq.mp hi with hi' | rfl
    · have c1 : ⟪(linearCG A b x0 k).p, A (linearCG A b x0 i).p⟫ = 0 := hI.pAp i hi'
      rw [bfgs_orth hspd.1 (by rw [real_inner_smul_left, c1, mul_zero]), hsec i hi',
        real_inner_smul_left _ (linearCG A b x0 i).p, hA.1, c1]
      simp
    · have := C23_bfgs_secant hspd.1 hne'
      rw [map_smul] at this
      exact smul_right_injective E hal.ne' this

theorem accepts_ne (hA : SPD A) {c : Cautious} {j : Nat} (h : Accepts c A b x0 j) :
    (linearCG A b x0 j).r ≠ 0 := by
  intro h0
  apply h.1.1
  rw [x_succ, r_zero_p_zero A b x0 j h0]
  simp

/-- One pass from a point of the conjugate gradient method. -/
theorem pass_eq (hA : SPD A) (c : Cautious) (upd : Call E → (E →ₗ[ℝ] E) → Option (E →ₗ[ℝ] E))
    (hupd : upd = rbfgs c ∨ upd = rbroyden c 1) (k : Nat)
    (hacc : ∀ j, j ≤ k → Accepts c A b x0 j) (H : E →ₗ[ℝ] E) (h : OpInv A b x0 k H) :
    ∃ H', pass upd A b ‖A x0 - b‖ ((linearCG A b x0 k).x, ⟨H, A (linearCG A b x0 k).x - b, k⟩)
        = some ((linearCG A b x0 (k + 1)).x, ⟨H', A (linearCG A b x0 (k + 1)).x - b, k + 1⟩) ∧
      OpInv A b x0 (k + 1) H' := by
  have hne : ∀ j, j ≤ k → (linearCG A b x0 j).r ≠ 0 := fun j hj => accepts_ne hA (hacc j hj)
  have hI : Inv A b x0 k := inv_all hA k
  have hg : ∀ j, A (linearCG A b x0 j).x - b = -(linearCG A b x0 j).r := by
    intro j; rw [QuadCG.residual]; abel
  have hrpos : 0 < ‖(linearCG A b x0 k).r‖ ^ 2 := by
    have := norm_pos_iff.mpr (hne k (le_refl _)); positivity
  have hp0 : (linearCG A b x0 k).p ≠ 0 := by
    intro h0
    have := hI.rp
    rw [h0, inner_zero_right] at this
    linarith
  have hpAp : 0 < ⟪(linearCG A b x0 k).p, A (linearCG A b x0 k).p⟫ := hA.2 _ hp0
  have hal : 0 < al A b x0 k := by unfold al; positivity
  -- the direction and the step
  obtain ⟨γ, hγ, hγw, hγr⟩ := h.fresh
  have hdir : qnDir H (A (linearCG A b x0 k).x - b) = γ • (linearCG A b x0 k).p := by
    rw [hg, qnDir, map_neg, neg_neg, hγr]
  have hstep : exactStep A (A (linearCG A b x0 k).x - b) (γ • (linearCG A b x0 k).p) • γ •
      (linearCG A b x0 k).p = al A b x0 k • (linearCG A b x0 k).p := by
    rw [hg, exactStep, smul_smul, map_smul, real_inner_smul_right, real_inner_smul_right,
      real_inner_smul_left, inner_neg_left, hI.rp, al]
    congr 1
    field_simp
  have hs : (linearCG A b x0 (k + 1)).x - (linearCG A b x0 k).x = al A b x0 k • (linearCG A b x0 k).p := by
    rw [x_succ]; abel
  -- the rescaled operator
  set s := al A b x0 k • (linearCG A b x0 k).p with hsdef
  set y := al A b x0 k • A (linearCG A b x0 k).p with hydef
  have hAs : A s = y := by rw [hsdef, hydef, map_smul]
  have hsy : 0 < ⟪s, y⟫ := by
    rw [hsdef, hydef, real_inner_smul_left, real_inner_smul_right]; positivity
  have hy0 : y ≠ 0 := by rintro h0; rw [h0, inner_zero_right] at hsy; exact lt_irrefl _ hsy
  have hacck : acceptPair c ‖A (linearCG A b x0 k).x - b‖ ‖A x0 - b‖ ⟪s, s⟫ ⟪s, y⟫ := by
    have := hacc k (le_refl _)
    unfold Accepts at this
    dsimp only at this
    rwa [hs, hAs] at this
  have hH1 : OpInv A b x0 k (if c.isconvex = true ∧ k + 1 = 1 ∧ 0 < ⟪s, y⟫ then
      (⟪s, y⟫ / ⟪y, y⟫) • LinearMap.id else H) := by
    split
    · rename_i hc
      have hk0 : k = 0 := by omega
      have : 0 < ⟪y, y⟫ := real_inner_self_pos.mpr hy0
      have hq : 0 < ⟪s, y⟫ / ⟪y, y⟫ := div_pos hsy this
      generalize ⟪s, y⟫ / ⟪y, y⟫ = q at hq ⊢
      rw [hk0]
      exact opInv_id_scaled _ hq
    · exact h
  have hT : ∀ G : E →ₗ[ℝ] E, tranH (LinearIsometryEquiv.refl ℝ E) G = G := by
    intro G; ext v; rfl
  have hx2 : (linearCG A b x0 k).x + s = (linearCG A b x0 (k + 1)).x := by rw [← hs]; abel
  have hyy : (1 / (1 : ℝ)) • (A (linearCG A b x0 (k + 1)).x - b)
      - (A (linearCG A b x0 k).x - b) = y := by
    rw [← hAs, ← hs, map_sub, div_one, one_smul]; abel
  have key := opInv_step hA hne hH1
  rw [← hsdef, ← hydef] at key
  refine ⟨_, ?_, key⟩
  unfold pass runStep
  dsimp only
  rw [hdir, hstep, hx2]
  have hcall : upd ⟨LinearIsometryEquiv.refl ℝ E, s, A (linearCG A b x0 k).x - b,
        A (linearCG A b x0 (k + 1)).x - b, 1, ‖A (linearCG A b x0 k).x - b‖, ‖A x0 - b‖, k + 1⟩ H
      = some (bfgsThree (if c.isconvex = true ∧ k + 1 = 1 ∧ 0 < ⟪s, y⟫ then
      (⟪s, y⟫ / ⟪y, y⟫) • LinearMap.id else H) s y ⟪s, y⟫) := by
    rcases hupd with rfl | rfl
    · unfold rbfgs
      simp only [Call.s, Call.y, LinearIsometryEquiv.coe_refl, id_eq, hyy, hT]
      rw [if_pos hacck, if_neg hsy.ne']
    · unfold rbroyden
      simp only [Call.s, Call.y, LinearIsometryEquiv.coe_refl, id_eq, hyy, hT]
      set G : E →ₗ[ℝ] E := if c.isconvex = true ∧ k + 1 = 1 ∧ 0 < ⟪s, y⟫ then
        (⟪s, y⟫ / ⟪y, y⟫) • LinearMap.id else H with hG
      have hyG : ⟪y, G y⟫ ≠ 0 := by
        have := hH1.spd.2 y hy0
        rw [real_inner_comm]
        exact this.ne'
      rw [if_pos hacck, if_neg (by rintro (h1 | h1); exact hsy.ne' h1; exact hyG h1),
        C23_broyden_default_is_bfgs hH1.spd.1 hsy.ne' hyG]
  rw [hcall]
  rfl

/-- The state of the run while the cautious test passes. -/
theorem state_eq (hA : SPD A) (c : Cautious) (upd : Call E → (E →ₗ[ℝ] E) → Option (E →ₗ[ℝ] E))
    (hupd : upd = rbfgs c ∨ upd = rbroyden c 1) (k : Nat) (hacc : ∀ j, j < k → Accepts c A b x0 j) :
    ∃ H, state upd A b x0 k
        = some ((linearCG A b x0 k).x, ⟨H, A (linearCG A b x0 k).x - b, k⟩) ∧ OpInv A b x0 k H := by
  induction k with
  | zero => exact ⟨LinearMap.id, rfl, opInv_id⟩
  | succ k ih =>
    obtain ⟨H, hs, hH⟩ := ih (fun j hj => hacc j (by omega))
    obtain ⟨H', hp, hH'⟩ := pass_eq hA c upd hupd k (fun j hj => hacc j (by omega)) H hH
    refine ⟨H', ?_, hH'⟩
    show (state upd A b x0 k).bind _ = _
    rw [hs]
    exact hp

end Verif.QuadQN
