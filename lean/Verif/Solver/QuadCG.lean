import Verif.Solver.Direction
import Mathlib.Analysis.InnerProductSpace.Orthonormal
import Mathlib.LinearAlgebra.FiniteDimensional.Lemmas

/-!
# The conjugate gradient solver on a quadratic function

The loop of `SolversSMLS::Run` (`Solvers/SolversSMLS.cpp:7-170`) for `RCG` (`Solvers/RCG.cpp:73-147`) on the
Euclidean space with the cost `1/2 <x, A x> - <b, x>`: the gradient at `x` is `A x - b`, the retraction is the
addition and the vector transport is the identity (`Manifolds/Euclidean/Euclidean.cpp`). The step size is the
minimiser along the search direction, which a user obtains with `LineSearch_LS = LSSM_INPUTFUN` and
`IsPureLSInput = true` (`SolversSMLS.cpp:69-88`) by supplying that step.

Simplifications: real arithmetic; a supplied step below the machine epsilon is used as it is (the code takes
the initial length instead, `SolversSMLS.cpp:75`); `Accuracy = 0`, the default; the stopping test is left out, the run is the sequence of iterates; a NaN
direction (`none`) stays `none`.
-/

namespace Verif.QuadCG

open Verif.Dir
open scoped RealInnerProductSpace Classical

variable {E : Type*} [NormedAddCommGroup E] [InnerProductSpace ℝ E]

/-- The data of a run: the Hessian, the linear term, the constant `sqrt(eps)` of the safeguard, the
preconditioner (`Problem::PreConditioner`), the member parameter `RCGmethod` and the initial iterate. -/
structure Setup (E : Type*) [NormedAddCommGroup E] [InnerProductSpace ℝ E] where
  A : E →ₗ[ℝ] E
  b : E
  c : ℝ
  P : E → E
  m : Method
  x0 : E

/-- The gradient at `x`. -/
def Setup.grad (s : Setup E) (x : E) : E := s.A x - s.b

/-- The step that minimises the quadratic from a point with gradient `g` along `d`. -/
noncomputable def exactStep (A : E →ₗ[ℝ] E) (g d : E) : ℝ := -⟪g, d⟫ / ⟪d, A d⟫

/-- One pass of the loop: `GetSearchDir` (`RCG.cpp:73-86`), the step, `UpdateData` (`RCG.cpp:88-147`). The
state is the iterate and the candidate direction in the member `eta1`; `none` for a vector of NaNs. -/
noncomputable def Setup.pass (s : Setup E) (iter : Nat) (st : E × Option E) : Option (E × Option E) :=
  let g1 := s.grad st.1
  (rcgDir s.c s.P iter st.2 g1).map fun d =>
    let x2 := st.1 + exactStep s.A g1 d • d
    let g2 := s.grad x2
    (x2, rcgUpdate s.m g1 g2 (s.P g1) (s.P g2) g1 d)

/-- The state before pass `k`, `none` once the iterate is not a number. -/
noncomputable def Setup.state (s : Setup E) : Nat → Option (E × Option E)
  | 0 => some (s.x0, none)
  | k + 1 => (s.state k).bind (s.pass k)

/-- The iterate after `k` passes. -/
noncomputable def Setup.iterate (s : Setup E) (k : Nat) : Option E := (s.state k).map Prod.fst

/-! ### Specification: the linear conjugate gradient method -/

/-- Hestenes and Stiefel's method for `A x = b`: iterate, residual and direction. -/
structure CG (E : Type*) where
  x : E
  r : E
  p : E

/-- The textbook recursion. -/
noncomputable def linearCG (A : E →ₗ[ℝ] E) (b x0 : E) : Nat → CG E
  | 0 => ⟨x0, b - A x0, b - A x0⟩
  | k + 1 =>
    let q := linearCG A b x0 k
    let α := ‖q.r‖ ^ 2 / ⟪q.p, A q.p⟫
    let r := q.r - α • A q.p
    ⟨q.x + α • q.p, r, r + (‖r‖ ^ 2 / ‖q.r‖ ^ 2) • q.p⟩

/-! ### Lemmas on the textbook method -/

variable (A : E →ₗ[ℝ] E) (b x0 : E)

/-- `A` is symmetric positive definite. -/
def SPD : Prop := (∀ u v, ⟪A u, v⟫ = ⟪u, A v⟫) ∧ ∀ v, v ≠ 0 → 0 < ⟪v, A v⟫

/-- The step factor of the textbook method. -/
noncomputable def al (k : Nat) : ℝ := ‖(linearCG A b x0 k).r‖ ^ 2 / ⟪(linearCG A b x0 k).p, A (linearCG A b x0 k).p⟫

/-- The direction factor. -/
noncomputable def be (k : Nat) : ℝ := ‖(linearCG A b x0 (k + 1)).r‖ ^ 2 / ‖(linearCG A b x0 k).r‖ ^ 2

theorem r_succ (k : Nat) : (linearCG A b x0 (k + 1)).r
    = (linearCG A b x0 k).r - al A b x0 k • A (linearCG A b x0 k).p := rfl

theorem x_succ (k : Nat) : (linearCG A b x0 (k + 1)).x
    = (linearCG A b x0 k).x + al A b x0 k • (linearCG A b x0 k).p := rfl

theorem p_succ (k : Nat) : (linearCG A b x0 (k + 1)).p
    = (linearCG A b x0 (k + 1)).r + be A b x0 k • (linearCG A b x0 k).p := rfl

theorem p_zero : (linearCG A b x0 0).p = (linearCG A b x0 0).r := rfl

/-- The residual is the negative gradient. -/
theorem residual (k : Nat) : (linearCG A b x0 k).r = b - A (linearCG A b x0 k).x := by
  induction k with
  | zero => rfl
  | succ k ih => rw [r_succ, x_succ, ih, map_add, map_smul]; abel

theorem r_zero_p_zero (k : Nat) (h : (linearCG A b x0 k).r = 0) : (linearCG A b x0 k).p = 0 := by
  cases k with
  | zero => exact h
  | succ k => rw [p_succ, be, h]; simp

theorem r_zero_succ (k : Nat) (h : (linearCG A b x0 k).r = 0) : (linearCG A b x0 (k + 1)).r = 0 := by
  rw [r_succ, h, r_zero_p_zero A b x0 k h]; simp

theorem be_mul (k : Nat) : be A b x0 k * ‖(linearCG A b x0 k).r‖ ^ 2 = ‖(linearCG A b x0 (k + 1)).r‖ ^ 2 := by
  by_cases h : (linearCG A b x0 k).r = 0
  · rw [r_zero_succ A b x0 k h, h]; simp
  · have : ‖(linearCG A b x0 k).r‖ ^ 2 ≠ 0 := by simpa using h
    unfold be
    exact div_mul_cancel₀ _ this

/-- What holds of the state `k`. -/
structure Inv (k : Nat) : Prop where
  rp : ⟪(linearCG A b x0 k).r, (linearCG A b x0 k).p⟫ = ‖(linearCG A b x0 k).r‖ ^ 2
  r_p : ∀ i, i < k → ⟪(linearCG A b x0 k).r, (linearCG A b x0 i).p⟫ = 0
  r_r : ∀ i, i < k → ⟪(linearCG A b x0 k).r, (linearCG A b x0 i).r⟫ = 0
  pAp : ∀ i, i < k → ⟪(linearCG A b x0 k).p, A (linearCG A b x0 i).p⟫ = 0

variable {A b x0}

theorem al_mul (hA : SPD A) {k : Nat} (h : Inv A b x0 k) :
    al A b x0 k * ⟪(linearCG A b x0 k).p, A (linearCG A b x0 k).p⟫ = ‖(linearCG A b x0 k).r‖ ^ 2 := by
  by_cases hp : (linearCG A b x0 k).p = 0
  · have := h.rp
    rw [hp, inner_zero_right] at this
    rw [hp, ← this]; simp
  · unfold al
    exact div_mul_cancel₀ _ (hA.2 _ hp).ne'

theorem al_zero (hA : SPD A) {k : Nat} (h : Inv A b x0 k) (h0 : al A b x0 k = 0) :
    (linearCG A b x0 k).p = 0 := by
  have := al_mul hA h
  rw [h0, zero_mul] at this
  exact r_zero_p_zero A b x0 k (by simpa using this.symm)

theorem inv_all (hA : SPD A) (k : Nat) : Inv A b x0 k := by
  induction k using Nat.strong_induction_on with
  | _ k ih =>
    cases k with
    | zero =>
      refine ⟨by rw [p_zero, real_inner_self_eq_norm_sq], ?_, ?_, ?_⟩ <;> intro i hi <;> omega
    | succ k =>
      have hk := ih k (Nat.lt_succ_self k)
      have rp : ∀ i, i < k + 1 → ⟪(linearCG A b x0 (k + 1)).r, (linearCG A b x0 i).p⟫ = 0 := by
        intro i hi
        rw [r_succ, inner_sub_left, inner_smul_left, hA.1]
        rcases Nat.lt_succ_iff_lt_or_eq.mp hi with hi | rfl
        · rw [hk.r_p i hi, hk.pAp i hi]; simp
        · rw [hk.rp]
          have := al_mul hA hk
          simp only [conj_trivial]
          linarith
      have rr : ∀ i, i < k + 1 → ⟪(linearCG A b x0 (k + 1)).r, (linearCG A b x0 i).r⟫ = 0 := by
        intro i hi
        cases i with
        | zero => exact rp 0 hi
        | succ i =>
          have e : (linearCG A b x0 (i + 1)).r
              = (linearCG A b x0 (i + 1)).p - be A b x0 i • (linearCG A b x0 i).p := by
            rw [p_succ]; abel
          rw [e, inner_sub_right, inner_smul_right, rp _ hi, rp i (by omega)]; simp
      refine ⟨?_, rp, rr, ?_⟩
      · rw [p_succ, inner_add_right, inner_smul_right, rp k (Nat.lt_succ_self k),
          real_inner_self_eq_norm_sq]; simp
      · intro i hi
        have hinv : Inv A b x0 i := ih i hi
        by_cases h0 : al A b x0 i = 0
        · rw [al_zero hA hinv h0]; simp
        · have e : al A b x0 i • A (linearCG A b x0 i).p
              = (linearCG A b x0 i).r - (linearCG A b x0 (i + 1)).r := by rw [r_succ]; abel
          have key : al A b x0 i * ⟪(linearCG A b x0 (k + 1)).p, A (linearCG A b x0 i).p⟫ = 0 := by
            rw [p_succ, inner_add_left, inner_smul_left, mul_add, ← inner_smul_right, e,
              inner_sub_right, rr i hi]
            simp only [conj_trivial]
            rcases Nat.lt_succ_iff_lt_or_eq.mp hi with hi | rfl
            · rw [hk.pAp i hi, rr (i + 1) (by omega)]; simp
            · have h1 := al_mul hA hk
              have h2 := be_mul A b x0 i
              rw [real_inner_self_eq_norm_sq, ← h2, ← h1]; ring
          exact (mul_eq_zero.mp key).resolve_left h0

/-- The residuals are mutually orthogonal. -/
theorem orth (hA : SPD A) {i j : Nat} (h : i ≠ j) :
    ⟪(linearCG A b x0 i).r, (linearCG A b x0 j).r⟫ = 0 := by
  rcases Nat.lt_or_gt_of_ne h with h | h
  · rw [real_inner_comm]; exact (inv_all hA j).r_r i h
  · exact (inv_all hA i).r_r j h

/-- The residual vanishes after at most as many steps as there are dimensions. -/
theorem finite_end [FiniteDimensional ℝ E] (hA : SPD A) :
    (linearCG A b x0 (Module.finrank ℝ E)).r = 0 := by
  by_contra hne
  have hall : ∀ k, k ≤ Module.finrank ℝ E → (linearCG A b x0 k).r ≠ 0 := by
    intro k hk h0
    apply hne
    obtain ⟨d, hd⟩ := Nat.exists_eq_add_of_le hk
    rw [hd]
    clear hd
    induction d with
    | zero => exact h0
    | succ d ih => exact r_zero_succ A b x0 _ ih
  have hli : LinearIndependent ℝ (fun i : Fin (Module.finrank ℝ E + 1) => (linearCG A b x0 i).r) :=
    linearIndependent_of_ne_zero_of_inner_eq_zero (fun i => hall i (by omega))
      (fun i j hij => orth hA (fun h => hij (Fin.ext h)))
  have := hli.fintype_card_le_finrank
  simp at this

/-! ### The update of the solver -/

/-- All six formulas give the same factor when the new gradient is orthogonal to the old one and to the
direction. -/
theorem sigma_eq (m : Method) (hm : m ≠ .other) (g1 g2 d : E) (h1 : g1 ≠ 0)
    (ho : ⟪g2, g1⟫ = 0) (hd : ⟪g2, d⟫ = 0) (hgd : ⟪g1, d⟫ = -‖g1‖ ^ 2) :
    rcgSigma m g1 g2 g1 g2 g1 d = some (‖g2‖ ^ 2 / ‖g1‖ ^ 2) := by
  have hp : 0 < ‖g1‖ ^ 2 := by have := norm_pos_iff.mpr h1; positivity
  have hne := hp.ne'
  have q2 : 0 ≤ ‖g2‖ ^ 2 / ‖g1‖ ^ 2 := by positivity
  have e1 : ⟪g2, g2 - g1⟫ = ‖g2‖ ^ 2 := by
    rw [inner_sub_right, ho, real_inner_self_eq_norm_sq]; ring
  have e2 : ⟪g2 - g1, d⟫ = ‖g1‖ ^ 2 := by rw [inner_sub_left, hd, hgd]; ring
  have e3 : ⟪g2 - g1, g2⟫ = ‖g2‖ ^ 2 := by rw [real_inner_comm]; exact e1
  have e4 : ⟪d, g2⟫ = 0 := by rw [real_inner_comm]; exact hd
  cases m with
  | other => exact absurd rfl hm
  | fletcherReeves => simp only [rcgSigma, quot, real_inner_self_eq_norm_sq, if_neg hne]
  | polakRibiere =>
    simp only [rcgSigma, quot, real_inner_self_eq_norm_sq, if_neg hne, e1, Option.map_some,
      if_neg (not_lt.mpr q2)]
  | hestenesStiefel => simp only [rcgSigma, quot, e1, e2, if_neg hne]
  | frPr =>
    have : ¬ ‖g2‖ ^ 2 / ‖g1‖ ^ 2 < -(‖g2‖ ^ 2 / ‖g1‖ ^ 2) := by linarith
    simp only [rcgSigma, quot, real_inner_self_eq_norm_sq, if_neg hne, e1, Option.map_some,
      Option.bind_some, if_neg this, lt_irrefl, if_false]
  | daiYuan => simp only [rcgSigma, quot, real_inner_self_eq_norm_sq, e2, if_neg hne]
  | hagerZhang =>
    simp only [rcgSigma, quot, e2, if_neg hne, Option.bind_some]
    rw [inner_sub_left, inner_smul_left, e3, e4]; simp

theorem update_eq (m : Method) (hm : m ≠ .other) (g1 g2 d : E) (h1 : g1 ≠ 0)
    (ho : ⟪g2, g1⟫ = 0) (hd : ⟪g2, d⟫ = 0) (hgd : ⟪g1, d⟫ = -‖g1‖ ^ 2) :
    rcgUpdate m g1 g2 g1 g2 g1 d = some (-g2 + (‖g2‖ ^ 2 / ‖g1‖ ^ 2) • d) := by
  have hr : ¬ rcgRestart g1 g2 g1 := by
    unfold rcgRestart
    rw [if_neg (by simpa using h1), ho]; norm_num
  simp only [rcgUpdate, if_neg hr, sigma_eq m hm g1 g2 d h1 ho hd hgd, Option.map_some]
  split
  · rename_i h; rw [h]; simp
  · rfl

/-- The state of the run is that of the textbook method as long as no residual has vanished. -/
theorem state_eq (s : Setup E) (hA : SPD s.A) (hc : s.c < 1) (hP : ∀ v, s.P v = v) (hm : s.m ≠ .other)
    (k : Nat) (hne : ∀ j, j < k → (linearCG s.A s.b s.x0 j).r ≠ 0) :
    ∃ e, s.state k = some ((linearCG s.A s.b s.x0 k).x, e) ∧
      (k ≠ 0 → e = some (linearCG s.A s.b s.x0 k).p) := by
  induction k with
  | zero => exact ⟨none, rfl, fun h => absurd rfl h⟩
  | succ k ih =>
    obtain ⟨e, hs, he⟩ := ih (fun j hj => hne j (by omega))
    have hr := hne k (Nat.lt_succ_self k)
    have hI : Inv s.A s.b s.x0 k := inv_all hA k
    have hI' : Inv s.A s.b s.x0 (k + 1) := inv_all hA (k + 1)
    have hg : ∀ j, s.grad (linearCG s.A s.b s.x0 j).x = -(linearCG s.A s.b s.x0 j).r := by
      intro j; rw [residual]; unfold Setup.grad; abel
    have hdir : rcgDir s.c s.P k e (-(linearCG s.A s.b s.x0 k).r) = some (linearCG s.A s.b s.x0 k).p := by
      unfold rcgDir
      by_cases h0 : k = 0
      · subst h0
        rw [if_pos (Or.inl rfl)]
        simp only [hP, neg_neg, ite_self]
        rfl
      · have hn : ¬ (k = 0 ∨ ∃ e', e = some e' ∧ notDescent s.c e' (-(linearCG s.A s.b s.x0 k).r)) := by
          rintro (h | ⟨e', h, hd⟩)
          · exact h0 h
          · rw [he h0] at h
            obtain rfl := Option.some.inj h
            have hpos := norm_pos_iff.mpr hr
            have h2 := hd.2
            rw [inner_neg_right, real_inner_comm, hI.rp, norm_neg] at h2
            have : -‖(linearCG s.A s.b s.x0 k).r‖ ^ 2 / ‖(linearCG s.A s.b s.x0 k).r‖
                / ‖(linearCG s.A s.b s.x0 k).r‖ = -1 := by field_simp
            rw [this] at h2
            linarith
        rw [if_neg hn, he h0]
    have hstep : exactStep s.A (-(linearCG s.A s.b s.x0 k).r) (linearCG s.A s.b s.x0 k).p
        = al s.A s.b s.x0 k := by
      unfold exactStep al
      rw [inner_neg_left, hI.rp, neg_neg]
    refine ⟨some (linearCG s.A s.b s.x0 (k + 1)).p, ?_, fun _ => rfl⟩
    show (s.state k).bind (s.pass k) = _
    rw [hs]
    simp only [Option.bind_some, Setup.pass, hg, hdir, Option.map_some, hstep, ← x_succ, hP]
    rw [update_eq s.m hm]
    · rw [norm_neg, norm_neg, neg_neg, p_succ, be]
    · simpa using hr
    · rw [inner_neg_left, inner_neg_right, neg_neg]; exact hI'.r_r k (Nat.lt_succ_self k)
    · rw [inner_neg_left, hI'.r_p k (Nat.lt_succ_self k), neg_zero]
    · rw [inner_neg_left, hI.rp, norm_neg]

end Verif.QuadCG
