import Verif.Solver.QuadQN
import Verif.Props.LBFGS

/-!
# The limited-memory BFGS solver on a quadratic function

The loop of `SolversSMLS::Run` (`Solvers/SolversSMLS.cpp:7-170`) for `LRBFGS` (`Solvers/LRBFGS.cpp`), with the
setting and the simplifications of `Verif.Solver.QuadQN`. The preconditioner is the default one, the identity
(`Problems/Problem.cpp`, `PreConditioner`).
-/

namespace Verif.QuadLQN

open Verif.QN Verif.QuadCG
open scoped RealInnerProductSpace Classical

variable {E : Type*} [NormedAddCommGroup E] [InnerProductSpace ℝ E]

/-- Parameters of the solver: the cautious test, `LMrestart`, `LengthSY` (`LRBFGS.cpp:21-36`). -/
structure Cfg where
  cau : Cautious
  restart : Bool
  cap : Nat

/-- One pass: `GetSearchDir` (`LRBFGS.cpp:113-117`) with the two-loop recursion, the exact step, `UpdateData`
(`LRBFGS.cpp:175-233`) with the gradient norm of the old point. `junk` is the content of the new array `xi`. -/
noncomputable def pass (c : Cfg) (junk : Nat → ℝ) (A : E →ₗ[ℝ] E) (b : E) (ngf0 : ℝ) (iter : Nat)
    (st : E × LState E) : Option (E × LState E) :=
  (st.2.buf.hv id st.2.gamma junk (A st.1 - b)).bind fun r =>
    let d := (-1 : ℝ) • r
    let t := exactStep A (A st.1 - b) d
    let x2 := st.1 + t • d
    (lrbfgsUpdate c.cau c.restart id
      ⟨LinearIsometryEquiv.refl ℝ E, t • d, A st.1 - b, A x2 - b, 1, ‖A st.1 - b‖, ngf0, iter + 1⟩ st.2).map
      fun m => (x2, m)

/-- The state before pass `k` of a new solver object: no pairs, `gamma = 1` (`LRBFGS.cpp:5-40`). -/
noncomputable def state (c : Cfg) (junk : Nat → ℝ) (A : E →ₗ[ℝ] E) (b x0 : E) : Nat → Option (E × LState E)
  | 0 => some (x0, ⟨Buf.fresh c.cap, 1⟩)
  | k + 1 => (state c junk A b x0 k).bind (pass c junk A b ‖A x0 - b‖ k)

/-! ### Lemmas -/

/-- Storing a pair when there is room for at least one: it becomes the last one, the others were there. -/
theorem store_last {restart : Bool} {cap : Nat} {b : Buf E} {q : List (Pair E)} (hpos : 0 < cap)
    (h : BufInv restart cap b q) (p : Pair E) :
    ∃ b' q0, b.update restart id (some p) = some b' ∧ BufInv restart cap b' (q0 ++ [p]) ∧ ∀ p' ∈ q0, p' ∈ q := by
  have hmv : q.map (Pair.move id) = q := by
    have : (Pair.move id : Pair E → Pair E) = id := by funext p; rfl
    rw [this, List.map_id]
  by_cases hroom : q.length < cap
  · obtain ⟨b1, h1, h2⟩ := update_room id p h hroom
    rw [hmv] at h2
    exact ⟨b1, q, h1, h2, fun _ h => h⟩
  · have hfull : q.length = cap := by have := h.len_le; omega
    cases restart with
    | false =>
      obtain ⟨b1, h1, h2⟩ := update_full id p h hfull hpos
      rw [hmv, List.drop_append_of_le_length (by omega)] at h2
      exact ⟨b1, _, h1, h2, fun p' hp' => List.mem_of_mem_drop hp'⟩
    | true =>
      obtain ⟨b1, h1, h2⟩ := update_room id p h.reset hpos
      refine ⟨b1, [], ?_, by simpa using h2, by simp⟩
      rw [← h1]
      change (b.prep true).store id p = (Buf.prep true { b with len := 0 }).store id p
      rw [Buf.prep, if_pos ⟨rfl, by rw [h.cap_eq, h.len_eq]; omega⟩, Buf.prep,
        if_neg (by rintro ⟨-, hc⟩; change b.cap ≤ 0 at hc; rw [h.cap_eq] at hc; omega)]

/-- A vector orthogonal to all stored vectors is only scaled. -/
theorem fold_orth (γ : ℝ) (w : E) (q : List (Pair E)) (hq : ∀ p ∈ q, ⟪p.s, w⟫ = 0 ∧ ⟪p.y, w⟫ = 0) :
    ∀ H : E → E, H w = γ • w → q.foldl bfgsFun H w = γ • w := by
  induction q with
  | nil => intro H h; exact h
  | cons p q ih =>
    intro H h
    rw [List.foldl_cons]
    apply ih (fun p' hp' => hq p' (List.mem_cons_of_mem _ hp'))
    obtain ⟨h1, h2⟩ := hq p List.mem_cons_self
    simp only [bfgsFun, h1, mul_zero, zero_smul, sub_zero, h, real_inner_smul_right, h2, add_zero]

variable {A : E →ₗ[ℝ] E} {b x0 : E}

/-- The pair of the `i`-th step. -/
noncomputable def pr (A : E →ₗ[ℝ] E) (b x0 : E) (i : Nat) : Pair E :=
  let s := al A b x0 i • (linearCG A b x0 i).p
  let y := al A b x0 i • A (linearCG A b x0 i).p
  ⟨s, y, 1 / ⟪s, y⟫⟩

/-- What holds of the memory before pass `k`. -/
def MemInv (c : Cfg) (A : E →ₗ[ℝ] E) (b x0 : E) (k : Nat) (m : LState E) : Prop :=
  0 < m.gamma ∧ ∃ q, BufInv c.restart c.cap m.buf q ∧
    ((k = 0 ∧ q = []) ∨ ∃ q0 k', k = k' + 1 ∧ q = q0 ++ [pr A b x0 k'] ∧
      ∀ p ∈ q0, ∃ i, i < k' ∧ p = pr A b x0 i)

/-- The direction is a positive multiple of that of the textbook method. -/
theorem dir_eq (hA : SPD A) (c : Cfg) (junk : Nat → ℝ) (k : Nat)
    (hne : ∀ j, j < k → (linearCG A b x0 j).r ≠ 0) (m : LState E) (h : MemInv c A b x0 k m) :
    m.buf.hv id m.gamma junk (A (linearCG A b x0 k).x - b) = some (-(m.gamma • (linearCG A b x0 k).p)) := by
  obtain ⟨hγ, q, hb, hq⟩ := h
  rw [C25_two_loop_is_bfgs c.restart c.cap m.buf q hb]
  have hg : A (linearCG A b x0 k).x - b = -(linearCG A b x0 k).r := by rw [QuadCG.residual]; abel
  rw [hg]
  congr 1
  rcases hq with ⟨rfl, rfl⟩ | ⟨q0, k', rfl, rfl, hq0⟩
  · simp [p_zero]
  · have hI : Inv A b x0 k' := inv_all hA k'
    have hI' : Inv A b x0 (k' + 1) := inv_all hA (k' + 1)
    have hrpos : 0 < ‖(linearCG A b x0 k').r‖ ^ 2 := by
      have := norm_pos_iff.mpr (hne k' (by omega)); positivity
    have hp0 : (linearCG A b x0 k').p ≠ 0 := by
      intro h0
      have := hI.rp
      rw [h0, inner_zero_right] at this
      linarith
    have hpAp : 0 < ⟪(linearCG A b x0 k').p, A (linearCG A b x0 k').p⟫ := hA.2 _ hp0
    have halm := al_mul hA hI
    have hal : 0 < al A b x0 k' := by unfold al; positivity
    have hfold : q0.foldl bfgsFun (fun u => m.gamma • id u) (-(linearCG A b x0 (k' + 1)).r)
        = m.gamma • (-(linearCG A b x0 (k' + 1)).r) := by
      apply fold_orth _ _ _ _ _ rfl
      intro p hp
      obtain ⟨i, hi, rfl⟩ := hq0 p hp
      constructor
      · simp only [pr]
        rw [real_inner_smul_left, inner_neg_right, real_inner_comm, hI'.r_p i (by omega)]; simp
      · simp only [pr]
        rw [real_inner_smul_left, inner_neg_right,
          QuadQN.Ap_r hA (hne i (by omega)) (by omega) (by omega)]; simp
    rw [List.foldl_append, List.foldl_cons, List.foldl_nil]
    have hs0 : ⟪(pr A b x0 k').s, -(linearCG A b x0 (k' + 1)).r⟫ = 0 := by
      simp only [pr]
      rw [real_inner_smul_left, inner_neg_right, real_inner_comm, hI'.r_p k' (by omega)]; simp
    simp only [bfgsFun, hs0, mul_zero, zero_smul, sub_zero, add_zero, hfold]
    have e : al A b x0 k' • A (linearCG A b x0 k').p
        = (linearCG A b x0 k').r - (linearCG A b x0 (k' + 1)).r := by rw [r_succ]; abel
    have hy : ⟪(pr A b x0 k').y, m.gamma • -(linearCG A b x0 (k' + 1)).r⟫
        = m.gamma * ‖(linearCG A b x0 (k' + 1)).r‖ ^ 2 := by
      simp only [pr]
      rw [e, real_inner_smul_right, inner_neg_right, inner_sub_left, orth hA (by omega),
        real_inner_self_eq_norm_sq]
      ring
    have hrho : (pr A b x0 k').rho = 1 / (al A b x0 k' * ‖(linearCG A b x0 k').r‖ ^ 2) := by
      simp only [pr]
      rw [real_inner_smul_left, real_inner_smul_right, halm]
    rw [hy, hrho, p_succ, be, smul_add, neg_add, smul_neg, smul_smul, sub_eq_add_neg]
    congr 2
    simp only [pr]
    rw [smul_smul]
    congr 1
    field_simp

/-- One pass from a point of the conjugate gradient method. -/
theorem pass_eq (hA : SPD A) (c : Cfg) (hcap : 0 < c.cap) (junk : Nat → ℝ) (k : Nat)
    (hacc : ∀ j, j ≤ k → QuadQN.Accepts c.cau A b x0 j) (m : LState E) (h : MemInv c A b x0 k m) :
    ∃ m', pass c junk A b ‖A x0 - b‖ k ((linearCG A b x0 k).x, m) = some ((linearCG A b x0 (k + 1)).x, m') ∧
      MemInv c A b x0 (k + 1) m' := by
  have hne : ∀ j, j ≤ k → (linearCG A b x0 j).r ≠ 0 := fun j hj => QuadQN.accepts_ne hA (hacc j hj)
  have hI : Inv A b x0 k := inv_all hA k
  have hdir := dir_eq hA c junk k (fun j hj => hne j (by omega)) m h
  obtain ⟨hγ, q, hb, hq⟩ := h
  have hg : ∀ j, A (linearCG A b x0 j).x - b = -(linearCG A b x0 j).r := by
    intro j; rw [QuadCG.residual]; abel
  have hrpos : 0 < ‖(linearCG A b x0 k).r‖ ^ 2 := by
    have := norm_pos_iff.mpr (hne k (le_refl _)); positivity
  have hp0 : (linearCG A b x0 k).p ≠ 0 := by
    intro h0
    have := hI.rp
    rw [h0, inner_zero_right] at this
    linarith
  have hpAp : 0 < ⟪(linearCG A b x0 k).p, A (linearCG A b x0 k).p⟫ := hA.2 _ hp0
  have hal : 0 < al A b x0 k := by unfold al; positivity
  have hstep : exactStep A (A (linearCG A b x0 k).x - b) (m.gamma • (linearCG A b x0 k).p) • m.gamma •
      (linearCG A b x0 k).p = al A b x0 k • (linearCG A b x0 k).p := by
    have hγ' := hγ.ne'
    rw [hg, exactStep, smul_smul, map_smul, real_inner_smul_right, real_inner_smul_right,
      real_inner_smul_left, inner_neg_left, hI.rp, al]
    congr 1
    field_simp
  have hs : (linearCG A b x0 (k + 1)).x - (linearCG A b x0 k).x = al A b x0 k • (linearCG A b x0 k).p := by
    rw [x_succ]; abel
  set s := al A b x0 k • (linearCG A b x0 k).p with hsdef
  set y := al A b x0 k • A (linearCG A b x0 k).p with hydef
  have hAs : A s = y := by rw [hsdef, hydef, map_smul]
  have hsy : 0 < ⟪s, y⟫ := by
    rw [hsdef, hydef, real_inner_smul_left, real_inner_smul_right]; positivity
  have hy0 : y ≠ 0 := by rintro h0; rw [h0, inner_zero_right] at hsy; exact lt_irrefl _ hsy
  have hacck : acceptPair c.cau ‖A (linearCG A b x0 k).x - b‖ ‖A x0 - b‖ ⟪s, s⟫ ⟪s, y⟫ := by
    have := hacc k (le_refl _)
    unfold QuadQN.Accepts at this
    dsimp only at this
    rwa [hs, hAs] at this
  have hx2 : (linearCG A b x0 k).x + s = (linearCG A b x0 (k + 1)).x := by rw [← hs]; abel
  have hyy : (1 / (1 : ℝ)) • (A (linearCG A b x0 (k + 1)).x - b)
      - (A (linearCG A b x0 k).x - b) = y := by
    rw [← hAs, ← hs, map_sub, div_one, one_smul]; abel
  obtain ⟨b', q0, hu, hB, hq0⟩ := store_last hcap hb (pr A b x0 k)
  refine ⟨⟨b', ⟪s, y⟫ / ⟪y, y⟫⟩, ?_, div_pos hsy (real_inner_self_pos.mpr hy0), q0 ++ [pr A b x0 k], hB,
    Or.inr ⟨q0, k, rfl, rfl, fun p hp => ?_⟩⟩
  · unfold pass
    dsimp only
    rw [hdir, Option.bind_some, smul_neg, neg_smul, one_smul, neg_neg, hstep, hx2]
    simp only [lrbfgsUpdate, storedPair, newGamma, Call.s, Call.y, LinearIsometryEquiv.coe_refl, id_eq, hyy,
      if_pos hacck]
    have : (⟨s, y, 1 / ⟪s, y⟫⟩ : Pair E) = pr A b x0 k := rfl
    rw [this, hu]
    rfl
  · have hmem := hq0 p hp
    rcases hq with ⟨-, rfl⟩ | ⟨q1, k', rfl, rfl, hq1⟩
    · cases hmem
    · rcases List.mem_append.mp hmem with h1 | h1
      · obtain ⟨i, hi, rfl⟩ := hq1 p h1
        exact ⟨i, by omega, rfl⟩
      · rw [List.mem_singleton] at h1
        exact ⟨k', by omega, h1⟩

theorem state_eq (hA : SPD A) (c : Cfg) (hcap : 0 < c.cap) (junk : Nat → ℝ) (k : Nat)
    (hacc : ∀ j, j < k → QuadQN.Accepts c.cau A b x0 j) :
    ∃ m, state c junk A b x0 k = some ((linearCG A b x0 k).x, m) ∧ MemInv c A b x0 k m := by
  induction k with
  | zero => exact ⟨_, rfl, one_pos, [], fresh_inv _ _, Or.inl ⟨rfl, rfl⟩⟩
  | succ k ih =>
    obtain ⟨m, hs, hm⟩ := ih (fun j hj => hacc j (by omega))
    obtain ⟨m', hp, hm'⟩ := pass_eq hA c hcap junk k (fun j hj => hacc j (by omega)) m hm
    refine ⟨m', ?_, hm'⟩
    show (state c junk A b x0 k).bind _ = _
    rw [hs]
    exact hp

end Verif.QuadLQN
