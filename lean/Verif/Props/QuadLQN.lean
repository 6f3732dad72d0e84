import Verif.Solver.QuadLQN
import Verif.Props.QuadQN

/-!
# C172: the limited-memory BFGS solver on quadratic functions
-/

namespace Verif.QuadLQN

open Verif.QN Verif.QuadCG
open Verif.QuadQN (Accepts steepest)
open scoped RealInnerProductSpace Classical

variable {E : Type*} [NormedAddCommGroup E] [InnerProductSpace ℝ E]
variable {A : E →ₗ[ℝ] E} {b x0 : E}

/-- C172: with at least one stored pair, with and without restart of a full memory, the iterates with exact
steps are those of the linear conjugate gradient method while the cautious test passes. -/
theorem C172_is_cg (hA : SPD A) (c : Cfg) (hcap : 0 < c.cap) (junk : Nat → ℝ) (k : Nat)
    (hacc : ∀ j, j < k → Accepts c.cau A b x0 j) :
    (state c junk A b x0 k).map Prod.fst = some (linearCG A b x0 k).x := by
  obtain ⟨m, hs, -⟩ := state_eq hA c hcap junk k hacc
  rw [hs]; rfl

/-- C172: the iterates are those of RBFGS and RBroydenFamily, which store the whole operator. -/
theorem C172_same_as_full (hA : SPD A) (c : Cfg) (hcap : 0 < c.cap) (junk : Nat → ℝ)
    (upd : Call E → (E →ₗ[ℝ] E) → Option (E →ₗ[ℝ] E)) (hupd : upd = rbfgs c.cau ∨ upd = rbroyden c.cau 1)
    (k : Nat) (hacc : ∀ j, j < k → Accepts c.cau A b x0 j) :
    (state c junk A b x0 k).map Prod.fst = (QuadQN.state upd A b x0 k).map Prod.fst := by
  rw [C172_is_cg hA c hcap junk k hacc, QuadQN.C169_is_cg hA c.cau upd hupd k hacc]

/-- C172: neither the number of stored pairs nor the restart matters. -/
theorem C172_memory_irrelevant (hA : SPD A) (c c' : Cfg) (hcau : c'.cau = c.cau) (hcap : 0 < c.cap)
    (hcap' : 0 < c'.cap) (junk junk' : Nat → ℝ) (k : Nat) (hacc : ∀ j, j < k → Accepts c.cau A b x0 j) :
    (state c junk A b x0 k).map Prod.fst = (state c' junk' A b x0 k).map Prod.fst := by
  rw [C172_is_cg hA c hcap junk k hacc, C172_is_cg hA c' hcap' junk' k (by rw [hcau]; exact hacc)]

/-- C172: when the cautious test passes at every iterate that is not a solution, the run reaches the solution
after at most as many passes as the space has dimensions. -/
theorem C172_ends [FiniteDimensional ℝ E] (hA : SPD A) (c : Cfg) (hcap : 0 < c.cap) (junk : Nat → ℝ)
    (hacc : ∀ j, A (linearCG A b x0 j).x ≠ b → Accepts c.cau A b x0 j) :
    ∃ k x m, k ≤ Module.finrank ℝ E ∧ state c junk A b x0 k = some (x, m) ∧ A x = b ∧
      ∀ j, j < k → ∃ y m', state c junk A b x0 j = some (y, m') ∧ A y ≠ b := by
  have hex : ∃ k, (linearCG A b x0 k).r = 0 := ⟨_, finite_end hA⟩
  have hsol : ∀ j, (linearCG A b x0 j).r = 0 ↔ A (linearCG A b x0 j).x = b := by
    intro j; rw [QuadCG.residual, sub_eq_zero]; exact eq_comm
  have hmin : ∀ j, j < Nat.find hex → A (linearCG A b x0 j).x ≠ b :=
    fun j hj h => Nat.find_min hex hj ((hsol j).mpr h)
  obtain ⟨m, hs, -⟩ := state_eq hA c hcap junk (Nat.find hex) (fun j hj => hacc j (hmin j hj))
  refine ⟨Nat.find hex, _, m, Nat.find_min' hex (finite_end hA), hs, (hsol _).mp (Nat.find_spec hex),
    fun j hj => ?_⟩
  obtain ⟨m', hs', -⟩ := state_eq hA c hcap junk j (fun i hi => hacc i (hmin i (by omega)))
  exact ⟨_, m', hs', hmin j hj⟩

/-- One pass with an empty memory is one of steepest descent, whatever the positive factor. -/
theorem empty_pass (c : Cfg) (junk : Nat → ℝ) (k : Nat) (m : LState E) (hγ : 0 < m.gamma)
    (hb : BufInv c.restart c.cap m.buf []) :
    ∃ s : E, pass c junk A b ‖A x0 - b‖ k (steepest A b x0 k, m)
      = (lrbfgsUpdate c.cau c.restart id ⟨LinearIsometryEquiv.refl ℝ E, s, A (steepest A b x0 k) - b,
          A (steepest A b x0 (k + 1)) - b, 1, ‖A (steepest A b x0 k) - b‖, ‖A x0 - b‖, k + 1⟩ m).map
        (fun m' => (steepest A b x0 (k + 1), m')) ∧
      (1 / (1 : ℝ)) • (A (steepest A b x0 (k + 1)) - b) - (A (steepest A b x0 k) - b) = A s := by
  set x := steepest A b x0 k with hx
  have hdir : m.buf.hv id m.gamma junk (A x - b) = some (m.gamma • (A x - b)) := by
    rw [C25_two_loop_is_bfgs c.restart c.cap m.buf [] hb]; rfl
  set s := exactStep A (A x - b) ((-1 : ℝ) • m.gamma • (A x - b)) • (-1 : ℝ) • m.gamma • (A x - b) with hs
  have hsv : s = -((‖A x - b‖ ^ 2 / ⟪A x - b, A (A x - b)⟫) • (A x - b)) := by
    have hγ' := hγ.ne'
    rw [hs, exactStep, smul_smul, smul_smul, smul_smul, map_smul, real_inner_smul_right,
      real_inner_smul_right, real_inner_smul_left, real_inner_self_eq_norm_sq, ← neg_smul]
    congr 1
    by_cases h0 : ⟪A x - b, A (A x - b)⟫ = 0
    · rw [h0]; simp
    · field_simp
  have hx2 : x + s = steepest A b x0 (k + 1) := by
    show _ = x - (‖A x - b‖ ^ 2 / ⟪A x - b, A (A x - b)⟫) • (A x - b)
    rw [hsv, ← sub_eq_add_neg]
  refine ⟨s, ?_, ?_⟩
  · unfold pass
    dsimp only
    rw [hdir, Option.bind_some, ← hs, hx2]
  · rw [← hx2, map_add, div_one, one_smul]; abel

/-- C172: with `LengthSY = 0`, a legal value, the solver is the method of steepest descent, whatever the
cautious test decides. -/
theorem C172_no_memory (hA : SPD A) (c : Cfg) (hcap : c.cap = 0) (junk : Nat → ℝ) (k : Nat) :
    (state c junk A b x0 k).map Prod.fst = some (steepest A b x0 k) := by
  have main : ∃ m, state c junk A b x0 k = some (steepest A b x0 k, m) ∧ 0 < m.gamma ∧
      BufInv c.restart c.cap m.buf [] := by
    induction k with
    | zero => exact ⟨_, rfl, one_pos, fresh_inv _ _⟩
    | succ k ih =>
      obtain ⟨m, hs, hγ, hb⟩ := ih
      obtain ⟨s, hp, hy⟩ := empty_pass (A := A) (b := b) (x0 := x0) c junk k m hγ hb
      obtain ⟨b', q', hu, hB, -⟩ := update_inv_pred (fun _ => True) (id : E → E) (fun _ _ => trivial)
        (storedPair c.cau ⟨LinearIsometryEquiv.refl ℝ E, s, A (steepest A b x0 k) - b,
          A (steepest A b x0 (k + 1)) - b, 1, ‖A (steepest A b x0 k) - b‖, ‖A x0 - b‖, k + 1⟩) hb
        (by simp) (fun _ _ => trivial)
      have hq' : q' = [] := List.eq_nil_of_length_eq_zero (by have := hB.len_le; omega)
      subst hq'
      refine ⟨⟨b', newGamma c.cau id ⟨LinearIsometryEquiv.refl ℝ E, s, A (steepest A b x0 k) - b,
          A (steepest A b x0 (k + 1)) - b, 1, ‖A (steepest A b x0 k) - b‖, ‖A x0 - b‖, k + 1⟩ m.gamma⟩,
        ?_, ?_, hB⟩
      · show (state c junk A b x0 k).bind _ = _
        rw [hs, Option.bind_some, hp, lrbfgsUpdate]
        have e : (⇑(LinearIsometryEquiv.refl ℝ E) : E → E) = id := rfl
        rw [e, hu]
        rfl
      · unfold newGamma
        split
        · rename_i ha
          simp only [Call.s, Call.y, LinearIsometryEquiv.coe_refl, id_eq, hy] at ha ⊢
          have hs0 : s ≠ 0 := by
            intro h0
            apply ha.1.1
            rw [h0, inner_zero_left]
          have h1 := hA.2 s hs0
          refine div_pos h1 (real_inner_self_pos.mpr ?_)
          intro h0
          rw [h0, inner_zero_right] at h1
          exact lt_irrefl _ h1
        · exact hγ
  obtain ⟨m, hs, -⟩ := main
  rw [hs]; rfl

/-- C172: as long as `nu |g|^mu` exceeds the largest curvature, no pair is ever stored and the solver is the
method of steepest descent. -/
theorem C172_far_is_steepest (c : Cfg) (junk : Nat → ℝ) (L : ℝ) (hL : ∀ v, ⟪v, A v⟫ ≤ L * ⟪v, v⟫) (k : Nat)
    (hfar : ∀ j, j < k → L < c.cau.nu * ‖A (steepest A b x0 j) - b‖ ^ c.cau.mu) :
    ∃ m, state c junk A b x0 k = some (steepest A b x0 k, m) ∧ m.gamma = 1 ∧ m.buf.len = 0 := by
  have main : ∃ m, state c junk A b x0 k = some (steepest A b x0 k, m) ∧ m.gamma = 1 ∧
      BufInv c.restart c.cap m.buf [] := by
    induction k with
    | zero => exact ⟨_, rfl, rfl, fresh_inv _ _⟩
    | succ k ih =>
      obtain ⟨m, hs, hγ, hb⟩ := ih (fun j hj => hfar j (by omega))
      obtain ⟨s, hp, hy⟩ := empty_pass (A := A) (b := b) (x0 := x0) c junk k m (by rw [hγ]; exact one_pos) hb
      have hf := hfar k (Nat.lt_succ_self k)
      have hrej : ¬ acceptPair c.cau ‖A (steepest A b x0 k) - b‖ ‖A x0 - b‖ ⟪s, s⟫ ⟪s, A s⟫ := by
        rintro ⟨⟨h0, h1⟩, -⟩
        have hpos : 0 < ⟪s, s⟫ := lt_of_le_of_ne real_inner_self_nonneg (Ne.symm h0)
        rw [le_div_iff₀ hpos] at h1
        have := hL s
        nlinarith
      obtain ⟨b', hu, hB⟩ := update_skip (id : E → E) hb
      refine ⟨⟨b', m.gamma⟩, ?_, hγ, hB⟩
      show (state c junk A b x0 k).bind _ = _
      rw [hs, Option.bind_some, hp]
      simp only [lrbfgsUpdate, storedPair, newGamma, Call.s, Call.y, LinearIsometryEquiv.coe_refl, id_eq, hy,
        if_neg hrej]
      rw [hu]
      rfl
  obtain ⟨m, hs, hγ, hb⟩ := main
  exact ⟨m, hs, hγ, hb.len_eq⟩

/-! ### Concrete cases -/

/-- Two dimensions, `diag(1, 2)`, one stored pair: the second iterate is the solution. -/
example (junk : Nat → ℝ) :
    (state ⟨⟨1 / 10000, 1, 1 / 1000, false⟩, false, 1⟩ junk exA 0 !₂[1, 1] 2).map Prod.fst = some 0 := by
  rw [C172_is_cg exA_spd _ (by norm_num) junk 2 QuadQN.ex_accepts, QuadQN.cg_two_x]

/-- Without memory it is not. -/
example (junk : Nat → ℝ) (c : Cautious) :
    (state ⟨c, false, 0⟩ junk exA 0 !₂[2 * 1, 1 * 1] 2).map Prod.fst = some !₂[2 * (1 / 3 / 3), 1 * (1 / 3 / 3)] := by
  have s1 := QuadQN.steepest_pass 1 (by norm_num) 1 (by norm_num) 0 !₂[2 * 1, 1 * 1] rfl
  have s2 := QuadQN.steepest_pass (1 / 3) (by norm_num) (-1) (by norm_num) 1 !₂[2 * 1, 1 * 1] s1
  rw [C172_no_memory exA_spd _ rfl, s2, neg_neg]

end Verif.QuadLQN
