import Verif.Props.QuasiNewton
import Mathlib.LinearAlgebra.FiniteDimensional.Lemmas

/-!
# C171: the SR1 operator on quadratic functions

The operator of `RTRSR1` (`Solvers/RTRSR1.cpp:75-103`) over a run of `SolversSMTR::Run`
(`Solvers/SolversSMTR.cpp:30-110`) on the Euclidean space with a quadratic cost: the change of the gradient over
a step `s` is `A s`, whatever the steps are and whether they are accepted or not.
-/

namespace Verif.QN

open scoped RealInnerProductSpace Classical

variable {E : Type*} [NormedAddCommGroup E] [InnerProductSpace ℝ E]

/-- The calls of `UpdateData` of a run (`SolversSMTR.cpp:50`), one for each trial step; `iter` grows by one in
every pass (`SolversSMTR.cpp:91, 100`). Each pass supplies the trial step and the gradient norm stored in
`ngf2`. The result is the operator and the number of passes that changed it; `none` after a division by
zero. The vector transport of the Euclidean space is the identity. -/
noncomputable def sr1Run (eps ngf0 : ℝ) (A : E →ₗ[ℝ] E) :
    List (E × ℝ) → Nat → (E →ₗ[ℝ] E) → Option ((E →ₗ[ℝ] E) × Nat)
  | [], _, B => some (B, 0)
  | (s, g) :: l, i, B =>
    (rtrsr1 eps g ngf0 i s (A s) B).bind fun B' =>
      (sr1Run eps ngf0 A l (i + 1) B').map fun r => (r.1, r.2 + if B' = B then 0 else 1)

/-- What an update after the pass with `iter == 1` does. -/
theorem sr1_cases {eps ngf2 ngf0 : ℝ} {iter : Nat} {s y : E} {B B' : E →ₗ[ℝ] E} (hi : iter ≠ 1)
    (h : rtrsr1 eps ngf2 ngf0 iter s y B = some B') :
    B' = B ∨ (⟪s, y - B s⟫ ≠ 0 ∧ B' = addRank1 B (1 / ⟪s, y - B s⟫) (y - B s) (y - B s)) := by
  unfold rtrsr1 at h
  dsimp only at h
  rw [if_neg (fun h => hi h.1), if_neg hi] at h
  split at h
  · split at h
    · cases h
    · rename_i hd
      right
      exact ⟨hd, (Option.some.inj h).symm⟩
  · left
    exact (Option.some.inj h).symm

/-- C171, one pass: on a quadratic an update keeps every direction on which the operator already agrees with
the Hessian. -/
theorem C171_keeps_step {eps ngf2 ngf0 : ℝ} {iter : Nat} {s : E} {A B B' : E →ₗ[ℝ] E} (hA : IsSym A)
    (hB : IsSym B) (hi : iter ≠ 1) (h : rtrsr1 eps ngf2 ngf0 iter s (A s) B = some B') (v : E)
    (hv : B v = A v) : B' v = A v := by
  rcases sr1_cases hi h with rfl | ⟨hd, rfl⟩
  · exact hv
  · have : ⟪A s - B s, v⟫ = 0 := by rw [inner_sub_left, hA, hB, hv, sub_self]
    rw [addRank1_apply, this, hv]
    simp

/-- The subspace on which the operator agrees with the Hessian grows with each change. -/
theorem sr1_grows [FiniteDimensional ℝ E] {eps ngf2 ngf0 : ℝ} {iter : Nat} {s : E} {A B B' : E →ₗ[ℝ] E}
    (hA : IsSym A) (hB : IsSym B) (hi : iter ≠ 1)
    (h : rtrsr1 eps ngf2 ngf0 iter s (A s) B = some B') :
    Module.finrank ℝ (LinearMap.ker (A - B)) + (if B' = B then 0 else 1)
      ≤ Module.finrank ℝ (LinearMap.ker (A - B')) := by
  have hle : LinearMap.ker (A - B) ≤ LinearMap.ker (A - B') := by
    intro v hv
    rw [LinearMap.mem_ker, LinearMap.sub_apply, sub_eq_zero] at hv ⊢
    exact (C171_keeps_step hA hB hi h v hv.symm).symm
  split
  · rename_i he
    rw [he, add_zero]
  · rename_i he
    rcases sr1_cases hi h with h1 | ⟨hd, h1⟩
    · exact absurd h1 he
    · have hlt : LinearMap.ker (A - B) < LinearMap.ker (A - B') := by
        refine lt_of_le_of_ne hle (fun e => ?_)
        have hs : s ∈ LinearMap.ker (A - B') := by
          rw [LinearMap.mem_ker, LinearMap.sub_apply, h1, addRank1_apply, real_inner_comm s,
            one_div_mul_cancel hd]
          simp
        rw [← e, LinearMap.mem_ker, LinearMap.sub_apply] at hs
        apply hd
        rw [hs, inner_zero_right]
      exact Submodule.finrank_lt_finrank_of_lt hlt

/-- C171: after the passes with `iter` zero and one, a direction on which the operator agrees with the
Hessian is never lost again, in a run of any length with arbitrary steps. -/
theorem C171_keeps (eps ngf0 : ℝ) (A : E →ₗ[ℝ] E) (hA : IsSym A) (l : List (E × ℝ)) (i : Nat) (hi : 2 ≤ i)
    (B : E →ₗ[ℝ] E) (hB : IsSym B) (r : (E →ₗ[ℝ] E) × Nat) (h : sr1Run eps ngf0 A l i B = some r) :
    IsSym r.1 ∧ ∀ v, B v = A v → r.1 v = A v := by
  induction l generalizing i B r with
  | nil =>
    obtain rfl := Option.some.inj h
    exact ⟨hB, fun v hv => hv⟩
  | cons p l ih =>
    obtain ⟨s, g⟩ := p
    simp only [sr1Run, Option.bind_eq_some_iff, Option.map_eq_some_iff] at h
    obtain ⟨B', h1, r', h2, rfl⟩ := h
    have hB' := C27_sr1_symmetric _ _ _ _ _ _ _ _ hB h1
    obtain ⟨e1, e2⟩ := ih (i + 1) (by omega) B' hB' r' h2
    exact ⟨e1, fun v hv => e2 v (C171_keeps_step hA hB (by omega) h1 v hv)⟩

/-- C171: each change of the operator adds a dimension to the subspace on which it agrees with the
Hessian. -/
theorem C171_each_change_counts [FiniteDimensional ℝ E] (eps ngf0 : ℝ) (A : E →ₗ[ℝ] E) (hA : IsSym A)
    (l : List (E × ℝ)) (i : Nat) (hi : 2 ≤ i) (B : E →ₗ[ℝ] E) (hB : IsSym B) (r : (E →ₗ[ℝ] E) × Nat)
    (h : sr1Run eps ngf0 A l i B = some r) :
    Module.finrank ℝ (LinearMap.ker (A - B)) + r.2 ≤ Module.finrank ℝ (LinearMap.ker (A - r.1)) := by
  induction l generalizing i B r with
  | nil =>
    obtain rfl := Option.some.inj h
    exact le_refl _
  | cons p l ih =>
    obtain ⟨s, g⟩ := p
    simp only [sr1Run, Option.bind_eq_some_iff, Option.map_eq_some_iff] at h
    obtain ⟨B', h1, r', h2, rfl⟩ := h
    have hB' := C27_sr1_symmetric _ _ _ _ _ _ _ _ hB h1
    have e1 := ih (i + 1) (by omega) B' hB' r' h2
    have e2 := sr1_grows hA hB (by omega) h1
    dsimp only
    omega

/-- C171: a whole run, from the first pass on, changes the operator at most as often as the space has
dimensions, plus twice for the first two passes. -/
theorem C171_finitely_many_changes [FiniteDimensional ℝ E] (eps ngf0 : ℝ) (A : E →ₗ[ℝ] E) (hA : IsSym A)
    (l : List (E × ℝ)) (B : E →ₗ[ℝ] E) (hB : IsSym B) (r : (E →ₗ[ℝ] E) × Nat)
    (h : sr1Run eps ngf0 A l 0 B = some r) : r.2 ≤ Module.finrank ℝ E + 2 := by
  have late : ∀ (l : List (E × ℝ)) (B : E →ₗ[ℝ] E), IsSym B → ∀ r : (E →ₗ[ℝ] E) × Nat,
      sr1Run eps ngf0 A l 2 B = some r → r.2 ≤ Module.finrank ℝ E := by
    intro l B hB r h
    have h1 := C171_each_change_counts eps ngf0 A hA l 2 (le_refl _) B hB r h
    have h2 := Submodule.finrank_le (LinearMap.ker (A - r.1))
    omega
  cases l with
  | nil =>
    obtain rfl := Option.some.inj h
    exact Nat.zero_le _
  | cons p l =>
    obtain ⟨s, g⟩ := p
    simp only [sr1Run, Option.bind_eq_some_iff, Option.map_eq_some_iff] at h
    obtain ⟨B1, h1, r1, h2, rfl⟩ := h
    have hB1 := C27_sr1_symmetric _ _ _ _ _ _ _ _ hB h1
    have bound : r1.2 ≤ Module.finrank ℝ E + 1 := by
      cases l with
      | nil =>
        obtain rfl := Option.some.inj h2
        exact Nat.zero_le _
      | cons p l =>
        obtain ⟨s, g⟩ := p
        simp only [sr1Run, Option.bind_eq_some_iff, Option.map_eq_some_iff] at h2
        obtain ⟨B2, h3, r2, h4, rfl⟩ := h2
        have hB2 := C27_sr1_symmetric _ _ _ _ _ _ _ _ hB1 h3
        have := late l B2 hB2 r2 h4
        dsimp only
        split <;> omega
    dsimp only
    split <;> omega

/-- C171: once as many passes as there are dimensions have changed the operator after the first two, it is
the Hessian. -/
theorem C171_learns_hessian [FiniteDimensional ℝ E] (eps ngf0 : ℝ) (A : E →ₗ[ℝ] E) (hA : IsSym A)
    (l : List (E × ℝ)) (i : Nat) (hi : 2 ≤ i) (B : E →ₗ[ℝ] E) (hB : IsSym B) (r : (E →ₗ[ℝ] E) × Nat)
    (h : sr1Run eps ngf0 A l i B = some r) (hn : r.2 = Module.finrank ℝ E) : r.1 = A := by
  have h1 := C171_each_change_counts eps ngf0 A hA l i hi B hB r h
  have h2 := Submodule.finrank_le (LinearMap.ker (A - r.1))
  have h3 : LinearMap.ker (A - r.1) = ⊤ := Submodule.eq_top_of_finrank_eq (by omega)
  have h4 := LinearMap.ker_eq_top.mp h3
  exact (sub_eq_zero.mp h4).symm

/-- C171: after that, a further pass leaves the operator alone while the gradient is large, and divides by
zero as soon as the gradient norm is below a thousandth of the initial one. -/
theorem C171_then_divides_by_zero [FiniteDimensional ℝ E] (eps ngf0 : ℝ) (heps : 0 < eps) (A : E →ₗ[ℝ] E)
    (hA : IsSym A) (l : List (E × ℝ)) (i : Nat) (hi : 2 ≤ i) (B : E →ₗ[ℝ] E) (hB : IsSym B)
    (r : (E →ₗ[ℝ] E) × Nat) (h : sr1Run eps ngf0 A l i B = some r) (hn : r.2 = Module.finrank ℝ E)
    (s : E) (g : ℝ) :
    ((ngf0 ≠ 0 ∧ g / ngf0 < 1 / 1000) → rtrsr1 eps g ngf0 (i + l.length) s (A s) r.1 = none) ∧
    (¬ (ngf0 ≠ 0 ∧ g / ngf0 < 1 / 1000) → rtrsr1 eps g ngf0 (i + l.length) s (A s) r.1 = some A) := by
  have hr := C171_learns_hessian eps ngf0 A hA l i hi B hB r h hn
  rw [hr]
  refine ⟨fun hg => C27_sr1_divides_by_zero _ _ _ _ _ _ (by omega) hg.1 hg.2, fun hg => ?_⟩
  unfold rtrsr1
  dsimp only
  rw [if_neg (fun h => absurd h.1 (by omega)), if_neg, if_neg (by omega)]
  rintro ⟨-, h1 | h1⟩
  · rw [sub_self, inner_zero_right] at h1
    linarith
  · exact hg h1

/-- C171: the pass with `iter == 1`, in contrast, forgets: it replaces an exact operator by a multiple of the
identity. -/
theorem C171_reset_forgets (eps ngf2 ngf0 : ℝ) (heps : 0 < eps) (hg : ¬ (ngf0 ≠ 0 ∧ ngf2 / ngf0 < 1 / 1000))
    (A : E →ₗ[ℝ] E) (s : E) (hs : ⟪s, A s⟫ ≠ 0) :
    rtrsr1 eps ngf2 ngf0 1 s (A s) A = some ((⟪A s, A s⟫ / ⟪s, A s⟫) • LinearMap.id) := by
  unfold rtrsr1
  dsimp only
  rw [if_neg (fun h => hs h.2), if_neg, if_pos rfl]
  rintro ⟨-, h1 | h1⟩
  · rw [sub_self, inner_zero_right] at h1
    linarith
  · exact hg h1

/-! ### A concrete case: one dimension, Hessian 2, operator 1, one step -/

theorem exRun : sr1Run (1 / 1000) 1 (2 • LinearMap.id : ℝ →ₗ[ℝ] ℝ) [(1, 1)] 2 LinearMap.id
    = some (addRank1 LinearMap.id (1 / 1) 1 1, 1) := by
  have hz : (2 • LinearMap.id : ℝ →ₗ[ℝ] ℝ) 1 - LinearMap.id (R := ℝ) (1 : ℝ) = 1 := by simp; norm_num
  have hu : rtrsr1 (1 / 1000) 1 1 2 (1 : ℝ) ((2 • LinearMap.id : ℝ →ₗ[ℝ] ℝ) 1) LinearMap.id
      = some (addRank1 LinearMap.id (1 / 1) 1 1) := by
    unfold rtrsr1
    dsimp only
    rw [hz, if_neg (by simp), if_pos (by simp; norm_num), if_neg (by simp), if_neg (by norm_num)]
    simp
  have hne : addRank1 (LinearMap.id : ℝ →ₗ[ℝ] ℝ) (1 / 1) 1 1 ≠ LinearMap.id := by
    intro h
    have := congrArg (fun f => f (1 : ℝ)) h
    simp [addRank1_apply] at this
  simp only [sr1Run, hu, Option.bind_some, Option.map_some, if_neg hne]

theorem sym_two : IsSym (2 • LinearMap.id : ℝ →ₗ[ℝ] ℝ) := by
  intro u v; simp; ring

/-- The operator is the Hessian after one pass, and the next pass near the solution divides by zero. -/
example (s : ℝ) : addRank1 (LinearMap.id : ℝ →ₗ[ℝ] ℝ) (1 / 1) 1 1 = 2 • LinearMap.id ∧
    rtrsr1 (1 / 1000) (1 / 2000) 1 3 s ((2 • LinearMap.id : ℝ →ₗ[ℝ] ℝ) s)
      (addRank1 LinearMap.id (1 / 1) 1 1) = none :=
  ⟨C171_learns_hessian _ _ _ sym_two _ 2 (le_refl _) LinearMap.id (fun _ _ => rfl) _ exRun (by simp),
   (C171_then_divides_by_zero _ _ (by norm_num) _ sym_two _ 2 (le_refl _) LinearMap.id (fun _ _ => rfl) _
      exRun (by simp) s (1 / 2000)).1 (by norm_num)⟩

end Verif.QN
