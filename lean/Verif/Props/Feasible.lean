import Verif.Props.TRRun
import Verif.Props.ProxGrad
import Verif.Props.Stiefel
import Verif.Props.Problems

/-!
# Feasibility of the iterates (C51, C75)

A set of points that contains the initial point and into which the retraction of the manifold maps contains every iterate of a run and the
point handed to the user. The set is an arbitrary predicate; nothing is assumed about objective, subproblem solver, radius or stopping test.
-/

set_option linter.unusedSectionVars false

/-! ## Trust-region run -/

namespace Verif.TRRun

variable {K X : Type} [Field K] [LinearOrder K] [IsStrictOrderedRing K]

theorem feasible_reaches {C : Cfg K} {E : Env K X} (S : X → Prop) (h0 : S E.x0)
    (hc : ∀ k x D, S x → (E.cand k x D).finite = true → S (E.cand k x D).x2) {s : St K X} (h : Reaches C E s) :
    S s.x1 ∧ ∀ x ∈ s.xs, S x := by
  induction h with
  | init => exact ⟨h0, by simpa [St.init] using h0⟩
  | @step s0 s1 _ _ hp ih =>
    obtain ⟨D, hD, hw⟩ := pass_next hp
    have hf := pass_next_finite hp
    rcases hw with ⟨_, hw⟩ | ⟨_, hw⟩
    · obtain ⟨e1, e2, e3, e4, e5, e6, e7, e8, e9, e10⟩ := writeHist_next hw
      have hS := hc s0.iter s0.x1 s0.Delta ih.1 hf
      rw [e3, e8]
      exact ⟨hS, fun x hx => (List.mem_cons.mp hx).elim (fun h => h ▸ hS) (ih.2 x)⟩
    · obtain ⟨e1, e2, e3, e4, e5, e6, e7, e8, e9, e10⟩ := writeHist_next hw
      rw [e3, e8]
      exact ⟨ih.1, fun x hx => (List.mem_cons.mp hx).elim (fun h => h ▸ ih.1) (ih.2 x)⟩

/-- **C75 (trust region).** All iterates of a finished trust-region run and its result lie in every set that contains the initial point and all
candidates computed from its points at which the objective is a number. -/
theorem C75_trust_region {C : Cfg K} {E : Env K X} (S : X → Prop) (h0 : S E.x0)
    (hc : ∀ k x D, S x → (E.cand k x D).finite = true → S (E.cand k x D).x2) {fuel : Nat} {t : St K X}
    (hrun : run C E fuel = .finished t) : S t.x1 ∧ (∀ x ∈ t.xs, S x) ∧ t.x1 ∈ t.xs := by
  obtain ⟨r, hr, e1, _, _, e2, _⟩ := finished_reaches fuel _ t .init hrun
  have h := feasible_reaches S h0 hc hr
  rw [e1, e2]
  refine ⟨h.1, h.2, ?_⟩
  have : ∀ {s : St K X}, Reaches C E s → s.x1 ∈ s.xs := by
    intro s hs
    induction hs with
    | init => simp [St.init]
    | step _ _ hp _ =>
      obtain ⟨D, hD, hw⟩ := pass_next hp
      rcases hw with ⟨_, hw⟩ | ⟨_, hw⟩ <;>
      · obtain ⟨e1, e2, e3, e4, e5, e6, e7, e8, e9, e10⟩ := writeHist_next hw
        rw [e3, e8]
        exact List.mem_cons_self
  exact this hr

end Verif.TRRun

/-! ## Proximal-gradient runs -/

namespace Verif.PG

variable {K X Y : Type} [Field K] [LinearOrder K] [IsStrictOrderedRing K]

theorem feasible_reaches {C : Cfg K} {E : Env K X} {lsFuel : Nat} (S : X → Prop) (h0 : S E.x0)
    (hc : ∀ k x tol lam t, S x → S (E.path k x tol lam t)) {s : St K X} (h : Reaches C E lsFuel s) :
    S s.x1 ∧ ∀ x ∈ s.xs, S x := by
  induction h with
  | init => exact ⟨h0, by simpa [St.init] using h0⟩
  | @step s0 s1 _ _ hp ih =>
    rcases pass_next hp with ⟨rfl, _⟩ | ⟨r, _, _, h1, h2, h3, h4, h5, h6, h7, _⟩
    · exact ih
    · rw [h7, h2]
      have hS := hc s0.iter s0.x1 s0.tol s0.lam r.trial ih.1
      exact ⟨hS, fun x hx => (List.mem_cons.mp hx).elim (fun h => h ▸ hS) (ih.2 x)⟩

theorem pass_stop {C : Cfg K} {E : Env K X} {lsFuel : Nat} {s s' : St K X} (h : pass C E lsFuel s = .stop s') : s' = s := by
  unfold pass at h
  split at h
  · simp at h
  · simp only [] at h
    split at h
    · split at h
      · simpa using h.symm
      · simp at h
    · split at h
      · simpa using h.symm
      · unfold record at h
        split at h
        · split at h
          · simp at h
          · split at h <;> simp at h
        · simp at h

theorem finished_reaches {C : Cfg K} {E : Env K X} {lsFuel : Nat} :
    ∀ (n : Nat) (s t : St K X), Reaches C E lsFuel s → loop C E lsFuel n s = .finished t → Reaches C E lsFuel t := by
  intro n
  induction n with
  | zero => intro s t _ h; simp [loop] at h
  | succ n ih =>
    intro s t hs h
    simp only [loop] at h
    by_cases hc : s.continues C = true
    · rw [if_pos hc] at h
      cases hp : pass C E lsFuel s with
      | running => simp [hp] at h
      | outOfBounds => simp [hp] at h
      | divByZero => simp [hp] at h
      | stop s' =>
        simp only [hp, Outcome.finished.injEq] at h
        subst h
        rw [pass_stop hp]; exact hs
      | next s' =>
        simp only [hp] at h
        exact ih s' t (.step hs hc hp) h
    · rw [if_neg hc] at h
      simp only [Outcome.finished.injEq] at h
      subst h; exact hs

/-- **C75 (proximal gradient).** All iterates of a finished run and its result lie in every set that contains the initial point and is
mapped into itself by the search curves. -/
theorem C75_proximal {C : Cfg K} {E : Env K X} (S : X → Prop) (h0 : S E.x0)
    (hc : ∀ k x tol lam t, S x → S (E.path k x tol lam t)) {lsFuel fuel : Nat} {t : St K X}
    (hrun : run C E lsFuel fuel = .finished t) : S t.x1 ∧ ∀ x ∈ t.xs, S x :=
  feasible_reaches S h0 hc (finished_reaches fuel _ t .init hrun)

theorem feasible_areaches {C : Cfg K} {E : AEnv K X Y} {lsFuel : Nat} (S : X → Prop) (h0 : S E.x0)
    (hc : ∀ k x tol lam t, S x → S (E.path k x tol lam t)) (hz : ∀ k x y tol lam, S x → S (E.zNext k x y tol lam))
    {s : ASt K X Y} (h : AReaches C E lsFuel s) : S s.x1 ∧ S s.z1 ∧ ∀ x ∈ s.xs, S x := by
  have hacc : ∀ {s s' : ASt K X Y}, accel C E s = .next s' → S s.x1 → S s.z1 → (∀ x ∈ s.xs, S x) →
      S s'.x1 ∧ S s'.z1 ∧ ∀ x ∈ s'.xs, S x := by
    intro s s' h h1 h2 h3
    unfold accel at h
    have := record_next h
    subst this
    exact ⟨h1, hz _ _ _ _ _ h2, h3⟩
  induction h with
  | init => exact ⟨h0, h0, by simpa [ASt.init] using h0⟩
  | @step s0 s1 _ _ hp ih =>
    obtain ⟨i1, i2, i3⟩ := ih
    rcases apass_next hp with ⟨rfl, _⟩ | ⟨r, _, _, _, ha⟩ | ⟨_, ha⟩
    · exact ⟨i1, i2, i3⟩
    · have hx2 := hc s0.iter s0.x1 s0.tol s0.lam r.trial i1
      have hsz : S (safeguard E s0 (E.path s0.iter s0.x1 s0.tol s0.lam r.trial)).x1 ∧
          S (safeguard E s0 (E.path s0.iter s0.x1 s0.tol s0.lam r.trial)).z1 := by
        unfold safeguard
        simp only []
        split <;> (split <;> constructor <;> assumption)
      refine hacc ha hsz.1 hsz.2 ?_
      intro x hx
      exact (List.mem_cons.mp hx).elim (fun h => h ▸ hsz.1) (i3 x)
    · exact hacc ha i1 i2 i3

theorem apass_stop {C : Cfg K} {E : AEnv K X Y} {lsFuel : Nat} {s s' : ASt K X Y} (h : apass C E lsFuel s = .stop s') : s' = s := by
  have hacc : ∀ s0 : ASt K X Y, accel C E s0 ≠ .stop s' := by
    intro s0 h
    unfold accel record at h
    simp only [] at h
    split at h
    · split at h
      · simp at h
      · split at h <;> simp at h
    · simp at h
  unfold apass at h
  split at h
  · simp at h
  · split at h
    · split at h
      · simp at h
      · simp only [] at h
        split at h
        · split at h
          · simpa using h.symm
          · simp at h
        · split at h
          · simpa using h.symm
          · exact absurd h (hacc _)
    · exact absurd h (hacc _)

theorem afinished_reaches {C : Cfg K} {E : AEnv K X Y} {lsFuel : Nat} :
    ∀ (n : Nat) (s t : ASt K X Y), AReaches C E lsFuel s → aloop C E lsFuel n s = .finished t → AReaches C E lsFuel t := by
  intro n
  induction n with
  | zero => intro s t _ h; simp [aloop] at h
  | succ n ih =>
    intro s t hs h
    simp only [aloop] at h
    by_cases hc : s.continues C = true
    · rw [if_pos hc] at h
      cases hp : apass C E lsFuel s with
      | running => simp [hp] at h
      | outOfBounds => simp [hp] at h
      | divByZero => simp [hp] at h
      | stop s' =>
        simp only [hp, Outcome.finished.injEq] at h
        subst h
        rw [apass_stop hp]; exact hs
      | next s' =>
        simp only [hp] at h
        exact ih s' t (.step hs hc hp) h
    · rw [if_neg hc] at h
      simp only [Outcome.finished.injEq] at h
      subst h; exact hs

/-- **C75 (accelerated proximal gradient).** Safeguard iterates, accelerated iterates and result of a finished run lie in every set that contains
the initial point and is mapped into itself by the search curves and the accelerated step. -/
theorem C75_accelerated {C : Cfg K} {E : AEnv K X Y} (S : X → Prop) (h0 : S E.x0)
    (hc : ∀ k x tol lam t, S x → S (E.path k x tol lam t)) (hz : ∀ k x y tol lam, S x → S (E.zNext k x y tol lam))
    {lsFuel fuel : Nat} {t : ASt K X Y} (hrun : arun C E lsFuel fuel = .finished t) : S t.x1 ∧ S t.z1 ∧ ∀ x ∈ t.xs, S x :=
  feasible_areaches S h0 hc hz (afinished_reaches fuel _ t .init hrun)

end Verif.PG

/-! ## Runs on the Stiefel manifold and the sphere -/

namespace Verif.Problem

open Matrix Verif.Stiefel

/-- The factorisation LAPACK returns for one matrix (specification of `geqrf`/`orgqr`): orthonormal columns. -/
def OrthoCols {n : Type*} [Fintype n] {k : ℕ} (Q : Matrix n (Fin k) ℝ) : Prop := Qᵀ * Q = 1

theorem qf_ortho {n : Type*} [Fintype n] {k : ℕ} {Q : Matrix n (Fin k) ℝ} {R : Matrix (Fin k) (Fin k) ℝ} (hQ : OrthoCols Q) :
    OrthoCols (qfRetraction Q R) := by
  unfold OrthoCols at *
  ext a b
  have h := congrFun (congrFun hQ a) b
  simp only [Matrix.mul_apply, Matrix.transpose_apply, qfRetraction, scaleCols] at h ⊢
  have : ∀ i, signs R a * Q i a * (signs R b * Q i b) = signs R a * signs R b * (Q i a * Q i b) := fun i => by ring
  simp only [this, ← Finset.mul_sum, h]
  by_cases hab : a = b
  · subst hab
    have : signs R a * signs R a = 1 := by unfold signs; split <;> norm_num
    rw [this, one_mul]
  · simp [Matrix.one_apply_ne hab]

/-- **C75 (QR retraction).** Trust-region runs on the Stiefel manifold with the QR retraction: if the initial point has orthonormal columns, every iterate
and the result have, whatever directions the subproblem solver proposes. -/
theorem C75_stiefel_trust_region {n : Type} [Fintype n] {k : ℕ} {C : TRRun.Cfg ℝ} {E : TRRun.Env ℝ (Matrix n (Fin k) ℝ)}
    (h0 : OrthoCols E.x0)
    (hr : ∀ i x D, ∃ Q R, OrthoCols Q ∧ (E.cand i x D).x2 = qfRetraction Q R)
    {fuel : Nat} {t : TRRun.St ℝ (Matrix n (Fin k) ℝ)} (hrun : TRRun.run C E fuel = .finished t) :
    OrthoCols t.x1 ∧ ∀ x ∈ t.xs, OrthoCols x := by
  have h := TRRun.C75_trust_region OrthoCols h0 (fun i x D _ _ => ?_) hrun
  · exact ⟨h.1, h.2.1⟩
  · obtain ⟨Q, R, hQ, e⟩ := hr i x D
    rw [e]
    exact qf_ortho hQ

/-- **C51.** For every iterate of the trust-region run on the sphere made by the minimum-norm routine, and for its result, the vector handed out is a convex
combination of the given vectors. -/
theorem C51_iterates {k : ℕ} {F : Type} [NormedAddCommGroup F] [InnerProductSpace ℝ F] (W : Fin k → F) (P : F → F)
    {C : TRRun.Cfg ℝ} {E : TRRun.Env ℝ (Matrix (Fin k) (Fin 1) ℝ)} (h0 : OrthoCols E.x0)
    (hr : ∀ i x D, ∃ Q R, OrthoCols Q ∧ (E.cand i x D).x2 = qfRetraction Q R)
    (hf : ∀ x, E.f x = ((sphereConvexHull W P).f fun i => x i 0).1)
    {fuel : Nat} {t : TRRun.St ℝ (Matrix (Fin k) (Fin 1) ℝ)} (hrun : TRRun.run C E fuel = .finished t) :
    (∀ x ∈ t.xs, ((sphereConvexHull W P).f fun i => x i 0).2.1 ∈ convexHull ℝ (Set.range W)) ∧
      ((sphereConvexHull W P).f fun i => t.x1 i 0).2.1 ∈ convexHull ℝ (Set.range W) ∧
      t.f1 = inner ℝ ((sphereConvexHull W P).f fun i => t.x1 i 0).2.1 (P ((sphereConvexHull W P).f fun i => t.x1 i 0).2.1) := by
  have unit : ∀ x : Matrix (Fin k) (Fin 1) ℝ, OrthoCols x → ∑ i, x i 0 * x i 0 = 1 := by
    intro x hx
    have := congrFun (congrFun hx 0) 0
    simpa [Matrix.mul_apply] using this
  have h := C75_stiefel_trust_region h0 hr hrun
  refine ⟨fun x hx => (C51_in_hull W P (unit x (h.2 x hx))).1, (C51_in_hull W P (unit _ h.1)).1, ?_⟩
  obtain ⟨r, hr', e1, e2, _⟩ := TRRun.finished_reaches fuel _ t .init hrun
  rw [e2, (TRRun.reaches_basic hr').1, hf, e1]
  exact (C51_in_hull W P (unit _ (e1 ▸ h.1))).2

/-- The hypotheses hold together: with admissible iteration limits a run from the first coordinate vector, whose candidates are the QR
retractions of `x + D e₂` (here the factor is the normalised vector), ends, in at most `Max_Iteration` passes, at a unit vector. -/
example (C : TRRun.Cfg ℝ) (hm : C.minIter ≤ C.maxIter) (hg : C.outputGap ≠ 0) (E : TRRun.Env ℝ (Matrix (Fin 2) (Fin 1) ℝ))
    (hx : E.x0 = !![1; 0])
    (hE : ∀ i x D, (E.cand i x D).x2 = qfRetraction !![3 / 5; 4 / 5] !![-1]) :
    ∃ t, TRRun.run C E (C.maxIter + 1) = .finished t ∧ OrthoCols t.x1 := by
  obtain ⟨t, ht, _⟩ := TRRun.C13_tr_run_finishes (E := E) hm hg (C.maxIter + 1) le_rfl
  refine ⟨t, ht, (C75_stiefel_trust_region ?_ (fun i x D => ⟨_, _, ?_, hE i x D⟩) ht).1⟩
  · rw [hx]; unfold OrthoCols; ext a b; fin_cases a; fin_cases b; simp [Matrix.mul_apply, Fin.sum_univ_two]
  · unfold OrthoCols; ext a b; fin_cases a; fin_cases b; norm_num [Matrix.mul_apply, Fin.sum_univ_two]

end Verif.Problem
