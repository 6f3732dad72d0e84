import Verif.Solver.LSRun
import Verif.Props.Run
import Verif.Props.Control
import Mathlib.Tactic.Positivity
import Mathlib.Tactic.FieldSimp
import Mathlib.Algebra.Order.Archimedean.Real.Basic

/-!
# C99: line-search runs reach the requested gradient norm
-/

set_option linter.unusedSectionVars false
set_option linter.unusedVariables false

namespace Verif.Solver

variable {X V : Type}

/-! ## Specification -/

/-- The objective is bounded below. -/
def BoundedBelow (M : Land X V) (fmin : ℝ) : Prop := ∀ x, fmin ≤ M.f x

/-- Along every direction the objective lies below its linear model plus `L/2` times the squared length of the step (the form in which a
Lipschitz condition on the gradient of the pulled back objective is used); `nrm` is the norm of tangent vectors. -/
def UpperModel (M : Land X V) (nrm : X → V → ℝ) (L : ℝ) : Prop :=
  ∀ x d t, 0 ≤ t → M.f (M.move x d t) ≤ M.f x + t * M.slope x d + L / 2 * (t * nrm x d) ^ 2

/-- The directions are gradient related: they are not too short in the direction of the negative gradient and not too long. -/
def GradientRelated (M : Land X V) (nrm : X → V → ℝ) (O : Oracle X V) (c1 c2 : ℝ) : Prop :=
  ∀ x t past, M.slope x (O.dir ((x, t) :: past)) ≤ -c1 * M.gnorm x ^ 2 ∧ nrm x (O.dir ((x, t) :: past)) ≤ c2 * M.gnorm x ∧
    0 ≤ nrm x (O.dir ((x, t) :: past))

/-- The gradient norm at which the stopping test holds, for the two criteria on the gradient. -/
def Threshold (C : LSCfg) (g0 thr : ℝ) : Prop :=
  (C.crit = .gradF ∧ thr = C.tol) ∨ (C.crit = .gradF0 ∧ 0 < g0 ∧ thr = C.tol * g0)

/-! ## Helper lemmas -/

theorem settled_spec {α : Type} {g : ℕ → Option α} {r : α} (h : settled g = some r) : ∃ n, g n = some r := by
  unfold settled at h
  split at h
  · exact ⟨_, h⟩
  · cases h

theorem settled_isSome {α : Type} {g : ℕ → Option α} (h : ∃ n r, g n = some r) : ∃ r, settled g = some r := by
  classical
  obtain ⟨n, r, hr⟩ := h
  have h' : ∃ n, (g n).isSome := ⟨n, by rw [hr]; rfl⟩
  unfold settled
  rw [dif_pos h']
  convert Option.isSome_iff_exists.mp (Nat.find_spec h')

section search

variable {K : Type} [Field K] [LinearOrder K] [IsStrictOrderedRing K]

theorem backtrack_ge (P : LSParams K) (φ : Ray K) (ref δ : K) (n : Nat) (s r : Search K)
    (h : backtrack P φ ref n s = some r) (hf : Fresh φ s)
    (hδ : ∀ t, 0 < t → t ≤ δ → ¬ ref - φ.phi t < -P.alpha * φ.slope * t)
    (h0 : 0 < P.r1) (h1 : P.r1 ≤ 1) (hs : 0 < s.step) : min s.step (P.r1 * δ) ≤ r.step := by
  induction n generalizing s with
  | zero => simp [backtrack] at h
  | succ n ih =>
    simp only [backtrack] at h
    split at h
    · rename_i hv
      have hgt : δ < s.step := by
        by_contra hc
        exact hδ s.step hs (not_lt.mp hc) (by rw [← hf.2]; exact hv)
      have hle : P.r1 * δ ≤ s.step * P.r1 := by nlinarith
      split at h
      · injection h with h; subst h; exact (min_le_right _ _).trans hle
      · have := ih _ h (evalH_fresh _ _) (by simpa [evalH] using mul_pos hs h0)
        refine (le_min ?_ (min_le_right _ _)).trans this
        exact (min_le_right _ _).trans hle
    · injection h with h; subst h; exact min_le_left _ _

theorem polyLoop_ge (P : LSParams K) (φ : Ray K) (I : Interp K) (ref δ : K) (n : Nat) (p2 fp : K) (s r : Search K)
    (h : polyLoop P φ I ref n p2 fp s = some r) (hf : Fresh φ s)
    (hδ : ∀ t, 0 < t → t ≤ δ → ¬ ref - φ.phi t < -P.alpha * φ.slope * t)
    (h0 : 0 < P.r1) (h12 : P.r1 ≤ P.r2) (hs : 0 < s.step) : min s.step (P.r1 * δ) ≤ r.step := by
  induction n generalizing s p2 fp with
  | zero => simp [polyLoop] at h
  | succ n ih =>
    have hb := clampHiLo_bounds (P.r2 * s.step) (P.r1 * s.step) (I.cubic s.step p2 s.f2 fp)
      (mul_le_mul_of_nonneg_right h12 hs.le)
    simp only [polyLoop] at h
    split at h
    · rename_i hv
      have hgt : δ < s.step := by
        by_contra hc
        exact hδ s.step hs (not_lt.mp hc) (by rw [← hf.2]; exact hv)
      have hle : P.r1 * δ ≤ P.r1 * s.step := by nlinarith
      split at h
      · injection h with h; subst h; exact (min_le_right _ _).trans (hle.trans hb.1)
      · have := ih _ _ _ h (evalH_fresh _ _) (by simp only [evalH]; exact lt_of_lt_of_le (mul_pos h0 hs) hb.1)
        refine (le_min ?_ (min_le_right _ _)).trans this
        exact (min_le_right _ _).trans (hle.trans hb.1)
    · injection h with h; subst h; exact min_le_left _ _

/-- The accepted Armijo step is the first trial or at least `LS_ratio1` times any `δ` below which all steps are acceptable. -/
theorem armijo_ge (P : LSParams K) (φ : Ray K) (I : Interp K) (pre : List K) (fuel : Nat) (s0 r : Search K)
    (h : armijo P φ I pre fuel s0 = some r) (δ : K)
    (hδ : ∀ t, 0 < t → t ≤ δ → φ.phi t ≤ φ.f0 + P.alpha * t * φ.slope)
    (hr1 : 0 < P.r1) (hr11 : P.r1 ≤ 1) (hp : 0 < s0.step) : min s0.step (P.r1 * δ) ≤ r.step := by
  have hδ' : ∀ t, 0 < t → t ≤ δ → ¬ maxPref P.numPre φ.f0 pre - φ.phi t < -P.alpha * φ.slope * t := by
    intro t ht htd hc
    have h1 := hδ t ht htd
    have h2 := maxPref_ge P.numPre φ.f0 pre
    nlinarith
  unfold armijo at h
  simp only at h
  split at h
  · rw [Option.map_eq_some_iff] at h
    obtain ⟨a, ha', rfl⟩ := h
    have := backtrack_ge _ _ _ δ _ _ a ha' (evalH_fresh _ _) hδ' hr1 hr11 hp
    exact this
  · rename_i hlt
    have h12 : P.r1 ≤ P.r2 := (not_le.mp hlt).le
    rw [Option.map_eq_some_iff] at h
    obtain ⟨a, ha', rfl⟩ := h
    have h3 := polyLoop_ge _ _ _ _ δ _ _ _ _ _ ha' (armijoFirst_fresh _ _ _ _ _ (evalH_fresh _ _))
      hδ' hr1 h12 (armijoFirst_pos _ _ _ _ _ h12 hr1 hp)
    refine (le_min ?_ (min_le_right _ _)).trans h3
    unfold armijoFirst
    split
    · rename_i hv
      have hgt : δ < s0.step := by
        by_contra hc
        exact hδ' s0.step hp (not_lt.mp hc) hv
      have hb := clampHiLo_bounds (P.r2 * s0.step) (P.r1 * s0.step) (I.quad s0.step (φ.phi s0.step)) (mul_le_mul_of_nonneg_right h12 hp.le)
      have hle : P.r1 * δ ≤ P.r1 * s0.step := by nlinarith
      exact (min_le_right _ _).trans (hle.trans hb.1)
    · exact min_le_left _ _

/-- The reference value of the nonmonotone test is one of the last `max 1 m` values. -/
theorem maxPref_window (C : RunCfg) (s : RunState K) (h : RunInv C s) : maxPref C.numPre s.f1 s.pre ∈ s.hist.take (max 1 C.numPre) := by
  have hh : s.hist = s.f1 :: s.hist.tail := by
    have := h.head
    cases hx : s.hist with
    | nil => rw [hx] at this; simp at this
    | cons a l => rw [hx] at this; simp at this; simp [this]
  obtain ⟨m, hm⟩ : ∃ m, max 1 C.numPre = m + 1 := ⟨max 1 C.numPre - 1, by omega⟩
  rw [hm, hh, List.take_succ_cons]
  rcases maxPref_mem C.numPre s.f1 s.pre with e | e
  · rw [e]; simp
  · right
    have hsub : s.pre.dropLast <+: s.hist.tail := (List.dropLast_prefix _).trans h.pre_prefix
    have hlen : s.pre.dropLast.length ≤ m := by
      have := h.pre_len; simp; omega
    have e2 := List.mem_of_mem_take e
    have : s.pre.dropLast = s.hist.tail.take s.pre.dropLast.length := List.prefix_iff_eq_take.mp hsub
    rw [this] at e2
    exact List.take_subset_take_left _ hlen e2

end search

/-- Largest step that is acceptable for certain. -/
noncomputable def safeStep (P : LSParams ℝ) (L c1 c2 : ℝ) : ℝ := 2 * (1 - P.alpha) * c1 / (L * c2 ^ 2)

theorem safe_ok (M : Land X V) {nrm : X → V → ℝ} {L c1 c2 : ℝ} (P : LSParams ℝ) (hL : 0 < L) (hc1 : 0 < c1) (hc2 : 0 < c2) (ha1 : P.alpha < 1)
    (hU : UpperModel M nrm L) {x : X} {d : V} (hs : M.slope x d ≤ -c1 * M.gnorm x ^ 2) (hn : nrm x d ≤ c2 * M.gnorm x) (hn0 : 0 ≤ nrm x d)
    (t : ℝ) (ht : 0 < t) (htd : t ≤ safeStep P L c1 c2) : M.f (M.move x d t) ≤ M.f x + P.alpha * t * M.slope x d := by
  have h1 := hU x d t ht.le
  have h2 : t * (L * c2 ^ 2) ≤ 2 * (1 - P.alpha) * c1 := by
    rwa [safeStep, le_div_iff₀ (by positivity)] at htd
  have h3 : nrm x d ^ 2 ≤ c2 ^ 2 * M.gnorm x ^ 2 := by
    rw [← mul_pow]; exact pow_le_pow_left₀ hn0 hn 2
  have h4 : L / 2 * (t * nrm x d) ^ 2 ≤ t * ((1 - P.alpha) * (c1 * M.gnorm x ^ 2)) := by
    have e1 : L / 2 * (t * nrm x d) ^ 2 = L / 2 * t ^ 2 * nrm x d ^ 2 := by ring
    have e2 : L / 2 * t ^ 2 * nrm x d ^ 2 ≤ L / 2 * t ^ 2 * (c2 ^ 2 * M.gnorm x ^ 2) := mul_le_mul_of_nonneg_left h3 (by positivity)
    have e3 : L / 2 * t ^ 2 * (c2 ^ 2 * M.gnorm x ^ 2) = t / 2 * M.gnorm x ^ 2 * (t * (L * c2 ^ 2)) := by ring
    have e4 : t / 2 * M.gnorm x ^ 2 * (t * (L * c2 ^ 2)) ≤ t / 2 * M.gnorm x ^ 2 * (2 * (1 - P.alpha) * c1) :=
      mul_le_mul_of_nonneg_left h2 (by positivity)
    calc _ = _ := e1
      _ ≤ _ := e2
      _ = _ := e3
      _ ≤ _ := e4
      _ = _ := by ring
  have h5 : t * ((1 - P.alpha) * (c1 * M.gnorm x ^ 2)) ≤ t * ((1 - P.alpha) * (-M.slope x d)) := by
    refine mul_le_mul_of_nonneg_left (mul_le_mul_of_nonneg_left (by linarith) (by linarith)) ht.le
  nlinarith

/-- What is known about every state of the run. -/
structure LSInv (M : Land X V) (C : LSCfg) (O : Oracle X V) (Good : Past X → Prop) (F0 δ thr : ℝ) (s : LSState X) : Prop where
  run : RunInv C.run s.rs
  val : s.rs.f1 = M.f s.x
  ngf : s.ngf = M.gnorm s.x
  past : ∃ t p, s.past = (s.x, t) :: p
  ok : s.rs.ok = true
  stop : s.rs.isstop = true ↔ (O.timeUp s.rs.iter = true ∨ M.gnorm s.x < thr)
  dec : ∀ i (h : i < s.rs.hist.length), s.rs.hist[i] ≤ F0 - ((s.rs.iter : ℝ) - i) * δ / max 1 C.run.numPre
  good : Good s.past
  len : s.past.length = s.rs.iter + 1

/-- Hypotheses of C99 for the runs whose pasts satisfy `Good`: the directions are gradient related and the initial steps bounded below at the points of such runs that are not yet
good enough, and an accepted step leads to such a past again. What is known about an accepted step `t`: it is the first trial or at least `LS_ratio1` times the safe step, or times the length
of any interval on which the condition holds, and with `Num_pre_funs <= 1` the objective decreases sufficiently. -/
structure ReachSetting (M : Land X V) (C : LSCfg) (O : Oracle X V) (nrm : X → V → ℝ) (Good : Past X → Prop) (x0 : X) (fmin L c1 c2 lo thr : ℝ) : Prop where
  below : BoundedBelow M fmin
  upper : UpperModel M nrm L
  dirs : ∀ x t past, Good ((x, t) :: past) → thr ≤ M.gnorm x → M.slope x (O.dir ((x, t) :: past)) ≤ -c1 * M.gnorm x ^ 2 ∧
    nrm x (O.dir ((x, t) :: past)) ≤ c2 * M.gnorm x ∧ 0 ≤ nrm x (O.dir ((x, t) :: past))
  init : ∀ x t past, Good ((x, t) :: past) → thr ≤ M.gnorm x → lo ≤ O.init ((x, t) :: past)
  good0 : Good [(x0, 0)]
  goodS : ∀ x u past t, Good ((x, u) :: past) → thr ≤ M.gnorm x → 0 < t → min (O.init ((x, u) :: past)) (C.ls.r1 * safeStep C.ls L c1 c2) ≤ t →
    (∀ δ, (∀ r, 0 < r → r ≤ δ → M.f (M.move x (O.dir ((x, u) :: past)) r) ≤ M.f x + C.ls.alpha * r * M.slope x (O.dir ((x, u) :: past))) →
      min (O.init ((x, u) :: past)) (C.ls.r1 * δ) ≤ t) →
    (C.run.numPre ≤ 1 → M.f (M.move x (O.dir ((x, u) :: past)) t) ≤ M.f x + C.ls.alpha * t * M.slope x (O.dir ((x, u) :: past))) →
    Good ((M.move x (O.dir ((x, u) :: past)) t, t) :: (x, u) :: past)
  Lpos : 0 < L
  c1pos : 0 < c1
  c2pos : 0 < c2
  kind : C.kind = .armijo
  alpha : 0 < C.ls.alpha
  alpha1 : C.ls.alpha < 1
  r1 : 0 < C.ls.r1
  r11 : C.ls.r1 < 1
  r2 : C.ls.r2 < 1
  minPos : 0 < C.ls.minStep
  minSmall : C.ls.minStep ≤ C.ls.r1 * safeStep C.ls L c1 c2
  lopos : 0 < lo
  nocall : O.callback = none
  thresh : Threshold C (M.gnorm x0) thr
  thrpos : 0 < thr
  acc : C.accuracy * (M.gnorm x0 + C.tol) ≤ thr
  tolpos : 0 < C.tol
  g0 : 0 ≤ M.gnorm x0
  min0 : C.run.minIter = 0
  gap : C.run.record = true → 0 < C.run.outputGap

/-- Hypotheses of C99, collected. -/
structure Setting (M : Land X V) (C : LSCfg) (O : Oracle X V) (nrm : X → V → ℝ) (x0 : X) (fmin L c1 c2 lo thr : ℝ) : Prop where
  below : BoundedBelow M fmin
  upper : UpperModel M nrm L
  dirs : GradientRelated M nrm O c1 c2
  Lpos : 0 < L
  c1pos : 0 < c1
  c2pos : 0 < c2
  kind : C.kind = .armijo
  alpha : 0 < C.ls.alpha
  alpha1 : C.ls.alpha < 1
  r1 : 0 < C.ls.r1
  r11 : C.ls.r1 < 1
  r2 : C.ls.r2 < 1
  minPos : 0 < C.ls.minStep
  minSmall : C.ls.minStep ≤ C.ls.r1 * safeStep C.ls L c1 c2
  lopos : 0 < lo
  init : ∀ p, lo ≤ O.init p
  nocall : O.callback = none
  thresh : Threshold C (M.gnorm x0) thr
  thrpos : 0 < thr
  acc : C.accuracy * (M.gnorm x0 + C.tol) ≤ thr
  tolpos : 0 < C.tol
  g0 : 0 ≤ M.gnorm x0
  min0 : C.run.minIter = 0
  gap : C.run.record = true → 0 < C.run.outputGap

theorem Setting.reach {M : Land X V} {C : LSCfg} {O : Oracle X V} {nrm : X → V → ℝ} {x0 : X} {fmin L c1 c2 lo thr : ℝ}
    (S : Setting M C O nrm x0 fmin L c1 c2 lo thr) : ReachSetting M C O nrm (fun _ => True) x0 fmin L c1 c2 lo thr where
  below := S.below
  upper := S.upper
  dirs := fun x t past _ _ => S.dirs x t past
  init := fun x t past _ _ => S.init _
  good0 := trivial
  goodS := fun _ _ _ _ _ _ _ _ _ _ => trivial
  Lpos := S.Lpos
  c1pos := S.c1pos
  c2pos := S.c2pos
  kind := S.kind
  alpha := S.alpha
  alpha1 := S.alpha1
  r1 := S.r1
  r11 := S.r11
  r2 := S.r2
  minPos := S.minPos
  minSmall := S.minSmall
  lopos := S.lopos
  nocall := S.nocall
  thresh := S.thresh
  thrpos := S.thrpos
  acc := S.acc
  tolpos := S.tolpos
  g0 := S.g0
  min0 := S.min0
  gap := S.gap

/-- Guaranteed decrease per iteration. -/
noncomputable def gain (P : LSParams ℝ) (L c1 c2 lo thr : ℝ) : ℝ := P.alpha * min lo (P.r1 * safeStep P L c1 c2) * (c1 * thr ^ 2)

theorem stop_iff {M : Land X V} {C : LSCfg} {O : Oracle X V} {x0 : X} {thr : ℝ} (hcb : O.callback = none) (ht : Threshold C (M.gnorm x0) thr)
    (past : Past X) (k : ℕ) (f1 f2 g : ℝ) :
    C.stop O past k f1 f2 (M.gnorm x0) g = true ↔ (O.timeUp k = true ∨ g < thr) := by
  unfold LSCfg.stop isStopped
  cases htu : O.timeUp k
  · rcases ht with ⟨hc, rfl⟩ | ⟨hc, hg, rfl⟩
    · simp [hcb, hc]
    · simp only [hcb, hc, Option.map_none, quotLt, hg.ne', if_false]
      rw [if_neg (by simp)]
      simp [div_lt_iff₀ hg]
  · simp

theorem init_LSInv {M : Land X V} {C : LSCfg} {O : Oracle X V} {nrm : X → V → ℝ} {Good : Past X → Prop} {x0 : X} {fmin L c1 c2 lo thr : ℝ}
    (S : ReachSetting M C O nrm Good x0 fmin L c1 c2 lo thr) : LSInv M C O Good (M.f x0) (gain C.ls L c1 c2 lo thr) thr (lsInit M C O x0) where
  run := init_inv _ _ _ _
  val := rfl
  ngf := rfl
  past := ⟨0, [], rfl⟩
  ok := rfl
  stop := stop_iff S.nocall S.thresh _ _ _ _ _
  dec := by
    intro i h
    have h : i < 1 := h
    obtain rfl : i = 0 := by omega
    simp [lsInit, RunState.init]
  good := S.good0
  len := rfl

theorem gain_pos {M : Land X V} {C : LSCfg} {O : Oracle X V} {nrm : X → V → ℝ} {Good : Past X → Prop} {x0 : X} {fmin L c1 c2 lo thr : ℝ}
    (S : ReachSetting M C O nrm Good x0 fmin L c1 c2 lo thr) : 0 < gain C.ls L c1 c2 lo thr := by
  have h1 := S.lopos
  have h2 := S.r1
  have h3 := S.Lpos
  have h4 := S.c1pos
  have h5 := S.c2pos
  have h6 := S.alpha
  have h7 : 0 < 1 - C.ls.alpha := sub_pos.mpr S.alpha1
  have h8 := S.thrpos
  have h9 : 0 < safeStep C.ls L c1 c2 := by unfold safeStep; positivity
  have : 0 < min lo (C.ls.r1 * safeStep C.ls L c1 c2) := lt_min h1 (mul_pos h2 h9)
  unfold gain
  positivity

/-- The search made at a point that is not yet good enough. -/
theorem search_ok {M : Land X V} {C : LSCfg} {O : Oracle X V} {nrm : X → V → ℝ} {Good : Past X → Prop} {x0 : X} {fmin L c1 c2 lo thr : ℝ}
    (S : ReachSetting M C O nrm Good x0 fmin L c1 c2 lo thr) {s : LSState X} (h : LSInv M C O Good (M.f x0) (gain C.ls L c1 c2 lo thr) thr s)
    (hg : thr ≤ M.gnorm s.x) :
    ∃ r, C.search (M.ray s.x (O.dir s.past) s.rs.f1) (O.interp s.past) s.rs.pre s.ngf (M.gnorm x0) (O.init s.past) = some r ∧
      r.status = .success ∧ r.pt = r.step ∧ r.f2 = M.f (M.move s.x (O.dir s.past) r.step) ∧ r.gradAt = some r.step ∧
      r.f2 ≤ maxPref C.run.numPre s.rs.f1 s.rs.pre - gain C.ls L c1 c2 lo thr ∧ Good ((M.move s.x (O.dir s.past) r.step, r.step) :: s.past) := by
  obtain ⟨t0, p0, hpast⟩ := h.past
  have hgood : Good ((s.x, t0) :: p0) := hpast ▸ h.good
  obtain ⟨d1, d2, d3⟩ := S.dirs s.x t0 p0 hgood hg
  have hinit : lo ≤ O.init s.past := by rw [hpast]; exact S.init s.x t0 p0 hgood hg
  have hstep := S.goodS s.x t0 p0
  rw [← hpast] at d1 d2 d3 hstep
  have hsum : 0 < M.gnorm x0 + C.tol := by have := S.g0; have := S.tolpos; linarith
  have hna : ¬ s.ngf / (M.gnorm x0 + C.tol) < C.accuracy := by
    rw [not_lt, le_div_iff₀ hsum, h.ngf]; exact S.acc.trans hg
  have hpos : 0 < O.init s.past := lt_of_lt_of_le S.lopos hinit
  unfold LSCfg.search
  simp only [hna, if_false, S.kind]
  set P : LSParams ℝ := { C.ls with numPre := C.run.numPre } with hP
  set φ := M.ray s.x (O.dir s.past) s.rs.f1 with hφ
  have hex := C15_armijo_terminates P φ (O.interp s.past) s.rs.pre (Search.start (O.init s.past) 0 φ.f0) S.r1 S.r11 S.r2 S.minPos hpos
  obtain ⟨r, hr⟩ := settled_isSome hex
  obtain ⟨n, hn⟩ := settled_spec hr
  have hδ : ∀ t, 0 < t → t ≤ safeStep C.ls L c1 c2 → φ.phi t ≤ φ.f0 + P.alpha * t * φ.slope := by
    intro t ht htd
    have := safe_ok M C.ls S.Lpos S.c1pos S.c2pos S.alpha1 S.upper d1 d2 d3 t ht htd
    show M.f _ ≤ s.rs.f1 + _
    rw [h.val]
    exact this
  have hst := C15_armijo_finds_step P φ (O.interp s.past) s.rs.pre n _ r hn (safeStep C.ls L c1 c2) hδ S.minSmall S.r1 hpos
  have hge := armijo_ge P φ (O.interp s.past) s.rs.pre n _ r hn (safeStep C.ls L c1 c2) hδ S.r1 S.r11.le hpos
  obtain ⟨e1, e2, e3, e4⟩ := C14_armijo_sufficient_decrease P φ (O.interp s.past) s.rs.pre n _ r _ hn hst (maxPref_isGreatest _ _ _)
  have hnext : Good ((M.move s.x (O.dir s.past) r.step, r.step) :: s.past) := by
    refine hstep r.step h.good hg ?_ hge ?_ ?_
    · exact lt_of_lt_of_le (lt_min hpos (mul_pos S.r1 (by
        have h3 := S.Lpos; have h4 := S.c1pos; have h5 := S.c2pos; have h7 : 0 < 1 - C.ls.alpha := sub_pos.mpr S.alpha1
        unfold safeStep; positivity))) hge
    · intro δ hδ'
      refine armijo_ge P φ (O.interp s.past) s.rs.pre n _ r hn δ (fun t ht htd => ?_) S.r1 S.r11.le hpos
      show M.f _ ≤ s.rs.f1 + _
      rw [h.val]
      exact hδ' t ht htd
    · intro hone
      have hw := maxPref_window C.run s.rs h.run
      rw [show max 1 C.run.numPre = 1 by omega] at hw
      have hm : maxPref C.run.numPre s.rs.f1 s.rs.pre = M.f s.x := by
        have hh := h.run.head
        cases hx : s.rs.hist with
        | nil => rw [hx] at hh; simp at hh
        | cons a l =>
          rw [hx] at hh hw
          simp at hh hw
          rw [hw, hh, h.val]
      have := e4
      rw [show P.numPre = C.run.numPre from rfl, show φ.f0 = s.rs.f1 from rfl, hm] at this
      exact this
  refine ⟨r, hr, hst, e1, e2, e3, ?_, hnext⟩
  rw [e2]
  refine e4.trans ?_
  have hmin : min lo (C.ls.r1 * safeStep C.ls L c1 c2) ≤ r.step := (min_le_min_right _ hinit).trans hge
  have h7 : 0 < 1 - C.ls.alpha := sub_pos.mpr S.alpha1
  have h9 : 0 < safeStep C.ls L c1 c2 := by
    have h3 := S.Lpos; have h4 := S.c1pos; have h5 := S.c2pos
    unfold safeStep; positivity
  have hm0 : 0 < min lo (C.ls.r1 * safeStep C.ls L c1 c2) := lt_min S.lopos (mul_pos S.r1 h9)
  have hsl : c1 * thr ^ 2 ≤ -φ.slope := by
    have : thr ^ 2 ≤ M.gnorm s.x ^ 2 := pow_le_pow_left₀ S.thrpos.le hg 2
    have h1 := S.c1pos
    have h2 : φ.slope = M.slope s.x (O.dir s.past) := rfl
    rw [h2]
    nlinarith
  have hprod : min lo (C.ls.r1 * safeStep C.ls L c1 c2) * (c1 * thr ^ 2) ≤ r.step * (-φ.slope) := by
    have := S.c1pos
    exact mul_le_mul hmin hsl (by positivity) (hm0.le.trans hmin)
  have := mul_le_mul_of_nonneg_left hprod S.alpha.le
  have e5 : φ.f0 = s.rs.f1 := rfl
  have e6 : P.alpha = C.ls.alpha := rfl
  have e7 : P.numPre = C.run.numPre := rfl
  rw [e5, e6, e7]
  unfold gain
  nlinarith

/-- The loop from a state with the invariant, if the iteration limit is not reached before the stopping test holds. -/
theorem lsLoop_limited {M : Land X V} {C : LSCfg} {O : Oracle X V} {nrm : X → V → ℝ} {Good : Past X → Prop} {x0 : X} {fmin L c1 c2 lo thr : ℝ}
    (S : ReachSetting M C O nrm Good x0 fmin L c1 c2 lo thr)
    (hlim : ∀ s, LSInv M C O Good (M.f x0) (gain C.ls L c1 c2 lo thr) thr s → s.rs.iter ≤ C.run.maxIter → s.rs.isstop = false → s.rs.iter < C.run.maxIter) (n : ℕ) (s : LSState X)
    (h : LSInv M C O Good (M.f x0) (gain C.ls L c1 c2 lo thr) thr s) (hi : s.rs.iter ≤ C.run.maxIter) (hn : C.run.maxIter < s.rs.iter + n) :
    ∃ s', lsLoop M C O (M.gnorm x0) n s = .finished s' ∧ LSInv M C O Good (M.f x0) (gain C.ls L c1 c2 lo thr) thr s' ∧ s'.rs.isstop = true ∧ s'.rs.iter ≤ C.run.maxIter := by
  induction n generalizing s with
  | zero => omega
  | succ n ih =>
    have hδ := gain_pos S
    rw [lsLoop]
    cases hst : s.rs.isstop
    · have hlt := hlim s h hi hst
      have hc : s.rs.continues C.run = true := by
        simp [RunState.continues, hst, h.ok, hlt]
      rw [if_pos hc]
      have hns : ¬ (O.timeUp s.rs.iter = true ∨ M.gnorm s.x < thr) := by
        rw [← h.stop, hst]; simp
      push Not at hns
      obtain ⟨r, hr, r1, r2, r3, r4, r5, r6⟩ := search_ok S h hns.2
      simp only [hr, gradNormAt, r4, r2]
      set x2 := M.move s.x (O.dir s.past) r.step with hx2
      set E := C.env O ((x2, r.step) :: s.past) r (O.init s.past) s.rs.f1 (M.gnorm x0) (M.gnorm x2) with hE
      rcases pass_cases C.run E s.rs h.run (fun hrec => ⟨hlt, S.gap hrec⟩) with ⟨t, e, e1, _⟩ | ⟨t, e, _, e1, e2, e3, e4, e5⟩
      · simp [hE, LSCfg.env] at e1
      · rw [e]
        have hf1 : t.f1 = r.f2 := by
          have hh := e1.head
          rw [e3] at hh
          simpa [hE, LSCfg.env] using hh.symm
        refine ih ⟨t, x2, M.gnorm x2, (x2, r.step) :: s.past⟩ ?_ (by show t.iter ≤ _; omega) (by show _ < t.iter + n; omega)
        refine ⟨e1, ?_, rfl, ⟨r.step, s.past, rfl⟩, ?_, ?_, ?_, r6, by show s.past.length + 1 = t.iter + 1; rw [h.len, e2]⟩
        · show t.f1 = M.f x2
          rw [hf1, r3]
        · show t.ok = true
          rw [e4]; simp [hE, LSCfg.env, r1]
        · show t.isstop = true ↔ (O.timeUp t.iter = true ∨ _)
          rw [e5, e2]
          exact stop_iff S.nocall S.thresh _ _ _ _ _
        · intro i hi
          have hwin := maxPref_window C.run s.rs h.run
          rw [List.mem_take_iff_getElem] at hwin
          obtain ⟨j, hj, hje⟩ := hwin
          have hj1 : j < max 1 C.run.numPre := lt_of_lt_of_le hj (min_le_left _ _)
          have hj2 : j < s.rs.hist.length := lt_of_lt_of_le hj (min_le_right _ _)
          show t.hist[i] ≤ M.f x0 - ((t.iter : ℝ) - i) * _ / _
          have hcast : (t.iter : ℝ) = s.rs.iter + 1 := by rw [e2]; push_cast; ring
          rw [hcast]
          simp only [e3]
          have hmm : (0 : ℝ) < max 1 (C.run.numPre : ℝ) := lt_of_lt_of_le one_pos (le_max_left _ _)
          cases i with
          | zero =>
            show r.f2 ≤ _
            have hd := h.dec j hj2
            rw [hje] at hd
            have hj3 : (j : ℝ) + 1 ≤ max 1 (C.run.numPre : ℝ) := by
              have : j + 1 ≤ max 1 C.run.numPre := hj1
              exact_mod_cast this
            have key : ((s.rs.iter : ℝ) + 1) * gain C.ls L c1 c2 lo thr / max 1 (C.run.numPre : ℝ) ≤
                ((s.rs.iter : ℝ) - j) * gain C.ls L c1 c2 lo thr / max 1 (C.run.numPre : ℝ) + gain C.ls L c1 c2 lo thr := by
              rw [div_le_iff₀ hmm, add_mul (_ / _), div_mul_cancel₀ _ hmm.ne']
              nlinarith
            simp only [Nat.cast_zero, sub_zero]
            push_cast at hd ⊢
            linarith
          | succ i =>
            have hi' : i < s.rs.hist.length := by
              have : i + 1 < t.hist.length := hi
              rw [e3] at this; simpa using this
            have hd := h.dec i hi'
            rw [List.getElem_cons_succ]
            push_cast
            have e6 : (s.rs.iter : ℝ) + 1 - (i + 1) = s.rs.iter - i := by ring
            rw [e6]
            push_cast at hd
            exact hd
    · have hc : s.rs.continues C.run = false := by
        simp [RunState.continues, hst, S.min0]
      rw [hc]
      exact ⟨s, rfl, h, hst, hi⟩

/-- The loop from a state with the invariant. -/
theorem lsLoop_converges {M : Land X V} {C : LSCfg} {O : Oracle X V} {nrm : X → V → ℝ} {Good : Past X → Prop} {x0 : X} {fmin L c1 c2 lo thr : ℝ}
    (S : ReachSetting M C O nrm Good x0 fmin L c1 c2 lo thr)
    (hN : (max 1 C.run.numPre : ℕ) * (M.f x0 - fmin) < C.run.maxIter * gain C.ls L c1 c2 lo thr) (n : ℕ) (s : LSState X)
    (h : LSInv M C O Good (M.f x0) (gain C.ls L c1 c2 lo thr) thr s) (hi : s.rs.iter ≤ C.run.maxIter) (hn : C.run.maxIter < s.rs.iter + n) :
    ∃ s', lsLoop M C O (M.gnorm x0) n s = .finished s' ∧ LSInv M C O Good (M.f x0) (gain C.ls L c1 c2 lo thr) thr s' ∧ s'.rs.isstop = true := by
  have hδ := gain_pos S
  have hlim : ∀ s, LSInv M C O Good (M.f x0) (gain C.ls L c1 c2 lo thr) thr s → s.rs.iter ≤ C.run.maxIter → s.rs.isstop = false → s.rs.iter < C.run.maxIter := by
    intro s h _ _
    have hm : (0 : ℝ) < (max 1 C.run.numPre : ℕ) := by exact_mod_cast (by omega : 0 < max 1 C.run.numPre)
    have hbound : (s.rs.iter : ℝ) * gain C.ls L c1 c2 lo thr ≤ (max 1 C.run.numPre : ℕ) * (M.f x0 - fmin) := by
      have hl : 0 < s.rs.hist.length := by rw [h.run.len]; omega
      have h1 := h.dec 0 hl
      have h2 : s.rs.hist[0] = s.rs.f1 := by
        have := h.run.head
        rw [List.head?_eq_getElem?, List.getElem?_eq_getElem hl] at this
        exact Option.some.inj this
      rw [h2, h.val] at h1
      have h3 := S.below s.x
      have h4 : (s.rs.iter : ℝ) * gain C.ls L c1 c2 lo thr / (max 1 C.run.numPre : ℕ) ≤ M.f x0 - fmin := by
        push_cast at h1 ⊢
        simp only [sub_zero] at h1
        linarith
      rw [div_le_iff₀ hm] at h4
      linarith
    have hlt : s.rs.iter < C.run.maxIter := by
      have : (s.rs.iter : ℝ) * gain C.ls L c1 c2 lo thr < C.run.maxIter * gain C.ls L c1 c2 lo thr := lt_of_le_of_lt hbound hN
      exact_mod_cast lt_of_mul_lt_mul_right this hδ.le
    exact hlt
  obtain ⟨s', e1, e2, e3, -⟩ := lsLoop_limited S hlim n s h hi hn
  exact ⟨s', e1, e2, e3⟩

/-! ## C99 -/

/-- C99 for runs whose pasts satisfy a predicate. -/
theorem armijo_converges_reach {M : Land X V} {C : LSCfg} {O : Oracle X V} {nrm : X → V → ℝ} {Good : Past X → Prop} {x0 : X} {fmin L c1 c2 lo thr : ℝ}
    (S : ReachSetting M C O nrm Good x0 fmin L c1 c2 lo thr)
    (hN : (max 1 C.run.numPre : ℕ) * (M.f x0 - fmin) < C.run.maxIter * gain C.ls L c1 c2 lo thr) :
    ∃ s, lsRun M C O x0 (C.run.maxIter + 1) = .finished s ∧ s.rs.ok = true ∧ s.rs.f1 = M.f s.x ∧
      s.rs.iter * gain C.ls L c1 c2 lo thr ≤ (max 1 C.run.numPre : ℕ) * (M.f x0 - M.f s.x) ∧
      (O.timeUp s.rs.iter = true ∨ M.gnorm s.x < thr) ∧ Good s.past := by
  obtain ⟨s, e, h, hs⟩ := lsLoop_converges S hN (C.run.maxIter + 1) (lsInit M C O x0) (init_LSInv S) (Nat.zero_le _)
    (by show C.run.maxIter < 0 + _; omega)
  refine ⟨s, e, h.ok, h.val, ?_, h.stop.mp hs, h.good⟩
  have hm : (0 : ℝ) < (max 1 C.run.numPre : ℕ) := by exact_mod_cast (by omega : 0 < max 1 C.run.numPre)
  have hl : 0 < s.rs.hist.length := by rw [h.run.len]; omega
  have h1 := h.dec 0 hl
  have h2 : s.rs.hist[0] = s.rs.f1 := by
    have := h.run.head
    rw [List.head?_eq_getElem?, List.getElem?_eq_getElem hl] at this
    exact Option.some.inj this
  rw [h2, h.val] at h1
  have h4 : (s.rs.iter : ℝ) * gain C.ls L c1 c2 lo thr / (max 1 C.run.numPre : ℕ) ≤ M.f x0 - M.f s.x := by
    push_cast at h1 ⊢
    simp only [sub_zero] at h1
    linarith
  rw [div_le_iff₀ hm] at h4
  linarith

/-- **C99.** An Armijo run (monotone or not) on an objective that is bounded below, has a quadratic upper model along the directions, and uses gradient related
directions ends by its gradient test (or the time limit) with every search successful, after a number of iterations bounded by
`max 1 Num_pre_funs * (f(x0) - fmin) / gain`, provided that the iteration limit is larger than this bound. -/
theorem C99_armijo_converges {M : Land X V} {C : LSCfg} {O : Oracle X V} {nrm : X → V → ℝ} {x0 : X} {fmin L c1 c2 lo thr : ℝ}
    (S : Setting M C O nrm x0 fmin L c1 c2 lo thr)
    (hN : (max 1 C.run.numPre : ℕ) * (M.f x0 - fmin) < C.run.maxIter * gain C.ls L c1 c2 lo thr) :
    ∃ s, lsRun M C O x0 (C.run.maxIter + 1) = .finished s ∧ s.rs.ok = true ∧ s.rs.f1 = M.f s.x ∧
      s.rs.iter * gain C.ls L c1 c2 lo thr ≤ (max 1 C.run.numPre : ℕ) * (M.f x0 - M.f s.x) ∧
      (O.timeUp s.rs.iter = true ∨ M.gnorm s.x < thr) := by
  obtain ⟨s, e1, e2, e3, e4, e5, -⟩ := armijo_converges_reach S.reach hN
  exact ⟨s, e1, e2, e3, e4, e5⟩

/-! ### A concrete run, and what the default accuracy permits -/

/-- The objective `2x²` on the real line, with steepest descent. -/
noncomputable def quadLand : Land ℝ ℝ where
  f x := 2 * x ^ 2
  gnorm x := |4 * x|
  slope x d := 4 * x * d
  move x d t := x + t * d
  der x d t := 4 * (x + t * d) * d

/-- Steepest descent with first step `t0` and unit steps afterwards. -/
noncomputable def quadOracle (t0 : ℝ) : Oracle ℝ ℝ where
  dir p := match p with
    | [] => 0
    | (x, _) :: _ => -4 * x
  init p := if p.length ≤ 1 then t0 else 1
  interp _ := ⟨fun _ _ => none, fun _ _ _ _ => none, fun _ _ _ _ _ => none, fun _ _ => none, fun _ _ _ _ => 0, fun _ _ _ _ => 0⟩
  timeUp _ := false
  callback := none
  stale _ := 0

/-- Defaults of the solvers (`SolversSMLS.cpp:655-680`, `SolversSM.cpp:96-101`) with a given accuracy and iteration limit. -/
noncomputable def quadCfg (acc : ℝ) (n : ℕ) : LSCfg where
  run := { maxIter := n, minIter := 0, numPre := 1, record := false, outputGap := 1 }
  ls := { alpha := 1 / 10000, beta := 999 / 1000, r1 := 1 / 10, r2 := 9 / 10, minStep := 1 / 10 ^ 16, maxStep := 10 ^ 10, numPre := 1 }
  kind := .armijo
  crit := .gradF0
  tol := 1 / 10 ^ 6
  accuracy := acc
  finalStep := -1
  preFunsAcc := 10 ^ 6

theorem quad_below : BoundedBelow quadLand 0 := fun x => by simp only [quadLand]; positivity

theorem quad_upper : UpperModel quadLand (fun _ d => |d|) 4 := by
  intro x d t ht
  simp only [quadLand, mul_pow, sq_abs]
  apply le_of_eq
  ring

theorem quad_related (t0 : ℝ) : GradientRelated quadLand (fun _ d => |d|) (quadOracle t0) 1 1 := by
  intro x t past
  refine ⟨?_, ?_, abs_nonneg _⟩
  · simp only [quadLand, quadOracle, sq_abs]
    apply le_of_eq; ring
  · simp only [quadLand, quadOracle, one_mul]
    rw [neg_mul, abs_neg]

/-- The hypotheses of C99 hold for the quadratic, from any starting point other than the minimiser, when the accuracy is zero. -/
theorem quad_setting (x0 : ℝ) (hx : x0 ≠ 0) (n : ℕ) :
    Setting quadLand (quadCfg 0 n) (quadOracle 1) (fun _ d => |d|) x0 0 4 1 1 1 (1 / 10 ^ 6 * |4 * x0|) := by
  have hp : 0 < |4 * x0| := abs_pos.mpr (by simpa using hx)
  exact
  { below := quad_below, upper := quad_upper, dirs := quad_related 1
    Lpos := by norm_num, c1pos := by norm_num, c2pos := by norm_num, kind := rfl
    alpha := by norm_num [quadCfg], alpha1 := by norm_num [quadCfg], r1 := by norm_num [quadCfg], r11 := by norm_num [quadCfg]
    r2 := by norm_num [quadCfg], minPos := by norm_num [quadCfg], minSmall := by norm_num [quadCfg, safeStep]
    lopos := one_pos
    init := fun p => by simp [quadOracle]
    nocall := rfl
    thresh := Or.inr ⟨rfl, hp, rfl⟩
    thrpos := by positivity
    acc := by simp only [quadCfg, zero_mul]; positivity
    tolpos := by norm_num [quadCfg]
    g0 := abs_nonneg _
    min0 := rfl
    gap := fun h => by simp [quadCfg] at h }

/-- C99 applied: a bound on the number of iterations for the quadratic from `x0 = 1`. -/
example : ∃ n s, lsRun quadLand (quadCfg 0 n) (quadOracle 1) 1 (n + 1) = .finished s ∧ quadLand.gnorm s.x < 1 / 10 ^ 6 * |4 * 1| := by
  have hg : 0 < gain (quadCfg 0 0).ls 4 1 1 1 (1 / 10 ^ 6 * |4 * 1|) := gain_pos (quad_setting 1 one_ne_zero 0).reach
  obtain ⟨n, hn⟩ := exists_nat_gt ((max 1 (quadCfg 0 0).run.numPre : ℕ) * (quadLand.f 1 - 0) / gain (quadCfg 0 0).ls 4 1 1 1 (1 / 10 ^ 6 * |4 * 1|))
  rw [div_lt_iff₀ hg] at hn
  obtain ⟨s, e, _, _, _, h⟩ := C99_armijo_converges (quad_setting 1 one_ne_zero n) hn
  refine ⟨n, s, e, ?_⟩
  rcases h with h | h
  · simp [quadOracle] at h
  · exact h

/-- One iteration of the loop, given the outcome of the search. -/
theorem lsLoop_step {M : Land X V} {C : LSCfg} {O : Oracle X V} {g0 : ℝ} {n : ℕ} {s : LSState X} {r : Search ℝ} (h : RunInv C.run s.rs)
    (hrec : C.run.record = false) (hc : s.rs.continues C.run = true)
    (hr : C.search (M.ray s.x (O.dir s.past) s.rs.f1) (O.interp s.past) s.rs.pre s.ngf g0 (O.init s.past) = some r)
    (hp : r.gradAt = some r.pt) :
    ∃ t : RunState ℝ, lsLoop M C O g0 (n + 1) s = lsLoop M C O g0 n
        ⟨t, M.move s.x (O.dir s.past) r.pt, M.gnorm (M.move s.x (O.dir s.past) r.pt), (M.move s.x (O.dir s.past) r.pt, r.step) :: s.past⟩ ∧
      RunInv C.run t ∧ t.iter = s.rs.iter + 1 ∧ t.hist = r.f2 :: s.rs.hist ∧ t.ok = decide (r.status = .success) ∧
      t.isstop = C.stop O ((M.move s.x (O.dir s.past) r.pt, r.step) :: s.past) (s.rs.iter + 1) s.rs.f1 r.f2 g0
        (M.gnorm (M.move s.x (O.dir s.past) r.pt)) := by
  rw [lsLoop, if_pos hc]
  simp only [hr, gradNormAt, hp]
  rcases pass_cases C.run (C.env O ((M.move s.x (O.dir s.past) r.pt, r.step) :: s.past) r (O.init s.past) s.rs.f1 g0
      (M.gnorm (M.move s.x (O.dir s.past) r.pt))) s.rs h (fun h' => by rw [hrec] at h'; cases h') with ⟨t, e, e1, _⟩ | ⟨t, e, _, e1, e2, e3, e4, e5⟩
  · simp [LSCfg.env] at e1
  · exact ⟨t, by rw [e], e1, e2, e3, e4, e5⟩

/-- **C99, the default accuracy.** With the default `Accuracy = 1e-6` beside the default `Tolerance = 1e-6` and test `SM_GRAD_F_0`, an Armijo run
on `2x²`, which meets all other hypotheses of C99, accepts a step that multiplies the objective by nine: close to the tolerance
the step is taken without any test. -/
theorem C99_default_accuracy_unchecked :
    ∃ t0 s, lsRun quadLand (quadCfg (1 / 10 ^ 6) 2) (quadOracle t0) 1 3 = .finished s ∧ 0 < t0 ∧ s.rs.ok = true ∧
      ∃ a b, s.rs.hist = [9 * b, b, a] ∧ 0 < b ∧ s.rs.f1 = 9 * b ∧ s.rs.isstop = false := by
  set y : ℝ := 1 / 10 ^ 6 + 1 / 10 ^ 13 with hy
  have hy0 : 0 < y := by rw [hy]; positivity
  set t0 : ℝ := (1 - y) / 4 with ht0
  set C := quadCfg (1 / 10 ^ 6) 2 with hC
  set O := quadOracle t0 with hO
  have htp : 0 < t0 := by rw [ht0, hy]; norm_num
  have hth : Threshold C (quadLand.gnorm 1) (1 / 10 ^ 6 * 4) := Or.inr ⟨rfl, by norm_num [quadLand], by norm_num [quadLand, hC, quadCfg]⟩
  have hg0 : quadLand.gnorm 1 = 4 := by norm_num [quadLand]
  have hstop : ∀ past k f1 f2 g, 1 / 10 ^ 6 * 4 ≤ g → C.stop O past k f1 f2 (quadLand.gnorm 1) g = false := by
    intro past k f1 f2 g hg
    rw [Bool.eq_false_iff, Ne, stop_iff rfl hth]
    rintro (h | h)
    · simp [hO, quadOracle] at h
    · linarith
  -- first iteration
  set s0 := lsInit quadLand C O 1 with hs0
  have hi0 : s0.rs.isstop = false := hstop _ _ _ _ _ (by rw [hg0]; norm_num)
  have hc0 : s0.rs.continues C.run = true := by
    simp only [RunState.continues, hi0]; rfl
  have hinit0 : O.init s0.past = t0 := by simp [hO, quadOracle, hs0, lsInit]
  have hd0 : O.dir s0.past = -4 := by simp [hO, quadOracle, hs0, lsInit]
  have hx0 : s0.x = 1 := rfl
  have hf0 : s0.rs.f1 = 2 := by show quadLand.f 1 = 2; norm_num [quadLand]
  have hpre0 : s0.rs.pre = [] := rfl
  have hx1 : quadLand.move 1 (-4) t0 = y := by simp only [quadLand, ht0]; ring
  have hr0 : ∃ r, C.search (quadLand.ray s0.x (O.dir s0.past) s0.rs.f1) (O.interp s0.past) s0.rs.pre s0.ngf (quadLand.gnorm 1) (O.init s0.past)
      = some r ∧ r.pt = t0 ∧ r.step = t0 ∧ r.f2 = 2 * y ^ 2 ∧ r.gradAt = some t0 ∧ r.status = .success := by
    have hngf : s0.ngf = 4 := hg0
    unfold LSCfg.search
    rw [if_neg (by rw [hngf, hg0]; norm_num [hC, quadCfg])]
    set g : ℕ → Option (Search ℝ) := fun n => armijo { C.ls with numPre := C.run.numPre } (quadLand.ray s0.x (O.dir s0.past) s0.rs.f1)
      (O.interp s0.past) s0.rs.pre n (Search.start (O.init s0.past) 0 s0.rs.f1) with hg
    have key : ∀ n r, g n = some r → r.pt = t0 ∧ r.step = t0 ∧ r.f2 = 2 * y ^ 2 ∧ r.gradAt = some t0 ∧ r.status = .success := by
      have hphi : (quadLand.ray 1 (-4) 2).phi t0 = 2 * y ^ 2 := by
        show quadLand.f (quadLand.move 1 (-4) t0) = _
        rw [hx1]; rfl
      have hnot : ¬ ((2 : ℝ) - 2 * y ^ 2 < -(1 / 10000) * (quadLand.ray 1 (-4) 2).slope * t0) := by
        show ¬ ((2 : ℝ) - 2 * y ^ 2 < -(1 / 10000) * (4 * 1 * -4) * t0)
        rw [ht0, hy]; norm_num
      have hff : (quadLand.ray 1 (-4) 2).f0 = 2 := rfl
      intro n r hr
      simp only [hg, armijo, hff, hd0, hx0, hf0, hpre0, hinit0, hC, quadCfg, evalH, Search.start, armijoFirst, maxPref, hphi, if_neg hnot] at hr
      rw [if_neg (by norm_num)] at hr
      cases n with
      | zero => simp [polyLoop] at hr
      | succ n =>
        simp only [polyLoop, if_neg hnot, Option.map_some, Option.some.injEq] at hr
        subst hr
        simp [evalGrad]
    have hex : ∃ n r, g n = some r := by
      refine C15_armijo_terminates _ _ _ _ _ ?_ ?_ ?_ ?_ ?_
      · norm_num [hC, quadCfg]
      · norm_num [hC, quadCfg]
      · norm_num [hC, quadCfg]
      · norm_num [hC, quadCfg]
      · rw [hinit0]; exact htp
    obtain ⟨r, hr⟩ := settled_isSome hex
    obtain ⟨n, hn⟩ := settled_spec hr
    exact ⟨r, hr, key n r hn⟩
  obtain ⟨r, er, r1, r2, r3, r4, r5⟩ := hr0
  obtain ⟨t, e, i1, i2, i3, i4, i5⟩ := lsLoop_step (n := 2) (init_inv _ _ _ _) rfl hc0 er (by rw [r4, r1])
  rw [hd0, hx0, r1, hx1] at e i5
  have hgy : quadLand.gnorm y = 4 * y := by simp only [quadLand]; exact abs_of_pos (by positivity)
  have hi1 : t.isstop = false := by
    rw [i5]; apply hstop; rw [hgy, hy]; norm_num
  have hh0 : s0.rs.hist = [2] := by show [quadLand.f 1] = [2]; norm_num [quadLand]
  rw [hh0, r3] at i3
  have hf1 : t.f1 = 2 * y ^ 2 := by
    have := i1.head
    rw [i3] at this
    simpa using this.symm
  have hit : t.iter = 1 := by rw [i2]; rfl
  -- second iteration
  set s1 : LSState ℝ := ⟨t, y, quadLand.gnorm y, (y, r.step) :: s0.past⟩ with hs1
  have hc1 : s1.rs.continues C.run = true := by
    simp only [RunState.continues, hs1, hi1, i4, hit, r5]; rfl
  have hinit1 : O.init s1.past = 1 := by simp [hO, quadOracle, hs1, hs0, lsInit]
  have hd1 : O.dir s1.past = -4 * y := by simp [hO, quadOracle, hs1]
  have er1 : C.search (quadLand.ray s1.x (O.dir s1.past) s1.rs.f1) (O.interp s1.past) s1.rs.pre s1.ngf (quadLand.gnorm 1) (O.init s1.past)
      = some (evalGrad (evalH (quadLand.ray s1.x (O.dir s1.past) s1.rs.f1) (Search.start 1 0 s1.rs.f1))) := by
    unfold LSCfg.search
    have hn : s1.ngf = 4 * y := hgy
    rw [if_pos (by rw [hn, hg0, hy]; norm_num [hC, quadCfg]), if_neg (by norm_num [hC, quadCfg]), hinit1]
    rfl
  obtain ⟨u, e', j1, j2, j3, j4, j5⟩ := lsLoop_step (n := 1) (s := s1) i1 rfl hc1 er1 rfl
  have hx2 : quadLand.move s1.x (O.dir s1.past) 1 = -3 * y := by
    rw [hd1]; simp only [quadLand, hs1]; ring
  have hg2 : quadLand.gnorm (-3 * y) = 12 * y := by
    simp only [quadLand]
    rw [show 4 * (-3 * y) = -(12 * y) by ring, abs_neg]; exact abs_of_pos (by positivity)
  have hf2 : (evalGrad (evalH (quadLand.ray s1.x (O.dir s1.past) s1.rs.f1) (Search.start 1 0 s1.rs.f1))).f2 = 9 * (2 * y ^ 2) := by
    show quadLand.f (quadLand.move s1.x (O.dir s1.past) 1) = _
    rw [hx2]; simp only [quadLand]; ring
  have hpt : (evalGrad (evalH (quadLand.ray s1.x (O.dir s1.past) s1.rs.f1) (Search.start 1 0 s1.rs.f1))).pt = 1 := rfl
  rw [hf2] at j3 j5
  rw [hpt, hx2] at e' j5
  have hi2 : u.isstop = false := by
    rw [j5]; apply hstop; rw [hg2, hy]; norm_num
  have hiu : u.iter = 2 := by rw [j2]; show t.iter + 1 = 2; omega
  have hhu : u.hist = [9 * (2 * y ^ 2), 2 * y ^ 2, 2] := by
    rw [j3]; show _ :: t.hist = _; rw [i3]
  refine ⟨t0, _, by unfold lsRun; rw [e, e', lsLoop, if_neg]; simp [RunState.continues, hiu, hC, quadCfg], htp, ?_, 2, 2 * y ^ 2, hhu, by positivity, ?_, hi2⟩
  · show u.ok = true
    rw [j4]; rfl
  · have := j1.head
    rw [hhu] at this
    simpa using this.symm

end Verif.Solver
