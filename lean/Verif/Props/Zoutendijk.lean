import Verif.Props.Converge

/-!
# C100: strong Wolfe runs satisfy Zoutendijk's condition
-/

set_option linter.unusedSectionVars false
set_option linter.unusedVariables false

namespace Verif.Solver

variable {X V : Type}

/-! ## Specification -/

/-- The slope along every direction grows at most at the rate `L` times the squared length of the direction. -/
def SlopeLipschitz (M : Land X V) (nrm : X → V → ℝ) (L : ℝ) : Prop :=
  ∀ x d t, 0 ≤ t → M.der x d t ≤ M.slope x d + L * t * nrm x d ^ 2

/-- The directions make an angle with the negative gradient whose cosine is at least `c`, and do not vanish unless the gradient does. -/
def AngleCondition (M : Land X V) (nrm : X → V → ℝ) (O : Oracle X V) (c : ℝ) : Prop :=
  ∀ x t past, M.slope x (O.dir ((x, t) :: past)) ≤ -c * M.gnorm x * nrm x (O.dir ((x, t) :: past)) ∧
    0 ≤ nrm x (O.dir ((x, t) :: past)) ∧ (0 < M.gnorm x → 0 < nrm x (O.dir ((x, t) :: past)))

/-- The sum of `‖grad‖² cos²θ` over the iterates of a run that have been left, from the list of iterates (newest first). -/
noncomputable def zsum (M : Land X V) (nrm : X → V → ℝ) (O : Oracle X V) : Past X → ℝ
  | [] => 0
  | [_] => 0
  | _ :: (y, u) :: p => (M.slope y (O.dir ((y, u) :: p)) / nrm y (O.dir ((y, u) :: p))) ^ 2 + zsum M nrm O ((y, u) :: p)

/-! ## Helper lemmas -/

section positive

variable {K : Type} [Field K] [LinearOrder K] [IsStrictOrderedRing K]

theorem clampLoHi_between (P : LSParams K) (h1 : 0 < P.r1) (h12 : P.r1 ≤ P.r2) (d : K) (q : Option K) :
    ∃ c, P.r1 ≤ c ∧ c ≤ P.r2 ∧ clampLoHi (d * P.r1) (d * P.r2) q = d * c := by
  unfold clampLoHi
  cases q with
  | none => exact ⟨P.r2, h12, le_rfl, rfl⟩
  | some v =>
    simp only
    rcases le_or_gt d 0 with hd | hd
    · have : d * P.r2 ≤ d * P.r1 := mul_le_mul_of_nonpos_left h12 hd
      refine ⟨P.r2, h12, le_rfl, ?_⟩
      rw [if_neg]
      split_ifs with h
      · exact not_lt.mpr this
      · exact not_lt.mpr (this.trans (not_lt.mp h))
    · by_cases h : v < d * P.r1
      · rw [if_pos h]
        by_cases h' : d * P.r1 < d * P.r2
        · exact ⟨P.r1, le_rfl, h12, by rw [if_pos h']⟩
        · exact ⟨P.r2, h12, le_rfl, by rw [if_neg h']⟩
      · rw [if_neg h]
        by_cases h' : v < d * P.r2
        · rw [if_pos h']
          refine ⟨v / d, ?_, ?_, by field_simp⟩
          · rw [le_div_iff₀ hd, mul_comm]; exact not_lt.mp h
          · rw [div_le_iff₀ hd, mul_comm]; exact h'.le
        · exact ⟨P.r2, h12, le_rfl, by rw [if_neg h']⟩

/-- Every trial of the zoom phase is positive. -/
theorem zoom_pos (P : LSParams K) (φ : Ray K) (I : Interp K) (h1 : 0 < P.r1) (h12 : P.r1 ≤ P.r2) (h2 : P.r2 < 1) (k : ℕ)
    (xlo xhi : K) (flo fhi : Option K) (slo : K) (s : Search K) (hlo : 0 ≤ xlo) (hhi : 0 ≤ xhi) (hne : 0 < xlo + xhi) :
    0 < (zoom P φ I k xlo xhi flo fhi slo s).step := by
  induction k generalizing xlo xhi flo fhi slo s with
  | zero =>
    rw [zoom]
    obtain ⟨c, c1, c2, e⟩ := clampLoHi_between P h1 h12 (xhi - xlo) (I.zoom xlo xhi flo fhi slo)
    simp only [e]
    have : xlo + (xhi - xlo) * c = xlo * (1 - c) + xhi * c := by ring
    rw [this]
    have hc0 : 0 < c := lt_of_lt_of_le h1 c1
    have hc1 : 0 < 1 - c := by linarith
    rcases hlo.eq_or_lt with h | h
    · have : 0 < xhi := by rw [← h] at hne; linarith
      have := mul_pos this hc0
      nlinarith
    · have := mul_pos h hc1
      nlinarith
  | succ k ih =>
    rw [zoom]
    obtain ⟨c, c1, c2, e⟩ := clampLoHi_between P h1 h12 (xhi - xlo) (I.zoom xlo xhi flo fhi slo)
    simp only [e]
    have hc0 : 0 < c := lt_of_lt_of_le h1 c1
    have hc1 : 0 < 1 - c := by linarith
    have hst : 0 < xlo + (xhi - xlo) * c := by
      have : xlo + (xhi - xlo) * c = xlo * (1 - c) + xhi * c := by ring
      rw [this]
      rcases hlo.eq_or_lt with h | h
      · have : 0 < xhi := by rw [← h] at hne; linarith
        have := mul_pos this hc0
        nlinarith
      · have := mul_pos h hc1
        nlinarith
    split
    · split
      · exact hst
      · exact ih _ _ _ _ _ _ hlo hst.le (by show 0 < xlo + (xlo + (xhi - xlo) * c); linarith)
    · split
      · exact hst
      · split
        · exact hst
        · refine ih _ _ _ _ _ _ hst.le ?_ ?_
          · split
            · exact hlo
            · exact hhi
          · split
            · show 0 < (xlo + (xhi - xlo) * c) + xlo; linarith
            · show 0 < (xlo + (xhi - xlo) * c) + xhi; linarith

theorem strongWolfeLoop_pos (P : LSParams K) (φ : Ray K) (I : Interp K) (h1 : 0 < P.r1) (h12 : P.r1 ≤ P.r2) (h2 : P.r2 < 1) (hM : 0 < P.maxStep)
    (n : ℕ) (pre : K) (fpre : Option K) (sp : K) (s r : Search K) (h : strongWolfeLoop P φ I n pre fpre sp s = some r) (hpre : 0 ≤ pre)
    (hs : 0 < s.step) : 0 < r.step := by
  induction n generalizing pre fpre sp s with
  | zero => simp [strongWolfeLoop] at h
  | succ n ih =>
    rw [strongWolfeLoop] at h
    simp only at h
    split at h
    · injection h with h; subst h
      exact zoom_pos P φ I h1 h12 h2 _ _ _ _ _ _ _ hpre hs.le (by show 0 < pre + s.step; linarith)
    · split at h
      · injection h with h; subst h; exact hs
      · split at h
        · injection h with h; subst h
          exact zoom_pos P φ I h1 h12 h2 _ _ _ _ _ _ _ hs.le hpre (by show 0 < s.step + pre; linarith)
        · split at h
          · injection h with h; subst h; exact hs
          · refine ih _ _ _ _ h hs.le ?_
            show 0 < extendStep P I s.step (φ.phi s.step)
            unfold extendStep
            have h11 : 0 < 11 / 10 * s.step := by positivity
            cases I.extend s.step (φ.phi s.step) with
            | none =>
              simp only
              split
              · exact h11
              · exact hM
            | some v =>
              simp only
              by_cases hv : 11 / 10 * s.step < v
              · rw [if_pos hv]
                split
                · exact h11.trans hv
                · exact hM
              · rw [if_neg hv]
                split
                · exact h11
                · exact hM

end positive

/-- Hypotheses of C100 for the runs whose pasts satisfy `Good`: the directions keep an angle with the gradient at the points of such runs that are not yet good enough, and an accepted
step, which satisfies the strong Wolfe conditions, leads to such a past again. -/
structure WolfeReach (M : Land X V) (C : LSCfg) (O : Oracle X V) (nrm : X → V → ℝ) (Good : Past X → Prop) (x0 : X) (fmin L c thr : ℝ) : Prop where
  below : BoundedBelow M fmin
  lips : SlopeLipschitz M nrm L
  dirs : ∀ x t past, Good ((x, t) :: past) → thr ≤ M.gnorm x → M.slope x (O.dir ((x, t) :: past)) ≤ -c * M.gnorm x * nrm x (O.dir ((x, t) :: past)) ∧
    0 < nrm x (O.dir ((x, t) :: past))
  init : ∀ x t past, Good ((x, t) :: past) → thr ≤ M.gnorm x → 0 < O.init ((x, t) :: past)
  good0 : Good [(x0, 0)]
  goodS : ∀ x u past t, Good ((x, u) :: past) → thr ≤ M.gnorm x → 0 < t →
    M.f (M.move x (O.dir ((x, u) :: past)) t) ≤ M.f x + C.ls.alpha * t * M.slope x (O.dir ((x, u) :: past)) →
    |M.der x (O.dir ((x, u) :: past)) t| ≤ -C.ls.beta * M.slope x (O.dir ((x, u) :: past)) →
    Good ((M.move x (O.dir ((x, u) :: past)) t, t) :: (x, u) :: past)
  Lpos : 0 < L
  cpos : 0 < c
  kind : C.kind = .strongWolfe
  alpha : 0 < C.ls.alpha
  beta : C.ls.beta < 1
  r1 : 0 < C.ls.r1
  r12 : C.ls.r1 ≤ C.ls.r2
  r2 : C.ls.r2 < 1
  maxPos : 0 < C.ls.maxStep
  nocall : O.callback = none
  thresh : Threshold C (M.gnorm x0) thr
  thrpos : 0 < thr
  acc : C.accuracy * (M.gnorm x0 + C.tol) ≤ thr
  tolpos : 0 < C.tol
  g0 : 0 ≤ M.gnorm x0
  min0 : C.run.minIter = 0
  gap : C.run.record = true → 0 < C.run.outputGap

/-- The same with squared slopes per length that are bounded below by a number that depends on the iteration. -/
structure ZReach (M : Land X V) (C : LSCfg) (O : Oracle X V) (nrm : X → V → ℝ) (Good : Past X → Prop) (x0 : X) (fmin L thr : ℝ) (w : ℕ → ℝ) : Prop where
  below : BoundedBelow M fmin
  lips : SlopeLipschitz M nrm L
  dirs : ∀ x t past, Good ((x, t) :: past) → thr ≤ M.gnorm x → M.slope x (O.dir ((x, t) :: past)) ≤ 0 ∧
    0 < nrm x (O.dir ((x, t) :: past)) ∧ w past.length ≤ (M.slope x (O.dir ((x, t) :: past)) / nrm x (O.dir ((x, t) :: past))) ^ 2
  init : ∀ x t past, Good ((x, t) :: past) → thr ≤ M.gnorm x → 0 < O.init ((x, t) :: past)
  good0 : Good [(x0, 0)]
  goodS : ∀ x u past t, Good ((x, u) :: past) → thr ≤ M.gnorm x → 0 < t →
    M.f (M.move x (O.dir ((x, u) :: past)) t) ≤ M.f x + C.ls.alpha * t * M.slope x (O.dir ((x, u) :: past)) →
    |M.der x (O.dir ((x, u) :: past)) t| ≤ -C.ls.beta * M.slope x (O.dir ((x, u) :: past)) →
    Good ((M.move x (O.dir ((x, u) :: past)) t, t) :: (x, u) :: past)
  Lpos : 0 < L
  wpos : ∀ k, 0 < w k
  kind : C.kind = .strongWolfe
  alpha : 0 < C.ls.alpha
  beta : C.ls.beta < 1
  r1 : 0 < C.ls.r1
  r12 : C.ls.r1 ≤ C.ls.r2
  r2 : C.ls.r2 < 1
  maxPos : 0 < C.ls.maxStep
  nocall : O.callback = none
  thresh : Threshold C (M.gnorm x0) thr
  thrpos : 0 < thr
  acc : C.accuracy * (M.gnorm x0 + C.tol) ≤ thr
  tolpos : 0 < C.tol
  g0 : 0 ≤ M.gnorm x0
  min0 : C.run.minIter = 0
  gap : C.run.record = true → 0 < C.run.outputGap

theorem WolfeReach.z {M : Land X V} {C : LSCfg} {O : Oracle X V} {nrm : X → V → ℝ} {Good : Past X → Prop} {x0 : X} {fmin L c thr : ℝ}
    (S : WolfeReach M C O nrm Good x0 fmin L c thr) : ZReach M C O nrm Good x0 fmin L thr (fun _ => (c * thr) ^ 2) where
  below := S.below
  lips := S.lips
  dirs := by
    intro x t past h hg
    obtain ⟨d1, d4⟩ := S.dirs x t past h hg
    have hc := S.cpos
    have ht := S.thrpos
    have hgp : 0 < M.gnorm x := lt_of_lt_of_le ht hg
    refine ⟨?_, d4, ?_⟩
    · have : 0 < c * M.gnorm x * nrm x (O.dir ((x, t) :: past)) := by positivity
      linarith
    · show (c * thr) ^ 2 ≤ _
      rw [div_pow, le_div_iff₀ (by positivity), ← mul_pow, ← neg_sq (M.slope _ _)]
      refine pow_le_pow_left₀ (by positivity) ?_ 2
      have : c * thr * nrm x (O.dir ((x, t) :: past)) ≤ c * M.gnorm x * nrm x (O.dir ((x, t) :: past)) :=
        mul_le_mul_of_nonneg_right (mul_le_mul_of_nonneg_left hg hc.le) d4.le
      linarith
  init := S.init
  good0 := S.good0
  goodS := S.goodS
  Lpos := S.Lpos
  wpos := fun _ => by have := S.cpos; have := S.thrpos; positivity
  kind := S.kind
  alpha := S.alpha
  beta := S.beta
  r1 := S.r1
  r12 := S.r12
  r2 := S.r2
  maxPos := S.maxPos
  nocall := S.nocall
  thresh := S.thresh
  thrpos := S.thrpos
  acc := S.acc
  tolpos := S.tolpos
  g0 := S.g0
  min0 := S.min0
  gap := S.gap

/-- Hypotheses of C100, collected. -/
structure WolfeSetting (M : Land X V) (C : LSCfg) (O : Oracle X V) (nrm : X → V → ℝ) (x0 : X) (fmin L c thr : ℝ) : Prop where
  below : BoundedBelow M fmin
  lips : SlopeLipschitz M nrm L
  dirs : AngleCondition M nrm O c
  Lpos : 0 < L
  cpos : 0 < c
  kind : C.kind = .strongWolfe
  alpha : 0 < C.ls.alpha
  beta : C.ls.beta < 1
  r1 : 0 < C.ls.r1
  r12 : C.ls.r1 ≤ C.ls.r2
  r2 : C.ls.r2 < 1
  maxPos : 0 < C.ls.maxStep
  init : ∀ p, 0 < O.init p
  nocall : O.callback = none
  thresh : Threshold C (M.gnorm x0) thr
  thrpos : 0 < thr
  acc : C.accuracy * (M.gnorm x0 + C.tol) ≤ thr
  tolpos : 0 < C.tol
  g0 : 0 ≤ M.gnorm x0
  min0 : C.run.minIter = 0
  gap : C.run.record = true → 0 < C.run.outputGap

theorem WolfeSetting.reach {M : Land X V} {C : LSCfg} {O : Oracle X V} {nrm : X → V → ℝ} {x0 : X} {fmin L c thr : ℝ}
    (S : WolfeSetting M C O nrm x0 fmin L c thr) : WolfeReach M C O nrm (fun _ => True) x0 fmin L c thr where
  below := S.below
  lips := S.lips
  dirs := fun x t past _ h => ⟨(S.dirs x t past).1, (S.dirs x t past).2.2 (lt_of_lt_of_le S.thrpos h)⟩
  init := fun x t past _ _ => S.init _
  good0 := trivial
  goodS := fun _ _ _ _ _ _ _ _ _ => trivial
  Lpos := S.Lpos
  cpos := S.cpos
  kind := S.kind
  alpha := S.alpha
  beta := S.beta
  r1 := S.r1
  r12 := S.r12
  r2 := S.r2
  maxPos := S.maxPos
  nocall := S.nocall
  thresh := S.thresh
  thrpos := S.thrpos
  acc := S.acc
  tolpos := S.tolpos
  g0 := S.g0
  min0 := S.min0
  gap := S.gap

/-- What a successful strong Wolfe step gains. -/
theorem wolfe_gain {M : Land X V} {nrm : X → V → ℝ} {L : ℝ} (P : LSParams ℝ) (hL : 0 < L) (ha : 0 < P.alpha) (hb : P.beta < 1)
    (hU : SlopeLipschitz M nrm L) {x : X} {d : V} (hs : M.slope x d ≤ 0) (hn0 : 0 ≤ nrm x d) {t : ℝ} (ht : 0 < t)
    (hd : M.f (M.move x d t) ≤ M.f x + P.alpha * t * M.slope x d) (hc : |M.der x d t| ≤ -P.beta * M.slope x d) :
    M.f (M.move x d t) ≤ M.f x - P.alpha * (1 - P.beta) / L * (M.slope x d / nrm x d) ^ 2 := by
  have h1 := hU x d t ht.le
  have h2 := (abs_le.mp hc).1
  have h3 : (1 - P.beta) * (-M.slope x d) ≤ L * t * nrm x d ^ 2 := by linarith
  refine hd.trans ?_
  rcases hn0.eq_or_lt with h | h
  · rw [← h]
    simp only [div_zero]
    have : P.alpha * t * M.slope x d ≤ 0 := mul_nonpos_of_nonneg_of_nonpos (by positivity) hs
    simpa using this
  · have h4 : (1 - P.beta) / L * (M.slope x d / nrm x d) ^ 2 ≤ t * (-M.slope x d) := by
      rw [div_pow, div_mul_div_comm, div_le_iff₀ (by positivity)]
      have := mul_le_mul_of_nonneg_right h3 (neg_nonneg.mpr hs)
      nlinarith
    have := mul_le_mul_of_nonneg_left h4 ha.le
    have e : P.alpha * (1 - P.beta) / L * (M.slope x d / nrm x d) ^ 2 = P.alpha * ((1 - P.beta) / L * (M.slope x d / nrm x d) ^ 2) := by ring
    rw [e]
    nlinarith

/-- What is known about every state of the run. -/
structure WolfeInv (M : Land X V) (C : LSCfg) (O : Oracle X V) (nrm : X → V → ℝ) (Good : Past X → Prop) (x0 : X) (L thr : ℝ) (w : ℕ → ℝ) (s : LSState X) : Prop where
  run : RunInv C.run s.rs
  val : s.rs.ok = true → s.rs.f1 = M.f s.x
  ngf : s.rs.ok = true → s.ngf = M.gnorm s.x
  past : ∃ t p, s.past = (s.x, t) :: p
  stop : s.rs.ok = true → (s.rs.isstop = true ↔ (O.timeUp s.rs.iter = true ∨ M.gnorm s.x < thr))
  dec : s.rs.ok = true → C.ls.alpha * (1 - C.ls.beta) / L * zsum M nrm O s.past ≤ M.f x0 - M.f s.x
  sum : s.rs.ok = true → ∑ k ∈ Finset.range s.rs.iter, w k ≤ zsum M nrm O s.past
  fail : s.rs.ok = false → ∃ y, C.ls.alpha * (1 - C.ls.beta) / L * zsum M nrm O s.past.tail ≤ M.f x0 - M.f y ∧
    ∑ k ∈ Finset.range (s.rs.iter - 1), w k ≤ zsum M nrm O s.past.tail
  good : s.rs.ok = true → Good s.past
  len : s.past.length = s.rs.iter + 1

theorem wolfe_search {M : Land X V} {C : LSCfg} {O : Oracle X V} {nrm : X → V → ℝ} {Good : Past X → Prop} {x0 : X} {fmin L thr : ℝ} {w : ℕ → ℝ}
    (S : ZReach M C O nrm Good x0 fmin L thr w) {s : LSState X} (h : WolfeInv M C O nrm Good x0 L thr w s) (hok : s.rs.ok = true)
    (hg : thr ≤ M.gnorm s.x) :
    ∃ r, C.search (M.ray s.x (O.dir s.past) s.rs.f1) (O.interp s.past) s.rs.pre s.ngf (M.gnorm x0) (O.init s.past) = some r ∧
      (r.status = .success → r.pt = r.step ∧ r.f2 = M.f (M.move s.x (O.dir s.past) r.step) ∧ r.gradAt = some r.step ∧
        r.f2 ≤ M.f s.x - C.ls.alpha * (1 - C.ls.beta) / L * (M.slope s.x (O.dir s.past) / nrm s.x (O.dir s.past)) ^ 2 ∧
        Good ((M.move s.x (O.dir s.past) r.step, r.step) :: s.past)) ∧
      w s.rs.iter ≤ (M.slope s.x (O.dir s.past) / nrm s.x (O.dir s.past)) ^ 2 := by
  obtain ⟨t0, p0, hpast⟩ := h.past
  have hgood : Good ((s.x, t0) :: p0) := hpast ▸ h.good hok
  obtain ⟨hneg, d4, dw⟩ := S.dirs s.x t0 p0 hgood hg
  have hlen : p0.length = s.rs.iter := by have := h.len; rw [hpast] at this; simpa using this
  rw [hlen] at dw
  have hpos : 0 < O.init s.past := by rw [hpast]; exact S.init s.x t0 p0 hgood hg
  have hstep := S.goodS s.x t0 p0
  rw [← hpast] at hneg d4 dw hstep
  have d2 := d4.le
  have hgp : 0 < M.gnorm s.x := lt_of_lt_of_le S.thrpos hg
  have hsum : 0 < M.gnorm x0 + C.tol := by have := S.g0; have := S.tolpos; linarith
  have hna : ¬ s.ngf / (M.gnorm x0 + C.tol) < C.accuracy := by
    rw [not_lt, le_div_iff₀ hsum, h.ngf hok]; exact S.acc.trans hg
  unfold LSCfg.search
  simp only [hna, if_false, S.kind]
  set P : LSParams ℝ := { C.ls with numPre := C.run.numPre } with hP
  set φ := M.ray s.x (O.dir s.past) s.rs.f1 with hφ
  obtain ⟨r, hr⟩ := settled_isSome (C17_strong_wolfe_terminates P φ (O.interp s.past) (Search.start (O.init s.past) 0 φ.f0) hpos)
  obtain ⟨n, hn⟩ := settled_spec hr
  refine ⟨r, hr, ?_, ?_⟩
  · intro hst
    obtain ⟨e1, e2, e3, e4, e5⟩ := C17_strong_wolfe_success P φ (O.interp s.past) n _ r hn hst
    have hp : 0 < r.step := strongWolfeLoop_pos P φ (O.interp s.past) S.r1 S.r12 S.r2 S.maxPos _ _ _ _ _ r hn le_rfl hpos
    have e7 : M.f (M.move s.x (O.dir s.past) r.step) ≤ M.f s.x + C.ls.alpha * r.step * M.slope s.x (O.dir s.past) := by
      have e6 : φ.f0 = M.f s.x := h.val hok
      rw [← e6]
      exact e4
    refine ⟨e1, e2, e3, ?_, hstep r.step (h.good hok) hg hp e7 e5⟩
    rw [e2]
    exact wolfe_gain C.ls S.Lpos S.alpha S.beta S.lips hneg d2 hp e7 e5
  · exact dw

theorem lsLoop_wolfe {M : Land X V} {C : LSCfg} {O : Oracle X V} {nrm : X → V → ℝ} {Good : Past X → Prop} {x0 : X} {fmin L thr : ℝ} {w : ℕ → ℝ}
    (S : ZReach M C O nrm Good x0 fmin L thr w)
    (hN : M.f x0 - fmin < C.ls.alpha * (1 - C.ls.beta) / L * ∑ k ∈ Finset.range C.run.maxIter, w k) (n : ℕ) (s : LSState X)
    (h : WolfeInv M C O nrm Good x0 L thr w s) (hi : s.rs.iter ≤ C.run.maxIter) (hn : C.run.maxIter < s.rs.iter + n) :
    ∃ s', lsLoop M C O (M.gnorm x0) n s = .finished s' ∧ WolfeInv M C O nrm Good x0 L thr w s' ∧ (s'.rs.isstop = true ∨ s'.rs.ok = false) := by
  have hκ : 0 < C.ls.alpha * (1 - C.ls.beta) / L := by
    have := S.alpha; have : 0 < 1 - C.ls.beta := sub_pos.mpr S.beta; have := S.Lpos; positivity
  induction n generalizing s with
  | zero => omega
  | succ n ih =>
    cases hok : s.rs.ok
    · refine ⟨s, ?_, h, Or.inr hok⟩
      rw [lsLoop, if_neg]
      simp [RunState.continues, hok, S.min0]
    have hlt : s.rs.iter < C.run.maxIter := by
      have h1 := h.dec hok
      have h2 := h.sum hok
      have h3 := S.below s.x
      have h4 := mul_le_mul_of_nonneg_left h2 hκ.le
      by_contra hge
      have hmono : ∑ k ∈ Finset.range C.run.maxIter, w k ≤ ∑ k ∈ Finset.range s.rs.iter, w k :=
        Finset.sum_le_sum_of_subset_of_nonneg (by intro k hk; rw [Finset.mem_range] at hk ⊢; omega) (fun k _ _ => (S.wpos k).le)
      have := mul_le_mul_of_nonneg_left hmono hκ.le
      linarith
    rw [lsLoop]
    cases hst : s.rs.isstop
    · have hc : s.rs.continues C.run = true := by
        simp [RunState.continues, hst, hok, hlt]
      rw [if_pos hc]
      have hns : ¬ (O.timeUp s.rs.iter = true ∨ M.gnorm s.x < thr) := by
        rw [← h.stop hok, hst]; simp
      push Not at hns
      obtain ⟨r, hr, r1, r2⟩ := wolfe_search S h hok hns.2
      simp only [hr]
      set x2 := M.move s.x (O.dir s.past) r.pt with hx2
      set g2 := gradNormAt M O s r with hg2
      set E := C.env O ((x2, r.step) :: s.past) r (O.init s.past) s.rs.f1 (M.gnorm x0) g2 with hE
      obtain ⟨t0, p0, hpast⟩ := h.past
      have hz : zsum M nrm O ((x2, r.step) :: s.past) = (M.slope s.x (O.dir s.past) / nrm s.x (O.dir s.past)) ^ 2 + zsum M nrm O s.past := by
        rw [hpast]; rfl
      rcases pass_cases C.run E s.rs h.run (fun hrec => ⟨hlt, S.gap hrec⟩) with ⟨t, e, e1, _⟩ | ⟨t, e, _, e1, e2, e3, e4, e5⟩
      · simp [hE, LSCfg.env] at e1
      · rw [e]
        have hf1 : t.f1 = r.f2 := by
          have hh := e1.head
          rw [e3] at hh
          simpa [hE, LSCfg.env] using hh.symm
        have hok' : t.ok = decide (r.status = .success) := e4
        refine ih ⟨t, x2, g2, (x2, r.step) :: s.past⟩ ?_ (by show t.iter ≤ _; omega) (by show _ < t.iter + n; omega)
        refine ⟨e1, ?_, ?_, ⟨r.step, s.past, rfl⟩, ?_, ?_, ?_, ?_, ?_, by show s.past.length + 1 = t.iter + 1; rw [h.len, e2]⟩
        · intro ho
          obtain ⟨q1, q2, q3, q4, q5⟩ := r1 (by have : t.ok = true := ho; rw [hok'] at this; simpa using this)
          show t.f1 = M.f x2
          rw [hf1, q2, hx2, q1]
        · intro ho
          obtain ⟨q1, q2, q3, q4, q5⟩ := r1 (by have : t.ok = true := ho; rw [hok'] at this; simpa using this)
          show g2 = M.gnorm x2
          simp only [hg2, gradNormAt, q3, hx2, q1]
        · intro ho
          obtain ⟨q1, q2, q3, q4, q5⟩ := r1 (by have : t.ok = true := ho; rw [hok'] at this; simpa using this)
          have hgg : g2 = M.gnorm x2 := by simp only [hg2, gradNormAt, q3, hx2, q1]
          show t.isstop = true ↔ (O.timeUp t.iter = true ∨ M.gnorm x2 < thr)
          rw [e5, e2, ← hgg]
          exact stop_iff S.nocall S.thresh _ _ _ _ _
        · intro ho
          obtain ⟨q1, q2, q3, q4, q5⟩ := r1 (by have : t.ok = true := ho; rw [hok'] at this; simpa using this)
          show _ * zsum M nrm O ((x2, r.step) :: s.past) ≤ _ - M.f x2
          have hx : M.f x2 = r.f2 := by rw [q2, hx2, q1]
          rw [hz, hx]
          have := h.dec hok
          linarith
        · intro ho
          show ∑ k ∈ Finset.range t.iter, w k ≤ zsum M nrm O ((x2, r.step) :: s.past)
          rw [hz, e2, Finset.sum_range_succ]
          have := h.sum hok
          linarith
        · intro ho
          refine ⟨s.x, ?_, ?_⟩
          · exact h.dec hok
          · show ∑ k ∈ Finset.range (t.iter - 1), w k ≤ zsum M nrm O s.past
            rw [e2, Nat.add_sub_cancel]
            have := h.sum hok
            linarith
        · intro ho
          obtain ⟨q1, q2, q3, q4, q5⟩ := r1 (by have : t.ok = true := ho; rw [hok'] at this; simpa using this)
          show Good ((x2, r.step) :: s.past)
          rw [hx2, q1]
          exact q5
    · refine ⟨s, ?_, h, Or.inl hst⟩
      rw [if_neg]
      simp [RunState.continues, hst, S.min0]

/-! ## C100 -/

/-- C100 for runs whose pasts satisfy a predicate, with bounds that depend on the iteration. -/
theorem wolfe_run_z {M : Land X V} {C : LSCfg} {O : Oracle X V} {nrm : X → V → ℝ} {Good : Past X → Prop} {x0 : X} {fmin L thr : ℝ} {w : ℕ → ℝ}
    (S : ZReach M C O nrm Good x0 fmin L thr w)
    (hN : M.f x0 - fmin < C.ls.alpha * (1 - C.ls.beta) / L * ∑ k ∈ Finset.range C.run.maxIter, w k) :
    ∃ s, lsRun M C O x0 (C.run.maxIter + 1) = .finished s ∧
      (s.rs.ok = true → s.rs.f1 = M.f s.x ∧ (O.timeUp s.rs.iter = true ∨ M.gnorm s.x < thr) ∧
        C.ls.alpha * (1 - C.ls.beta) / L * zsum M nrm O s.past ≤ M.f x0 - M.f s.x ∧ ∑ k ∈ Finset.range s.rs.iter, w k ≤ zsum M nrm O s.past ∧ Good s.past) ∧
      C.ls.alpha * (1 - C.ls.beta) / L * ∑ k ∈ Finset.range (s.rs.iter - 1), w k ≤ M.f x0 - fmin := by
  have hκ : 0 < C.ls.alpha * (1 - C.ls.beta) / L := by
    have := S.alpha; have : 0 < 1 - C.ls.beta := sub_pos.mpr S.beta; have := S.Lpos; positivity
  have hinit : WolfeInv M C O nrm Good x0 L thr w (lsInit M C O x0) := by
    refine ⟨init_inv _ _ _ _, fun _ => rfl, fun _ => rfl, ⟨0, [], rfl⟩, fun _ => stop_iff S.nocall S.thresh _ _ _ _ _, fun _ => ?_, fun _ => ?_, ?_, fun _ => S.good0, rfl⟩
    · simp [lsInit, zsum]
    · simp [lsInit, zsum, RunState.init]
    · intro h; cases h
  obtain ⟨s, e, h, hs⟩ := lsLoop_wolfe S hN (C.run.maxIter + 1) _ hinit (Nat.zero_le _) (by show C.run.maxIter < 0 + _; omega)
  refine ⟨s, e, ?_, ?_⟩
  · intro hok
    refine ⟨h.val hok, (h.stop hok).mp ?_, h.dec hok, h.sum hok, h.good hok⟩
    rcases hs with hs | hs
    · exact hs
    · rw [hok] at hs; cases hs
  · cases hok : s.rs.ok
    · obtain ⟨y, z1, z2⟩ := h.fail hok
      have hb := S.below y
      have := mul_le_mul_of_nonneg_left z2 hκ.le
      linarith
    · have z1 := h.dec hok
      have z2 := h.sum hok
      have hb := S.below s.x
      have hmono : ∑ k ∈ Finset.range (s.rs.iter - 1), w k ≤ ∑ k ∈ Finset.range s.rs.iter, w k :=
        Finset.sum_le_sum_of_subset_of_nonneg (by intro k hk; rw [Finset.mem_range] at hk ⊢; omega) (fun k _ _ => (S.wpos k).le)
      have := mul_le_mul_of_nonneg_left (hmono.trans z2) hκ.le
      linarith

/-- C100 for runs whose pasts satisfy a predicate. -/
theorem wolfe_run_reach {M : Land X V} {C : LSCfg} {O : Oracle X V} {nrm : X → V → ℝ} {Good : Past X → Prop} {x0 : X} {fmin L c thr : ℝ}
    (S : WolfeReach M C O nrm Good x0 fmin L c thr)
    (hN : M.f x0 - fmin < C.run.maxIter * (C.ls.alpha * (1 - C.ls.beta) / L * (c * thr) ^ 2)) :
    ∃ s, lsRun M C O x0 (C.run.maxIter + 1) = .finished s ∧
      (s.rs.ok = true → s.rs.f1 = M.f s.x ∧ (O.timeUp s.rs.iter = true ∨ M.gnorm s.x < thr) ∧
        C.ls.alpha * (1 - C.ls.beta) / L * zsum M nrm O s.past ≤ M.f x0 - M.f s.x ∧ (s.rs.iter : ℝ) * (c * thr) ^ 2 ≤ zsum M nrm O s.past ∧ Good s.past) ∧
      ((s.rs.iter : ℝ) - 1) * (C.ls.alpha * (1 - C.ls.beta) / L * (c * thr) ^ 2) ≤ M.f x0 - fmin := by
  have hκ : 0 < C.ls.alpha * (1 - C.ls.beta) / L := by
    have := S.alpha; have : 0 < 1 - C.ls.beta := sub_pos.mpr S.beta; have := S.Lpos; positivity
  have hsum : ∀ n : ℕ, ∑ k ∈ Finset.range n, (c * thr) ^ 2 = n * (c * thr) ^ 2 := by intro n; simp
  obtain ⟨s, e1, e2, e3⟩ := wolfe_run_z S.z (by rw [hsum]; linarith)
  refine ⟨s, e1, fun hok => ?_, ?_⟩
  · obtain ⟨k1, k2, k3, k4, k5⟩ := e2 hok
    rw [hsum] at k4
    exact ⟨k1, k2, k3, k4, k5⟩
  · rw [hsum] at e3
    have h1 : (s.rs.iter : ℝ) - 1 ≤ ((s.rs.iter - 1 : ℕ) : ℝ) := by
      rcases Nat.eq_zero_or_pos s.rs.iter with h | h
      · rw [h]; norm_num
      · rw [Nat.cast_sub h]; norm_num
    have := mul_le_mul_of_nonneg_right h1 (by positivity : 0 ≤ C.ls.alpha * (1 - C.ls.beta) / L * (c * thr) ^ 2)
    linarith

/-- **C100.** A strong Wolfe run on an objective that is bounded below, with Lipschitz slopes and directions that keep an angle with the gradient, never hangs. It ends
after a bounded number of iterations by its gradient test, by the time limit, or because a search reported failure. As long as the searches succeed, the sum of
`‖grad‖² cos²θ` over the iterates is at most `L/(α(1-β))` times the total decrease. -/
theorem C100_wolfe_run {M : Land X V} {C : LSCfg} {O : Oracle X V} {nrm : X → V → ℝ} {x0 : X} {fmin L c thr : ℝ}
    (S : WolfeSetting M C O nrm x0 fmin L c thr)
    (hN : M.f x0 - fmin < C.run.maxIter * (C.ls.alpha * (1 - C.ls.beta) / L * (c * thr) ^ 2)) :
    ∃ s, lsRun M C O x0 (C.run.maxIter + 1) = .finished s ∧
      (s.rs.ok = true → s.rs.f1 = M.f s.x ∧ (O.timeUp s.rs.iter = true ∨ M.gnorm s.x < thr) ∧
        C.ls.alpha * (1 - C.ls.beta) / L * zsum M nrm O s.past ≤ M.f x0 - M.f s.x ∧ (s.rs.iter : ℝ) * (c * thr) ^ 2 ≤ zsum M nrm O s.past) ∧
      ((s.rs.iter : ℝ) - 1) * (C.ls.alpha * (1 - C.ls.beta) / L * (c * thr) ^ 2) ≤ M.f x0 - fmin := by
  obtain ⟨s, e1, e2, e3⟩ := wolfe_run_reach S.reach hN
  exact ⟨s, e1, fun h => ⟨(e2 h).1, (e2 h).2.1, (e2 h).2.2.1, (e2 h).2.2.2.1⟩, e3⟩

/-- The hypotheses hold for the quadratic `2x²` with strong Wolfe steps. -/
theorem quad_wolfe (x0 : ℝ) (hx : x0 ≠ 0) (n : ℕ) :
    WolfeSetting quadLand { quadCfg 0 n with kind := .strongWolfe } (quadOracle 1) (fun _ d => |d|) x0 0 4 1 (1 / 10 ^ 6 * |4 * x0|) := by
  have hp : 0 < |4 * x0| := abs_pos.mpr (by simpa using hx)
  exact
  { below := quad_below
    lips := by
      intro x d t ht
      simp only [quadLand, sq_abs]
      apply le_of_eq; ring
    dirs := by
      intro x t past
      refine ⟨?_, abs_nonneg _, ?_⟩
      · simp only [quadLand, quadOracle]
        rw [neg_mul 4 x, abs_neg, mul_assoc (-1 : ℝ), abs_mul_abs_self]
        apply le_of_eq; ring
      · intro h
        simp only [quadLand, quadOracle] at h ⊢
        rwa [neg_mul 4 x, abs_neg]
    Lpos := by norm_num, cpos := by norm_num, kind := rfl
    alpha := by norm_num [quadCfg], beta := by norm_num [quadCfg], r1 := by norm_num [quadCfg], r12 := by norm_num [quadCfg]
    r2 := by norm_num [quadCfg], maxPos := by norm_num [quadCfg]
    init := fun p => by simp [quadOracle]
    nocall := rfl
    thresh := Or.inr ⟨rfl, hp, rfl⟩
    thrpos := by positivity
    acc := by simp only [quadCfg, zero_mul]; positivity
    tolpos := by norm_num [quadCfg]
    g0 := abs_nonneg _
    min0 := rfl
    gap := fun h => by simp [quadCfg] at h }

example : ∃ n s, lsRun quadLand { quadCfg 0 n with kind := .strongWolfe } (quadOracle 1) 1 (n + 1) = .finished s := by
  have hg : (0 : ℝ) < 1 / 10000 * (1 - 999 / 1000) / 4 * (1 * (1 / 10 ^ 6 * |4 * 1|)) ^ 2 := by norm_num
  obtain ⟨n, hn⟩ := exists_nat_gt ((quadLand.f 1 - 0) / (1 / 10000 * (1 - 999 / 1000) / 4 * (1 * (1 / 10 ^ 6 * |4 * 1|)) ^ 2))
  rw [div_lt_iff₀ hg] at hn
  obtain ⟨s, e, _⟩ := C100_wolfe_run (quad_wolfe 1 one_ne_zero n) hn
  exact ⟨n, s, e⟩

end Verif.Solver
