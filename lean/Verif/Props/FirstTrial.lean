import Verif.Props.InitStep

/-!
# Runs whose searches accept their first trial

Helpers for local convergence theorems: an Armijo search accepts its initial step when that satisfies the condition, and a run in which this always happens is the iteration with the initial steps.
-/

set_option linter.unusedSectionVars false
set_option linter.unusedVariables false

namespace Verif.Solver

variable {X V : Type}

/-- A first trial that satisfies the condition of Armijo is accepted. -/
theorem armijo_first (P : LSParams ℝ) (φ : Ray ℝ) (I : Interp ℝ) (pre : List ℝ) (s0 : Search ℝ) (h : φ.phi s0.step ≤ φ.f0 + P.alpha * s0.step * φ.slope) (n : ℕ) :
    ∃ r, armijo P φ I pre (n + 1) s0 = some r ∧ r.step = s0.step ∧ r.status = .success := by
  set s : Search ℝ := evalH φ { s0 with status := .success } with hs
  have hno : ¬ maxPref P.numPre φ.f0 pre - s.f2 < -P.alpha * φ.slope * s.step := by
    have h2 := maxPref_ge P.numPre φ.f0 pre
    intro hc
    have hc' : maxPref P.numPre φ.f0 pre - φ.phi s0.step < -P.alpha * φ.slope * s0.step := hc
    nlinarith
  unfold armijo
  simp only [← hs]
  by_cases h21 : P.r2 ≤ P.r1
  · rw [if_pos h21]
    refine ⟨evalDh φ s, ?_, rfl, rfl⟩
    rw [backtrack, if_neg hno]
    rfl
  · rw [if_neg h21]
    have e : armijoFirst P φ I (maxPref P.numPre φ.f0 pre) s = s := by
      unfold armijoFirst
      rw [if_neg hno]
    rw [e]
    refine ⟨{ evalGrad s with newslope := none }, ?_, rfl, rfl⟩
    rw [polyLoop, if_neg hno]
    rfl

/-- The parameters of a run to which the lemma below applies. -/
structure ArmijoCfg (M : Land X V) (C : LSCfg) (O : Oracle X V) (x0 : X) (thr : ℝ) : Prop where
  kind : C.kind = .armijo
  nocall : O.callback = none
  thresh : Threshold C (M.gnorm x0) thr
  acc : C.accuracy * (M.gnorm x0 + C.tol) ≤ thr
  tolpos : 0 < C.tol
  g0 : 0 ≤ M.gnorm x0
  min0 : C.run.minIter = 0
  gap : C.run.record = true → 0 < C.run.outputGap

/-- What is known about every state of such a run. -/
structure FirstInv (M : Land X V) (C : LSCfg) (O : Oracle X V) (thr : ℝ) (s : LSState X) : Prop where
  run : RunInv C.run s.rs
  val : s.rs.f1 = M.f s.x
  ngf : s.ngf = M.gnorm s.x
  past : ∃ t p, s.past = (s.x, t) :: p
  ok : s.rs.ok = true
  stop : s.rs.isstop = true ↔ (O.timeUp s.rs.iter = true ∨ M.gnorm s.x < thr)

/-- A search that accepts its first trial. -/
theorem search_first {M : Land X V} {C : LSCfg} {O : Oracle X V} {x0 : X} {thr : ℝ} (S : ArmijoCfg M C O x0 thr) {s : LSState X} (h : FirstInv M C O thr s) (hg : thr ≤ M.gnorm s.x)
    (hacc : M.f (M.move s.x (O.dir s.past) (O.init s.past)) ≤ M.f s.x + C.ls.alpha * O.init s.past * M.slope s.x (O.dir s.past)) :
    ∃ r, C.search (M.ray s.x (O.dir s.past) s.rs.f1) (O.interp s.past) s.rs.pre s.ngf (M.gnorm x0) (O.init s.past) = some r ∧
      r.status = .success ∧ r.step = O.init s.past ∧ r.pt = r.step ∧ r.f2 = M.f (M.move s.x (O.dir s.past) r.step) ∧ r.gradAt = some r.step := by
  have hsum : 0 < M.gnorm x0 + C.tol := by have := S.g0; have := S.tolpos; linarith
  have hna : ¬ s.ngf / (M.gnorm x0 + C.tol) < C.accuracy := by
    rw [not_lt, le_div_iff₀ hsum, h.ngf]; exact S.acc.trans hg
  unfold LSCfg.search
  simp only [hna, if_false, S.kind]
  set P : LSParams ℝ := { C.ls with numPre := C.run.numPre } with hP
  set φ := M.ray s.x (O.dir s.past) s.rs.f1 with hφ
  have hc : ∀ n, ∃ r, armijo P φ (O.interp s.past) s.rs.pre (n + 1) (Search.start (O.init s.past) 0 φ.f0) = some r ∧ r.step = (Search.start (O.init s.past) 0 φ.f0).step ∧ r.status = .success :=
    armijo_first P φ (O.interp s.past) s.rs.pre _ (by
      show M.f _ ≤ s.rs.f1 + _
      rw [h.val]
      exact hacc)
  obtain ⟨r, hr⟩ := settled_isSome (⟨1, hc 0 |>.imp fun _ h => h.1⟩ : ∃ n r, armijo P φ (O.interp s.past) s.rs.pre n (Search.start (O.init s.past) 0 φ.f0) = some r)
  obtain ⟨n, hn⟩ := settled_spec hr
  have hn0 : n ≠ 0 := by
    rintro rfl
    unfold armijo at hn
    simp [backtrack, polyLoop] at hn
  obtain ⟨m, rfl⟩ := Nat.exists_eq_succ_of_ne_zero hn0
  obtain ⟨r', e1, e2, e3⟩ := hc m
  have : r = r' := by
    rw [Nat.succ_eq_add_one, e1] at hn
    exact (Option.some.inj hn).symm
  subst this
  obtain ⟨f1, f2, f3, -⟩ := C14_armijo_sufficient_decrease P φ (O.interp s.past) s.rs.pre _ _ r _ hn e3 (maxPref_isGreatest _ _ _)
  exact ⟨r, hr, e3, e2, f1, f2, f3⟩

/-- A run whose searches accept their first trials: `Inv m` holds for the past when `m` iterations are left at most. -/
theorem lsLoop_first {M : Land X V} {C : LSCfg} {O : Oracle X V} {x0 : X} {thr : ℝ} (S : ArmijoCfg M C O x0 thr) (Inv : ℕ → Past X → Prop)
    (hbase : ∀ x t p, Inv 0 ((x, t) :: p) → M.gnorm x < thr)
    (hstep : ∀ m x t p, Inv (m + 1) ((x, t) :: p) → thr ≤ M.gnorm x →
      M.f (M.move x (O.dir ((x, t) :: p)) (O.init ((x, t) :: p))) ≤ M.f x + C.ls.alpha * O.init ((x, t) :: p) * M.slope x (O.dir ((x, t) :: p)) ∧
      Inv m ((M.move x (O.dir ((x, t) :: p)) (O.init ((x, t) :: p)), O.init ((x, t) :: p)) :: (x, t) :: p)) :
    ∀ (m : ℕ) (s : LSState X), FirstInv M C O thr s → Inv m s.past → s.rs.iter + m ≤ C.run.maxIter →
      ∃ s' m', lsLoop M C O (M.gnorm x0) (m + 1) s = .finished s' ∧ FirstInv M C O thr s' ∧ (O.timeUp s'.rs.iter = true ∨ M.gnorm s'.x < thr) ∧ Inv m' s'.past ∧ s'.rs.iter + m' = s.rs.iter + m := by
  intro m
  induction m with
  | zero =>
    intro s h hI hroom
    obtain ⟨t, p, hp⟩ := h.past
    have hg := hbase s.x t p (hp ▸ hI)
    have hst : s.rs.isstop = true := h.stop.mpr (Or.inr hg)
    refine ⟨s, 0, ?_, h, Or.inr hg, hI, rfl⟩
    rw [lsLoop]
    have hc : s.rs.continues C.run = false := by simp [RunState.continues, hst, S.min0]
    rw [hc]
    rfl
  | succ m ih =>
    intro s h hI hroom
    rw [lsLoop]
    cases hst : s.rs.isstop
    · have hlt : s.rs.iter < C.run.maxIter := by omega
      have hc : s.rs.continues C.run = true := by simp [RunState.continues, hst, h.ok, hlt]
      rw [if_pos hc]
      have hns : ¬ (O.timeUp s.rs.iter = true ∨ M.gnorm s.x < thr) := by
        rw [← h.stop, hst]; simp
      push Not at hns
      obtain ⟨t0, p0, hp⟩ := h.past
      have hs := hstep m s.x t0 p0 (hp ▸ hI) hns.2
      rw [← hp] at hs
      obtain ⟨r, hr, r1, r0, r2, r3, r4⟩ := search_first S h hns.2 hs.1
      simp only [hr, gradNormAt, r4, r2]
      set x2 := M.move s.x (O.dir s.past) r.step with hx2
      set E := C.env O ((x2, r.step) :: s.past) r (O.init s.past) s.rs.f1 (M.gnorm x0) (M.gnorm x2) with hE
      rcases pass_cases C.run E s.rs h.run (fun hrec => ⟨hlt, S.gap hrec⟩) with ⟨t, e, e1, _⟩ | ⟨t, e, _, e1, e2, e3, e4, e5⟩
      · simp [hE, LSCfg.env] at e1
      · rw [e]
        have hf1 : t.f1 = r.f2 := by
          have hh := e1.head
          rw [e3] at hh
          simpa [hE, LSCfg.env] using hh.symm
        have hinv : FirstInv M C O thr ⟨t, x2, M.gnorm x2, (x2, r.step) :: s.past⟩ := by
          refine ⟨e1, ?_, rfl, ⟨r.step, s.past, rfl⟩, ?_, ?_⟩
          · show t.f1 = M.f x2
            rw [hf1, r3]
          · show t.ok = true
            rw [e4]; simp [hE, LSCfg.env, r1]
          · show t.isstop = true ↔ (O.timeUp t.iter = true ∨ _)
            rw [e5, e2]
            exact stop_iff S.nocall S.thresh _ _ _ _ _
        obtain ⟨s', m', a1, a2, a3, a4, a5⟩ := ih ⟨t, x2, M.gnorm x2, (x2, r.step) :: s.past⟩ hinv (by
          show Inv m ((x2, r.step) :: s.past)
          rw [hx2, r0]
          exact hs.2) (by show t.iter + m ≤ _; omega)
        refine ⟨s', m', a1, a2, a3, a4, ?_⟩
        have : s'.rs.iter + m' = t.iter + m := a5
        omega
    · have hc : s.rs.continues C.run = false := by simp [RunState.continues, hst, S.min0]
      rw [hc]
      exact ⟨s, m + 1, rfl, h, h.stop.mp hst, hI, rfl⟩

theorem init_FirstInv {M : Land X V} {C : LSCfg} {O : Oracle X V} {x0 : X} {thr : ℝ} (S : ArmijoCfg M C O x0 thr) : FirstInv M C O thr (lsInit M C O x0) where
  run := init_inv _ _ _ _
  val := rfl
  ngf := rfl
  past := ⟨0, [], rfl⟩
  ok := rfl
  stop := stop_iff S.nocall S.thresh _ _ _ _ _

/-- The default rule hands out a unit step after a unit step whose actual decrease is close to half of the slope. -/
theorem quadIntMod_unit {M : Land X V} {dir : Past X → V} {eps : ℝ} (heps : eps ≤ 1) (x t x1 u) (q : Past X)
    (hs : M.slope x1 (dir ((x1, u) :: q)) < 0) (h1 : M.f x - M.f x1 ≤ 100 / 202 * M.slope x1 (dir ((x1, u) :: q)))
    (h2 : 50 * M.slope x1 (dir ((x1, u) :: q)) ≤ M.f x - M.f x1) : quadIntMod M dir 1 eps ((x, t) :: (x1, u) :: q) = 1 := by
  simp only [quadIntMod, ruleStep, quadIntModCand, quadPred, if_neg hs.ne, capOne]
  set sl := M.slope x1 (dir ((x1, u) :: q)) with hsl
  have hv : 1 ≤ 101 / 100 * 2 * (M.f x - M.f x1) / sl := by
    rw [le_div_iff_of_neg hs]; linarith
  have hcap : (if 1 < 101 / 100 * 2 * (M.f x - M.f x1) / sl then (1 : ℝ) else 101 / 100 * 2 * (M.f x - M.f x1) / sl) = 1 := by
    split
    · rfl
    · linarith
  rw [hcap]
  have hw : 2 * (M.f x - M.f x1) / sl ≤ 100 := by
    rw [div_le_iff_of_neg hs]; linarith
  simp only [initialStep, Nat.add_one_ne_zero, if_false]
  have e : (if (Ext.fin 1).lt (Ext.fin (2 * (M.f x - M.f x1) / sl)).div100 = true then Ext.fin (2 * (M.f x - M.f x1) / sl) else Ext.fin 1) = Ext.fin (1 : ℝ) := by
    apply if_neg
    simp only [Ext.lt, Ext.div100, decide_eq_true_eq]
    linarith
  rw [e, if_neg (by simp only [Ext.lt, decide_eq_true_eq]; linarith)]
  rfl

end Verif.Solver
