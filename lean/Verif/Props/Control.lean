import Verif.Solver.Control

/-!
# Stopping tests (C28), parameters (C29), initial steps (C57)
-/

set_option linter.unusedSectionVars false

namespace Verif.Solver

section stop
variable {K : Type} [Field K] [LinearOrder K] [IsStrictOrderedRing K]

/-- C28: once the time limit is exceeded the run stops, whatever the criterion or callback. -/
theorem C28_time_limit (s : StopIn K) (h : s.timeBound < s.elapsed) : isStopped s = true := by
  simp [isStopped, h]

/-- C28: within the time limit an installed callback decides alone. -/
theorem C28_callback_decides (s : StopIn K) (b : Bool) (h : s.elapsed ≤ s.timeBound)
    (hc : s.callback = some b) : isStopped s = b := by
  simp [isStopped, not_lt.mpr h, hc]

/-- C28: the gradient-norm criterion stops exactly when the norm is below the tolerance. -/
theorem C28_gradient_norm (s : StopIn K) (h : s.elapsed ≤ s.timeBound) (hc : s.callback = none)
    (hk : s.crit = .gradF) : isStopped s = true ↔ s.ngf2 < s.tol := by
  simp [isStopped, not_lt.mpr h, hc, hk]

/-- C28 (partial): with a nonzero initial gradient the default criterion stops exactly when the gradient
norm is below the tolerance times the initial norm. -/
theorem C28_relative_gradient_partial (s : StopIn K) (h : s.elapsed ≤ s.timeBound)
    (hc : s.callback = none) (hk : s.crit = .gradF0) (h0 : 0 < s.ngf0) :
    isStopped s = true ↔ s.ngf2 < s.tol * s.ngf0 := by
  simp [isStopped, not_lt.mpr h, hc, hk, quotLt, h0.ne', div_lt_iff₀ h0]

/-- C28, the missing part: started at a critical point (zero initial gradient) the default criterion
never stops a run, however small the current gradient. -/
theorem C28_critical_start_never_stops (s : StopIn K) (h : s.elapsed ≤ s.timeBound)
    (hc : s.callback = none) (hk : s.crit = .gradF0) (h0 : s.ngf0 = 0) : isStopped s = false := by
  simp [isStopped, not_lt.mpr h, hc, hk, quotLt, h0]

/-- The documented relative-decrease quantity, `Solvers/SolversSM.h:26`. -/
def relDecrease (f1 f2 : K) : K := |f1 - f2| / max |f1| 1

/-- C28: the relative-decrease criterion never stops a run before its first iteration (there is no decrease to measure yet). -/
theorem C28_relative_decrease_needs_iteration (s : StopIn K) (h : s.elapsed ≤ s.timeBound)
    (hc : s.callback = none) (hk : s.crit = .funRel) (hi : s.iter = 0) : isStopped s = false := by
  simp [isStopped, not_lt.mpr h, hc, hk, hi]

/-- C28 (partial): the relative-decrease criterion (after the first iteration) stops whenever the
documented quantity is below the tolerance, and only when it is below twice the tolerance. -/
theorem C28_relative_decrease_partial (s : StopIn K) (h : s.elapsed ≤ s.timeBound)
    (hc : s.callback = none) (hk : s.crit = .funRel) (hi : 0 < s.iter) :
    (relDecrease s.f1 s.f2 < s.tol → isStopped s = true) ∧
    (isStopped s = true → relDecrease s.f1 s.f2 < 2 * s.tol) := by
  have habs : |s.f1| + 1 > 0 := by positivity
  have hm : max |s.f1| 1 > 0 := lt_of_lt_of_le one_pos (le_max_right _ _)
  have h1 : max |s.f1| 1 ≤ |s.f1| + 1 :=
    max_le (by linarith) (by linarith [abs_nonneg s.f1])
  have h2 : |s.f1| + 1 ≤ 2 * max |s.f1| 1 := by
    linarith [le_max_left |s.f1| 1, le_max_right |s.f1| 1]
  have e : isStopped s = true ↔ |s.f1 - s.f2| < s.tol * (|s.f1| + 1) := by
    simp [isStopped, not_lt.mpr h, hc, hk, hi, abs_div, abs_of_pos habs, div_lt_iff₀ habs]
  rw [e]
  unfold relDecrease
  have hnn := abs_nonneg (s.f1 - s.f2)
  constructor
  · intro hd
    rw [div_lt_iff₀ hm] at hd
    have : 0 < s.tol := by
      by_contra hcon
      have := mul_nonpos_of_nonpos_of_nonneg (not_lt.mp hcon) hm.le
      linarith
    nlinarith
  · intro hd
    rw [div_lt_iff₀ hm]
    have : 0 < s.tol := by
      by_contra hcon
      linarith [mul_nonpos_of_nonpos_of_nonneg (not_lt.mp hcon) habs.le]
    nlinarith

/-- C28, the disagreement is real: a case where the code stops although the documented quantity is not
below the tolerance. -/
theorem C28_relative_decrease_differs :
    ∃ s : StopIn Rat, s.elapsed ≤ s.timeBound ∧ s.callback = none ∧ s.crit = .funRel ∧
      isStopped s = true ∧ s.tol ≤ relDecrease s.f1 s.f2 := by
  refine ⟨⟨0, 1, none, .funRel, 3 / 4, 1, 1, 2, 1, 1⟩, by norm_num, rfl, rfl, ?_, ?_⟩
  · decide +kernel
  · norm_num [relDecrease]

/-- A non-trivial case of the hypotheses of the criteria above. -/
example : isStopped (⟨1, 2, none, .gradF0, 1 / 10, 7, 3, 2, 5, 1 / 4⟩ : StopIn Rat) = true := by
  decide +kernel

end stop

/-! ## Initial step -/

section init
variable {K : Type} [Field K] [LinearOrder K] [IsStrictOrderedRing K]

/-- C57: whatever the step-size rule computes (negative numbers, infinities, NaN), a finite initial
step handed to the line search is positive, provided the user's `Initstepsize` is and the gradient is
nonzero. -/
theorem C57_initial_step_positive (iter : Nat) (initStep ngf1 eps : K) (quad cand : Ext K) (v : K)
    (hi : 0 < initStep) (hg : 0 < ngf1) (he : 0 < eps)
    (h : initialStep iter initStep ngf1 eps quad cand = .fin v) : 0 < v := by
  unfold initialStep at h
  split at h
  · injection h with h; rw [← h]; exact hi
  · dsimp only at h
    generalize (if (cand.lt quad.div100) = true then quad else cand) = s at h
    split at h
    · unfold divExt at h
      rw [if_neg hg.ne'] at h
      injection h with h; rw [← h]; exact div_pos hi hg
    · rename_i hlt
      subst h
      simp [Ext.lt] at hlt
      exact lt_of_lt_of_le he hlt

/-- C57: a finite step below the threshold `1 / 100` of the quadratic prediction is only ever the fallback `Initstepsize / ||grad||`. -/
theorem C57_not_far_below_prediction (k : Nat) (initStep ngf1 eps q v : K) (cand : Ext K) (hg : 0 < ngf1) (hq : 0 < q)
    (h : initialStep (k + 1) initStep ngf1 eps (.fin q) cand = .fin v) (hv : v < q / 100) : v = initStep / ngf1 := by
  simp only [initialStep, Nat.add_one_ne_zero, if_false] at h
  have hlt : ∀ w : K, w < q / 100 → Ext.lt (.fin w) (Ext.div100 (.fin q)) = true := by
    intro w hw; simp [Ext.lt, Ext.div100, hw]
  have hd : divExt initStep ngf1 = .fin (initStep / ngf1) := by unfold divExt; rw [if_neg hg.ne']
  rw [hd] at h
  split at h
  · split at h
    · injection h with h; exact h.symm
    · injection h with h
      subst h
      exact absurd hv (not_lt.mpr (by linarith))
  · rename_i h1
    split at h
    · injection h with h; exact h.symm
    · rw [h, hlt v hv] at h1
      exact absurd rfl h1

/-- C57: the step is never minus infinity. -/
theorem C57_initial_step_not_minus_infinity (iter : Nat) (initStep ngf1 eps : K)
    (quad cand : Ext K) (hg : 0 < ngf1) :
    initialStep iter initStep ngf1 eps quad cand ≠ .ninf := by
  intro h
  unfold initialStep at h
  split at h
  · cases h
  · dsimp only at h
    generalize (if (cand.lt quad.div100) = true then quad else cand) = s at h
    split at h
    · unfold divExt at h
      rw [if_neg hg.ne'] at h
      cases h
    · rename_i hlt
      subst h
      simp [Ext.lt] at hlt

/-- C57, what the safeguard does not catch: a NaN candidate (a Barzilai-Borwein quotient 0/0, say) is
handed to the line search. -/
theorem C57_nan_passes_safeguard (k : Nat) (initStep ngf1 eps : K) (quad : Ext K) :
    initialStep (k + 1) initStep ngf1 eps quad .nan = .nan := by
  simp [initialStep, Ext.lt]

/-- A negative Barzilai-Borwein candidate is replaced by the fallback. -/
example : initialStep 3 1 (2 : Rat) (1 / 1000) (.fin (-5)) (.fin (-3)) = .fin (1 / 2) := by
  simp [initialStep, Ext.lt, Ext.div100, divExt]; norm_num

end init

/-! ## Parameters -/

/-- The value a map holds for a name. -/
def lookupParam (params : List (String × Rat)) (n : String) : Option Rat :=
  (params.find? (fun e => e.1 == n)).map (·.2)

/-- Effect of one table on a map with distinct names. -/
theorem setTable_spec (T : Table) (params : List (String × Rat)) (st : Store)
    (hd : (params.map (·.1)).Nodup) (n : String) :
    setTable T params st n =
      match T.find? (fun e => e.1 == n), lookupParam params n with
      | some e, some v => e.2.apply v
      | _, _ => st n := by
  induction params generalizing st with
  | nil => simp [setTable, lookupParam]
  | cons kv rest ih =>
    have hd' : (rest.map (·.1)).Nodup := (List.nodup_cons.mp hd).2
    have hnot : kv.1 ∉ rest.map (·.1) := (List.nodup_cons.mp hd).1
    have e0 : setTable T (kv :: rest) st = setTable T rest (setOne T st kv) := rfl
    rw [e0, ih _ hd']
    by_cases hkn : kv.1 = n
    · have hl : lookupParam rest n = none := by
        unfold lookupParam
        rw [Option.map_eq_none_iff, List.find?_eq_none]
        intro x hx hc
        apply hnot
        rw [hkn]
        simp at hc
        rw [← hc]
        exact List.mem_map_of_mem hx
      have hl2 : lookupParam (kv :: rest) n = some kv.2 := by
        simp [lookupParam, hkn]
      rw [hl, hl2]
      unfold setOne
      rw [hkn]
      cases T.find? (fun e => e.1 == n) <;> simp
    · have hl2 : lookupParam (kv :: rest) n = lookupParam rest n := by
        have : (kv.1 == n) = false := by simpa using hkn
        simp [lookupParam, this]
      have hs : setOne T st kv n = st n := by
        unfold setOne
        have : n ≠ kv.1 := fun h => hkn h.symm
        cases T.find? (fun e => e.1 == kv.1) <;> simp [this]
      rw [hl2, hs]

/-- Does some class of the chain recognise the name, and with which conversion (the last one wins)? -/
def chainCast (chain : List Table) (n : String) : Option Cast :=
  chain.foldl (fun acc T => match T.find? (fun e => e.1 == n) with
    | some e => some e.2
    | none => acc) none

/-- C29: after `SetParams` of any class chain with any map, a recognised name that occurs in the map
holds the converted value; every other parameter is unchanged. -/
theorem C29_set_params (chain : List Table) (params : List (String × Rat)) (st : Store)
    (hd : (params.map (·.1)).Nodup) (n : String) :
    setParams chain params st n =
      match chainCast chain n, lookupParam params n with
      | some c, some v => c.apply v
      | _, _ => st n := by
  have main : ∀ (chain : List Table) (st st0 : Store) (acc : Option Cast),
      (st n = match acc, lookupParam params n with
        | some c, some v => c.apply v
        | _, _ => st0 n) →
      chain.foldl (fun st T => setTable T params st) st n =
        match chain.foldl (fun acc T => match T.find? (fun e => e.1 == n) with
            | some e => some e.2
            | none => acc) acc, lookupParam params n with
        | some c, some v => c.apply v
        | _, _ => st0 n := by
    intro chain
    induction chain with
    | nil => intro st st0 acc h; simpa using h
    | cons T chain ih =>
      intro st st0 acc h
      simp only [List.foldl_cons]
      apply ih
      rw [setTable_spec T params st hd n]
      cases T.find? (fun e => e.1 == n) with
      | none => simpa using h
      | some e =>
        cases hl : lookupParam params n with
        | some v => simp
        | none => rw [hl] at h; simpa using h
  exact main chain st st none (by simp)

/-- The real-valued tuning parameters of the smooth line-search solvers. -/
def realNamesSMLS : List String := ["Tolerance", "TimeBound", "Accuracy", "LS_alpha", "LS_beta",
  "Minstepsize", "Maxstepsize", "LS_ratio1", "LS_ratio2", "Initstepsize", "Finalstepsize",
  "PreFunsAccuracy", "BBratio"]

/-- C29: every real-valued parameter of a smooth line-search solver (here the quasi-Newton chain) ends up
with exactly the value given in the map. -/
theorem C29_real_parameters_exact (params : List (String × Rat)) (st : Store)
    (hd : (params.map (·.1)).Nodup) (n : String) (hn : n ∈ realNamesSMLS ++ ["nu", "mu"]) (v : Rat)
    (hv : lookupParam params n = some v) :
    setParams chainRBFGS params st n = v ∧ setParams chainLRBFGS params st n = v := by
  rw [C29_set_params _ _ _ hd, C29_set_params _ _ _ hd, hv]
  have h : ∀ n ∈ realNamesSMLS ++ ["nu", "mu"],
      chainCast chainRBFGS n = some .real ∧ chainCast chainLRBFGS n = some .real := by decide
  rw [(h n hn).1, (h n hn).2]
  exact ⟨rfl, rfl⟩

/-- C29: the same for the trust-region solvers. -/
theorem C29_trust_region_parameters_exact (params : List (String × Rat)) (st : Store)
    (hd : (params.map (·.1)).Nodup) (n : String)
    (hn : n ∈ ["Tolerance", "TimeBound", "Accuracy", "Acceptence_Rho", "Shrinked_tau",
      "Magnified_tau", "minimum_Delta", "maximum_Delta", "theta", "kappa", "initial_Delta"])
    (v : Rat) (hv : lookupParam params n = some v) : setParams chainTR params st n = v := by
  rw [C29_set_params _ _ _ hd, hv]
  have h : ∀ n ∈ ["Tolerance", "TimeBound", "Accuracy", "Acceptence_Rho", "Shrinked_tau",
      "Magnified_tau", "minimum_Delta", "maximum_Delta", "theta", "kappa", "initial_Delta"],
      chainCast chainTR n = some .real := by decide
  rw [h n hn]
  rfl

/-- C29: integer parameters of all solvers are stored exactly when the supplied value is an integer. -/
theorem C29_integer_parameters_exact (chain : List Table) (params : List (String × Rat)) (st : Store)
    (hd : (params.map (·.1)).Nodup) (n : String) (hn : chainCast chain n = some .int) (k : Int)
    (hv : lookupParam params n = some (k : Rat)) : setParams chain params st n = k := by
  rw [C29_set_params _ _ _ hd, hv, hn]
  simp [Cast.apply, trunc]

/-- C29 violated by the proximal-gradient solvers: every value of the backtracking ratio, the sufficient
decrease constant or the minimum step in `[0,1)` — the whole admissible range — is stored as 0. -/
theorem C29_proximal_parameters_truncated (params : List (String × Rat)) (st : Store)
    (hd : (params.map (·.1)).Nodup) (n : String) (hn : n ∈ ["LS_ratio", "LS_alpha", "Minstepsize"])
    (v : Rat) (h0 : 0 ≤ v) (h1 : v < 1) (hv : lookupParam params n = some v) :
    setParams chainManPG params st n = 0 ∧ setParams chainAManPG params st n = 0 := by
  rw [C29_set_params _ _ _ hd, C29_set_params _ _ _ hd, hv]
  have h : ∀ n ∈ ["LS_ratio", "LS_alpha", "Minstepsize"],
      chainCast chainManPG n = some .int ∧ chainCast chainAManPG n = some .int := by decide
  rw [(h n hn).1, (h n hn).2]
  have : ⌊v⌋ = 0 := Int.floor_eq_zero_iff.mpr ⟨h0, h1⟩
  simp [Cast.apply, trunc, h0, this]

/-- A concrete map for the theorems above. -/
example : setParams chainManPG [("LS_ratio", 1 / 2), ("Tolerance", 1 / 100), ("junk", 3)]
    (fun _ => 7) "LS_ratio" = 0 ∧
    setParams chainManPG [("LS_ratio", 1 / 2), ("Tolerance", 1 / 100), ("junk", 3)]
    (fun _ => 7) "Tolerance" = 1 / 100 := by
  constructor <;> decide +kernel

end Verif.Solver
