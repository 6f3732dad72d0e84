import Verif.Solver.CheckParams
import Verif.Props.Control
import Verif.Props.LineSearch
import Verif.Props.ProxGrad
import Verif.Props.TRRun
import Mathlib.Order.Interval.Set.Defs

/-!
# C155: what `CheckParams` says about the parameters of a solver

`CheckParams` is the function a user calls to learn whether the parameters set are legal. For numerical parameters
its verdicts are right, and a report without "NO" carries the assumptions of the theorems on the Armijo searches
and on the radius. It cannot report an illegal enumeration value: the value is used as an index before the verdict
is printed. Parameters of the proximal-gradient solvers set by `SetParams` are always reported as illegal.
-/

namespace Verif.Solver

/-- The enumeration parameters of a class with the number of their values. -/
def Cls.enums : Cls → List (String × Nat)
  | .RCG => [("Verbose", 4), ("Stop_Criterion", 3), ("LineSearch_LS", 5), ("InitSteptype", 5), ("RCGmethod", 6)]
  | .RSD | .RNewton | .RBFGS | .LRBFGS =>
    [("Verbose", 4), ("Stop_Criterion", 3), ("LineSearch_LS", 5), ("InitSteptype", 5)]
  | .RTR | .LRTRSR1 | .RSub | .LRBFGSSub => [("Verbose", 4), ("Stop_Criterion", 3)]
  | .ManPG | .AManPG => [("Verbose", 4), ("Stop_Criterion", 3), ("RPGLSVariant", 2)]

/-- Kinds of solvers: smooth line search, trust region, subgradient, proximal gradient. -/
inductive Kind where
  | ls | tr | sub | prox
  deriving DecidableEq

def Cls.kind : Cls → Kind
  | .RSD | .RCG | .RNewton | .RBFGS | .LRBFGS => .ls
  | .RTR | .LRTRSR1 => .tr
  | .RSub | .LRBFGSSub => .sub
  | .ManPG | .AManPG => .prox

/-- The legal values of the parameters, by kind of solver. -/
def legal (k : Kind) (newton : Bool) (n : String) (st : Store) : Prop :=
  if n ∈ ["Tolerance", "TimeBound", "OutputGap", "Initstepsize", "initial_Delta", "Diffx", "NumExtraGF", "Eps", "Del",
      "SGIterGap"] then 0 < st n
  else if n ∈ ["Num_pre_BB", "PreFunsAccuracy", "mu", "LengthSY"] then 0 ≤ st n
  else if n ∈ ["Shrinked_tau", "kappa", "Theta_eps", "Min_Eps", "Theta_del", "lambdaLower", "LS_ratio"] then
    st n ∈ Set.Ioo (0 : Rat) 1
  else if n ∈ ["Magnified_tau", "lambdaUpper"] then 1 < st n
  else if n = "Verbose" then st n ∈ Set.Ico (0 : Rat) 4
  else if n = "Stop_Criterion" then st n ∈ Set.Ico (0 : Rat) 3
  else if n = "LineSearch_LS" ∨ n = "InitSteptype" then st n ∈ Set.Ico (0 : Rat) 5
  else if n = "RCGmethod" then st n ∈ Set.Ico (0 : Rat) 6
  else if n = "RPGLSVariant" then st n ∈ Set.Ico (0 : Rat) 2
  else if n = "Max_Iteration" then 0 < st n ∧ st "Min_Iteration" ≤ st n
  else if n = "Min_Iteration" then st n ∈ Set.Icc (0 : Rat) (st "Max_Iteration")
  else if n = "Accuracy" then st n ∈ Set.Icc (0 : Rat) 1
  else if n = "Num_pre_funs" then 1 ≤ st n
  else if n = "BBratio" then st n ∈ Set.Icc (0 : Rat) 1 ∨ st n = -1
  else if n = "LS_ratio1" then st n ∈ Set.Ioc (0 : Rat) (st "LS_ratio2")
  else if n = "LS_ratio2" then st n ∈ Set.Ico (st "LS_ratio1") 1
  else if n = "Acceptence_Rho" then st n ∈ Set.Ioo (0 : Rat) (1 / 4)
  else if n = "minimum_Delta" then st n ∈ Set.Ioc (0 : Rat) (st "maximum_Delta")
  else if n = "maximum_Delta" then 0 < st n ∧ st "minimum_Delta" ≤ st n
  else if n = "Min_Inner_Iter" then st n ∈ Set.Icc (0 : Rat) (st "Max_Inner_Iter")
  else if n = "Max_Inner_Iter" then 0 ≤ st n ∧ st "Min_Inner_Iter" ≤ st n
  else if n = "theta" then (if newton then 1 else 0) ≤ st n
  else if n = "nu" then st n ∈ Set.Ico (0 : Rat) 1
  else if n = "LS_alpha" then st n ∈ Set.Ioo (0 : Rat) (if k = .ls then 1 / 2 else 1)
  else if n = "LS_beta" then st n ∈ Set.Ioo (if k = .ls then st "LS_alpha" else 0) 1
  else if n = "Minstepsize" then st n ∈ Set.Ioc (0 : Rat) (if k = .ls then st "Maxstepsize" else 1)
  else if n = "Maxstepsize" then (if k = .ls then 0 < st n ∧ st "Minstepsize" ≤ st n else 1 ≤ st n)
  else True

/-- `SetParams` tables of the classes (`Control.lean`) as far as they are modelled there. -/
def Cls.chain : Cls → Option (List Table)
  | .RSD => some [tSolvers, tSM, tSMLS]
  | .RNewton => some chainRNewton
  | .RBFGS => some chainRBFGS
  | .LRBFGS => some chainLRBFGS
  | .RTR => some chainTR
  | .ManPG => some chainManPG
  | .AManPG => some chainAManPG
  | .RCG | .LRTRSR1 | .RSub | .LRBFGSSub => none

/-! ## Reports -/

theorem report_isSome (L : List CLine) (st : Store) :
    (report L st).isSome ↔ ∀ l ∈ L, (l.print st).isSome := by
  induction L with
  | nil => simp [report]
  | cons l L ih =>
    simp only [report, List.forall_mem_cons]
    cases l.print st with
    | none => simp
    | some a => simpa using ih

theorem report_mem {L : List CLine} {st : Store} {r : List (String × Bool)} (h : report L st = some r)
    (p : String × Bool) : p ∈ r ↔ ∃ l ∈ L, l.shown st = true ∧ p = (l.name, l.ok st) := by
  induction L generalizing r with
  | nil => simp [report] at h; subst h; simp
  | cons l L ih =>
    simp only [report] at h
    cases hp : l.print st with
    | none => simp [hp] at h
    | some a =>
      cases hr : report L st with
      | none => simp [hp, hr] at h
      | some b =>
        simp only [hp, hr, Option.bind_some, Option.map_some, Option.some.injEq] at h
        subst h
        have ha : p ∈ a ↔ l.shown st = true ∧ p = (l.name, l.ok st) := by
          unfold CLine.print at hp
          by_cases hs : l.shown st = true
          · simp only [hs, if_true] at hp
            split at hp
            · simp only [Option.some.injEq] at hp; subst hp; simp [hs]
            · split at hp
              · simp only [Option.some.injEq] at hp; subst hp; simp [hs]
              · simp at hp
          · simp only [hs] at hp
            simp at hp; subst hp; simp [hs]
        simp only [List.mem_append, ha, ih hr, List.mem_cons, exists_eq_or_imp]

theorem print_range {l : CLine} {st : Store} (h : (l.print st).isSome) (hs : l.shown st = true) {k : Nat}
    (hk : l.names = some k) : 0 ≤ st l.name ∧ st l.name < k := by
  unfold CLine.print at h
  simp only [hs, if_true, hk] at h
  by_contra hc
  simp [hc] at h

theorem print_isSome_enum (n : String) (k : Nat) (st : Store) :
    ((enumLine n k).print st).isSome ↔ 0 ≤ st n ∧ st n < k := by
  simp only [CLine.print, enumLine, if_true]
  by_cases h : 0 ≤ st n ∧ st n < k
  · simp [h]
  · simp only [h, if_false]
    simp

/-- **C155, when the report is printed**: exactly when every enumeration parameter holds one of its values. For
any other value of one of them `CheckParams` reads a string outside an array; no "NO" is printed for it. -/
theorem C155_defined (c : Cls) (st : Store) :
    (checkParams c st).isSome ↔ ∀ e ∈ c.enums, st e.1 ∈ Set.Ico (0 : Rat) e.2 := by
  rw [checkParams, report_isSome]
  cases c <;>
    simp [Cls.lines, Cls.enums, lSMLS, lSMTR, lSM, lSolvers, lNSM, lNSMSubLS, lNSMPGLS, lQN, lMem, lRCG, lRNewton,
      enumLine, CLine.print, Set.mem_Ico] <;> grind

/-- **C155, verdicts**: a line says "YES" exactly when the value is legal, except for the line of `useRand` of
`RNewton`. -/
theorem C155_verdict {c : Cls} {st : Store} {r : List (String × Bool)} (h : checkParams c st = some r) {n : String}
    {b : Bool} (hm : (n, b) ∈ r) (hex : ¬ (c = .RNewton ∧ n = "useRand")) :
    b = true ↔ legal c.kind (c = .RNewton) n st := by
  have hs := (report_isSome c.lines st).mp (by rw [show report c.lines st = some r from h]; rfl)
  rw [report_mem h] at hm
  obtain ⟨l, hl, hsh, he⟩ := hm
  have hrange := fun k => print_range (hs l hl) hsh (k := k)
  simp only [Prod.mk.injEq] at he
  obtain ⟨rfl, rfl⟩ := he
  clear hs h hsh
  cases c <;>
    simp only [Cls.lines, lSMLS, lSMTR, lSM, lSolvers, lNSM, lNSMSubLS, lNSMPGLS, lQN, lMem, lRCG, lRNewton,
      enumLine, List.mem_append, List.mem_cons, List.not_mem_nil, or_false, or_assoc] at hl <;>
    (repeat' (rcases hl with hl | hl)) <;> (try subst hl) <;>
    simp [legal, Cls.kind] at hrange hex ⊢ <;> grind

/-- **C155 is false for enumeration parameters**: whatever the parameters, no report contains a "NO" for one of
them. -/
theorem C155_never_no {c : Cls} {st : Store} {r : List (String × Bool)} (h : checkParams c st = some r)
    {e : String × Nat} (he : e ∈ c.enums) {b : Bool} (hm : (e.1, b) ∈ r) : b = true := by
  have hd := (C155_defined c st).mp (by rw [h]; rfl) e he
  rw [C155_verdict h hm (by rintro ⟨rfl, h2⟩; simp [Cls.enums] at he; grind)]
  revert he hd
  clear h hm
  cases c <;> simp only [Cls.enums, List.mem_cons, List.not_mem_nil, or_false] <;> intro he hd <;>
    (repeat' (rcases he with he | he)) <;> (try subst he) <;> simpa [legal] using hd

/-- **C155 is false for `useRand` of `RNewton`**: both of its values are legal, yet the line says "NO" whenever `kappa`
is out of range. -/
theorem C155_newton_useRand {st : Store} {r : List (String × Bool)} (h : checkParams .RNewton st = some r) {b : Bool}
    (hm : ("useRand", b) ∈ r) : b = true ↔ st "kappa" ∈ Set.Ioo (0 : Rat) 1 := by
  rw [report_mem h] at hm
  obtain ⟨l, hl, -, he⟩ := hm
  simp only [Prod.mk.injEq] at he
  obtain ⟨hn, rfl⟩ := he
  simp only [Cls.lines, lSMLS, lSM, lSolvers, lRNewton, enumLine, List.mem_append, List.mem_cons, List.not_mem_nil,
    or_false, or_assoc] at hl
  (repeat' (rcases hl with hl | hl)) <;> (try subst hl) <;> simp at hn ⊢

/-- The names a chain of `SetParams` functions recognises. -/
def recognised (T : List Table) : List String := T.flatten.map (·.1)

/-- **C155, coverage**: the report has a line for exactly the parameters that `SetParams` of the class recognises;
only the flag of the user-supplied line search is left out unless that search is chosen. -/
theorem C155_covers {c : Cls} {T : List Table} (hT : c.chain = some T) {st : Store} {r : List (String × Bool)}
    (h : checkParams c st = some r) (n : String) :
    (∃ b, (n, b) ∈ r) ↔ n ∈ recognised T ∧ (n = "IsPureLSInput" → st "LineSearch_LS" = 4) := by
  have e : (∃ b, (n, b) ∈ r) ↔ ∃ l ∈ c.lines, l.shown st = true ∧ n = l.name := by
    simp only [report_mem h, Prod.mk.injEq]
    constructor
    · rintro ⟨b, l, h1, h2, h3, h4⟩; exact ⟨l, h1, h2, h3⟩
    · rintro ⟨l, h1, h2, h3⟩; exact ⟨_, l, h1, h2, h3, rfl⟩
  rw [e]
  clear e h
  have hs : ∀ l ∈ c.lines, l.shown st = true ↔ (l.name = "IsPureLSInput" → st "LineSearch_LS" = 4) := by
    intro l hl
    cases c <;> simp only [Cls.chain, reduceCtorEq] at hT <;>
      simp only [Cls.lines, lSMLS, lSMTR, lSM, lSolvers, lNSM, lNSMPGLS, lQN, lMem, lRNewton, enumLine,
        List.mem_append, List.mem_cons, List.not_mem_nil, or_false, or_assoc] at hl <;>
      (repeat' (rcases hl with hl | hl)) <;> (try subst hl) <;> simp
  have hm : (∀ m ∈ c.lines.map (·.name), m ∈ recognised T) ∧ ∀ m ∈ recognised T, m ∈ c.lines.map (·.name) := by
    cases c <;> simp only [Cls.chain, Option.some.injEq, reduceCtorEq] at hT <;> subst hT <;> decide
  constructor
  · rintro ⟨l, hl, h1, rfl⟩
    exact ⟨hm.1 _ (List.mem_map.mpr ⟨l, hl, rfl⟩), (hs l hl).mp h1⟩
  · rintro ⟨h1, h2⟩
    obtain ⟨l, hl, rfl⟩ := List.mem_map.mp (hm.2 _ h1)
    exact ⟨l, hl, (hs l hl).mpr h2, rfl⟩

/-! ## Reports without a "NO" -/

/-- The report is complete and every line says "YES". -/
def AllYes (c : Cls) (st : Store) : Prop := ∃ r, checkParams c st = some r ∧ ∀ p ∈ r, p.2 = true

theorem allYes_iff (c : Cls) (st : Store) :
    AllYes c st ↔ (∀ e ∈ c.enums, st e.1 ∈ Set.Ico (0 : Rat) e.2) ∧
      ∀ l ∈ c.lines, l.shown st = true → l.ok st = true := by
  constructor
  · rintro ⟨r, h, hy⟩
    refine ⟨(C155_defined c st).mp (by rw [h]; rfl), fun l hl hs => ?_⟩
    exact hy (l.name, l.ok st) ((report_mem h _).mpr ⟨l, hl, hs, rfl⟩)
  · rintro ⟨hd, hl⟩
    obtain ⟨r, h⟩ := Option.isSome_iff_exists.mp ((C155_defined c st).mpr hd)
    refine ⟨r, h, fun p hp => ?_⟩
    obtain ⟨l, h1, h2, h3⟩ := (report_mem h p).mp hp
    rw [h3]
    exact hl l h1 h2

/-- The parameters of the Armijo searches, as the code reads them. -/
def lsOf (st : Store) : LSParams Rat :=
  { alpha := st "LS_alpha", beta := st "LS_beta", r1 := st "LS_ratio1", r2 := st "LS_ratio2",
    minStep := st "Minstepsize", maxStep := st "Maxstepsize", numPre := (st "Num_pre_funs").floor.toNat }

/-- The parameters of the trust-region loop, as the code reads them. -/
def trOf (st : Store) (record : Bool) (sqeps : Rat) : TRRun.Cfg Rat :=
  { maxIter := (st "Max_Iteration").floor.toNat, minIter := (st "Min_Iteration").floor.toNat,
    outputGap := (st "OutputGap").floor.toNat, record := record, initialDelta := st "initial_Delta",
    maximumDelta := st "maximum_Delta", minimumDelta := st "minimum_Delta", magnified := st "Magnified_tau",
    shrinked := st "Shrinked_tau", acceptRho := st "Acceptence_Rho", accuracy := st "Accuracy",
    tolerance := st "Tolerance", sqeps := sqeps }

/-- The parameters of the search of the proximal-gradient solvers. -/
def pgOf (st : Store) : PG.LSCfg Rat :=
  { alpha := st "LS_alpha", ratio := st "LS_ratio", minStep := st "Minstepsize" }

theorem allYes_ls {c : Cls} {st : Store} (h : AllYes c st) (hk : c.kind = .ls) :
    0 < st "LS_alpha" ∧ st "LS_alpha" < 1 / 2 ∧ st "LS_alpha" < st "LS_beta" ∧ st "LS_beta" < 1 ∧
    0 < st "LS_ratio1" ∧ st "LS_ratio1" ≤ st "LS_ratio2" ∧ st "LS_ratio2" < 1 ∧ 0 < st "Minstepsize" ∧
    st "Minstepsize" ≤ st "Maxstepsize" ∧ 1 ≤ st "Num_pre_funs" := by
  have h2 := ((allYes_iff c st).mp h).2
  cases c <;> simp only [Cls.kind, reduceCtorEq] at hk <;>
    simp only [Cls.lines, lSMLS, enumLine, List.forall_mem_append, List.forall_mem_cons] at h2 <;>
    simp at h2 <;> grind

theorem allYes_tr {c : Cls} {st : Store} (h : AllYes c st) (hk : c.kind = .tr) :
    0 < st "initial_Delta" ∧ 0 < st "Acceptence_Rho" ∧ st "Acceptence_Rho" < 1 / 4 ∧ 0 < st "Shrinked_tau" ∧
    st "Shrinked_tau" < 1 ∧ 1 < st "Magnified_tau" ∧ 0 < st "minimum_Delta" ∧
    st "minimum_Delta" ≤ st "maximum_Delta" := by
  have h2 := ((allYes_iff c st).mp h).2
  cases c <;> simp only [Cls.kind, reduceCtorEq] at hk <;>
    simp only [Cls.lines, lSMTR, enumLine, List.forall_mem_append, List.forall_mem_cons] at h2 <;>
    simp at h2 <;> grind

theorem allYes_prox {c : Cls} {st : Store} (h : AllYes c st) (hk : c.kind = .prox) :
    0 < st "LS_ratio" ∧ st "LS_ratio" < 1 ∧ 0 < st "Minstepsize" ∧ 0 < st "LS_alpha" ∧ st "LS_alpha" < 1 := by
  have h2 := ((allYes_iff c st).mp h).2
  cases c <;> simp only [Cls.kind, reduceCtorEq] at hk <;>
    simp only [Cls.lines, lNSMPGLS, enumLine, List.forall_mem_append, List.forall_mem_cons] at h2 <;>
    simp at h2 <;> grind

/-- **C155, Armijo search**: after a report without a "NO" every Armijo search of a smooth line-search solver ends,
whatever the objective, and the constants are in the order the Wolfe conditions need. -/
theorem C155_armijo {c : Cls} {st : Store} (h : AllYes c st) (hk : c.kind = .ls) (φ : Ray Rat) (I : Interp Rat)
    (pre : List Rat) (s0 : Search Rat) (hp : 0 < s0.step) :
    (∃ fuel r, armijo (lsOf st) φ I pre fuel s0 = some r) ∧ 0 < (lsOf st).alpha ∧ (lsOf st).alpha < 1 / 2 ∧
      (lsOf st).alpha < (lsOf st).beta ∧ (lsOf st).beta < 1 ∧ 1 ≤ (lsOf st).numPre := by
  obtain ⟨h1, h2, h3, h4, h5, h6, h7, h8, h9, h10⟩ := allYes_ls h hk
  refine ⟨C15_armijo_terminates _ φ I pre s0 h5 (lt_of_le_of_lt h6 h7) h7 h8 hp, h1, h2, h3, h4, ?_⟩
  have : (1 : Int) ≤ (st "Num_pre_funs").floor := Int.le_floor.mpr (by exact_mod_cast h10)
  simp only [lsOf]
  omega

/-- **C155, proximal gradient**: after a report without a "NO" the line search ends after a number of trials that
does not depend on the objective. -/
theorem C155_prox {c : Cls} {st : Store} (h : AllYes c st) (hk : c.kind = .prox) :
    ∃ n, ∀ (phi : Rat → Rat) (f1 slope : Rat), ∃ r, PG.armijo (pgOf st) phi f1 slope n 1 = some r := by
  obtain ⟨h1, h2, h3, h4, h5⟩ := allYes_prox h hk
  exact PG.C54_terminates (pgOf st) h1.le h2 h3

/-- **C155, radius**: after a report without a "NO", and if the initial radius is between the bounds, the radius
stays between them in every run. -/
theorem C155_radius {c : Cls} {st : Store} (h : AllYes c st) (hk : c.kind = .tr) (rec : Bool) (sq : Rat) {X : Type}
    {E : TRRun.Env Rat X} {s : TRRun.St Rat X} (hr : TRRun.Reaches (trOf st rec sq) E s)
    (hi : st "initial_Delta" ∈ Set.Icc (st "minimum_Delta") (st "maximum_Delta")) :
    s.Delta ∈ Set.Icc (st "minimum_Delta") (st "maximum_Delta") := by
  obtain ⟨h1, h2, h3, h4, h5, h6, h7, h8⟩ := allYes_tr h hk
  exact TRRun.C19_radius_bounds_partial hr h7.le hi.1 hi.2 ⟨h4.le, h5.le⟩ h6.le

/-- **C155 does not compare the initial radius with the bounds**: from any parameters with a report without a "NO" one
gets others, with a report without a "NO", for which every run starts with a radius above the maximum. -/
theorem C155_radius_gap {c : Cls} {st : Store} (h : AllYes c st) (hk : c.kind = .tr) :
    ∃ v, AllYes c (over [("initial_Delta", v)] st) ∧ ∀ (rec : Bool) (sq : Rat) (X : Type) (E : TRRun.Env Rat X),
      ∃ s, TRRun.Reaches (trOf (over [("initial_Delta", v)] st) rec sq) E s ∧ st "maximum_Delta" < s.Delta := by
  obtain ⟨h1, h2, h3, h4, h5, h6, h7, h8⟩ := allYes_tr h hk
  refine ⟨st "maximum_Delta" + 1, ?_, fun rec sq X E => ?_⟩
  · rw [allYes_iff] at h ⊢
    cases c <;> simp only [Cls.kind, reduceCtorEq] at hk <;>
      simp only [Cls.lines, Cls.enums, lSMTR, lSM, lSolvers, lMem, enumLine, List.forall_mem_append, List.forall_mem_cons] at h ⊢ <;>
      simp [over] at h ⊢ <;> grind
  · obtain ⟨s, hs, hg, -⟩ := TRRun.C19_initial_radius_not_clamped
      (trOf (over [("initial_Delta", st "maximum_Delta" + 1)] st) rec sq) E (by simp [trOf, over])
    exact ⟨s, hs, by simpa [trOf, over] using hg⟩

/-- **C155 does not compare the two line-search constants of the subgradient solvers**: from any parameters with a
report without a "NO" one gets others, with such a report, whose curvature constant is below the decrease constant. -/
theorem C155_sub_gap {c : Cls} {st : Store} (h : AllYes c st) (hk : c.kind = .sub) :
    ∃ v, AllYes c (over [("LS_beta", v)] st) ∧ v < st "LS_alpha" := by
  have ha : 0 < st "LS_alpha" ∧ st "LS_alpha" < 1 := by
    have h2 := ((allYes_iff c st).mp h).2
    cases c <;> simp only [Cls.kind, reduceCtorEq] at hk <;>
      simp only [Cls.lines, lNSMSubLS, enumLine, List.forall_mem_append, List.forall_mem_cons] at h2 <;>
    simp at h2 <;> grind
  refine ⟨st "LS_alpha" / 2, ?_, by linarith⟩
  rw [allYes_iff] at h ⊢
  have hb : 0 < st "LS_alpha" / 2 ∧ st "LS_alpha" / 2 < 1 := ⟨by linarith, by linarith⟩
  generalize st "LS_alpha" / 2 = v at hb
  cases c <;> simp only [Cls.kind, reduceCtorEq] at hk <;>
    simp only [Cls.lines, Cls.enums, lNSMSubLS, lNSM, lSolvers, enumLine, List.forall_mem_append, List.forall_mem_cons] at h ⊢ <;>
      simp [over] at h ⊢ <;> grind

theorem allYes_of_all {c : Cls} {st : Store}
    (h : (checkParams c st).map (fun r => r.all (·.2)) = some true) : AllYes c st := by
  obtain ⟨r, h1, h2⟩ := Option.map_eq_some_iff.mp h
  exact ⟨r, h1, by simpa using h2⟩

theorem allYes_sub {c : Cls} {st : Store} (d : Nat) (hk : c.kind = .sub) (hst : AllYes c st) :
    AllYes c (over [("NumExtraGF", d)] st) ↔ 0 < d := by
  rw [allYes_iff] at hst ⊢
  cases c <;> simp only [Cls.kind, reduceCtorEq] at hk <;>
    simp only [Cls.lines, Cls.enums, lNSMSubLS, lNSM, lSolvers, enumLine, List.forall_mem_append,
      List.forall_mem_cons] at hst ⊢ <;>
    simp [over] at hst ⊢ <;> grind

/-- **C155, defaults**: a new object gets a report without a "NO", unless it is a subgradient solver on a domain of
dimension 0. -/
theorem C155_defaults (c : Cls) (d : Nat) : AllYes c (c.defaults d) ↔ (c.kind = .sub → 0 < d) := by
  have hsub : ∀ c : Cls, c.kind = .sub → c.defaults d = over [("NumExtraGF", (d : Rat))] (c.defaults 1) := by
    intro c hk
    funext n
    by_cases hn : "NumExtraGF" = n
    · subst hn
      cases c <;> simp only [Cls.kind, reduceCtorEq] at hk <;> simp [Cls.defaults, dNSMSubLS, over]
    · cases c <;> simp only [Cls.kind, reduceCtorEq] at hk <;> simp only [Cls.defaults, dNSMSubLS, over, hn, if_false]
  by_cases hk : c.kind = .sub
  · have h1 : AllYes c (c.defaults 1) := by
      cases c <;> simp only [Cls.kind, reduceCtorEq] at hk <;> exact allYes_of_all (by decide +kernel)
    rw [hsub c hk, allYes_sub d hk h1]
    simp [hk]
  · have h0 : c.defaults d = c.defaults 1 := by
      cases c <;> first | rfl | exact absurd rfl hk
    rw [h0]
    refine ⟨fun _ h => absurd h hk, fun _ => ?_⟩
    cases c <;> exact allYes_of_all (by decide +kernel)

/-- **C155 and `SetParams` of the proximal-gradient solvers**: whatever value a map gives to the backtracking ratio or
to the decrease constant, the next report says "NO" for it: `SetParams` stores an integer and the legal values lie
strictly between 0 and 1. -/
theorem C155_prox_set (params : List (String × Rat)) (hd : (params.map (·.1)).Nodup) (st : Store) {n : String}
    (hn : n ∈ ["LS_ratio", "LS_alpha"]) {v : Rat} (hv : lookupParam params n = some v) {c : Cls} {T : List Table}
    (hk : c.kind = .prox) (hT : c.chain = some T) {r : List (String × Bool)}
    (h : checkParams c (setParams T params st) = some r) {b : Bool} (hm : (n, b) ∈ r) : b = false := by
  have hz : ∃ z : Int, setParams T params st n = z := by
    rw [C29_set_params _ _ _ hd, hv]
    have hc : chainCast T n = some .int := by
      simp only [List.mem_cons, List.not_mem_nil, or_false] at hn
      cases c <;> simp only [Cls.kind, reduceCtorEq] at hk <;> simp only [Cls.chain, Option.some.injEq] at hT <;>
        subst hT <;> rcases hn with rfl | rfl <;> decide
    rw [hc]
    exact ⟨trunc v, rfl⟩
  obtain ⟨z, hz⟩ := hz
  cases b with
  | false => rfl
  | true =>
    have := (C155_verdict h hm (by rintro ⟨rfl, -⟩; simp [Cls.kind] at hk)).mp rfl
    simp only [List.mem_cons, List.not_mem_nil, or_false] at hn
    rw [hk] at this
    have h2 : 0 < setParams T params st n ∧ setParams T params st n < 1 := by
      rcases hn with rfl | rfl <;> simpa [legal] using this
    rw [hz] at h2
    have h3 : (0 : Int) < z := by exact_mod_cast h2.1
    have h4 : z < (1 : Int) := by exact_mod_cast h2.2
    omega

/-! ## Examples -/

/-- The default parameters of a quasi-Newton solver: the report is complete and has no "NO". -/
example : AllYes .LRBFGS (Cls.LRBFGS.defaults 5) := (C155_defaults _ _).mpr (by simp [Cls.kind])

/-- Default trust-region and subgradient parameters meet the assumptions of the two gaps. -/
example : AllYes .RTR (Cls.RTR.defaults 5) ∧ AllYes .LRBFGSSub (Cls.LRBFGSSub.defaults 5) :=
  ⟨(C155_defaults _ _).mpr (by simp [Cls.kind]), (C155_defaults _ _).mpr (by simp)⟩

/-- A stopping criterion out of range: the report ends in undefined behaviour. -/
example : checkParams .RSD (over [("Stop_Criterion", 3)] (Cls.RSD.defaults 5)) = none := by decide +kernel

/-- The number after the last conjugate-gradient method passes the test and is read out of bounds all the same. -/
example : (lRCG.map fun l => l.ok (over [("RCGmethod", 6)] (Cls.RCG.defaults 5))) = [true] ∧
    checkParams .RCG (over [("RCGmethod", 6)] (Cls.RCG.defaults 5)) = none := by decide +kernel

/-- An illegal `kappa` of `RNewton` gives two lines with "NO". -/
example : (checkParams .RNewton (over [("kappa", 2)] (Cls.RNewton.defaults 5))).map
    (fun r => r.filter (fun p => !p.2)) = some [("kappa", false), ("useRand", false)] := by decide +kernel

/-- A legal ratio given to `ManPG`: the report says "NO". -/
example : (checkParams .ManPG (setParams chainManPG [("LS_ratio", 1 / 4)] (Cls.ManPG.defaults 5))).map
    (fun r => r.filter (fun p => !p.2)) = some [("LS_ratio", false)] := by decide +kernel

end Verif.Solver
