import Verif.Solver.ObjectAPG
import Verif.Props.ObjectPG

/-!
# C144, C145: what the counters and the reported values of the accelerated proximal-gradient solver mean

C144: calls that are not counted, order of the calls, values belonging to the returned point. C145: the relative-change test and the safeguard.
-/

namespace Verif.Obj

variable {K X E : Type*} [Add K] [Sub K] [Mul K] [Div K] [Neg K] {env : APGEnv K X E} {cfg : APGCfg K X}

/-! ## Specification -/

/-- Numbers of function values, gradients and retractions in a list of calls. -/
def numF (l : List (PGAsk X E)) : Nat := l.countP fun a => match a with | .f _ => true | _ => false
def numG (l : List (PGAsk X E)) : Nat := l.countP fun a => match a with | .grad _ => true | _ => false
def numR (l : List (PGAsk X E)) : Nat := l.countP fun a => match a with | .retr _ _ => true | _ => false

/-- Every gradient in a list of calls (newest first) is asked for right after the function value at the same point. -/
def GradAfterF : List (PGAsk X E) → Prop
  | .grad x :: l => (∃ l', l = .f x :: l') ∧ GradAfterF l
  | _ :: l => GradAfterF l
  | [] => True

/-- The calls a problem and a retraction answer. -/
structure PGCalls (K X E : Type*) where
  f : X → K
  grad : X → E
  retr : X → E → X
  invRetr : X → X → E

/-- The environment with other answers. -/
def APGEnv.withCalls (env : APGEnv K X E) (c : PGCalls K X E) : APGEnv K X E :=
  { env with f := c.f, grad := c.grad, retr := c.retr, invRetr := c.invRetr }

/-- The answer of `c` to a call is that of the environment. -/
def PGAsk.Same (env : APGEnv K X E) (c : PGCalls K X E) : PGAsk X E → Prop
  | .f x => c.f x = env.f x
  | .grad x => c.grad x = env.grad x
  | .retr x v => c.retr x v = env.retr x v
  | .inv x y => c.invRetr x y = env.invRetr x y

/-- The answers of `c` to the calls of the list are those of the environment. -/
def PGAgree (env : APGEnv K X E) (c : PGCalls K X E) (l : List (PGAsk X E)) : Prop := ∀ a ∈ l, a.Same env c

/-! ## The search -/

theorem apgBacktrack_spec {cfg : PGCfg K X} {x1 : X} {f1 slope : K} {eta1 : E} {l0 : List (PGAsk X E)} : ∀ (n : Nat) (s s' : PGSearch K X E × List (PGAsk X E)),
    apgBacktrack env cfg x1 f1 slope eta1 n s = some s' → s.1.f2 = env.f s.1.x2 → (∃ l, s.2 = .f s.1.x2 :: l) →
    numF s.2 = numF l0 + s.1.trials → numG s.2 = numG l0 → numR s.2 = numR l0 + s.1.trials → GradAfterF s.2 →
    s'.1.f2 = env.f s'.1.x2 ∧ (∃ l, s'.2 = .f s'.1.x2 :: l) ∧ numF s'.2 = numF l0 + s'.1.trials ∧ numG s'.2 = numG l0 ∧ numR s'.2 = numR l0 + s'.1.trials ∧
      GradAfterF s'.2
  | 0, _, _, h => by cases h
  | n + 1, s, s', h => by
    intro h1 h2 h3 h4 h5 h6
    unfold apgBacktrack at h
    split at h
    · simp only at h
      split at h
      · rw [← Option.some.inj h]; exact ⟨h1, h2, h3, h4, h5, h6⟩
      · refine apgBacktrack_spec n _ s' h rfl ⟨_, rfl⟩ ?_ ?_ ?_ ?_
        · simp only [apgTrial, numF, List.countP_cons] at h3 ⊢; simp [h3]; omega
        · simp only [apgTrial, numG, List.countP_cons] at h4 ⊢; simp [h4]
        · simp only [apgTrial, numR, List.countP_cons] at h5 ⊢; simp [h5]; omega
        · simpa [apgTrial, GradAfterF] using h6
    · rw [← Option.some.inj h]; exact ⟨h1, h2, h3, h4, h5, h6⟩

/-- The value the search leaves behind is that of its candidate. -/
theorem apgBacktrack_value {cfg : PGCfg K X} {x1 : X} {f1 slope : K} {eta1 : E} : ∀ (n : Nat) (s s' : PGSearch K X E × List (PGAsk X E)),
    apgBacktrack env cfg x1 f1 slope eta1 n s = some s' → s.1.f2 = env.f s.1.x2 → s'.1.f2 = env.f s'.1.x2
  | 0, _, _, h => by cases h
  | n + 1, s, s', h => by
    intro h1
    unfold apgBacktrack at h
    split at h
    · simp only at h
      split at h
      · rw [← Option.some.inj h]; exact h1
      · exact apgBacktrack_value n _ s' h rfl
    · rw [← Option.some.inj h]; exact h1

/-- What the search leaves behind when started by a pass. -/
theorem apgSearch_spec {cfg : PGCfg K X} {x1 : X} {f1 slope : K} {eta1 : E} {n : Nat} {l0 : List (PGAsk X E)} {s : PGSearch K X E × List (PGAsk X E)}
    (h : apgBacktrack env cfg x1 f1 slope eta1 n (apgTrial env x1 eta1 (env.lit 1 1) 0 l0) = some s) (hl : GradAfterF l0) :
    s.1.f2 = env.f s.1.x2 ∧ (∃ l, s.2 = .f s.1.x2 :: l) ∧ numF s.2 = numF l0 + s.1.trials ∧ numG s.2 = numG l0 ∧ numR s.2 = numR l0 + s.1.trials ∧ GradAfterF s.2 := by
  refine apgBacktrack_spec n _ s h rfl ⟨_, rfl⟩ ?_ ?_ ?_ ?_
  · simp [apgTrial, numF, List.countP_cons]
  · simp [apgTrial, numG, List.countP_cons]
  · simp [apgTrial, numR, List.countP_cons]
  · simpa [apgTrial, GradAfterF] using hl

/-! ## The invariant of the loop -/

/-- Counters, order of calls and the values that belong to points; `o0` are the members before the run. -/
structure APGInv (env : APGEnv K X E) (o0 o : APGObj K X E) : Prop where
  nf : numF o.log + o0.pg.cnt.nf = numF o0.log + o.pg.cnt.nf + 2 * o.pg.iter
  ng : numG o.log + o0.pg.cnt.ng = numG o0.log + o.pg.cnt.ng + o.pg.iter
  nR : numR o.log + o0.pg.cnt.nR = numR o0.log + o.pg.cnt.nR + 2 * o.pg.iter
  order : GradAfterF o.log
  f1 : o.pg.f1 = env.f o.pg.x1
  gf1 : o.pg.gf1 = env.grad o.pg.x1
  gfy1 : o.gfy1 = env.grad o.y1

/-- Between two passes `fz2` is the value at `z1`; before the first iteration the points of the acceleration are the start. -/
structure APGTail (env : APGEnv K X E) (o0 o : APGObj K X E) : Prop where
  fz2 : o.pg.iter ≠ 0 → o.fz2 = env.f o.z1
  start : o.pg.iter = 0 → o.z1 = o0.pg.x1 ∧ o.pg.x1 = o0.pg.x1

/-- The values recorded last are those of the last search, and the returned value is related to them. -/
structure APGFresh (env : APGEnv K X E) (gap : Nat) (o : APGObj K X E) : Prop where
  head : o.pg.iter ≠ 0 → o.pg.series.head? = some (o.pg.f2, o.pg.ndir1, o.pg.stepsize) ∧ o.pg.f2 = env.f o.pg.x2
  long : gap < o.pg.iter → env.lt o.pg.f2 o.pg.f1 = false

theorem apgPrologue_inv (o : APGObj K X E) (h : GradAfterF o.log) (gap : Nat) :
    APGInv env o (apgPrologue env o) ∧ APGTail env o (apgPrologue env o) ∧ APGFresh env gap (apgPrologue env o) := by
  refine ⟨⟨?_, ?_, ?_, ?_, rfl, rfl, rfl⟩, ⟨fun h => absurd rfl h, fun _ => ⟨rfl, rfl⟩⟩, ⟨fun h => absurd rfl h, fun h => absurd h (by simp [apgPrologue, pgPrologue])⟩⟩
  · simp [apgPrologue, pgPrologue, numF, List.countP_cons]; omega
  · simp [apgPrologue, pgPrologue, numG, List.countP_cons]; omega
  · simp [apgPrologue, pgPrologue, numR, List.countP_cons]
  · exact ⟨⟨_, rfl⟩, h⟩

/-- What an accelerated step does not change. -/
structure APGKeeps (o o' : APGObj K X E) : Prop where
  x1 : o'.pg.x1 = o.pg.x1
  f1 : o'.pg.f1 = o.pg.f1
  f2 : o'.pg.f2 = o.pg.f2
  x2 : o'.pg.x2 = o.pg.x2
  ndir1 : o'.pg.ndir1 = o.pg.ndir1
  iter : o'.pg.iter = o.pg.iter + 1
  success : o'.pg.success = o.pg.success
  head : o'.pg.series.head? = some (o'.pg.f2, o'.pg.ndir1, o'.pg.stepsize)

theorem apgAccel_inv {o0 o o' : APGObj K X E} {st : Bool} (h : apgAccel env cfg o = .next st o') (hI : APGInv env o0 o) :
    APGInv env o0 o' ∧ APGTail env o0 o' ∧ APGKeeps o o' := by
  unfold apgAccel at h
  split at h
  · cases h
  · simp only [APGPass.next.injEq] at h
    obtain ⟨-, rfl⟩ := h
    obtain ⟨h1, h2, h3, h4, h5, h6, h7⟩ := hI
    refine ⟨⟨?_, ?_, ?_, ?_, h5, h6, rfl⟩, ⟨fun _ => rfl, fun h => absurd h (Nat.succ_ne_zero _)⟩, ⟨rfl, rfl, rfl, rfl, rfl, rfl, rfl, rfl⟩⟩
    · simp only [numF, List.countP_cons] at h1 ⊢; simp; omega
    · simp only [numG, List.countP_cons] at h2 ⊢; simp; omega
    · simp only [numR, List.countP_cons] at h3 ⊢; simp; omega
    · exact ⟨⟨_, rfl⟩, h4⟩

theorem apgAccel_next (o : APGObj K X E) : apgAccel env cfg o = .ub ∨ ∃ st o', apgAccel env cfg o = .next st o' := by
  unfold apgAccel
  split
  · exact Or.inl rfl
  · exact Or.inr ⟨_, _, rfl⟩

/-- The safeguard moves to the better of the candidate and the accelerated iterate. -/
theorem apgGuard_inv {o0 o : APGObj K X E} (hirr : ∀ a, env.lt a a = false) (hI : APGInv env o0 o) (hT : APGTail env o0 o) (hgf : o.pg.gf2 = env.grad o.pg.x2)
    (hf2 : o.pg.f2 = env.f o.pg.x2) :
    APGInv env o0 (apgGuard env o) ∧ (apgGuard env o).pg.f2 = o.pg.f2 ∧ (apgGuard env o).pg.x2 = o.pg.x2 ∧ (apgGuard env o).pg.iter = o.pg.iter ∧
      (o.pg.iter = 0 → (apgGuard env o).pg.x1 = o0.pg.x1) ∧ (o.pg.iter ≠ 0 → env.lt (apgGuard env o).pg.f2 (apgGuard env o).pg.f1 = false) ∧
      (apgRestarts env o = true → (apgGuard env o).pg.f1 = o.pg.f2 ∧ (apgGuard env o).pg.x1 = o.pg.x2) := by
  obtain ⟨h1, h2, h3, h4, h5, h6, h7⟩ := hI
  have hnf : ∀ (z : X) (l : List (PGAsk X E)), numF (PGAsk.grad z :: PGAsk.f z :: l) = numF l + 1 := by
    intro z l; simp [numF, List.countP_cons]
  have hng : ∀ (z : X) (l : List (PGAsk X E)), numG (PGAsk.grad z :: PGAsk.f z :: l) = numG l + 1 := by
    intro z l; simp [numG, List.countP_cons]
  have hnR : ∀ (z : X) (l : List (PGAsk X E)), numR (PGAsk.grad z :: PGAsk.f z :: l) = numR l := by
    intro z l; simp [numR, List.countP_cons]
  unfold apgGuard
  by_cases hr : apgRestarts env o = true
  · rw [if_pos hr]
    refine ⟨⟨?_, ?_, ?_, ?_, rfl, rfl, hgf⟩, rfl, rfl, rfl, fun h0 => ?_, fun _ => ?_, fun _ => ⟨hf2.symm, rfl⟩⟩
    · simp only [hnf]; omega
    · simp only [hng]; omega
    · simp only [hnR]; omega
    · exact ⟨⟨_, rfl⟩, h4⟩
    · simp [apgRestarts, h0] at hr
    · simp only; rw [← hf2]; exact hirr _
  · rw [if_neg hr]
    refine ⟨⟨?_, ?_, ?_, ?_, rfl, rfl, h7⟩, rfl, rfl, rfl, fun h0 => (hT.start h0).1, fun h0 => ?_, fun h => absurd h hr⟩
    · simp only [hnf]; omega
    · simp only [hng]; omega
    · simp only [hnR]; omega
    · exact ⟨⟨_, rfl⟩, h4⟩
    · simp only
      rw [← hT.fz2 h0]
      have : apgRestarts env o = false := by simpa using hr
      simpa [apgRestarts, h0] using this

/-- The search part of a pass. -/
theorem apgSearched_inv {o0 o : APGObj K X E} {eta1 : E} {d : List K} {i c n : Nat} {s : PGSearch K X E × List (PGAsk X E)} {f1 slope : K}
    (hs : apgBacktrack env cfg.toPGCfg o.pg.x1 f1 slope eta1 n (apgTrial env o.pg.x1 eta1 (env.lit 1 1) 0 o.log) = some s) (hI : APGInv env o0 o)
    (hT : APGTail env o0 o) :
    APGInv env o0 (apgSearched env o eta1 d i c s) ∧ APGTail env o0 (apgSearched env o eta1 d i c s) ∧
      (apgSearched env o eta1 d i c s).pg.gf2 = env.grad (apgSearched env o eta1 d i c s).pg.x2 ∧
      (apgSearched env o eta1 d i c s).pg.f2 = env.f (apgSearched env o eta1 d i c s).pg.x2 := by
  obtain ⟨h1, h2, h3, h4, h5, h6, h7⟩ := hI
  obtain ⟨g1, ⟨l, g2⟩, g3, g4, g5, g6⟩ := apgSearch_spec hs h4
  refine ⟨⟨?_, ?_, ?_, ?_, h5, h6, h7⟩, ⟨hT.fz2, hT.start⟩, rfl, g1⟩
  · have : numF (apgSearched env o eta1 d i c s).log = numF s.2 := by simp [apgSearched, numF, List.countP_cons]
    rw [this, g3]; simp only [apgSearched]; omega
  · have : numG (apgSearched env o eta1 d i c s).log = numG s.2 + 1 := by simp [apgSearched, numG, List.countP_cons]
    rw [this, g4]; simp only [apgSearched]; omega
  · have : numR (apgSearched env o eta1 d i c s).log = numR s.2 := by simp [apgSearched, numR, List.countP_cons]
    rw [this, g5]; simp only [apgSearched]; omega
  · exact ⟨⟨l, g2⟩, g6⟩

/-- One pass: leaving keeps the counters and the returned values; a pass that goes on either refines the subproblem, leaving the point and the iteration number, or makes an iteration. -/
theorem apgPass_inv (hirr : ∀ a, env.lt a a = false) {n : Nat} {st : Bool} {o0 o : APGObj K X E} (hI : APGInv env o0 o) (hT : APGTail env o0 o)
    (hS : o.pg.iter ≤ cfg.gap → o.pg.x1 = o0.pg.x1) (hF : APGFresh env cfg.gap o ∨ o.pg.iter % cfg.gap = 0) :
    (∀ o', apgPass env cfg n st o = .leave o' → APGInv env o0 o' ∧ o'.pg.x1 = o.pg.x1 ∧ o'.pg.iter = o.pg.iter ∧ (o'.pg.success = false ∨ env.finite o'.pg.f2 = false)) ∧
    (∀ st' o', apgPass env cfg n st o = .next st' o' → APGInv env o0 o' ∧ APGTail env o0 o' ∧ (o'.pg.iter ≤ cfg.gap → o'.pg.x1 = o0.pg.x1) ∧
      (APGFresh env cfg.gap o' ∨ (st' = st ∧ o'.pg.iter = o.pg.iter ∧ o'.pg.iter % cfg.gap = 0))) := by
  unfold apgPass
  by_cases hg : cfg.gap = 0
  · rw [if_pos hg]; exact ⟨(fun _ h => by cases h), (fun _ _ h => by cases h)⟩
  rw [if_neg hg]
  by_cases hm : o.pg.iter % cfg.gap = 0
  · rw [if_pos hm]
    cases hp : env.prox o.pg.x1 o.pg.gf1 o.pg.kept.ada o.pg.kept.smTol o.pg.kept.smLam (pgDual env.toPGEnv o.pg.kept) with
    | none => exact ⟨(fun _ h => by cases h), (fun _ _ h => by cases h)⟩
    | some r =>
      obtain ⟨eta1, d, i, c⟩ := r
      simp only
      cases hs : apgBacktrack env cfg.toPGCfg o.pg.x1 o.pg.f1 (env.metric o.pg.x1 o.pg.gf1 eta1) eta1 n (apgTrial env o.pg.x1 eta1 (env.lit 1 1) 0 o.log) with
      | none => exact ⟨(fun _ h => by cases h), (fun _ _ h => by cases h)⟩
      | some s =>
        obtain ⟨hI1, hT1, hgf, hf2⟩ := apgSearched_inv (d := d) (i := i) (c := c) hs hI hT
        simp only
        by_cases hok : s.1.ok = true
        · rw [if_neg (by simp [hok])]
          generalize hq : ({ apgSearched env o eta1 d i c s with pg := { (apgSearched env o eta1 d i c s).pg with kept := { (apgSearched env o eta1 d i c s).pg.kept with
            ada := pgAda env.toPGEnv cfg.toPGCfg (env.eq (apgSearched env o eta1 d i c s).pg.stepsize (apgSearched env o eta1 d i c s).pg.initiallength)
              (apgSearched env o eta1 d i c s).pg.kept.ada } } } : APGObj K X E) = q
          have hIq : APGInv env o0 q := by
            rw [← hq]; exact ⟨hI1.nf, hI1.ng, hI1.nR, hI1.order, hI1.f1, hI1.gf1, hI1.gfy1⟩
          have hTq : APGTail env o0 q := by rw [← hq]; exact ⟨hT1.fz2, hT1.start⟩
          have hgq : q.pg.gf2 = env.grad q.pg.x2 := by rw [← hq]; exact hgf
          have hfq : q.pg.f2 = env.f q.pg.x2 := by rw [← hq]; exact hf2
          have hxq : q.pg.x1 = o.pg.x1 ∧ q.pg.iter = o.pg.iter := by rw [← hq]; exact ⟨rfl, rfl⟩
          by_cases hfin : env.finite q.pg.f2 = true
          · have hc : ¬ ((!env.finite (apgSearched env o eta1 d i c s).pg.f2) = true) := by
              have e : q.pg.f2 = (apgSearched env o eta1 d i c s).pg.f2 := by rw [← hq]
              rw [← e]; simp [hfin]
            rw [if_neg hc]
            obtain ⟨g1, g2, g3, g4, g5, g6, -⟩ := apgGuard_inv hirr hIq hTq hgq hfq
            rcases apgAccel_next (env := env) (cfg := cfg) (apgGuard env q) with h | ⟨st1, o1, h⟩
            · rw [h]; exact ⟨(fun _ h => by cases h), (fun _ _ h => by cases h)⟩
            · rw [h]
              refine ⟨(fun _ h => by cases h), fun st' o' e => ?_⟩
              simp only [APGPass.next.injEq] at e
              obtain ⟨rfl, rfl⟩ := e
              obtain ⟨k1, k2, k3⟩ := apgAccel_inv h g1
              refine ⟨k1, k2, fun hle => ?_, Or.inl ⟨fun _ => ⟨k3.head, ?_⟩, fun hlt => ?_⟩⟩
              · rw [k3.x1]
                apply g5
                have := k3.iter
                rw [g4] at this
                have h0 : q.pg.iter % cfg.gap = 0 := by rw [hxq.2]; exact hm
                by_contra hne
                have hdvd := Nat.le_of_dvd (Nat.pos_of_ne_zero hne) (Nat.dvd_of_mod_eq_zero h0)
                omega
              · rw [k3.f2, k3.x2, g2, g3]; exact hfq
              · rw [k3.f2, k3.f1]
                apply g6
                intro h0
                have := k3.iter
                rw [g4, h0] at this
                omega
          · have hc : (!env.finite (apgSearched env o eta1 d i c s).pg.f2) = true := by
              have e : q.pg.f2 = (apgSearched env o eta1 d i c s).pg.f2 := by rw [← hq]
              rw [← e]; simp [hfin]
            rw [if_pos hc]
            refine ⟨fun o' e => ?_, (fun _ _ h => by cases h)⟩
            simp only [APGPass.leave.injEq] at e
            subst e
            exact ⟨hIq, hxq.1, hxq.2, Or.inr (by simpa using hfin)⟩
        · rw [if_pos (by simp [hok])]
          split
          · refine ⟨fun o' e => ?_, (fun _ _ h => by cases h)⟩
            simp only [APGPass.leave.injEq] at e
            subst e
            exact ⟨hI1, rfl, rfl, Or.inl (by simpa [apgSearched] using hok)⟩
          · refine ⟨(fun _ h => by cases h), fun st' o' e => ?_⟩
            simp only [APGPass.next.injEq] at e
            obtain ⟨rfl, rfl⟩ := e
            exact ⟨⟨hI1.nf, hI1.ng, hI1.nR, hI1.order, hI1.f1, hI1.gf1, hI1.gfy1⟩, ⟨hT1.fz2, hT1.start⟩, hS, Or.inr ⟨rfl, rfl, hm⟩⟩
  · rw [if_neg hm]
    rcases apgAccel_next (env := env) (cfg := cfg) o with h | ⟨st1, o1, h⟩
    · rw [h]; exact ⟨(fun _ h => by cases h), (fun _ _ h => by cases h)⟩
    · rw [h]
      refine ⟨(fun _ h => by cases h), fun st' o' e => ?_⟩
      simp only [APGPass.next.injEq] at e
      obtain ⟨rfl, rfl⟩ := e
      obtain ⟨k1, k2, k3⟩ := apgAccel_inv h hI
      have hF' : APGFresh env cfg.gap o := by
        rcases hF with h | h
        · exact h
        · exact absurd h hm
      have h0 : o.pg.iter ≠ 0 := fun e => hm (by rw [e]; exact Nat.zero_mod _)
      have hne : o.pg.iter ≠ cfg.gap := fun e => hm (by rw [e]; exact Nat.mod_self _)
      refine ⟨k1, k2, fun hle => ?_, Or.inl ⟨fun _ => ⟨k3.head, ?_⟩, fun hlt => ?_⟩⟩
      · rw [k3.x1]; exact hS (by have := k3.iter; omega)
      · rw [k3.f2, k3.x2]; exact (hF'.head h0).2
      · rw [k3.f2, k3.f1]; exact hF'.long (by have := k3.iter; omega)

/-- What holds of the members after a run; `o0` are the members before. -/
structure APGAfter (env : APGEnv K X E) (gap : Nat) (o0 o : APGObj K X E) : Prop where
  inv : APGInv env o0 o
  short : o.pg.iter ≤ gap → o.pg.x1 = o0.pg.x1
  fresh : APGFresh env gap o ∨ o.pg.success = false ∨ env.finite o.pg.f2 = false

theorem apgLoop_after (hirr : ∀ a, env.lt a a = false) {o0 o' : APGObj K X E} : ∀ (n : Nat) (st : Bool) (o : APGObj K X E), APGInv env o0 o → APGTail env o0 o →
    (o.pg.iter ≤ cfg.gap → o.pg.x1 = o0.pg.x1) →
    (APGFresh env cfg.gap o ∨ (o.pg.iter % cfg.gap = 0 ∧ ((!st && decide (o.pg.iter < cfg.maxIter)) || decide (o.pg.iter < cfg.minIter)) = true)) →
    apgLoop env cfg n st o = .done o' → APGAfter env cfg.gap o0 o'
  | 0, _, _, _, _, _, _, h => by cases h
  | n + 1, st, o, hI, hT, hS, hF, h => by
    unfold apgLoop at h
    split at h
    · rename_i hc
      obtain ⟨p1, p2⟩ := apgPass_inv (n := n + 1) (st := st) hirr hI hT hS (hF.imp_right fun h => h.1)
      split at h
      · cases h
      · cases h
      · rename_i o1 hp
        obtain ⟨q1, q2, q3, q4⟩ := p1 o1 hp
        simp only [APGOut.done.injEq] at h
        subst h
        exact ⟨⟨q1.nf, q1.ng, q1.nR, q1.order, q1.f1, q1.gf1, q1.gfy1⟩, fun hle => q2.trans (hS (q3 ▸ hle)), Or.inr q4⟩
      · rename_i st1 o1 hp
        obtain ⟨q1, q2, q3, q4⟩ := p2 st1 o1 hp
        refine apgLoop_after hirr n st1 o1 q1 q2 q3 (q4.imp_right fun hr => ⟨hr.2.2, ?_⟩) h
        rw [hr.1, hr.2.1]; exact hc
    · rename_i hc
      simp only [APGOut.done.injEq] at h
      subst h
      refine ⟨⟨hI.nf, hI.ng, hI.nR, hI.order, hI.f1, hI.gf1, hI.gfy1⟩, hS, Or.inl ?_⟩
      rcases hF with h | h
      · exact ⟨h.head, h.long⟩
      · exact absurd h.2 hc

theorem apgRun_after (hirr : ∀ a, env.lt a a = false) {n : Nat} {o o' : APGObj K X E} (hlog : GradAfterF o.log) (h : apgRun env cfg n o = .done o') :
    APGAfter env cfg.gap o o' := by
  obtain ⟨h1, h2, h3⟩ := apgPrologue_inv (env := env) o hlog cfg.gap
  exact apgLoop_after hirr n _ _ h1 h2 (fun _ => rfl) (Or.inl h3) h

/-! ## What the run has consulted -/

theorem PGAgree.cons {c : PGCalls K X E} {a : PGAsk X E} {l : List (PGAsk X E)} (h : PGAgree env c (a :: l)) :
    a.Same env c ∧ PGAgree env c l :=
  ⟨h a (by simp), fun b hb => h b (by simp [hb])⟩

theorem apgTrial_agree {c : PGCalls K X E} {x1 : X} {eta1 : E} {t : K} {k : Nat} {l : List (PGAsk X E)} (h : PGAgree env c (apgTrial env x1 eta1 t k l).2) :
    apgTrial (env.withCalls c) x1 eta1 t k l = apgTrial env x1 eta1 t k l ∧ PGAgree env c l := by
  obtain ⟨h1, h2⟩ := PGAgree.cons h
  obtain ⟨h3, h4⟩ := PGAgree.cons h2
  simp only [PGAsk.Same] at h1 h3
  refine ⟨?_, h4⟩
  simp only [apgTrial, APGEnv.withCalls, h3, h1]

theorem apgBacktrack_agree {c : PGCalls K X E} {cfg : PGCfg K X} {x1 : X} {f1 slope : K} {eta1 : E} : ∀ (n : Nat) (s s' : PGSearch K X E × List (PGAsk X E)),
    apgBacktrack env cfg x1 f1 slope eta1 n s = some s' → PGAgree env c s'.2 →
    apgBacktrack (env.withCalls c) cfg x1 f1 slope eta1 n s = some s' ∧ PGAgree env c s.2
  | 0, _, _, h, _ => by cases h
  | n + 1, s, s', h, ha => by
    unfold apgBacktrack at h ⊢
    have e : (env.withCalls c).lt = env.lt := rfl
    rw [e]
    split at h
    · rename_i hc
      rw [if_pos hc]
      simp only at h ⊢
      split at h
      · rename_i hc'
        rw [if_pos hc']
        refine ⟨h, ?_⟩
        rw [← Option.some.inj h] at ha; exact ha
      · rename_i hc'
        rw [if_neg hc']
        obtain ⟨h1, h2⟩ := apgBacktrack_agree n _ s' h ha
        obtain ⟨h3, h4⟩ := apgTrial_agree h2
        rw [h3]; exact ⟨h1, h4⟩
    · rename_i hc
      rw [if_neg hc]
      refine ⟨h, ?_⟩
      rw [Option.some.inj h]; exact ha

theorem apgAccel_agree {c : PGCalls K X E} {o o' : APGObj K X E} {st : Bool} (h : apgAccel env cfg o = .next st o') (ha : PGAgree env c o'.log) :
    apgAccel (env.withCalls c) cfg o = .next st o' ∧ PGAgree env c o.log := by
  have e1 : (env.withCalls c).prox = env.prox := rfl
  have e2 : ∀ k, pgDual (env.withCalls c).toPGEnv k = pgDual env.toPGEnv k := fun _ => rfl
  have e3 : ∀ p, pgStopped (env.withCalls c).toPGEnv cfg.toPGCfg p = pgStopped env.toPGEnv cfg.toPGCfg p := fun _ => rfl
  unfold apgAccel at h ⊢
  rw [e1, e2]
  split at h
  · cases h
  · rename_i eta1 d i c' hp
    simp only [APGPass.next.injEq] at h
    obtain ⟨rfl, rfl⟩ := h
    simp only at ha
    obtain ⟨a1, ha⟩ := PGAgree.cons ha
    obtain ⟨a2, ha⟩ := PGAgree.cons ha
    obtain ⟨a3, ha⟩ := PGAgree.cons ha
    obtain ⟨a4, ha⟩ := PGAgree.cons ha
    obtain ⟨a5, ha⟩ := PGAgree.cons ha
    obtain ⟨a6, ha⟩ := PGAgree.cons ha
    simp only [PGAsk.Same] at a1 a2 a3 a4 a5 a6
    refine ⟨?_, ha⟩
    simp only [APGEnv.withCalls, a6, a5, a4, a3, a2, a1]
    rfl

theorem apgGuard_agree {c : PGCalls K X E} {o : APGObj K X E} (ha : PGAgree env c (apgGuard env o).log) :
    apgGuard (env.withCalls c) o = apgGuard env o ∧ PGAgree env c o.log := by
  have e : apgRestarts (env.withCalls c) o = apgRestarts env o := rfl
  unfold apgGuard at ha ⊢
  rw [e]
  by_cases hr : apgRestarts env o = true
  · rw [if_pos hr] at ha ⊢
    simp only at ha ⊢
    obtain ⟨a1, ha⟩ := PGAgree.cons ha
    obtain ⟨a2, ha⟩ := PGAgree.cons ha
    simp only [PGAsk.Same] at a1 a2
    rw [if_pos hr]
    refine ⟨?_, ha⟩
    simp only [APGEnv.withCalls, a1, a2]
  · rw [if_neg hr] at ha ⊢
    simp only at ha ⊢
    obtain ⟨a1, ha⟩ := PGAgree.cons ha
    obtain ⟨a2, ha⟩ := PGAgree.cons ha
    simp only [PGAsk.Same] at a1 a2
    rw [if_neg hr]
    refine ⟨?_, ha⟩
    simp only [APGEnv.withCalls, a1, a2]

/-- The object a pass ends with, if any. -/
def APGPass.obj : APGPass K X E → Option (APGObj K X E)
  | .leave o => some o
  | .next _ o => some o
  | _ => none

theorem apgPass_agree {c : PGCalls K X E} {n : Nat} {st : Bool} {o o' : APGObj K X E} (h : (apgPass env cfg n st o).obj = some o') (ha : PGAgree env c o'.log) :
    apgPass (env.withCalls c) cfg n st o = apgPass env cfg n st o ∧ PGAgree env c o.log := by
  have e1 : (env.withCalls c).prox = env.prox := rfl
  have e2 : ∀ k, pgDual (env.withCalls c).toPGEnv k = pgDual env.toPGEnv k := fun _ => rfl
  have e3 : ∀ b k, pgAda (env.withCalls c).toPGEnv cfg.toPGCfg b k = pgAda env.toPGEnv cfg.toPGCfg b k := fun _ _ => rfl
  have e4 : (env.withCalls c).metric = env.metric := rfl
  have e5 : (env.withCalls c).lit = env.lit := rfl
  have e6 : (env.withCalls c).eq = env.eq := rfl
  have e7 : (env.withCalls c).finite = env.finite := rfl
  have e8 : ∀ o, apgRefine (env.withCalls c) o = apgRefine env o := fun _ => rfl
  unfold apgPass at h ⊢
  by_cases hg : cfg.gap = 0
  · rw [if_pos hg] at h; cases h
  rw [if_neg hg] at h
  rw [if_neg hg, if_neg hg]
  by_cases hm : o.pg.iter % cfg.gap = 0
  · rw [if_pos hm] at h
    rw [if_pos hm, if_pos hm]
    rw [e1, e2]
    cases hp : env.prox o.pg.x1 o.pg.gf1 o.pg.kept.ada o.pg.kept.smTol o.pg.kept.smLam (pgDual env.toPGEnv o.pg.kept) with
    | none => rw [hp] at h; cases h
    | some r =>
      obtain ⟨eta1, d, i, k⟩ := r
      rw [hp] at h
      simp only [e4, e5, e6, e7, e3, e8] at h ⊢
      cases hs : apgBacktrack env cfg.toPGCfg o.pg.x1 o.pg.f1 (env.metric o.pg.x1 o.pg.gf1 eta1) eta1 n (apgTrial env o.pg.x1 eta1 (env.lit 1 1) 0 o.log) with
      | none => rw [hs] at h; cases h
      | some s =>
        rw [hs] at h
        simp only at h
        have key : PGAgree env c (apgSearched env o eta1 d i k s).log → 
            apgBacktrack (env.withCalls c) cfg.toPGCfg o.pg.x1 o.pg.f1 (env.metric o.pg.x1 o.pg.gf1 eta1) eta1 n
                (apgTrial (env.withCalls c) o.pg.x1 eta1 (env.lit 1 1) 0 o.log) = some s ∧
              apgSearched (env.withCalls c) o eta1 d i k s = apgSearched env o eta1 d i k s ∧ PGAgree env c o.log := by
          intro hl
          obtain ⟨a1, a2⟩ := PGAgree.cons hl
          simp only [PGAsk.Same] at a1
          obtain ⟨b1, b2⟩ := apgBacktrack_agree n _ s hs a2
          obtain ⟨b3, b4⟩ := apgTrial_agree b2
          refine ⟨by rw [b3]; exact b1, ?_, b4⟩
          simp only [apgSearched, APGEnv.withCalls, a1]
          rfl
        by_cases hok : s.1.ok = true
        · have c1 : ¬ ((!s.1.ok) = true) := by simp [hok]
          rw [if_neg c1] at h
          by_cases hfin : env.finite (apgSearched env o eta1 d i k s).pg.f2 = true
          · have c2 : ¬ ((!env.finite (apgSearched env o eta1 d i k s).pg.f2) = true) := by simp [hfin]
            rw [if_neg c2] at h
            generalize hq : ({ apgSearched env o eta1 d i k s with pg := { (apgSearched env o eta1 d i k s).pg with kept := { (apgSearched env o eta1 d i k s).pg.kept with
              ada := pgAda env.toPGEnv cfg.toPGCfg (env.eq (apgSearched env o eta1 d i k s).pg.stepsize (apgSearched env o eta1 d i k s).pg.initiallength)
                (apgSearched env o eta1 d i k s).pg.kept.ada } } } : APGObj K X E) = q at h
            rcases apgAccel_next (env := env) (cfg := cfg) (apgGuard env q) with hu | ⟨st1, o1, hu⟩
            · rw [hu] at h; cases h
            · rw [hu] at h
              obtain rfl : o1 = o' := Option.some.inj h
              obtain ⟨a, b⟩ := apgAccel_agree hu ha
              obtain ⟨a', b'⟩ := apgGuard_agree b
              obtain ⟨k1, k2, k3⟩ := key (by rw [← hq] at b'; exact b')
              refine ⟨?_, k3⟩
              rw [k1]
              simp only [k2, if_neg c1, if_neg c2, hq]
              rw [a', a, hu]
          · have c2 : (!env.finite (apgSearched env o eta1 d i k s).pg.f2) = true := by simp [hfin]
            rw [if_pos c2] at h
            obtain ⟨k1, k2, k3⟩ := key (by rw [← Option.some.inj h] at ha; exact ha)
            refine ⟨?_, k3⟩
            rw [k1]
            simp only [k2, if_neg c1, if_pos c2]
        · have c1 : (!s.1.ok) = true := by simp [hok]
          rw [if_pos c1] at h
          obtain ⟨k1, k2, k3⟩ := key (by
            split at h
            · rw [← Option.some.inj h] at ha; exact ha
            · rw [← Option.some.inj h] at ha; exact ha)
          refine ⟨?_, k3⟩
          rw [k1]
          simp only [k2, if_pos c1]
  · rw [if_neg hm] at h
    rw [if_neg hm, if_neg hm]
    rcases apgAccel_next (env := env) (cfg := cfg) o with hu | ⟨st1, o1, hu⟩
    · rw [hu] at h; cases h
    · rw [hu] at h
      obtain rfl : o1 = o' := Option.some.inj h
      obtain ⟨a, b⟩ := apgAccel_agree hu ha
      exact ⟨a.trans hu.symm, b⟩

theorem apgLoop_agree {c : PGCalls K X E} {o' : APGObj K X E} : ∀ (n : Nat) (st : Bool) (o : APGObj K X E), apgLoop env cfg n st o = .done o' → PGAgree env c o'.log →
    apgLoop (env.withCalls c) cfg n st o = .done o' ∧ PGAgree env c o.log
  | 0, _, _, h, _ => by cases h
  | n + 1, st, o, h, ha => by
    unfold apgLoop at h ⊢
    split at h
    · rename_i hc
      rw [if_pos hc]
      cases hp : apgPass env cfg (n + 1) st o with
      | ub => rw [hp] at h; cases h
      | more => rw [hp] at h; cases h
      | leave o1 =>
        rw [hp] at h
        simp only [APGOut.done.injEq] at h
        subst h
        obtain ⟨h1, h2⟩ := apgPass_agree (c := c) (o' := o1) (n := n + 1) (st := st) (o := o) (cfg := cfg) (by rw [hp]; rfl) ha
        rw [h1, hp]
        exact ⟨rfl, h2⟩
      | next st1 o1 =>
        rw [hp] at h
        obtain ⟨h3, h4⟩ := apgLoop_agree n st1 o1 h ha
        obtain ⟨h1, h2⟩ := apgPass_agree (c := c) (o' := o1) (n := n + 1) (st := st) (o := o) (cfg := cfg) (by rw [hp]; rfl) h4
        rw [h1, hp]
        exact ⟨h3, h2⟩
    · rename_i hc
      rw [if_neg hc]
      refine ⟨h, ?_⟩
      simp only [APGOut.done.injEq] at h
      rw [← h] at ha
      exact ha

/-! ## The theorems -/

/-- **C144.** The result of a run depends only on the answers to the calls it has made: every problem and retraction that gives these answers leads to the same members. -/
theorem C144_consulted (c : PGCalls K X E) (n : Nat) (o o' : APGObj K X E) (h : apgRun env cfg n o = .done o') (ha : PGAgree env c o'.log) :
    apgRun (env.withCalls c) cfg n o = .done o' := by
  unfold apgRun at h ⊢
  obtain ⟨h1, h2⟩ := apgLoop_agree n _ _ h ha
  obtain ⟨a1, h3⟩ := PGAgree.cons (a := PGAsk.grad o.pg.x1) h2
  obtain ⟨a2, -⟩ := PGAgree.cons (a := PGAsk.f o.pg.x1) h3
  simp only [PGAsk.Same] at a1 a2
  have e : apgPrologue (env.withCalls c) o = apgPrologue env o := by
    simp only [apgPrologue, pgPrologue, APGEnv.withCalls, a1, a2]
  simp only [e]
  exact h1

/-- **C144.** Two function values, one gradient and two retractions per iteration are not counted: when a run of `k` iterations ends, the function was evaluated
`2 k` times more often than `Getnf` has advanced, the gradient `k` times more often than `Getng`, and the retraction `2 k` times more often than `GetnR`. -/
theorem C144_uncounted (hirr : ∀ a, env.lt a a = false) {n : Nat} {o o' : APGObj K X E} (hlog : o.log = []) (h : apgRun env cfg n o = .done o') :
    o.pg.cnt.nf + numF o'.log = o'.pg.cnt.nf + 2 * o'.pg.iter ∧ o.pg.cnt.ng + numG o'.log = o'.pg.cnt.ng + o'.pg.iter ∧
      o.pg.cnt.nR + numR o'.log = o'.pg.cnt.nR + 2 * o'.pg.iter := by
  have hA := apgRun_after (cfg := cfg) hirr (by rw [hlog]; trivial) h
  obtain ⟨h1, h2, h3, -, -, -, -⟩ := hA.inv
  rw [hlog] at h1 h2 h3
  simp only [numF, numG, numR, List.countP_nil] at h1 h2 h3 ⊢
  omega

/-- **C144.** Every gradient is asked for right after the function value at the same point, so that a problem may hand over data from `f` to the gradient. -/
theorem C144_order (hirr : ∀ a, env.lt a a = false) {n : Nat} {o o' : APGObj K X E} (hlog : o.log = []) (h : apgRun env cfg n o = .done o') : GradAfterF o'.log :=
  (apgRun_after (cfg := cfg) hirr (by rw [hlog]; trivial) h).inv.order

/-- **C144.** `Getfinalfun` is the value at the point returned by `GetXopt`, and the stored gradient is the gradient there. The last entry of the recorded values belongs
to another point: to the candidate of the last search. After more than `SGIterGap` iterations it is not smaller than the returned value; up to then the start is returned. -/
theorem C144_values (hirr : ∀ a, env.lt a a = false) {n : Nat} {o o' : APGObj K X E} (hlog : o.log = []) (h : apgRun env cfg n o = .done o') :
    o'.pg.f1 = env.f o'.pg.x1 ∧ o'.pg.gf1 = env.grad o'.pg.x1 ∧ (o'.pg.iter ≤ cfg.gap → o'.pg.x1 = o.pg.x1) ∧
      (o'.pg.success = true → env.finite o'.pg.f2 = true → o'.pg.iter ≠ 0 →
        (∃ nd t, o'.pg.series.head? = some (env.f o'.pg.x2, nd, t)) ∧ (cfg.gap < o'.pg.iter → env.lt (env.f o'.pg.x2) o'.pg.f1 = false)) := by
  have hA := apgRun_after (cfg := cfg) hirr (by rw [hlog]; trivial) h
  refine ⟨hA.inv.f1, hA.inv.gf1, hA.short, fun hs hf h0 => ?_⟩
  rcases hA.fresh with hF | hb | hb
  · obtain ⟨h1, h2⟩ := hF.head h0
    refine ⟨⟨_, _, h2 ▸ h1⟩, fun hlt => ?_⟩
    have := hF.long hlt
    rwa [h2] at this
  · rw [hs] at hb; cases hb
  · rw [hf] at hb; cases hb

/-- Specification: the pass that begins with the members `o` searches, finds a candidate with a finite value, and this value is smaller than that of the accelerated
iterate, so that the safeguard takes effect. -/
def SafeguardActs (env : APGEnv K X E) (cfg : APGCfg K X) (n : Nat) (o : APGObj K X E) : Prop :=
  cfg.gap ≠ 0 ∧ o.pg.iter ≠ 0 ∧ o.pg.iter % cfg.gap = 0 ∧
  ∃ eta1 d i c s, env.prox o.pg.x1 o.pg.gf1 o.pg.kept.ada o.pg.kept.smTol o.pg.kept.smLam (pgDual env.toPGEnv o.pg.kept) = some (eta1, d, i, c) ∧
    apgBacktrack env cfg.toPGCfg o.pg.x1 o.pg.f1 (env.metric o.pg.x1 o.pg.gf1 eta1) eta1 n (apgTrial env o.pg.x1 eta1 (env.lit 1 1) 0 o.log) = some s ∧
    s.1.ok = true ∧ env.finite s.1.f2 = true ∧ env.lt s.1.f2 o.fz2 = true

/-- **C145.** With the relative-change criterion the run ends with the first pass in which the safeguard takes effect (unless `Min_Iteration` is not reached): the
safeguard makes the two values that are compared equal, however large the progress was. `n` and the state are arbitrary; `hz` says that `(a - a) / (|a| + 1)` is below the tolerance. -/
theorem C145_safeguard_stops (hstop : cfg.stop = .funRel)
    (hz : ∀ a, env.finite a = true → env.lt (env.abs ((a - a) / (env.abs a + env.lit 1 1))) cfg.tol = true) {n : Nat} {st : Bool} {o : APGObj K X E}
    (hrun : ((!st && decide (o.pg.iter < cfg.maxIter)) || decide (o.pg.iter < cfg.minIter)) = true) (hmin : cfg.minIter ≤ o.pg.iter + 1)
    (hact : SafeguardActs env cfg (n + 2) o) :
    apgLoop env cfg (n + 2) st o = .ub ∨
      ∃ o', apgLoop env cfg (n + 2) st o = .done o' ∧ o'.pg.iter = o.pg.iter + 1 ∧ o'.pg.x1 = o'.pg.x2 ∧ o'.pg.f1 = o'.pg.f2 := by
  obtain ⟨hg, h0, hm, eta1, d, i, c, s, hp, hs, hok, hfin, hlt⟩ := hact
  have hf2 := apgBacktrack_value _ _ _ hs rfl
  have c1 : ¬ ((!s.1.ok) = true) := by simp [hok]
  generalize hq : ({ apgSearched env o eta1 d i c s with pg := { (apgSearched env o eta1 d i c s).pg with kept := { (apgSearched env o eta1 d i c s).pg.kept with
    ada := pgAda env.toPGEnv cfg.toPGCfg (env.eq (apgSearched env o eta1 d i c s).pg.stepsize (apgSearched env o eta1 d i c s).pg.initiallength)
      (apgSearched env o eta1 d i c s).pg.kept.ada } } } : APGObj K X E) = q
  have c2 : ¬ ((!env.finite (apgSearched env o eta1 d i c s).pg.f2) = true) := by
    have : (apgSearched env o eta1 d i c s).pg.f2 = s.1.f2 := rfl
    rw [this]; simp [hfin]
  have hpass : apgPass env cfg (n + 2) st o = apgAccel env cfg (apgGuard env q) := by
    unfold apgPass
    rw [if_neg hg, if_pos hm, hp]
    simp only [hs, if_neg c1, if_neg c2, hq]
  have hqi : q.pg.iter = o.pg.iter ∧ q.pg.f2 = s.1.f2 ∧ q.pg.x2 = s.1.x2 ∧ q.fz2 = o.fz2 := by rw [← hq]; exact ⟨rfl, rfl, rfl, rfl⟩
  obtain ⟨q1, q2, q3, q4⟩ := hqi
  have hr : apgRestarts env q = true := by
    simp only [apgRestarts, q1, q2, q4, hlt, Bool.and_true]
    exact decide_eq_true h0
  have hG : (apgGuard env q).pg.x1 = q.pg.x2 ∧ (apgGuard env q).pg.f1 = q.pg.f2 ∧ (apgGuard env q).pg.f2 = q.pg.f2 ∧ (apgGuard env q).pg.x2 = q.pg.x2 ∧
      (apgGuard env q).pg.iter = q.pg.iter := by
    unfold apgGuard
    rw [if_pos hr]
    refine ⟨rfl, ?_, rfl, rfl, rfl⟩
    simp only
    rw [q2, q3]; exact hf2.symm
  obtain ⟨g1, g2, g3, g4, g5⟩ := hG
  have hst : ∀ p : PGObj K X E, p.f1 = q.pg.f2 → p.f2 = q.pg.f2 → p.iter = o.pg.iter → pgStopped env.toPGEnv cfg.toPGCfg p = true := by
    intro p e1 e2 e3
    simp only [pgStopped, hstop, e1, e2, e3]
    rw [q2, hz _ hfin]
    simpa using Nat.pos_of_ne_zero h0
  rcases apgAccel_next (env := env) (cfg := cfg) (apgGuard env q) with h | ⟨st1, o1, h⟩
  · left
    unfold apgLoop
    rw [if_pos hrun, hpass, h]
  · right
    have hk : st1 = true ∧ o1.pg.iter = o.pg.iter + 1 ∧ o1.pg.x1 = o1.pg.x2 ∧ o1.pg.f1 = o1.pg.f2 := by
      unfold apgAccel at h
      split at h
      · cases h
      · simp only [APGPass.next.injEq] at h
        obtain ⟨rfl, rfl⟩ := h
        exact ⟨hst _ g2 g3 (g5.trans q1), by simp only; rw [g5, q1], g1.trans g4.symm, g2.trans g3.symm⟩
    obtain ⟨rfl, k1, k2, k3⟩ := hk
    refine ⟨{ o1 with pg := { o1.pg with lengthSeries := o1.pg.iter + 1 } }, ?_, k1, k2, k3⟩
    unfold apgLoop
    rw [if_pos hrun, hpass, h]
    simp only
    unfold apgLoop
    have hc : ¬ (((!true && decide (o1.pg.iter < cfg.maxIter)) || decide (o1.pg.iter < cfg.minIter)) = true) := by
      rw [k1]
      simpa using hmin
    rw [if_neg hc]

/-! ## Instances on the line -/

/-- `c / 2 * x ^ 2` on the line; the subproblem is solved up to the relative error `SMlambda`. -/
def apgLine (c : ℚ) : APGEnv ℚ ℚ ℚ where
  toPGEnv := pgLine c 0
  invRetr x y := y - x

/-- Regular variant, at most `k` iterations. -/
def apgLineCfg (stop : StopKind ℚ ℚ) (k gap : Nat) : APGCfg ℚ ℚ := ⟨⟨k, 0, 1 / 10000, 1 / 10000, 1 / 2, 1 / 1000000, false, stop⟩, gap⟩

/-- A new object at `x`. -/
def apgLineNew (c x : ℚ) : APGObj ℚ ℚ ℚ := ⟨pgLineNew c 0 x, 7, 7, 7, 7, 7, none, []⟩

/-- What is shown below: `GetXopt`, `Getfinalfun`, the last recorded value, `GetIter`, `Getnormnd`, `Getnf` and the number of function values computed. -/
structure APGSeen where
  x : ℚ
  f : ℚ
  last : ℚ
  iter : Nat
  nd : ℚ
  nf : Nat
  asked : Nat
deriving DecidableEq

def apgShow : APGOut ℚ ℚ ℚ → Option APGSeen
  | .done o => some ⟨o.pg.x1, o.pg.f1, (o.pg.series.head?.map Prod.fst).getD 0, o.pg.iter, o.pg.ndir1, o.pg.cnt.nf, numF o.log⟩
  | _ => none

/-- With `SGIterGap = 1` the safeguard takes effect in the second iteration: by the relative change the run ends after it, at `-1/5`, while `Getnormnd` is
`12/5`, that of the start ... -/
example : apgShow (apgRun (apgLine 3) (apgLineCfg .funRel 50 1) 60 (apgLineNew 3 1)) = some ⟨-1 / 5, 3 / 50, 3 / 50, 2, 12 / 5, 7, 11⟩ := by decide +kernel

/-- ... while the criterion on the direction goes on to a value that is smaller by eight orders of magnitude. -/
example : apgShow (apgRun (apgLine 3) (apgLineCfg .gradF 50 1) 60 (apgLineNew 3 1)) = some ⟨1 / 390625, 3 / 305175781250, 3 / 305175781250, 9, 12 / 390625, 28, 46⟩ := by
  decide +kernel

/-- Three iterations with the default gap 5: the start and its value are returned although the last recorded value is smaller; 9 function values were computed, 3 counted. -/
example : apgShow (apgRun (apgLine 1) (apgLineCfg .gradF 3 5) 60 (apgLineNew 1 1)) = some ⟨1, 1 / 2, 1 / 50, 3, 4 / 5, 3, 9⟩ := by decide +kernel

/-- Seven iterations: the returned value `9/19531250` is smaller than the recorded one, `1/50`. The direction norm `4/5` is still that of the start; at the returned point
it would be below `1/1000`. -/
example : apgShow (apgRun (apgLine 1) (apgLineCfg .gradF 7 5) 60 (apgLineNew 1 1)) = some ⟨-3 / 3125, 9 / 19531250, 1 / 50, 7, 4 / 5, 5, 19⟩ := by decide +kernel

/-- `SafeguardActs` as a computation. -/
def actsB (env : APGEnv ℚ ℚ ℚ) (cfg : APGCfg ℚ ℚ) (n : Nat) (o : APGObj ℚ ℚ ℚ) : Bool :=
  decide (cfg.gap ≠ 0 ∧ o.pg.iter ≠ 0 ∧ o.pg.iter % cfg.gap = 0) &&
  match env.prox o.pg.x1 o.pg.gf1 o.pg.kept.ada o.pg.kept.smTol o.pg.kept.smLam (pgDual env.toPGEnv o.pg.kept) with
  | none => false
  | some (eta1, _, _, _) =>
    match apgBacktrack env cfg.toPGCfg o.pg.x1 o.pg.f1 (env.metric o.pg.x1 o.pg.gf1 eta1) eta1 n (apgTrial env o.pg.x1 eta1 (env.lit 1 1) 0 o.log) with
    | none => false
    | some s => s.1.ok && env.finite s.1.f2 && env.lt s.1.f2 o.fz2

theorem acts_of_actsB {env : APGEnv ℚ ℚ ℚ} {cfg : APGCfg ℚ ℚ} {n : Nat} {o : APGObj ℚ ℚ ℚ} (h : actsB env cfg n o = true) : SafeguardActs env cfg n o := by
  unfold actsB at h
  rw [Bool.and_eq_true] at h
  obtain ⟨h1, h2⟩ := h
  obtain ⟨a, b, c⟩ := of_decide_eq_true h1
  refine ⟨a, b, c, ?_⟩
  split at h2
  · cases h2
  · rename_i eta1 d i c hp
    split at h2
    · cases h2
    · rename_i s hs
      rw [Bool.and_eq_true, Bool.and_eq_true] at h2
      exact ⟨eta1, d, i, c, s, hp, hs, h2.1.1, h2.1.2, h2.2⟩

/-- The hypotheses of C145 are met on the line by the state after the first iteration: the run does not stop there by itself, and it ends with the next pass. -/
example : ∃ o, apgPass (apgLine 3) (apgLineCfg .funRel 50 1) 60 false (apgPrologue (apgLine 3) (apgLineNew 3 1)) = .next false o ∧ o.pg.iter = 1 ∧
    SafeguardActs (apgLine 3) (apgLineCfg .funRel 50 1) 59 o ∧ (apgLoop (apgLine 3) (apgLineCfg .funRel 50 1) 59 false o = .ub ∨
      ∃ o', apgLoop (apgLine 3) (apgLineCfg .funRel 50 1) 59 false o = .done o' ∧ o'.pg.iter = o.pg.iter + 1 ∧ o'.pg.x1 = o'.pg.x2 ∧ o'.pg.f1 = o'.pg.f2) := by
  have h : (match apgPass (apgLine 3) (apgLineCfg .funRel 50 1) 60 false (apgPrologue (apgLine 3) (apgLineNew 3 1)) with
    | .next st o => !st && decide (o.pg.iter = 1) && actsB (apgLine 3) (apgLineCfg .funRel 50 1) 59 o | _ => false) = true := by decide +kernel
  cases hr : apgPass (apgLine 3) (apgLineCfg .funRel 50 1) 60 false (apgPrologue (apgLine 3) (apgLineNew 3 1)) with
  | next st o =>
    rw [hr] at h
    simp only [Bool.and_eq_true, Bool.not_eq_true', decide_eq_true_eq] at h
    obtain ⟨⟨rfl, h1⟩, h2⟩ := h
    refine ⟨o, rfl, h1, acts_of_actsB h2, C145_safeguard_stops rfl (fun a _ => ?_) (n := 57) ?_ ?_ (acts_of_actsB h2)⟩
    · simp [apgLine, pgLine, apgLineCfg, lineEnv, Rat.div_def, Rat.zero_mul]
      try decide +kernel
    · rw [h1]; rfl
    · exact Nat.zero_le _
  | _ => rw [hr] at h; cases h

instance (env : APGEnv ℚ ℚ ℚ) (c : PGCalls ℚ ℚ ℚ) (a : PGAsk ℚ ℚ) : Decidable (a.Same env c) := by
  cases a <;> exact inferInstanceAs (Decidable (_ = _))

/-- Another problem and another retraction: above `1` the function is `7`, and the retraction along vectors longer than `1` does not move. -/
def apgOther : PGCalls ℚ ℚ ℚ where
  f x := if 1 < x then 7 else 1 / 2 * x * x
  grad x := if 1 < x then 0 else x
  retr x v := if 1 < v then x else x + v
  invRetr x y := y - x

/-- The hypothesis of `C144_consulted` is met by this problem: the run of three iterations from `1` does not notice the difference. -/
example : ∃ o', apgRun (apgLine 1) (apgLineCfg .gradF 3 5) 60 (apgLineNew 1 1) = .done o' ∧ PGAgree (apgLine 1) apgOther o'.log ∧
    apgRun ((apgLine 1).withCalls apgOther) (apgLineCfg .gradF 3 5) 60 (apgLineNew 1 1) = .done o' := by
  have h : (match apgRun (apgLine 1) (apgLineCfg .gradF 3 5) 60 (apgLineNew 1 1) with | .done o => decide (∀ a ∈ o.log, a.Same (apgLine 1) apgOther) | _ => false) = true := by
    decide +kernel
  cases hr : apgRun (apgLine 1) (apgLineCfg .gradF 3 5) 60 (apgLineNew 1 1) with
  | done o =>
    rw [hr] at h
    simp only [decide_eq_true_eq] at h
    have h' : PGAgree (apgLine 1) apgOther o.log := h
    exact ⟨o, rfl, h', C144_consulted apgOther _ _ _ hr h'⟩
  | _ => rw [hr] at h; cases h

end Verif.Obj
