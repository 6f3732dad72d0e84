import Verif.Solver.ReadsRun
import Verif.Props.Report

/-!
# What the counters of a solver mean and in which order the problem is called (C141, C142)

The statements do not mention a trace of calls: a run is a function of the answers of the problem and of the retraction, and the claim is that it depends on as many answers as the counters say.
-/

set_option linter.unusedSectionVars false

namespace Verif.Obj

variable {K X E M : Type*} [Add K] [Sub K] [Mul K] [Div K] [Neg K]

/-- The line searches a user can choose (`LineSearch_LS`): Armijo, Wolfe, strong Wolfe, exact, and the user's own with or without backtracking. -/
inductive LSKind (K X E : Type*)
  | armijo | wolfe | strongWolfe | exact
  | input (pureInput : Bool) (user : Nat → X → E → K → K → K)

/-- The search of the given kind; `n` bounds the passes of its loops. -/
def LSKind.search (k : LSKind K X E) (env : Env K X E) (cfg : Cfg K X E) (ls : LSCfg K) (n : Nat) : Obj K X E M → Option (Obj K X E M) :=
  match k with
  | .armijo => Verif.Obj.armijo env cfg n
  | .wolfe => wSearch env cfg ls n
  | .strongWolfe => swSearch env cfg ls n
  | .exact => exSearch env cfg ls n
  | .input p u => inSearch env cfg p u n

theorem LSKind.honest (k : LSKind K X E) (env : Env K X E) (cfg : Cfg K X E) (ls : LSCfg K) (n : Nat) (c0 : Calls K X E) : Honest (M := M) c0 fun c => k.search (env.withCalls c) cfg ls n := by
  intro S l o
  cases k with
  | armijo => exact armijo_reads S l n o
  | wolfe => exact wSearch_reads S l n o
  | strongWolfe => exact swSearch_reads S l n o
  | exact => exact exSearch_reads S l n o
  | input p u => exact inSearch_reads S l p u n o

/-- Two problems with retractions agree on finitely many values of the function, the gradient, the retraction and the Hessian. -/
structure SameOn (c0 c : Calls K X E) (F G : List X) (R H : List (X × E)) : Prop where
  f : ∀ x ∈ F, c.f x = c0.f x
  grad : ∀ x ∈ G, c.grad x = c0.grad x
  retr : ∀ p ∈ R, c.retr p.1 p.2 = c0.retr p.1 p.2
  hess : ∀ p ∈ H, c.hess p.1 p.2 = c0.hess p.1 p.2

/-- Points and vectors of the questions. -/
def askF (c0 : Calls K X E) (q : List (Ask X E)) : List X := q.filterMap fun a => match a with | .step x v => some (c0.retr x v) | _ => none
def askR (q : List (Ask X E)) : List (X × E) := q.filterMap fun a => match a with | .step x v => some (x, v) | _ => none
def askG (q : List (Ask X E)) : List X := q.filterMap fun a => match a with | .grad x => some x | _ => none
def askH (q : List (Ask X E)) : List (X × E) := q.filterMap fun a => match a with | .hess x v => some (x, v) | _ => none

theorem askLengths (c0 : Calls K X E) (q : List (Ask X E)) : (askF c0 q).length = steps q ∧ (askR q).length = steps q ∧ (askG q).length = grads q ∧ (askH q).length = hesss q := by
  induction q with
  | nil => exact ⟨rfl, rfl, rfl, rfl⟩
  | cons a q ih =>
    obtain ⟨h1, h2, h3, h4⟩ := ih
    cases a <;> simp_all [askF, askR, askG, askH, steps, grads, hesss]

theorem agree_of_same (c0 c : Calls K X E) (q : List (Ask X E)) (h1 : ∀ x ∈ askF c0 q, c.f x = c0.f x) (h2 : ∀ p ∈ askR q, c.retr p.1 p.2 = c0.retr p.1 p.2) (h3 : ∀ x ∈ askG q, c.grad x = c0.grad x)
    (h4 : ∀ p ∈ askH q, c.hess p.1 p.2 = c0.hess p.1 p.2) : Agree c0 c q := by
  intro a ha
  cases a with
  | step x v => exact ⟨h2 (x, v) (List.mem_filterMap.mpr ⟨_, ha, rfl⟩), h1 _ (List.mem_filterMap.mpr ⟨_, ha, rfl⟩)⟩
  | grad x => exact h3 x (List.mem_filterMap.mpr ⟨_, ha, rfl⟩)
  | hess x v => exact h4 (x, v) (List.mem_filterMap.mpr ⟨_, ha, rfl⟩)

/-- **C141** for the solvers with a line search. After a run that ends with the object `o'`, let the counters of function values, gradients and retractions have advanced by some numbers. Then the run is determined by so many
values of the function, so many gradients and so many retractions: every problem and retraction with these values gives the same object, and the retraction is used once for each function value but the first. -/
theorem C141_line_search (k : LSKind K X E) (env : Env K X E) (cfg : Cfg K X E) (ls : LSCfg K) (hk : Hooks K X E M) (m n : Nat) (c0 : Calls K X E) (o o' : Obj K X E M)
    (hr : runWith (env.withCalls c0) cfg hk (k.search (env.withCalls c0) cfg ls m) n o = some o') :
    ∃ (F G : List X) (R : List (X × E)), o'.cnt.nf = o.cnt.nf + F.length ∧ o'.cnt.ng = o.cnt.ng + G.length ∧ o'.cnt.nR = o.cnt.nR + R.length ∧ F.length = R.length + 1 ∧
      ∀ c, SameOn c0 c F G R [] → runWith (env.withCalls c) cfg hk (k.search (env.withCalls c) cfg ls m) n o = some o' := by
  obtain ⟨q, q0, q1, q2⟩ := runWith_reads (env := env) (cfg := cfg) hk (k.honest env cfg ls m c0) n o
  obtain ⟨h1, h2, h3⟩ := q1 o' hr
  obtain ⟨l1, l2, l3, _⟩ := askLengths c0 q
  -- a run with a line search never asks for a Hessian: a problem with any Hessian gives the same result
  refine ⟨o.x1 :: askF c0 q, o.x1 :: askG q, askR q, ?_, ?_, ?_, ?_, ?_⟩
  · rw [h1, List.length_cons, l1]; omega
  · rw [h2, List.length_cons, l3]; omega
  · rw [h3, l2]
  · rw [List.length_cons, l1, l2]
  · intro c hc
    have hc' := q2 { c with hess := c0.hess } (hc.f _ (List.mem_cons_self ..)) (hc.grad _ (List.mem_cons_self ..))
      (agree_of_same c0 _ q (fun x hx => hc.f x (List.mem_cons_of_mem _ hx)) hc.retr (fun x hx => hc.grad x (List.mem_cons_of_mem _ hx)) fun _ _ => rfl)
    exact hc'.trans hr

/-- The directions of `RSD`, `RCG` and `RBFGS` are computed without calls of the problem, so that `C141_line_search` applies with `hk` depending on the environment. -/
theorem hooks_no_calls (env : Env K X E) (c : Calls K X E) (kind : CGKind) {L : Type*} (op : OpEnv K X E L) :
    rsd (env.withCalls c) = rsd env ∧ rcg (env.withCalls c) kind = rcg env kind ∧ rbfgs (env.withCalls c) op = rbfgs env op := ⟨rfl, rfl, rfl⟩

theorem honest_rtr (env : TREnv K X E) (c0 : Calls K X E) : HonestHooks c0 1 fun c => rtr (env.withCalls c) c.hess where
  hess _ _ := Or.inr ⟨fun _ h => h, rfl⟩
  update _ := Or.inl ⟨fun _ => rfl, rfl⟩
  accept o := Or.inr ⟨fun c h => by show (c.grad o.x2, (), 1) = (c0.grad o.x2, (), 1); rw [h], rfl⟩

theorem honest_rtr_fixed (env : TREnv K X E) (H : X → E → E) (c0 : Calls K X E) : HonestHooks c0 0 fun c => rtr (env.withCalls c) H where
  hess _ _ := Or.inl ⟨fun _ => rfl, rfl⟩
  update _ := Or.inl ⟨fun _ => rfl, rfl⟩
  accept o := Or.inr ⟨fun c h => by show (c.grad o.x2, (), 1) = (c0.grad o.x2, (), 1); rw [h], rfl⟩

theorem honest_rtrsr1 {L : Type*} (env : TREnv K X E) (op : OpEnv K X E L) (invTran : X → E → X → E → E) (c0 : Calls K X E) : HonestHooks c0 0 fun c => rtrsr1 (env.withCalls c) op invTran where
  hess _ _ := Or.inl ⟨fun _ => rfl, rfl⟩
  update o := Or.inr (by
    constructor
    · intro c h
      unfold rtrsr1
      dsimp only [TREnv.withCalls, Env.withCalls]
      rw [h]
      rfl
    · unfold rtrsr1
      dsimp only
      split_ifs <;> rfl)
  accept _ := Or.inl ⟨fun _ => rfl, rfl, rfl⟩

/-- **C141** for `RTRNewton`, with the counter of Hessian actions. -/
theorem C141_rtrnewton (env : TREnv K X E) (cfg : TRCfg K X) (n : Nat) (c0 : Calls K X E) (o o' : TRObj K X E Unit) (hr : trRun (env.withCalls c0) cfg (rtr (env.withCalls c0) c0.hess) n o = some o') :
    ∃ (F G : List X) (R H : List (X × E)), o'.cnt.nf = o.cnt.nf + F.length ∧ o'.cnt.ng = o.cnt.ng + G.length ∧ o'.cnt.nR = o.cnt.nR + R.length ∧ o'.cnt.nH = o.cnt.nH + H.length ∧ F.length = R.length + 1 ∧
      ∀ c, SameOn c0 c F G R H → trRun (env.withCalls c) cfg (rtr (env.withCalls c) c.hess) n o = some o' := by
  obtain ⟨q, q0, q1, q2⟩ := trRun_reads (env := env) (cfg := cfg) (honest_rtr env c0) n o
  obtain ⟨h1, h2, h3, h4⟩ := q1 o' hr
  obtain ⟨l1, l2, l3, l4⟩ := askLengths c0 q
  refine ⟨o.x1 :: askF c0 q, o.x1 :: askG q, askR q, askH q, ?_, ?_, ?_, ?_, ?_, ?_⟩
  · rw [h1, List.length_cons, l1]; omega
  · rw [h2, List.length_cons, l3]; omega
  · rw [h3, l2]
  · rw [l4]; omega
  · rw [List.length_cons, l1, l2]
  · intro c hc
    exact (q2 c (hc.f _ (List.mem_cons_self ..)) (hc.grad _ (List.mem_cons_self ..))
      (agree_of_same c0 _ q (fun x hx => hc.f x (List.mem_cons_of_mem _ hx)) hc.retr (fun x hx => hc.grad x (List.mem_cons_of_mem _ hx)) hc.hess)).trans hr

/-- **C141** for `RTRSD` (`hk` with the identity) and `RTRSR1`: no Hessian of the problem is used; the counter `nH` counts actions of the approximation. -/
theorem C141_trust_region (env : TREnv K X E) (cfg : TRCfg K X) (n : Nat) (c0 : Calls K X E) (hk : Calls K X E → TRHooks K X E M) (hh : HonestHooks c0 0 hk) (o o' : TRObj K X E M)
    (hr : trRun (env.withCalls c0) cfg (hk c0) n o = some o') :
    ∃ (F G : List X) (R : List (X × E)), o'.cnt.nf = o.cnt.nf + F.length ∧ o'.cnt.ng = o.cnt.ng + G.length ∧ o'.cnt.nR = o.cnt.nR + R.length ∧ F.length = R.length + 1 ∧
      ∀ c, SameOn c0 c F G R [] → trRun (env.withCalls c) cfg (hk c) n o = some o' := by
  obtain ⟨q, q0, q1, q2⟩ := trRun_reads (env := env) (cfg := cfg) hh n o
  obtain ⟨h1, h2, h3, h4⟩ := q1 o' hr
  obtain ⟨l1, l2, l3, l4⟩ := askLengths c0 q
  have hq : askH q = [] := List.length_eq_zero_iff.mp (by rw [l4]; omega)
  refine ⟨o.x1 :: askF c0 q, o.x1 :: askG q, askR q, ?_, ?_, ?_, ?_, ?_⟩
  · rw [h1, List.length_cons, l1]; omega
  · rw [h2, List.length_cons, l3]; omega
  · rw [h3, l2]
  · rw [List.length_cons, l1, l2]
  · intro c hc
    exact (q2 c (hc.f _ (List.mem_cons_self ..)) (hc.grad _ (List.mem_cons_self ..))
      (agree_of_same c0 _ q (fun x hx => hc.f x (List.mem_cons_of_mem _ hx)) hc.retr (fun x hx => hc.grad x (List.mem_cons_of_mem _ hx)) fun p hp => by rw [hq] at hp; cases hp)).trans hr

theorem C141_rtrsd (env : TREnv K X E) (cfg : TRCfg K X) (H : X → E → E) (n : Nat) (c0 : Calls K X E) (o o' : TRObj K X E Unit) (hr : trRun (env.withCalls c0) cfg (rtr (env.withCalls c0) H) n o = some o') :
    ∃ (F G : List X) (R : List (X × E)), o'.cnt.nf = o.cnt.nf + F.length ∧ o'.cnt.ng = o.cnt.ng + G.length ∧ o'.cnt.nR = o.cnt.nR + R.length ∧ F.length = R.length + 1 ∧
      ∀ c, SameOn c0 c F G R [] → trRun (env.withCalls c) cfg (rtr (env.withCalls c) H) n o = some o' :=
  C141_trust_region env cfg n c0 _ (honest_rtr_fixed env H c0) o o' hr

theorem C141_rtrsr1 {L : Type*} (env : TREnv K X E) (cfg : TRCfg K X) (op : OpEnv K X E L) (invTran : X → E → X → E → E) (n : Nat) (c0 : Calls K X E) (o o' : TRObj K X E (SR1Own K E L))
    (hr : trRun (env.withCalls c0) cfg (rtrsr1 (env.withCalls c0) op invTran) n o = some o') :
    ∃ (F G : List X) (R : List (X × E)), o'.cnt.nf = o.cnt.nf + F.length ∧ o'.cnt.ng = o.cnt.ng + G.length ∧ o'.cnt.nR = o.cnt.nR + R.length ∧ F.length = R.length + 1 ∧
      ∀ c, SameOn c0 c F G R [] → trRun (env.withCalls c) cfg (rtrsr1 (env.withCalls c) op invTran) n o = some o' :=
  C141_trust_region env cfg n c0 _ (honest_rtrsr1 env op invTran c0) o o' hr

/-! ## How large the counters can be -/

theorem tcgLoop_count (env : TREnv K X E) (cfg : TRCfg K X) (H : E → E) (x1 : X) (gf1 : E) (Delta N : K) (n : Nat) : ∀ j t, (tcgLoop env cfg H x1 gf1 Delta N n j t).2.2.2 ≤ n := by
  induction n with
  | zero => intro j t; exact Nat.le_refl _
  | succ n ih =>
    intro j t
    unfold tcgLoop
    dsimp only
    split_ifs <;> first | exact Nat.succ_le_succ (Nat.zero_le _) | exact Nat.succ_le_succ (ih _ _)

theorem tcg_count (env : TREnv K X E) (cfg : TRCfg K X) (H : E → E) (x1 : X) (gf1 eta1 : E) (Delta : K) : (tcg env cfg H x1 gf1 eta1 Delta).2.2.2 ≤ cfg.maxInner + if cfg.useRand then 1 else 0 :=
  Nat.add_le_add_right (tcgLoop_count ..) _

/-- Actions of the Hessian one pass of the outer loop can need. -/
def passHess (cfg : TRCfg K X) : Nat := cfg.maxInner + (if cfg.useRand then 1 else 0) + 1

theorem trLoop_counts (env : TREnv K X E) (cfg : TRCfg K X) (hk : TRHooks K X E M) (hg : ∀ o p : TRObj K X E M, (hk.updateData o).2.2.1 + (hk.acceptence p).2.2 ≤ 1) (n : Nat) :
    ∀ (isstop : Bool) (o o' : TRObj K X E M), trLoop env cfg hk n isstop o = some o' →
      o.iter ≤ o'.iter ∧ o.cnt.nf + (o'.iter - o.iter) ≤ o'.cnt.nf ∧ o'.cnt.nf ≤ o.cnt.nf + (o'.iter - o.iter) + 1 ∧ o'.cnt.ng ≤ o.cnt.ng + (o'.iter - o.iter) + 1 ∧
        o'.cnt.nH ≤ o.cnt.nH + (o'.iter - o.iter + 1) * passHess cfg := by
  induction n with
  | zero => intro isstop o o' h; cases h
  | succ n ih =>
    intro isstop o o' h
    rw [trLoop] at h
    split_ifs at h with hc
    · dsimp only at h
      have ht : (trTrial env cfg hk o).iter = o.iter ∧ (trTrial env cfg hk o).cnt.nf = o.cnt.nf + 1 ∧ (trTrial env cfg hk o).cnt.ng = o.cnt.ng ∧
          (trTrial env cfg hk o).cnt.nH + 1 ≤ o.cnt.nH + passHess cfg := by
        refine ⟨rfl, rfl, rfl, ?_⟩
        have := tcg_count env cfg (hk.hess { o with eta1 := env.smul (env.lit 0 1) o.gf1 }) o.x1 o.gf1 (env.smul (env.lit 0 1) o.gf1) o.Delta
        show o.cnt.nH + _ + 1 ≤ _
        unfold passHess
        exact (Nat.add_le_add_right (Nat.add_le_add_left this _) 1).trans (le_of_eq (by omega))
      generalize trTrial env cfg hk o = p at h ht
      obtain ⟨t1, t2, t3, t4⟩ := ht
      have hmul : ∀ a : Nat, (a + 1 + 1) * passHess cfg = (a + 1) * passHess cfg + passHess cfg := fun a => Nat.succ_mul _ _
      split_ifs at h with hfin hD hA
      · cases h
        have hr : (trRatio env hk p).iter = p.iter ∧ (trRatio env hk p).cnt.nf = p.cnt.nf ∧ (trRatio env hk p).cnt.ng ≤ p.cnt.ng + 1 ∧ (trRatio env hk p).cnt.nH = p.cnt.nH + 1 :=
          ⟨rfl, rfl, Nat.add_le_add_left ((Nat.le_add_right _ _).trans (hg _ p)) _, rfl⟩
        generalize trRatio env hk p = r at hr ⊢
        obtain ⟨r1, r2, r3, r4⟩ := hr
        dsimp only
        rw [r1, t1]
        refine ⟨Nat.le_refl _, ?_, ?_, ?_, ?_⟩ <;> rw [Nat.sub_self]
        · omega
        · omega
        · omega
        · rw [Nat.zero_add, Nat.one_mul]; omega
      · have hr : (trAccept env hk { trRatio env hk p with Delta := (trRadius env cfg (trRatio env hk p)).1 }).iter = p.iter ∧
            (trAccept env hk { trRatio env hk p with Delta := (trRadius env cfg (trRatio env hk p)).1 }).cnt.nf = p.cnt.nf ∧
            (trAccept env hk { trRatio env hk p with Delta := (trRadius env cfg (trRatio env hk p)).1 }).cnt.ng ≤ p.cnt.ng + 1 ∧
            (trAccept env hk { trRatio env hk p with Delta := (trRadius env cfg (trRatio env hk p)).1 }).cnt.nH = p.cnt.nH + 1 := by
          refine ⟨rfl, rfl, ?_, rfl⟩
          show p.cnt.ng + _ + _ ≤ p.cnt.ng + 1
          rw [Nat.add_assoc]
          exact Nat.add_le_add_left (hg _ _) _
        generalize trAccept env hk { trRatio env hk p with Delta := (trRadius env cfg (trRatio env hk p)).1 } = r at h hr
        obtain ⟨r1, r2, r3, r4⟩ := hr
        obtain ⟨i1, i2, i3, i4, i5⟩ := ih _ _ _ h
        have e1 : (trRecord (trSwap r)).iter = r.iter + 1 := rfl
        have e2 : (trRecord (trSwap r)).cnt = r.cnt := rfl
        rw [e1] at i1 i2 i3 i4 i5
        rw [e2] at i2 i3 i4 i5
        have hs : o'.iter - o.iter = o'.iter - (r.iter + 1) + 1 := by omega
        rw [hs, hmul]
        refine ⟨by omega, by omega, by omega, by omega, by omega⟩
      · have hr : (trRatio env hk p).iter = p.iter ∧ (trRatio env hk p).cnt.nf = p.cnt.nf ∧ (trRatio env hk p).cnt.ng ≤ p.cnt.ng + 1 ∧ (trRatio env hk p).cnt.nH = p.cnt.nH + 1 :=
          ⟨rfl, rfl, Nat.add_le_add_left ((Nat.le_add_right _ _).trans (hg _ p)) _, rfl⟩
        generalize trRatio env hk p = r at h hr
        obtain ⟨r1, r2, r3, r4⟩ := hr
        obtain ⟨i1, i2, i3, i4, i5⟩ := ih _ _ _ h
        have e1 : ∀ D, (trRecord { r with Delta := D, iter := r.iter + 1 }).iter = r.iter + 1 := fun _ => rfl
        have e2 : ∀ D, (trRecord { r with Delta := D, iter := r.iter + 1 }).cnt = r.cnt := fun _ => rfl
        rw [e1] at i1 i2 i3 i4 i5
        rw [e2] at i2 i3 i4 i5
        have hs : o'.iter - o.iter = o'.iter - (r.iter + 1) + 1 := by omega
        rw [hs, hmul]
        refine ⟨by omega, by omega, by omega, by omega, by omega⟩
      · cases h
        rw [t1, Nat.sub_self, Nat.zero_add, Nat.one_mul]
        refine ⟨Nat.le_refl _, by omega, by omega, by omega, by omega⟩
    · cases h
      rw [Nat.sub_self]
      refine ⟨Nat.le_refl _, by omega, by omega, by omega, by omega⟩

/-- **C141**, bounds for the trust-region solvers: a run with `iter` iterations evaluates the function `iter + 1` or `iter + 2` times, asks for at most `iter + 2` gradients and for at most
`(iter + 1) (Max_Inner_Iter + 1)` actions of the Hessian, one more per pass if `useRand` is set. -/
theorem C141_tr_bounds (env : TREnv K X E) (cfg : TRCfg K X) (hk : TRHooks K X E M) (hg : ∀ o p : TRObj K X E M, (hk.updateData o).2.2.1 + (hk.acceptence p).2.2 ≤ 1) (n : Nat) (o o' : TRObj K X E M)
    (hr : trRun env cfg hk n o = some o') :
    o.cnt.nf + o'.iter + 1 ≤ o'.cnt.nf ∧ o'.cnt.nf ≤ o.cnt.nf + o'.iter + 2 ∧ o'.cnt.ng ≤ o.cnt.ng + o'.iter + 2 ∧ o'.cnt.nH ≤ o.cnt.nH + (o'.iter + 1) * (cfg.maxInner + 1 + if cfg.useRand then 1 else 0) := by
  unfold trRun at hr
  dsimp only at hr
  obtain ⟨p, hp, rfl⟩ := Option.map_eq_some_iff.mp hr
  obtain ⟨_, i2, i3, i4, i5⟩ := trLoop_counts env cfg hk hg n _ _ _ hp
  have e1 : (trPrologue env cfg o).iter = 0 := rfl
  have e2 : (trPrologue env cfg o).cnt = { o.cnt with nf := o.cnt.nf + 1, ng := o.cnt.ng + 1 } := rfl
  rw [e1, e2] at i2 i3 i4 i5
  dsimp only at *
  have e3 : passHess cfg = cfg.maxInner + 1 + if cfg.useRand then 1 else 0 := by unfold passHess; omega
  rw [e3] at i5
  refine ⟨by omega, by omega, by omega, i5⟩

/-- `RTRNewton`, `RTRSD` and `RTRSR1` ask for at most one gradient per pass. -/
theorem rtr_one_grad (env : TREnv K X E) (H : X → E → E) (o p : TRObj K X E Unit) : ((rtr env H).updateData o).2.2.1 + ((rtr env H).acceptence p).2.2 ≤ 1 := Nat.le_refl 1

theorem rtrsr1_one_grad {L : Type*} (env : TREnv K X E) (op : OpEnv K X E L) (invTran : X → E → X → E → E) (o p : TRObj K X E (SR1Own K E L)) :
    ((rtrsr1 env op invTran).updateData o).2.2.1 + ((rtrsr1 env op invTran).acceptence p).2.2 ≤ 1 := by
  unfold rtrsr1
  dsimp only
  split_ifs <;> exact Nat.le_refl 1

/-- The counters are never reset by `SetProbX` or `Run`: after two runs of one object they are the totals. -/
theorem C141_totals (k : LSKind K X E) (env env' : Env K X E) (cfg : Cfg K X E) (ls : LSCfg K) (hk : Hooks K X E M) (m n : Nat) (e : E) (reset : M → M) (x : X) (o o' o2 : Obj K X E M)
    (h1 : runWith env cfg hk (k.search env cfg ls m) n o = some o') (h2 : runWith env' cfg hk (k.search env' cfg ls m) n (setProbX e reset x o') = some o2) :
    o.cnt.nf < o'.cnt.nf ∧ o'.cnt.nf < o2.cnt.nf ∧ o'.cnt.ng < o2.cnt.ng := by
  have key : ∀ (env : Env K X E) (o o' : Obj K X E M), runWith env cfg hk (k.search env cfg ls m) n o = some o' → o.cnt.nf < o'.cnt.nf ∧ o.cnt.ng < o'.cnt.ng := by
    intro env o o' h
    obtain ⟨F, G, R, a1, a2, a3, a4, -⟩ := C141_line_search k env cfg ls hk m n ⟨env.f, env.grad, env.retr, fun _ v => v⟩ o o' h
    obtain ⟨q, -, q1, -⟩ := runWith_reads (env := env) (cfg := cfg) hk (k.honest env cfg ls m ⟨env.f, env.grad, env.retr, fun _ v => v⟩) n o
    have := q1 o' h
    omega
  exact ⟨(key env o o' h1).1, (key env' _ o2 h2).1, (key env' _ o2 h2).2⟩

/-! ## One gradient per iteration with the Armijo searches -/

theorem backtrack_grads (env : Env K X E) (cfg : Cfg K X E) (mp : K) (n : Nat) : ∀ o p : Obj K X E M, backtrack env cfg mp n o = some p → p.cnt.ng = o.cnt.ng ∧ p.iter = o.iter := by
  induction n with
  | zero => intro o p h; cases h
  | succ n ih =>
    intro o p h
    rw [backtrack] at h
    dsimp only at h
    split_ifs at h
    · cases h; exact ⟨rfl, rfl⟩
    · have := ih _ _ h
      exact this
    · cases h; exact ⟨rfl, rfl⟩

theorem interpLoop_grads (env : Env K X E) (cfg : Cfg K X E) (mp : K) (n : Nat) : ∀ (a b c : K) (o p : Obj K X E M), interpLoop env cfg mp n a b c o = some p → p.cnt.ng = o.cnt.ng ∧ p.iter = o.iter := by
  induction n with
  | zero => intro a b c o p h; cases h
  | succ n ih =>
    intro a b c o p h
    rw [interpLoop] at h
    dsimp only at h
    split_ifs at h
    · cases h; exact ⟨rfl, rfl⟩
    · have := ih _ _ _ _ _ h
      exact this
    · cases h; exact ⟨rfl, rfl⟩

theorem armijo_one_grad (env : Env K X E) (cfg : Cfg K X E) (n : Nat) (o p : Obj K X E M) (h : armijo env cfg n o = some p) : p.cnt.ng = o.cnt.ng + 1 ∧ p.iter = o.iter := by
  unfold armijo at h
  dsimp only at h
  split_ifs at h
  · obtain ⟨r, hr, rfl⟩ := Option.map_eq_some_iff.mp h
    have := backtrack_grads env cfg _ n _ _ hr
    exact ⟨congrArg (· + 1) this.1, this.2⟩
  · obtain ⟨r, hr, rfl⟩ := Option.map_eq_some_iff.mp h
    have := interpLoop_grads env cfg _ n _ _ _ _ _ hr
    exact ⟨congrArg (· + 1) this.1, this.2⟩
  · obtain ⟨r, hr, rfl⟩ := Option.map_eq_some_iff.mp h
    have := interpLoop_grads env cfg _ n _ _ _ _ _ hr
    exact ⟨congrArg (· + 1) this.1, this.2⟩

theorem loopWith_grads (env : Env K X E) (cfg : Cfg K X E) (hk : Hooks K X E M) (s : Obj K X E M → Option (Obj K X E M)) (hs : ∀ o p, s o = some p → p.cnt.ng = o.cnt.ng + 1 ∧ p.iter = o.iter) (n : Nat) :
    ∀ (nonmon isstop : Bool) (o o' : Obj K X E M), loopWith env cfg hk s n nonmon isstop o = some o' →
      o.iter ≤ o'.iter ∧ (o'.cnt.ng = o.cnt.ng + (o'.iter - o.iter) ∨ env.finite o'.f2 = false ∧ o'.cnt.ng = o.cnt.ng + (o'.iter - o.iter) + 1) := by
  induction n with
  | zero => intro nonmon isstop o o' h; cases h
  | succ n ih =>
    intro nonmon isstop o o' h
    rw [loopWith] at h
    split_ifs at h with hc
    · have hp : (prepare env cfg hk o).cnt.ng = o.cnt.ng ∧ (prepare env cfg hk o).iter = o.iter := by
        unfold prepare initialStepSize
        dsimp only
        split_ifs <;> exact ⟨rfl, rfl⟩
      have hsw : ∀ p, searchWith env cfg s (prepare env cfg hk o) = some p → p.cnt.ng = o.cnt.ng + 1 ∧ p.iter = o.iter := by
        intro p h
        unfold searchWith at h
        split_ifs at h
        all_goals first
          | (have := hs _ _ h; rw [hp.1, hp.2] at this; exact this)
          | (cases h; exact ⟨congrArg (· + 1) hp.1, hp.2⟩)
      cases hr : searchWith env cfg s (prepare env cfg hk o) with
      | none => rw [hr] at h; cases h
      | some p =>
        rw [hr] at h
        obtain ⟨p1, p2⟩ := hsw p hr
        dsimp only at h
        split_ifs at h with hf
        · obtain ⟨i1, i2⟩ := ih _ _ _ _ h
          have e1 : (advance env cfg nonmon (afterSearch env hk p)).2.iter = p.iter + 1 := rfl
          have e2 : (advance env cfg nonmon (afterSearch env hk p)).2.cnt.ng = p.cnt.ng := rfl
          rw [e1] at i1 i2
          rw [e2] at i2
          have hsub : o'.iter - o.iter = o'.iter - (p.iter + 1) + 1 := by omega
          rw [hsub]
          refine ⟨by omega, ?_⟩
          rcases i2 with i2 | ⟨i2, i3⟩
          · exact Or.inl (by omega)
          · exact Or.inr ⟨i2, by omega⟩
        · cases h
          rw [p2, Nat.sub_self]
          exact ⟨Nat.le_refl _, Or.inr ⟨Bool.eq_false_iff.mpr hf, p1⟩⟩
    · cases h
      exact ⟨Nat.le_refl _, Or.inl (by omega)⟩

/-- **C141**, Armijo: with the default search exactly one gradient per iteration is computed, besides the one at the start (one more if the run was left at a value that is not finite). -/
theorem C141_armijo_one_gradient (env : Env K X E) (cfg : Cfg K X E) (ls : LSCfg K) (hk : Hooks K X E M) (m n : Nat) (o o' : Obj K X E M) (hr : runWith env cfg hk ((LSKind.armijo).search env cfg ls m) n o = some o')
    (hf : env.finite o'.f2 = true) : o'.cnt.ng = o.cnt.ng + 1 + o'.iter := by
  unfold runWith at hr
  dsimp only at hr
  obtain ⟨p, hp, rfl⟩ := Option.map_eq_some_iff.mp hr
  obtain ⟨_, i2⟩ := loopWith_grads env cfg hk _ (armijo_one_grad env cfg m) n _ _ _ _ hp
  have e1 : (prologue env o).iter = 0 := rfl
  have e2 : (prologue env o).cnt.ng = o.cnt.ng + 1 := rfl
  rw [e1, e2] at i2
  dsimp only at *
  rcases i2 with i2 | ⟨i2, _⟩
  · exact i2
  · rw [i2] at hf; cases hf

/-! ## The order of the calls -/

/-- A list of questions in which every gradient is asked at the point the function was evaluated at last, starting with `x`, and every Hessian at a point at which the gradient was asked before. -/
structure Ordered3 (c0 : Calls K X E) (x : X) (q : List (Ask X E)) : Prop where
  /-- Nothing but Hessian actions and gradients happened at `y` since the function was evaluated there. -/
  grad : ∀ a b y, q = a ++ .grad y :: b → (y = x ∧ ∀ z v, Ask.step z v ∉ a) ∨ ∃ a1 a2 z v, a = a1 ++ .step z v :: a2 ∧ c0.retr z v = y ∧ ∀ z v, Ask.step z v ∉ a2
  hess : ∀ a b y v, q = a ++ .hess y v :: b → y = x ∨ .grad y ∈ a

theorem legal_split (c0 : Calls K X E) (a b : List (Ask X E)) : ∀ S l, Legal c0 S l (a ++ b) → Legal c0 (known S a) (lastPt c0 l a) b := by
  induction a with
  | nil => intro S l h; exact h
  | cons t a ih =>
    intro S l h
    cases t with
    | step x v => exact ih _ _ h
    | grad x => exact ih _ _ h.2
    | hess x v => exact ih _ _ h.2

theorem lastPt_cases (c0 : Calls K X E) (a : List (Ask X E)) : ∀ l, (lastPt c0 l a = l ∧ ∀ z v, Ask.step z v ∉ a) ∨ ∃ a1 a2 z v, a = a1 ++ .step z v :: a2 ∧ c0.retr z v = lastPt c0 l a ∧ ∀ z v, Ask.step z v ∉ a2 := by
  induction a with
  | nil => intro l; exact Or.inl ⟨rfl, fun _ _ h => by cases h⟩
  | cons t a ih =>
    intro l
    have wrap : ∀ l', lastPt c0 l (t :: a) = lastPt c0 l' a → (∃ a1 a2 z v, a = a1 ++ .step z v :: a2 ∧ c0.retr z v = lastPt c0 l' a ∧ ∀ z v, Ask.step z v ∉ a2) →
        ∃ a1 a2 z v, t :: a = a1 ++ .step z v :: a2 ∧ c0.retr z v = lastPt c0 l (t :: a) ∧ ∀ z v, Ask.step z v ∉ a2 := by
      rintro l' e ⟨a1, a2, z, v, h1, h2, h3⟩
      exact ⟨t :: a1, a2, z, v, by rw [h1]; rfl, by rw [e]; exact h2, h3⟩
    cases t with
    | step x v =>
      rcases ih (c0.retr x v) with ⟨h1, h2⟩ | h
      · exact Or.inr ⟨[], a, x, v, rfl, h1.symm, h2⟩
      · exact Or.inr (wrap _ rfl h)
    | grad x =>
      rcases ih l with ⟨h1, h2⟩ | h
      · exact Or.inl ⟨h1, fun z v hm => by rcases List.mem_cons.mp hm with h | h; cases h; exact h2 _ _ h⟩
      · exact Or.inr (wrap _ rfl h)
    | hess x v =>
      rcases ih l with ⟨h1, h2⟩ | h
      · exact Or.inl ⟨h1, fun z v hm => by rcases List.mem_cons.mp hm with h | h; cases h; exact h2 _ _ h⟩
      · exact Or.inr (wrap _ rfl h)

theorem mem_known (a : List (Ask X E)) : ∀ S (y : X), y ∈ known S a → y ∈ S ∨ Ask.grad y ∈ a := by
  induction a with
  | nil => intro S y h; exact Or.inl h
  | cons t a ih =>
    intro S y h
    cases t with
    | step x v => exact (ih _ _ h).imp id (List.mem_cons_of_mem _)
    | hess x v => exact (ih _ _ h).imp id (List.mem_cons_of_mem _)
    | grad x =>
      rcases ih _ _ h with h | h
      · rcases List.mem_cons.mp h with rfl | h
        · exact Or.inr (List.mem_cons_self ..)
        · exact Or.inl h
      · exact Or.inr (List.mem_cons_of_mem _ h)

theorem ordered_of_legal (c0 : Calls K X E) (x : X) (q : List (Ask X E)) (h : Legal c0 [x] x q) : Ordered3 c0 x q where
  grad := by
    rintro a b y rfl
    have h' := (legal_split c0 a _ _ _ h).1
    rcases lastPt_cases c0 a x with ⟨h1, h2⟩ | ⟨a1, a2, z, v, h1, h2, h3⟩
    · exact Or.inl ⟨h'.trans h1, h2⟩
    · exact Or.inr ⟨a1, a2, z, v, h1, h2.trans h'.symm, h3⟩
  hess := by
    rintro a b y v rfl
    have h' := (legal_split c0 a _ _ _ h).1
    rcases mem_known a _ _ h' with h | h
    · exact Or.inl (List.mem_singleton.mp h)
    · exact Or.inr h

/-- **C142** for the solvers with a line search: the function value and the gradient at the initial iterate come first; after that the run is determined by the answers to a list of questions, as many of each kind as the counters say,
in which every gradient belongs to the point at which the function was evaluated immediately before. So `EucGrad` finds what `f` has stored in its argument. -/
theorem C142_line_search (k : LSKind K X E) (env : Env K X E) (cfg : Cfg K X E) (ls : LSCfg K) (hk : Hooks K X E M) (m n : Nat) (c0 : Calls K X E) (o o' : Obj K X E M)
    (hr : runWith (env.withCalls c0) cfg hk (k.search (env.withCalls c0) cfg ls m) n o = some o') :
    ∃ q : List (Ask X E), Ordered3 c0 o.x1 q ∧ o'.cnt.nf = o.cnt.nf + 1 + steps q ∧ o'.cnt.ng = o.cnt.ng + 1 + grads q ∧ o'.cnt.nR = o.cnt.nR + steps q ∧
      ∀ c, c.f o.x1 = c0.f o.x1 → c.grad o.x1 = c0.grad o.x1 → Agree c0 c q → runWith (env.withCalls c) cfg hk (k.search (env.withCalls c) cfg ls m) n o = some o' := by
  obtain ⟨q, q0, q1, q2⟩ := runWith_reads (env := env) (cfg := cfg) hk (k.honest env cfg ls m c0) n o
  obtain ⟨h1, h2, h3⟩ := q1 o' hr
  exact ⟨q, ordered_of_legal c0 _ q q0, h1, h2, h3, fun c a b d => (q2 c a b d).trans hr⟩

/-- **C142** for `RTRNewton`: moreover the Hessian is asked only at points at which the gradient was asked before, so that `EucHessianEta` finds what `f` and `EucGrad` have stored. -/
theorem C142_rtrnewton (env : TREnv K X E) (cfg : TRCfg K X) (n : Nat) (c0 : Calls K X E) (o o' : TRObj K X E Unit) (hr : trRun (env.withCalls c0) cfg (rtr (env.withCalls c0) c0.hess) n o = some o') :
    ∃ q : List (Ask X E), Ordered3 c0 o.x1 q ∧ o'.cnt.nf = o.cnt.nf + 1 + steps q ∧ o'.cnt.ng = o.cnt.ng + 1 + grads q ∧ o'.cnt.nR = o.cnt.nR + steps q ∧ o'.cnt.nH = o.cnt.nH + hesss q ∧
      ∀ c, c.f o.x1 = c0.f o.x1 → c.grad o.x1 = c0.grad o.x1 → Agree c0 c q → trRun (env.withCalls c) cfg (rtr (env.withCalls c) c.hess) n o = some o' := by
  obtain ⟨q, q0, q1, q2⟩ := trRun_reads (env := env) (cfg := cfg) (honest_rtr env c0) n o
  obtain ⟨h1, h2, h3, h4⟩ := q1 o' hr
  exact ⟨q, ordered_of_legal c0 _ q q0, h1, h2, h3, by omega, fun c a b d => (q2 c a b d).trans hr⟩

/-- **C142** for `RTRSD` and `RTRSR1`. -/
theorem C142_trust_region (env : TREnv K X E) (cfg : TRCfg K X) (n : Nat) (c0 : Calls K X E) (hk : Calls K X E → TRHooks K X E M) (hh : HonestHooks c0 0 hk) (o o' : TRObj K X E M)
    (hr : trRun (env.withCalls c0) cfg (hk c0) n o = some o') :
    ∃ q : List (Ask X E), Ordered3 c0 o.x1 q ∧ hesss q = 0 ∧ o'.cnt.nf = o.cnt.nf + 1 + steps q ∧ o'.cnt.ng = o.cnt.ng + 1 + grads q ∧ o'.cnt.nR = o.cnt.nR + steps q ∧
      ∀ c, c.f o.x1 = c0.f o.x1 → c.grad o.x1 = c0.grad o.x1 → Agree c0 c q → trRun (env.withCalls c) cfg (hk c) n o = some o' := by
  obtain ⟨q, q0, q1, q2⟩ := trRun_reads (env := env) (cfg := cfg) hh n o
  obtain ⟨h1, h2, h3, h4⟩ := q1 o' hr
  exact ⟨q, ordered_of_legal c0 _ q q0, by omega, h1, h2, h3, fun c a b d => (q2 c a b d).trans hr⟩

/-- Non-trivial instance: Armijo on `2 x²` from 3 with two iterations: three gradients, four function values, three retractions. -/
example : ((runWith (lineEnv 4) (lineCfg .gradF0 0 2) (rsd (lineEnv 4)) ((LSKind.armijo).search (lineEnv 4) (lineCfg .gradF0 0 2) repLS 10) 10 (freshObj () 3)).map
    fun o => (o.x1, o.iter, o.cnt.nf, o.cnt.ng, o.cnt.nR)) = some (0, 2, 4, 3, 3) := by decide +kernel

/-- Non-trivial instance for the trust region: two iterations, three function values, three gradients, four Hessian actions. -/
example : ((trRun (lineTREnv 4) (lineTRCfg 5) (rtr (lineTREnv 4) fun _ v => 4 * v) 10 (trSetProbX 0 id 3 (freshTR () 7))).map
    fun o => (o.iter, o.cnt.nf, o.cnt.ng, o.cnt.nR, o.cnt.nH)) = some (2, 3, 3, 2, 4) := by decide +kernel

end Verif.Obj
