import Verif.Solver.ReadsSearch

/-!
# Which values a run consults

Helper lemmas for C141 and C142: the run loops of `SolversSMLS` and `SolversSMTR` satisfy `Reads`.
-/

namespace Verif.Obj

variable {K X E M : Type*} [Add K] [Sub K] [Mul K] [Div K] [Neg K]

/-! ## Line-search solvers -/

section ls

variable {env : Env K X E} {cfg : Cfg K X E} {c0 : Calls K X E}

/-- A family of searches (one for each way of answering) that consults what its counters say. -/
def Honest (c0 : Calls K X E) (s : Calls K X E → Obj K X E M → Option (Obj K X E M)) : Prop := ∀ S l o, Reads obsOpt AtX2Opt c0 (obs o) S l fun c => s c o

theorem searchWith_reads {s : Calls K X E → Obj K X E M → Option (Obj K X E M)} (hs : Honest c0 s) (S : List X) (l : X) (o : Obj K X E M) :
    Reads obsOpt AtX2Opt c0 (obs o) S l fun c => searchWith (env.withCalls c) cfg (s c) o := by
  refine Reads.ite (env.lt (o.ngf1 / (o.ngf0 + cfg.tol)) cfg.accuracy) (fun _ => ?_) (fun _ => hs _ _ _)
  refine Reads.h (env := env) (o := { o with stepsize := if env.lt (env.lit 0 1) cfg.finalstep then cfg.finalstep else o.initiallength }) (k := fun c p => some (gradX2 (env.withCalls c) p)) ?_
  exact Reads.gradX2 (env := env) (k := fun _ p => some p) fun _ => Reads.doneOpt _ rfl rfl

/-- No condition on the result. -/
def AnyPost {α : Type*} (_ : α) (_ : List X) (_ : X) : Prop := True

theorem obs_prepare (e : Env K X E) (hk : Hooks K X E M) (o : Obj K X E M) : obs (prepare e cfg hk o) = obs o := by
  unfold prepare initialStepSize
  dsimp only
  split_ifs <;> rfl

theorem Reads.shift {α : Type*} {get : α → Option (Mark X)} {P : α → List X → X → Prop} {a b : Mark X} {S : List X} {l : X} {F : Calls K X E → α}
    (h : Reads get P c0 a S l F) (e : a.nf = b.nf ∧ a.ng = b.ng ∧ a.nR = b.nR ∧ a.nH = b.nH) : Reads get P c0 b S l F := by
  obtain ⟨q, q0, q1, q2⟩ := h
  refine ⟨q, q0, fun m hm => ⟨⟨?_, ?_, ?_, ?_⟩, (q1 m hm).2⟩, q2⟩
  · rw [(q1 m hm).1.nf, e.1]
  · rw [(q1 m hm).1.ng, e.2.1]
  · rw [(q1 m hm).1.nR, e.2.2.1]
  · rw [(q1 m hm).1.nH, e.2.2.2]

theorem anyOpt (o : Obj K X E M) {S : List X} {l : X} : Reads obsOpt AnyPost c0 (obs o) S l fun _ => some o :=
  Reads.const _ fun m hm => by cases hm; exact ⟨⟨rfl, rfl, rfl, rfl⟩, trivial⟩

theorem loopWith_reads (hk : Hooks K X E M) {s : Calls K X E → Obj K X E M → Option (Obj K X E M)} (hs : Honest c0 s) (n : Nat) : ∀ (S : List X) (l : X) (nonmon isstop : Bool) (o : Obj K X E M),
    Reads obsOpt AnyPost c0 (obs o) S l fun c => loopWith (env.withCalls c) cfg hk (s c) n nonmon isstop o := by
  induction n with
  | zero => intro S l nonmon isstop o; exact Reads.const _ (fun m hm => by cases hm)
  | succ n ih =>
    intro S l nonmon isstop o
    refine Reads.ite (((!isstop && decide (o.iter < cfg.maxIter)) || decide (o.iter < cfg.minIter)) && decide (o.status = .success)) (fun _ => ?_) (fun _ => anyOpt o)
    have h1 : Reads obsOpt AtX2Opt c0 (obs o) S l fun c => searchWith (env.withCalls c) cfg (s c) (prepare env cfg hk o) :=
      by
      rw [← obs_prepare (cfg := cfg) env hk o]
      exact searchWith_reads hs S l (prepare env cfg hk o)
    refine Reads.bind (get' := obsOpt) (P' := AnyPost) (G := fun c (r : Option (Obj K X E M)) => match r with
      | none => none
      | some o =>
        if env.finite o.f2 then
          let o := afterSearch env hk o
          let isstop := isStopped env cfg o
          let (nonmon, o) := advance env cfg nonmon o
          loopWith (env.withCalls c) cfg hk (s c) n nonmon isstop o
        else some o) h1 ?_ ?_
    · intro m S' l' hm _ _
      revert hm
      generalize searchWith (env.withCalls c0) cfg (s c0) (prepare (env.withCalls c0) cfg hk o) = r
      intro hm
      cases r with
      | none => cases hm
      | some p =>
        cases hm
        exact Reads.ite (env.finite p.f2) (fun _ => Reads.shift (ih S' l' (advance env cfg nonmon (afterSearch env hk p)).1 (isStopped env cfg (afterSearch env hk p)) (advance env cfg nonmon (afterSearch env hk p)).2) ⟨rfl, rfl, rfl, rfl⟩) (fun _ => anyOpt p)
    · intro hm c
      revert hm
      generalize searchWith (env.withCalls c0) cfg (s c0) (prepare (env.withCalls c0) cfg hk o) = r
      intro hm
      cases r with
      | none => exact ⟨rfl, rfl⟩
      | some p => cases hm

/-- The run after its first function value and gradient. -/
theorem runWith_reads (hk : Hooks K X E M) {s : Calls K X E → Obj K X E M → Option (Obj K X E M)} (hs : Honest c0 s) (n : Nat) (o : Obj K X E M) :
    ∃ q : List (Ask X E), Legal c0 [o.x1] o.x1 q ∧
      (∀ o', runWith (env.withCalls c0) cfg hk (s c0) n o = some o' → o'.cnt.nf = o.cnt.nf + 1 + steps q ∧ o'.cnt.ng = o.cnt.ng + 1 + grads q ∧ o'.cnt.nR = o.cnt.nR + steps q) ∧
      ∀ c, c.f o.x1 = c0.f o.x1 → c.grad o.x1 = c0.grad o.x1 → Agree c0 c q → runWith (env.withCalls c) cfg hk (s c) n o = runWith (env.withCalls c0) cfg hk (s c0) n o := by
  obtain ⟨q, q0, q1, q2⟩ := loopWith_reads (env := env) (cfg := cfg) hk hs n [o.x1] o.x1 false (isStopped (env.withCalls c0) cfg (prologue (env.withCalls c0) o)) (prologue (env.withCalls c0) o)
  refine ⟨q, q0, ?_, ?_⟩
  · intro o' ho'
    unfold runWith at ho'
    dsimp only at ho'
    obtain ⟨p, hp, rfl⟩ := Option.map_eq_some_iff.mp ho'
    have hf := (q1 (obs p) (congrArg obsOpt hp)).1
    exact ⟨hf.nf, hf.ng, hf.nR⟩
  · intro c e1 e2 hc
    have hpro : prologue (env.withCalls c) o = prologue (env.withCalls c0) o := by
      unfold prologue
      dsimp only [Env.withCalls]
      rw [e1, e2]
    unfold runWith
    dsimp only
    rw [hpro]
    exact congrArg _ (q2 c hc)

end ls

/-! ## Trust-region solvers -/

section tr

/-- The same environment with other answers. -/
def TREnv.withCalls (env : TREnv K X E) (c : Calls K X E) : TREnv K X E := { env with toEnv := env.toEnv.withCalls c }

variable {env : TREnv K X E} {cfg : TRCfg K X} {c0 : Calls K X E}

/-- Counters and candidate of a trust-region object; `d` is 1 if the Hessian is the problem's and 0 if it is the solver's own approximation (whose actions the code counts too). -/
def trObs (d : Nat) (o : TRObj K X E M) : Mark X := ⟨o.cnt.nf, o.cnt.ng, o.cnt.nR, d * o.cnt.nH, o.x2⟩

/-- What the hooks of a trust-region solver consult: `HessianEta` one action of the Hessian at the iterate (if `d = 1`), `UpdateData` and `Acceptence` as many gradients at the candidate as they count, none of it twice; after
acceptance the gradient at the candidate is known (if `d = 1`). -/
structure HonestHooks (c0 : Calls K X E) (d : Nat) (hk : Calls K X E → TRHooks K X E M) : Prop where
  hess : ∀ (o : TRObj K X E M) (v : E), (∀ c, (hk c).hess o v = (hk c0).hess o v) ∧ d = 0 ∨ (∀ c, c.hess o.x1 v = c0.hess o.x1 v → (hk c).hess o v = (hk c0).hess o v) ∧ d = 1
  update : ∀ o : TRObj K X E M, (∀ c, (hk c).updateData o = (hk c0).updateData o) ∧ ((hk c0).updateData o).2.2.1 = 0 ∨
    (∀ c, c.grad o.x2 = c0.grad o.x2 → (hk c).updateData o = (hk c0).updateData o) ∧ ((hk c0).updateData o).2.2.1 = 1
  accept : ∀ o : TRObj K X E M, (∀ c, (hk c).acceptence o = (hk c0).acceptence o) ∧ ((hk c0).acceptence o).2.2 = 0 ∧ d = 0 ∨
    (∀ c, c.grad o.x2 = c0.grad o.x2 → (hk c).acceptence o = (hk c0).acceptence o) ∧ ((hk c0).acceptence o).2.2 = 1

variable {α β : Type*} {get : α → Option (Mark X)} {get' : β → Option (Mark X)} {P : α → List X → X → Prop} {P' : β → List X → X → Prop} {a : Mark X} {S : List X} {l : X} {d : Nat}

/-- A family of operators that consults one action of the Hessian at `x` (`d = 1`) or nothing (`d = 0`). -/
def HonestHess (c0 : Calls K X E) (d : Nat) (x : X) (H : Calls K X E → E → E) : Prop := ∀ v, (∀ c, H c v = H c0 v) ∧ d = 0 ∨ (∀ c, c.hess x v = c0.hess x v → H c v = H c0 v) ∧ d = 1

theorem Reads.hessD {k : Calls K X E → E → α} {x : X} {H : Calls K X E → E → E} (hH : HonestHess c0 d x H) (hx : d = 1 → x ∈ S) (v : E)
    (hk : Reads get P c0 ⟨a.nf, a.ng, a.nR, a.nH + d, a.pt⟩ S l fun c => k c (H c0 v)) : Reads get P c0 a S l fun c => k c (H c v) := by
  rcases hH v with ⟨h, rfl⟩ | ⟨h, rfl⟩
  · have e : (fun c => k c (H c v)) = fun c => k c (H c0 v) := funext fun c => by rw [h c]
    rw [e]
    exact hk
  · exact Reads.hess (G := fun c => H c v) x v h (hx rfl) hk

theorem Reads.wrap {F : Calls K X E → α} (g : α → β) (hF : Reads get P c0 a S l F) (hg : ∀ v, get' (g v) = get v) : Reads get' (fun _ _ _ => True) c0 a S l fun c => g (F c) := by
  obtain ⟨q, q0, q1, q2⟩ := hF
  exact ⟨q, q0, fun m hm => ⟨(q1 m (by rw [← hg]; exact hm)).1, trivial⟩, fun c hc => congrArg g (q2 c hc)⟩

/-- Counters after `tCG_TR`, started with `b` Hessian actions. -/
def tcgObs (a : Mark X) (d b : Nat) (t : E × TStatus × Nat × Nat) : Option (Mark X) := some ⟨a.nf, a.ng, a.nR, b + d * t.2.2.2, a.pt⟩

theorem tcgConst (b : Nat) (t : E × TStatus × Nat × Nat) (n : Nat) (hn : t.2.2.2 = n) :
    Reads (tcgObs a d b) (fun _ _ _ => True) c0 ⟨a.nf, a.ng, a.nR, b + d * n, a.pt⟩ S l fun _ => t := by
  refine Reads.const _ ?_
  intro m hm
  cases hm
  subst hn
  exact ⟨⟨rfl, rfl, rfl, rfl⟩, trivial⟩

theorem tcgLoop_reads {x1 : X} {H : Calls K X E → E → E} (hH : HonestHess c0 d x1 H) (hx : d = 1 → x1 ∈ S) (gf1 : E) (Delta norm_r0 : K) (n : Nat) : ∀ (j : Nat) (t : TCG K E) (b : Nat),
    Reads (tcgObs a d b) (fun _ _ _ => True) c0 ⟨a.nf, a.ng, a.nR, b, a.pt⟩ S l fun c => tcgLoop (env.withCalls c) cfg (H c) x1 gf1 Delta norm_r0 n j t := by
  induction n with
  | zero => intro j t b; exact tcgConst b _ 0 rfl
  | succ n ih =>
    intro j t b
    refine Reads.hessD (k := fun c Hd =>
      let d_Hd := env.metric x1 t.delta Hd
      let alpha := t.z_r / d_Hd
      let e_Pe_new := t.e_Pe + env.lit 2 1 * alpha * t.e_Pd + alpha * alpha * t.d_Pd
      if (env.le d_Hd (env.lit 0 1) || env.le (Delta * Delta) e_Pe_new) = true then
        let tau := (-t.e_Pd + env.sqrt (t.e_Pd * t.e_Pd + t.d_Pd * (Delta * Delta - t.e_Pe))) / t.d_Pd
        (env.axpy tau t.delta t.eta, if env.lt d_Hd (env.lit 0 1) then .negCurv else .excRegion, j, 1)
      else
        let eta := env.axpy alpha t.delta t.eta
        let Heta := env.axpy alpha Hd t.Heta
        let model := env.metric x1 eta gf1 + env.lit 1 2 * env.metric x1 eta Heta
        if env.le t.modelv model = true then (eta, .error, j, 1)
        else
          let r := env.proj x1 (env.axpy alpha Hd t.r)
          let norm_r := env.sqrt (env.metric x1 r r)
          let tempnum := env.powtheta norm_r0
          if (decide (cfg.minInner ≤ j) && env.le norm_r (norm_r0 * if env.lt tempnum cfg.kappa then tempnum else cfg.kappa)) = true then
            (eta, if env.lt cfg.kappa tempnum then .lcon else .scon, j, 1)
          else
            let z := env.precond x1 r
            let z_r := env.metric x1 z r
            let beta := z_r / t.z_r
            let delta := env.axpy (env.lit (-1) 1) z (env.smul beta t.delta)
            let res := tcgLoop (env.withCalls c) cfg (H c) x1 gf1 Delta norm_r0 n (j + 1)
              ⟨eta, Heta, r, delta, e_Pe_new, beta * (t.e_Pd + alpha * t.d_Pd), z_r + beta * beta * t.d_Pd, z_r, model⟩
            (res.1, res.2.1, res.2.2.1, res.2.2.2 + 1)) hH hx t.delta ?_
    have one : ∀ r : E × TStatus × Nat × Nat, r.2.2.2 = 1 → Reads (tcgObs a d b) (fun _ _ _ => True) c0 ⟨a.nf, a.ng, a.nR, b + d, a.pt⟩ S l fun _ => r := by
      intro r hr
      have := tcgConst (a := a) (S := S) (l := l) (c0 := c0) (d := d) b r 1 hr
      rwa [Nat.mul_one] at this
    refine Reads.ite _ (fun _ => one _ rfl) (fun _ => ?_)
    refine Reads.ite _ (fun _ => one _ rfl) (fun _ => ?_)
    refine Reads.ite _ (fun _ => one _ rfl) (fun _ => ?_)
    refine Reads.wrap (get' := tcgObs a d b) (fun res : E × TStatus × Nat × Nat => (res.1, res.2.1, res.2.2.1, res.2.2.2 + 1)) (ih _ _ (b + d)) ?_
    intro v
    unfold tcgObs
    dsimp only
    rw [Nat.mul_add, Nat.mul_one, Nat.add_assoc, Nat.add_comm d]

theorem tcg_reads {x1 : X} {H : Calls K X E → E → E} (hH : HonestHess c0 d x1 H) (hx : d = 1 → x1 ∈ S) (gf1 eta1 : E) (Delta : K) (b : Nat) :
    Reads (tcgObs a d b) (fun _ _ _ => True) c0 ⟨a.nf, a.ng, a.nR, b, a.pt⟩ S l fun c => tcg (env.withCalls c) cfg (H c) x1 gf1 eta1 Delta := by
  have key : ∀ (n : Nat) (N : K) (t : TCG K E), Reads (tcgObs a d b) (fun _ _ _ => True) c0 ⟨a.nf, a.ng, a.nR, b + d * n, a.pt⟩ S l fun c =>
      ((tcgLoop (env.withCalls c) cfg (H c) x1 gf1 Delta N cfg.maxInner 0 t).1, (tcgLoop (env.withCalls c) cfg (H c) x1 gf1 Delta N cfg.maxInner 0 t).2.1,
        (tcgLoop (env.withCalls c) cfg (H c) x1 gf1 Delta N cfg.maxInner 0 t).2.2.1, (tcgLoop (env.withCalls c) cfg (H c) x1 gf1 Delta N cfg.maxInner 0 t).2.2.2 + n) := by
    intro n N t
    refine Reads.wrap (get' := tcgObs a d b) (fun res : E × TStatus × Nat × Nat => (res.1, res.2.1, res.2.2.1, res.2.2.2 + n)) (tcgLoop_reads hH hx gf1 Delta N cfg.maxInner 0 t (b + d * n)) ?_
    intro v
    unfold tcgObs
    dsimp only
    rw [Nat.mul_add, Nat.add_assoc, Nat.add_comm (d * n)]
  unfold tcg
  cases hr : cfg.useRand with
  | false => exact key 0 _ _
  | true =>
    have key1 : ∀ (N : E → K) (t : E → TCG K E), Reads (tcgObs a d b) (fun _ _ _ => True) c0 ⟨a.nf, a.ng, a.nR, b, a.pt⟩ S l fun c =>
        ((tcgLoop (env.withCalls c) cfg (H c) x1 gf1 Delta (N (H c eta1)) cfg.maxInner 0 (t (H c eta1))).1, (tcgLoop (env.withCalls c) cfg (H c) x1 gf1 Delta (N (H c eta1)) cfg.maxInner 0 (t (H c eta1))).2.1,
          (tcgLoop (env.withCalls c) cfg (H c) x1 gf1 Delta (N (H c eta1)) cfg.maxInner 0 (t (H c eta1))).2.2.1, (tcgLoop (env.withCalls c) cfg (H c) x1 gf1 Delta (N (H c eta1)) cfg.maxInner 0 (t (H c eta1))).2.2.2 + 1) := by
      intro N t
      refine Reads.hessD (k := fun c h => ((tcgLoop (env.withCalls c) cfg (H c) x1 gf1 Delta (N h) cfg.maxInner 0 (t h)).1, (tcgLoop (env.withCalls c) cfg (H c) x1 gf1 Delta (N h) cfg.maxInner 0 (t h)).2.1,
          (tcgLoop (env.withCalls c) cfg (H c) x1 gf1 Delta (N h) cfg.maxInner 0 (t h)).2.2.1, (tcgLoop (env.withCalls c) cfg (H c) x1 gf1 Delta (N h) cfg.maxInner 0 (t h)).2.2.2 + 1)) hH hx eta1 ?_
      have := key 1 (N (H c0 eta1)) (t (H c0 eta1))
      rw [Nat.mul_one] at this
      exact this
    exact key1 (fun h => env.sqrt (env.metric x1 (env.axpy (env.lit 1 1) gf1 h) (env.axpy (env.lit 1 1) gf1 h)))
      (fun h => ⟨eta1, h, env.axpy (env.lit 1 1) gf1 h, env.smul (env.lit (-1) 1) (env.precond x1 (env.axpy (env.lit 1 1) gf1 h)), env.metric x1 eta1 eta1,
        env.metric x1 eta1 (env.smul (env.lit (-1) 1) (env.precond x1 (env.axpy (env.lit 1 1) gf1 h))), env.metric x1 (env.precond x1 (env.axpy (env.lit 1 1) gf1 h)) (env.axpy (env.lit 1 1) gf1 h),
        env.metric x1 (env.precond x1 (env.axpy (env.lit 1 1) gf1 h)) (env.axpy (env.lit 1 1) gf1 h), env.metric x1 eta1 gf1 + env.lit 1 2 * env.metric x1 eta1 h⟩)

/-- The object after a trial step, as a function of what the truncated CG returned and of the answers of the problem. -/
def trFin (env : TREnv K X E) (c : Calls K X E) (o : TRObj K X E M) (t : E × TStatus × Nat × Nat) : TRObj K X E M :=
  { o with
    eta1 := env.smul (env.lit 0 1) o.gf1, eta2 := t.1, tcg := t.2.1, inner := t.2.2.1, x2 := c.retr o.x1 t.1, f2 := c.f (c.retr o.x1 t.1)
    cnt := { o.cnt with nf := o.cnt.nf + 1, nR := o.cnt.nR + 1, nH := o.cnt.nH + t.2.2.2 } }

theorem reads_trTrial {hk : Calls K X E → TRHooks K X E M} (hh : HonestHooks c0 d hk) {k : Calls K X E → TRObj K X E M → α} {o : TRObj K X E M} (hx : d = 1 → o.x1 ∈ S)
    (hK : ∀ S', (∀ x ∈ S, x ∈ S') → Reads get P c0 (trObs d (trTrial (env.withCalls c0) cfg (hk c0) o)) S' (trTrial (env.withCalls c0) cfg (hk c0) o).x2 fun c => k c (trTrial (env.withCalls c0) cfg (hk c0) o)) :
    Reads get P c0 (trObs d o) S l fun c => k c (trTrial (env.withCalls c) cfg (hk c) o) := by
  have h1 := tcg_reads (env := env) (cfg := cfg) (a := trObs d o) (S := S) (l := l) (H := fun c => (hk c).hess { o with eta1 := env.smul (env.lit 0 1) o.gf1 }) (hh.hess { o with eta1 := env.smul (env.lit 0 1) o.gf1 })
    hx o.gf1 (env.smul (env.lit 0 1) o.gf1) o.Delta (d * o.cnt.nH)
  have hT : ∀ c, trTrial (env.withCalls c) cfg (hk c) o =
      trFin env c o (tcg (env.withCalls c) cfg ((hk c).hess { o with eta1 := env.smul (env.lit 0 1) o.gf1 }) o.x1 o.gf1 (env.smul (env.lit 0 1) o.gf1) o.Delta) := fun _ => rfl
  simp only [hT] at hK ⊢
  refine Reads.bind (get' := get) (P' := P) (G := fun c (t : E × TStatus × Nat × Nat) => k c (trFin env c o t)) h1 ?_ (fun h => by cases h)
  intro m S' l' hm hS _
  have hK' := hK S' hS
  revert hm hK'
  generalize tcg (env.withCalls c0) cfg ((hk c0).hess { o with eta1 := env.smul (env.lit 0 1) o.gf1 }) o.x1 o.gf1 (env.smul (env.lit 0 1) o.gf1) o.Delta = t
  intro hm hK'
  cases hm
  refine Reads.step (k := k) (G := fun c => trFin env c o t) o.x1 t.1 ?_ ?_
  · intro c e1 e2
    unfold trFin
    rw [e1, e2]
  · refine Reads.shift hK' ⟨rfl, rfl, rfl, ?_⟩
    exact Nat.mul_add _ _ _

theorem reads_trRatio {hk : Calls K X E → TRHooks K X E M} (hh : HonestHooks c0 d hk) {k : Calls K X E → TRObj K X E M → α} {o : TRObj K X E M} (hx : d = 1 → o.x1 ∈ S)
    (hK : ∀ S', (∀ x ∈ S, x ∈ S') → Reads get P c0 (trObs d (trRatio (env.withCalls c0) (hk c0) o)) S' o.x2 fun c => k c (trRatio (env.withCalls c0) (hk c0) o)) :
    Reads get P c0 (trObs d o) S o.x2 fun c => k c (trRatio (env.withCalls c) (hk c) o) := by
  refine Reads.hessD (H := fun c => (hk c).hess o) (k := fun c Hv =>
    let o := { o with Heta2 := Hv, cnt := { o.cnt with nH := o.cnt.nH + 1 } }
    let o := { o with eta1 := env.axpy (env.lit 1 2) o.Heta2 o.gf1 }
    let o := { o with rho := (o.f1 - o.f2) / (-env.metric o.x1 o.eta2 o.eta1) }
    let u := (hk c).updateData o
    k c { o with gf2 := u.1, own := u.2.1, cnt := { o.cnt with ng := o.cnt.ng + u.2.2.1, nV := o.cnt.nV + u.2.2.2 } }) (hh.hess o) hx o.eta2 ?_
  have hK0 := hK S fun _ h => h
  unfold trRatio at hK hK0
  dsimp only at hK hK0 ⊢
  generalize (hk c0).hess o o.eta2 = Hv at hK hK0 ⊢
  rcases hh.update { o with Heta2 := Hv, eta1 := env.axpy (env.lit 1 2) Hv o.gf1, rho := (o.f1 - o.f2) / (-env.metric o.x1 o.eta2 (env.axpy (env.lit 1 2) Hv o.gf1)), cnt := { o.cnt with nH := o.cnt.nH + 1 } } with ⟨e, e'⟩ | ⟨e, e'⟩
  · simp only [e]
    refine Reads.shift hK0 ⟨rfl, ?_, rfl, ?_⟩
    · exact congrArg (o.cnt.ng + ·) e'
    · show d * (o.cnt.nH + 1) = d * o.cnt.nH + d
      rw [Nat.mul_add, Nat.mul_one]
  · refine Reads.grad (G := fun c => (hk c).updateData { o with Heta2 := Hv, eta1 := env.axpy (env.lit 1 2) Hv o.gf1, rho := (o.f1 - o.f2) / (-env.metric o.x1 o.eta2 (env.axpy (env.lit 1 2) Hv o.gf1)), cnt := { o.cnt with nH := o.cnt.nH + 1 } })
      (k := fun c u => k c { o with Heta2 := Hv, eta1 := env.axpy (env.lit 1 2) Hv o.gf1, rho := (o.f1 - o.f2) / (-env.metric o.x1 o.eta2 (env.axpy (env.lit 1 2) Hv o.gf1)), gf2 := u.1, own := u.2.1
                                    cnt := { o.cnt with nH := o.cnt.nH + 1, ng := o.cnt.ng + u.2.2.1, nV := o.cnt.nV + u.2.2.2 } }) o.x2 e rfl ?_
    refine Reads.shift (hK (o.x2 :: S) fun _ h => List.mem_cons_of_mem _ h) ⟨rfl, ?_, rfl, ?_⟩
    · exact congrArg (o.cnt.ng + ·) e'
    · show d * (o.cnt.nH + 1) = d * o.cnt.nH + d
      rw [Nat.mul_add, Nat.mul_one]

theorem reads_trAccept {hk : Calls K X E → TRHooks K X E M} (hh : HonestHooks c0 d hk) {k : Calls K X E → TRObj K X E M → α} {o : TRObj K X E M}
    (hK : ∀ S', (d = 1 → o.x2 ∈ S') → Reads get P c0 (trObs d (trAccept (env.withCalls c0) (hk c0) o)) S' o.x2 fun c => k c (trAccept (env.withCalls c0) (hk c0) o)) :
    Reads get P c0 (trObs d o) S o.x2 fun c => k c (trAccept (env.withCalls c) (hk c) o) := by
  have hG : ∀ c, (hk c).acceptence o = (hk c0).acceptence o → trAccept (env.withCalls c) (hk c) o = trAccept (env.withCalls c0) (hk c0) o := by
    intro c e
    unfold trAccept
    dsimp only
    rw [e]
    rfl
  rcases hh.accept o with ⟨e, e', hd⟩ | ⟨e, e'⟩
  · have e2 : (fun c => k c (trAccept (env.withCalls c) (hk c) o)) = fun c => k c (trAccept (env.withCalls c0) (hk c0) o) := funext fun c => by rw [hG c (e c)]
    rw [e2]
    refine Reads.shift (hK S fun h => by omega) ⟨rfl, ?_, rfl, rfl⟩
    show o.cnt.ng + _ = o.cnt.ng
    rw [e']
    rfl
  · refine Reads.grad (G := fun c => trAccept (env.withCalls c) (hk c) o) (k := k) o.x2 (fun c h => hG c (e c h)) rfl ?_
    refine Reads.shift (hK (o.x2 :: S) fun _ => List.mem_cons_self ..) ⟨rfl, ?_, rfl, rfl⟩
    show o.cnt.ng + _ = o.cnt.ng + 1
    rw [e']

def trObsOpt (d : Nat) (r : Option (TRObj K X E M)) : Option (Mark X) := r.map (trObs d)

theorem trAny (o : TRObj K X E M) {a : Mark X} {S : List X} {l : X} (h : trObs d o = a) : Reads (trObsOpt d) AnyPost c0 a S l fun _ => some o :=
  Reads.const _ fun m hm => by cases hm; subst h; exact ⟨⟨rfl, rfl, rfl, rfl⟩, trivial⟩

theorem trLoop_reads {hk : Calls K X E → TRHooks K X E M} (hh : HonestHooks c0 d hk) (n : Nat) : ∀ (S : List X) (l : X) (isstop : Bool) (o : TRObj K X E M), (d = 1 → o.x1 ∈ S) →
    Reads (trObsOpt d) AnyPost c0 (trObs d o) S l fun c => trLoop (env.withCalls c) cfg (hk c) n isstop o := by
  induction n with
  | zero => intro S l isstop o _; exact Reads.const _ (fun m hm => by cases hm)
  | succ n ih =>
    intro S l isstop o hx
    refine Reads.ite ((!isstop && decide (o.iter < cfg.maxIter)) || decide (o.iter < cfg.minIter)) (fun _ => ?_) (fun _ => trAny o rfl)
    refine reads_trTrial (env := env) (cfg := cfg) hh (o := o) hx (k := fun c o =>
      if env.finite o.f2 = true then
        let o := trRatio (env.withCalls c) (hk c) o
        let D := trRadius env cfg o
        let o := { o with Delta := D.1 }
        if D.2 = true then some o
        else if trAccepts env cfg o = true then
          let o := trAccept (env.withCalls c) (hk c) o
          trLoop (env.withCalls c) cfg (hk c) n (trStopped env cfg o) (trRecord (trSwap o))
        else trLoop (env.withCalls c) cfg (hk c) n isstop (trRecord { o with iter := o.iter + 1 })
      else some o) ?_
    intro S1 hS1
    have hx1 : d = 1 → (trTrial (env.withCalls c0) cfg (hk c0) o).x1 ∈ S1 := fun h => hS1 _ (hx h)
    generalize trTrial (env.withCalls c0) cfg (hk c0) o = p at hx1 ⊢
    refine Reads.ite _ (fun _ => ?_) (fun _ => trAny p rfl)
    refine reads_trRatio (env := env) hh (o := p) hx1 (k := fun c o =>
        let D := trRadius env cfg o
        let o := { o with Delta := D.1 }
        if D.2 = true then some o
        else if trAccepts env cfg o = true then
          let o := trAccept (env.withCalls c) (hk c) o
          trLoop (env.withCalls c) cfg (hk c) n (trStopped env cfg o) (trRecord (trSwap o))
        else trLoop (env.withCalls c) cfg (hk c) n isstop (trRecord { o with iter := o.iter + 1 })) ?_
    intro S2 hS2
    have hx2 : d = 1 → (trRatio (env.withCalls c0) (hk c0) p).x1 ∈ S2 := fun h => hS2 _ (hx1 h)
    have hp2 : p.x2 = (trRatio (env.withCalls c0) (hk c0) p).x2 := rfl
    rw [hp2]
    generalize trRatio (env.withCalls c0) (hk c0) p = r at hx2 ⊢
    refine Reads.ite (trRadius env cfg r).2 (fun _ => trAny _ rfl) (fun _ => ?_)
    refine Reads.ite (trAccepts env cfg { r with Delta := (trRadius env cfg r).1 }) (fun _ => ?_) (fun _ => ?_)
    · refine reads_trAccept (env := env) hh (o := { r with Delta := (trRadius env cfg r).1 }) (k := fun c o => trLoop (env.withCalls c) cfg (hk c) n (trStopped env cfg o) (trRecord (trSwap o))) ?_
      intro S3 hS3
      exact Reads.shift (ih S3 _ _ (trRecord (trSwap (trAccept (env.withCalls c0) (hk c0) { r with Delta := (trRadius env cfg r).1 }))) hS3) ⟨rfl, rfl, rfl, rfl⟩
    · exact Reads.shift (ih S2 _ isstop (trRecord { r with Delta := (trRadius env cfg r).1, iter := r.iter + 1 }) hx2) ⟨rfl, rfl, rfl, rfl⟩

theorem trRun_reads {hk : Calls K X E → TRHooks K X E M} (hh : HonestHooks c0 d hk) (n : Nat) (o : TRObj K X E M) :
    ∃ q : List (Ask X E), Legal c0 [o.x1] o.x1 q ∧
      (∀ o', trRun (env.withCalls c0) cfg (hk c0) n o = some o' →
        o'.cnt.nf = o.cnt.nf + 1 + steps q ∧ o'.cnt.ng = o.cnt.ng + 1 + grads q ∧ o'.cnt.nR = o.cnt.nR + steps q ∧ d * o'.cnt.nH = d * o.cnt.nH + hesss q) ∧
      ∀ c, c.f o.x1 = c0.f o.x1 → c.grad o.x1 = c0.grad o.x1 → Agree c0 c q → trRun (env.withCalls c) cfg (hk c) n o = trRun (env.withCalls c0) cfg (hk c0) n o := by
  obtain ⟨q, q0, q1, q2⟩ := trLoop_reads (env := env) (cfg := cfg) hh n [o.x1] o.x1 (trStopped (env.withCalls c0) cfg (trPrologue (env.withCalls c0) cfg o)) (trPrologue (env.withCalls c0) cfg o)
    (fun _ => List.mem_singleton.mpr rfl)
  refine ⟨q, q0, ?_, ?_⟩
  · intro o' ho'
    unfold trRun at ho'
    dsimp only at ho'
    obtain ⟨p, hp, rfl⟩ := Option.map_eq_some_iff.mp ho'
    have hf := (q1 (trObs d p) (congrArg (trObsOpt d) hp)).1
    exact ⟨hf.nf, hf.ng, hf.nR, hf.nH⟩
  · intro c e1 e2 hc
    have hpro : trPrologue (env.withCalls c) cfg o = trPrologue (env.withCalls c0) cfg o := by
      unfold trPrologue
      dsimp only [TREnv.withCalls, Env.withCalls]
      rw [e1, e2]
    unfold trRun
    dsimp only
    rw [hpro]
    exact congrArg _ (q2 c hc)

end tr

end Verif.Obj
