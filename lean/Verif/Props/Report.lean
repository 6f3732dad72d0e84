import Verif.Solver.ObjectSearchLemmas
import Verif.Props.ObjectTR
import Mathlib.Data.List.Chain
import Mathlib.Algebra.Order.Ring.Rat
import Mathlib.Algebra.Order.Group.Unbundled.Abs

/-!
# C139: what a caller reads after a run belongs to the returned point

After `Run` a caller reads the returned point (`GetXopt`), its value (`Getfinalfun`), the norm of the gradient there (`Getnormgf`, and relative to the start `Getnormgfgf0`), the number of iterations
(`GetIter`) and the recorded histories (`GetfunSeries`, `GetgradSeries`, the array of accepted steps). The theorems say that these belong together, for every search, every solver given by its hooks,
every outcome of the run, and numbers of any kind. They fail after a strong Wolfe search that gives up, after certain weak Wolfe searches that report success, and for the history of a trust-region run with
rejected candidates.
-/

set_option linter.unusedSectionVars false

namespace Verif.Obj

variable {K X E M : Type*} [Add K] [Sub K] [Mul K] [Div K] [Neg K] {env : Env K X E} {cfg : Cfg K X E} {hk : Hooks K X E M}

/-! ## Specification -/

/-- Norm of the gradient of the problem at a point. -/
def gradNorm (env : Env K X E) (x : X) : K := env.sqrt (env.metric x (env.grad x) (env.grad x))

/-- What a caller reads after a run: `GetXopt`, `Getfinalfun`, `Getnormgf`, the norm at the start (from `Getnormgfgf0`), `GetIter`, `GetlengthSeries`, `GetfunSeries` with `GetgradSeries` and accepted steps,
and the status of the last search. -/
structure Read (K X : Type*) where
  x : X
  f : K
  ng : K
  ng0 : K
  iter : Nat
  len : Nat
  series : List (K × K × K)
  status : Status

/-- `Solvers.h:44-87`, `SolversSM.h:40-47`. -/
def read (o : Obj K X E M) : Read K X := ⟨o.x1, o.f1, o.ngf1, o.ngf0, o.iter, o.lengthSeries, o.series, o.status⟩

/-- The second point is reached from the first by a step of the recorded length along some direction. -/
def Step (env : Env K X E) (p q : X × K) : Prop := ∃ v, q.1 = env.retr p.1 (env.smul q.2 v)

/-- The numbers belong to the points the run went through: `visited` lists them with the recorded steps, from the starting point to the returned one. -/
structure Belongs (env : Env K X E) (x0 : X) (visited : List (X × K)) (r : Read K X) : Prop where
  /-- from the start … -/
  first : visited.head?.map Prod.fst = some x0
  /-- … to the returned point -/
  last : visited.getLast?.map Prod.fst = some r.x
  value : r.f = env.f r.x
  start : r.ng0 = gradNorm env x0
  count : visited.length = r.iter + 1
  length : r.len = r.iter + 1
  /-- the history of function values and accepted steps -/
  funs : r.series.map (fun s => (s.1, s.2.2)) = visited.map fun p => (env.f p.1, p.2)
  /-- every step but possibly the last one is the recorded one -/
  steps : List.IsChain (Step env) visited.dropLast

/-- The gradient norms belong to the points too. -/
structure NormsBelong (env : Env K X E) (visited : List (X × K)) (r : Read K X) : Prop where
  norm : r.ng = gradNorm env r.x
  norms : r.series.map (fun s => s.2.1) = visited.map fun p => gradNorm env p.1

/-! ## The loop -/

/-- What is used of a search: `G` are the outcomes after which the gradient is the one at the new point, `C` those after which the step is the recorded one. -/
def Searches (env : Env K X E) (G C : Status → Prop) (ls : Obj K X E M → Option (Obj K X E M)) : Prop :=
  ∀ o o', o.status = .success → ls o = some o' → Keeps o o' ∧ Val env o' ∧ (G o'.status → Fresh env o') ∧ (C o'.status → Fit env o')

/-- The invariant at the head of the loop. -/
structure RInv (env : Env K X E) (G C : Status → Prop) (x0 : X) (o : Obj K X E M) : Prop where
  val : o.f1 = env.f o.x1
  nrm : o.ngf1 = env.sqrt (env.metric o.x1 o.gf1 o.gf1)
  nrm0 : o.ngf0 = gradNorm env x0
  good : G .success → G o.status → o.gf1 = env.grad o.x1
  hist : ∃ pre t, ((pre ++ [(o.x1, t)]).head?.map Prod.fst = some x0) ∧ pre.length = o.iter ∧
    o.series.map (fun s => (s.1, s.2.2)) = (pre ++ [(o.x1, t)]).map (fun p => (env.f p.1, p.2)) ∧
    (∃ l, o.series.map (fun s => s.2.1) = l ++ [o.ngf1] ∧ (G .success → l = pre.map fun p => gradNorm env p.1)) ∧
    List.IsChain (Step env) pre ∧ (C o.status → List.IsChain (Step env) (pre ++ [(o.x1, t)]))

theorem keeps_prepare (o : Obj K X E M) :
    (prepare env cfg hk o).x1 = o.x1 ∧ (prepare env cfg hk o).f1 = o.f1 ∧ (prepare env cfg hk o).gf1 = o.gf1 ∧ (prepare env cfg hk o).ngf0 = o.ngf0 ∧
      (prepare env cfg hk o).ngf1 = o.ngf1 ∧ (prepare env cfg hk o).iter = o.iter ∧ (prepare env cfg hk o).series = o.series ∧ (prepare env cfg hk o).status = o.status := by
  unfold prepare initialStepSize
  dsimp only
  split_ifs <;> exact ⟨rfl, rfl, rfl, rfl, rfl, rfl, rfl, rfl⟩

theorem searchWith_out {G C : Status → Prop} {ls : Obj K X E M → Option (Obj K X E M)} (hl : Searches env G C ls) : Searches env G C (searchWith env cfg ls) := by
  intro o o' hs e
  unfold searchWith at e
  by_cases h1 : env.lt (o.ngf1 / (o.ngf0 + cfg.tol)) cfg.accuracy = true
  · rw [if_pos h1] at e
    cases e
    exact ⟨((keeps_step _ _).trans (keeps_h _)).trans (keeps_gradX2 _), rfl, fun _ => rfl, fun _ => rfl⟩
  · rw [if_neg h1] at e
    exact hl o o' hs e

theorem loopWith_inv {G C : Status → Prop} {ls : Obj K X E M → Option (Obj K X E M)} (hl : Searches env G C ls) (hC : C .success) (x0 : X) (n : Nat) :
    ∀ (nonmon isstop : Bool) (o o' : Obj K X E M), loopWith env cfg hk ls n nonmon isstop o = some o' → RInv env G C x0 o → RInv env G C x0 o' := by
  induction n with
  | zero => intro _ _ _ _ e; simp [loopWith] at e
  | succ n ih =>
    intro nonmon isstop o o' e hi
    unfold loopWith at e
    split_ifs at e with hc
    · have hs : o.status = .success := by
        rw [Bool.and_eq_true, decide_eq_true_eq] at hc; exact hc.2
      obtain ⟨p1, p2, p3, p4, p5, p6, p7, p8⟩ := keeps_prepare (env := env) (cfg := cfg) (hk := hk) o
      generalize prepare env cfg hk o = p at *
      rcases hq : searchWith env cfg ls p with _ | q
      · rw [hq] at e; simp at e
      · rw [hq] at e
        dsimp only at e
        obtain ⟨k, v, g, c⟩ := searchWith_out hl p q (p8.trans hs) hq
        obtain ⟨pre, t, h1, h2, h3, ⟨l, h4, h5⟩, h6, h7⟩ := hi.hist
        have hch := h7 (hs ▸ hC)
        have hx : q.x1 = o.x1 := k.x1.trans p1
        split_ifs at e
        · refine ih _ _ _ _ e ?_
          refine ⟨v, rfl, k.ngf0.trans (p4.trans hi.nrm0), fun _ hg => g hg, pre ++ [(o.x1, t)], q.stepsize, ?_, ?_, ?_, ⟨l ++ [o.ngf1], ?_, ?_⟩, hch, fun hcs => ?_⟩
          · rw [List.head?_append_of_ne_nil _ (by simp)]; exact h1
          · show (pre ++ [(o.x1, t)]).length = q.iter + 1
            rw [k.iter, p6, List.length_append, h2]; rfl
          · show (q.series ++ [(q.f2, _, q.stepsize)]).map _ = ((pre ++ [(o.x1, t)]) ++ [(q.x2, q.stepsize)]).map _
            rw [List.map_append, List.map_append (l₁ := pre ++ [(o.x1, t)]), k.series, p7, h3, show q.f2 = env.f q.x2 from v]; rfl
          · show (q.series ++ [(q.f2, _, q.stepsize)]).map _ = _
            rw [List.map_append, k.series, p7, h4]; rfl
          · intro hG
            rw [List.map_append, h5 hG, hi.nrm, hi.good hG (hs ▸ hG)]; rfl
          · refine hch.append (List.isChain_singleton _) ?_
            intro a ha b hb
            rw [List.getLast?_append_of_ne_nil _ (by simp)] at ha
            simp only [List.getLast?_singleton, Option.mem_def, Option.some.injEq, List.head?_cons] at ha hb
            subst ha; subst hb
            exact ⟨q.eta1, by rw [← hx]; exact c hcs⟩
        · cases e
          refine ⟨by rw [k.f1, p2, hx]; exact hi.val, by rw [k.ngf1, p5, hx, k.gf1, p3]; exact hi.nrm, k.ngf0.trans (p4.trans hi.nrm0), fun hG _ => ?_, pre, t, ?_, ?_, ?_, ⟨l, ?_, h5⟩, h6, fun _ => ?_⟩
          · rw [k.gf1, p3, hx]; exact hi.good hG (hs ▸ hG)
          · rw [hx]; exact h1
          · rw [k.iter, p6]; exact h2
          · rw [hx, k.series, p7]; exact h3
          · rw [k.series, p7, k.ngf1, p5]; exact h4
          · rw [hx]; exact hch
    · cases e; exact hi

theorem runWith_inv {G C : Status → Prop} {ls : Obj K X E M → Option (Obj K X E M)} (hl : Searches env G C ls) (hC : C .success) {n : Nat} {o o' : Obj K X E M}
    (e : runWith env cfg hk ls n o = some o') : RInv env G C o.x1 o' ∧ o'.lengthSeries = o'.iter + 1 := by
  unfold runWith at e
  obtain ⟨p, hp, rfl⟩ := Option.map_eq_some_iff.mp e
  have := loopWith_inv hl hC o.x1 _ _ _ _ _ hp ⟨rfl, rfl, rfl, fun _ _ => rfl, [], env.lit 0 1, rfl, rfl, rfl, ⟨[], rfl, fun _ => rfl⟩, List.isChain_nil, fun _ => List.isChain_singleton _⟩
  exact ⟨⟨this.val, this.nrm, this.nrm0, this.good, this.hist⟩, rfl⟩

theorem report_of_inv {G C : Status → Prop} {x0 : X} {o : Obj K X E M} (hi : RInv env G C x0 o) (hlen : o.lengthSeries = o.iter + 1) :
    ∃ visited, Belongs env x0 visited (read o) ∧ (G .success → G o.status → NormsBelong env visited (read o)) ∧ (C o.status → List.IsChain (Step env) visited) := by
  obtain ⟨pre, t, h1, h2, h3, ⟨l, h4, h5⟩, h6, h7⟩ := hi.hist
  refine ⟨pre ++ [(o.x1, t)], ⟨h1, by simp [read], hi.val, hi.nrm0, by simp [read, h2], hlen, h3, by simpa using h6⟩, fun hG hg => ?_, h7⟩
  have hn : o.ngf1 = gradNorm env o.x1 := by rw [hi.nrm, hi.good hG hg]; rfl
  refine ⟨hn, ?_⟩
  show o.series.map _ = _
  rw [h4, h5 hG, hn, List.map_append]; rfl

/-! ## C139: line-search runs -/

/-- **C139, any search.** Let `G` contain success and the outcomes after which a search leaves the gradient at the new point, `C` success and the outcomes after which the recorded step is the one taken. If
the last search of the run ended in `G` (in `C`), then everything the caller reads belongs to the points of the run (and all steps are the recorded ones). -/
theorem C139_any_search {G C : Status → Prop} {ls : Obj K X E M → Option (Obj K X E M)} (hl : Searches env G C ls) (hC : C .success) {n : Nat} {o o' : Obj K X E M}
    (e : runWith env cfg hk ls n o = some o') :
    ∃ visited, Belongs env o.x1 visited (read o') ∧ (G .success → G o'.status → NormsBelong env visited (read o')) ∧ (C o'.status → List.IsChain (Step env) visited) := by
  obtain ⟨a, b⟩ := runWith_inv hl hC e
  exact report_of_inv a b

/-- **C139, Armijo search**: whatever ends the run (stopping test, iteration limit, a search that fails, a value that is not finite), the value and the norm of the gradient are those of the returned point and
the histories are those of the points visited. If the last search did not fail all recorded steps are the steps taken. -/
theorem C139_armijo {m n : Nat} {o o' : Obj K X E M} (e : runWith env cfg hk (armijo env cfg m) n o = some o') :
    ∃ visited, Belongs env o.x1 visited (read o') ∧ NormsBelong env visited (read o') ∧ (o'.status = .success → List.IsChain (Step env) visited) := by
  obtain ⟨v, a, b, c⟩ := C139_any_search (G := fun _ => True) (C := fun s => s = .success) (fun p q _ hq => by
    obtain ⟨k, w, g, c⟩ := armijo_out hq
    refine ⟨k, w, fun _ => g, fun hc => ?_⟩
    rcases c with c | c
    · exact c.2
    · rw [c] at hc; exact absurd hc (by decide)) rfl e
  exact ⟨v, a, b trivial trivial, c⟩

theorem loop_eq_loopWith (hc : cfg.search = .armijo) (m n : Nat) : ∀ (nonmon isstop : Bool) (o : Obj K X E M),
    loop env cfg hk m n nonmon isstop o = loopWith env cfg hk (armijo env cfg m) n nonmon isstop o := by
  induction n with
  | zero => intro _ _ _; rfl
  | succ n ih =>
    intro nonmon isstop o
    have hs : ∀ p : Obj K X E M, search env cfg m p = searchWith env cfg (armijo env cfg m) p := by
      intro p; unfold search searchWith; rw [hc]
    unfold loop loopWith
    rw [hs]
    simp only [ih]
    rfl

/-- The same for the runs of the other claims about solver objects (RSD, RCG, RBFGS with the Armijo search). -/
theorem C139_run (hc : cfg.search = .armijo) {m n : Nat} {o o' : Obj K X E M} (e : run env cfg hk m n o = some o') :
    ∃ visited, Belongs env o.x1 visited (read o') ∧ NormsBelong env visited (read o') ∧ (o'.status = .success → List.IsChain (Step env) visited) := by
  refine C139_armijo (cfg := cfg) (hk := hk) (m := m) (n := n) ?_
  unfold run at e
  unfold runWith
  dsimp only at e ⊢
  rw [← e, loop_eq_loopWith hc]

/-- **C139, exact search.** -/
theorem C139_exact (ls : LSCfg K) {m n : Nat} {o o' : Obj K X E M} (e : runWith env cfg hk (exSearch env cfg ls m) n o = some o') :
    ∃ visited, Belongs env o.x1 visited (read o') ∧ NormsBelong env visited (read o') ∧ List.IsChain (Step env) visited := by
  obtain ⟨v, a, b, c⟩ := C139_any_search (G := fun _ => True) (C := fun _ => True) (fun p q _ hq => by
    obtain ⟨k, w, c, g⟩ := exSearch_out hq
    exact ⟨k, w, fun _ => g, fun _ => c⟩) trivial e
  exact ⟨v, a, b trivial trivial, c trivial⟩

/-- **C139, search of the user**, taken as it is or followed by the Armijo search. -/
theorem C139_input (pureInput : Bool) (user : Nat → X → E → K → K → K) {m n : Nat} {o o' : Obj K X E M} (e : runWith env cfg hk (inSearch env cfg pureInput user m) n o = some o') :
    ∃ visited, Belongs env o.x1 visited (read o') ∧ NormsBelong env visited (read o') ∧ (o'.status = .success → List.IsChain (Step env) visited) := by
  obtain ⟨v, a, b, c⟩ := C139_any_search (G := fun _ => True) (C := fun s => s = .success) (fun p q hp hq => by
    obtain ⟨k, w, g, c⟩ := inSearch_out hp hq
    refine ⟨k, w, fun _ => g, fun hc => ?_⟩
    rcases c with c | c
    · exact c.2
    · rw [c] at hc; exact absurd hc (by decide)) rfl e
  exact ⟨v, a, b trivial trivial, c⟩

/-- **C139, strong Wolfe search**, when the last search did not give up. Missing: runs whose last search ends with `LSSM_MINSTEPSIZE` or `LSSM_LSERROR` (`C139_strong_wolfe_fails`); for those the value, the
history of function values and all steps but the last one are right. -/
theorem C139_strong_wolfe_partial (ls : LSCfg K) {m n : Nat} {o o' : Obj K X E M} (e : runWith env cfg hk (swSearch env cfg ls m) n o = some o') :
    ∃ visited, Belongs env o.x1 visited (read o') ∧
      (o'.status = .success ∨ o'.status = .maxStep → NormsBelong env visited (read o') ∧ List.IsChain (Step env) visited) := by
  obtain ⟨v, a, b, c⟩ := C139_any_search (G := fun s => s = .success ∨ s = .maxStep) (C := fun s => s = .success ∨ s = .maxStep) (fun p q _ hq => by
    obtain ⟨k, w, c⟩ := swSearch_out hq
    rcases c with c | c
    · exact ⟨k, w, fun _ => c.2.2, fun _ => c.2.1⟩
    · have : ¬(q.status = .success ∨ q.status = .maxStep) := by
        rcases c with c | c <;> rw [c] <;> decide
      exact ⟨k, w, fun h => absurd h this, fun h => absurd h this⟩) (Or.inl rfl) e
  exact ⟨v, a, fun h => ⟨b (Or.inl rfl) h, c h⟩⟩

/-- **C139, weak Wolfe search**: the value, the history of function values and all steps are right. Missing: the norms of the gradient (`C139_weak_wolfe_fails`). -/
theorem C139_weak_wolfe_partial (ls : LSCfg K) {m n : Nat} {o o' : Obj K X E M} (e : runWith env cfg hk (wSearch env cfg ls m) n o = some o') :
    ∃ visited, Belongs env o.x1 visited (read o') ∧ List.IsChain (Step env) visited := by
  obtain ⟨v, a, _, c⟩ := C139_any_search (G := fun _ => False) (C := fun _ => True) (fun p q _ hq => by
    obtain ⟨k, w, c, _⟩ := wSearch_out hq
    exact ⟨k, w, fun h => h.elim, fun _ => c⟩) trivial e
  exact ⟨v, a, c trivial⟩

/-- A weak Wolfe search that decreased the function as it should, or that reports failure, leaves the gradient at the new point. (`Strict` holds for the numbers of the machine.) -/
theorem C139_weak_wolfe_gradient_partial (ls : LSCfg K) (hS : Strict env) {m : Nat} {o o' : Obj K X E M} (e : wSearch env cfg ls m o = some o')
    (h : env.le o'.f2 (o'.f1 + cfg.alpha * o'.stepsize * o'.initialslope) = true ∨ o'.status ≠ .success) : o'.gf2 = env.grad o'.x2 :=
  (wSearch_out e).2.2.2 hS h

theorem loopWith_iter {ls : Obj K X E M → Option (Obj K X E M)} (hl : ∀ o o', ls o = some o' → o'.iter = o.iter) (n : Nat) :
    ∀ (nonmon isstop : Bool) (o o' : Obj K X E M), loopWith env cfg hk ls n nonmon isstop o = some o' → o.iter ≤ max cfg.maxIter cfg.minIter → o'.iter ≤ max cfg.maxIter cfg.minIter := by
  induction n with
  | zero => intro _ _ _ _ e; simp [loopWith] at e
  | succ n ih =>
    intro nonmon isstop o o' e hi
    unfold loopWith at e
    split_ifs at e with hc
    · have hlt : o.iter < max cfg.maxIter cfg.minIter := by
        simp only [Bool.and_eq_true, Bool.or_eq_true, decide_eq_true_eq] at hc
        rcases hc.1 with h | h
        · exact lt_of_lt_of_le h.2 (le_max_left _ _)
        · exact lt_of_lt_of_le h (le_max_right _ _)
      have p6 := (keeps_prepare (env := env) (cfg := cfg) (hk := hk) o).2.2.2.2.2.1
      rcases hq : searchWith env cfg ls (prepare env cfg hk o) with _ | q
      · rw [hq] at e; simp at e
      · rw [hq] at e
        dsimp only at e
        have hqi : q.iter = o.iter := by
          unfold searchWith at hq
          split_ifs at hq
          · cases hq; exact p6
          · cases hq; exact p6
          · exact (hl _ _ hq).trans p6
        split_ifs at e
        · refine ih _ _ _ _ e ?_
          show q.iter + 1 ≤ _
          omega
        · cases e; omega
    · cases e; exact hi

/-- **C139, iterations**: the number of iterations a caller reads never exceeds the limits, whatever the search. -/
theorem C139_iterations {ls : Obj K X E M → Option (Obj K X E M)} (hl : ∀ o o', ls o = some o' → o'.iter = o.iter) {n : Nat} {o o' : Obj K X E M}
    (e : runWith env cfg hk ls n o = some o') : o'.iter ≤ max cfg.maxIter cfg.minIter := by
  unfold runWith at e
  obtain ⟨p, hp, rfl⟩ := Option.map_eq_some_iff.mp e
  have h0 : (prologue env o).iter ≤ max cfg.maxIter cfg.minIter := Nat.zero_le _
  exact (loopWith_iter hl _ _ _ _ _ hp h0 :)

/-! ## C139: trust-region runs -/

/-- `Acceptence` leaves the gradient at the accepted candidate in `gf2`. -/
def AcceptsGrad (env : TREnv K X E) (hk : TRHooks K X E M) : Prop :=
  ∀ o o' : TRObj K X E M, o'.x2 = o.x2 → o'.gf2 = (hk.updateData o).1 → o'.own = (hk.updateData o).2.1 → (hk.acceptence o').1 = env.grad o.x2

/-- The value and the gradient belong to the current iterate, and there is one entry per pass. -/
structure TRInv (env : TREnv K X E) (x0 : X) (o : TRObj K X E M) : Prop where
  val : o.f1 = env.f o.x1
  grd : o.gf1 = env.grad o.x1
  nrm : o.ngf1 = gradNorm env.toEnv o.x1
  nrm0 : o.ngf0 = gradNorm env.toEnv x0
  count : o.series.length = o.iter + 1
  vals : ∀ s ∈ o.series, ∃ x, s.1 = env.f x

theorem trLoop_inv {env : TREnv K X E} {cfg : TRCfg K X} {hk : TRHooks K X E M} (ha : AcceptsGrad env hk) (x0 : X) (n : Nat) :
    ∀ (isstop : Bool) (o o' : TRObj K X E M), trLoop env cfg hk n isstop o = some o' → TRInv env x0 o →
      TRInv env x0 o' ∧ (o.iter ≤ max cfg.maxIter cfg.minIter → o'.iter ≤ max cfg.maxIter cfg.minIter) := by
  induction n with
  | zero => intro _ _ _ e; simp [trLoop] at e
  | succ n ih =>
    intro isstop o o' e hi
    unfold trLoop at e
    split_ifs at e with hc
    · have hlt : o.iter < max cfg.maxIter cfg.minIter := by
        simp only [Bool.and_eq_true, Bool.or_eq_true, decide_eq_true_eq] at hc
        rcases hc with h | h
        · exact lt_of_lt_of_le h.2 (le_max_left _ _)
        · exact lt_of_lt_of_le h (le_max_right _ _)
      have ht : (trTrial env cfg hk o).x1 = o.x1 ∧ (trTrial env cfg hk o).f1 = o.f1 ∧ (trTrial env cfg hk o).gf1 = o.gf1 ∧ (trTrial env cfg hk o).ngf1 = o.ngf1 ∧
          (trTrial env cfg hk o).ngf0 = o.ngf0 ∧ (trTrial env cfg hk o).iter = o.iter ∧ (trTrial env cfg hk o).series = o.series ∧
          (trTrial env cfg hk o).f2 = env.f (trTrial env cfg hk o).x2 := ⟨rfl, rfl, rfl, rfl, rfl, rfl, rfl, rfl⟩
      dsimp only at e
      generalize trTrial env cfg hk o = t at e ht
      obtain ⟨t1, t2, t3, t4, t5, t6, t7, t8⟩ := ht
      have it : TRInv env x0 t := ⟨by rw [t2, t1]; exact hi.val, by rw [t3, t1]; exact hi.grd, by rw [t4, t1]; exact hi.nrm, t5.trans hi.nrm0, by rw [t7, t6]; exact hi.count,
        by rw [t7]; exact hi.vals⟩
      have hlt' : t.iter + 1 ≤ max cfg.maxIter cfg.minIter := by omega
      split_ifs at e
      · cases e
        exact ⟨⟨it.val, it.grd, it.nrm, it.nrm0, it.count, it.vals⟩, fun _ => by show t.iter ≤ _; omega⟩
      · obtain ⟨a, b⟩ := ih _ _ _ e (by
          have hg : (trAccept env hk { trRatio env hk t with Delta := (trRadius env cfg (trRatio env hk t)).1 }).gf2 = env.grad t.x2 :=
            ha { t with Heta2 := hk.hess t t.eta2, cnt := { t.cnt with nH := t.cnt.nH + 1 }, eta1 := env.axpy (env.lit 1 2) (hk.hess t t.eta2) t.gf1,
                        rho := (t.f1 - t.f2) / (-env.metric t.x1 t.eta2 (env.axpy (env.lit 1 2) (hk.hess t t.eta2) t.gf1)) } _ rfl rfl rfl
          refine ⟨t8, hg, ?_, it.nrm0, ?_, ?_⟩
          · exact congrArg (fun v => env.sqrt (env.metric t.x2 v v)) hg
          · show (t.series ++ [_]).length = t.iter + 1 + 1
            rw [List.length_append, it.count]; rfl
          · intro s hs
            rcases List.mem_append.mp hs with hs | hs
            · exact it.vals s hs
            · rw [List.mem_singleton.mp hs]; exact ⟨t.x2, t8⟩)
        exact ⟨a, fun _ => b hlt'⟩
      · obtain ⟨a, b⟩ := ih _ _ _ e (by
          refine ⟨it.val, it.grd, it.nrm, it.nrm0, ?_, ?_⟩
          · show (t.series ++ [_]).length = t.iter + 1 + 1
            rw [List.length_append, it.count]; rfl
          · intro s hs
            rcases List.mem_append.mp hs with hs | hs
            · exact it.vals s hs
            · rw [List.mem_singleton.mp hs]; exact ⟨t.x2, t8⟩)
        exact ⟨a, fun _ => b hlt'⟩
      · cases e
        exact ⟨it, fun _ => by omega⟩
    · cases e; exact ⟨hi, id⟩

/-- **C139, trust region**: value and norm of the gradient are those of the returned point, whatever ends the run; the history has one entry per iteration and its values are values of the function. Missing: the
history is that of the iterates (`C139_tr_history_fails`). -/
theorem C139_tr_partial {env : TREnv K X E} {cfg : TRCfg K X} {hk : TRHooks K X E M} (ha : AcceptsGrad env hk) {n : Nat} {o o' : TRObj K X E M} (e : trRun env cfg hk n o = some o') :
    o'.f1 = env.f o'.x1 ∧ o'.ngf1 = gradNorm env.toEnv o'.x1 ∧ o'.ngf0 = gradNorm env.toEnv o.x1 ∧ o'.lengthSeries = o'.iter + 1 ∧ o'.series.length = o'.iter + 1 ∧
      (∀ s ∈ o'.series, ∃ x, s.1 = env.f x) ∧ o'.iter ≤ max cfg.maxIter cfg.minIter := by
  unfold trRun at e
  obtain ⟨p, hp, rfl⟩ := Option.map_eq_some_iff.mp e
  obtain ⟨a, b⟩ := trLoop_inv ha o.x1 _ _ _ _ hp ⟨rfl, rfl, rfl, rfl, rfl, fun s hs => by rw [List.mem_singleton.mp hs]; exact ⟨o.x1, rfl⟩⟩
  exact ⟨a.val, a.nrm, a.nrm0, rfl, a.count, a.vals, b (Nat.zero_le _)⟩

/-- RTRSD and RTRNewton. -/
theorem rtr_acceptsGrad (env : TREnv K X E) (H : X → E → E) : AcceptsGrad env (rtr env H) := by
  intro o o' hx _ _
  show env.grad o'.x2 = env.grad o.x2
  rw [hx]

/-- RTRSR1. -/
theorem rtrsr1_acceptsGrad {L : Type*} (env : TREnv K X E) (op : OpEnv K X E L) (it : X → E → X → E → E) : AcceptsGrad env (rtrsr1 env op it) := by
  intro o o' hx hg ho
  show o'.gf2 = _
  rw [hg]
  unfold rtrsr1
  dsimp only
  split_ifs <;> rfl

/-! ## Where it fails -/

/-- Default parameters of the line searches, initial step 1, one iteration, stopping test on the relative change of the function. -/
def repCfg (search : SearchKind ℚ ℚ ℚ) (iters : Nat) : Cfg ℚ ℚ ℚ where
  initstep := 1
  maxIter := iters
  minIter := 0
  tol := 1 / 1000000
  accuracy := 0
  finalstep := 1
  alpha := 1 / 10000
  ratio1 := 1 / 10
  ratio2 := 9 / 10
  minstep := mkRat 1 (2 ^ 52)
  numPreFuns := 1
  preFunsAcc := 0
  numPreBB := 0
  bbRatio := 1
  initType := .one
  search := search
  stop := .gradF0

/-- Default `LS_beta` and `Maxstepsize`; the greatest number of double precision. -/
def repLS : LSCfg ℚ := ⟨999 / 1000, 1000000000, (2 ^ 53 - 1) * 2 ^ 971⟩

/-- `4 x⁴ - 3 x² - x` on the line. -/
def quarticEnv : Env ℚ ℚ ℚ := { lineEnv 1 with f := fun x => 4 * x ^ 4 - 3 * x ^ 2 - x, grad := fun x => 16 * x ^ 3 - 6 * x - 1 }

/-- **C139 is false after a strong Wolfe search that gives up.** Steepest descent on `10¹² x²` from 1 with default parameters: the only search fails, the run reports the point reached and, as norm of its
gradient, the norm of whatever the object had in `gf2` before the run (after `SetProbX` an empty vector, whose norm the code computes by reading a null pointer); the gradient there was never evaluated. -/
theorem C139_strong_wolfe_fails : ∀ e ∈ [(0 : ℚ), 7, -3],
    ((runWith (lineEnv (2 * 10 ^ 12)) (repCfg .armijo 5) (rsd (lineEnv (2 * 10 ^ 12))) (swSearch (lineEnv (2 * 10 ^ 12)) (repCfg .armijo 5) repLS 10) 10
      (setProbX e id 1 (freshObj () 1))).map fun o => (o.status, o.iter, o.cnt.ng, o.gf1, o.ngf1)) = some (.lsError, 1, 1, e, |e|) ∧
    ((runWith (lineEnv (2 * 10 ^ 12)) (repCfg .armijo 5) (rsd (lineEnv (2 * 10 ^ 12))) (swSearch (lineEnv (2 * 10 ^ 12)) (repCfg .armijo 5) repLS 10) 10
      (setProbX e id 1 (freshObj () 1))).map fun o => decide (gradNorm (lineEnv (2 * 10 ^ 12)) o.x1 > 10 ^ 12)) = some true := by
  decide +kernel

/-- **C139 is false after a weak Wolfe search that reports success.** Steepest descent on `4 x⁴ - 3 x² - x` from 0 with default parameters and one iteration: the search reports success, the run reports 2 as
norm of the gradient at the returned point 1, where it is 9. -/
theorem C139_weak_wolfe_fails :
    ((runWith quarticEnv (repCfg .armijo 1) (rsd quarticEnv) (wSearch quarticEnv (repCfg .armijo 1) repLS 10) 10 (setProbX 0 id 0 (freshObj () 0))).map
      fun o => (o.status, o.iter, o.x1, o.f1, o.ngf1, gradNorm quarticEnv o.x1)) = some (.success, 1, 1, 0, 2, 9) := by
  decide +kernel

/-- `100 x⁴ - x²` on the line. -/
def wellEnv : TREnv ℚ ℚ ℚ := { lineTREnv 1 with f := fun x => 100 * x ^ 4 - x ^ 2, grad := fun x => 400 * x ^ 3 - 2 * x }

/-- **C139 is false for the history of a trust-region run with a rejected candidate.** RTRNewton on `100 x⁴ - x²` from 1/20, one iteration: the candidate 1/10 is rejected, the run returns 1/20 with the value
`-3/1600`, and the last entry of the history is 0, the value at the rejected candidate. -/
theorem C139_tr_history_fails :
    ((trRun wellEnv (lineTRCfg 1) (rtr wellEnv fun x v => (1200 * x ^ 2 - 2) * v) 10 (trSetProbX 0 id (1 / 20) (freshTR () 0))).map
      fun o => (o.x1, o.f1, o.series.map Prod.fst)) = some (1 / 20, -3 / 1600, [-3 / 1600, 0]) := by
  decide +kernel

/-! ## Concrete cases -/

/-- An Armijo run that reaches the minimizer of `x²`. -/
example : ((runWith (lineEnv 2) (repCfg .armijo 5) (rsd (lineEnv 2)) (armijo (lineEnv 2) (repCfg .armijo 5) 10) 10 (setProbX 0 id 1 (freshObj () 1))).map
    fun o => (o.x1, o.f1, o.ngf1, o.series.map Prod.fst)) = some (0, 0, 0, [1, 0]) := by
  decide +kernel

/-- A strong Wolfe run whose five searches succeed. -/
example : ((runWith (lineEnv 2) (repCfg .armijo 5) (rsd (lineEnv 2)) (swSearch (lineEnv 2) (repCfg .armijo 5) repLS 10) 10 (setProbX 0 id 1 (freshObj () 1))).map
    fun o => (o.status, o.f1, o.iter)) = some (.success, 1048576 / 9765625, 5) := by
  decide +kernel

/-- An exact search. -/
example : ((runWith (lineEnv 2) (repCfg .armijo 5) (rsd (lineEnv 2)) (exSearch (lineEnv 2) (repCfg .armijo 5) repLS 10) 10 (setProbX 0 id 1 (freshObj () 1))).map
    fun o => (o.status, o.f1, o.iter)) = some (.success, 0, 1) := by
  decide +kernel

/-- The rational line satisfies `Strict`. -/
example : Strict (lineEnv 2) := by
  intro a b h
  simp only [lineEnv, decide_eq_true_eq, decide_eq_false_iff_not, not_le] at h ⊢
  exact h

end Verif.Obj
