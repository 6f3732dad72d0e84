import Verif.Solver.ObjectTR
import Verif.Props.Object
import Mathlib.Algebra.Order.Field.Basic

/-!
# Reusing a trust-region solver object (C26, C119)

The arithmetic is arbitrary, so the theorems hold for the machine numbers of the library.
-/

namespace Verif.Obj

set_option linter.unusedSectionVars false

variable {K X E M : Type*} [Add K] [Sub K] [Mul K] [Div K] [Neg K]

/-! ## Specification -/

/-- What the caller can read after a trust-region run. -/
structure TROutcome (K X : Type*) where
  x : X
  f : K
  f2 : K
  ngf : K
  ngf0 : K
  radius : K
  iter : Nat
  series : List (K × K)
  lengthSeries : Nat

/-- The readable results of an object. -/
def trOutcome (o : TRObj K X E M) : TROutcome K X :=
  ⟨o.x1, o.f1, o.f2, o.ngf2, o.ngf0, o.Delta, o.iter, o.series, o.lengthSeries⟩

/-- Same results and the same number of evaluations, or both runs exceed the allowed number of passes. -/
def SameTRRun (o o' : TRObj K X E M) (r r' : Option (TRObj K X E M)) : Prop :=
  match r, r' with
  | none, none => True
  | some s, some s' => trOutcome s = trOutcome s' ∧
      s.cnt.nf + o'.cnt.nf = s'.cnt.nf + o.cnt.nf ∧ s.cnt.ng + o'.cnt.ng = s'.cnt.ng + o.cnt.ng ∧
      s.cnt.nR + o'.cnt.nR = s'.cnt.nR + o.cnt.nR ∧ s.cnt.nV + o'.cnt.nV = s'.cnt.nV + o.cnt.nV ∧
      s.cnt.nH + o'.cnt.nH = s'.cnt.nH + o.cnt.nH
  | _, _ => False

/-- The stopping test does not use the length of the recorded series. -/
def TRStopIgnoresLength (cfg : TRCfg K X) : Prop :=
  ∀ p, cfg.stop = .user p → ∀ x s l l' a c, p x s l a c = p x s l' a c

/-! ## Objects that differ in members that are not read -/

/-- Shift of the counters, length of the old series, members of the class. -/
structure TRBag (M : Type*) where
  cnt : TRCounts
  len : Nat
  own : M

/-- Members that each pass overwrites before it reads them. -/
structure TRJunk (K X E : Type*) where
  x2 : X
  gf2 : E
  eta1 : E
  eta2 : E
  Heta2 : E
  rho : K
  tcg : TStatus
  inner : Nat

/-- `o` with those members replaced. -/
def mix (b : TRBag M) (j : TRJunk K X E) (o : TRObj K X E M) : TRObj K X E M :=
  { o with cnt := ⟨b.cnt.nf + o.cnt.nf, b.cnt.ng + o.cnt.ng, b.cnt.nR + o.cnt.nR, b.cnt.nV + o.cnt.nV, b.cnt.nH + o.cnt.nH⟩
           lengthSeries := b.len, own := b.own, x2 := j.x2, gf2 := j.gf2, eta1 := j.eta1, eta2 := j.eta2, Heta2 := j.Heta2
           rho := j.rho, tcg := j.tcg, inner := j.inner }

/-- The members of `o` itself. -/
def junkOf (o : TRObj K X E M) : TRJunk K X E := ⟨o.x2, o.gf2, o.eta1, o.eta2, o.Heta2, o.rho, o.tcg, o.inner⟩

/-- What a derived class must satisfy: `R1` relates the members of the class between passes, `R2` those members and the
gradient at the candidate after `UpdateData`. -/
structure TRReusable (hk : TRHooks K X E M) (R1 : M → M → Prop) (R2 : M → E → M → E → Prop) : Prop where
  refl : ∀ w, R1 w w
  hess : ∀ (o : TRObj K X E M) (b : TRBag M) (j : TRJunk K X E), R1 o.own b.own → hk.hess (mix b j o) = hk.hess o
  upd : ∀ (o : TRObj K X E M) (b : TRBag M) (g : E), R1 o.own b.own →
    R2 (hk.updateData o).2.1 (hk.updateData o).1
      (hk.updateData (mix b { junkOf o with gf2 := g } o)).2.1 (hk.updateData (mix b { junkOf o with gf2 := g } o)).1 ∧
    (hk.updateData (mix b { junkOf o with gf2 := g } o)).2.2 = (hk.updateData o).2.2
  acc : ∀ (o : TRObj K X E M) (b : TRBag M) (g : E), R2 o.own o.gf2 b.own g →
    (hk.acceptence (mix b { junkOf o with gf2 := g } o)).1 = (hk.acceptence o).1 ∧
    R1 (hk.acceptence o).2.1 (hk.acceptence (mix b { junkOf o with gf2 := g } o)).2.1 ∧
    (hk.acceptence (mix b { junkOf o with gf2 := g } o)).2.2 = (hk.acceptence o).2.2
  rej : ∀ w g w' g', R2 w g w' g' → R1 w w'

variable {env : TREnv K X E} {cfg : TRCfg K X} {hk : TRHooks K X E M} {R1 : M → M → Prop} {R2 : M → E → M → E → Prop}

theorem trTrial_mix (hR : TRReusable hk R1 R2) (b : TRBag M) (j : TRJunk K X E) (o : TRObj K X E M) (h : R1 o.own b.own) :
    trTrial env cfg hk (mix b j o) =
      mix b { junkOf (trTrial env cfg hk o) with gf2 := j.gf2, Heta2 := j.Heta2, rho := j.rho } (trTrial env cfg hk o) := by
  have e : hk.hess { mix b j o with eta1 := env.smul (env.lit 0 1) (mix b j o).gf1 } =
      hk.hess { o with eta1 := env.smul (env.lit 0 1) o.gf1 } :=
    hR.hess { o with eta1 := env.smul (env.lit 0 1) o.gf1 } b { j with eta1 := env.smul (env.lit 0 1) o.gf1 } h
  unfold trTrial
  simp only [e]
  simp only [mix, junkOf, Nat.add_assoc]

theorem trRatio_mix (hR : TRReusable hk R1 R2) (b : TRBag M) (g He : E) (rh : K) (o : TRObj K X E M) (h : R1 o.own b.own) :
    ∃ w g', trRatio env hk (mix b { junkOf o with gf2 := g, Heta2 := He, rho := rh } o) =
        mix { b with own := w } { junkOf (trRatio env hk o) with gf2 := g' } (trRatio env hk o) ∧
      R2 (trRatio env hk o).own (trRatio env hk o).gf2 w g' := by
  have e := hR.hess o b { junkOf o with gf2 := g, Heta2 := He, rho := rh } h
  let o1 : TRObj K X E M := { o with
    Heta2 := hk.hess o o.eta2, cnt := { o.cnt with nH := o.cnt.nH + 1 }
    eta1 := env.axpy (env.lit 1 2) (hk.hess o o.eta2) o.gf1
    rho := (o.f1 - o.f2) / (-env.metric o.x1 o.eta2 (env.axpy (env.lit 1 2) (hk.hess o o.eta2) o.gf1)) }
  obtain ⟨u1, u2⟩ := hR.upd o1 b g h
  let o1' := mix b { junkOf o1 with gf2 := g } o1
  have e1 : trRatio env hk o = { o1 with
      gf2 := (hk.updateData o1).1, own := (hk.updateData o1).2.1
      cnt := { o1.cnt with ng := o1.cnt.ng + (hk.updateData o1).2.2.1, nV := o1.cnt.nV + (hk.updateData o1).2.2.2 } } := rfl
  have e2 : trRatio env hk (mix b { junkOf o with gf2 := g, Heta2 := He, rho := rh } o) = { o1' with
      gf2 := (hk.updateData o1').1, own := (hk.updateData o1').2.1
      cnt := { o1'.cnt with ng := o1'.cnt.ng + (hk.updateData o1').2.2.1, nV := o1'.cnt.nV + (hk.updateData o1').2.2.2 } } := by
    unfold trRatio
    simp only [e]
    rfl
  refine ⟨(hk.updateData o1').2.1, (hk.updateData o1').1, ?_, u1⟩
  have u2' : (hk.updateData o1').2.2 = (hk.updateData o1).2.2 := u2
  have ua := congrArg Prod.fst u2'
  have ub := congrArg Prod.snd u2'
  rw [e2, e1, ua, ub]
  simp only [o1', mix, junkOf, Nat.add_assoc]

theorem trAccept_mix (hR : TRReusable hk R1 R2) (b : TRBag M) (g : E) (o : TRObj K X E M) (h : R2 o.own o.gf2 b.own g) :
    ∃ w, trAccept env hk (mix b { junkOf o with gf2 := g } o) = mix { b with own := w } (junkOf (trAccept env hk o)) (trAccept env hk o) ∧
      R1 (trAccept env hk o).own w := by
  obtain ⟨a1, a2, a3⟩ := hR.acc o b g h
  refine ⟨_, ?_, a2⟩
  unfold trAccept
  simp only [a1, a3]
  simp only [mix, junkOf, Nat.add_assoc]

theorem trStopped_mix (b : TRBag M) (j : TRJunk K X E) (o : TRObj K X E M)
    (hl : TRStopIgnoresLength cfg ∨ b.len = o.lengthSeries) (hx : (∀ p, cfg.stop ≠ .user p) ∨ j.x2 = o.x2) :
    trStopped env cfg (mix b j o) = trStopped env cfg o := by
  unfold trStopped
  cases hS : cfg.stop with
  | user p =>
    rcases hx with hx | hx
    · exact absurd hS (hx p)
    · show p j.x2 _ b.len _ _ = p o.x2 _ _ _ _
      rw [hx]
      rcases hl with h | h
      · exact h p hS _ _ _ _ _ _
      · rw [h]; rfl
  | funRel => rfl
  | gradF => rfl
  | gradF0 => rfl

theorem trAccept_len (o : TRObj K X E M) : (trAccept env hk o).lengthSeries = o.lengthSeries := rfl

theorem trLoop_mix (hR : TRReusable hk R1 R2) (n : Nat) (st : Bool) (b : TRBag M) (j : TRJunk K X E) (o : TRObj K X E M)
    (hI : R1 o.own b.own) (hl : TRStopIgnoresLength cfg ∨ b.len = o.lengthSeries) :
    (trLoop env cfg hk n st o = none ∧ trLoop env cfg hk n st (mix b j o) = none) ∨
      ∃ s b' j', trLoop env cfg hk n st o = some s ∧ trLoop env cfg hk n st (mix b j o) = some (mix b' j' s) ∧ b'.cnt = b.cnt := by
  induction n generalizing st b j o with
  | zero => exact Or.inl ⟨rfl, rfl⟩
  | succ n ih =>
    have hi : (mix b j o).iter = o.iter := rfl
    unfold trLoop
    rw [hi]
    by_cases hc : ((!st && decide (o.iter < cfg.maxIter)) || decide (o.iter < cfg.minIter)) = true
    · rw [if_pos hc, if_pos hc]
      have e1 := trTrial_mix (env := env) (cfg := cfg) hR b j o hI
      have k1 : (trTrial env cfg hk o).own = o.own := rfl
      have k2 : (trTrial env cfg hk o).lengthSeries = o.lengthSeries := rfl
      simp only [e1]
      generalize trTrial env cfg hk o = o1 at k1 k2
      have hf : (mix b { junkOf o1 with gf2 := j.gf2, Heta2 := j.Heta2, rho := j.rho } o1).f2 = o1.f2 := rfl
      rw [hf]
      by_cases hF : env.finite o1.f2 = true
      · rw [if_pos hF, if_pos hF]
        obtain ⟨w, g', e2, hR2⟩ := trRatio_mix (env := env) hR b j.gf2 j.Heta2 j.rho o1 (by rw [k1]; exact hI)
        have k3 : (trRatio env hk o1).lengthSeries = o1.lengthSeries := rfl
        simp only [e2]
        generalize trRatio env hk o1 = o2 at hR2 k3
        have hD : trRadius env cfg (mix { b with own := w } { junkOf o2 with gf2 := g' } o2) = trRadius env cfg o2 := rfl
        rw [hD]
        let o3 : TRObj K X E M := { o2 with Delta := (trRadius env cfg o2).1 }
        have e3 : ({ mix { b with own := w } { junkOf o2 with gf2 := g' } o2 with Delta := (trRadius env cfg o2).1 } : TRObj K X E M) =
          mix { b with own := w } { junkOf o3 with gf2 := g' } o3 := rfl
        simp only [e3]
        show (_ ∧ _) ∨ ∃ s b' j', _ ∧ _ ∧ _
        by_cases hd : (trRadius env cfg o2).2 = true
        · rw [if_pos hd, if_pos hd]
          exact Or.inr ⟨o3, _, _, rfl, rfl, rfl⟩
        · rw [if_neg hd, if_neg hd]
          have hA : trAccepts env cfg (mix { b with own := w } { junkOf o3 with gf2 := g' } o3) = trAccepts env cfg o3 := rfl
          rw [hA]
          by_cases ha : trAccepts env cfg o3 = true
          · rw [if_pos ha]
            have ha' : trAccepts env cfg ({ o2 with Delta := (trRadius env cfg o2).1 } : TRObj K X E M) = true := ha
            rw [if_pos ha']
            obtain ⟨w2, e4, hR1⟩ := trAccept_mix (env := env) hR { b with own := w } g' o3 hR2
            have hl2 : TRStopIgnoresLength cfg ∨ ({ b with own := w2 } : TRBag M).len = (trAccept env hk o3).lengthSeries := by
              rcases hl with h | h
              · exact Or.inl h
              · exact Or.inr (h.trans (by rw [← k2, ← k3]; rfl))
            have e5 := trStopped_mix (env := env) (cfg := cfg) { b with own := w2 } (junkOf (trAccept env hk o3)) (trAccept env hk o3) hl2 (Or.inr rfl)
            simp only [e4, e5]
            exact ih (trStopped env cfg (trAccept env hk o3)) { b with own := w2 }
              (junkOf (trRecord (trSwap (trAccept env hk o3)))) (trRecord (trSwap (trAccept env hk o3))) hR1 hl2
          · rw [if_neg ha]
            have ha' : ¬ trAccepts env cfg ({ o2 with Delta := (trRadius env cfg o2).1 } : TRObj K X E M) = true := ha
            rw [if_neg ha']
            refine ih st { b with own := w } { junkOf o3 with gf2 := g' } (trRecord { o3 with iter := o3.iter + 1 }) (hR.rej _ _ _ _ hR2) ?_
            rcases hl with h | h
            · exact Or.inl h
            · exact Or.inr (h.trans (by rw [← k2, ← k3]; rfl))
      · rw [if_neg hF, if_neg hF]
        exact Or.inr ⟨o1, _, _, rfl, rfl, rfl⟩
    · rw [if_neg hc, if_neg hc]
      exact Or.inr ⟨o, b, j, rfl, rfl, rfl⟩

theorem trRun_zero (hR : TRReusable hk R1 R2) (n : Nat) (z o : TRObj K X E M) (hz : z.cnt = ⟨0, 0, 0, 0, 0⟩)
    (hx : z.x1 = o.x1) (hown : R1 z.own o.own) (hl : TRStopIgnoresLength cfg ∨ o.lengthSeries = z.lengthSeries)
    (hs : (∀ p, cfg.stop ≠ .user p) ∨ o.x2 = z.x2) :
    (trRun env cfg hk n z = none ∧ trRun env cfg hk n o = none) ∨
      ∃ s s', trRun env cfg hk n z = some s ∧ trRun env cfg hk n o = some s' ∧ trOutcome s' = trOutcome s ∧
        s'.cnt = ⟨o.cnt.nf + s.cnt.nf, o.cnt.ng + s.cnt.ng, o.cnt.nR + s.cnt.nR, o.cnt.nV + s.cnt.nV, o.cnt.nH + s.cnt.nH⟩ := by
  let b : TRBag M := ⟨o.cnt, o.lengthSeries, o.own⟩
  have hp : trPrologue env cfg o = mix b (junkOf o) (trPrologue env cfg z) := by
    unfold trPrologue
    rw [← hx]
    simp only [mix, junkOf, hz, b]
    rfl
  have hst : trStopped env cfg (trPrologue env cfg o) = trStopped env cfg (trPrologue env cfg z) := by
    rw [hp]; exact trStopped_mix b (junkOf o) (trPrologue env cfg z) hl hs
  unfold trRun
  simp only [hst]
  rw [hp]
  rcases trLoop_mix hR n (trStopped env cfg (trPrologue env cfg z)) b (junkOf o) (trPrologue env cfg z) hown hl with
    ⟨h1, h2⟩ | ⟨s, b', j', h1, h2, h4⟩
  · left; rw [h1, h2]; exact ⟨rfl, rfl⟩
  · right
    rw [h1, h2]
    have hc : b'.cnt = o.cnt := h4
    refine ⟨_, _, rfl, rfl, rfl, ?_⟩
    simp only [mix, hc]

/-! ## C119 -/

/-- Two trust-region objects at the same iterate run alike, whatever their other members hold. -/
theorem C119_run_independent (hR : TRReusable hk R1 R2) (n : Nat) (o o' : TRObj K X E M)
    (hx : o.x1 = o'.x1) (hown : R1 o.own o'.own) (hl : TRStopIgnoresLength cfg ∨ o'.lengthSeries = o.lengthSeries)
    (hs : (∀ p, cfg.stop ≠ .user p) ∨ o'.x2 = o.x2) :
    SameTRRun o o' (trRun env cfg hk n o) (trRun env cfg hk n o') := by
  have h1 := trRun_zero (env := env) (cfg := cfg) hR n { o with cnt := ⟨0, 0, 0, 0, 0⟩ } o rfl rfl (hR.refl _) (Or.inr rfl) (Or.inr rfl)
  have h2 := trRun_zero (env := env) (cfg := cfg) hR n { o with cnt := ⟨0, 0, 0, 0, 0⟩ } o' rfl hx hown hl hs
  rcases h1 with ⟨a1, a2⟩ | ⟨s, s1, a1, a2, a3, a4⟩
  · rcases h2 with ⟨b1, b2⟩ | ⟨t, t1, b1, b2, b3, b4⟩
    · rw [a2, b2]; trivial
    · rw [a1] at b1; cases b1
  · rcases h2 with ⟨b1, b2⟩ | ⟨t, t1, b1, b2, b3, b4⟩
    · rw [a1] at b1; cases b1
    · rw [a1] at b1
      cases b1
      rw [a2, b2]
      refine ⟨a3.trans b3.symm, ?_⟩
      rw [a4, b4]
      refine ⟨?_, ?_, ?_, ?_, ?_⟩ <;> simp only [] <;> omega

/-- The Newton and steepest-descent trust-region solvers carry nothing over. -/
theorem rtr_reusable (env : TREnv K X E) (H : X → E → E) : TRReusable (rtr env H) (fun _ _ => True) (fun _ _ _ _ => True) where
  refl _ := trivial
  hess _ _ _ _ := rfl
  upd _ _ _ _ := ⟨trivial, rfl⟩
  acc _ _ _ _ := ⟨rfl, trivial, rfl⟩
  rej _ _ _ _ _ := trivial

/-- The rank-one solver carries only its operator over. -/
theorem rtrsr1_reusable {L : Type*} (env : TREnv K X E) (op : OpEnv K X E L) (iT : X → E → X → E → E) :
    TRReusable (rtrsr1 env op iT) (fun w w' => w.B = w'.B) (fun w g w' g' => w.B = w'.B ∧ g = g') where
  refl _ := rfl
  hess o b j hw := by
    have hB : (mix b j o).own.B = o.own.B := hw.symm
    funext v
    simp only [rtrsr1, hB]; rfl
  upd o b g hw := by
    have hB : (mix b { junkOf o with gf2 := g } o).own.B = o.own.B := hw.symm
    have e : (rtrsr1 env op iT).updateData (mix b { junkOf o with gf2 := g } o) = (rtrsr1 env op iT).updateData o := by
      simp only [rtrsr1, hB]; rfl
    rw [e]; exact ⟨⟨rfl, rfl⟩, rfl⟩
  acc o b g hw := by
    have hB : (mix b { junkOf o with gf2 := g } o).own.B = o.own.B := hw.1.symm
    refine ⟨hw.2.symm, ?_, rfl⟩
    simp only [rtrsr1, hB]; rfl
  rej _ _ _ _ h := h.1

/-- `Run` of the Newton or steepest-descent trust-region solver after `SetProbX` does not depend on what the object did
before. -/
theorem C119_rtr (H : X → E → E) (n : Nat) (e : E) (x : X) (o o' : TRObj K X E Unit) (hl : TRStopIgnoresLength cfg) :
    SameTRRun o o' (trRun env cfg (rtr env H) n (trSetProbX e id x o)) (trRun env cfg (rtr env H) n (trSetProbX e id x o')) :=
  C119_run_independent (rtr_reusable env H) n (trSetProbX e id x o) (trSetProbX e id x o') rfl trivial (Or.inl hl) (Or.inr rfl)

/-- The same for the rank-one solver, whose `SetProbX` also sets the operator. -/
theorem C119_rtrsr1 {L : Type*} (op : OpEnv K X E L) (iT : X → E → X → E → E) (B0 : L) (n : Nat) (e : E) (x : X)
    (o o' : TRObj K X E (SR1Own K E L)) (hl : TRStopIgnoresLength cfg) :
    SameTRRun o o' (trRun env cfg (rtrsr1 env op iT) n (trSetProbX e (sr1Reset e B0) x o))
      (trRun env cfg (rtrsr1 env op iT) n (trSetProbX e (sr1Reset e B0) x o')) :=
  C119_run_independent (rtrsr1_reusable env op iT) n (trSetProbX e (sr1Reset e B0) x o) (trSetProbX e (sr1Reset e B0) x o') rfl rfl
    (Or.inl hl) (Or.inr rfl)

/-- `Run` twice in a row: the second run of the Newton solver is the run of a fresh object that starts where the first one
ended (built-in stopping tests); in particular the radius starts again at its initial value. -/
theorem C119_continue (H : X → E → E) (n n' : Nat) (o r fresh : TRObj K X E Unit) (_ : trRun env cfg (rtr env H) n o = some r)
    (hx : fresh.x1 = r.x1) (hs : ∀ p, cfg.stop ≠ .user p) :
    SameTRRun r fresh (trRun env cfg (rtr env H) n' r) (trRun env cfg (rtr env H) n' fresh) :=
  C119_run_independent (rtr_reusable env H) n' r fresh hx.symm trivial (Or.inl fun p h => absurd h (hs p)) (Or.inl hs)

/-! ## The radius -/

section Radius

variable {F : Type*} [Field F] [LinearOrder F] [IsStrictOrderedRing F] {env : TREnv F X E} {cfg : TRCfg F X} {hk : TRHooks F X E M}

theorem trRadius_bounded (hlt : ∀ a b, env.lt a b = decide (a < b)) (hm : 0 < cfg.maxDelta) (hg : 0 < cfg.magnify) (hs : 0 < cfg.shrink) (hs1 : cfg.shrink ≤ 1) (o : TRObj F X E M) (h0 : 0 < o.Delta)
    (h1 : o.Delta ≤ cfg.maxDelta) : 0 < (trRadius env cfg o).1 ∧ (trRadius env cfg o).1 ≤ cfg.maxDelta := by
  have hD : 0 < if o.tcg = .excRegion ∨ o.tcg = .negCurv ∨ o.tcg = .maxIter then o.Delta * cfg.magnify else o.Delta := by
    by_cases h : o.tcg = .excRegion ∨ o.tcg = .negCurv ∨ o.tcg = .maxIter
    · rw [if_pos h]; exact mul_pos h0 hg
    · rw [if_neg h]; exact h0
  unfold trRadius
  by_cases h : env.lt (env.lit 75 100) o.rho = true
  · rw [if_pos h]
    simp only [hlt, decide_eq_true_eq]
    by_cases hc : cfg.maxDelta < if o.tcg = .excRegion ∨ o.tcg = .negCurv ∨ o.tcg = .maxIter then o.Delta * cfg.magnify else o.Delta
    · rw [if_pos hc]; exact ⟨hm, le_rfl⟩
    · rw [if_neg hc]; exact ⟨hD, not_lt.mp hc⟩
  · rw [if_neg h]
    by_cases h2 : (env.lt o.rho (env.lit 25 100) && env.le cfg.accuracy (o.ngf1 / (o.ngf0 + cfg.tol))) = true
    · rw [if_pos h2]
      exact ⟨mul_pos h0 hs, (mul_le_of_le_one_right h0.le hs1).trans h1⟩
    · rw [if_neg h2]; exact ⟨h0, h1⟩

theorem trLoop_bounded (hlt : ∀ a b, env.lt a b = decide (a < b)) (hm : 0 < cfg.maxDelta) (hg : 0 < cfg.magnify) (hs : 0 < cfg.shrink) (hs1 : cfg.shrink ≤ 1) :
    ∀ (n : Nat) (st : Bool) (o r : TRObj F X E M), 0 < o.Delta → o.Delta ≤ cfg.maxDelta → trLoop env cfg hk n st o = some r → 0 < r.Delta ∧ r.Delta ≤ cfg.maxDelta
  | 0, _, _, _, _, _, h => by simp [trLoop] at h
  | n + 1, st, o, r, h0, h1, h => by
    have key := trRadius_bounded (env := env) (cfg := cfg) hlt hm hg hs hs1 (trRatio env hk (trTrial env cfg hk o)) h0 h1
    unfold trLoop at h
    by_cases c1 : ((!st && decide (o.iter < cfg.maxIter)) || decide (o.iter < cfg.minIter)) = true
    · rw [if_pos c1] at h
      by_cases c2 : env.finite (trTrial env cfg hk o).f2 = true
      · simp only [c2, if_true] at h
        by_cases c3 : (trRadius env cfg (trRatio env hk (trTrial env cfg hk o))).2 = true
        · rw [if_pos c3] at h
          obtain rfl := Option.some.inj h
          exact key
        · rw [if_neg c3] at h
          by_cases c4 : trAccepts env cfg { trRatio env hk (trTrial env cfg hk o) with Delta := (trRadius env cfg (trRatio env hk (trTrial env cfg hk o))).1 } = true
          · rw [if_pos c4] at h
            exact trLoop_bounded hlt hm hg hs hs1 n _ _ _ key.1 key.2 h
          · rw [if_neg c4] at h
            exact trLoop_bounded hlt hm hg hs hs1 n _ _ _ key.1 key.2 h
      · simp only [c2] at h
        obtain rfl := Option.some.inj h
        exact ⟨h0, h1⟩
    · rw [if_neg c1] at h
      obtain rfl := Option.some.inj h
      exact ⟨h0, h1⟩

/-- **C119 (radius).** With parameters that `CheckParams` accepts, and an initial radius within the maximum (which `CheckParams` does not test), the radius left by a run is positive and at most
`maximum_Delta`, whatever the object, the solver and the history. -/
theorem C119_radius_bounded (hlt : ∀ a b, env.lt a b = decide (a < b)) (hi : 0 < cfg.initDelta) (him : cfg.initDelta ≤ cfg.maxDelta) (hg : 0 < cfg.magnify) (hs : 0 < cfg.shrink) (hs1 : cfg.shrink ≤ 1)
    (n : Nat) (o r : TRObj F X E M) (h : trRun env cfg hk n o = some r) : 0 < r.Delta ∧ r.Delta ≤ cfg.maxDelta := by
  simp only [trRun, Option.map_eq_some_iff] at h
  obtain ⟨r', h1, rfl⟩ := h
  exact trLoop_bounded hlt (hi.trans_le him) hg hs hs1 n _ _ r' hi him h1

end Radius

/-! ## Example and failure -/

/-- `lineEnv` with the operations of the trust-region solvers. -/
def lineTREnv (c : ℚ) : TREnv ℚ ℚ ℚ := { lineEnv c with axpy := fun a u v => a * u + v, proj := fun _ v => v, powtheta := fun a => a }

/-- Default parameters with at most `iters` iterations. -/
def lineTRCfg (iters : Nat) : TRCfg ℚ ℚ where
  maxIter := iters
  minIter := 0
  tol := 1 / 1000
  accuracy := 0
  initDelta := 1
  minDelta := 1 / 1000000
  maxDelta := 10000
  acceptRho := 1 / 10
  shrink := 1 / 4
  magnify := 2
  minInner := 0
  maxInner := 10
  kappa := 1 / 10
  useRand := false
  stop := .gradF0

/-- An object that was just constructed. -/
def freshTR {M : Type*} (w : M) (x : ℚ) : TRObj ℚ ℚ ℚ M :=
  ⟨x, x, 0, 0, 0, 0, 0, 0, 0, 0, 0, 0, 0, 0, .maxIter, 0, 0, [], 0, ⟨0, 0, 0, 0, 0⟩, w⟩

/-- The rank-one solver on the line. -/
def lineSR1 (c : ℚ) : TRHooks ℚ ℚ ℚ (SR1Own ℚ ℚ ℚ) := rtrsr1 (lineTREnv c) lineOp fun _ _ _ v => v

/-- Non-trivial instance of `C119_rtr`: on `2 x²` from 3 the Newton solver needs two iterations and three evaluations. -/
example : TRStopIgnoresLength (lineTRCfg 5) ∧
    ((trRun (lineTREnv 4) (lineTRCfg 5) (rtr (lineTREnv 4) fun _ v => 4 * v) 10 (trSetProbX 0 id 3 (freshTR () 7))).map
      fun o => (o.x1, o.iter, o.cnt.nf, o.series)) = some (0, 2, 3, [(18, 12), (8, 8), (0, 0)]) := by
  refine ⟨?_, by decide +kernel⟩
  intro p hp
  cases hp

/-- Non-trivial instance of `C119_radius_bounded`: with maximum radius 3/2 two very successful steps at the boundary leave the radius 3/2, not 4. -/
example : (∀ a b, (lineTREnv 4).lt a b = decide (a < b)) ∧
    ((trRun (lineTREnv 4) { lineTRCfg 2 with maxDelta := 3 / 2 } (rtr (lineTREnv 4) fun _ v => 4 * v) 10 (freshTR () 9)).map fun o => (o.x1, o.Delta)) = some (13 / 2, 3 / 2) :=
  ⟨fun _ _ => rfl, by decide +kernel⟩

/-- Without `SetProbX` the rank-one solver keeps its operator: from 1/2 a fresh object is rejected and stays, a second run
of the same object, which also starts at 1/2, finds the minimizer. -/
theorem C119_sr1_keeps_operator :
    ((trRun (lineTREnv 4) (lineTRCfg 1) (lineSR1 4) 10 (freshTR ⟨1, 0, 0, 0, false⟩ (1 / 2))).map fun r => (r.x1, r.own.B)) =
      some (1 / 2, 4) ∧
    ((trRun (lineTREnv 4) (lineTRCfg 1) (lineSR1 4) 10 (freshTR ⟨1, 0, 0, 0, false⟩ (1 / 2))).bind fun r =>
      (trRun (lineTREnv 4) (lineTRCfg 1) (lineSR1 4) 10 r).map fun s => s.x1) = some 0 := by
  constructor <;> decide +kernel

end Verif.Obj
