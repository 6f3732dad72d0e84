import Verif.Solver.Object
import Mathlib.Data.Rat.Defs
import Mathlib.Data.Nat.Sqrt

/-!
# Reusing a line-search solver object (C26, C118)

The arithmetic is arbitrary, so the theorems hold for the machine numbers of the library, whatever they round to.
-/

namespace Verif.Obj

set_option linter.unusedSectionVars false

variable {K X E M : Type*} [Add K] [Sub K] [Mul K] [Div K] [Neg K]

/-! ## Specification -/

/-- What the caller can read after a run (`GetXopt`, `Getfinalfun`, `Getnormgf`, `GetIter`, `GetLSstatus`, the recorded
series and their length). -/
structure Outcome (K X : Type*) where
  x : X
  f : K
  ngf : K
  ngf0 : K
  iter : Nat
  status : Status
  series : List (K × K × K)
  lengthSeries : Nat

/-- The readable results of an object. -/
def outcome (o : Obj K X E M) : Outcome K X := ⟨o.x1, o.f2, o.ngf2, o.ngf0, o.iter, o.status, o.series, o.lengthSeries⟩

/-- Both runs need more than the allowed number of passes, or both end, with the same readable results and the same number
of evaluations on top of what the counters held before. -/
def SameRun (o o' : Obj K X E M) (r r' : Option (Obj K X E M)) : Prop :=
  match r, r' with
  | none, none => True
  | some s, some s' => outcome s = outcome s' ∧
      s.cnt.nf + o'.cnt.nf = s'.cnt.nf + o.cnt.nf ∧ s.cnt.ng + o'.cnt.ng = s'.cnt.ng + o.cnt.ng ∧
      s.cnt.nR + o'.cnt.nR = s'.cnt.nR + o.cnt.nR ∧ s.cnt.nV + o'.cnt.nV = s'.cnt.nV + o.cnt.nV ∧
      s.cnt.nVp + o'.cnt.nVp = s'.cnt.nVp + o.cnt.nVp
  | _, _ => False

/-- The list of former Barzilai-Borwein steps is not consulted: another rule, `Num_pre_BB = 0` (the default), or
`BBratio = 0`. -/
def NoBBHistory (env : Env K X E) (cfg : Cfg K X E) : Prop :=
  cfg.initType ≠ .bb ∨ cfg.numPreBB = 0 ∨ env.eq cfg.bbRatio (env.lit 0 1) = true

/-- The stopping test does not use the length of the recorded series: one of the built-in tests, or a function of the user
that ignores its third argument. -/
def StopIgnoresLength (cfg : Cfg K X E) : Prop :=
  ∀ p, cfg.stop = .user p → ∀ x s l l' a c, p x s l a c = p x s l' a c

/-! ## Objects that differ in members that are not read -/

/-- Members whose old value the loop reads at no time after the first pass, or that only count. -/
structure Bag (K M : Type*) where
  cnt : Counts
  len : Nat
  bbs : List K
  own : M

/-- `o` with these members replaced; counters are shifted. -/
def late (b : Bag K M) (o : Obj K X E M) : Obj K X E M :=
  { o with cnt := ⟨b.cnt.nf + o.cnt.nf, b.cnt.ng + o.cnt.ng, b.cnt.nR + o.cnt.nR, b.cnt.nV + o.cnt.nV, b.cnt.nVp + o.cnt.nVp⟩
           lengthSeries := b.len, preBBs := b.bbs, own := b.own }

/-- Members that the first pass overwrites before it reads them. -/
structure Junk (K X E : Type*) where
  x2 : X
  gf2 : E
  eta1 : E
  eta2 : E
  stepsize : K
  initiallength : K
  initialslope : K

/-- `o` with those members replaced. -/
def dirty (j : Junk K X E) (o : Obj K X E M) : Obj K X E M :=
  { o with x2 := j.x2, gf2 := j.gf2, eta1 := j.eta1, eta2 := j.eta2, stepsize := j.stepsize, initiallength := j.initiallength
           initialslope := j.initialslope }

/-- `o` with another `x2`, `gf2` and `eta2`. -/
def trial (x : X) (g e : E) (o : Obj K X E M) : Obj K X E M := { o with x2 := x, gf2 := g, eta2 := e }

/-- What a derived class must satisfy so that old members do not matter: `R0` relates the members of the class before a
run, `R1` during a run. -/
structure Reusable (hk : Hooks K X E M) (R0 R1 : M → M → Prop) : Prop where
  refl0 : ∀ w, R0 w w
  dir0 : ∀ (o : Obj K X E M) (j : Junk K X E) (b : Bag K M), o.iter = 0 → R0 o.own b.own →
    (hk.getSearchDir (late b (dirty j o))).1 = (hk.getSearchDir o).1 ∧
      R1 (hk.getSearchDir o).2 (hk.getSearchDir (late b (dirty j o))).2
  dir : ∀ (o : Obj K X E M) (b : Bag K M), R1 o.own b.own →
    (hk.getSearchDir (late b o)).1 = (hk.getSearchDir o).1 ∧ R1 (hk.getSearchDir o).2 (hk.getSearchDir (late b o)).2
  upd : ∀ (o : Obj K X E M) (b : Bag K M), R1 o.own b.own →
    (hk.updateData (late b o)).1 = (hk.updateData o).1 ∧ R1 (hk.updateData o).2.1 (hk.updateData (late b o)).2.1 ∧
      (hk.updateData (late b o)).2.2 = (hk.updateData o).2.2

variable {env : Env K X E} {cfg : Cfg K X E}

theorem h_late (b : Bag K M) (o : Obj K X E M) : h env (late b o) = late b (h env o) := rfl

theorem h_trial (x : X) (g e : E) (o : Obj K X E M) :
    h env (trial x g e o) = { h env o with gf2 := g } := rfl

theorem backtrack_late (mp : K) (b : Bag K M) (n : Nat) (o : Obj K X E M) :
    backtrack env cfg mp n (late b o) = (backtrack env cfg mp n o).map (late b) := by
  induction n generalizing o with
  | zero => rfl
  | succ n ih =>
    have hA : armijoFails env cfg mp (late b o) = armijoFails env cfg mp o := rfl
    simp only [backtrack, hA]
    by_cases h1 : armijoFails env cfg mp o = true
    · simp only [h1, if_true]
      have hs : (late b o).stepsize = o.stepsize := rfl
      rw [hs]
      by_cases h2 : env.lt (o.stepsize * cfg.ratio1) cfg.minstep = true
      · simp only [h2, if_true]; rfl
      · simp only [h2]; exact ih (h env { o with stepsize := o.stepsize * cfg.ratio1 })
    · simp only [h1]; rfl

theorem backtrack_gf2 (mp : K) (g : E) (n : Nat) (o : Obj K X E M) :
    backtrack env cfg mp n { o with gf2 := g } = (backtrack env cfg mp n o).map fun o => { o with gf2 := g } := by
  induction n generalizing o with
  | zero => rfl
  | succ n ih =>
    have hA : armijoFails env cfg mp { o with gf2 := g } = armijoFails env cfg mp o := rfl
    simp only [backtrack, hA]
    by_cases h1 : armijoFails env cfg mp o = true
    · simp only [h1, if_true]
      by_cases h2 : env.lt (o.stepsize * cfg.ratio1) cfg.minstep = true
      · simp only [h2, if_true]; rfl
      · simp only [h2]; exact ih (h env { o with stepsize := o.stepsize * cfg.ratio1 })
    · simp only [h1]; rfl

theorem interpLoop_late (mp : K) (b : Bag K M) (n : Nat) (p p2 fp : K) (o : Obj K X E M) :
    interpLoop env cfg mp n p p2 fp (late b o) = (interpLoop env cfg mp n p p2 fp o).map (late b) := by
  induction n generalizing o p p2 fp with
  | zero => rfl
  | succ n ih =>
    have hA : armijoFails env cfg mp (late b o) = armijoFails env cfg mp o := rfl
    by_cases h1 : armijoFails env cfg mp o = true
    · simp only [interpLoop, hA, h1, if_true]
      have hT : cubicStep env p p2 fp (late b o).f2 (late b o).f1 (late b o).initialslope =
        cubicStep env p p2 fp o.f2 o.f1 o.initialslope := rfl
      rw [hT]
      generalize clampStep env cfg (cubicStep env p p2 fp o.f2 o.f1 o.initialslope) p = T
      by_cases h2 : env.lt T cfg.minstep = true
      · simp only [h2, if_true]; rfl
      · simp only [h2]; exact ih _ _ _ (h env { o with stepsize := T })
    · simp only [interpLoop, hA, h1]; rfl

theorem interpLoop_gf2 (mp : K) (g : E) (n : Nat) (p p2 fp : K) (o : Obj K X E M) :
    interpLoop env cfg mp n p p2 fp { o with gf2 := g } =
      (interpLoop env cfg mp n p p2 fp o).map fun o => { o with gf2 := g } := by
  induction n generalizing o p p2 fp with
  | zero => rfl
  | succ n ih =>
    have hA : armijoFails env cfg mp { o with gf2 := g } = armijoFails env cfg mp o := rfl
    by_cases h1 : armijoFails env cfg mp o = true
    · simp only [interpLoop, hA, h1, if_true]
      generalize clampStep env cfg (cubicStep env p p2 fp o.f2 o.f1 o.initialslope) p = T
      by_cases h2 : env.lt T cfg.minstep = true
      · simp only [h2, if_true]; rfl
      · simp only [h2]; exact ih _ _ _ (h env { o with stepsize := T })
    · simp only [interpLoop, hA, h1]; rfl

theorem armijo_late (b : Bag K M) (n : Nat) (o : Obj K X E M) :
    armijo env cfg n (late b o) = (armijo env cfg n o).map (late b) := by
  have hh : h env { late b o with status := .success } = late b (h env { o with status := .success }) := rfl
  have hm : ∀ o : Obj K X E M, maxpref env cfg (late b o) = maxpref env cfg o := fun _ => rfl
  have hA : ∀ (mp : K) (o : Obj K X E M), armijoFails env cfg mp (late b o) = armijoFails env cfg mp o := fun _ _ => rfl
  unfold armijo
  simp only [hh, hm, hA]
  generalize h env { o with status := .success } = o
  by_cases h1 : env.le cfg.ratio2 cfg.ratio1 = true
  · simp only [h1, if_true, backtrack_late, Option.map_map]; rfl
  · simp only [h1]
    by_cases h2 : armijoFails env cfg (maxpref env cfg o) o = true
    · simp only [h2, if_true]
      have := interpLoop_late (env := env) (cfg := cfg) (maxpref env cfg o) b n
      have e1 := this (h env { o with stepsize := clampStep env cfg (-o.initialslope * o.stepsize * o.stepsize / env.lit 2 1 /
        (o.f2 - o.f1 - o.initialslope * o.stepsize)) o.stepsize }).stepsize o.stepsize o.f2
        (h env { o with stepsize := clampStep env cfg (-o.initialslope * o.stepsize * o.stepsize / env.lit 2 1 /
          (o.f2 - o.f1 - o.initialslope * o.stepsize)) o.stepsize })
      refine (congrArg (Option.map _) e1).trans ?_
      simp only [Bool.false_eq_true, if_false, Option.map_map]; rfl
    · simp only [h2]
      refine (congrArg (Option.map _) (interpLoop_late (env := env) (cfg := cfg) (maxpref env cfg o) b n o.stepsize _ _ o)).trans ?_
      simp only [Bool.false_eq_true, if_false, Option.map_map]; rfl

/-- The Armijo search overwrites the second iterate, its gradient and the step vector before reading them. -/
theorem armijo_trial (x : X) (g e : E) (n : Nat) (o : Obj K X E M) :
    armijo env cfg n (trial x g e o) = armijo env cfg n o := by
  have hh : h env { trial x g e o with status := .success } = { h env { o with status := .success } with gf2 := g } := rfl
  have hm : ∀ o : Obj K X E M, maxpref env cfg { o with gf2 := g } = maxpref env cfg o := fun _ => rfl
  have hA : ∀ (mp : K) (o : Obj K X E M), armijoFails env cfg mp { o with gf2 := g } = armijoFails env cfg mp o := fun _ _ => rfl
  unfold armijo
  simp only [hh, hm, hA]
  generalize h env { o with status := .success } = o
  by_cases h1 : env.le cfg.ratio2 cfg.ratio1 = true
  · simp only [h1, if_true, backtrack_gf2, Option.map_map]; rfl
  · simp only [h1]
    by_cases h2 : armijoFails env cfg (maxpref env cfg o) o = true
    · simp only [h2, if_true]
      have e1 := interpLoop_gf2 (env := env) (cfg := cfg) (maxpref env cfg o) g n
        (h env { o with stepsize := clampStep env cfg (-o.initialslope * o.stepsize * o.stepsize / env.lit 2 1 /
        (o.f2 - o.f1 - o.initialslope * o.stepsize)) o.stepsize }).stepsize o.stepsize o.f2
        (h env { o with stepsize := clampStep env cfg (-o.initialslope * o.stepsize * o.stepsize / env.lit 2 1 /
          (o.f2 - o.f1 - o.initialslope * o.stepsize)) o.stepsize })
      refine (congrArg (Option.map _) e1).trans ?_
      simp only [Bool.false_eq_true, if_false, Option.map_map]; rfl
    · simp only [h2]
      refine (congrArg (Option.map _) (interpLoop_gf2 (env := env) (cfg := cfg) (maxpref env cfg o) g n o.stepsize _ _ o)).trans ?_
      simp only [Bool.false_eq_true, if_false, Option.map_map]; rfl

theorem search_late (b : Bag K M) (n : Nat) (o : Obj K X E M) :
    search env cfg n (late b o) = (search env cfg n o).map (late b) := by
  have hn : (late b o).ngf1 / ((late b o).ngf0 + cfg.tol) = o.ngf1 / (o.ngf0 + cfg.tol) := rfl
  unfold search
  rw [hn]
  by_cases h1 : env.lt (o.ngf1 / (o.ngf0 + cfg.tol)) cfg.accuracy = true
  · simp only [h1, if_true]; rfl
  · simp only [h1]
    cases cfg.search with
    | armijo => exact armijo_late b n o
    | other s =>
      simp only [Bool.false_eq_true, if_false, Option.map_map]
      congr 1
      funext r
      simp only [Function.comp_apply, late, Nat.add_assoc]

theorem search_trial (x : X) (g e : E) (n : Nat) (o : Obj K X E M) :
    search env cfg n (trial x g e o) = search env cfg n o := by
  have hn : (trial x g e o).ngf1 / ((trial x g e o).ngf0 + cfg.tol) = o.ngf1 / (o.ngf0 + cfg.tol) := rfl
  unfold search
  rw [hn]
  by_cases h1 : env.lt (o.ngf1 / (o.ngf0 + cfg.tol)) cfg.accuracy = true
  · simp only [h1, if_true]; rfl
  · simp only [h1]
    cases cfg.search with
    | armijo => exact armijo_trial x g e n o
    | other s => rfl

/-- The two objects agree where it matters. -/
structure Inv (env : Env K X E) (cfg : Cfg K X E) (R : M → M → Prop) (b : Bag K M) (o : Obj K X E M) : Prop where
  own : R o.own b.own
  bbs : NoBBHistory env cfg ∨ b.bbs = o.preBBs
  len : StopIgnoresLength cfg ∨ b.len = o.lengthSeries

theorem bbChoose_noHistory (hN : cfg.numPreBB = 0 ∨ env.eq cfg.bbRatio (env.lit 0 1) = true) (b1 b2 : K) (l l' : List K) :
    bbChoose env cfg b1 b2 l = bbChoose env cfg b1 b2 l' := by
  unfold bbChoose
  rcases hN with h | h
  · simp only [h, List.take_zero]
  · simp only [h, if_true]

theorem candidate_late {R : M → M → Prop} (b : Bag K M) (o : Obj K X E M) (hI : Inv env cfg R b o) :
    (candidate env cfg (late b o)).1 = (candidate env cfg o).1 ∧
      (NoBBHistory env cfg ∨ (candidate env cfg (late b o)).2 = (candidate env cfg o).2) := by
  obtain ⟨-, h2, -⟩ := hI
  have hp : bbPair env (late b o) = bbPair env o := rfl
  have hq : quadStep env (late b o) = quadStep env o := rfl
  have hd : decrease env (late b o) = decrease env o := rfl
  have hl : (late b o).preBBs = b.bbs := rfl
  unfold candidate
  cases hT : cfg.initType with
  | quadIntMod => exact ⟨rfl, h2⟩
  | one => exact ⟨rfl, h2⟩
  | quadInt => exact ⟨rfl, h2⟩
  | bb =>
    simp only [hp, hl]
    rcases h2 with h2 | h2
    · refine ⟨bbChoose_noHistory ?_ _ _ _ _, Or.inl h2⟩
      rcases h2 with h2 | h2
      · exact absurd hT h2
      · exact h2
    · rw [h2]; exact ⟨rfl, Or.inr rfl⟩

theorem initialStepSize_late {R : M → M → Prop} (b : Bag K M) (o : Obj K X E M) (hI : Inv env cfg R b o) :
    ∃ l, initialStepSize env cfg (late b o) = late { b with bbs := l } (initialStepSize env cfg o) ∧
      Inv env cfg R { b with bbs := l } (initialStepSize env cfg o) := by
  obtain ⟨hc, hc2⟩ := candidate_late b o hI
  obtain ⟨h1, h2, h3⟩ := hI
  by_cases hi : o.iter = 0
  · have hi' : (late b o).iter = 0 := hi
    refine ⟨b.bbs, ?_, ?_⟩
    · unfold initialStepSize; rw [if_pos hi, if_pos hi']; rfl
    · unfold initialStepSize; rw [if_pos hi]; exact ⟨h1, h2, h3⟩
  · have hi' : (late b o).iter ≠ 0 := hi
    have hq : quadStep env (late b o) = quadStep env o := rfl
    unfold initialStepSize
    rw [if_neg hi, if_neg hi', hc, hq]
    exact ⟨(candidate env cfg (late b o)).2, rfl, h1, hc2, h3⟩

theorem isStopped_late {R : M → M → Prop} (b : Bag K M) (o : Obj K X E M) (hI : Inv env cfg R b o) :
    isStopped env cfg (late b o) = isStopped env cfg o := by
  unfold isStopped
  cases hS : cfg.stop with
  | user p =>
    rcases hI.len with h | h
    · exact h p hS _ _ _ _ _ _
    · show p _ _ b.len _ _ = _
      rw [h]; rfl
  | funRel => rfl
  | gradF => rfl
  | gradF0 => rfl

variable {hk : Hooks K X E M} {R0 R1 : M → M → Prop}

/-- Later passes: direction and initial step. -/
theorem prepare_late (hR : Reusable hk R0 R1) (b : Bag K M) (o : Obj K X E M) (hI : Inv env cfg R1 b o) :
    ∃ l w, prepare env cfg hk (late b o) = late { b with bbs := l, own := w } (prepare env cfg hk o) ∧
      Inv env cfg R1 { b with bbs := l, own := w } (prepare env cfg hk o) := by
  obtain ⟨d1, d2⟩ := hR.dir o b hI.own
  let o1 : Obj K X E M := { o with eta1 := (hk.getSearchDir o).1, own := (hk.getSearchDir o).2
                                   initialslope := env.metric o.x1 o.gf1 (hk.getSearchDir o).1 }
  let b1 : Bag K M := { b with own := (hk.getSearchDir (late b o)).2 }
  have hI1 : Inv env cfg R1 b1 o1 := ⟨d2, hI.bbs, hI.len⟩
  obtain ⟨l, e, hI2⟩ := initialStepSize_late b1 o1 hI1
  refine ⟨l, b1.own, ?_, ⟨hI2.own, hI2.bbs, hI2.len⟩⟩
  have e0 : prepare env cfg hk (late b o) =
      { initialStepSize env cfg (late b1 o1) with initiallength := (initialStepSize env cfg (late b1 o1)).stepsize } := by
    show _ = _
    unfold prepare
    simp only [d1]
    rfl
  rw [e0, e]; rfl

/-- The first pass overwrites the old members. -/
theorem prepare_dirty (hR : Reusable hk R0 R1) (b : Bag K M) (j : Junk K X E) (o : Obj K X E M) (h0 : o.iter = 0)
    (hI : Inv env cfg R0 b o) :
    ∃ w, prepare env cfg hk (late b (dirty j o)) =
        trial j.x2 j.gf2 j.eta2 (late { b with own := w } (prepare env cfg hk o)) ∧
      Inv env cfg R1 { b with own := w } (prepare env cfg hk o) := by
  obtain ⟨d1, d2⟩ := hR.dir0 o j b h0 hI.own
  have i0 : ∀ o : Obj K X E M, o.iter = 0 → initialStepSize env cfg o = { o with stepsize := cfg.initstep } := by
    intro o ho; unfold initialStepSize; rw [if_pos ho]
  have e1 : prepare env cfg hk o = { o with
      eta1 := (hk.getSearchDir o).1, own := (hk.getSearchDir o).2, stepsize := cfg.initstep, initiallength := cfg.initstep
      initialslope := env.metric o.x1 o.gf1 (hk.getSearchDir o).1 } := by
    let o1 : Obj K X E M := { o with eta1 := (hk.getSearchDir o).1, own := (hk.getSearchDir o).2
                                     initialslope := env.metric o.x1 o.gf1 (hk.getSearchDir o).1 }
    show { initialStepSize env cfg o1 with initiallength := (initialStepSize env cfg o1).stepsize } = _
    rw [i0 o1 h0]
  have e2 : prepare env cfg hk (late b (dirty j o)) = { late b (dirty j o) with
      eta1 := (hk.getSearchDir o).1, own := (hk.getSearchDir (late b (dirty j o))).2, stepsize := cfg.initstep
      initiallength := cfg.initstep, initialslope := env.metric o.x1 o.gf1 (hk.getSearchDir o).1 } := by
    let o1 : Obj K X E M := { late b (dirty j o) with
      eta1 := (hk.getSearchDir (late b (dirty j o))).1, own := (hk.getSearchDir (late b (dirty j o))).2
      initialslope := env.metric o.x1 o.gf1 (hk.getSearchDir (late b (dirty j o))).1 }
    show { initialStepSize env cfg o1 with initiallength := (initialStepSize env cfg o1).stepsize } = _
    rw [i0 o1 h0]
    simp only [o1, d1]
  refine ⟨(hk.getSearchDir (late b (dirty j o))).2, ?_, ?_⟩
  · rw [e2, e1]; rfl
  · rw [e1]; exact ⟨d2, hI.bbs, hI.len⟩

theorem afterSearch_late (hR : Reusable hk R0 R1) (b : Bag K M) (o : Obj K X E M) (hI : Inv env cfg R1 b o) :
    ∃ w, afterSearch env hk (late b o) = late { b with own := w } (afterSearch env hk o) ∧
      Inv env cfg R1 { b with own := w } (afterSearch env hk o) := by
  obtain ⟨u1, u2, u3⟩ := hR.upd { o with iter := o.iter + 1 } b hI.own
  refine ⟨(hk.updateData (late b { o with iter := o.iter + 1 })).2.1, ?_, ⟨u2, hI.bbs, hI.len⟩⟩
  have hl : ({ late b o with iter := (late b o).iter + 1 } : Obj K X E M) = late b { o with iter := o.iter + 1 } := rfl
  unfold afterSearch
  simp only [hl]
  have u3a := congrArg Prod.fst u3
  have u3b := congrArg Prod.snd u3
  simp only [u1, u3a, u3b]
  simp only [late, Nat.add_assoc]

theorem advance_late (b : Bag K M) (nm : Bool) (o : Obj K X E M) :
    advance env cfg nm (late b o) = ((advance env cfg nm o).1, late b (advance env cfg nm o).2) := rfl

theorem search_keeps (n : Nat) (o s : Obj K X E M) (hs : search env cfg n o = some s) :
    s.own = o.own ∧ s.preBBs = o.preBBs ∧ s.lengthSeries = o.lengthSeries := by
  have key := search_late (env := env) (cfg := cfg)
    ⟨⟨0, 0, 0, 0, 0⟩, o.lengthSeries, o.preBBs, o.own⟩ n o
  have hl : late ⟨⟨0, 0, 0, 0, 0⟩, o.lengthSeries, o.preBBs, o.own⟩ o = o := by
    simp only [late, Nat.zero_add]
  rw [hl, hs] at key
  have := Option.some.inj key
  refine ⟨?_, ?_, ?_⟩
  · rw [this]; rfl
  · rw [this]; rfl
  · rw [this]; rfl

theorem loop_late (hR : Reusable hk R0 R1) (m n : Nat) (nm st : Bool) (b : Bag K M) (o : Obj K X E M)
    (hI : Inv env cfg R1 b o) :
    (loop env cfg hk m n nm st o = none ∧ loop env cfg hk m n nm st (late b o) = none) ∨
      ∃ s b', loop env cfg hk m n nm st o = some s ∧ loop env cfg hk m n nm st (late b o) = some (late b' s) ∧ b'.cnt = b.cnt := by
  induction n generalizing nm st b o with
  | zero => exact Or.inl ⟨rfl, rfl⟩
  | succ n ih =>
    have hi : (late b o).iter = o.iter := rfl
    have hs : (late b o).status = o.status := rfl
    unfold loop
    rw [hi, hs]
    by_cases hc : (((!st && decide (o.iter < cfg.maxIter)) || decide (o.iter < cfg.minIter)) && decide (o.status = .success)) = true
    · rw [if_pos hc, if_pos hc]
      obtain ⟨l, w, e, hI1⟩ := prepare_late hR b o hI
      rw [e, search_late]
      cases hS : search env cfg m (prepare env cfg hk o) with
      | none => exact Or.inl ⟨rfl, rfl⟩
      | some s =>
        obtain ⟨k1, k2, k3⟩ := search_keeps m _ s hS
        have hI2 : Inv env cfg R1 { b with bbs := l, own := w } s := ⟨by rw [k1]; exact hI1.own, by rw [k2]; exact hI1.bbs, by rw [k3]; exact hI1.len⟩
        simp only [Option.map_some]
        have hf : (late { b with bbs := l, own := w } s).f2 = s.f2 := rfl
        rw [hf]
        by_cases hF : env.finite s.f2 = true
        · rw [if_pos hF, if_pos hF]
          obtain ⟨w2, e2, hI3⟩ := afterSearch_late (env := env) (cfg := cfg) hR _ s hI2
          simp only [e2, isStopped_late _ _ hI3, advance_late]
          have hI4 : Inv env cfg R1 ({ cnt := b.cnt, len := b.len, bbs := l, own := w2 } : Bag K M) (advance env cfg nm (afterSearch env hk s)).2 :=
            ⟨hI3.own, hI3.bbs, hI3.len⟩
          exact ih _ _ _ _ hI4
        · rw [if_neg hF, if_neg hF]
          exact Or.inr ⟨s, _, rfl, rfl, rfl⟩
    · rw [if_neg hc, if_neg hc]
      exact Or.inr ⟨o, b, rfl, rfl, rfl⟩

theorem loop_dirty (hR : Reusable hk R0 R1) (m n : Nat) (nm st : Bool) (b : Bag K M) (j : Junk K X E) (o : Obj K X E M)
    (h0 : o.iter = 0) (hI : Inv env cfg R0 b o) :
    (loop env cfg hk m n nm st o = none ∧ loop env cfg hk m n nm st (late b (dirty j o)) = none) ∨
      ∃ s s' b', loop env cfg hk m n nm st o = some s ∧ loop env cfg hk m n nm st (late b (dirty j o)) = some s' ∧
        (s' = late b' s ∨ ∃ j', s' = late b' (dirty j' s)) ∧ b'.cnt = b.cnt := by
  cases n with
  | zero => exact Or.inl ⟨rfl, rfl⟩
  | succ n =>
    have hi : (late b (dirty j o)).iter = o.iter := rfl
    have hs : (late b (dirty j o)).status = o.status := rfl
    unfold loop
    rw [hi, hs]
    by_cases hc : (((!st && decide (o.iter < cfg.maxIter)) || decide (o.iter < cfg.minIter)) && decide (o.status = .success)) = true
    · rw [if_pos hc, if_pos hc]
      obtain ⟨w, e, hI1⟩ := prepare_dirty hR b j o h0 hI
      rw [e, search_trial, search_late]
      cases hS : search env cfg m (prepare env cfg hk o) with
      | none => exact Or.inl ⟨rfl, rfl⟩
      | some s =>
        obtain ⟨k1, k2, k3⟩ := search_keeps m _ s hS
        have hI2 : Inv env cfg R1 { b with own := w } s := ⟨by rw [k1]; exact hI1.own, by rw [k2]; exact hI1.bbs, by rw [k3]; exact hI1.len⟩
        simp only [Option.map_some]
        have hf : (late { b with own := w } s).f2 = s.f2 := rfl
        rw [hf]
        by_cases hF : env.finite s.f2 = true
        · rw [if_pos hF, if_pos hF]
          obtain ⟨w2, e2, hI3⟩ := afterSearch_late (env := env) (cfg := cfg) hR _ s hI2
          simp only [e2, isStopped_late _ _ hI3, advance_late]
          have hI4 : Inv env cfg R1 ({ cnt := b.cnt, len := b.len, bbs := b.bbs, own := w2 } : Bag K M) (advance env cfg nm (afterSearch env hk s)).2 :=
            ⟨hI3.own, hI3.bbs, hI3.len⟩
          rcases loop_late (env := env) (cfg := cfg) hR m n _ _ _ _ hI4 with h | ⟨t, b', h1, h2, h3⟩
          · exact Or.inl h
          · exact Or.inr ⟨t, _, b', h1, h2, Or.inl rfl, h3⟩
        · rw [if_neg hF, if_neg hF]
          exact Or.inr ⟨s, _, _, rfl, rfl, Or.inl rfl, rfl⟩
    · rw [if_neg hc, if_neg hc]
      exact Or.inr ⟨o, _, b, rfl, rfl, Or.inr ⟨j, rfl⟩, rfl⟩

theorem isStopped_dirty (b : Bag K M) (j : Junk K X E) (o : Obj K X E M)
    (hl : StopIgnoresLength cfg ∨ b.len = o.lengthSeries) (hx : (∀ p, cfg.stop ≠ .user p) ∨ j.x2 = o.x2) :
    isStopped env cfg (late b (dirty j o)) = isStopped env cfg o := by
  unfold isStopped
  cases hS : cfg.stop with
  | user p =>
    rcases hx with hx | hx
    · exact absurd hS (hx p)
    · show p j.x2 _ b.len _ _ = p o.x2 _ _ _ _
      rw [hx]
      rcases hl with h | h
      · exact h p hS _ _ _ _ _ _
      · rw [h]; rfl
  | funRel => rfl
  | gradF => rfl
  | gradF0 => rfl

/-- A run of `o` against the run of an object with the same start whose counters are zero. -/
theorem run_zero (hR : Reusable hk R0 R1) (m n : Nat) (z o : Obj K X E M) (hz : z.cnt = ⟨0, 0, 0, 0, 0⟩)
    (hx : z.x1 = o.x1) (hown : R0 z.own o.own) (hbb : NoBBHistory env cfg ∨ o.preBBs = z.preBBs)
    (hl : StopIgnoresLength cfg ∨ o.lengthSeries = z.lengthSeries)
    (hs : (∀ p, cfg.stop ≠ .user p) ∨ o.x2 = z.x2) :
    (run env cfg hk m n z = none ∧ run env cfg hk m n o = none) ∨
      ∃ s s', run env cfg hk m n z = some s ∧ run env cfg hk m n o = some s' ∧ outcome s' = outcome s ∧
        s'.cnt = ⟨o.cnt.nf + s.cnt.nf, o.cnt.ng + s.cnt.ng, o.cnt.nR + s.cnt.nR, o.cnt.nV + s.cnt.nV, o.cnt.nVp + s.cnt.nVp⟩ := by
  let b : Bag K M := ⟨o.cnt, o.lengthSeries, o.preBBs, o.own⟩
  let j : Junk K X E := ⟨o.x2, o.gf2, o.eta1, o.eta2, o.stepsize, o.initiallength, o.initialslope⟩
  have hp : prologue env o = late b (dirty j (prologue env z)) := by
    unfold prologue
    rw [← hx]
    simp only [late, dirty, hz, b, j]
    rfl
  have hI : Inv env cfg R0 b (prologue env z) := ⟨hown, hbb, hl⟩
  have hst : isStopped env cfg (prologue env o) = isStopped env cfg (prologue env z) := by
    rw [hp]; exact isStopped_dirty b j (prologue env z) hl hs
  unfold run
  simp only [hst]
  rw [hp]
  rcases loop_dirty hR m n false (isStopped env cfg (prologue env z)) b j (prologue env z) rfl hI with
    ⟨h1, h2⟩ | ⟨s, s', b', h1, h2, h3, h4⟩
  · left; rw [h1, h2]; exact ⟨rfl, rfl⟩
  · right
    rw [h1, h2]
    have hc : b'.cnt = o.cnt := h4
    refine ⟨_, _, rfl, rfl, ?_, ?_⟩
    · rcases h3 with h3 | ⟨j', h3⟩
      · rw [h3]; rfl
      · rw [h3]; rfl
    · rcases h3 with h3 | ⟨j', h3⟩
      · rw [h3]; simp only [late, hc]
      · rw [h3]; simp only [late, dirty, hc]

/-! ## C118 -/

/-- Two objects of a class whose members are reusable, at the same iterate, run alike: same result, same history, same
number of evaluations, whatever the other members of the two objects hold. -/
theorem C118_run_independent (hR : Reusable hk R0 R1) (m n : Nat) (o o' : Obj K X E M)
    (hx : o.x1 = o'.x1) (hown : R0 o.own o'.own) (hbb : NoBBHistory env cfg ∨ o'.preBBs = o.preBBs)
    (hl : StopIgnoresLength cfg ∨ o'.lengthSeries = o.lengthSeries)
    (hs : (∀ p, cfg.stop ≠ .user p) ∨ o'.x2 = o.x2) :
    SameRun o o' (run env cfg hk m n o) (run env cfg hk m n o') := by
  have h1 := run_zero (env := env) (cfg := cfg) hR m n { o with cnt := ⟨0, 0, 0, 0, 0⟩ } o rfl rfl (hR.refl0 _) (Or.inr rfl)
    (Or.inr rfl) (Or.inr rfl)
  have h2 := run_zero (env := env) (cfg := cfg) hR m n { o with cnt := ⟨0, 0, 0, 0, 0⟩ } o' rfl hx hown hbb hl hs
  rcases h1 with ⟨a1, a2⟩ | ⟨s, s1, a1, a2, a3, a4⟩
  · rcases h2 with ⟨b1, b2⟩ | ⟨t, t1, b1, b2, b3, b4⟩
    · rw [a2, b2]; trivial
    · rw [a1] at b1; cases b1
  · rcases h2 with ⟨b1, b2⟩ | ⟨t, t1, b1, b2, b3, b4⟩
    · rw [a1] at b1; cases b1
    · rw [a1] at b1
      cases b1
      rw [a2, b2]
      refine ⟨a3.trans b3.symm, ?_⟩
      rw [a4, b4]
      refine ⟨?_, ?_, ?_, ?_, ?_⟩ <;> simp only [] <;> omega

/-- Steepest descent carries nothing over. -/
theorem rsd_reusable (env : Env K X E) : Reusable (rsd env) (fun _ _ => True) (fun _ _ => True) where
  refl0 _ := trivial
  dir0 _ _ _ _ _ := ⟨rfl, trivial⟩
  dir _ _ _ := ⟨rfl, trivial⟩
  upd _ _ _ := ⟨rfl, trivial, rfl⟩

/-- Conjugate gradient: the first pass sets `Pgf1`; `sigma` and `Pgf2` are always written first. -/
theorem rcg_reusable (env : Env K X E) (kind : CGKind) :
    Reusable (rcg env kind) (fun _ _ => True) (fun w w' => w.Pgf1 = w'.Pgf1) where
  refl0 _ := trivial
  dir0 o j b h0 _ := by
    have h0' : (late b (dirty j o)).iter = 0 := h0
    simp only [rcg, h0, h0', decide_true, Bool.true_or, if_true]
    exact ⟨rfl, rfl⟩
  dir o b hw := by
    have e : (decide ((late b o).iter = 0) || env.le (-env.sqrt env.eps) (env.metric (late b o).x1 (late b o).eta1 (late b o).gf1 / (late b o).ngf1 / (late b o).ngf1))
      = (decide (o.iter = 0) || env.le (-env.sqrt env.eps) (env.metric o.x1 o.eta1 o.gf1 / o.ngf1 / o.ngf1)) := rfl
    simp only [rcg, e]
    by_cases hc : (decide (o.iter = 0) || env.le (-env.sqrt env.eps) (env.metric o.x1 o.eta1 o.gf1 / o.ngf1 / o.ngf1)) = true
    · simp only [hc, if_true]; exact ⟨rfl, rfl⟩
    · simp only [hc]; exact ⟨rfl, hw⟩
  upd o b hw := by
    have hP : (late b o).own.Pgf1 = o.own.Pgf1 := hw.symm
    have hg : ∀ T P, cgSigma env kind (late b o) T P = cgSigma env kind o T P := by
      intro T P
      unfold cgSigma
      rw [hP]
      rfl
    have e : env.lt (env.lit 1 10) (env.abs (env.metric (late b o).x2 (late b o).gf2 (env.transport (late b o).x1 (late b o).eta2 (late b o).x2 (late b o).gf1)) / env.metric (late b o).x1 (late b o).gf1 (late b o).gf1)
      = env.lt (env.lit 1 10) (env.abs (env.metric o.x2 o.gf2 (env.transport o.x1 o.eta2 o.x2 o.gf1)) / env.metric o.x1 o.gf1 o.gf1) := rfl
    simp only [rcg, e, hg]
    by_cases hc : env.lt (env.lit 1 10) (env.abs (env.metric o.x2 o.gf2 (env.transport o.x1 o.eta2 o.x2 o.gf1)) / env.metric o.x1 o.gf1 o.gf1) = true
    · simp only [hc, if_true]; exact ⟨rfl, rfl, trivial⟩
    · simp only [hc]; exact ⟨rfl, rfl, rfl⟩

/-- BFGS: only the operator is carried over. -/
theorem rbfgs_reusable {L : Type*} (env : Env K X E) (op : OpEnv K X E L) :
    Reusable (rbfgs env op) (fun w w' => w.H = w'.H) (fun w w' => w.H = w'.H) where
  refl0 _ := rfl
  dir0 o j b _ hw := by
    have hH : (late b (dirty j o)).own.H = o.own.H := hw.symm
    simp only [rbfgs, hH]; exact ⟨rfl, trivial⟩
  dir o b hw := by
    have hH : (late b o).own.H = o.own.H := hw.symm
    simp only [rbfgs, hH]; exact ⟨rfl, trivial⟩
  upd o b hw := by
    have hH : (late b o).own.H = o.own.H := hw.symm
    have e : (rbfgs env op).updateData (late b o) = (rbfgs env op).updateData o := by
      simp only [rbfgs, hH]; rfl
    rw [e]; exact ⟨rfl, rfl, rfl⟩

/-- Steepest descent: `SetProbX` and `Run` on any used object give what they give on any other object, for instance a
fresh one. -/
theorem C118_rsd (m n : Nat) (e : E) (x : X) (o o' : Obj K X E Unit) (hbb : NoBBHistory env cfg) (hl : StopIgnoresLength cfg) :
    SameRun o o' (run env cfg (rsd env) m n (setProbX e id x o)) (run env cfg (rsd env) m n (setProbX e id x o')) :=
  C118_run_independent (rsd_reusable env) m n (setProbX e id x o) (setProbX e id x o') rfl trivial (Or.inl hbb) (Or.inl hl) (Or.inr rfl)

/-- The same for the six conjugate gradient methods. -/
theorem C118_rcg (kind : CGKind) (m n : Nat) (e : E) (x : X) (o o' : Obj K X E (CGOwn K E)) (hbb : NoBBHistory env cfg)
    (hl : StopIgnoresLength cfg) :
    SameRun o o' (run env cfg (rcg env kind) m n (setProbX e id x o)) (run env cfg (rcg env kind) m n (setProbX e id x o')) :=
  C118_run_independent (rcg_reusable env kind) m n (setProbX e id x o) (setProbX e id x o') rfl trivial (Or.inl hbb) (Or.inl hl) (Or.inr rfl)

/-- The same for BFGS, whose `SetProbX` also sets the operator. -/
theorem C118_rbfgs {L : Type*} (op : OpEnv K X E L) (H0 : L) (m n : Nat) (e : E) (x : X) (o o' : Obj K X E (BFGSOwn K E L))
    (hbb : NoBBHistory env cfg) (hl : StopIgnoresLength cfg) :
    SameRun o o' (run env cfg (rbfgs env op) m n (setProbX e (rbfgsReset e H0) x o))
      (run env cfg (rbfgs env op) m n (setProbX e (rbfgsReset e H0) x o')) :=
  C118_run_independent (rbfgs_reusable env op) m n (setProbX e (rbfgsReset e H0) x o) (setProbX e (rbfgsReset e H0) x o') rfl rfl
    (Or.inl hbb) (Or.inl hl) (Or.inr rfl)

/-- `Run` twice in a row without `SetProbX`: the second run is the run of a fresh object that starts where the first one
ended (built-in stopping tests). -/
theorem C118_continue (m n m' n' : Nat) (kind : CGKind) (o r fresh : Obj K X E (CGOwn K E))
    (_ : run env cfg (rcg env kind) m n o = some r) (hx : fresh.x1 = r.x1) (hbb : NoBBHistory env cfg)
    (hs : ∀ p, cfg.stop ≠ .user p) :
    SameRun r fresh (run env cfg (rcg env kind) m' n' r) (run env cfg (rcg env kind) m' n' fresh) :=
  C118_run_independent (rcg_reusable env kind) m' n' r fresh hx.symm trivial (Or.inl hbb) (Or.inl fun p h => absurd h (hs p)) (Or.inl hs)

/-! ## Where the property fails -/

/-- Square root, exact for squares of rationals (all square roots below are of this kind). -/
def ratRoot (q : ℚ) : ℚ := mkRat (Nat.sqrt q.num.toNat) (Nat.sqrt q.den)
/-- `c / 2 * x ^ 2` on the line. -/
def lineEnv (c : ℚ) : Env ℚ ℚ ℚ where
  lit n d := mkRat n d
  lt a b := decide (a < b)
  le a b := decide (a ≤ b)
  eq a b := decide (a = b)
  sqrt := ratRoot
  abs a := if a < 0 then -a else a
  finite _ := true
  inf := 0
  eps := mkRat 1 (2^52)
  f x := c / 2 * x * x
  grad x := c * x
  precond _ v := v
  metric _ u v := u * v
  retr x v := x + v
  dretr _ _ _ v := v
  transport _ _ _ v := v
  smul a v := a * v
  lin a u b v := a * u + b * v

/-- The Barzilai-Borwein rule with `nbb` former steps and backtracking. -/
def lineCfg (stop : StopKind ℚ ℚ) (nbb : Nat) (iters : Nat) : Cfg ℚ ℚ ℚ where
  initstep := 1/2
  maxIter := iters
  minIter := 0
  tol := 1/1000
  accuracy := 0
  finalstep := 1
  alpha := 1/10
  ratio1 := 1/4
  ratio2 := 1/4
  minstep := 1/1000
  numPreFuns := 1
  preFunsAcc := 0
  numPreBB := nbb
  bbRatio := 1
  initType := .bb
  search := .armijo
  stop := stop

/-- An object that was just constructed. -/
def freshObj {M : Type*} (w : M) (x : ℚ) : Obj ℚ ℚ ℚ M :=
  ⟨x, x, 0,0,0,0,0,0,0,0,0,0,0,0,0,0,0,[],[],.success,[],0,⟨0,0,0,0,0⟩,w⟩

/-- Non-trivial instance of `C118_rsd`: default `Num_pre_BB = 0`. -/
example : NoBBHistory (lineEnv 4) (lineCfg .gradF0 0 2) ∧ StopIgnoresLength (lineCfg .gradF0 0 2) ∧
    ((run (lineEnv 4) (lineCfg .gradF0 0 2) (rsd (lineEnv 4)) 10 10 (setProbX 0 id 1 (freshObj () 7))).map fun o => (o.x1, o.iter)) =
      some (0, 2) := by
  refine ⟨Or.inr (Or.inl rfl), ?_, by decide +kernel⟩
  intro p hp
  cases hp

/-- With `Num_pre_BB = 2` steps of an earlier problem are used: after a run on `2 x²`, the run on `x² / 2` from 1 ends at
`3 / 8` (a step of length `1 / 4` is taken over from the first run); a fresh object ends at the minimizer. -/
theorem C118_bb_history_leaks :
    ((run (lineEnv 4) (lineCfg .gradF0 2 2) (rsd (lineEnv 4)) 10 10 (freshObj () 1)).bind fun r =>
        (run (lineEnv 1) (lineCfg .gradF0 2 2) (rsd (lineEnv 1)) 10 10 (setProbX 0 id 1 r)).map fun s => (s.x1, s.f2)) =
      some (3 / 8, 9 / 128) ∧
    ((run (lineEnv 1) (lineCfg .gradF0 2 2) (rsd (lineEnv 1)) 10 10 (setProbX 0 id 1 (freshObj () 1))).map fun s => (s.x1, s.f2)) =
      some (0, 0) := by
  constructor <;> decide +kernel

/-- The user's stopping function gets the previous iterate in the first test of a second `Run`: with "stop at 1/2" the
first run stops at 1/2, a second run from there goes on, and a fresh object at 1/2 stops at once. -/
theorem C118_user_stop_gets_old_iterate :
    ((run (lineEnv 4) (lineCfg (.user fun x _ _ _ _ => decide (x = 1 / 2)) 0 5) (rsd (lineEnv 4)) 10 10 (freshObj () 1)).map
      fun s => (s.x1, s.x2, s.iter)) = some (1 / 2, 1, 1) ∧
    ((run (lineEnv 4) (lineCfg (.user fun x _ _ _ _ => decide (x = 1 / 2)) 0 5) (rsd (lineEnv 4)) 10 10 (freshObj () 1)).bind
      fun r => (run (lineEnv 4) (lineCfg (.user fun x _ _ _ _ => decide (x = 1 / 2)) 0 5) (rsd (lineEnv 4)) 10 10 r).map
        fun s => s.iter) = some 5 ∧
    ((run (lineEnv 4) (lineCfg (.user fun x _ _ _ _ => decide (x = 1 / 2)) 0 5) (rsd (lineEnv 4)) 10 10 (freshObj () (1 / 2))).map
      fun s => (s.x1, s.iter)) = some (1 / 2, 0) := by
  refine ⟨?_, ?_, ?_⟩ <;> decide +kernel

/-- Operators on the line. -/
def lineOp : OpEnv ℚ ℚ ℚ ℚ where
  app _ H v := H * v
  tran _ _ _ H := H
  rank1 _ H c u v := H + c * u * v
  scaledId _ c := c
  beta _ _ := 1
  powmu a := a
  isconvex := false
  nu := 1 / 10000

/-- Without `SetProbX` BFGS keeps its operator: one iteration of a second run leads from -1/2 to
-1/4, of a fresh object from -1/2 to 1/4. -/
theorem C118_rbfgs_keeps_operator :
    ((run (lineEnv 3) (lineCfg .gradF0 0 1) (rbfgs (lineEnv 3) lineOp) 10 10 (freshObj ⟨1, 0, 0, 0, 0, 0, false⟩ 1)).bind
      fun r => (run (lineEnv 3) (lineCfg .gradF0 0 1) (rbfgs (lineEnv 3) lineOp) 10 10 r).map
        fun s => (r.x1, r.own.H, s.x1)) = some (-1 / 2, 1 / 3, -1 / 4) ∧
    ((run (lineEnv 3) (lineCfg .gradF0 0 1) (rbfgs (lineEnv 3) lineOp) 10 10 (freshObj ⟨1, 0, 0, 0, 0, 0, false⟩ (-1 / 2))).map
        fun s => s.x1) = some (1 / 4) := by
  constructor <;> decide +kernel

end Verif.Obj
