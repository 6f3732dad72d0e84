import Verif.Solver.ObjectSearch
import Mathlib.Tactic.Common
import Mathlib.Tactic.SplitIfs

/-!
# What each line search leaves behind

Helper lemmas: on every way out of every search the members describing the current iterate are unchanged and `f2` is the value at `x2`; on which ways out the step and the gradient belong to `x2`.
-/

namespace Verif.Obj

variable {K X E M : Type*} [Add K] [Sub K] [Mul K] [Div K] [Neg K] {env : Env K X E} {cfg : Cfg K X E} {ls : LSCfg K}

/-- The members describing the current iterate are those of `o`. -/
structure Keeps (o o' : Obj K X E M) : Prop where
  x1 : o'.x1 = o.x1
  f1 : o'.f1 = o.f1
  gf1 : o'.gf1 = o.gf1
  eta1 : o'.eta1 = o.eta1
  ngf0 : o'.ngf0 = o.ngf0
  ngf1 : o'.ngf1 = o.ngf1
  ngf2 : o'.ngf2 = o.ngf2
  iter : o'.iter = o.iter
  series : o'.series = o.series
  slope : o'.initialslope = o.initialslope

theorem Keeps.refl (o : Obj K X E M) : Keeps o o := ⟨rfl, rfl, rfl, rfl, rfl, rfl, rfl, rfl, rfl, rfl⟩

theorem Keeps.trans {a b c : Obj K X E M} (h : Keeps a b) (k : Keeps b c) : Keeps a c :=
  ⟨k.x1.trans h.x1, k.f1.trans h.f1, k.gf1.trans h.gf1, k.eta1.trans h.eta1, k.ngf0.trans h.ngf0, k.ngf1.trans h.ngf1, k.ngf2.trans h.ngf2, k.iter.trans h.iter,
    k.series.trans h.series, k.slope.trans h.slope⟩

/-- `f2` is the value at `x2`. -/
def Val (env : Env K X E) (o : Obj K X E M) : Prop := o.f2 = env.f o.x2

/-- `x2` is the point at the step `stepsize` along `eta1`. -/
def Fit (env : Env K X E) (o : Obj K X E M) : Prop := o.x2 = env.retr o.x1 (env.smul o.stepsize o.eta1)

/-- `gf2` is the gradient at `x2`. -/
def Fresh (env : Env K X E) (o : Obj K X E M) : Prop := o.gf2 = env.grad o.x2

theorem keeps_h (o : Obj K X E M) : Keeps o (h env o) := ⟨rfl, rfl, rfl, rfl, rfl, rfl, rfl, rfl, rfl, rfl⟩
theorem keeps_dh (o : Obj K X E M) : Keeps o (dh env o) := ⟨rfl, rfl, rfl, rfl, rfl, rfl, rfl, rfl, rfl, rfl⟩
theorem keeps_gradX2 (o : Obj K X E M) : Keeps o (gradX2 env o) := ⟨rfl, rfl, rfl, rfl, rfl, rfl, rfl, rfl, rfl, rfl⟩
theorem keeps_step (o : Obj K X E M) (t : K) : Keeps o { o with stepsize := t } := ⟨rfl, rfl, rfl, rfl, rfl, rfl, rfl, rfl, rfl, rfl⟩
theorem keeps_status (o : Obj K X E M) (s : Status) : Keeps o { o with status := s } := ⟨rfl, rfl, rfl, rfl, rfl, rfl, rfl, rfl, rfl, rfl⟩
theorem keeps_stepStatus (o : Obj K X E M) (t : K) (s : Status) : Keeps o { o with stepsize := t, status := s } := ⟨rfl, rfl, rfl, rfl, rfl, rfl, rfl, rfl, rfl, rfl⟩
theorem keeps_slope (o : Obj K X E M) (t : K) : Keeps o { o with newslope := t } := ⟨rfl, rfl, rfl, rfl, rfl, rfl, rfl, rfl, rfl, rfl⟩
theorem val_h (o : Obj K X E M) : Val env (h env o) := rfl
theorem fit_h (o : Obj K X E M) : Fit env (h env o) := rfl
theorem fresh_dh (o : Obj K X E M) : Fresh env (dh env o) := rfl
theorem fresh_gradX2 (o : Obj K X E M) : Fresh env (gradX2 env o) := rfl

/-! ## Armijo -/

theorem backtrack_out (mp : K) (n : Nat) : ∀ (o o' : Obj K X E M), backtrack env cfg mp n o = some o' → Val env o → Fit env o → o.status = .success →
    Keeps o o' ∧ Val env o' ∧ ((o'.status = .success ∧ Fit env o') ∨ o'.status = .minStep) := by
  induction n with
  | zero => intro o o' e; simp [backtrack] at e
  | succ n ih =>
    intro o o' e hv hf hs
    unfold backtrack at e
    by_cases ha : armijoFails env cfg mp o
    · rw [if_pos ha] at e
      dsimp only at e
      by_cases hm : env.lt (o.stepsize * cfg.ratio1) cfg.minstep
      · rw [if_pos hm] at e
        cases e
        exact ⟨keeps_stepStatus _ _ _, hv, Or.inr rfl⟩
      · rw [if_neg hm] at e
        obtain ⟨a, b, c⟩ := ih _ _ e (val_h _) (fit_h _) hs
        exact ⟨((keeps_step _ _).trans (keeps_h _)).trans a, b, c⟩
    · rw [if_neg ha] at e
      cases e
      exact ⟨Keeps.refl _, hv, Or.inl ⟨hs, hf⟩⟩

theorem interpLoop_out (mp : K) (n : Nat) : ∀ (a b c : K) (o o' : Obj K X E M), interpLoop env cfg mp n a b c o = some o' → Val env o → Fit env o → o.status = .success →
    Keeps o o' ∧ Val env o' ∧ ((o'.status = .success ∧ Fit env o') ∨ o'.status = .minStep) := by
  induction n with
  | zero => intro a b c o o' e; simp [interpLoop] at e
  | succ n ih =>
    intro a b c o o' e hv hf hs
    unfold interpLoop at e
    by_cases ha : armijoFails env cfg mp o
    · rw [if_pos ha] at e
      dsimp only at e
      by_cases hm : env.lt (clampStep env cfg (cubicStep env a b c o.f2 o.f1 o.initialslope) a) cfg.minstep
      · rw [if_pos hm] at e
        cases e
        exact ⟨keeps_stepStatus _ _ _, hv, Or.inr rfl⟩
      · rw [if_neg hm] at e
        obtain ⟨a, b, c⟩ := ih _ _ _ _ _ e (val_h _) (fit_h _) hs
        exact ⟨((keeps_step _ _).trans (keeps_h _)).trans a, b, c⟩
    · rw [if_neg ha] at e
      cases e
      exact ⟨Keeps.refl _, hv, Or.inl ⟨hs, hf⟩⟩

theorem armijo_out {n : Nat} {o o' : Obj K X E M} (e : armijo env cfg n o = some o') :
    Keeps o o' ∧ Val env o' ∧ Fresh env o' ∧ ((o'.status = .success ∧ Fit env o') ∨ o'.status = .minStep) := by
  unfold armijo at e
  dsimp only at e
  have k0 : Keeps o (h env { o with status := Status.success }) := (keeps_status o _).trans (keeps_h _)
  by_cases hr : env.le cfg.ratio2 cfg.ratio1
  · rw [if_pos hr] at e
    obtain ⟨p, hp, rfl⟩ := Option.map_eq_some_iff.mp e
    obtain ⟨a, b, c⟩ := backtrack_out _ _ _ _ hp (val_h _) (fit_h _) rfl
    exact ⟨(k0.trans a).trans (keeps_dh _), b, fresh_dh _, c⟩
  · rw [if_neg hr] at e
    obtain ⟨p, hp, rfl⟩ := Option.map_eq_some_iff.mp e
    have key : Keeps o p ∧ Val env p ∧ ((p.status = .success ∧ Fit env p) ∨ p.status = .minStep) := by
      split_ifs at hp
      · obtain ⟨a, b, c⟩ := interpLoop_out _ _ _ _ _ _ _ hp (val_h _) (fit_h _) rfl
        exact ⟨k0.trans (((keeps_step _ _).trans (keeps_h _)).trans a), b, c⟩
      · obtain ⟨a, b, c⟩ := interpLoop_out _ _ _ _ _ _ _ hp (val_h _) (fit_h _) rfl
        exact ⟨k0.trans a, b, c⟩
    obtain ⟨a, b, c⟩ := key
    exact ⟨(a.trans (keeps_gradX2 _)).trans (keeps_slope _ _), b, fresh_gradX2 _, c⟩

/-! ## Strong Wolfe -/

theorem zoom_out (n : Nat) : ∀ (a b c d s : K) (o : Obj K X E M), Val env o → o.status = .success →
    Keeps o (zoom env cfg ls n a b c d s o) ∧ Val env (zoom env cfg ls n a b c d s o) ∧
      (((zoom env cfg ls n a b c d s o).status = .success ∧ Fit env (zoom env cfg ls n a b c d s o) ∧ Fresh env (zoom env cfg ls n a b c d s o)) ∨
        (zoom env cfg ls n a b c d s o).status = .minStep ∨ (zoom env cfg ls n a b c d s o).status = .lsError) := by
  induction n with
  | zero => intro a b c d s o hv hs; exact ⟨keeps_stepStatus _ _ _, hv, Or.inr (Or.inr rfl)⟩
  | succ n ih =>
    intro a b c d s o hv hs
    unfold zoom
    dsimp only
    generalize hp : h env { o with stepsize := zoomPick env cfg a b c d s } = p
    have kp : Keeps o p := hp ▸ ((keeps_step _ _).trans (keeps_h _))
    have vp : Val env p := hp ▸ val_h _
    have fp : Fit env p := hp ▸ fit_h _
    have sp : p.status = .success := by rw [← hp]; exact hs
    by_cases h1 : decBad env cfg p || env.le c p.f2
    · rw [if_pos h1]
      by_cases h2 : env.le p.stepsize cfg.minstep
      · rw [if_pos h2]
        exact ⟨kp.trans (keeps_status _ _), vp, Or.inr (Or.inl rfl)⟩
      · rw [if_neg h2]
        obtain ⟨x, y, z⟩ := ih a p.stepsize c p.f2 s p vp sp
        exact ⟨kp.trans x, y, z⟩
    · rw [if_neg h1]
      by_cases h3 : env.le (env.abs (dh env p).newslope) (-ls.beta * (dh env p).initialslope)
      · rw [if_pos h3]
        exact ⟨kp.trans (keeps_dh _), vp, Or.inl ⟨sp, fp, fresh_dh _⟩⟩
      · rw [if_neg h3]
        by_cases h2 : env.le (dh env p).stepsize cfg.minstep
        · rw [if_pos h2]
          exact ⟨(kp.trans (keeps_dh _)).trans (keeps_status _ _), vp, Or.inr (Or.inl rfl)⟩
        · rw [if_neg h2]
          obtain ⟨x, y, z⟩ := ih (dh env p).stepsize _ (dh env p).f2 _ (dh env p).newslope (dh env p) vp sp
          exact ⟨(kp.trans (keeps_dh _)).trans x, y, z⟩

theorem swLoop_out (n : Nat) : ∀ (a b c : K) (o o' : Obj K X E M), swLoop env cfg ls n a b c o = some o' → o.status = .success →
    Keeps o o' ∧ Val env o' ∧ (((o'.status = .success ∨ o'.status = .maxStep) ∧ Fit env o' ∧ Fresh env o') ∨ o'.status = .minStep ∨ o'.status = .lsError) := by
  induction n with
  | zero => intro a b c o o' e; simp [swLoop] at e
  | succ n ih =>
    intro a b c o o' e hs
    unfold swLoop at e
    dsimp only at e
    generalize hp : h env o = p at e
    have kp : Keeps o p := hp ▸ keeps_h _
    have vp : Val env p := hp ▸ val_h _
    have fp : Fit env p := hp ▸ fit_h _
    have sp : p.status = .success := by rw [← hp]; exact hs
    have weak : ∀ {q : Obj K X E M}, ((q.status = .success ∧ Fit env q ∧ Fresh env q) ∨ q.status = .minStep ∨ q.status = .lsError) →
        (((q.status = .success ∨ q.status = .maxStep) ∧ Fit env q ∧ Fresh env q) ∨ q.status = .minStep ∨ q.status = .lsError) := by
      rintro q (⟨x, y⟩ | x)
      · exact Or.inl ⟨Or.inl x, y⟩
      · exact Or.inr x
    by_cases h1 : decBad env cfg p || env.le b p.f2
    · rw [if_pos h1] at e
      cases e
      obtain ⟨x, y, z⟩ := zoom_out (env := env) (cfg := cfg) (ls := ls) 9 a p.stepsize b p.f2 c p vp sp
      exact ⟨kp.trans x, y, weak z⟩
    · rw [if_neg h1] at e
      by_cases h2 : env.le (env.abs (dh env p).newslope) (-ls.beta * (dh env p).initialslope)
      · rw [if_pos h2] at e
        cases e
        exact ⟨kp.trans (keeps_dh _), vp, Or.inl ⟨Or.inl sp, fp, fresh_dh _⟩⟩
      · rw [if_neg h2] at e
        by_cases h3 : env.le (env.lit 0 1) (dh env p).newslope
        · rw [if_pos h3] at e
          cases e
          obtain ⟨x, y, z⟩ := zoom_out (env := env) (cfg := cfg) (ls := ls) 9 (dh env p).stepsize a (dh env p).f2 b (dh env p).newslope (dh env p) vp sp
          exact ⟨(kp.trans (keeps_dh _)).trans x, y, weak z⟩
        · rw [if_neg h3] at e
          by_cases h4 : env.eq (dh env p).stepsize ls.maxstep
          · rw [if_pos h4] at e
            cases e
            exact ⟨(kp.trans (keeps_dh _)).trans (keeps_status _ _), vp, Or.inl ⟨Or.inr rfl, fp, fresh_dh _⟩⟩
          · rw [if_neg h4] at e
            obtain ⟨x, y, z⟩ := ih _ _ _ _ _ e sp
            exact ⟨((kp.trans (keeps_dh _)).trans (keeps_step _ _)).trans x, y, z⟩

theorem swSearch_out {n : Nat} {o o' : Obj K X E M} (e : swSearch env cfg ls n o = some o') :
    Keeps o o' ∧ Val env o' ∧ (((o'.status = .success ∨ o'.status = .maxStep) ∧ Fit env o' ∧ Fresh env o') ∨ o'.status = .minStep ∨ o'.status = .lsError) := by
  obtain ⟨x, y, z⟩ := swLoop_out _ _ _ _ _ _ e rfl
  exact ⟨(keeps_status _ _).trans x, y, z⟩

/-! ## Weak Wolfe -/

/-- A strict inequality excludes the opposite inequality; true of the numbers of the machine too. -/
def Strict (env : Env K X E) : Prop := ∀ a b, env.lt b a = true → env.le a b = false

theorem wExpand_out (k : Nat) : ∀ (a b : K) (o : Obj K X E M), Val env o → Fit env o → (decOk env cfg o = true → Fresh env o) → (decOk env cfg o = false → steep env ls o = true) →
    Keeps o (wExpand env cfg ls k a b o).2.2 ∧ Val env (wExpand env cfg ls k a b o).2.2 ∧ Fit env (wExpand env cfg ls k a b o).2.2 ∧
      (decOk env cfg (wExpand env cfg ls k a b o).2.2 = true → Fresh env (wExpand env cfg ls k a b o).2.2) ∧
      (decOk env cfg (wExpand env cfg ls k a b o).2.2 = false → steep env ls (wExpand env cfg ls k a b o).2.2 = true) := by
  induction k with
  | zero => intro a b o hv hf hg hst; exact ⟨Keeps.refl _, hv, hf, hg, hst⟩
  | succ k ih =>
    intro a b o hv hf hg hst
    unfold wExpand
    by_cases hc : (decOk env cfg o && steep env ls o && env.lt o.stepsize ls.maxstep) = true
    · rw [if_pos hc]
      dsimp only
      generalize hp : h env { o with stepsize := if env.lt (env.lit 2 1 * o.stepsize) ls.maxstep then env.lit 2 1 * o.stepsize else ls.maxstep } = p
      have kp : Keeps o p := hp ▸ ((keeps_step _ _).trans (keeps_h _))
      have vp : Val env p := hp ▸ val_h _
      have fp : Fit env p := hp ▸ fit_h _
      have np : steep env ls p = true := by
        rw [Bool.and_eq_true, Bool.and_eq_true] at hc
        rw [← hp]; exact hc.1.2
      by_cases hd : decOk env cfg p = true
      · rw [if_pos hd]
        obtain ⟨x, y, z, w⟩ := ih o.stepsize o.f2 (dh env p) vp fp (fun _ => fresh_dh _) (fun e => by
          have : decOk env cfg (dh env p) = decOk env cfg p := rfl
          rw [this, hd] at e; exact absurd e (by decide))
        exact ⟨(kp.trans (keeps_dh _)).trans x, y, z, w⟩
      · rw [if_neg hd]
        obtain ⟨x, y, z, w⟩ := ih o.stepsize o.f2 p vp fp (fun e => absurd e hd) (fun _ => np)
        exact ⟨kp.trans x, y, z, w⟩
    · rw [if_neg hc]
      exact ⟨Keeps.refl _, hv, hf, hg, hst⟩

/-- What the interpolation loop keeps true. -/
def WInv (env : Env K X E) (cfg : Cfg K X E) (ls : LSCfg K) (o : Obj K X E M) : Prop := steep env ls o = true ∨ (Fresh env o ∧ decBad env cfg o = false)

theorem wInterp_out (k : Nat) : ∀ (a b c d : K) (o : Obj K X E M), Val env o → Fit env o →
    Keeps o (wInterp env cfg ls k a b c d o) ∧ Val env (wInterp env cfg ls k a b c d o) ∧ Fit env (wInterp env cfg ls k a b c d o) ∧
      (WInv env cfg ls o → WInv env cfg ls (wInterp env cfg ls k a b c d o)) := by
  induction k with
  | zero => intro a b c d o hv hf; exact ⟨Keeps.refl _, hv, hf, id⟩
  | succ k ih =>
    intro a b c d o hv hf
    unfold wInterp
    by_cases hc : ((decBad env cfg o || steep env ls o) && env.le cfg.minstep b) = true
    · rw [if_pos hc]
      have hst : WInv env cfg ls o → steep env ls o = true := by
        rintro (hi | ⟨_, hi⟩)
        · exact hi
        · rw [Bool.and_eq_true, Bool.or_eq_true, hi] at hc
          rcases hc.1 with e | e
          · exact absurd e (by decide)
          · exact e
      dsimp only
      generalize hp : h env { o with stepsize := _ } = p
      have kp : Keeps o p := hp ▸ ((keeps_step _ _).trans (keeps_h _))
      have vp : Val env p := hp ▸ val_h _
      have fp : Fit env p := hp ▸ fit_h _
      have np : WInv env cfg ls o → steep env ls p = true := fun hi => by rw [← hp]; exact hst hi
      by_cases hd : decBad env cfg p = true
      · rw [if_pos hd]
        obtain ⟨x, y, z, w⟩ := ih a _ c p.f2 p vp fp
        exact ⟨kp.trans x, y, z, fun hi => w (Or.inl (np hi))⟩
      · rw [if_neg hd]
        have fr : WInv env cfg ls (dh env p) := Or.inr ⟨fresh_dh _, by
          have : decBad env cfg (dh env p) = decBad env cfg p := rfl
          rw [this]; simpa using hd⟩
        by_cases hq : steep env ls (dh env p) = true
        · rw [if_pos hq]
          obtain ⟨x, y, z, w⟩ := ih (dh env p).stepsize _ (dh env p).f2 d (dh env p) vp fp
          exact ⟨(kp.trans (keeps_dh _)).trans x, y, z, fun _ => w fr⟩
        · rw [if_neg hq]
          obtain ⟨x, y, z, w⟩ := ih a b c d (dh env p) vp fp
          exact ⟨(kp.trans (keeps_dh _)).trans x, y, z, fun _ => w fr⟩
    · rw [if_neg hc]
      exact ⟨Keeps.refl _, hv, hf, id⟩

theorem wAfter_out (a b : K) (o : Obj K X E M) (hv : Val env o) (hf : Fit env o) (hg : decOk env cfg o = true → Fresh env o) (hst : decOk env cfg o = false → steep env ls o = true) :
    Keeps o (wAfter env cfg ls a b o) ∧ Val env (wAfter env cfg ls a b o) ∧ Fit env (wAfter env cfg ls a b o) ∧
      (Strict env → (decOk env cfg (wAfter env cfg ls a b o) = true ∨ (wAfter env cfg ls a b o).status ≠ .success) → Fresh env (wAfter env cfg ls a b o)) := by
  unfold wAfter
  by_cases h1 : env.le ls.maxstep o.stepsize = true
  · rw [if_pos h1]
    exact ⟨(keeps_gradX2 _).trans (keeps_status _ _), hv, hf, fun _ _ => fresh_gradX2 _⟩
  · rw [if_neg h1]
    by_cases h2 : (!(env.eq o.stepsize o.initiallength) && decBad env cfg o) = true
    · rw [if_pos h2]
      dsimp only
      have hbad : decBad env cfg o = true := by rw [Bool.and_eq_true] at h2; exact h2.2
      obtain ⟨x, y, z, w⟩ := wInterp_out (env := env) (cfg := cfg) (ls := ls) 11 (if env.lt o.stepsize a then o.stepsize else a) (env.abs (a - o.stepsize))
        (if env.lt o.stepsize a then o.f2 else b) (if env.lt o.stepsize a then b else o.f2) o hv hf
      generalize wInterp env cfg ls 11 _ _ _ _ o = q at x y z w ⊢
      by_cases h3 : steep env ls q = true
      · rw [if_pos h3]
        exact ⟨((x.trans (keeps_h _)).trans (keeps_dh _)).trans (keeps_status _ _), rfl, rfl, fun _ _ => rfl⟩
      · rw [if_neg h3]
        refine ⟨x.trans (keeps_status _ _), y, z, fun hS _ => ?_⟩
        rcases w (Or.inl (hst (hS _ _ hbad))) with w | w
        · exact absurd w h3
        · exact w.1
    · rw [if_neg h2]
      refine ⟨keeps_status _ _, hv, hf, fun _ hh => ?_⟩
      rcases hh with hh | hh
      · exact hg hh
      · exact absurd rfl hh

theorem wLoop_out (n : Nat) : ∀ (a b : K) (o o' : Obj K X E M), wLoop env cfg ls n a b o = some o' →
    Keeps o o' ∧ Val env o' ∧ Fit env o' ∧ (Strict env → (decOk env cfg o' = true ∨ o'.status ≠ .success) → Fresh env o') := by
  induction n with
  | zero => intro a b o o' e; simp [wLoop] at e
  | succ n ih =>
    intro a b o o' e
    unfold wLoop at e
    dsimp only at e
    by_cases h1 : decOk env cfg (h env o) = true
    · rw [if_pos h1] at e
      by_cases h2 : steep env ls (dh env (h env o)) = true
      · rw [if_pos h2] at e
        cases e
        obtain ⟨x, y, z, w, v⟩ := wExpand_out (env := env) (cfg := cfg) (ls := ls) 11 a b (dh env (h env o)) rfl rfl (fun _ => rfl) (fun _ => h2)
        obtain ⟨x', y', z', w'⟩ := wAfter_out (ls := ls) (wExpand env cfg ls 11 a b (dh env (h env o))).1 (wExpand env cfg ls 11 a b (dh env (h env o))).2.1 _ y z w v
        exact ⟨(((keeps_h o).trans (keeps_dh _)).trans x).trans x', y', z', w'⟩
      · rw [if_neg h2] at e
        cases e
        exact ⟨((keeps_h o).trans (keeps_dh _)).trans (keeps_status _ _), rfl, rfl, fun _ _ => rfl⟩
    · rw [if_neg h1] at e
      by_cases h3 : env.le (h env o).stepsize cfg.minstep = true
      · rw [if_pos h3] at e
        cases e
        exact ⟨((((keeps_h o).trans (keeps_step _ _)).trans (keeps_h _)).trans (keeps_dh _)).trans (keeps_status _ _), rfl, rfl, fun _ _ => rfl⟩
      · rw [if_neg h3] at e
        obtain ⟨x, y, z, w⟩ := ih _ _ _ _ e
        exact ⟨((keeps_h o).trans (keeps_step _ _)).trans x, y, z, w⟩

theorem wSearch_out {n : Nat} {o o' : Obj K X E M} (e : wSearch env cfg ls n o = some o') :
    Keeps o o' ∧ Val env o' ∧ Fit env o' ∧ (Strict env → (decOk env cfg o' = true ∨ o'.status ≠ .success) → Fresh env o') := by
  obtain ⟨x, y⟩ := wLoop_out _ _ _ _ _ e
  exact ⟨(keeps_status _ _).trans x, y⟩

/-! ## Exact search and the user's search -/

theorem exInner_out (a b c d : K) (n : Nat) : ∀ (t : K) (o : Obj K X E M) (r : K × Obj K X E M), exInner env cfg a b c d n t o = some r → Val env o → Fit env o → o.status = .success →
    Keeps o r.2 ∧ Val env r.2 ∧ Fit env r.2 ∧ (r.2.status = .success ∨ (r.2.status = .nonExact ∧ Fresh env r.2)) := by
  induction n with
  | zero => intro t o r e; simp [exInner] at e
  | succ n ih =>
    intro t o r e hv hf hs
    unfold exInner at e
    by_cases h1 : env.lt (c + cfg.alpha * t * d * b) o.f2 = true
    · rw [if_pos h1] at e
      dsimp only at e
      generalize hp : h env { o with stepsize := a + t * cfg.ratio1 * b } = p at e
      have kp : Keeps o p := hp ▸ ((keeps_step _ _).trans (keeps_h _))
      have vp : Val env p := hp ▸ val_h _
      have fp : Fit env p := hp ▸ fit_h _
      have sp : p.status = .success := by rw [← hp]; exact hs
      by_cases h2 : env.lt (t * cfg.ratio1 * cfg.ratio1) (exMin env) = true
      · rw [if_pos h2] at e
        split_ifs at e
        · cases e
          exact ⟨(kp.trans (keeps_dh _)).trans (keeps_status _ _), vp, fp, Or.inr ⟨rfl, fresh_dh _⟩⟩
        · cases e
          exact ⟨kp.trans (keeps_dh _), vp, fp, Or.inl sp⟩
      · rw [if_neg h2] at e
        obtain ⟨x, y⟩ := ih _ _ _ e vp fp sp
        exact ⟨kp.trans x, y⟩
    · rw [if_neg h1] at e
      cases e
      exact ⟨Keeps.refl _, hv, hf, Or.inl hs⟩

theorem exLoop_out (n k : Nat) : ∀ (a b c d : K) (o o' : Obj K X E M), exLoop env cfg n k a b c d o = some o' → o.status = .success → (0 < k ∨ (Val env o ∧ Fit env o ∧ Fresh env o)) →
    Keeps o o' ∧ Val env o' ∧ Fit env o' ∧ Fresh env o' := by
  induction k with
  | zero =>
    intro a b c d o o' e hs hi
    unfold exLoop at e
    cases e
    rcases hi with hi | hi
    · exact absurd hi (by decide)
    · exact ⟨Keeps.refl _, hi⟩
  | succ k ih =>
    intro a b c d o o' e hs _
    unfold exLoop at e
    dsimp only at e
    generalize hp : h env { o with stepsize := a + env.lit 1 1 * (-c / b) } = p at e
    have kp : Keeps o p := hp ▸ ((keeps_step _ _).trans (keeps_h _))
    have vp : Val env p := hp ▸ val_h _
    have fp : Fit env p := hp ▸ fit_h _
    have sp : p.status = .success := by rw [← hp]; exact hs
    rcases hq : exInner env cfg a (-c / b) d c n (env.lit 1 1) p with _ | ⟨t, q⟩
    · rw [hq] at e; simp at e
    · rw [hq] at e
      dsimp only at e
      obtain ⟨x, y, z, w⟩ := exInner_out _ _ _ _ _ _ _ _ hq vp fp sp
      dsimp only at x y z w
      by_cases h1 : q.status = .nonExact
      · rw [if_pos h1] at e
        cases e
        rcases w with w | w
        · rw [w] at h1; exact absurd h1 (by decide)
        · exact ⟨kp.trans x, y, z, w.2⟩
      · rw [if_neg h1] at e
        have sq : q.status = .success := by
          rcases w with w | w
          · exact w
          · exact absurd w.1 h1
        split_ifs at e
        · cases e
          exact ⟨(kp.trans x).trans (keeps_dh _), y, z, fresh_dh _⟩
        all_goals
          obtain ⟨x', y'⟩ := ih _ _ _ _ _ _ e sq (Or.inr ⟨y, z, fresh_dh _⟩)
          exact ⟨((kp.trans x).trans (keeps_dh _)).trans x', y'⟩

theorem exSearch_out {n : Nat} {o o' : Obj K X E M} (e : exSearch env cfg ls n o = some o') : Keeps o o' ∧ Val env o' ∧ Fit env o' ∧ Fresh env o' := by
  unfold exSearch at e
  obtain ⟨p, hp, rfl⟩ := Option.map_eq_some_iff.mp e
  obtain ⟨x, y, z, w⟩ := exLoop_out _ _ _ _ _ _ _ _ hp rfl (Or.inl (by decide))
  have mark : ∀ (b : Bool) (s : Status) (q : Obj K X E M), (Keeps o q ∧ Val env q ∧ Fit env q ∧ Fresh env q) →
      (Keeps o (if b then { q with status := s } else q) ∧ Val env (if b then { q with status := s } else q) ∧ Fit env (if b then { q with status := s } else q) ∧
        Fresh env (if b then { q with status := s } else q)) := by
    rintro (_ | _) s q ⟨x, y, z, w⟩
    · exact ⟨x, y, z, w⟩
    · exact ⟨x.trans (keeps_status _ _), y, z, w⟩
  exact mark _ _ _ (mark _ _ _ ⟨(keeps_status o Status.success).trans x, y, z, w⟩)

theorem inSearch_out {p : Bool} {u : Nat → X → E → K → K → K} {n : Nat} {o o' : Obj K X E M} (hs : o.status = .success) (e : inSearch env cfg p u n o = some o') :
    Keeps o o' ∧ Val env o' ∧ Fresh env o' ∧ ((o'.status = .success ∧ Fit env o') ∨ o'.status = .minStep) := by
  unfold inSearch at e
  dsimp only at e
  split_ifs at e
  all_goals first
    | (cases e; exact ⟨⟨rfl, rfl, rfl, rfl, rfl, rfl, rfl, rfl, rfl, rfl⟩, rfl, rfl, Or.inl ⟨hs, rfl⟩⟩)
    | (obtain ⟨x, y⟩ := armijo_out e
       exact ⟨⟨x.x1, x.f1, x.gf1, x.eta1, x.ngf0, x.ngf1, x.ngf2, x.iter, x.series, x.slope⟩, y⟩)

end Verif.Obj
