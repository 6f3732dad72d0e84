import Verif.Solver.ObjectSub
import Verif.Solver.ObjectRefine
import Verif.Solver.SubDir
import Verif.Props.Subgrad
import Verif.Props.LBFGS
import Verif.Props.Object
import Verif.Props.Refine

/-!
# C152: subgradient solver objects
-/

set_option linter.unusedSectionVars false
set_option linter.unusedVariables false

namespace Verif.Obj

open Verif.Sub (LSStatus)

section Any

variable {K X E W : Type*} [Add K] [Sub K] [Mul K] [Div K] [Neg K] {env : SubEnv K X E W} {cfg : SubCfg K X}

/-! ## What the parts of a pass leave alone -/

/-- Members that neither the direction nor the search changes. -/
structure SuKeeps (o o' : SubObj K X E W) : Prop where
  x1 : o'.x1 = o.x1
  f1 : o'.f1 = o.f1
  gf1 : o'.gf1 = o.gf1
  eps : o'.eps = o.eps
  del : o'.del = o.del
  lenG : o'.lenG = o.lenG
  iter : o'.iter = o.iter
  series : o'.series = o.series
  dirs : o'.dirs = o.dirs
  mem : o'.mem = o.mem
  lengthSeries : o'.lengthSeries = o.lengthSeries
  numExtra : o'.numExtra = o.numExtra

theorem SuKeeps.refl (o : SubObj K X E W) : SuKeeps o o := ⟨rfl, rfl, rfl, rfl, rfl, rfl, rfl, rfl, rfl, rfl, rfl, rfl⟩

theorem SuKeeps.trans {a b c : SubObj K X E W} (h : SuKeeps a b) (k : SuKeeps b c) : SuKeeps a c :=
  ⟨k.x1.trans h.x1, k.f1.trans h.f1, k.gf1.trans h.gf1, k.eps.trans h.eps, k.del.trans h.del, k.lenG.trans h.lenG, k.iter.trans h.iter, k.series.trans h.series, k.dirs.trans h.dirs, k.mem.trans h.mem,
    k.lengthSeries.trans h.lengthSeries, k.numExtra.trans h.numExtra⟩

/-- Members that the search does not change in addition. -/
structure SuAims (o o' : SubObj K X E W) : Prop extends SuKeeps o o' where
  eta1 : o'.eta1 = o.eta1
  minPv : o'.minPv = o.minPv
  ndir1 : o'.ndir1 = o.ndir1
  slope : o'.initialslope = o.initialslope

theorem SuAims.trans {a b c : SubObj K X E W} (h : SuAims a b) (k : SuAims b c) : SuAims a c :=
  ⟨h.toSuKeeps.trans k.toSuKeeps, k.eta1.trans h.eta1, k.minPv.trans h.minPv, k.ndir1.trans h.ndir1, k.slope.trans h.slope⟩

theorem SuKeeps.after {a b c : SubObj K X E W} (k : SuKeeps b c) (h : SuKeeps a b) : SuKeeps a c := h.trans k

theorem SuAims.after {a b c : SubObj K X E W} (k : SuAims b c) (h : SuAims a b) : SuAims a c := h.trans k

theorem suAims_H (o : SubObj K X E W) : SuAims o (suH env o) := ⟨⟨rfl, rfl, rfl, rfl, rfl, rfl, rfl, rfl, rfl, rfl, rfl, rfl⟩, rfl, rfl, rfl, rfl⟩

theorem suAims_Dh (o : SubObj K X E W) : SuAims o (suDh env o) := ⟨⟨rfl, rfl, rfl, rfl, rfl, rfl, rfl, rfl, rfl, rfl, rfl, rfl⟩, rfl, rfl, rfl, rfl⟩

/-- `x2` is the point at `eta2` and `f2` its value. -/
structure SuTrial (env : SubEnv K X E W) (o : SubObj K X E W) : Prop where
  point : o.x2 = env.retr o.x1 o.eta2
  value : o.f2 = env.f o.x2

theorem suTrial_H (o : SubObj K X E W) : SuTrial env (suH env o) := ⟨rfl, rfl⟩

theorem suTrial_Dh {o : SubObj K X E W} (h : SuTrial env o) : SuTrial env (suDh env o) := ⟨h.1, h.2⟩

theorem suZoom_out : ∀ (n : Nat) (a b : K) (t : Nat) (o o' : SubObj K X E W), SuTrial env o → suZoom env cfg n a b t o = some o' → SuAims o o' ∧ SuTrial env o' ∧ o'.gf2 = env.grad o'.x2 := by
  intro n
  induction n with
  | zero => intro a b t o o' _ h; simp [suZoom] at h
  | succ n ih =>
    intro a b t o o' hT h
    unfold suZoom at h
    dsimp only at h
    split at h
    · cases h
      exact ⟨⟨⟨rfl, rfl, rfl, rfl, rfl, rfl, rfl, rfl, rfl, rfl, rfl, rfl⟩, rfl, rfl, rfl, rfl⟩, ⟨hT.1, hT.2⟩, rfl⟩
    · split at h
      · obtain ⟨h1, h2, h3⟩ := ih _ _ _ _ _ (suTrial_H _) h
        exact ⟨SuAims.after h1 ⟨⟨rfl, rfl, rfl, rfl, rfl, rfl, rfl, rfl, rfl, rfl, rfl, rfl⟩, rfl, rfl, rfl, rfl⟩, h2, h3⟩
      · split at h
        · cases h
          exact ⟨⟨⟨rfl, rfl, rfl, rfl, rfl, rfl, rfl, rfl, rfl, rfl, rfl, rfl⟩, rfl, rfl, rfl, rfl⟩, ⟨rfl, rfl⟩, rfl⟩
        · split at h
          · cases h
            exact ⟨⟨⟨rfl, rfl, rfl, rfl, rfl, rfl, rfl, rfl, rfl, rfl, rfl, rfl⟩, rfl, rfl, rfl, rfl⟩, ⟨rfl, rfl⟩, rfl⟩
          · obtain ⟨h1, h2, h3⟩ := ih _ _ _ _ _ (suTrial_Dh (suTrial_H _)) h
            exact ⟨SuAims.after h1 ⟨⟨rfl, rfl, rfl, rfl, rfl, rfl, rfl, rfl, rfl, rfl, rfl, rfl⟩, rfl, rfl, rfl, rfl⟩, h2, h3⟩

theorem suWolfe_out (zf : Nat) : ∀ (n : Nat) (pre : K) (o o' : SubObj K X E W), suWolfe env cfg zf n pre o = some o' → SuAims o o' ∧ SuTrial env o' ∧ o'.gf2 = env.grad o'.x2 := by
  intro n
  induction n with
  | zero => intro pre o o' h; simp [suWolfe] at h
  | succ n ih =>
    intro pre o o' h
    unfold suWolfe at h
    dsimp only at h
    split at h
    · obtain ⟨h1, h2, h3⟩ := suZoom_out _ _ _ _ _ _ (suTrial_H _) h
      exact ⟨(suAims_H o).trans h1, h2, h3⟩
    · split at h
      · cases h
        exact ⟨⟨⟨rfl, rfl, rfl, rfl, rfl, rfl, rfl, rfl, rfl, rfl, rfl, rfl⟩, rfl, rfl, rfl, rfl⟩, ⟨rfl, rfl⟩, rfl⟩
      · split at h
        · split at h
          · cases h
            exact ⟨⟨⟨rfl, rfl, rfl, rfl, rfl, rfl, rfl, rfl, rfl, rfl, rfl, rfl⟩, rfl, rfl, rfl, rfl⟩, ⟨rfl, rfl⟩, rfl⟩
          · obtain ⟨h1, h2, h3⟩ := ih _ _ _ h
            exact ⟨SuAims.after h1 ⟨⟨rfl, rfl, rfl, rfl, rfl, rfl, rfl, rfl, rfl, rfl, rfl, rfl⟩, rfl, rfl, rfl, rfl⟩, h2, h3⟩
        · split at h
          · cases h
            exact ⟨⟨⟨rfl, rfl, rfl, rfl, rfl, rfl, rfl, rfl, rfl, rfl, rfl, rfl⟩, rfl, rfl, rfl, rfl⟩, ⟨rfl, rfl⟩, rfl⟩
          obtain ⟨h1, h2, h3⟩ := ih _ _ _ h
          exact ⟨SuAims.after h1 ⟨⟨rfl, rfl, rfl, rfl, rfl, rfl, rfl, rfl, rfl, rfl, rfl, rfl⟩, rfl, rfl, rfl, rfl⟩, h2, h3⟩

theorem suStatus_aims (o : SubObj K X E W) : SuAims o (suStatus env cfg o) ∧ (suStatus env cfg o).x2 = o.x2 ∧ (suStatus env cfg o).f2 = o.f2 ∧ (suStatus env cfg o).gf2 = o.gf2 ∧ (suStatus env cfg o).eta2 = o.eta2 ∧
    (suStatus env cfg o).stepsize = o.stepsize := by
  unfold suStatus
  dsimp only
  split <;> split <;> exact ⟨⟨⟨rfl, rfl, rfl, rfl, rfl, rfl, rfl, rfl, rfl, rfl, rfl, rfl⟩, rfl, rfl, rfl, rfl⟩, rfl, rfl, rfl, rfl, rfl⟩

theorem suSearch_out {n : Nat} {o o' : SubObj K X E W} (h : suSearch env cfg n o = some o') : SuAims o o' ∧ SuTrial env o' ∧ o'.gf2 = env.grad o'.x2 := by
  unfold suSearch at h
  cases hw : suWolfe env cfg n n (env.lit 0 1) { o with status := .success } with
  | none => rw [hw] at h; cases h
  | some p =>
    rw [hw] at h
    cases h
    obtain ⟨h1, h2, h3⟩ := suWolfe_out _ _ _ _ _ hw
    obtain ⟨k1, k2, k3, k4, k5, -⟩ := suStatus_aims (env := env) (cfg := cfg) p
    refine ⟨SuAims.trans (SuAims.after h1 ⟨⟨rfl, rfl, rfl, rfl, rfl, rfl, rfl, rfl, rfl, rfl, rfl, rfl⟩, rfl, rfl, rfl, rfl⟩) k1, ⟨?_, ?_⟩, ?_⟩
    · rw [k2, k1.x1, k5]; exact h2.point
    · rw [k2, k3]; exact h2.value
    · rw [k2, k4]; exact h3

theorem suIncreasing_keeps (ne P hb : K) : ∀ (n : Nat) (a b : K) (o : SubObj K X E W), SuAims o (suIncreasing env cfg ne P hb n a b o) ∧ (suIncreasing env cfg ne P hb n a b o).gfs = o.gfs ∧ (suIncreasing env cfg ne P hb n a b o).status = o.status ∧
    (suIncreasing env cfg ne P hb n a b o).rng = o.rng := by
  intro n
  induction n with
  | zero => intro a b o; exact ⟨⟨SuKeeps.refl o, rfl, rfl, rfl, rfl⟩, rfl, rfl, rfl⟩
  | succ n ih =>
    intro a b o
    unfold suIncreasing
    dsimp only
    split
    · split
      · obtain ⟨h1, h2, h3, h4⟩ := ih (suH env { suDh env o with stepsize := (a + b) / env.lit 2 1 }).stepsize b (suH env { suDh env o with stepsize := (a + b) / env.lit 2 1 })
        exact ⟨SuAims.after h1 ⟨⟨rfl, rfl, rfl, rfl, rfl, rfl, rfl, rfl, rfl, rfl, rfl, rfl⟩, rfl, rfl, rfl, rfl⟩, h2, h3, h4⟩
      · obtain ⟨h1, h2, h3, h4⟩ := ih a (suH env { suDh env o with stepsize := (a + b) / env.lit 2 1 }).stepsize (suH env { suDh env o with stepsize := (a + b) / env.lit 2 1 })
        exact ⟨SuAims.after h1 ⟨⟨rfl, rfl, rfl, rfl, rfl, rfl, rfl, rfl, rfl, rfl, rfl, rfl⟩, rfl, rfl, rfl, rfl⟩, h2, h3, h4⟩
    · exact ⟨suAims_Dh o, rfl, rfl, rfl⟩

theorem suShortest_keeps {P nmin : K} {o o' : SubObj K X E W} (h : suShortest env cfg P o = some (nmin, o')) : SuKeeps o o' ∧ o'.gfs = o.gfs ∧ o'.status = o.status ∧ o'.eta1 = o.eta1 := by
  unfold suShortest at h
  split at h
  · cases h
    exact ⟨SuKeeps.refl o, rfl, rfl, rfl⟩
  · cases hh : env.hull o.rng o.x1 none o.gfs with
    | none => rw [hh] at h; cases h
    | some r =>
      rw [hh] at h
      cases h
      exact ⟨⟨rfl, rfl, rfl, rfl, rfl, rfl, rfl, rfl, rfl, rfl, rfl, rfl⟩, rfl, rfl, rfl⟩

theorem suSample_out : ∀ (n : Nat) (o o' : SubObj K X E W), suSample env cfg n o = some o' → SuKeeps o o' ∧ o'.status = o.status ∧ o'.gfs.length ≤ o.gfs.length + n := by
  intro n
  induction n with
  | zero => intro o o' h; simp only [suSample, Option.some.injEq] at h; subst h; exact ⟨SuKeeps.refl _, rfl, le_rfl⟩
  | succ n ih =>
    intro o o' h
    unfold suSample at h
    cases hh : env.hull o.rng o.x1 (some o.mem) o.gfs with
    | none => rw [hh] at h; cases h
    | some r =>
      obtain ⟨P, v, r⟩ := r
      rw [hh] at h
      dsimp only at h
      cases hv : env.hv o.mem o.x1 v with
      | none => rw [hv] at h; cases h
      | some e =>
        rw [hv] at h
        dsimp only at h
        cases hs : suShortest env cfg P { o with minPv := v, rng := r, eta1 := env.smul (-env.lit 1 1) e } with
        | none => rw [hs] at h; cases h
        | some q =>
          obtain ⟨nmin, p⟩ := q
          rw [hs] at h
          obtain ⟨k1, k2, k3, -⟩ := suShortest_keeps hs
          have k1' : SuKeeps o p := SuKeeps.after k1 ⟨rfl, rfl, rfl, rfl, rfl, rfl, rfl, rfl, rfl, rfl, rfl, rfl⟩
          have k2' : p.gfs = o.gfs := k2
          have k3' : p.status = o.status := k3
          dsimp only at h
          split at h
          · cases h
            exact ⟨k1', k3', by rw [k2']; exact Nat.le_add_right _ _⟩
          · split at h
            · cases h
              refine ⟨k1'.trans ⟨rfl, rfl, rfl, rfl, rfl, rfl, rfl, rfl, rfl, rfl, rfl, rfl⟩, k3', ?_⟩
              show p.gfs.length ≤ _
              rw [k2']; exact Nat.le_add_right _ _
            · split at h
              · obtain ⟨i1, i2, i3⟩ := ih _ _ h
                rename_i hb hlen
                refine ⟨?_, ?_, ?_⟩
                · refine k1'.trans (SuKeeps.trans ?_ i1)
                  exact ⟨(suIncreasing_keeps _ _ _ _ _ _ _).1.x1, (suIncreasing_keeps _ _ _ _ _ _ _).1.f1, (suIncreasing_keeps _ _ _ _ _ _ _).1.gf1, (suIncreasing_keeps _ _ _ _ _ _ _).1.eps, (suIncreasing_keeps _ _ _ _ _ _ _).1.del, (suIncreasing_keeps _ _ _ _ _ _ _).1.lenG, (suIncreasing_keeps _ _ _ _ _ _ _).1.iter, (suIncreasing_keeps _ _ _ _ _ _ _).1.series, (suIncreasing_keeps _ _ _ _ _ _ _).1.dirs, (suIncreasing_keeps _ _ _ _ _ _ _).1.mem, (suIncreasing_keeps _ _ _ _ _ _ _).1.lengthSeries, (suIncreasing_keeps _ _ _ _ _ _ _).1.numExtra⟩
                · rw [i2]
                  exact (suIncreasing_keeps _ _ _ _ _ _ _).2.2.1.trans k3'
                · refine i3.trans ?_
                  dsimp only
                  rw [List.length_append, (suIncreasing_keeps _ _ _ _ _ _ _).2.1]
                  show p.gfs.length + 1 + n ≤ _
                  rw [k2']; omega
              · cases h

theorem suRgs_out {o o' : SubObj K X E W} (h : suRgs env o = some o') : SuKeeps o o' ∧ o'.status = o.status ∧ o'.gfs.length ≤ 1 + (o.lenG - 1) := by
  have hl : ∀ k r, (suRand env o.x1 o.eps k r).1.length = k := by
    intro k
    induction k with
    | zero => intro r; rfl
    | succ k ih => intro r; unfold suRand; simp [ih]
  unfold suRgs at h
  dsimp only at h
  cases hh : env.hull (suRand env o.x1 o.eps (o.lenG - 1) o.rng).2 o.x1 none
      (o.gf1 :: (suRand env o.x1 o.eps (o.lenG - 1) o.rng).1.map fun u => env.invTr o.x1 u (env.retr o.x1 u) (env.grad (env.retr o.x1 u))) with
  | none => rw [hh] at h; cases h
  | some r =>
    rw [hh] at h
    cases h
    refine ⟨⟨rfl, rfl, rfl, rfl, rfl, rfl, rfl, rfl, rfl, rfl, rfl, rfl⟩, rfl, ?_⟩
    dsimp only
    rw [List.length_cons, List.length_map, hl]
    omega

theorem suDirection_out {o o' : SubObj K X E W} (h : suDirection env cfg o = some o') : SuKeeps o o' ∧ o'.status = o.status ∧ o'.gfs.length ≤ o.lenG := by
  unfold suDirection at h
  split at h
  · rename_i hl
    split at h
    · obtain ⟨h1, h2, h3⟩ := suRgs_out h
      exact ⟨h1, h2, by omega⟩
    · obtain ⟨h1, h2, h3⟩ := suSample_out _ _ _ h
      refine ⟨SuKeeps.after h1 ⟨rfl, rfl, rfl, rfl, rfl, rfl, rfl, rfl, rfl, rfl, rfl, rfl⟩, h2, ?_⟩
      simp only [List.length_cons, List.length_nil] at h3
      omega
  · cases h

/-- `suShrink` changes `Eps` and `Del` only. -/
theorem suShrink_out {n : Nat} {o o' : SubObj K X E W} (h : suShrink env cfg n o = some o') : o' = { o with eps := o'.eps, del := o'.del } := by
  unfold suShrink at h
  dsimp only at h
  generalize (if env.lt cfg.minEps (o.eps * cfg.thetaEps) = true then o.eps * cfg.thetaEps else cfg.minEps) = e at h
  split at h
  · cases h; rfl
  · cases hs : suShrinkDel env cfg (env.abs o.ndir1) n o.del with
    | none => rw [hs] at h; cases h
    | some d => rw [hs] at h; cases h; rfl

/-! ## The members after a run -/

/-- What holds at the head of the loop. -/
structure SuInv (env : SubEnv K X E W) (cfg : SubCfg K X) (x0 : X) (o : SubObj K X E W) : Prop where
  value : o.f1 = env.f o.x1
  grad : o.gf1 = env.grad o.x1
  head : ∃ v l, o.series = (env.f o.x1, v) :: l
  last : o.series.getLast? = some (env.f x0, env.lit 0 1, env.lit 0 1)
  length : o.series.length = o.iter + 1
  dirs : o.dirs.length = max 1 o.iter
  bound : o.iter ≤ cfg.maxIter

/-- What a pass does: a reduction of `Eps` and `Del` at the same point, or a step. -/
theorem suPass_next {n : Nat} {st : Bool} {o o' : SubObj K X E W} (h : suPass env cfg n o = .next st o') :
    ∃ d, suDirection env cfg o = some d ∧ st = suStopped env cfg d ∧
      ((suShrink env cfg n d = some o' ∧ (env.le (env.abs d.ndir1) d.del || env.le (env.abs d.ndir1) cfg.tol) = true) ∨
        ∃ s m, (env.le (env.abs d.ndir1) d.del || env.le (env.abs d.ndir1) cfg.tol) = false ∧
          suSearch env cfg n { d with initialslope := env.metric d.x1 d.minPv d.eta1, stepsize := env.lit 1 1, initiallength := env.lit 1 1 } = some s ∧ env.update (s.iter + 1) s.x1 s.eta2 s.x2 s.gf1 s.gf2 s.mem = some m ∧
          o' = { s with iter := s.iter + 1, mem := m, series := (s.f2, s.ndir1, s.stepsize) :: s.series, dirs := s.dirs.take s.iter ++ [s.ndir1], x1 := s.x2, x2 := s.x1, gf1 := s.gf2, gf2 := s.gf1, f1 := s.f2, f2 := s.f1 }) := by
  unfold suPass at h
  cases hd : suDirection env cfg o with
  | none => rw [hd] at h; cases h
  | some d =>
    rw [hd] at h
    dsimp only at h
    refine ⟨d, rfl, ?_⟩
    cases hc : (env.le (env.abs d.ndir1) d.del || env.le (env.abs d.ndir1) cfg.tol) with
    | true =>
      rw [hc] at h
      simp only [if_true] at h
      cases hs : suShrink env cfg n d with
      | none => rw [hs] at h; cases h
      | some p => rw [hs] at h; cases h; exact ⟨rfl, Or.inl ⟨rfl, rfl⟩⟩
    | false =>
      rw [hc] at h
      simp only [Bool.false_eq_true, if_false] at h
      cases hs : suSearch env cfg n { d with initialslope := env.metric d.x1 d.minPv d.eta1, stepsize := env.lit 1 1, initiallength := env.lit 1 1 } with
      | none => rw [hs] at h; cases h
      | some s =>
        rw [hs] at h
        dsimp only at h
        unfold suAdvance at h
        cases hu : env.update (s.iter + 1) s.x1 s.eta2 s.x2 s.gf1 s.gf2 s.mem with
        | none => rw [hu] at h; cases h
        | some m =>
          rw [hu] at h
          cases h
          exact ⟨rfl, Or.inr ⟨s, m, rfl, rfl, hu, rfl⟩⟩

theorem suInv_next {x0 : X} {n : Nat} {st st' : Bool} {o o' : SubObj K X E W} (I : SuInv env cfg x0 o) (hg : suGoes env cfg st o = true) (h : suPass env cfg n o = .next st' o') : SuInv env cfg x0 o' := by
  obtain ⟨d, hd, -, hcase⟩ := suPass_next h
  obtain ⟨k, -, -⟩ := suDirection_out hd
  rcases hcase with ⟨hs, -⟩ | ⟨s, m, -, hs, hu, rfl⟩
  · rw [suShrink_out hs]
    exact ⟨by dsimp only; rw [k.f1, k.x1]; exact I.value, by dsimp only; rw [k.gf1, k.x1]; exact I.grad, by dsimp only; rw [k.x1, k.series]; exact I.head, by dsimp only; rw [k.series]; exact I.last,
      by dsimp only; rw [k.series, k.iter]; exact I.length, by dsimp only; rw [k.dirs, k.iter]; exact I.dirs, by dsimp only; rw [k.iter]; exact I.bound⟩
  · obtain ⟨h1, h2, h3⟩ := suSearch_out hs
    have hi : s.iter = o.iter := h1.iter.trans k.iter
    have hser : s.series = o.series := h1.series.trans k.series
    have hdir : s.dirs = o.dirs := h1.dirs.trans k.dirs
    have hlt : o.iter < cfg.maxIter := by
      unfold suGoes at hg
      simp only [Bool.and_eq_true, decide_eq_true_eq] at hg
      exact hg.1.1
    refine ⟨h2.value, h3, ⟨(s.ndir1, s.stepsize), s.series, ?_⟩, ?_, ?_, ?_, ?_⟩
    · dsimp only
      rw [h2.value]
    · dsimp only
      rw [hser]
      obtain ⟨v, l, e⟩ := I.head
      rw [List.getLast?_cons, I.last]
      rfl
    · dsimp only
      rw [List.length_cons, hser, I.length, hi]
    · dsimp only
      rw [List.length_append, List.length_take, hdir, I.dirs, hi, List.length_singleton]
      omega
    · dsimp only
      rw [hi]; omega

theorem suLoop_inv {x0 : X} : ∀ (n : Nat) (st : Bool) (o o' : SubObj K X E W), SuInv env cfg x0 o → suLoop env cfg n st o = .done o' → SuInv env cfg x0 o' ∧ o'.lengthSeries = o'.iter + 1 := by
  intro n
  induction n with
  | zero => intro st o o' _ h; simp [suLoop] at h
  | succ n ih =>
    intro st o o' I h
    unfold suLoop at h
    by_cases hg : suGoes env cfg st o = true
    · rw [if_pos hg] at h
      cases hp : suPass env cfg (n + 1) o with
      | ub => rw [hp] at h; cases h
      | more => rw [hp] at h; cases h
      | next st' p => rw [hp] at h; exact ih _ _ _ (suInv_next I hg hp) h
    · rw [if_neg hg] at h
      cases h
      exact ⟨⟨I.value, I.grad, I.head, I.last, I.length, I.dirs, I.bound⟩, rfl⟩

theorem suInv_start (o : SubObj K X E W) : SuInv env cfg o.x1 (suPrologue env o) := ⟨rfl, rfl, ⟨_, _, rfl⟩, rfl, rfl, rfl, Nat.zero_le _⟩

/-- **C152, the members.** After a run of a subgradient solver (any arithmetic, any problem, however the searches ended): value and gradient belong to the returned point; the recorded values begin with that of the initial point and end with that
of the returned one; the number of iterations is within its limit, so that no entry is written outside the arrays, and it fits the recorded length. -/
theorem C152_members (n : Nat) (o o' : SubObj K X E W) (h : suRun env cfg n o = .done o') :
    o'.f1 = env.f o'.x1 ∧ o'.gf1 = env.grad o'.x1 ∧ (o'.series.map Prod.fst).head? = some (env.f o'.x1) ∧ (o'.series.map Prod.fst).getLast? = some (env.f o.x1) ∧ o'.iter ≤ cfg.maxIter ∧ o'.series.length = o'.iter + 1 ∧
      o'.lengthSeries = o'.iter + 1 := by
  obtain ⟨I, hl⟩ := suLoop_inv n _ _ _ (suInv_start o) h
  refine ⟨I.value, I.grad, ?_, ?_, I.bound, I.length, hl⟩
  · obtain ⟨v, l, e⟩ := I.head
    rw [e]; rfl
  · rw [List.getLast?_map, I.last]; rfl

/-- **C152, negation.** The series of direction norms is one entry shorter than its reported length after every run that made a step: its last entry is never written. -/
theorem C152_dir_series_short (n : Nat) (o o' : SubObj K X E W) (h : suRun env cfg n o = .done o') (hi : 0 < o'.iter) : o'.dirs.length + 1 = o'.lengthSeries := by
  obtain ⟨I, hl⟩ := suLoop_inv n _ _ _ (suInv_start o) h
  rw [hl, I.dirs]
  omega

/-! ## The array of sampled gradients -/

theorem suSample_total (hhull : ∀ r x w l, env.hull r x w l ≠ none) (hhv : ∀ w x v, env.hv w x v ≠ none) : ∀ (n : Nat) (o : SubObj K X E W), o.gfs.length + n ≤ o.lenG → suSample env cfg n o ≠ none := by
  intro n
  induction n with
  | zero => intro o _ h; simp [suSample] at h
  | succ n ih =>
    intro o hl h
    unfold suSample at h
    cases hh : env.hull o.rng o.x1 (some o.mem) o.gfs with
    | none => exact hhull _ _ _ _ hh
    | some r =>
      obtain ⟨P, v, r⟩ := r
      rw [hh] at h
      dsimp only at h
      cases hv : env.hv o.mem o.x1 v with
      | none => exact hhv _ _ _ hv
      | some e =>
        rw [hv] at h
        dsimp only at h
        cases hs : suShortest env cfg P { o with minPv := v, rng := r, eta1 := env.smul (-env.lit 1 1) e } with
        | none =>
          unfold suShortest at hs
          split at hs
          · cases hs
          · rw [Option.map_eq_none_iff] at hs
            exact hhull _ _ _ _ hs
        | some q =>
          obtain ⟨nmin, p⟩ := q
          rw [hs] at h
          obtain ⟨k1, k2, -, -⟩ := suShortest_keeps hs
          have hlen : p.gfs.length = o.gfs.length := by rw [k2]
          have hg : p.lenG = o.lenG := k1.lenG
          dsimp only at h
          split at h
          · cases h
          · split at h
            · cases h
            · split at h
              · refine ih _ ?_ h
                dsimp only
                rw [List.length_append, (suIncreasing_keeps _ _ _ _ _ _ _).2.1, (suIncreasing_keeps _ _ _ _ _ _ _).1.lenG]
                show p.gfs.length + 1 + n ≤ p.lenG
                omega
              · rename_i hb hnot
                apply hnot
                rw [(suIncreasing_keeps _ _ _ _ _ _ _).2.1, (suIncreasing_keeps _ _ _ _ _ _ _).1.lenG]
                show p.gfs.length < p.lenG
                omega

/-- **C152, the array of gradients.** If the subproblem, the operator and its update are defined and the array has at least one element (`dimension + NumExtraGF ≥ 1`), no run writes outside it. -/
theorem C152_in_bounds (hhull : ∀ r x w l, env.hull r x w l ≠ none) (hhv : ∀ w x v, env.hv w x v ≠ none) (hup : ∀ i x e y g g' w, env.update i x e y g g' w ≠ none) (n : Nat) (o : SubObj K X E W)
    (hlen : 1 ≤ env.intrDim + o.numExtra) : suRun env cfg n o ≠ .ub := by
  have key : ∀ (n : Nat) (st : Bool) (o : SubObj K X E W), 1 ≤ o.lenG → suLoop env cfg n st o ≠ .ub := by
    intro n
    induction n with
    | zero => intro st o _ h; simp [suLoop] at h
    | succ n ih =>
      intro st o hl h
      unfold suLoop at h
      split at h
      · cases hp : suPass env cfg (n + 1) o with
        | ub =>
          have hdir : suDirection env cfg o ≠ none := by
            unfold suDirection
            rw [if_pos (by omega)]
            split
            · unfold suRgs
              dsimp only
              rw [Ne, Option.map_eq_none_iff]
              exact hhull _ _ _ _
            · exact suSample_total hhull hhv _ _ (by simp only [List.length_cons, List.length_nil]; omega)
          unfold suPass at hp
          cases hd : suDirection env cfg o with
          | none => exact hdir hd
          | some d =>
            rw [hd] at hp
            dsimp only at hp
            split at hp
            · cases hs : suShrink env cfg (n + 1) d with
              | none => rw [hs] at hp; cases hp
              | some p => rw [hs] at hp; cases hp
            · cases hs : suSearch env cfg (n + 1) { d with initialslope := env.metric d.x1 d.minPv d.eta1, stepsize := env.lit 1 1, initiallength := env.lit 1 1 } with
              | none => rw [hs] at hp; cases hp
              | some s =>
                rw [hs] at hp
                dsimp only at hp
                unfold suAdvance at hp
                cases hu : env.update (s.iter + 1) s.x1 s.eta2 s.x2 s.gf1 s.gf2 s.mem with
                | none => exact hup _ _ _ _ _ _ _ hu
                | some m => rw [hu] at hp; cases hp
        | more => rw [hp] at h; cases h
        | next st' p =>
          rw [hp] at h
          refine ih st' p ?_ h
          obtain ⟨d, hd, -, hcase⟩ := suPass_next hp
          have k := (suDirection_out hd).1
          rcases hcase with ⟨hs, -⟩ | ⟨s, m, -, hs, hu, rfl⟩
          · rw [suShrink_out hs]; dsimp only; rw [k.lenG]; exact hl
          · dsimp only; rw [(suSearch_out hs).1.lenG]; dsimp only; rw [k.lenG]; exact hl
      · cases h
  exact key n false _ hlen

/-- **C152, negation.** With `dimension + NumExtraGF = 1` the solvers other than `RGS` compute no direction at all: the search goes along whatever `eta1` holds (nothing, after `SetProbX`), and `ndir1` keeps its value. -/
theorem C152_one_sample (o : SubObj K X E W) (h : o.lenG = 1) (hr : cfg.rgs = false) : suDirection env cfg o = some { o with gfs := [o.gf1] } := by
  unfold suDirection
  rw [if_pos (by omega), hr, h]
  rfl

/-! ## Using an object again -/

/-- **C152, negation.** `SetProbX` and `Run` start with the values of `Eps` and `Del` that the last run has left. -/
theorem C152_radii_kept (empty : E) (mem : W → W) (x : X) (o : SubObj K X E W) :
    (suPrologue env (suSetProbX env empty mem x o)).eps = o.eps ∧ (suPrologue env (suSetProbX env empty mem x o)).del = o.del := ⟨rfl, rfl⟩

/-- The members that only the search and the direction write before they read them, and the reported length. -/
def SubObj.over (o : SubObj K X E W) (a b c : K) (l : Nat) : SubObj K X E W := { o with stepsize := a, initiallength := b, initialslope := c, lengthSeries := l }

/-- Equal up to those members. -/
def SuLike (o p : SubObj K X E W) : Prop := ∃ a b c l, p = o.over a b c l

/-- Equal up to the reported length. -/
theorem suZoom_len (l : Nat) : ∀ (n : Nat) (a b : K) (t : Nat) (o : SubObj K X E W), suZoom env cfg n a b t { o with lengthSeries := l } = (suZoom env cfg n a b t o).map fun q => { q with lengthSeries := l } := by
  intro n
  induction n with
  | zero => intros; rfl
  | succ n ih =>
    intro a b t o
    unfold suZoom
    dsimp only
    split
    · rfl
    · by_cases h : suHigh env cfg (suH env { o with stepsize := (a + b) / env.lit 2 1 }) = true
      · rw [if_pos h, if_pos (show suHigh env cfg (suH env { o with stepsize := (a + b) / env.lit 2 1, lengthSeries := l }) = true from h)]
        exact ih _ _ _ (suH env { o with stepsize := (a + b) / env.lit 2 1 })
      · rw [if_neg h, if_neg (show ¬ suHigh env cfg (suH env { o with stepsize := (a + b) / env.lit 2 1, lengthSeries := l }) = true from h)]
        by_cases h3 : env.le (cfg.beta * o.initialslope) (suDh env (suH env { o with stepsize := (a + b) / env.lit 2 1 })).newslope = true
        · rw [if_pos (show env.le (cfg.beta * (suDh env (suH env { o with stepsize := (a + b) / env.lit 2 1 })).initialslope) (suDh env (suH env { o with stepsize := (a + b) / env.lit 2 1 })).newslope = true from h3)]
          exact if_pos h3
        · rw [if_neg (show ¬ env.le (cfg.beta * (suDh env (suH env { o with stepsize := (a + b) / env.lit 2 1 })).initialslope) (suDh env (suH env { o with stepsize := (a + b) / env.lit 2 1 })).newslope = true from h3)]
          refine (if_neg h3).trans ?_
          split
          · rfl
          · exact ih _ _ _ (suDh env (suH env { o with stepsize := (a + b) / env.lit 2 1 }))

theorem suWolfe_len (l zf : Nat) : ∀ (n : Nat) (pre : K) (o : SubObj K X E W), suWolfe env cfg zf n pre { o with lengthSeries := l } = (suWolfe env cfg zf n pre o).map fun q => { q with lengthSeries := l } := by
  intro n
  induction n with
  | zero => intros; rfl
  | succ n ih =>
    intro pre o
    unfold suWolfe
    dsimp only
    by_cases h : suHigh env cfg (suH env o) = true
    · rw [if_pos h, if_pos (show suHigh env cfg (suH env { o with lengthSeries := l }) = true from h)]
      exact suZoom_len l zf _ _ _ (suH env o)
    · rw [if_neg h, if_neg (show ¬ suHigh env cfg (suH env { o with lengthSeries := l }) = true from h)]
      by_cases h3 : env.le (cfg.beta * o.initialslope) (suDh env (suH env o)).newslope = true
      · rw [if_pos (show env.le (cfg.beta * (suDh env (suH env o)).initialslope) (suDh env (suH env o)).newslope = true from h3)]
        exact if_pos h3
      · rw [if_neg (show ¬ env.le (cfg.beta * (suDh env (suH env o)).initialslope) (suDh env (suH env o)).newslope = true from h3)]
        refine (if_neg h3).trans ?_
        change (if env.eq (if env.lt (env.lit 2 1 * o.stepsize) cfg.maxstep = true then env.lit 2 1 * o.stepsize else cfg.maxstep) cfg.maxstep = true then _ else _) =
          Option.map _ (if env.eq (if env.lt (env.lit 2 1 * o.stepsize) cfg.maxstep = true then env.lit 2 1 * o.stepsize else cfg.maxstep) cfg.maxstep = true then _ else _)
        by_cases h4 : env.eq (if env.lt (env.lit 2 1 * o.stepsize) cfg.maxstep = true then env.lit 2 1 * o.stepsize else cfg.maxstep) cfg.maxstep = true
        · rw [if_pos h4, if_pos h4]; rfl
        · rw [if_neg h4, if_neg h4]
          exact ih _ { suDh env (suH env o) with stepsize := if env.lt (env.lit 2 1 * o.stepsize) cfg.maxstep = true then env.lit 2 1 * o.stepsize else cfg.maxstep }

theorem suSearch_len (l n : Nat) (o : SubObj K X E W) : suSearch env cfg n { o with lengthSeries := l } = (suSearch env cfg n o).map fun q => { q with lengthSeries := l } := by
  unfold suSearch
  have := suWolfe_len (env := env) (cfg := cfg) l n n (env.lit 0 1) { o with status := .success }
  rw [show ({ o with lengthSeries := l, status := .success } : SubObj K X E W) = { { o with status := .success } with lengthSeries := l } from rfl, this, Option.map_map, Option.map_map]
  congr 1
  funext q
  simp only [Function.comp, suStatus]
  split <;> split <;> rfl

theorem suIncreasing_over (ne P hb : K) (b c : K) (l : Nat) : ∀ (n : Nat) (lo hi : K) (o : SubObj K X E W),
    suIncreasing env cfg ne P hb n lo hi { o with initiallength := b, initialslope := c, lengthSeries := l } = { suIncreasing env cfg ne P hb n lo hi o with initiallength := b, initialslope := c, lengthSeries := l } := by
  intro n
  induction n with
  | zero => intros; rfl
  | succ n ih =>
    intro lo hi o
    unfold suIncreasing
    dsimp only
    by_cases h1 : env.lt ((suDh env o).newslope + cfg.alpha * P) (env.lit 0 1) = true
    · rw [if_pos h1, if_pos (show env.lt ((suDh env { o with initiallength := b, initialslope := c, lengthSeries := l }).newslope + cfg.alpha * P) (env.lit 0 1) = true from h1)]
      by_cases h2 : env.lt ((suH env { suDh env o with stepsize := (lo + hi) / env.lit 2 1 }).f2 - (suH env { suDh env o with stepsize := (lo + hi) / env.lit 2 1 }).f1 + cfg.alpha * (suH env { suDh env o with stepsize := (lo + hi) / env.lit 2 1 }).eps / ne * P) hb = true
      · rw [if_pos h2]
        refine (if_pos h2).trans ?_
        exact ih _ _ (suH env { suDh env o with stepsize := (lo + hi) / env.lit 2 1 })
      · rw [if_neg h2]
        refine (if_neg h2).trans ?_
        exact ih _ _ (suH env { suDh env o with stepsize := (lo + hi) / env.lit 2 1 })
    · rw [if_neg h1, if_neg (show ¬ env.lt ((suDh env { o with initiallength := b, initialslope := c, lengthSeries := l }).newslope + cfg.alpha * P) (env.lit 0 1) = true from h1)]
      rfl

theorem suShortest_over (P : K) (a b c : K) (l : Nat) (o : SubObj K X E W) : suShortest env cfg P (o.over a b c l) = (suShortest env cfg P o).map fun q => (q.1, q.2.over a b c l) := by
  unfold suShortest
  by_cases h : env.lt (o.del * cfg.lambdaLower) (env.sqrt P) = true
  · rw [if_pos h]
    exact if_pos h
  · rw [if_neg h, Option.map_map]
    exact if_neg h

theorem suSample_like : ∀ (n : Nat) (o p : SubObj K X E W), SuLike o p → Option.Rel SuLike (suSample env cfg n o) (suSample env cfg n p) := by
  intro n
  induction n with
  | zero => intro o p h; exact Option.Rel.some h
  | succ n ih =>
    rintro o p ⟨a, b, c, l, rfl⟩
    unfold suSample
    change Option.Rel _ _ (match env.hull o.rng o.x1 (some o.mem) o.gfs with
      | none => none
      | some (P, v, r) => _)
    cases hh : env.hull o.rng o.x1 (some o.mem) o.gfs with
    | none => exact Option.Rel.none
    | some r =>
      obtain ⟨P, v, r⟩ := r
      dsimp only
      change Option.Rel _ _ (match env.hv o.mem o.x1 v with
        | none => none
        | some e => _)
      cases hv : env.hv o.mem o.x1 v with
      | none => exact Option.Rel.none
      | some e =>
        dsimp only
        have hs := suShortest_over (env := env) (cfg := cfg) P a b c l { o with minPv := v, rng := r, eta1 := env.smul (-env.lit 1 1) e }
        change suShortest env cfg P { o.over a b c l with minPv := v, rng := r, eta1 := env.smul (-env.lit 1 1) e } = _ at hs
        rw [hs]
        cases suShortest env cfg P { o with minPv := v, rng := r, eta1 := env.smul (-env.lit 1 1) e } with
        | none => exact Option.Rel.none
        | some q =>
          obtain ⟨nmin, q⟩ := q
          dsimp only [Option.map_some]
          by_cases h1 : env.le nmin q.del = true
          · rw [if_pos h1, if_pos (show env.le nmin (q.over a b c l).del = true from h1)]
            exact Option.Rel.some ⟨_, _, _, _, rfl⟩
          · rw [if_neg h1, if_neg (show ¬ env.le nmin (q.over a b c l).del = true from h1)]
            let t := suH env { q with ndir1 := env.sqrt (env.metric q.x1 q.eta1 q.eta1), stepsize := q.eps / env.sqrt (env.metric q.x1 q.eta1 q.eta1) }
            by_cases h2 : env.le (t.f2 - t.f1 + cfg.alpha * t.stepsize * P) (env.lit 0 1) = true
            · rw [if_pos h2]
              refine cast (congrArg _ (if_pos h2).symm) ?_
              exact Option.Rel.some ⟨t.stepsize, b, c, l, rfl⟩
            · rw [if_neg h2]
              refine cast (congrArg _ (if_neg h2).symm) ?_
              have hi := suIncreasing_over (env := env) (cfg := cfg) (env.sqrt (env.metric q.x1 q.eta1 q.eta1)) P (t.f2 - t.f1 + cfg.alpha * t.stepsize * P) b c l 10 (env.lit 0 1) t.stepsize t
              let u := suIncreasing env cfg (env.sqrt (env.metric q.x1 q.eta1 q.eta1)) P (t.f2 - t.f1 + cfg.alpha * t.stepsize * P) 10 (env.lit 0 1) t.stepsize t
              let u' := suIncreasing env cfg (env.sqrt (env.metric q.x1 q.eta1 q.eta1)) P (t.f2 - t.f1 + cfg.alpha * t.stepsize * P) 10 (env.lit 0 1) t.stepsize { t with initiallength := b, initialslope := c, lengthSeries := l }
              have hu : u' = { u with initiallength := b, initialslope := c, lengthSeries := l } := hi
              change Option.Rel SuLike (if u.gfs.length < u.lenG then suSample env cfg n { u with gfs := u.gfs ++ [env.smul (env.lit 1 1 / env.beta u.x1 u.eta2) (env.invTr u.x1 u.eta2 u.x2 u.gf2)] } else none)
                (if u'.gfs.length < u'.lenG then suSample env cfg n { u' with gfs := u'.gfs ++ [env.smul (env.lit 1 1 / env.beta u'.x1 u'.eta2) (env.invTr u'.x1 u'.eta2 u'.x2 u'.gf2)] } else none)
              rw [hu]
              dsimp only
              by_cases h3 : u.gfs.length < u.lenG
              · rw [if_pos h3, if_pos h3]
                exact ih _ _ ⟨u.stepsize, b, c, l, rfl⟩
              · rw [if_neg h3, if_neg h3]
                exact Option.Rel.none

theorem suDirection_like (o p : SubObj K X E W) (h : SuLike o p) : Option.Rel SuLike (suDirection env cfg o) (suDirection env cfg p) := by
  obtain ⟨a, b, c, l, rfl⟩ := h
  unfold suDirection
  change Option.Rel _ (if 0 < o.lenG then _ else _) (if 0 < o.lenG then _ else _)
  split
  · split
    · unfold suRgs
      change Option.Rel _ _ (Option.map _ (env.hull (suRand env o.x1 o.eps (o.lenG - 1) o.rng).2 o.x1 none
        (o.gf1 :: (suRand env o.x1 o.eps (o.lenG - 1) o.rng).1.map fun u => env.invTr o.x1 u (env.retr o.x1 u) (env.grad (env.retr o.x1 u)))))
      dsimp only
      cases env.hull (suRand env o.x1 o.eps (o.lenG - 1) o.rng).2 o.x1 none (o.gf1 :: (suRand env o.x1 o.eps (o.lenG - 1) o.rng).1.map fun u => env.invTr o.x1 u (env.retr o.x1 u) (env.grad (env.retr o.x1 u))) with
      | none => exact Option.Rel.none
      | some r => exact Option.Rel.some ⟨a, b, c, l, rfl⟩
    · exact suSample_like _ _ _ ⟨a, b, c, l, rfl⟩
  · exact Option.Rel.none

/-- Outcomes equal up to those members. -/
inductive SameSub : SubOut K X E W → SubOut K X E W → Prop
  | ub : SameSub .ub .ub
  | more : SameSub .more .more
  | done {o p : SubObj K X E W} : SuLike o p → SameSub (.done o) (.done p)

/-- The stopping test is not a function of the user, which might look at `lengthSeries`. -/
def NotUser : StopKind K X → Prop
  | .user _ => False
  | _ => True

theorem suLoop_like (hstop : NotUser cfg.stop) : ∀ (n : Nat) (st : Bool) (o p : SubObj K X E W), SuLike o p → SameSub (suLoop env cfg n st o) (suLoop env cfg n st p) := by
  intro n
  induction n with
  | zero => intro st o p _; exact SameSub.more
  | succ n ih =>
    intro st o p h
    unfold suLoop
    have hg : suGoes env cfg st p = suGoes env cfg st o := by obtain ⟨a, b, c, l, rfl⟩ := h; rfl
    rw [hg]
    split
    · have hd := suDirection_like (env := env) (cfg := cfg) o p h
      unfold suPass
      revert hd
      cases suDirection env cfg o with
      | none =>
        cases suDirection env cfg p with
        | none => intro _; exact SameSub.ub
        | some q => intro hd; cases hd
      | some d =>
        cases suDirection env cfg p with
        | none => intro hd; cases hd
        | some q =>
          intro hd
          cases hd with
          | some hd =>
            obtain ⟨a, b, c, l, rfl⟩ := hd
            dsimp only
            have hst : suStopped env cfg (d.over a b c l) = suStopped env cfg d := by
              unfold suStopped
              revert hstop
              cases cfg.stop with
              | user f => intro hstop; exact hstop.elim
              | funRel => intro _; rfl
              | gradF => intro _; rfl
              | gradF0 => intro _; rfl
            rw [hst]
            change SameSub _ (match (if (env.le (env.abs d.ndir1) d.del || env.le (env.abs d.ndir1) cfg.tol) = true then _ else _ : SubPass K X E W) with
              | .ub => _
              | .more => _
              | .next st o => _)
            by_cases hc : (env.le (env.abs d.ndir1) d.del || env.le (env.abs d.ndir1) cfg.tol) = true
            · rw [if_pos hc, if_pos hc]
              have hsh : suShrink env cfg (n + 1) (d.over a b c l) = (suShrink env cfg (n + 1) d).map fun q => q.over a b c l := by
                unfold suShrink
                dsimp only [SubObj.over]
                generalize (if env.lt cfg.minEps (d.eps * cfg.thetaEps) = true then d.eps * cfg.thetaEps else cfg.minEps) = e
                split
                · rfl
                · rw [Option.map_map]; rfl
              rw [hsh]
              cases suShrink env cfg (n + 1) d with
              | none => exact SameSub.more
              | some q => exact ih _ _ _ ⟨a, b, c, l, rfl⟩
            · rw [if_neg hc, if_neg hc]
              have hse := suSearch_len (env := env) (cfg := cfg) l (n + 1) { d with initialslope := env.metric d.x1 d.minPv d.eta1, stepsize := env.lit 1 1, initiallength := env.lit 1 1 }
              change suSearch env cfg (n + 1) { d.over a b c l with initialslope := env.metric (d.over a b c l).x1 (d.over a b c l).minPv (d.over a b c l).eta1, stepsize := env.lit 1 1, initiallength := env.lit 1 1 } = _ at hse
              rw [hse]
              cases suSearch env cfg (n + 1) { d with initialslope := env.metric d.x1 d.minPv d.eta1, stepsize := env.lit 1 1, initiallength := env.lit 1 1 } with
              | none => exact SameSub.more
              | some s =>
                dsimp only [Option.map_some]
                unfold suAdvance
                dsimp only
                cases env.update (s.iter + 1) s.x1 s.eta2 s.x2 s.gf1 s.gf2 s.mem with
                | none => exact SameSub.ub
                | some m => exact ih _ _ _ ⟨s.stepsize, s.initiallength, s.initialslope, l, rfl⟩
    · obtain ⟨a, b, c, l, rfl⟩ := h
      exact SameSub.done ⟨a, b, c, o.iter + 1, rfl⟩

/-- **C152, using an object again.** After `SetProbX` an object that has been used runs as a new one does — the same outcome, the same iterates, values and records — provided that `Eps` and `Del` have been set back to their default values, and that
the memory of the operator, the last length `ndir1` and the random numbers agree. -/
theorem C152_reuse (hstop : NotUser cfg.stop) (empty : E) (mem : W → W) (w : W) (x : X) (n : Nat) (o junk : SubObj K X E W) (he : o.eps = env.lit 1 1) (hd : o.del = env.lit 1 1) (hn : o.ndir1 = junk.ndir1) (hr : o.rng = junk.rng)
    (hw : mem o.mem = w) : SameSub (suRun env cfg n (suNew env empty w x junk)) (suRun env cfg n (suSetProbX env empty mem x o)) := by
  unfold suRun
  refine suLoop_like hstop _ _ _ _ ⟨o.stepsize, o.initiallength, o.initialslope, o.lengthSeries, ?_⟩
  unfold suPrologue suNew suSetProbX SubObj.over
  dsimp only
  rw [he, hd, hn, hr, hw]

/-- **C152, negation.** A solver whose operator reads memory that has been thrown away by `Run` has undefined behaviour in its first pass. -/
theorem C152_operator_gone (n : Nat) (o : SubObj K X E W) (hr : cfg.rgs = false) (hlen : 2 ≤ env.intrDim + o.numExtra) (hmax : 0 < cfg.maxIter) (hgone : ∀ x v, env.hv (env.renew o.mem) x v = none) :
    suRun env cfg (n + 1) o = .ub := by
  unfold suRun suLoop
  have hg : suGoes env cfg false (suPrologue env o) = true := by
    unfold suGoes
    show (decide (0 < cfg.maxIter) && _ && _) = true
    simp [hmax, suPrologue]
  rw [if_pos hg]
  have hd : suDirection env cfg (suPrologue env o) = none := by
    unfold suDirection
    have hl : 0 < (suPrologue env o).lenG := by show 0 < env.intrDim + o.numExtra; omega
    rw [if_pos hl, hr]
    simp only [Bool.false_eq_true, if_false]
    obtain ⟨k, hk⟩ : ∃ k, (suPrologue env o).lenG - 1 = k + 1 := ⟨env.intrDim + o.numExtra - 2, by show env.intrDim + o.numExtra - 1 = _; omega⟩
    rw [hk]
    unfold suSample
    split
    · rfl
    · rename_i P v r _
      have hm : env.hv (suPrologue env o).mem (suPrologue env o).x1 v = none := hgone _ _
      dsimp only
      rw [hm]
  unfold suPass
  rw [hd]

end Any

/-! ## The search refines the one-dimensional search -/

section Exact

variable {K : Type} [Field K] [LinearOrder K] {X E W : Type*} {env : SubEnv K X E W} {cfg : SubCfg K X}

/-- The parameters of the one-dimensional search. -/
def suLS (cfg : SubCfg K X) : Sub.LSCfg K := ⟨cfg.alpha, cfg.beta, cfg.minstep, cfg.maxstep⟩

/-- The cost along the direction of the object. -/
def suPhi (env : SubEnv K X E W) (o : SubObj K X E W) (t : K) : K := env.f (env.retr o.x1 (env.smul t o.eta1))

/-- Its slope as `dh` computes it. -/
def suDphi (env : SubEnv K X E W) (o : SubObj K X E W) (t : K) : K :=
  env.metric (env.retr o.x1 (env.smul t o.eta1)) (env.grad (env.retr o.x1 (env.smul t o.eta1))) (env.dretr o.x1 (env.smul t o.eta1) (env.retr o.x1 (env.smul t o.eta1)) o.eta1)

theorem suRel_mono {A B : Type*} {R S : A → B → Prop} (h : ∀ a b, R a b → S a b) {x : Option A} {y : Option B} : Option.Rel R x y → Option.Rel S x y := by
  intro k
  cases k with
  | none => exact Option.Rel.none
  | some k => exact Option.Rel.some (h _ _ k)

/-- The object after a search and the result of the one-dimensional search. -/
structure SuRes (env : SubEnv K X E W) (o o' : SubObj K X E W) (r : Sub.LSRes K) : Prop extends SuAims o o' where
  step : o'.stepsize = r.step
  dir : o'.eta2 = env.smul r.trial o.eta1
  point : o'.x2 = env.retr o.x1 (env.smul r.trial o.eta1)
  value : o'.f2 = suPhi env o r.trial
  newslope : o'.newslope = suDphi env o r.trial
  status : o'.status = r.status

theorem SuRes.before {a b c : SubObj K X E W} {r : Sub.LSRes K} (k : SuRes env b c r) (h : SuAims a b) : SuRes env a c r :=
  ⟨h.trans k.toSuAims, k.step, by rw [k.dir, h.eta1], by rw [k.point, h.x1, h.eta1], by rw [k.value]; unfold suPhi; rw [h.x1, h.eta1], by rw [k.newslope]; unfold suDphi; rw [h.x1, h.eta1], k.status⟩

theorem exact_lit_zero (hx : env.Exact) : env.lit 0 1 = 0 := by rw [hx.lit]; simp

theorem exact_lit_one (hx : env.Exact) : env.lit 1 1 = 1 := by rw [hx.lit]; simp

theorem exact_lit_two (hx : env.Exact) : env.lit 2 1 = 2 := by rw [hx.lit]; simp

/-- The trial point belongs to the step `t`. -/
structure SuAtStep (env : SubEnv K X E W) (o : SubObj K X E W) (t : K) : Prop where
  dir : o.eta2 = env.smul t o.eta1
  point : o.x2 = env.retr o.x1 (env.smul t o.eta1)
  value : o.f2 = suPhi env o t

theorem suZoom_refines (hx : env.Exact) : ∀ (n : Nat) (a b tr : K) (t : Nat) (o : SubObj K X E W), SuAtStep env o tr → o.status = .success →
    Option.Rel (SuRes env o) (suZoom env cfg n a b t o) (Sub.zoom (suLS cfg) (suPhi env o) (suDphi env o) o.f1 o.initialslope n a b tr t) := by
  intro n
  induction n with
  | zero => intro a b tr t o _ _; exact Option.Rel.none
  | succ n ih =>
    intro a b tr t o hT hst
    unfold suZoom Sub.zoom
    dsimp only
    rw [hx.lt, exact_lit_two hx]
    simp only [decide_eq_true_eq]
    by_cases h1 : (a + b) / 2 < cfg.minstep
    · rw [if_pos h1, if_pos (show (a + b) / 2 < (suLS cfg).minStep from h1)]
      refine Option.Rel.some ⟨⟨⟨rfl, rfl, rfl, rfl, rfl, rfl, rfl, rfl, rfl, rfl, rfl, rfl⟩, rfl, rfl, rfl, rfl⟩, rfl, hT.dir, hT.point, hT.value, ?_, rfl⟩
      unfold suDphi
      show env.metric o.x2 (env.grad o.x2) (env.dretr o.x1 o.eta2 o.x2 o.eta1) = _
      rw [hT.dir, hT.point]
    · rw [if_neg h1, if_neg (show ¬ (a + b) / 2 < (suLS cfg).minStep from h1)]
      have hhigh : suHigh env cfg (suH env { o with stepsize := (a + b) / 2 }) = decide (0 < suPhi env o ((a + b) / 2) - o.f1 - (suLS cfg).alpha * o.initialslope * ((a + b) / 2)) := by
        unfold suHigh
        rw [hx.lt, exact_lit_zero hx]
        rfl
      rw [hhigh]
      simp only [decide_eq_true_eq]
      by_cases h2 : 0 < suPhi env o ((a + b) / 2) - o.f1 - (suLS cfg).alpha * o.initialslope * ((a + b) / 2)
      · rw [if_pos h2, if_pos h2]
        have := ih a ((a + b) / 2) ((a + b) / 2) (t + 1) (suH env { o with stepsize := (a + b) / 2 }) ⟨rfl, rfl, rfl⟩ hst
        have k : SuAims o (suH env { o with stepsize := (a + b) / 2 }) := ⟨⟨rfl, rfl, rfl, rfl, rfl, rfl, rfl, rfl, rfl, rfl, rfl, rfl⟩, rfl, rfl, rfl, rfl⟩
        revert this
        exact suRel_mono fun _ _ q => q.before k
      · rw [if_neg h2, if_neg h2]
        have hcurv : env.le (cfg.beta * o.initialslope) (suDh env (suH env { o with stepsize := (a + b) / 2 })).newslope = decide ((suLS cfg).beta * o.initialslope ≤ suDphi env o ((a + b) / 2)) := by
          rw [hx.le]; rfl
        rw [show (suDh env (suH env { o with stepsize := (a + b) / 2 })).initialslope = o.initialslope from rfl, hcurv]
        simp only [decide_eq_true_eq]
        by_cases h3 : (suLS cfg).beta * o.initialslope ≤ suDphi env o ((a + b) / 2)
        · rw [if_pos h3, if_pos h3]
          exact Option.Rel.some ⟨⟨⟨rfl, rfl, rfl, rfl, rfl, rfl, rfl, rfl, rfl, rfl, rfl, rfl⟩, rfl, rfl, rfl, rfl⟩, rfl, rfl, rfl, rfl, rfl, hst⟩
        · rw [if_neg h3, if_neg h3]
          by_cases h4 : 30 ≤ t
          · rw [if_pos h4, if_pos h4]
            exact Option.Rel.some ⟨⟨⟨rfl, rfl, rfl, rfl, rfl, rfl, rfl, rfl, rfl, rfl, rfl, rfl⟩, rfl, rfl, rfl, rfl⟩, rfl, rfl, rfl, rfl, rfl, rfl⟩
          · rw [if_neg h4, if_neg h4]
            have := ih ((a + b) / 2) b ((a + b) / 2) (t + 1) (suDh env (suH env { o with stepsize := (a + b) / 2 })) ⟨rfl, rfl, rfl⟩ hst
            have k : SuAims o (suDh env (suH env { o with stepsize := (a + b) / 2 })) := ⟨⟨rfl, rfl, rfl, rfl, rfl, rfl, rfl, rfl, rfl, rfl, rfl, rfl⟩, rfl, rfl, rfl, rfl⟩
            revert this
            exact suRel_mono fun _ _ q => q.before k

theorem suWolfe_refines (hx : env.Exact) (zf : Nat) : ∀ (n : Nat) (pre : K) (o : SubObj K X E W), o.status = .success →
    Option.Rel (SuRes env o) (suWolfe env cfg zf n pre o) (Sub.wolfeLoop (suLS cfg) (suPhi env o) (suDphi env o) o.f1 o.initialslope zf n pre o.stepsize) := by
  intro n
  induction n with
  | zero => intro pre o _; exact Option.Rel.none
  | succ n ih =>
    intro pre o hst
    unfold suWolfe Sub.wolfeLoop
    dsimp only
    have hhigh : suHigh env cfg (suH env o) = decide (0 < suPhi env o o.stepsize - o.f1 - (suLS cfg).alpha * o.initialslope * o.stepsize) := by
      unfold suHigh
      rw [hx.lt, exact_lit_zero hx]
      rfl
    rw [hhigh]
    simp only [decide_eq_true_eq]
    by_cases h2 : 0 < suPhi env o o.stepsize - o.f1 - (suLS cfg).alpha * o.initialslope * o.stepsize
    · rw [if_pos h2, if_pos h2]
      have := suZoom_refines (cfg := cfg) hx zf pre o.stepsize o.stepsize 0 (suH env o) ⟨rfl, rfl, rfl⟩ hst
      revert this
      exact suRel_mono fun _ _ q => q.before (suAims_H o)
    · rw [if_neg h2, if_neg h2]
      have hcurv : env.le (cfg.beta * o.initialslope) (suDh env (suH env o)).newslope = decide ((suLS cfg).beta * o.initialslope ≤ suDphi env o o.stepsize) := by
        rw [hx.le]; rfl
      rw [show (suDh env (suH env o)).initialslope = o.initialslope from rfl, hcurv]
      simp only [decide_eq_true_eq]
      by_cases h3 : (suLS cfg).beta * o.initialslope ≤ suDphi env o o.stepsize
      · rw [if_pos h3, if_pos h3]
        exact Option.Rel.some ⟨⟨⟨rfl, rfl, rfl, rfl, rfl, rfl, rfl, rfl, rfl, rfl, rfl, rfl⟩, rfl, rfl, rfl, rfl⟩, rfl, rfl, rfl, rfl, rfl, hst⟩
      · rw [if_neg h3, if_neg h3]
        have ht : (if env.lt (env.lit 2 1 * (suDh env (suH env o)).stepsize) cfg.maxstep = true then env.lit 2 1 * (suDh env (suH env o)).stepsize else cfg.maxstep) =
            if 2 * o.stepsize < (suLS cfg).maxStep then 2 * o.stepsize else (suLS cfg).maxStep := by
          rw [hx.lt, exact_lit_two hx]
          simp only [decide_eq_true_eq]
          rfl
        rw [ht, hx.eq]
        simp only [decide_eq_true_eq]
        generalize (if 2 * o.stepsize < (suLS cfg).maxStep then 2 * o.stepsize else (suLS cfg).maxStep) = t
        by_cases h5 : t = cfg.maxstep
        · rw [if_pos h5, if_pos (show t = (suLS cfg).maxStep from h5)]
          exact Option.Rel.some ⟨⟨⟨rfl, rfl, rfl, rfl, rfl, rfl, rfl, rfl, rfl, rfl, rfl, rfl⟩, rfl, rfl, rfl, rfl⟩, rfl, rfl, rfl, rfl, rfl, hst⟩
        · rw [if_neg h5, if_neg (show ¬ t = (suLS cfg).maxStep from h5)]
          have := ih o.stepsize { suDh env (suH env o) with stepsize := t } hst
          have k : SuAims o { suDh env (suH env o) with stepsize := t } := ⟨⟨rfl, rfl, rfl, rfl, rfl, rfl, rfl, rfl, rfl, rfl, rfl, rfl⟩, rfl, rfl, rfl, rfl⟩
          revert this
          exact suRel_mono fun _ _ q => q.before k

/-- **C152, the search.** In exact arithmetic `LinesearchWolfeLipschitz` on the members of the object is the search of C60 on the cost along the direction: the trial point, its value, its slope, the step size and the status are those of its result, and
one ends exactly if the other does. -/
theorem C152_search (hx : env.Exact) (n : Nat) (o : SubObj K X E W) (h1 : o.stepsize = env.lit 1 1) :
    Option.Rel (SuRes env o) (suSearch env cfg n o) (Sub.wolfeLip (suLS cfg) (suPhi env o) (suDphi env o) o.f1 o.initialslope n n) := by
  unfold suSearch Sub.wolfeLip
  have := suWolfe_refines (cfg := cfg) hx n n (env.lit 0 1) { o with status := .success } rfl
  rw [exact_lit_zero hx] at this ⊢
  change Option.Rel _ _ (Sub.wolfeLoop (suLS cfg) (suPhi env o) (suDphi env o) o.f1 o.initialslope n n 0 o.stepsize) at this
  revert this
  generalize suWolfe env cfg n n 0 { o with status := .success } = A
  rw [h1, exact_lit_one hx]
  generalize Sub.wolfeLoop (suLS cfg) (suPhi env o) (suDphi env o) o.f1 o.initialslope n n 0 1 = B
  intro h
  cases h with
  | none => exact Option.Rel.none
  | some h =>
    rename_i p r
    refine Option.Rel.some ?_
    have h' : SuRes env o p r := h.before ⟨⟨rfl, rfl, rfl, rfl, rfl, rfl, rfl, rfl, rfl, rfl, rfl, rfl⟩, rfl, rfl, rfl, rfl⟩
    obtain ⟨k1, k2, k3, k4, k5, k6⟩ := suStatus_aims (env := env) (cfg := cfg) p
    have kn : (suStatus env cfg p).newslope = p.newslope := by
      unfold suStatus; dsimp only; split <;> split <;> rfl
    have ks : (suStatus env cfg p).status = (Sub.finalStatus (suLS cfg) r).status := by
      unfold suStatus Sub.finalStatus
      rw [show (suLS cfg).minStep = cfg.minstep from rfl, show (suLS cfg).maxStep = cfg.maxstep from rfl, ← h'.step]
      by_cases c1 : p.stepsize ≤ cfg.minstep <;> by_cases c2 : cfg.maxstep ≤ p.stepsize <;> simp [hx.le, c1, c2, h'.status]
    exact ⟨h'.toSuAims.trans k1, k6.trans h'.step, k5.trans h'.dir, k2.trans h'.point, k3.trans h'.value, kn.trans h'.newslope, ks⟩

/-! ## What the accepted steps achieve -/

variable [IsStrictOrderedRing K]

theorem zoom_decrease (C : Sub.LSCfg K) (phi dphi : K → K) (f1 slope : K) : ∀ (n : Nat) (a b tr : K) (t : Nat) (r : Sub.LSRes K), 0 ≤ a → 0 < b → Sub.zoom C phi dphi f1 slope n a b tr t = some r →
    (r.status = .minStep ∧ r.step < C.minStep) ∨ (0 < r.trial ∧ r.trial = r.step ∧ phi r.trial ≤ f1 + C.alpha * slope * r.trial) := by
  intro n
  induction n with
  | zero => intro a b tr t r _ _ h; simp [Sub.zoom] at h
  | succ n ih =>
    intro a b tr t r ha hb h
    have hm : 0 < (a + b) / 2 := by linarith
    unfold Sub.zoom at h
    dsimp only at h
    split at h
    · rename_i h1
      cases h
      exact Or.inl ⟨rfl, h1⟩
    · split at h
      · exact ih _ _ _ _ _ ha hm h
      · rename_i h2
        push Not at h2
        split at h
        · cases h
          exact Or.inr ⟨hm, rfl, by linarith⟩
        · split at h
          · cases h
            exact Or.inr ⟨hm, rfl, by linarith⟩
          · exact ih _ _ _ _ _ hm.le hb h

theorem wolfeLoop_decrease (C : Sub.LSCfg K) (phi dphi : K → K) (f1 slope : K) (zf : Nat) (hmax : 0 < C.maxStep) : ∀ (n : Nat) (pre step : K) (r : Sub.LSRes K), 0 ≤ pre → 0 < step →
    Sub.wolfeLoop C phi dphi f1 slope zf n pre step = some r → (r.status = .minStep ∧ r.step < C.minStep) ∨ (0 < r.trial ∧ r.trial ≤ max r.step (r.trial) ∧ phi r.trial ≤ f1 + C.alpha * slope * r.trial) := by
  intro n
  induction n with
  | zero => intro pre step r _ _ h; simp [Sub.wolfeLoop] at h
  | succ n ih =>
    intro pre step r hp hs h
    unfold Sub.wolfeLoop at h
    split at h
    · rcases zoom_decrease C phi dphi f1 slope zf pre step step 0 r hp hs h with h | ⟨h1, h2, h3⟩
      · exact Or.inl h
      · exact Or.inr ⟨h1, le_max_right _ _, h3⟩
    · rename_i h2
      push Not at h2
      split at h
      · cases h
        exact Or.inr ⟨hs, le_max_right _ _, by linarith⟩
      · dsimp only at h
        have hpos : 0 < (if 2 * step < C.maxStep then 2 * step else C.maxStep) := by
          split
          · linarith
          · exact hmax
        revert h hpos
        generalize (if 2 * step < C.maxStep then 2 * step else C.maxStep) = t
        intro h hpos
        split at h
        · cases h
          exact Or.inr ⟨hs, le_max_right _ _, by linarith⟩
        · exact ih _ _ _ hs.le hpos h

/-- **C152, accepted steps.** A search that does not end with the status "minimum step size" hands over the point at a positive multiple of the direction at which the cost has decreased sufficiently. -/
theorem C152_decrease (hx : env.Exact) (hmm : cfg.minstep < cfg.maxstep) (hmax : 0 < cfg.maxstep) (n : Nat) (o o' : SubObj K X E W) (h1 : o.stepsize = env.lit 1 1) (h : suSearch env cfg n o = some o') (hst : o'.status ≠ .minStep) :
    ∃ t, 0 < t ∧ o'.eta2 = env.smul t o.eta1 ∧ o'.x2 = env.retr o.x1 (env.smul t o.eta1) ∧ o'.f2 = env.f o'.x2 ∧ env.f o'.x2 ≤ o.f1 + cfg.alpha * o.initialslope * t := by
  have hr := C152_search (cfg := cfg) hx n o h1
  rw [h] at hr
  unfold Sub.wolfeLip at hr
  cases hB : Sub.wolfeLoop (suLS cfg) (suPhi env o) (suDphi env o) o.f1 o.initialslope n n 0 1 with
  | none => rw [hB] at hr; cases hr
  | some r =>
    rw [hB] at hr
    cases hr with
    | some hr =>
      rcases wolfeLoop_decrease (suLS cfg) (suPhi env o) (suDphi env o) o.f1 o.initialslope n hmax n 0 1 r le_rfl zero_lt_one hB with ⟨h2, h3⟩ | ⟨h2, -, h4⟩
      · exfalso
        apply hst
        rw [hr.status]
        unfold Sub.finalStatus
        dsimp only
        rw [if_neg (by show ¬ cfg.maxstep ≤ r.step; have h3' : r.step < cfg.minstep := h3; exact not_le.mpr (h3'.trans hmm)), if_pos h3.le]
      · have hp := hr.point
        have hv := hr.value
        refine ⟨r.trial, h2, hr.dir, hp, ?_, ?_⟩
        · rw [hv, hp]; rfl
        · rw [hp]; exact h4

/-- The recorded values, newest first, never increase, except that the newest may be larger if `bad`. -/
def Falling (bad : Prop) : List K → Prop
  | [] => True
  | a :: l => l.Pairwise (· ≤ ·) ∧ (bad ∨ ∀ b ∈ l, a ≤ b)

theorem falling_head {bad : Prop} {a b : K} {l : List K} (h : List.Pairwise (· ≤ ·) (b :: l)) (hab : bad ∨ a ≤ b) : Falling bad (a :: b :: l) := by
  refine ⟨h, hab.imp id fun hab c hc => ?_⟩
  rcases List.mem_cons.mp hc with rfl | hc
  · exact hab
  · exact hab.trans (List.rel_of_pairwise_cons h hc)

/-- **C152, descent.** If the directions are not ascent directions for the vector the slope is computed with, the recorded values never increase; only the last of a run that ended with the status "minimum step size" may be larger. -/
theorem C152_monotone (hx : env.Exact) (halpha : 0 ≤ cfg.alpha) (hmm : cfg.minstep < cfg.maxstep) (hmax : 0 < cfg.maxstep)
    (hdesc : ∀ o d, 2 ≤ o.lenG → suDirection env cfg o = some d → env.metric d.x1 d.minPv d.eta1 ≤ 0) (n : Nat) (o o' : SubObj K X E W) (hlen : 2 ≤ env.intrDim + o.numExtra) (h : suRun env cfg n o = .done o') :
    Falling (o'.status = .minStep) (o'.series.map Prod.fst) := by
  have key : ∀ (n : Nat) (st : Bool) (p p' : SubObj K X E W), 2 ≤ p.lenG → (∃ v l, p.series = (p.f1, v) :: l) → Falling (p.status = .minStep) (p.series.map Prod.fst) → suLoop env cfg n st p = .done p' →
      Falling (p'.status = .minStep) (p'.series.map Prod.fst) := by
    intro n
    induction n with
    | zero => intro st p p' _ _ _ h; simp [suLoop] at h
    | succ n ih =>
      intro st p p' hl hh hd h
      unfold suLoop at h
      by_cases hg : suGoes env cfg st p = true
      · rw [if_pos hg] at h
        cases hp : suPass env cfg (n + 1) p with
        | ub => rw [hp] at h; cases h
        | more => rw [hp] at h; cases h
        | next st' q =>
          rw [hp] at h
          obtain ⟨d, hdir, -, hcase⟩ := suPass_next hp
          obtain ⟨k, ks, -⟩ := suDirection_out hdir
          refine ih st' q p' ?_ ?_ ?_ h
          · rcases hcase with ⟨hs, -⟩ | ⟨s, m, -, hs, hu, rfl⟩
            · rw [suShrink_out hs]; dsimp only; rw [k.lenG]; exact hl
            · dsimp only; rw [(suSearch_out hs).1.lenG]; dsimp only; rw [k.lenG]; exact hl
          · rcases hcase with ⟨hs, -⟩ | ⟨s, m, -, hs, hu, rfl⟩
            · rw [suShrink_out hs]; dsimp only; rw [k.series, k.f1]; exact hh
            · exact ⟨_, _, rfl⟩
          · have hnot : p.status ≠ .minStep := by
              intro e
              unfold suGoes at hg
              rw [e] at hg
              simp at hg
            rcases hcase with ⟨hs, -⟩ | ⟨s, m, -, hs, hu, rfl⟩
            · rw [suShrink_out hs]; dsimp only; rw [k.series, ks]; exact hd
            · dsimp only
              obtain ⟨v, l, e⟩ := hh
              have hser : s.series = p.series := (suSearch_out hs).1.series.trans k.series
              rw [e] at hd
              rw [hser, e]
              simp only [List.map_cons] at hd ⊢
              refine falling_head ?_ ?_
              · rcases hd.2 with hb | hb
                · exact absurd hb hnot
                · exact List.pairwise_cons.mpr ⟨hb, hd.1⟩
              · by_cases hst : s.status = .minStep
                · exact Or.inl hst
                · right
                  obtain ⟨t, ht, -, -, hv, hle⟩ := C152_decrease hx hmm hmax (n + 1) _ s rfl hs hst
                  have hsl := hdesc p d hl hdir
                  dsimp only at hle
                  rw [hv]
                  have h0 : cfg.alpha * env.metric d.x1 d.minPv d.eta1 * t ≤ 0 := mul_nonpos_of_nonpos_of_nonneg (mul_nonpos_of_nonneg_of_nonpos halpha hsl) ht.le
                  have hf : d.f1 = p.f1 := k.f1
                  rw [hf] at hle
                  linarith
      · rw [if_neg hg] at h
        cases h
        exact hd
  exact key n false (suPrologue env o) o' hlen ⟨_, _, rfl⟩ ⟨List.Pairwise.nil, Or.inr (by simp)⟩ h

/-- **C152, the slope.** The slope that the search starts with is not positive, for the solvers with an operator as well as for `RGS`. The vector it is computed with may come from another subproblem than the direction; that does not matter, because
the direction makes no acute angle with any element of the hull. Hypotheses: the metric is homogeneous in its second argument and not negative on equal vectors; the solution `v` of the subproblem with the operator `H` has `⟨u, H v⟩ ≥ 0` for `u = v` and for the
shortest `u` in the hull (the optimality condition). -/
theorem C152_slope (hx : env.Exact) (hhom : ∀ x v e (c : K), env.metric x v (env.smul c e) = c * env.metric x v e) (hnn : ∀ x v, 0 ≤ env.metric x v v) (hsq : ∀ a, 0 ≤ env.sqrt a)
    (hopt : ∀ r x w l P v q e, env.hull r x (some w) l = some (P, v, q) → env.hv w x v = some e → 0 ≤ env.metric x v e ∧ ∀ r' P' u q', env.hull r' x none l = some (P', u, q') → 0 ≤ env.metric x u e)
    (o d : SubObj K X E W) (hl : 2 ≤ o.lenG) (h : suDirection env cfg o = some d) : env.metric d.x1 d.minPv d.eta1 ≤ 0 := by
  unfold suDirection at h
  rw [if_pos (by omega)] at h
  split at h
  · unfold suRgs at h
    dsimp only at h
    rw [Option.map_eq_some_iff] at h
    obtain ⟨r, -, rfl⟩ := h
    dsimp only
    rw [hhom, exact_lit_one hx]
    exact mul_nonpos_of_nonpos_of_nonneg (div_nonpos_of_nonpos_of_nonneg (by norm_num) (hsq _)) (hnn _ _)
  · have key : ∀ (n : Nat) (p : SubObj K X E W), (0 < n ∨ env.metric p.x1 p.minPv p.eta1 ≤ 0) → suSample env cfg n p = some d → env.metric d.x1 d.minPv d.eta1 ≤ 0 := by
      intro n
      induction n with
      | zero =>
        intro p hp h
        simp only [suSample, Option.some.injEq] at h
        subst h
        simpa using hp
      | succ n ih =>
        intro p _ h
        unfold suSample at h
        cases hh : env.hull p.rng p.x1 (some p.mem) p.gfs with
        | none => rw [hh] at h; cases h
        | some r =>
          obtain ⟨P, v, r⟩ := r
          rw [hh] at h
          dsimp only at h
          cases hv : env.hv p.mem p.x1 v with
          | none => rw [hv] at h; cases h
          | some e =>
            rw [hv] at h
            dsimp only at h
            obtain ⟨o1, o2⟩ := hopt _ _ _ _ _ _ _ _ hh hv
            cases hs : suShortest env cfg P { p with minPv := v, rng := r, eta1 := env.smul (-env.lit 1 1) e } with
            | none => rw [hs] at h; cases h
            | some q =>
              obtain ⟨nmin, q⟩ := q
              rw [hs] at h
              have hq : env.metric q.x1 q.minPv q.eta1 ≤ 0 := by
                unfold suShortest at hs
                split at hs
                · cases hs
                  dsimp only
                  rw [hhom, exact_lit_one hx]
                  linarith
                · rw [Option.map_eq_some_iff] at hs
                  obtain ⟨r', hr', e'⟩ := hs
                  cases e'
                  dsimp only
                  rw [hhom, exact_lit_one hx]
                  have := o2 _ _ _ _ hr'
                  linarith
              dsimp only at h
              split at h
              · cases h; exact hq
              · split at h
                · cases h; exact hq
                · split at h
                  · refine ih _ (Or.inr ?_) h
                    dsimp only
                    rw [(suIncreasing_keeps _ _ _ _ _ _ _).1.x1, (suIncreasing_keeps _ _ _ _ _ _ _).1.minPv, (suIncreasing_keeps _ _ _ _ _ _ _).1.eta1]
                    exact hq
                  · cases h
    exact key _ _ (Or.inl (by show 0 < o.lenG - 1; omega)) h

/-! ## The radii -/

/-- What holds of the two radii: `Eps` is at least its lower bound and at most its initial value, `Del` is nonnegative and at most its initial value. -/
structure SuRadii (cfg : SubCfg K X) (e0 d0 : K) (o : SubObj K X E W) : Prop where
  low : cfg.minEps ≤ o.eps
  high : o.eps ≤ e0
  pos : 0 ≤ o.del
  del : o.del ≤ d0

theorem suShrinkDel_radii (h0 : 0 ≤ cfg.thetaDel) (h1 : cfg.thetaDel ≤ 1) (v : K) : ∀ (n : Nat) (d d' : K), 0 ≤ d → suShrinkDel env cfg v n d = some d' → 0 ≤ d' ∧ d' ≤ d := by
  intro n
  induction n with
  | zero => intro d d' _ h; simp [suShrinkDel] at h
  | succ n ih =>
    intro d d' hd h
    unfold suShrinkDel at h
    split at h
    · obtain ⟨a, b⟩ := ih _ _ (mul_nonneg hd h0) h
      exact ⟨a, b.trans (mul_le_of_le_one_right hd h1)⟩
    · cases h; exact ⟨hd, le_refl _⟩

theorem suShrink_radii (hx : env.Exact) (hm : 0 ≤ cfg.minEps) (e1 : cfg.thetaEps ≤ 1) (h0 : 0 ≤ cfg.thetaDel) (h1 : cfg.thetaDel ≤ 1) {e0 d0 : K} {n : Nat} {o o' : SubObj K X E W} (I : SuRadii cfg e0 d0 o) (h : suShrink env cfg n o = some o') :
    SuRadii cfg e0 d0 o' := by
  have hle : o.eps * cfg.thetaEps ≤ o.eps := mul_le_of_le_one_right (hm.trans I.low) e1
  have hb : ∀ e, e = (if env.lt cfg.minEps (o.eps * cfg.thetaEps) = true then o.eps * cfg.thetaEps else cfg.minEps) → cfg.minEps ≤ e ∧ e ≤ e0 := by
    rintro e rfl
    rw [hx.lt]
    by_cases hc : cfg.minEps < o.eps * cfg.thetaEps
    · rw [if_pos (by simpa using hc)]; exact ⟨hc.le, hle.trans I.high⟩
    · rw [if_neg (by simpa using hc)]; exact ⟨le_refl _, I.low.trans I.high⟩
  unfold suShrink at h
  dsimp only at h
  obtain ⟨e, he⟩ : ∃ e, e = (if env.lt cfg.minEps (o.eps * cfg.thetaEps) = true then o.eps * cfg.thetaEps else cfg.minEps) := ⟨_, rfl⟩
  obtain ⟨b1, b2⟩ := hb e he
  rw [← he] at h
  split at h
  · cases h
    exact ⟨b1, b2, mul_nonneg I.pos h0, (mul_le_of_le_one_right I.pos h1).trans I.del⟩
  · rw [Option.map_eq_some_iff] at h
    obtain ⟨d, hd, rfl⟩ := h
    obtain ⟨a, b⟩ := suShrinkDel_radii h0 h1 _ _ _ _ I.pos hd
    exact ⟨b1, b2, a, b.trans I.del⟩

/-- **C152, the radii.** With parameters in the ranges the solver checks, a run leaves `Eps` between its lower bound and the value it had before, and `Del` between zero and the value it had before. -/
theorem C152_radii (hx : env.Exact) (hm : 0 ≤ cfg.minEps) (e1 : cfg.thetaEps ≤ 1) (h0 : 0 ≤ cfg.thetaDel) (h1 : cfg.thetaDel ≤ 1) (n : Nat) (o o' : SubObj K X E W) (he : cfg.minEps ≤ o.eps) (hd : 0 ≤ o.del) (h : suRun env cfg n o = .done o') :
    cfg.minEps ≤ o'.eps ∧ o'.eps ≤ o.eps ∧ 0 ≤ o'.del ∧ o'.del ≤ o.del := by
  have key : ∀ (n : Nat) (st : Bool) (p p' : SubObj K X E W), SuRadii cfg o.eps o.del p → suLoop env cfg n st p = .done p' → SuRadii cfg o.eps o.del p' := by
    intro n
    induction n with
    | zero => intro st p p' _ h; simp [suLoop] at h
    | succ n ih =>
      intro st p p' I h
      unfold suLoop at h
      by_cases hg : suGoes env cfg st p = true
      · rw [if_pos hg] at h
        cases hp : suPass env cfg (n + 1) p with
        | ub => rw [hp] at h; cases h
        | more => rw [hp] at h; cases h
        | next st' q =>
          rw [hp] at h
          refine ih _ _ _ ?_ h
          obtain ⟨d, hdd, -, hcase⟩ := suPass_next hp
          obtain ⟨k, -, -⟩ := suDirection_out hdd
          have Id : SuRadii cfg o.eps o.del d := ⟨by rw [k.eps]; exact I.low, by rw [k.eps]; exact I.high, by rw [k.del]; exact I.pos, by rw [k.del]; exact I.del⟩
          rcases hcase with ⟨hs, -⟩ | ⟨s, m, -, hs, hu, rfl⟩
          · exact suShrink_radii hx hm e1 h0 h1 Id hs
          · obtain ⟨h2, -, -⟩ := suSearch_out hs
            exact ⟨by dsimp only; rw [h2.eps]; exact Id.low, by dsimp only; rw [h2.eps]; exact Id.high, by dsimp only; rw [h2.del]; exact Id.pos, by dsimp only; rw [h2.del]; exact Id.del⟩
      · rw [if_neg hg] at h
        cases h
        exact ⟨I.low, I.high, I.pos, I.del⟩
  have R := key n false (suPrologue env o) o' ⟨he, le_refl _, hd, le_refl _⟩ h
  exact ⟨R.low, R.high, R.pos, R.del⟩

/-- **C152, the end.** A run that ends before `Max_Iteration` without a failed search has made at least `Min_Iteration` iterations and ends with `Eps` equal to its lower bound. -/
theorem C152_end (hx : env.Exact) (hm : 0 ≤ cfg.minEps) (e1 : cfg.thetaEps ≤ 1) (h0 : 0 ≤ cfg.thetaDel) (h1 : cfg.thetaDel ≤ 1) (n : Nat) (o o' : SubObj K X E W) (he : cfg.minEps ≤ o.eps) (hd : 0 ≤ o.del) (h : suRun env cfg n o = .done o')
    (hi : o'.iter < cfg.maxIter) (hs : o'.status = .success ∨ o'.status = .maxStep) : cfg.minIter ≤ o'.iter ∧ o'.eps = cfg.minEps := by
  have key : ∀ (n : Nat) (st : Bool) (p p' : SubObj K X E W), suLoop env cfg n st p = .done p' → ∃ st', suGoes env cfg st' p' = false := by
    intro n
    induction n with
    | zero => intro st p p' h; simp [suLoop] at h
    | succ n ih =>
      intro st p p' h
      unfold suLoop at h
      by_cases hg : suGoes env cfg st p = true
      · rw [if_pos hg] at h
        cases hp : suPass env cfg (n + 1) p with
        | ub => rw [hp] at h; cases h
        | more => rw [hp] at h; cases h
        | next st' q => rw [hp] at h; exact ih _ _ _ h
      · rw [if_neg hg] at h
        cases h
        exact ⟨st, Bool.not_eq_true _ ▸ hg⟩
  obtain ⟨st, hg⟩ := key n false (suPrologue env o) o' h
  have hlow := (C152_radii hx hm e1 h0 h1 n o o' he hd h).1
  have hst : (decide (o'.status = .success) || decide (o'.status = .maxStep)) = true := by
    rcases hs with hs | hs <;> simp [hs]
  unfold suGoes at hg
  rw [hst, Bool.and_true, decide_eq_true hi, Bool.true_and, hx.lt] at hg
  simp only [Bool.or_eq_false_iff, decide_eq_false_iff_not, not_lt] at hg
  exact ⟨hg.1.2, le_antisymm hg.2 hlow⟩

/-- **C152.** When the shortest vector is exactly zero (a stationary point found by sampling) and `Eps` is at its lower bound, the loop that reduces `Del` below the length of that vector does not end in exact arithmetic; in floating point numbers
it ends only if `Del` underflows to zero, which rounding to nearest prevents for `Theta_del` above one half (not modelled). -/
theorem C152_reduction_endless (hx : env.Exact) (h0 : 0 < cfg.thetaDel) (o : SubObj K X E W) (hd : 0 < o.del) (hn : env.abs o.ndir1 = 0) (he : o.eps * cfg.thetaEps ≤ cfg.minEps) (n : Nat) : suShrink env cfg n o = none := by
  have key : ∀ (n : Nat) (d : K), 0 < d → suShrinkDel env cfg 0 n d = none := by
    intro n
    induction n with
    | zero => intro d _; rfl
    | succ n ih =>
      intro d hd
      unfold suShrinkDel
      rw [hx.lt, if_pos (by simpa using hd)]
      exact ih _ (mul_pos hd h0)
  unfold suShrink
  dsimp only
  have h1 : env.lt cfg.minEps (o.eps * cfg.thetaEps) = false := by rw [hx.lt]; simpa using he
  have h2 : env.lt cfg.minEps cfg.minEps = false := by rw [hx.lt]; simp
  simp only [h1, Bool.false_eq_true, if_false, h2, hn, key n _ hd, Option.map_none]

/-! ## Stationary points -/

/-- `z` is the zero vector at `x`, as the problem and the solver see it: a step along it stays, its length is zero, its own hull is itself, and the operator maps it to itself. -/
structure ZeroAt (env : SubEnv K X E W) (x : X) (z : E) : Prop where
  smul : ∀ c, env.smul c z = z
  retr : env.retr x z = x
  metric : env.metric x z z = 0
  dretr : env.dretr x z x z = z
  hull : ∀ r w, env.hull r x w [z] = some (0, z, r)
  hv : ∀ w, env.hv w x z = some z
  update : ∀ i w, env.update i x z x z z w ≠ none

/-- What the loop holds at a stationary point with a stale length of the direction. -/
structure Stalled (env : SubEnv K X E W) (cfg : SubCfg K X) (z : E) (x : X) (e d v : K) (o : SubObj K X E W) : Prop where
  x1 : o.x1 = x
  f1 : o.f1 = env.f x
  gf1 : o.gf1 = z
  lenG : 2 ≤ o.lenG
  status : o.status = .success
  eps : o.eps = e
  del : o.del = d
  ndir1 : o.ndir1 = v

/-- The direction at a stationary point: the zero vector, and the length is not updated. -/
theorem suDirection_stalled (hx : env.Exact) (hs0 : env.sqrt 0 = 0) {z : E} {x : X} (hz : ZeroAt env x z) {e d v : K} (hd : 0 ≤ d) (hr : cfg.rgs = false) {o : SubObj K X E W} (h : Stalled env cfg z x e d v o) :
    ∃ o', suDirection env cfg o = some o' ∧ Stalled env cfg z x e d v o' ∧ o'.iter = o.iter ∧ o'.eta1 = z ∧ o'.minPv = z := by
  obtain ⟨k, hk⟩ : ∃ k, o.lenG - 1 = k + 1 := ⟨o.lenG - 2, by have := h.lenG; omega⟩
  have hl : 0 < o.lenG := by have := h.lenG; omega
  unfold suDirection
  rw [if_pos hl, hr, hk]
  simp only [Bool.false_eq_true, if_false]
  unfold suSample
  dsimp only
  rw [h.gf1, h.x1, hz.hull]
  dsimp only
  rw [hz.hv]
  dsimp only
  rw [hz.smul]
  have hsh : ∀ p : SubObj K X E W, p.x1 = x → p.minPv = z → p.gfs = [z] → suShortest env cfg 0 p = some (0, p) := by
    intro p h1 h2 h3
    unfold suShortest
    split
    · rw [h1, h2, hz.metric, hs0]
    · have hh : env.hull p.rng p.x1 none p.gfs = some (0, z, p.rng) := by rw [h1, h3]; exact hz.hull _ _
      rw [hh]
      simp only [Option.map_some, hs0]
      subst h2
      rfl
  rw [hsh]
  rotate_left
  · rfl
  · rfl
  · rfl
  dsimp only
  have hle : env.le 0 o.del = true := by rw [hx.le, h.del]; simpa using hd
  rw [if_pos hle]
  exact ⟨_, rfl, ⟨rfl, h.f1, rfl, h.lenG, h.status, h.eps, h.del, h.ndir1⟩, rfl, rfl, rfl⟩

/-- The search along the zero vector accepts the step 1 at once. -/
theorem suSearch_zero (hx : env.Exact) {z : E} {x : X} (hz : ZeroAt env x z) (hgrad : env.grad x = z) (h0 : cfg.minstep < 1) (h1 : 1 < cfg.maxstep) (n : Nat) (o : SubObj K X E W) (hx1 : o.x1 = x) (hf : o.f1 = env.f x)
    (he : o.eta1 = z) (hs : o.initialslope = 0) (ht : o.stepsize = 1) :
    suSearch env cfg (n + 1) o = some { o with status := .success, eta2 := z, x2 := x, f2 := env.f x, gf2 := z, newslope := 0 } := by
  have hH : suH env { o with status := .success } = { o with status := .success, eta2 := z, x2 := x, f2 := env.f x } := by
    unfold suH
    dsimp only
    rw [he, hz.smul, hx1, hz.retr]
  have hD : suDh env { o with status := .success, eta2 := z, x2 := x, f2 := env.f x } = { o with status := .success, eta2 := z, x2 := x, f2 := env.f x, gf2 := z, newslope := 0 } := by
    unfold suDh
    dsimp only
    rw [he, hx1, hgrad, hz.dretr, hz.metric]
  unfold suSearch suWolfe
  dsimp only
  rw [hH]
  have hhigh : suHigh env cfg { o with status := .success, eta2 := z, x2 := x, f2 := env.f x } = false := by
    unfold suHigh
    dsimp only
    rw [hx.lt, exact_lit_zero hx, hf, hs, ht]
    simp
  rw [hhigh, hD]
  have hcurv : env.le (cfg.beta * o.initialslope) 0 = true := by rw [hx.le, hs]; simp
  simp only [Bool.false_eq_true, if_false]
  rw [if_pos hcurv]
  simp only [Option.map_some]
  unfold suStatus
  dsimp only
  have c1 : env.le o.stepsize cfg.minstep = false := by rw [hx.le, ht]; simpa using h0
  rw [c1]
  simp only [Bool.false_eq_true, if_false]
  have c2 : env.le cfg.maxstep o.stepsize = false := by rw [hx.le, ht]; simpa using h1
  rw [c2]
  simp only [Bool.false_eq_true, if_false]

/-- One pass at a stationary point. -/
theorem suPass_stalled (hx : env.Exact) (hs0 : env.sqrt 0 = 0) {z : E} {x : X} (hz : ZeroAt env x z) (hgrad : env.grad x = z) {e d v : K} (hd : 0 ≤ d) (hv : d < |v|) (ht : cfg.tol < |v|) (hv0 : cfg.tol ≤ v)
    (hr : cfg.rgs = false) (hstop : cfg.stop = .gradF) (h0 : cfg.minstep < 1) (h1 : 1 < cfg.maxstep) (n : Nat) {o : SubObj K X E W} (h : Stalled env cfg z x e d v o) :
    ∃ o', suPass env cfg (n + 1) o = .next false o' ∧ Stalled env cfg z x e d v o' ∧ o'.iter = o.iter + 1 := by
  obtain ⟨p, hp, hS, hi, he, hm⟩ := suDirection_stalled hx hs0 hz hd hr h
  unfold suPass
  rw [hp]
  dsimp only
  have hst : suStopped env cfg p = false := by
    unfold suStopped
    rw [hstop]
    dsimp only
    rw [hx.lt, hS.ndir1]
    simpa using hv0
  have hc : (env.le (env.abs p.ndir1) p.del || env.le (env.abs p.ndir1) cfg.tol) = false := by
    rw [hx.le, hx.le, hx.abs, hS.ndir1, hS.del]
    simp [hv, ht]
  rw [hst, hc]
  simp only [Bool.false_eq_true, if_false]
  rw [suSearch_zero hx hz hgrad h0 h1 n { p with initialslope := env.metric p.x1 p.minPv p.eta1, stepsize := env.lit 1 1, initiallength := env.lit 1 1 } hS.x1 hS.f1 he (by dsimp only; rw [hS.x1, hm, he, hz.metric]) (exact_lit_one hx)]
  dsimp only
  unfold suAdvance
  dsimp only
  cases hu : env.update (p.iter + 1) p.x1 z x p.gf1 z p.mem with
  | none => rw [hS.x1, hS.gf1] at hu; exact absurd hu (hz.update _ _)
  | some w =>
    refine ⟨_, rfl, ⟨rfl, rfl, rfl, hS.lenG, rfl, hS.eps, hS.del, hS.ndir1⟩, ?_⟩
    dsimp only
    rw [hi]

/-- **C152, negation.** At a point where the gradient is zero the solvers other than `RGS` need not stop: the length `ndir1`, on which the stopping test and the reduction of `Eps` and `Del` depend, is not computed for a short direction, so the old value (in
a new object an uninitialised one) is used. If that exceeds `Del` and the tolerance, the run makes `Max_Iteration` steps of length zero and ends with `Eps`, `Del` and `ndir1` as they were, whatever they are. -/
theorem C152_stalls (hx : env.Exact) (hs0 : env.sqrt 0 = 0) (z : E) (o : SubObj K X E W) (hz : ZeroAt env o.x1 z) (hgrad : env.grad o.x1 = z) (hlen : 2 ≤ env.intrDim + o.numExtra) (hd : 0 ≤ o.del) (hv : o.del < o.ndir1)
    (ht : cfg.tol < o.ndir1) (hr : cfg.rgs = false) (hstop : cfg.stop = .gradF) (h0 : cfg.minstep < 1) (h1 : 1 < cfg.maxstep) (n : Nat) (hn : cfg.maxIter < n) :
    ∃ o', suRun env cfg n o = .done o' ∧ o'.iter = cfg.maxIter ∧ o'.x1 = o.x1 ∧ o'.eps = o.eps ∧ o'.del = o.del ∧ o'.ndir1 = o.ndir1 ∧ o'.status = .success := by
  have hv' : 0 ≤ o.ndir1 := hd.trans hv.le
  have key : ∀ (k n : Nat) (p : SubObj K X E W), Stalled env cfg z o.x1 o.eps o.del o.ndir1 p → p.iter + k = cfg.maxIter → k < n →
      ∃ p', suLoop env cfg n false p = .done p' ∧ Stalled env cfg z o.x1 o.eps o.del o.ndir1 p' ∧ p'.iter = cfg.maxIter := by
    intro k
    induction k with
    | zero =>
      intro n p hp hi hn
      obtain ⟨m, rfl⟩ : ∃ m, n = m + 1 := ⟨n - 1, by omega⟩
      unfold suLoop
      have hg : suGoes env cfg false p = false := by
        unfold suGoes
        simp [show ¬ p.iter < cfg.maxIter by omega]
      rw [hg]
      simp only [Bool.false_eq_true, if_false]
      exact ⟨_, rfl, ⟨hp.x1, hp.f1, hp.gf1, hp.lenG, hp.status, hp.eps, hp.del, hp.ndir1⟩, by dsimp only; omega⟩
    | succ k ih =>
      intro n p hp hi hn
      obtain ⟨m, rfl⟩ : ∃ m, n = m + 1 := ⟨n - 1, by omega⟩
      unfold suLoop
      have hg : suGoes env cfg false p = true := by
        unfold suGoes
        rw [hp.status]
        simp [show p.iter < cfg.maxIter by omega]
      rw [if_pos hg]
      obtain ⟨q, hq, hS, hi'⟩ := suPass_stalled hx hs0 hz hgrad hd (by rwa [abs_of_nonneg hv']) (by rwa [abs_of_nonneg hv']) ht.le hr hstop h0 h1 m hp
      rw [hq]
      exact ih m q hS (by omega) (by omega)
  obtain ⟨p', hp', hS, hi⟩ := key cfg.maxIter n (suPrologue env o) ⟨rfl, rfl, hgrad, hlen, rfl, rfl, rfl, rfl⟩ (Nat.zero_add _) hn
  exact ⟨p', hp', hi, hS.x1, hS.eps, hS.del, hS.ndir1, hS.status⟩

end Exact

/-! ## `LRBFGSSub` -/

section Limited

variable {X E : Type*} [NormedAddCommGroup E] [InnerProductSpace ℝ E]

/-- The memory of `LRBFGSSub` as the object sees it: `HvLRBFGSSub` reads the pairs (C26), and `Run` allocates `S`, `Y`, `RHO` anew while it keeps `Currentlength` and `beginidx` (`LRBFGSSub.cpp:6-17`). -/
structure LimitedMemory (env : SubEnv ℝ X E (SubDir.LSub E)) : Prop where
  renew : ∀ w, env.renew w = { w with buf := w.buf.startRun }
  hv : ∀ w x v, ∃ junk, env.hv w x v = w.buf.hv id w.gamma junk v

/-- **C152, negation.** A second `Run` of an `LRBFGSSub` object that holds at least one pair reads pairs that have never been written, with or without `SetProbX` in between. -/
theorem C152_lrbfgssub_second_run {env : SubEnv ℝ X E (SubDir.LSub E)} {cfg : SubCfg ℝ X} (hm : LimitedMemory env) (n : Nat) (o : SubObj ℝ X E (SubDir.LSub E)) (hr : cfg.rgs = false) (hlen : 2 ≤ env.intrDim + o.numExtra)
    (hmax : 0 < cfg.maxIter) (hpairs : 0 < o.mem.buf.len) :
    suRun env cfg (n + 1) o = .ub ∧ ∀ empty x, 1 ≤ env.intrDim → suRun env cfg (n + 1) (suSetProbX env empty id x o) = .ub := by
  have hgone : ∀ x v, env.hv (env.renew o.mem) x v = none := by
    intro x v
    obtain ⟨junk, e⟩ := hm.hv (env.renew o.mem) x v
    rw [e, hm.renew]
    exact QN.C26_second_run_reads_empty_slots o.mem.buf hpairs id o.mem.gamma junk v
  refine ⟨C152_operator_gone n o hr hlen hmax hgone, fun empty x hd => ?_⟩
  refine C152_operator_gone n _ hr ?_ hmax hgone
  show 2 ≤ env.intrDim + env.intrDim
  omega

end Limited

/-! ## The arrays of gradients and points -/

/-- Calls on an object that concern its arrays. -/
inductive SubCall
  | run
  | setProbX
  deriving DecidableEq, BEq, ReflBEq, LawfulBEq

/-- The pointer `gfs` (`Xs` likewise), the arrays that exist, and the next address. -/
structure GfsHeap where
  ptr : Option Nat
  live : List Nat
  next : Nat

/-- `DeleteVectors`: nothing for a null pointer; `none` for an array that does not exist. -/
def GfsHeap.free (h : GfsHeap) : Option GfsHeap :=
  match h.ptr with
  | none => some h
  | some i => if i ∈ h.live then some { h with live := h.live.erase i } else none

/-- `SolversNSMSub::Run` (SolversNSMSub.cpp:6-16: delete, then allocate) and `SetProbX` (lines 93-99: the pointer is set to null). -/
def GfsHeap.call : SubCall → GfsHeap → Option GfsHeap
  | .run, h => h.free.map fun g => { ptr := some g.next, live := g.next :: g.live, next := g.next + 1 }
  | .setProbX, h => some { h with ptr := none }

/-- A sequence of calls, then the destructor (SolversNSMSub.cpp:107-111). -/
def GfsHeap.life : List SubCall → GfsHeap → Option GfsHeap
  | [], h => h.free
  | c :: l, h => (h.call c).bind (GfsHeap.life l)

/-- The number of times that a `SetProbX` follows directly upon a `Run`. -/
def lostArrays (l : List SubCall) : Nat := (l.zip l.tail).count (.run, .setProbX)

/-- **C152, the arrays.** Whatever is called on an object, in which order and how often, no array is deleted twice; the arrays that remain when it is destroyed are one for each `SetProbX` that follows directly upon a `Run`. -/
theorem C152_arrays (l : List SubCall) : ∃ h, GfsHeap.life (.setProbX :: l) ⟨none, [], 0⟩ = some h ∧ h.live.length = lostArrays l := by
  have key : ∀ (l : List SubCall) (h : GfsHeap), (∀ i ∈ h.live, i < h.next) → (∀ i, h.ptr = some i → i ∈ h.live) →
      ∃ g, GfsHeap.life l h = some g ∧ g.live.length + (if h.ptr.isSome then 1 else 0) = h.live.length + lostArrays (if h.ptr.isSome then .run :: l else l) := by
    intro l
    induction l with
    | nil =>
      intro h h1 h2
      cases hp : h.ptr with
      | none => exact ⟨h, by unfold GfsHeap.life GfsHeap.free; rw [hp], by simp [lostArrays]⟩
      | some i =>
        have := h2 i hp
        refine ⟨{ h with live := h.live.erase i }, by unfold GfsHeap.life GfsHeap.free; rw [hp]; dsimp only; rw [if_pos this], ?_⟩
        have h3 : 0 < h.live.length := List.length_pos_of_mem this
        simp only [Option.isSome_some, if_true, List.length_erase_of_mem this, lostArrays, List.tail_cons, List.zip_nil_right, List.count_nil]
        omega
    | cons c l ih =>
      intro h h1 h2
      cases c with
      | setProbX =>
        obtain ⟨g, hg, hl⟩ := ih { h with ptr := none } h1 (by simp)
        refine ⟨g, hg, ?_⟩
        have e : lostArrays (.setProbX :: l) = lostArrays l := by
          unfold lostArrays
          cases l with
          | nil => rfl
          | cons d l => simp [List.count_cons]
        have e' : lostArrays (.run :: .setProbX :: l) = lostArrays (.setProbX :: l) + 1 := by
          unfold lostArrays
          simp [List.count_cons]
        simp only [Option.isSome_none, Bool.false_eq_true, if_false, Nat.add_zero] at hl
        cases hp : h.ptr with
        | none => simp only [Option.isSome_none, Bool.false_eq_true, if_false, Nat.add_zero, e]; exact hl
        | some i =>
          simp only [Option.isSome_some, if_true]
          rw [e', e]
          omega
      | run =>
        have e' : lostArrays (.run :: .run :: l) = lostArrays (.run :: l) := by
          unfold lostArrays
          simp [List.count_cons]
        cases hp : h.ptr with
        | none =>
          obtain ⟨g, hg, hl⟩ := ih ⟨some h.next, h.next :: h.live, h.next + 1⟩ (by intro i hi; rcases List.mem_cons.mp hi with rfl | hi; exacts [Nat.lt_succ_self _, Nat.lt_succ_of_lt (h1 i hi)]) (by simp)
          refine ⟨g, ?_, ?_⟩
          · simp only [GfsHeap.life, GfsHeap.call, GfsHeap.free, hp]; exact hg
          · simp only [Option.isSome_some, Option.isSome_none, if_true, Bool.false_eq_true, if_false, List.length_cons] at hl ⊢
            omega
        | some i =>
          have hm := h2 i hp
          obtain ⟨g, hg, hl⟩ := ih ⟨some h.next, h.next :: h.live.erase i, h.next + 1⟩
            (by intro j hj; rcases List.mem_cons.mp hj with rfl | hj; exacts [Nat.lt_succ_self _, Nat.lt_succ_of_lt (h1 j (List.mem_of_mem_erase hj))]) (by simp)
          refine ⟨g, ?_, ?_⟩
          · simp only [GfsHeap.life, GfsHeap.call, GfsHeap.free, hp, if_pos hm]; exact hg
          · have h3 : 0 < h.live.length := List.length_pos_of_mem hm
            simp only [Option.isSome_some, if_true, List.length_cons, List.length_erase_of_mem hm, e'] at hl ⊢
            omega
  obtain ⟨g, hg, hl⟩ := key l ⟨none, [], 0⟩ (by simp) (by simp)
  exact ⟨g, hg, by simpa using hl⟩

/-- Two problems solved one after the other with the same object: the arrays of the first run are lost. -/
example : ∃ h, GfsHeap.life [.setProbX, .run, .setProbX, .run] ⟨none, [], 0⟩ = some h ∧ h.live.length = 1 := C152_arrays [.run, .setProbX, .run]

/-! ## Instances -/

/-- The element of the hull of numbers nearest to zero. -/
def nearest (l : List ℚ) : ℚ :=
  let lo := l.foldr min (l.headD 0)
  let hi := l.foldr max (l.headD 0)
  if 0 < lo then lo else if hi < 0 then hi else 0

/-- `c x² / 2` on the line, with the identity as operator and alternating signs as random numbers. -/
def lineSub (c : ℚ) : SubEnv ℚ ℚ ℚ Unit :=
  { lineEnv c with
    intrDim := 1, hull := fun r _ _ l => some (nearest l * nearest l, nearest l, r), hv := fun _ _ v => some v, rand := fun r _ => (if r % 2 = 0 then 1 else -1, r + 1)
    invTr := fun _ _ _ v => v, beta := fun _ _ => 1, update := fun _ _ _ _ _ _ w => some w, renew := id }

/-- `|x|` on the line. -/
def absSub : SubEnv ℚ ℚ ℚ Unit := { lineSub 1 with f := fun x => |x|, grad := fun x => if x < 0 then -1 else 1 }

def lineSubCfg (rgs : Bool) (iters : Nat) (tol : ℚ) : SubCfg ℚ ℚ := ⟨iters, 0, tol, 1 / 100, 1 / 2, 1 / 2, 1 / 10, 9 / 10, 1 / 1000, 100, 1 / 10, rgs, .gradF⟩

/-- Members of a new object before the constructor, with a value of `ndir1`. -/
def subJunk (nd : ℚ) : SubObj ℚ ℚ ℚ Unit := ⟨0, 0, 0, 0, 0, 0, 0, 0, 0, 0, nd, 0, 0, 0, 0, 0, 0, 0, 0, [], .success, 0, [], [], 0, 0, ()⟩

/-- Point, `Eps`, `Del`, `ndir1`, iterations, values. -/
def subShow : SubOut ℚ ℚ ℚ Unit → Option (List ℚ × Nat × List ℚ)
  | .done o => some ([o.x1, o.eps, o.del, o.ndir1], o.iter, o.series.map Prod.fst)
  | _ => none

theorem exact_lineSub (c : ℚ) : (lineSub c).Exact := ⟨(exact_line c).lt, (exact_line c).le, (exact_line c).eq, (exact_line c).lit, (exact_line c).abs⟩

theorem exact_absSub : absSub.Exact := ⟨(exact_line 1).lt, (exact_line 1).le, (exact_line 1).eq, (exact_line 1).lit, (exact_line 1).abs⟩

/-- The hypotheses of `C152_slope` hold on the line. -/
theorem slope_line (cfg : SubCfg ℚ ℚ) (o d : SubObj ℚ ℚ ℚ Unit) (hl : 2 ≤ o.lenG) (h : suDirection absSub cfg o = some d) : absSub.metric d.x1 d.minPv d.eta1 ≤ 0 := by
  refine C152_slope exact_absSub (fun _ v e c => ?_) (fun _ v => mul_self_nonneg v) ratRoot_nonneg ?_ o d hl h
  · show v * (c * e) = c * (v * e); ring
  · intro r x w l P v q e h1 h2
    cases h1
    cases h2
    refine ⟨mul_self_nonneg _, ?_⟩
    intro r' P' u q' h3
    cases h3
    exact mul_self_nonneg _

/-- Instance of `C152_members`, `C152_monotone`, `C152_slope` and `C152_dir_series_short`: six steps on `|x|` from `7/3`, during which `Eps` and `Del` are halved. -/
example : subShow (suRun absSub (lineSubCfg false 6 (1 / 100)) 30 (suNew absSub 0 () (7 / 3) (subJunk 0))) = some ([1 / 48, 1 / 2, 1 / 2, 1], 6, [1 / 48, 1 / 24, 1 / 12, 1 / 6, 1 / 3, 5 / 3, 7 / 3]) := by decide +kernel

example (o' : SubObj ℚ ℚ ℚ Unit) (h : suRun absSub (lineSubCfg false 6 (1 / 100)) 30 (suNew absSub 0 () (7 / 3) (subJunk 0)) = .done o') : Falling (o'.status = .minStep) (o'.series.map Prod.fst) :=
  C152_monotone exact_absSub (by show (0 : ℚ) ≤ 1 / 10; norm_num) (by show (1 / 1000 : ℚ) < 100; norm_num) (by show (0 : ℚ) < 100; norm_num) (slope_line _) 30 _ o' le_rfl h

/-- The same with `RGS`. -/
example : subShow (suRun absSub (lineSubCfg true 6 (1 / 100)) 30 (suNew absSub 0 () (7 / 3) (subJunk 0))) = some ([1 / 48, 1 / 4, 1 / 4, 1], 6, [1 / 48, 1 / 24, 1 / 12, 1 / 6, 1 / 3, 5 / 3, 7 / 3]) := by decide +kernel

/-- Instance of `C152_in_bounds`. -/
example (n : Nat) (x : ℚ) : suRun absSub (lineSubCfg false 6 (1 / 100)) n (suNew absSub 0 () x (subJunk 0)) ≠ .ub :=
  C152_in_bounds (by intro r x w l h; cases h) (by intro w x v h; cases h) (by intro i x e y g g' w h; cases h) n _ (by show 1 ≤ 1 + 1; omega)

/-- **C152, negation.** The second use of an object differs from that of a new one: on `x²/4` from 1, with `Eps` and `Del` as the run on `|x|` above leaves them, the norm of the last direction, `Eps` and `Del` are others. -/
theorem C152_radii_matter :
    (subShow (suRun (lineSub (1 / 2)) (lineSubCfg false 2 (1 / 100)) 30 (suNew (lineSub (1 / 2)) 0 () 3 (subJunk 1))) = some ([3 / 4, 1, 1, 3 / 2], 2, [9 / 64, 9 / 16, 9 / 4])) ∧
      subShow (suRun (lineSub (1 / 2)) (lineSubCfg false 2 (1 / 100)) 30 (suSetProbX (lineSub (1 / 2)) 0 id 3 { subJunk 1 with eps := 1 / 2, del := 1 / 2 })) = some ([3 / 4, 1 / 2, 1 / 2, 3 / 4], 2, [9 / 64, 9 / 16, 9 / 4]) := by
  constructor <;> decide +kernel

/-- **C152, negation.** A run depends on a member that the constructor does not initialise: on `x²/4` from 1 a new object with `ndir1 = 0` reduces `Eps` and `Del` twice and reports the length `1/2`; one with `ndir1 = 5` does not reduce them and reports 5. -/
theorem C152_uninitialised_length :
    subShow (suRun (lineSub (1 / 2)) (lineSubCfg false 6 (1 / 100)) 30 (suNew (lineSub (1 / 2)) 0 () 1 (subJunk 0))) = some ([1 / 64, 1 / 4, 1 / 4, 1 / 2], 6, [1 / 16384, 1 / 4096, 1 / 1024, 1 / 256, 1 / 64, 1 / 16, 1 / 4]) ∧
      subShow (suRun (lineSub (1 / 2)) (lineSubCfg false 6 (1 / 100)) 30 (suNew (lineSub (1 / 2)) 0 () 1 (subJunk 5))) = some ([1 / 64, 1, 1, 5], 6, [1 / 16384, 1 / 4096, 1 / 1024, 1 / 256, 1 / 64, 1 / 16, 1 / 4]) := by
  constructor <;> decide +kernel

/-- Instance of `C152_stalls`: started at the minimiser of `x²/4`, with 5 in `ndir1`, every one of the allowed iterations is made. -/
example (iters n : Nat) (hn : iters < n) : ∃ o', suRun (lineSub (1 / 2)) (lineSubCfg false iters (1 / 100)) n (suNew (lineSub (1 / 2)) 0 () 0 (subJunk 5)) = .done o' ∧ o'.iter = iters := by
  obtain ⟨o', h, hi, -⟩ := C152_stalls (cfg := lineSubCfg false iters (1 / 100)) (exact_lineSub (1 / 2)) (by decide +kernel) 0 (suNew (lineSub (1 / 2)) 0 () 0 (subJunk 5))
    ⟨fun c => by show c * 0 = (0 : ℚ); ring, by show (0 : ℚ) + 0 = 0; ring, by show (0 : ℚ) * 0 = 0; ring, rfl, fun r w => by show some (nearest [0] * nearest [0], nearest [0], r) = _; rw [show nearest [0] = 0 by decide +kernel, mul_zero], fun w => rfl,
      fun i w h => by cases h⟩
    (by show (1 / 2 : ℚ) * 0 = 0; ring) le_rfl (by show (0 : ℚ) ≤ mkRat 1 1; decide +kernel) (by show (mkRat 1 1 : ℚ) < 5; decide +kernel) (by show (1 / 100 : ℚ) < 5; norm_num) rfl rfl
    (by show (1 / 1000 : ℚ) < 1; norm_num) (by show (1 : ℚ) < 100; norm_num) n hn
  exact ⟨o', h, hi⟩

/-- Instance of `C152_reuse`: an object that has solved another problem, with `Eps` and `Del` set back. -/
example (n : Nat) (o : SubObj ℚ ℚ ℚ Unit) : SameSub (suRun absSub (lineSubCfg false 6 (1 / 100)) n (suNew absSub 0 () 1 { subJunk o.ndir1 with rng := o.rng }))
    (suRun absSub (lineSubCfg false 6 (1 / 100)) n (suSetProbX absSub 0 id 1 { o with eps := absSub.lit 1 1, del := absSub.lit 1 1 })) :=
  C152_reuse (cfg := lineSubCfg false 6 (1 / 100)) trivial 0 id () 1 n _ _ rfl rfl rfl rfl rfl

/-- Instance of `C152_search` and `C152_decrease`: on `3 x² / 2` from 1 along `-3` the step 1 is refused and `1/2` accepted. -/
example : ((suSearch (lineSub 3) (lineSubCfg false 6 (1 / 100)) 20 { subJunk 0 with x1 := 1, f1 := 3 / 2, eta1 := -3, initialslope := -9, stepsize := 1 }).map fun o => (o.x2, o.stepsize, decide (o.status = .success))) = some (-1 / 2, 1 / 2, true) := by
  decide +kernel

/-- `|x| / 200` on the line. -/
def slowSub : SubEnv ℚ ℚ ℚ Unit := { lineSub 1 with f := fun x => |x| / 200, grad := fun x => if x < 0 then -1 / 200 else 1 / 200 }

/-- Instance of `C152_radii` and `C152_end`: the slope is below the tolerance everywhere, so `Eps` and `Del` are reduced until `Eps` is at its lower bound, and the run ends there. -/
example : subShow (suRun slowSub (lineSubCfg true 60 (1 / 100)) 20 (suNew slowSub 0 () (7 / 3) (subJunk 0))) = some ([7 / 3, 1 / 100, 1 / 256, 1 / 200], 0, [7 / 600]) := by decide +kernel

example (n : Nat) (x : ℚ) (o' : SubObj ℚ ℚ ℚ Unit) (h : suRun slowSub (lineSubCfg true 60 (1 / 100)) n (suNew slowSub 0 () x (subJunk 0)) = .done o') : 1 / 100 ≤ o'.eps ∧ o'.eps ≤ slowSub.lit 1 1 ∧ 0 ≤ o'.del ∧ o'.del ≤ slowSub.lit 1 1 :=
  C152_radii (cfg := lineSubCfg true 60 (1 / 100)) ⟨(exact_line 1).lt, (exact_line 1).le, (exact_line 1).eq, (exact_line 1).lit, (exact_line 1).abs⟩ (by show (0 : ℚ) ≤ 1 / 100; norm_num) (by show (1 / 2 : ℚ) ≤ 1; norm_num)
    (by show (0 : ℚ) ≤ 1 / 2; norm_num) (by show (1 / 2 : ℚ) ≤ 1; norm_num) n _ o' (by show (1 / 100 : ℚ) ≤ mkRat 1 1; decide +kernel) (by show (0 : ℚ) ≤ mkRat 1 1; decide +kernel) h

/-- Instance of `C152_reduction_endless`. -/
example (n : Nat) : suShrink slowSub (lineSubCfg true 60 (1 / 100)) n { subJunk 0 with eps := 1 / 100, del := 1 } = none :=
  C152_reduction_endless (cfg := lineSubCfg true 60 (1 / 100)) ⟨(exact_line 1).lt, (exact_line 1).le, (exact_line 1).eq, (exact_line 1).lit, (exact_line 1).abs⟩ (by show (0 : ℚ) < 1 / 2; norm_num) _ (by show (0 : ℚ) < 1; norm_num)
    (by show |(0 : ℚ)| = 0; simp) (by show (1 / 100 : ℚ) * (1 / 2) ≤ 1 / 100; norm_num) n

/-- Instance of `C152_one_sample`: in dimension one with `NumExtraGF = 0`. -/
example : suDirection absSub (lineSubCfg false 6 (1 / 100)) (suPrologue absSub { suNew absSub 0 () 1 (subJunk 0) with numExtra := 0 }) =
    some { suPrologue absSub { suNew absSub 0 () 1 (subJunk 0) with numExtra := 0 } with gfs := [(suPrologue absSub { suNew absSub 0 () 1 (subJunk 0) with numExtra := 0 }).gf1] } :=
  C152_one_sample _ rfl rfl

/-- Instance of `C152_lrbfgssub_second_run`: a problem on the real line whose memory holds one pair. -/
example : ∃ (env : SubEnv ℝ ℝ ℝ (SubDir.LSub ℝ)) (cfg : SubCfg ℝ ℝ) (o : SubObj ℝ ℝ ℝ (SubDir.LSub ℝ)), LimitedMemory env ∧ cfg.rgs = false ∧ 2 ≤ env.intrDim + o.numExtra ∧ 0 < cfg.maxIter ∧ 0 < o.mem.buf.len :=
  ⟨{ lit := fun n d => n / d, lt := fun _ _ => true, le := fun _ _ => true, eq := fun _ _ => true, sqrt := id, abs := id, finite := fun _ => true, inf := 0, eps := 0, f := id, grad := id, precond := fun _ v => v, metric := fun _ u v => u * v
     retr := fun x v => x + v, dretr := fun _ _ _ v => v, transport := fun _ _ _ v => v, smul := fun a v => a * v, lin := fun a u b v => a * u + b * v, intrDim := 1, hull := fun r _ _ _ => some (0, 0, r)
     hv := fun w _ v => w.buf.hv id w.gamma (fun _ => 0) v, rand := fun r _ => (0, r), invTr := fun _ _ _ v => v, beta := fun _ _ => 1, update := fun _ _ _ _ _ _ w => some w, renew := fun w => { w with buf := w.buf.startRun } },
    ⟨1, 0, 0, 0, 0, 0, 0, 0, 0, 0, 0, false, .gradF⟩, ⟨0, 0, 0, 0, 0, 0, 0, 0, 0, 0, 0, 0, 0, 0, 0, 0, 0, 1, 0, [], .success, 0, [], [], 0, 0, ⟨⟨4, 1, 0, fun _ => some ⟨1, 1, 1⟩⟩, 1⟩⟩, ⟨fun _ => rfl, fun _ _ _ => ⟨_, rfl⟩⟩, rfl, le_rfl, Nat.one_pos,
    Nat.one_pos⟩

end Verif.Obj
