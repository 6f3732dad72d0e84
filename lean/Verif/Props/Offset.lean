import Mathlib.Algebra.Group.Basic
import Verif.Props.ObjectAPG
import Verif.Props.Object
import Verif.Solver.ObjectSearch
import Verif.Props.ObjectTR
import Verif.Props.Counts
import Verif.Props.Report

/-!
# C146, C147: adding a constant to the cost

The iterates a user gets should not depend on a constant added to the cost function. Numbers form a commutative group whose comparisons are invariant under the
translation by `c` (exact arithmetic); multiplication, division, roots and everything else are arbitrary.
-/

set_option linter.unusedSectionVars false

namespace Verif.Obj

variable {K X E M : Type*} [AddCommGroup K] [Mul K] [Div K]

/-! ## Specification -/

/-- The same problem with `c` added to the cost. -/
def Env.plus (env : Env K X E) (c : K) : Env K X E := { env with f := fun x => env.f x + c }

/-- The same members with `c` added to every function value. -/
def Obj.plus (c : K) (o : Obj K X E M) : Obj K X E M :=
  { o with f1 := o.f1 + c, f2 := o.f2 + c, preFuns := o.preFuns.map (· + c), series := o.series.map fun s => (s.1 + c, s.2) }

/-- Comparisons do not change when `c` is added on both sides, and `c` does not produce an infinite value. -/
structure Translates (lt le : K → K → Bool) (finite : K → Bool) (c : K) : Prop where
  lt : ∀ a b, lt (a + c) (b + c) = lt a b
  le : ∀ a b, le (a + c) (b + c) = le a b
  fin : ∀ a, finite (a + c) = finite a

/-- The stopping criterion does not look at function values: the gradient criteria, and functions of the user that ignore the recorded values. -/
def StopKind.Blind (c : K) : StopKind K X → Prop
  | .funRel => False
  | .gradF => True
  | .gradF0 => True
  | .user p => ∀ x s l a b, p x (s.map fun s => (s.1 + c, s.2)) l a b = p x s l a b

/-- The hooks of the solver do not look at function values. -/
def Hooks.Blind (c : K) (hk : Hooks K X E M) : Prop := ∀ o, hk.getSearchDir (o.plus c) = hk.getSearchDir o ∧ hk.updateData (o.plus c) = hk.updateData o

/-! ## Translation of each step -/

variable {env : Env K X E} {cfg : Cfg K X E} {c : K}

theorem h_plus (o : Obj K X E M) : h (env.plus c) (o.plus c) = (h env o).plus c := rfl

theorem dh_plus (o : Obj K X E M) : dh (env.plus c) (o.plus c) = (dh env o).plus c := rfl

theorem gradX2_plus (o : Obj K X E M) : gradX2 (env.plus c) (o.plus c) = (gradX2 env o).plus c := rfl

theorem foldl_plus (hT : Translates env.lt env.le env.finite c) : ∀ (l : List K) (a : K),
    (l.map (· + c)).foldl (fun a j => if env.lt a j then j else a) (a + c) = l.foldl (fun a j => if env.lt a j then j else a) a + c
  | [], _ => rfl
  | j :: l, a => by
    simp only [List.map_cons, List.foldl_cons, hT.lt]
    by_cases hj : env.lt a j = true
    · simp only [if_pos hj]; exact foldl_plus hT l j
    · simp only [if_neg hj]; exact foldl_plus hT l a

theorem maxpref_plus (hT : Translates env.lt env.le env.finite c) (o : Obj K X E M) : maxpref (env.plus c) cfg (o.plus c) = maxpref env cfg o + c := by
  unfold maxpref
  have e : (List.take cfg.numPreFuns (o.plus c).preFuns.dropLast) = (List.take cfg.numPreFuns o.preFuns.dropLast).map (· + c) := by
    simp [Obj.plus, List.map_dropLast, List.map_take]
  rw [e]
  exact foldl_plus hT _ _

theorem armijoFails_plus (mp : K) (o : Obj K X E M) : armijoFails (env.plus c) cfg (mp + c) (o.plus c) = armijoFails env cfg mp o := by
  simp only [armijoFails, Obj.plus, Env.plus, add_sub_add_right_eq_sub]

theorem backtrack_plus (mp : K) : ∀ (n : Nat) (o : Obj K X E M), backtrack (env.plus c) cfg (mp + c) n (o.plus c) = (backtrack env cfg mp n o).map (Obj.plus c)
  | 0, _ => rfl
  | n + 1, o => by
    unfold backtrack
    rw [armijoFails_plus]
    split
    · have e : (env.plus c).lt = env.lt := rfl
      simp only [e]
      have e2 : (o.plus c).stepsize = o.stepsize := rfl
      rw [e2]
      split
      · rfl
      · exact backtrack_plus mp n (h env { o with stepsize := o.stepsize * cfg.ratio1 })
    · rfl

theorem cubicStep_plus (pre pre2 f2pre f2 f1 slope : K) : cubicStep (env.plus c) pre pre2 (f2pre + c) (f2 + c) (f1 + c) slope = cubicStep env pre pre2 f2pre f2 f1 slope := by
  simp only [cubicStep, Env.plus, add_sub_add_right_eq_sub]

theorem interpLoop_plus (mp : K) : ∀ (n : Nat) (pre pre2 f2pre : K) (o : Obj K X E M),
    interpLoop (env.plus c) cfg (mp + c) n pre pre2 (f2pre + c) (o.plus c) = (interpLoop env cfg mp n pre pre2 f2pre o).map (Obj.plus c)
  | 0, _, _, _, _ => rfl
  | n + 1, pre, pre2, f2pre, o => by
    unfold interpLoop
    rw [armijoFails_plus]
    split
    · have e : cubicStep (env.plus c) pre pre2 (f2pre + c) (o.plus c).f2 (o.plus c).f1 (o.plus c).initialslope = cubicStep env pre pre2 f2pre o.f2 o.f1 o.initialslope :=
        cubicStep_plus _ _ _ _ _ _
      have e1 : ∀ t, clampStep (env.plus c) cfg t pre = clampStep env cfg t pre := fun _ => rfl
      have e2 : (env.plus c).lt = env.lt := rfl
      simp only [e, e1, e2]
      split
      · rfl
      · exact interpLoop_plus mp n _ pre o.f2 (h env { o with stepsize := clampStep env cfg (cubicStep env pre pre2 f2pre o.f2 o.f1 o.initialslope) pre })
    · rfl

theorem armijo_plus (hT : Translates env.lt env.le env.finite c) (n : Nat) (o : Obj K X E M) : armijo (env.plus c) cfg n (o.plus c) = (armijo env cfg n o).map (Obj.plus c) := by
  unfold armijo
  have e1 : h (env.plus c) { o.plus c with status := .success } = (h env { o with status := .success }).plus c := rfl
  simp only [e1]
  generalize h env { o with status := Status.success } = q
  rw [maxpref_plus hT]
  generalize maxpref env cfg q = mp
  have e2 : (env.plus c).le = env.le := rfl
  rw [e2]
  split
  · rw [backtrack_plus]
    cases backtrack env cfg mp n q <;> rfl
  · rw [armijoFails_plus]
    have e4 : ∀ r : Option (Obj K X E M), (r.map (Obj.plus c)).map (fun o => { gradX2 (env.plus c) o with newslope := (env.plus c).inf }) =
        (r.map fun o => { gradX2 env o with newslope := env.inf }).map (Obj.plus c) := by
      intro r; cases r <;> rfl
    by_cases hf : armijoFails env cfg mp q = true
    · simp only [if_pos hf]
      have e5 : (q.plus c).f2 - (q.plus c).f1 - (q.plus c).initialslope * (q.plus c).stepsize = q.f2 - q.f1 - q.initialslope * q.stepsize := by
        simp only [Obj.plus, add_sub_add_right_eq_sub]
      rw [e5]
      rw [← e4]
      congr 1
      exact interpLoop_plus mp n _ _ q.f2 (h env { q with stepsize := clampStep env cfg (-q.initialslope * q.stepsize * q.stepsize / env.lit 2 1 / (q.f2 - q.f1 - q.initialslope * q.stepsize)) q.stepsize })
    · simp only [if_neg hf]
      rw [← e4]
      congr 1
      cases n with
      | zero => rfl
      | succ n =>
        unfold interpLoop
        rw [armijoFails_plus]
        simp only [if_neg hf]
        rfl

/-! ## The other searches -/

variable {ls : LSCfg K}

theorem decLine_plus (o : Obj K X E M) : decLine cfg (o.plus c) = decLine cfg o + c := by
  simp only [decLine, Obj.plus]; exact add_right_comm _ _ _

theorem decOk_plus (hT : Translates env.lt env.le env.finite c) (o : Obj K X E M) : decOk (env.plus c) cfg (o.plus c) = decOk env cfg o := by
  unfold decOk; rw [decLine_plus]; exact hT.le _ _

theorem decBad_plus (hT : Translates env.lt env.le env.finite c) (o : Obj K X E M) : decBad (env.plus c) cfg (o.plus c) = decBad env cfg o := by
  unfold decBad; rw [decLine_plus]; exact hT.lt _ _

theorem zoomPick_plus (xlo xhi fxlo fxhi slo : K) : zoomPick (env.plus c) cfg xlo xhi (fxlo + c) (fxhi + c) slo = zoomPick env cfg xlo xhi fxlo fxhi slo := by
  have e : fxhi + c - (fxlo + c + slo * (xhi - xlo)) = fxhi - (fxlo + slo * (xhi - xlo)) := by
    rw [add_right_comm fxlo c]; exact add_sub_add_right_eq_sub _ _ _
  simp only [zoomPick, e]; rfl

theorem zoom_plus (hT : Translates env.lt env.le env.finite c) : ∀ (n : Nat) (xlo xhi fxlo fxhi slo : K) (o : Obj K X E M),
    zoom (env.plus c) cfg ls n xlo xhi (fxlo + c) (fxhi + c) slo (o.plus c) = (zoom env cfg ls n xlo xhi fxlo fxhi slo o).plus c
  | 0, xlo, xhi, fxlo, fxhi, slo, o => by
    unfold zoom; rw [zoomPick_plus]; rfl
  | n + 1, xlo, xhi, fxlo, fxhi, slo, o => by
    unfold zoom
    rw [zoomPick_plus]
    have e1 : ∀ t, h (env.plus c) { o.plus c with stepsize := t } = (h env { o with stepsize := t }).plus c := fun _ => rfl
    simp only [e1]
    generalize h env { o with stepsize := zoomPick env cfg xlo xhi fxlo fxhi slo } = q
    rw [decBad_plus hT]
    have e2 : (env.plus c).le (fxlo + c) (q.plus c).f2 = env.le fxlo q.f2 := hT.le _ _
    rw [e2]
    split
    · have e3 : ((env.plus c).le (q.plus c).stepsize cfg.minstep) = env.le q.stepsize cfg.minstep := rfl
      rw [e3]
      split
      · rfl
      · exact zoom_plus hT n xlo q.stepsize fxlo q.f2 slo q
    · rw [dh_plus]
      generalize dh env q = q
      have e4 : (env.plus c).le ((env.plus c).abs (q.plus c).newslope) (-ls.beta * (q.plus c).initialslope) = env.le (env.abs q.newslope) (-ls.beta * q.initialslope) := rfl
      have e3 : ((env.plus c).le (q.plus c).stepsize cfg.minstep) = env.le q.stepsize cfg.minstep := rfl
      have e5 : (env.plus c).le ((env.plus c).lit 0 1) ((q.plus c).newslope * (xhi - xlo)) = env.le (env.lit 0 1) (q.newslope * (xhi - xlo)) := rfl
      rw [e3, e4, e5]
      split
      · rfl
      · split
        · rfl
        · have e6 : (if env.le (env.lit 0 1) (q.newslope * (xhi - xlo)) = true then fxlo + c else fxhi + c) =
              (if env.le (env.lit 0 1) (q.newslope * (xhi - xlo)) = true then fxlo else fxhi) + c := by split <;> rfl
          rw [e6]
          exact zoom_plus hT n q.stepsize _ q.f2 _ q.newslope q

theorem swLoop_plus (hT : Translates env.lt env.le env.finite c) {ls' : LSCfg K} (hb : ls'.beta = ls.beta) (hm : ls'.maxstep = ls.maxstep) :
    ∀ (n : Nat) (pre fpre spre : K) (o : Obj K X E M), swLoop (env.plus c) cfg ls' n pre (fpre + c) spre (o.plus c) = (swLoop env cfg ls n pre fpre spre o).map (Obj.plus c)
  | 0, _, _, _, _ => rfl
  | n + 1, pre, fpre, spre, o => by
    have hz : ∀ (n : Nat) (xlo xhi fxlo fxhi slo : K) (o : Obj K X E M), zoom (env.plus c) cfg ls' n xlo xhi fxlo fxhi slo o = zoom (env.plus c) cfg ls n xlo xhi fxlo fxhi slo o := by
      intro n
      induction n with
      | zero => intros; rfl
      | succ n ih => intros; unfold zoom; simp only [ih, hb]
    unfold swLoop
    simp only [hz, hb, hm]; rw [h_plus]
    generalize h env o = q
    rw [decBad_plus hT]
    have e2 : (env.plus c).le (fpre + c) (q.plus c).f2 = env.le fpre q.f2 := hT.le _ _
    rw [e2]
    split
    · exact congrArg some (zoom_plus hT 9 pre q.stepsize fpre q.f2 spre q)
    · rw [dh_plus]
      generalize dh env q = q
      have e4 : (env.plus c).le ((env.plus c).abs (q.plus c).newslope) (-ls.beta * (q.plus c).initialslope) = env.le (env.abs q.newslope) (-ls.beta * q.initialslope) := rfl
      have e5 : (env.plus c).le ((env.plus c).lit 0 1) (q.plus c).newslope = env.le (env.lit 0 1) q.newslope := rfl
      have e6 : (env.plus c).eq (q.plus c).stepsize ls.maxstep = env.eq q.stepsize ls.maxstep := rfl
      rw [e4, e5, e6]
      split
      · rfl
      · split
        · exact congrArg some (zoom_plus hT 9 q.stepsize pre q.f2 fpre q.newslope q)
        · split
          · rfl
          · have e7 : (q.plus c).f2 - (q.plus c).f1 - (q.plus c).initialslope * (q.plus c).stepsize = q.f2 - q.f1 - q.initialslope * q.stepsize := by
              simp only [Obj.plus, add_sub_add_right_eq_sub]
            rw [e7]
            have e8 : ∀ t, (if (env.plus c).lt ((env.plus c).lit 11 10 * (q.plus c).stepsize) t = true then t else (env.plus c).lit 11 10 * (q.plus c).stepsize) =
              (if env.lt (env.lit 11 10 * q.stepsize) t = true then t else env.lit 11 10 * q.stepsize) := fun _ => rfl
            have e9 : ∀ t, (if (env.plus c).lt t ls.maxstep = true then t else ls.maxstep) = (if env.lt t ls.maxstep = true then t else ls.maxstep) := fun _ => rfl
            have e10 : -(q.plus c).initialslope * (q.plus c).stepsize * (q.plus c).stepsize / (env.plus c).lit 2 1 = -q.initialslope * q.stepsize * q.stepsize / env.lit 2 1 := rfl
            rw [e10, e8, e9]
            generalize (if env.lt (if env.lt (env.lit 11 10 * q.stepsize) (-q.initialslope * q.stepsize * q.stepsize / env.lit 2 1 / (q.f2 - q.f1 - q.initialslope * q.stepsize)) = true then
              -q.initialslope * q.stepsize * q.stepsize / env.lit 2 1 / (q.f2 - q.f1 - q.initialslope * q.stepsize) else env.lit 11 10 * q.stepsize) ls.maxstep = true then
              (if env.lt (env.lit 11 10 * q.stepsize) (-q.initialslope * q.stepsize * q.stepsize / env.lit 2 1 / (q.f2 - q.f1 - q.initialslope * q.stepsize)) = true then
              -q.initialslope * q.stepsize * q.stepsize / env.lit 2 1 / (q.f2 - q.f1 - q.initialslope * q.stepsize) else env.lit 11 10 * q.stepsize) else ls.maxstep) = t
            exact swLoop_plus hT hb hm n q.stepsize q.f2 q.newslope { q with stepsize := t }

theorem swSearch_plus (hT : Translates env.lt env.le env.finite c) (n : Nat) (o : Obj K X E M) :
    swSearch (env.plus c) cfg { ls with big := ls.big + c } n (o.plus c) = (swSearch env cfg ls n o).map (Obj.plus c) := by
  unfold swSearch
  exact swLoop_plus (ls := ls) (ls' := { ls with big := ls.big + c }) hT rfl rfl n (env.lit 0 1) ls.big o.initialslope { o with status := .success }

theorem wExpand_plus (hT : Translates env.lt env.le env.finite c) : ∀ (k : Nat) (pre fpre : K) (o : Obj K X E M),
    wExpand (env.plus c) cfg ls k pre (fpre + c) (o.plus c) =
      ((wExpand env cfg ls k pre fpre o).1, (wExpand env cfg ls k pre fpre o).2.1 + c, (wExpand env cfg ls k pre fpre o).2.2.plus c)
  | 0, _, _, _ => rfl
  | k + 1, pre, fpre, o => by
    unfold wExpand
    rw [decOk_plus hT]
    have e1 : steep (env.plus c) ls (o.plus c) = steep env ls o := rfl
    have e2 : (env.plus c).lt (o.plus c).stepsize ls.maxstep = env.lt o.stepsize ls.maxstep := rfl
    rw [e1, e2]
    split
    · have e3 : ∀ t, h (env.plus c) { o.plus c with stepsize := t } = (h env { o with stepsize := t }).plus c := fun _ => rfl
      have e4 : (if (env.plus c).lt ((env.plus c).lit 2 1 * (o.plus c).stepsize) ls.maxstep = true then (env.plus c).lit 2 1 * (o.plus c).stepsize else ls.maxstep) =
        (if env.lt (env.lit 2 1 * o.stepsize) ls.maxstep = true then env.lit 2 1 * o.stepsize else ls.maxstep) := rfl
      simp only [e4, e3]
      generalize h env { o with stepsize := if env.lt (env.lit 2 1 * o.stepsize) ls.maxstep = true then env.lit 2 1 * o.stepsize else ls.maxstep } = q
      rw [decOk_plus hT]
      have e5 : (if decOk env cfg q = true then dh (env.plus c) (q.plus c) else q.plus c) = (if decOk env cfg q = true then dh env q else q).plus c := by
        split <;> rfl
      rw [e5]
      exact wExpand_plus hT k o.stepsize o.f2 _
    · rfl

theorem wInterp_plus (hT : Translates env.lt env.le env.finite c) : ∀ (k : Nat) (lo diff flo fhi : K) (o : Obj K X E M),
    wInterp (env.plus c) cfg ls k lo diff (flo + c) (fhi + c) (o.plus c) = (wInterp env cfg ls k lo diff flo fhi o).plus c
  | 0, _, _, _, _, _ => rfl
  | k + 1, lo, diff, flo, fhi, o => by
    unfold wInterp
    rw [decBad_plus hT]
    have e1 : ∀ o : Obj K X E M, steep (env.plus c) ls (o.plus c) = steep env ls o := fun _ => rfl
    have e2 : (env.plus c).le cfg.minstep diff = env.le cfg.minstep diff := rfl
    rw [e1, e2]
    split
    · have e : fhi + c - (flo + c + (o.plus c).newslope * diff) = fhi - (flo + o.newslope * diff) := by
        rw [add_right_comm flo c]; exact add_sub_add_right_eq_sub _ _ _
      rw [e]
      have e3 : ∀ t, h (env.plus c) { o.plus c with stepsize := t } = (h env { o with stepsize := t }).plus c := fun _ => rfl
      have e4 : ∀ t, (if (env.plus c).lt t ((env.plus c).lit 2 10 * diff) = true then (env.plus c).lit 2 10 * diff else t) =
        (if env.lt t (env.lit 2 10 * diff) = true then env.lit 2 10 * diff else t) := fun _ => rfl
      have e5 : -(o.plus c).newslope * diff * diff / (env.plus c).lit 2 1 = -o.newslope * diff * diff / env.lit 2 1 := rfl
      simp only [e5, e4, e3]
      generalize (if env.lt (-o.newslope * diff * diff / env.lit 2 1 / (fhi - (flo + o.newslope * diff))) (env.lit 2 10 * diff) = true then env.lit 2 10 * diff
        else -o.newslope * diff * diff / env.lit 2 1 / (fhi - (flo + o.newslope * diff))) = t
      generalize h env { o with stepsize := lo + t } = q
      rw [decBad_plus hT]
      split
      · exact wInterp_plus hT k lo t flo q.f2 q
      · rw [dh_plus]
        generalize dh env q = q
        rw [e1]
        split
        · exact wInterp_plus hT k q.stepsize (diff - t) q.f2 fhi q
        · exact wInterp_plus hT k lo diff flo fhi q
    · rfl

theorem wBack_plus (pre fpre : K) (o : Obj K X E M) : wBack (env.plus c) pre (fpre + c) (o.plus c) = wBack env pre fpre o := by
  simp only [wBack, Obj.plus, Env.plus, add_sub_add_right_eq_sub]

theorem wAfter_plus (hT : Translates env.lt env.le env.finite c) (pre fpre : K) (o : Obj K X E M) :
    wAfter (env.plus c) cfg ls pre (fpre + c) (o.plus c) = (wAfter env cfg ls pre fpre o).plus c := by
  unfold wAfter
  rw [decBad_plus hT]
  have e1 : (env.plus c).le ls.maxstep (o.plus c).stepsize = env.le ls.maxstep o.stepsize := rfl
  have e2 : (env.plus c).eq (o.plus c).stepsize (o.plus c).initiallength = env.eq o.stepsize o.initiallength := rfl
  rw [e1, e2]
  split
  · rfl
  · split
    · have e3 : (env.plus c).lt (o.plus c).stepsize pre = env.lt o.stepsize pre := rfl
      simp only [e3]
      have e4 : ∀ u v : K, (if env.lt o.stepsize pre = true then u + c else v + c) = (if env.lt o.stepsize pre = true then u else v) + c := by
        intro u v; split <;> rfl
      have e5 : (o.plus c).f2 = o.f2 + c := rfl
      rw [e5, e4, e4]
      have e6 : ∀ lo diff flo fhi, wInterp (env.plus c) cfg ls 11 lo diff (flo + c) (fhi + c) (o.plus c) = (wInterp env cfg ls 11 lo diff flo fhi o).plus c :=
        fun _ _ _ _ => wInterp_plus hT _ _ _ _ _ _
      have e7 : (o.plus c).stepsize = o.stepsize := rfl
      have e8 : (env.plus c).abs = env.abs := rfl
      rw [e6, e7, e8]
      generalize wInterp env cfg ls 11 _ _ _ _ o = q
      have e9 : steep (env.plus c) ls (q.plus c) = steep env ls q := rfl
      rw [e9]
      split <;> rfl
    · rfl

theorem wLoop_plus (hT : Translates env.lt env.le env.finite c) (htot : ∀ a b, env.lt a b = false → env.le b a = true) : ∀ (n : Nat) (pre fpre fpre' : K) (o : Obj K X E M),
    (fpre' = fpre + c ∨ env.eq o.stepsize o.initiallength = true) →
    wLoop (env.plus c) cfg ls n pre fpre' (o.plus c) = (wLoop env cfg ls n pre fpre o).map (Obj.plus c)
  | 0, _, _, _, _, _ => rfl
  | n + 1, pre, fpre, fpre', o, hf => by
    unfold wLoop
    dsimp only; rw [h_plus]
    have hs : (h env o).stepsize = o.stepsize ∧ (h env o).initiallength = o.initiallength := ⟨rfl, rfl⟩
    rw [← hs.1, ← hs.2] at hf
    clear hs
    generalize h env o = q at hf
    rw [decOk_plus hT]
    split
    · rename_i hok
      rw [dh_plus]
      have hok' : decOk env cfg (dh env q) = true := hok
      generalize dh env q = q at hok'
      have e1 : steep (env.plus c) ls (q.plus c) = steep env ls q := rfl
      rw [e1]
      split
      · rename_i hst
        simp only [Option.map_some]
        congr 1
        by_cases hlt : env.lt q.stepsize ls.maxstep = true
        · have e : ∀ fpre fpre' : K, wExpand (env.plus c) cfg ls 11 pre fpre (q.plus c) = wExpand (env.plus c) cfg ls 11 pre fpre' (q.plus c) := by
            intro u v
            unfold wExpand
            have : (decOk (env.plus c) cfg (q.plus c) && steep (env.plus c) ls (q.plus c) && (env.plus c).lt (q.plus c).stepsize ls.maxstep) = true := by
              rw [decOk_plus hT, hok', e1, hst]; exact hlt
            simp only [if_pos this]
          rw [e fpre' (fpre + c), wExpand_plus hT]
          exact wAfter_plus hT _ _ _
        · have hlt' : env.lt q.stepsize ls.maxstep = false := by simpa using hlt
          have e : ∀ fpre : K, wExpand (env.plus c) cfg ls 11 pre fpre (q.plus c) = (pre, fpre, q.plus c) := by
            intro u
            unfold wExpand
            have : ¬ ((decOk (env.plus c) cfg (q.plus c) && steep (env.plus c) ls (q.plus c) && (env.plus c).lt (q.plus c).stepsize ls.maxstep) = true) := by
              have : (env.plus c).lt (q.plus c).stepsize ls.maxstep = false := hlt'
              rw [this]; simp
            rw [if_neg this]
          have e' : wExpand env cfg ls 11 pre fpre q = (pre, fpre, q) := by
            unfold wExpand
            have : ¬ ((decOk env cfg q && steep env ls q && env.lt q.stepsize ls.maxstep) = true) := by rw [hlt']; simp
            rw [if_neg this]
          rw [e, e']
          have hle := htot _ _ hlt'
          unfold wAfter
          have : (env.plus c).le ls.maxstep (q.plus c).stepsize = true := hle
          rw [if_pos this, if_pos hle]
          rfl
      · rfl
    · have e3 : ((env.plus c).le (q.plus c).stepsize cfg.minstep) = env.le q.stepsize cfg.minstep := rfl
      rw [e3]
      split
      · rfl
      · have e4 : wBack (env.plus c) pre fpre' (q.plus c) = wBack env pre fpre q := by
          rcases hf with e | e
          · rw [e]; exact wBack_plus _ _ _
          · have e5 : ∀ v : K, wBack (env.plus c) pre v (q.plus c) = wBack (env.plus c) pre (fpre + c) (q.plus c) := by
              intro v
              have : (env.plus c).eq (q.plus c).stepsize (q.plus c).initiallength = true := e
              unfold wBack
              simp only [if_pos this]
            rw [e5]; exact wBack_plus _ _ _
        rw [e4]
        exact wLoop_plus hT htot n q.stepsize q.f2 _ { q with stepsize := wBack env pre fpre q } (Or.inl rfl)

theorem wSearch_plus (hT : Translates env.lt env.le env.finite c) (htot : ∀ a b, env.lt a b = false → env.le b a = true) (n : Nat) (o : Obj K X E M)
    (ho : env.eq o.stepsize o.initiallength = true) : wSearch (env.plus c) cfg ls n (o.plus c) = (wSearch env cfg ls n o).map (Obj.plus c) :=
  wLoop_plus hT htot n _ (env.lit 0 1) _ { o with status := .success } (Or.inr ho)

theorem exInner_plus (hT : Translates env.lt env.le env.finite c) (a1 dir sf1 sgf1 : K) : ∀ (n : Nat) (t : K) (o : Obj K X E M),
    exInner (env.plus c) cfg a1 dir (sf1 + c) sgf1 n t (o.plus c) = (exInner env cfg a1 dir sf1 sgf1 n t o).map fun r => (r.1, r.2.plus c)
  | 0, _, _ => rfl
  | n + 1, t, o => by
    unfold exInner
    have e1 : (env.plus c).lt (sf1 + c + cfg.alpha * t * sgf1 * dir) (o.plus c).f2 = env.lt (sf1 + cfg.alpha * t * sgf1 * dir) o.f2 := by
      rw [add_right_comm sf1 c]; exact hT.lt _ _
    rw [e1]
    split
    · have e3 : ∀ t, h (env.plus c) { o.plus c with stepsize := t } = (h env { o with stepsize := t }).plus c := fun _ => rfl
      have e4 : (env.plus c).lt (t * cfg.ratio1 * cfg.ratio1) (exMin (env.plus c)) = env.lt (t * cfg.ratio1 * cfg.ratio1) (exMin env) := rfl
      simp only [e3, e4]
      generalize h env { o with stepsize := a1 + t * cfg.ratio1 * dir } = q
      split
      · rw [dh_plus]
        generalize dh env q = q
        have e5 : (env.plus c).lt ((q.plus c).f1 + cfg.alpha * (q.plus c).stepsize * (q.plus c).ngf1) (q.plus c).f2 = env.lt (q.f1 + cfg.alpha * q.stepsize * q.ngf1) q.f2 := by
          have : (q.plus c).f1 + cfg.alpha * (q.plus c).stepsize * (q.plus c).ngf1 = q.f1 + cfg.alpha * q.stepsize * q.ngf1 + c := add_right_comm _ _ _
          rw [this]; exact hT.lt _ _
        have e6 : (env.plus c).lt ((env.plus c).lit 1 10) ((env.plus c).abs ((q.plus c).newslope / (q.plus c).initialslope)) = env.lt (env.lit 1 10) (env.abs (q.newslope / q.initialslope)) := rfl
        rw [e5, e6]
        split <;> rfl
      · exact exInner_plus hT a1 dir sf1 sgf1 n _ q
    · rfl

theorem exLoop_plus (hT : Translates env.lt env.le env.finite c) (n : Nat) : ∀ (k : Nat) (a1 B sgf1 sf1 : K) (o : Obj K X E M),
    exLoop (env.plus c) cfg n k a1 B sgf1 (sf1 + c) (o.plus c) = (exLoop env cfg n k a1 B sgf1 sf1 o).map (Obj.plus c)
  | 0, _, _, _, _, _ => rfl
  | k + 1, a1, B, sgf1, sf1, o => by
    unfold exLoop
    have e0 : (env.plus c).lit = env.lit := rfl
    have e3 : ∀ t, h (env.plus c) { o.plus c with stepsize := t } = (h env { o with stepsize := t }).plus c := fun _ => rfl
    simp only [e3, exInner_plus hT, e0]
    cases exInner env cfg a1 (-sgf1 / B) sf1 sgf1 n (env.lit 1 1) (h env { o with stepsize := a1 + env.lit 1 1 * (-sgf1 / B) }) with
    | none => rfl
    | some r =>
      obtain ⟨t, q⟩ := r
      simp only [Option.map_some]
      have e4 : ((q.plus c).status = Status.nonExact) = (q.status = Status.nonExact) := rfl
      simp only [e4]
      split
      · rfl
      · rw [dh_plus]
        generalize dh env q = q
        have e5 : ((env.plus c).lt ((env.plus c).abs (t * (-sgf1 / B))) (exMin (env.plus c)) || (env.plus c).lt ((env.plus c).abs ((q.plus c).newslope / (q.plus c).initialslope)) (env.lit 1 1000000)) =
          (env.lt (env.abs (t * (-sgf1 / B))) (exMin env) || env.lt (env.abs (q.newslope / q.initialslope)) (env.lit 1 1000000)) := rfl
        rw [e5]
        split
        · rfl
        · exact exLoop_plus hT n k _ _ q.newslope q.f2 q

theorem exSearch_plus (hT : Translates env.lt env.le env.finite c) (n : Nat) (o : Obj K X E M) :
    exSearch (env.plus c) cfg ls n (o.plus c) = (exSearch env cfg ls n o).map (Obj.plus c) := by
  unfold exSearch
  have e := exLoop_plus (cfg := cfg) hT n 20 (env.lit 0 1) (env.abs (o.initialslope / o.initiallength)) o.initialslope o.f1 { o with status := .success }
  have e' : exLoop (env.plus c) cfg n 20 ((env.plus c).lit 0 1) ((env.plus c).abs ((o.plus c).initialslope / (o.plus c).initiallength)) (o.plus c).initialslope (o.plus c).f1
      { o.plus c with status := .success } = (exLoop env cfg n 20 (env.lit 0 1) (env.abs (o.initialslope / o.initiallength)) o.initialslope o.f1 { o with status := .success }).map (Obj.plus c) := e
  rw [e']
  cases exLoop env cfg n 20 (env.lit 0 1) (env.abs (o.initialslope / o.initiallength)) o.initialslope o.f1 { o with status := .success } with
  | none => rfl
  | some q =>
    simp only [Option.map_some]
    have e1 : (env.plus c).le (q.plus c).stepsize cfg.minstep = env.le q.stepsize cfg.minstep := rfl
    rw [e1]
    by_cases hq : env.le q.stepsize cfg.minstep = true
    · simp only [if_pos hq]
      have e2 : (env.plus c).le ls.maxstep (q.plus c).stepsize = env.le ls.maxstep q.stepsize := rfl
      simp only [e2]
      split <;> rfl
    · simp only [if_neg hq]
      have e2 : (env.plus c).le ls.maxstep (q.plus c).stepsize = env.le ls.maxstep q.stepsize := rfl
      simp only [e2]
      split <;> rfl

theorem inSearch_plus (hT : Translates env.lt env.le env.finite c) (p : Bool) (user : Nat → X → E → K → K → K) (n : Nat) (o : Obj K X E M) :
    inSearch (env.plus c) cfg p user n (o.plus c) = (inSearch env cfg p user n o).map (Obj.plus c) := by
  unfold inSearch
  have e1 : (if (env.plus c).lt (user (o.plus c).iter (o.plus c).x1 (o.plus c).eta1 (o.plus c).stepsize (o.plus c).initialslope) (env.plus c).eps = true then (o.plus c).initiallength
      else user (o.plus c).iter (o.plus c).x1 (o.plus c).eta1 (o.plus c).stepsize (o.plus c).initialslope) =
    (if env.lt (user o.iter o.x1 o.eta1 o.stepsize o.initialslope) env.eps = true then o.initiallength else user o.iter o.x1 o.eta1 o.stepsize o.initialslope) := rfl
  simp only [e1]
  split
  · rfl
  · exact armijo_plus hT n { o with stepsize := _, initiallength := _ }

/-! ## Runs -/

/-- A search for each of the two problems such that the second finds what the first finds, with `c` added to the function values. It may use that the step is the
initial length when it starts. -/
def SearchPlus (env : Env K X E) (c : K) (s s' : Obj K X E M → Option (Obj K X E M)) : Prop :=
  ∀ o, env.eq o.stepsize o.initiallength = true → s' (o.plus c) = (s o).map (Obj.plus c)

theorem decrease_plus (o : Obj K X E M) : decrease (env.plus c) (o.plus c) = decrease env o := by
  unfold decrease
  cases h : o.preFuns with
  | nil => simp only [Obj.plus, h, List.map_nil]; rfl
  | cons a l => simp only [Obj.plus, h, List.map_cons, add_sub_add_right_eq_sub]

theorem initialStepSize_plus (o : Obj K X E M) : initialStepSize (env.plus c) cfg (o.plus c) = (initialStepSize env cfg o).plus c := by
  have e1 : quadStep (env.plus c) (o.plus c) = quadStep env o := by
    unfold quadStep; rw [decrease_plus]; rfl
  have e2 : candidate (env.plus c) cfg (o.plus c) = candidate env cfg o := by
    unfold candidate
    rw [decrease_plus, e1]
    rfl
  unfold initialStepSize
  rw [e1, e2]
  have e3 : (o.plus c).iter = o.iter := rfl
  rw [e3]
  split <;> rfl

theorem prepare_plus {hk : Hooks K X E M} (hB : hk.Blind c) (o : Obj K X E M) : prepare (env.plus c) cfg hk (o.plus c) = (prepare env cfg hk o).plus c := by
  unfold prepare
  rw [(hB o).1]
  simp only
  have e := initialStepSize_plus (env := env) (cfg := cfg) (c := c)
    { o with eta1 := (hk.getSearchDir o).1, own := (hk.getSearchDir o).2, initialslope := env.metric o.x1 o.gf1 (hk.getSearchDir o).1 }
  exact congrArg (fun o : Obj K X E M => { o with initiallength := o.stepsize }) e

theorem afterSearch_plus {hk : Hooks K X E M} (hB : hk.Blind c) (o : Obj K X E M) : afterSearch (env.plus c) hk (o.plus c) = (afterSearch env hk o).plus c := by
  unfold afterSearch
  have e := (hB { o with iter := o.iter + 1 }).2
  have e' : hk.updateData { o.plus c with iter := (o.plus c).iter + 1 } = hk.updateData { o with iter := o.iter + 1 } := e
  simp only [e']
  rfl

theorem isStopped_plus (hS : cfg.stop.Blind c) (o : Obj K X E M) : isStopped (env.plus c) cfg (o.plus c) = isStopped env cfg o := by
  unfold isStopped
  unfold StopKind.Blind at hS
  split at hS
  · exact hS.elim
  · rename_i h; rw [h]; rfl
  · rename_i h; rw [h]; rfl
  · rename_i p h; rw [h]; exact hS _ _ _ _ _

theorem advance_plus (b : Bool) (o : Obj K X E M) : advance (env.plus c) cfg b (o.plus c) = ((advance env cfg b o).1, (advance env cfg b o).2.plus c) := by
  have e2 : (b || (env.plus c).le ((o.plus c).ngf2 / ((o.plus c).ngf0 + cfg.tol)) cfg.preFunsAcc) = (b || env.le (o.ngf2 / (o.ngf0 + cfg.tol)) cfg.preFunsAcc) := rfl
  unfold advance
  simp only [Prod.mk.injEq]
  refine ⟨rfl, ?_⟩
  simp only [Obj.plus, List.length_cons, List.length_map, List.map_append, List.map_cons, List.map_nil]
  have e3 : (o.f1 + c) :: o.preFuns.map (· + c) = (o.f1 :: o.preFuns).map (· + c) := rfl
  have e4 : (env.plus c).le = env.le := rfl
  rw [e3, e4]
  congr 1
  split
  · rw [List.map_dropLast]
  · rfl

theorem searchWith_plus {s s' : Obj K X E M → Option (Obj K X E M)} (hs : SearchPlus env c s s') (o : Obj K X E M) (ho : env.eq o.stepsize o.initiallength = true) :
    searchWith (env.plus c) cfg s' (o.plus c) = (searchWith env cfg s o).map (Obj.plus c) := by
  unfold searchWith
  have e1 : (env.plus c).lt ((o.plus c).ngf1 / ((o.plus c).ngf0 + cfg.tol)) cfg.accuracy = env.lt (o.ngf1 / (o.ngf0 + cfg.tol)) cfg.accuracy := rfl
  rw [e1]
  split
  · rfl
  · exact hs o ho

theorem loopWith_plus (hT : Translates env.lt env.le env.finite c) (heq : ∀ a, env.eq a a = true) (hS : cfg.stop.Blind c) {hk : Hooks K X E M} (hB : hk.Blind c)
    {s s' : Obj K X E M → Option (Obj K X E M)} (hs : SearchPlus env c s s') : ∀ (n : Nat) (a b : Bool) (o : Obj K X E M),
    loopWith (env.plus c) cfg hk s' n a b (o.plus c) = (loopWith env cfg hk s n a b o).map (Obj.plus c)
  | 0, _, _, _ => rfl
  | n + 1, a, b, o => by
    unfold loopWith
    rw [prepare_plus hB, searchWith_plus hs _ (heq _)]
    by_cases hc : (((!b && decide (o.iter < cfg.maxIter)) || decide (o.iter < cfg.minIter)) && decide (o.status = .success)) = true
    · have hc' : (((!b && decide ((o.plus c).iter < cfg.maxIter)) || decide ((o.plus c).iter < cfg.minIter)) && decide ((o.plus c).status = .success)) = true := hc
      rw [if_pos hc, if_pos hc']
      cases searchWith env cfg s (prepare env cfg hk o) with
      | none => rfl
      | some q =>
        simp only [Option.map_some]
        have e2 : (env.plus c).finite (q.plus c).f2 = env.finite q.f2 := hT.fin _
        rw [e2]
        split
        · rw [afterSearch_plus hB, isStopped_plus hS, advance_plus]
          exact loopWith_plus hT heq hS hB hs n _ _ _
        · rfl
    · have hc' : ¬ (((!b && decide ((o.plus c).iter < cfg.maxIter)) || decide ((o.plus c).iter < cfg.minIter)) && decide ((o.plus c).status = .success)) = true := hc
      rw [if_neg hc, if_neg hc']
      rfl

theorem runWith_plus (hT : Translates env.lt env.le env.finite c) (heq : ∀ a, env.eq a a = true) (hS : cfg.stop.Blind c) {hk : Hooks K X E M} (hB : hk.Blind c)
    {s s' : Obj K X E M → Option (Obj K X E M)} (hs : SearchPlus env c s s') (n : Nat) (o : Obj K X E M) :
    runWith (env.plus c) cfg hk s' n o = (runWith env cfg hk s n o).map (Obj.plus c) := by
  unfold runWith
  have e1 : prologue (env.plus c) o = (prologue env o).plus c := rfl
  simp only [e1]
  rw [isStopped_plus hS, loopWith_plus hT heq hS hB hs]
  cases loopWith env cfg hk s n false (isStopped env cfg (prologue env o)) (prologue env o) <;> rfl

/-! ## Trust-region solvers -/

/-- The same problem with `c` added to the cost. -/
def TREnv.plus (env : TREnv K X E) (c : K) : TREnv K X E := { env with f := fun x => env.f x + c }

/-- The same members with `c` added to every function value. -/
def TRObj.plus (c : K) (o : TRObj K X E M) : TRObj K X E M := { o with f1 := o.f1 + c, f2 := o.f2 + c, series := o.series.map fun s => (s.1 + c, s.2) }

/-- The hooks of the solver do not look at function values. -/
def TRHooks.Blind (c : K) (hk : TRHooks K X E M) : Prop :=
  ∀ o, hk.hess (o.plus c) = hk.hess o ∧ hk.updateData (o.plus c) = hk.updateData o ∧ hk.acceptence (o.plus c) = hk.acceptence o

/-- The test for decreases at the level of rounding errors (`|f1 - f2| / (|f1| + 1) < sqrt(eps)`) gives the same answer for both problems. -/
def SameRounding (env : TREnv K X E) (c : K) : Prop :=
  ∀ x y, env.lt (env.f y) (env.f x) = true →
    env.lt (env.abs (env.f x - env.f y) / (env.abs (env.f x + c) + env.lit 1 1)) (env.sqrt env.eps) =
      env.lt (env.abs (env.f x - env.f y) / (env.abs (env.f x) + env.lit 1 1)) (env.sqrt env.eps)

section
variable {env : TREnv K X E} {cfg : TRCfg K X} {hk : TRHooks K X E M}

theorem tcgLoop_plus (H : E → E) (x1 : X) (gf1 : E) (D r0 : K) : ∀ (n j : Nat) (t : TCG K E), tcgLoop (env.plus c) cfg H x1 gf1 D r0 n j t = tcgLoop env cfg H x1 gf1 D r0 n j t
  | 0, _, _ => rfl
  | n + 1, j, t => by
    unfold tcgLoop
    simp only [tcgLoop_plus H x1 gf1 D r0 n]
    rfl

theorem tcg_plus (H : E → E) (x1 : X) (gf1 eta1 : E) (D : K) : tcg (env.plus c) cfg H x1 gf1 eta1 D = tcg env cfg H x1 gf1 eta1 D := by
  unfold tcg
  simp only [tcgLoop_plus]
  rfl

theorem trTrial_plus (hB : hk.Blind c) (o : TRObj K X E M) : trTrial (env.plus c) cfg hk (o.plus c) = (trTrial env cfg hk o).plus c := by
  unfold trTrial
  have e := (hB { o with eta1 := env.smul (env.lit 0 1) o.gf1 }).1
  have e' : hk.hess { o.plus c with eta1 := (env.plus c).smul ((env.plus c).lit 0 1) (o.plus c).gf1 } = hk.hess { o with eta1 := env.smul (env.lit 0 1) o.gf1 } := e
  simp only [e', tcg_plus]
  rfl

theorem trRatio_plus (hB : hk.Blind c) (o : TRObj K X E M) : trRatio (env.plus c) hk (o.plus c) = (trRatio env hk o).plus c := by
  unfold trRatio
  have e1 : hk.hess (o.plus c) = hk.hess o := (hB o).1
  simp only [e1]
  have e2 : (o.plus c).f1 - (o.plus c).f2 = o.f1 - o.f2 := add_sub_add_right_eq_sub _ _ _
  simp only [e2]
  have e3 := (hB { o with Heta2 := hk.hess o o.eta2, cnt := { o.cnt with nH := o.cnt.nH + 1 }, eta1 := env.axpy (env.lit 1 2) (hk.hess o o.eta2) o.gf1, rho := (o.f1 - o.f2) / (-env.metric o.x1 o.eta2 (env.axpy (env.lit 1 2) (hk.hess o o.eta2) o.gf1)) }).2.1
  have e4 : hk.updateData { o.plus c with Heta2 := hk.hess o (o.plus c).eta2, cnt := { (o.plus c).cnt with nH := (o.plus c).cnt.nH + 1 }, eta1 := (env.plus c).axpy ((env.plus c).lit 1 2) (hk.hess o (o.plus c).eta2) (o.plus c).gf1, rho := (o.f1 - o.f2) / (-(env.plus c).metric (o.plus c).x1 (o.plus c).eta2 ((env.plus c).axpy ((env.plus c).lit 1 2) (hk.hess o (o.plus c).eta2) (o.plus c).gf1)) } = hk.updateData { o with Heta2 := hk.hess o o.eta2, cnt := { o.cnt with nH := o.cnt.nH + 1 }, eta1 := env.axpy (env.lit 1 2) (hk.hess o o.eta2) o.gf1, rho := (o.f1 - o.f2) / (-env.metric o.x1 o.eta2 (env.axpy (env.lit 1 2) (hk.hess o o.eta2) o.gf1)) } := e3
  rw [e4]
  rfl

theorem trAccepts_plus (hT : Translates env.lt env.le env.finite c) (hR : SameRounding env c) (o : TRObj K X E M) {x y : X} (h1 : o.f1 = env.f x) (h2 : o.f2 = env.f y) :
    trAccepts (env.plus c) cfg (o.plus c) = trAccepts env cfg o := by
  unfold trAccepts
  have e1 : (o.plus c).f1 - (o.plus c).f2 = o.f1 - o.f2 := add_sub_add_right_eq_sub _ _ _
  have e2 : (env.plus c).lt (o.plus c).f2 (o.plus c).f1 = env.lt o.f2 o.f1 := hT.lt _ _
  have e3 : ((env.plus c).lt ((env.plus c).abs (o.f1 - o.f2) / ((env.plus c).abs (o.plus c).f1 + (env.plus c).lit 1 1)) ((env.plus c).sqrt (env.plus c).eps) && env.lt o.f2 o.f1) =
      (env.lt (env.abs (o.f1 - o.f2) / (env.abs o.f1 + env.lit 1 1)) (env.sqrt env.eps) && env.lt o.f2 o.f1) := by
    cases hlt : env.lt o.f2 o.f1 with
    | false => simp
    | true =>
      simp only [Bool.and_true]
      rw [h1, h2] at hlt
      have := hR x y hlt
      rw [← h1, ← h2] at this
      exact this
  rw [e1, e2, e3]
  rfl

theorem trAccept_plus (hB : hk.Blind c) (o : TRObj K X E M) : trAccept (env.plus c) hk (o.plus c) = (trAccept env hk o).plus c := by
  unfold trAccept
  rw [(hB o).2.2]
  rfl

theorem trStopped_plus (hS : cfg.stop.Blind c) (o : TRObj K X E M) : trStopped (env.plus c) cfg (o.plus c) = trStopped env cfg o := by
  unfold trStopped
  unfold StopKind.Blind at hS
  split at hS
  · exact hS.elim
  · rename_i h; rw [h]; rfl
  · rename_i h; rw [h]; rfl
  · rename_i p h; rw [h]
    simp only
    have e : (o.plus c).series.map (fun s => (s.1, s.2, s.2)) = (o.series.map fun s => (s.1, s.2, s.2)).map fun s => (s.1 + c, s.2) := by
      simp [TRObj.plus, List.map_map, Function.comp_def]
    rw [e]
    exact hS _ _ _ _ _

theorem trLoop_plus (hT : Translates env.lt env.le env.finite c) (hR : SameRounding env c) (hS : cfg.stop.Blind c) (hB : hk.Blind c) : ∀ (n : Nat) (st : Bool) (o : TRObj K X E M),
    (∃ x, o.f1 = env.f x) → trLoop (env.plus c) cfg hk n st (o.plus c) = (trLoop env cfg hk n st o).map (TRObj.plus c)
  | 0, _, _, _ => rfl
  | n + 1, st, o, hx => by
    unfold trLoop
    have e0 : ((!st && decide ((o.plus c).iter < cfg.maxIter)) || decide ((o.plus c).iter < cfg.minIter)) = ((!st && decide (o.iter < cfg.maxIter)) || decide (o.iter < cfg.minIter)) := rfl
    rw [e0]
    split
    · rw [trTrial_plus hB]
      have h2 : (trTrial env cfg hk o).f2 = env.f (trTrial env cfg hk o).x2 := rfl
      have h1 : ∃ x, (trTrial env cfg hk o).f1 = env.f x := hx
      generalize trTrial env cfg hk o = q at h1 h2
      have e1 : (env.plus c).finite (q.plus c).f2 = env.finite q.f2 := hT.fin _
      simp only [e1]
      by_cases hf : env.finite q.f2 = true
      · simp only [if_pos hf]
        rw [trRatio_plus hB]
        have h2' : ∃ y, (trRatio env hk q).f2 = env.f y := ⟨_, h2⟩
        have h1' : ∃ x, (trRatio env hk q).f1 = env.f x := h1
        generalize trRatio env hk q = q at h1' h2'
        have e2 : trRadius (env.plus c) cfg (q.plus c) = trRadius env cfg q := rfl
        rw [e2]
        have e3 : ({ q.plus c with Delta := (trRadius env cfg q).1 } : TRObj K X E M) = TRObj.plus c { q with Delta := (trRadius env cfg q).1 } := rfl
        simp only [e3]
        by_cases hd : (trRadius env cfg q).2 = true
        · simp only [if_pos hd]; rfl
        · simp only [if_neg hd]
          obtain ⟨x, hx⟩ := h1'
          obtain ⟨y, hy⟩ := h2'
          rw [trAccepts_plus hT hR { q with Delta := (trRadius env cfg q).1 } hx hy]
          by_cases ha : trAccepts env cfg { q with Delta := (trRadius env cfg q).1 } = true
          · simp only [if_pos ha]
            rw [trAccept_plus hB, trStopped_plus hS]
            have h3 : ∃ z, (trRecord (trSwap (trAccept env hk { q with Delta := (trRadius env cfg q).1 }))).f1 = env.f z := ⟨y, hy⟩
            have := trLoop_plus hT hR hS hB n (trStopped env cfg (trAccept env hk { q with Delta := (trRadius env cfg q).1 })) _ h3
            rw [← this]
            congr 1
            simp [trRecord, trSwap, TRObj.plus]
          · simp only [if_neg ha]
            have := trLoop_plus hT hR hS hB n st (trRecord { q with Delta := (trRadius env cfg q).1, iter := q.iter + 1 }) ⟨x, hx⟩
            rw [← this]
            congr 1
            simp [trRecord, TRObj.plus]
      · simp only [if_neg hf]; rfl
    · rfl

theorem trRun_plus (hT : Translates env.lt env.le env.finite c) (hR : SameRounding env c) (hS : cfg.stop.Blind c) (hB : hk.Blind c) (n : Nat) (o : TRObj K X E M) :
    trRun (env.plus c) cfg hk n o = (trRun env cfg hk n o).map (TRObj.plus c) := by
  unfold trRun
  have e1 : trPrologue (env.plus c) cfg o = (trPrologue env cfg o).plus c := rfl
  simp only [e1]
  rw [trStopped_plus hS, trLoop_plus hT hR hS hB _ _ _ ⟨o.x1, rfl⟩]
  cases trLoop env cfg hk n (trStopped env cfg (trPrologue env cfg o)) (trPrologue env cfg o) <;> rfl

end

/-! ## Proximal-gradient solvers -/

/-- The same problem with `c` added to the cost. -/
def PGEnv.plus (env : PGEnv K X E) (c : K) : PGEnv K X E := { env with f := fun x => env.f x + c }

/-- The same members with `c` added to every function value. -/
def PGObj.plus (c : K) (o : PGObj K X E) : PGObj K X E := { o with f1 := o.f1 + c, f2 := o.f2 + c, series := o.series.map fun s => (s.1 + c, s.2) }

def PGOut.plus (c : K) : PGOut K X E → PGOut K X E
  | .ub => .ub
  | .more => .more
  | .done o => .done (o.plus c)

/-- The same problem with `c` added to the cost. -/
def APGEnv.plus (env : APGEnv K X E) (c : K) : APGEnv K X E := { env with f := fun x => env.f x + c }

/-- The same members with `c` added to every function value. -/
def APGObj.plus (c : K) (o : APGObj K X E) : APGObj K X E := { o with pg := o.pg.plus c, fz2 := o.fz2 + c }

def APGOut.plus (c : K) : APGOut K X E → APGOut K X E
  | .ub => .ub
  | .more => .more
  | .done o => .done (o.plus c)

def PGSearch.plus (c : K) (s : PGSearch K X E) : PGSearch K X E := { s with f2 := s.f2 + c }

section
variable {env : PGEnv K X E} {cfg : PGCfg K X}

theorem pgBacktrack_plus (x1 : X) (f1 slope : K) (eta1 : E) : ∀ (n : Nat) (s : PGSearch K X E),
    pgBacktrack (env.plus c) cfg x1 (f1 + c) slope eta1 n (s.plus c) = (pgBacktrack env cfg x1 f1 slope eta1 n s).map (PGSearch.plus c)
  | 0, _ => rfl
  | n + 1, s => by
    unfold pgBacktrack
    have e1 : (f1 + c) - (s.plus c).f2 = f1 - s.f2 := add_sub_add_right_eq_sub _ _ _
    rw [e1]
    have e2 : (env.plus c).lt (f1 - s.f2) (-cfg.alpha * slope * (s.plus c).step) = env.lt (f1 - s.f2) (-cfg.alpha * slope * s.step) := rfl
    rw [e2]
    split
    · have e3 : (env.plus c).lt ((s.plus c).step * cfg.ratio) cfg.minstep = env.lt (s.step * cfg.ratio) cfg.minstep := rfl
      simp only [e3]
      by_cases hs : env.lt (s.step * cfg.ratio) cfg.minstep = true
      · simp only [if_pos hs]; rfl
      · simp only [if_neg hs]
        exact pgBacktrack_plus x1 f1 slope eta1 n (pgTrial env x1 eta1 (s.step * cfg.ratio) s.trials)
    · rfl

theorem pgStopped_plus (hS : cfg.stop.Blind c) (o : PGObj K X E) : pgStopped (env.plus c) cfg (o.plus c) = pgStopped env cfg o := by
  unfold pgStopped
  unfold StopKind.Blind at hS
  split at hS
  · exact hS.elim
  · rename_i h; rw [h]; rfl
  · rename_i h; rw [h]; rfl
  · rename_i p h; rw [h]; exact hS _ _ _ _ _

def PGPass.plus (c : K) : PGPass K X E → PGPass K X E
  | .ub => .ub
  | .more => .more
  | .leave o => .leave (o.plus c)
  | .next st o => .next st (o.plus c)

theorem pgPass_plus (hT : Translates env.lt env.le env.finite c) (hS : cfg.stop.Blind c) (n : Nat) (st : Bool) (o : PGObj K X E) :
    pgPass (env.plus c) cfg n st (o.plus c) = (pgPass env cfg n st o).plus c := by
  unfold pgPass
  have e1 : (env.plus c).prox (o.plus c).x1 (o.plus c).gf1 (o.plus c).kept.ada (o.plus c).kept.smTol (o.plus c).kept.smLam (pgDual (env.plus c) (o.plus c).kept) =
    env.prox o.x1 o.gf1 o.kept.ada o.kept.smTol o.kept.smLam (pgDual env o.kept) := rfl
  rw [e1]
  cases env.prox o.x1 o.gf1 o.kept.ada o.kept.smTol o.kept.smLam (pgDual env o.kept) with
  | none => rfl
  | some r =>
    obtain ⟨eta1, d, i, k⟩ := r
    simp only
    have e2 := pgBacktrack_plus (env := env) (cfg := cfg) (c := c) o.x1 o.f1 (env.metric o.x1 o.gf1 eta1) eta1 n (pgTrial env o.x1 eta1 (env.lit 1 1) 0)
    have e3 : pgBacktrack (env.plus c) cfg (o.plus c).x1 (o.plus c).f1 ((env.plus c).metric (o.plus c).x1 (o.plus c).gf1 eta1) eta1 n (pgTrial (env.plus c) (o.plus c).x1 eta1 ((env.plus c).lit 1 1) 0) =
      (pgBacktrack env cfg o.x1 o.f1 (env.metric o.x1 o.gf1 eta1) eta1 n (pgTrial env o.x1 eta1 (env.lit 1 1) 0)).map (PGSearch.plus c) := e2
    rw [e3]
    cases pgBacktrack env cfg o.x1 o.f1 (env.metric o.x1 o.gf1 eta1) eta1 n (pgTrial env o.x1 eta1 (env.lit 1 1) 0) with
    | none => rfl
    | some s =>
      simp only [Option.map_some]
      have e4 : (s.plus c).ok = s.ok := rfl
      simp only [e4]
      by_cases hok : (!s.ok) = true
      · simp only [if_pos hok]
        split <;> rename_i hl
        · have hl' : (env.eq o.kept.smLam (env.lit 1 (10 ^ 10)) && env.eq o.kept.smTol (env.lit 1 (10 ^ 24))) = true := hl
          simp only [if_pos hl']; rfl
        · have hl' : ¬ (env.eq o.kept.smLam (env.lit 1 (10 ^ 10)) && env.eq o.kept.smTol (env.lit 1 (10 ^ 24))) = true := hl
          simp only [if_neg hl']; rfl
      · simp only [if_neg hok]
        have e5 : (env.plus c).finite (s.plus c).f2 = env.finite s.f2 := hT.fin _
        simp only [e5]
        by_cases hfin : (!env.finite s.f2) = true
        · simp only [if_pos hfin]; rfl
        · simp only [if_neg hfin]
          simp only [PGPass.plus, PGPass.next.injEq]
          refine ⟨?_, ?_⟩
          · exact pgStopped_plus (env := env) hS ⟨o.x1, s.x2, o.f1, s.f2, o.gf1, env.grad s.x2, eta1, s.eta2, _, _, _, _, _, _, _, _, _, _, o.series, _, _, _⟩
          · simp only [PGObj.plus, PGSearch.plus, List.map_cons]; rfl

theorem pgLoop_plus (hT : Translates env.lt env.le env.finite c) (hS : cfg.stop.Blind c) : ∀ (n : Nat) (st : Bool) (o : PGObj K X E),
    pgLoop (env.plus c) cfg n st (o.plus c) = (pgLoop env cfg n st o).plus c
  | 0, _, _ => rfl
  | n + 1, st, o => by
    unfold pgLoop
    rw [pgPass_plus hT hS]
    have e0 : ((!st && decide ((o.plus c).iter < cfg.maxIter)) || decide ((o.plus c).iter < cfg.minIter)) = ((!st && decide (o.iter < cfg.maxIter)) || decide (o.iter < cfg.minIter)) := rfl
    rw [e0]
    split
    · cases pgPass env cfg (n + 1) st o with
      | ub => rfl
      | more => rfl
      | leave q => rfl
      | next b q => exact pgLoop_plus hT hS n b q
    · rfl

theorem pgRun_plus (hT : Translates env.lt env.le env.finite c) (hS : cfg.stop.Blind c) (n : Nat) (o : PGObj K X E) :
    pgRun (env.plus c) cfg n o = (pgRun env cfg n o).plus c := by
  unfold pgRun
  have e1 : pgPrologue (env.plus c) o = (pgPrologue env o).plus c := rfl
  simp only [e1]
  rw [pgStopped_plus hS, pgLoop_plus hT hS]

end

section
variable {env : APGEnv K X E} {cfg : APGCfg K X}

theorem apgBacktrack_plus {cfg : PGCfg K X} (x1 : X) (f1 slope : K) (eta1 : E) : ∀ (n : Nat) (s : PGSearch K X E × List (PGAsk X E)),
    apgBacktrack (env.plus c) cfg x1 (f1 + c) slope eta1 n (s.1.plus c, s.2) = (apgBacktrack env cfg x1 f1 slope eta1 n s).map fun s => (s.1.plus c, s.2)
  | 0, _ => rfl
  | n + 1, s => by
    unfold apgBacktrack
    have e1 : (f1 + c) - (s.1.plus c).f2 = f1 - s.1.f2 := add_sub_add_right_eq_sub _ _ _
    simp only [e1]
    by_cases h1 : env.lt (f1 - s.1.f2) (-cfg.alpha * slope * s.1.step) = true
    · have h1' : (env.plus c).lt (f1 - s.1.f2) (-cfg.alpha * slope * (s.1.plus c).step) = true := h1
      rw [if_pos h1, if_pos h1']
      by_cases hs : env.lt (s.1.step * cfg.ratio) cfg.minstep = true
      · have hs' : (env.plus c).lt ((s.1.plus c).step * cfg.ratio) cfg.minstep = true := hs
        rw [if_pos hs, if_pos hs']; rfl
      · have hs' : ¬ (env.plus c).lt ((s.1.plus c).step * cfg.ratio) cfg.minstep = true := hs
        rw [if_neg hs, if_neg hs']
        exact apgBacktrack_plus x1 f1 slope eta1 n (apgTrial env x1 eta1 (s.1.step * cfg.ratio) s.1.trials s.2)
    · have h1' : ¬ (env.plus c).lt (f1 - s.1.f2) (-cfg.alpha * slope * (s.1.plus c).step) = true := h1
      rw [if_neg h1, if_neg h1']; rfl

def APGPass.plus (c : K) : APGPass K X E → APGPass K X E
  | .ub => .ub
  | .more => .more
  | .leave o => .leave (o.plus c)
  | .next st o => .next st (o.plus c)

theorem apgGuard_plus (hT : Translates env.lt env.le env.finite c) (o : APGObj K X E) : apgGuard (env.plus c) (o.plus c) = (apgGuard env o).plus c := by
  unfold apgGuard
  have e : apgRestarts (env.plus c) (o.plus c) = apgRestarts env o := by
    unfold apgRestarts
    have : (env.plus c).lt (o.plus c).pg.f2 (o.plus c).fz2 = env.lt o.pg.f2 o.fz2 := hT.lt _ _
    rw [this]; rfl
  rw [e]
  cases apgRestarts env o <;> rfl

theorem apgStopped_plus (hS : cfg.stop.Blind c) (o : PGObj K X E) : pgStopped (env.plus c).toPGEnv cfg.toPGCfg (o.plus c) = pgStopped env.toPGEnv cfg.toPGCfg o :=
  pgStopped_plus (env := env.toPGEnv) hS o

theorem apgAccel_plus (hS : cfg.stop.Blind c) (o : APGObj K X E) : apgAccel (env.plus c) cfg (o.plus c) = (apgAccel env cfg o).plus c := by
  unfold apgAccel
  have e1 : (env.plus c).prox (o.plus c).y1 (o.plus c).gfy1 (o.plus c).pg.kept.ada (o.plus c).pg.kept.smTol (o.plus c).pg.kept.smLam
      (pgDual (env.plus c).toPGEnv { (o.plus c).pg.kept with initD := (o.plus c).initDy }) =
    env.prox o.y1 o.gfy1 o.pg.kept.ada o.pg.kept.smTol o.pg.kept.smLam (pgDual env.toPGEnv { o.pg.kept with initD := o.initDy }) := rfl
  rw [e1]
  cases env.prox o.y1 o.gfy1 o.pg.kept.ada o.pg.kept.smTol o.pg.kept.smLam (pgDual env.toPGEnv { o.pg.kept with initD := o.initDy }) with
  | none => rfl
  | some r =>
    obtain ⟨eta1, d, i, k⟩ := r
    simp only [APGPass.plus, APGPass.next.injEq]
    refine ⟨?_, ?_⟩
    · exact apgStopped_plus (env := env) hS { o.pg with eta1 := eta1, smIter := i, smCG := k, cnt := { o.pg.cnt with sm := o.pg.cnt.sm + i, cg := o.pg.cnt.cg + k } }
    · simp only [APGObj.plus, PGObj.plus, List.map_cons]; rfl

theorem apgPass_plus (hT : Translates env.lt env.le env.finite c) (hS : cfg.stop.Blind c) (n : Nat) (st : Bool) (o : APGObj K X E) :
    apgPass (env.plus c) cfg n st (o.plus c) = (apgPass env cfg n st o).plus c := by
  unfold apgPass
  by_cases hg : cfg.gap = 0
  · rw [if_pos hg, if_pos hg]; rfl
  · rw [if_neg hg, if_neg hg]
    by_cases hm : o.pg.iter % cfg.gap = 0
    · have hm' : (o.plus c).pg.iter % cfg.gap = 0 := hm
      rw [if_pos hm, if_pos hm']
      have e1 : (env.plus c).prox (o.plus c).pg.x1 (o.plus c).pg.gf1 (o.plus c).pg.kept.ada (o.plus c).pg.kept.smTol (o.plus c).pg.kept.smLam (pgDual (env.plus c).toPGEnv (o.plus c).pg.kept) =
        env.prox o.pg.x1 o.pg.gf1 o.pg.kept.ada o.pg.kept.smTol o.pg.kept.smLam (pgDual env.toPGEnv o.pg.kept) := rfl
      rw [e1]
      cases env.prox o.pg.x1 o.pg.gf1 o.pg.kept.ada o.pg.kept.smTol o.pg.kept.smLam (pgDual env.toPGEnv o.pg.kept) with
      | none => rfl
      | some r =>
        obtain ⟨eta1, d, i, k⟩ := r
        simp only
        have e2 := apgBacktrack_plus (env := env) (cfg := cfg.toPGCfg) (c := c) o.pg.x1 o.pg.f1 (env.metric o.pg.x1 o.pg.gf1 eta1) eta1 n (apgTrial env o.pg.x1 eta1 (env.lit 1 1) 0 o.log)
        have e3 : apgBacktrack (env.plus c) cfg.toPGCfg (o.plus c).pg.x1 (o.plus c).pg.f1 ((env.plus c).metric (o.plus c).pg.x1 (o.plus c).pg.gf1 eta1) eta1 n
            (apgTrial (env.plus c) (o.plus c).pg.x1 eta1 ((env.plus c).lit 1 1) 0 (o.plus c).log) =
          (apgBacktrack env cfg.toPGCfg o.pg.x1 o.pg.f1 (env.metric o.pg.x1 o.pg.gf1 eta1) eta1 n (apgTrial env o.pg.x1 eta1 (env.lit 1 1) 0 o.log)).map
            fun s => (s.1.plus c, s.2) := e2
        rw [e3]
        cases apgBacktrack env cfg.toPGCfg o.pg.x1 o.pg.f1 (env.metric o.pg.x1 o.pg.gf1 eta1) eta1 n (apgTrial env o.pg.x1 eta1 (env.lit 1 1) 0 o.log) with
        | none => rfl
        | some s =>
          simp only [Option.map_some]
          have e4 : apgSearched (env.plus c) (o.plus c) eta1 d i k (s.1.plus c, s.2) = (apgSearched env o eta1 d i k s).plus c := rfl
          have hf2 : (apgSearched env o eta1 d i k s).pg.f2 = s.1.f2 := rfl
          rw [e4]
          generalize apgSearched env o eta1 d i k s = q at hf2
          have e5 : (s.1.plus c).ok = s.1.ok := rfl
          rw [e5]
          by_cases hok : (!s.1.ok) = true
          · rw [if_pos hok, if_pos hok]
            by_cases hl : (env.eq q.pg.kept.smLam (env.lit 1 (10 ^ 10)) && env.eq q.pg.kept.smTol (env.lit 1 (10 ^ 24))) = true
            · have hl' : ((env.plus c).eq (q.plus c).pg.kept.smLam ((env.plus c).lit 1 (10 ^ 10)) && (env.plus c).eq (q.plus c).pg.kept.smTol ((env.plus c).lit 1 (10 ^ 24))) = true := hl
              rw [if_pos hl, if_pos hl']; rfl
            · have hl' : ¬ ((env.plus c).eq (q.plus c).pg.kept.smLam ((env.plus c).lit 1 (10 ^ 10)) && (env.plus c).eq (q.plus c).pg.kept.smTol ((env.plus c).lit 1 (10 ^ 24))) = true := hl
              rw [if_neg hl, if_neg hl']; rfl
          · rw [if_neg hok, if_neg hok]
            have e6 : (env.plus c).finite (q.plus c).pg.f2 = env.finite q.pg.f2 := hT.fin _
            rw [e6]
            by_cases hfin : (!env.finite q.pg.f2) = true
            · rw [if_pos hfin, if_pos hfin]; rfl
            · rw [if_neg hfin, if_neg hfin]
              have e7 := apgGuard_plus (env := env) hT
                { q with pg := { q.pg with kept := { q.pg.kept with ada := pgAda env.toPGEnv cfg.toPGCfg (env.eq q.pg.stepsize q.pg.initiallength) q.pg.kept.ada } } }
              have e8 := apgAccel_plus (env := env) (cfg := cfg) (c := c) hS (apgGuard env
                { q with pg := { q.pg with kept := { q.pg.kept with ada := pgAda env.toPGEnv cfg.toPGCfg (env.eq q.pg.stepsize q.pg.initiallength) q.pg.kept.ada } } })
              rw [← e7] at e8
              exact e8
    · have hm' : ¬ (o.plus c).pg.iter % cfg.gap = 0 := hm
      rw [if_neg hm, if_neg hm']
      exact apgAccel_plus hS o

theorem apgLoop_plus (hT : Translates env.lt env.le env.finite c) (hS : cfg.stop.Blind c) : ∀ (n : Nat) (st : Bool) (o : APGObj K X E),
    apgLoop (env.plus c) cfg n st (o.plus c) = (apgLoop env cfg n st o).plus c
  | 0, _, _ => rfl
  | n + 1, st, o => by
    unfold apgLoop
    rw [apgPass_plus hT hS]
    have e0 : ((!st && decide ((o.plus c).pg.iter < cfg.maxIter)) || decide ((o.plus c).pg.iter < cfg.minIter)) = ((!st && decide (o.pg.iter < cfg.maxIter)) || decide (o.pg.iter < cfg.minIter)) := rfl
    rw [e0]
    split
    · cases apgPass env cfg (n + 1) st o with
      | ub => rfl
      | more => rfl
      | leave q => rfl
      | next b q => exact apgLoop_plus hT hS n b q
    · rfl

/-- The only member that survives the start of a run and holds a function value is `fz2`, which is read only after it has been set. -/
theorem apgRun_plus (hT : Translates env.lt env.le env.finite c) (hS : cfg.stop.Blind c) (n : Nat) (o : APGObj K X E) :
    apgRun (env.plus c) cfg n { o with fz2 := o.fz2 + c } = (apgRun env cfg n o).plus c := by
  unfold apgRun
  have e1 : apgPrologue (env.plus c) { o with fz2 := o.fz2 + c } = (apgPrologue env o).plus c := rfl
  simp only [e1]
  have e2 : pgStopped (env.plus c).toPGEnv cfg.toPGCfg ((apgPrologue env o).plus c).pg = pgStopped env.toPGEnv cfg.toPGCfg (apgPrologue env o).pg := apgStopped_plus (env := env) hS _
  rw [e2, apgLoop_plus hT hS]

end

/-! ## The weak Wolfe search does not use `big` -/

theorem wExpand_big (b : K) : ∀ (k : Nat) (pre fpre : K) (o : Obj K X E M), wExpand env cfg { ls with big := b } k pre fpre o = wExpand env cfg ls k pre fpre o
  | 0, _, _, _ => rfl
  | k + 1, pre, fpre, o => by
    unfold wExpand
    simp only [wExpand_big b k]
    rfl

theorem wInterp_big (b : K) : ∀ (k : Nat) (lo diff flo fhi : K) (o : Obj K X E M), wInterp env cfg { ls with big := b } k lo diff flo fhi o = wInterp env cfg ls k lo diff flo fhi o
  | 0, _, _, _, _, _ => rfl
  | k + 1, lo, diff, flo, fhi, o => by
    unfold wInterp
    simp only [wInterp_big b k]
    rfl

theorem wAfter_big (b pre fpre : K) (o : Obj K X E M) : wAfter env cfg { ls with big := b } pre fpre o = wAfter env cfg ls pre fpre o := by
  unfold wAfter
  simp only [wInterp_big]
  rfl

theorem wLoop_big (b : K) : ∀ (n : Nat) (pre fpre : K) (o : Obj K X E M), wLoop env cfg { ls with big := b } n pre fpre o = wLoop env cfg ls n pre fpre o
  | 0, _, _, _ => rfl
  | n + 1, pre, fpre, o => by
    unfold wLoop
    simp only [wLoop_big b n, wExpand_big, wAfter_big]
    rfl

theorem wSearch_big (b : K) (n : Nat) (o : Obj K X E M) : wSearch env cfg { ls with big := b } n o = wSearch env cfg ls n o := wLoop_big b n _ _ _

/-! ## C146, C147 -/

/-- A line-search solver with the default line searches: for every solver that does not look at function values, every kind of search of the library or of the user,
every way of choosing the initial step, the whole object after the run on the translated cost is the object of the run on the original cost with the constant added
to the function values. Hence the returned point, the number of iterations, all counters and all gradient norms are the same. The constant `big` (`DBL_MAX`) that the strong Wolfe search
uses in place of the value at step 0 is translated as well (`DBL_MAX + c` is `DBL_MAX` in the arithmetic of the machine). -/
theorem C146_line_search (hT : Translates env.lt env.le env.finite c) (htot : ∀ a b, env.lt a b = false → env.le b a = true) (heq : ∀ a, env.eq a a = true) (hS : cfg.stop.Blind c)
    {hk : Hooks K X E M} (hB : hk.Blind c) (k : LSKind K X E) (m n : Nat) (o : Obj K X E M) :
    runWith (env.plus c) cfg hk (k.search (env.plus c) cfg { ls with big := ls.big + c } m) n o = (runWith env cfg hk (k.search env cfg ls m) n o).map (Obj.plus c) := by
  apply runWith_plus hT heq hS hB
  intro q hq
  cases k with
  | armijo => exact armijo_plus hT m q
  | wolfe => exact (wSearch_big _ m _).trans (wSearch_plus hT htot m q hq)
  | strongWolfe => exact swSearch_plus hT m q
  | «exact» => exact exSearch_plus hT m q
  | input p u => exact inSearch_plus hT p u m q

/-- The steepest descent, conjugate gradient and BFGS solvers do not look at function values, and they do not contain the cost. -/
theorem C146_solvers (env : Env K X E) (c : K) : (rsd env).Blind c ∧ rsd (env.plus c) = rsd env ∧ (∀ kind, (rcg env kind).Blind c ∧ rcg (env.plus c) kind = rcg env kind) ∧
    ∀ (L : Type) (op : OpEnv K X E L), (rbfgs env op).Blind c ∧ rbfgs (env.plus c) op = rbfgs env op :=
  ⟨fun _ => ⟨rfl, rfl⟩, rfl, fun _ => ⟨fun _ => ⟨rfl, rfl⟩, rfl⟩, fun _ _ => ⟨fun _ => ⟨rfl, rfl⟩, rfl⟩⟩

/-- The proximal-gradient solver `ManPG`. -/
theorem C146_proximal {env : PGEnv K X E} {cfg : PGCfg K X} (hT : Translates env.lt env.le env.finite c) (hS : cfg.stop.Blind c) (n : Nat) (o : PGObj K X E) :
    pgRun (env.plus c) cfg n o = (pgRun env cfg n o).plus c := pgRun_plus hT hS n o

/-- The accelerated proximal-gradient solver `AManPG`. -/
theorem C146_accelerated {env : APGEnv K X E} {cfg : APGCfg K X} (hT : Translates env.lt env.le env.finite c) (hS : cfg.stop.Blind c) (n : Nat) (o : APGObj K X E) :
    apgRun (env.plus c) cfg n { o with fz2 := o.fz2 + c } = (apgRun env cfg n o).plus c := apgRun_plus hT hS n o

/-- The trust-region solvers, as long as the test for decreases at the level of rounding errors gives the same answers. -/
theorem C147_trust_region_partial {env : TREnv K X E} {cfg : TRCfg K X} {hk : TRHooks K X E M} (hT : Translates env.lt env.le env.finite c) (hR : SameRounding env c) (hS : cfg.stop.Blind c)
    (hB : hk.Blind c) (n : Nat) (o : TRObj K X E M) : trRun (env.plus c) cfg hk n o = (trRun env cfg hk n o).map (TRObj.plus c) := trRun_plus hT hR hS hB n o

/-- The trust-region Newton (steepest descent) and SR1 solvers do not look at function values. -/
theorem C147_tr_solvers (env : TREnv K X E) (c : K) : (∀ H, (rtr env H).Blind c ∧ rtr (env.plus c) H = rtr env H) ∧
    ∀ (L : Type) (op : OpEnv K X E L) (t : X → E → X → E → E), (rtrsr1 env op t).Blind c ∧ rtrsr1 (env.plus c) op t = rtrsr1 env op t :=
  ⟨fun _ => ⟨fun _ => ⟨rfl, rfl, rfl⟩, rfl⟩, fun _ _ _ => ⟨fun _ => ⟨rfl, rfl, rfl⟩, rfl⟩⟩

/-- The statement is false for the trust-region solvers in general: on `2 x²` a step that increases the ratio too little is rejected, and accepted once `10⁸` has been
added to the cost. -/
theorem C147_tr_depends_on_the_constant : ((trRun (lineTREnv 4) { lineTRCfg 1 with initDelta := 63 / 32 } (rtr (lineTREnv 4) fun _ v => v) 10 (freshTR () 1)).map fun o => o.x1) = some 1 ∧
    ((trRun ((lineTREnv 4).plus (10 ^ 8)) { lineTRCfg 1 with initDelta := 63 / 32 } (rtr (lineTREnv 4) fun _ v => v) 10 (freshTR () 1)).map fun o => o.x1) = some (-31 / 32) := by
  decide +kernel

/-- The statement is false for the stopping criterion that measures the relative change of the cost. -/
theorem C147_relative_change_depends_on_the_constant :
    ((runWith (lineEnv 1) (lineCfg .funRel 0 3) (rsd (lineEnv 1)) (armijo (lineEnv 1) (lineCfg .funRel 0 3) 10) 10 (freshObj () 1)).map fun o => (o.x1, o.iter)) = some (0, 3) ∧
    ((runWith ((lineEnv 1).plus (10 ^ 8)) (lineCfg .funRel 0 3) (rsd (lineEnv 1)) (armijo ((lineEnv 1).plus (10 ^ 8)) (lineCfg .funRel 0 3) 10) 10 (freshObj () 1)).map
      fun o => (o.x1, o.iter)) = some (1 / 2, 1) := by
  decide +kernel

theorem lineEnv_translates (a c : ℚ) : Translates (lineEnv a).lt (lineEnv a).le (lineEnv a).finite c :=
  ⟨fun x y => by simp [lineEnv], fun x y => by simp [lineEnv], fun _ => rfl⟩

/-- Non-trivial instance of `C146_line_search` with the weak Wolfe search: a run of two iterations that moves, with `5` added. -/
example : Translates (lineEnv 4).lt (lineEnv 4).le (lineEnv 4).finite 5 ∧ (∀ a b, (lineEnv 4).lt a b = false → (lineEnv 4).le b a = true) ∧ (∀ a, (lineEnv 4).eq a a = true) ∧
    ((lineCfg .gradF0 0 2).stop.Blind 5) ∧ (rsd (lineEnv 4)).Blind 5 ∧
    ((runWith (lineEnv 4) (lineCfg .gradF0 0 2) (rsd (lineEnv 4)) ((LSKind.wolfe).search (lineEnv 4) (lineCfg .gradF0 0 2) repLS 10) 10 (freshObj () 3)).map fun o => (o.x1, o.f1)) = some (0, 0) ∧
    ((runWith ((lineEnv 4).plus 5) (lineCfg .gradF0 0 2) (rsd (lineEnv 4)) ((LSKind.wolfe).search ((lineEnv 4).plus 5) (lineCfg .gradF0 0 2) { repLS with big := repLS.big + 5 } 10) 10
      (freshObj () 3)).map fun o => (o.x1, o.f1)) = some (0, 5) := by
  refine ⟨lineEnv_translates 4 5, fun a b h => ?_, fun a => by simp [lineEnv], trivial, (C146_solvers _ _).1, by decide +kernel, by decide +kernel⟩
  simp only [lineEnv, decide_eq_false_iff_not, not_lt, decide_eq_true_eq] at h ⊢
  exact h

/-- Non-trivial instance of `C146_proximal` and `C146_accelerated`. -/
example : pgShow (pgRun (pgLine 4 0) (pgLineCfg false (1 / 1000) 2) 10 (pgLineNew 4 0 1)) ≠ none ∧
    pgShow (pgRun ((pgLine 4 0).plus 5) (pgLineCfg false (1 / 1000) 2) 10 (pgLineNew 4 0 1)) = pgShow (pgRun (pgLine 4 0) (pgLineCfg false (1 / 1000) 2) 10 (pgLineNew 4 0 1)) :=
  ⟨by decide +kernel, by rw [C146_proximal (lineEnv_translates 4 5) (by trivial)]; decide +kernel⟩

/-- Non-trivial instance of `C147_trust_region_partial`: in exact arithmetic with `eps = 0` the test for rounding errors never succeeds. -/
example : SameRounding { lineTREnv 4 with eps := 0 } 5 ∧ (lineTRCfg 5).stop.Blind 5 ∧ (rtr { lineTREnv 4 with eps := 0 } fun _ v => 4 * v).Blind 5 ∧
    ((trRun { lineTREnv 4 with eps := 0 } (lineTRCfg 5) (rtr { lineTREnv 4 with eps := 0 } fun _ v => 4 * v) 10 (freshTR () 7)).map fun o => (o.x1, o.iter)) = some (0, 3) := by
  refine ⟨fun x y _ => ?_, trivial, ((C147_tr_solvers _ _).1 _).1, by decide +kernel⟩
  have h0 : ratRoot 0 = 0 := by decide +kernel
  have ha : ∀ a : ℚ, (if a < 0 then -a else a) = |a| := by
    intro a
    split
    · rename_i h; exact (abs_of_neg h).symm
    · rename_i h; exact (abs_of_nonneg (not_lt.mp h)).symm
  have h1 : mkRat 1 1 = 1 := by decide +kernel
  have key : ∀ a b : ℚ, ¬ |a| / (|b| + 1) < 0 := fun a b => not_lt.mpr (div_nonneg (abs_nonneg a) (add_nonneg (abs_nonneg b) zero_le_one))
  simp only [lineTREnv, lineEnv, h0, ha, h1, Int.cast_one]
  rw [decide_eq_false (key _ _), decide_eq_false (key _ _)]

end Verif.Obj
