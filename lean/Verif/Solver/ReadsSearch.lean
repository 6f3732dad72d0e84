import Verif.Solver.Reads
import Mathlib.Tactic.SplitIfs

/-!
# Which values each line search consults

Helper lemmas for C141 and C142: each search of `Verif.Solver.ObjectSearch` satisfies `Reads`.
-/

namespace Verif.Obj

variable {K X E M : Type*} [Add K] [Sub K] [Mul K] [Div K] [Neg K] {env : Env K X E} {cfg : Cfg K X E} {ls : LSCfg K} {c0 : Calls K X E}

theorem same (o : Obj K X E M) {a : Mark X} {S : List X} {l : X} (h : obs o = a) (hl : o.x2 = l) :
    ∀ m, obs1 o = some m → (m.nf = a.nf ∧ m.ng = a.ng ∧ m.nR = a.nR ∧ m.nH = a.nH) ∧ AtX2 o S l := by
  intro m hm
  cases hm
  subst h
  exact ⟨⟨rfl, rfl, rfl, rfl⟩, hl⟩

theorem sameOpt (o : Obj K X E M) {a : Mark X} {S : List X} {l : X} (h : obs o = a) (hl : o.x2 = l) :
    ∀ m, obsOpt (some o) = some m → (m.nf = a.nf ∧ m.ng = a.ng ∧ m.nR = a.nR ∧ m.nH = a.nH) ∧ AtX2Opt (some o) S l := by
  intro m hm
  cases hm
  subst h
  exact ⟨⟨rfl, rfl, rfl, rfl⟩, fun o ho => by cases ho; exact hl⟩

theorem noneSame {a : Mark X} {S : List X} {l : X} :
    ∀ m, obsOpt (none : Option (Obj K X E M)) = some m → (m.nf = a.nf ∧ m.ng = a.ng ∧ m.nR = a.nR ∧ m.nH = a.nH) ∧ AtX2Opt (none : Option (Obj K X E M)) S l :=
  fun _ h => by cases h

theorem Reads.done {S : List X} (o : Obj K X E M) {a : Mark X} {l : X} (h : obs o = a) (hl : o.x2 = l) : Reads obs1 AtX2 c0 a S l fun _ => o := Reads.const o (same o h hl)

theorem Reads.doneOpt {S : List X} (o : Obj K X E M) {a : Mark X} {l : X} (h : obs o = a) (hl : o.x2 = l) : Reads obsOpt AtX2Opt c0 a S l fun _ => some o := Reads.const (some o) (sameOpt o h hl)

/-! ## Armijo -/

theorem backtrack_reads (mp : K) (n : Nat) : ∀ (S : List X) (o : Obj K X E M), Reads obsOpt AtX2Opt c0 (obs o) S o.x2 fun c => backtrack (env.withCalls c) cfg mp n o := by
  induction n with
  | zero => intro S o; exact Reads.const _ noneSame
  | succ n ih =>
    intro S o
    refine Reads.ite (armijoFails env cfg mp o) (fun _ => ?_) (fun _ => Reads.doneOpt _ rfl rfl)
    refine Reads.ite (env.lt (o.stepsize * cfg.ratio1) cfg.minstep) (fun _ => Reads.doneOpt _ rfl rfl) (fun _ => ?_)
    exact Reads.h (env := env) (k := fun c p => backtrack (env.withCalls c) cfg mp n p) (o := { o with stepsize := o.stepsize * cfg.ratio1 }) (ih _ _)

theorem interpLoop_reads (mp : K) (n : Nat) : ∀ (S : List X) (x y z : K) (o : Obj K X E M), Reads obsOpt AtX2Opt c0 (obs o) S o.x2 fun c => interpLoop (env.withCalls c) cfg mp n x y z o := by
  induction n with
  | zero => intro S x y z o; exact Reads.const _ noneSame
  | succ n ih =>
    intro S x y z o
    refine Reads.ite (armijoFails env cfg mp o) (fun _ => ?_) (fun _ => Reads.doneOpt _ rfl rfl)
    refine Reads.ite (env.lt (clampStep env cfg (cubicStep env x y z o.f2 o.f1 o.initialslope) x) cfg.minstep) (fun _ => Reads.doneOpt _ rfl rfl) (fun _ => ?_)
    exact Reads.h (env := env) (k := fun c p => interpLoop (env.withCalls c) cfg mp n p.stepsize x o.f2 p)
      (o := { o with stepsize := clampStep env cfg (cubicStep env x y z o.f2 o.f1 o.initialslope) x }) (ih _ _ _ _ _)

theorem armijo_reads (S : List X) (l : X) (n : Nat) (o : Obj K X E M) : Reads obsOpt AtX2Opt c0 (obs o) S l fun c => armijo (env.withCalls c) cfg n o := by
  refine Reads.h (env := env) (o := { o with status := Status.success })
    (k := fun c p => if env.le cfg.ratio2 cfg.ratio1 = true then (backtrack (env.withCalls c) cfg (maxpref env cfg p) n p).map (dh (env.withCalls c)) else
      (if armijoFails env cfg (maxpref env cfg p) p = true then
        interpLoop (env.withCalls c) cfg (maxpref env cfg p) n
          (h (env.withCalls c) { p with stepsize := clampStep env cfg (-p.initialslope * p.stepsize * p.stepsize / env.lit 2 1 / (p.f2 - p.f1 - p.initialslope * p.stepsize)) p.stepsize }).stepsize p.stepsize p.f2
          (h (env.withCalls c) { p with stepsize := clampStep env cfg (-p.initialslope * p.stepsize * p.stepsize / env.lit 2 1 / (p.f2 - p.f1 - p.initialslope * p.stepsize)) p.stepsize })
      else interpLoop (env.withCalls c) cfg (maxpref env cfg p) n p.stepsize (env.lit 0 1) (env.lit 0 1) p).map fun o => { gradX2 (env.withCalls c) o with newslope := env.inf }) ?_
  generalize h (env.withCalls c0) { o with status := Status.success } = p
  refine Reads.ite _ (fun _ => ?_) (fun _ => ?_)
  · refine Reads.map (backtrack_reads _ _ _ _) ?_
    intro q S' _
    exact Reads.dh (env := env) (k := fun _ r => r) fun _ => Reads.done _ rfl rfl
  · refine Reads.map (G := fun c o => { gradX2 (env.withCalls c) o with newslope := env.inf }) (Reads.ite _ (fun _ => ?_) (fun _ => interpLoop_reads _ _ _ _ _ _ _)) ?_
    · exact Reads.h (env := env) (k := fun c r => interpLoop (env.withCalls c) cfg (maxpref env cfg p) n r.stepsize p.stepsize p.f2 r)
        (o := { p with stepsize := clampStep env cfg (-p.initialslope * p.stepsize * p.stepsize / env.lit 2 1 / (p.f2 - p.f1 - p.initialslope * p.stepsize)) p.stepsize }) (interpLoop_reads _ _ _ _ _ _ _)
    · intro q S' _
      exact Reads.gradX2 (env := env) (get := obs1) (P := AtX2) (o := q) (k := fun _ r => { r with newslope := env.inf }) fun _ => Reads.done { gradX2 (env.withCalls c0) q with newslope := env.inf } rfl rfl

/-! ## Strong Wolfe -/

theorem zoom_reads (n : Nat) : ∀ (S : List X) (lo hi flo fhi s : K) (o : Obj K X E M), Reads obs1 AtX2 c0 (obs o) S o.x2 fun c => zoom (env.withCalls c) cfg ls n lo hi flo fhi s o := by
  induction n with
  | zero => intro S lo hi flo fhi s o; exact Reads.done _ rfl rfl
  | succ n ih =>
    intro S lo hi flo fhi s o
    refine Reads.h (env := env) (o := { o with stepsize := zoomPick env cfg lo hi flo fhi s })
      (k := fun c p => if (decBad env cfg p || env.le flo p.f2) = true then
          if env.le p.stepsize cfg.minstep = true then { p with status := Status.minStep } else zoom (env.withCalls c) cfg ls n lo p.stepsize flo p.f2 s p
        else
          let p := dh (env.withCalls c) p
          if env.le (env.abs p.newslope) (-ls.beta * p.initialslope) = true then p
          else
            let b := env.le (env.lit 0 1) (p.newslope * (hi - lo))
            if env.le p.stepsize cfg.minstep = true then { p with status := Status.minStep }
            else zoom (env.withCalls c) cfg ls n p.stepsize (if b then lo else hi) p.f2 (if b then flo else fhi) p.newslope p) ?_
    generalize h (env.withCalls c0) { o with stepsize := zoomPick env cfg lo hi flo fhi s } = p
    refine Reads.ite _ (fun _ => Reads.ite _ (fun _ => Reads.done { p with status := Status.minStep } rfl rfl) (fun _ => ih _ _ _ _ _ _ _)) (fun _ => ?_)
    refine Reads.dh (env := env) (o := p)
      (k := fun c p => if env.le (env.abs p.newslope) (-ls.beta * p.initialslope) = true then p
          else
            let b := env.le (env.lit 0 1) (p.newslope * (hi - lo))
            if env.le p.stepsize cfg.minstep = true then { p with status := Status.minStep }
            else zoom (env.withCalls c) cfg ls n p.stepsize (if b then lo else hi) p.f2 (if b then flo else fhi) p.newslope p) ?_
    intro S
    generalize dh (env.withCalls c0) p = r
    exact Reads.ite _ (fun _ => Reads.done r rfl rfl) (fun _ => Reads.ite _ (fun _ => Reads.done { r with status := Status.minStep } rfl rfl) (fun _ => ih _ _ _ _ _ _ _))

theorem swLoop_reads (n : Nat) : ∀ (S : List X) (l : X) (x y z : K) (o : Obj K X E M), Reads obsOpt AtX2Opt c0 (obs o) S l fun c => swLoop (env.withCalls c) cfg ls n x y z o := by
  induction n with
  | zero => intro S l x y z o; exact Reads.const _ noneSame
  | succ n ih =>
    intro S l pre fpre spre o
    refine Reads.h (env := env) (o := o)
      (k := fun c o => if (decBad env cfg o || env.le fpre o.f2) = true then some (zoom (env.withCalls c) cfg ls 9 pre o.stepsize fpre o.f2 spre o)
        else
          let o := dh (env.withCalls c) o
          if env.le (env.abs o.newslope) (-ls.beta * o.initialslope) = true then some o
          else if env.le (env.lit 0 1) o.newslope = true then some (zoom (env.withCalls c) cfg ls 9 o.stepsize pre o.f2 fpre o.newslope o)
          else if env.eq o.stepsize ls.maxstep = true then some { o with status := .maxStep }
          else
            let t := -o.initialslope * o.stepsize * o.stepsize / env.lit 2 1 / (o.f2 - o.f1 - o.initialslope * o.stepsize)
            let t := if env.lt (env.lit 11 10 * o.stepsize) t then t else env.lit 11 10 * o.stepsize
            let t := if env.lt t ls.maxstep then t else ls.maxstep
            swLoop (env.withCalls c) cfg ls n o.stepsize o.f2 o.newslope { o with stepsize := t }) ?_
    generalize h (env.withCalls c0) o = p
    refine Reads.ite _ (fun _ => Reads.some' (zoom_reads 9 _ _ _ _ _ _ _)) (fun _ => ?_)
    refine Reads.dh (env := env) (o := p)
      (k := fun c o => if env.le (env.abs o.newslope) (-ls.beta * o.initialslope) = true then some o
          else if env.le (env.lit 0 1) o.newslope = true then some (zoom (env.withCalls c) cfg ls 9 o.stepsize pre o.f2 fpre o.newslope o)
          else if env.eq o.stepsize ls.maxstep = true then some { o with status := .maxStep }
          else
            let t := -o.initialslope * o.stepsize * o.stepsize / env.lit 2 1 / (o.f2 - o.f1 - o.initialslope * o.stepsize)
            let t := if env.lt (env.lit 11 10 * o.stepsize) t then t else env.lit 11 10 * o.stepsize
            let t := if env.lt t ls.maxstep then t else ls.maxstep
            swLoop (env.withCalls c) cfg ls n o.stepsize o.f2 o.newslope { o with stepsize := t }) ?_
    intro S
    generalize dh (env.withCalls c0) p = r
    refine Reads.ite _ (fun _ => Reads.doneOpt r rfl rfl) (fun _ => ?_)
    refine Reads.ite _ (fun _ => Reads.some' (zoom_reads 9 _ _ _ _ _ _ _)) (fun _ => ?_)
    exact Reads.ite _ (fun _ => Reads.doneOpt { r with status := .maxStep } rfl rfl) (fun _ => ih _ _ _ _ _ _)

theorem swSearch_reads (S : List X) (l : X) (n : Nat) (o : Obj K X E M) : Reads obsOpt AtX2Opt c0 (obs o) S l fun c => swSearch (env.withCalls c) cfg ls n o := swLoop_reads n _ _ _ _ _ _

/-! ## Weak Wolfe -/

theorem wExpand_reads (n : Nat) : ∀ (S : List X) (x y : K) (o : Obj K X E M),
    Reads (fun t : K × K × Obj K X E M => obs1 t.2.2) (fun t => AtX2 t.2.2) c0 (obs o) S o.x2 fun c => wExpand (env.withCalls c) cfg ls n x y o := by
  induction n with
  | zero => intro S x y o; exact Reads.const _ (same _ rfl rfl)
  | succ n ih =>
    intro S x y o
    refine Reads.ite (decOk env cfg o && steep env ls o && env.lt o.stepsize ls.maxstep) (fun _ => ?_) (fun _ => Reads.const _ (same _ rfl rfl))
    refine Reads.h (env := env) (o := { o with stepsize := if env.lt (env.lit 2 1 * o.stepsize) ls.maxstep then env.lit 2 1 * o.stepsize else ls.maxstep })
      (k := fun c p => wExpand (env.withCalls c) cfg ls n o.stepsize o.f2 (if decOk env cfg p = true then dh (env.withCalls c) p else p)) ?_
    generalize h (env.withCalls c0) { o with stepsize := if env.lt (env.lit 2 1 * o.stepsize) ls.maxstep then env.lit 2 1 * o.stepsize else ls.maxstep } = p
    exact Reads.seq (F := fun c => if decOk env cfg p = true then dh (env.withCalls c) p else p) (G := fun c r => wExpand (env.withCalls c) cfg ls n o.stepsize o.f2 r)
      (Reads.ite _ (fun _ => Reads.dh (env := env) (k := fun _ r => r) fun _ => Reads.done _ rfl rfl) (fun _ => Reads.done _ rfl rfl)) fun _ => ih _ _ _ _

theorem wInterp_reads (n : Nat) : ∀ (S : List X) (lo diff flo fhi : K) (o : Obj K X E M), Reads obs1 AtX2 c0 (obs o) S o.x2 fun c => wInterp (env.withCalls c) cfg ls n lo diff flo fhi o := by
  induction n with
  | zero => intro S lo diff flo fhi o; exact Reads.done _ rfl rfl
  | succ n ih =>
    intro S lo diff flo fhi o
    refine Reads.ite ((decBad env cfg o || steep env ls o) && env.le cfg.minstep diff) (fun _ => ?_) (fun _ => Reads.done _ rfl rfl)
    have key : ∀ t : K, Reads obs1 AtX2 c0 (obs o) S o.x2 fun c =>
        if decBad env cfg (h (env.withCalls c) { o with stepsize := lo + t }) = true then wInterp (env.withCalls c) cfg ls n lo t flo (h (env.withCalls c) { o with stepsize := lo + t }).f2 (h (env.withCalls c) { o with stepsize := lo + t })
        else
          let o := dh (env.withCalls c) (h (env.withCalls c) { o with stepsize := lo + t })
          if steep env ls o = true then wInterp (env.withCalls c) cfg ls n o.stepsize (diff - t) o.f2 fhi o else wInterp (env.withCalls c) cfg ls n lo diff flo fhi o := by
      intro t
      refine Reads.h (env := env) (o := { o with stepsize := lo + t }) (k := fun c o => if decBad env cfg o = true then wInterp (env.withCalls c) cfg ls n lo t flo o.f2 o
        else
          let o := dh (env.withCalls c) o
          if steep env ls o = true then wInterp (env.withCalls c) cfg ls n o.stepsize (diff - t) o.f2 fhi o else wInterp (env.withCalls c) cfg ls n lo diff flo fhi o) ?_
      generalize h (env.withCalls c0) { o with stepsize := lo + t } = p
      refine Reads.ite _ (fun _ => ih _ _ _ _ _ _) (fun _ => ?_)
      refine Reads.dh (env := env) (o := p)
        (k := fun c o => if steep env ls o = true then wInterp (env.withCalls c) cfg ls n o.stepsize (diff - t) o.f2 fhi o else wInterp (env.withCalls c) cfg ls n lo diff flo fhi o) ?_
      intro S
      exact Reads.ite _ (fun _ => ih _ _ _ _ _ _) (fun _ => ih _ _ _ _ _ _)
    exact key (if env.lt (-o.newslope * diff * diff / env.lit 2 1 / (fhi - (flo + o.newslope * diff))) (env.lit 2 10 * diff) then env.lit 2 10 * diff
      else -o.newslope * diff * diff / env.lit 2 1 / (fhi - (flo + o.newslope * diff)))

theorem wTail_reads (S : List X) (o : Obj K X E M) :
    Reads obs1 AtX2 c0 (obs o) S o.x2 fun c => if steep env ls o = true then { dh (env.withCalls c) (h (env.withCalls c) o) with status := Status.noCurv } else { o with status := Status.success } := by
  refine Reads.ite _ (fun _ => ?_) (fun _ => Reads.done { o with status := Status.success } rfl rfl)
  refine Reads.h (env := env) (get := obs1) (o := o) (k := fun c p => { dh (env.withCalls c) p with status := Status.noCurv }) ?_
  exact Reads.dh (env := env) (get := obs1) (P := AtX2) (o := h (env.withCalls c0) o) (k := fun _ p => { p with status := Status.noCurv })
    fun _ => Reads.done { dh (env.withCalls c0) (h (env.withCalls c0) o) with status := Status.noCurv } rfl rfl

theorem wAfter_reads (S : List X) (x y : K) (o : Obj K X E M) : Reads obs1 AtX2 c0 (obs o) S o.x2 fun c => wAfter (env.withCalls c) cfg ls x y o := by
  have key : ∀ (n : Nat) (lo diff flo fhi : K), Reads obs1 AtX2 c0 (obs o) S o.x2 fun c =>
      if env.le ls.maxstep o.stepsize = true then { gradX2 (env.withCalls c) o with status := Status.maxStep }
      else if (!(env.eq o.stepsize o.initiallength) && decBad env cfg o) = true then
        if steep env ls (wInterp (env.withCalls c) cfg ls n lo diff flo fhi o) = true then
          { dh (env.withCalls c) (h (env.withCalls c) (wInterp (env.withCalls c) cfg ls n lo diff flo fhi o)) with status := Status.noCurv }
        else { wInterp (env.withCalls c) cfg ls n lo diff flo fhi o with status := Status.success }
      else { o with status := Status.success } := by
    intro n lo diff flo fhi
    refine Reads.ite _ (fun _ => Reads.gradX2 (env := env) (get := obs1) (P := AtX2) (o := o) (k := fun _ p => { p with status := Status.maxStep })
      fun _ => Reads.done { gradX2 (env.withCalls c0) o with status := Status.maxStep } rfl rfl) (fun _ => ?_)
    refine Reads.ite _ (fun _ => ?_) (fun _ => Reads.done { o with status := Status.success } rfl rfl)
    exact Reads.seq (get' := obs1) (P' := AtX2) (F := fun c => wInterp (env.withCalls c) cfg ls n lo diff flo fhi o)
      (G := fun c o => if steep env ls o = true then { dh (env.withCalls c) (h (env.withCalls c) o) with status := Status.noCurv } else { o with status := Status.success })
      (wInterp_reads n _ _ _ _ _ _) (fun _ => wTail_reads _ _)
  exact key 11 (if env.lt o.stepsize x then o.stepsize else x) (env.abs (x - o.stepsize)) (if env.lt o.stepsize x then o.f2 else y) (if env.lt o.stepsize x then y else o.f2)

theorem wLoop_reads (n : Nat) : ∀ (S : List X) (l : X) (x y : K) (o : Obj K X E M), Reads obsOpt AtX2Opt c0 (obs o) S l fun c => wLoop (env.withCalls c) cfg ls n x y o := by
  induction n with
  | zero => intro S l x y o; exact Reads.const _ noneSame
  | succ n ih =>
    intro S l x y o
    refine Reads.h (env := env) (o := o)
      (k := fun c o => if decOk env cfg o = true then
          let o := dh (env.withCalls c) o
          if steep env ls o = true then
            let r := wExpand (env.withCalls c) cfg ls 11 x y o
            some (wAfter (env.withCalls c) cfg ls r.1 r.2.1 r.2.2)
          else some { o with status := .success }
        else if env.le o.stepsize cfg.minstep = true then some { dh (env.withCalls c) (h (env.withCalls c) { o with stepsize := cfg.minstep }) with status := .minStep }
        else wLoop (env.withCalls c) cfg ls n o.stepsize o.f2 { o with stepsize := wBack env x y o }) ?_
    generalize h (env.withCalls c0) o = p
    refine Reads.ite _ (fun _ => ?_) (fun _ => Reads.ite _ (fun _ => ?_) (fun _ => ih _ _ _ _ _))
    · refine Reads.dh (env := env) (o := p) (k := fun c o => if steep env ls o = true then
            let r := wExpand (env.withCalls c) cfg ls 11 x y o
            some (wAfter (env.withCalls c) cfg ls r.1 r.2.1 r.2.2)
          else some { o with status := .success }) ?_
      intro S
      generalize dh (env.withCalls c0) p = p
      refine Reads.ite _ (fun _ => ?_) (fun _ => Reads.doneOpt { p with status := .success } rfl rfl)
      refine Reads.bind (G := fun c (r : K × K × Obj K X E M) => some (wAfter (env.withCalls c) cfg ls r.1 r.2.1 r.2.2)) (wExpand_reads 11 _ x y p) ?_ (fun h => by cases h)
      intro q S' l' hq _ hl
      cases hq
      cases hl
      exact Reads.some' (wAfter_reads _ _ _ _)
    · refine Reads.h (env := env) (o := { p with stepsize := cfg.minstep }) (k := fun c r => some { dh (env.withCalls c) r with status := .minStep }) ?_
      exact Reads.dh (env := env) (get := obsOpt) (P := AtX2Opt) (o := h (env.withCalls c0) { p with stepsize := cfg.minstep }) (k := fun _ r => some { r with status := Status.minStep })
        fun _ => Reads.doneOpt { dh (env.withCalls c0) (h (env.withCalls c0) { p with stepsize := cfg.minstep }) with status := Status.minStep } rfl rfl

theorem wSearch_reads (S : List X) (l : X) (n : Nat) (o : Obj K X E M) : Reads obsOpt AtX2Opt c0 (obs o) S l fun c => wSearch (env.withCalls c) cfg ls n o := wLoop_reads n _ _ _ _ _

/-! ## Exact search -/

def obsPair (r : Option (K × Obj K X E M)) : Option (Mark X) := r.map fun p => obs p.2
def AtX2Pair (r : Option (K × Obj K X E M)) (_ : List X) (l : X) : Prop := ∀ p, r = some p → p.2.x2 = l

theorem samePair (t : K) (o : Obj K X E M) {a : Mark X} {S : List X} {l : X} (h : obs o = a) (hl : o.x2 = l) :
    ∀ m, obsPair (some (t, o)) = some m → (m.nf = a.nf ∧ m.ng = a.ng ∧ m.nR = a.nR ∧ m.nH = a.nH) ∧ AtX2Pair (some (t, o)) S l := by
  intro m hm
  cases hm
  subst h
  exact ⟨⟨rfl, rfl, rfl, rfl⟩, fun o ho => by cases ho; exact hl⟩

theorem exInner_reads (a1 dir sf1 sgf1 : K) (n : Nat) : ∀ (S : List X) (t : K) (o : Obj K X E M), Reads obsPair AtX2Pair c0 (obs o) S o.x2 fun c => exInner (env.withCalls c) cfg a1 dir sf1 sgf1 n t o := by
  induction n with
  | zero => intro S t o; exact Reads.const _ (fun _ h => by cases h)
  | succ n ih =>
    intro S t o
    refine Reads.ite (env.lt (sf1 + cfg.alpha * t * sgf1 * dir) o.f2) (fun _ => ?_) (fun _ => Reads.const _ (samePair _ _ rfl rfl))
    refine Reads.h (env := env) (o := { o with stepsize := a1 + t * cfg.ratio1 * dir })
      (k := fun c o => if env.lt (t * cfg.ratio1 * cfg.ratio1) (exMin env) = true then
          let o := dh (env.withCalls c) o
          if (env.lt (env.lit 1 10) (env.abs (o.newslope / o.initialslope)) && env.lt (o.f1 + cfg.alpha * o.stepsize * o.ngf1) o.f2) = true then some (t * cfg.ratio1, { o with status := .nonExact })
          else some (t * cfg.ratio1, o)
        else exInner (env.withCalls c) cfg a1 dir sf1 sgf1 n (t * cfg.ratio1) o) ?_
    refine Reads.ite _ (fun _ => ?_) (fun _ => ih _ _ _)
    refine Reads.dh (env := env) (k := fun _ o => if (env.lt (env.lit 1 10) (env.abs (o.newslope / o.initialslope)) && env.lt (o.f1 + cfg.alpha * o.stepsize * o.ngf1) o.f2) = true then some (t * cfg.ratio1, { o with status := .nonExact })
          else some (t * cfg.ratio1, o)) ?_
    intro S
    exact Reads.ite _ (fun _ => Reads.const _ (samePair _ _ rfl rfl)) (fun _ => Reads.const _ (samePair _ _ rfl rfl))

theorem exLoop_reads (n k : Nat) : ∀ (S : List X) (l : X) (a1 B sgf1 sf1 : K) (o : Obj K X E M), (k = 0 → o.x2 = l) → Reads obsOpt AtX2Opt c0 (obs o) S l fun c => exLoop (env.withCalls c) cfg n k a1 B sgf1 sf1 o := by
  induction k with
  | zero => intro S l a1 B sgf1 sf1 o hl; exact Reads.doneOpt _ rfl (hl rfl)
  | succ k ih =>
    intro S l a1 B sgf1 sf1 o _
    have key : Reads obsPair AtX2Pair c0 (obs o) S l fun c =>
        exInner (env.withCalls c) cfg a1 (-sgf1 / B) sf1 sgf1 n (env.lit 1 1) (h (env.withCalls c) { o with stepsize := a1 + env.lit 1 1 * (-sgf1 / B) }) :=
      Reads.h (env := env) (o := { o with stepsize := a1 + env.lit 1 1 * (-sgf1 / B) }) (k := fun c p => exInner (env.withCalls c) cfg a1 (-sgf1 / B) sf1 sgf1 n (env.lit 1 1) p) (exInner_reads _ _ _ _ _ _ _ _)
    refine Reads.bind (get' := obsOpt) (G := fun c (r : Option (K × Obj K X E M)) => match r with
      | none => none
      | some (t, o) =>
        if o.status = .nonExact then some o
        else
          let s := t * (-sgf1 / B)
          let o := dh (env.withCalls c) o
          if env.lt (env.abs s) (exMin env) || env.lt (env.abs (o.newslope / o.initialslope)) (env.lit 1 1000000) then some o
          else
            let y := o.newslope - sgf1
            exLoop (env.withCalls c) cfg n k (a1 + t * (-sgf1 / B)) (if env.lt (env.lit 0 1) (y / s) then y / s else B) o.newslope o.f2 o) key ?_ ?_
    · intro m S' l' hp _ hl
      revert hp hl
      generalize exInner (env.withCalls c0) cfg a1 (-sgf1 / B) sf1 sgf1 n ((env.withCalls c0).lit 1 1) (h (env.withCalls c0) { o with stepsize := a1 + (env.withCalls c0).lit 1 1 * (-sgf1 / B) }) = r
      intro hp hl
      cases r with
      | none => cases hp
      | some r =>
        obtain ⟨t, p'⟩ := r
        cases hp
        cases hl _ rfl
        by_cases hs : p'.status = .nonExact
        · simp only [if_pos hs]
          exact Reads.doneOpt _ rfl rfl
        · simp only [if_neg hs]
          refine Reads.dh (env := env) (o := p') (k := fun c o => if (env.lt (env.abs (t * (-sgf1 / B))) (exMin env) || env.lt (env.abs (o.newslope / o.initialslope)) (env.lit 1 1000000)) = true then some o
            else exLoop (env.withCalls c) cfg n k (a1 + t * (-sgf1 / B)) (if env.lt (env.lit 0 1) ((o.newslope - sgf1) / (t * (-sgf1 / B))) then (o.newslope - sgf1) / (t * (-sgf1 / B)) else B) o.newslope o.f2 o) ?_
          intro S
          exact Reads.ite _ (fun _ => Reads.doneOpt _ rfl rfl) (fun _ => ih _ _ _ _ _ _ _ fun _ => rfl)
    · intro hp c
      revert hp
      generalize exInner (env.withCalls c0) cfg a1 (-sgf1 / B) sf1 sgf1 n ((env.withCalls c0).lit 1 1) (h (env.withCalls c0) { o with stepsize := a1 + (env.withCalls c0).lit 1 1 * (-sgf1 / B) }) = r
      intro hp
      cases r with
      | none => exact ⟨rfl, rfl⟩
      | some r => cases hp

theorem exSearch_reads (S : List X) (l : X) (n : Nat) (o : Obj K X E M) : Reads obsOpt AtX2Opt c0 (obs o) S l fun c => exSearch (env.withCalls c) cfg ls n o := by
  refine Reads.map (G := fun _ o =>
    let o := if env.le o.stepsize cfg.minstep then { o with status := .minStep } else o
    if env.le ls.maxstep o.stepsize then { o with status := .maxStep } else o) (exLoop_reads n 20 _ _ _ _ _ _ _ (fun h => by cases h)) ?_
  intro p S' _
  refine Reads.const _ ?_
  refine same _ ?_ ?_
  · dsimp only
    split_ifs <;> rfl
  · dsimp only
    split_ifs <;> rfl

/-! ## The user's search -/

theorem inSearch_reads (S : List X) (l : X) (pureInput : Bool) (user : Nat → X → E → K → K → K) (n : Nat) (o : Obj K X E M) :
    Reads obsOpt AtX2Opt c0 (obs o) S l fun c => inSearch (env.withCalls c) cfg pureInput user n o := by
  refine Reads.ite pureInput (fun _ => ?_) (fun _ => armijo_reads _ _ n _)
  refine Reads.h (env := env) (k := fun c p => some (gradX2 (env.withCalls c) p)) ?_
  exact Reads.gradX2 (env := env) (k := fun _ p => some p) fun _ => Reads.doneOpt _ rfl rfl

end Verif.Obj
