import Verif.Solver.ObjectSearchLemmas
import Verif.Props.Report
import Mathlib.Algebra.Order.Field.Basic
import Mathlib.Tactic.Linarith
import Mathlib.Tactic.Positivity
import Mathlib.Tactic.Ring
import Mathlib.Tactic.NormNum
import Mathlib.Tactic.FieldSimp
import Mathlib.Tactic.GCongr

/-!
# C140: the trial steps of the strong Wolfe search

`Zoom` is documented to choose its trial steps by quadratic interpolation, kept inside the bracket by `LS_ratio1` and `LS_ratio2`. Every trial step does lie inside the bracket and the brackets shrink by a fixed
factor. But the interpolation has no effect when the better end of the bracket is the right one, nor in the first bracket, where the value at the left end is taken to be the greatest number; so a search whose first trial fails
only tries the steps `LS_ratio1 ^ k` times the initial one, nine of them, and gives up.
-/

set_option linter.unusedSectionVars false

namespace Verif.Obj

variable {K X E M : Type*} [Field K] [LinearOrder K] [IsStrictOrderedRing K] {env : Env K X E} {cfg : Cfg K X E} {ls : LSCfg K}

/-- Comparisons and literals are those of the ordered field. -/
structure Ordered (env : Env K X E) : Prop where
  lt : ∀ a b, env.lt a b = decide (a < b)
  le : ∀ a b, env.le a b = decide (a ≤ b)
  zero : env.lit 0 1 = 0
  two : env.lit 2 1 = 2

/-- The minimizer of the parabola with value `flo` and slope `s` at `lo` and value `fhi` at `hi`. -/
def parabolaMin (lo hi flo fhi s : K) : K := lo + -s * (hi - lo) * (hi - lo) / 2 / (fhi - (flo + s * (hi - lo)))

/-- What `Zoom` is meant to try: the minimizer of the parabola, moved to the nearest point between `lo + r1 (hi - lo)` and `lo + r2 (hi - lo)`. -/
def safeguarded (r1 r2 lo hi flo fhi s : K) : K :=
  max (min (lo + r1 * (hi - lo)) (lo + r2 * (hi - lo))) (min (parabolaMin lo hi flo fhi s) (max (lo + r1 * (hi - lo)) (lo + r2 * (hi - lo))))

theorem zoomPick_eq (h : Ordered env) (lo hi flo fhi s : K) :
    zoomPick env cfg lo hi flo fhi s = lo + min (max (parabolaMin lo hi flo fhi s - lo) ((hi - lo) * cfg.ratio1)) ((hi - lo) * cfg.ratio2) := by
  have e1 : ∀ a b : K, (if env.lt a b = true then b else a) = max a b := by
    intro a b
    rcases lt_or_ge a b with c | c
    · rw [if_pos (by rw [h.lt]; exact decide_eq_true c), max_eq_right c.le]
    · rw [if_neg (by rw [h.lt, decide_eq_true_eq]; exact not_lt.mpr c), max_eq_left c]
  have e2 : ∀ a b : K, (if env.lt a b = true then a else b) = min a b := by
    intro a b
    rcases lt_or_ge a b with c | c
    · rw [if_pos (by rw [h.lt]; exact decide_eq_true c), min_eq_left c.le]
    · rw [if_neg (by rw [h.lt, decide_eq_true_eq]; exact not_lt.mpr c), min_eq_right c]
  unfold zoomPick
  dsimp only
  rw [e1, e2, h.two, show parabolaMin lo hi flo fhi s - lo = -s * (hi - lo) * (hi - lo) / 2 / (fhi - (flo + s * (hi - lo))) by unfold parabolaMin; ring]

/-- **C140, ascending bracket**: the trial step is the safeguarded minimizer of the parabola. -/
theorem C140_ascending (h : Ordered env) (hr : cfg.ratio1 ≤ cfg.ratio2) {lo hi : K} (hlt : lo < hi) (flo fhi s : K) :
    zoomPick env cfg lo hi flo fhi s = safeguarded cfg.ratio1 cfg.ratio2 lo hi flo fhi s := by
  have hd : 0 < hi - lo := sub_pos.mpr hlt
  have hm : cfg.ratio1 * (hi - lo) ≤ cfg.ratio2 * (hi - lo) := mul_le_mul_of_nonneg_right hr hd.le
  rw [zoomPick_eq h]
  unfold safeguarded
  rw [min_eq_left (a := lo + cfg.ratio1 * (hi - lo)) (b := lo + cfg.ratio2 * (hi - lo)) (by linarith), max_eq_right (a := lo + cfg.ratio1 * (hi - lo)) (b := lo + cfg.ratio2 * (hi - lo)) (by linarith), mul_comm (hi - lo), mul_comm (hi - lo)]
  generalize parabolaMin lo hi flo fhi s = p
  generalize cfg.ratio1 * (hi - lo) = a at *
  generalize cfg.ratio2 * (hi - lo) = b at *
  rcases le_total (p - lo) a with c | c
  · rw [max_eq_right c, min_eq_left hm, min_eq_left (by linarith), max_eq_left (by linarith)]
  · rw [max_eq_left c]
    rcases le_total (p - lo) b with c' | c'
    · rw [min_eq_left c', min_eq_left (by linarith), max_eq_right (by linarith)]; ring
    · rw [min_eq_right c', min_eq_right (by linarith), max_eq_right (by linarith)]

/-- **C140 is false for descending brackets** (the better end is the right one): whatever the values and slopes, the trial step is `lo + LS_ratio2 (hi - lo)`; the interpolation has no effect. -/
theorem C140_descending_ignores (h : Ordered env) (hr : cfg.ratio1 ≤ cfg.ratio2) {lo hi : K} (hlt : hi < lo) (flo fhi s : K) :
    zoomPick env cfg lo hi flo fhi s = lo + cfg.ratio2 * (hi - lo) := by
  have hd : hi - lo < 0 := sub_neg.mpr hlt
  have hm : (hi - lo) * cfg.ratio2 ≤ (hi - lo) * cfg.ratio1 := mul_le_mul_of_nonpos_left hr hd.le
  rw [zoomPick_eq h, min_eq_right (hm.trans (le_max_right _ _)), mul_comm]

/-- **C140 is false in the first bracket**, where `flo` is the greatest number: whatever the values and the slope, the trial step is `lo + LS_ratio1 (hi - lo)`. -/
theorem C140_first_ignores (h : Ordered env) (hr : cfg.ratio1 ≤ cfg.ratio2) (h1 : 0 < cfg.ratio1) {lo hi : K} (hlt : lo < hi) {flo fhi s : K} (hs : s ≤ 0) (hbig : fhi - s * (hi - lo) ≤ flo) :
    zoomPick env cfg lo hi flo fhi s = lo + cfg.ratio1 * (hi - lo) := by
  have hd : 0 < hi - lo := sub_pos.mpr hlt
  have hp : parabolaMin lo hi flo fhi s - lo ≤ 0 := by
    unfold parabolaMin
    rw [add_sub_cancel_left]
    refine div_nonpos_of_nonneg_of_nonpos ?_ (by linarith)
    have : 0 ≤ -s * (hi - lo) * (hi - lo) := mul_nonneg (mul_nonneg (by linarith) hd.le) hd.le
    positivity
  rw [zoomPick_eq h, max_eq_right (hp.trans (mul_nonneg hd.le h1.le)), min_eq_left (mul_le_mul_of_nonneg_left hr hd.le), mul_comm]

/-- **C140, inside the bracket**: every trial step lies strictly between the ends of the bracket, at a distance between `LS_ratio1` and `LS_ratio2` times its length from `lo`. -/
theorem C140_inside (h : Ordered env) (h1 : 0 < cfg.ratio1) (hr : cfg.ratio1 ≤ cfg.ratio2) {lo hi : K} (hne : lo ≠ hi) (flo fhi s : K) :
    ∃ c, cfg.ratio1 ≤ c ∧ c ≤ cfg.ratio2 ∧ zoomPick env cfg lo hi flo fhi s = lo + c * (hi - lo) := by
  rcases lt_or_gt_of_ne hne with hlt | hlt
  · have hd : 0 < hi - lo := sub_pos.mpr hlt
    have hm : (hi - lo) * cfg.ratio1 ≤ (hi - lo) * cfg.ratio2 := mul_le_mul_of_nonneg_left hr hd.le
    rw [zoomPick_eq h]
    refine ⟨min (max (parabolaMin lo hi flo fhi s - lo) ((hi - lo) * cfg.ratio1)) ((hi - lo) * cfg.ratio2) / (hi - lo), ?_, ?_, by rw [div_mul_cancel₀ _ hd.ne']⟩
    · rw [le_div_iff₀ hd, mul_comm]
      exact le_min (le_max_right _ _) hm
    · rw [div_le_iff₀ hd, mul_comm cfg.ratio2]
      exact min_le_right _ _
  · exact ⟨cfg.ratio2, hr, le_rfl, C140_descending_ignores h hr hlt _ _ _⟩

/-- **C140, brackets shrink**: whichever end is replaced, the next bracket is at most `max LS_ratio2 (1 - LS_ratio1)` times as long. (In `Zoom` the next bracket joins the trial step to `lo` or to `hi`.) -/
theorem C140_shrinks (h : Ordered env) (h1 : 0 < cfg.ratio1) (hr : cfg.ratio1 ≤ cfg.ratio2) (h2 : cfg.ratio2 ≤ 1) {lo hi : K} (hne : lo ≠ hi) (flo fhi s : K) :
    |zoomPick env cfg lo hi flo fhi s - lo| ≤ max cfg.ratio2 (1 - cfg.ratio1) * |hi - lo| ∧ |zoomPick env cfg lo hi flo fhi s - hi| ≤ max cfg.ratio2 (1 - cfg.ratio1) * |hi - lo| := by
  obtain ⟨c, c1, c2, hc⟩ := C140_inside h h1 hr hne flo fhi s
  rw [hc]
  constructor
  · rw [add_sub_cancel_left, abs_mul, abs_of_nonneg (h1.le.trans c1)]
    exact mul_le_mul_of_nonneg_right (c2.trans (le_max_left _ _)) (abs_nonneg _)
  · rw [show lo + c * (hi - lo) - hi = -((1 - c) * (hi - lo)) by ring, abs_neg, abs_mul, abs_of_nonneg (by linarith)]
    exact mul_le_mul_of_nonneg_right ((by linarith : 1 - c ≤ 1 - cfg.ratio1).trans (le_max_right _ _)) (abs_nonneg _)

/-- **C140, the step of `Zoom`**: whatever happens during the search, the step it leaves lies strictly between the ends of the bracket it was called with. -/
theorem C140_between (h : Ordered env) (h1 : 0 < cfg.ratio1) (hr : cfg.ratio1 ≤ cfg.ratio2) (h2 : cfg.ratio2 < 1) (n : Nat) :
    ∀ (lo hi flo fhi s : K) (o : Obj K X E M), lo ≠ hi → ∃ c, 0 < c ∧ c < 1 ∧ (zoom env cfg ls n lo hi flo fhi s o).stepsize = lo + c * (hi - lo) := by
  induction n with
  | zero =>
    intro lo hi flo fhi s o hne
    obtain ⟨c, c1, c2, hc⟩ := C140_inside h h1 hr hne flo fhi s
    exact ⟨c, h1.trans_le c1, c2.trans_lt h2, hc⟩
  | succ n ih =>
    intro lo hi flo fhi s o hne
    obtain ⟨c, c1, c2, hc⟩ := C140_inside h h1 hr hne flo fhi s
    have c0 : 0 < c := h1.trans_le c1
    have c3 : c < 1 := c2.trans_lt h2
    have hd : hi - lo ≠ 0 := sub_ne_zero.mpr hne.symm
    unfold zoom
    dsimp only
    rw [hc]
    generalize ho : Verif.Obj.h env { o with stepsize := lo + c * (hi - lo) } = o1
    have hst : o1.stepsize = lo + c * (hi - lo) := by rw [← ho]; rfl
    have hst' : (dh env o1).stepsize = lo + c * (hi - lo) := hst
    by_cases b1 : (decBad env cfg o1 || env.le flo o1.f2) = true
    · rw [if_pos b1]
      by_cases b2 : env.le o1.stepsize cfg.minstep = true
      · rw [if_pos b2]; exact ⟨c, c0, c3, hst⟩
      · rw [if_neg b2, hst]
        obtain ⟨e, e0, e1, he⟩ := ih lo (lo + c * (hi - lo)) flo o1.f2 s o1 (by intro hh; exact (mul_ne_zero c0.ne' hd) (by linarith))
        exact ⟨e * c, mul_pos e0 c0, by nlinarith, he.trans (by ring)⟩
    · rw [if_neg b1]
      by_cases b2 : env.le (env.abs (dh env o1).newslope) (-ls.beta * (dh env o1).initialslope) = true
      · rw [if_pos b2]; exact ⟨c, c0, c3, hst'⟩
      · rw [if_neg b2]
        by_cases b3 : env.le (dh env o1).stepsize cfg.minstep = true
        · rw [if_pos b3]; exact ⟨c, c0, c3, hst'⟩
        · rw [if_neg b3, hst']
          by_cases b4 : env.le (env.lit 0 1) ((dh env o1).newslope * (hi - lo)) = true
          · rw [if_pos b4]
            obtain ⟨e, e0, e1, he⟩ := ih (lo + c * (hi - lo)) lo (dh env o1).f2 (if env.le (env.lit 0 1) ((dh env o1).newslope * (hi - lo)) = true then flo else fhi) (dh env o1).newslope (dh env o1)
              (by intro hh; exact (mul_ne_zero c0.ne' hd) (by linarith))
            exact ⟨c * (1 - e), mul_pos c0 (by linarith), by nlinarith, he.trans (by ring)⟩
          · rw [if_neg b4]
            obtain ⟨e, e0, e1, he⟩ := ih (lo + c * (hi - lo)) hi (dh env o1).f2 (if env.le (env.lit 0 1) ((dh env o1).newslope * (hi - lo)) = true then flo else fhi) (dh env o1).newslope (dh env o1)
              (by intro hh; exact (mul_ne_zero (sub_ne_zero.mpr c3.ne) hd) (by linarith))
            exact ⟨c + e * (1 - c), by nlinarith, by nlinarith, he.trans (by ring)⟩

/-! ## Giving up -/

/-- The value along the ray of the search. -/
def ray (env : Env K X E) (o : Obj K X E M) (t : K) : K := env.f (env.retr o.x1 (env.smul t o.eta1))

theorem zoom_gives_up (h : Ordered env) (h1 : 0 < cfg.ratio1) (h1' : cfg.ratio1 < 1) (hr : cfg.ratio1 ≤ cfg.ratio2) (n : Nat) :
    ∀ (t fhi : K) (o : Obj K X E M), 0 < t → o.initialslope ≤ 0 → fhi - o.initialslope * t ≤ ls.big →
      (∀ k ≤ n, 1 ≤ k → o.f1 + cfg.alpha * (cfg.ratio1 ^ k * t) * o.initialslope < ray env o (cfg.ratio1 ^ k * t) ∧ ray env o (cfg.ratio1 ^ k * t) - o.initialslope * t ≤ ls.big ∧ cfg.minstep < cfg.ratio1 ^ k * t) →
      (zoom env cfg ls n 0 t ls.big fhi o.initialslope o).status = .lsError ∧ (zoom env cfg ls n 0 t ls.big fhi o.initialslope o).gf2 = o.gf2 ∧
        (zoom env cfg ls n 0 t ls.big fhi o.initialslope o).cnt.nf = o.cnt.nf + n ∧ (zoom env cfg ls n 0 t ls.big fhi o.initialslope o).cnt.ng = o.cnt.ng ∧
        (zoom env cfg ls n 0 t ls.big fhi o.initialslope o).stepsize = cfg.ratio1 ^ (n + 1) * t ∧
        (0 < n → (zoom env cfg ls n 0 t ls.big fhi o.initialslope o).x2 = env.retr o.x1 (env.smul (cfg.ratio1 ^ n * t) o.eta1)) := by
  induction n with
  | zero =>
    intro t fhi o ht hs hb _
    refine ⟨rfl, rfl, rfl, rfl, ?_, fun hn => absurd hn (lt_irrefl _)⟩
    show zoomPick env cfg 0 t ls.big fhi o.initialslope = _
    rw [C140_first_ignores h hr h1 ht hs (by rw [sub_zero]; exact hb), pow_one]; ring
  | succ n ih =>
    intro t fhi o ht hs hb hk
    have hp : zoomPick env cfg 0 t ls.big fhi o.initialslope = cfg.ratio1 * t := by
      rw [C140_first_ignores h hr h1 ht hs (by rw [sub_zero]; exact hb)]; ring
    unfold zoom
    dsimp only
    rw [hp]
    obtain ⟨k1, k2, k3⟩ := hk 1 (by omega) le_rfl
    rw [pow_one] at k1 k2 k3
    have hbad : decBad env cfg (Verif.Obj.h env { o with stepsize := cfg.ratio1 * t }) = true := by
      unfold decBad
      rw [h.lt, decide_eq_true_eq]
      exact k1
    have hmin : ¬(env.le (Verif.Obj.h env { o with stepsize := cfg.ratio1 * t }).stepsize cfg.minstep = true) := by
      rw [h.le, decide_eq_true_eq]
      exact not_le.mpr k3
    rw [hbad, Bool.true_or, if_pos rfl, if_neg hmin]
    have hts : cfg.ratio1 * t ≤ t := by nlinarith
    have hsl : -(o.initialslope * (cfg.ratio1 * t)) ≤ -(o.initialslope * t) := by nlinarith
    obtain ⟨a, b, c, d, e, f⟩ := ih (cfg.ratio1 * t) (Verif.Obj.h env { o with stepsize := cfg.ratio1 * t }).f2 (Verif.Obj.h env { o with stepsize := cfg.ratio1 * t }) (mul_pos h1 ht) hs
      (by
        show ray env o (cfg.ratio1 * t) - o.initialslope * (cfg.ratio1 * t) ≤ ls.big
        linarith)
      (by
        intro k hk' h1k
        obtain ⟨m1, m2, m3⟩ := hk (k + 1) (by omega) (by omega)
        have e : cfg.ratio1 ^ (k + 1) * t = cfg.ratio1 ^ k * (cfg.ratio1 * t) := by rw [pow_succ, mul_assoc]
        rw [e] at m1 m2 m3
        refine ⟨m1, ?_, m3⟩
        show ray env o (cfg.ratio1 ^ k * (cfg.ratio1 * t)) - o.initialslope * (cfg.ratio1 * t) ≤ ls.big
        linarith)
    refine ⟨a, b, ?_, d, ?_, fun _ => ?_⟩
    · exact c.trans (by show o.cnt.nf + 1 + n = o.cnt.nf + (n + 1); omega)
    · exact e.trans (by rw [pow_succ (cfg.ratio1) (n + 1)]; ring)
    · rcases Nat.eq_zero_or_pos n with rfl | hn
      · show (zoom env cfg ls 0 0 (cfg.ratio1 * t) ls.big _ _ _).x2 = _
        rw [pow_one]; rfl
      · exact (f hn).trans (by
          show env.retr o.x1 (env.smul (cfg.ratio1 ^ n * (cfg.ratio1 * t)) o.eta1) = _
          rw [pow_succ, mul_assoc])

/-- **C140, giving up.** If the initial step and the steps `LS_ratio1 ^ k` times it for `k = 1, …, 9` do not decrease the function sufficiently, the strong Wolfe search fails after exactly ten evaluations of the function,
however many acceptable smaller steps there are and however small `Minstepsize` is. The point it leaves is the one at the ninth fraction, the gradient there is not evaluated: the member keeps what it contained before. -/
theorem C140_gives_up (h : Ordered env) (h1 : 0 < cfg.ratio1) (h1' : cfg.ratio1 < 1) (hr : cfg.ratio1 ≤ cfg.ratio2) (m : Nat) (o : Obj K X E M) (ht : 0 < o.stepsize) (hs : o.initialslope ≤ 0)
    (hbad : ∀ k ≤ 9, o.f1 + cfg.alpha * (cfg.ratio1 ^ k * o.stepsize) * o.initialslope < ray env o (cfg.ratio1 ^ k * o.stepsize))
    (hbig : ∀ k ≤ 9, ray env o (cfg.ratio1 ^ k * o.stepsize) - o.initialslope * o.stepsize ≤ ls.big) (hmin : cfg.minstep < cfg.ratio1 ^ 9 * o.stepsize) :
    ∃ o', swSearch env cfg ls (m + 1) o = some o' ∧ o'.status = .lsError ∧ o'.cnt.nf = o.cnt.nf + 10 ∧ o'.cnt.ng = o.cnt.ng ∧ o'.gf2 = o.gf2 ∧
      o'.x2 = env.retr o.x1 (env.smul (cfg.ratio1 ^ 9 * o.stepsize) o.eta1) ∧ o'.stepsize = cfg.ratio1 ^ 10 * o.stepsize := by
  unfold swSearch swLoop
  dsimp only
  have hb0 : decBad env cfg (Verif.Obj.h env { o with status := Status.success }) = true := by
    unfold decBad
    rw [h.lt, decide_eq_true_eq]
    have := hbad 0 (by omega)
    rw [pow_zero, one_mul] at this
    exact this
  rw [hb0, Bool.true_or, if_pos rfl, h.zero]
  have g0 := hbig 0 (by omega)
  rw [pow_zero, one_mul] at g0
  obtain ⟨a, b, c, d, e, f⟩ := zoom_gives_up (ls := ls) h h1 h1' hr 9 o.stepsize (Verif.Obj.h env { o with status := Status.success }).f2 (Verif.Obj.h env { o with status := Status.success }) ht hs g0
    (fun k hk _ => ⟨hbad k hk, hbig k hk, lt_of_lt_of_le hmin (by
      refine mul_le_mul_of_nonneg_right ?_ ht.le
      exact pow_le_pow_of_le_one h1.le h1'.le hk)⟩)
  exact ⟨_, rfl, a, c, d, b, f (by omega), e⟩

/-- A step along the direction with sufficient decrease and a slope small enough. -/
def HasWolfeStep (env : Env K X E) (cfg : Cfg K X E) (ls : LSCfg K) (o : Obj K X E M) : Prop :=
  ∃ t, 0 < t ∧ ray env o t ≤ o.f1 + cfg.alpha * t * o.initialslope ∧
    |env.metric (env.retr o.x1 (env.smul t o.eta1)) (env.grad (env.retr o.x1 (env.smul t o.eta1)))
      (env.dretr o.x1 (env.smul t o.eta1) (env.retr o.x1 (env.smul t o.eta1)) o.eta1)| ≤ -ls.beta * o.initialslope

theorem lineEnv_ordered (c : ℚ) : Ordered (lineEnv c) := ⟨fun _ _ => rfl, fun _ _ => rfl, (by decide +kernel : mkRat 0 1 = 0), (by decide +kernel : mkRat 2 1 = 2)⟩

/-- The object before the search from 1 along the negative gradient of `c / 2 x²` with initial step 1. -/
def steepObj (c e : ℚ) : Obj ℚ ℚ ℚ Unit := { freshObj () 1 with f1 := c / 2, gf1 := c, gf2 := e, eta1 := -c, stepsize := 1, initialslope := -(c * c) }

/-- **C140: the search fails although an acceptable step exists**, for every parabola `c / 2 x²` with `2 · 10⁹ < c` and the default parameters: the minimizer of the function along the ray is a strong Wolfe step, the search
reports an error after ten evaluations. -/
theorem C140_misses_step (c e : ℚ) (hc : 2 * 10 ^ 9 < c) (hc' : c ≤ 10 ^ 99) (m : Nat) :
    HasWolfeStep (lineEnv c) (repCfg .armijo 5) repLS (steepObj c e) ∧
      ∃ o', swSearch (lineEnv c) (repCfg .armijo 5) repLS (m + 1) (steepObj c e) = some o' ∧ o'.status = .lsError ∧ o'.cnt.nf = 10 ∧ o'.cnt.ng = 0 ∧ o'.gf2 = e := by
  have hc0 : (0 : ℚ) < c := lt_trans (by norm_num) hc
  have hray : ∀ t : ℚ, ray (lineEnv c) (steepObj c e) t = c / 2 * (1 + t * -c) * (1 + t * -c) := fun t => rfl
  constructor
  · refine ⟨1 / c, by positivity, ?_, ?_⟩
    · rw [hray]
      have : (1 : ℚ) + 1 / c * -c = 0 := by field_simp; norm_num
      rw [this, mul_zero]
      show (0 : ℚ) ≤ c / 2 + 1 / 10000 * (1 / c) * -(c * c)
      have : (1 : ℚ) / 10000 * (1 / c) * -(c * c) = -(c / 10000) := by field_simp
      rw [this]; linarith
    · have h0 : (lineEnv c).metric ((lineEnv c).retr (steepObj c e).x1 ((lineEnv c).smul (1 / c) (steepObj c e).eta1))
          ((lineEnv c).grad ((lineEnv c).retr (steepObj c e).x1 ((lineEnv c).smul (1 / c) (steepObj c e).eta1)))
          ((lineEnv c).dretr (steepObj c e).x1 ((lineEnv c).smul (1 / c) (steepObj c e).eta1) ((lineEnv c).retr (steepObj c e).x1 ((lineEnv c).smul (1 / c) (steepObj c e).eta1)) (steepObj c e).eta1) = 0 := by
        have : (lineEnv c).retr (steepObj c e).x1 ((lineEnv c).smul (1 / c) (steepObj c e).eta1) = 0 := by
          show (1 : ℚ) + 1 / c * -c = 0
          field_simp; norm_num
        rw [this]
        show c * 0 * _ = (0 : ℚ)
        rw [mul_zero, zero_mul]
      rw [h0, abs_zero]
      show (0 : ℚ) ≤ -(999 / 1000) * -(c * c)
      have := mul_pos hc0 hc0
      nlinarith
  · have hpow : ∀ k ≤ 9, (1 / 10 : ℚ) ^ 9 ≤ (1 / 10) ^ k := fun k hk => pow_le_pow_of_le_one (by norm_num) (by norm_num) hk
    have hle : ∀ k : Nat, (1 / 10 : ℚ) ^ k ≤ 1 := fun k => pow_le_one₀ (by norm_num) (by norm_num)
    have key : ∀ k ≤ 9, 2 < (1 / 10 : ℚ) ^ k * c := by
      intro k hk
      calc (2 : ℚ) = (1 / 10) ^ 9 * (2 * 10 ^ 9) := by norm_num
        _ < (1 / 10) ^ 9 * c := by gcongr
        _ ≤ (1 / 10) ^ k * c := mul_le_mul_of_nonneg_right (hpow k hk) hc0.le
    obtain ⟨o', a, b, d, g, i, -, -⟩ := C140_gives_up (ls := repLS) (cfg := repCfg .armijo 5) (lineEnv_ordered c) (by show (0 : ℚ) < 1 / 10; norm_num) (by show (1 : ℚ) / 10 < 1; norm_num)
      (by show (1 : ℚ) / 10 ≤ 9 / 10; norm_num) m (steepObj c e) (by show (0 : ℚ) < 1; norm_num) (by show -(c * c) ≤ 0; have := mul_pos hc0 hc0; linarith)
      (by
        intro k hk
        rw [hray]
        show c / 2 + 1 / 10000 * ((1 / 10 : ℚ) ^ k * 1) * -(c * c) < c / 2 * (1 + (1 / 10 : ℚ) ^ k * 1 * -c) * (1 + (1 / 10 : ℚ) ^ k * 1 * -c)
        have hk' := key k hk
        generalize (1 / 10 : ℚ) ^ k = u at *
        have hu : 0 < u * c := by linarith
        have h2 : 0 < (u * c) * (u * c - 2) := mul_pos hu (by linarith)
        have h3 : 0 < c * ((u * c) * (u * c - 2)) := mul_pos hc0 h2
        have h4 : 0 < c * (u * c) := mul_pos hc0 hu
        nlinarith)
      (by
        intro k _
        rw [hray]
        show c / 2 * (1 + (1 / 10 : ℚ) ^ k * 1 * -c) * (1 + (1 / 10 : ℚ) ^ k * 1 * -c) - -(c * c) * 1 ≤ (2 ^ 53 - 1) * 2 ^ 971
        have hk' := hle k
        have h0 : (0 : ℚ) < (1 / 10) ^ k := by positivity
        generalize (1 / 10 : ℚ) ^ k = u at *
        have hu : u * c ≤ c := by nlinarith
        have hu0 : 0 < u * c := mul_pos h0 hc0
        have hsq : (1 - u * c) * (1 - u * c) ≤ c * c := by nlinarith
        have e1 : c / 2 * (1 + u * 1 * -c) * (1 + u * 1 * -c) = c / 2 * ((1 - u * c) * (1 - u * c)) := by ring
        rw [e1]
        have h5 : c / 2 * ((1 - u * c) * (1 - u * c)) ≤ c / 2 * (c * c) := mul_le_mul_of_nonneg_left hsq (by linarith)
        have hcc : c * c ≤ 10 ^ 99 * 10 ^ 99 := mul_le_mul hc' hc' hc0.le (by norm_num)
        have hccc : c / 2 * (c * c) ≤ 10 ^ 99 * (10 ^ 99 * 10 ^ 99) := mul_le_mul (by linarith) hcc (by positivity) (by norm_num)
        have hbig : (10 : ℚ) ^ 99 * (10 ^ 99 * 10 ^ 99) + 10 ^ 99 * 10 ^ 99 ≤ (2 ^ 53 - 1) * 2 ^ 971 := by decide +kernel
        refine le_trans ?_ hbig
        clear hbig
        linarith)
      (by show mkRat 1 (2 ^ 52) < (1 / 10 : ℚ) ^ 9 * 1; decide +kernel)
    exact ⟨o', a, b, d, g, i⟩

/-- Non-trivial instances: an ascending bracket in which the minimizer of the parabola is tried, the reversed bracket on the same parabola, in which it is not. -/
example : zoomPick (lineEnv 1) (repCfg .armijo 5) 0 1 0 (1 / 10) (-1) = 5 / 11 ∧ parabolaMin (0 : ℚ) 1 0 (1 / 10) (-1) = 5 / 11 ∧
    zoomPick (lineEnv 1) (repCfg .armijo 5) 1 0 (1 / 10) 0 (6 / 5) = 1 / 10 ∧ parabolaMin (1 : ℚ) 0 (1 / 10) 0 (6 / 5) = 5 / 11 := by
  decide +kernel

end Verif.Obj
