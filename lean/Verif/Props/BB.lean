import Verif.Solver.ObjectRefine
import Verif.Solver.ObjectSearchLemmas
import Verif.Props.Refine
import Mathlib.Analysis.InnerProductSpace.Basic

/-!
# C150: the Barzilai-Borwein initial steps

Which vectors the rule `LSSM_BBSTEP` uses, and between which bounds the initial steps lie that it hands to the line search.
-/

set_option linter.unusedSectionVars false

namespace Verif.Obj

variable {K : Type} {X E M : Type*} [Field K] [LinearOrder K] [IsStrictOrderedRing K]
variable {env : Env K X E} {cfg : Cfg K X E}

/-! ## Specification -/

/-- The step from `x` along `eta` and the change of the gradient, both as vectors at the new point. -/
def consecutive (env : Env K X E) (x : X) (eta : E) : E × E :=
  let y := env.retr x eta
  (env.transport x eta y eta, env.lin 1 (env.grad y) (-1) (env.transport x eta y (env.grad x)))

/-- The cost has curvature between `m` and `L` along the step `eta` from `x`; products are taken with the metric at `x`, as the solver does. -/
structure CurvedStep (env : Env K X E) (m L : K) (x : X) (eta : E) : Prop where
  pos : 0 < env.metric x (consecutive env x eta).1 (consecutive env x eta).1
  low : m * env.metric x (consecutive env x eta).1 (consecutive env x eta).1 ≤ env.metric x (consecutive env x eta).1 (consecutive env x eta).2
  high : env.metric x (consecutive env x eta).2 (consecutive env x eta).2 ≤ L * env.metric x (consecutive env x eta).1 (consecutive env x eta).2

/-- The Cauchy-Schwarz inequality. -/
def Schwarz (env : Env K X E) : Prop := ∀ x u v, env.metric x u v * env.metric x u v ≤ env.metric x u u * env.metric x v v

/-- The object has just moved from `x2` to `x1` along `eta2` and holds the gradients of both. -/
structure Linked (env : Env K X E) (o : Obj K X E M) : Prop where
  point : o.x1 = env.retr o.x2 o.eta2
  old : o.gf2 = env.grad o.x2
  new : o.gf1 = env.grad o.x1

/-- All numbers of the list lie between the bounds. -/
def Within (lo hi : K) (l : List K) : Prop := ∀ a ∈ l, lo ≤ a ∧ a ≤ hi

/-! ## The two quotients -/

/-- **C150, the quotients.** Both Barzilai-Borwein quotients lie between the inverse curvatures, and the second is not above the first. -/
theorem C150_pair (X0 : env.Exact) (hS : Schwarz env) {m L : K} (hm : 0 < m) (hL : 0 < L) (o : Obj K X E M) (hl : Linked env o) (hc : CurvedStep env m L o.x2 o.eta2) :
    1 / L ≤ (bbPair env o).2 ∧ (bbPair env o).2 ≤ (bbPair env o).1 ∧ (bbPair env o).1 ≤ 1 / m := by
  have e1 : env.lit 1 1 = 1 := by rw [X0.lit]; norm_num
  have e2 : env.lit (-1) 1 = -1 := by rw [X0.lit]; norm_num
  have hp : bbPair env o = (env.metric o.x2 (consecutive env o.x2 o.eta2).1 (consecutive env o.x2 o.eta2).1 / env.metric o.x2 (consecutive env o.x2 o.eta2).1 (consecutive env o.x2 o.eta2).2,
      env.metric o.x2 (consecutive env o.x2 o.eta2).1 (consecutive env o.x2 o.eta2).2 / env.metric o.x2 (consecutive env o.x2 o.eta2).2 (consecutive env o.x2 o.eta2).2) := by
    unfold bbPair consecutive
    simp only [e1, e2, hl.old, hl.new, hl.point]
  obtain ⟨h1, h2, h3⟩ := hc
  have h4 := hS o.x2 (consecutive env o.x2 o.eta2).1 (consecutive env o.x2 o.eta2).2
  rw [hp]
  dsimp only
  generalize env.metric o.x2 (consecutive env o.x2 o.eta2).1 (consecutive env o.x2 o.eta2).1 = ss at *
  generalize env.metric o.x2 (consecutive env o.x2 o.eta2).1 (consecutive env o.x2 o.eta2).2 = sy at *
  generalize env.metric o.x2 (consecutive env o.x2 o.eta2).2 (consecutive env o.x2 o.eta2).2 = yy at *
  have hsy : 0 < sy := lt_of_lt_of_le (mul_pos hm h1) h2
  have hyy : 0 < yy := by
    by_contra h
    have : ss * yy ≤ 0 := mul_nonpos_of_nonneg_of_nonpos h1.le (not_lt.mp h)
    have := mul_pos hsy hsy
    linarith
  refine ⟨?_, ?_, ?_⟩
  · rw [div_le_div_iff₀ hL hyy]; linarith
  · rw [div_le_div_iff₀ hyy hsy]; exact h4
  · rw [div_le_div_iff₀ hsy hm]; linarith

/-! ## The choice and the remembered values -/

theorem foldl_min_within (X0 : env.Exact) {lo hi : K} : ∀ (l : List K) (a : K), Within lo hi l → lo ≤ a ∧ a ≤ hi →
    lo ≤ l.foldl (fun a j => if env.lt j a then j else a) a ∧ l.foldl (fun a j => if env.lt j a then j else a) a ≤ hi := by
  intro l
  induction l with
  | nil => intro a _ h; exact h
  | cons b l ih =>
    intro a hl ha
    rw [List.foldl_cons]
    refine ih _ (fun c hc => hl c (List.mem_cons_of_mem _ hc)) ?_
    split
    · exact hl b (List.mem_cons_self ..)
    · exact ha

theorem foldl_min_le (X0 : env.Exact) : ∀ (l : List K) (a : K), l.foldl (fun a j => if env.lt j a then j else a) a ≤ a ∧
    (∀ j ∈ l, l.foldl (fun a j => if env.lt j a then j else a) a ≤ j) ∧ (l.foldl (fun a j => if env.lt j a then j else a) a = a ∨ l.foldl (fun a j => if env.lt j a then j else a) a ∈ l) := by
  intro l
  induction l with
  | nil => intro a; exact ⟨le_rfl, by simp, Or.inl rfl⟩
  | cons b l ih =>
    intro a
    rw [List.foldl_cons]
    by_cases h : env.lt b a = true
    · rw [if_pos h]
      rw [X0.lt, decide_eq_true_iff] at h
      obtain ⟨i1, i2, i3⟩ := ih b
      refine ⟨le_trans i1 h.le, ?_, ?_⟩
      · intro j hj
        rcases List.mem_cons.mp hj with rfl | hj
        · exact i1
        · exact i2 j hj
      · rcases i3 with i3 | i3
        · exact Or.inr (by rw [i3]; exact List.mem_cons_self ..)
        · exact Or.inr (List.mem_cons_of_mem _ i3)
    · rw [if_neg h]
      rw [X0.lt, decide_eq_true_iff, not_lt] at h
      obtain ⟨i1, i2, i3⟩ := ih a
      refine ⟨i1, ?_, ?_⟩
      · intro j hj
        rcases List.mem_cons.mp hj with rfl | hj
        · exact le_trans i1 h
        · exact i2 j hj
      · rcases i3 with i3 | i3
        · exact Or.inl i3
        · exact Or.inr (List.mem_cons_of_mem _ i3)

/-- **C150, the choice.** With `BBratio` in `[0, 1]` and positive quotients the chosen step is the first quotient or, if that is smaller by the factor `BBratio`, the least of the second quotient and the remembered ones; it is never above the first. -/
theorem C150_choice (X0 : env.Exact) (b1 b2 : K) (l : List K) (h1 : 0 < b1) (h21 : b2 ≤ b1) (hr0 : 0 ≤ cfg.bbRatio) (hr1 : cfg.bbRatio ≤ 1) :
    ∃ c, (c = b2 ∨ c ∈ l.take cfg.numPreBB) ∧ c ≤ b2 ∧ (∀ j ∈ l.take cfg.numPreBB, c ≤ j) ∧
      bbChoose env cfg b1 b2 l ≤ b1 ∧
      (bbChoose env cfg b1 b2 l = b1 ∨ bbChoose env cfg b1 b2 l = c) ∧
      (c < cfg.bbRatio * b1 → bbChoose env cfg b1 b2 l = c ∨ (cfg.bbRatio = 0 ∧ c < 0)) ∧
      (cfg.bbRatio * b1 < c → bbChoose env cfg b1 b2 l = b1) := by
  have e0 : env.lit 0 1 = 0 := by rw [X0.lit]; norm_num
  have e1 : env.lit 1 1 = 1 := by rw [X0.lit]; norm_num
  obtain ⟨i1, i2, i3⟩ := foldl_min_le X0 (l.take cfg.numPreBB) b2
  refine ⟨(l.take cfg.numPreBB).foldl (fun a j => if env.lt j a then j else a) b2, i3, i1, i2, ?_⟩
  unfold bbChoose
  simp only [X0.eq, e0, e1, decide_eq_true_eq, Bool.and_eq_true]
  by_cases h0 : cfg.bbRatio = 0
  · rw [if_pos h0]
    refine ⟨le_rfl, Or.inl rfl, ?_, fun _ => rfl⟩
    intro h
    rw [h0, zero_mul] at h
    exact Or.inr ⟨h0, h⟩
  · rw [if_neg h0]
    by_cases hb : cfg.bbRatio = 1 ∧ cfg.numPreBB = 0
    · rw [if_pos hb]
      have ht : l.take cfg.numPreBB = [] := by rw [hb.2]; exact List.take_zero
      rw [ht]
      simp only [List.foldl_nil]
      refine ⟨h21, Or.inr trivial, fun _ => Or.inl trivial, ?_⟩
      intro h
      rw [hb.1, one_mul] at h
      exact absurd h (not_lt.mpr h21)
    · rw [if_neg hb]
      generalize (l.take cfg.numPreBB).foldl (fun a j => if env.lt j a then j else a) b2 = c at *
      rw [X0.lt]
      by_cases hlt : c / b1 < cfg.bbRatio
      · rw [if_pos (decide_eq_true hlt)]
        rw [div_lt_iff₀ h1] at hlt
        refine ⟨le_trans i1 h21, Or.inr rfl, fun _ => Or.inl rfl, fun h => absurd h (not_lt.mpr hlt.le)⟩
      · rw [if_neg (by simpa using hlt)]
        rw [div_lt_iff₀ h1] at hlt
        exact ⟨le_rfl, Or.inl rfl, fun h => absurd h hlt, fun _ => rfl⟩

theorem bbChoose_within (X0 : env.Exact) {lo hi b1 b2 : K} {l : List K} (hl : Within lo hi l) (h1 : lo ≤ b1 ∧ b1 ≤ hi) (h2 : lo ≤ b2 ∧ b2 ≤ hi) :
    lo ≤ bbChoose env cfg b1 b2 l ∧ bbChoose env cfg b1 b2 l ≤ hi := by
  unfold bbChoose
  split
  · exact h1
  · split
    · exact h2
    · dsimp only
      split
      · exact foldl_min_within X0 _ _ (fun a ha => hl a (List.mem_of_mem_take ha)) h2
      · exact h1

/-- **C150, the memory.** The newest second quotient comes first, at most `Num_pre_BB` values are kept, in the order of their age. -/
theorem C150_memory (X0 : env.Exact) (b2 ngf1 : K) (l : List K) (hb : env.eps ≤ b2) (hl : l.length ≤ cfg.numPreBB) : bbPush env cfg b2 ngf1 l = (b2 :: l).take cfg.numPreBB := by
  have hd : env.lt b2 env.eps = false := by rw [X0.lt]; exact decide_eq_false (not_lt.mpr hb)
  unfold bbPush
  simp only [hd, Bool.false_eq_true, if_false]
  by_cases h : (b2 :: l).length > cfg.numPreBB
  · rw [if_pos h, List.dropLast_eq_take]
    congr 1
    simp only [List.length_cons] at h ⊢
    omega
  · rw [if_neg h, List.take_of_length_le (not_lt.mp h)]

/-- **C150, the memory after a degenerate pair.** A second quotient below the machine epsilon is not kept: the scaled initial step takes its place. -/
theorem C150_memory_repaired (X0 : env.Exact) (b2 ngf1 : K) (l : List K) (hb : b2 < env.eps) (hl : l.length ≤ cfg.numPreBB) : bbPush env cfg b2 ngf1 l = (cfg.initstep / ngf1 :: l).take cfg.numPreBB := by
  have hd : env.lt b2 env.eps = true := by rw [X0.lt]; exact decide_eq_true hb
  unfold bbPush
  simp only [hd, if_true]
  by_cases h : (cfg.initstep / ngf1 :: l).length > cfg.numPreBB
  · rw [if_pos h, List.dropLast_eq_take]
    congr 1
    simp only [List.length_cons] at h ⊢
    omega
  · rw [if_neg h, List.take_of_length_le (not_lt.mp h)]

/-- **C150, the memory is positive**, whatever the quotients of the last step, also with negative curvature. -/
theorem C150_memory_positive (X0 : env.Exact) (heps : 0 < env.eps) (hi : 0 < cfg.initstep) {b2 ngf1 : K} (hg : 0 < ngf1) {l : List K} (hlen : l.length ≤ cfg.numPreBB) (hl : ∀ a ∈ l, 0 < a) :
    (∀ a ∈ bbPush env cfg b2 ngf1 l, 0 < a) ∧ (bbPush env cfg b2 ngf1 l).length ≤ cfg.numPreBB := by
  rcases lt_or_ge b2 env.eps with h | h
  · rw [C150_memory_repaired X0 b2 ngf1 l h hlen]
    refine ⟨fun a ha => ?_, by simp⟩
    rcases List.mem_cons.mp (List.mem_of_mem_take ha) with rfl | h1
    · exact div_pos hi hg
    · exact hl a h1
  · rw [C150_memory X0 b2 ngf1 l h hlen]
    refine ⟨fun a ha => ?_, by simp⟩
    rcases List.mem_cons.mp (List.mem_of_mem_take ha) with rfl | h1
    · exact lt_of_lt_of_le heps h
    · exact hl a h1

theorem bbPush_within (X0 : env.Exact) {lo hi b2 : K} (ngf1 : K) {l : List K} (he : env.eps ≤ lo) (hl : Within lo hi l) (h2 : lo ≤ b2 ∧ b2 ≤ hi) : Within lo hi (bbPush env cfg b2 ngf1 l) := by
  have hw : Within lo hi (b2 :: l) := by
    intro a ha
    rcases List.mem_cons.mp ha with rfl | ha
    · exact h2
    · exact hl a ha
  have hd : env.lt b2 env.eps = false := by rw [X0.lt]; exact decide_eq_false (not_lt.mpr (le_trans he h2.1))
  unfold bbPush
  simp only [hd, Bool.false_eq_true, if_false]
  split
  · exact fun a ha => hw a (List.mem_of_mem_dropLast ha)
  · exact hw

/-- The initial step that is handed to the line search after a step of curvature between `m` and `L`, and the remembered values. -/
theorem initialStep_within (X0 : env.Exact) (hS : Schwarz env) {m L : K} (hm : 0 < m) (hL : 0 < L) (he : env.eps ≤ 1 / L) (hk : cfg.initType = .bb) (o : Obj K X E M) (hit : o.iter ≠ 0)
    (hl : Linked env o) (hc : CurvedStep env m L o.x2 o.eta2) (hB : Within (1 / L) (1 / m) o.preBBs) :
    1 / L ≤ (initialStepSize env cfg o).stepsize ∧
    ((initialStepSize env cfg o).stepsize ≤ 1 / m ∨ ((initialStepSize env cfg o).stepsize = 2 * decrease env o / o.initialslopepre ∧ 100 / L < (initialStepSize env cfg o).stepsize)) ∧
    Within (1 / L) (1 / m) (initialStepSize env cfg o).preBBs := by
  obtain ⟨h1, h2, h3⟩ := C150_pair X0 hS hm hL o hl hc
  have hpush := bbPush_within (cfg := cfg) X0 o.ngf1 he hB ⟨h1, le_trans h2 h3⟩
  have hch := bbChoose_within (cfg := cfg) X0 hpush ⟨le_trans h1 h2, h3⟩ ⟨h1, le_trans h2 h3⟩
  have e100 : env.lit 100 1 = 100 := by rw [X0.lit]; norm_num
  have e2 : env.lit 2 1 = 2 := by rw [X0.lit]; norm_num
  unfold initialStepSize
  rw [if_neg hit]
  have hcand : candidate env cfg o = (bbChoose env cfg (bbPair env o).1 (bbPair env o).2 (bbPush env cfg (bbPair env o).2 o.ngf1 o.preBBs), bbPush env cfg (bbPair env o).2 o.ngf1 o.preBBs) := by
    unfold candidate; rw [hk]
  have hq : quadStep env o = 2 * decrease env o / o.initialslopepre := by unfold quadStep; rw [e2]
  simp only [hcand, hq]
  generalize bbChoose env cfg (bbPair env o).1 (bbPair env o).2 (bbPush env cfg (bbPair env o).2 o.ngf1 o.preBBs) = c at *
  generalize 2 * decrease env o / o.initialslopepre = q
  unfold safeguard
  simp only [X0.lt, e100, decide_eq_true_eq]
  have hLp : 0 < 1 / L := by positivity
  by_cases hs : c < q / 100
  · rw [if_pos hs]
    have h100 : 100 / L < q := by
      have : 1 / L < q / 100 := lt_of_le_of_lt hch.1 hs
      have e : 100 / L = 100 * (1 / L) := by ring
      rw [e]; linarith
    have hge : 1 / L ≤ q := by
      have e : 100 / L = 100 * (1 / L) := by ring
      rw [e] at h100; linarith
    rw [if_neg (not_lt.mpr (le_trans he hge))]
    exact ⟨hge, Or.inr ⟨rfl, h100⟩, hpush⟩
  · rw [if_neg hs, if_neg (not_lt.mpr (le_trans he hch.1))]
    exact ⟨hch.1, Or.inl hch.2, hpush⟩

/-! ## Runs -/

/-- A search that gives up when the condition does not hold for the members it is given. -/
def refusing (R : Obj K X E M → Prop) [DecidablePred R] (ls : Obj K X E M → Option (Obj K X E M)) (o : Obj K X E M) : Option (Obj K X E M) := if R o then ls o else none

/-- What every search guarantees: it leaves the remembered values alone, and the point it leaves in `x2` is the retraction of `eta2`, with its gradient in `gf2`. -/
def Linking (env : Env K X E) (ls : Obj K X E M → Option (Obj K X E M)) : Prop :=
  ∀ o o', ls o = some o' → Keeps o o' ∧ o'.preBBs = o.preBBs ∧ o'.x2 = env.retr o'.x1 o'.eta2 ∧ (o'.status = .success → o'.gf2 = env.grad o'.x2)

theorem searchWith_linking {ls : Obj K X E M → Option (Obj K X E M)} (h : Linking env ls) : Linking env (searchWith env cfg ls) := by
  intro o o' e
  unfold searchWith at e
  split at e
  · cases e
    refine ⟨?_, rfl, rfl, fun _ => rfl⟩
    exact ⟨rfl, rfl, rfl, rfl, rfl, rfl, rfl, rfl, rfl, rfl⟩
  · exact h o o' e

/-- The bounds of the initial steps of a run: after the first iteration at least `1 / L`, and at most `1 / m` unless it comes from the last decrease of the cost. -/
def InBounds (env : Env K X E) (m L : K) (o : Obj K X E M) : Prop :=
  o.iter ≠ 0 → 1 / L ≤ o.stepsize ∧ (o.stepsize ≤ 1 / m ∨ (o.stepsize = 2 * decrease env o / o.initialslopepre ∧ 100 / L < o.stepsize))

/-- The members at the heads of the first `n` passes of the loop. -/
def heads (env : Env K X E) (cfg : Cfg K X E) (hk : Hooks K X E M) (ls : Obj K X E M → Option (Obj K X E M)) : Nat → Bool → Bool → Obj K X E M → List (Obj K X E M)
  | 0, _, _, _ => []
  | n + 1, b, st, o => o :: (if ((!st && decide (o.iter < cfg.maxIter)) || decide (o.iter < cfg.minIter)) && decide (o.status = .success) then
      match searchWith env cfg ls (prepare env cfg hk o) with
      | none => []
      | some q => heads env cfg hk ls n (advance env cfg b (afterSearch env hk q)).1 (isStopped env cfg (afterSearch env hk q)) (advance env cfg b (afterSearch env hk q)).2
    else [])

/-- Along every step a run takes the cost has curvature between `m` and `L`. -/
def CurvedRun (env : Env K X E) (cfg : Cfg K X E) (hk : Hooks K X E M) (ls : Obj K X E M → Option (Obj K X E M)) (m L : K) (n : Nat) (o : Obj K X E M) : Prop :=
  ∀ p ∈ heads env cfg hk ls n false (isStopped env cfg (prologue env o)) (prologue env o), p.iter ≠ 0 → p.status = .success → CurvedStep env m L p.x2 p.eta2

open scoped Classical in
/-- **C150, runs.** In a run with the Barzilai-Borwein rule in which the cost has curvature between `m` and `L` along every step that was taken, every initial step handed to the line
search after the first iteration lies within the bounds: a search that refuses other initial steps gives the same run. -/
theorem C150_run (X0 : env.Exact) (hS : Schwarz env) {m L : K} (hm : 0 < m) (hL : 0 < L) (he : env.eps ≤ 1 / L) (hk : cfg.initType = .bb) (hk0 : Hooks K X E M)
    {ls : Obj K X E M → Option (Obj K X E M)} (hls : Linking env ls) (n : Nat) (o : Obj K X E M) (hc : CurvedRun env cfg hk0 ls m L n o) (hB : Within (1 / L) (1 / m) o.preBBs) :
    runWith env cfg hk0 (refusing (InBounds env m L) ls) n o = runWith env cfg hk0 ls n o := by
  have key : ∀ (n : Nat) (b st : Bool) (o : Obj K X E M), (∀ p ∈ heads env cfg hk0 ls n b st o, p.iter ≠ 0 → p.status = .success → CurvedStep env m L p.x2 p.eta2) →
      Within (1 / L) (1 / m) o.preBBs → (o.iter ≠ 0 → o.status = .success → Linked env o) → (o.gf1 = env.grad o.x1 ∨ o.iter ≠ 0) →
      loopWith env cfg hk0 (refusing (InBounds env m L) ls) n b st o = loopWith env cfg hk0 ls n b st o := by
    intro n
    induction n with
    | zero => intro b st o _ _ _ _; rfl
    | succ n ih =>
      intro b st o hcv hB hlink hg
      unfold loopWith
      by_cases hcont : (((!st && decide (o.iter < cfg.maxIter)) || decide (o.iter < cfg.minIter)) && decide (o.status = .success)) = true
      swap
      · rw [if_neg hcont, if_neg hcont]
      rw [if_pos hcont, if_pos hcont]
      have hsucc : o.status = .success := by
        rw [Bool.and_eq_true] at hcont
        exact of_decide_eq_true hcont.2
      let p : Obj K X E M := { o with eta1 := (hk0.getSearchDir o).1, own := (hk0.getSearchDir o).2, initialslope := env.metric o.x1 o.gf1 (hk0.getSearchDir o).1 }
      have hprep : prepare env cfg hk0 o = { initialStepSize env cfg p with initiallength := (initialStepSize env cfg p).stepsize } := rfl
      have hb : InBounds env m L (prepare env cfg hk0 o) ∧ Within (1 / L) (1 / m) (prepare env cfg hk0 o).preBBs ∧ (prepare env cfg hk0 o).gf1 = o.gf1 ∧ (prepare env cfg hk0 o).x1 = o.x1 := by
        rw [hprep]
        by_cases hi : o.iter = 0
        · have hp : initialStepSize env cfg p = { p with stepsize := cfg.initstep } := by unfold initialStepSize; rw [if_pos hi]
          rw [hp]
          exact ⟨fun h => absurd hi h, hB, rfl, rfl⟩
        · have hL2 := hlink hi hsucc
          have hcu : CurvedStep env m L o.x2 o.eta2 := hcv o (by unfold heads; exact List.mem_cons_self ..) hi hsucc
          have hp : initialStepSize env cfg p = { p with stepsize := safeguard env cfg (quadStep env p) p.ngf1 (candidate env cfg p).1, preBBs := (candidate env cfg p).2 } := by
            unfold initialStepSize; rw [if_neg hi]
          obtain ⟨a1, a2, a3⟩ := initialStep_within X0 hS hm hL he hk p hi (⟨hL2.point, hL2.old, hL2.new⟩ : Linked env p) hcu hB
          rw [hp] at a1 a2 a3 ⊢
          exact ⟨fun _ => ⟨a1, a2⟩, a3, rfl, rfl⟩
      have hsame : searchWith env cfg (refusing (InBounds env m L) ls) (prepare env cfg hk0 o) = searchWith env cfg ls (prepare env cfg hk0 o) := by
        unfold searchWith
        split
        · rfl
        · unfold refusing; rw [if_pos hb.1]
      rw [hsame]
      unfold heads at hcv
      rw [if_pos hcont] at hcv
      cases hs : searchWith env cfg ls (prepare env cfg hk0 o) with
      | none => rfl
      | some q =>
        rw [hs] at hcv
        dsimp only
        split
        · obtain ⟨k1, k2, k3, k4⟩ := searchWith_linking (cfg := cfg) hls _ _ hs
          refine ih _ _ _ (fun r hr => hcv r (List.mem_cons_of_mem _ hr)) ?_ ?_ (Or.inr (Nat.succ_ne_zero _))
          · show Within _ _ q.preBBs
            rw [k2]; exact hb.2.1
          · intro _ hst
            have hst' : q.status = .success := hst
            refine ⟨k3, ?_, k4 hst'⟩
            show q.gf1 = env.grad q.x1
            rw [k1.gf1, k1.x1, hb.2.2.1, hb.2.2.2]
            by_cases hi : o.iter = 0
            · rcases hg with hg | hg
              · exact hg
              · exact absurd hi hg
            · exact (hlink hi hsucc).new
        · rfl
  unfold runWith
  dsimp only
  rw [key n false _ (prologue env o) hc hB (fun h => absurd rfl h) (Or.inl rfl)]

/-! ## The searches -/

theorem backtrack_linking (mp : K) (n : Nat) : ∀ (o o' : Obj K X E M), backtrack env cfg mp n o = some o' → o.x2 = env.retr o.x1 o.eta2 → o'.x2 = env.retr o'.x1 o'.eta2 ∧ o'.preBBs = o.preBBs := by
  induction n with
  | zero => intro o o' e; simp [backtrack] at e
  | succ n ih =>
    intro o o' e hl
    unfold backtrack at e
    dsimp only at e
    split at e
    · split at e
      · cases e; exact ⟨hl, rfl⟩
      · obtain ⟨a, b⟩ := ih _ _ e rfl
        exact ⟨a, b⟩
    · cases e; exact ⟨hl, rfl⟩

theorem interpLoop_linking (mp : K) (n : Nat) : ∀ (a b c : K) (o o' : Obj K X E M), interpLoop env cfg mp n a b c o = some o' → o.x2 = env.retr o.x1 o.eta2 → o'.x2 = env.retr o'.x1 o'.eta2 ∧ o'.preBBs = o.preBBs := by
  induction n with
  | zero => intro a b c o o' e; simp [interpLoop] at e
  | succ n ih =>
    intro a b c o o' e hl
    unfold interpLoop at e
    dsimp only at e
    split at e
    · split at e
      · cases e; exact ⟨hl, rfl⟩
      · obtain ⟨a, b⟩ := ih _ _ _ _ _ e rfl
        exact ⟨a, b⟩
    · cases e; exact ⟨hl, rfl⟩

theorem armijo_linking (n : Nat) : Linking (M := M) env (armijo env cfg n) := by
  intro o o' e
  obtain ⟨k1, -, k3, -⟩ := armijo_out e
  refine ⟨k1, ?_⟩
  suffices h : o'.x2 = env.retr o'.x1 o'.eta2 ∧ o'.preBBs = o.preBBs from ⟨h.2, h.1, fun _ => k3⟩
  unfold armijo at e
  dsimp only at e
  split at e
  · obtain ⟨p, hp, rfl⟩ := Option.map_eq_some_iff.mp e
    obtain ⟨a, b⟩ := backtrack_linking _ _ _ _ hp rfl
    exact ⟨a, b⟩
  · obtain ⟨p, hp, rfl⟩ := Option.map_eq_some_iff.mp e
    split at hp
    · obtain ⟨a, b⟩ := interpLoop_linking _ _ _ _ _ _ _ hp rfl
      exact ⟨a, b⟩
    · obtain ⟨a, b⟩ := interpLoop_linking _ _ _ _ _ _ _ hp rfl
      exact ⟨a, b⟩

theorem zoom_linking (ls : LSCfg K) (n : Nat) : ∀ (a b c d s : K) (o : Obj K X E M), o.x2 = env.retr o.x1 o.eta2 →
    (zoom env cfg ls n a b c d s o).x2 = env.retr (zoom env cfg ls n a b c d s o).x1 (zoom env cfg ls n a b c d s o).eta2 ∧ (zoom env cfg ls n a b c d s o).preBBs = o.preBBs := by
  induction n with
  | zero => intro a b c d s o hl; exact ⟨hl, rfl⟩
  | succ n ih =>
    intro a b c d s o hl
    unfold zoom
    dsimp only
    split
    · split
      · exact ⟨rfl, rfl⟩
      · obtain ⟨p, q⟩ := ih a (zoomPick env cfg a b c d s) c (h env { o with stepsize := zoomPick env cfg a b c d s }).f2 s (h env { o with stepsize := zoomPick env cfg a b c d s }) rfl
        exact ⟨p, q⟩
    · split
      · exact ⟨rfl, rfl⟩
      · split
        · exact ⟨rfl, rfl⟩
        · refine ⟨(ih _ _ _ _ _ _ ?_).1, (ih _ _ _ _ _ _ ?_).2⟩ <;> rfl

theorem swLoop_linking (ls : LSCfg K) (n : Nat) : ∀ (a b c : K) (o o' : Obj K X E M), swLoop env cfg ls n a b c o = some o' → o'.x2 = env.retr o'.x1 o'.eta2 ∧ o'.preBBs = o.preBBs := by
  induction n with
  | zero => intro a b c o o' e; simp [swLoop] at e
  | succ n ih =>
    intro a b c o o' e
    unfold swLoop at e
    dsimp only at e
    split at e
    · cases e
      refine ⟨(zoom_linking ls _ _ _ _ _ _ _ ?_).1, (zoom_linking ls _ _ _ _ _ _ _ ?_).2⟩ <;> rfl
    · split at e
      · cases e; exact ⟨rfl, rfl⟩
      · split at e
        · cases e
          refine ⟨(zoom_linking ls _ _ _ _ _ _ _ ?_).1, (zoom_linking ls _ _ _ _ _ _ _ ?_).2⟩ <;> rfl
        · split at e
          · cases e; exact ⟨rfl, rfl⟩
          · obtain ⟨p, q⟩ := ih _ _ _ _ _ e
            exact ⟨p, q⟩

theorem swSearch_linking (ls : LSCfg K) (n : Nat) : Linking (M := M) env (swSearch env cfg ls n) := by
  intro o o' e
  obtain ⟨k1, -, k3⟩ := swSearch_out e
  obtain ⟨a, b⟩ := swLoop_linking ls _ _ _ _ _ _ e
  refine ⟨k1, b, a, fun hs => ?_⟩
  rcases k3 with h | h | h
  · exact h.2.2
  · rw [hs] at h; cases h
  · rw [hs] at h; cases h

open scoped Classical in
/-- **C150 for backtracking and interpolation.** -/
theorem C150_armijo (X0 : env.Exact) (hS : Schwarz env) {m L : K} (hm : 0 < m) (hL : 0 < L) (he : env.eps ≤ 1 / L) (hk : cfg.initType = .bb) (hk0 : Hooks K X E M) (k n : Nat) (o : Obj K X E M)
    (hc : CurvedRun env cfg hk0 (armijo env cfg k) m L n o) (hB : o.preBBs = []) :
    runWith env cfg hk0 (refusing (InBounds env m L) (armijo env cfg k)) n o = runWith env cfg hk0 (armijo env cfg k) n o :=
  C150_run X0 hS hm hL he hk hk0 (armijo_linking k) n o hc (by rw [hB]; intro a ha; cases ha)

open scoped Classical in
/-- **C150 for the strong Wolfe search.** -/
theorem C150_strong_wolfe (X0 : env.Exact) (hS : Schwarz env) {m L : K} (hm : 0 < m) (hL : 0 < L) (he : env.eps ≤ 1 / L) (hk : cfg.initType = .bb) (hk0 : Hooks K X E M) (ls : LSCfg K) (k n : Nat)
    (o : Obj K X E M) (hc : CurvedRun env cfg hk0 (swSearch env cfg ls k) m L n o) (hB : o.preBBs = []) :
    runWith env cfg hk0 (refusing (InBounds env m L) (swSearch env cfg ls k)) n o = runWith env cfg hk0 (swSearch env cfg ls k) n o :=
  C150_run X0 hS hm hL he hk hk0 (swSearch_linking ls k) n o hc (by rw [hB]; intro a ha; cases ha)

/-! ## The other rules -/

/-- **C150, the last decrease.** Whatever the rule and however many former values the search keeps: after the first iteration the difference the rules use is the change of the cost over the last step. -/
theorem C150_decrease (hk0 : Hooks K X E M) {ls : Obj K X E M → Option (Obj K X E M)} (hls : ∀ o o', ls o = some o' → Keeps o o' ∧ Val env o') (n : Nat) (o : Obj K X E M) :
    ∀ p ∈ heads env cfg hk0 ls n false (isStopped env cfg (prologue env o)) (prologue env o), p.iter ≠ 0 → decrease env p = env.f p.x1 - env.f p.x2 := by
  have key : ∀ (n : Nat) (b st : Bool) (o : Obj K X E M), o.f1 = env.f o.x1 → (o.iter ≠ 0 → decrease env o = env.f o.x1 - env.f o.x2) →
      ∀ p ∈ heads env cfg hk0 ls n b st o, p.iter ≠ 0 → decrease env p = env.f p.x1 - env.f p.x2 := by
    intro n
    induction n with
    | zero => intro b st o _ _ p hp; cases hp
    | succ n ih =>
      intro b st o hf hd p hp
      unfold heads at hp
      rcases List.mem_cons.mp hp with rfl | hp
      · exact hd
      · split at hp
        swap
        · cases hp
        cases hs : searchWith env cfg ls (prepare env cfg hk0 o) with
        | none => rw [hs] at hp; cases hp
        | some q =>
          rw [hs] at hp
          have hout : Keeps (prepare env cfg hk0 o) q ∧ Val env q := by
            unfold searchWith at hs
            split at hs
            · cases hs; exact ⟨⟨rfl, rfl, rfl, rfl, rfl, rfl, rfl, rfl, rfl, rfl⟩, rfl⟩
            · exact hls _ _ hs
          have hp1 : (prepare env cfg hk0 o).f1 = o.f1 ∧ (prepare env cfg hk0 o).x1 = o.x1 := by
            unfold prepare initialStepSize
            dsimp only
            constructor <;> split <;> rfl
          have hq1 : q.f1 = env.f q.x1 := by rw [hout.1.f1, hout.1.x1, hp1.1, hp1.2, hf]
          refine ih _ _ _ ?_ ?_ p hp
          · exact hout.2
          · intro _
            show decrease env (advance env cfg b (afterSearch env hk0 q)).2 = env.f q.x2 - env.f q.x1
            unfold decrease
            have hfr : ∃ l, (advance env cfg b (afterSearch env hk0 q)).2.preFuns = q.f1 :: l := by
              unfold advance
              dsimp only
              split
              · rename_i hc
                rw [Bool.and_eq_true] at hc
                have h1 := of_decide_eq_true hc.2
                simp only [List.length_cons] at h1
                obtain ⟨a, l', hl'⟩ : ∃ a l', (afterSearch env hk0 q).preFuns = a :: l' := by
                  cases hh : (afterSearch env hk0 q).preFuns with
                  | nil => rw [hh] at h1; simp at h1
                  | cons a l' => exact ⟨a, l', rfl⟩
                rw [hl', List.dropLast_cons_cons]
                exact ⟨_, rfl⟩
              · exact ⟨_, rfl⟩
            obtain ⟨l, hl⟩ := hfr
            rw [hl]
            show q.f2 - q.f1 = _
            rw [hout.2, hq1]
  exact key n false _ (prologue env o) rfl (fun h => absurd rfl h)

/-- **C150, positive steps.** Every rule gives a positive initial step, at least the machine precision or `Initstepsize / ngf1`. -/
theorem C150_positive (X0 : env.Exact) (heps : 0 < env.eps) (hi : 0 < cfg.initstep) (o : Obj K X E M) (hg : 0 < o.ngf1) :
    0 < (initialStepSize env cfg o).stepsize ∧ (o.iter ≠ 0 → env.eps ≤ (initialStepSize env cfg o).stepsize ∨ (initialStepSize env cfg o).stepsize = cfg.initstep / o.ngf1) := by
  unfold initialStepSize
  by_cases h0 : o.iter = 0
  · rw [if_pos h0]; exact ⟨hi, fun h => absurd h0 h⟩
  · rw [if_neg h0]
    dsimp only
    unfold safeguard
    simp only [X0.lt, decide_eq_true_eq]
    generalize (if (candidate env cfg o).1 < quadStep env o / env.lit 100 1 then quadStep env o else (candidate env cfg o).1) = t
    by_cases ht : t < env.eps
    · rw [if_pos ht]; exact ⟨div_pos hi hg, fun _ => Or.inr rfl⟩
    · rw [if_neg ht]; exact ⟨lt_of_lt_of_le heps (not_lt.mp ht), fun _ => Or.inl (not_lt.mp ht)⟩

/-- The step that minimises the parabola with value `a` and slope `s` at 0 and value `b` at the step where it was left, in units of that step. -/
def parabolaStep (s a b : K) : K := 2 * (b - a) / s

/-- **C150, the quadratic rules.** With a prediction `q` from the last decrease that is not below the machine precision: `LSSM_QUADINT` starts from `q`; `LSSM_QUADINTMOD` from the smaller of 1 and
`1.01 q`, and `LSSM_ONESTEP` from 1; both only as long as `q` is at most 100, otherwise from `q`. -/
theorem C150_rules (X0 : env.Exact) (heps1 : env.eps ≤ 1) (o : Obj K X E M) (h0 : o.iter ≠ 0) (a : K) (l : List K) (hl : o.preFuns = a :: l) (hq : env.eps ≤ parabolaStep o.initialslopepre a o.f1) (heps : 0 < env.eps) :
    (cfg.initType = .quadInt → (initialStepSize env cfg o).stepsize = parabolaStep o.initialslopepre a o.f1) ∧
    (cfg.initType = .quadIntMod → (initialStepSize env cfg o).stepsize = if parabolaStep o.initialslopepre a o.f1 ≤ 100 then min 1 (101 / 100 * parabolaStep o.initialslopepre a o.f1) else parabolaStep o.initialslopepre a o.f1) ∧
    (cfg.initType = .one → (initialStepSize env cfg o).stepsize = if parabolaStep o.initialslopepre a o.f1 ≤ 100 then 1 else parabolaStep o.initialslopepre a o.f1) := by
  have e1 : env.lit 1 1 = 1 := by rw [X0.lit]; norm_num
  have e2 : env.lit 2 1 = 2 := by rw [X0.lit]; norm_num
  have e100 : env.lit 100 1 = 100 := by rw [X0.lit]; norm_num
  have e202 : env.lit 202 100 = 202 / 100 := by rw [X0.lit]; norm_num
  have hd : decrease env o = o.f1 - a := by unfold decrease; rw [hl]
  have hqs : quadStep env o = parabolaStep o.initialslopepre a o.f1 := by unfold quadStep parabolaStep; rw [e2, hd]
  have h202 : env.lit 202 100 * decrease env o / o.initialslopepre = 101 / 100 * parabolaStep o.initialslopepre a o.f1 := by
    unfold parabolaStep; rw [e202, hd]; ring
  have hp : 0 < parabolaStep o.initialslopepre a o.f1 := lt_of_lt_of_le heps hq
  have hstep : (initialStepSize env cfg o).stepsize = safeguard env cfg (parabolaStep o.initialslopepre a o.f1) o.ngf1 (candidate env cfg o).1 := by
    unfold initialStepSize; rw [if_neg h0, hqs]
  rw [hstep]
  unfold safeguard candidate
  simp only [X0.lt, decide_eq_true_eq, h202, hqs, e1, e100]
  generalize parabolaStep o.initialslopepre a o.f1 = q at *
  refine ⟨?_, ?_, ?_⟩
  · intro hk
    rw [hk]
    dsimp only
    have h1 : ¬ (q < q / 100) := by rw [not_lt, div_le_iff₀ (by norm_num)]; linarith
    rw [if_neg h1, if_neg (not_lt.mpr hq)]
  · intro hk
    rw [hk]
    dsimp only
    have hmin : (if 1 < 101 / 100 * q then (1 : K) else 101 / 100 * q) = min 1 (101 / 100 * q) := by
      split
      · rw [min_eq_left (by linarith)]
      · rw [min_eq_right (by linarith)]
    rw [hmin]
    by_cases h : q ≤ 100
    · have h1 : ¬ (min 1 (101 / 100 * q) < q / 100) := by
        rw [not_lt, le_min_iff]
        constructor
        · rw [div_le_iff₀ (by norm_num)]; linarith
        · rw [div_le_iff₀ (by norm_num)]; linarith
      rw [if_pos h, if_neg h1, if_neg]
      rw [not_lt, le_min_iff]
      exact ⟨heps1, by linarith⟩
    · have h1 : min 1 (101 / 100 * q) < q / 100 := lt_of_le_of_lt (min_le_left _ _) (by rw [lt_div_iff₀ (by norm_num)]; linarith)
      rw [if_neg h, if_pos h1, if_neg (not_lt.mpr hq)]
  · intro hk
    rw [hk]
    dsimp only
    by_cases h : q ≤ 100
    · have h1 : ¬ (1 < q / 100) := by rw [not_lt, div_le_iff₀ (by norm_num)]; linarith
      rw [if_pos h, if_neg h1, if_neg (not_lt.mpr heps1)]
    · have h1 : 1 < q / 100 := by rw [lt_div_iff₀ (by norm_num)]; linarith
      rw [if_neg h, if_pos h1, if_neg (not_lt.mpr hq)]

/-! ## Where the hypotheses hold -/

/-- The environment is a flat space with the cost `⟨x, A x⟩ / 2 - ⟨b, x⟩`: only what the rule uses. -/
structure FlatQuadratic {V : Type*} [NormedAddCommGroup V] [InnerProductSpace ℝ V] (env : Env ℝ V V) (A : V →ₗ[ℝ] V) (b : V) : Prop where
  retr : ∀ x v, env.retr x v = x + v
  transport : ∀ x u y v, env.transport x u y v = v
  metric : ∀ x u v, env.metric x u v = inner ℝ u v
  lin : ∀ a u c v, env.lin a u c v = a • u + c • v
  grad : ∀ x, env.grad x = A x - b

/-- **C150, quadratic costs.** A quadratic cost whose symmetric operator has its spectrum between `m` and `L` has curvature between `m` and `L` along every step that is not zero. -/
theorem C150_quadratic {V : Type*} [NormedAddCommGroup V] [InnerProductSpace ℝ V] {env : Env ℝ V V} {A : V →ₗ[ℝ] V} {b : V} (F : FlatQuadratic env A b) (hsym : ∀ u v, inner ℝ (A u) v = inner ℝ u (A v))
    {m L : ℝ} (hm : 0 < m) (hlow : ∀ u, m * inner ℝ u u ≤ inner ℝ u (A u)) (hhigh : ∀ u, inner ℝ u (A u) ≤ L * inner ℝ u u) (x eta : V) (hne : eta ≠ 0) :
    Schwarz env ∧ CurvedStep env m L x eta := by
  have hcons : consecutive env x eta = (eta, A eta) := by
    unfold consecutive
    simp only [F.transport, F.lin, F.grad, F.retr, map_add]
    congr 1
    module
  have hpos : 0 < inner ℝ eta eta := by
    rw [real_inner_self_eq_norm_sq]; exact pow_pos (norm_pos_iff.mpr hne) 2
  have hL : 0 < L := by
    have h1 := hlow eta
    have h2 := hhigh eta
    by_contra h
    have h3 : L * inner ℝ eta eta ≤ 0 := mul_nonpos_of_nonpos_of_nonneg (not_lt.mp h) hpos.le
    have h4 := mul_pos hm hpos
    linarith
  refine ⟨?_, ⟨?_, ?_, ?_⟩⟩
  · intro y u v
    simp only [F.metric]
    exact real_inner_mul_inner_self_le u v
  · rw [hcons, F.metric]; exact hpos
  · rw [hcons]; simp only [F.metric]; exact hlow eta
  · rw [hcons]; simp only [F.metric]
    -- the form of `A` at `eta - A eta / L` is not negative
    have h0 : 0 ≤ inner ℝ (eta - (1 / L) • A eta) (A (eta - (1 / L) • A eta)) :=
      le_trans (mul_nonneg hm.le (by rw [real_inner_self_eq_norm_sq]; positivity)) (hlow _)
    have h1 := hhigh (A eta)
    simp only [map_sub, map_smul, inner_sub_left, inner_sub_right, inner_smul_left, inner_smul_right, conj_trivial] at h0
    rw [← hsym eta (A eta)] at h0
    generalize inner ℝ (A eta) (A eta) = yy at *
    generalize inner ℝ eta (A eta) = sy at *
    generalize inner ℝ (A eta) (A (A eta)) = w at *
    have h2 : 1 / L * (1 / L * w) ≤ 1 / L * yy := by
      have : 1 / L * w ≤ yy := by
        rw [one_div, inv_mul_le_iff₀ hL]; exact h1
      exact mul_le_mul_of_nonneg_left this (by positivity)
    have h3 : 1 / L * yy ≤ sy := by linarith
    rw [one_div, inv_mul_le_iff₀ hL] at h3
    exact h3

/-! ## The metric of the former point -/

/-- A plane whose metric is `diag(1, 1/10)` at the origin and the usual one elsewhere; the gradients at the origin and at `(1, 1)` differ by `A (1, 1)` with the positive definite `A = ((1, -2), (-2, 5))`. -/
def tiltEnv : Env ℚ (ℚ × ℚ) (ℚ × ℚ) where
  lit n d := mkRat n d
  lt a b := decide (a < b)
  le a b := decide (a ≤ b)
  eq a b := decide (a = b)
  sqrt := ratRoot
  abs a := if a < 0 then -a else a
  finite _ := true
  inf := 0
  eps := mkRat 1 (2 ^ 52)
  f _ := 0
  grad x := (-1 + (x.1 - 2 * x.2), -1 + (-2 * x.1 + 5 * x.2))
  precond _ v := v
  metric x u v := u.1 * v.1 + (if x = (0, 0) then 1 / 10 else 1) * (u.2 * v.2)
  retr x v := (x.1 + v.1, x.2 + v.2)
  dretr _ _ _ v := v
  transport _ _ _ v := v
  smul a v := (a * v.1, a * v.2)
  lin a u b v := (a * u.1 + b * v.1, a * u.2 + b * v.2)

/-- **C150, a restriction.** The quotients of vectors at the new point are formed with the metric of the former point. Along a step of positive curvature in the metric of the point where the
vectors are, between 1 and 5, the first quotient can be negative. -/
theorem C150_metric_of_former_point : ∃ o : Obj ℚ (ℚ × ℚ) (ℚ × ℚ) Unit, Linked tiltEnv o ∧
    0 < tiltEnv.metric o.x1 (consecutive tiltEnv o.x2 o.eta2).1 (consecutive tiltEnv o.x2 o.eta2).1 ∧
    1 * tiltEnv.metric o.x1 (consecutive tiltEnv o.x2 o.eta2).1 (consecutive tiltEnv o.x2 o.eta2).1 ≤ tiltEnv.metric o.x1 (consecutive tiltEnv o.x2 o.eta2).1 (consecutive tiltEnv o.x2 o.eta2).2 ∧
    tiltEnv.metric o.x1 (consecutive tiltEnv o.x2 o.eta2).2 (consecutive tiltEnv o.x2 o.eta2).2 ≤ 5 * tiltEnv.metric o.x1 (consecutive tiltEnv o.x2 o.eta2).1 (consecutive tiltEnv o.x2 o.eta2).2 ∧
    (bbPair tiltEnv o).1 < 0 := by
  refine ⟨⟨(1, 1), (0, 0), 0, 0, tiltEnv.grad (1, 1), tiltEnv.grad (0, 0), (1, 1), (1, 1), 0, 0, 0, 0, 0, 0, 0, 0, 1, [], [], .success, [], 0, ⟨0, 0, 0, 0, 0⟩, ()⟩, ⟨?_, rfl, rfl⟩, ?_⟩
  · decide +kernel
  · decide +kernel

/-! ## A case -/

theorem schwarz_line (c : ℚ) : Schwarz (lineEnv c) := by
  intro _ u v
  show u * v * (u * v) ≤ u * u * (v * v)
  exact le_of_eq (by ring)

theorem curved_line {c : ℚ} (x eta : ℚ) (h : eta ≠ 0) : CurvedStep (lineEnv c) c c x eta := by
  have e : consecutive (lineEnv c) x eta = (eta, c * eta) := by
    show (eta, 1 * (c * (x + eta)) + -1 * (c * x)) = _
    congr 1; ring
  refine ⟨?_, ?_, ?_⟩
  · rw [e]; exact mul_self_pos.mpr h
  · rw [e]; exact le_of_eq (by show c * (eta * eta) = eta * (c * eta); ring)
  · rw [e]; exact le_of_eq (by show (c * eta) * (c * eta) = c * (eta * (c * eta)); ring)

/-- Instance of `C150_armijo`: steepest descent on `3/2 x²` from 1, two remembered quotients; the second initial step is 1/3. -/
example : ((runWith (lineEnv 3) (lineCfg .gradF0 2 3) (rsd (lineEnv 3)) (armijo (lineEnv 3) (lineCfg .gradF0 2 3) 20) 20 (freshObj () 1)).map fun o => (o.iter, o.series.map fun e => e.2.2, o.preBBs)) = some (2, [0, 1 / 2, 1 / 3], [1 / 3]) ∧
    CurvedRun (lineEnv 3) (lineCfg .gradF0 2 3) (rsd (lineEnv 3)) (armijo (lineEnv 3) (lineCfg .gradF0 2 3) 20) 3 3 20 (freshObj () 1) := by
  refine ⟨by decide +kernel, ?_⟩
  intro p hp hi hs
  refine curved_line _ _ ?_
  have h : ∀ p ∈ (heads (lineEnv 3) (lineCfg .gradF0 2 3) (rsd (lineEnv 3)) (armijo (lineEnv 3) (lineCfg .gradF0 2 3) 20) 20 false (isStopped (lineEnv 3) (lineCfg .gradF0 2 3) (prologue (lineEnv 3) (freshObj () 1))) (prologue (lineEnv 3) (freshObj () 1))).map
      (fun p => (p.iter, p.eta2)), p.1 ≠ 0 → p.2 ≠ 0 := by decide +kernel
  exact h (p.iter, p.eta2) (List.mem_map_of_mem hp) hi

/-- Instance of `C150_rules`: the cost fell from 5 to 2 with slope -4, the prediction is 3/2, the rules start from 3/2 and 1. -/
example : ((initialStepSize (lineEnv 3) { lineCfg .gradF0 2 3 with initType := .quadInt } { freshObj () 1 with iter := 1, preFuns := [5], f1 := 2, initialslopepre := -4 }).stepsize,
    (initialStepSize (lineEnv 3) { lineCfg .gradF0 2 3 with initType := .quadIntMod } { freshObj () 1 with iter := 1, preFuns := [5], f1 := 2, initialslopepre := -4 }).stepsize) = (3 / 2, 1) ∧
    (lineEnv 3).eps ≤ parabolaStep (-4) 5 2 := by decide +kernel

/-- Instance of `C150_decrease`: the recorded differences in the run above. -/
example : (heads (lineEnv 3) (lineCfg .gradF0 2 3) (rsd (lineEnv 3)) (armijo (lineEnv 3) (lineCfg .gradF0 2 3) 20) 20 false (isStopped (lineEnv 3) (lineCfg .gradF0 2 3) (prologue (lineEnv 3) (freshObj () 1))) (prologue (lineEnv 3) (freshObj () 1))).map
    (fun p => (p.iter, decrease (lineEnv 3) p)) = [(0, 0), (1, -9 / 8), (2, -3 / 8)] := by decide +kernel

end Verif.Obj
