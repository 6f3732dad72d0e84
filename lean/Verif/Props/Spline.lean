import Verif.Others.SplineSystem
import Mathlib.Analysis.Calculus.Deriv.Pow
import Mathlib.Analysis.Calculus.Deriv.Add
import Mathlib.Analysis.Calculus.Deriv.Mul
import Mathlib.Data.Rat.Floor
import Mathlib.Tactic.NormNum
import Mathlib.Tactic.IntervalCases

/-!
# Properties of the cubic splines (C47, C48)
-/

set_option linter.unusedSectionVars false
set_option linter.unusedVariables false

namespace Verif.Spline

/-! ### Specification -/

section spec
variable {K : Type*} [Field K]

/-- `s` solves the tridiagonal system with sub-, main and superdiagonal `ld`, `d`, `ud` and right-hand side `v`. -/
def SolvesTri (n : Nat) (d ud ld v s : Nat → K) : Prop :=
  ∀ i < n, (if i = 0 then 0 else ld (i - 1) * s (i - 1)) + d i * s i + (if i + 1 < n then ud i * s (i + 1) else 0) = v i

/-- `s[1], …, s[nn]` solve the periodic system, and `s[0] = s[nn]`. -/
def SolvesPer (nn : Nat) (d ud ld v s : Nat → K) : Prop :=
  s 0 = s nn ∧ ∀ i < nn, ld i * s i + d i * s (i + 1) + ud i * s (if i = nn - 1 then 1 else i + 2) = v i

/-- Pieces `q 0, …, q (nn - 1)` on the intervals between the breaks `X 0, …, X nn` interpolate `Y` and agree in their first two derivatives at the interior breaks. -/
structure IsCubicSpline (X Y : Nat → K) (nn : Nat) (q : Nat → Piece K) : Prop where
  left : ∀ i < nn, (q i).val 0 = Y i
  right : ∀ i < nn, (q i).val (X (i + 1) - X i) = Y (i + 1)
  first : ∀ i, i + 1 < nn → (q i).deri1 (X (i + 1) - X i) = (q (i + 1)).deri1 0
  second : ∀ i, i + 1 < nn → (q i).deri2 (X (i + 1) - X i) = (q (i + 1)).deri2 0

/-- The first two derivatives also agree between the last and the first break. -/
structure IsPeriodicSpline (X Y : Nat → K) (nn : Nat) (q : Nat → Piece K) : Prop extends IsCubicSpline X Y nn q where
  firstP : (q (nn - 1)).deri1 (X nn - X (nn - 1)) = (q 0).deri1 0
  secondP : (q (nn - 1)).deri2 (X nn - X (nn - 1)) = (q 0).deri2 0

end spec

/-! ### C48: the solvers -/

section solvers
variable {K : Type*} [Field K] [LinearOrder K] [IsStrictOrderedRing K]

/-- C48: a reported success of the tridiagonal solver is a solution of the original system, for every size, provided the five arrays do not overlap. -/
theorem C48_tridiagonal {P : Ptrs} {n : Nat} (hn : 0 < n) (hs : Sep P n (n - 1) (n - 1) n) {eps : K} (he : 0 < eps) {m0 m : Nat → K} (h : solveTri P eps n m0 = some m) :
    SolvesTri n (fun i => m0 (P.d + i)) (fun i => m0 (P.ud + i)) (fun i => m0 (P.ld + i)) (fun i => m0 (P.vec + i)) (fun i => m (P.s + i)) :=
  solveTri_spec hn hs he h

/-- C48: the slices used by the two spline routines with end slopes do not overlap. -/
theorem C48_slopes_slices (n : Nat) : Sep (slopesPtrs n) n (n - 1) (n - 1) n := slopesPtrs_sep n

/-- C48, partial: a reported success of the periodic solver without NaN is a solution of the original system, if the arrays do not overlap. Missing: the callers pass overlapping
arrays (`C48_periodic_slices_overlap`), and a zero pivot is reported as success with NaN (`C48_periodic_nan`). -/
theorem C48_periodic_partial {P : Ptrs} {nn : Nat} (h3 : 3 ≤ nn) (hs : Sep P nn nn nn nn) {eps : K} (he : 0 < eps) {lc0 m0 m : Nat → K} (h : solvePer P eps nn lc0 m0 = .ok m) :
    SolvesPer nn (fun i => m0 (P.d + i)) (fun i => m0 (P.ud + i)) (fun i => m0 (P.ld + i)) (fun i => m0 (P.vec + i)) (fun i => m (P.s + i)) :=
  solvePer_spec h3 hs he h

/-- The arrays passed by the periodic spline routines overlap: the last superdiagonal entry is the first subdiagonal entry and the last subdiagonal entry is the first right-hand side,
for every number of pieces. -/
theorem C48_periodic_slices_overlap (nn : Nat) (h : 0 < nn) :
    (periodicPtrs nn).ud + (nn - 1) = (periodicPtrs nn).ld + 0 ∧ (periodicPtrs nn).ld + (nn - 1) = (periodicPtrs nn).vec + 0 := by
  simp [periodicPtrs]

end solvers

/-- Memory holding the columns of a table one after the other. -/
def table (l : List ℚ) : Nat → ℚ := fun i => l.getD i 0

/-- Non-overlapping arrays for three equations. -/
def ptrs3 : Ptrs := ⟨0, 3, 6, 9, 12⟩

theorem ptrs3_sep : Sep ptrs3 3 3 3 3 := ⟨by decide, by decide, by decide, by decide⟩

/-- A nonsingular system (with the solution `0, 1, 0`) on which the periodic solver reports success with NaN in the output. -/
theorem C48_periodic_nan : ∃ (m0 : Nat → ℚ) (s : Nat → ℚ),
    SolvesPer 3 (fun i => m0 (ptrs3.d + i)) (fun i => m0 (ptrs3.ud + i)) (fun i => m0 (ptrs3.ld + i)) (fun i => m0 (ptrs3.vec + i)) s ∧
    ∀ lc0, solvePer ptrs3 (1 / 4503599627370496) 3 lc0 m0 = .nan := by
  refine ⟨table [1, 1, 1, 1, 1, 0, 0, 1, 1, 1, 1, 1], table [0, 0, 1, 0], ⟨rfl, ?_⟩, ?_⟩
  · intro i hi
    interval_cases i <;> simp [table, ptrs3]
  · intro lc0
    have : (perForward ptrs3 3 lc0 (table [1, 1, 1, 1, 1, 0, 0, 1, 1, 1, 1, 1])).m (ptrs3.d + (3 - 2)) = 0 := by
      simp [perForward, perElim, perBlock1, perBlock2, set, ptrs3, table]
    have h0 : (perForward ptrs3 3 lc0 (table [1, 1, 1, 1, 1, 0, 0, 1, 1, 1, 1, 1])).m (ptrs3.d + 0) = 1 := by
      simp [perForward, perElim, perBlock1, perBlock2, set, ptrs3, table]
    unfold solvePer
    simp only [this, if_pos]
    rw [show 3 - 2 = 0 + 1 from rfl, perBack, h0, if_neg (by norm_num), perBack]

/-- Success flag and memory of an outcome. -/
def PerResult.isOk {K : Type*} : PerResult K → Bool
  | .ok _ => true
  | _ => false

def PerResult.get {K : Type*} [Zero K] : PerResult K → Nat → K
  | .ok m => m
  | _ => 0

theorem PerResult.eq_ok {K : Type*} [Zero K] {r : PerResult K} (h : r.isOk = true) : r = .ok r.get := by
  cases r <;> simp_all [PerResult.isOk, PerResult.get]

/-- A system solved by the periodic solver: `4 u₀ + u₁ + u₂ = u₀ + 4 u₁ + u₂ = u₀ + u₁ + 4 u₂ = 6`. -/
example : ∃ m, solvePer ptrs3 (1 / 4503599627370496 : ℚ) 3 0 (table [4, 4, 4, 1, 1, 1, 1, 1, 1, 6, 6, 6]) = .ok m ∧ m (ptrs3.s + 1) = 1 ∧ m (ptrs3.s + 2) = 1 ∧ m (ptrs3.s + 3) = 1 :=
  ⟨_, PerResult.eq_ok (by decide +kernel), by decide +kernel, by decide +kernel, by decide +kernel⟩

/-- A tridiagonal system solved: `2 s₀ + s₁ = 3`, `s₀ + 2 s₁ = 3`. -/
example : ∃ m, solveTri (slopesPtrs 2) (1 / 4503599627370496 : ℚ) 2 (table [2, 2, 1, 1, 3, 3]) = some m ∧ m ((slopesPtrs 2).s) = 1 :=
  ⟨_, (Option.some_get (by decide +kernel)).symm, by decide +kernel⟩

/-! ### C47: the pieces -/

section pieces
variable {K : Type*} [Field K] [LinearOrder K] [IsStrictOrderedRing K]

/-- The moment equations characterising the continuity of the first derivative. -/
def Moment (X Y s : Nat → K) (i : Nat) : Prop :=
  (X (i + 1) - X i) * s i + 2 * (X (i + 2) - X i) * s (i + 1) + (X (i + 2) - X (i + 1)) * s (i + 2) =
    6 * ((Y (i + 2) - Y (i + 1)) / (X (i + 2) - X (i + 1)) - (Y (i + 1) - Y i) / (X (i + 1) - X i))

/-- C47: whatever values are taken as second derivatives, the pieces interpolate and have matching second derivatives, and they have matching first derivatives exactly when the
moment equations hold. -/
theorem C47_piece (X Y s : Nat → K) (nn : Nat) (hX : ∀ i < nn, X i < X (i + 1)) :
    (∀ i < nn, (piece X Y s i).val 0 = Y i) ∧ (∀ i < nn, (piece X Y s i).val (X (i + 1) - X i) = Y (i + 1)) ∧
    (∀ i < nn, (piece X Y s i).deri2 0 = s i ∧ (piece X Y s i).deri2 (X (i + 1) - X i) = s (i + 1)) ∧
    ∀ i, i + 1 < nn → ((piece X Y s i).deri1 (X (i + 1) - X i) = (piece X Y s (i + 1)).deri1 0 ↔ Moment X Y s i) := by
  have hne : ∀ i < nn, X (i + 1) - X i ≠ 0 := fun i hi => sub_ne_zero.mpr (hX i hi).ne'
  refine ⟨?_, ?_, ?_, ?_⟩
  · intro i hi; simp [piece, Piece.val]
  · intro i hi
    have := hne i hi
    simp only [piece, Piece.val]
    generalize X (i + 1) - X i = h at *
    field_simp
    ring
  · intro i hi
    have := hne i hi
    simp only [piece, Piece.deri2]
    generalize X (i + 1) - X i = h at *
    constructor <;> (field_simp; try ring)
  · intro i hi
    have h1 := hne i (by omega)
    have h2 := hne (i + 1) hi
    simp only [piece, Piece.deri1, Moment]
    have e : X (i + 2) - X i = (X (i + 1 + 1) - X (i + 1)) + (X (i + 1) - X i) := by rw [show i + 1 + 1 = i + 2 from rfl]; ring
    rw [e]
    simp only [show i + 1 + 1 = i + 2 from rfl] at *
    generalize X (i + 1) - X i = h at *
    generalize X (i + 2) - X (i + 1) = g at *
    set c1 := (Y (i + 1) - Y i) / h
    set c2 := (Y (i + 2) - Y (i + 1)) / g
    have ea : (s (i + 1) - s i) / 6 / h * 3 * h = (s (i + 1) - s i) / 2 := by field_simp; ring
    rw [ea]
    constructor
    · intro H; linear_combination 6 * H
    · intro H; linear_combination H / 6

theorem pieceUniform_eq (h : K) (Y s : Nat → K) (i : Nat) : pieceUniform h Y s i = piece (fun i => i * h) Y s i := by
  have e : ((i + 1 : Nat) : K) * h - (i : K) * h = h := by push_cast; ring
  simp only [pieceUniform, piece, e, Piece.mk.injEq, true_and]
  ring

theorem isCubicSpline_of_moment {X Y s : Nat → K} {nn : Nat} (hX : ∀ i < nn, X i < X (i + 1)) (hm : ∀ i, i + 1 < nn → Moment X Y s i) : IsCubicSpline X Y nn (piece X Y s) := by
  obtain ⟨h1, h2, h3, h4⟩ := C47_piece X Y s nn hX
  exact ⟨h1, h2, fun i hi => (h4 i hi).mpr (hm i hi), fun i hi => by rw [(h3 i (by omega)).2, (h3 (i + 1) hi).1]⟩

/-- End slopes of a piece. -/
theorem piece_ends (X Y s : Nat → K) (i : Nat) (h : X (i + 1) - X i ≠ 0) :
    (piece X Y s i).deri1 0 = (Y (i + 1) - Y i) / (X (i + 1) - X i) - ((X (i + 1) - X i) / 3 * s i + (X (i + 1) - X i) / 6 * s (i + 1)) ∧
    (piece X Y s i).deri1 (X (i + 1) - X i) = (Y (i + 1) - Y i) / (X (i + 1) - X i) + ((X (i + 1) - X i) / 6 * s i + (X (i + 1) - X i) / 3 * s (i + 1)) := by
  simp only [piece, Piece.deri1]
  generalize X (i + 1) - X i = g at *
  set c := (Y (i + 1) - Y i) / g
  have ea : (s (i + 1) - s i) / 6 / g * 3 * g = (s (i + 1) - s i) / 2 := by field_simp; ring
  constructor
  · ring
  · rw [ea]; ring

/-- C47 for `SplineSlopes`: for every number of points, all strictly increasing breaks and all data, a reported success gives pieces that interpolate the data, are twice continuously
differentiable across the breaks, and have the chord slopes at both ends. -/
theorem C47_slopes {eps : K} (he : 0 < eps) {X Y m0 : Nat → K} {n : Nat} (hn : 2 ≤ n) (hX : ∀ i < n - 1, X i < X (i + 1)) {q : Nat → Piece K} (h : splineSlopes eps X Y n m0 = some q) :
    IsCubicSpline X Y (n - 1) q ∧ (q 0).deri1 0 = (Y 1 - Y 0) / (X 1 - X 0) ∧
      (q (n - 2)).deri1 (X (n - 1) - X (n - 2)) = (Y (n - 1) - Y (n - 2)) / (X (n - 1) - X (n - 2)) := by
  unfold splineSlopes at h
  simp only [Option.map_eq_some_iff] at h
  obtain ⟨m, hm, rfl⟩ := h
  have S := solveTri_spec (by omega) (slopesPtrs_sep n) he hm
  have H := slopesSystem_is hn X Y m0
  set P := slopesPtrs n
  have hne : ∀ i < n - 1, X (i + 1) - X i ≠ 0 := fun i hi => sub_ne_zero.mpr (hX i hi).ne'
  refine ⟨isCubicSpline_of_moment hX ?_, ?_, ?_⟩
  · intro i hi
    have e := S (i + 1) (by omega)
    obtain ⟨r1, r2, r3, r4⟩ := H.row (i + 1) (by omega) hi
    rw [if_neg (by omega), if_pos (by omega), r1, r2, r3, r4] at e
    simp only [Nat.add_sub_cancel, show i + 1 + 1 = i + 2 from rfl] at e
    have hw : X (i + 2) - X i ≠ 0 := by
      have a := hX i (by omega)
      have b := hX (i + 1) hi
      exact sub_ne_zero.mpr (lt_trans a b).ne'
    unfold Moment
    have e' := congrArg (fun x => (X (i + 2) - X i) * x) e
    generalize (Y (i + 2) - Y (i + 1)) / (X (i + 2) - X (i + 1)) = c1 at *
    generalize (Y (i + 1) - Y i) / (X (i + 1) - X i) = c2 at *
    generalize X (i + 2) - X i = w at *
    field_simp at e'
    linear_combination e'
  · have e := S 0 (by omega)
    rw [if_pos rfl, if_pos (by omega), H.d0, H.ud0, H.v0] at e
    rw [(piece_ends X Y _ 0 (hne 0 (by omega))).1]
    linear_combination -e
  · obtain ⟨k, rfl⟩ : ∃ k, n = k + 2 := ⟨n - 2, by omega⟩
    have e := S (k + 1) (by omega)
    have dn := H.dn
    have ldn := H.ldn
    have vn := H.vn
    simp only [show k + 2 - 1 = k + 1 from rfl, Nat.add_sub_cancel] at dn ldn vn ⊢
    rw [if_neg (by omega), if_neg (by omega), dn, Nat.add_sub_cancel, ldn, vn] at e
    rw [(piece_ends X Y _ k (hne k (by omega))).2]
    linear_combination e

/-- C47 for `SplineUniformSlopes`, with breaks `0, h, 2 h, …`. -/
theorem C47_uniform_slopes {eps h : K} (he : 0 < eps) (hh : 0 < h) {Y m0 : Nat → K} {n : Nat} (hn : 2 ≤ n) {q : Nat → Piece K} (hq : splineUniformSlopes eps h Y n m0 = some q) :
    IsCubicSpline (fun i => i * h) Y (n - 1) q ∧ (q 0).deri1 0 = (Y 1 - Y 0) / h ∧ (q (n - 2)).deri1 h = (Y (n - 1) - Y (n - 2)) / h := by
  unfold splineUniformSlopes at hq
  simp only [Option.map_eq_some_iff] at hq
  obtain ⟨m, hm, rfl⟩ := hq
  have S := solveTri_spec (by omega) (slopesPtrs_sep n) he hm
  have H := uniformSlopesSystem_is hn h Y m0
  set P := slopesPtrs n
  have hd : ∀ i : Nat, ((i + 1 : Nat) : K) * h - (i : K) * h = h := fun i => by push_cast; ring
  have hX : ∀ i < n - 1, (fun i : Nat => (i : K) * h) i < (fun i : Nat => (i : K) * h) (i + 1) := by
    intro i _
    have := hd i
    show (i : K) * h < ((i + 1 : Nat) : K) * h
    linarith
  have hfun : pieceUniform h Y (fun i => m (P.s + i)) = piece (fun i => i * h) Y (fun i => m (P.s + i)) := by
    funext i; exact pieceUniform_eq h Y _ i
  rw [hfun]
  refine ⟨isCubicSpline_of_moment hX ?_, ?_, ?_⟩
  · intro i hi
    have e := S (i + 1) (by omega)
    obtain ⟨r1, r2, r3, r4⟩ := H.row (i + 1) (by omega) hi
    rw [if_neg (by omega), if_pos (by omega), r1, r2, r3, r4] at e
    simp only [Nat.add_sub_cancel, show i + 1 + 1 = i + 2 from rfl] at e
    unfold Moment
    have e1 := hd i
    have e2 := hd (i + 1)
    have e3 : ((i + 2 : Nat) : K) * h - (i : K) * h = 2 * h := by push_cast; ring
    simp only [show i + 1 + 1 = i + 2 from rfl] at e2
    simp only [e1, e2, e3]
    have e' := congrArg (fun x => 2 * h * x) e
    generalize (Y (i + 2) - Y (i + 1)) / h = c1 at *
    generalize (Y (i + 1) - Y i) / h = c2 at *
    have e4 : 2 * h * (3 / h * (c1 - c2)) = 6 * (c1 - c2) := by field_simp; ring
    rw [e4] at e'
    linear_combination e'
  · have e := S 0 (by omega)
    rw [if_pos rfl, if_pos (by omega), H.d0, H.ud0, H.v0] at e
    have hp := (piece_ends (fun i : Nat => (i : K) * h) Y (fun i => m (P.s + i)) 0 (by rw [hd 0]; exact hh.ne')).1
    simp only [hd 0] at hp
    rw [hp]
    simp only [Nat.zero_add] at *
    linear_combination -e
  · obtain ⟨k, rfl⟩ : ∃ k, n = k + 2 := ⟨n - 2, by omega⟩
    have e := S (k + 1) (by omega)
    have dn := H.dn
    have ldn := H.ldn
    have vn := H.vn
    simp only [show k + 2 - 1 = k + 1 from rfl, Nat.add_sub_cancel] at dn ldn vn ⊢
    rw [if_neg (by omega), if_neg (by omega), dn, Nat.add_sub_cancel, ldn, vn] at e
    have hp := (piece_ends (fun i : Nat => (i : K) * h) Y (fun i => m (P.s + i)) k (by rw [hd k]; exact hh.ne')).2
    simp only [hd k] at hp
    rw [hp]
    linear_combination e

/-- C47: `SplineSlopes` succeeds for every data set whose breaks increase and whose first and last intervals are not shorter than `6 ε`. -/
theorem C47_slopes_succeeds {eps : K} (he1 : eps ≤ 1) {X Y m0 : Nat → K} {n : Nat} (hn : 2 ≤ n) (hX : ∀ i < n - 1, X i < X (i + 1)) (h0 : 3 * eps ≤ X 1 - X 0)
    (hl : 6 * eps ≤ X (n - 1) - X (n - 2)) : (splineSlopes eps X Y n m0).isSome := by
  unfold splineSlopes
  simp only [Option.isSome_map]
  refine solveTri_isSlopes hn (slopesPtrs_sep n) (slopesSystem_is hn X Y m0) ?_ ?_ he1 ?_ ?_ ?_ ?_
  · intro i hi hin
    have a := hX (i - 1) (by omega)
    have b := hX i (by omega)
    rw [show i - 1 + 1 = i by omega] at a
    refine ⟨div_nonneg (by linarith) (by linarith), (div_le_one (by linarith)).mpr (by linarith)⟩
  · intro i hi hin
    have a := hX (i - 1) (by omega)
    have b := hX i (by omega)
    rw [show i - 1 + 1 = i by omega] at a
    refine ⟨div_nonneg (by linarith) (by linarith), (div_le_one (by linarith)).mpr (by linarith)⟩
  · have := hX 0 (by omega); simp only [Nat.zero_add] at this; linarith
  · linarith
  · have := hX (n - 2) (by omega)
    rw [show n - 2 + 1 = n - 1 by omega] at this
    rw [show n - 1 - 1 = n - 2 by omega]; linarith
  · rw [show n - 1 - 1 = n - 2 by omega]; linarith

/-- C47: `SplineUniformSlopes` succeeds for every data set with a step of at least `6 ε`. -/
theorem C47_uniform_slopes_succeeds {eps h : K} (he1 : eps ≤ 1) (hh : 0 < h) (h6 : 6 * eps ≤ h) {Y m0 : Nat → K} {n : Nat} (hn : 2 ≤ n) : (splineUniformSlopes eps h Y n m0).isSome := by
  unfold splineUniformSlopes
  simp only [Option.isSome_map]
  refine solveTri_isSlopes hn (slopesPtrs_sep n) (uniformSlopesSystem_is hn h Y m0) ?_ ?_ he1 hh ?_ hh ?_
  · intro i _ _; constructor <;> norm_num
  · intro i _ _; constructor <;> norm_num
  · linarith
  · linarith

/-! ### C47: the periodic splines -/

/-- The moment equation across the period. -/
theorem periodic_of_moment {X Y s : Nat → K} {nn : Nat} (hnn : 1 ≤ nn) (hX : ∀ i < nn, X i < X (i + 1)) (hm : ∀ i, i + 1 < nn → Moment X Y s i) (h0 : s 0 = s nn)
    (hp : (X nn - X (nn - 1)) * s (nn - 1) + 2 * (X 1 - X 0 + X nn - X (nn - 1)) * s nn + (X 1 - X 0) * s 1 =
      6 * ((Y 1 - Y 0) / (X 1 - X 0) - (Y nn - Y (nn - 1)) / (X nn - X (nn - 1)))) : IsPeriodicSpline X Y nn (piece X Y s) := by
  obtain ⟨h1, h2, h3, h4⟩ := C47_piece X Y s nn hX
  have e : nn - 1 + 1 = nn := by omega
  have hne : ∀ i < nn, X (i + 1) - X i ≠ 0 := fun i hi => sub_ne_zero.mpr (hX i hi).ne'
  refine ⟨isCubicSpline_of_moment hX hm, ?_, ?_⟩
  · have a := (piece_ends X Y s (nn - 1) (hne _ (by omega))).2
    have b := (piece_ends X Y s 0 (hne _ (by omega))).1
    rw [e] at a
    simp only [Nat.zero_add] at b
    rw [a, b, h0]
    linear_combination hp / 6
  · have a := (h3 (nn - 1) (by omega)).2
    rw [e] at a
    rw [a, (h3 0 (by omega)).1, h0]

/-- C47 for `SplinePeriodic`, partial: with non-overlapping work arrays a success without NaN gives an interpolating spline with matching first and second derivatives, also across the
period. Missing: the work arrays of the code overlap (`C47_periodic_fails`). -/
theorem C47_periodic_partial {P : Ptrs} {nn : Nat} (h3 : 3 ≤ nn) (hs : Sep P nn nn nn nn) {eps : K} (he : 0 < eps) {X Y lc0 m0 m : Nat → K} (hX : ∀ i < nn, X i < X (i + 1))
    {q : Nat → Piece K} (h : splinePeriodic P eps X Y nn lc0 m0 = (.ok m, q)) : IsPeriodicSpline X Y nn q := by
  unfold splinePeriodic at h
  split at h
  · rename_i m' hm
    cases h
    obtain ⟨S0, S⟩ := solvePer_spec h3 hs he hm
    have R := periodicRows_read hs X Y m0
    have hset : (fun i => set m (P.s + 0) (m (P.s + nn)) (P.s + i)) = fun i => m (P.s + i) := by
      funext i
      by_cases hi : i = 0
      · subst hi; rw [set_eq, S0]
      · rw [set_ne _ _ (by omega)]
    rw [hset]
    refine periodic_of_moment (by omega) hX ?_ S0 ?_
    · intro i hi
      have e := S i (by omega)
      obtain ⟨r1, r2, r3, r4⟩ := R i (by omega)
      rw [r1, r2, r3, r4, if_neg (by omega), if_neg (by omega), if_neg (by omega), if_neg (by omega)] at e
      have hw : X (i + 2) - X i ≠ 0 := by
        have a := hX i (by omega)
        have b := hX (i + 1) hi
        exact sub_ne_zero.mpr (lt_trans a b).ne'
      unfold Moment
      have e' := congrArg (fun x => (X (i + 2) - X i) * x) e
      generalize (Y (i + 2) - Y (i + 1)) / (X (i + 2) - X (i + 1)) = c1 at *
      generalize (Y (i + 1) - Y i) / (X (i + 1) - X i) = c2 at *
      generalize X (i + 2) - X i = w at *
      field_simp at e'
      linear_combination e'
    · have e := S (nn - 1) (by omega)
      obtain ⟨r1, r2, r3, r4⟩ := R (nn - 1) (by omega)
      rw [r1, r2, r3, r4, if_pos rfl, if_pos rfl, if_pos rfl, if_pos rfl] at e
      rw [show nn - 1 + 1 = nn by omega] at e
      have hw : X 1 - X 0 + X nn - X (nn - 1) ≠ 0 := by
        have a := hX 0 (by omega)
        have b := hX (nn - 1) (by omega)
        rw [show nn - 1 + 1 = nn by omega] at b
        simp only [Nat.zero_add] at a
        have : 0 < X 1 - X 0 + X nn - X (nn - 1) := by linarith
        exact this.ne'
      have e' := congrArg (fun x => (X 1 - X 0 + X nn - X (nn - 1)) * x) e
      generalize (Y 1 - Y 0) / (X 1 - X 0) = c1 at *
      generalize (Y nn - Y (nn - 1)) / (X nn - X (nn - 1)) = c2 at *
      generalize X 1 - X 0 + X nn - X (nn - 1) = w at *
      field_simp at e'
      linear_combination e'
  · rename_i r hr
    exact absurd (Prod.mk.inj h).1 (hr _)

/-- C47 for `SplineUniformPeriodic`, partial in the same way; the data must be periodic. -/
theorem C47_uniform_periodic_partial {P : Ptrs} {nn : Nat} (h3 : 3 ≤ nn) (hs : Sep P nn nn nn nn) {eps h : K} (he : 0 < eps) (hh : 0 < h) {Y lc0 m0 m : Nat → K} (hY : Y 0 = Y nn)
    {q : Nat → Piece K} (hq : splineUniformPeriodic P eps h Y nn lc0 m0 = (.ok m, q)) : IsPeriodicSpline (fun i => i * h) Y nn q := by
  unfold splineUniformPeriodic at hq
  split at hq
  · rename_i m' hm
    cases hq
    obtain ⟨S0, S⟩ := solvePer_spec h3 hs he hm
    have R := uniformPeriodicRows_read hs h Y m0
    have hset : (fun i => set m (P.s + 0) (m (P.s + nn)) (P.s + i)) = fun i => m (P.s + i) := by
      funext i
      by_cases hi : i = 0
      · subst hi; rw [set_eq, S0]
      · rw [set_ne _ _ (by omega)]
    rw [hset]
    have hfun : pieceUniform h Y (fun i => m (P.s + i)) = piece (fun i => i * h) Y (fun i => m (P.s + i)) := by
      funext i; exact pieceUniform_eq h Y _ i
    rw [hfun]
    have hd : ∀ i : Nat, ((i + 1 : Nat) : K) * h - (i : K) * h = h := fun i => by push_cast; ring
    have hX : ∀ i < nn, (fun i : Nat => (i : K) * h) i < (fun i : Nat => (i : K) * h) (i + 1) := by
      intro i _
      have := hd i
      show (i : K) * h < ((i + 1 : Nat) : K) * h
      linarith
    have hc : ∀ c : K, 2 * h * (3 / h * c) = 6 * c := fun c => by field_simp; ring
    refine periodic_of_moment (by omega) hX ?_ S0 ?_
    · intro i hi
      have e := S i (by omega)
      obtain ⟨r1, r2, r3, r4⟩ := R i (by omega)
      rw [r1, r2, r3, r4, if_neg (by omega), if_neg (by omega)] at e
      unfold Moment
      have e1 := hd i
      have e2 := hd (i + 1)
      have e3 : ((i + 2 : Nat) : K) * h - (i : K) * h = 2 * h := by push_cast; ring
      simp only [show i + 1 + 1 = i + 2 from rfl] at e2
      simp only [e1, e2, e3]
      have e' := congrArg (fun x => 2 * h * x) e
      simp only [hc] at e'
      linear_combination e'
    · have e := S (nn - 1) (by omega)
      obtain ⟨r1, r2, r3, r4⟩ := R (nn - 1) (by omega)
      rw [r1, r2, r3, r4, if_pos rfl, if_pos rfl] at e
      rw [show nn - 1 + 1 = nn by omega, ← hY] at e
      have e1 : (nn : K) * h - ((nn - 1 : Nat) : K) * h = h := by
        have := hd (nn - 1)
        rwa [show nn - 1 + 1 = nn by omega] at this
      have e2 : ((1 : Nat) : K) * h - ((0 : Nat) : K) * h = h := by push_cast; ring
      simp only [e1, e2, ← hY]
      have e' := congrArg (fun x => 2 * h * x) e
      simp only [hc] at e'
      linear_combination e' + 2 * m (P.s + nn) * e1
  · rename_i r hr
    exact absurd (Prod.mk.inj hq).1 (hr _)

end pieces

/-- C47 fails for the periodic splines of the code: on the zero data with three unit intervals the routine reports success, but the pieces do not have matching first derivatives (the exact
spline is zero; the overlapping work arrays replace a right-hand side by a coefficient). -/
theorem C47_periodic_fails : ∃ (X Y : Nat → ℚ) (m : Nat → ℚ) (q : Nat → Piece ℚ), (∀ i < 3, X i < X (i + 1)) ∧ Y 0 = Y 3 ∧
    splineUniformPeriodic (periodicPtrs 3) (1 / 4503599627370496) 1 Y 3 0 0 = (.ok m, q) ∧ X = (fun i : Nat => (i : ℚ) * 1) ∧ (q 0).deri1 1 ≠ (q 1).deri1 0 ∧ (q 0).val (1 / 2) ≠ 0 := by
  have h1 : (solvePer (periodicPtrs 3) (1 / 4503599627370496) 3 0 (uniformPeriodicRows (periodicPtrs 3) 1 0 3 0 3) : PerResult ℚ).isOk = true := by decide +kernel
  refine ⟨fun i : Nat => (i : ℚ) * 1, 0, _, _, ?_, rfl, by rw [splineUniformPeriodic, PerResult.eq_ok h1], rfl, ?_, ?_⟩
  · intro i _; push_cast; linarith
  · decide +kernel
  · decide +kernel

/-! ### C47: derivatives of a piece -/

/-- The two derivative polynomials are the derivatives of the value polynomial. -/
theorem C47_piece_deriv (q : Piece ℝ) (t : ℝ) : HasDerivAt q.val (q.deri1 t) t ∧ HasDerivAt q.deri1 (q.deri2 t) t := by
  have hi := hasDerivAt_id' t
  constructor
  · have := ((((hi.const_mul q.a).add_const q.b).mul hi).add_const q.c |>.mul hi).add_const q.e
    refine this.congr_deriv ?_
    simp only [Piece.deri1, Pi.mul_apply]; ring
  · have := (((hi.const_mul (q.a * 3)).add_const (q.b * 2)).mul hi).add_const q.c
    refine this.congr_deriv ?_
    simp only [Piece.deri2]; ring

/-! ### C47: evaluation -/

section eval
variable {K : Type*} [Field K] [LinearOrder K] [IsStrictOrderedRing K]

theorem scan_spec (eps : K) (X : Nat → K) (t : K) : ∀ f i, i ≤ scan eps X t f i ∧ scan eps X t f i ≤ i + f ∧
    (∀ j, i ≤ j → j < scan eps X t f i → t - (X j - X 0) ≥ -eps) ∧ (scan eps X t f i < i + f → t - (X (scan eps X t f i) - X 0) < -eps) := by
  intro f
  induction f with
  | zero => intro i; exact ⟨le_refl _, le_refl _, fun j h h' => absurd h' (by simp only [scan]; omega), fun h => absurd h (by simp only [scan]; omega)⟩
  | succ f ih =>
    intro i
    rw [scan]
    split
    · rename_i h
      obtain ⟨a, b, c, d⟩ := ih (i + 1)
      refine ⟨by omega, by omega, fun j hj hj' => ?_, fun hr => d (by omega)⟩
      by_cases e : j = i
      · subst e; exact h
      · exact c j (by omega) hj'
    · rename_i h
      exact ⟨le_refl _, by omega, fun j h h' => absurd h' (by omega), fun _ => not_le.mp h⟩

theorem mono_of_step {X : Nat → K} {nn : Nat} (hX : ∀ i < nn, X i < X (i + 1)) : ∀ i j, i ≤ j → j ≤ nn → X i ≤ X j := by
  intro i j hij
  induction j, hij using Nat.le_induction with
  | base => intro _; exact le_refl _
  | succ j hij ih => intro hj; exact le_trans (ih (by omega)) (hX j (by omega)).le

/-- C47: for increasing breaks the interval chosen for the parameter `t`, counted from the first break, is the one containing `t` up to `ε`, with both ends clamped. -/
theorem C47_interval {eps : K} (he : 0 ≤ eps) {X : Nat → K} {N : Nat} (hN : 2 ≤ N) (hX : ∀ i < N - 1, X i < X (i + 1)) (t : K) :
    interval eps X N t ≤ N - 2 ∧ (0 < interval eps X N t → X (interval eps X N t) - X 0 ≤ t + eps) ∧
    (interval eps X N t < N - 2 → t + eps < X (interval eps X N t + 1) - X 0) := by
  obtain ⟨a, b, c, d⟩ := scan_spec eps X t N 0
  unfold interval
  simp only
  set r := scan eps X t N 0
  split
  · rename_i h
    refine ⟨by omega, fun _ => ?_, fun h' => absurd h' (by omega)⟩
    have := c (N - 1 - 1) (by omega) (by omega)
    linarith
  · rename_i h
    refine ⟨by omega, fun h0 => ?_, fun h' => ?_⟩
    · have := c (r - 1) (by omega) (by omega)
      linarith
    · by_cases hr : r = 0
      · have := d (by omega)
        rw [hr] at this ⊢
        have h1 := hX 0 (by omega)
        simp only [Nat.zero_sub, Nat.zero_add] at *
        linarith
      · have := d (by omega)
        rw [show r - 1 + 1 = r by omega]
        linarith

/-- C47: with the first break at `0`, a parameter at or after the break `X i` and more than `ε` before the next one is evaluated with piece `i`, and so are the derivatives. -/
theorem C47_eval_inside {eps : K} (he : 0 ≤ eps) {X : Nat → K} {N : Nat} (hN : 2 ≤ N) (hX : ∀ i < N - 1, X i < X (i + 1)) (h0 : X 0 = 0) (q : Nat → Piece K) {i : Nat} (hi : i < N - 1) {t : K}
    (h1 : X i ≤ t) (h2 : t + eps < X (i + 1)) :
    valSpline eps q X N t = (q i).val (t - X i) ∧ valFirstDeri eps q X N t = (q i).deri1 (t - X i) ∧ valSecondDeri eps q X N t = (q i).deri2 (t - X i) := by
  obtain ⟨a, b, c⟩ := C47_interval he hN hX t
  have hmono := mono_of_step hX
  have e : interval eps X N t = i := by
    rcases lt_trichotomy (interval eps X N t) i with h | h | h
    · have := c (by omega)
      have m := hmono (interval eps X N t + 1) i (by omega) (by omega)
      linarith
    · exact h
    · have := b (by omega)
      have m := hmono (i + 1) (interval eps X N t) (by omega) (by omega)
      linarith
  unfold valSpline valFirstDeri valSecondDeri
  rw [e]
  exact ⟨rfl, rfl, rfl⟩

/-- C47: with the first break at `0` and gaps larger than `ε`, evaluating at every break gives the data value. -/
theorem C47_eval_breaks_partial {eps : K} (he : 0 ≤ eps) {X Y : Nat → K} {N : Nat} (hN : 2 ≤ N) (hX : ∀ i < N - 1, X i + eps < X (i + 1)) (h0 : X 0 = 0) {q : Nat → Piece K}
    (hq : IsCubicSpline X Y (N - 1) q) {j : Nat} (hj : j < N) : valSpline eps q X N (X j) = Y j := by
  have hX' : ∀ i < N - 1, X i < X (i + 1) := fun i hi => by have := hX i hi; linarith
  by_cases h : j < N - 1
  · rw [(C47_eval_inside he hN hX' h0 q h (le_refl _) (hX j h)).1, sub_self]
    exact hq.left j h
  · obtain rfl : j = N - 1 := by omega
    obtain ⟨a, b, c⟩ := C47_interval he hN hX' (X (N - 1))
    have e : interval eps X N (X (N - 1)) = N - 2 := by
      rcases Nat.lt_or_ge (interval eps X N (X (N - 1))) (N - 2) with h | h
      · have := c h
        have m := mono_of_step hX' (interval eps X N (X (N - 1)) + 1) (N - 1) (by omega) (le_refl _)
        linarith
      · omega
    unfold valSpline
    rw [e]
    have := hq.right (N - 2) (by omega)
    rwa [show N - 2 + 1 = N - 1 by omega] at this

/-- The loop of the uniform evaluation. -/
theorem scanU_spec {eps h t : K} : ∀ f (i r : Int), scanU eps h t f i = some r → i ≤ r ∧ (∀ j, i ≤ j → j < r → t - j * h ≥ -eps) ∧ t - r * h < -eps := by
  intro f
  induction f with
  | zero => intro i r hr; exact absurd hr (by simp [scanU])
  | succ f ih =>
    intro i r hr
    rw [scanU] at hr
    split at hr
    · rename_i h'
      obtain ⟨a, b, c⟩ := ih _ _ hr
      refine ⟨by omega, fun j hj hj' => ?_, c⟩
      by_cases e : j = i
      · subst e; exact h'
      · exact b j (by omega) hj'
    · rename_i h'
      cases hr
      exact ⟨le_refl _, fun j hj hj' => absurd hj' (by omega), not_le.mp h'⟩

/-- C47: on equidistant breaks with a step above `ε` the loop ends after at most three tests, for every parameter. -/
theorem C47_uniform_interval_total [FloorRing K] {eps h : K} (he : 0 ≤ eps) (hh : eps < h) (N : Nat) (t : K) {fuel : Nat} (hf : 3 ≤ fuel) : (intervalU eps h N t fuel).isSome := by
  obtain ⟨f, rfl⟩ : ∃ f, fuel = f + 3 := ⟨fuel - 3, by omega⟩
  have hpos : 0 < h := lt_of_le_of_lt he hh
  have key : t - ((truncInt (t / h) + 1 + 1 : Int) : K) * h < -eps := by
    have hb : t / h < (truncInt (t / h) : K) + 1 := by
      unfold truncInt
      split
      · exact Int.lt_floor_add_one _
      · exact lt_of_le_of_lt (Int.le_ceil _) (by linarith)
    rw [div_lt_iff₀ hpos] at hb
    push_cast
    linarith
  unfold intervalU
  rw [Option.isSome_map, scanU]
  split
  · rw [scanU]
    split
    · rw [scanU, if_neg (not_le.mpr key)]; rfl
    · rfl
  · rfl

/-- C47: on equidistant breaks the interval chosen is the one containing `t` up to `ε`, with both ends clamped. -/
theorem C47_uniform_interval [FloorRing K] {eps h : K} (he : 0 ≤ eps) (hh : 0 < h) {N : Nat} (hN : 2 ≤ N) {t : K} {fuel i : Nat} (hi : intervalU eps h N t fuel = some i) :
    i ≤ N - 2 ∧ (0 < i → i * h ≤ t + eps) ∧ (i < N - 2 → t + eps < (i + 1) * h) := by
  unfold intervalU at hi
  rw [Option.map_eq_some_iff] at hi
  obtain ⟨r, hr, hi⟩ := hi
  obtain ⟨a, b, c⟩ := scanU_spec _ _ _ hr
  simp only at hi
  -- the index before the clamps
  have low : 1 ≤ r - 1 → ((r - 1 : Int) : K) * h ≤ t + eps := by
    intro h1
    by_cases e : truncInt (t / h) = r
    · exfalso
      unfold truncInt at e
      split at e
      · have hfl := Int.floor_le (t / h)
        rw [e, le_div_iff₀ hh] at hfl
        linarith
      · rename_i hneg
        have : ⌈t / h⌉ ≤ 0 := Int.ceil_le.mpr (by push_cast; exact (not_le.mp hneg).le)
        omega
    · have := b (r - 1) (by omega) (by omega)
      linarith
  have hcast : ∀ z : Int, 0 ≤ z → ((z.toNat : Nat) : K) = (z : K) := fun z hz => by
    have := Int.toNat_of_nonneg hz
    exact_mod_cast congrArg (Int.cast : Int → K) this
  by_cases h0 : r - 1 < 0
  · rw [if_pos h0, if_neg (by omega)] at hi
    subst hi
    refine ⟨by omega, fun h => absurd h (by simp), fun _ => ?_⟩
    have : (r : K) ≤ 0 := by exact_mod_cast (by omega : r ≤ 0)
    have := mul_nonpos_of_nonpos_of_nonneg this hh.le
    push_cast [Int.toNat_zero]
    linarith
  · rw [if_neg h0] at hi
    by_cases h1 : r - 1 > (N : Int) - 1 - 1
    · rw [if_pos h1] at hi
      subst hi
      refine ⟨by omega, fun hp => ?_, fun h => absurd h (by omega)⟩
      rw [hcast _ (by omega)]
      have l := low (by omega)
      have : (((N : Int) - 1 - 1 : Int) : K) ≤ ((r - 1 : Int) : K) := by exact_mod_cast h1.le
      have := mul_le_mul_of_nonneg_right this hh.le
      linarith
    · rw [if_neg h1] at hi
      subst hi
      refine ⟨by omega, fun hp => ?_, fun h => ?_⟩
      · rw [hcast _ (by omega)]; exact low (by omega)
      · rw [hcast _ (by omega)]; push_cast; linarith

/-- C47: on equidistant breaks with a step above `ε`, evaluating at every break gives the data value. -/
theorem C47_uniform_eval_breaks [FloorRing K] {eps h : K} (he : 0 ≤ eps) (hh : eps < h) {Y : Nat → K} {N : Nat} (hN : 2 ≤ N) {q : Nat → Piece K}
    (hq : IsCubicSpline (fun i => i * h) Y (N - 1) q) {j : Nat} (hj : j < N) {fuel : Nat} (hf : 3 ≤ fuel) : valSplineUniform eps h q N (j * h) fuel = some (Y j) := by
  have hpos : 0 < h := lt_of_le_of_lt he hh
  obtain ⟨i, hi⟩ := Option.isSome_iff_exists.mp (C47_uniform_interval_total he hh N (j * h) hf)
  obtain ⟨a, b, c⟩ := C47_uniform_interval he hpos hN hi
  unfold valSplineUniform
  rw [hi, Option.map_some]
  congr 1
  have hle : ∀ {x y : Nat}, x ≤ y → (x : K) * h ≤ y * h := fun hxy => mul_le_mul_of_nonneg_right (by exact_mod_cast hxy) hpos.le
  have hij : i ≤ j := by
    by_contra hc
    have := b (by omega)
    have m := hle (show j + 1 ≤ i by omega)
    push_cast at m
    linarith
  have hji : i < N - 2 → j ≤ i := by
    intro h'
    by_contra hc
    have := c h'
    have m := hle (show i + 1 ≤ j by omega)
    push_cast at m
    linarith
  rcases Nat.lt_or_ge i j with h' | h'
  · have e1 : i = N - 2 := by
      by_contra hne
      exact absurd (hji (by omega)) (by omega)
    have e2 : j = i + 1 := by omega
    subst e2
    exact hq.right i (by omega)
  · obtain rfl : i = j := by omega
    rw [sub_self]
    exact hq.left i (by
      by_contra hne
      omega)

/-- C47: on equidistant breaks, a parameter at or after the break `i h` and more than `ε` before the next one is evaluated with piece `i`, and so are the derivatives. -/
theorem C47_uniform_eval_inside [FloorRing K] {eps h : K} (he : 0 ≤ eps) (hh : eps < h) {N : Nat} (hN : 2 ≤ N) (q : Nat → Piece K) {i : Nat} (hi : i < N - 1) {t : K}
    (h1 : i * h ≤ t) (h2 : t + eps < (i + 1) * h) {fuel : Nat} (hf : 3 ≤ fuel) :
    valSplineUniform eps h q N t fuel = some ((q i).val (t - i * h)) ∧ valFirstDeriUniform eps h q N t fuel = some ((q i).deri1 (t - i * h)) ∧
    valSecondDeriUniform eps h q N t fuel = some ((q i).deri2 (t - i * h)) := by
  have hpos : 0 < h := lt_of_le_of_lt he hh
  obtain ⟨k, hk⟩ := Option.isSome_iff_exists.mp (C47_uniform_interval_total he hh N t hf)
  obtain ⟨a, b, c⟩ := C47_uniform_interval he hpos hN hk
  have hle : ∀ {x y : Nat}, x ≤ y → (x : K) * h ≤ y * h := fun hxy => mul_le_mul_of_nonneg_right (by exact_mod_cast hxy) hpos.le
  have e : k = i := by
    rcases lt_trichotomy k i with h' | h' | h'
    · have := c (by omega)
      have m := hle (show k + 1 ≤ i by omega)
      push_cast at m
      linarith
    · exact h'
    · have := b (by omega)
      have m := hle (show i + 1 ≤ k by omega)
      push_cast at m
      linarith
  subst e
  unfold valSplineUniform valFirstDeriUniform valSecondDeriUniform
  rw [hk]
  exact ⟨rfl, rfl, rfl⟩

end eval

theorem ok123 : (splineSlopes (1 / 4503599627370496) (table [1, 2, 3]) (table [0, 0, 1]) 3 0).isSome = true := by decide +kernel

theorem ok013 : (splineSlopes (1 / 4503599627370496) (table [0, 1, 3]) (table [0, 1, 0]) 3 0).isSome = true := by decide +kernel

/-- C47 fails when the first break is not `0`: the loop measures the parameter from the first break, the evaluation measures it from zero. For the breaks `1, 2, 3` and the data `0, 0, 1`
neither reading of the parameter gives the first data value at the first break. -/
theorem C47_eval_shifted_fails : ∃ (X Y : Nat → ℚ) (q : Nat → Piece ℚ), (∀ i < 2, X i < X (i + 1)) ∧ splineSlopes (1 / 4503599627370496) X Y 3 0 = some q ∧
    IsCubicSpline X Y 2 q ∧ valSpline (1 / 4503599627370496) q X 3 (X 0) ≠ Y 0 ∧ valSpline (1 / 4503599627370496) q X 3 (X 0 - X 0) ≠ Y 0 := by
  have hX : ∀ i < 2, table [1, 2, 3] i < table [1, 2, 3] (i + 1) := by decide +kernel
  refine ⟨table [1, 2, 3], table [0, 0, 1], _, hX, (Option.some_get ok123).symm, ?_, ?_, ?_⟩
  · exact (C47_slopes (by norm_num) (by norm_num) hX (Option.some_get ok123).symm).1
  · decide +kernel
  · decide +kernel

/-- A spline through `0, 1, 0` on the breaks `0, 1, 3`, evaluated at the middle break. -/
example : ∃ q, splineSlopes (1 / 4503599627370496) (table [0, 1, 3]) (table [0, 1, 0]) 3 0 = some q ∧ valSpline (1 / 4503599627370496) q (table [0, 1, 3]) 3 1 = 1 := by
  exact ⟨_, (Option.some_get ok013).symm, by decide +kernel⟩

/-- The hypotheses of `C47_uniform_eval_breaks` on real data. -/
example : ∃ q, splineUniformSlopes (1 / 4503599627370496) (1 / 2) (table [0, 1, 0, 5]) 4 0 = some q ∧
    ∀ j : Nat, j < 4 → valSplineUniform (1 / 4503599627370496) (1 / 2) q 4 (j * (1 / 2)) 3 = some (table [0, 1, 0, 5] j) := by
  obtain ⟨q, hq⟩ := Option.isSome_iff_exists.mp (C47_uniform_slopes_succeeds (K := ℚ) (eps := 1 / 4503599627370496) (h := 1 / 2) (by norm_num) (by norm_num) (by norm_num)
    (Y := table [0, 1, 0, 5]) (m0 := 0) (n := 4) (by norm_num))
  exact ⟨q, hq, fun j hj => C47_uniform_eval_breaks (by norm_num) (by norm_num) (by norm_num) (C47_uniform_slopes (by norm_num) (by norm_num) (by norm_num) hq).1 hj (le_refl _)⟩

end Verif.Spline
