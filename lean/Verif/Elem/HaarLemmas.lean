import Verif.Elem.Haar
import Mathlib.Algebra.BigOperators.Group.Finset.Basic
import Mathlib.Algebra.BigOperators.Intervals
import Mathlib.Tactic.Ring
import Mathlib.Tactic.FieldSimp
import Mathlib.Tactic.LinearCombination

/-!
# Helper lemmas for the Haar transform
-/

set_option linter.unusedSectionVars false

namespace Verif.Elem

variable {K : Type} [Field K]

/-- One level of the one-dimensional transform. -/
def F (r2 : K) (k : Nat) (u : Nat → Cplx K) (i : Nat) : Cplx K :=
  if i < k then avg r2 (u (2 * i)) (u (2 * i + 1))
  else if i < 2 * k then dif r2 (u (2 * (i - k))) (u (2 * (i - k) + 1))
  else u i

/-- One level of the one-dimensional inverse transform. -/
def G (r2 : K) (k : Nat) (u : Nat → Cplx K) (i : Nat) : Cplx K :=
  if i < 2 * k then
    (if i % 2 = 0 then avg r2 (u (i / 2)) (u (k + i / 2)) else dif r2 (u (i / 2)) (u (k + i / 2)))
  else u i

theorem r2_ne {r2 : K} (h : r2 * r2 = 2) (h2 : (2 : K) ≠ 0) : r2 ≠ 0 := by
  rintro rfl; apply h2; rw [← h]; ring

theorem scal1 {r2 : K} (h : r2 * r2 = 2) (h2 : (2 : K) ≠ 0) (a b : K) : ((a + b) / r2 + (a - b) / r2) / r2 = a := by
  have h0 := r2_ne h h2
  field_simp
  linear_combination (-a) * h

theorem scal2 {r2 : K} (h : r2 * r2 = 2) (h2 : (2 : K) ≠ 0) (a b : K) : ((a + b) / r2 - (a - b) / r2) / r2 = b := by
  have h0 := r2_ne h h2
  field_simp
  linear_combination (-b) * h

theorem avg_avg_dif {r2 : K} (h : r2 * r2 = 2) (h2 : (2 : K) ≠ 0) (a b : Cplx K) : avg r2 (avg r2 a b) (dif r2 a b) = a :=
  Prod.ext (scal1 h h2 _ _) (scal1 h h2 _ _)

theorem dif_avg_dif {r2 : K} (h : r2 * r2 = 2) (h2 : (2 : K) ≠ 0) (a b : Cplx K) : dif r2 (avg r2 a b) (dif r2 a b) = b :=
  Prod.ext (scal2 h h2 _ _) (scal2 h h2 _ _)

theorem G_F {r2 : K} (h : r2 * r2 = 2) (h2 : (2 : K) ≠ 0) (k : Nat) (u : Nat → Cplx K) : G r2 k (F r2 k u) = u := by
  funext i
  unfold G
  by_cases hi : i < 2 * k
  · rw [if_pos hi]
    have e1 : F r2 k u (i / 2) = avg r2 (u (2 * (i / 2))) (u (2 * (i / 2) + 1)) := by
      unfold F; rw [if_pos (by omega)]
    have e2 : F r2 k u (k + i / 2) = dif r2 (u (2 * (i / 2))) (u (2 * (i / 2) + 1)) := by
      unfold F
      rw [if_neg (by omega), if_pos (by omega), Nat.add_sub_cancel_left]
    rw [e1, e2, avg_avg_dif h h2, dif_avg_dif h h2]
    by_cases hp : i % 2 = 0
    · rw [if_pos hp]; congr 1; omega
    · rw [if_neg hp]; congr 1; omega
  · rw [if_neg hi]; unfold F
    rw [if_neg (by omega), if_neg hi]

theorem F_G {r2 : K} (h : r2 * r2 = 2) (h2 : (2 : K) ≠ 0) (k : Nat) (u : Nat → Cplx K) : F r2 k (G r2 k u) = u := by
  have e1 : ∀ i, i < k → G r2 k u (2 * i) = avg r2 (u i) (u (k + i)) := by
    intro i hi
    unfold G
    rw [if_pos (by omega), if_pos (by omega), Nat.mul_div_cancel_left i (by decide)]
  have e2 : ∀ i, i < k → G r2 k u (2 * i + 1) = dif r2 (u i) (u (k + i)) := by
    intro i hi
    unfold G
    rw [if_pos (by omega), if_neg (by omega), show (2 * i + 1) / 2 = i by omega]
  funext i
  unfold F
  by_cases hi : i < k
  · rw [if_pos hi, e1 i hi, e2 i hi, avg_avg_dif h h2]
  · rw [if_neg hi]
    by_cases hi' : i < 2 * k
    · rw [if_pos hi', e1 _ (by omega), e2 _ (by omega), dif_avg_dif h h2]
      congr 1; omega
    · rw [if_neg hi']; unfold G; rw [if_neg hi']

/-- The buffer holds the matrix `A` (column-major). -/
def View (n1 n2 : Nat) (v : Nat → Cplx K) (A : Nat → Nat → Cplx K) : Prop :=
  ∀ i < n1, ∀ j < n2, v (i + j * n1) = A i j

theorem copyRows_spec {n1 n2 m : Nat} (hm : m ≤ n1) (vv tmp : Nat → Cplx K) {i j : Nat} (hi : i < n1) (hj : j < n2) :
    writeAll vv (forN n2 fun j => forN m fun i => [(i + j * n1, tmp (i + j * n1))]) (i + j * n1) =
      if i < m then tmp (i + j * n1) else vv (i + j * n1) := by
  split
  · rename_i h
    apply writeAll_of_mem
    · simp only [mem_forN]
      exact ⟨j, hj, i, h, List.mem_singleton.mpr rfl⟩
    · intro y hy
      simp only [mem_forN, List.mem_singleton, Prod.mk.injEq] at hy
      obtain ⟨j', hj', i', hi', e, rfl⟩ := hy
      rw [e]
  · rename_i h
    apply writeAll_of_not_mem
    intro y hy
    simp only [mem_forN, List.mem_singleton, Prod.mk.injEq] at hy
    obtain ⟨j', hj', i', hi', e, rfl⟩ := hy
    obtain ⟨rfl, rfl⟩ := colMajor_inj hi (by omega) e
    exact h hi'

theorem copyCols_spec {n1 m : Nat} (vv tmp : Nat → Cplx K) {i j : Nat} (hi : i < n1) :
    writeAll vv (forN m fun j => forN n1 fun i => [(i + j * n1, tmp (i + j * n1))]) (i + j * n1) =
      if j < m then tmp (i + j * n1) else vv (i + j * n1) := by
  split
  · rename_i h
    apply writeAll_of_mem
    · simp only [mem_forN]
      exact ⟨j, h, i, hi, List.mem_singleton.mpr rfl⟩
    · intro y hy
      simp only [mem_forN, List.mem_singleton, Prod.mk.injEq] at hy
      obtain ⟨j', hj', i', hi', e, rfl⟩ := hy
      rw [e]
  · rename_i h
    apply writeAll_of_not_mem
    intro y hy
    simp only [mem_forN, List.mem_singleton, Prod.mk.injEq] at hy
    obtain ⟨j', hj', i', hi', e, rfl⟩ := hy
    obtain ⟨rfl, rfl⟩ := colMajor_inj hi (by omega) e
    exact h hj'

theorem fwdRows_view {r2 : K} {n1 n2 k : Nat} (hk : 2 * k ≤ n1) {s : Work K} {A : Nat → Nat → Cplx K} (hA : View n1 n2 s.vv A) :
    View n1 n2 (fwdRows r2 n1 n2 k s).vv (fun i j => F r2 k (fun i' => A i' j) i) := by
  intro i hi j hj
  refine (copyRows_spec hk _ _ hi hj).trans ?_
  show _ = F r2 k (fun i' => A i' j) i
  unfold F
  by_cases h2k : i < 2 * k
  · rw [if_pos h2k]
    by_cases h1k : i < k
    · rw [if_pos h1k]
      apply writeAll_of_mem
      · simp only [mem_forN]
        refine ⟨j, hj, i, h1k, List.mem_cons.mpr (Or.inl ?_)⟩
        rw [hA _ (by omega) _ hj, hA _ (by omega) _ hj]
      · intro y hy
        simp only [mem_forN, List.mem_cons, Prod.mk.injEq, List.not_mem_nil, or_false] at hy
        obtain ⟨j', hj', i', hi', ⟨e, rfl⟩ | ⟨e, rfl⟩⟩ := hy
        · obtain ⟨rfl, rfl⟩ := colMajor_inj hi (by omega) e
          rw [hA _ (by omega) _ hj, hA _ (by omega) _ hj]
        · obtain ⟨e1, _⟩ := colMajor_inj hi (by omega) e
          omega
    · rw [if_neg h1k, if_pos h2k]
      apply writeAll_of_mem
      · simp only [mem_forN]
        refine ⟨j, hj, i - k, by omega, List.mem_cons.mpr (Or.inr (List.mem_singleton.mpr ?_))⟩
        rw [hA _ (by omega) _ hj, hA _ (by omega) _ hj, show k + (i - k) = i by omega]
      · intro y hy
        simp only [mem_forN, List.mem_cons, Prod.mk.injEq, List.not_mem_nil, or_false] at hy
        obtain ⟨j', hj', i', hi', ⟨e, rfl⟩ | ⟨e, rfl⟩⟩ := hy
        · obtain ⟨e1, _⟩ := colMajor_inj hi (by omega) e
          omega
        · obtain ⟨e1, rfl⟩ := colMajor_inj hi (by omega) e
          have : i - k = i' := by omega
          rw [hA _ (by omega) _ hj, hA _ (by omega) _ hj, this]
  · rw [if_neg h2k, hA _ hi _ hj, if_neg (by omega), if_neg h2k]

theorem fwdCols_view {r2 : K} {n1 n2 k : Nat} (hk : 2 * k ≤ n2) {s : Work K} {A : Nat → Nat → Cplx K} (hA : View n1 n2 s.vv A) :
    View n1 n2 (fwdCols r2 n1 k s).vv (fun i j => F r2 k (A i) j) := by
  intro i hi j hj
  refine (copyCols_spec _ _ hi).trans ?_
  show _ = F r2 k (A i) j
  unfold F
  by_cases h2k : j < 2 * k
  · rw [if_pos h2k]
    by_cases h1k : j < k
    · rw [if_pos h1k]
      apply writeAll_of_mem
      · simp only [mem_forN]
        refine ⟨j, h1k, i, hi, List.mem_cons.mpr (Or.inl ?_)⟩
        rw [hA _ hi _ (by omega), hA _ hi _ (by omega)]
      · intro y hy
        simp only [mem_forN, List.mem_cons, Prod.mk.injEq, List.not_mem_nil, or_false] at hy
        obtain ⟨j', hj', i', hi', ⟨e, rfl⟩ | ⟨e, rfl⟩⟩ := hy
        · obtain ⟨rfl, rfl⟩ := colMajor_inj hi hi' e
          rw [hA _ hi _ (by omega), hA _ hi _ (by omega)]
        · obtain ⟨_, e1⟩ := colMajor_inj hi hi' e
          omega
    · rw [if_neg h1k, if_pos h2k]
      apply writeAll_of_mem
      · simp only [mem_forN]
        refine ⟨j - k, by omega, i, hi, List.mem_cons.mpr (Or.inr (List.mem_singleton.mpr ?_))⟩
        rw [hA _ hi _ (by omega), hA _ hi _ (by omega), show k + (j - k) = j by omega]
      · intro y hy
        simp only [mem_forN, List.mem_cons, Prod.mk.injEq, List.not_mem_nil, or_false] at hy
        obtain ⟨j', hj', i', hi', ⟨e, rfl⟩ | ⟨e, rfl⟩⟩ := hy
        · obtain ⟨_, e1⟩ := colMajor_inj hi hi' e
          omega
        · obtain ⟨rfl, e1⟩ := colMajor_inj hi hi' e
          have : j - k = j' := by omega
          rw [hA _ hi _ (by omega), hA _ hi _ (by omega), this]
  · rw [if_neg h2k, hA _ hi _ hj, if_neg (by omega), if_neg h2k]

theorem invRows_view {r2 : K} {n1 n2 k : Nat} (hk : 2 * k ≤ n1) {s : Work K} {A : Nat → Nat → Cplx K} (hA : View n1 n2 s.vv A) :
    View n1 n2 (invRows r2 n1 n2 k s).vv (fun i j => G r2 k (fun i' => A i' j) i) := by
  intro i hi j hj
  refine (copyRows_spec hk _ _ hi hj).trans ?_
  show _ = G r2 k (fun i' => A i' j) i
  unfold G
  by_cases h2k : i < 2 * k
  · rw [if_pos h2k, if_pos h2k]
    by_cases hp : i % 2 = 0
    · rw [if_pos hp]
      apply writeAll_of_mem
      · simp only [mem_forN]
        refine ⟨j, hj, i / 2, by omega, List.mem_cons.mpr (Or.inl ?_)⟩
        rw [hA _ (by omega) _ hj, hA _ (by omega) _ hj, show 2 * (i / 2) = i by omega]
      · intro y hy
        simp only [mem_forN, List.mem_cons, Prod.mk.injEq, List.not_mem_nil, or_false] at hy
        obtain ⟨j', hj', i', hi', ⟨e, rfl⟩ | ⟨e, rfl⟩⟩ := hy
        · obtain ⟨e1, rfl⟩ := colMajor_inj hi (by omega) e
          have : i / 2 = i' := by omega
          rw [hA _ (by omega) _ hj, hA _ (by omega) _ hj, this]
        · obtain ⟨e1, _⟩ := colMajor_inj hi (by omega) e
          omega
    · rw [if_neg hp]
      apply writeAll_of_mem
      · simp only [mem_forN]
        refine ⟨j, hj, i / 2, by omega, List.mem_cons.mpr (Or.inr (List.mem_singleton.mpr ?_))⟩
        rw [hA _ (by omega) _ hj, hA _ (by omega) _ hj, show 2 * (i / 2) + 1 = i by omega]
      · intro y hy
        simp only [mem_forN, List.mem_cons, Prod.mk.injEq, List.not_mem_nil, or_false] at hy
        obtain ⟨j', hj', i', hi', ⟨e, rfl⟩ | ⟨e, rfl⟩⟩ := hy
        · obtain ⟨e1, _⟩ := colMajor_inj hi (by omega) e
          omega
        · obtain ⟨e1, rfl⟩ := colMajor_inj hi (by omega) e
          have : i / 2 = i' := by omega
          rw [hA _ (by omega) _ hj, hA _ (by omega) _ hj, this]
  · rw [if_neg h2k, hA _ hi _ hj, if_neg h2k]

theorem invCols_view {r2 : K} {n1 n2 k : Nat} (hk : 2 * k ≤ n2) {s : Work K} {A : Nat → Nat → Cplx K} (hA : View n1 n2 s.vv A) :
    View n1 n2 (invCols r2 n1 k s).vv (fun i j => G r2 k (A i) j) := by
  intro i hi j hj
  refine (copyCols_spec _ _ hi).trans ?_
  show _ = G r2 k (A i) j
  unfold G
  by_cases h2k : j < 2 * k
  · rw [if_pos h2k, if_pos h2k]
    by_cases hp : j % 2 = 0
    · rw [if_pos hp]
      apply writeAll_of_mem
      · simp only [mem_forN]
        refine ⟨j / 2, by omega, i, hi, List.mem_cons.mpr (Or.inl ?_)⟩
        rw [hA _ hi _ (by omega), hA _ hi _ (by omega), show 2 * (j / 2) = j by omega]
      · intro y hy
        simp only [mem_forN, List.mem_cons, Prod.mk.injEq, List.not_mem_nil, or_false] at hy
        obtain ⟨j', hj', i', hi', ⟨e, rfl⟩ | ⟨e, rfl⟩⟩ := hy
        · obtain ⟨rfl, e1⟩ := colMajor_inj hi hi' e
          have : j / 2 = j' := by omega
          rw [hA _ hi _ (by omega), hA _ hi _ (by omega), this]
        · obtain ⟨_, e1⟩ := colMajor_inj hi hi' e
          omega
    · rw [if_neg hp]
      apply writeAll_of_mem
      · simp only [mem_forN]
        refine ⟨j / 2, by omega, i, hi, List.mem_cons.mpr (Or.inr (List.mem_singleton.mpr ?_))⟩
        rw [hA _ hi _ (by omega), hA _ hi _ (by omega), show 2 * (j / 2) + 1 = j by omega]
      · intro y hy
        simp only [mem_forN, List.mem_cons, Prod.mk.injEq, List.not_mem_nil, or_false] at hy
        obtain ⟨j', hj', i', hi', ⟨e, rfl⟩ | ⟨e, rfl⟩⟩ := hy
        · obtain ⟨_, e1⟩ := colMajor_inj hi hi' e
          omega
        · obtain ⟨rfl, e1⟩ := colMajor_inj hi hi' e
          have : j / 2 = j' := by omega
          rw [hA _ hi _ (by omega), hA _ hi _ (by omega), this]
  · rw [if_neg h2k, hA _ hi _ hj, if_neg h2k]

/-- `L` levels of the one-dimensional transform. -/
def FL (r2 : K) : Nat → (Nat → Cplx K) → (Nat → Cplx K)
  | 0, u => u
  | L + 1, u => FL r2 L (F r2 (2 ^ L) u)

/-- `L` levels of the one-dimensional inverse. -/
def GL (r2 : K) : Nat → (Nat → Cplx K) → (Nat → Cplx K)
  | 0, u => u
  | L + 1, u => G r2 (2 ^ L) (GL r2 L u)

theorem GL_FL {r2 : K} (h : r2 * r2 = 2) (h2 : (2 : K) ≠ 0) : ∀ (L : Nat) (u : Nat → Cplx K), GL r2 L (FL r2 L u) = u := by
  intro L
  induction L with
  | zero => intro u; rfl
  | succ L ih => intro u; rw [FL, GL, ih, G_F h h2]

theorem FL_GL {r2 : K} (h : r2 * r2 = 2) (h2 : (2 : K) ≠ 0) : ∀ (L : Nat) (u : Nat → Cplx K), FL r2 L (GL r2 L u) = u := by
  intro L
  induction L with
  | zero => intro u; rfl
  | succ L ih => intro u; rw [GL, FL, F_G h h2, ih]

/-- `L` is the number of levels for dimension `n`. -/
def Levels (n L : Nat) : Prop := n < 2 ^ (L + 1) ∧ ∀ l < L, 2 ^ (l + 1) ≤ n

theorem topLoop_spec (n : Nat) : ∀ (f l : Nat), n ≤ f + l → (∀ l' < l, 2 ^ (l' + 1) ≤ n) →
    ∃ L, topLoop n f (2 ^ l) = 2 ^ L ∧ Levels n L := by
  intro f
  induction f with
  | zero =>
    intro l hl hp
    refine ⟨l, rfl, ?_, hp⟩
    have : l + 1 < 2 ^ (l + 1) := Nat.lt_two_pow_self
    omega
  | succ f ih =>
    intro l hl hp
    rw [topLoop]
    split
    · rename_i h
      rw [← pow_succ] at h ⊢
      apply ih (l + 1) (by omega)
      intro l' hl'
      rcases Nat.lt_succ_iff_lt_or_eq.mp hl' with h' | h'
      · exact hp l' h'
      · rw [h']; exact h
    · rename_i h
      rw [← pow_succ] at h
      exact ⟨l, rfl, by omega, hp⟩

theorem levels_exist (n : Nat) : ∃ L, topLoop n n 1 = 2 ^ L ∧ Levels n L :=
  topLoop_spec n n 0 (Nat.le_refl _) (fun _ h => absurd h (Nat.not_lt_zero _))

theorem levels_le {n L : Nat} (h : Levels n L) : L ≤ n := by
  rcases Nat.eq_zero_or_pos L with h0 | h0
  · omega
  · have := h.2 (L - 1) (by omega)
    rw [Nat.sub_add_cancel h0] at this
    have : L < 2 ^ L := Nat.lt_two_pow_self
    omega

theorem fwdRowsLoop_view {r2 : K} {n1 n2 : Nat} : ∀ (L f : Nat) (s : Work K) (A : Nat → Nat → Cplx K), L ≤ f → (∀ l < L, 2 ^ (l + 1) ≤ n1) →
    View n1 n2 s.vv A → View n1 n2 (fwdRowsLoop r2 n1 n2 f (2 ^ L) s).vv (fun i j => FL r2 L (fun i' => A i' j) i) := by
  intro L
  induction L with
  | zero =>
    intro f s A _ _ hA
    cases f with
    | zero => exact hA
    | succ f => rw [fwdRowsLoop, if_neg (by decide)]; exact hA
  | succ L ih =>
    intro f s A hf hn hA
    obtain ⟨f, rfl⟩ : ∃ g, f = g + 1 := ⟨f - 1, by omega⟩
    have hp : 0 < 2 ^ L := Nat.two_pow_pos L
    rw [fwdRowsLoop, if_pos (by rw [pow_succ]; omega), show 2 ^ (L + 1) / 2 = 2 ^ L by rw [pow_succ]; omega]
    exact ih f _ _ (by omega) (fun l hl => hn l (by omega))
      (fwdRows_view (by have := hn L (by omega); rw [pow_succ] at this; omega) hA)

theorem fwdColsLoop_view {r2 : K} {n1 n2 : Nat} : ∀ (L f : Nat) (s : Work K) (A : Nat → Nat → Cplx K), L ≤ f → (∀ l < L, 2 ^ (l + 1) ≤ n2) →
    View n1 n2 s.vv A → View n1 n2 (fwdColsLoop r2 n1 f (2 ^ L) s).vv (fun i j => FL r2 L (A i) j) := by
  intro L
  induction L with
  | zero =>
    intro f s A _ _ hA
    cases f with
    | zero => exact hA
    | succ f => rw [fwdColsLoop, if_neg (by decide)]; exact hA
  | succ L ih =>
    intro f s A hf hn hA
    obtain ⟨f, rfl⟩ : ∃ g, f = g + 1 := ⟨f - 1, by omega⟩
    have hp : 0 < 2 ^ L := Nat.two_pow_pos L
    rw [fwdColsLoop, if_pos (by rw [pow_succ]; omega), show 2 ^ (L + 1) / 2 = 2 ^ L by rw [pow_succ]; omega]
    exact ih f _ _ (by omega) (fun l hl => hn l (by omega))
      (fwdCols_view (by have := hn L (by omega); rw [pow_succ] at this; omega) hA)

theorem invRowsLoop_view {r2 : K} {n1 n2 L : Nat} (hL : Levels n1 L) : ∀ (f l : Nat) (s : Work K) (A : Nat → Nat → Cplx K), l ≤ L → L ≤ f + l →
    View n1 n2 s.vv (fun i j => GL r2 l (fun i' => A i' j) i) →
    View n1 n2 (invRowsLoop r2 n1 n2 f (2 ^ l) s).vv (fun i j => GL r2 L (fun i' => A i' j) i) := by
  intro f
  induction f with
  | zero =>
    intro l s A h1 h2 hA
    have : l = L := by omega
    subst this
    exact hA
  | succ f ih =>
    intro l s A h1 h2 hA
    rw [invRowsLoop]
    split
    · rename_i h
      rw [← pow_succ] at h ⊢
      have hlt : l < L := by
        by_contra hc
        have : l = L := by omega
        rw [this] at h
        have := hL.1
        omega
      apply ih (l + 1) _ _ hlt (by omega)
      exact invRows_view (by rw [pow_succ] at h; omega) hA
    · rename_i h
      have : l = L := by
        by_contra hc
        have := hL.2 l (by omega)
        rw [pow_succ] at this
        exact h this
      subst this
      exact hA

theorem invColsLoop_view {r2 : K} {n1 n2 L : Nat} (hL : Levels n2 L) : ∀ (f l : Nat) (s : Work K) (A : Nat → Nat → Cplx K), l ≤ L → L ≤ f + l →
    View n1 n2 s.vv (fun i j => GL r2 l (A i) j) →
    View n1 n2 (invColsLoop r2 n1 n2 f (2 ^ l) s).vv (fun i j => GL r2 L (A i) j) := by
  intro f
  induction f with
  | zero =>
    intro l s A h1 h2 hA
    have : l = L := by omega
    subst this
    exact hA
  | succ f ih =>
    intro l s A h1 h2 hA
    rw [invColsLoop]
    split
    · rename_i h
      rw [← pow_succ] at h ⊢
      have hlt : l < L := by
        by_contra hc
        have : l = L := by omega
        rw [this] at h
        have := hL.1
        omega
      apply ih (l + 1) _ _ hlt (by omega)
      exact invCols_view (by rw [pow_succ] at h; omega) hA
    · rename_i h
      have : l = L := by
        by_contra hc
        have := hL.2 l (by omega)
        rw [pow_succ] at this
        exact h this
      subst this
      exact hA

theorem haar_view {r2 : K} {n1 n2 L1 L2 : Nat} (h1 : topLoop n1 n1 1 = 2 ^ L1) (hL1 : Levels n1 L1) (h2 : topLoop n2 n2 1 = 2 ^ L2)
    (hL2 : Levels n2 L2) {v : Nat → Cplx K} {A : Nat → Nat → Cplx K} (hA : View n1 n2 v A) :
    View n1 n2 (haar r2 n1 n2 v) (fun i j => FL r2 L2 (fun j' => FL r2 L1 (fun i' => A i' j') i) j) := by
  unfold haar
  simp only [h1, h2]
  exact fwdColsLoop_view L2 n2 _ _ (levels_le hL2) hL2.2 (fwdRowsLoop_view L1 n1 ⟨v, v⟩ A (levels_le hL1) hL1.2 hA)

theorem invHaar_view {r2 : K} {n1 n2 L1 L2 : Nat} (hL1 : Levels n1 L1) (hL2 : Levels n2 L2) {v : Nat → Cplx K} {A : Nat → Nat → Cplx K}
    (hA : View n1 n2 v A) :
    View n1 n2 (invHaar r2 n1 n2 v) (fun i j => GL r2 L1 (fun i' => GL r2 L2 (A i') j) i) := by
  unfold invHaar
  have e := invColsLoop_view (r2 := r2) (n1 := n1) hL2 n2 0 ⟨v, v⟩ A (Nat.zero_le _) (levels_le hL2) hA
  exact invRowsLoop_view (r2 := r2) (n2 := n2) hL1 n1 0 _ (fun i j => GL r2 L2 (A i) j) (Nat.zero_le _) (levels_le hL1) e

/-! Norms -/

/-- Squared modulus. -/
def modSq (z : Cplx K) : K := z.1 * z.1 + z.2 * z.2

theorem modSq_avg_dif {r2 : K} (h : r2 * r2 = 2) (h2 : (2 : K) ≠ 0) (a b : Cplx K) :
    modSq (avg r2 a b) + modSq (dif r2 a b) = modSq a + modSq b := by
  have h0 := r2_ne h h2
  unfold modSq avg dif
  simp only []
  field_simp
  linear_combination (-(a.1 * a.1 + a.2 * a.2 + b.1 * b.1 + b.2 * b.2)) * h

theorem sum_pairs (f : Nat → K) (k : Nat) : ∑ i ∈ Finset.range (2 * k), f i = ∑ i ∈ Finset.range k, (f (2 * i) + f (2 * i + 1)) := by
  induction k with
  | zero => simp
  | succ k ih =>
    rw [show 2 * (k + 1) = 2 * k + 1 + 1 by ring, Finset.sum_range_succ, Finset.sum_range_succ, ih, Finset.sum_range_succ, add_assoc]

theorem sum_F {r2 : K} (h : r2 * r2 = 2) (h2 : (2 : K) ≠ 0) {n k : Nat} (hk : 2 * k ≤ n) (u : Nat → Cplx K) :
    ∑ i ∈ Finset.range n, modSq (F r2 k u i) = ∑ i ∈ Finset.range n, modSq (u i) := by
  obtain ⟨m, rfl⟩ := Nat.exists_eq_add_of_le hk
  rw [Finset.sum_range_add, Finset.sum_range_add]
  congr 1
  · rw [sum_pairs (fun i => modSq (u i)), two_mul, Finset.sum_range_add, ← Finset.sum_add_distrib]
    apply Finset.sum_congr rfl
    intro i hi
    have hi := Finset.mem_range.mp hi
    rw [← modSq_avg_dif h h2 (u (2 * i)) (u (2 * i + 1))]
    unfold F
    rw [if_pos hi, if_neg (by omega), if_pos (by omega), Nat.add_sub_cancel_left]
  · apply Finset.sum_congr rfl
    intro i _
    unfold F
    rw [if_neg (by omega), if_neg (by omega)]

theorem sum_FL {r2 : K} (h : r2 * r2 = 2) (h2 : (2 : K) ≠ 0) {n : Nat} : ∀ (L : Nat) (u : Nat → Cplx K), (∀ l < L, 2 ^ (l + 1) ≤ n) →
    ∑ i ∈ Finset.range n, modSq (FL r2 L u i) = ∑ i ∈ Finset.range n, modSq (u i) := by
  intro L
  induction L with
  | zero => intros; rfl
  | succ L ih =>
    intro u hn
    rw [FL, ih _ (fun l hl => hn l (by omega)), sum_F h h2]
    have := hn L (by omega)
    rw [pow_succ] at this; omega

theorem sum_flat {n1 n2 : Nat} (f : Nat → K) :
    ∑ p ∈ Finset.range (n1 * n2), f p = ∑ j ∈ Finset.range n2, ∑ i ∈ Finset.range n1, f (i + j * n1) := by
  induction n2 with
  | zero => simp
  | succ n ih =>
    rw [Nat.mul_succ, Finset.sum_range_add, ih, Finset.sum_range_succ]
    congr 1
    apply Finset.sum_congr rfl
    intro i _
    rw [Nat.mul_comm n1 n, Nat.add_comm]

end Verif.Elem
