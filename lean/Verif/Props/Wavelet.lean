import Verif.Others.Wavelet
import Mathlib.Algebra.BigOperators.Intervals
import Mathlib.Algebra.BigOperators.Field
import Mathlib.Data.Nat.Log
import Mathlib.Tactic.FieldSimp
import Mathlib.Tactic.LinearCombination

/-!
# C83: the Haar wavelet transform
-/

set_option linter.unusedSectionVars false
set_option linter.unusedVariables false

namespace Verif.Wavelet

open Verif.Elem Finset

theorem r2_ne : r2 ≠ 0 := by
  rw [r2, Ne, Complex.ofReal_eq_zero, Real.sqrt_eq_zero (by norm_num)]
  norm_num
theorem r2_sq : r2 * r2 = 2 := by
  rw [r2, ← Complex.ofReal_mul, Real.mul_self_sqrt (by norm_num)]
  norm_num

/-! ## One line -/

/-- One level of the transform of one line. -/
noncomputable def fS (k : ℕ) (u : ℕ → ℂ) (i : ℕ) : ℂ :=
  if i < k then (u (2 * i) + u (2 * i + 1)) / r2 else if i < 2 * k then (u (2 * (i - k)) - u (2 * (i - k) + 1)) / r2 else u i

/-- One level of the inverse. -/
noncomputable def iS (k : ℕ) (u : ℕ → ℂ) (i : ℕ) : ℂ :=
  if i < 2 * k then if i % 2 = 0 then (u (i / 2) + u (i / 2 + k)) / r2 else (u (i / 2) - u (i / 2 + k)) / r2 else u i

theorem half_add (a b : ℂ) : ((a + b) / r2 + (a - b) / r2) / r2 = a := by
  have h := r2_ne
  rw [← add_div, div_div, r2_sq]
  ring
theorem half_sub (a b : ℂ) : ((a + b) / r2 - (a - b) / r2) / r2 = b := by
  have h := r2_ne
  rw [← sub_div, div_div, r2_sq]
  ring

theorem iS_fS (k : ℕ) (u : ℕ → ℂ) : iS k (fS k u) = u := by
  funext i
  by_cases h : i < 2 * k
  · have h1 : i / 2 < k := by omega
    have e1 : fS k u (i / 2) = (u (2 * (i / 2)) + u (2 * (i / 2) + 1)) / r2 := by simp [fS, h1]
    have e2 : fS k u (i / 2 + k) = (u (2 * (i / 2)) - u (2 * (i / 2) + 1)) / r2 := by
      simp only [fS, show ¬ (i / 2 + k < k) by omega, show i / 2 + k < 2 * k by omega, if_true, if_false, Nat.add_sub_cancel]
    by_cases h2 : i % 2 = 0
    · simp only [iS, h, h2, if_true, e1, e2, half_add]
      congr 1; omega
    · simp only [iS, h, h2, if_true, if_false, e1, e2, half_sub]
      congr 1; omega
  · simp only [iS, h, if_false, fS, show ¬ (i < k) by omega]

theorem fS_iS (k : ℕ) (u : ℕ → ℂ) : fS k (iS k u) = u := by
  funext i
  have e : ∀ m < k, iS k u (2 * m) = (u m + u (m + k)) / r2 ∧ iS k u (2 * m + 1) = (u m - u (m + k)) / r2 := by
    intro m hm
    constructor
    · simp only [iS, show 2 * m < 2 * k by omega, show 2 * m % 2 = 0 by omega, show 2 * m / 2 = m by omega, if_true]
    · simp only [iS, show 2 * m + 1 < 2 * k by omega, show ¬ ((2 * m + 1) % 2 = 0) by omega, show (2 * m + 1) / 2 = m by omega, if_true, if_false]
  by_cases h : i < k
  · simp only [fS, h, if_true, (e i h).1, (e i h).2, half_add]
  · by_cases h2 : i < 2 * k
    · simp only [fS, h, h2, if_true, if_false, (e (i - k) (by omega)).1, (e (i - k) (by omega)).2, half_sub]
      congr 1; omega
    · simp only [fS, h, h2, if_false, iS]

/-- All levels of the transform of a line whose leading `2 ^ K` entries are transformed. -/
noncomputable def fL : ℕ → (ℕ → ℂ) → ℕ → ℂ
  | 0, u => u
  | K + 1, u => fL K (fS (2 ^ K) u)

/-- All levels of the inverse. -/
noncomputable def iL : ℕ → (ℕ → ℂ) → ℕ → ℂ
  | 0, u => u
  | K + 1, u => iS (2 ^ K) (iL K u)

theorem iL_fL (K : ℕ) (u : ℕ → ℂ) : iL K (fL K u) = u := by
  induction K generalizing u with
  | zero => rfl
  | succ K ih => rw [fL, iL, ih, iS_fS]

theorem fL_iL (K : ℕ) (u : ℕ → ℂ) : fL K (iL K u) = u := by
  induction K generalizing u with
  | zero => rfl
  | succ K ih => rw [fL, iL, fS_iS, ih]

theorem sum_double (f : ℕ → ℂ) (k : ℕ) : ∑ i ∈ range (2 * k), f i = ∑ i ∈ range k, (f (2 * i) + f (2 * i + 1)) := by
  induction k with
  | zero => simp
  | succ k ih =>
    rw [show 2 * (k + 1) = 2 * k + 1 + 1 by ring, sum_range_succ, sum_range_succ, ih, sum_range_succ]
    ring

theorem conj_r2 : (starRingEnd ℂ) r2 = r2 := by rw [r2, Complex.conj_ofReal]

theorem fS_inner (k n : ℕ) (h : 2 * k ≤ n) (u w : ℕ → ℂ) :
    ∑ i ∈ range n, starRingEnd ℂ (fS k u i) * fS k w i = ∑ i ∈ range n, starRingEnd ℂ (u i) * w i := by
  rw [← sum_range_add_sum_Ico _ h, ← sum_range_add_sum_Ico _ h]
  congr 1
  · rw [sum_double (fun i => starRingEnd ℂ (u i) * w i), two_mul, sum_range_add, ← sum_add_distrib]
    refine sum_congr rfl fun i hi => ?_
    have hi := mem_range.mp hi
    have e : ∀ u : ℕ → ℂ, fS k u (k + i) = (u (2 * i) - u (2 * i + 1)) / r2 := by
      intro u
      simp only [fS, show ¬ (k + i < k) by omega, show k + i < 2 * k by omega, if_true, if_false, show k + i - k = i by omega]
    simp only [e]
    simp only [fS, hi, if_true, map_div₀, map_add, map_sub, conj_r2]
    rw [div_mul_div_comm, div_mul_div_comm, r2_sq]
    ring
  · refine sum_congr rfl fun i hi => ?_
    have hi := mem_Ico.mp hi
    simp only [fS, show ¬ (i < k) by omega, show ¬ (i < 2 * k) by omega, if_false]

theorem fL_inner (K n : ℕ) (h : 2 ^ K ≤ n) (u w : ℕ → ℂ) :
    ∑ i ∈ range n, starRingEnd ℂ (fL K u i) * fL K w i = ∑ i ∈ range n, starRingEnd ℂ (u i) * w i := by
  induction K generalizing u w with
  | zero => rfl
  | succ K ih =>
    rw [fL, fL, ih (by rw [pow_succ] at h; omega), fS_inner _ _ (by rw [pow_succ] at h; omega)]

theorem fL_ge (K : ℕ) (u : ℕ → ℂ) {i : ℕ} (h : 2 ^ K ≤ i) : fL K u i = u i := by
  induction K generalizing u with
  | zero => rfl
  | succ K ih =>
    have : 2 ^ (K + 1) = 2 ^ K * 2 := pow_succ 2 K
    rw [fL, ih _ (by omega), fS, if_neg (by omega), if_neg (by omega)]

theorem fL_congr (K : ℕ) {u w : ℕ → ℂ} (n : ℕ) (hn : 2 ^ K ≤ n) (h : ∀ i < n, u i = w i) : ∀ i < n, fL K u i = fL K w i := by
  induction K generalizing u w with
  | zero => exact h
  | succ K ih =>
    have e : 2 ^ (K + 1) = 2 ^ K * 2 := pow_succ 2 K
    refine ih (by omega) fun i hi => ?_
    unfold fS
    split_ifs
    · rw [h _ (by omega), h _ (by omega)]
    · rw [h _ (by omega), h _ (by omega)]
    · exact h i hi

theorem iL_congr (K : ℕ) {u w : ℕ → ℂ} (n : ℕ) (hn : 2 ^ K ≤ n) (h : ∀ i < n, u i = w i) : ∀ i < n, iL K u i = iL K w i := by
  induction K generalizing u w with
  | zero => exact h
  | succ K ih =>
    have e : 2 ^ (K + 1) = 2 ^ K * 2 := pow_succ 2 K
    have := ih (by omega) h
    intro i hi
    rw [iL, iL]
    unfold iS
    split_ifs
    · rw [this _ (by omega), this _ (by omega)]
    · rw [this _ (by omega), this _ (by omega)]
    · exact this i hi

/-! ## Independent specification of a line -/

/-- Haar coefficients of the leading `2 ^ K` entries of a line: entry zero is the normalised sum, entry `2 ^ l + m` is the normalised difference of the sums over the two halves of the block `m`
of the `2 ^ l` blocks; later entries are not transformed. -/
def IsHaar (K : ℕ) (u c : ℕ → ℂ) : Prop :=
  c 0 = (∑ t ∈ range (2 ^ K), u t) / r2 ^ K ∧
  (∀ l d m, l + 1 + d = K → m < 2 ^ l → c (2 ^ l + m) = (∑ t ∈ range (2 ^ d), u (m * 2 ^ (d + 1) + t) - ∑ t ∈ range (2 ^ d), u (m * 2 ^ (d + 1) + 2 ^ d + t)) / r2 ^ (d + 1)) ∧
  ∀ i, 2 ^ K ≤ i → c i = u i

theorem fL_isHaar (K : ℕ) (u : ℕ → ℂ) : IsHaar K u (fL K u) := by
  induction K generalizing u with
  | zero => exact ⟨by simp [fL], fun l d m h => by omega, fun i _ => rfl⟩
  | succ K ih =>
    obtain ⟨h1, h2, h3⟩ := ih (fS (2 ^ K) u)
    have e : 2 ^ (K + 1) = 2 * 2 ^ K := by rw [pow_succ]; ring
    have lo : ∀ i < 2 ^ K, fS (2 ^ K) u i = (u (2 * i) + u (2 * i + 1)) / r2 := fun i hi => by simp [fS, hi]
    refine ⟨?_, fun l d m hl hm => ?_, fun i hi => fL_ge _ _ hi⟩
    · rw [fL, h1, e, sum_double, sum_congr rfl fun i hi => lo i (mem_range.mp hi), ← sum_div, div_div, pow_succ, mul_comm r2]
    · rw [fL]
      cases d with
      | zero =>
        have : l = K := by omega
        subst this
        rw [h3 _ (by omega)]
        simp only [fS, show ¬ (2 ^ l + m < 2 ^ l) by omega, show 2 ^ l + m < 2 * 2 ^ l by omega, if_true, if_false, show 2 ^ l + m - 2 ^ l = m by omega]
        simp [mul_comm]
      | succ d =>
        rw [h2 l d m (by omega) hm]
        have hb : ∀ t < 2 ^ (d + 1), m * 2 ^ (d + 1) + t < 2 ^ K := by
          intro t ht
          have : 2 ^ K = 2 ^ l * 2 ^ (d + 1) := by rw [← pow_add]; congr 1; omega
          rw [this]
          calc m * 2 ^ (d + 1) + t < m * 2 ^ (d + 1) + 2 ^ (d + 1) := by omega
            _ = (m + 1) * 2 ^ (d + 1) := by ring
            _ ≤ 2 ^ l * 2 ^ (d + 1) := Nat.mul_le_mul_right _ hm
        have e2 : 2 ^ (d + 1) = 2 * 2 ^ d := by rw [pow_succ]; ring
        have e3 : 2 ^ (d + 1 + 1) = 2 * 2 ^ (d + 1) := by rw [pow_succ]; ring
        rw [sum_congr rfl fun t ht => lo _ (hb t (by have := mem_range.mp ht; omega)),
          sum_congr (g := fun t => (u (2 * (m * 2 ^ (d + 1) + 2 ^ d + t)) + u (2 * (m * 2 ^ (d + 1) + 2 ^ d + t) + 1)) / r2) rfl
            fun t ht => lo _ (by have := hb (2 ^ d + t) (by have := mem_range.mp ht; omega); omega),
          ← sum_div, ← sum_div, ← sub_div, div_div, pow_succ r2 (d + 1), mul_comm r2 (r2 ^ (d + 1))]
        congr 2
        · conv_rhs => rw [e2, sum_double]
          refine sum_congr rfl fun t _ => ?_
          congr 2 <;> rw [e3, e2] <;> ring
        · conv_rhs => rw [e2, sum_double]
          refine sum_congr rfl fun t _ => ?_
          congr 2 <;> rw [e3, e2] <;> ring

/-! ## Loops -/

theorem dbl_eq (n K : ℕ) (h2 : n < 2 ^ (K + 1)) : ∀ f i, i ≤ K → K - i ≤ f → 2 ^ K ≤ n ∨ i = K → dbl n f (2 ^ i) = 2 ^ K := by
  intro f
  induction f with
  | zero => intro i h hf _; rw [dbl, show i = K by omega]
  | succ f ih =>
    intro i h hf h1
    rw [dbl]
    by_cases hi : i = K
    · subst hi
      rw [if_neg (by rw [← pow_succ]; omega)]
    · have h3 := h1.resolve_right hi
      have : 2 ^ (i + 1) ≤ 2 ^ K := Nat.pow_le_pow_right (by norm_num) (by omega)
      rw [if_pos (by rw [← pow_succ]; omega), ← pow_succ]
      exact ih (i + 1) (by omega) (by omega) (.inl h3)

/-- Number of levels. -/
def lev (n : ℕ) : ℕ := Nat.log 2 n

theorem lev_lt (n : ℕ) : n < 2 ^ (lev n + 1) := Nat.lt_pow_succ_log_self (by norm_num) n
theorem lev_le {n : ℕ} (h : n ≠ 0) : 2 ^ lev n ≤ n := Nat.pow_log_le_self 2 h
theorem lev_fuel (n : ℕ) : lev n ≤ n := Nat.log_le_self 2 n

theorem dbl_lev (n : ℕ) : dbl n n 1 = 2 ^ lev n := by
  have := dbl_eq n (lev n) (lev_lt n) n 0 (Nat.zero_le _) (by have := lev_fuel n; omega)
  rw [pow_zero] at this
  refine this ?_
  by_cases h : n = 0
  · right; simp [h, lev]
  · exact .inl (lev_le h)

/-- The loop `while (1 < k) { k = k / 2; … }` of the forward transforms, for any pass. -/
def down (step : ℕ → St → St) : ℕ → ℕ → St → St
  | 0, _, s => s
  | f + 1, k, s => if 1 < k then down step f (k / 2) (step (k / 2) s) else s

/-- The loop of the inverse transforms. -/
def up (step : ℕ → St → St) (n : ℕ) : ℕ → ℕ → St → St
  | 0, _, s => s
  | f + 1, k, s => if k * 2 ≤ n then up step n f (k * 2) (step k s) else s

theorem down1_eq : down1 = down step1 := by
  funext f
  induction f with
  | zero => rfl
  | succ f ih => funext k s; rw [down1, down, ih]
theorem downCols_eq (n1 n2 : ℕ) : downCols n1 n2 = down (colStep n1 n2) := by
  funext f
  induction f with
  | zero => rfl
  | succ f ih => funext k s; rw [downCols, down, ih]
theorem downRows_eq (n1 n2 : ℕ) : downRows n1 n2 = down (rowStep n1 n2) := by
  funext f
  induction f with
  | zero => rfl
  | succ f ih => funext k s; rw [downRows, down, ih]
theorem up1_eq (n : ℕ) : up1 n = up istep1 n := by
  funext f
  induction f with
  | zero => rfl
  | succ f ih => funext k s; rw [up1, up, ih]
theorem upCols_eq (n1 n2 : ℕ) : upCols n1 n2 = up (icolStep n1 n2) n1 := by
  funext f
  induction f with
  | zero => rfl
  | succ f ih => funext k s; rw [upCols, up, ih]
theorem upRows_eq (n1 n2 : ℕ) : upRows n1 n2 = up (irowStep n1 n2) n2 := by
  funext f
  induction f with
  | zero => rfl
  | succ f ih => funext k s; rw [upRows, up, ih]

/-- If every pass transforms every line (read through `ln`) by one level, the loop transforms every line completely. -/
theorem down_lines {ι : Type} (n : ℕ) (step : ℕ → St → St) (ln : (ℕ → ℂ) → ι → ℕ → ℂ) (hs : ∀ k, 2 * k ≤ n → ∀ s t, ∀ i < n, ln (step k s).vv t i = fS k (ln s.vv t) i) :
    ∀ K f s, K ≤ f → 2 ^ K ≤ n → ∀ t, ∀ i < n, ln (down step f (2 ^ K) s).vv t i = fL K (ln s.vv t) i := by
  intro K
  induction K with
  | zero =>
    intro f s _ _ t i _
    cases f with
    | zero => rfl
    | succ f => rw [pow_zero, down, if_neg (by norm_num)]; rfl
  | succ K ih =>
    intro f s hf hn t i hi
    obtain ⟨f, rfl⟩ : ∃ g, f = g + 1 := ⟨f - 1, by omega⟩
    have e : 2 ^ (K + 1) = 2 * 2 ^ K := by rw [pow_succ]; ring
    have p : 0 < 2 ^ K := by positivity
    rw [down, if_pos (by omega), e, Nat.mul_div_cancel_left _ (by norm_num), ih f _ (by omega) (by omega) t i hi, fL]
    exact fL_congr K n (by omega) (fun i hi => hs _ (by omega) s t i hi) i hi

/-- Iterated inverse levels from `i` on. -/
theorem up_lines {ι : Type} (n : ℕ) (step : ℕ → St → St) (ln : (ℕ → ℂ) → ι → ℕ → ℂ) (hs : ∀ k, 2 * k ≤ n → ∀ s t, ∀ i < n, ln (step k s).vv t i = iS k (ln s.vv t) i)
    (v : ι → ℕ → ℂ) (K : ℕ) (hK : n < 2 ^ (K + 1)) (hn : 2 ^ K ≤ n) :
    ∀ d a f s, a + d = K → d ≤ f → (∀ t, ∀ i < n, ln s.vv t i = iL a (v t) i) → ∀ t, ∀ i < n, ln (up step n f (2 ^ a) s).vv t i = iL K (v t) i := by
  intro d
  induction d with
  | zero =>
    intro a f s ha _ h t i hi
    have : a = K := by omega
    subst this
    cases f with
    | zero => exact h t i hi
    | succ f => rw [up, if_neg (by rw [← pow_succ]; omega)]; exact h t i hi
  | succ d ih =>
    intro a f s ha hf h t i hi
    obtain ⟨f, rfl⟩ : ∃ g, f = g + 1 := ⟨f - 1, by omega⟩
    have h1 : 2 ^ (a + 1) ≤ 2 ^ K := Nat.pow_le_pow_right (by norm_num) (by omega)
    have e : 2 ^ (a + 1) = 2 * 2 ^ a := by rw [pow_succ]; ring
    rw [up, if_pos (by omega), ← pow_succ]
    refine ih (a + 1) f _ (by omega) (by omega) (fun t i hi => ?_) t i hi
    rw [hs _ (by omega) s t i hi, iL]
    unfold iS
    split_ifs
    · rw [h _ _ (by omega), h _ _ (by omega)]
    · rw [h _ _ (by omega), h _ _ (by omega)]
    · exact h _ _ hi

/-! ## The passes transform every line by one level -/

theorem write_unique {a : ℕ → ℂ} {l : List (ℕ × ℂ)} {p : ℕ} (g : ℕ → ℂ) (hm : ∃ x, (p, x) ∈ l) (hu : ∀ x, (p, x) ∈ l → x = g p) : writeAll a l p = g p := by
  obtain ⟨x, hx⟩ := hm
  have := hu x hx
  subst this
  exact writeAll_of_mem a l p _ hx fun y hy => hu y hy

theorem step1_line (n k : ℕ) (h : 2 * k ≤ n) (s : St) (i : ℕ) (hi : i < n) : (step1 k s).vv i = fS k s.vv i := by
  by_cases h1 : i < 2 * k
  · have ht : (step1 k s).tmp i = fS k s.vv i := by
      refine write_unique (fS k s.vv) ?_ ?_
      · by_cases h2 : i < k
        · exact ⟨_, mem_forN.mpr ⟨i, h2, List.mem_cons_self⟩⟩
        · refine ⟨(s.vv (2 * (i - k)) - s.vv (2 * (i - k) + 1)) / r2, mem_forN.mpr ⟨i - k, by omega, ?_⟩⟩
          rw [show i - k + k = i by omega]
          exact List.mem_cons_of_mem _ List.mem_cons_self
      · intro x hx
        obtain ⟨m, hm, hx⟩ := mem_forN.mp hx
        simp only [List.mem_cons, Prod.mk.injEq, List.not_mem_nil, or_false] at hx
        rcases hx with ⟨rfl, rfl⟩ | ⟨rfl, rfl⟩
        · simp [fS, hm]
        · simp only [fS, show ¬ (m + k < k) by omega, show m + k < 2 * k by omega, if_true, if_false, Nat.add_sub_cancel]
    refine (write_unique (step1 k s).tmp ⟨_, mem_forN.mpr ⟨i, h1, List.mem_singleton.mpr rfl⟩⟩ ?_).trans ht
    intro x hx
    obtain ⟨m, hm, hx⟩ := mem_forN.mp hx
    simp only [List.mem_singleton, Prod.mk.injEq] at hx
    obtain ⟨rfl, rfl⟩ := hx
    rfl
  · rw [fS, if_neg (by omega), if_neg h1]
    refine writeAll_of_not_mem _ _ _ fun x hx => ?_
    obtain ⟨m, hm, hx⟩ := mem_forN.mp hx
    simp only [List.mem_singleton, Prod.mk.injEq] at hx
    omega

theorem istep1_line (n k : ℕ) (h : 2 * k ≤ n) (s : St) (i : ℕ) (hi : i < n) : (istep1 k s).vv i = iS k s.vv i := by
  by_cases h1 : i < 2 * k
  · have ht : (istep1 k s).tmp i = iS k s.vv i := by
      refine write_unique (iS k s.vv) ?_ ?_
      · by_cases h2 : i % 2 = 0
        · refine ⟨(s.vv (i / 2) + s.vv (i / 2 + k)) / r2, mem_forN.mpr ⟨i / 2, by omega, ?_⟩⟩
          rw [show 2 * (i / 2) = i by omega]
          exact List.mem_cons_self
        · refine ⟨(s.vv (i / 2) - s.vv (i / 2 + k)) / r2, mem_forN.mpr ⟨i / 2, by omega, ?_⟩⟩
          rw [show 2 * (i / 2) + 1 = i by omega]
          exact List.mem_cons_of_mem _ List.mem_cons_self
      · intro x hx
        obtain ⟨m, hm, hx⟩ := mem_forN.mp hx
        simp only [List.mem_cons, Prod.mk.injEq, List.not_mem_nil, or_false] at hx
        rcases hx with ⟨rfl, rfl⟩ | ⟨rfl, rfl⟩
        · simp only [iS, show 2 * m < 2 * k by omega, show 2 * m % 2 = 0 by omega, show 2 * m / 2 = m by omega, if_true]
        · simp only [iS, show 2 * m + 1 < 2 * k by omega, show ¬ ((2 * m + 1) % 2 = 0) by omega, show (2 * m + 1) / 2 = m by omega, if_true, if_false]
    refine (write_unique (istep1 k s).tmp ⟨_, mem_forN.mpr ⟨i, by omega, List.mem_singleton.mpr rfl⟩⟩ ?_).trans ht
    intro x hx
    obtain ⟨m, hm, hx⟩ := mem_forN.mp hx
    simp only [List.mem_singleton, Prod.mk.injEq] at hx
    obtain ⟨rfl, rfl⟩ := hx
    rfl
  · rw [iS, if_neg h1]
    refine writeAll_of_not_mem _ _ _ fun x hx => ?_
    obtain ⟨m, hm, hx⟩ := mem_forN.mp hx
    simp only [List.mem_singleton, Prod.mk.injEq] at hx
    omega

/-- Column `t` of the array. -/
def col (n1 n2 : ℕ) (v : ℕ → ℂ) (t : Fin n2) (i : ℕ) : ℂ := v (i + t * n1)

/-- Row `t` of the array. -/
def row (n1 n2 : ℕ) (v : ℕ → ℂ) (t : Fin n1) (j : ℕ) : ℂ := v (t + j * n1)

theorem colStep_line (n1 n2 k : ℕ) (h : 2 * k ≤ n1) (s : St) (t : Fin n2) (i : ℕ) (hi : i < n1) :
    col n1 n2 (colStep n1 n2 k s).vv t i = fS k (col n1 n2 s.vv t) i := by
  by_cases h1 : i < 2 * k
  · have ht : (colStep n1 n2 k s).tmp (i + t * n1) = fS k (col n1 n2 s.vv t) i := by
      refine write_unique (fun _ => fS k (col n1 n2 s.vv t) i) ?_ ?_
      · by_cases h2 : i < k
        · exact ⟨_, mem_forN.mpr ⟨t, t.2, mem_forN.mpr ⟨i, h2, List.mem_cons_self⟩⟩⟩
        · refine ⟨(s.vv (2 * (i - k) + t * n1) - s.vv (2 * (i - k) + 1 + t * n1)) / r2, mem_forN.mpr ⟨t, t.2, mem_forN.mpr ⟨i - k, by omega, ?_⟩⟩⟩
          rw [show k + (i - k) = i by omega]
          exact List.mem_cons_of_mem _ List.mem_cons_self
      · intro x hx
        obtain ⟨j, hj, hx⟩ := mem_forN.mp hx
        obtain ⟨m, hm, hx⟩ := mem_forN.mp hx
        simp only [List.mem_cons, Prod.mk.injEq, List.not_mem_nil, or_false] at hx
        rcases hx with ⟨e, rfl⟩ | ⟨e, rfl⟩
        · obtain ⟨rfl, rfl⟩ := colMajor_inj hi (by omega) e
          simp [fS, hm, col]
        · obtain ⟨rfl, rfl⟩ := colMajor_inj hi (by omega) e
          simp only [fS, show ¬ (k + m < k) by omega, show k + m < 2 * k by omega, if_true, if_false, Nat.add_sub_cancel_left, col]
    refine (write_unique (colStep n1 n2 k s).tmp ⟨_, mem_forN.mpr ⟨t, t.2, mem_forN.mpr ⟨i, h1, List.mem_singleton.mpr rfl⟩⟩⟩ ?_).trans ht
    intro x hx
    obtain ⟨j, hj, hx⟩ := mem_forN.mp hx
    obtain ⟨m, hm, hx⟩ := mem_forN.mp hx
    simp only [List.mem_singleton, Prod.mk.injEq] at hx
    obtain ⟨e, rfl⟩ := hx
    rw [e]; rfl
  · rw [fS, if_neg (by omega), if_neg h1]
    refine writeAll_of_not_mem _ _ _ fun x hx => ?_
    obtain ⟨j, hj, hx⟩ := mem_forN.mp hx
    obtain ⟨m, hm, hx⟩ := mem_forN.mp hx
    simp only [List.mem_singleton, Prod.mk.injEq] at hx
    have := colMajor_inj hi (by omega) hx.1
    omega

theorem icolStep_line (n1 n2 k : ℕ) (h : 2 * k ≤ n1) (s : St) (t : Fin n2) (i : ℕ) (hi : i < n1) :
    col n1 n2 (icolStep n1 n2 k s).vv t i = iS k (col n1 n2 s.vv t) i := by
  by_cases h1 : i < 2 * k
  · have ht : (icolStep n1 n2 k s).tmp (i + t * n1) = iS k (col n1 n2 s.vv t) i := by
      refine write_unique (fun _ => iS k (col n1 n2 s.vv t) i) ?_ ?_
      · by_cases h2 : i % 2 = 0
        · refine ⟨(s.vv (i / 2 + t * n1) + s.vv (k + i / 2 + t * n1)) / r2, mem_forN.mpr ⟨t, t.2, mem_forN.mpr ⟨i / 2, by omega, ?_⟩⟩⟩
          rw [show 2 * (i / 2) = i by omega]
          exact List.mem_cons_self
        · refine ⟨(s.vv (i / 2 + t * n1) - s.vv (k + i / 2 + t * n1)) / r2, mem_forN.mpr ⟨t, t.2, mem_forN.mpr ⟨i / 2, by omega, ?_⟩⟩⟩
          rw [show 2 * (i / 2) + 1 = i by omega]
          exact List.mem_cons_of_mem _ List.mem_cons_self
      · intro x hx
        obtain ⟨j, hj, hx⟩ := mem_forN.mp hx
        obtain ⟨m, hm, hx⟩ := mem_forN.mp hx
        simp only [List.mem_cons, Prod.mk.injEq, List.not_mem_nil, or_false] at hx
        rcases hx with ⟨e, rfl⟩ | ⟨e, rfl⟩
        · obtain ⟨rfl, rfl⟩ := colMajor_inj hi (by omega) e
          simp only [iS, show 2 * m < 2 * k by omega, show 2 * m % 2 = 0 by omega, show 2 * m / 2 = m by omega, if_true, col, Nat.add_comm k m]
        · obtain ⟨rfl, rfl⟩ := colMajor_inj hi (by omega) e
          simp only [iS, show 2 * m + 1 < 2 * k by omega, show ¬ ((2 * m + 1) % 2 = 0) by omega, show (2 * m + 1) / 2 = m by omega, if_true, if_false, col, Nat.add_comm k m]
    refine (write_unique (icolStep n1 n2 k s).tmp ⟨_, mem_forN.mpr ⟨t, t.2, mem_forN.mpr ⟨i, h1, List.mem_singleton.mpr rfl⟩⟩⟩ ?_).trans ht
    intro x hx
    obtain ⟨j, hj, hx⟩ := mem_forN.mp hx
    obtain ⟨m, hm, hx⟩ := mem_forN.mp hx
    simp only [List.mem_singleton, Prod.mk.injEq] at hx
    obtain ⟨e, rfl⟩ := hx
    rw [e]; rfl
  · rw [iS, if_neg h1]
    refine writeAll_of_not_mem _ _ _ fun x hx => ?_
    obtain ⟨j, hj, hx⟩ := mem_forN.mp hx
    obtain ⟨m, hm, hx⟩ := mem_forN.mp hx
    simp only [List.mem_singleton, Prod.mk.injEq] at hx
    have := colMajor_inj hi (by omega) hx.1
    omega

theorem rowStep_line (n1 n2 k : ℕ) (h : 2 * k ≤ n2) (s : St) (t : Fin n1) (i : ℕ) (hi : i < n2) :
    row n1 n2 (rowStep n1 n2 k s).vv t i = fS k (row n1 n2 s.vv t) i := by
  by_cases h1 : i < 2 * k
  · have ht : (rowStep n1 n2 k s).tmp (t + i * n1) = fS k (row n1 n2 s.vv t) i := by
      refine write_unique (fun _ => fS k (row n1 n2 s.vv t) i) ?_ ?_
      · by_cases h2 : i < k
        · exact ⟨_, mem_forN.mpr ⟨i, h2, mem_forN.mpr ⟨t, t.2, List.mem_cons_self⟩⟩⟩
        · refine ⟨(s.vv (t + 2 * (i - k) * n1) - s.vv (t + (2 * (i - k) + 1) * n1)) / r2, mem_forN.mpr ⟨i - k, by omega, mem_forN.mpr ⟨t, t.2, ?_⟩⟩⟩
          rw [show k + (i - k) = i by omega]
          exact List.mem_cons_of_mem _ List.mem_cons_self
      · intro x hx
        obtain ⟨j, hj, hx⟩ := mem_forN.mp hx
        obtain ⟨m, hm, hx⟩ := mem_forN.mp hx
        simp only [List.mem_cons, Prod.mk.injEq, List.not_mem_nil, or_false] at hx
        rcases hx with ⟨e, rfl⟩ | ⟨e, rfl⟩
        · obtain ⟨rfl, rfl⟩ := colMajor_inj t.2 hm e
          simp [fS, hj, row]
        · obtain ⟨rfl, rfl⟩ := colMajor_inj t.2 hm e
          simp only [fS, show ¬ (k + j < k) by omega, show k + j < 2 * k by omega, if_true, if_false, Nat.add_sub_cancel_left, row]
    refine (write_unique (rowStep n1 n2 k s).tmp ⟨_, mem_forN.mpr ⟨i, h1, mem_forN.mpr ⟨t, t.2, List.mem_singleton.mpr rfl⟩⟩⟩ ?_).trans ht
    intro x hx
    obtain ⟨j, hj, hx⟩ := mem_forN.mp hx
    obtain ⟨m, hm, hx⟩ := mem_forN.mp hx
    simp only [List.mem_singleton, Prod.mk.injEq] at hx
    obtain ⟨e, rfl⟩ := hx
    rw [e]; rfl
  · rw [fS, if_neg (by omega), if_neg h1]
    refine writeAll_of_not_mem _ _ _ fun x hx => ?_
    obtain ⟨j, hj, hx⟩ := mem_forN.mp hx
    obtain ⟨m, hm, hx⟩ := mem_forN.mp hx
    simp only [List.mem_singleton, Prod.mk.injEq] at hx
    have := colMajor_inj t.2 hm hx.1
    omega

theorem irowStep_line (n1 n2 k : ℕ) (h : 2 * k ≤ n2) (s : St) (t : Fin n1) (i : ℕ) (hi : i < n2) :
    row n1 n2 (irowStep n1 n2 k s).vv t i = iS k (row n1 n2 s.vv t) i := by
  by_cases h1 : i < 2 * k
  · have ht : (irowStep n1 n2 k s).tmp (t + i * n1) = iS k (row n1 n2 s.vv t) i := by
      refine write_unique (fun _ => iS k (row n1 n2 s.vv t) i) ?_ ?_
      · by_cases h2 : i % 2 = 0
        · refine ⟨(s.vv (t + i / 2 * n1) + s.vv (t + (k + i / 2) * n1)) / r2, mem_forN.mpr ⟨i / 2, by omega, mem_forN.mpr ⟨t, t.2, ?_⟩⟩⟩
          rw [show 2 * (i / 2) = i by omega]
          exact List.mem_cons_self
        · refine ⟨(s.vv (t + i / 2 * n1) - s.vv (t + (k + i / 2) * n1)) / r2, mem_forN.mpr ⟨i / 2, by omega, mem_forN.mpr ⟨t, t.2, ?_⟩⟩⟩
          rw [show 2 * (i / 2) + 1 = i by omega]
          exact List.mem_cons_of_mem _ List.mem_cons_self
      · intro x hx
        obtain ⟨j, hj, hx⟩ := mem_forN.mp hx
        obtain ⟨m, hm, hx⟩ := mem_forN.mp hx
        simp only [List.mem_cons, Prod.mk.injEq, List.not_mem_nil, or_false] at hx
        rcases hx with ⟨e, rfl⟩ | ⟨e, rfl⟩
        · obtain ⟨rfl, rfl⟩ := colMajor_inj t.2 hm e
          simp only [iS, show 2 * j < 2 * k by omega, show 2 * j % 2 = 0 by omega, show 2 * j / 2 = j by omega, if_true, row, Nat.add_comm k j]
        · obtain ⟨rfl, rfl⟩ := colMajor_inj t.2 hm e
          simp only [iS, show 2 * j + 1 < 2 * k by omega, show ¬ ((2 * j + 1) % 2 = 0) by omega, show (2 * j + 1) / 2 = j by omega, if_true, if_false, row, Nat.add_comm k j]
    refine (write_unique (irowStep n1 n2 k s).tmp ⟨_, mem_forN.mpr ⟨i, h1, mem_forN.mpr ⟨t, t.2, List.mem_singleton.mpr rfl⟩⟩⟩ ?_).trans ht
    intro x hx
    obtain ⟨j, hj, hx⟩ := mem_forN.mp hx
    obtain ⟨m, hm, hx⟩ := mem_forN.mp hx
    simp only [List.mem_singleton, Prod.mk.injEq] at hx
    obtain ⟨e, rfl⟩ := hx
    rw [e]; rfl
  · rw [iS, if_neg h1]
    refine writeAll_of_not_mem _ _ _ fun x hx => ?_
    obtain ⟨j, hj, hx⟩ := mem_forN.mp hx
    obtain ⟨m, hm, hx⟩ := mem_forN.mp hx
    simp only [List.mem_singleton, Prod.mk.injEq] at hx
    have := colMajor_inj t.2 hm hx.1
    omega

/-! ## Whole transforms -/

theorem haar1_line (n : ℕ) (junk v : ℕ → ℂ) (i : ℕ) (hi : i < n) : haar1 n junk v i = fL (lev n) v i := by
  rw [haar1, dbl_lev, down1_eq]
  exact down_lines (ι := Unit) n step1 (fun v _ => v) (fun k hk s _ i hi => step1_line n k hk s i hi) (lev n) n _ (lev_fuel n) (lev_le (by omega)) () i hi

theorem ihaar1_line (n : ℕ) (junk v : ℕ → ℂ) (i : ℕ) (hi : i < n) : ihaar1 n junk v i = iL (lev n) v i := by
  rw [ihaar1, up1_eq, ← pow_zero 2]
  exact up_lines (ι := Unit) n istep1 (fun v _ => v) (fun k hk s _ i hi => istep1_line n k hk s i hi) (fun _ => v) (lev n) (lev_lt n) (lev_le (by omega)) (lev n) 0 n _ (by omega)
    (lev_fuel n) (fun _ i _ => rfl) () i hi

/-- The transform of the columns. -/
noncomputable def colsF (n1 n2 : ℕ) (v : ℕ → ℂ) : ℕ → ℂ := fun p => fL (lev n1) (fun i => v (i + p / n1 * n1)) (p % n1)

theorem split_div {n1 i j : ℕ} (hi : i < n1) : (i + j * n1) / n1 = j ∧ (i + j * n1) % n1 = i := by
  have : 0 < n1 := by omega
  rw [Nat.add_mul_div_right _ _ this, Nat.div_eq_of_lt hi, Nat.add_mul_mod_self_right, Nat.mod_eq_of_lt hi]
  omega

theorem haar_line (n1 n2 : ℕ) (junk v : ℕ → ℂ) (i j : ℕ) (hi : i < n1) (hj : j < n2) :
    haar n1 n2 junk v (i + j * n1) = fL (lev n2) (fun j' => fL (lev n1) (fun i' => v (i' + j' * n1)) i) j := by
  rw [haar, dbl_lev, dbl_lev, downRows_eq, downCols_eq]
  set s0 : St := ⟨v, _⟩
  have hc := down_lines n1 (colStep n1 n2) (col n1 n2) (fun k hk s t i hi => colStep_line n1 n2 k hk s t i hi) (lev n1) n1 s0 (lev_fuel n1) (lev_le (by omega))
  set s1 := down (colStep n1 n2) n1 (2 ^ lev n1) s0
  have hr := down_lines n2 (rowStep n1 n2) (row n1 n2) (fun k hk s t i hi => rowStep_line n1 n2 k hk s t i hi) (lev n2) n2 s1 (lev_fuel n2) (lev_le (by omega)) ⟨i, hi⟩ j hj
  rw [show (down (rowStep n1 n2) n2 (2 ^ lev n2) s1).vv (i + j * n1) = row n1 n2 (down (rowStep n1 n2) n2 (2 ^ lev n2) s1).vv ⟨i, hi⟩ j from rfl, hr]
  exact fL_congr (lev n2) n2 (lev_le (by omega)) (fun j' hj' => hc ⟨j', hj'⟩ i hi) j hj

theorem ihaar_line (n1 n2 : ℕ) (junk v : ℕ → ℂ) (i j : ℕ) (hi : i < n1) (hj : j < n2) :
    ihaar n1 n2 junk v (i + j * n1) = iL (lev n1) (fun i' => iL (lev n2) (fun j' => v (i' + j' * n1)) j) i := by
  rw [ihaar, upRows_eq, upCols_eq]
  set s0 : St := ⟨v, _⟩
  have hr := up_lines n2 (irowStep n1 n2) (row n1 n2) (fun k hk s t i hi => irowStep_line n1 n2 k hk s t i hi) (row n1 n2 v) (lev n2) (lev_lt n2) (lev_le (by omega)) (lev n2) 0 n2 s0
    (by omega) (lev_fuel n2) (fun _ _ _ => rfl)
  rw [pow_zero] at hr
  set s1 := up (irowStep n1 n2) n2 n2 1 s0
  have hc := up_lines n1 (icolStep n1 n2) (col n1 n2) (fun k hk s t i hi => icolStep_line n1 n2 k hk s t i hi) (col n1 n2 s1.vv) (lev n1) (lev_lt n1) (lev_le (by omega)) (lev n1) 0 n1 s1
    (by omega) (lev_fuel n1) (fun _ _ _ => rfl) ⟨j, hj⟩ i hi
  rw [pow_zero] at hc
  rw [show (up (icolStep n1 n2) n1 n1 1 s1).vv (i + j * n1) = col n1 n2 (up (icolStep n1 n2) n1 n1 1 s1).vv ⟨j, hj⟩ i from rfl, hc]
  exact iL_congr (lev n1) n1 (lev_le (by omega)) (fun i' hi' => hr ⟨i', hi'⟩ j hj) i hi

/-! ## C83 -/

/-- **C83 (one dimension).** For every length (not only powers of two) `haarFWT_1d` computes the Haar coefficients of the leading `2 ^ ⌊log₂ n⌋` entries, whatever the work space holds. -/
theorem C83_one_dim (n : ℕ) (hn : 0 < n) (junk v : ℕ → ℂ) : ∃ K c, 2 ^ K ≤ n ∧ n < 2 ^ (K + 1) ∧ IsHaar K v c ∧ ∀ i < n, haar1 n junk v i = c i :=
  ⟨lev n, fL (lev n) v, lev_le (by omega), lev_lt n, fL_isHaar _ _, fun i hi => haar1_line n junk v i hi⟩

/-- **C83 (one dimension).** The inverse inverts, in both orders. -/
theorem C83_one_dim_inverse (n : ℕ) (junk junk' v : ℕ → ℂ) (i : ℕ) (hi : i < n) : ihaar1 n junk (haar1 n junk' v) i = v i ∧ haar1 n junk (ihaar1 n junk' v) i = v i := by
  have hl := lev_le (n := n) (by omega)
  constructor
  · rw [ihaar1_line n _ _ i hi, iL_congr _ n hl (fun i hi => haar1_line n junk' v i hi) i hi, iL_fL]
  · rw [haar1_line n _ _ i hi, fL_congr _ n hl (fun i hi => ihaar1_line n junk' v i hi) i hi, fL_iL]

/-- **C83 (matrices).** `GetHaarFWT` computes the Haar coefficients of every column and then of every row of the result. -/
theorem C83_matrix (n1 n2 : ℕ) (junk v : ℕ → ℂ) : ∃ c : ℕ → ℕ → ℂ, (∀ j < n2, IsHaar (Nat.log 2 n1) (fun i => v (i + j * n1)) (fun i => c i j)) ∧
    ∀ i < n1, ∃ d, IsHaar (Nat.log 2 n2) (c i) d ∧ ∀ j < n2, haar n1 n2 junk v (i + j * n1) = d j :=
  ⟨fun i j => fL (lev n1) (fun i' => v (i' + j * n1)) i, fun j _ => fL_isHaar _ _, fun i hi => ⟨_, fL_isHaar _ _, fun j hj => haar_line n1 n2 junk v i j hi hj⟩⟩

/-- **C83 (matrices).** `GetInvHaarFWT` inverts `GetHaarFWT`, in both orders, for all sizes. -/
theorem C83_matrix_inverse (n1 n2 : ℕ) (junk junk' v : ℕ → ℂ) (p : ℕ) (hp : p < n1 * n2) : ihaar n1 n2 junk (haar n1 n2 junk' v) p = v p ∧ haar n1 n2 junk (ihaar n1 n2 junk' v) p = v p := by
  obtain ⟨i, hi, j, hj, rfl⟩ := colMajor_surj hp
  have h1 := lev_le (n := n1) (by omega)
  have h2 := lev_le (n := n2) (by omega)
  constructor
  · rw [ihaar_line n1 n2 _ _ i j hi hj]
    have : ∀ i' < n1, iL (lev n2) (fun j' => haar n1 n2 junk' v (i' + j' * n1)) j = fL (lev n1) (fun i' => v (i' + j * n1)) i' := by
      intro i' hi'
      rw [iL_congr _ n2 h2 (fun j' hj' => haar_line n1 n2 junk' v i' j' hi' hj') j hj, iL_fL]
    rw [iL_congr _ n1 h1 this i hi, iL_fL]
  · rw [haar_line n1 n2 _ _ i j hi hj]
    have : ∀ j' < n2, fL (lev n1) (fun i' => ihaar n1 n2 junk' v (i' + j' * n1)) i = iL (lev n2) (fun j' => v (i + j' * n1)) j' := by
      intro j' hj'
      rw [fL_congr _ n1 h1 (fun i' hi' => ihaar_line n1 n2 junk' v i' j' hi' hj') i hi, fL_iL]
    rw [fL_congr _ n2 h2 this j hj, fL_iL]

/-- **C83 (matrices).** The transform preserves the complex inner product of any two matrices, so that its inverse is its adjoint (used by the gradient of the blind deconvolution problem). -/
theorem C83_unitary (n1 n2 : ℕ) (junk junk' v w : ℕ → ℂ) :
    ∑ j ∈ range n2, ∑ i ∈ range n1, starRingEnd ℂ (haar n1 n2 junk v (i + j * n1)) * haar n1 n2 junk' w (i + j * n1) =
    ∑ j ∈ range n2, ∑ i ∈ range n1, starRingEnd ℂ (v (i + j * n1)) * w (i + j * n1) := by
  rcases Nat.eq_zero_or_pos n1 with rfl | p1
  · simp
  rcases Nat.eq_zero_or_pos n2 with rfl | p2
  · simp
  have h1 := lev_le (n := n1) (by omega)
  have h2 := lev_le (n := n2) (by omega)
  calc _ = ∑ j ∈ range n2, ∑ i ∈ range n1, starRingEnd ℂ (fL (lev n2) (fun j' => fL (lev n1) (fun i' => v (i' + j' * n1)) i) j) *
        fL (lev n2) (fun j' => fL (lev n1) (fun i' => w (i' + j' * n1)) i) j :=
        sum_congr rfl fun j hj => sum_congr rfl fun i hi => by rw [haar_line n1 n2 _ _ i j (mem_range.mp hi) (mem_range.mp hj), haar_line n1 n2 _ _ i j (mem_range.mp hi) (mem_range.mp hj)]
    _ = ∑ i ∈ range n1, ∑ j ∈ range n2, starRingEnd ℂ (fL (lev n1) (fun i' => v (i' + j * n1)) i) * fL (lev n1) (fun i' => w (i' + j * n1)) i := by
        rw [sum_comm]
        exact sum_congr rfl fun i _ => fL_inner (lev n2) n2 h2 _ _
    _ = _ := by
        rw [sum_comm]
        exact sum_congr rfl fun j _ => fL_inner (lev n1) n1 h1 _ _

/-- **C83 (adjoint).** -/
theorem C83_adjoint (n1 n2 : ℕ) (junk junk' v w : ℕ → ℂ) :
    ∑ j ∈ range n2, ∑ i ∈ range n1, starRingEnd ℂ (haar n1 n2 junk v (i + j * n1)) * w (i + j * n1) =
    ∑ j ∈ range n2, ∑ i ∈ range n1, starRingEnd ℂ (v (i + j * n1)) * ihaar n1 n2 junk' w (i + j * n1) := by
  rw [← C83_unitary n1 n2 junk junk v (ihaar n1 n2 junk' w)]
  refine sum_congr rfl fun j hj => sum_congr rfl fun i hi => ?_
  rw [(C83_matrix_inverse n1 n2 junk junk' w (i + j * n1) (colMajor_lt (mem_range.mp hi) (mem_range.mp hj))).2]

/-- The data and the work space at `p` are not changed. -/
def Same (p : ℕ) (s s' : St) : Prop := s'.vv p = s.vv p ∧ s'.tmp p = s.tmp p

theorem down_same (n p : ℕ) (step : ℕ → St → St) (hs : ∀ k, 2 * k ≤ n → ∀ s, Same p s (step k s)) : ∀ f k s, k ≤ n → Same p s (down step f k s) := by
  intro f
  induction f with
  | zero => intro k s _; exact ⟨rfl, rfl⟩
  | succ f ih =>
    intro k s hk
    rw [down]
    split_ifs with h
    · have a := hs (k / 2) (by omega) s
      have b := ih (k / 2) (step (k / 2) s) (by omega)
      exact ⟨b.1.trans a.1, b.2.trans a.2⟩
    · exact ⟨rfl, rfl⟩

theorem up_same (n p : ℕ) (step : ℕ → St → St) (hs : ∀ k, 2 * k ≤ n → ∀ s, Same p s (step k s)) : ∀ f k s, Same p s (up step n f k s) := by
  intro f
  induction f with
  | zero => intro k s; exact ⟨rfl, rfl⟩
  | succ f ih =>
    intro k s
    rw [up]
    split_ifs with h
    · have a := hs k (by omega) s
      have b := ih (k * 2) (step k s)
      exact ⟨b.1.trans a.1, b.2.trans a.2⟩
    · exact ⟨rfl, rfl⟩

theorem out_aux {n1 n2 p : ℕ} (hp : n1 * n2 ≤ p) {l : List (ℕ × ℂ)} (a : ℕ → ℂ) (h : ∀ w ∈ l, ∃ i < n1, ∃ j < n2, w.1 = i + j * n1) : writeAll a l p = a p := by
  refine writeAll_of_not_mem _ _ _ fun x hx => ?_
  obtain ⟨i, hi, j, hj, e⟩ := h _ hx
  have := colMajor_lt hi hj
  simp only at e
  omega

theorem colStep_same {n1 n2 p : ℕ} (hp : n1 * n2 ≤ p) (k : ℕ) (hk : 2 * k ≤ n1) (s : St) : Same p s (colStep n1 n2 k s) := by
  refine ⟨out_aux hp _ ?_, out_aux hp _ ?_⟩ <;>
  · intro w hw
    obtain ⟨j, hj, hw⟩ := mem_forN.mp hw
    obtain ⟨i, hi, hw⟩ := mem_forN.mp hw
    simp only [List.mem_cons, List.not_mem_nil, or_false] at hw
    first
    | (subst hw; exact ⟨i, by omega, j, hj, rfl⟩)
    | (rcases hw with rfl | rfl
       · exact ⟨i, by omega, j, hj, rfl⟩
       · exact ⟨k + i, by omega, j, hj, rfl⟩)

theorem icolStep_same {n1 n2 p : ℕ} (hp : n1 * n2 ≤ p) (k : ℕ) (hk : 2 * k ≤ n1) (s : St) : Same p s (icolStep n1 n2 k s) := by
  refine ⟨out_aux hp _ ?_, out_aux hp _ ?_⟩ <;>
  · intro w hw
    obtain ⟨j, hj, hw⟩ := mem_forN.mp hw
    obtain ⟨i, hi, hw⟩ := mem_forN.mp hw
    simp only [List.mem_cons, List.not_mem_nil, or_false] at hw
    first
    | (subst hw; exact ⟨i, by omega, j, hj, rfl⟩)
    | (rcases hw with rfl | rfl
       · exact ⟨2 * i, by omega, j, hj, rfl⟩
       · exact ⟨2 * i + 1, by omega, j, hj, rfl⟩)

theorem rowStep_same {n1 n2 p : ℕ} (hp : n1 * n2 ≤ p) (k : ℕ) (hk : 2 * k ≤ n2) (s : St) : Same p s (rowStep n1 n2 k s) := by
  refine ⟨out_aux hp _ ?_, out_aux hp _ ?_⟩ <;>
  · intro w hw
    obtain ⟨j, hj, hw⟩ := mem_forN.mp hw
    obtain ⟨i, hi, hw⟩ := mem_forN.mp hw
    simp only [List.mem_cons, List.not_mem_nil, or_false] at hw
    first
    | (subst hw; exact ⟨i, hi, j, by omega, rfl⟩)
    | (rcases hw with rfl | rfl
       · exact ⟨i, hi, j, by omega, rfl⟩
       · exact ⟨i, hi, k + j, by omega, rfl⟩)

theorem irowStep_same {n1 n2 p : ℕ} (hp : n1 * n2 ≤ p) (k : ℕ) (hk : 2 * k ≤ n2) (s : St) : Same p s (irowStep n1 n2 k s) := by
  refine ⟨out_aux hp _ ?_, out_aux hp _ ?_⟩ <;>
  · intro w hw
    obtain ⟨j, hj, hw⟩ := mem_forN.mp hw
    obtain ⟨i, hi, hw⟩ := mem_forN.mp hw
    simp only [List.mem_cons, List.not_mem_nil, or_false] at hw
    first
    | (subst hw; exact ⟨i, hi, j, by omega, rfl⟩)
    | (rcases hw with rfl | rfl
       · exact ⟨i, hi, 2 * j, by omega, rfl⟩
       · exact ⟨i, hi, 2 * j + 1, by omega, rfl⟩)

theorem dbl_le (n : ℕ) (h : 0 < n) : dbl n n 1 ≤ n := by rw [dbl_lev]; exact lev_le (by omega)

/-- **C83 (bounds).** Nothing beyond the array is written, neither in the data nor (`tmp`) in the work space of the passes. -/
theorem C83_bounds (n1 n2 : ℕ) (h1 : 0 < n1) (h2 : 0 < n2) (junk v : ℕ → ℂ) (p : ℕ) (hp : n1 * n2 ≤ p) : haar n1 n2 junk v p = v p ∧ ihaar n1 n2 junk v p = v p ∧
    (∀ s, (downRows n1 n2 n2 (dbl n2 n2 1) (downCols n1 n2 n1 (dbl n1 n1 1) s)).tmp p = s.tmp p) ∧ ∀ s, (upCols n1 n2 n1 1 (upRows n1 n2 n2 1 s)).tmp p = s.tmp p := by
  have a : ∀ s, Same p s (downRows n1 n2 n2 (dbl n2 n2 1) (downCols n1 n2 n1 (dbl n1 n1 1) s)) := by
    intro s
    rw [downRows_eq, downCols_eq]
    have x := down_same n1 p _ (fun k hk s => colStep_same hp k hk s) n1 _ s (dbl_le n1 h1)
    have y := down_same n2 p _ (fun k hk s => rowStep_same hp k hk s) n2 _ (down (colStep n1 n2) n1 (dbl n1 n1 1) s) (dbl_le n2 h2)
    exact ⟨y.1.trans x.1, y.2.trans x.2⟩
  have b : ∀ s, Same p s (upCols n1 n2 n1 1 (upRows n1 n2 n2 1 s)) := by
    intro s
    rw [upRows_eq, upCols_eq]
    have x := up_same n2 p _ (fun k hk s => irowStep_same hp k hk s) n2 1 s
    have y := up_same n1 p _ (fun k hk s => icolStep_same hp k hk s) n1 1 (up (irowStep n1 n2) n2 n2 1 s)
    exact ⟨y.1.trans x.1, y.2.trans x.2⟩
  exact ⟨(a _).1, (b _).1, fun s => (a s).2, fun s => (b s).2⟩

/-- Three entries: the first two are transformed, the third is not. -/
example (junk : ℕ → ℂ) : haar1 3 junk (fun i => if i = 0 then 1 else if i = 1 then 3 else 7) 0 = 4 / r2 := by
  obtain ⟨K, c, h1, h2, h3, h4⟩ := C83_one_dim 3 (by norm_num) junk (fun i => if i = 0 then 1 else if i = 1 then 3 else 7)
  have : K = 1 := by
    have a : 2 ^ K < 2 ^ 2 := by omega
    have b : 2 ^ 1 < 2 ^ (K + 1) := by omega
    have := (Nat.pow_lt_pow_iff_right (by norm_num)).mp a
    have := (Nat.pow_lt_pow_iff_right (by norm_num)).mp b
    omega
  subst this
  rw [h4 0 (by norm_num), h3.1]
  simp [sum_range_succ]
  norm_num

end Verif.Wavelet
