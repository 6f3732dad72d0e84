import Verif.Others.SplineLemmas

/-!
# Elimination lemmas for the periodic system
-/

set_option linter.unusedSectionVars false
set_option linter.unusedVariables false

namespace Verif.Spline

variable {K : Type*} [Field K] [LinearOrder K] [IsStrictOrderedRing K]

/-- The four arrays of the system. -/
structure Sys (K : Type*) where
  d : Nat → K
  ud : Nat → K
  ld : Nat → K
  v : Nat → K

/-- The system in memory. -/
def sysOf (P : Ptrs) (m : Nat → K) : Sys K := ⟨fun i => m (P.d + i), fun i => m (P.ud + i), fun i => m (P.ld + i), fun i => m (P.vec + i)⟩

namespace Sys
variable (S : Sys K)

def D : Nat → K
  | 0 => S.d 0
  | i + 1 => S.d (i + 1) + S.ud i * (-S.ld (i + 1) / D i)

def V : Nat → K
  | 0 => S.v 0
  | i + 1 => S.v (i + 1) + V i * (-S.ld (i + 1) / S.D i)

def C : Nat → K
  | 0 => S.ld 0
  | i + 1 => C i * (-S.ld (i + 1) / S.D i)

def T (nn : Nat) : Nat → K
  | 0 => S.ud (nn - 1)
  | i + 1 => S.ud i * (-T nn i / S.D i)

def L (nn : Nat) : Nat → K
  | 0 => S.d (nn - 1)
  | i + 1 => L nn i + S.C i * (-S.T nn i / S.D i)

def W (nn : Nat) : Nat → K
  | 0 => S.v (nn - 1)
  | i + 1 => W nn i + S.V i * (-S.T nn i / S.D i)

/-- The last row of the system from the eliminated one. -/
theorem last_row {nn : Nat} {u : Nat → K} {a : K} : ∀ k, (∀ j < k, S.D j ≠ 0) → (∀ j < k, S.D j * u j + S.ud j * u (j + 1) + S.C j * u (nn - 1) = S.V j) →
    S.T nn k * u k + a + S.L nn k * u (nn - 1) = S.W nn k → S.ud (nn - 1) * u 0 + a + S.d (nn - 1) * u (nn - 1) = S.v (nn - 1) := by
  intro k
  induction k with
  | zero => intro _ _ h; exact h
  | succ k ih =>
    intro hD hr h
    refine ih (fun j hj => hD j (by omega)) (fun j hj => hr j (by omega)) ?_
    have hk := hr k (by omega)
    have hd := hD k (by omega)
    simp only [T, L, W] at h
    have hc : -S.T nn k / S.D k * S.D k = -S.T nn k := div_mul_cancel₀ _ hd
    linear_combination h - (-S.T nn k / S.D k) * hk + u k * hc

/-- A middle row from the eliminated one. -/
theorem mid_row {u : Nat → K} {z x y : K} {k : Nat} (hd : S.D k ≠ 0) (h0 : S.D k * u k + S.ud k * u (k + 1) + S.C k * z = S.V k)
    (h1 : S.D (k + 1) * u (k + 1) + x + S.C (k + 1) * z = S.V (k + 1)) : S.ld (k + 1) * u k + S.d (k + 1) * u (k + 1) + x = S.v (k + 1) := by
  simp only [D, C, V] at h1
  have hc : -S.ld (k + 1) / S.D k * S.D k = -S.ld (k + 1) := div_mul_cancel₀ _ hd
  linear_combination h1 - (-S.ld (k + 1) / S.D k) * h0 + u k * hc

end Sys

/-- State after `k` steps. -/
structure PerInv (P : Ptrs) (nn : Nat) (m0 : Nat → K) (st : PerState K) (k : Nat) : Prop where
  D : ∀ j ≤ k, st.m (P.d + j) = (sysOf P m0).D j
  d : ∀ j, k < j → j < nn - 1 → st.m (P.d + j) = m0 (P.d + j)
  L : st.m (P.d + (nn - 1)) = (sysOf P m0).L nn k
  ud : ∀ j, j < nn → st.m (P.ud + j) = m0 (P.ud + j)
  ld : ∀ j, j < nn → st.m (P.ld + j) = m0 (P.ld + j)
  V : ∀ j ≤ k, st.m (P.vec + j) = (sysOf P m0).V j
  v : ∀ j, k < j → j < nn - 1 → st.m (P.vec + j) = m0 (P.vec + j)
  W : st.m (P.vec + (nn - 1)) = (sysOf P m0).W nn k
  C : ∀ j ≤ k, st.lc j = (sysOf P m0).C j
  T : st.temp = (sysOf P m0).T nn k

theorem perElim_inv {P : Ptrs} {nn : Nat} (h3 : 3 ≤ nn) (hs : Sep P nn nn nn nn) (lc0 m0 : Nat → K) : ∀ k, k ≤ nn - 3 →
    PerInv P nn m0 (perElim P nn ⟨m0, Function.update lc0 0 (m0 (P.ld + 0)), m0 (P.ud + (nn - 1))⟩ k) k := by
  intro k
  obtain ⟨s1, s2, s3, s4⟩ := hs
  induction k with
  | zero =>
    intro hk
    refine ⟨?_, fun _ _ _ => rfl, rfl, fun _ _ => rfl, fun _ _ => rfl, ?_, fun _ _ _ => rfl, rfl, ?_, rfl⟩
    · intro j hj; obtain rfl : j = 0 := by omega
      rfl
    · intro j hj; obtain rfl : j = 0 := by omega
      rfl
    · intro j hj; obtain rfl : j = 0 := by omega
      show Function.update lc0 0 (m0 (P.ld + 0)) 0 = m0 (P.ld + 0)
      rw [Function.update_self]
  | succ k ih =>
    intro hk
    have I := ih (by omega)
    set st := perElim P nn ⟨m0, Function.update lc0 0 (m0 (P.ld + 0)), m0 (P.ud + (nn - 1))⟩ k with hst
    have hDk := I.D k (le_refl k)
    have hVk := I.V k (le_refl k)
    have hCk := I.C k (le_refl k)
    have hud := I.ud k (by omega)
    have hld := I.ld (k + 1) (by omega)
    have hd1 := I.d (k + 1) (by omega) (by omega)
    have hv1 := I.v (k + 1) (by omega) (by omega)
    show PerInv P nn m0 (perStep P nn st k) (k + 1)
    have em : ∀ a, (perStep P nn st k).m a = if a = P.vec + (nn - 1) then (sysOf P m0).W nn (k + 1) else if a = P.d + (nn - 1) then (sysOf P m0).L nn (k + 1)
        else if a = P.vec + (k + 1) then (sysOf P m0).V (k + 1) else if a = P.d + (k + 1) then (sysOf P m0).D (k + 1) else st.m a := by
      intro a
      simp only [perStep]
      by_cases a1 : a = P.vec + (nn - 1)
      · rw [if_pos a1, a1, set_eq, set_ne _ _ (by omega), set_ne _ _ (by omega), set_ne _ _ (by omega), set_ne _ _ (by omega), set_ne _ _ (by omega), set_ne _ _ (by omega),
          set_ne _ _ (by omega), set_ne _ _ (by omega), I.W, hVk, hDk, I.T]
        rfl
      · rw [if_neg a1, set_ne _ _ a1]
        by_cases a2 : a = P.d + (nn - 1)
        · rw [if_pos a2, a2, set_eq, set_ne _ _ (by omega), set_ne _ _ (by omega), set_ne _ _ (by omega), set_ne _ _ (by omega), Function.update_of_ne (by omega), hCk, I.L, hDk, I.T]
          rfl
        · rw [if_neg a2, set_ne _ _ a2]
          by_cases a3 : a = P.vec + (k + 1)
          · rw [if_pos a3, a3, set_eq, set_ne _ _ (by omega), set_ne _ _ (by omega), hv1, hVk, hld, hDk]
            rfl
          · rw [if_neg a3, set_ne _ _ a3]
            by_cases a4 : a = P.d + (k + 1)
            · rw [if_pos a4, a4, set_eq, hd1, hud, hld, hDk]
              rfl
            · rw [if_neg a4, set_ne _ _ a4]
    refine ⟨?_, ?_, ?_, ?_, ?_, ?_, ?_, ?_, ?_, ?_⟩
    · intro j hj
      rw [em, if_neg (by omega), if_neg (by omega), if_neg (by omega)]
      split
      · rename_i e; obtain rfl : j = k + 1 := by omega
        rfl
      · exact I.D j (by omega)
    · intro j hj hj'
      rw [em, if_neg (by omega), if_neg (by omega), if_neg (by omega), if_neg (by omega)]
      exact I.d j (by omega) hj'
    · rw [em, if_neg (by omega), if_pos rfl]
    · intro j hj
      rw [em, if_neg (by omega), if_neg (by omega), if_neg (by omega), if_neg (by omega)]
      exact I.ud j hj
    · intro j hj
      rw [em, if_neg (by omega), if_neg (by omega), if_neg (by omega), if_neg (by omega)]
      exact I.ld j hj
    · intro j hj
      rw [em, if_neg (by omega), if_neg (by omega)]
      split
      · rename_i e; obtain rfl : j = k + 1 := by omega
        rfl
      · rw [if_neg (by omega)]; exact I.V j (by omega)
    · intro j hj hj'
      rw [em, if_neg (by omega), if_neg (by omega), if_neg (by omega), if_neg (by omega)]
      exact I.v j (by omega) hj'
    · rw [em, if_pos rfl]
    · intro j hj
      show Function.update st.lc (k + 1) _ j = _
      by_cases e : j = k + 1
      · subst e
        rw [Function.update_self, hCk, hld, hDk]
        rfl
      · rw [Function.update_of_ne e]; exact I.C j (by omega)
    · show set _ _ _ (P.ud + k) * (-st.temp / set _ _ _ (P.d + k)) = _
      rw [set_ne _ _ (by omega), set_ne _ _ (by omega), set_ne _ _ (by omega), set_ne _ _ (by omega), hud, hDk, I.T]
      rfl

/-- The values in memory after the whole elimination. -/
structure PerDone (P : Ptrs) (nn : Nat) (m0 : Nat → K) (st : PerState K) : Prop where
  D : ∀ j ≤ nn - 2, st.m (P.d + j) = (sysOf P m0).D j
  ud : ∀ j, j < nn - 2 → st.m (P.ud + j) = m0 (P.ud + j)
  ud2 : st.m (P.ud + (nn - 2)) = m0 (P.ud + (nn - 2)) + (sysOf P m0).C (nn - 2)
  V : ∀ j ≤ nn - 2, st.m (P.vec + j) = (sysOf P m0).V j
  C : ∀ j ≤ nn - 3, st.lc j = (sysOf P m0).C j
  L : st.m (P.d + (nn - 1)) = (sysOf P m0).L nn (nn - 2) + (m0 (P.ud + (nn - 2)) + (sysOf P m0).C (nn - 2)) *
    (-(m0 (P.ld + (nn - 1)) + (sysOf P m0).T nn (nn - 2)) / (sysOf P m0).D (nn - 2))
  W : st.m (P.vec + (nn - 1)) = (sysOf P m0).W nn (nn - 2) + (sysOf P m0).V (nn - 2) *
    (-(m0 (P.ld + (nn - 1)) + (sysOf P m0).T nn (nn - 2)) / (sysOf P m0).D (nn - 2))

theorem perForward_done {P : Ptrs} {nn : Nat} (h3 : 3 ≤ nn) (hs : Sep P nn nn nn nn) (lc0 m0 : Nat → K) : PerDone P nn m0 (perForward P nn lc0 m0) := by
  have I := perElim_inv h3 hs lc0 m0 (nn - 3) (le_refl _)
  obtain ⟨q, rfl⟩ : ∃ q, nn = q + 3 := ⟨nn - 3, by omega⟩
  obtain ⟨s1, s2, s3, s4⟩ := hs
  simp only [Nat.add_sub_cancel] at I
  set st := perElim P (q + 3) ⟨m0, Function.update lc0 0 (m0 (P.ld + 0)), m0 (P.ud + (q + 3 - 1))⟩ q with hst
  have e1 : q + 3 - 1 = q + 2 := rfl
  have e2 : q + 3 - 2 = q + 1 := rfl
  have hDk := I.D q (le_refl q)
  have hVk := I.V q (le_refl q)
  have hCk := I.C q (le_refl q)
  have hud := I.ud q (by omega)
  have hud1 := I.ud (q + 1) (by omega)
  have hld1 := I.ld (q + 1) (by omega)
  have hld2 := I.ld (q + 2) (by omega)
  have hd1 := I.d (q + 1) (by omega) (by omega)
  have hv1 := I.v (q + 1) (by omega) (by omega)
  have hL := I.L
  have hW := I.W
  have hT := I.T
  rw [e1] at hL hW
  have b1 : ∀ a, perBlock1 P (q + 3) st a = if a = P.vec + (q + 2) then (sysOf P m0).W (q + 3) (q + 1) else if a = P.d + (q + 2) then (sysOf P m0).L (q + 3) (q + 1)
      else if a = P.ld + (q + 2) then m0 (P.ld + (q + 2)) + (sysOf P m0).T (q + 3) (q + 1) else if a = P.vec + (q + 1) then (sysOf P m0).V (q + 1)
      else if a = P.ud + (q + 1) then m0 (P.ud + (q + 1)) + (sysOf P m0).C (q + 1) else if a = P.d + (q + 1) then (sysOf P m0).D (q + 1) else st.m a := by
    intro a
    simp only [perBlock1, Nat.add_sub_cancel, e1, e2]
    by_cases a1 : a = P.vec + (q + 2)
    · rw [if_pos a1, a1, set_eq]
      rw [set_ne _ _ (by omega), set_ne _ _ (by omega), set_ne _ _ (by omega), set_ne _ _ (by omega), set_ne _ _ (by omega),
        set_ne _ _ (by omega), set_ne _ _ (by omega), set_ne _ _ (by omega), set_ne _ _ (by omega), set_ne _ _ (by omega),
        set_ne _ _ (by omega), set_ne _ _ (by omega), set_ne _ _ (by omega), hW, hVk, hDk, hT]
      rfl
    · rw [if_neg a1, set_ne _ _ a1]
      by_cases a2 : a = P.d + (q + 2)
      · rw [if_pos a2, a2, set_eq]
        rw [set_ne _ _ (by omega), set_ne _ _ (by omega), set_ne _ _ (by omega), set_ne _ _ (by omega), set_ne _ _ (by omega),
          set_ne _ _ (by omega), set_ne _ _ (by omega), hL, hDk, hT, hCk]
        rfl
      · rw [if_neg a2, set_ne _ _ a2]
        by_cases a3 : a = P.ld + (q + 2)
        · rw [if_pos a3, a3, set_eq]
          rw [set_ne _ _ (by omega), set_ne _ _ (by omega), set_ne _ _ (by omega), set_ne _ _ (by omega), set_ne _ _ (by omega),
            set_ne _ _ (by omega), set_ne _ _ (by omega), set_ne _ _ (by omega), set_ne _ _ (by omega), hld2, hud, hDk, hT]
          rfl
        · rw [if_neg a3, set_ne _ _ a3]
          by_cases a4 : a = P.vec + (q + 1)
          · rw [if_pos a4, a4, set_eq]
            rw [set_ne _ _ (by omega), set_ne _ _ (by omega), set_ne _ _ (by omega), set_ne _ _ (by omega), hv1, hVk, hld1, hDk]
            rfl
          · rw [if_neg a4, set_ne _ _ a4]
            by_cases a5 : a = P.ud + (q + 1)
            · rw [if_pos a5, a5, set_eq]
              rw [set_ne _ _ (by omega), hud1, hCk, hld1, hDk]
              rfl
            · rw [if_neg a5, set_ne _ _ a5]
              by_cases a6 : a = P.d + (q + 1)
              · rw [if_pos a6, a6, set_eq, hd1, hud, hld1, hDk]
                rfl
              · rw [if_neg a6, set_ne _ _ a6]
  have r1 : perBlock1 P (q + 3) st (P.d + (q + 1)) = (sysOf P m0).D (q + 1) := by
    rw [b1, if_neg (by omega), if_neg (by omega), if_neg (by omega), if_neg (by omega), if_neg (by omega), if_pos rfl]
  have r2 : perBlock1 P (q + 3) st (P.ld + (q + 2)) = m0 (P.ld + (q + 2)) + (sysOf P m0).T (q + 3) (q + 1) := by
    rw [b1, if_neg (by omega), if_neg (by omega), if_pos rfl]
  have r3 : perBlock1 P (q + 3) st (P.ud + (q + 1)) = m0 (P.ud + (q + 1)) + (sysOf P m0).C (q + 1) := by
    rw [b1, if_neg (by omega), if_neg (by omega), if_neg (by omega), if_neg (by omega), if_pos rfl]
  have r4 : perBlock1 P (q + 3) st (P.vec + (q + 1)) = (sysOf P m0).V (q + 1) := by
    rw [b1, if_neg (by omega), if_neg (by omega), if_neg (by omega), if_pos rfl]
  have r5 : perBlock1 P (q + 3) st (P.d + (q + 2)) = (sysOf P m0).L (q + 3) (q + 1) := by
    rw [b1, if_neg (by omega), if_pos rfl]
  have r6 : perBlock1 P (q + 3) st (P.vec + (q + 2)) = (sysOf P m0).W (q + 3) (q + 1) := by
    rw [b1, if_pos rfl]
  have b2 : ∀ a, (perForward P (q + 3) lc0 m0).m a = if a = P.vec + (q + 2) then (sysOf P m0).W (q + 3) (q + 1) + (sysOf P m0).V (q + 1) *
      (-(m0 (P.ld + (q + 2)) + (sysOf P m0).T (q + 3) (q + 1)) / (sysOf P m0).D (q + 1)) else if a = P.d + (q + 2) then
      (sysOf P m0).L (q + 3) (q + 1) + (m0 (P.ud + (q + 1)) + (sysOf P m0).C (q + 1)) * (-(m0 (P.ld + (q + 2)) + (sysOf P m0).T (q + 3) (q + 1)) / (sysOf P m0).D (q + 1))
      else perBlock1 P (q + 3) st a := by
    intro a
    show perBlock2 P (q + 3) (perBlock1 P (q + 3) st) a = _
    simp only [perBlock2, e2]
    by_cases a1 : a = P.vec + (q + 2)
    · rw [if_pos a1, a1]
      rw [show q + 1 + 1 = q + 2 from rfl, set_eq, set_ne _ _ (by omega), set_ne _ _ (by omega), r6, r4, r2, r1]
    · rw [if_neg a1, show q + 1 + 1 = q + 2 from rfl, set_ne _ _ a1]
      by_cases a2 : a = P.d + (q + 2)
      · rw [if_pos a2, a2, set_eq, r5, r3, r2, r1]
      · rw [if_neg a2, set_ne _ _ a2]
  refine ⟨?_, ?_, ?_, ?_, ?_, ?_, ?_⟩
  · intro j hj
    rw [b2, if_neg (by omega), if_neg (by omega)]
    by_cases e : j = q + 1
    · subst e; exact r1
    · rw [b1, if_neg (by omega), if_neg (by omega), if_neg (by omega), if_neg (by omega), if_neg (by omega), if_neg (by omega)]
      exact I.D j (by omega)
  · intro j hj
    rw [b2, if_neg (by omega), if_neg (by omega), b1, if_neg (by omega), if_neg (by omega), if_neg (by omega), if_neg (by omega), if_neg (by omega), if_neg (by omega)]
    exact I.ud j (by omega)
  · rw [b2, if_neg (by omega), if_neg (by omega)]; exact r3
  · intro j hj
    rw [b2, if_neg (by omega), if_neg (by omega)]
    by_cases e : j = q + 1
    · subst e; exact r4
    · rw [b1, if_neg (by omega), if_neg (by omega), if_neg (by omega), if_neg (by omega), if_neg (by omega), if_neg (by omega)]
      exact I.V j (by omega)
  · intro j hj; exact I.C j hj
  · rw [e1, e2, b2, if_neg (by omega), if_pos rfl]
  · rw [e1, e2, b2, if_pos rfl]

theorem perBack_spec {P : Ptrs} {nn : Nat} (hs : Sep P nn nn nn nn) {eps : K} (he : 0 < eps) (lc : Nat → K) :
    ∀ (k : Nat) (m m' : Nat → K), k + 2 ≤ nn → perBack P eps nn lc k m = some m' →
      (∀ a, a < P.s → m' a = m a) ∧ (∀ j, k < j → m' (P.s + j) = m (P.s + j)) ∧
      ∀ j, j < k → m (P.d + j) ≠ 0 ∧ m (P.d + j) * m' (P.s + (j + 1)) + m (P.ud + j) * m' (P.s + (j + 2)) + lc j * m' (P.s + nn) = m (P.vec + j) := by
  intro k
  obtain ⟨h1, h2, h3, h4⟩ := hs
  induction k with
  | zero =>
    intro m m' hk h
    cases h
    exact ⟨fun _ _ => rfl, fun _ _ => rfl, fun j hj => absurd hj (by omega)⟩
  | succ k ih =>
    intro m m' hk h
    rw [perBack] at h
    split at h
    · exact absurd h (by simp)
    · rename_i hp
      obtain ⟨ha, hb, hc⟩ := ih _ _ (by omega) h
      have hd : m (P.d + k) ≠ 0 := by
        intro e; rw [e, abs_zero] at hp; exact hp he
      refine ⟨fun a h => by rw [ha a h, set_ne _ _ (by omega)], fun j hj => by rw [hb j (by omega), set_ne _ _ (by omega)], fun j hj => ?_⟩
      by_cases hjk : j = k
      · subst hjk
        refine ⟨hd, ?_⟩
        rw [hb (j + 1) (by omega), hb (j + 2) (by omega), hb nn (by omega), set_eq, set_ne _ _ (by omega), set_ne _ _ (by omega)]
        field_simp
        ring
      · have := hc j (by omega)
        rw [set_ne _ _ (by omega), set_ne _ _ (by omega), set_ne _ _ (by omega)] at this
        exact this

/-- A reported success without NaN solves the periodic system, provided the slices do not overlap. -/
theorem solvePer_spec {P : Ptrs} {nn : Nat} (h3 : 3 ≤ nn) (hs : Sep P nn nn nn nn) {eps : K} (he : 0 < eps) {lc0 m0 m : Nat → K}
    (h : solvePer P eps nn lc0 m0 = .ok m) : m (P.s + 0) = m (P.s + nn) ∧ ∀ i < nn,
      m0 (P.ld + i) * m (P.s + i) + m0 (P.d + i) * m (P.s + (i + 1)) + m0 (P.ud + i) * m (P.s + (if i = nn - 1 then 1 else i + 2)) = m0 (P.vec + i) := by
  have F := perForward_done h3 hs lc0 m0
  unfold solvePer at h
  simp only at h
  set st := perForward P nn lc0 m0 with hst
  split at h
  · split at h <;> exact absurd h (by simp)
  · rename_i hp2
    split at h
    · exact absurd h (by simp)
    · rename_i hp1
      split at h
      · exact absurd h (by simp)
      · rename_i mb hb
        simp only [PerResult.ok.injEq] at h
        obtain ⟨ha, hbb, hc⟩ := perBack_spec hs he st.lc (nn - 2) _ _ (by omega) hb
        obtain ⟨s1, s2, s3, s4⟩ := hs
        rw [set_ne _ _ (by omega)] at hp1
        have hpl : st.m (P.d + (nn - 1)) ≠ 0 := by intro e; rw [e, abs_zero] at hp1; exact hp1 he
        -- values of `s`
        have hm : ∀ j, j ≠ 0 → m (P.s + j) = mb (P.s + j) := by
          intro j hj; rw [← h, set_ne _ _ (by omega)]
        have hm0 : m (P.s + 0) = mb (P.s + nn) := by rw [← h, set_eq]
        have hsn : mb (P.s + nn) = st.m (P.vec + (nn - 1)) / st.m (P.d + (nn - 1)) := by
          rw [hbb nn (by omega), set_ne _ _ (by omega), set_eq]
        have hsn1 : mb (P.s + (nn - 1)) = (st.m (P.vec + (nn - 2)) - mb (P.s + nn) * st.m (P.ud + (nn - 2))) / st.m (P.d + (nn - 2)) := by
          rw [hbb (nn - 1) (by omega), set_eq, set_eq, set_ne _ _ (by omega), set_ne _ _ (by omega), set_ne _ _ (by omega), hsn]
        set S := sysOf P m0 with hS
        set u : Nat → K := fun j => mb (P.s + (j + 1)) with hu
        -- rows after the elimination
        have hDne : ∀ j, j ≤ nn - 2 → S.D j ≠ 0 := by
          intro j hj
          rw [← F.D j hj]
          by_cases e : j = nn - 2
          · rw [e]; exact hp2
          · have := (hc j (by omega)).1
            rwa [set_ne _ _ (by omega), set_ne _ _ (by omega)] at this
        have un : u (nn - 1) = mb (P.s + nn) := by simp only [hu]; congr 2; omega
        have un1 : u (nn - 2) = mb (P.s + (nn - 1)) := by simp only [hu]; congr 2; omega
        have hrow : ∀ j, j < nn - 2 → S.D j * u j + S.ud j * u (j + 1) + S.C j * u (nn - 1) = S.V j := by
          intro j hj
          have := (hc j hj).2
          rw [set_ne _ _ (by omega), set_ne _ _ (by omega), set_ne _ _ (by omega), set_ne _ _ (by omega), set_ne _ _ (by omega), set_ne _ _ (by omega),
            F.D j (by omega), F.ud j hj, F.C j (by omega), F.V j (by omega)] at this
          rw [un]
          exact this
        have hrow2 : S.D (nn - 2) * u (nn - 2) + (S.ud (nn - 2) + S.C (nn - 2)) * u (nn - 1) = S.V (nn - 2) := by
          rw [un, un1, hsn1, F.D _ (le_refl _), F.V _ (le_refl _), F.ud2]
          have := hDne (nn - 2) (le_refl _)
          show S.D (nn - 2) * _ + (S.ud (nn - 2) + S.C (nn - 2)) * _ = _
          have e : (m0 (P.ud + (nn - 2)) + S.C (nn - 2)) = S.ud (nn - 2) + S.C (nn - 2) := rfl
          rw [e, mul_div_cancel₀ _ this]
          ring
        have hrow3 : S.T nn (nn - 2) * u (nn - 2) + S.ld (nn - 1) * u (nn - 2) + S.L nn (nn - 2) * u (nn - 1) = S.W nn (nn - 2) := by
          have hl : st.m (P.d + (nn - 1)) * u (nn - 1) = st.m (P.vec + (nn - 1)) := by
            rw [un, hsn]; field_simp
          rw [F.L, F.W] at hl
          have hd := hDne (nn - 2) (le_refl _)
          have eu : m0 (P.ud + (nn - 2)) = S.ud (nn - 2) := rfl
          have el : m0 (P.ld + (nn - 1)) = S.ld (nn - 1) := rfl
          rw [eu, el] at hl
          set c := -(S.ld (nn - 1) + S.T nn (nn - 2)) / S.D (nn - 2) with hcdef
          have hcm : c * S.D (nn - 2) = -(S.ld (nn - 1) + S.T nn (nn - 2)) := div_mul_cancel₀ _ hd
          linear_combination hl - c * hrow2 + u (nn - 2) * hcm
        refine ⟨by rw [hm0, hm nn (by omega)], fun i hi => ?_⟩
        have hmu : ∀ j, m (P.s + (j + 1)) = u j := fun j => hm (j + 1) (by omega)
        by_cases i1 : i = nn - 1
        · subst i1
          have hr := S.last_row (u := u) (nn := nn) (a := S.ld (nn - 1) * u (nn - 2)) (nn - 2) (fun j hj => hDne j (by omega)) hrow hrow3
          rw [if_pos rfl, hmu (nn - 1), show (1 : Nat) = 0 + 1 from rfl, hmu 0, show nn - 1 = nn - 2 + 1 by omega, hmu (nn - 2), ← show nn - 1 = nn - 2 + 1 by omega]
          have : S.ld (nn - 1) * u (nn - 2) + S.d (nn - 1) * u (nn - 1) + S.ud (nn - 1) * u 0 = S.v (nn - 1) := by linear_combination hr
          exact this
        · rw [if_neg i1, hmu i, show i + 2 = i + 1 + 1 from rfl, hmu (i + 1)]
          rcases i with _ | k
          · rw [hm0, ← un]
            have hr := hrow 0 (by omega)
            have : S.ld 0 * u (nn - 1) + S.d 0 * u 0 + S.ud 0 * u 1 = S.v 0 := by
              have e1 : S.D 0 = S.d 0 := rfl
              have e2 : S.C 0 = S.ld 0 := rfl
              have e3 : S.V 0 = S.v 0 := rfl
              rw [e1, e2, e3] at hr
              linear_combination hr
            exact this
          · rw [hmu k]
            have h0 := hrow k (by omega)
            by_cases k2 : k + 1 = nn - 2
            · have h1 : S.D (k + 1) * u (k + 1) + S.ud (k + 1) * u (k + 1 + 1) + S.C (k + 1) * u (nn - 1) = S.V (k + 1) := by
                have e : k + 1 + 1 = nn - 1 := by omega
                rw [e, k2]
                linear_combination hrow2
              exact S.mid_row (hDne k (by omega)) h0 h1 (y := 0)
            · exact S.mid_row (hDne k (by omega)) h0 (hrow (k + 1) (by omega)) (y := 0)

end Verif.Spline
