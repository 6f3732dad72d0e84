import Verif.Elem.Dense
import Mathlib.Tactic.Linarith
import Mathlib.Tactic.Ring
import Mathlib.Algebra.Ring.Parity

/-!
# Loops that update a buffer in place
-/

namespace Verif.Dense

open Verif.Elem

theorem loop_zero (body : Nat → (Nat → ℝ) → (Nat → ℝ)) (a : Nat → ℝ) : loop 0 body a = a := rfl

theorem loop_succ (n : Nat) (body : Nat → (Nat → ℝ) → (Nat → ℝ)) (a : Nat → ℝ) : loop (n + 1) body a = body n (loop n body a) := by
  simp [loop, List.range_succ]

/-- A loop whose passes touch disjoint parts `F i` of the buffer. -/
theorem loop_at {n : Nat} {body : Nat → (Nat → ℝ) → (Nat → ℝ)} (F : Nat → Nat → Prop)
    (hout : ∀ i < n, ∀ a p, ¬F i p → body i a p = a p)
    (hin : ∀ i < n, ∀ a b : Nat → ℝ, (∀ p, F i p → a p = b p) → ∀ p, F i p → body i a p = body i b p)
    (hdis : ∀ i < n, ∀ j < n, i ≠ j → ∀ p, F i p → ¬F j p) (a : Nat → ℝ) :
    (∀ i < n, ∀ p, F i p → loop n body a p = body i a p) ∧ ∀ p, (∀ i < n, ¬F i p) → loop n body a p = a p := by
  induction n with
  | zero => exact ⟨fun i hi => absurd hi (by omega), fun p _ => rfl⟩
  | succ n ih =>
    obtain ⟨h1, h2⟩ := ih (fun i hi => hout i (by omega)) (fun i hi => hin i (by omega)) (fun i hi j hj => hdis i (by omega) j (by omega))
    constructor
    · intro i hi p hp
      rw [loop_succ]
      by_cases hn : i = n
      · subst hn
        refine hin i hi _ _ (fun q hq => h2 q fun j hj hF => ?_) p hp
        exact hdis i hi j (by omega) (by omega) q hq hF
      · rw [hout n (by omega) _ _ (hdis i hi n (by omega) hn p hp)]
        exact h1 i (by omega) p hp
    · intro p hp
      rw [loop_succ, hout n (by omega) _ _ (hp n (by omega))]
      exact h2 p fun i hi => hp i (by omega)

/-- The same for two nested loops. -/
theorem loop2_at {n m : Nat} {body : Nat → Nat → (Nat → ℝ) → (Nat → ℝ)} (F : Nat → Nat → Nat → Prop)
    (hout : ∀ i < n, ∀ j < m, ∀ a p, ¬F i j p → body i j a p = a p)
    (hin : ∀ i < n, ∀ j < m, ∀ a b : Nat → ℝ, (∀ p, F i j p → a p = b p) → ∀ p, F i j p → body i j a p = body i j b p)
    (hdis : ∀ i < n, ∀ j < m, ∀ i' < n, ∀ j' < m, ∀ p, F i j p → F i' j' p → i = i' ∧ j = j') (a : Nat → ℝ) :
    (∀ i < n, ∀ j < m, ∀ p, F i j p → loop n (fun i => loop m (body i)) a p = body i j a p) ∧
      ∀ p, (∀ i < n, ∀ j < m, ¬F i j p) → loop n (fun i => loop m (body i)) a p = a p := by
  have inner : ∀ i < n, ∀ a, (∀ j < m, ∀ p, F i j p → loop m (body i) a p = body i j a p) ∧ ∀ p, (∀ j < m, ¬F i j p) → loop m (body i) a p = a p := by
    intro i hi a
    refine loop_at (F i) (hout i hi) (hin i hi) ?_ a
    intro j hj j' hj' hne p h1 h2
    exact hne (hdis i hi j hj i hi j' hj' p h1 h2).2
  obtain ⟨h1, h2⟩ := loop_at (n := n) (body := fun i => loop m (body i)) (fun i p => ∃ j < m, F i j p)
    (fun i hi a p hp => (inner i hi a).2 p fun j hj hF => hp ⟨j, hj, hF⟩)
    (fun i hi a b hab p ⟨j, hj, hF⟩ => by
      rw [(inner i hi a).1 j hj p hF, (inner i hi b).1 j hj p hF]
      exact hin i hi j hj a b (fun q hq => hab q ⟨j, hj, hq⟩) p hF)
    (fun i hi i' hi' hne p ⟨j, hj, hF⟩ ⟨j', hj', hF'⟩ => hne (hdis i hi j hj i' hi' j' hj' p hF hF').1) a
  constructor
  · intro i hi j hj p hF
    rw [h1 i hi p ⟨j, hj, hF⟩]
    exact (inner i hi a).1 j hj p hF
  · intro p hp
    exact h2 p fun i hi ⟨j, hj, hF⟩ => hp i hi j hj hF

theorem scal_at {n start inc : Nat} (alpha : ℝ) (hinc : 0 < inc) (a : Nat → ℝ) :
    (∀ i < n, scal n alpha start inc a (start + i * inc) = alpha * a (start + i * inc)) ∧ ∀ p, (∀ i < n, p ≠ start + i * inc) → scal n alpha start inc a p = a p := by
  obtain ⟨h1, h2⟩ := loop_at (n := n) (body := fun i a => Function.update a (start + i * inc) (alpha * a (start + i * inc))) (fun i p => p = start + i * inc)
    (fun i _ a p hp => Function.update_of_ne hp _ _)
    (fun i _ a b hab p hp => by subst hp; simp only [Function.update_self]; rw [hab _ rfl])
    (fun i _ j _ hne p h1 h2 => hne (by
      have : i * inc = j * inc := by omega
      exact Nat.eq_of_mul_eq_mul_right hinc this)) a
  exact ⟨fun i hi => by rw [scal, h1 i hi _ rfl]; simp, h2⟩

theorem axpy_at {n : Nat} (alpha : ℝ) (x a : Nat → ℝ) : (∀ i < n, axpy n alpha x a i = alpha * x i + a i) ∧ ∀ p, n ≤ p → axpy n alpha x a p = a p := by
  obtain ⟨h1, h2⟩ := loop_at (n := n) (body := fun i a => Function.update a i (alpha * x i + a i)) (fun i p => p = i)
    (fun i _ a p hp => Function.update_of_ne hp _ _) (fun i _ a b hab p hp => by subst hp; simp only [Function.update_self]; rw [hab _ rfl])
    (fun i _ j _ hne p h1 h2 => hne (by omega)) a
  exact ⟨fun i hi => by rw [axpy, h1 i hi _ rfl]; simp, fun p hp => h2 p fun i hi => by omega⟩

theorem cx_ext {a b : Nat → ℝ} {p : Nat} (h0 : a (2 * p) = b (2 * p)) (h1 : a (2 * p + 1) = b (2 * p + 1)) : cx a p = cx b p := by
  rw [cx, cx, h0, h1]

theorem cx_setcx (a : Nat → ℝ) (p : Nat) (z : ℂ) : cx (setcx a p z) p = z := by
  apply Complex.ext
  · simp only [cx, setcx]; rw [Function.update_of_ne (by omega), Function.update_self]
  · simp only [cx, setcx]; rw [Function.update_self]

theorem setcx_of_ne (a : Nat → ℝ) (p : Nat) (z : ℂ) {q : Nat} (h : ¬(q = 2 * p ∨ q = 2 * p + 1)) : setcx a p z q = a q := by
  rw [setcx, Function.update_of_ne (by omega), Function.update_of_ne (by omega)]

theorem cx_setcx_ne (a : Nat → ℝ) {p q : Nat} (z : ℂ) (h : p ≠ q) : cx (setcx a p z) q = cx a q :=
  cx_ext (setcx_of_ne _ _ _ (by omega)) (setcx_of_ne _ _ _ (by omega))

/-- Passes that replace the complex number at position `i` by a function of itself. -/
theorem cloop_at {n : Nat} (f : Nat → ℂ → ℂ) (a : Nat → ℝ) :
    (∀ i < n, cx (loop n (fun i a => setcx a i (f i (cx a i))) a) i = f i (cx a i)) ∧
      ∀ p, 2 * n ≤ p → loop n (fun i a => setcx a i (f i (cx a i))) a p = a p := by
  obtain ⟨h1, h2⟩ := loop_at (n := n) (body := fun i a => setcx a i (f i (cx a i))) (fun i p => p = 2 * i ∨ p = 2 * i + 1)
    (fun i _ a p hp => setcx_of_ne _ _ _ hp)
    (fun i _ a b hab p hp => by
      have : cx a i = cx b i := cx_ext (hab _ (Or.inl rfl)) (hab _ (Or.inr rfl))
      rcases hp with rfl | rfl
      · simp only [setcx]; rw [Function.update_of_ne (by omega), Function.update_self, Function.update_of_ne (by omega), Function.update_self, this]
      · simp only [setcx]; rw [Function.update_self, Function.update_self, this])
    (fun i _ j _ hne p h1 h2 => by omega) a
  refine ⟨fun i hi => ?_, fun p hp => h2 p fun i hi => by omega⟩
  rw [cx_ext (h1 i hi _ (Or.inl rfl)) (h1 i hi _ (Or.inr rfl)), cx_setcx]

/-- Two nested loops whose passes replace the complex number at position `pos i j` by a function of itself. -/
theorem cloop2_at {n m : Nat} (pos : Nat → Nat → Nat) (hpos : ∀ i < n, ∀ j < m, ∀ i' < n, ∀ j' < m, pos i j = pos i' j' → i = i' ∧ j = j') (f : Nat → Nat → ℂ → ℂ) (a : Nat → ℝ) :
    ∀ i < n, ∀ j < m, cx (loop n (fun i => loop m fun j a => setcx a (pos i j) (f i j (cx a (pos i j)))) a) (pos i j) = f i j (cx a (pos i j)) := by
  obtain ⟨h1, h2⟩ := loop2_at (n := n) (m := m) (body := fun i j a => setcx a (pos i j) (f i j (cx a (pos i j)))) (fun i j p => p = 2 * pos i j ∨ p = 2 * pos i j + 1)
    (fun i _ j _ a p hp => setcx_of_ne _ _ _ hp)
    (fun i _ j _ a b hab p hp => by
      have : cx a (pos i j) = cx b (pos i j) := cx_ext (hab _ (Or.inl rfl)) (hab _ (Or.inr rfl))
      rcases hp with rfl | rfl
      · simp only [setcx]; rw [Function.update_of_ne (by omega), Function.update_self, Function.update_of_ne (by omega), Function.update_self, this]
      · simp only [setcx]; rw [Function.update_self, Function.update_self, this])
    (fun i hi j hj i' hi' j' hj' p h1 h2 => hpos i hi j hj i' hi' j' hj' (by omega)) a
  intro i hi j hj
  rw [cx_ext (h1 i hi j hj _ (Or.inl rfl)) (h1 i hi j hj _ (Or.inr rfl)), cx_setcx]

/-- Two nested loops whose passes replace the number at position `pos i j` by a function of itself. -/
theorem rloop2_at {n m : Nat} (pos : Nat → Nat → Nat) (hpos : ∀ i < n, ∀ j < m, ∀ i' < n, ∀ j' < m, pos i j = pos i' j' → i = i' ∧ j = j') (f : Nat → Nat → ℝ → ℝ) (a : Nat → ℝ) :
    (∀ i < n, ∀ j < m, loop n (fun i => loop m fun j a => Function.update a (pos i j) (f i j (a (pos i j)))) a (pos i j) = f i j (a (pos i j))) ∧
      ∀ p, (∀ i < n, ∀ j < m, p ≠ pos i j) → loop n (fun i => loop m fun j a => Function.update a (pos i j) (f i j (a (pos i j)))) a p = a p := by
  obtain ⟨h1, h2⟩ := loop2_at (n := n) (m := m) (body := fun i j a => Function.update a (pos i j) (f i j (a (pos i j)))) (fun i j p => p = pos i j)
    (fun i _ j _ a p hp => Function.update_of_ne hp _ _)
    (fun i _ j _ a b hab p hp => by subst hp; simp only [Function.update_self]; rw [hab _ rfl])
    (fun i hi j hj i' hi' j' hj' p h1 h2 => hpos i hi j hj i' hi' j' hj' (by omega)) a
  exact ⟨fun i hi j hj => by rw [h1 i hi j hj _ rfl]; simp, h2⟩

/-- Writes of new memory, one per position. -/
theorem write1_at {n : Nat} (junk : Nat → ℝ) (v : Nat → ℝ) {i : Nat} (hi : i < n) : writeAll junk (forN n fun i => [(i, v i)]) i = v i := by
  refine writeAll_of_mem _ _ _ _ (mem_forN.mpr ⟨i, hi, by simp⟩) fun y hy => ?_
  obtain ⟨k, _, h⟩ := mem_forN.mp hy
  simp only [List.mem_singleton, Prod.mk.injEq] at h
  rw [h.2, h.1]

theorem write2_at {n : Nat} (junk : Nat → ℝ) (v w : Nat → ℝ) {q : Nat} (hq : q < n) :
    cx (writeAll junk (forN n fun q => [(2 * q, v q), (2 * q + 1, w q)])) q = ⟨v q, w q⟩ := by
  apply Complex.ext
  · refine writeAll_of_mem _ _ _ _ (mem_forN.mpr ⟨q, hq, by simp⟩) fun y hy => ?_
    obtain ⟨k, _, h⟩ := mem_forN.mp hy
    simp only [List.mem_cons, Prod.mk.injEq, List.not_mem_nil, or_false] at h
    rcases h with ⟨e, rfl⟩ | ⟨e, rfl⟩
    · rw [show q = k by omega]
    · omega
  · refine writeAll_of_mem _ _ _ _ (mem_forN.mpr ⟨q, hq, by simp⟩) fun y hy => ?_
    obtain ⟨k, _, h⟩ := mem_forN.mp hy
    simp only [List.mem_cons, Prod.mk.injEq, List.not_mem_nil, or_false] at h
    rcases h with ⟨e, rfl⟩ | ⟨e, rfl⟩
    · omega
    · rw [show q = k by omega]

/-- Writes of new memory in two nested loops, column by column. -/
theorem writeCol_at {m n : Nat} (C : Nat → ℝ) (v : Nat → Nat → ℝ) {i j : Nat} (hi : i < m) (hj : j < n) :
    writeAll C (forN n fun j => forN m fun i => [(i + j * m, v i j)]) (i + j * m) = v i j := by
  refine writeAll_of_mem _ _ _ _ (mem_forN.mpr ⟨j, hj, mem_forN.mpr ⟨i, hi, by simp⟩⟩) fun y hy => ?_
  obtain ⟨j', hj', h⟩ := mem_forN.mp hy
  obtain ⟨i', hi', h⟩ := mem_forN.mp h
  simp only [List.mem_singleton, Prod.mk.injEq] at h
  obtain ⟨rfl, rfl⟩ := colMajor_inj hi hi' h.1
  exact h.2

theorem writeColC_at {m n : Nat} (C : Nat → ℝ) (v : Nat → Nat → ℂ) {i j : Nat} (hi : i < m) (hj : j < n) :
    cx (writeAll C (forN n fun j => forN m fun i => [(2 * (i + j * m), (v i j).re), (2 * (i + j * m) + 1, (v i j).im)])) (i + j * m) = v i j := by
  apply Complex.ext
  · refine writeAll_of_mem _ _ _ _ (mem_forN.mpr ⟨j, hj, mem_forN.mpr ⟨i, hi, by simp⟩⟩) fun y hy => ?_
    obtain ⟨j', hj', h⟩ := mem_forN.mp hy
    obtain ⟨i', hi', h⟩ := mem_forN.mp h
    simp only [List.mem_cons, Prod.mk.injEq, List.not_mem_nil, or_false] at h
    rcases h with ⟨e, rfl⟩ | ⟨e, rfl⟩
    · obtain ⟨rfl, rfl⟩ := colMajor_inj hi hi' (show i + j * m = i' + j' * m by omega); rfl
    · omega
  · refine writeAll_of_mem _ _ _ _ (mem_forN.mpr ⟨j, hj, mem_forN.mpr ⟨i, hi, by simp⟩⟩) fun y hy => ?_
    obtain ⟨j', hj', h⟩ := mem_forN.mp hy
    obtain ⟨i', hi', h⟩ := mem_forN.mp h
    simp only [List.mem_cons, Prod.mk.injEq, List.not_mem_nil, or_false] at h
    rcases h with ⟨e, rfl⟩ | ⟨e, rfl⟩
    · omega
    · obtain ⟨rfl, rfl⟩ := colMajor_inj hi hi' (show i + j * m = i' + j' * m by omega); rfl

theorem expand_spec : ∀ (N : Nat) (a : Nat → ℝ), (∀ i < N, expand N a (2 * i) = a i ∧ expand N a (2 * i + 1) = 0) ∧ ∀ p, 2 * N ≤ p → expand N a p = a p
  | 0, a => ⟨fun i hi => absurd hi (by omega), fun _ _ => rfl⟩
  | N + 1, a => by
    have ih := expand_spec N (Function.update (Function.update a (2 * N + 1) 0) (2 * N) ((Function.update a (2 * N + 1) 0) N))
    have hN : (Function.update a (2 * N + 1) 0) N = a N := Function.update_of_ne (by omega) _ _
    rw [hN] at ih
    simp only [expand, hN]
    constructor
    · intro i hi
      by_cases h : i < N
      · rw [(ih.1 i h).1, (ih.1 i h).2, Function.update_of_ne (by omega), Function.update_of_ne (by omega)]
        exact ⟨rfl, rfl⟩
      · obtain rfl : i = N := by omega
        rw [ih.2 _ (by omega), ih.2 _ (by omega), Function.update_self, Function.update_of_ne (by omega), Function.update_self]
        exact ⟨rfl, rfl⟩
    · intro p hp
      rw [ih.2 p (by omega), Function.update_of_ne (by omega), Function.update_of_ne (by omega)]

end Verif.Dense
