import Verif.Manifold.Dims
import Verif.Props.Intrinsic
import Verif.Props.Q2FIntr
import Verif.Props.SymFRIntr
import Verif.Props.SymFRIntrQ
import Verif.Props.FixedRank
import Mathlib.LinearAlgebra.Dimension.Constructions
import Mathlib.LinearAlgebra.FiniteDimensional.Basic
import Mathlib.LinearAlgebra.Complex.FiniteDimensional

/-!
# C78: the dimension a manifold reports is the dimension of its tangent spaces
-/

set_option linter.unusedSectionVars false
set_option linter.unusedVariables false

namespace Verif.Dims

open Matrix Verif.Mat Verif.Intr

/-! ## Coordinates determine the dimension -/

theorem dot_sum {d : ℕ} {l l' : List ℝ} (h : l.length = d) (h' : l'.length = d) : dot l l' = ∑ i : Fin d, buf l i * buf l' i := by
  subst h
  induction l generalizing l' with
  | nil => simp [dot]
  | cons a l ih =>
    cases l' with
    | nil => simp at h'
    | cons b l' =>
      have := ih (l' := l') (by simpa using h')
      rw [List.length_cons, Fin.sum_univ_succ]
      simp only [dot, buf, List.zipWith_cons_cons, List.sum_cons] at this ⊢
      rw [this]
      simp

theorem buf_ofFn {d : ℕ} (w : Fin d → ℝ) (i : Fin d) : buf (List.ofFn w) i = w i := by
  simp [buf, List.getD_eq_getElem?_getD]

/-- If coordinates of length `d` represent the vectors of a space one to one and turn an inner product into the dot product, the space has dimension `d`. -/
theorem finrank_of_coords {E : Type*} [AddCommGroup E] [Module ℝ E] (T : Submodule ℝ E) (d : ℕ) (g : E → E → ℝ) (f : E → List ℝ) (b : List ℝ → E)
    (hlen : ∀ v ∈ T, (f v).length = d) (hb : ∀ c : List ℝ, c.length = d → f (b c) = c ∧ b c ∈ T) (hfb : ∀ v ∈ T, b (f v) = v)
    (hiso : ∀ u ∈ T, ∀ v ∈ T, dot (f u) (f v) = g u v) (hadd : ∀ u u' v, g (u + u') v = g u v + g u' v) (hsmul : ∀ (c : ℝ) u v, g (c • u) v = c * g u v) :
    Module.finrank ℝ T = d := by
  have key : ∀ z : Fin d → ℝ, (∀ v ∈ T, ∑ i, z i * buf (f v) i = 0) → z = 0 := by
    intro z hz
    obtain ⟨h1, h2⟩ := hb (List.ofFn z) List.length_ofFn
    have := hz _ h2
    rw [h1] at this
    simp only [buf_ofFn] at this
    funext i
    have h3 := (Finset.sum_eq_zero_iff_of_nonneg (fun i _ => mul_self_nonneg (z i))).mp this i (Finset.mem_univ i)
    exact mul_self_eq_zero.mp h3
  have hs : ∀ u ∈ T, ∀ v ∈ T, ∑ i : Fin d, buf (f u) i * buf (f v) i = g u v := fun u hu v hv => by rw [← dot_sum (hlen u hu) (hlen v hv), hiso u hu v hv]
  let F : T →ₗ[ℝ] (Fin d → ℝ) :=
    { toFun := fun v i => buf (f v.1) i
      map_add' := by
        intro u v
        refine sub_eq_zero.mp (key _ fun w hw => ?_)
        simp only [Pi.sub_apply, Pi.add_apply, sub_mul, add_mul, Finset.sum_sub_distrib, Finset.sum_add_distrib]
        rw [hs _ (u + v).2 _ hw, hs _ u.2 _ hw, hs _ v.2 _ hw, Submodule.coe_add, hadd]
        ring
      map_smul' := by
        intro c u
        refine sub_eq_zero.mp (key _ fun w hw => ?_)
        simp only [Pi.sub_apply, Pi.smul_apply, smul_eq_mul, RingHom.id_apply, sub_mul, mul_assoc, Finset.sum_sub_distrib, ← Finset.mul_sum]
        rw [hs _ (c • u).2 _ hw, hs _ u.2 _ hw, Submodule.coe_smul, hsmul]
        ring }
  have hinj : Function.Injective F := by
    intro u v huv
    apply Subtype.ext
    rw [← hfb _ u.2, ← hfb _ v.2]
    congr 1
    refine List.ext_getElem (by rw [hlen _ u.2, hlen _ v.2]) fun i h1 h2 => ?_
    have := congrFun huv ⟨i, by rw [hlen _ u.2] at h1; exact h1⟩
    simpa [F, buf, List.getD_eq_getElem?_getD, List.getElem?_eq_getElem h1, List.getElem?_eq_getElem h2] using this
  have hsur : Function.Surjective F := by
    intro w
    obtain ⟨h1, h2⟩ := hb (List.ofFn w) List.length_ofFn
    refine ⟨⟨_, h2⟩, ?_⟩
    funext i
    change buf (f (b (List.ofFn w))) i = w i
    rw [h1, buf_ofFn]
  have := (LinearEquiv.ofBijective F ⟨hinj, hsur⟩).finrank_eq
  rw [this, Module.finrank_fin_fun]

/-! ## Tangent spaces -/

variable {n p m r : ℕ}

/-- Tangent space of the Stiefel manifold. -/
def tStiefel (x : Matrix (Fin n) (Fin p) ℝ) : Submodule ℝ (Matrix (Fin n) (Fin p) ℝ) where
  carrier := {η | Stiefel.IsTangent x η}
  add_mem' := by
    intro a b ha hb
    simp only [Set.mem_ofPred_eq, Stiefel.IsTangent] at *
    rw [Matrix.mul_add, transpose_add, ha, hb, neg_add]
  zero_mem' := by simp [Stiefel.IsTangent]
  smul_mem' := by
    intro c a ha
    simp only [Set.mem_ofPred_eq, Stiefel.IsTangent] at *
    rw [Matrix.mul_smul, transpose_smul, ha, smul_neg]

/-- Horizontal space of the Grassmann manifold. -/
def tGrassmann (x : Matrix (Fin n) (Fin p) ℝ) : Submodule ℝ (Matrix (Fin n) (Fin p) ℝ) where
  carrier := {η | Stiefel.IsHorizontal x η}
  add_mem' := by
    intro a b ha hb
    simp only [Set.mem_ofPred_eq, Stiefel.IsHorizontal] at *
    rw [Matrix.mul_add, ha, hb, add_zero]
  zero_mem' := by simp [Stiefel.IsHorizontal]
  smul_mem' := by
    intro c a ha
    simp only [Set.mem_ofPred_eq, Stiefel.IsHorizontal] at *
    rw [Matrix.mul_smul, ha, smul_zero]

/-- Symmetric matrices. -/
def tSpd (n : ℕ) : Submodule ℝ (Matrix (Fin n) (Fin n) ℝ) where
  carrier := {η | ηᵀ = η}
  add_mem' := by
    intro a b ha hb
    simp only [Set.mem_ofPred_eq] at *
    rw [transpose_add, ha, hb]
  zero_mem' := by simp
  smul_mem' := by
    intro c a ha
    simp only [Set.mem_ofPred_eq] at *
    rw [transpose_smul, ha]

theorem tri_cast (p : ℕ) : ((p * (p + 1) / 2 : ℕ) : ℤ) = (p : ℤ) * (p + 1) / 2 := by push_cast; rfl

/-- **C78 (Stiefel).** -/
theorem C78_stiefel (hp : p ≤ n) {x : Matrix (Fin n) (Fin p) ℝ} {Q : Matrix (Fin n) (Fin n) ℝ} {R : Matrix (Fin n) (Fin p) ℝ} (h : IsQR x Q R) (hx : xᵀ * x = 1) :
    (Module.finrank ℝ (tStiefel x) : ℤ) = (stiefel n p).intr ∧ ∀ η, ((stiefelIntr Q R η).length : ℤ) = (stiefel n p).len := by
  have hcast : ((n * p - p * (p + 1) / 2 : ℕ) : ℤ) = (n : ℤ) * p - p * (p + 1) / 2 := by
    rw [Nat.cast_sub, tri_cast, Nat.cast_mul]
    refine (Nat.div_le_iff_le_mul_add_pred (by norm_num)).mpr ?_
    have h1 : p * p ≤ n * p := Nat.mul_le_mul_right p hp
    have h2 : p ≤ p * p := Nat.le_mul_self p
    nlinarith
  refine ⟨?_, fun η => by rw [C37_stiefel_dim hp, hcast, stiefel]⟩
  rw [finrank_of_coords (tStiefel x) (n * p - p * (p + 1) / 2) frob (stiefelIntr Q R) (stiefelExtr (fun _ => 0) Q R) (fun η _ => C37_stiefel_dim hp Q R η)
    (fun c hc => C37_stiefel_intr_extr hp h hx c hc _) (fun η hη => C37_stiefel_extr_intr hp h hx hη _) (fun u hu v hv => C37_stiefel_isometry hp h hx hu hv)
    (fun u u' v => frob_add_left _ _ _) fun c u v => frob_smul_left _ _ _, hcast, stiefel]

/-- **C78 (Grassmann).** -/
theorem C78_grassmann (hp : p ≤ n) {x : Matrix (Fin n) (Fin p) ℝ} {Q : Matrix (Fin n) (Fin n) ℝ} {R : Matrix (Fin n) (Fin p) ℝ} (h : IsQR x Q R) (hx : xᵀ * x = 1) :
    (Module.finrank ℝ (tGrassmann x) : ℤ) = (grassmann n p).intr ∧ ∀ η : Matrix (Fin n) (Fin p) ℝ, ((grassIntr Q η).length : ℤ) = (grassmann n p).len := by
  have hcast : (((n - p) * p : ℕ) : ℤ) = ((n : ℤ) - p) * p := by rw [Nat.cast_mul, Nat.cast_sub hp]
  refine ⟨?_, fun η => by rw [C37_grassmann_dim, hcast, grassmann]⟩
  rw [finrank_of_coords (tGrassmann x) ((n - p) * p) frob (grassIntr Q) (grassExtr (fun _ => 0) Q) (fun η _ => C37_grassmann_dim Q η)
    (fun c hc => C37_grassmann_intr_extr hp h hx c hc _) (fun η hη => C37_grassmann_extr_intr hp h hx hη _) (fun u hu v hv => C37_grassmann_isometry hp h hx hu v)
    (fun u u' v => frob_add_left _ _ _) fun c u v => frob_smul_left _ _ _, hcast, grassmann]

/-- **C78 (SPD).** -/
theorem C78_spd (n : ℕ) : (Module.finrank ℝ (tSpd n) : ℤ) = (spd n).intr ∧
    ∀ L η : Matrix (Fin n) (Fin n) ℝ, ((spdIntrAF L η).length : ℤ) = (spd n).len ∧ ((spdIntrEuc η).length : ℤ) = (spd n).len := by
  obtain ⟨h1, h2, h3⟩ := C37_spd_euc (n := n) fun _ => 0
  refine ⟨?_, fun L η => by rw [(C37_spd_dim L η).1, (C37_spd_dim L η).2, tri_cast, spd]; exact ⟨rfl, rfl⟩⟩
  rw [finrank_of_coords (tSpd n) (n * (n + 1) / 2) frob spdIntrEuc (spdExtrEuc fun _ => 0) (fun η _ => (C37_spd_dim η η).2) (fun c hc => h2 c hc) (fun η hη => h1 η hη)
    (fun u hu v hv => h3 u v hu hv) (fun u u' v => frob_add_left _ _ _) fun c u v => frob_smul_left _ _ _, tri_cast, spd]

/-- Horizontal space of the two-factor fixed-rank manifold. -/
def tQ2F (x : Q2F.Pair ℝ (Fin m) (Fin n) (Fin r)) : Submodule ℝ (Matrix (Fin m) (Fin r) ℝ × Matrix (Fin n) (Fin r) ℝ) where
  carrier := {v | Q2F.IsHor x ⟨v.1, v.2⟩}
  add_mem' := by
    intro a b ha hb
    simp only [Set.mem_ofPred_eq, Q2F.IsHor, Prod.fst_add, Prod.snd_add, conjTranspose_add, Matrix.mul_add, Matrix.add_mul] at *
    rw [ha, hb]
  zero_mem' := by simp [Q2F.IsHor]
  smul_mem' := by
    intro c a ha
    simp only [Set.mem_ofPred_eq, Q2F.IsHor, Prod.smul_fst, Prod.smul_snd, conjTranspose_smul, Matrix.mul_smul, Matrix.smul_mul, star_trivial] at *
    rw [ha]

/-- The dimension of the two-factor quotient. -/
theorem finrank_q2f (hm : r ≤ m) (hn : r ≤ n) {x : Q2F.Pair ℝ (Fin m) (Fin n) (Fin r)} {h : Q2F.Hou m n r} (hx : Q2F.IsPt x) (hh : Q2F.IsHou x h) :
    Module.finrank ℝ (tQ2F x) = (m + n - r) * r := by
  refine finrank_of_coords (tQ2F x) ((m + n - r) * r) (fun u v => Q2F.metric x ⟨u.1, u.2⟩ ⟨v.1, v.2⟩) (fun v => Q2F.intr h.QG h.RG h.QH h.RH ⟨v.1, v.2⟩)
    (fun c => ((Q2F.extr (fun _ => 0) (fun _ => 0) h.QG h.RG h.QH h.RH c).G, (Q2F.extr (fun _ => 0) (fun _ => 0) h.QG h.RG h.QH h.RH c).H))
    (fun v _ => Q2F.C37_two_factor_dim hm hn h _) (fun c hc => Q2F.C37_two_factor_intr_extr hm hn hx hh _ _ c hc) (fun v hv => ?_)
    (fun u _ v _ => Q2F.C37_two_factor_isometry hm hn hh _ _) (fun u u' v => ?_) fun c u v => ?_
  · have := (Q2F.C37_two_factor_extr_intr hm hn hx hh (fun _ => 0) (fun _ => 0) ⟨v.1, v.2⟩).1 hv
    rw [this]
  · simp only [Q2F.metric, CMat.ip_real, Prod.fst_add, Prod.snd_add, conjTranspose_eq_transpose_of_trivial, transpose_add, Matrix.mul_add, Matrix.add_mul, frob_add_left, frob_add_right]
    ring
  · simp only [Q2F.metric, CMat.ip_real, Prod.smul_fst, Prod.smul_snd, conjTranspose_eq_transpose_of_trivial, transpose_smul, Matrix.mul_smul, Matrix.smul_mul, frob_smul_left, frob_smul_right]
    ring

/-- **C78 (two-factor fixed rank, negation).** The length of the intrinsic vectors is the dimension, but the dimension reported by `GetIntrDim` is too large by `r²`. -/
theorem C78_two_factor_fails (hm : r ≤ m) (hn : r ≤ n) (hr : 0 < r) {x : Q2F.Pair ℝ (Fin m) (Fin n) (Fin r)} {h : Q2F.Hou m n r} (hx : Q2F.IsPt x) (hh : Q2F.IsHou x h) :
    (∀ η, ((Q2F.intr h.QG h.RG h.QH h.RH η).length : ℤ) = (fixedRankQ2F m n r).len) ∧ (Module.finrank ℝ (tQ2F x) : ℤ) = (fixedRankQ2F m n r).len ∧
    (fixedRankQ2F m n r).intr = Module.finrank ℝ (tQ2F x) + (r : ℤ) ^ 2 ∧ (fixedRankQ2F m n r).intr ≠ Module.finrank ℝ (tQ2F x) := by
  have hcast : (((m + n - r) * r : ℕ) : ℤ) = ((m : ℤ) + n - r) * r := by
    rw [Nat.cast_mul, Nat.cast_sub (by omega), Nat.cast_add]
  have e : (fixedRankQ2F m n r).intr = ((m : ℤ) + n - r) * r + (r : ℤ) ^ 2 := by
    simp [fixedRankQ2F, multi, euclidean]
    ring
  refine ⟨fun η => ?_, ?_, ?_, ?_⟩
  · rw [Q2F.C37_two_factor_dim hm hn h, hcast, fixedRankQ2F]
  · rw [finrank_q2f hm hn hx hh, hcast, fixedRankQ2F]
  · rw [finrank_q2f hm hn hx hh, hcast, e]
  · rw [finrank_q2f hm hn hx hh, hcast, e]
    have : 0 < (r : ℤ) ^ 2 := by positivity
    omega

/-- Horizontal space of a metric of the symmetric fixed-rank manifold. -/
def tSym (g : Matrix (Fin n) (Fin p) ℝ → Matrix (Fin n) (Fin p) ℝ → Matrix (Fin n) (Fin p) ℝ → ℝ) (x : Matrix (Fin n) (Fin p) ℝ) (ha : ∀ u v v', g x u (v + v') = g x u v + g x u v')
    (hs : ∀ (c : ℝ) u v, g x u (c • v) = c * g x u v) : Submodule ℝ (Matrix (Fin n) (Fin p) ℝ) where
  carrier := {η | SymFR.IsHor g x η}
  add_mem' := by
    intro a b h1 h2 Ω hΩ
    rw [ha, h1 Ω hΩ, h2 Ω hΩ, add_zero]
  zero_mem' := by
    intro Ω hΩ
    have := hs 0 (x * Ω) 0
    rwa [zero_smul, zero_mul] at this
  smul_mem' := by
    intro c a h1 Ω hΩ
    rw [hs, h1 Ω hΩ, mul_zero]

theorem metricH_add (x u v v' : Matrix (Fin n) (Fin p) ℝ) : SymFR.metricH x u (v + v') = SymFR.metricH x u v + SymFR.metricH x u v' := by
  simp only [SymFR.metricH, CMat.ip_real, Matrix.mul_add, frob_add_right]
theorem metricH_smul (x : Matrix (Fin n) (Fin p) ℝ) (c : ℝ) (u v : Matrix (Fin n) (Fin p) ℝ) : SymFR.metricH x u (c • v) = c * SymFR.metricH x u v := by
  simp only [SymFR.metricH, CMat.ip_real, Matrix.mul_smul, frob_smul_right]
theorem metricQ_add (x u v v' : Matrix (Fin n) (Fin p) ℝ) : SymFR.metricQ x u (v + v') = SymFR.metricQ x u v + SymFR.metricQ x u v' := by
  simp only [SymFR.metricQ, CMat.ip_real, frob_add_right]
theorem metricQ_smul (x : Matrix (Fin n) (Fin p) ℝ) (c : ℝ) (u v : Matrix (Fin n) (Fin p) ℝ) : SymFR.metricQ x u (c • v) = c * SymFR.metricQ x u v := by
  simp only [SymFR.metricQ, CMat.ip_real, frob_smul_right]

theorem sym_cast (hp : p ≤ n) : ((n * p - p * (p - 1) / 2 : ℕ) : ℤ) = (n : ℤ) * p - p * (p - 1) / 2 := by
  have e : ((p * (p - 1) / 2 : ℕ) : ℤ) = (p : ℤ) * (p - 1) / 2 := by
    cases p with
    | zero => simp
    | succ k => push_cast; simp
  rw [Nat.cast_sub, e, Nat.cast_mul]
  refine (Nat.div_le_iff_le_mul_add_pred (by norm_num)).mpr ?_
  have : p * (p - 1) ≤ n * p := by nlinarith [Nat.sub_le p 1]
  omega

/-- **C78 (symmetric fixed rank).** All metrics. -/
theorem C78_sym (hp : p ≤ n) {x : Matrix (Fin n) (Fin p) ℝ} {h : SymFR.Hou1 n p} (hx : SymFR.IsPt x) (hh : SymFR.IsHou1 x h) :
    (Module.finrank ℝ (tSym SymFR.metricH x (metricH_add x) (metricH_smul x)) : ℤ) = (symFixedRankQ n p).intr ∧
    (∀ η, ((SymFR.intrE h η).length : ℤ) = (symFixedRankQ n p).len ∧ ((SymFR.intrH h η).length : ℤ) = (symFixedRankQ n p).len) ∧
    ∀ QB RB, SymFR.IsBase h QB RB → (Module.finrank ℝ (tSym SymFR.metricQ x (metricQ_add x) (metricQ_smul x)) : ℤ) = (symFixedRankQ n p).intr ∧
      ∀ η, ((SymFR.intrQ h RB η).1.length : ℤ) = (symFixedRankQ n p).len := by
  refine ⟨?_, fun η => ?_, fun QB RB hB => ⟨?_, fun η => ?_⟩⟩
  · rw [finrank_of_coords (tSym SymFR.metricH x (metricH_add x) (metricH_smul x)) (n * p - p * (p - 1) / 2) (SymFR.metricH x) (SymFR.intrH h) (SymFR.extrH (fun _ => 0) h)
      (fun η _ => (SymFR.C37_sym_dim hp h η).2) (fun c hc => (SymFR.C37_sym_intr_extr hp hx hh _ c hc).2.2) (fun η hη => (SymFR.C37_sym_extr_intr hp hx hh _ hη).2)
      (fun u hu v hv => SymFR.C37_sym_isometry_hgz hp hx hh hu hv) (fun u u' v => by simp only [SymFR.metricH, CMat.ip_real, conjTranspose_add, Matrix.add_mul, frob_add_right])
      fun c u v => by simp only [SymFR.metricH, CMat.ip_real, conjTranspose_smul, star_trivial, Matrix.smul_mul, frob_smul_right], sym_cast hp, symFixedRankQ]
  · rw [(SymFR.C37_sym_dim hp h η).1, (SymFR.C37_sym_dim hp h η).2, sym_cast hp, symFixedRankQ]; exact ⟨rfl, rfl⟩
  · rw [finrank_of_coords (tSym SymFR.metricQ x (metricQ_add x) (metricQ_smul x)) (n * p - p * (p - 1) / 2) (SymFR.metricQ x) (fun η => (SymFR.intrQ h RB η).1)
      (fun c => (SymFR.extrQ (fun _ => 0) h (some (Q2F.lowL RB)) c).getD 0)
      (fun η _ => (SymFR.C37_sym_qeuc_dim hp h RB η).2) (fun c hc => ?_) (fun η hη => ?_)
      (fun u hu v hv => SymFR.C37_sym_qeuc_isometry hp hx hh hB hu hv) (fun u u' v => by simp only [SymFR.metricQ, CMat.ip_real, frob_add_left])
      fun c u v => by simp only [SymFR.metricQ, CMat.ip_real, frob_smul_left], sym_cast hp, symFixedRankQ]
    · obtain ⟨η, h1, h2, h3⟩ := SymFR.C37_sym_qeuc_intr_extr hp hx hh hB (fun _ => 0) c hc
      rw [h1]
      exact ⟨h3, h2⟩
    · have := SymFR.C37_sym_qeuc_extr_intr hp hx hh hB (fun _ => 0) hη
      change (SymFR.extrQ (fun _ => 0) h (some (SymFR.intrQ h RB η).2) (SymFR.intrQ h RB η).1).getD 0 = η
      rw [this, Option.getD_some]
  · rw [(SymFR.C37_sym_qeuc_dim hp h RB η).2, sym_cast hp, symFixedRankQ]

/-- The matrices of tangent vectors of the embedded fixed-rank manifold. -/
def tFixed (x : FixedRank.Pt (Fin m) (Fin n) (Fin r)) : Matrix (Fin m) (Fin r) ℝ × Matrix (Fin r) (Fin r) ℝ × Matrix (Fin n) (Fin r) ℝ →ₗ[ℝ] Matrix (Fin m) (Fin n) ℝ where
  toFun v := FixedRank.assemble x v.1 v.2.1 v.2.2
  map_add' := by
    intro a b
    simp only [FixedRank.assemble, Prod.fst_add, Prod.snd_add, transpose_add, Matrix.mul_add, Matrix.add_mul]
    abel
  map_smul' := by
    intro c a
    simp only [FixedRank.assemble, Prod.smul_fst, Prod.smul_snd, transpose_smul, Matrix.mul_smul, Matrix.smul_mul, smul_add, RingHom.id_apply]

theorem finrank_sprod {E F : Type*} [AddCommGroup E] [Module ℝ E] [AddCommGroup F] [Module ℝ F] [Module.Finite ℝ E] [Module.Finite ℝ F] (A : Submodule ℝ E) (B : Submodule ℝ F) :
    Module.finrank ℝ (A.prod B) = Module.finrank ℝ A + Module.finrank ℝ B := by
  let e : (A.prod B) ≃ₗ[ℝ] (A × B) :=
    { toFun := fun v => (⟨v.1.1, v.2.1⟩, ⟨v.1.2, v.2.2⟩)
      invFun := fun v => ⟨(v.1.1, v.2.1), v.1.2, v.2.2⟩
      map_add' := fun _ _ => rfl
      map_smul' := fun _ _ => rfl
      left_inv := fun _ => rfl
      right_inv := fun _ => rfl }
  rw [e.finrank_eq, Module.finrank_prod]

/-- **C78 (embedded fixed rank).** The tangent space is the set of matrices `U dD Vᵀ + dU D Vᵀ + U D dVᵀ` with `Uᵀ dU = 0`, `Vᵀ dV = 0`. -/
theorem C78_fixed_rank (hm : r ≤ m) (hn : r ≤ n) {x : FixedRank.Pt (Fin m) (Fin n) (Fin r)} (hx : FixedRank.IsPt x) {QU : Matrix (Fin m) (Fin m) ℝ} {RU : Matrix (Fin m) (Fin r) ℝ}
    {QV : Matrix (Fin n) (Fin n) ℝ} {RV : Matrix (Fin n) (Fin r) ℝ} (hU : IsQR x.U QU RU) (hV : IsQR x.V QV RV) :
    (Module.finrank ℝ (((tGrassmann x.U).prod ((⊤ : Submodule ℝ (Matrix (Fin r) (Fin r) ℝ)).prod (tGrassmann x.V))).map (tFixed x)) : ℤ) = (fixedRankE m n r).intr := by
  set S := (tGrassmann x.U).prod ((⊤ : Submodule ℝ (Matrix (Fin r) (Fin r) ℝ)).prod (tGrassmann x.V)) with hS
  have hinj : Function.Injective ((tFixed x).domRestrict S) := by
    intro a b hab
    apply Subtype.ext
    have ta : FixedRank.IsTan x ⟨tFixed x a.1, a.1.1, a.1.2.1, a.1.2.2⟩ := ⟨a.2.1, a.2.2.2, rfl⟩
    have tb : FixedRank.IsTan x ⟨tFixed x b.1, b.1.1, b.1.2.1, b.1.2.2⟩ := ⟨b.2.1, b.2.2.2, rfl⟩
    have h1 := (FixedRank.C45_projection hx (tFixed x a.1)).2.2 _ ta
    have h2 := (FixedRank.C45_projection hx (tFixed x b.1)).2.2 _ tb
    have hab' : tFixed x a.1 = tFixed x b.1 := hab
    simp only at h1 h2
    rw [hab'] at h1
    have := h1.symm.trans h2
    rw [FixedRank.Vec.mk.injEq] at this
    exact Prod.ext this.2.1 (Prod.ext this.2.2.1 this.2.2.2)
  have e1 : Module.finrank ℝ (S.map (tFixed x)) = Module.finrank ℝ S := by
    rw [← LinearMap.range_domRestrict]
    exact LinearMap.finrank_range_of_inj hinj
  have e2 : Module.finrank ℝ S = Module.finrank ℝ (tGrassmann x.U) + (Module.finrank ℝ (⊤ : Submodule ℝ (Matrix (Fin r) (Fin r) ℝ)) + Module.finrank ℝ (tGrassmann x.V)) := by
    rw [hS, finrank_sprod, finrank_sprod]
  rw [e1, e2]
  push_cast
  rw [(C78_grassmann hm hU hx.U).1, (C78_grassmann hn hV hx.V).1, finrank_top, Module.finrank_matrix]
  simp [grassmann, fixedRankE]
  ring

/-- **C78 (Euclidean space, real and complex).** Arrays of size `r × c × n`. -/
theorem C78_euclidean (r c n : ℕ) : (Module.finrank ℝ (Fin n → Matrix (Fin r) (Fin c) ℝ) : ℤ) = (euclidean r c n false).intr ∧
    (Module.finrank ℝ (Fin n → Matrix (Fin r) (Fin c) ℂ) : ℤ) = (euclidean r c n true).intr := by
  constructor
  · rw [Module.finrank_pi_fintype]
    simp [Module.finrank_matrix, euclidean]
    ring
  · rw [Module.finrank_pi_fintype]
    simp [Module.finrank_matrix, euclidean]
    ring

theorem multi_eq (L : List (ℤ × Dims)) : (multi L).intr = (L.map fun q => q.1 * q.2.intr).sum ∧ (multi L).len = (L.map fun q => q.1 * q.2.len).sum := by
  have h : ∀ (L : List (ℤ × Dims)) (a : Dims),
      (L.foldl (fun a q => (⟨a.intr + q.1 * q.2.intr, a.extr + q.1 * q.2.extr, a.len + q.1 * q.2.len⟩ : Dims)) a).intr = a.intr + (L.map fun q => q.1 * q.2.intr).sum ∧
      (L.foldl (fun a q => (⟨a.intr + q.1 * q.2.intr, a.extr + q.1 * q.2.extr, a.len + q.1 * q.2.len⟩ : Dims)) a).len = a.len + (L.map fun q => q.1 * q.2.len).sum := by
    intro L
    induction L with
    | nil => intro a; simp
    | cons q L ih =>
      intro a
      rw [List.foldl_cons, (ih _).1, (ih _).2]
      simp only [List.map_cons, List.sum_cons]
      constructor <;> ring
  have := h L ⟨0, 0, 0⟩
  simpa [multi] using this

/-- **C78 (products).** Tangent spaces of a product of `k` types with powers `pw`; if every type reports the dimension of its tangent spaces, so does the product. -/
theorem C78_product {k : ℕ} (pw : Fin k → ℕ) (D : Fin k → Dims) {E : Fin k → Type} [∀ i, AddCommGroup (E i)] [∀ i, Module ℝ (E i)] [∀ i, Module.Finite ℝ (E i)]
    (T : ∀ i, Fin (pw i) → Submodule ℝ (E i)) (hT : ∀ i j, (Module.finrank ℝ (T i j) : ℤ) = (D i).intr) :
    (Module.finrank ℝ (∀ i, ∀ j, T i j) : ℤ) = (multi (List.ofFn fun i => ((pw i : ℤ), D i))).intr := by
  rw [(multi_eq _).1, List.map_ofFn, List.sum_ofFn, Module.finrank_pi_fintype, Nat.cast_sum]
  refine Finset.sum_congr rfl fun i _ => ?_
  rw [Module.finrank_pi_fintype, Nat.cast_sum]
  simp [hT]

/-! ## Concrete cases -/

/-- The unit circle as a Stiefel manifold has dimension one. -/
example : (stiefel 2 1).intr = 1 := by decide

/-- Three copies of a Grassmann manifold and two of an SPD manifold. -/
example : (multi [(3, grassmann 5 2), (2, spd 3)]).intr = 30 := by decide

/-- The two-factor manifold of `3 × 2` matrices of rank one reports five instead of four. -/
example : (fixedRankQ2F 3 2 1).intr = 5 ∧ (fixedRankQ2F 3 2 1).len = 4 := by decide

/-- The theorem for Stiefel at the first two columns of the identity: dimension three. -/
example : Module.finrank ℝ (tStiefel exX) = 3 := by
  have h1 : IsQR exX 1 exX := ⟨by simp, fun i j => by fin_cases i <;> fin_cases j <;> simp [exX], by simp⟩
  have h2 : exXᵀ * exX = 1 := by ext i j; fin_cases i <;> fin_cases j <;> simp [exX, mul_apply, Fin.sum_univ_three]
  have := (C78_stiefel (by norm_num) h1 h2).1
  simp only [stiefel] at this
  norm_num at this
  exact_mod_cast this

/-- The theorem for the two-factor manifold at a `1 × 1` matrix: dimension one, reported two. -/
example : Module.finrank ℝ (tQ2F (Q2F.one 2 3)) = 1 ∧ (fixedRankQ2F 1 1 1).intr = 2 :=
  ⟨finrank_q2f le_rfl le_rfl (Q2F.one_pt (by norm_num) (by norm_num)) (Q2F.one_hou 2 3), by decide⟩

/-- The theorem for symmetric fixed-rank matrices at a triangular matrix. -/
example : Module.finrank ℝ (tSym SymFR.metricH SymFR.tri2 (metricH_add _) (metricH_smul _)) = 3 := by
  have := (C78_sym (by norm_num) SymFR.pt_tri SymFR.hou_tri).1
  simp only [symFixedRankQ] at this
  norm_num at this
  exact_mod_cast this

end Verif.Dims
