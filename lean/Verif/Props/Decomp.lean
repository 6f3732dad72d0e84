import Mathlib.Data.Matrix.Basic
import Mathlib.LinearAlgebra.Matrix.NonsingularInverse
import Mathlib.Tactic.LinearCombination
import Mathlib.Tactic.NormNum
import Mathlib.Tactic.FinCases
import Verif.Elem.Decomp
import Verif.Elem.DenseLemmas

/-!
# C105: decompositions attached to an element
-/

open Matrix Verif.Elem Verif.Dense

namespace Verif.Decomp

variable {𝕜 : Type} [RCLike 𝕜]

/-! ## Specification -/

/-- `Q R = A` with orthonormal columns and an upper trapezoid `R`. -/
structure ThinQR {m n k : Nat} (A : Matrix (Fin m) (Fin n) 𝕜) (Q : Matrix (Fin m) (Fin k) 𝕜) (R : Matrix (Fin k) (Fin n) 𝕜) : Prop where
  orth : Qᴴ * Q = 1
  prod : Q * R = A
  tri : ∀ i j, j.1 < i.1 → R i j = 0

/-- `U diag(s) V^H = A` with orthonormal columns and rows, nonnegative values. -/
structure ThinSVD {m n k : Nat} (A : Matrix (Fin m) (Fin n) 𝕜) (U : Matrix (Fin m) (Fin k) 𝕜) (s : Fin k → 𝕜) (Vt : Matrix (Fin k) (Fin n) 𝕜) : Prop where
  left : Uᴴ * U = 1
  right : Vt * Vtᴴ = 1
  real : ∀ i, ∃ t : ℝ, 0 ≤ t ∧ s i = (t : 𝕜)
  prod : U * diagonal s * Vt = A

/-! ## Lemmas -/

omit [RCLike 𝕜] in
theorem copyQ_at {m k : Nat} (junk hhr : Nat → 𝕜) {p : Nat} (h : p < m * k) : copyQ m k junk hhr p = hhr p := by
  refine writeAll_of_mem _ _ _ _ (mem_forN.mpr ⟨p, h, by simp⟩) ?_
  intro y hy
  obtain ⟨i, _, hi⟩ := mem_forN.mp hy
  simp only [List.mem_singleton, Prod.mk.injEq] at hi
  rw [hi.2, hi.1]

theorem copyR_at {m n k : Nat} (junk hhr : Nat → 𝕜) {i j : Nat} (hj : j < k) (hi : i < n) :
    copyR m n k junk hhr (j + i * k) = if j ≤ i then hhr (j + i * m) else 0 := by
  refine writeAll_of_mem _ _ _ _ (mem_forN.mpr ⟨i, hi, mem_forN.mpr ⟨j, hj, by simp⟩⟩) ?_
  intro y hy
  obtain ⟨i', _, h1⟩ := mem_forN.mp hy
  obtain ⟨j', hj', h2⟩ := mem_forN.mp h1
  simp only [List.mem_singleton, Prod.mk.injEq] at h2
  obtain ⟨rfl, rfl⟩ := colMajor_inj hj hj' h2.1
  exact h2.2

theorem fullQ_congr {m k : Nat} {F G : House 𝕜} (ht : F.tau = G.tau) (h : ∀ p < m * k, F.hhr p = G.hhr p) : fullQ m k F = fullQ m k G := by
  unfold fullQ
  congr 1
  refine List.map_congr_left fun i hi => ?_
  have hv : hvec m i F.hhr = hvec m i G.hhr := by
    funext r
    simp only [hvec]
    split
    · rfl
    · split
      · rfl
      · exact h _ (colMajor_lt r.2 (List.mem_range.mp hi))
  simp only [reflector, ht, hv]

theorem prod_unitary {m : Nat} {l : List (Matrix (Fin m) (Fin m) 𝕜)} (h : ∀ H ∈ l, Hᴴ * H = 1) : l.prodᴴ * l.prod = 1 := by
  induction l with
  | nil => simp
  | cons H l ih =>
    rw [List.prod_cons, conjTranspose_mul, Matrix.mul_assoc, ← Matrix.mul_assoc Hᴴ, h H (by simp), Matrix.one_mul]
    exact ih fun K hK => h K (by simp [hK])

theorem fullQ_unitary {m n : Nat} {A : Nat → 𝕜} {F : House 𝕜} (h : IsQR m n A F) : (fullQ m (min m n) F)ᴴ * fullQ m (min m n) F = 1 := by
  refine prod_unitary fun H hH => ?_
  obtain ⟨i, hi, rfl⟩ := List.mem_map.mp hH
  exact h.unitary i (List.mem_range.mp hi)

theorem fullQ_unitary' {m n : Nat} {A : Nat → 𝕜} {F : House 𝕜} (h : IsQR m n A F) : fullQ m (min m n) F * (fullQ m (min m n) F)ᴴ = 1 :=
  mul_eq_one_comm.mp (fullQ_unitary h)

/-- The stored fields are the outputs of the routines for the current data. -/
structure Inv (L : Lapack 𝕜) (cplx : Bool) (x : Elt 𝕜) : Prop where
  house : ∀ F, x.house = some F → F = L.geqp3 x.m x.n x.get
  qr : ∀ Q R, x.qr = some (Q, R) → ∃ jq jr, Q = L.orgqr x.m (min x.m x.n) (min x.m x.n) (copyQ x.m (min x.m x.n) jq (L.geqp3 x.m x.n x.get).hhr) (L.geqp3 x.m x.n x.get).tau ∧
    R = copyR x.m x.n (min x.m x.n) jr (L.geqp3 x.m x.n x.get).hhr
  svd : ∀ U s V, x.svd = some (U, s, V) → U = (L.gesvd x.m x.n x.get).1 ∧ s = storedS (min x.m x.n) (L.gesvd x.m x.n x.get).2.1 cplx ∧ V = (L.gesvd x.m x.n x.get).2.2

theorem hhrDecom_house (L : Lapack 𝕜) {cplx : Bool} {x : Elt 𝕜} (h : Inv L cplx x) :
    hhrDecom L x = { x with house := some (L.geqp3 x.m x.n x.get) } := by
  unfold hhrDecom
  split
  · next F hF =>
    rw [← h.house F hF]
    cases x
    simp_all
  · rfl

theorem Inv.use {L : Lapack 𝕜} {cplx : Bool} {x : Elt 𝕜} (h : Inv L cplx x) (u : Use 𝕜) : Inv L cplx (x.use L cplx u) := by
  cases u with
  | hhr =>
    simp only [Elt.use, hhrDecom_house L h]
    exact ⟨fun F hF => by simpa using hF.symm, h.qr, h.svd⟩
  | qr jq jr =>
    simp only [Elt.use, qrDecom]
    split
    · exact h
    · rw [hhrDecom_house L h]
      refine ⟨fun F hF => by simpa using hF.symm, ?_, h.svd⟩
      intro Q R hQ
      simp only [Option.some.injEq, Prod.mk.injEq] at hQ
      exact ⟨jq, jr, hQ.1.symm, hQ.2.symm⟩
  | svd =>
    simp only [Elt.use, svdDecom]
    split
    · exact h
    · refine ⟨h.house, h.qr, ?_⟩
      intro U s V hU
      simp only [Option.some.injEq, Prod.mk.injEq] at hU
      exact ⟨hU.1.symm, hU.2.1.symm, hU.2.2.symm⟩
  | write a => exact ⟨fun _ h => by simp [Elt.use] at h, fun _ _ h => by simp [Elt.use] at h, fun _ _ _ h => by simp [Elt.use] at h⟩

theorem Inv.uses {L : Lapack 𝕜} {cplx : Bool} : ∀ (l : List (Use 𝕜)) {x : Elt 𝕜}, Inv L cplx x → Inv L cplx (l.foldl (Elt.use L cplx) x)
  | [], _, h => h
  | u :: l, _, h => Inv.uses l (h.use u)

theorem Inv.new (L : Lapack 𝕜) (cplx : Bool) (m n : Nat) (a : Nat → 𝕜) : Inv L cplx (Elt.new m n a) :=
  ⟨fun _ h => by simp [Elt.new] at h, fun _ _ h => by simp [Elt.new] at h, fun _ _ _ h => by simp [Elt.new] at h⟩

theorem thin_of_contract {m n : Nat} {A : Nat → 𝕜} {F : House 𝕜} (h : IsQR m n A F) {out jq jr : Nat → 𝕜}
    (ho : IsOrg m (min m n) (min m n) ⟨copyQ m (min m n) jq F.hhr, F.tau⟩ out) :
    ThinQR (view m n m A) (view m (min m n) m out) (view (min m n) n (min m n) (copyR m n (min m n) jr F.hhr)) := by
  have hk : min m n ≤ m := Nat.min_le_left _ _
  have hQ : fullQ m (min m n) ⟨copyQ m (min m n) jq F.hhr, F.tau⟩ = fullQ m (min m n) F := fullQ_congr rfl fun p hp => copyQ_at _ _ hp
  have hv : view m (min m n) m out = (fullQ m (min m n) F).submatrix id (Fin.castLE hk) := by
    ext r c
    rw [submatrix_apply, id, ← hQ, ← ho r (Fin.castLE hk c) c.2]
    rfl
  have hR : ∀ i j, view (min m n) n (min m n) (copyR m n (min m n) jr F.hhr) i j = upper m n F.hhr (Fin.castLE hk i) j := by
    intro i j
    simp only [view, upper, of_apply, Fin.val_castLE]
    exact copyR_at _ _ i.2 j.2
  refine ⟨?_, ?_, ?_⟩
  · rw [hv]
    ext i j
    have := congrFun (congrFun (fullQ_unitary h) (Fin.castLE hk i)) (Fin.castLE hk j)
    rw [mul_apply] at this ⊢
    simp only [conjTranspose_apply, submatrix_apply, id] at this ⊢
    rw [this, one_apply, one_apply]
    simp [Fin.ext_iff]
  · rw [← h.factor, hv]
    ext r c
    rw [mul_apply, mul_apply]
    have : ∀ i : Fin m, min m n ≤ i.1 → upper m n F.hhr i c = 0 := by
      intro i hi
      simp only [upper, of_apply]
      rw [if_neg]
      have := i.2
      have := c.2
      omega
    simp only [submatrix_apply, id, hR]
    refine Finset.sum_nbij' (s := Finset.univ) (t := Finset.univ.filter fun i : Fin m => i.1 < min m n) (i := Fin.castLE hk) (g := fun i => fullQ m (min m n) F r i * upper m n F.hhr i c)
      (j := fun i => if hi : i.1 < min m n then ⟨i.1, hi⟩ else ⟨0, by have := c.2; have := i.2; omega⟩) ?_ ?_ ?_ ?_ ?_ |>.trans ?_
    · intro i _
      rw [Finset.mem_filter]
      exact ⟨Finset.mem_univ _, i.2⟩
    · intro i _
      exact Finset.mem_univ _
    · intro i _
      have hi : (Fin.castLE hk i).1 < min m n := i.2
      rw [dif_pos hi]
      rfl
    · intro i hi
      have hi' : i.1 < min m n := (Finset.mem_filter.mp hi).2
      rw [dif_pos hi']
      rfl
    · intro i _
      rfl
    · refine Finset.sum_subset (Finset.filter_subset _ _) fun i _ hi => ?_
      rw [Finset.mem_filter, not_and] at hi
      rw [this i (not_lt.mp (hi (Finset.mem_univ _))), mul_zero]
  · intro i j hij
    rw [hR, upper, of_apply, if_neg (by simpa using hij)]

/-! ## Theorems -/

/-- **C105, factors after any use**: after any sequence of decompositions and writes on an element, the fields `_Q`, `_R`, if present, are a thin decomposition of the data the element holds now. -/
theorem C105_qr (L : Lapack 𝕜) (cplx : Bool) (m n : Nat) (a : Nat → 𝕜) (l : List (Use 𝕜)) {x : Elt 𝕜} (hx : x = l.foldl (Elt.use L cplx) (Elt.new m n a))
    (h1 : IsQR x.m x.n x.get (L.geqp3 x.m x.n x.get))
    (h2 : ∀ F, IsOrg x.m (min x.m x.n) (min x.m x.n) F (L.orgqr x.m (min x.m x.n) (min x.m x.n) F.hhr F.tau))
    {Q R : Nat → 𝕜} (hQ : x.qr = some (Q, R)) :
    ThinQR (view x.m x.n x.m x.get) (view x.m (min x.m x.n) x.m Q) (view (min x.m x.n) x.n (min x.m x.n) R) := by
  have hI : Inv L cplx x := by
    rw [hx]
    exact Inv.uses l (Inv.new L cplx m n a)
  obtain ⟨jq, jr, rfl, rfl⟩ := hI.qr Q R hQ
  exact thin_of_contract h1 (h2 ⟨_, _⟩)

/-- **C105, available**: after `QRDecom` the two fields exist, the data are unchanged, and calling any decomposition again changes none of the existing fields. -/
theorem C105_qr_exists (L : Lapack 𝕜) (jq jr : Nat → 𝕜) (x : Elt 𝕜) :
    (qrDecom L jq jr x).qr.isSome ∧ (qrDecom L jq jr x).get = x.get ∧ (∀ jq' jr', qrDecom L jq' jr' (qrDecom L jq jr x) = qrDecom L jq jr x) ∧
    (∀ v, x.qr = some v → (qrDecom L jq jr x).qr = some v) := by
  have key : (qrDecom L jq jr x).qr.isSome ∧ (qrDecom L jq jr x).get = x.get := by
    unfold qrDecom
    split
    · next h => simp [h]
    · unfold hhrDecom
      split <;> simp_all
  refine ⟨key.1, key.2, ?_, ?_⟩
  · intro jq' jr'
    obtain ⟨v, hv⟩ := Option.isSome_iff_exists.mp key.1
    conv_lhs => rw [qrDecom, hv]
  · intro v hv
    rw [qrDecom, hv]
    exact hv

/-- **C105, singular values after any use**: the fields `_U`, `_S`, `_Vt` are a thin singular value decomposition of the current data; for complex elements the real values returned by LAPACK have been
converted in place without overwriting one that is still needed. -/
theorem C105_svd (L : Lapack 𝕜) (cplx : Bool) (m n : Nat) (a : Nat → 𝕜) (l : List (Use 𝕜)) {x : Elt 𝕜} (hx : x = l.foldl (Elt.use L cplx) (Elt.new m n a))
    (h : IsSVD x.m x.n x.get (L.gesvd x.m x.n x.get).1 (L.gesvd x.m x.n x.get).2.1 (L.gesvd x.m x.n x.get).2.2)
    {U s V : Nat → 𝕜} (hU : x.svd = some (U, s, V)) :
    ThinSVD (view x.m x.n x.m x.get) (view x.m (min x.m x.n) x.m U) (fun i => s i) (view (min x.m x.n) x.n (min x.m x.n) V) := by
  have hI : Inv L cplx x := by
    rw [hx]
    exact Inv.uses l (Inv.new L cplx m n a)
  obtain ⟨rfl, rfl, rfl⟩ := hI.svd U s V hU
  have hs : (fun i : Fin (min x.m x.n) => (storedS (min x.m x.n) (L.gesvd x.m x.n x.get).2.1 cplx i : 𝕜)) = fun i : Fin (min x.m x.n) => ((L.gesvd x.m x.n x.get).2.1 i : 𝕜) := by
    funext i
    unfold storedS
    split
    · have := (expand_spec (min x.m x.n) (L.gesvd x.m x.n x.get).2.1).1 i i.2
      simp only [this.1, this.2]
      simp
    · rfl
  refine ⟨h.left, h.right, ?_, ?_⟩
  · intro i
    exact ⟨_, h.nonneg i i.2, congrFun hs i⟩
  · rw [hs]
    exact h.factor

/-- **C105, the full factor**: multiplying by the stored reflectors and then by their adjoint gives back the matrix, in both orders and on both sides, and keeps inner products. `adj` is the character that belongs to
the type of the element. -/
theorem C105_apply {r c : Nat} {A : Nat → 𝕜} {F : House 𝕜} (h : IsQR r c A F) (cplx : Bool) {n : Nat} (C : Matrix (Fin r) (Fin n) 𝕜) (D : Matrix (Fin n) (Fin r) 𝕜) :
    let adj : Trans := if cplx then .C else .T
    (∃ B, hhrMtp cplx r c F .L .N r n C = some B ∧ hhrMtp cplx r c F .L adj r n B = some C ∧ Bᴴ * B = Cᴴ * C) ∧
    (∃ B, hhrMtp cplx r c F .L adj r n C = some B ∧ hhrMtp cplx r c F .L .N r n B = some C ∧ Bᴴ * B = Cᴴ * C) ∧
    (∃ B, hhrMtp cplx r c F .R .N n r D = some B ∧ hhrMtp cplx r c F .R adj n r B = some D ∧ B * Bᴴ = D * Dᴴ) ∧
    (∃ B, hhrMtp cplx r c F .R adj n r D = some B ∧ hhrMtp cplx r c F .R .N n r B = some D ∧ B * Bᴴ = D * Dᴴ) := by
  have q1 := fullQ_unitary h
  have q2 := fullQ_unitary' h
  have e1 (X : Matrix (Fin r) (Fin n) 𝕜) : (fullQ r (min r c) F)ᴴ * (fullQ r (min r c) F * X) = X := by rw [← Matrix.mul_assoc, q1, Matrix.one_mul]
  have e2 (X : Matrix (Fin r) (Fin n) 𝕜) : fullQ r (min r c) F * ((fullQ r (min r c) F)ᴴ * X) = X := by rw [← Matrix.mul_assoc, q2, Matrix.one_mul]
  have e3 (X : Matrix (Fin n) (Fin r) 𝕜) : X * (fullQ r (min r c) F) * (fullQ r (min r c) F)ᴴ = X := by rw [Matrix.mul_assoc, q2, Matrix.mul_one]
  have e4 (X : Matrix (Fin n) (Fin r) 𝕜) : X * (fullQ r (min r c) F)ᴴ * fullQ r (min r c) F = X := by rw [Matrix.mul_assoc, q1, Matrix.mul_one]
  cases cplx <;> simp [hhrMtp, ormqr, e1, e2, e3, e4, conjTranspose_mul, Matrix.mul_assoc]

/-- **C105, reduction**: the adjoint of the full factor applied to the decomposed matrix itself leaves the upper trapezoid. -/
theorem C105_reduces {r c : Nat} {A : Nat → 𝕜} {F : House 𝕜} (h : IsQR r c A F) (cplx : Bool) :
    ∃ B, hhrMtp cplx r c F .L (if cplx then .C else .T) r c (view r c r A) = some B ∧ (∀ i j, B i j = if i.1 ≤ j.1 then F.hhr (i + j * r) else 0) := by
  refine ⟨upper r c F.hhr, ?_, fun i j => rfl⟩
  have : (fullQ r (min r c) F)ᴴ * view r c r A = upper r c F.hhr := by rw [← h.factor, ← Matrix.mul_assoc, fullQ_unitary h, Matrix.one_mul]
  cases cplx <;> simp [hhrMtp, ormqr, this]

/-- **C105, wrong character**: with `"T"` on a complex element (or `"C"` on a real one) nothing is multiplied and nothing is reported: the result is the argument, whatever the reflectors. -/
theorem C105_wrong_character {r c : Nat} (F : House 𝕜) (cplx : Bool) {n : Nat} (C : Matrix (Fin r) (Fin n) 𝕜) :
    hhrMtp cplx r c F .L (if cplx then .T else .C) r n C = some C := by
  cases cplx <;> simp [hhrMtp, ormqr]

/-! ## A concrete decomposition -/

/-- The reflector that maps `(3, 4)` to `(-5, 0)`. -/
noncomputable def F34 : House ℝ := ⟨fun p => if p = 0 then -5 else 1 / 2, fun _ => 8 / 5⟩

theorem F34_refl : reflector 2 F34 0 = !![-3 / 5, -4 / 5; -4 / 5, 3 / 5] := by
  ext i j
  fin_cases i <;> fin_cases j <;> simp [reflector, F34, hvec, vecMulVec_apply] <;> norm_num

theorem F34_isQR : IsQR 2 1 (fun p => if p = 0 then (3 : ℝ) else 4) F34 where
  unitary := by
    intro i hi
    obtain rfl : i = 0 := by omega
    rw [F34_refl]
    ext i j
    fin_cases i <;> fin_cases j <;> simp [mul_apply, Fin.sum_univ_two] <;> norm_num
  factor := by
    have : fullQ 2 (min 2 1) F34 = reflector 2 F34 0 := by simp [fullQ]
    rw [this, F34_refl]
    ext i j
    fin_cases j
    fin_cases i <;> simp [mul_apply, upper, view, F34]

/-- A LAPACK that computes `orgqr` by its documentation and knows the decomposition of one matrix. -/
noncomputable def L34 : Lapack ℝ where
  geqp3 := fun _ _ _ => F34
  orgqr := fun m _ k a tau p => if h : 0 < m ∧ p / m < m then fullQ m k ⟨a, tau⟩ ⟨p % m, Nat.mod_lt _ h.1⟩ ⟨p / m, h.2⟩ else 0
  gesvd := fun _ _ _ => (fun p => if p = 0 then 3 / 5 else 4 / 5, fun _ => 5, fun _ => 1)

theorem L34_org (m n k : Nat) (F : House ℝ) : IsOrg m n k F (L34.orgqr m n k F.hhr F.tau) := by
  intro r c _
  have hm : 0 < m := r.pos
  have h1 : (r.1 + c.1 * m) / m = c.1 := by rw [Nat.add_mul_div_right _ _ hm, Nat.div_eq_of_lt r.2, zero_add]
  have h2 : (r.1 + c.1 * m) % m = r.1 := by rw [Nat.add_mul_mod_self_right, Nat.mod_eq_of_lt r.2]
  simp [L34, hm, h1, h2]

theorem L34_svd : IsSVD 2 1 (fun p => if p = 0 then (3 : ℝ) else 4) (L34.gesvd 2 1 fun p => if p = 0 then (3 : ℝ) else 4).1 (L34.gesvd 2 1 fun p => if p = 0 then (3 : ℝ) else 4).2.1
    (L34.gesvd 2 1 fun p => if p = 0 then (3 : ℝ) else 4).2.2 where
  left := by
    change (view 2 1 2 (fun p => if p = 0 then (3 / 5 : ℝ) else 4 / 5))ᴴ * view 2 1 2 (fun p => if p = 0 then (3 / 5 : ℝ) else 4 / 5) = (1 : Matrix (Fin 1) (Fin 1) ℝ)
    ext i j
    have hi : i = 0 := Subsingleton.elim _ _
    have hj : j = 0 := Subsingleton.elim _ _
    subst hi hj
    simp [mul_apply, Fin.sum_univ_two, view]
    norm_num
  right := by
    change view 1 1 1 (fun _ => (1 : ℝ)) * (view 1 1 1 (fun _ => (1 : ℝ)))ᴴ = (1 : Matrix (Fin 1) (Fin 1) ℝ)
    ext i j
    have hi : i = 0 := Subsingleton.elim _ _
    have hj : j = 0 := Subsingleton.elim _ _
    subst hi hj
    simp [mul_apply, view]
  nonneg := by simp [L34]
  factor := by
    change view 2 1 2 (fun p => if p = 0 then (3 / 5 : ℝ) else 4 / 5) * diagonal (fun _ : Fin 1 => (5 : ℝ)) * view 1 1 1 (fun _ => (1 : ℝ)) = _
    ext i j
    fin_cases j
    fin_cases i <;> simp [mul_apply, view, diagonal_apply]

/-- The hypotheses are met: an element is decomposed, overwritten with `(3, 4)` and decomposed again. -/
noncomputable def uses34 : List (Use ℝ) := [.qr (fun _ => 7) (fun _ => 7), .svd, .write (fun p => if p = 0 then 3 else 4), .qr (fun _ => 7) (fun _ => 7), .svd]

example : ∃ Q R, (uses34.foldl (Elt.use L34 false) (Elt.new 2 1 fun _ => 0)).qr = some (Q, R) ∧
    ThinQR (view 2 1 2 fun p => if p = 0 then (3 : ℝ) else 4) (view 2 1 2 Q) (view 1 1 1 R) :=
  ⟨_, _, rfl, C105_qr L34 false 2 1 (fun _ => 0) uses34 rfl F34_isQR (fun F => L34_org _ _ _ F) rfl⟩

example : ∃ U s V, (uses34.foldl (Elt.use L34 false) (Elt.new 2 1 fun _ => 0)).svd = some (U, s, V) ∧
    ThinSVD (view 2 1 2 fun p => if p = 0 then (3 : ℝ) else 4) (view 2 1 2 U) (fun i : Fin 1 => s i) (view 1 1 1 V) :=
  ⟨_, _, _, rfl, C105_svd L34 false 2 1 (fun _ => 0) uses34 rfl L34_svd rfl⟩

end Verif.Decomp
