/-
C122, C123: the Matlab interface (/repo/Problems/mexProblem.cpp).
-/
import Verif.Iface.Mex
import Mathlib.Algebra.Ring.Parity
import Mathlib.Tactic.Ring
import Mathlib.Tactic.Linarith

namespace Verif.Mex

variable {α ρ ι : Type*}

/-- The numbers fill the shape, and a complex element has an even first dimension. -/
structure Leaf.Ok (l : Leaf α) : Prop where
  len : l.data.length = l.s0 * l.s1 * l.s2
  even : l.cplx = true → Even l.s0

/-- An element as the library makes them; names are distinct because they are the keys of a map. -/
structure Elem.Ok (X : Elem α) : Prop where
  main : X.main.Ok
  fields : ∀ p ∈ X.fields, p.2.Ok
  nodup : (X.fields.map Prod.fst).Nodup

theorem toMx_rows {l : Leaf α} (h : l.Ok) :
    (if l.cplx then (if l.cplx then l.s0 / 2 else l.s0) * 2 else (if l.cplx then l.s0 / 2 else l.s0)) =
      l.s0 := by
  by_cases c : l.cplx = true
  · simp only [c, if_true]
    obtain ⟨k, hk⟩ := h.even c
    omega
  · simp [c]

theorem readMx_toMx {l : Leaf α} (h : l.Ok) (h1 : l.s2 = 1) : readMx (toMx l) = .ok l := by
  have hr := toMx_rows h
  have hl := h.len
  obtain ⟨s0, s1, s2, c, d⟩ := l
  simp only at h1 hr hl
  subst h1
  have hd : d.length = s0 * s1 := by simpa using hl
  unfold readMx toMx mxDims mxM mxN
  simp only [List.length_cons, List.length_nil, List.headD_cons, List.tail_cons, List.prod_cons,
    List.prod_nil, mul_one, if_true, hr]
  have : d.take (s0 * s1) = d := by rw [← hd]; exact List.take_length
  simp [hd, this]

theorem readMx_tensor {l : Leaf α} (h : l.Ok) (h2 : 2 ≤ l.s2) (h0 : 0 < l.s0) (h1 : 0 < l.s1) :
    readMx (toMx l) = .ub := by
  have hr := toMx_rows h
  have hl := h.len
  obtain ⟨s0, s1, s2, c, d⟩ := l
  simp only at h2 hr hl h0 h1
  have e : mxDims (if c then s0 / 2 else s0) s1 s2 = [if c then s0 / 2 else s0, s1, s2] := by
    unfold mxDims; rw [if_neg (by omega)]
  unfold readMx toMx mxM mxN
  simp only [e, List.length_cons, List.length_nil, List.headD_cons, List.tail_cons, List.prod_cons,
    List.prod_nil, mul_one]
  simp only [hr]
  have hp : 0 < s0 * s1 * s2 := by positivity
  have : d.length < s0 * (s1 * s2) * s2 := by
    rw [hl]
    nlinarith
  simp [this]

/-- Reading back what was written fails only by reading past the end. -/
theorem readMx_toMx_cases (l : Leaf α) :
    (∃ m, readMx (toMx l) = .ok m) ∨ readMx (toMx l) = .ub := by
  unfold readMx
  have e : ¬ 3 < (toMx l).dims.length := by
    unfold toMx mxDims; by_cases c : l.s2 = 1 <;> simp [c]
  simp only [if_neg e]
  by_cases c : (toMx l).data.length <
    (if (toMx l).cplx then mxM (toMx l) * 2 else mxM (toMx l)) * mxN (toMx l) *
      (if (toMx l).dims.length < 3 then 1 else (toMx l).dims.getD 2 1)
  · exact Or.inr (by rw [if_pos c])
  · exact Or.inl ⟨_, by rw [if_neg c]⟩

theorem setField_new {β : Type*} (L : List (String × β)) (n : String) (v : β)
    (h : n ∉ L.map Prod.fst) : setField L n v = L ++ [(n, v)] := by
  induction L with
  | nil => rfl
  | cons p t ih =>
    obtain ⟨m, w⟩ := p
    simp only [List.map_cons, List.mem_cons, not_or] at h
    simp only [setField, if_neg (Ne.symm h.1), ih h.2, List.cons_append]

theorem look_setField {β : Type*} (L : List (String × β)) (n m : String) (v : β) :
    look (setField L n v) m = if m = n then some v else look L m := by
  induction L with
  | nil =>
    by_cases e : m = n
    · subst e; simp [setField, look]
    · simp [setField, look, e, Ne.symm e]
  | cons p t ih =>
    obtain ⟨k, w⟩ := p
    by_cases c : k = n
    · subst c
      by_cases e : m = k
      · subst e; simp [setField, look]
      · simp [setField, look, e, Ne.symm e]
    · simp only [setField, if_neg c]
      unfold look at ih ⊢
      by_cases e : k = m
      · subst e; simp [c]
      · have e' : (k == m) = false := by simpa using e
        simp only [List.find?_cons, e']
        exact ih

theorem look_cons {β : Type*} (L : List (String × β)) (n m : String) (v : β) :
    look ((n, v) :: L) m = if m = n then some v else look L m := by
  by_cases e : m = n
  · subst e; simp [look]
  · have : (n == m) = false := by simpa using Ne.symm e
    simp [look, this, e]

theorem look_none {β : Type*} {L : List (String × β)} {n : String} :
    look L n = none ↔ n ∉ L.map Prod.fst := by
  induction L with
  | nil => simp [look]
  | cons p t ih =>
    obtain ⟨m, w⟩ := p
    rw [look_cons]
    by_cases e : n = m
    · simp [e]
    · simp only [if_neg e, ih, List.map_cons, List.mem_cons, not_or]
      exact ⟨fun h => ⟨e, h⟩, fun h => h.2⟩

theorem look_mem {β : Type*} {L : List (String × β)} {n : String} {v : β} (h : look L n = some v) :
    (n, v) ∈ L := by
  induction L with
  | nil => simp [look] at h
  | cons p t ih =>
    obtain ⟨m, w⟩ := p
    rw [look_cons] at h
    by_cases e : n = m
    · rw [if_pos e] at h
      rw [e, Option.some.inj h]; exact List.mem_cons_self
    · rw [if_neg e] at h
      exact List.mem_cons_of_mem _ (ih h)

theorem look_of_nodup {β : Type*} {L : List (String × β)} (hn : (L.map Prod.fst).Nodup)
    {p : String × β} (h : p ∈ L) : look L p.1 = some p.2 := by
  induction L with
  | nil => cases h
  | cons q t ih =>
    obtain ⟨m, w⟩ := q
    rw [look_cons]
    simp only [List.map_cons, List.nodup_cons] at hn
    rcases List.mem_cons.1 h with rfl | h
    · simp
    · have : p.1 ≠ m := fun e => hn.1 (e ▸ List.mem_map_of_mem h)
      rw [if_neg this]; exact ih hn.2 h

/-- The array under "main" of a converted element. -/
theorem look_append_main {L : List (String × Mx α)} (h : "main" ∉ L.map Prod.fst) (a : Mx α) :
    look (L ++ [("main", a)]) "main" = some a := by
  induction L with
  | nil => simp [look]
  | cons p t ih =>
    obtain ⟨m, w⟩ := p
    simp only [List.map_cons, List.mem_cons, not_or] at h
    rw [List.cons_append, look_cons, if_neg h.1, ih h.2]

theorem fromElem_ok {X : Elem α} (hn : ∀ p ∈ X.fields, p.1 ≠ "main" ∧ p.1.utf8ByteSize < 30) :
    fromElem X = .ok (X.fields.map (fun p => (p.1, toMx p.2)) ++ [("main", toMx X.main)]) := by
  unfold fromElem
  rw [if_neg (by rintro ⟨p, hp, h⟩; have := (hn p hp).2; omega)]
  congr 2
  apply List.map_congr_left
  intro p hp
  rw [if_neg (hn p hp).1]

theorem addAll_fields (m : Leaf α) (L φ : List (String × Leaf α))
    (hn : ((φ ++ L).map Prod.fst).Nodup) (hm : ∀ p ∈ L, p.1 ≠ "main")
    (hr : ∀ p ∈ L, readMx (toMx p.2) = .ok p.2) (a : Mx α) :
    addAll ⟨m, φ⟩ (L.map (fun p => (p.1, toMx p.2)) ++ [("main", a)]) = .ok ⟨m, φ ++ L⟩ := by
  induction L generalizing φ with
  | nil => simp [addAll]
  | cons p t ih =>
    simp only [List.map_cons, List.cons_append, addAll]
    rw [if_neg (hm p List.mem_cons_self), hr p List.mem_cons_self]
    have hp : p.1 ∉ φ.map Prod.fst := by
      rw [List.map_append, List.nodup_append] at hn
      intro h
      exact hn.2.2 _ h _ (by simp) rfl
    simp only [Out.bind, setField_new _ _ _ hp]
    rw [ih (φ ++ [(p.1, p.2)]) (by simpa using hn) (fun q hq => hm q (List.mem_cons_of_mem _ hq))
      (fun q hq => hr q (List.mem_cons_of_mem _ hq))]
    simp

theorem addAll_ub (m : Leaf α) (L φ : List (String × Leaf α)) (hm : ∀ p ∈ L, p.1 ≠ "main")
    (hb : ∃ p ∈ L, readMx (toMx p.2) = .ub) (S : Struct α) :
    addAll ⟨m, φ⟩ (L.map (fun p => (p.1, toMx p.2)) ++ S) = .ub := by
  induction L generalizing φ with
  | nil => obtain ⟨p, hp, _⟩ := hb; cases hp
  | cons p t ih =>
    simp only [List.map_cons, List.cons_append, addAll]
    rw [if_neg (hm p List.mem_cons_self)]
    rcases readMx_toMx_cases p.2 with ⟨l, hl⟩ | hu
    · rw [hl]
      simp only [Out.bind]
      obtain ⟨q, hq, hqb⟩ := hb
      rcases List.mem_cons.1 hq with rfl | hq
      · rw [hl] at hqb; cases hqb
      · exact ih _ (fun r hr => hm r (List.mem_cons_of_mem _ hr)) ⟨q, hq, hqb⟩
    · rw [hu]; rfl

/-- **C122.** Passing an element to Matlab and reading the structure back into any element of the
same length restores the numbers and every attached field with its shape and complexity, whatever
was attached to the receiving element before; for elements of any size with any number of attached
matrices, as long as the names are shorter than 30 bytes and none is "main". -/
theorem C122_round_trip {X Y : Elem α} (hX : X.Ok) (hY : Y.main.Ok)
    (hn : ∀ p ∈ X.fields, p.1 ≠ "main" ∧ p.1.utf8ByteSize < 30)
    (h1 : ∀ p ∈ X.fields, p.2.s2 = 1)
    (hl : Y.main.data.length = X.main.data.length) :
    ∃ S, fromElem X = .ok S ∧
      toElem Y S = .ok ⟨{ Y.main with data := X.main.data }, X.fields⟩ := by
  refine ⟨_, fromElem_ok hn, ?_⟩
  have hmain : look (X.fields.map (fun p => (p.1, toMx p.2)) ++ [("main", toMx X.main)]) "main" =
      some (toMx X.main) := by
    refine look_append_main ?_ _
    simp only [List.map_map, List.mem_map, not_exists, not_and]
    intro p hp e
    exact (hn p hp).1 e
  have hlen : Y.main.len = X.main.data.length := by rw [Leaf.len, ← hY.len, hl]
  have hd : (toMx X.main).data = X.main.data := rfl
  unfold toElem readMain
  rw [hmain]
  simp only [hd, hlen, lt_irrefl, if_false, Out.bind, List.take_length]
  have := addAll_fields { Y.main with data := X.main.data } X.fields [] (by simpa using hX.nodup)
    (fun p hp => (hn p hp).1) (fun p hp => readMx_toMx (hX.fields p hp) (h1 p hp)) (toMx X.main)
  simpa using this

/-- **C122, tensors.** If one of the attached fields is a nonempty array with a third dimension of
two or more, reading the structure back reads past the end of that array: `mxGetN` already counts
the third dimension, and it is multiplied in again. -/
theorem C122_tensor_fields_overrun {X : Elem α} (hX : X.Ok)
    (hn : ∀ p ∈ X.fields, p.1 ≠ "main" ∧ p.1.utf8ByteSize < 30)
    (ht : ∃ p ∈ X.fields, 2 ≤ p.2.s2 ∧ 0 < p.2.s0 ∧ 0 < p.2.s1) (Y : Elem α) :
    ∃ S, fromElem X = .ok S ∧ toElem Y S = .ub := by
  refine ⟨_, fromElem_ok hn, ?_⟩
  obtain ⟨p, hp, h2, h0, h1⟩ := ht
  have hu : ∀ m φ, addAll ⟨m, φ⟩ (X.fields.map (fun p => (p.1, toMx p.2)) ++
      [("main", toMx X.main)]) = .ub := fun m φ =>
    addAll_ub m X.fields φ (fun p hp => (hn p hp).1)
      ⟨p, hp, readMx_tensor (hX.fields p hp) h2 h0 h1⟩ _
  unfold toElem readMain
  rcases look (X.fields.map (fun p => (p.1, toMx p.2)) ++ [("main", toMx X.main)]) "main" with _ | a
  · exact hu _ _
  · by_cases c : a.data.length < Y.main.len
    · simp only [if_pos c]; rfl
    · simp only [if_neg c]; exact hu _ _

/-- **C122, complex results.** A function for a complex element that returns a real array of the
right number of rows and columns (Matlab does this by itself when all imaginary parts vanish) makes
the conversion read past the end of that array. -/
theorem C122_real_result_overruns {X : Elem α} (hX : X.main.Ok) (hc : X.main.cplx = true)
    (hp : 0 < X.main.data.length) {S : Struct α} {a : Mx α} (hS : look S "main" = some a)
    (hdim : a.dims = (toMx X.main).dims) (hlen : a.data.length = a.dims.prod) :
    toElem X S = .ub := by
  have hpr : a.dims.prod * 2 = X.main.len := by
    rw [hdim]
    obtain ⟨k, hk⟩ := hX.even hc
    have hk2 : X.main.s0 / 2 = k := by omega
    have e : (toMx X.main).dims = mxDims k X.main.s1 X.main.s2 := by
      unfold toMx; simp [hc, hk2]
    have e2 : (mxDims k X.main.s1 X.main.s2).prod = k * X.main.s1 * X.main.s2 := by
      unfold mxDims
      by_cases c : X.main.s2 = 1
      · simp [c]
      · simp [c, mul_assoc]
    rw [e, e2, Leaf.len, hk]; ring
  have hlt : a.data.length < X.main.len := by
    have := hX.len
    have h0 : X.main.len = X.main.data.length := by rw [Leaf.len, this]
    omega
  unfold toElem readMain
  rw [hS]
  simp only [if_pos hlt]
  rfl

theorem addNew_spec {S : Struct α} {X Y : Elem α} (h : addNew X S = .ok Y) :
    Y.main = X.main ∧
    (∀ n l, look X.fields n = some l → look Y.fields n = some l) ∧
    (∀ n, look X.fields n = none → n = "main" ∨ look S n = none → look Y.fields n = none) ∧
    ∀ n a, n ≠ "main" → look X.fields n = none → look S n = some a →
      ∃ l, readMx a = .ok l ∧ look Y.fields n = some l := by
  induction S generalizing X with
  | nil =>
    simp only [addNew, Out.ok.injEq] at h
    subst h
    exact ⟨rfl, fun _ _ h => h, fun _ h _ => h, fun n a _ _ h => by simp [look] at h⟩
  | cons p t ih =>
    obtain ⟨m, b⟩ := p
    simp only [addNew] at h
    by_cases c : m = "main" ∨ (look X.fields m).isSome
    · rw [if_pos c] at h
      obtain ⟨h1, h2, h3, h4⟩ := ih h
      refine ⟨h1, h2, fun n hn hx => h3 n hn ?_, fun n a hm hn hs => ?_⟩
      · rcases hx with hx | hx
        · exact Or.inl hx
        · rw [look_cons] at hx
          by_cases e : n = m
          · rw [if_pos e] at hx; cases hx
          · rw [if_neg e] at hx; exact Or.inr hx
      · have e : n ≠ m := by
          rintro rfl
          rcases c with c | c
          · exact hm c
          · rw [hn] at c; cases c
        rw [look_cons, if_neg e] at hs
        exact h4 n a hm hn hs
    · rw [if_neg c] at h
      push Not at c
      obtain ⟨l, hl⟩ : ∃ l, readMx b = .ok l := by
        rcases hb : readMx b with l | _ | _
        · exact ⟨l, rfl⟩
        · rw [hb] at h; cases h
        · rw [hb] at h; cases h
      rw [hl] at h
      simp only [Out.bind] at h
      obtain ⟨h1, h2, h3, h4⟩ := ih h
      have hmn : look X.fields m = none := by
        rcases hh : look X.fields m with _ | v
        · rfl
        · rw [hh] at c; simp at c
      refine ⟨h1, fun n v hv => h2 n v ?_, fun n hn hx => h3 n ?_ ?_, fun n a hm hn hs => ?_⟩
      · show look (setField X.fields m l) n = some v
        rw [look_setField]
        by_cases e : n = m
        · rw [e, hmn] at hv; cases hv
        · rw [if_neg e]; exact hv
      · show look (setField X.fields m l) n = none
        rw [look_setField]
        by_cases e : n = m
        · rcases hx with hx | hx
          · exact absurd (e ▸ hx) c.1
          · rw [look_cons, if_pos e] at hx; cases hx
        · rw [if_neg e]; exact hn
      · rcases hx with hx | hx
        · exact Or.inl hx
        · rw [look_cons] at hx
          by_cases e : n = m
          · rw [if_pos e] at hx; cases hx
          · rw [if_neg e] at hx; exact Or.inr hx
      · rw [look_cons] at hs
        by_cases e : n = m
        · rw [if_pos e] at hs
          have := Option.some.inj hs
          subst this
          refine ⟨l, hl, h2 n l ?_⟩
          show look (setField X.fields m l) n = some l
          rw [look_setField, if_pos e]
        · rw [if_neg e] at hs
          refine h4 n a hm ?_ hs
          show look (setField X.fields m l) n = none
          rw [look_setField, if_neg e]; exact hn

/-- **C122, callbacks.** A successful evaluation through the Matlab interface returns what the Matlab
function returned for the structure holding the numbers and fields of the point, never changes the
numbers of the point nor a field it already had, and attaches exactly the other fields of the
structure the function returned. -/
theorem C122_call {F : Struct α → ρ × Struct α} {X Y : Elem α} {r : ρ}
    (hn : ∀ p ∈ X.fields, p.1 ≠ "main") (h : call F X = .ok (r, Y)) :
    ∃ S, (S = X.fields.map (fun p => (p.1, toMx p.2)) ++ [("main", toMx X.main)]) ∧
      r = (F S).1 ∧ Y.main = X.main ∧
      (∀ n l, look X.fields n = some l → look Y.fields n = some l) ∧
      (∀ n, look X.fields n = none → n = "main" ∨ look (F S).2 n = none →
        look Y.fields n = none) ∧
      ∀ n a, n ≠ "main" → look X.fields n = none → look (F S).2 n = some a →
        ∃ l, readMx a = .ok l ∧ look Y.fields n = some l := by
  unfold call at h
  by_cases hlong : ∃ p ∈ X.fields, 30 ≤ p.1.utf8ByteSize
  · have : fromElem X = .err := by unfold fromElem; rw [if_pos hlong]
    rw [this] at h; cases h
  · push Not at hlong
    rw [fromElem_ok (fun p hp => ⟨hn p hp, hlong p hp⟩)] at h
    refine ⟨_, rfl, ?_⟩
    simp only [Out.bind] at h
    rcases ha : addNew X (F (X.fields.map (fun p => (p.1, toMx p.2)) ++
      [("main", toMx X.main)])).2 with Z | _ | _
    · rw [ha] at h
      simp only [Out.ok.injEq, Prod.mk.injEq] at h
      obtain ⟨rfl, rfl⟩ := h
      exact ⟨rfl, addNew_spec ha⟩
    · rw [ha] at h; cases h
    · rw [ha] at h; cases h

/-! ### C123: caching in fields is transparent -/

/-- A Matlab matrix whose numbers fill its two dimensions. -/
structure IsMatrix (a : Mx α) : Prop where
  dims : a.dims.length = 2
  len : a.data.length = a.dims.prod * (if a.cplx then 2 else 1)

/-- What is asked of the Matlab functions: there are mathematical functions `val i` and, for every
field name, a quantity `fld` of the point (`none` for names that are not used), all depending on the
numbers of the point alone, such that function `i`, given a structure with the numbers `d` and any
collection of correct fields, returns `val i d`, and the fields it adds are correct.  The functions
are free to reuse the fields they find. -/
structure Coherent (F : ι → Struct α → ρ × Struct α) (shape : Leaf α) (val : ι → List α → ρ)
    (fld : List α → String → Option (Mx α)) : Prop where
  correct : ∀ i S d, look S "main" = some (toMx { shape with data := d }) →
    (∀ p ∈ S, p.1 ≠ "main" → fld d p.1 = some p.2) →
    (F i S).1 = val i d ∧
      ∀ p ∈ (F i S).2, p.1 ≠ "main" → look S p.1 = none → fld d p.1 = some p.2
  names : ∀ d n a, fld d n = some a → n ≠ "main" ∧ n.utf8ByteSize < 30
  matrix : ∀ d n a, fld d n = some a → IsMatrix a

/-- What the evaluations should return: the values at the numbers last written. -/
def trace (val : ι → List α → ρ) : List α → List (Op ι α) → List ρ
  | _, [] => []
  | _, .write d :: t => trace val d t
  | d, .eval i :: t => val i d :: trace val d t

theorem readMx_matrix {a : Mx α} (h : IsMatrix a) :
    ∃ l, readMx a = .ok l ∧ toMx l = a := by
  obtain ⟨dims, c, data⟩ := a
  have hd := h.dims
  have hl := h.len
  simp only at hd hl
  obtain ⟨m, n, rfl⟩ := List.length_eq_two.1 hd
  have e : (if c then m * 2 else m) * n * 1 = data.length := by
    rw [hl]
    by_cases hc : c = true
    · simp [hc]; ring
    · simp [hc]
  refine ⟨⟨if c then m * 2 else m, n, 1, c, data⟩, ?_, ?_⟩
  · unfold readMx mxM mxN
    simp only [List.length_cons, List.length_nil, List.headD_cons, List.tail_cons, List.prod_cons,
      List.prod_nil, mul_one]
    simp only [mul_one] at e
    simp [e]
  · unfold toMx mxDims
    by_cases hc : c = true
    · simp [hc]
    · simp [hc]

theorem addNew_matrix {S : Struct α} (X : Elem α)
    (hS : ∀ p ∈ S, p.1 ≠ "main" → look X.fields p.1 = none → IsMatrix p.2) :
    ∃ Y, addNew X S = .ok Y := by
  induction S generalizing X with
  | nil => exact ⟨X, rfl⟩
  | cons p t ih =>
    obtain ⟨m, b⟩ := p
    simp only [addNew]
    by_cases c : m = "main" ∨ (look X.fields m).isSome
    · rw [if_pos c]
      exact ih X (fun q hq => hS q (List.mem_cons_of_mem _ hq))
    · rw [if_neg c]
      push Not at c
      have hmn : look X.fields m = none := by
        rcases hh : look X.fields m with _ | v
        · rfl
        · rw [hh] at c; simp at c
      obtain ⟨l, hl, _⟩ := readMx_matrix (hS (m, b) List.mem_cons_self c.1 hmn)
      rw [hl]
      simp only [Out.bind]
      refine ih _ (fun q hq hq1 hq2 => hS q (List.mem_cons_of_mem _ hq) hq1 ?_)
      have h2 : look (setField X.fields m l) q.1 = none := hq2
      rw [look_setField] at h2
      by_cases e : q.1 = m
      · rw [if_pos e] at h2; cases h2
      · rw [if_neg e] at h2; exact h2

theorem addNew_nodup {S : Struct α} {X Y : Elem α} (h : addNew X S = .ok Y)
    (hn : (X.fields.map Prod.fst).Nodup) : (Y.fields.map Prod.fst).Nodup := by
  induction S generalizing X with
  | nil => simp only [addNew, Out.ok.injEq] at h; subst h; exact hn
  | cons p t ih =>
    obtain ⟨m, b⟩ := p
    simp only [addNew] at h
    by_cases c : m = "main" ∨ (look X.fields m).isSome
    · rw [if_pos c] at h; exact ih h hn
    · rw [if_neg c] at h
      push Not at c
      rcases hb : readMx b with l | _ | _
      · rw [hb] at h
        simp only [Out.bind] at h
        have hmn : look X.fields m = none := by
          rcases hh : look X.fields m with _ | v
          · rfl
          · rw [hh] at c; simp at c
        refine ih h ?_
        show ((setField X.fields m l).map Prod.fst).Nodup
        rw [setField_new _ _ _ (look_none.1 hmn)]
        rw [List.map_append, List.nodup_append]
        refine ⟨hn, by simp, ?_⟩
        intro u hu v hv e
        simp only [List.map_cons, List.map_nil, List.mem_singleton] at hv
        exact look_none.1 hmn (hv ▸ e ▸ hu)
      · rw [hb] at h; cases h
      · rw [hb] at h; cases h

/-- The point holds correct fields: each is the conversion of the quantity it is named after. -/
structure Correct (fld : List α → String → Option (Mx α)) (X : Elem α) : Prop where
  fields : ∀ p ∈ X.fields, ∃ a, fld X.main.data p.1 = some a ∧ toMx p.2 = a
  nodup : (X.fields.map Prod.fst).Nodup

/-- **C123.** Whatever sequence of evaluations of cost function, gradient, Hessian actions and
preconditioner is interleaved with whatever sequence of new points written into the variable, every
evaluation returns the value of the mathematical function at the numbers last written, no matter
which fields happen to be attached at that moment, and the call never fails; provided the Matlab
functions attach matrices that are functions of the point. -/
theorem C123_caching_transparent {F : ι → Struct α → ρ × Struct α} {shape : Leaf α}
    {val : ι → List α → ρ} {fld : List α → String → Option (Mx α)} (hF : Coherent F shape val fld)
    (ops : List (Op ι α)) (X : Elem α) (hs : X.main = { shape with data := X.main.data })
    (hX : Correct fld X) :
    ∃ Y, runOps F X ops = .ok (trace val X.main.data ops, Y) ∧ Correct fld Y := by
  induction ops generalizing X with
  | nil => exact ⟨X, rfl, hX⟩
  | cons op t ih =>
    cases op with
    | write d =>
      simp only [runOps, trace]
      refine ih ⟨{ X.main with data := d }, []⟩ ?_ ⟨by simp, by simp⟩
      show { X.main with data := d } = _
      rw [hs]
    | eval i =>
      have hn : ∀ p ∈ X.fields, p.1 ≠ "main" ∧ p.1.utf8ByteSize < 30 := by
        intro p hp
        obtain ⟨a, ha, _⟩ := hX.fields p hp
        exact hF.names _ _ _ ha
      set S : Struct α := X.fields.map (fun p => (p.1, toMx p.2)) ++ [("main", toMx X.main)] with hSdef
      have hmainS : look S "main" = some (toMx { shape with data := X.main.data }) := by
        rw [← hs]
        refine look_append_main ?_ _
        simp only [List.map_map, List.mem_map, not_exists, not_and]
        intro p hp e
        exact (hn p hp).1 e
      have hSf : ∀ p ∈ S, p.1 ≠ "main" → fld X.main.data p.1 = some p.2 := by
        intro p hp hne
        rcases List.mem_append.1 hp with hp | hp
        · obtain ⟨q, hq, rfl⟩ := List.mem_map.1 hp
          obtain ⟨a, ha, hqa⟩ := hX.fields q hq
          simp only [ha, hqa]
        · simp only [List.mem_singleton] at hp
          exact absurd (by rw [hp]) hne
      obtain ⟨hv, hnew⟩ := hF.correct i S X.main.data hmainS hSf
      have hlookS : ∀ n, n ≠ "main" → look X.fields n = none → look S n = none := by
        intro n hne hnn
        rw [look_none] at hnn ⊢
        simp only [hSdef, List.map_append, List.map_map, List.map_cons, List.map_nil, List.mem_append,
          List.mem_singleton, not_or]
        exact ⟨by simpa [Function.comp_def] using hnn, hne⟩
      have hnew' : ∀ p ∈ (F i S).2, p.1 ≠ "main" → look X.fields p.1 = none →
          fld X.main.data p.1 = some p.2 := fun p hp h1 h2 => hnew p hp h1 (hlookS _ h1 h2)
      obtain ⟨Y, hY⟩ := addNew_matrix (S := (F i S).2) X
        (fun p hp h1 h2 => hF.matrix _ _ _ (hnew' p hp h1 h2))
      obtain ⟨e1, e2, e3, e4⟩ := addNew_spec hY
      have hYn := addNew_nodup hY hX.nodup
      have hYc : Correct fld Y := by
        refine ⟨fun p hp => ?_, hYn⟩
        have hlp := look_of_nodup hYn hp
        rw [e1]
        rcases hh : look X.fields p.1 with _ | l
        · by_cases hm : p.1 = "main" ∨ look (F i S).2 p.1 = none
          · rw [e3 _ hh hm] at hlp; cases hlp
          · push Not at hm
            obtain ⟨a, ha⟩ := Option.ne_none_iff_exists'.1 hm.2
            obtain ⟨l, hl, hly⟩ := e4 _ a hm.1 hh ha
            have hfa := hnew' _ (look_mem ha) hm.1 hh
            obtain ⟨l', hl', hla⟩ := readMx_matrix (hF.matrix _ _ _ hfa)
            rw [hl] at hl'
            have : l = l' := by injection hl'
            rw [hly] at hlp
            have hpl : l = p.2 := by injection hlp
            exact ⟨a, hfa, by rw [← hpl, this, hla]⟩
        · have := e2 _ _ hh
          rw [this] at hlp
          have hpl : l = p.2 := by injection hlp
          obtain ⟨a, ha, hla⟩ := hX.fields _ (look_mem hh)
          exact ⟨a, ha, by rw [← hpl]; exact hla⟩
      have hcall : call (F i) X = .ok ((F i S).1, Y) := by
        unfold call
        rw [fromElem_ok hn]
        simp only [Out.bind]
        rw [hY]
      obtain ⟨Z, hZ, hZc⟩ := ih Y (by rw [e1]; exact hs) hYc
      refine ⟨Z, ?_, hZc⟩
      simp only [runOps, hcall, Out.bind, hZ, trace, hv, e1]

/-- **C123, the assumption matters.** A field that is not a function of the point is never refreshed:
a counter which the Matlab function increases in every call stays at its first value, so the third
evaluation at the same point returns the count 2 again instead of 3. -/
theorem C123_stale_counter :
    let F : Unit → Struct ℕ → ℕ × Struct ℕ := fun _ S =>
      match look S "count" with
      | none => (1, [("count", ⟨[1, 1], false, [1]⟩)])
      | some a => (a.data.headD 0 + 1, [("count", ⟨[1, 1], false, [a.data.headD 0 + 1]⟩)])
    (runOps F ⟨⟨1, 1, 1, false, [5]⟩, []⟩ [.eval (), .eval (), .eval ()]) =
      .ok ([1, 2, 2], ⟨⟨1, 1, 1, false, [5]⟩, [("count", ⟨1, 1, 1, false, [1]⟩)]⟩) := by
  rfl

/-! ### Instances of the hypotheses -/

/-- A complex 2x2 point with a real 2x1 field goes through unchanged. -/
example : ∃ S, fromElem (⟨⟨4, 2, 1, true, [1, 2, 3, 4, 5, 6, 7, 8]⟩,
      [("Ax", ⟨2, 1, 1, false, [9, 10]⟩)]⟩ : Elem ℕ) = .ok S ∧
    toElem ⟨⟨4, 2, 1, true, [0, 0, 0, 0, 0, 0, 0, 0]⟩, [("old", ⟨1, 1, 1, false, [3]⟩)]⟩ S =
      .ok ⟨⟨4, 2, 1, true, [1, 2, 3, 4, 5, 6, 7, 8]⟩, [("Ax", ⟨2, 1, 1, false, [9, 10]⟩)]⟩ := by
  refine C122_round_trip (X := ⟨⟨4, 2, 1, true, [1, 2, 3, 4, 5, 6, 7, 8]⟩,
      [("Ax", ⟨2, 1, 1, false, [9, 10]⟩)]⟩)
    (Y := ⟨⟨4, 2, 1, true, [0, 0, 0, 0, 0, 0, 0, 0]⟩, [("old", ⟨1, 1, 1, false, [3]⟩)]⟩)
    ⟨⟨rfl, fun _ => ⟨2, rfl⟩⟩, ?_, by simp⟩ ⟨rfl, fun _ => ⟨2, rfl⟩⟩ ?_ ?_ rfl
  · intro p hp; simp only [List.mem_singleton] at hp; subst hp; exact ⟨rfl, by simp⟩
  · intro p hp; simp only [List.mem_singleton] at hp; subst hp; exact ⟨by decide, by decide⟩
  · intro p hp; simp only [List.mem_singleton] at hp; subst hp; rfl

/-- A field of size 1x1x2. -/
example (Y : Elem ℕ) : ∃ S, fromElem (⟨⟨1, 1, 1, false, [1]⟩, [("T", ⟨1, 1, 2, false, [1, 2]⟩)]⟩ : Elem ℕ)
    = .ok S ∧ toElem Y S = .ub := by
  refine C122_tensor_fields_overrun ⟨⟨rfl, by simp⟩, ?_, by simp⟩ ?_ ?_ Y
  · intro p hp; simp only [List.mem_singleton] at hp; subst hp; exact ⟨rfl, by simp⟩
  · intro p hp; simp only [List.mem_singleton] at hp; subst hp; exact ⟨by decide, by decide⟩
  · exact ⟨_, List.mem_singleton_self _, by decide⟩

/-- The real array 2 returned for a complex number. -/
example : toElem (⟨⟨2, 1, 1, true, [0, 0]⟩, []⟩ : Elem ℕ) [("main", ⟨[1, 1], false, [2]⟩)] = .ub :=
  C122_real_result_overruns ⟨rfl, fun _ => ⟨1, rfl⟩⟩ rfl (by decide) (a := ⟨[1, 1], false, [2]⟩)
    rfl rfl rfl

/-- A cost function `x ↦ x²` that keeps `x²` in the field "sq" and a gradient `x ↦ 2x` that adds
nothing, for a point holding one number. -/
def sqF : Bool → Struct ℕ → ℕ × Struct ℕ
  | true, S =>
    match look S "sq" with
    | some a => (a.data.headD 0, S)
    | none =>
      let v := match look S "main" with
        | some a => a.data.headD 0 * a.data.headD 0
        | none => 0
      (v, [("sq", ⟨[1, 1], false, [v]⟩)])
  | false, S => (2 * (match look S "main" with | some a => a.data.headD 0 | none => 0), S)

theorem sqF_coherent : Coherent sqF ⟨1, 1, 1, false, []⟩
    (fun b d => if b then d.headD 0 * d.headD 0 else 2 * d.headD 0)
    (fun d n => if n = "sq" then some ⟨[1, 1], false, [d.headD 0 * d.headD 0]⟩ else none) where
  correct := by
    intro b S d hm hf
    cases b
    · simp only [sqF, hm, toMx, Bool.false_eq_true, if_false]
      refine ⟨trivial, fun p hp h1 _ => ?_⟩
      exact hf p hp h1
    · rcases hq : look S "sq" with _ | a
      · simp only [sqF, hq, hm, toMx, if_true]
        refine ⟨trivial, fun p hp _ _ => ?_⟩
        simp only [List.mem_singleton] at hp
        subst hp
        simp
      · have := hf _ (look_mem hq) (show "sq" ≠ "main" by decide)
        simp only [if_true, Option.some.injEq] at this
        simp only [sqF, hq, if_true]
        refine ⟨by rw [← this]; rfl, fun p hp h1 _ => ?_⟩
        exact hf p hp h1
  names := by
    intro d n a h
    by_cases e : n = "sq"
    · subst e; exact ⟨by decide, by decide⟩
    · simp [e] at h
  matrix := by
    intro d n a h
    by_cases e : n = "sq"
    · simp only [e, if_true, Option.some.injEq] at h
      subst h; exact ⟨rfl, rfl⟩
    · simp [e] at h

example : ∃ Y, runOps sqF ⟨⟨1, 1, 1, false, [3]⟩, []⟩
    [.eval true, .eval true, .eval false, .write [5], .eval true] = .ok ([9, 9, 6, 25], Y) := by
  obtain ⟨Y, h, _⟩ := C123_caching_transparent sqF_coherent
    [.eval true, .eval true, .eval false, .write [5], .eval true] ⟨⟨1, 1, 1, false, [3]⟩, []⟩ rfl
    ⟨by simp, by simp⟩
  exact ⟨Y, h⟩

end Verif.Mex
