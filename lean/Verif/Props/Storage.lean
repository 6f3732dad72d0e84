import Verif.Mem.Reach

/-!
Properties C01-C05, C08: storage safety and value semantics of `Element`.

`run State.empty ops` executes an arbitrary finite history of operations.  `Out.ub` is undefined
behaviour inside the library, `Out.client` a violated documented precondition.
-/

namespace Verif.Mem
variable {V : Type}

/-- States a program can be in. -/
def Reachable (s : State V) : Prop := ∃ ops, run State.empty ops = .ok s

/-- Specification: number of live objects that refer to buffer `a`. -/
def holders (s : State V) (a : Nat) : Nat :=
  (s.objs.filter fun o => match o with
    | some o => o.space == some a
    | none => false).length

theorem Reachable.inv {s : State V} (h : Reachable s) : Inv s := by
  obtain ⟨ops, h⟩ := h; exact run_inv inv_empty ops h

theorem refs_eq_holders {s : State V} (hI : Inv s) (a : Nat) : refs s.objs a = holders s a := by
  unfold refs holders
  rw [List.countP_eq_length_filter]
  congr 1
  apply List.filter_congr
  intro o ho
  cases o with
  | none => rfl
  | some o =>
    obtain ⟨i, hi, e⟩ := List.mem_iff_getElem.1 ho
    have := (hI.obj i o (by rw [List.getElem?_eq_getElem hi, e])).pair
    simp only [Option.bind_some, this]
    cases o.space with
    | none => simp
    | some b => by_cases e : b = a <;> simp [e]

/-! ### C01 -/

/-- C01 (memory safety). In every history that never calls `Delete()`, no operation reads, writes or
frees a dead or too short buffer or counter. -/
theorem C01_no_undefined_behaviour (ops : List (Op V)) (h : ∀ x, Op.delete x ∉ ops) :
    run State.empty ops ≠ .ub := by
  intro hub
  obtain ⟨pre, op, post, s', e1, e2, e3⟩ := run_ub inv_empty ops hub
  have hS : Shaped s' := run_shaped inv_empty (by intro x o hx; simp [State.empty, State.live] at hx) pre
    (fun x hm => h x (by rw [e1]; simp [hm])) e2
  cases op with
  | copyNew x => obtain ⟨o, h1, h2⟩ := e3; exact hS x o h1 h2
  | reshape x r c n => obtain ⟨o, h1, h2⟩ := e3; exact hS x o h1 h2
  | _ => exact e3

/-- C01 with `Delete()` allowed: the only undefined behaviour is copy-constructing or reshaping an
object whose shape array `Delete()` has nulled. -/
theorem C01_only_deleted_shape_is_undefined (ops : List (Op V)) (h : run State.empty ops = .ub) :
    ∃ pre op post s x o, ops = pre ++ op :: post ∧ run State.empty pre = .ok s ∧
      s.live x = some o ∧ o.size = [] ∧ (op = .copyNew x ∨ ∃ r c n, op = .reshape x r c n) := by
  obtain ⟨pre, op, post, s', e1, e2, e3⟩ := run_ub inv_empty ops h
  cases op with
  | copyNew x => obtain ⟨o, h1, h2⟩ := e3; exact ⟨pre, _, post, s', x, o, e1, e2, h1, h2, Or.inl rfl⟩
  | reshape x r c n =>
    obtain ⟨o, h1, h2⟩ := e3
    exact ⟨pre, _, post, s', x, o, e1, e2, h1, h2, Or.inr ⟨r, c, n, rfl⟩⟩
  | _ => exact e3.elim

/-- C01 violated after `Delete()`: `Element x(1); x.Delete(); Element y(x);` reads a null array. -/
theorem C01_copy_of_deleted_is_undefined :
    run (State.empty : State V) [.decl 1 1 1, .delete 0, .copyNew 0] = .ub := rfl

/-- C01 (reference counts). In every reachable state each buffer some object refers to is allocated,
its length is the object's length, and its counter is the number of objects referring to it. -/
theorem C01_counts_exact {s : State V} (h : Reachable s) {x : Nat} {o : Obj} {a : Nat}
    (hx : s.live x = some o) (ha : o.space = some a) :
    (∃ b, s.bufs a = some b ∧ b.length = o.length) ∧
      o.cnt.bind s.cnts = some (holders s a) ∧ 0 < holders s a := by
  have hI := h.inv
  have hx' := live_eq hx
  have hc := (hI.obj x o hx').pair.trans ha
  have hr := refs_pos hx' hc
  obtain ⟨h1, b, h2⟩ := hI.heap.get hr
  rw [refs_eq_holders hI] at h1 hr
  exact ⟨⟨b, h2, (hI.obj x o hx').len a b ha h2⟩, by simp [hc, h1], by omega⟩

/-- C01 (no leak). Every allocation still present in a reachable state is referred to by some live
object; in particular, once every object has been destroyed, the heap is empty. -/
theorem C01_no_leak {s : State V} (h : Reachable s) (a : Nat)
    (ha : (s.bufs a).isSome ∨ (s.cnts a).isSome) : 0 < holders s a := by
  have hI := h.inv
  have hb := hI.heap.buf a
  have hc := hI.heap.cnt a
  rw [← refs_eq_holders hI]
  by_cases e : refs s.objs a = 0
  · simp [e] at hb hc
    simp [hb, hc] at ha
  · omega

theorem C01_all_destroyed_heap_empty {s : State V} (h : Reachable s) (hd : ∀ x, s.live x = none)
    (a : Nat) : s.bufs a = none ∧ s.cnts a = none := by
  have h0 : holders s a = 0 := by
    unfold holders
    rw [List.length_eq_zero_iff, List.filter_eq_nil_iff]
    intro o ho
    obtain ⟨i, hi, e⟩ := List.mem_iff_getElem.1 ho
    have := hd i
    unfold State.live at this
    rw [List.getElem?_eq_getElem hi, e] at this
    cases o with
    | none => simp
    | some o => simp at this
  constructor
  · cases hb : s.bufs a with
    | none => rfl
    | some b => have := C01_no_leak h a (by simp [hb]); omega
  · cases hb : s.cnts a with
    | none => rfl
    | some b => have := C01_no_leak h a (by simp [hb]); omega

/-- Non-vacuity: a history with sharing, un-sharing and destruction. -/
example : ∃ s, run (State.empty : State Nat)
    [.decl 2 1 1, .writeEntire 0 [(0, 7), (1, 8)], .copyNew 0, .decl 2 1 1, .assign 2 1,
     .writePartial 1 [(0, 9)], .destroy 0] = .ok s ∧
    s.contents 1 = some [some 9, some 8] ∧ s.contents 2 = some [some 7, some 8] ∧
    s.contents 0 = none ∧ (s.live 2).map (fun o => o.space.map (holders s)) = some (some 1) :=
  ⟨_, rfl, rfl, rfl, rfl, rfl⟩

/-! ### C02 -/

/-- C02. For every history without in-place stores that bypass the accessors, the program shows
exactly the values of the deep-copy specification. (Full statement: all histories; the missing ones
are those using `HaddRankone`/`Conj`, for which it is false: `C04_in_place_methods_leak`.) -/
theorem C02_value_semantics_partial (ops : List (Op V)) (s : State V)
    (h : run State.empty ops = .ok s) (hraw : ∀ x ws, Op.rawStore x ws ∉ ops) :
    ∃ t, srun [] ops = some t ∧ Refines s t :=
  run_sim inv_empty refines_empty ops hraw h

/-- Readable consequence of C02: if the deep-copy semantics says entry `i` of `x` is `a`, the program
reads `a`. -/
theorem C02_reads_specified_entries_partial (ops : List (Op V)) (s : State V) (t : Vals V)
    (h : run State.empty ops = .ok s) (hraw : ∀ x ws, Op.rawStore x ws ∉ ops)
    (ht : srun [] ops = some t) {x : Nat} {v : Val V} {d : Nat → Option V} {i : Nat} {a : V}
    (hv : t.get x = some v) (hd : v.data = some d) (hi : i < v.length) (ha : d i = some a) :
    ∃ b, s.contents x = some b ∧ b[i]? = some (some a) := by
  obtain ⟨t', h1, h2⟩ := C02_value_semantics_partial ops s h hraw
  rw [ht] at h1
  obtain rfl : t = t' := by simpa using h1
  obtain ⟨b, e1, -, e3⟩ := (h2.shows_ x v hv).entries d hd
  exact ⟨b, e1, e3 i a hi ha⟩

example : ∃ s t, run (State.empty : State Nat)
      [.decl 1 1 1, .writeEntire 0 [(0, 7)], .copyNew 0, .writePartial 0 [(0, 9)]] = .ok s ∧
    srun [] [.decl 1 1 1, .writeEntire 0 [(0, 7)], .copyNew 0, .writePartial 0 [(0, 9)]] = some t ∧
    (t.get 1).bind (fun v => v.data.map fun d => d 0) = some (some 7) ∧
    s.contents 1 = some [some 7] := ⟨_, _, rfl, rfl, rfl, rfl⟩

/-! ### C03 -/

/-- Shape of an object as seen by `Getrow/Getcol/Getnum`. -/
def State.shape (s : State V) (x : Nat) : Option (List Nat) := (s.live x).map Obj.size

/-- C03 violated: `y = x; y.Reshape(3,2); x = y;` leaves `x` with its old shape 2 x 3. -/
theorem C03_shape_not_transferred :
    ∃ ops : List (Op Nat), ∃ s, run State.empty (ops ++ [.assign 0 1]) = .ok s ∧
      s.shape 0 ≠ s.shape 1 :=
  ⟨[.decl 2 3 1, .fill 0 5, .copyNew 0, .reshape 1 3 2 1], _, rfl, by decide⟩

/-- C03 for objects that do not already share a (non-null) buffer. Missing: the sharing pairs, where
the property is false (`C03_shape_not_transferred`). -/
theorem C03_shape_transferred_partial {s s' : State V} (h : Reachable s) {x y : Nat} {src dst : Obj}
    (hx : s.live x = some src) (hy : s.live y = some dst)
    (hns : dst.space ≠ src.space ∨ src.space = none)
    (hs : step s (.assign y x) = .ok s') : s'.shape y = s.shape x := by
  simp only [step, hx, hy] at hs
  obtain ⟨s'', h4, h5⟩ := copyTo_spec h.inv (live_eq hx) (live_eq hy)
  rw [h4] at hs
  obtain rfl : s'' = s' := by simpa using hs
  obtain ⟨o', g1, g2, g3⟩ := h5.live
  simp only [State.shape, hx, g1, Option.map_some, Option.some.injEq]
  rcases g3 with g3 | ⟨g3, g4, g5⟩
  · exact g3
  · rcases hns with hns | hns
    · exact absurd g4 hns
    · rw [g4, hns] at g5; exact absurd rfl g5

example : ∃ s s', run (State.empty : State Nat) [.decl 2 3 1, .fill 0 5, .decl 1 1 1, .fill 1 4] = .ok s ∧
    step s (.assign 1 0) = .ok s' ∧ s'.shape 1 = some [2, 3, 1] := ⟨_, _, rfl, rfl, rfl⟩

/-! ### C04 -/

/-- The object an operation may modify. -/
def Op.target : Op V → Option Nat
  | .decl _ _ _ | .copyNew _ => none
  | .assign y _ => some y
  | .writePartial x _ | .writeEntire x _ | .fill x _ | .reshape x _ _ _ | .rawStore x _
  | .delete x | .destroy x => some x

/-- C04 for every operation except in-place stores: objects other than the receiver keep contents
and shape. Missing: `HaddRankone` and `Conj` (false, see below). -/
theorem C04_only_receiver_changes_partial {s s' : State V} (h : Reachable s) (op : Op V)
    (hop : ∀ x ws, op ≠ .rawStore x ws) (hs : step s op = .ok s') {z : Nat} {oz : Obj}
    (hz : s.live z = some oz) (ht : op.target ≠ some z) :
    s'.contents z = s.contents z ∧ s'.shape z = s.shape z := by
  have hI := h.inv
  have hzlt := (List.getElem?_eq_some_iff.1 (live_eq hz)).1
  have key : ∀ {x : Nat} {s1 : State V}, Frame s s1 x → z ≠ x →
      s1.contents z = s.contents z ∧ s1.shape z = s.shape z := by
    intro x s1 hF hne
    exact ⟨hF.contents z hne, by unfold State.shape; rw [hF.live z hne]⟩
  cases op with
  | rawStore x ws => exact absurd rfl (hop x ws)
  | decl r c n =>
    simp only [step, Out.ok.injEq] at hs
    subst hs
    obtain ⟨-, h2, -⟩ := append_spec hI r c n
    have hl : ({ s with objs := s.objs ++ [some (initObj r c n)] } : State V).live z = s.live z := by
      simp only [State.live, h2 z hzlt]
    exact ⟨by simp only [State.contents, hl], by simp only [State.shape, hl]⟩
  | copyNew x =>
    simp only [step] at hs
    cases hl : s.live x with
    | none => simp [hl] at hs
    | some o =>
      simp only [hl] at hs
      split at hs
      · rename_i r c n tl hsz
        obtain ⟨h1, h2, h3⟩ := append_spec hI r c n
        have hx := live_eq hl
        have hlt := (List.getElem?_eq_some_iff.1 hx).1
        obtain ⟨s'', h4, h5⟩ := copyTo_spec h1 ((h2 x hlt).trans hx) h3
        rw [h4] at hs
        obtain rfl : s'' = s' := by simpa using hs
        have hl : ({ s with objs := s.objs ++ [some (initObj r c n)] } : State V).live z = s.live z := by
          simp only [State.live, h2 z hzlt]
        refine ⟨?_, ?_⟩
        · rw [h5.frame.contents z (by omega)]; simp only [State.contents, hl]
        · simp only [State.shape]; rw [h5.frame.live z (by omega), hl]
      · simp at hs
  | assign y x =>
    have hzy : z ≠ y := fun e => ht (by simp [Op.target, e])
    simp only [step] at hs
    cases hl : s.live x with
    | none => simp [hl] at hs
    | some src =>
      cases hl' : s.live y with
      | none => simp [hl, hl'] at hs
      | some dst =>
        simp only [hl, hl'] at hs
        obtain ⟨s'', h4, h5⟩ := copyTo_spec hI (live_eq hl) (live_eq hl')
        rw [h4] at hs
        obtain rfl : s'' = s' := by simpa using hs
        exact key h5.frame hzy
  | writePartial x ws =>
    have hzy : z ≠ x := fun e => ht (by simp [Op.target, e])
    simp only [step] at hs
    cases hl : s.live x with
    | none => simp [hl] at hs
    | some o =>
      simp only [hl] at hs
      split at hs
      · obtain ⟨s1, d, h1, h2, h3, h4, -⟩ := copyOnWrite_spec hI (live_eq hl)
        obtain ⟨s'', p, h5, h6, h8, h9, h10⟩ := thenStore_spec h2 h3 h4 (writes_length ws)
        rw [h1, h5] at hs
        obtain rfl : s'' = s' := by simpa using hs
        exact key h8 hzy
      · simp at hs
  | writeEntire x ws =>
    have hzy : z ≠ x := fun e => ht (by simp [Op.target, e])
    simp only [step] at hs
    cases hl : s.live x with
    | none => simp [hl] at hs
    | some o =>
      simp only [hl] at hs
      split at hs
      · obtain ⟨s1, d, h1, h2, h3, h4⟩ := newMemoryOnWrite_spec hI (live_eq hl)
        obtain ⟨s'', p, h5, h6, h8, h9, h10⟩ := thenStore_spec h2 h3 h4 (writes_length ws)
        rw [h1, h5] at hs
        obtain rfl : s'' = s' := by simpa using hs
        exact key h8 hzy
      · simp at hs
  | fill x v =>
    have hzy : z ≠ x := fun e => ht (by simp [Op.target, e])
    simp only [step] at hs
    cases hl : s.live x with
    | none => simp [hl] at hs
    | some o =>
      simp only [hl] at hs
      obtain ⟨s1, d, h1, h2, h3, h4⟩ := newMemoryOnWrite_spec hI (live_eq hl)
      obtain ⟨s'', p, h5, h6, h8, h9, h10⟩ := thenStore_spec (f := fun b => b.map fun _ => some v)
        h2 h3 h4 (by simp)
      rw [h1, h5] at hs
      obtain rfl : s'' = s' := by simpa using hs
      exact key h8 hzy
  | reshape x r c n =>
    have hzy : z ≠ x := fun e => ht (by simp [Op.target, e])
    simp only [step] at hs
    cases hl : s.live x with
    | none => simp [hl] at hs
    | some o =>
      simp only [hl] at hs
      split at hs
      · simp at hs
      · split at hs
        · rename_i e
          obtain ⟨h1, h2, h3⟩ := reshape_spec hI (live_eq hl) r c n e
          obtain rfl : _ = s' := by simpa using hs
          exact key h2 hzy
        · simp at hs
  | delete x =>
    have hzy : z ≠ x := fun e => ht (by simp [Op.target, e])
    simp only [step] at hs
    cases hl : s.live x with
    | none => simp [hl] at hs
    | some o =>
      simp only [hl] at hs
      obtain ⟨s'', h1, h2, h3, h4⟩ := delete_spec hI (live_eq hl)
      rw [h1] at hs
      obtain rfl : s'' = s' := by simpa using hs
      exact key h3 hzy
  | destroy x =>
    have hzy : z ≠ x := fun e => ht (by simp [Op.target, e])
    simp only [step] at hs
    cases hl : s.live x with
    | none => simp [hl] at hs
    | some o =>
      simp only [hl] at hs
      obtain ⟨s'', h1, h2, h3, h4⟩ := destroy_spec hI (live_eq hl)
      rw [h1] at hs
      obtain rfl : s'' = s' := by simpa using hs
      exact key h3 hzy

/-- `Element::Conj` on complex data `re, im, re, im, …` (Element.cpp 1946-1953):
`scal_(&num, -1, Space + 1, &ITWO)` with `num = length/2`, straight through `Space`. -/
def conjOp (x : Nat) (entries : List Int) : Op Int :=
  .rawStore x ((List.range (entries.length / 2)).map fun i => (2 * i + 1, - entries.getD (2 * i + 1) 0))

/-- `Element::HaddRankone(scalar, u, v)` on an `m x n` matrix (Element.cpp 1611-1624): BLAS `ger`
`A[i + j m] += scalar * u[i] * v[j]`, straight through `Space`. -/
def haddRankoneOp (x m n : Nat) (entries u v : List Int) (scalar : Int) : Op Int :=
  .rawStore x ((List.range (m * n)).map fun k =>
    (k, entries.getD k 0 + scalar * u.getD (k % m) 0 * v.getD (k / m) 0))

/-- C04 violated by `Conj`: `y = x; y.Conj();` conjugates `x` as well. -/
theorem C04_in_place_methods_leak :
    ∃ s s' : State Int, run State.empty [.decl 2 1 1, .writeEntire 0 [(0, 1), (1, 2)], .copyNew 0] = .ok s ∧
      step s (conjOp 1 [1, 2]) = .ok s' ∧ s.contents 0 = some [some 1, some 2] ∧
      s'.contents 0 = some [some 1, some (-2)] := ⟨_, _, rfl, rfl, rfl, rfl⟩

/-- C04 violated through the manifold interface: `HaddScaledRank1OPE(x, Hx, 1, u, v, &result)` is
`*result = Hx; result->HaddRankone(1, u, v)` (Manifold.cpp 242-245). When `result` holds no data yet
(as a freshly declared operator) the `const` argument `Hx` is modified. Here `Hx = [2]`, `u = v = [1]`. -/
theorem C04_rank_one_update_modifies_const_argument :
    ∃ s s' : State Int,
      run State.empty [.decl 1 1 1, .writeEntire 0 [(0, 2)], .decl 1 1 1] = .ok s ∧
      run s [.assign 1 0, haddRankoneOp 1 1 1 [2] [1] [1] 1] = .ok s' ∧
      s.contents 0 = some [some 2] ∧ s'.contents 0 = some [some 3] ∧
      s'.contents 1 = some [some 3] := ⟨_, _, rfl, rfl, rfl, rfl, rfl⟩

/-- If, on the other hand, `result` already owns a private buffer of the same shape, the argument is
untouched: the assignment copies and the store hits only `result`. -/
theorem C04_rank_one_update_private_result {s s1 s2 : State V} (h : Reachable s) {x y : Nat}
    {src dst : Obj} {c : Nat} (hxy : x ≠ y)
    (hx : s.live x = some src) (hy : s.live y = some dst) (hshape : dst.size = src.size)
    (hc : dst.space = some c) (hpriv : holders s c = 1) (hdata : src.space ≠ none) (ws : List (Nat × V))
    (h1 : step s (.assign y x) = .ok s1) (h2 : step s1 (.rawStore y ws) = .ok s2) :
    s2.contents x = s.contents x := by
  have hI := h.inv
  have hx' := live_eq hx
  have hy' := live_eq hy
  have hdc : dst.cnt = some c := (hI.obj y dst hy').pair.trans hc
  have hr1 : refs s.objs c = 1 := by rw [refs_eq_holders hI]; exact hpriv
  have hne : src.space ≠ some c := by
    intro e
    have := refs_ge_two hxy hy' hx' hdc ((hI.obj x src hx').pair.trans e)
    omega
  obtain ⟨p, hp⟩ := Option.ne_none_iff_exists'.1 hdata
  simp only [step, hx, hy] at h1
  obtain ⟨sa, h4, h5⟩ := copyTo_spec hI hx' hy'
  rw [h4] at h1
  obtain rfl : sa = s1 := by simpa using h1
  -- the assignment took the copying branch, so `y` still points to `c`
  have hcond : ¬ (x = y ∨ (dst.space = src.space ∧ ¬ (dst.space = none ∧ src.space = none))) := by
    rintro (e | ⟨e, -⟩)
    · exact hxy e
    · exact hne (by rw [← e, hc])
  obtain ⟨hcn, b, hb⟩ := hI.heap.get (refs_pos hy' hdc)
  obtain ⟨-, f, hf⟩ := hI.heap.get (refs_pos hx' ((hI.obj x src hx').pair.trans hp))
  have hobjs : sa.objs = s.objs := by
    unfold copyTo at h4
    rw [if_neg hcond] at h4
    simp only [hdc, hcn, hr1, hshape, and_self, if_true, hp, hc, hf, hb] at h4
    split at h4
    · simp at h4
    · simp only [Out.ok.injEq] at h4; rw [← h4]
  have hyl : sa.live y = some dst := by simp only [State.live, hobjs]; exact hy
  have hxl : sa.objs[x]? = some (some src) := by rw [hobjs]; exact hx'
  simp only [step, hyl] at h2
  split at h2
  · have hIa := h5.inv
    obtain ⟨-, b', hb'⟩ := hIa.heap.get (refs_pos (live_eq hyl) hdc)
    obtain ⟨s'', g1, g2, g3, g4, g5, g6⟩ := storeRaw_spec (f := writes ws) hIa (live_eq hyl) hc hb'
      (writes_length ws b')
    rw [g1] at h2
    obtain rfl : s'' = s2 := by simpa using h2
    rw [g6 x src hxl hne, h5.frame.contents x hxy]
  · simp at h2

/-! ### C05 -/

/-- The stores of `SubmatrixAssignment` (Element.cpp 2232-2247, real case): column-major block
`rows r0 .. r0+m-1`, columns `c0 .. c0+n-1` of a matrix with `ld` rows. -/
def blockWrites (ld r0 c0 m n : Nat) (M : Nat → Nat → V) : List (Nat × V) :=
  (List.range n).flatMap fun j => (List.range m).map fun i => ((r0 + i) + (c0 + j) * ld, M i j)

/-- `SubmatrixAssignment` obtains memory with `NewMemoryOnWrite` (Element.cpp 2238), i.e. as a
whole-overwrite. -/
def submatrixAssignment (x ld r0 c0 m n : Nat) (M : Nat → Nat → V) : Op V :=
  .writeEntire x (blockWrites ld r0 c0 m n M)

/-- C05 violated: on a 2 x 1 matrix that shares storage, assigning row 0 loses row 1 (its content
becomes indeterminate). -/
theorem C05_submatrix_assignment_loses_entries :
    ∃ s s' : State Nat, run State.empty [.decl 2 1 1, .fill 0 5, .copyNew 0] = .ok s ∧
      step s (submatrixAssignment 1 2 0 0 1 1 (fun _ _ => 9)) = .ok s' ∧
      s.contents 1 = some [some 5, some 5] ∧ s'.contents 1 = some [some 9, none] :=
  ⟨_, _, rfl, rfl, rfl, rfl⟩

/-- C05 when the receiver owns its buffer alone: entries inside the block become the new ones, all
others keep their value. Missing: shared receivers, where it is false (previous theorem). -/
theorem C05_submatrix_assignment_partial {s s' : State V} (h : Reachable s) {x : Nat} {o : Obj}
    {c ld r0 c0 m n : Nat} {M : Nat → Nat → V} (hx : s.live x = some o) (hc : o.space = some c)
    (hpriv : holders s c = 1) (hblock : r0 + m ≤ ld)
    (hs : step s (submatrixAssignment x ld r0 c0 m n M) = .ok s') :
    ∃ b b', s.contents x = some b ∧ s'.contents x = some b' ∧
      (∀ i j, i < m → j < n → b'[(r0 + i) + (c0 + j) * ld]? = some (some (M i j))) ∧
      (∀ r k, r < ld → ¬ (r0 ≤ r ∧ r < r0 + m ∧ c0 ≤ k ∧ k < c0 + n) → b'[r + k * ld]? = b[r + k * ld]?) := by
  have hI := h.inv
  have hx' := live_eq hx
  have hcc : o.cnt = some c := (hI.obj x o hx').pair.trans hc
  have hr1 : refs s.objs c = 1 := by rw [refs_eq_holders hI]; exact hpriv
  obtain ⟨hcn, b, hb⟩ := hI.heap.get (refs_pos hx' hcc)
  have hbl := (hI.obj x o hx').len c b hc hb
  have hnm : newMemoryOnWrite s x o = .ok s := by
    simp [newMemoryOnWrite, hcc, hcn, hr1]
  simp only [submatrixAssignment, step, hx] at hs
  split at hs
  · rename_i hrange
    obtain ⟨s'', g1, g2, g3, g4, g5, g6⟩ := storeRaw_spec (f := writes (blockWrites ld r0 c0 m n M))
      hI hx' hc hb (writes_length _ b)
    rw [hnm] at hs
    simp only [thenStore, Out.bind, hx] at hs
    rw [g1] at hs
    obtain rfl : s'' = s' := by simpa using hs
    refine ⟨b, _, by rw [contents_eq hx', hc]; exact hb, g5, ?_, ?_⟩
    · intro i j hi hj
      have hin : ((r0 + i) + (c0 + j) * ld, M i j) ∈ blockWrites ld r0 c0 m n M := by
        simp only [blockWrites, List.mem_flatMap, List.mem_map, List.mem_range]
        exact ⟨j, hj, i, hi, rfl⟩
      have hlt := hrange _ hin
      rw [writes_get _ _ _ (by simp only at hlt; omega)]
      -- every store at this index stores `M i j`
      have huniq : ∀ w ∈ blockWrites ld r0 c0 m n M, w.1 = (r0 + i) + (c0 + j) * ld → w.2 = M i j := by
        intro w hw e
        simp only [blockWrites, List.mem_flatMap, List.mem_map, List.mem_range] at hw
        obtain ⟨j', hj', i', hi', rfl⟩ := hw
        simp only at e
        have hld : 0 < ld := by omega
        have e1 : (r0 + i') = (r0 + i) ∧ (c0 + j') = (c0 + j) := by
          have h1 := congrArg (· % ld) e
          have h2 := congrArg (· / ld) e
          simp only [Nat.add_mul_mod_self_right, Nat.add_mul_div_right _ _ hld,
            Nat.mod_eq_of_lt (show r0 + i' < ld by omega), Nat.mod_eq_of_lt (show r0 + i < ld by omega),
            Nat.div_eq_of_lt (show r0 + i' < ld by omega), Nat.div_eq_of_lt (show r0 + i < ld by omega)] at h1 h2
          omega
        have e2 : i' = i := by omega
        have e3 : j' = j := by omega
        rw [e2, e3]
      have hsome : ∃ v, lastWrite (blockWrites ld r0 c0 m n M) ((r0 + i) + (c0 + j) * ld) = some v ∧ v = M i j := by
        revert hin huniq
        generalize blockWrites ld r0 c0 m n M = ws
        intro hin huniq
        induction ws with
        | nil => simp at hin
        | cons w ws ih =>
          simp only [lastWrite]
          by_cases hm : (r0 + i + (c0 + j) * ld, M i j) ∈ ws
          · obtain ⟨v, e1, e2⟩ := ih hm (fun w' hw' => huniq w' (by simp [hw']))
            exact ⟨v, by simp [e1], e2⟩
          · cases hl : lastWrite ws (r0 + i + (c0 + j) * ld) with
            | some v =>
              refine ⟨v, rfl, ?_⟩
              have : ∀ (ws : List (Nat × V)) k v, lastWrite ws k = some v → ∃ w ∈ ws, w.1 = k ∧ w.2 = v := by
                intro ws k v
                induction ws with
                | nil => simp [lastWrite]
                | cons w ws ih2 =>
                  simp only [lastWrite]
                  cases h3 : lastWrite ws k with
                  | some v' =>
                    intro e; simp only [Option.some.injEq] at e; subst e
                    obtain ⟨w', hw', e'⟩ := ih2 h3
                    exact ⟨w', by simp [hw'], e'⟩
                  | none =>
                    intro e
                    by_cases ek : w.1 = k
                    · simp [ek] at e; exact ⟨w, by simp, ek, e⟩
                    · simp [ek] at e
              obtain ⟨w', hw', e1, e2⟩ := this ws _ v hl
              rw [← e2]; exact huniq w' (by simp [hw']) e1
            | none =>
              have : w = (r0 + i + (c0 + j) * ld, M i j) := by
                rcases List.mem_cons.1 hin with e | e
                · exact e.symm
                · exact absurd e hm
              exact ⟨M i j, by simp [this], rfl⟩
      obtain ⟨v, e1, e2⟩ := hsome
      rw [e1, e2]
    · intro r k hr hout
      by_cases hlt : r + k * ld < b.length
      · rw [writes_get _ _ _ hlt]
        have hnone : lastWrite (blockWrites ld r0 c0 m n M) (r + k * ld) = none := by
          have hno : ∀ w ∈ blockWrites ld r0 c0 m n M, w.1 ≠ r + k * ld := by
            intro w hw e
            simp only [blockWrites, List.mem_flatMap, List.mem_map, List.mem_range] at hw
            obtain ⟨j', hj', i', hi', rfl⟩ := hw
            simp only at e
            have hld : 0 < ld := by omega
            have h1 := congrArg (· % ld) e
            have h2 := congrArg (· / ld) e
            simp only [Nat.add_mul_mod_self_right, Nat.add_mul_div_right _ _ hld,
              Nat.mod_eq_of_lt (show r0 + i' < ld by omega), Nat.mod_eq_of_lt hr,
              Nat.div_eq_of_lt (show r0 + i' < ld by omega), Nat.div_eq_of_lt hr] at h1 h2
            exact hout ⟨by omega, by omega, by omega, by omega⟩
          revert hno
          generalize blockWrites ld r0 c0 m n M = ws
          intro hno
          induction ws with
          | nil => rfl
          | cons w ws ih =>
            simp only [lastWrite]
            rw [ih (fun w' hw' => hno w' (by simp [hw']))]
            simp [hno w (by simp)]
        rw [hnone]
      · rw [List.getElem?_eq_none (by rw [writes_length]; omega), List.getElem?_eq_none (by omega)]
  · simp at hs

example : ∃ s s', run (State.empty : State Nat) [.decl 2 2 1, .fill 0 5] = .ok s ∧
    (s.live 0).bind (fun o => o.space.map (holders s)) = some 1 ∧
    step s (submatrixAssignment 0 2 1 0 1 2 (fun _ j => 10 + j)) = .ok s' ∧
    s'.contents 0 = some [some 5, some 10, some 5, some 11] := ⟨_, _, rfl, rfl, rfl, rfl⟩

/-! ### C08 -/

/-- `x += y` (Element.cpp 217-225): both operands are passed by value (two copy constructions), the
sum is stored into the copy of the left operand through `ObtainWritePartialData`, the copy is
returned by value and, in an expression statement, everything is destroyed. `add i` is the value
`axpy_` stores at index `i`; `n` the length. (`-=`, 293-301, is the same with another `add`.) -/
def compoundAssign (s : State V) (x y n : Nat) (add : Nat → V) : List (Op V) :=
  let l := s.objs.length
  [.copyNew x, .copyNew y, .writePartial l ((List.range n).map fun i => (i, add i)), .copyNew l,
   .destroy (l + 1), .destroy l, .destroy (l + 2)]

/-- C08 violated for every `x`, `y`: after `x += y` (or `x -= y`) the left operand still has its old
entries. -/
theorem C08_compound_assignment_leaves_left {s s' : State V} (h : Reachable s) {x y n : Nat}
    {ox : Obj} {add : Nat → V} (hx : s.live x = some ox)
    (hs : run s (compoundAssign s x y n add) = .ok s') : s'.contents x = s.contents x := by
  have hxl := (List.getElem?_eq_some_iff.1 (live_eq hx)).1
  -- every operation of the sequence has a target different from `x`
  have gen : ∀ (ops : List (Op V)) (s1 s2 : State V), Reachable s1 → (∃ o, s1.live x = some o) →
      (∀ op ∈ ops, (∀ z ws, op ≠ .rawStore z ws) ∧ op.target ≠ some x) → run s1 ops = .ok s2 →
      s2.contents x = s1.contents x := by
    intro ops
    induction ops with
    | nil => intro s1 s2 _ _ _ h2; simp only [run, Out.ok.injEq] at h2; rw [h2]
    | cons op ops ih =>
      intro s1 s2 hr ho hall h2
      simp only [run] at h2
      obtain ⟨o1, ho1⟩ := ho
      rcases step_inv hr.inv op with h3 | ⟨h3, -⟩ | ⟨s3, h3, -⟩
      · simp [h3, Out.bind] at h2
      · simp [h3, Out.bind] at h2
      · obtain ⟨h4, h5⟩ := hall op (by simp)
        obtain ⟨g1, g2⟩ := C04_only_receiver_changes_partial hr op h4 h3 ho1 h5
        rw [h3] at h2
        have hr3 : Reachable s3 := by
          obtain ⟨ops0, h0⟩ := hr
          exact ⟨ops0 ++ [op], by rw [run_append, h0]; simp [Out.bind, run, h3]⟩
        have : ∃ o, s3.live x = some o := by
          unfold State.shape at g2; rw [ho1] at g2
          cases hl : s3.live x with
          | none => simp [hl] at g2
          | some o => exact ⟨o, rfl⟩
        rw [ih s3 s2 hr3 this (fun op' hm => hall op' (by simp [hm])) h2, g1]
  refine gen _ s s' h ⟨ox, hx⟩ ?_ hs
  intro op hop
  simp only [compoundAssign, List.mem_cons, List.not_mem_nil, or_false] at hop
  rcases hop with rfl | rfl | rfl | rfl | rfl | rfl | rfl <;> simp [Op.target] <;> omega

/-- Concrete instance: `x = [1]`, `y = [2]`, after `x += y` still `x = [1]`. -/
example : ∃ s s' : State Int, run State.empty
      [.decl 1 1 1, .fill 0 1, .decl 1 1 1, .fill 1 2] = .ok s ∧
    run s (compoundAssign s 0 1 1 fun _ => 3) = .ok s' ∧ s'.contents 0 = some [some 1] :=
  ⟨_, _, rfl, rfl, rfl⟩

end Verif.Mem
