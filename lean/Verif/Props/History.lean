import Verif.Solver.History
import Verif.Mem.Reach

/-!
# C160: the recorded series and their copies
-/

namespace Verif.Mem

variable {V : Type}

/-! ## Specification -/

/-- The object an operation changes; a newly constructed object does not count. -/
def Op.changes : Op V → Option Nat
  | .decl _ _ _ => none
  | .copyNew _ => none
  | .assign y _ => some y
  | .writePartial x _ => some x
  | .writeEntire x _ => some x
  | .fill x _ => some x
  | .reshape x _ _ _ => some x
  | .rawStore x _ => some x
  | .delete x => some x
  | .destroy x => some x

/-- What the rest of the program may do: anything but change the series itself (the user gets a `const` reference, or a copy) or store through raw pointers of its own. -/
def Safe (fs : Nat) (ops : List (Op V)) : Prop := ∀ op ∈ ops, op.changes ≠ some fs ∧ ∀ x ws, op ≠ .rawStore x ws

/-- The program the user has in mind: the series becomes a new vector, and each value is written to it with the accessor that protects copies. -/
def intended (verbose : Bool) (len : Nat) (fs : Nat) (n : Nat) (script : List (List (Op V) × Nat × V)) : List (Op V) :=
  (if verbose then [.decl len 1 1, .assign fs n, .destroy n] else []) ++ [.writePartial fs []] ++
    script.flatMap fun e => e.1 ++ if verbose then [.writePartial fs [(e.2.1, e.2.2)]] else []

/-! ## Lemmas -/

/-- An operation leaves alone every object it does not change. -/
theorem step_keeps {s s' : State V} (hI : Inv s) {op : Op V} (hop : ∀ x ws, op ≠ .rawStore x ws) (hs : step s op = .ok s') {z : Nat} (hz : z < s.objs.length) (ht : op.changes ≠ some z) :
    s'.live z = s.live z ∧ s'.contents z = s.contents z ∧ s.objs.length ≤ s'.objs.length := by
  have fin : ∀ {x}, Frame s s' x → z ≠ x → s'.live z = s.live z ∧ s'.contents z = s.contents z ∧ s.objs.length ≤ s'.objs.length :=
    fun h e => ⟨h.live z e, h.contents z e, Nat.le_of_eq h.len.symm⟩
  have app : ∀ r c n, ({ s with objs := s.objs ++ [some (initObj r c n)] } : State V).live z = s.live z := fun r c n => by
    simp only [State.live, (append_spec hI r c n).2.1 z hz]
  have app' : ∀ r c n, ({ s with objs := s.objs ++ [some (initObj r c n)] } : State V).contents z = s.contents z := fun r c n => by
    simp only [State.contents, app r c n]
  cases op with
  | rawStore x ws => exact absurd rfl (hop x ws)
  | decl r c n =>
    simp only [step, Out.ok.injEq] at hs
    subst hs
    exact ⟨app r c n, app' r c n, by simp⟩
  | copyNew x =>
    simp only [step] at hs
    cases h : s.live x with
    | none => simp [h] at hs
    | some o =>
      simp only [h] at hs
      have hx := live_eq h
      have hlt := (List.getElem?_eq_some_iff.1 hx).1
      split at hs
      · rename_i r c n tl hsz
        obtain ⟨h1, h2, h3⟩ := append_spec hI r c n
        obtain ⟨s'', h4, h5⟩ := copyTo_spec h1 ((h2 x hlt).trans hx) h3
        rw [h4] at hs
        obtain rfl : s'' = s' := by simpa using hs
        have e : z ≠ s.objs.length := by omega
        refine ⟨(h5.frame.live z e).trans (app r c n), (h5.frame.contents z e).trans (app' r c n), ?_⟩
        rw [h5.frame.len]; simp
      · simp at hs
  | assign y x =>
    simp only [step] at hs
    cases h : s.live x with
    | none => simp [h] at hs
    | some src =>
      cases h' : s.live y with
      | none => simp [h, h'] at hs
      | some dst =>
        simp only [h, h'] at hs
        obtain ⟨s'', h4, h5⟩ := copyTo_spec hI (live_eq h) (live_eq h')
        rw [h4] at hs
        obtain rfl : s'' = s' := by simpa using hs
        exact fin h5.frame fun e => ht (by simp [Op.changes, e])
  | writePartial x ws =>
    simp only [step] at hs
    cases h : s.live x with
    | none => simp [h] at hs
    | some o =>
      simp only [h] at hs
      split at hs
      · obtain ⟨s1, d, h1, h2, h3, h4, h7⟩ := copyOnWrite_spec hI (live_eq h)
        obtain ⟨s'', p, h5, h6, h8, h9, h10⟩ := thenStore_spec h2 h3 h4 (writes_length ws)
        rw [h1, h5] at hs
        obtain rfl : s'' = s' := by simpa using hs
        exact fin h8 fun e => ht (by simp [Op.changes, e])
      · simp at hs
  | writeEntire x ws =>
    simp only [step] at hs
    cases h : s.live x with
    | none => simp [h] at hs
    | some o =>
      simp only [h] at hs
      split at hs
      · obtain ⟨s1, d, h1, h2, h3, h4⟩ := newMemoryOnWrite_spec hI (live_eq h)
        obtain ⟨s'', p, h5, h6, h8, h9, h10⟩ := thenStore_spec h2 h3 h4 (writes_length ws)
        rw [h1, h5] at hs
        obtain rfl : s'' = s' := by simpa using hs
        exact fin h8 fun e => ht (by simp [Op.changes, e])
      · simp at hs
  | fill x v =>
    simp only [step] at hs
    cases h : s.live x with
    | none => simp [h] at hs
    | some o =>
      simp only [h] at hs
      obtain ⟨s1, d, h1, h2, h3, h4⟩ := newMemoryOnWrite_spec hI (live_eq h)
      obtain ⟨s'', p, h5, h6, h8, -⟩ := thenStore_spec (f := fun b => b.map fun _ => some v) h2 h3 h4 (by simp)
      rw [h1, h5] at hs
      obtain rfl : s'' = s' := by simpa using hs
      exact fin h8 fun e => ht (by simp [Op.changes, e])
  | reshape x r c n =>
    simp only [step] at hs
    cases h : s.live x with
    | none => simp [h] at hs
    | some o =>
      simp only [h] at hs
      split at hs
      · simp at hs
      · split at hs
        · rename_i e
          obtain rfl : _ = s' := by simpa using hs
          exact fin (reshape_spec hI (live_eq h) r c n e).2.1 fun e => ht (by simp [Op.changes, e])
        · simp at hs
  | delete x =>
    simp only [step] at hs
    cases h : s.live x with
    | none => simp [h] at hs
    | some o =>
      simp only [h] at hs
      obtain ⟨s'', h1, h2, h3, -⟩ := delete_spec hI (live_eq h)
      rw [h1] at hs
      obtain rfl : s'' = s' := by simpa using hs
      exact fin h3 fun e => ht (by simp [Op.changes, e])
  | destroy x =>
    simp only [step] at hs
    cases h : s.live x with
    | none => simp [h] at hs
    | some o =>
      simp only [h] at hs
      obtain ⟨s'', h1, h2, h3, -⟩ := destroy_spec hI (live_eq h)
      rw [h1] at hs
      obtain rfl : s'' = s' := by simpa using hs
      exact fin h3 fun e => ht (by simp [Op.changes, e])

theorem run_keeps {s s' : State V} (hI : Inv s) {ops : List (Op V)} {z : Nat} (hop : Safe z ops) (hs : run s ops = .ok s') (hz : z < s.objs.length) :
    s'.live z = s.live z ∧ s'.contents z = s.contents z ∧ s.objs.length ≤ s'.objs.length := by
  induction ops generalizing s with
  | nil => simp only [run, Out.ok.injEq] at hs; subst hs; exact ⟨rfl, rfl, Nat.le_refl _⟩
  | cons op ops ih =>
    simp only [run] at hs
    have h0 := hop op (by simp)
    rcases step_inv hI op with h1 | ⟨h1, -⟩ | ⟨s1, h1, h2⟩
    · simp [h1, Out.bind] at hs
    · simp [h1, Out.bind] at hs
    · rw [h1] at hs
      obtain ⟨a, b, c⟩ := step_keeps hI h0.2 h1 hz h0.1
      obtain ⟨a', b', c'⟩ := ih h2 (fun o ho => hop o (by simp [ho])) hs (by omega)
      exact ⟨a'.trans a, b'.trans b, Nat.le_trans c c'⟩

theorem srun_append (t : Vals V) (l1 l2 : List (Op V)) : srun t (l1 ++ l2) = (srun t l1).bind fun t => srun t l2 := by
  induction l1 generalizing t with
  | nil => rfl
  | cons op l1 ih =>
    simp only [List.cons_append, srun]
    cases sstep t op with
    | none => rfl
    | some t' => simpa using ih t'

/-- What holds between two stores: the pointer is still that of the series, and the entries to come have not been written. -/
structure Open (s : State V) (fs : Nat) (p : Addr) (todo : List Nat) : Prop where
  inv : Inv s
  live : ∃ o, s.live fs = some o ∧ o.space = some p
  blank : ∀ b, s.bufs p = some b → ∀ i ∈ todo, i < b.length → b[i]? = some none

theorem Open.buf {s : State V} {fs : Nat} {p : Addr} {todo : List Nat} (h : Open s fs p todo) : ∃ b, s.bufs p = some b ∧ s.contents fs = some b := by
  obtain ⟨o, h1, h2⟩ := h.live
  have hx := live_eq h1
  obtain ⟨-, b, hb⟩ := h.inv.heap.get (refs_pos hx ((h.inv.obj fs o hx).pair.trans h2))
  exact ⟨b, hb, by rw [contents_eq hx, h2]; exact hb⟩

theorem Open.run {s s' : State V} {fs : Nat} {p : Addr} {todo : List Nat} (h : Open s fs p todo) {ops : List (Op V)} (hop : Safe fs ops) (hs : Mem.run s ops = .ok s') : Open s' fs p todo := by
  obtain ⟨b, h1, h2⟩ := h.buf
  obtain ⟨o, h3, h4⟩ := h.live
  have hI' := run_inv h.inv ops hs
  obtain ⟨k1, k2, -⟩ := run_keeps h.inv hop hs (List.getElem?_eq_some_iff.1 (live_eq h3)).1
  have hl : s'.live fs = some o := k1.trans h3
  refine ⟨hI', ⟨o, hl, h4⟩, fun b' hb' => ?_⟩
  have : s'.contents fs = some b' := by rw [contents_eq (live_eq hl), h4]; exact hb'
  rw [k2, h2] at this
  obtain rfl : b = b' := by simpa using this
  exact h.blank b h1

/-- A store through the pointer. It is seen by the objects that share the memory, at an entry that none of them has. -/
theorem Open.store {s s' : State V} {t : Vals V} {fs : Nat} {p : Addr} {i : Nat} {todo : List Nat} {v : V} (h : Open s fs p (i :: todo)) (hR : Refines s t) (hi : i ∉ todo) (hs : storeAt s p i v = .ok s') :
    Open s' fs p todo ∧ (∃ t', sstep t (.writePartial fs [(i, v)]) = some t' ∧ Refines s' t') ∧
    (∀ z b0, s.contents z = some b0 → ∃ b1, s'.contents z = some b1 ∧ b1.length = b0.length ∧ ∀ (j : Nat) (a : V), b0[j]? = some (some a) → b1[j]? = some (some a)) ∧ s'.objs = s.objs ∧
    ∃ b1, s'.contents fs = some b1 ∧ b1[i]? = some (some v) := by
  obtain ⟨b, hb, hc⟩ := h.buf
  obtain ⟨o, hl, hp⟩ := h.live
  have hx := live_eq hl
  simp only [storeAt, hb] at hs
  by_cases hlt : i < b.length
  · rw [if_pos hlt] at hs
    have hlen := (h.inv.obj fs o hx).len p b hp hb
    obtain ⟨s1, e1, e2, e3, e4, e5, e6⟩ := storeRaw_spec (f := fun b => b.set i (some v)) h.inv hx hp hb (by simp)
    have hs1 : s1 = s' := by
      simp only [storeRaw, hp, hb] at e1
      rw [if_neg (by omega)] at e1
      have := e1.symm.trans hs
      simpa using this
    subst hs1
    have hbn : b[i]? = some none := h.blank b hb i (by simp) hlt
    -- every object sees what it saw, where it saw something
    have hsee : ∀ z b0, s.contents z = some b0 → ∃ b1, s1.contents z = some b1 ∧ b1.length = b0.length ∧ ∀ (j : Nat) (a : V), b0[j]? = some (some a) → b1[j]? = some (some a) := by
      intro z b0 hz
      cases hzo : s.objs[z]? with
      | none => simp [State.contents, State.live, hzo] at hz
      | some w =>
        cases w with
        | none => simp [State.contents, State.live, hzo] at hz
        | some oz =>
          by_cases e : oz.space = some p
          · have hz' : s.contents z = some b := by rw [contents_eq hzo, e]; exact hb
            rw [hz'] at hz
            obtain rfl : b = b0 := by simpa using hz
            have hz1 : s1.contents z = some (b.set i (some v)) := by
              have h5 := e5
              rw [contents_eq (show s1.objs[fs]? = some (some o) by rw [e3]; exact hx), hp] at h5
              rw [contents_eq (show s1.objs[z]? = some (some oz) by rw [e3]; exact hzo), e]
              exact h5
            refine ⟨_, hz1, by simp, fun j a hj => ?_⟩
            have : i ≠ j := by rintro rfl; rw [hbn] at hj; simp at hj
            rw [List.getElem?_set_ne this]; exact hj
          · exact ⟨b0, by rw [e6 z oz hzo e]; exact hz, rfl, fun j a hj => hj⟩
    have hnone : ∀ z, s.contents z = none → s1.contents z = none := by
      intro z hz
      cases hzo : s.objs[z]? with
      | none => simp [State.contents, State.live, e3, hzo]
      | some w =>
        cases w with
        | none => simp [State.contents, State.live, e3, hzo]
        | some oz =>
          by_cases e : oz.space = some p
          · rw [contents_eq hzo, e] at hz
            simp [hb] at hz
          · rw [e6 z oz hzo e]; exact hz
    have hkeep : ∀ z w, Shows s z w → Shows s1 z w := by
      intro z w hS
      refine ⟨by rw [e4]; exact hS.len, fun hd => hnone z (hS.empty hd), fun d hd => ?_⟩
      obtain ⟨b0, g1, g2, g3⟩ := hS.entries d hd
      obtain ⟨b1, k1, k2, k3⟩ := hsee z b0 g1
      exact ⟨b1, k1, k2.trans g2, fun j a hj hja => k3 j a (g3 j a hj hja)⟩
    refine ⟨⟨e2, ⟨o, (e4 fs).trans hl, hp⟩, fun b' hb' j hj hjl => ?_⟩, ?_, hsee, e3, _, e5, by simp [hlt]⟩
    · have : s1.contents fs = some b' := by
        rw [contents_eq (show s1.objs[fs]? = some (some o) by rw [e3]; exact hx), hp]; exact hb'
      rw [e5] at this
      obtain rfl : b.set i (some v) = b' := by simpa using this
      have hij : i ≠ j := by rintro rfl; exact hi hj
      rw [List.getElem?_set_ne hij]
      exact h.blank b hb j (by simp [hj]) (by simpa using hjl)
    · obtain ⟨w, hw, hwl, hS, hol⟩ := hR.val hl
      refine ⟨_, by simp only [sstep, hw]; rfl, ⟨by rw [e3, hR.count]; simp, fun z hz => ?_, fun z w' hz => ?_⟩⟩
      · by_cases e : z = fs
        · subst e; rw [get_set_self _ hwl] at hz; simp at hz
        · rw [get_set_ne _ e] at hz
          rw [e4]; exact hR.dead z hz
      · by_cases e : z = fs
        · subst e
          rw [get_set_self _ hwl] at hz
          obtain rfl : _ = w' := by simpa using hz
          refine shows_store (o := o) ((e4 z).trans hl) rfl hol e5 (by simp [hlen, hol]) fun j a hj hja => ?_
          simp only [overwrite, lastWrite] at hja
          by_cases hij : i = j
          · subst hij
            simp only [if_true] at hja
            obtain rfl : v = a := by simpa using hja
            rw [List.getElem?_set_self hlt]
          · simp only [if_neg hij] at hja
            cases hd : w.data with
            | none => simp [hd] at hja
            | some d =>
              obtain ⟨b0, g1, g2, g3⟩ := hS.entries d hd
              rw [hc] at g1
              obtain rfl : b = b0 := by simpa using g1
              rw [List.getElem?_set_ne hij]
              exact g3 j a hj (by simpa [hd] using hja)
        · rw [get_set_ne _ e] at hz
          exact hkeep z w' (hR.shows_ z w' hz)
  · rw [if_neg hlt] at hs
    simp at hs

/-- The stores of a run, from a state in which the series is open. -/
theorem record_sim {fs : Nat} {p : Addr} (script : List (List (Op V) × Nat × V)) (hsafe : ∀ e ∈ script, Safe fs e.1) (hnd : (script.map fun e => e.2.1).Nodup) {s s' : State V} {t : Vals V}
    (h : Open s fs p (script.map fun e => e.2.1)) (hR : Refines s t) (hs : record true p script s = .ok s') :
    Inv s' ∧ ∃ t', srun t (script.flatMap fun e => e.1 ++ [.writePartial fs [(e.2.1, e.2.2)]]) = some t' ∧ Refines s' t' := by
  induction script generalizing s t with
  | nil =>
    simp only [record, Out.ok.injEq] at hs
    subst hs
    exact ⟨h.inv, t, rfl, hR⟩
  | cons e rest ih =>
    obtain ⟨ops, i, v⟩ := e
    simp only [record] at hs
    have hso := hsafe (ops, i, v) (by simp)
    cases hr : run s ops with
    | client => simp [hr, Out.bind] at hs
    | ub => simp [hr, Out.bind] at hs
    | ok s1 =>
      rw [hr] at hs
      simp only [Out.bind, if_true] at hs
      have h1 := h.run hso hr
      obtain ⟨t1, e1, e2⟩ := run_sim h.inv hR ops (fun x ws hm => (hso _ hm).2 x ws rfl) hr
      simp only [List.map_cons, List.nodup_cons] at hnd h1
      cases hst : storeAt s1 p i v with
      | client => simp [hst] at hs
      | ub => simp [hst] at hs
      | ok s2 =>
        rw [hst] at hs
        obtain ⟨h2, ⟨t2, f1, f2⟩, -⟩ := h1.store e2 hnd.1 hst
        obtain ⟨k1, t', k2, k3⟩ := ih (fun e he => hsafe e (by simp [he])) hnd.2 h2 f2 hs
        refine ⟨k1, t', ?_, k3⟩
        simp only [List.flatMap_cons, List.append_assoc, srun_append, e1, Option.bind_some]
        simpa [srun, f1] using k2

/-- Without stores there is only the rest of the program. -/
theorem record_quiet (p : Addr) (script : List (List (Op V) × Nat × V)) (s : State V) : record false p script s = run s (script.flatMap fun e => e.1) := by
  induction script generalizing s with
  | nil => rfl
  | cons e rest ih =>
    obtain ⟨ops, i, v⟩ := e
    simp only [record, List.flatMap_cons, run_append]
    cases run s ops with
    | client => rfl
    | ub => rfl
    | ok s1 => simpa [Out.bind] using ih s1

/-- The write accessor on the series is the operation `writePartial` without stores. -/
theorem open_accessor {fs : Nat} {s s' : State V} {o o' : Obj} {p : Addr} (hI : Inv s) (hl : s.live fs = some o) (hc : copyOnWrite s fs o = .ok s') (hl' : s'.live fs = some o') (hp : o'.space = some p) :
    step s (.writePartial fs []) = .ok s' := by
  obtain ⟨s1, d, h1, h2, h3, h4, h5⟩ := copyOnWrite_spec hI (live_eq hl)
  rw [hc] at h1
  obtain rfl : s' = s1 := by simpa using h1
  obtain ⟨⟨q, hx, hr, hb⟩, hlen⟩ := h4
  have e := live_of hx
  rw [hl'] at e
  obtain rfl : o' = _ := by simpa using e
  have hpq : q = p := by simpa using hp
  subst hpq
  have hu : upd s'.bufs q (some d) = s'.bufs := by
    funext a
    by_cases ha : a = q
    · subst ha; simp [upd, hb]
    · simp [upd, ha]
  simp only [step, hl, hc]
  simp [thenStore, Out.bind, hl', storeRaw, hb, hlen, writes, hu]

/-- The beginning of a run. -/
theorem open_sim {fs : Nat} (verbose : Bool) (len : Nat) {s s' : State V} {t : Vals V} {p : Addr} (hI : Inv s) (hR : Refines s t) (hs : openSeries verbose len fs s = .ok (s', p)) :
    (∀ todo, verbose = true → Open s' fs p todo) ∧ Open s' fs p [] ∧ ∃ t', srun t ((if verbose then [.decl len 1 1, .assign fs s.objs.length, .destroy s.objs.length] else []) ++ [.writePartial fs []]) = some t' ∧ Refines s' t' := by
  unfold openSeries at hs
  -- the state after the assignment
  have key : ∀ s1 t1, Inv s1 → Refines s1 t1 → (match s1.live fs with
      | none => .client
      | some o => (copyOnWrite s1 fs o).bind fun s => match (s.live fs).bind Obj.space with
        | none => .ub
        | some p => .ok (s, p) : Out (State V × Addr)) = .ok (s', p) →
      Open s' fs p [] ∧ (s1.contents fs = none → ∀ todo, Open s' fs p todo) ∧ ∃ t', sstep t1 (.writePartial fs []) = some t' ∧ Refines s' t' := by
    intro s1 t1 hI1 hR1 h1
    cases hl : s1.live fs with
    | none => simp [hl] at h1
    | some o =>
      obtain ⟨s2, d, c1, c2, c3, c4, c5⟩ := copyOnWrite_spec hI1 (live_eq hl)
      simp only [hl, c1, Out.bind] at h1
      obtain ⟨⟨q, hx, hr, hb⟩, hlen⟩ := c4
      have hl2 := live_of hx
      simp only [hl2, Option.bind_some, Out.ok.injEq, Prod.mk.injEq] at h1
      obtain ⟨rfl, rfl⟩ := h1
      refine ⟨⟨c2, ⟨_, hl2, rfl⟩, by simp⟩, fun hn todo => ⟨c2, ⟨_, hl2, rfl⟩, fun b hb' i _ hi => ?_⟩, step_sim hI1 hR1 _ (by simp) (open_accessor hI1 hl c1 hl2 rfl)⟩
      rw [hb] at hb'
      obtain rfl : d = b := by simpa using hb'
      rw [hn] at c5
      subst c5
      have hi' : i < o.length := by simpa using hi
      simp [hi']
  cases verbose with
  | false =>
    simp only [Bool.false_eq_true, if_false, Out.bind] at hs
    obtain ⟨k1, k2, t', k3, k4⟩ := key s t hI hR hs
    exact ⟨by simp, k1, t', by simp [srun, k3], k4⟩
  | true =>
    simp only [if_true] at hs
    cases hr : run s [.decl len 1 1, .assign fs s.objs.length, .destroy s.objs.length] with
    | client => simp [hr, Out.bind] at hs
    | ub => simp [hr, Out.bind] at hs
    | ok s1 =>
      rw [hr] at hs
      simp only [Out.bind] at hs
      have hI1 := run_inv hI _ hr
      obtain ⟨t1, e1, hR1⟩ := run_sim hI hR _ (by simp) hr
      obtain ⟨k1, k2, t', k3, k4⟩ := key s1 t1 hI1 hR1 hs
      refine ⟨fun todo _ => k2 ?_ todo, k1, t', ?_, k4⟩
      · obtain ⟨o, hl, -⟩ := k1.live
        have hl1 : ∃ o, s1.live fs = some o := by
          cases h : s1.live fs with
          | none => simp [h] at hs
          | some o => exact ⟨o, rfl⟩
        obtain ⟨o1, hl1⟩ := hl1
        obtain ⟨v, hv, hvl, hS, -⟩ := hR1.val hl1
        refine hS.empty ?_
        rw [hR.count] at e1
        simp only [srun, sstep, Option.bind_some] at e1
        have hn : Vals.get (t ++ [some (⟨[len, 1, 1], len * 1 * 1, none⟩ : Val V)]) t.length = some ⟨[len, 1, 1], len * 1 * 1, none⟩ := by simp [Vals.get]
        rw [hn] at e1
        simp only [Option.bind_some] at e1
        cases hf : Vals.get (t ++ [some (⟨[len, 1, 1], len * 1 * 1, none⟩ : Val V)]) fs with
        | none => rw [hf] at e1; simp at e1
        | some w =>
          simp only [hf, Option.map_some, Option.bind_some] at e1
          have hfl := get_lt hf
          cases hd : Vals.get ((t ++ [some (⟨[len, 1, 1], len * 1 * 1, none⟩ : Val V)]).set fs (some ⟨[len, 1, 1], len * 1 * 1, none⟩)) t.length with
          | none => rw [hd] at e1; simp at e1
          | some w2 =>
            simp only [hd, Option.map_some, Option.bind_some, Option.some.injEq] at e1
            subst e1
            by_cases e : fs = t.length
            · subst e
              rw [get_set_self _ (by simp)] at hv
              simp at hv
            · rw [get_set_ne _ e, get_set_self _ hfl] at hv
              obtain rfl : _ = v := by simpa using hv
              rfl
      · simp only [if_true, srun_append, e1, Option.bind_some]
        simp [srun, k3]

/-! ## The theorems -/

/-- **C160, refinement.** Storing through the raw pointer during the whole run, with arbitrary work of the rest of the program in between, copies of the series included, has the effect of the intended program under deep-copy semantics, provided that no
entry is stored twice. -/
theorem C160_value {fs : Nat} (verbose : Bool) (len : Nat) (script : List (List (Op V) × Nat × V)) (hsafe : ∀ e ∈ script, Safe fs e.1) (hnd : (script.map fun e => e.2.1).Nodup) {s s' : State V} {t : Vals V} (hI : Inv s) (hR : Refines s t)
    (hs : runSeries verbose len fs script s = .ok s') : Inv s' ∧ ∃ t', srun t (intended verbose len fs s.objs.length script) = some t' ∧ Refines s' t' := by
  unfold runSeries at hs
  cases ho : openSeries verbose len fs s with
  | client => simp [ho, Out.bind] at hs
  | ub => simp [ho, Out.bind] at hs
  | ok q =>
    obtain ⟨s1, p⟩ := q
    rw [ho] at hs
    simp only [Out.bind] at hs
    obtain ⟨h1, h2, t1, e1, hR1⟩ := open_sim verbose len hI hR ho
    unfold intended
    rw [srun_append, e1, Option.bind_some]
    cases verbose with
    | true => simpa using record_sim script hsafe hnd (h1 _ rfl) hR1 hs
    | false =>
      rw [record_quiet] at hs
      obtain ⟨t', k1, k2⟩ := run_sim h2.inv hR1 _ (fun x ws hm => by
        obtain ⟨e, he, hm⟩ := List.mem_flatMap.mp hm
        exact (hsafe e he _ hm).2 x ws rfl) hs
      exact ⟨run_inv h2.inv _ hs, t', by simpa using k1, k2⟩

/-- Entries that are there stay there. -/
def Keeps (s s' : State V) (y : Nat) : Prop :=
  ∀ b, s.contents y = some b → ∃ b', s'.contents y = some b' ∧ b'.length = b.length ∧ ∀ (j : Nat) (a : V), b[j]? = some (some a) → b'[j]? = some (some a)

theorem Keeps.of_eq {s s' : State V} {y : Nat} (h : s'.contents y = s.contents y) : Keeps s s' y := fun b hb => ⟨b, h.trans hb, rfl, fun _ _ h => h⟩

theorem Keeps.trans {s s' s'' : State V} {y : Nat} (h : Keeps s s' y) (h' : Keeps s' s'' y) : Keeps s s'' y := by
  intro b hb
  obtain ⟨b1, a1, a2, a3⟩ := h b hb
  obtain ⟨b2, c1, c2, c3⟩ := h' b1 a1
  exact ⟨b2, c1, c2.trans a2, fun j a hj => c3 j a (a3 j a hj)⟩

theorem record_keeps {fs : Nat} {p : Addr} (script : List (List (Op V) × Nat × V)) (hsafe : ∀ e ∈ script, Safe fs e.1) (hnd : (script.map fun e => e.2.1).Nodup) {s s' : State V} {t : Vals V}
    (h : Open s fs p (script.map fun e => e.2.1)) (hR : Refines s t) (hs : record true p script s = .ok s') {y : Nat} (hy : ∀ e ∈ script, Safe y e.1) (hyl : y < s.objs.length) : Keeps s s' y := by
  induction script generalizing s t with
  | nil =>
    simp only [record, Out.ok.injEq] at hs
    subst hs
    exact .of_eq rfl
  | cons e rest ih =>
    obtain ⟨ops, i, v⟩ := e
    simp only [record] at hs
    have hso := hsafe (ops, i, v) (by simp)
    cases hr : run s ops with
    | client => simp [hr, Out.bind] at hs
    | ub => simp [hr, Out.bind] at hs
    | ok s1 =>
      rw [hr] at hs
      simp only [Out.bind, if_true] at hs
      have h1 := h.run hso hr
      obtain ⟨t1, e1, e2⟩ := run_sim h.inv hR ops (fun x ws hm => (hso _ hm).2 x ws rfl) hr
      obtain ⟨-, k2, k3⟩ := run_keeps h.inv (hy (ops, i, v) (by simp)) hr hyl
      simp only [List.map_cons, List.nodup_cons] at hnd h1
      cases hst : storeAt s1 p i v with
      | client => simp [hst] at hs
      | ub => simp [hst] at hs
      | ok s2 =>
        rw [hst] at hs
        obtain ⟨h2, ⟨t2, f1, f2⟩, f3, f4, -⟩ := h1.store e2 hnd.1 hst
        exact ((Keeps.of_eq k2).trans (f3 y)).trans (ih (fun e he => hsafe e (by simp [he])) hnd.2 h2 f2 hs (fun e he => hy e (by simp [he])) (by rw [f4]; omega))

theorem record_append (verbose : Bool) (p : Addr) (l1 l2 : List (List (Op V) × Nat × V)) (s : State V) : record verbose p (l1 ++ l2) s = (record verbose p l1 s).bind fun s => record verbose p l2 s := by
  induction l1 generalizing s with
  | nil => rfl
  | cons e l1 ih =>
    obtain ⟨ops, i, v⟩ := e
    simp only [List.cons_append, record]
    cases run s ops with
    | client => rfl
    | ub => rfl
    | ok s1 =>
      simp only [Out.bind]
      cases (if verbose then storeAt s1 p i v else .ok s1) with
      | client => rfl
      | ub => rfl
      | ok s2 => exact ih s2

/-- A run up to some store, and the rest of it. -/
theorem runSeries_split {fs : Nat} (len : Nat) (pre : List (List (Op V) × Nat × V)) (ops : List (Op V)) (i : Nat) (v : V) (post : List (List (Op V) × Nat × V)) (hsafe : ∀ e ∈ pre ++ (ops, i, v) :: post, Safe fs e.1)
    (hnd : ((pre ++ (ops, i, v) :: post).map fun e => e.2.1).Nodup) {s s' : State V} {t : Vals V} (hI : Inv s) (hR : Refines s t) (hs : runSeries true len fs (pre ++ (ops, i, v) :: post) s = .ok s') :
    ∃ s0 s1 s2 p t1, runSeries true len fs pre s = .ok s0 ∧ run s0 ops = .ok s1 ∧ storeAt s1 p i v = .ok s2 ∧ record true p post s2 = .ok s' ∧ Open s1 fs p (i :: post.map fun e => e.2.1) ∧ Refines s1 t1 := by
  unfold runSeries at hs ⊢
  cases ho : openSeries true len fs s with
  | client => simp [ho, Out.bind] at hs
  | ub => simp [ho, Out.bind] at hs
  | ok q =>
    obtain ⟨sa, p⟩ := q
    rw [ho] at hs
    simp only [Out.bind] at hs ⊢
    obtain ⟨h1, -, ta, ea, hRa⟩ := open_sim true len hI hR ho
    rw [record_append] at hs
    cases hp : record true p pre sa with
    | client => simp [hp, Out.bind] at hs
    | ub => simp [hp, Out.bind] at hs
    | ok s0 =>
      rw [hp] at hs
      simp only [Out.bind, record] at hs
      cases hr : run s0 ops with
      | client => simp [hr] at hs
      | ub => simp [hr] at hs
      | ok s1 =>
        rw [hr] at hs
        simp only [if_true] at hs
        cases hst : storeAt s1 p i v with
        | client => simp [hst] at hs
        | ub => simp [hst] at hs
        | ok s2 =>
          rw [hst] at hs
          have hopen : ∀ (l rest : List (List (Op V) × Nat × V)) (sx sy : State V) (tx : Vals V), (∀ e ∈ l, Safe fs e.1) → ((l ++ rest).map fun e => e.2.1).Nodup → Open sx fs p ((l ++ rest).map fun e => e.2.1) → Refines sx tx →
              record true p l sx = .ok sy → Open sy fs p (rest.map fun e => e.2.1) ∧ ∃ ty, Refines sy ty := by
            intro l
            induction l with
            | nil =>
              intro rest sx sy tx _ _ ho hR hs
              simp only [record, Out.ok.injEq] at hs
              subst hs
              exact ⟨by simpa using ho, tx, hR⟩
            | cons e l ih =>
              intro rest sx sy tx hsf hn ho hR hs
              obtain ⟨o1, i1, v1⟩ := e
              have hso := hsf (o1, i1, v1) (by simp)
              simp only [record] at hs
              cases hr : run sx o1 with
              | client => simp [hr, Out.bind] at hs
              | ub => simp [hr, Out.bind] at hs
              | ok sb =>
                rw [hr] at hs
                simp only [Out.bind, if_true] at hs
                have g1 := ho.run hso hr
                obtain ⟨tb, -, g2⟩ := run_sim ho.inv hR o1 (fun x ws hm => (hso _ hm).2 x ws rfl) hr
                simp only [List.cons_append, List.map_cons, List.nodup_cons] at hn g1
                cases hst : storeAt sb p i1 v1 with
                | client => simp [hst] at hs
                | ub => simp [hst] at hs
                | ok sc =>
                  rw [hst] at hs
                  obtain ⟨g3, ⟨tc, -, g4⟩, -⟩ := g1.store g2 hn.1 hst
                  exact ih rest sc sy tc (fun e he => hsf e (by simp [he])) hn.2 g3 g4 hs
          obtain ⟨k1, t0, k2⟩ := hopen pre ((ops, i, v) :: post) sa s0 ta (fun e he => hsafe e (by simp [he])) hnd (h1 _ rfl) hRa hp
          have hso := hsafe (ops, i, v) (by simp)
          obtain ⟨t1, -, k3⟩ := run_sim k1.inv k2 ops (fun x ws hm => (hso _ hm).2 x ws rfl) hr
          exact ⟨s0, s1, s2, p, t1, rfl, hr, hst, hs, by simpa using k1.run hso hr, k3⟩

/-- **C160, copies.** A copy of the series that some callback takes during the run keeps, to the end of the run, every entry it had when it was taken, as long as nobody writes to it; and so does every other object. -/
theorem C160_copy {fs : Nat} (len : Nat) (pre : List (List (Op V) × Nat × V)) (ops : List (Op V)) (i : Nat) (v : V) (post : List (List (Op V) × Nat × V)) (hsafe : ∀ e ∈ pre ++ (ops, i, v) :: post, Safe fs e.1)
    (hnd : ((pre ++ (ops, i, v) :: post).map fun e => e.2.1).Nodup) {s s' : State V} {t : Vals V} (hI : Inv s) (hR : Refines s t) (hs : runSeries true len fs (pre ++ (ops, i, v) :: post) s = .ok s') :
    ∃ s0 s1, runSeries true len fs pre s = .ok s0 ∧ run s0 ops = .ok s1 ∧ ∀ y < s1.objs.length, (∀ e ∈ post, Safe y e.1) → Keeps s1 s' y := by
  obtain ⟨s0, s1, s2, p, t1, h1, h2, h3, h4, h5, h6⟩ := runSeries_split len pre ops i v post hsafe hnd hI hR hs
  refine ⟨s0, s1, h1, h2, fun y hy hp => ?_⟩
  have hn : i ∉ post.map (fun e => e.2.1) ∧ (post.map fun e => e.2.1).Nodup := by
    rw [List.map_append, List.nodup_append] at hnd
    simpa using hnd.2.1
  obtain ⟨k1, ⟨t2, -, k2⟩, k3, k4, -⟩ := h5.store h6 hn.1 h3
  exact Keeps.trans (k3 y) (record_keeps post (fun e he => hsafe e (by simp [he])) hn.2 k1 k2 h4 hp (by rw [k4]; exact hy))

/-- **C160, history.** After the run the series holds every recorded value. -/
theorem C160_history {fs : Nat} (len : Nat) (script : List (List (Op V) × Nat × V)) (hsafe : ∀ e ∈ script, Safe fs e.1) (hnd : (script.map fun e => e.2.1).Nodup) {s s' : State V} {t : Vals V} (hI : Inv s) (hR : Refines s t)
    (hs : runSeries true len fs script s = .ok s') {ops : List (Op V)} {i : Nat} {v : V} (hm : (ops, i, v) ∈ script) : ∃ b, s'.contents fs = some b ∧ b[i]? = some (some v) := by
  obtain ⟨pre, post, rfl⟩ := List.append_of_mem hm
  obtain ⟨s0, s1, s2, p, t1, h1, h2, h3, h4, h5, h6⟩ := runSeries_split len pre ops i v post hsafe hnd hI hR hs
  have hn : i ∉ post.map (fun e => e.2.1) ∧ (post.map fun e => e.2.1).Nodup := by
    rw [List.map_append, List.nodup_append] at hnd
    simpa using hnd.2.1
  obtain ⟨k1, ⟨t2, -, k2⟩, -, -, b, k5, k6⟩ := h5.store h6 hn.1 h3
  obtain ⟨o, hl, -⟩ := k1.live
  have hf : ∀ e ∈ post, Safe fs e.1 := fun e he => hsafe e (by simp [he])
  obtain ⟨b', g1, -, g3⟩ := record_keeps post hf hn.2 k1 k2 h4 hf (List.getElem?_eq_some_iff.1 (live_eq hl)).1 b k5
  exact ⟨b', g1, g3 i v k6⟩

/-- The hypothesis on the indices holds for the function values, times and gradient norms of every run. -/
theorem C160_indices (k : Nat) : (stdIdx k).Nodup ∧ (∀ i ∈ stdIdx k, i < 1 + k) ∧ (1 ≤ k → ¬(subIdx k).Nodup) := by
  refine ⟨List.nodup_range, fun i hi => by simp [stdIdx] at hi; omega, fun hk h => ?_⟩
  simp only [subIdx, List.nodup_cons, List.mem_range] at h
  exact h.1 hk

theorem run_no_ub {s : State V} (hI : Inv s) (hS : Shaped s) (ops : List (Op V)) (h : ∀ x, Op.delete x ∉ ops) : run s ops ≠ .ub := by
  intro hub
  obtain ⟨pre, op, post, s', e1, e2, e3⟩ := run_ub hI ops hub
  have hS : Shaped s' := run_shaped hI hS pre (fun x hm => h x (by rw [e1]; simp [hm])) e2
  cases op with
  | copyNew x => obtain ⟨o, h1, h2⟩ := e3; exact hS x o h1 h2
  | reshape x r c n => obtain ⟨o, h1, h2⟩ := e3; exact hS x o h1 h2
  | _ => exact e3

theorem record_no_ub {fs len : Nat} {p : Addr} (script : List (List (Op V) × Nat × V)) (hsafe : ∀ e ∈ script, Safe fs e.1) (hdel : ∀ e ∈ script, ∀ x, Op.delete x ∉ e.1) (hlt : ∀ e ∈ script, e.2.1 < len) {s : State V} (hI : Inv s) (hS : Shaped s)
    (hl : ∃ o, s.live fs = some o ∧ o.space = some p ∧ o.length = len) : record true p script s ≠ .ub := by
  induction script generalizing s with
  | nil => simp [record]
  | cons e rest ih =>
    obtain ⟨ops, i, v⟩ := e
    obtain ⟨o, hl1, hl2, hl3⟩ := hl
    simp only [record]
    have hso := hsafe (ops, i, v) (by simp)
    cases hr : run s ops with
    | client => simp [Out.bind]
    | ub => exact absurd hr (run_no_ub hI hS ops (hdel (ops, i, v) (by simp)))
    | ok s1 =>
      have hI1 := run_inv hI ops hr
      have hS1 := run_shaped hI hS ops (hdel (ops, i, v) (by simp)) hr
      obtain ⟨k1, -, -⟩ := run_keeps hI hso hr (List.getElem?_eq_some_iff.1 (live_eq hl1)).1
      have hl' := k1.trans hl1
      have hx := live_eq hl'
      obtain ⟨-, b, hb⟩ := hI1.heap.get (refs_pos hx ((hI1.obj fs o hx).pair.trans hl2))
      have hlen := (hI1.obj fs o hx).len p b hl2 hb
      have hi : i < b.length := by have := hlt (ops, i, v) (by simp); simp only at this; omega
      obtain ⟨s2, e1, e2, e3, e4, -⟩ := storeRaw_spec (f := fun b => b.set i (some v)) hI1 hx hl2 hb (by simp)
      have hst : storeAt s1 p i v = .ok s2 := by
        simp only [storeRaw, hl2, hb] at e1
        rw [if_neg (by omega)] at e1
        simp only [storeAt, hb, if_pos hi]
        exact e1
      simp only [Out.bind, if_true, hst]
      exact ih (fun e he => hsafe e (by simp [he])) (fun e he => hdel e (by simp [he])) (fun e he => hlt e (by simp [he])) e2 (fun x ox hx => hS1 x ox (by rw [← e4]; exact hx)) ⟨o, (e4 fs).trans hl', hl2, hl3⟩

/-- The new series has the requested length. -/
theorem open_len {fs len : Nat} {s s1 : State V} {o : Obj} (hI : Inv s) (hr : run s [.decl len 1 1, .assign fs s.objs.length, .destroy s.objs.length] = .ok s1) (hl : s1.live fs = some o) : o.length = len := by
  obtain ⟨h1, h2, h3⟩ := append_spec hI len 1 1
  simp only [run, step, Out.bind, live_of h3] at hr
  cases hf : ({ s with objs := s.objs ++ [some (initObj len 1 1)] } : State V).live fs with
  | none => simp [hf] at hr
  | some dst =>
    obtain ⟨s2, c1, c2⟩ := copyTo_spec h1 h3 (live_eq hf)
    simp only [hf, c1] at hr
    cases hd : s2.live s.objs.length with
    | none => simp [hd] at hr
    | some od =>
      obtain ⟨s3, d1, d2, d3, d4⟩ := destroy_spec c2.inv (live_eq hd)
      simp only [hd, d1, Out.ok.injEq] at hr
      subst hr
      by_cases e : fs = s.objs.length
      · rw [e, d4] at hl; simp at hl
      · rw [d3.live fs e] at hl
        obtain ⟨o', g1, g2, -⟩ := c2.live
        rw [hl] at g1
        obtain rfl : o = o' := by simpa using g1
        rw [g2]
        simp [initObj, shapeLen]

/-- **C160, memory safety.** As long as the indices are below the length of the series and nothing is deleted with `Delete()`, no store of the run goes through a dangling pointer or past the end of the memory, whatever the callbacks do with the copies. -/
theorem C160_no_ub {fs : Nat} (verbose : Bool) (len : Nat) (script : List (List (Op V) × Nat × V)) (hsafe : ∀ e ∈ script, Safe fs e.1) (hdel : ∀ e ∈ script, ∀ x, Op.delete x ∉ e.1) (hlt : ∀ e ∈ script, e.2.1 < len) {s : State V} (hI : Inv s) (hS : Shaped s) :
    runSeries verbose len fs script s ≠ .ub := by
  unfold runSeries openSeries
  have key : ∀ s1 : State V, Inv s1 → Shaped s1 → (verbose = true → ∀ o, s1.live fs = some o → o.length = len) →
      ((match s1.live fs with
      | none => .client
      | some o => (copyOnWrite s1 fs o).bind fun s => match (s.live fs).bind Obj.space with
        | none => .ub
        | some p => .ok (s, p) : Out (State V × Addr)).bind fun q => record verbose q.2 script q.1) ≠ .ub := by
    intro s1 hI1 hS1 ho
    cases hl : s1.live fs with
    | none => simp [Out.bind]
    | some o =>
      obtain ⟨s2, d, c1, c2, c3, c4, c5⟩ := copyOnWrite_spec hI1 (live_eq hl)
      obtain ⟨⟨q, hx, hr, hb⟩, hlen⟩ := c4
      have hl2 := live_of hx
      simp only [c1, Out.bind, hl2, Option.bind_some]
      have hS2 : Shaped s2 := by
        refine hS1.frame c3 (o' := _) hl2 ?_
        exact hS1 fs o hl
      cases verbose with
      | false =>
        rw [record_quiet]
        refine run_no_ub c2 hS2 _ fun x hm => ?_
        obtain ⟨e, he, hm⟩ := List.mem_flatMap.mp hm
        exact hdel e he x hm
      | true => exact record_no_ub script hsafe hdel hlt c2 hS2 ⟨_, hl2, rfl, ho rfl o hl⟩
  cases verbose with
  | false =>
    simp only [Bool.false_eq_true, if_false]
    exact key s hI hS (by simp)
  | true =>
    simp only [if_true]
    have hd : ∀ x, Op.delete x ∉ ([.decl len 1 1, .assign fs s.objs.length, .destroy s.objs.length] : List (Op V)) := by simp
    cases hr : run s [.decl len 1 1, .assign fs s.objs.length, .destroy s.objs.length] with
    | client => simp [Out.bind]
    | ub => exact absurd hr (run_no_ub hI hS _ hd)
    | ok s1 =>
      refine key s1 (run_inv hI _ hr) (run_shaped hI hS _ hd hr) fun _ o hl => open_len hI hr hl

/-- **C160, negation.** The norms of the search directions recorded by the subgradient solvers are stored twice at entry 0: a copy taken in between shows the second value at the end of the run, although it had the first one when it was taken. -/
theorem C160_sub_dir (len : Nat) (hlen : 1 ≤ len) (v0 v1 : V) (hv : v0 ≠ v1) :
    ∃ s s0 s1 s' : State V, run State.empty [.decl 0 0 0] = .ok s ∧ ([([], 0, v0), ([.copyNew 0], 0, v1)] : List (List (Op V) × Nat × V)).map (fun e => e.2.1) = subIdx 1 ∧
      runSeries true len 0 [([], 0, v0)] s = .ok s0 ∧ run s0 [.copyNew 0] = .ok s1 ∧ runSeries true len 0 [([], 0, v0), ([.copyNew 0], 0, v1)] s = .ok s' ∧
      (∃ b, s1.contents 2 = some b ∧ b[0]? = some (some v0)) ∧ (∃ b, s'.contents 2 = some b ∧ b[0]? = some (some v1)) ∧ ¬Keeps s1 s' 2 := by
  obtain ⟨n, rfl⟩ : ∃ n, len = n + 1 := ⟨len - 1, by omega⟩
  have key : ∃ s0 s1 s' : State V, runSeries true (n + 1) 0 [([], 0, v0)] { State.empty with objs := [some (initObj 0 0 0)] } = .ok s0 ∧ run s0 [.copyNew 0] = .ok s1 ∧
      runSeries true (n + 1) 0 [([], 0, v0), ([.copyNew 0], 0, v1)] { State.empty with objs := [some (initObj 0 0 0)] } = .ok s' ∧
      (∃ b, s1.contents 2 = some b ∧ b[0]? = some (some v0)) ∧ (∃ b, s'.contents 2 = some b ∧ b[0]? = some (some v1)) :=
    ⟨_, _, _, rfl, rfl, rfl, ⟨_, rfl, rfl⟩, ⟨_, rfl, rfl⟩⟩
  obtain ⟨s0, s1, s', h1, h2, h3, ⟨b, h4, h5⟩, ⟨b', h6, h7⟩⟩ := key
  refine ⟨_, s0, s1, s', rfl, rfl, h1, h2, h3, ⟨b, h4, h5⟩, ⟨b', h6, h7⟩, fun hk => ?_⟩
  obtain ⟨b2, g1, -, g3⟩ := hk b h4
  rw [h6] at g1
  obtain rfl : b' = b2 := by simpa using g1
  have := g3 0 v0 h5
  rw [h7] at this
  simp at this
  exact hv this.symm

/-- Three recorded values; the callback before the second one copies the series, the one before the third writes to the copy. All hypotheses of the theorems hold, and the run succeeds. -/
example : ∃ s s' : State Nat, run State.empty [.decl 0 0 0] = .ok s ∧ Inv s ∧ Shaped s ∧ Refines s [some ⟨[0, 0, 0], 0, none⟩] ∧
    (∀ e ∈ ([([], 0, 10), ([.copyNew 0], 1, 20), ([.writePartial 2 [(1, 5)]], 2, 30)] : List (List (Op Nat) × Nat × Nat)), Safe 0 e.1) ∧
    (([([], 0, 10), ([.copyNew 0], 1, 20), ([.writePartial 2 [(1, 5)]], 2, 30)] : List (List (Op Nat) × Nat × Nat)).map fun e => e.2.1) = stdIdx 2 ∧
    runSeries true 4 0 [([], 0, 10), ([.copyNew 0], 1, 20), ([.writePartial 2 [(1, 5)]], 2, 30)] s = .ok s' ∧
    s'.contents 0 = some [some 10, some 20, some 30, none] ∧ s'.contents 2 = some [some 10, some 5, none, none] := by
  have hI : Inv ({ State.empty with objs := [some (initObj 0 0 0)] } : State Nat) := (append_spec inv_empty 0 0 0).1
  obtain ⟨t', e1, e2⟩ := step_sim inv_empty refines_empty (.decl 0 0 0 : Op Nat) (by simp) rfl
  simp only [sstep, Option.some.injEq] at e1
  subst e1
  refine ⟨_, _, rfl, hI, shaped_append (s := State.empty) (fun x o hx => by simp [State.empty, State.live] at hx) 0 0 0, e2, ?_, rfl, rfl, rfl, rfl⟩
  intro e he
  simp only [List.mem_cons, List.not_mem_nil, or_false] at he
  rcases he with rfl | rfl | rfl <;> simp [Safe, Op.changes]

end Verif.Mem
