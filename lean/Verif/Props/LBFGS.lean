import Verif.Solver.LBFGS
import Verif.Props.QuasiNewton

/-!
# Limited-memory BFGS: C24 (buffer), C25 (two-loop recursion), C26 (second run), part of C18
-/

set_option linter.unusedSectionVars false

namespace Verif.QN

open scoped RealInnerProductSpace Classical

variable {E : Type*} [NormedAddCommGroup E] [InnerProductSpace ℝ E]

/-! ## Specification -/

/-- One iteration seen by the memory: the vector transport of the step, and the pair if it was stored. -/
abbrev Event (E : Type*) := (E → E) × Option (Pair E)

/-- All pairs ever stored, oldest first, each moved by the transports of all later iterations. -/
def remembered (q : List (Pair E)) : List (Event E) → List (Pair E)
  | [] => q
  | (T, some p) :: es => remembered (q.map (Pair.move T) ++ [p]) es
  | (T, none) :: es => remembered (q.map (Pair.move T)) es

/-- The last `n` entries of a list. -/
def lastN {α : Type*} (n : Nat) (l : List α) : List α := l.drop (l.length - n)

/-- With `LMrestart`: when the memory is full everything is forgotten before storing. -/
def rememberedRestart (cap : Nat) (q : List (Pair E)) : List (Event E) → List (Pair E)
  | [] => q
  | (T, some p) :: es => rememberedRestart cap
      (if cap = 0 then [] else if cap ≤ q.length then [p] else q.map (Pair.move T) ++ [p]) es
  | (T, none) :: es => rememberedRestart cap (q.map (Pair.move T)) es

/-- The buffer represents the list `q`, oldest first. -/
def Holds (b : Buf E) (q : List (Pair E)) : Prop :=
  b.len = q.length ∧ ∀ i, i < q.length → b.slot ((b.beg + i) % b.cap) = q[i]?

/-- One BFGS update of an operator given as a function:
`(I - rho s y^T) H (I - rho y s^T) + rho s s^T`. -/
noncomputable def bfgsFun (H : E → E) (p : Pair E) : E → E := fun v =>
  let w := v - (p.rho * ⟪p.s, v⟫) • p.y
  H w - (p.rho * ⟪p.y, H w⟫) • p.s + (p.rho * ⟪p.s, v⟫) • p.s

/-- The buffer operations of a whole run. -/
def Buf.run (restart : Bool) (b : Buf E) : List (Event E) → Option (Buf E)
  | [] => some b
  | e :: es => (b.update restart e.1 e.2).bind fun b => Buf.run restart b es

/-! ## Helper lemmas -/

theorem mod_inj {c i j : Nat} (hij : i ≤ j) (hlt : j < i + c) (h : i % c = j % c) : i = j := by
  have h1 : (j - i) % c = 0 := Nat.sub_mod_eq_zero_of_mod_eq h.symm
  have h2 : j - i = 0 := Nat.eq_zero_of_dvd_of_lt (Nat.dvd_of_mod_eq_zero h1) (by omega)
  omega

theorem mod_inj' {c a i j : Nat} (hi : a ≤ i) (hi' : i < a + c) (hj : a ≤ j) (hj' : j < a + c)
    (h : i % c = j % c) : i = j := by
  rcases Nat.le_total i j with hij | hij
  · exact mod_inj hij (by omega) h
  · exact (mod_inj hij (by omega) h.symm).symm

theorem moveSlot_eq {T : E → E} {b : Buf E} {i : Nat} {p : Pair E} (hi : i < b.cap)
    (hp : b.slot i = some p) : b.moveSlot T i = some (b.set i (p.move T)) := by
  simp [Buf.moveSlot, hi, hp]

theorem moveLoop_spec (T : E → E) (idx : Nat → Nat) (n : Nat) :
    ∀ (b : Buf E) (start : Nat),
      (∀ i, start ≤ i → i < start + n → idx i < b.cap ∧ (b.slot (idx i)).isSome = true) →
      (∀ i j, start ≤ i → i < start + n → start ≤ j → j < start + n → idx i = idx j → i = j) →
      ∃ b', b.moveLoop T idx start n = some b' ∧ b'.cap = b.cap ∧ b'.len = b.len ∧ b'.beg = b.beg ∧
        (∀ i, start ≤ i → i < start + n → b'.slot (idx i) = (b.slot (idx i)).map (Pair.move T)) ∧
        (∀ j, (∀ i, start ≤ i → i < start + n → idx i ≠ j) → b'.slot j = b.slot j) := by
  induction n with
  | zero =>
    intro b start _ _
    exact ⟨b, rfl, rfl, rfl, rfl, fun i h1 h2 => by omega, fun j _ => rfl⟩
  | succ n ih =>
    intro b start hs hinj
    obtain ⟨h1, h2⟩ := hs start (le_refl _) (by omega)
    obtain ⟨p, hp⟩ := Option.isSome_iff_exists.mp h2
    have hset : ∀ j, (b.set (idx start) (p.move T)).slot j =
        if j = idx start then some (p.move T) else b.slot j := fun j => rfl
    have hne : ∀ i, start + 1 ≤ i → i < start + 1 + n → idx i ≠ idx start := by
      intro i a1 a2 hc
      have := hinj i start (by omega) (by omega) (le_refl _) (by omega) hc
      omega
    obtain ⟨b', e1, e2, e3, e4, e5, e6⟩ := ih (b.set (idx start) (p.move T)) (start + 1)
      (by
        intro i a1 a2
        rw [hset, if_neg (hne i a1 a2)]
        exact hs i (by omega) (by omega))
      (by intro i j a1 a2 a3 a4 h; exact hinj i j (by omega) (by omega) (by omega) (by omega) h)
    refine ⟨b', ?_, e2, e3, e4, ?_, ?_⟩
    · rw [Buf.moveLoop, moveSlot_eq h1 hp]; exact e1
    · intro i a1 a2
      by_cases hi : i = start
      · subst hi
        rw [e6 (idx i) (fun k b1 b2 => hne k b1 b2), hset, if_pos rfl, hp]
        rfl
      · rw [e5 i (by omega) (by omega), hset, if_neg (hne i (by omega) (by omega))]
    · intro j hj
      rw [e6 j (fun i a1 a2 => hj i (by omega) (by omega)), hset,
        if_neg (fun h => hj start (le_refl _) (by omega) h.symm)]

/-- The invariant between iterations. -/
structure BufInv (restart : Bool) (cap : Nat) (b : Buf E) (q : List (Pair E)) : Prop where
  cap_eq : b.cap = cap
  len_eq : b.len = q.length
  len_le : q.length ≤ cap
  beg_lt : b.beg = 0 ∨ b.beg < cap
  beg_full : b.beg = 0 ∨ q.length = cap
  beg_restart : restart = true → b.beg = 0
  slots : ∀ i, i < q.length → b.slot ((b.beg + i) % cap) = q[i]?

theorem fresh_inv (restart : Bool) (cap : Nat) : BufInv restart cap (Buf.fresh cap : Buf E) [] :=
  ⟨rfl, rfl, Nat.zero_le _, Or.inl rfl, Or.inl rfl, fun _ => rfl, fun i hi => by simp at hi⟩

theorem BufInv.holds {restart : Bool} {cap : Nat} {b : Buf E} {q : List (Pair E)}
    (h : BufInv restart cap b q) : Holds b q := ⟨h.len_eq, by rw [h.cap_eq]; exact h.slots⟩

/-- Every slot below `Currentlength` is filled. -/
theorem BufInv.filled {restart : Bool} {cap : Nat} {b : Buf E} {q : List (Pair E)}
    (h : BufInv restart cap b q) (j : Nat) (hj : j < q.length) : (b.slot j).isSome = true := by
  have hjc : j < cap := lt_of_lt_of_le hj h.len_le
  rcases h.beg_full with h0 | hfull
  · have := h.slots j hj
    rw [h0, Nat.zero_add, Nat.mod_eq_of_lt hjc] at this
    rw [this, List.getElem?_eq_getElem hj]
    rfl
  · -- find i with (beg + i) % cap = j
    have hb : b.beg < cap := by
      rcases h.beg_lt with h1 | h1
      · omega
      · exact h1
    have : ∃ i, i < cap ∧ (b.beg + i) % cap = j := by
      by_cases hle : b.beg ≤ j
      · exact ⟨j - b.beg, by omega, by rw [Nat.add_sub_cancel' hle, Nat.mod_eq_of_lt hjc]⟩
      · refine ⟨cap - b.beg + j, by omega, ?_⟩
        have : b.beg + (cap - b.beg + j) = j + cap := by omega
        rw [this, Nat.add_mod_right, Nat.mod_eq_of_lt hjc]
    obtain ⟨i, hi, he⟩ := this
    have := h.slots i (by omega)
    rw [he] at this
    rw [this, List.getElem?_eq_getElem (by omega)]
    rfl

/-- A skipped pair: everything is transported. -/
theorem update_skip {restart : Bool} {cap : Nat} {b : Buf E} {q : List (Pair E)} (T : E → E)
    (h : BufInv restart cap b q) :
    ∃ b', b.update restart T none = some b' ∧ BufInv restart cap b' (q.map (Pair.move T)) := by
  obtain ⟨b', e1, e2, e3, e4, e5, -⟩ := moveLoop_spec T (fun i => i) b.len b 0
    (by
      intro i _ hi
      rw [h.len_eq] at hi
      exact ⟨by rw [h.cap_eq]; have := h.len_le; omega, h.filled i (by omega)⟩)
    (fun i j _ _ _ _ h => h)
  refine ⟨b', e1, ?_⟩
  refine ⟨by rw [e2, h.cap_eq], by rw [e3, h.len_eq]; simp, by simpa using h.len_le,
    by rw [e4]; exact h.beg_lt, by rw [e4]; simpa using h.beg_full,
    by rw [e4]; exact h.beg_restart, ?_⟩
  intro i hi
  have hi' : i < q.length := by simpa using hi
  have hs := h.slots i hi'
  have hlt : (b.beg + i) % cap < q.length := by
    rcases h.beg_full with h0 | hf
    · rw [h0, Nat.zero_add, Nat.mod_eq_of_lt (lt_of_lt_of_le hi' h.len_le)]; exact hi'
    · rw [hf]; exact Nat.mod_lt _ (by omega)
  rw [e4, e5 _ (Nat.zero_le _) (by rw [h.len_eq]; omega), hs]
  simp

/-- A stored pair while there is room. -/
theorem update_room {cap : Nat} {b : Buf E} {q : List (Pair E)} {restart : Bool} (T : E → E)
    (p : Pair E) (h : BufInv restart cap b q) (hroom : q.length < cap) :
    ∃ b', b.update restart T (some p) = some b' ∧
      BufInv restart cap b' (q.map (Pair.move T) ++ [p]) := by
  have hb0 : b.beg = 0 := by
    rcases h.beg_full with h0 | hf
    · exact h0
    · omega
  have hlen : b.len < b.cap := by rw [h.len_eq, h.cap_eq]; exact hroom
  have hset : ∀ j, (b.set b.len p).slot j = if j = b.len then some p else b.slot j := fun j => rfl
  obtain ⟨b', e1, e2, e3, e4, e5, e6⟩ := moveLoop_spec T (fun i => i) b.len (b.set b.len p) 0
    (by
      intro i _ hi
      refine ⟨by change i < b.cap; omega, ?_⟩
      rw [hset, if_neg (by omega)]
      exact h.filled i (by rw [← h.len_eq]; omega))
    (fun i j _ _ _ _ h => h)
  refine ⟨{ b' with len := b.len + 1 }, ?_, ?_⟩
  · change (b.prep restart).store T p = _
    rw [Buf.prep, if_neg (by rintro ⟨-, hc⟩; omega), Buf.store, if_pos hlen, Buf.write, if_pos hlen,
      Option.bind_some, e1]
    rfl
  · refine ⟨by rw [← h.cap_eq]; exact e2, by simp [h.len_eq], by simp; omega,
      Or.inl (by rw [← hb0]; exact e4), Or.inl (by rw [← hb0]; exact e4),
      fun _ => by rw [← hb0]; exact e4, ?_⟩
    intro i hi
    simp at hi
    have hbeg' : b'.beg = 0 := by rw [← hb0]; exact e4
    show b'.slot ((b'.beg + i) % cap) = _
    rw [hbeg', Nat.zero_add, Nat.mod_eq_of_lt (by omega)]
    by_cases hil : i = q.length
    · subst hil
      rw [e6 q.length (by intro i _ hi; rw [h.len_eq] at hi; omega), hset, h.len_eq, if_pos rfl]
      rw [List.getElem?_append_right (by simp)]
      simp
    · have hilt : i < q.length := by omega
      rw [e5 i (Nat.zero_le _) (by rw [h.len_eq]; omega), hset, if_neg (by rw [h.len_eq]; exact hil)]
      have := h.slots i hilt
      rw [hb0, Nat.zero_add, Nat.mod_eq_of_lt (by omega)] at this
      rw [this, List.getElem?_append_left (by simpa using hilt)]
      simp

/-- A stored pair when the memory is full, no restart. -/
theorem update_full {cap : Nat} {b : Buf E} {q : List (Pair E)} (T : E → E)
    (p : Pair E) (h : BufInv false cap b q) (hfull : q.length = cap) (hpos : 0 < cap) :
    ∃ b', b.update false T (some p) = some b' ∧
      BufInv false cap b' ((q.map (Pair.move T) ++ [p]).drop 1) := by
  have hcap := h.cap_eq
  have hb : b.beg < cap := by
    rcases h.beg_lt with h1 | h1
    · omega
    · exact h1
  set b1 : Buf E := (b.set b.beg p).advance with hb1
  have hset : ∀ j, b1.slot j = if j = b.beg then some p else b.slot j := fun j => rfl
  have hb1c : b1.cap = cap := hcap
  have hbeg1 : b1.beg = (b.beg + 1) % cap := by rw [← hcap]; rfl
  -- positions from the new beginning
  have hpos' : ∀ i, (b1.beg + i) % cap = (b.beg + (i + 1)) % cap := by
    intro i
    rw [hbeg1, Nat.mod_add_mod]
    congr 1
    omega
  have hneq : ∀ i, b1.beg ≤ i → i < b1.beg + (cap - 1) → i % cap ≠ b.beg := by
    intro i h1 h2 hc
    have e := hpos' (i - b1.beg)
    rw [Nat.add_sub_cancel' h1, hc] at e
    have := mod_inj (c := cap) (i := b.beg) (j := b.beg + (i - b1.beg + 1)) (by omega) (by omega)
      (by rw [← e, Nat.mod_eq_of_lt hb])
    omega
  obtain ⟨b', e1, e2, e3, e4, e5, e6⟩ := moveLoop_spec T (fun i => i % cap) (cap - 1) b1 b1.beg
    (by
      intro i h1 h2
      have hlt : i % cap < cap := Nat.mod_lt _ hpos
      refine ⟨by rw [hb1c]; exact hlt, ?_⟩
      rw [hset, if_neg (hneq i h1 h2)]
      exact h.filled _ (by omega))
    (by intro i j a1 a2 a3 a4 he; exact mod_inj' (a := b1.beg) a1 (by omega) a3 (by omega) he)
  refine ⟨b', ?_, ?_⟩
  · change (b.prep false).store T p = _
    rw [Buf.prep, if_neg (by simp), Buf.store, if_neg (by rw [h.len_eq, hcap]; omega),
      if_pos (by omega), Buf.write, if_pos (by omega), Option.bind_some, hcap]
    exact e1
  · have hbeg' : b'.beg = b1.beg := e4
    refine ⟨by rw [e2, hb1c], ?_, by simp; omega, Or.inr ?_, Or.inr (by simp [hfull]), by simp, ?_⟩
    · rw [e3]; simp; exact h.len_eq
    · rw [hbeg', hbeg1]; exact Nat.mod_lt _ hpos
    · intro i hi
      simp at hi
      rw [hbeg']
      by_cases hil : i = q.length - 1
      · have hlast : (b1.beg + i) % cap = b.beg := by
          rw [hpos', hil, hfull, Nat.sub_add_cancel hpos, Nat.add_mod_right, Nat.mod_eq_of_lt hb]
        rw [hlast, e6 b.beg (fun k h1 h2 => hneq k h1 h2), hset, if_pos rfl, List.getElem?_drop,
          List.getElem?_append_right (by simp; omega)]
        have : 1 + i - (q.map (Pair.move T)).length = 0 := by simp; omega
        rw [this]
        rfl
      · have h2 : b1.beg + i < b1.beg + (cap - 1) := by omega
        have := e5 (b1.beg + i) (by omega) h2
        rw [this, hset, if_neg (hneq _ (by omega) h2), hpos', h.slots (i + 1) (by omega),
          List.getElem?_drop, List.getElem?_append_left (by simp; omega)]
        simp [Nat.add_comm]

theorem BufInv.reset {cap : Nat} {b : Buf E} {q : List (Pair E)} (h : BufInv true cap b q) :
    BufInv true cap { b with len := 0 } [] :=
  ⟨h.cap_eq, rfl, Nat.zero_le _, Or.inl (h.beg_restart rfl), Or.inl (h.beg_restart rfl),
    fun _ => h.beg_restart rfl, fun i hi => by simp at hi⟩

theorem remembered_lastN (cap : Nat) (es : List (Event E)) :
    ∀ (q q' : List (Pair E)), q' = lastN cap q →
      ∃ n, lastN cap (remembered q es) = lastN cap (remembered q' es) ∧
        n = (remembered q es).length := by
  intro q q' _
  exact ⟨_, by
    subst_vars
    induction es generalizing q with
    | nil => simp only [remembered, lastN, List.length_drop, List.drop_drop]; congr 1; omega
    | cons e es ih =>
      obtain ⟨T, o⟩ := e
      cases o with
      | none =>
        simp only [remembered]
        rw [ih (q.map (Pair.move T))]
        have : lastN cap (q.map (Pair.move T)) = (lastN cap q).map (Pair.move T) := by
          simp [lastN, List.map_drop]
        rw [this]
      | some p =>
        simp only [remembered]
        rw [ih (q.map (Pair.move T) ++ [p]), ih ((lastN cap q).map (Pair.move T) ++ [p])]
        congr 1
        congr 1
        simp only [lastN, List.map_drop, List.length_append, List.length_map, List.length_drop,
          List.length_singleton]
        by_cases hc : cap = 0
        · subst hc
          rw [List.drop_eq_nil_of_le (by simp), List.drop_eq_nil_of_le (by simp)]
        · rw [← List.drop_append_of_le_length (by simp), List.drop_drop]
          congr 1
          omega, rfl⟩

/-! ## C24 -/

/-- C24: for every capacity (0 and 1 included) and every history of stored and skipped pairs, the buffer
operations never leave the arrays or touch an empty slot, and afterwards the buffer holds exactly the last
`LengthSY` stored pairs, oldest first, each moved by all later transports. -/
theorem C24_buffer_holds_recent_pairs (cap : Nat) (es : List (Event E)) :
    ∃ b, Buf.run false (Buf.fresh cap) es = some b ∧ Holds b (lastN cap (remembered [] es)) := by
  have main : ∀ (es : List (Event E)) (b : Buf E) (q : List (Pair E)), BufInv false cap b q →
      ∃ b', Buf.run false b es = some b' ∧ BufInv false cap b' (lastN cap (remembered q es)) := by
    intro es
    induction es with
    | nil =>
      intro b q h
      refine ⟨b, rfl, ?_⟩
      have : lastN cap (remembered q []) = q := by
        simp [remembered, lastN, Nat.sub_eq_zero_of_le h.len_le]
      rw [this]; exact h
    | cons e es ih =>
      intro b q h
      obtain ⟨T, o⟩ := e
      cases o with
      | none =>
        obtain ⟨b1, h1, h2⟩ := update_skip T h
        obtain ⟨b', h3, h4⟩ := ih b1 _ h2
        exact ⟨b', by simp only [Buf.run]; rw [h1]; exact h3, h4⟩
      | some p =>
        by_cases hroom : q.length < cap
        · obtain ⟨b1, h1, h2⟩ := update_room T p h hroom
          obtain ⟨b', h3, h4⟩ := ih b1 _ h2
          exact ⟨b', by simp only [Buf.run]; rw [h1]; exact h3, h4⟩
        · have hfull : q.length = cap := by have := h.len_le; omega
          by_cases hpos : 0 < cap
          · obtain ⟨b1, h1, h2⟩ := update_full T p h hfull hpos
            obtain ⟨b', h3, h4⟩ := ih b1 _ h2
            refine ⟨b', by simp only [Buf.run]; rw [h1]; exact h3, ?_⟩
            obtain ⟨-, e, -⟩ := remembered_lastN cap es (q.map (Pair.move T) ++ [p])
              ((q.map (Pair.move T) ++ [p]).drop 1) (by simp [lastN, hfull])
            simp only [remembered]
            rw [e]; exact h4
          · have hc0 : cap = 0 := by omega
            have hq : q = [] := List.eq_nil_of_length_eq_zero (by omega)
            obtain ⟨b', h3, h4⟩ := ih b q h
            refine ⟨b', ?_, ?_⟩
            · simp only [Buf.run]
              have : b.update false T (some p) = some b := by
                change (b.prep false).store T p = _
                rw [Buf.prep, if_neg (by simp), Buf.store, if_neg (by rw [h.cap_eq]; omega),
                  if_neg (by rw [h.cap_eq]; omega)]
              rw [this]; exact h3
            · have e1 : ∀ l : List (Pair E), lastN cap l = [] := by
                intro l; rw [hc0]; simp [lastN]
              rw [e1] at h4 ⊢
              exact h4
  obtain ⟨b, h1, h2⟩ := main es _ _ (fresh_inv false cap)
  exact ⟨b, h1, h2.holds⟩

/-- C24 with `LMrestart`: the memory is emptied when full; it holds exactly the pairs stored since. -/
theorem C24_buffer_restart (cap : Nat) (es : List (Event E)) :
    ∃ b, Buf.run true (Buf.fresh cap) es = some b ∧ Holds b (rememberedRestart cap [] es) := by
  have main : ∀ (es : List (Event E)) (b : Buf E) (q : List (Pair E)), BufInv true cap b q →
      ∃ b', Buf.run true b es = some b' ∧ BufInv true cap b' (rememberedRestart cap q es) := by
    intro es
    induction es with
    | nil => intro b q h; exact ⟨b, rfl, h⟩
    | cons e es ih =>
      intro b q h
      obtain ⟨T, o⟩ := e
      cases o with
      | none =>
        obtain ⟨b1, h1, h2⟩ := update_skip T h
        obtain ⟨b', h3, h4⟩ := ih b1 _ h2
        exact ⟨b', by simp only [Buf.run]; rw [h1]; exact h3, h4⟩
      | some p =>
        by_cases hroom : q.length < cap
        · obtain ⟨b1, h1, h2⟩ := update_room T p h hroom
          obtain ⟨b', h3, h4⟩ := ih b1 _ h2
          refine ⟨b', by simp only [Buf.run]; rw [h1]; exact h3, ?_⟩
          simp only [rememberedRestart]
          rw [if_neg (by omega), if_neg (by omega)]
          exact h4
        · have hfull : cap ≤ q.length := by omega
          by_cases hpos : 0 < cap
          · obtain ⟨b1, h1, h2⟩ := update_room T p h.reset hpos
            obtain ⟨b', h3, h4⟩ := ih b1 _ h2
            have hu : b.update true T (some p) = ({ b with len := 0 } : Buf E).update true T (some p) := by
              change (b.prep true).store T p = (Buf.prep true { b with len := 0 }).store T p
              rw [Buf.prep, if_pos ⟨rfl, by rw [h.cap_eq, h.len_eq]; exact hfull⟩, Buf.prep,
                if_neg (by rintro ⟨-, hc⟩; change b.cap ≤ 0 at hc; rw [h.cap_eq] at hc; omega)]
            refine ⟨b', by simp only [Buf.run]; rw [hu, h1]; exact h3, ?_⟩
            simp only [rememberedRestart]
            rw [if_neg (by omega), if_pos hfull]
            exact h4
          · have hc0 : cap = 0 := by omega
            obtain ⟨b', h3, h4⟩ := ih _ _ h.reset
            have hu : b.update true T (some p) = some { b with len := 0 } := by
              change (b.prep true).store T p = _
              rw [Buf.prep, if_pos ⟨rfl, by rw [h.cap_eq, h.len_eq]; exact hfull⟩, Buf.store]
              rw [if_neg (by change ¬ 0 < b.cap; rw [h.cap_eq]; omega),
                if_neg (by change ¬ 0 < b.cap; rw [h.cap_eq]; omega)]
            refine ⟨b', by simp only [Buf.run]; rw [hu]; exact h3, ?_⟩
            simp only [rememberedRestart]
            rw [if_pos hc0]
            exact h4
  obtain ⟨b, h1, h2⟩ := main es _ _ (fresh_inv true cap)
  exact ⟨b, h1, h2.holds⟩

/-- A concrete history for C24: capacity two, three stored pairs. -/
example : ∃ b, Buf.run false (Buf.fresh 2) [(id, some ⟨1, 2, 3⟩), (id, some ⟨4, 5, 6⟩), (id, none),
    (id, some ⟨7, 8, 9⟩)] = some b ∧ Holds b ([⟨4, 5, 6⟩, ⟨7, 8, 9⟩] : List (Pair ℝ)) := by
  have := C24_buffer_holds_recent_pairs 2 ([(id, some ⟨1, 2, 3⟩), (id, some ⟨4, 5, 6⟩), (id, none),
    (id, some ⟨7, 8, 9⟩)] : List (Event ℝ))
  simpa [remembered, lastN, Pair.move] using this

/-! ## C25 -/

theorem loop2_snoc (b : Buf E) (xi : Nat → ℝ) (n : Nat) : ∀ (i : Nat) (r : E),
    b.loop2 xi i (n + 1) r = (b.loop2 xi i n r).bind fun u => b.loop2 xi (i + n) 1 u := by
  induction n with
  | zero => intro i r; simp [Buf.loop2]
  | succ n ih =>
    intro i r
    conv_lhs => rw [Buf.loop2]
    conv_rhs => rw [Buf.loop2]
    split
    · rfl
    · dsimp only
      split
      · split
        · rw [ih]
          congr 1
          funext u
          congr 1
          omega
        · rfl
      · rfl

/-- C25: whatever the buffer content, the two-loop recursion stays inside its arrays and computes exactly
the operator obtained from `gamma P` by successive BFGS updates with the stored pairs, oldest first. -/
theorem C25_two_loop_is_bfgs (restart : Bool) (cap : Nat) (b : Buf E) (q : List (Pair E))
    (h : BufInv restart cap b q) (P : E → E) (gamma : ℝ) (junk : Nat → ℝ) (v : E) :
    b.hv P gamma junk v = some (q.foldl bfgsFun (fun u => gamma • P u) v) := by
  have hcap := h.cap_eq
  have hidx : ∀ i, i < q.length → (b.beg + i) % b.cap < b.len := by
    intro i hi
    rw [hcap, h.len_eq]
    rcases h.beg_full with h0 | hf
    · rw [h0, Nat.zero_add, Nat.mod_eq_of_lt (lt_of_lt_of_le hi h.len_le)]; exact hi
    · rw [hf]; exact Nat.mod_lt _ (by omega)
  have hinj : ∀ i j, i < q.length → j < q.length →
      (b.beg + i) % b.cap = (b.beg + j) % b.cap → i = j := by
    intro i j hi hj he
    rw [hcap] at he
    have := mod_inj' (a := b.beg) (c := cap) (by omega) (by have := h.len_le; omega) (by omega)
      (by have := h.len_le; omega) he
    omega
  have main : ∀ i, i ≤ q.length → ∀ (xi : Nat → ℝ) (r : E),
      ∃ xi' r', b.loop1 i xi r = some (xi', r') ∧
        (∀ j, (∀ k, k < i → (b.beg + k) % b.cap ≠ j) → xi' j = xi j) ∧
        ∀ xi'' : Nat → ℝ, (∀ k, k < i → xi'' ((b.beg + k) % b.cap) = xi' ((b.beg + k) % b.cap)) →
          b.loop2 xi'' 0 i (gamma • P r') =
            some ((q.take i).foldl bfgsFun (fun u => gamma • P u) r) := by
    intro i
    induction i with
    | zero =>
      intro _ xi r
      exact ⟨xi, r, rfl, fun j _ => rfl, fun xi'' _ => by simp [Buf.loop2]⟩
    | succ i ih =>
      intro hi xi r
      have hiq : i < q.length := by omega
      have hc0 : b.cap ≠ 0 := by rw [hcap]; have := h.len_le; omega
      have hslot : b.slot ((b.beg + i) % b.cap) = some q[i] := by
        rw [hcap, h.slots i hiq, List.getElem?_eq_getElem hiq]
      set idx := (b.beg + i) % b.cap with hidx_def
      set p := q[i] with hp
      set x := p.rho * ⟪p.s, r⟫ with hx
      obtain ⟨xi', r', e1, e2, e3⟩ := ih (by omega) (fun j => if j = idx then x else xi j) (r - x • p.y)
      have hfar : ∀ k, k < i → (b.beg + k) % b.cap ≠ idx := by
        intro k hk hc
        have := hinj k i (by omega) hiq hc
        omega
      refine ⟨xi', r', ?_, ?_, ?_⟩
      · rw [Buf.loop1, if_neg hc0]
        dsimp only
        rw [if_pos (hidx i hiq), hslot]
        exact e1
      · intro j hj
        rw [e2 j (fun k hk => hj k (by omega)), if_neg]
        intro hc
        exact hj i (by omega) hc.symm
      · intro xi'' hxi
        rw [loop2_snoc, e3 xi'' (fun k hk => hxi k (by omega)), Option.bind_some]
        have hxidx : xi'' idx = x := by
          rw [hidx_def, hxi i (by omega), ← hidx_def, e2 idx hfar, if_pos rfl]
        rw [Nat.zero_add, Buf.loop2, if_neg hc0]
        dsimp only
        rw [if_pos (hidx i hiq), hslot, ← hidx_def, hxidx]
        simp only [Buf.loop2]
        congr 1
        rw [List.take_succ_eq_append_getElem hiq, List.foldl_append]
        simp only [List.foldl_cons, List.foldl_nil]
        set F := (q.take i).foldl bfgsFun (fun u => gamma • P u)
        simp only [bfgsFun, ← hp, ← hx]
        rw [sub_smul]
        abel
  obtain ⟨xi', r', e1, -, e3⟩ := main q.length (le_refl _) junk v
  unfold Buf.hv
  rw [h.len_eq, e1, Option.bind_some]
  dsimp only
  rw [e3 xi' (fun _ _ => rfl), List.take_length]

/-- The same for buffers reached by a run from a fresh solver: the direction computed is that of the
explicit BFGS operator built from the last `LengthSY` stored pairs. -/
theorem C25_two_loop_after_run (cap : Nat) (es : List (Event E)) (P : E → E) (gamma : ℝ)
    (junk : Nat → ℝ) (v : E) (b : Buf E) (hb : Buf.run false (Buf.fresh cap) es = some b) :
    b.hv P gamma junk v =
      some ((lastN cap (remembered [] es)).foldl bfgsFun (fun u => gamma • P u) v) := by
  obtain ⟨b1, h1, h2⟩ := C24_buffer_holds_recent_pairs cap es
  rw [hb] at h1
  obtain rfl := Option.some.inj h1
  have hcap : ∀ (es : List (Event E)) (b b' : Buf E) (q : List (Pair E)), BufInv false cap b q →
      Buf.run false b es = some b' → ∃ q', BufInv false cap b' q' := by
    intro es
    induction es with
    | nil => intro b b' q h hr; obtain rfl := Option.some.inj hr; exact ⟨q, h⟩
    | cons e es ih =>
      intro b b' q h hr
      obtain ⟨T, o⟩ := e
      simp only [Buf.run] at hr
      cases o with
      | none =>
        obtain ⟨b1, h1, h2⟩ := update_skip T h
        rw [h1] at hr
        exact ih _ _ _ h2 hr
      | some p =>
        by_cases hroom : q.length < cap
        · obtain ⟨b1, h1, h2⟩ := update_room T p h hroom
          rw [h1] at hr
          exact ih _ _ _ h2 hr
        · have hfull : q.length = cap := by have := h.len_le; omega
          by_cases hpos : 0 < cap
          · obtain ⟨b1, h1, h2⟩ := update_full T p h hfull hpos
            rw [h1] at hr
            exact ih _ _ _ h2 hr
          · have : b.update false T (some p) = some b := by
              change (b.prep false).store T p = _
              rw [Buf.prep, if_neg (by simp), Buf.store, if_neg (by rw [h.cap_eq]; omega),
                if_neg (by rw [h.cap_eq]; omega)]
            rw [this] at hr
            exact ih _ _ _ h hr
  obtain ⟨q', hq'⟩ := hcap es _ _ _ (fresh_inv false cap) hb
  have hqq : q' = lastN cap (remembered [] es) := by
    have hl : q'.length = (lastN cap (remembered [] es)).length := by rw [← hq'.len_eq, ← h2.1]
    apply List.ext_getElem? 
    intro i
    by_cases hi : i < q'.length
    · have e := h2.2 i (by omega)
      rw [hq'.cap_eq] at e
      rw [← hq'.slots i hi, e]
    · rw [List.getElem?_eq_none (by omega), List.getElem?_eq_none (by omega)]
  rw [← hqq]
  exact C25_two_loop_is_bfgs false cap b q' hq' P gamma junk v

/-- Positive operator. -/
def IsPos (H : E → E) : Prop := ∀ v, v ≠ 0 → 0 < ⟪H v, v⟫

theorem bfgsFun_pos {H : E → E} (h : IsPos H) {p : Pair E} (hp : 0 < p.rho) : IsPos (bfgsFun H p) := by
  intro v hv
  set w := v - (p.rho * ⟪p.s, v⟫) • p.y with hw
  have key : ⟪bfgsFun H p v, v⟫ = ⟪H w, w⟫ + p.rho * ⟪p.s, v⟫ ^ 2 := by
    simp only [bfgsFun, ← hw]
    rw [inner_add_left, inner_sub_left, inner_smul_left, inner_smul_left]
    have : ⟪H w, w⟫ = ⟪H w, v⟫ - p.rho * ⟪p.s, v⟫ * ⟪p.y, H w⟫ := by
      conv_lhs => rw [show ⟪H w, w⟫ = ⟪H w, v - (p.rho * ⟪p.s, v⟫) • p.y⟫ from by rw [← hw]]
      rw [inner_sub_right, inner_smul_right, real_inner_comm p.y]
    rw [this]
    simp only [conj_trivial]
    ring
  rw [key]
  by_cases hw0 : w = 0
  · have hvy : v = (p.rho * ⟪p.s, v⟫) • p.y := sub_eq_zero.mp hw0
    have ha : ⟪p.s, v⟫ ≠ 0 := by
      intro h0
      rw [h0] at hvy
      simp at hvy
      exact hv hvy
    rw [hw0, inner_zero_right]
    positivity
  · have := h w hw0
    positivity

/-- C25: with a positive preconditioner, `gamma > 0` and positive stored curvatures the operator of the
two-loop recursion is positive, so its negative applied to a nonzero gradient is a descent direction. -/
theorem C25_two_loop_descent (restart : Bool) (cap : Nat) (b : Buf E) (q : List (Pair E))
    (h : BufInv restart cap b q) (P : E → E) (hP : IsPos P) (gamma : ℝ) (hg : 0 < gamma)
    (hq : ∀ p ∈ q, 0 < p.rho) (junk : Nat → ℝ) (v : E) (hv : v ≠ 0) :
    ∃ d, b.hv P gamma junk v = some d ∧ ⟪-d, v⟫ < 0 := by
  refine ⟨_, C25_two_loop_is_bfgs restart cap b q h P gamma junk v, ?_⟩
  have : ∀ (q : List (Pair E)) (H : E → E), IsPos H → (∀ p ∈ q, 0 < p.rho) →
      IsPos (q.foldl bfgsFun H) := by
    intro q
    induction q with
    | nil => intro H h _; exact h
    | cons p q ih =>
      intro H h hq
      exact ih _ (bfgsFun_pos h (hq p (by simp))) (fun p' hp' => hq p' (by simp [hp']))
  have h0 : IsPos (fun u => gamma • P u) := by
    intro u hu
    rw [inner_smul_left]
    simp only [conj_trivial]
    exact mul_pos hg (hP u hu)
  have := this q _ h0 hq v hv
  rw [inner_neg_left]
  linarith

/-! ## Runs of LRBFGS -/

/-- What holds for all stored pairs and survives transports holds after an update. -/
theorem update_inv_pred {restart : Bool} {cap : Nat} {b : Buf E} {q : List (Pair E)} (Q : Pair E → Prop) (T : E → E)
    (hT : ∀ p, Q p → Q (p.move T)) (o : Option (Pair E)) (h : BufInv restart cap b q) (hq : ∀ p ∈ q, Q p)
    (ho : ∀ p, o = some p → Q p) :
    ∃ b' q', b.update restart T o = some b' ∧ BufInv restart cap b' q' ∧ ∀ p ∈ q', Q p := by
  have hmap : ∀ q : List (Pair E), (∀ p ∈ q, Q p) → ∀ p ∈ q.map (Pair.move T), Q p := by
    intro q hq p hp
    obtain ⟨p', hp', rfl⟩ := List.mem_map.mp hp
    exact hT p' (hq p' hp')
  cases o with
  | none =>
    obtain ⟨b1, h1, h2⟩ := update_skip T h
    exact ⟨b1, _, h1, h2, hmap q hq⟩
  | some p =>
    have hp := ho p rfl
    have hsnoc : ∀ p' ∈ q.map (Pair.move T) ++ [p], Q p' := by
      intro p' hp'
      rcases List.mem_append.mp hp' with h1 | h1
      · exact hmap q hq p' h1
      · simp at h1; rw [h1]; exact hp
    by_cases hroom : q.length < cap
    · obtain ⟨b1, h1, h2⟩ := update_room T p h hroom
      exact ⟨b1, _, h1, h2, hsnoc⟩
    · have hfull : q.length = cap := by have := h.len_le; omega
      by_cases hpos : 0 < cap
      · cases restart with
        | false =>
          obtain ⟨b1, h1, h2⟩ := update_full T p h hfull hpos
          exact ⟨b1, _, h1, h2, fun p' hp' => hsnoc p' (List.mem_of_mem_drop hp')⟩
        | true =>
          obtain ⟨b1, h1, h2⟩ := update_room T p h.reset hpos
          refine ⟨b1, _, ?_, h2, ?_⟩
          · rw [← h1]
            change (b.prep true).store T p = (Buf.prep true { b with len := 0 }).store T p
            rw [Buf.prep, if_pos ⟨rfl, by rw [h.cap_eq, h.len_eq]; omega⟩, Buf.prep,
              if_neg (by rintro ⟨-, hc⟩; change b.cap ≤ 0 at hc; rw [h.cap_eq] at hc; omega)]
          · intro p' hp'; simp at hp'; rw [hp']; exact hp
      · have hq0 : q = [] := List.eq_nil_of_length_eq_zero (by omega)
        subst hq0
        have hl : b.len = 0 := h.len_eq
        refine ⟨b, [], ?_, h, by simp⟩
        have : b.prep restart = b := by
          unfold Buf.prep
          split
          · rw [← hl]
          · rfl
        change (b.prep restart).store T p = _
        rw [this, Buf.store, if_neg (by rw [h.cap_eq]; omega), if_neg (by rw [h.cap_eq]; omega)]

theorem update_inv {restart : Bool} {cap : Nat} {b : Buf E} {q : List (Pair E)} (T : E → E)
    (o : Option (Pair E)) (h : BufInv restart cap b q) (hq : ∀ p ∈ q, 0 < p.rho)
    (ho : ∀ p, o = some p → 0 < p.rho) :
    ∃ b' q', b.update restart T o = some b' ∧ BufInv restart cap b' q' ∧ ∀ p ∈ q', 0 < p.rho :=
  update_inv_pred (fun p => 0 < p.rho) T (fun _ h => h) o h hq ho

/-- C18/C25 for LRBFGS: in every run of a fresh solver (`nu > 0`, symmetric positive preconditioner), with
any capacity and restart flag and any sequence of steps made from points with nonzero gradient, the
memory operations are defined and the next search direction is a descent direction. -/
theorem C25_lrbfgs_run_descent (c : Cautious) (hnu : 0 < c.nu) (restart : Bool) (cap : Nat)
    (P : E → E) (hP : IsPos P) (ps : List (Call E)) (hps : ∀ p ∈ ps, 0 < p.ngf2) (junk : Nat → ℝ)
    (g : E) (hg : g ≠ 0) :
    ∃ st d, lrbfgsRun c restart P ps ⟨Buf.fresh cap, 1⟩ = some st ∧
      st.buf.hv P st.gamma junk g = some d ∧ ⟪-d, g⟫ < 0 := by
  have main : ∀ (ps : List (Call E)), (∀ p ∈ ps, 0 < p.ngf2) → ∀ (st : LState E) (q : List (Pair E)),
      BufInv restart cap st.buf q → (∀ p ∈ q, 0 < p.rho) → 0 < st.gamma →
      ∃ st' q', lrbfgsRun c restart P ps st = some st' ∧ BufInv restart cap st'.buf q' ∧
        (∀ p ∈ q', 0 < p.rho) ∧ 0 < st'.gamma := by
    intro ps
    induction ps with
    | nil => intro _ st q h1 h2 h3; exact ⟨st, q, rfl, h1, h2, h3⟩
    | cons p ps ih =>
      intro hps st q h1 h2 h3
      have hng := hps p (by simp)
      have hrho : ∀ p', storedPair c p = some p' → 0 < p'.rho := by
        intro p' hp'
        unfold storedPair at hp'
        split at hp'
        · rename_i ha
          injection hp' with hp'
          rw [← hp']
          exact one_div_pos.mpr (accept_curvature hnu hng real_inner_self_nonneg ha)
        · cases hp'
      have hgam : 0 < newGamma c P p st.gamma := by
        unfold newGamma
        split
        · rename_i ha
          have hpos := accept_curvature hnu hng real_inner_self_nonneg ha
          have hy : p.y ≠ 0 := by intro h0; rw [h0] at hpos; simp at hpos
          have := hP _ hy
          rw [real_inner_comm] at this
          exact div_pos hpos this
        · exact h3
      obtain ⟨b', q', e1, e2, e3⟩ := update_inv (⇑p.T) (storedPair c p) h1 h2 hrho
      obtain ⟨st', q'', e4, e5, e6, e7⟩ := ih (fun p' hp' => hps p' (by simp [hp']))
        ⟨b', newGamma c P p st.gamma⟩ q' e2 e3 hgam
      refine ⟨st', q'', ?_, e5, e6, e7⟩
      rw [lrbfgsRun, lrbfgsUpdate, e1]
      exact e4
  obtain ⟨st, q, h1, h2, h3, h4⟩ := main ps hps ⟨Buf.fresh cap, 1⟩ [] (fresh_inv restart cap)
    (by simp) one_pos
  obtain ⟨d, h5, h6⟩ := C25_two_loop_descent restart cap st.buf q h2 P hP st.gamma h4 h3 junk g hg
  exact ⟨st, d, h1, h5, h6⟩

/-- The hypotheses of the run theorem are met by the identity preconditioner in any space. -/
example : IsPos (id : E → E) := by
  intro v hv
  rw [id, real_inner_self_eq_norm_sq]
  have := norm_pos_iff.mpr hv
  positivity

/-! ## C26 -/

/-- C26 violated by LRBFGS: after a run that stored at least one pair, `Run` on the same object reallocates
the arrays but keeps the counters, and the first search direction reads an empty slot (or an index outside
the array), whatever the gradient. -/
theorem C26_second_run_reads_empty_slots (b : Buf E) (h : 0 < b.len) (P : E → E) (gamma : ℝ)
    (junk : Nat → ℝ) (v : E) : b.startRun.hv P gamma junk v = none := by
  have : ∀ n xi r, 0 < n → (b.startRun).loop1 n xi r = none := by
    intro n xi r hn
    obtain ⟨i, rfl⟩ := Nat.exists_eq_succ_of_ne_zero hn.ne'
    rw [Buf.loop1]
    split
    · rfl
    · dsimp only
      split <;> rfl
  unfold Buf.hv
  rw [show b.startRun.len = b.len from rfl, this _ _ _ h]
  rfl

/-- A solver that made one accepted step is in that situation. -/
example : ∃ b, Buf.run false (Buf.fresh 4) [(id, some (⟨1, 2, 1 / 2⟩ : Pair ℝ))] = some b ∧ 0 < b.len := by
  obtain ⟨b, h1, h2⟩ := C24_buffer_holds_recent_pairs 4 [(id, some (⟨1, 2, 1 / 2⟩ : Pair ℝ))]
  exact ⟨b, h1, by rw [h2.1]; simp [remembered, lastN]⟩

end Verif.QN
