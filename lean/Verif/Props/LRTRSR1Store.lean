import Verif.Solver.LRTRSR1Store

/-!
# C175: what LRTRSR1 reads
-/

namespace Verif.LSR1

/-- What holds during the first run. -/
structure Store.Ok (L : Nat) (restart : Bool) (b : Store) : Prop where
  cur_le : b.cur ≤ L
  beg : b.beg = 0 ∨ (b.cur = L ∧ restart = false)
  beg_lt : 0 < L → b.beg < L
  vec : ∀ i < b.cur, b.vec i = true
  mat : ∀ i < b.cur, ∀ j < b.cur, b.mat (i + j * L) = true

theorem Store.Ok.init (L : Nat) (restart : Bool) (b : Store) (h0 : b.cur = 0) (h1 : b.beg = 0) : b.Ok L restart :=
  ⟨by omega, .inl h1, by omega, by omega, by omega⟩

theorem Store.Ok.solve {L n : Nat} {restart : Bool} {b : Store} (h : b.Ok L restart) (hn : L ≤ n) : b.canSolve L n = true := by
  have hc := h.cur_le
  simp only [canSolve, Bool.and_eq_true, List.all_eq_true, List.mem_range, decide_eq_true_eq]
  refine ⟨⟨fun i hi => ?_, h.mat⟩, by rw [Nat.min_eq_right (by omega)]⟩
  rcases h.beg with h0 | ⟨h1, -⟩
  · rw [h0, Nat.add_zero, Nat.mod_eq_of_lt (by omega)]
    exact h.vec i hi
  · exact h.vec _ (by rw [h1]; exact Nat.mod_lt _ (by omega))

theorem Store.Ok.push {L : Nat} {restart : Bool} {b : Store} (h : b.Ok L restart) :
    ∃ b', b.push L restart = some b' ∧ b'.Ok L restart ∧ (0 < L → 0 < b'.cur) := by
  have key : ∀ b : Store, b.Ok L restart → b.cur < L → ∀ b0 : Store,
      (if restart = true ∧ L ≤ b0.cur then { b0 with cur := 0 } else b0) = b →
      ∃ b', b0.push L restart = some b' ∧ b'.Ok L restart ∧ (0 < L → 0 < b'.cur) := by
    intro b h hlt b0 e
    have hv : (List.range b.cur).all b.vec = true := by
      simp only [List.all_eq_true, List.mem_range]; exact h.vec
    have hb : b.beg = 0 := by rcases h.beg with h0 | ⟨h1, -⟩ <;> omega
    unfold Store.push
    simp only [e, if_pos hlt, hv, if_true]
    refine ⟨_, rfl, ⟨hlt, .inl hb, fun hL => by simp only [hb]; exact hL, fun i hi => ?_, fun i hi j hj => ?_⟩, fun _ => Nat.succ_pos _⟩
    · simp only [Bool.or_eq_true, beq_iff_eq] at hi ⊢
      rcases Nat.lt_or_ge i b.cur with h1 | h1
      · exact .inl (h.vec i h1)
      · exact .inr (by omega)
    · simp only [Bool.or_eq_true, beq_iff_eq, List.any_eq_true, List.mem_range] at hi hj ⊢
      rcases Nat.lt_or_ge i b.cur with h1 | h1
      · rcases Nat.lt_or_ge j b.cur with h2 | h2
        · exact .inl (.inl (h.mat i h1 j h2))
        · have : j = b.cur := by omega
          subst this
          exact .inr ⟨i, h1, .inr rfl⟩
      · have hi' : i = b.cur := by omega
        rcases Nat.lt_or_ge j b.cur with h2 | h2
        · subst hi'
          exact .inr ⟨j, h2, .inl rfl⟩
        · have : j = b.cur := by omega
          subst hi' this
          exact .inl (.inr rfl)
  by_cases hr : restart = true ∧ L ≤ b.cur
  · rcases Nat.eq_zero_or_pos L with hL | hL
    · subst hL
      refine ⟨{ b with cur := 0 }, ?_, ⟨by simp, .inl ?_, by omega, by simp, by simp⟩, by omega⟩
      · unfold Store.push
        simp only [if_pos hr, lt_irrefl, if_false]
      · rcases h.beg with h0 | ⟨-, h1⟩
        · exact h0
        · rw [hr.1] at h1; cases h1
    · have hb : b.beg = 0 := by
        rcases h.beg with h0 | ⟨-, h1⟩
        · exact h0
        · rw [hr.1] at h1; cases h1
      exact key { b with cur := 0 } (Store.Ok.init _ _ _ rfl hb) hL b (if_pos hr)
  · by_cases hlt : b.cur < L
    · exact key b h hlt b (if_neg hr)
    · have hcur : b.cur = L := by have := h.cur_le; omega
      have hrf : restart = false := by
        cases restart with
        | false => rfl
        | true => exact absurd ⟨rfl, by omega⟩ hr
      rcases Nat.eq_zero_or_pos L with hL | hL
      · refine ⟨b, ?_, h, by omega⟩
        unfold Store.push
        simp only [if_neg hr, if_neg hlt]
        rw [if_neg (by omega)]
      · have hg : ((List.range (L - 1)).all (fun i => (List.range (L - 1)).all fun j => b.mat (i + 1 + (j + 1) * L)) &&
            (List.range (L - 1)).all (fun i => b.vec ((i + b.beg + 1) % L) || (i + b.beg + 1) % L == b.beg)) = true := by
          simp only [Bool.and_eq_true, List.all_eq_true, List.mem_range, Bool.or_eq_true]
          refine ⟨fun i hi j hj => h.mat _ (by omega) _ (by omega), fun i hi => .inl (h.vec _ ?_)⟩
          rw [hcur]; exact Nat.mod_lt _ hL
        unfold Store.push
        simp only [if_neg hr, if_neg hlt, if_pos hL, hg, if_true]
        refine ⟨_, rfl, ⟨h.cur_le, .inr ⟨hcur, hrf⟩, fun _ => Nat.mod_lt _ hL, fun i hi => ?_, fun i hi j hj => ?_⟩, fun _ => by simp only [hcur]; exact hL⟩
        · simp only [Bool.or_eq_true]; exact .inl (h.vec i hi)
        · simp only [Bool.or_eq_true]; exact .inl (.inl (h.mat i hi j hj))

theorem Store.Ok.transport {L : Nat} {restart : Bool} {b : Store} (h : b.Ok L restart) : b.transport = some b := by
  unfold Store.transport
  rw [if_pos]
  simp only [List.all_eq_true, List.mem_range]
  exact h.vec

theorem Store.Ok.pass {L n : Nat} {restart : Bool} {b : Store} (h : b.Ok L restart) (hn : L ≤ n) (e : Bool × Bool) :
    ∃ b', b.pass L n restart e = some b' ∧ b'.Ok L restart ∧ (0 < L → (e.1 = true ∨ 0 < b.cur) → 0 < b'.cur) := by
  obtain ⟨b1, e1, o1, c1⟩ : ∃ b', (if e.1 then b.push L restart else some b) = some b' ∧ b'.Ok L restart ∧
      (0 < L → (e.1 = true ∨ 0 < b.cur) → 0 < b'.cur) := by
    by_cases hu : e.1 = true
    · obtain ⟨b', h1, h2, h3⟩ := h.push
      exact ⟨b', by rw [if_pos hu]; exact h1, h2, fun hL _ => h3 hL⟩
    · exact ⟨b, by rw [if_neg hu], h, fun _ h1 => h1.resolve_left hu⟩
  refine ⟨b1, ?_, o1, c1⟩
  unfold Store.pass
  rw [if_pos (h.solve hn), e1]
  simp only [Option.bind_some, o1.transport, ite_self]

theorem Store.Ok.passes {L n : Nat} {restart : Bool} (hn : L ≤ n) (es : List (Bool × Bool)) : ∀ b : Store, b.Ok L restart →
    ∃ b', b.passes L n restart es = some b' ∧ b'.Ok L restart ∧ (0 < L → ((∃ e ∈ es, e.1 = true) ∨ 0 < b.cur) → 0 < b'.cur) := by
  induction es with
  | nil => intro b h; exact ⟨b, rfl, h, fun _ h1 => h1.resolve_left (by simp)⟩
  | cons e es ih =>
    intro b h
    obtain ⟨b1, e1, o1, c1⟩ := h.pass hn e
    obtain ⟨b2, e2, o2, c2⟩ := ih b1 o1
    refine ⟨b2, ?_, o2, fun hL hex => c2 hL ?_⟩
    · simp only [Store.passes, List.foldlM_cons, e1] at e2 ⊢
      exact e2
    · rcases hex with ⟨x, hx, hu⟩ | h0
      · rcases List.mem_cons.mp hx with rfl | hx
        · exact .inr (c1 hL (.inl hu))
        · exact .inl ⟨x, hx, hu⟩
      · exact .inr (c1 hL (.inr h0))

/-- **C175.** The first run of an object whose vectors have at least `LengthSY` entries reads only what it has written, whichever
pairs are stored and candidates accepted, for any number of passes. -/
theorem C175_first_run {L n : Nat} (restart : Bool) (hn : L ≤ n) (es : List (Bool × Bool)) :
    ∃ b, Store.fresh.run L n restart es = some b ∧ b.cur ≤ L := by
  obtain ⟨b, h1, h2, -⟩ := Store.Ok.passes (restart := restart) hn es Store.fresh.newRun (Store.Ok.init _ _ _ rfl rfl)
  exact ⟨b, h1, h2.cur_le⟩

/-- **C175.** Vectors with `n < LengthSY` entries (the default length is four): a run, with or without a restart
of the full memory, fails in the pass after the one that stores its `n + 1`-st pair. -/
theorem C175_small_dimension {L n : Nat} (restart : Bool) (hn : 0 < n) (hL : n < L) (es : List (Bool × Bool))
    (h : n < es.countP (·.1)) (e : Bool × Bool) (b : Store) (hb : b.cur = 0) : b.run L n restart (es ++ [e]) = none := by
  have stuck : ∀ (b : Store) (x : Bool × Bool) (l : List (Bool × Bool)), b.cur = n + 1 → b.passes L n restart (x :: l) = none := by
    intro b x l hc
    have : b.canSolve L n = false := by
      rw [← Bool.not_eq_true]
      intro h1
      simp only [Store.canSolve, Bool.and_eq_true, decide_eq_true_eq, hc] at h1
      have h2 := h1.2
      rw [Nat.min_eq_left (by omega)] at h2
      have := Nat.eq_of_mul_eq_mul_left hn h2
      omega
    simp only [Store.passes, List.foldlM_cons, Store.pass, this, Bool.false_eq_true, if_false]
    rfl
  have step : ∀ (b b' : Store) (x : Bool × Bool), b.cur ≤ n → b.pass L n restart x = some b' →
      b'.cur = b.cur + if x.1 then 1 else 0 := by
    intro b b' x hc hp
    unfold Store.pass at hp
    by_cases hs : b.canSolve L n = true
    · rw [if_pos hs] at hp
      have tr : ∀ c c' : Store, (if x.2 = true then c.transport else some c) = some c' → c'.cur = c.cur := by
        intro c c' h1
        by_cases h2 : x.2 = true
        · rw [if_pos h2] at h1
          unfold Store.transport at h1
          split at h1
          · cases h1; rfl
          · cases h1
        · rw [if_neg h2] at h1; cases h1; rfl
      by_cases hu : x.1 = true
      · simp only [hu, if_true] at hp ⊢
        obtain ⟨c, hc1, hc2⟩ := Option.bind_eq_some_iff.mp hp
        rw [tr c b' hc2]
        unfold Store.push at hc1
        simp only [show ¬ (restart = true ∧ L ≤ b.cur) from fun h => by omega, if_false, show b.cur < L by omega, if_true] at hc1
        split at hc1
        · cases hc1; rfl
        · cases hc1
      · simp only [if_neg hu, Option.bind_some] at hp ⊢
        rw [tr b b' hp]; rfl
    · rw [if_neg hs] at hp; cases hp
  have main : ∀ (es : List (Bool × Bool)) (b : Store), b.cur ≤ n → n < b.cur + es.countP (·.1) →
      b.passes L n restart (es ++ [e]) = none := by
    intro es
    induction es with
    | nil => intro b h1 h2; simp at h2; omega
    | cons x es ih =>
      intro b h1 h2
      simp only [Store.passes, List.cons_append, List.foldlM_cons]
      cases hp : b.pass L n restart x with
      | none => rfl
      | some b' =>
        have hc := step b b' x h1 hp
        show b'.passes L n restart (es ++ [e]) = none
        rw [List.countP_cons] at h2
        by_cases h3 : b'.cur ≤ n
        · refine ih b' h3 ?_
          split at h2 <;> simp_all <;> omega
        · have h4 : b'.cur = n + 1 := by split at hc <;> omega
          cases es with
          | nil => exact stuck b' e [] h4
          | cons y l => exact stuck b' y (l ++ [e]) h4
  exact main es b.newRun (by show b.cur ≤ n; omega) (by show n < b.cur + _; omega)

/-- **C175.** A further run of an object that holds pairs fails in its first pass: `Run` throws the pairs away and keeps their
number. -/
theorem C175_kept_length {L n : Nat} (restart : Bool) (b : Store) (hc : 0 < b.cur) (e : Bool × Bool) (es : List (Bool × Bool)) :
    b.run L n restart (e :: es) = none := by
  have : b.newRun.canSolve L n = false := by
    rw [← Bool.not_eq_true]
    intro h1
    simp only [Store.canSolve, Bool.and_eq_true, List.all_eq_true, List.mem_range] at h1
    exact absurd (h1.1.1 0 hc) (by simp [Store.newRun])
  simp only [Store.run, Store.passes, List.foldlM_cons, Store.pass, this, Bool.false_eq_true, if_false]
  rfl

/-- **C175.** So the second run of an object fails in its first pass exactly when the first run stored a pair; if it stored none the
second run is as safe as the first. -/
theorem C175_second_run {L n : Nat} (restart restart' : Bool) (hL : 0 < L) (hn : L ≤ n) (es : List (Bool × Bool)) :
    ∃ b, Store.fresh.run L n restart es = some b ∧
      ((∃ e ∈ es, e.1 = true) → ∀ e' es', b.run L n restart' (e' :: es') = none) ∧
      ((∀ e ∈ es, e.1 = false) → ∀ es', b.run L n restart' es' ≠ none) := by
  obtain ⟨b, h1, h2, h3⟩ := Store.Ok.passes (restart := restart) hn es Store.fresh.newRun (Store.Ok.init _ _ _ rfl rfl)
  refine ⟨b, h1, fun hex e' es' => C175_kept_length restart' b (h3 hL (.inl hex)) e' es', fun hno es' => ?_⟩
  have hcur : ∀ (es : List (Bool × Bool)) (c c' : Store), (∀ e ∈ es, e.1 = false) → c.passes L n restart es = some c' →
      c'.cur = c.cur ∧ c'.beg = c.beg := by
    intro es
    induction es with
    | nil => intro c c' _ h; cases h; exact ⟨rfl, rfl⟩
    | cons x es ih =>
      intro c c' hx h
      simp only [Store.passes, List.foldlM_cons] at h
      obtain ⟨d, hd, h2⟩ := Option.bind_eq_some_iff.mp h
      have hdc : d = c := by
        unfold Store.pass at hd
        simp only [hx x List.mem_cons_self, Bool.false_eq_true, if_false, Option.bind_some] at hd
        unfold Store.transport at hd
        split at hd
        · split at hd
          · split at hd
            · cases hd; rfl
            · cases hd
          · cases hd; rfl
        · cases hd
      subst hdc
      exact ih d c' (fun e he => hx e (List.mem_cons_of_mem _ he)) h2
  obtain ⟨c1, c2⟩ := hcur es _ b hno h1
  obtain ⟨b', h4, -, -⟩ := Store.Ok.passes (restart := restart') hn es' b.newRun (Store.Ok.init _ _ _ c1 c2)
  unfold Store.run
  rw [h4]
  exact Option.some_ne_none _

/-- The store follows `Currentlength` and `beginidx` of the model with values (C84). -/
theorem C175_tracks {E : Type*} [NormedAddCommGroup E] [InnerProductSpace ℝ E] (L : Nat) (restart : Bool) (s y : E) (m : Mem E)
    (b b' : Store) (hc : b.cur = m.cur) (hb : b.beg = m.beg) (h : b.push L restart = some b') :
    b'.cur = (push L restart s y m).cur ∧ b'.beg = (push L restart s y m).beg := by
  unfold Store.push at h
  unfold push
  by_cases hr : restart = true ∧ L ≤ m.cur
  · simp only [hc, hr, and_self, if_true] at h ⊢
    by_cases h0 : 0 < L
    · simp only [h0, if_true] at h ⊢
      split at h
      · cases h; exact ⟨rfl, hb⟩
      · cases h
    · simp only [h0, if_false] at h ⊢
      cases h; exact ⟨rfl, hb⟩
  · simp only [hc, if_neg hr] at h ⊢
    by_cases h0 : m.cur < L
    · simp only [h0, if_true] at h ⊢
      split at h
      · cases h; exact ⟨rfl, hb⟩
      · cases h
    · simp only [h0, if_false] at h ⊢
      by_cases h1 : 0 < L
      · simp only [h1, if_true] at h ⊢
        split at h
        · cases h; exact ⟨rfl, by simp only [hb]⟩
        · cases h
      · simp only [h1, if_false] at h ⊢
        cases h; exact ⟨hc, hb⟩

/-- Default length four, vectors with three entries: four stored pairs and one more pass. -/
example : Store.fresh.run 4 3 true [(true, true), (true, true), (true, false), (true, true), (false, true)] = none :=
  C175_small_dimension true (by decide) (by decide) [(true, true), (true, true), (true, false), (true, true)] (by decide) _ _ rfl

/-- Ten entries: six pairs are stored and two forgotten; the second run fails. -/
example : (Store.fresh.run 4 10 false [(true, true), (true, true), (false, true), (true, false), (true, true), (true, true), (true, true)]).map
    (fun b => (b.cur, b.beg)) = some (4, 2) := by decide

end Verif.LSR1
