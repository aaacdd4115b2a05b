import Verif.Model.Spin

/-!
# C42: the ordered spin lock
-/
namespace Fpki.Spin

/-- Every worker with an ID below `n` uses the lock at most once. -/
def Once (n : Nat) (s : State) : Ev → Prop
  | .lock id => s.workers id = .before ∧ id < n
  | _ => True

/-- The states reached by workers that use the lock once, with the workers in the order in which they entered. -/
inductive Reach (n : Nat) : Nat → List Nat → State → Prop
  | init : Reach n 0 [] (init n)
  | step {k : Nat} {entered : List Nat} {s s' : State} (e : Ev) : Reach n k entered s → Once n s e → s.exec n e = some s' →
      Reach n (k + 1) (match e with | .lock id => entered ++ [id] | _ => entered) s'

/-- What all these states satisfy. -/
structure Inv (n k : Nat) (entered : List Nat) (s : State) : Prop where
  store : ∀ w, s.starter = .store w → w < n ∧ s.active = (w : Int) - 1 ∧ s.finished = (w : Int) - 1 ∧ entered = List.range w ∧ (∀ i, i < w → s.workers i = .after) ∧
    (∀ i, w ≤ i → s.workers i = .before) ∧ k = 4 * w
  wait : ∀ w, s.starter = .wait w → w < n ∧ s.active = (w : Int) ∧ (∀ i, i < w → s.workers i = .after) ∧ (∀ i, w < i → s.workers i = .before) ∧
    ((s.workers w = .before ∧ entered = List.range w ∧ s.finished = (w : Int) - 1 ∧ k = 4 * w + 1) ∨
     (s.workers w = .critical ∧ entered = List.range (w + 1) ∧ s.finished = (w : Int) - 1 ∧ k = 4 * w + 2) ∨
     (s.workers w = .after ∧ entered = List.range (w + 1) ∧ s.finished = (w : Int) ∧ k = 4 * w + 3))
  ended : s.starter = .ended → s.active = (n : Int) - 1 ∧ s.finished = (n : Int) - 1 ∧ entered = List.range n ∧ (∀ i, i < n → s.workers i = .after) ∧
    (∀ i, n ≤ i → s.workers i = .before) ∧ k = 4 * n

theorem Reach.inv {n k : Nat} {entered : List Nat} {s : State} (h : Reach n k entered s) : Inv n k entered s := by
  induction h with
  | init =>
    unfold Spin.init
    refine ⟨?_, ?_, ?_⟩
    · intro w hw
      by_cases h0 : n = 0
      · simp [h0] at hw
      · simp only [h0, if_false, Starter.store.injEq] at hw
        subst hw
        refine ⟨by omega, by simp, by simp, rfl, fun i hi => absurd hi (Nat.not_lt_zero i), fun i _ => rfl, rfl⟩
    · intro w hw
      by_cases h0 : n = 0 <;> simp [h0] at hw
    · intro hw
      by_cases h0 : n = 0
      · subst h0
        exact ⟨by simp, by simp, rfl, fun i hi => absurd hi (Nat.not_lt_zero i), fun i _ => rfl, rfl⟩
      · simp [h0] at hw
  | @step k entered s s' e _ ho he ih =>
    cases e with
    | store =>
      simp only [State.exec] at he
      split at he
      · rename_i w hw
        cases he
        obtain ⟨h1, h2, h3, h4, h5, h6, h7⟩ := ih.store w hw
        refine ⟨fun w' h => (by cases h), fun w' h => ?_, fun h => (by cases h)⟩
        cases h
        exact ⟨h1, rfl, h5, fun i hi => h6 i (by omega), Or.inl ⟨h6 w (Nat.le_refl w), h4, h3, by omega⟩⟩
      · cases he
    | pass =>
      simp only [State.exec] at he
      split at he
      · rename_i w hw
        split at he
        · rename_i hf
          cases he
          obtain ⟨h1, h2, h3, h4, h5⟩ := ih.wait w hw
          have h6 : s.workers w = .after ∧ entered = List.range (w + 1) ∧ s.finished = (w : Int) ∧ k = 4 * w + 3 := by
            rcases h5 with h | h | h
            · have := h.2.2.1; omega
            · have := h.2.2.1; omega
            · exact h
          have hall : ∀ i, i < w + 1 → s.workers i = .after := by
            intro i hi
            by_cases hiw : i = w
            · rw [hiw]; exact h6.1
            · exact h3 i (by omega)
          by_cases hn : w + 1 < n
          · refine ⟨fun w' h => ?_, fun w' h => ?_, fun h => ?_⟩
            · simp only [hn, if_true, Starter.store.injEq] at h
              subst h
              exact ⟨hn, by rw [h2]; push_cast; omega, by rw [hf]; push_cast; omega, h6.2.1, hall, fun i hi => h4 i (by omega), by omega⟩
            · simp [hn] at h
            · simp [hn] at h
          · have hwn : n = w + 1 := by omega
            refine ⟨fun w' h => ?_, fun w' h => ?_, fun h => ?_⟩
            · simp [hn] at h
            · simp [hn] at h
            · subst hwn
              exact ⟨by rw [h2]; push_cast; omega, by rw [hf]; push_cast; omega, h6.2.1, hall, fun i hi => h4 i (by omega), by omega⟩
        · cases he
      · cases he
    | lock id =>
      simp only [State.exec] at he
      split at he
      · rename_i hc
        cases he
        simp only [Once] at ho
        cases hs : s.starter with
        | store w =>
          obtain ⟨h1, h2, h3, h4, h5, h6, h7⟩ := ih.store w hs
          have : s.workers id = .after := h5 id (by have := hc.2; omega)
          rw [ho.1] at this; cases this
        | ended =>
          obtain ⟨h2, h3, h4, h5, h6, h7⟩ := ih.ended hs
          have : s.workers id = .after := h5 id ho.2
          rw [ho.1] at this; cases this
        | wait w =>
          obtain ⟨h1, h2, h3, h4, h5⟩ := ih.wait w hs
          have hid : id = w := by have := hc.2; omega
          subst hid
          refine ⟨fun w' h => ?_, fun w' h => ?_, fun h => ?_⟩
          · cases h
          · cases h
            refine ⟨h1, h2, ?_, ?_, ?_⟩
            · intro i hi
              simp only
              rw [if_neg (by omega)]
              exact h3 i hi
            · intro i hi
              simp only
              rw [if_neg (by omega)]
              exact h4 i hi
            · right; left
              rcases h5 with h | h | h
              · refine ⟨by simp, ?_, h.2.2.1, by omega⟩
                simp only
                rw [h.2.1, List.range_succ]
              · rw [ho.1] at h; cases h.1
              · rw [ho.1] at h; cases h.1
          · cases h
      · cases he
    | unlock id =>
      simp only [State.exec] at he
      split at he
      · rename_i hc
        cases he
        cases hs : s.starter with
        | store w =>
          obtain ⟨h1, h2, h3, h4, h5, h6, h7⟩ := ih.store w hs
          by_cases hi : id < w
          · rw [h5 id hi] at hc; cases hc
          · rw [h6 id (by omega)] at hc; cases hc
        | ended =>
          obtain ⟨h2, h3, h4, h5, h6, h7⟩ := ih.ended hs
          by_cases hi : id < n
          · rw [h5 id hi] at hc; cases hc
          · rw [h6 id (by omega)] at hc; cases hc
        | wait w =>
          obtain ⟨h1, h2, h3, h4, h5⟩ := ih.wait w hs
          have hid : id = w := by
            by_cases hi : id < w
            · rw [h3 id hi] at hc; cases hc
            · by_cases hi' : w < id
              · rw [h4 id hi'] at hc; cases hc
              · omega
          subst hid
          refine ⟨fun w' h => ?_, fun w' h => ?_, fun h => ?_⟩
          · cases h
          · cases h
            refine ⟨h1, h2, ?_, ?_, ?_⟩
            · intro i hi
              simp only
              rw [if_neg (by omega)]
              exact h3 i hi
            · intro i hi
              simp only
              rw [if_neg (by omega)]
              exact h4 i hi
            · right; right
              rcases h5 with h | h | h
              · rw [hc] at h; cases h.1
              · exact ⟨by simp, h.2.1, rfl, by omega⟩
              · rw [hc] at h; cases h.1
          · cases h
      · cases he

/-- C42 (partial: every worker uses the lock once): at most one worker is between `Lock` and `UnLock`. -/
theorem C42_mutex_partial {n k : Nat} {entered : List Nat} {s : State} (h : Reach n k entered s) (i j : Nat) (hi : s.workers i = .critical) (hj : s.workers j = .critical) : i = j := by
  have hv := h.inv
  cases hs : s.starter with
  | store w =>
    obtain ⟨_, _, _, _, h5, h6, _⟩ := hv.store w hs
    by_cases hc : i < w
    · rw [h5 i hc] at hi; cases hi
    · rw [h6 i (by omega)] at hi; cases hi
  | ended =>
    obtain ⟨_, _, _, h5, h6, _⟩ := hv.ended hs
    by_cases hc : i < n
    · rw [h5 i hc] at hi; cases hi
    · rw [h6 i (by omega)] at hi; cases hi
  | wait w =>
    obtain ⟨_, _, h3, h4, _⟩ := hv.wait w hs
    have : ∀ x, s.workers x = .critical → x = w := by
      intro x hx
      by_cases hc : x < w
      · rw [h3 x hc] at hx; cases hx
      · by_cases hc' : w < x
        · rw [h4 x hc'] at hx; cases hx
        · omega
    rw [this i hi, this j hj]

/-- C42 (partial, as above): the workers enter in the order of their IDs 0, 1, 2, ..., and one only enters when all before it have left. -/
theorem C42_order_partial {n k : Nat} {entered : List Nat} {s : State} (h : Reach n k entered s) :
    entered = List.range entered.length ∧ entered.length ≤ n ∧ ∀ j, s.workers j = .critical → ∀ i, i < j → s.workers i = .after := by
  have hv := h.inv
  cases hs : s.starter with
  | store w =>
    obtain ⟨h1, _, _, h4, h5, h6, _⟩ := hv.store w hs
    refine ⟨by rw [h4]; simp, by rw [h4]; simp; omega, ?_⟩
    intro j hj i hi
    by_cases hc : j < w
    · exact h5 i (by omega)
    · rw [h6 j (by omega)] at hj; cases hj
  | ended =>
    obtain ⟨_, _, h4, h5, h6, _⟩ := hv.ended hs
    refine ⟨by rw [h4]; simp, by rw [h4]; simp, ?_⟩
    intro j hj i hi
    by_cases hc : j < n
    · exact h5 i (by omega)
    · rw [h6 j (by omega)] at hj; cases hj
  | wait w =>
    obtain ⟨h1, _, h3, h4, h5⟩ := hv.wait w hs
    refine ⟨?_, ?_, ?_⟩
    · rcases h5 with h | h | h <;> rw [h.2.1] <;> simp
    · rcases h5 with h | h | h <;> rw [h.2.1] <;> simp <;> omega
    · intro j hj i hi
      by_cases hc : w < j
      · rw [h4 j hc] at hj; cases hj
      · exact h3 i (by omega)

/-- C42 (partial, as above): `Wait` returns exactly when every worker has left. -/
theorem C42_wait_partial {n k : Nat} {entered : List Nat} {s : State} (h : Reach n k entered s) : s.waitReturns n ↔ ∀ i, i < n → s.workers i = .after := by
  have hv := h.inv
  unfold State.waitReturns
  cases hs : s.starter with
  | store w =>
    obtain ⟨h1, _, h3, _, _, h6, _⟩ := hv.store w hs
    constructor
    · intro hf; omega
    · intro ha; have := ha w h1; rw [h6 w (Nat.le_refl w)] at this; cases this
  | ended =>
    obtain ⟨_, h3, _, h5, _, _⟩ := hv.ended hs
    exact ⟨fun _ => h5, fun _ => h3⟩
  | wait w =>
    obtain ⟨h1, _, h3, h4, h5⟩ := hv.wait w hs
    constructor
    · intro hf i hi
      rcases h5 with h | h | h
      · have := h.2.2.1; omega
      · have := h.2.2.1; omega
      · have := h.2.2.1
        by_cases hiw : i = w
        · rw [hiw]; exact h.1
        · exact h3 i (by omega)
    · intro ha
      rcases h5 with h | h | h
      · have := ha w h1; rw [h.1] at this; cases this
      · have := ha w h1; rw [h.1] at this; cases this
      · rw [h.2.2.1]
        by_cases hw : w + 1 < n
        · have := ha (w + 1) hw; rw [h4 (w + 1) (by omega)] at this; cases this
        · omega

/-- C42: there is no deadlock: as long as not all have left, a step is possible (a worker that has not called `Lock` yet may have to), and everything is over after `4 n` steps. -/
theorem C42_progress {n k : Nat} {entered : List Nat} {s : State} (h : Reach n k entered s) :
    k ≤ 4 * n ∧ (s.starter = .ended ∨ ∃ e s', Once n s e ∧ s.exec n e = some s') := by
  have hv := h.inv
  cases hs : s.starter with
  | store w =>
    obtain ⟨h1, _, _, _, _, _, h7⟩ := hv.store w hs
    exact ⟨by omega, Or.inr ⟨.store, _, trivial, by simp only [State.exec, hs]; rfl⟩⟩
  | ended =>
    obtain ⟨_, _, _, _, _, h7⟩ := hv.ended hs
    exact ⟨by omega, Or.inl rfl⟩
  | wait w =>
    obtain ⟨h1, h2, _, _, h5⟩ := hv.wait w hs
    rcases h5 with h | h | h
    · exact ⟨by omega, Or.inr ⟨.lock w, _, ⟨h.1, h1⟩, by simp only [State.exec]; rw [if_pos ⟨by rw [h.1]; simp, h2⟩]⟩⟩
    · exact ⟨by omega, Or.inr ⟨.unlock w, _, trivial, by simp only [State.exec]; rw [if_pos h.1]⟩⟩
    · exact ⟨by omega, Or.inr ⟨.pass, _, trivial, by simp only [State.exec, hs]; rw [if_pos h.2.2.1]⟩⟩

/-- Running steps. -/
def State.run (n : Nat) (s : State) : List Ev → Option State
  | [] => some s
  | e :: es => (s.exec n e).bind (fun s' => s'.run n es)

/-- C42 is violated if a worker uses the lock twice: worker 0 may take it again before the goroutine of `Start` has noticed its `UnLock`; then worker 1 enters while worker 0 is still inside. -/
theorem C42_relock_violated : ∃ s, (init 2).run 2 [.store, .lock 0, .unlock 0, .lock 0, .pass, .store, .lock 1] = some s ∧ s.workers 0 = .critical ∧ s.workers 1 = .critical :=
  ⟨_, rfl, rfl, rfl⟩

/-- Two workers use it once. -/
example : ∃ s, Reach 2 8 [0, 1] s ∧ s.waitReturns 2 := by
  have h0 := Reach.init (n := 2)
  have h1 := Reach.step .store h0 trivial rfl
  have h2 := Reach.step (.lock 0) h1 ⟨rfl, by decide⟩ rfl
  have h3 := Reach.step (.unlock 0) h2 trivial rfl
  have h4 := Reach.step .pass h3 trivial rfl
  have h5 := Reach.step .store h4 trivial rfl
  have h6 := Reach.step (.lock 1) h5 ⟨rfl, by decide⟩ rfl
  have h7 := Reach.step (.unlock 1) h6 trivial rfl
  have h8 := Reach.step .pass h7 trivial rfl
  exact ⟨_, h8, rfl⟩

end Fpki.Spin
