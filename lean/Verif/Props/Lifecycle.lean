import Verif.Model.Lifecycle

/-!
# C81: stopping the server
-/
namespace Fpki.Lifecycle

theorem run_append (s : State) (a b : List Ev) : s.run (a ++ b) = (s.run a).bind fun t => t.run b := by
  induction a generalizing s with
  | nil => rfl
  | cons e es ih =>
    rw [List.cons_append, State.run, State.run]
    cases s.exec e with
    | none => rfl
    | some s' => exact ih s'

theorem run_inv {P : State → Prop} {Q : Ev → Prop} (hs : ∀ s e s', Q e → P s → s.exec e = some s' → P s') {s s' : State} {es : List Ev} (hq : ∀ e ∈ es, Q e)
    (h0 : P s) (h : s.run es = some s') : P s' := by
  induction es generalizing s with
  | nil => cases h; exact h0
  | cons e es ih =>
    rw [State.run, Option.bind_eq_some_iff] at h
    obtain ⟨s1, h1, h2⟩ := h
    exact ih (fun e he => hq e (by simp [he])) (hs s e s1 (hq e (by simp)) h0 h1) h2

theorem set_self (f : Nat → α) (i : Nat) (a : α) : set f i a i = a := by simp [set]
theorem set_other (f : Nat → α) {i j : Nat} (a : α) (h : j ≠ i) : set f i a j = f j := by simp [set, h]

/-- Without failures of `ListenAndServe`: who waits for the order serves, and nobody else. -/
def Matched (s : State) : Prop := ∀ i, (s.listens i = .serving ↔ s.stoppers i = .waiting ∨ s.stoppers i = .stopping) ∧
  s.listens i ≠ .failed ∧ s.listens i ≠ .returned false ∧ (s.listens i = .out ↔ s.stoppers i = .out)

theorem matched_step (s : State) (e : Ev) (s' : State) (hq : ∀ i, e ≠ .fail i) (h : Matched s) (he : s.exec e = some s') : Matched s' := by
  unfold State.exec at he
  split at he
  · cases he
  · cases e with
    | listen i =>
      simp only at he
      split at he
      · cases he
        intro j
        by_cases hj : j = i
        · subst hj; simp [set_self]
        · simp only [set_other _ _ hj]; exact h j
      · cases he
    | fail i => exact absurd rfl (hq i)
    | take i =>
      simp only at he
      split at he
      · next hc =>
        cases he
        intro j
        by_cases hj : j = i
        · subst hj
          obtain ⟨h1, h2, h3, h4⟩ := h j
          have : s.listens j = .serving := h1.2 (.inl hc.1)
          simp [set_self, this]
        · simp only [set_other _ _ hj]; exact h j
      · cases he
    | stop i =>
      simp only at he
      split at he
      · next hc =>
        cases he
        obtain ⟨h1, h2, h3, h4⟩ := h i
        have hi : s.listens i = .serving := h1.2 (.inr hc)
        intro j
        by_cases hj : j = i
        · subst hj
          simp [set_self, hi]
        · simp only [hi, if_true, set_other _ _ hj]; exact h j
      · cases he
    | ret i =>
      simp only at he
      split at he
      · next hc =>
        cases he
        intro j
        by_cases hj : j = i
        · subst hj
          obtain ⟨h1, h2, h3, h4⟩ := h j
          rw [hc] at h1 h4
          simp only [set_self]
          refine ⟨?_, by simp, by simp, ?_⟩
          · constructor
            · intro h; cases h
            · intro h; have := h1.2 h; cases this
          · constructor
            · intro h; cases h
            · intro h; have := h4.2 h; cases this
        · simp only [set_other _ _ hj]; exact h j
      · next hc => exact absurd hc (h i).2.1
      · cases he
    | shutdown =>
      simp only at he
      split at he <;> cases he <;> exact h
    | unblock =>
      simp only at he
      split at he
      · cases he; exact h
      · cases he
    | signal => cases he; exact h
    | timeout =>
      simp only at he
      split at he
      · cases he; exact h
      · cases he

theorem matched_init : Matched init := by intro i; simp [init]

/-- If no call of `listen` ever failed: once `Shutdown` has been called while call `i` serves and is the only one, whatever goroutine takes the order, it is that of
call `i`, and the rest follows: `listen` returns nil. -/
theorem C81_shutdown_stops_partial {es : List Ev} {s : State} (h : init.run es = some s) (hf : ∀ i, Ev.fail i ∉ es) (hp : s.panicked = false) {i : Nat}
    (hi : s.listens i = .serving) (hw : s.stoppers i = .waiting) (h1 : ∀ j, s.listens j = .serving → j = i) (ht : s.token = false) :
    (∀ j s2, s.run [.shutdown, .take j] = some s2 → j = i) ∧
    ∃ s2, s.run [.shutdown, .take i, .stop i, .ret i] = some s2 ∧ s2.listens i = .returned true := by
  have hm : Matched s := run_inv (P := Matched) (Q := fun e => ∀ i, e ≠ .fail i) (fun s e s' hq => matched_step s e s' hq)
    (fun e he i hei => hf i (hei ▸ he)) matched_init h
  refine ⟨?_, ?_⟩
  · intro j s2 hj
    simp only [State.run, State.exec, hp, ht, Bool.false_eq_true, if_false, Option.bind_some] at hj
    split at hj
    · next hc => exact h1 j ((hm j).1.2 (.inl hc.1))
    · cases hj
  · simp [State.run, State.exec, hp, ht, hw, set_self, hi]

/-- `listen` returns nil only after an order to stop; without `Shutdown` it serves forever or fails. -/
theorem C81_no_return_without_shutdown {es : List Ev} {s : State} (h : init.run es = some s) (hs : Ev.shutdown ∉ es) (i : Nat) :
    s.listens i ≠ .closed ∧ s.listens i ≠ .returned true := by
  have key : (s.token = false ∧ s.blocked = 0 ∧ ∀ i, s.listens i ≠ .closed ∧ s.listens i ≠ .returned true ∧ s.stoppers i ≠ .stopping) := by
    refine run_inv (P := fun s => s.token = false ∧ s.blocked = 0 ∧ ∀ i, s.listens i ≠ .closed ∧ s.listens i ≠ .returned true ∧ s.stoppers i ≠ .stopping)
      (Q := fun e => e ≠ .shutdown) ?_ (fun e he hx => hs (hx ▸ he)) (by simp [init]) h
    rintro s e s' hq ⟨ht, hb, hl⟩ he
    unfold State.exec at he
    split at he
    · cases he
    · cases e with
      | listen i =>
        simp only at he
        split at he
        · cases he
          refine ⟨ht, hb, fun j => ?_⟩
          by_cases hj : j = i
          · subst hj; simp [set_self]
          · simp only [set_other _ _ hj]; exact hl j
        · cases he
      | fail i =>
        simp only at he
        split at he
        · cases he
          refine ⟨ht, hb, fun j => ?_⟩
          by_cases hj : j = i
          · subst hj; simp only [set_self]; exact ⟨by simp, by simp, (hl j).2.2⟩
          · simp only [set_other _ _ hj]; exact hl j
        · cases he
      | take i =>
        simp only at he
        rw [ht] at he
        simp at he
      | stop i =>
        simp only at he
        split at he
        · next hc => exact absurd hc (hl i).2.2
        · cases he
      | ret i =>
        simp only at he
        split at he
        · next hc => exact absurd hc (hl i).1
        · cases he
          refine ⟨ht, hb, fun j => ?_⟩
          by_cases hj : j = i
          · subst hj; simp only [set_self]; exact ⟨by simp, by simp, (hl j).2.2⟩
          · simp only [set_other _ _ hj]; exact hl j
        · cases he
      | shutdown => exact absurd rfl hq
      | unblock =>
        simp only at he
        rw [hb] at he
        simp at he
      | signal => cases he; exact ⟨ht, hb, hl⟩
      | timeout =>
        simp only at he
        split at he
        · cases he; exact ⟨ht, hb, hl⟩
        · cases he
  exact ⟨(key.2.2 i).1, (key.2.2 i).2.1⟩

/-- The first call of `Shutdown`, and every one that comes when the earlier orders were taken, returns at once. -/
theorem C81_shutdown_returns_partial (s : State) (hp : s.panicked = false) (ht : s.token = false) : ∃ s', s.exec .shutdown = some s' ∧ s'.blocked = s.blocked := by
  simp [State.exec, hp, ht]

/-! ## Violations -/

/-- After a failed call of `listen` (the port was in use) and a new one that serves, the order to stop may go to the goroutine that the failed call left behind. Then
the server goes on serving whatever happens, until `Shutdown` is called again. -/
theorem C81_lost_order_violated : ∃ s, init.run [.listen 0, .fail 0, .ret 0, .listen 1, .shutdown, .take 0, .stop 0] = some s ∧ s.listens 1 = .serving ∧
    ∀ (es : List Ev) (s' : State), Ev.shutdown ∉ es → s.run es = some s' → s'.listens 1 ≠ .closed ∧ s'.listens 1 ≠ .returned true := by
  refine ⟨_, rfl, by decide, ?_⟩
  intro es s' hs h
  have key : s'.token = false ∧ s'.blocked = 0 ∧ s'.listens 1 ≠ .closed ∧ s'.listens 1 ≠ .returned true ∧ s'.stoppers 1 ≠ .stopping := by
    refine run_inv (P := fun s => s.token = false ∧ s.blocked = 0 ∧ s.listens 1 ≠ .closed ∧ s.listens 1 ≠ .returned true ∧ s.stoppers 1 ≠ .stopping)
      (Q := fun e => e ≠ .shutdown) ?_ (fun e he hx => hs (hx ▸ he)) (by decide) h
    rintro s e s' hq ⟨ht, hb, hl1, hl2, hl3⟩ he
    unfold State.exec at he
    split at he
    · cases he
    · cases e with
      | listen i =>
        simp only at he
        split at he
        · cases he
          by_cases hj : 1 = i
          · subst hj; simp [set_self, ht, hb]
          · simp only [set_other _ _ hj]; exact ⟨ht, hb, hl1, hl2, hl3⟩
        · cases he
      | fail i =>
        simp only at he
        split at he
        · cases he
          by_cases hj : 1 = i
          · subst hj; simp only [set_self]; exact ⟨ht, hb, by simp, by simp, hl3⟩
          · simp only [set_other _ _ hj]; exact ⟨ht, hb, hl1, hl2, hl3⟩
        · cases he
      | take i => simp only at he; rw [ht] at he; simp at he
      | stop i =>
        simp only at he
        split at he
        · next hc =>
          have hj : 1 ≠ i := by rintro rfl; exact hl3 hc
          cases he
          refine ⟨ht, hb, ?_, ?_, ?_⟩
          · show (if _ then _ else _ : Nat → Listen) 1 ≠ _
            split
            · rw [set_other _ _ hj]; exact hl1
            · exact hl1
          · show (if _ then _ else _ : Nat → Listen) 1 ≠ _
            split
            · rw [set_other _ _ hj]; exact hl2
            · exact hl2
          · show set _ _ _ 1 ≠ _
            rw [set_other _ _ hj]; exact hl3
        · cases he
      | ret i =>
        simp only at he
        split at he
        · next hc =>
          have hj : 1 ≠ i := by rintro rfl; exact hl1 hc
          cases he
          simp only [set_other _ _ hj]; exact ⟨ht, hb, hl1, hl2, hl3⟩
        · cases he
          by_cases hj : 1 = i
          · subst hj; simp only [set_self]; exact ⟨ht, hb, by simp, by simp, hl3⟩
          · simp only [set_other _ _ hj]; exact ⟨ht, hb, hl1, hl2, hl3⟩
        · cases he
      | shutdown => exact absurd rfl hq
      | unblock => simp only at he; rw [hb] at he; simp at he
      | signal => cases he; exact ⟨ht, hb, hl1, hl2, hl3⟩
      | timeout =>
        simp only at he
        split at he
        · cases he; exact ⟨ht, hb, hl1, hl2, hl3⟩
        · cases he
  exact ⟨key.2.2.1, key.2.2.2.1⟩

/-- Without a server to take it the second call of `Shutdown` blocks; and a server that is started later stops at once, because of the first. -/
theorem C81_second_shutdown_violated : ∃ s, init.run [.shutdown, .shutdown] = some s ∧ s.blocked = 1 ∧ (∀ s', s.exec .unblock ≠ some s') ∧
    ∃ s', s.run [.listen 0, .take 0, .stop 0, .ret 0] = some s' ∧ s'.listens 0 = .returned true := by
  refine ⟨_, rfl, by decide, ?_, _, rfl, by decide⟩
  intro s' h
  exact absurd h (by simp [State.exec, init])

/-- A signal never makes the program end cleanly: in all its executions in which the port can be opened, the main routine never returns; what ends the process is the
panic some seconds after the signal. -/
theorem C81_signal_violated {es : List Ev} {s : State} (h : init.run es = some s) (hp : ∀ e ∈ es, e.ofProgram = true) (hf : Ev.fail 0 ∉ es) :
    s.listens 0 = .out ∨ s.listens 0 = .serving := by
  have hs : Ev.shutdown ∉ es := fun hx => by have := hp _ hx; cases this
  obtain ⟨h1, h2⟩ := C81_no_return_without_shutdown h hs 0
  have key : s.listens 0 ≠ .failed ∧ s.listens 0 ≠ .returned false := by
    refine run_inv (P := fun s => s.listens 0 ≠ .failed ∧ s.listens 0 ≠ .returned false) (Q := fun e => e ≠ .fail 0) ?_ (fun e he hx => hf (hx ▸ he)) (by decide) h
    rintro s e s' hq ⟨hl1, hl2⟩ he
    unfold State.exec at he
    split at he
    · cases he
    · cases e with
      | listen i =>
        simp only at he
        split at he
        · cases he
          by_cases hj : 0 = i
          · subst hj; simp [set_self]
          · simp only [set_other _ _ hj]; exact ⟨hl1, hl2⟩
        · cases he
      | fail i =>
        simp only at he
        split at he
        · cases he
          have hj : 0 ≠ i := by rintro rfl; exact hq rfl
          simp only [set_other _ _ hj]; exact ⟨hl1, hl2⟩
        · cases he
      | take i =>
        simp only at he
        split at he
        · cases he; exact ⟨hl1, hl2⟩
        · cases he
      | stop i =>
        simp only at he
        split at he
        · cases he
          by_cases hj : 0 = i
          · subst hj
            constructor
            · show (if _ then _ else _ : Nat → Listen) 0 ≠ _
              split
              · simp [set_self]
              · exact hl1
            · show (if _ then _ else _ : Nat → Listen) 0 ≠ _
              split
              · simp [set_self]
              · exact hl2
          · constructor
            · show (if _ then _ else _ : Nat → Listen) 0 ≠ _
              split
              · rw [set_other _ _ hj]; exact hl1
              · exact hl1
            · show (if _ then _ else _ : Nat → Listen) 0 ≠ _
              split
              · rw [set_other _ _ hj]; exact hl2
              · exact hl2
        · cases he
      | ret i =>
        simp only at he
        split at he
        · next hc =>
          cases he
          by_cases hj : 0 = i
          · subst hj; simp [set_self]
          · simp only [set_other _ _ hj]; exact ⟨hl1, hl2⟩
        · next hc =>
          have hj : 0 ≠ i := by rintro rfl; exact hl1 hc
          cases he
          simp only [set_other _ _ hj]; exact ⟨hl1, hl2⟩
        · cases he
      | shutdown => simp only at he; split at he <;> cases he <;> exact ⟨hl1, hl2⟩
      | unblock =>
        simp only at he
        split at he
        · cases he; exact ⟨hl1, hl2⟩
        · cases he
      | signal => cases he; exact ⟨hl1, hl2⟩
      | timeout =>
        simp only at he
        split at he
        · cases he; exact ⟨hl1, hl2⟩
        · cases he
  cases hl : s.listens 0 with
  | out => exact .inl rfl
  | serving => exact .inr rfl
  | failed => exact absurd hl key.1
  | closed => exact absurd hl h1
  | returned b =>
    cases b with
    | false => exact absurd hl key.2
    | true => exact absurd hl h2

/-- Once the signal has come, the time to exit passes and the process panics, while the server is still serving. -/
theorem C81_signal_panics : ∃ s, init.run [.listen 0, .signal, .timeout] = some s ∧ s.panicked = true ∧ s.listens 0 = .serving := ⟨_, rfl, rfl, rfl⟩

example : ∃ s, init.run [.listen 0] = some s ∧ s.panicked = false ∧ s.listens 0 = .serving ∧ s.stoppers 0 = .waiting ∧ s.token = false ∧ ∀ j, s.listens j = .serving → j = 0 := by
  refine ⟨_, rfl, rfl, rfl, rfl, rfl, ?_⟩
  intro j hj
  by_cases h : j = 0
  · exact h
  · exact absurd hj (by simp [init, set, h])

end Fpki.Lifecycle
