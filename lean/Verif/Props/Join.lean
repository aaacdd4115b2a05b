import Verif.Model.Join

/-!
# C99: joined pipelines
-/
namespace Fpki.Join
variable {α : Type}

/-! ## Specification -/

/-- Nothing fails and nothing stops early: the original function of the sink returns no error, the stages before it and the second pipeline end only when their input does. -/
def Ev.Calm : Ev α → Prop
  | .resume _ => False
  | .takeEnd err => err = none
  | .call r => r = .ok
  | .srcStop _ => False
  | .srcClosed err => err = none
  | _ => True

/-- The second pipeline does not stop before the end of its input (and `Resume` is not called again). -/
def Ev.Steady : Ev α → Prop
  | .resume _ => False
  | .srcStop _ => False
  | _ => True

/-! ## Lemmas -/

/-- The first values of the list, `d` times each. -/
def times (d : Nat) (l : List α) : List α := l.flatMap fun v => List.replicate d v

theorem times_snoc (d : Nat) (l : List α) (v : α) : times d (l ++ [v]) = times d l ++ List.replicate d v := by
  simp [times]

theorem times_one (l : List α) : times 1 l = l := by
  induction l with
  | nil => rfl
  | cons a l ih =>
    change a :: times 1 l = _
    rw [ih]

/-- What holds in a calm run, after `Resume` with the values `xs`, if the functions are wrapped `d` times. -/
structure Inv (d : Nat) (xs : List α) (s : St α) : Prop where
  depth : s.depth = d
  phase : match s.sink with
    | .off => False
    | .idle => xs = s.called ++ s.input ∧ s.got = times d s.called ∧ s.closed = false ∧ ∀ r, s.src ≠ .ended r
    | .inFunc k v => xs = s.called ++ v :: s.input ∧ k ≤ d ∧ s.got = times d s.called ++ List.replicate (d - k) v ∧ s.closed = false ∧ ∀ r, s.src ≠ .ended r
    | .waiting r => r = none ∧ s.called = xs ∧ s.got = times d xs ∧ s.closed = true ∧ s.input = [] ∧ ∀ r, s.src = .ended r → r = none
    | .finished r => r = none ∧ s.called = xs ∧ s.got = times d xs ∧ s.closed = true ∧ s.input = [] ∧ s.src = .ended none
  src : s.src ≠ .off
  panic : s.panic = false

theorem inv_step (xs : List α) {s s' : St α} {e : Ev α} (hi : Inv 1 xs s) (he : e.Calm) (h : exec s e = some s') : Inv 1 xs s' := by
  obtain ⟨hd, hph, hsrc, hpan⟩ := hi
  unfold exec at h
  rw [if_neg (by simp [hpan])] at h
  cases e with
  | resume input => exact absurd he (by simp [Ev.Calm])
  | srcStop err => exact absurd he (by simp [Ev.Calm])
  | take =>
    simp only at h
    split at h
    · rename_i v rest hs hin
      cases h
      rw [hs] at hph
      obtain ⟨a, b, c, d⟩ := hph
      exact ⟨hd, ⟨by rw [a, hin], by rw [hd]; exact Nat.le_refl _, by rw [hd, b]; simp, c, d⟩, hsrc, hpan⟩
    · cases h
  | takeEnd err =>
    simp only [Ev.Calm] at he
    subst he
    simp only at h
    split at h
    · rename_i hs hin
      cases h
      rw [hs] at hph
      obtain ⟨a, b, c, d⟩ := hph
      unfold closeAll
      rw [hd, if_neg (by decide), c, if_neg (by decide)]
      rw [hin, List.append_nil] at a
      exact ⟨rfl, ⟨rfl, a.symm, by rw [a]; exact b, rfl, hin, fun r hr => absurd hr (d r)⟩, hsrc, hpan⟩
    · cases h
  | hand =>
    simp only at h
    split at h
    · rename_i k v hs hsr
      rw [hs] at hph
      obtain ⟨a, b, c, d, f⟩ := hph
      rw [d, if_neg (by decide)] at h
      cases h
      have hk : k = 0 := by omega
      subst hk
      refine ⟨hd, ⟨a, by omega, ?_, rfl, (by intro r h; cases h)⟩, (by intro h; cases h), hpan⟩
      show s.got ++ [v] = _
      rw [c]
      simp
    · cases h
  | call r =>
    simp only [Ev.Calm] at he
    subst he
    simp only at h
    split at h
    · rename_i v hs
      cases h
      rw [hs] at hph
      obtain ⟨a, b, c, d, f⟩ := hph
      refine ⟨hd, ⟨by rw [a]; simp, ?_, d, f⟩, hsrc, hpan⟩
      show s.got = _
      rw [times_snoc, c]
    · cases h
  | srcSelect =>
    simp only at h
    split at h
    · rename_i hs
      cases h
      rw [hs] at hph
      refine ⟨hd, ?_, (by intro h; cases h), hpan⟩
      simp only
      split at hph
      · exact hph
      · exact ⟨hph.1, hph.2.1, hph.2.2.1, (by intro r h; cases h)⟩
      · exact ⟨hph.1, hph.2.1, hph.2.2.1, hph.2.2.2.1, (by intro r h; cases h)⟩
      · exact ⟨hph.1, hph.2.1, hph.2.2.1, hph.2.2.2.1, hph.2.2.2.2.1, (by intro r h; cases h)⟩
      · exact absurd hph.2.2.2.2.2 (by simp)
    · cases h
  | srcSent =>
    simp only at h
    split at h
    · rename_i v hs
      cases h
      rw [hs] at hph
      refine ⟨hd, ?_, (by intro h; cases h), hpan⟩
      simp only
      split at hph
      · exact hph
      · exact ⟨hph.1, hph.2.1, hph.2.2.1, (by intro r h; cases h)⟩
      · exact ⟨hph.1, hph.2.1, hph.2.2.1, hph.2.2.2.1, (by intro r h; cases h)⟩
      · exact ⟨hph.1, hph.2.1, hph.2.2.1, hph.2.2.2.1, hph.2.2.2.2.1, (by intro r h; cases h)⟩
      · exact absurd hph.2.2.2.2.2 (by simp)
    · cases h
  | srcClosed err =>
    simp only [Ev.Calm] at he
    subst he
    simp only at h
    split at h
    · rename_i hs
      split at h
      · rename_i hc
        cases h
        refine ⟨hd, ?_, (by intro h; cases h), hpan⟩
        simp only
        split at hph
        · exact hph
        · exact absurd hph.2.2.1 (by simp [hc])
        · exact absurd hph.2.2.2.1 (by simp [hc])
        · exact ⟨hph.1, hph.2.1, hph.2.2.1, hc, hph.2.2.2.2.1, (by intro r h; cases h; rfl)⟩
        · exact ⟨hph.1, hph.2.1, hph.2.2.1, hc, hph.2.2.2.2.1, True.intro⟩
      · cases h
    · cases h
  | notice =>
    simp only at h
    split at h
    · rename_i e hs hsr
      rw [hs] at hph
      exact absurd hsr (hph.2.2.2 _)
    · cases h
  | wait =>
    simp only at h
    split at h
    · rename_i err err' hs hsr
      cases h
      rw [hs] at hph
      obtain ⟨a, b, c, d, f, g⟩ := hph
      have := g _ hsr
      subst this a
      exact ⟨hd, ⟨rfl, b, c, d, f, rfl⟩, (by intro h; cases h), hpan⟩
    · cases h

/-- How many steps are left at most. -/
def Sink.pot : Sink α → Nat
  | .off => 0
  | .idle => 2
  | .inFunc 0 _ => 3
  | .inFunc _ _ => 6
  | .waiting _ => 1
  | .finished _ => 0

def Src.pot : Src α → Nat
  | .off => 0
  | .select => 2
  | .inFunc => 1
  | .sending _ => 3
  | .ended _ => 0

def St.pot (s : St α) : Nat := 5 * s.input.length + s.sink.pot + s.src.pot

theorem inFunc_pot (k : Nat) (v : α) : (Sink.inFunc k v).pot = if k = 0 then 3 else 6 := by
  cases k <;> rfl

theorem pot_step {xs : List α} {s s' : St α} {e : Ev α} (hi : Inv 1 xs s) (he : e.Calm) (h : exec s e = some s') : s'.pot < s.pot := by
  obtain ⟨hd, hph, hsrc, hpan⟩ := hi
  unfold exec at h
  rw [if_neg (by simp [hpan])] at h
  cases e with
  | resume input => exact absurd he (by simp [Ev.Calm])
  | srcStop err => exact absurd he (by simp [Ev.Calm])
  | take =>
    simp only at h
    split at h
    · rename_i v rest hs hin
      cases h
      simp only [St.pot, hs, hin, hd, List.length_cons, Sink.pot]
      omega
    · cases h
  | takeEnd err =>
    simp only at h
    split at h
    · rename_i hs hin
      cases h
      rw [hs] at hph
      unfold closeAll
      rw [hd, if_neg (by decide), hph.2.2.1, if_neg (by decide)]
      simp only [St.pot, hs, Sink.pot]
      omega
    · cases h
  | hand =>
    simp only at h
    split at h
    · rename_i k v hs hsr
      rw [hs] at hph
      rw [hph.2.2.2.1, if_neg (by decide)] at h
      cases h
      have hk : k = 0 := by have := hph.2.1; omega
      subst hk
      simp only [St.pot, hs, hsr, Sink.pot, Src.pot]
      omega
    · cases h
  | call r =>
    simp only [Ev.Calm] at he
    subst he
    simp only at h
    split at h
    · rename_i v hs
      cases h
      simp only [St.pot, hs, Sink.pot]
      omega
    · cases h
  | srcSelect =>
    simp only at h
    split at h
    · rename_i hs
      cases h
      simp only [St.pot, hs, Src.pot]
      omega
    · cases h
  | srcSent =>
    simp only at h
    split at h
    · rename_i hs
      cases h
      simp only [St.pot, hs, Src.pot]
      omega
    · cases h
  | srcClosed err =>
    simp only at h
    split at h
    · rename_i hs
      split at h
      · cases h
        simp only [St.pot, hs, Src.pot]
        omega
      · cases h
    · cases h
  | notice =>
    simp only at h
    split at h
    · rename_i e hs hsr
      rw [hs] at hph
      exact absurd hsr (hph.2.2.2 _)
    · cases h
  | wait =>
    simp only at h
    split at h
    · rename_i err err' hs hsr
      cases h
      simp only [St.pot, hs, hsr, Sink.pot, Src.pot]
      omega
    · cases h

theorem inv_run (xs : List α) : ∀ (es : List (Ev α)) (s s' : St α), Inv 1 xs s → (∀ e ∈ es, e.Calm) → run s es = some s' → Inv 1 xs s' ∧ es.length + s'.pot ≤ s.pot
  | [], s, s', hi, _, h => by
    cases h
    exact ⟨hi, by simp⟩
  | e :: es, s, s', hi, he, h => by
    unfold run at h
    cases hx : exec s e with
    | none => rw [hx] at h; cases h
    | some t =>
      rw [hx] at h
      have h1 := inv_step xs hi (he e (by simp)) hx
      have h2 := pot_step hi (he e (by simp)) hx
      obtain ⟨h3, h4⟩ := inv_run xs es t s' h1 (fun e h => he e (by simp [h])) h
      exact ⟨h3, by rw [List.length_cons]; omega⟩

theorem first (xs : List α) : exec (St.init false) (.resume xs) = some ⟨1, false, xs, .idle, .select, [], [], false⟩ := rfl

theorem inv_first (xs : List α) : Inv 1 xs (⟨1, false, xs, .idle, .select, [], [], false⟩ : St α) :=
  ⟨rfl, ⟨by simp, rfl, rfl, (by intro r h; cases h)⟩, (by intro h; cases h), rfl⟩

/-- Whether the run has come to its end. -/
def St.finished (s : St α) : Prop := ∃ r, s.sink = .finished r

/-! ## C99 -/

/-- C99 (partial: the first run, if nothing fails and nothing stops early): there is no panic, what the second pipeline has received are the first values that the first one delivered, in order and each once; at the end both the second pipeline and the original function of the sink have got all of them and no error is reported. -/
theorem C99_values_partial (xs : List α) (es : List (Ev α)) (hc : ∀ e ∈ es, e.Calm) (s : St α) (h : run (St.init false) (.resume xs :: es) = some s) :
    s.panic = false ∧ s.got <+: xs ∧ ∀ r, s.sink = .finished r → r = none ∧ s.got = xs ∧ s.called = xs := by
  unfold run at h
  rw [first] at h
  obtain ⟨hi, -⟩ := inv_run xs es _ s (inv_first xs) hc h
  refine ⟨hi.panic, ?_, ?_⟩
  · have hph := hi.phase
    split at hph
    · exact hph.elim
    · rw [hph.2.1, times_one, hph.1]
      exact ⟨_, rfl⟩
    · rename_i k v hs
      rw [hph.2.2.1, times_one, hph.1]
      have hk := hph.2.1
      rcases (by omega : k = 0 ∨ k = 1) with rfl | rfl
      · exact ⟨s.input, by simp⟩
      · exact ⟨v :: s.input, by simp⟩
    · rw [hph.2.2.1, times_one]
      exact List.prefix_refl _
    · rw [hph.2.2.1, times_one]
      exact List.prefix_refl _
  · intro r hr
    have hph := hi.phase
    rw [hr] at hph
    exact ⟨hph.1, by rw [hph.2.2.1, times_one], hph.2.1⟩

/-- C99 (partial, as above): the run comes to its end: as long as it has not, some step is possible, and there are at most 5 steps for each value and 4 more. -/
theorem C99_ends_partial (xs : List α) (es : List (Ev α)) (hc : ∀ e ∈ es, e.Calm) (s : St α) (h : run (St.init false) (.resume xs :: es) = some s) :
    es.length ≤ 5 * xs.length + 4 ∧ (¬ s.finished → ∃ e : Ev α, e.Calm ∧ (exec s e).isSome) := by
  unfold run at h
  rw [first] at h
  obtain ⟨hi, hl⟩ := inv_run xs es _ s (inv_first xs) hc h
  refine ⟨?_, ?_⟩
  · have : (⟨1, false, xs, .idle, .select, [], [], false⟩ : St α).pot = 5 * xs.length + 4 := rfl
    rw [this] at hl
    omega
  · intro hf
    obtain ⟨hd, hph, hsrc, hpan⟩ := hi
    have go : ∀ e : Ev α, exec s e = (if s.panic then none else exec s e) := by
      intro e
      rw [hpan]
      rfl
    cases hs : s.sink with
    | off => rw [hs] at hph; exact hph.elim
    | idle =>
      cases hin : s.input with
      | nil => exact ⟨.takeEnd none, rfl, by simp [exec, hpan, hs, hin]⟩
      | cons v rest => exact ⟨.take, True.intro, by simp [exec, hpan, hs, hin]⟩
    | finished r => exact absurd ⟨r, hs⟩ hf
    | inFunc k v =>
      rw [hs] at hph
      cases k with
      | zero => exact ⟨.call .ok, rfl, by simp [exec, hpan, hs]⟩
      | succ k =>
        cases hsr : s.src with
        | off => exact absurd hsr hsrc
        | select => exact ⟨.srcSelect, True.intro, by simp [exec, hpan, hsr]⟩
        | sending v => exact ⟨.srcSent, True.intro, by simp [exec, hpan, hsr]⟩
        | inFunc => exact ⟨.hand, True.intro, by simp [exec, hpan, hs, hsr, hph.2.2.2.1]⟩
        | ended r => exact absurd hsr (hph.2.2.2.2 r)
    | waiting r =>
      rw [hs] at hph
      cases hsr : s.src with
      | off => exact absurd hsr hsrc
      | select => exact ⟨.srcSelect, True.intro, by simp [exec, hpan, hsr]⟩
      | sending v => exact ⟨.srcSent, True.intro, by simp [exec, hpan, hsr]⟩
      | inFunc => exact ⟨.srcClosed none, rfl, by simp [exec, hpan, hsr, hph.2.2.2.1]⟩
      | ended r' => exact ⟨.wait, True.intro, by simp [exec, hpan, hs, hsr]⟩

/-! ## Violations -/

/-- The sink has failed and the source of the second pipeline has not ended. -/
def Hung (e : Nat) (s : St α) : Prop := s.sink = .waiting (some e) ∧ s.closed = false ∧ (∀ r, s.src ≠ .ended r) ∧ s.panic = false

theorem hung_step {e : Nat} {s s' : St α} {ev : Ev α} (hs : Hung e s) (he : ev.Steady) (h : exec s ev = some s') : Hung e s' := by
  obtain ⟨h1, h2, h3, h4⟩ := hs
  unfold exec at h
  rw [if_neg (by simp [h4]), h1] at h
  cases ev with
  | resume input => exact absurd he (by simp [Ev.Steady])
  | srcStop err => exact absurd he (by simp [Ev.Steady])
  | take => cases h
  | takeEnd err => cases h
  | hand => cases h
  | call r => cases h
  | notice => cases h
  | srcSelect =>
    simp only at h
    split at h
    · cases h
      exact ⟨rfl, h2, (by intro r h; cases h), h4⟩
    · cases h
  | srcSent =>
    simp only at h
    split at h
    · cases h
      exact ⟨rfl, h2, (by intro r h; cases h), h4⟩
    · cases h
  | srcClosed err =>
    simp only [h2, Bool.false_eq_true, if_false] at h
    split at h <;> cases h
  | wait =>
    simp only at h
    split at h
    · rename_i hsr
      exact absurd hsr (h3 _)
    · cases h

theorem hung_run {e : Nat} : ∀ (es : List (Ev α)) (s s' : St α), Hung e s → (∀ ev ∈ es, ev.Steady) → run s es = some s' → Hung e s'
  | [], s, s', hs, _, h => by cases h; exact hs
  | ev :: es, s, s', hs, he, h => by
    unfold run at h
    cases hx : exec s ev with
    | none => rw [hx] at h; cases h
    | some t =>
      rw [hx] at h
      exact hung_run es t s' (hung_step hs (he ev (by simp)) hx) (fun ev h => he ev (by simp [h])) h

/-- C99 is violated if the original function of the sink fails, at any value: the channel to the second pipeline is not closed then (the comment says it is), so the second pipeline waits for more values, the sink waits for the second pipeline, and `Wait` never returns (unless a stage of the second pipeline fails by chance). -/
theorem C99_sink_error_violated (xs : List α) (es : List (Ev α)) (hc : ∀ e ∈ es, e.Calm) (s : St α) (h : run (St.init false) (.resume xs :: es) = some s) (e : Nat) (s' : St α)
    (hf : exec s (.call (.fail e)) = some s') (es' : List (Ev α)) (hst : ∀ ev ∈ es', ev.Steady) (t : St α) (ht : run s' es' = some t) : ¬ t.finished := by
  unfold run at h
  rw [first] at h
  obtain ⟨hi, -⟩ := inv_run xs es _ s (inv_first xs) hc h
  have hh : Hung e s' := by
    have hph := hi.phase
    unfold exec at hf
    rw [if_neg (by simp [hi.panic])] at hf
    simp only at hf
    split at hf
    · rename_i v hs
      cases hf
      rw [hs] at hph
      exact ⟨rfl, hph.2.2.2.1, hph.2.2.2.2, hi.panic⟩
    · cases hf
  obtain ⟨h1, -⟩ := hung_run es' s' t hh hst ht
  rintro ⟨r, hr⟩
  rw [h1] at hr
  cases hr

/-- In the state of that theorem nothing at all is possible once the source waits for a value. -/
example : ∃ s : St Nat, run (St.init false) [.resume [7, 8], .take, .srcSelect, .hand, .srcSent, .srcSelect, .call (.fail 3)] = some s ∧ s.sink = .waiting (some 3) ∧ s.src = .inFunc ∧ s.closed = false :=
  ⟨_, rfl, rfl, rfl, rfl⟩

/-- C99 is violated if the second pipeline ends, with an error or without, while the sink has a value for it: the sink waits for ever, because it does not look for errors while it sends. Nothing is possible any more. -/
theorem C99_second_stops_violated (v : α) (rest : List α) (err : Option Nat) : ∃ s : St α, run (St.init false) [.resume (v :: rest), .srcStop err, .take] = some s ∧ ¬ s.finished ∧ ∀ e, exec s e = none := by
  refine ⟨⟨1, false, rest, .inFunc 1 v, .ended err, [], [], false⟩, rfl, ?_, ?_⟩
  · rintro ⟨r, hr⟩
    cases hr
  · intro e
    cases e <;> rfl

/-- C99 is violated if the joined pipeline is resumed again after a run without errors: always a panic, because the channel is closed a second time. -/
theorem C99_resume_panics_violated (xs : List α) (es : List (Ev α)) (hc : ∀ e ∈ es, e.Calm) (s : St α) (h : run (St.init false) (.resume xs :: es) = some s) (hf : s.finished) (ys : List α) :
    ∃ s', exec s (.resume ys) = some s' ∧ s'.panic = true := by
  unfold run at h
  rw [first] at h
  obtain ⟨hi, -⟩ := inv_run xs es _ s (inv_first xs) hc h
  obtain ⟨r, hr⟩ := hf
  have hph := hi.phase
  rw [hr] at hph
  refine ⟨{ s with panic := true }, ?_, rfl⟩
  unfold exec
  rw [if_neg (by simp [hi.panic]), hr]
  simp [resumable, hph.2.2.2.1]

/-- C99 is violated if the joined pipeline is resumed again after an error of the second pipeline: the second pipeline then gets every value twice, and at the end of the values there is a panic. -/
theorem C99_resume_twice_violated (v : α) : ∃ s s' : St α, run (St.init false) [.resume [v], .srcStop (some 1), .notice, .wait, .resume [v], .take, .srcSelect, .hand, .srcSent, .srcSelect, .hand, .call .ok] = some s ∧
    s.called = [v] ∧ s.got = [v, v] ∧ s.panic = false ∧ exec s (.takeEnd none) = some s' ∧ s'.panic = true :=
  ⟨_, _, rfl, rfl, rfl, rfl, rfl, rfl⟩

/-! ## Examples -/

/-- A run to its end: the hypotheses of the theorems are met. -/
def exRun : List (Ev Nat) := [.take, .srcSelect, .hand, .call .ok, .take, .srcSent, .srcSelect, .hand, .srcSent, .call .ok, .takeEnd none, .srcSelect, .srcClosed none, .wait]

example : ∃ s, run (St.init false) (.resume [5, 6] :: exRun) = some s ∧ s.finished ∧ s.got = [5, 6] := ⟨_, rfl, ⟨none, rfl⟩, rfl⟩

example : ∀ e ∈ exRun, e.Calm := by
  unfold exRun Ev.Calm
  simp

example : ∃ s s' : St Nat, run (St.init false) [.resume [5, 6], .take, .srcSelect, .hand] = some s ∧ exec s (.call (.fail 3)) = some s' := ⟨_, _, rfl, rfl⟩

end Fpki.Join
